import Verif.Proofs.CkptLive
import Verif.Spec.Run

/-! # The forward sweep of the checkpoint manager -/

namespace Pyadjoint
namespace CTape

variable {V T A : Type*}

/-- What is needed of the live-in sets.  The variables in `P` are not needed: they have their recorded values. -/
structure LiveOK (P : BV → Prop) (τ : CTape V T A) : Prop where
  dep : ∀ (k : Nat) s, τ.steps[k]? = some s → ∀ pre b post, s.blocks = pre ++ b :: post →
    ∀ d ∈ b.deps, (d ∈ s.state.elems ∨ P d) ∨ ∃ b' ∈ pre, d ∈ b'.outs
  carry : ∀ (k : Nat) s s', τ.steps[k]? = some s → τ.steps[k + 1]? = some s' →
    ∀ v ∈ s'.state.elems, (v ∈ s.state.elems ∨ P v) ∨ v ∈ s.outs
  init : ∀ s, τ.steps[0]? = some s → ∀ v ∈ s.state.elems, ∀ b ∈ τ.blocks, v ∉ b.outs

theorem mem_blocks {τ : CTape V T A} {b : Block V T A} :
    b ∈ τ.blocks ↔ ∃ (k : Nat) (s : CStep V T A), τ.steps[k]? = some s ∧ b ∈ s.blocks := by
  unfold CTape.blocks
  rw [List.mem_flatMap]
  constructor
  · rintro ⟨s, hs, hb⟩
    obtain ⟨k, hk⟩ := List.mem_iff_getElem?.1 hs
    exact ⟨k, s, hk, hb⟩
  · rintro ⟨k, s, hs, hb⟩
    exact ⟨s, List.mem_of_getElem? hs, hb⟩

theorem LInv.liveOK {τ : CTape V T A} (P : BV → Prop) (h : LInv τ) : LiveOK P τ := by
  refine ⟨fun k s hs pre b post hb d hd => ?_, fun k s s' hs hs' v hv => ?_, fun s hs v hv b hb ho => ?_⟩
  · obtain ⟨h1, h2, h3⟩ := h.deps k s hs pre b post hb d hd
    by_cases hc : (τ.heap d).creation = k
    · exact Or.inr (h3 hc)
    · exact Or.inl (Or.inl ((h.state k s hs d).2 ⟨by omega, h1⟩))
  · obtain ⟨h1, h2⟩ := (h.state (k + 1) s' hs' v).1 hv
    by_cases hc : (τ.heap v).creation = k
    · obtain ⟨k₁, s₁, g1, g2, g3⟩ := h.created v (by omega)
      have : k₁ = k := by omega
      subst this
      rw [hs] at g1
      cases g1
      exact Or.inr g3
    · exact Or.inl (Or.inl ((h.state k s hs v).2 ⟨by omega, by omega⟩))
  · obtain ⟨h1, h2⟩ := (h.state 0 s hs v).1 hv
    obtain ⟨k₁, s₁, g1, g2⟩ := mem_blocks.1 hb
    have := h.outs k₁ s₁ g1 v (CStep.mem_outs.2 ⟨b, g2, ho⟩)
    omega

theorem LiveOK.mono {P Q : BV → Prop} {τ : CTape V T A} (h : LiveOK P τ) (hPQ : ∀ v, P v → Q v) : LiveOK Q τ :=
  ⟨fun k s hs pre b post hb d hd => (h.dep k s hs pre b post hb d hd).imp_left (Or.imp_right (hPQ d)),
    fun k s s' hs hs' v hv => (h.carry k s s' hs hs' v hv).imp_left (Or.imp_right (hPQ v)), h.init⟩

theorem Shape.liveOK {P : BV → Prop} {τ τ' : CTape V T A} (h : Shape τ τ') (hl : LiveOK P τ) : LiveOK P τ' := by
  refine ⟨fun k s' hs pre b post hb d hd => ?_, fun k s s' hs hs' v hv => ?_, fun s hs v hv b hb ho => ?_⟩
  · obtain ⟨s, h1, h2, h3⟩ := h.getElem? hs
    rw [h2] at hb
    rw [h3]
    exact hl.dep k s h1 pre b post hb d hd
  · obtain ⟨s₁, h1, h2, h3⟩ := h.getElem? hs
    obtain ⟨s₂, g1, g2, g3⟩ := h.getElem? hs'
    rw [g3] at hv
    rw [h3]
    rcases hl.carry k s₁ s₂ h1 g1 v hv with e | e
    · exact Or.inl e
    · right
      rw [CStep.mem_outs] at e ⊢
      rw [h2]; exact e
  · obtain ⟨s₁, h1, h2, h3⟩ := h.getElem? hs
    rw [h3] at hv
    rw [h.blocks] at hb
    exact hl.init s₁ h1 v hv b hb ho

/-! ### Recomputing one step -/

theorem foldl_orKeep_const {X : Type*} (f : X → Option V) (l : List X) (o : Option V) (c : V)
    (hf : ∀ p ∈ l, f p = some c) (hne : l ≠ []) :
    l.foldl (fun o p => orKeep o (f p)) o = some c := by
  induction l generalizing o with
  | nil => exact absurd rfl hne
  | cons p l ih =>
    rw [List.foldl_cons]
    cases l with
    | nil => simp [hf p (by simp), orKeep]
    | cons q l => exact ih _ (fun x hx => hf x (by simp [hx])) (by simp)

theorem entries_ne_nil {bvs : List BV} {v : BV} (h : v ∈ bvs) : entries bvs v ≠ [] := by
  obtain ⟨i, hi, e⟩ := List.mem_iff_getElem.1 h
  have : (v, i) ∈ entries bvs v := by
    unfold entries
    rw [List.mem_filter]
    refine ⟨?_, by simp⟩
    rw [List.mem_zipIdx_iff_getElem?]
    rw [List.getElem?_eq_getElem hi, e]
  exact List.ne_nil_of_mem this

/-- If the inputs of a block have their new values, then so do its outputs after recomputing it. -/
theorem recomputeBlock_run {b : Block V T A} {h : Heap V T A} {val : BV → V} {G : BV → Prop}
    (hG : ∀ v, G v → saved h v = val v) (hdep : ∀ d ∈ b.deps, G d)
    (hno : ∀ o ∈ b.outs, (h o).isControl = false)
    (hrun : ∀ (i : Nat) o, b.outs[i]? = some o → b.recomputeC (b.deps.map val) i = some (val o)) :
    ∀ v, G v ∨ v ∈ b.outs → saved (b.recompute false h) v = val v := by
  intro v hv
  have hd : b.deps.map (saved h) = b.deps.map val := List.map_congr_left fun d hd => hG d (hdep d hd)
  unfold saved
  rw [Block.recompute_apply]
  simp only [Block.ckptAfter]
  have hany : b.outs.any (fun o => (h o).isControl) = false := by
    rw [List.any_eq_false]
    intro o ho
    rw [hno o ho]; exact Bool.false_ne_true
  by_cases ho : v ∈ b.outs
  · have key : (entries b.outs v).foldl
        (fun o p => orKeep o (b.recomputeC (b.deps.map (saved h)) p.2)) (h v).ckpt = some (val v) := by
      apply foldl_orKeep_const _ _ _ _ _ (entries_ne_nil ho)
      intro p hp
      rw [hd]
      exact hrun p.2 v (entries_getElem? hp)
    simp only [hany, Bool.false_eq_true, if_false, if_true, Bool.not_false, Bool.or_true, key]
  · have he : entries b.outs v = [] := by
      unfold entries
      rw [List.filter_eq_nil_iff]
      intro p hp
      simp only [decide_eq_true_eq]
      rintro rfl
      obtain ⟨q, i⟩ := p
      obtain ⟨_, h3, h4⟩ := List.mem_zipIdx hp
      exact ho (by rw [h4]; exact List.getElem_mem _)
    have hs := hG v (hv.resolve_right ho)
    unfold saved at hs
    simp only [he, List.foldl_nil, ite_self]
    exact hs

theorem recompute_run {bs : Blocks V T A} {h : Heap V T A} {val : BV → V} {G : BV → Prop}
    (hG : ∀ v, G v → saved h v = val v)
    (hdep : ∀ pre b post, bs = pre ++ b :: post → ∀ d ∈ b.deps, G d ∨ ∃ b' ∈ pre, d ∈ b'.outs)
    (hno : ∀ b ∈ bs, ∀ o ∈ b.outs, (h o).isControl = false)
    (hrun : ∀ b ∈ bs, ∀ (i : Nat) o, b.outs[i]? = some o → b.recomputeC (b.deps.map val) i = some (val o)) :
    ∀ v, G v ∨ (∃ b ∈ bs, v ∈ b.outs) → saved (recompute bs h) v = val v := by
  unfold recompute
  induction bs generalizing h G with
  | nil =>
    intro v hv
    rcases hv with hv | ⟨b, hb, _⟩
    · exact hG v hv
    · cases hb
  | cons b bs ih =>
    intro v hv
    rw [List.foldl_cons]
    refine ih (G := fun v => G v ∨ v ∈ b.outs) ?_ ?_ ?_ ?_ v ?_
    · refine recomputeBlock_run hG (fun d hd => ?_) (hno b (by simp)) (hrun b (by simp))
      rcases hdep [] b bs rfl d hd with e | ⟨_, e, _⟩
      · exact e
      · cases e
    · intro pre b' post e d hd
      rcases hdep (b :: pre) b' post (by rw [e]; rfl) d hd with g | ⟨b'', hb'', g⟩
      · exact Or.inl (Or.inl g)
      · rcases List.mem_cons.1 hb'' with rfl | hb''
        · exact Or.inl (Or.inr g)
        · exact Or.inr ⟨b'', hb'', g⟩
    · intro b' hb' o ho
      rw [Block.recompute_apply]
      exact hno b' (by simp [hb']) o ho
    · exact fun b' hb' => hrun b' (by simp [hb'])
    · rcases hv with hv | ⟨b', hb', hv⟩
      · exact Or.inl (Or.inl hv)
      · rcases List.mem_cons.1 hb' with rfl | hb'
        · exact Or.inl (Or.inr hv)
        · exact Or.inr ⟨b', hb', hv⟩

/-! ### The sweep -/

/-- What holds before step `k` of the forward sweep. -/
structure FInv (keepJ : List BV) (val : BV → V) (k : Nat) (τ : CTape V T A) : Prop where
  state : ∀ s, τ.steps[k]? = some s → ∀ v ∈ s.state.elems, saved τ.heap v = val v
  kept : ∀ J ∈ keepJ, (∀ j s, k ≤ j → τ.steps[j]? = some s → J ∉ s.outs) → saved τ.heap J = val J

/-- What the sweep needs and does not change. -/
structure FEnv (P : BV → Prop) (out val : BV → V) (N : Nat) (τ : CTape V T A) : Prop where
  live : LiveOK P τ
  clean : Clean P out τ
  stable : Stable P τ.blocks out
  same : ∀ v, P v → val v = out v
  total : τ.mgr.total = some N
  length : τ.steps.length = N
  outs : ∀ b ∈ τ.blocks, ∀ o ∈ b.outs, (τ.heap o).isControl = false
  run : ∀ b ∈ τ.blocks, ∀ (i : Nat) (o : BV), b.outs[i]? = some o →
    b.recomputeC (b.deps.map val) i = some (val o)

theorem FEnv.shape {P : BV → Prop} {out val : BV → V} {N : Nat} {τ τ' : CTape V T A} (h : FEnv P out val N τ) (hs : Shape τ τ')
    (hc : Clean P out τ') : FEnv P out val N τ' :=
  ⟨hs.liveOK h.live, hc, by rw [hs.blocks]; exact h.stable, h.same, hs.total.trans h.total, hs.length.trans h.length,
    by rw [hs.blocks]; intro b hb o ho; rw [hs.control]; exact h.outs b hb o ho,
    by rw [hs.blocks]; exact h.run⟩

theorem forwardStep_inv {P : BV → Prop} {out val : BV → V} {N k : Nat} {first wi wa : Bool} {st : Storage}
    {keepJ : List BV} {τ : CTape V T A} (he : FEnv P out val N τ) (hi : FInv keepJ val k τ) (hk : k < N) :
    ∃ τ', forwardStep k first wi wa st keepJ τ = .ok τ' ∧ FEnv P out val N τ' ∧ FInv keepJ val (k + 1) τ' := by
  have hlt : k < τ.steps.length := by rw [he.length]; exact hk
  have hex : ∃ τ', forwardStep k first wi wa st keepJ τ = .ok τ' := by
    unfold forwardStep
    rw [List.getElem?_eq_getElem hlt]
    dsimp only
    rw [if_neg]
    · exact ⟨_, rfl⟩
    · rw [he.total, he.length]
      simp only [ltTotal, decide_eq_true_eq]
      omega
  obtain ⟨τ', h⟩ := hex
  have hshape := forwardStep_shape h
  refine ⟨τ', h, he.shape hshape (forwardStep_clean he.clean he.stable h), ?_⟩
  obtain ⟨s, hs, hst, -, -, hv⟩ := forwardStep_ok h
  have good : ∀ v, (v ∈ s.state.elems ∨ P v) ∨ v ∈ s.outs → saved (recompute s.blocks τ.heap) v = val v := by
    intro v hv
    refine recompute_run (G := fun v => v ∈ s.state.elems ∨ P v) (fun v hv => ?_) (he.live.dep k s hs)
      (fun b hb => he.outs b (mem_blocks_of_step hs hb))
      (fun b hb => he.run b (mem_blocks_of_step hs hb)) v ?_
    · rcases hv with hv | hv
      · exact hi.state s hs v hv
      · rw [he.clean.cleanHeap.saved hv, he.same v hv]
    · rcases hv with hv | hv
      · exact Or.inl hv
      · exact Or.inr (CStep.mem_outs.1 hv)
  have keep : ∀ v, v ∈ τ.toKeep k keepJ → saved τ'.heap v = saved (recompute s.blocks τ.heap) v := by
    intro v hm
    rcases hv v with e | ⟨_, e, _⟩
    · unfold saved; rw [e]
    · exact absurd hm e
  refine ⟨fun s' hs' v hv' => ?_, fun J hJ hno => ?_⟩
  · obtain ⟨s₁, g1, g2, g3⟩ := hshape.getElem? hs'
    rw [g3] at hv'
    have hk1 : k + 1 < N := by rw [← he.length]; exact lt_length g1
    rw [keep v]
    · exact good v (he.live.carry k s s₁ hs g1 v hv')
    · unfold toKeep
      rw [he.total]
      simp only [hk1, decide_true, if_true, g1]
      exact List.mem_append_left _ hv'
  · rw [keep J (by unfold toKeep; exact List.mem_append_right _ hJ)]
    by_cases ho : J ∈ s.outs
    · exact good J (Or.inr ho)
    · have e : recompute s.blocks τ.heap J = τ.heap J := by
        apply recompute_of_not_out
        intro b hb hbo
        exact ho (CStep.mem_outs.2 ⟨b, hb, hbo⟩)
      have : saved (recompute s.blocks τ.heap) J = saved τ.heap J := by unfold saved; rw [e]
      rw [this]
      apply hi.kept J hJ
      intro j s₁ hj hs₁
      rcases Nat.lt_or_ge k j with hlt | hge
      · obtain ⟨s₂, g1, g2, g3⟩ := hshape.getElem?' hs₁
        have := hno j s₂ hlt g1
        rw [CStep.mem_outs] at this ⊢
        rw [g2] at this
        exact this
      · have : j = k := by omega
        subst this
        rw [hs] at hs₁
        cases hs₁
        exact ho

theorem forwardSteps_inv {P : BV → Prop} {out val : BV → V} {N n0 : Nat} {wi wa : Bool} {st : Storage}
    {keepJ : List BV} (n : Nat) {k : Nat} {τ : CTape V T A} (he : FEnv P out val N τ) (hi : FInv keepJ val k τ)
    (hk : k + n ≤ N) :
    ∃ τ', forwardSteps n0 wi wa st keepJ n k τ = .ok τ' ∧ FEnv P out val N τ' ∧ FInv keepJ val (k + n) τ' := by
  induction n generalizing k τ with
  | zero => exact ⟨τ, rfl, he, hi⟩
  | succ n ih =>
    obtain ⟨τ₁, h1, h2, h3⟩ := forwardStep_inv (first := decide (k = n0)) (wi := wi) (wa := wa) (st := st)
      he hi (show k < N by omega)
    obtain ⟨τ', g1, g2, g3⟩ := ih h2 h3 (by omega)
    refine ⟨τ', ?_, g2, ?_⟩
    · unfold forwardSteps
      rw [h1]
      exact g1
    · have e : k + (n + 1) = k + 1 + n := by omega
      rw [e]; exact g3

/-- Forward actions that advance from step `n` to step `N` exactly, then `EndForward`, and nothing else. -/
inductive Exact : Nat → Nat → List Action → Prop
  | done (N : Nat) : Exact N N [.endForward]
  | step (n0 n1 N : Nat) (wi wa : Bool) (st : Storage) (as : List Action) (hlt : n0 < n1) (hle : n1 ≤ N)
      (h : Exact n1 N as) : Exact n0 N (.forward n0 (some n1) wi wa st :: as)
  | last (n0 N : Nat) (wi wa : Bool) (st : Storage) (as : List Action) (hlt : n0 < N)
      (h : Exact N N as) : Exact n0 N (.forward n0 none wi wa st :: as)

theorem exact_of_tiling {n N : Nat} {fwd acts : List Action} (h : Tiling n N (fwd ++ acts))
    (hl : fwd.getLast? = some .endForward) (hn : ∀ a ∈ fwd.dropLast, a ≠ Action.endForward) :
    Exact n N fwd := by
  induction fwd generalizing n with
  | nil => cases hl
  | cons a fwd ih =>
    cases fwd with
    | nil =>
      simp only [List.getLast?_singleton, Option.some.injEq] at hl
      subst hl
      have h : Tiling n N (.endForward :: acts) := h
      cases h
      exact .done _
    | cons b fwd =>
      have hl' : (b :: fwd).getLast? = some .endForward := by
        rw [List.getLast?_cons_cons] at hl; exact hl
      have hn' : ∀ x ∈ (b :: fwd).dropLast, x ≠ Action.endForward := by
        intro x hx
        apply hn
        rw [List.dropLast_cons_cons]
        exact List.mem_cons_of_mem _ hx
      have ha : a ≠ .endForward := hn a (by rw [List.dropLast_cons_cons]; simp)
      rw [List.cons_append] at h
      generalize hw : b :: fwd ++ acts = w at h
      cases h with
      | done => exact absurd rfl ha
      | step n0 n1 N wi wa st as hlt hle h => exact .step _ _ _ _ _ _ _ hlt hle (ih (by rw [hw]; exact h) hl' hn')
      | last n0 N wi wa st as hlt h => exact .last _ _ _ _ _ _ hlt (ih (by rw [hw]; exact h) hl' hn')

theorem sweep_inv [Add A] {P : BV → Prop} {out val : BV → V} {N n : Nat} {keepJ : List BV} {m : Bool} {acts : List Action}
    (hx : Exact n N acts) {τ : CTape V T A} (hn : n ≤ N) (he : FEnv P out val N τ) (hi : FInv keepJ val n τ) :
    ∃ τ', acts.foldlM (perform m keepJ) τ = .ok τ' ∧ FEnv P out val N τ' ∧ FInv keepJ val N τ' ∧
      τ'.mgr.mode = .evaluated := by
  induction hx generalizing τ with
  | done N =>
    refine ⟨_, rfl, ⟨⟨he.live.dep, he.live.carry, he.live.init⟩, ⟨he.clean.output, he.clean.heap, he.clean.stored⟩, he.stable, he.same, he.total, he.length, he.outs, he.run⟩, ⟨hi.state, hi.kept⟩, rfl⟩
  | step n0 n1 N wi wa st as hlt hle h ih =>
    have he' : FEnv P out val N { τ with mgr := { τ.mgr with current := .forward n0 (some n1) wi wa st } } :=
      ⟨⟨he.live.dep, he.live.carry, he.live.init⟩, ⟨he.clean.output, he.clean.heap, he.clean.stored⟩, he.stable, he.same, he.total, he.length, he.outs, he.run⟩
    have hi' : FInv keepJ val n0 { τ with mgr := { τ.mgr with current := .forward n0 (some n1) wi wa st } } :=
      ⟨hi.state, hi.kept⟩
    obtain ⟨τ₁, h1, h2, h3⟩ := forwardSteps_inv (n0 := n0) (wi := wi) (wa := wa) (st := st) (n1 - n0) he' hi'
      (by omega)
    have e : n0 + (n1 - n0) = n1 := by omega
    rw [e] at h3
    obtain ⟨τ', g1, g2⟩ := ih hle h2 h3
    refine ⟨τ', ?_, g2⟩
    rw [List.foldlM_cons]
    have : perform m keepJ τ (.forward n0 (some n1) wi wa st) = .ok τ₁ := by
      have hc : forwardCount n0 (some n1) τ.mgr.total = n1 - n0 := by
        rw [he.total]
        simp only [forwardCount]
        omega
      unfold perform process
      dsimp only
      rw [hc]
      exact h1
    rw [this]
    exact g1
  | last n0 N wi wa st as hlt h ih =>
    have he' : FEnv P out val N { τ with mgr := { τ.mgr with current := .forward n0 none wi wa st } } :=
      ⟨⟨he.live.dep, he.live.carry, he.live.init⟩, ⟨he.clean.output, he.clean.heap, he.clean.stored⟩, he.stable, he.same, he.total, he.length, he.outs, he.run⟩
    have hi' : FInv keepJ val n0 { τ with mgr := { τ.mgr with current := .forward n0 none wi wa st } } :=
      ⟨hi.state, hi.kept⟩
    obtain ⟨τ₁, h1, h2, h3⟩ := forwardSteps_inv (n0 := n0) (wi := wi) (wa := wa) (st := st) (N - n0) he' hi'
      (by omega)
    have e : n0 + (N - n0) = N := by omega
    rw [e] at h3
    obtain ⟨τ', g1, g2⟩ := ih (Nat.le_refl _) h2 h3
    refine ⟨τ', ?_, g2⟩
    rw [List.foldlM_cons]
    have : perform m keepJ τ (.forward n0 none wi wa st) = .ok τ₁ := by
      have hc : forwardCount n0 none τ.mgr.total = N - n0 := by
        rw [he.total]
        rfl
      unfold perform process
      dsimp only
      rw [hc]
      exact h1
    rw [this]
    exact g1

end CTape
end Pyadjoint
