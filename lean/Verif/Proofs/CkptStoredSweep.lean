import Verif.Proofs.CkptStored
import Verif.Props.CheckpointOptimise

/-! # Schedules that store what the adjoint of every step needs: evaluation and derivative -/

namespace Pyadjoint
namespace CTape

variable {V T A : Type*}

/-- What the adjoint of a step needs is among the variables a checkpoint of the step stores for it, or is in `P`. -/
def AdjKept (P : BV → Prop) (τ : CTape V T A) : Prop :=
  ∀ (k : Nat) s, τ.steps[k]? = some s → ∀ b ∈ s.blocks, ∀ d ∈ b.deps, d ∈ s.adjStored.elems ∨ P d

/-- The reverse actions still to come, or the recorded ones, load the data of a step before they reverse it. -/
def RevStored (N : Nat) (τ : CTape V T A) : Prop :=
  (τ.mgr.rev = [] ∧ StoredReverse N (untilEndReverse τ.mgr.acts) ∧ τ.mgr.current ≠ .endReverse) ∨
  (τ.mgr.rev ≠ [] ∧ StoredReverse N τ.mgr.rev)

structure Saves (P : BV → Prop) (cs : List BV) (N : Nat) (τ : CTape V T A) : Prop where
  adj : AdjKept P τ
  glob : ∀ c ∈ cs, (∀ s ∈ τ.steps, Used c s) → c ∈ τ.mgr.globalDeps
  fwd : ∀ a ∈ τ.mgr.fwd, a.stores
  rev : RevStored N τ

/-- The tape at any time after recording. -/
structure Stocked (bs : Blocks V T A) (cs : List BV) (out : BV → V) (sch : Schedule) (τ : CTape V T A) : Prop where
  state : (Taped (Indep bs cs) out sch bs τ ∧ ∀ c ∈ cs, Rec c τ) ∨
    (τ.mgr.mode ≠ .record ∧ ∃ N, Core (Indep bs cs) out N bs τ ∧ Saves (Indep bs cs) cs N τ)
  flags : ∀ v, (τ.heap v).isControl = false
  marks : ∀ v, (τ.heap v).marked = false

theorem mem_adjStored {s : CStep V T A} {v : BV} :
    v ∈ s.adjStored.elems ↔ v ∈ s.adjDeps.elems ∨ (s.revised = false ∧ v ∈ s.state.elems) := by
  unfold CStep.adjStored
  by_cases h : s.revised = true
  · rw [if_pos h, h]; simp
  · rw [if_neg h]
    have hf : s.revised = false := by simpa using h
    rw [hf]
    simp only [OSet.union, List.foldl_cons, List.foldl_nil, true_and]
    generalize s.state.elems = l
    generalize s.adjDeps = o
    induction l generalizing o with
    | nil => simp
    | cons x l ih =>
      rw [List.foldl_cons]
      refine (ih _).trans ?_
      rw [OSet_mem_add]
      simp only [List.mem_cons]
      tauto

theorem dep_split {τ : CTape V T A} {P : BV → Prop} (h : LiveOK P τ) {k : Nat} {s : CStep V T A} (hs : τ.steps[k]? = some s)
    {b : Block V T A} (hb : b ∈ s.blocks) {d : BV} (hd : d ∈ b.deps) : (d ∈ s.state.elems ∨ P d) ∨ d ∈ s.outs := by
  obtain ⟨pre, post, e⟩ := List.append_of_mem hb
  refine (h.dep k s hs pre b post e d hd).imp_right ?_
  rintro ⟨b', hb', ho⟩
  exact CStep.mem_outs.2 ⟨b', by rw [e]; simp [hb'], ho⟩

theorem finishTaping_saves {bs : Blocks V T A} {cs : List BV} (hinputs : ∀ c ∈ cs, ∀ b ∈ bs, c ∉ b.outs) {out : BV → V} {sch : Schedule}
    (hwf : sch.WellFormed) (hall : sch.StoresAll) {τ τ₁ : CTape V T A}
    (h : (Taped (Indep bs cs) out sch bs τ ∧ ∀ c ∈ cs, Rec c τ) ∨
      (τ.mgr.mode ≠ .record ∧ ∃ N, Core (Indep bs cs) out N bs τ ∧ Saves (Indep bs cs) cs N τ))
    (h₁ : finishTaping τ = .ok τ₁) :
    (∃ N, Core (Indep bs cs) out N bs τ₁ ∧ Saves (Indep bs cs) cs N τ₁) ∧ τ₁.mgr.mode ≠ .record ∧
    ∀ v, ∃ c, τ₁.heap v = { τ.heap v with ckpt := c } := by
  obtain ⟨⟨N, c1⟩, c2, c4, c3⟩ := finishTaping_core hwf
    (h.imp (fun h => h.1) fun h => ⟨h.1, h.2.imp fun _ h => h.1⟩) h₁
  refine ⟨?_, c2, c3⟩
  rcases h with ⟨ht, hrec⟩ | ⟨hm, N', h1, h2⟩
  · have hr : ∀ c ∈ cs, Rec c τ₁ := fun c hc => (hrec c hc).finishTaping hall ht (hinputs c hc) h₁
    obtain ⟨⟨pre, e1, e2⟩, e3, e4, e5⟩ := finishTaping_full hwf ht c1 h₁
    refine ⟨N, c1, ⟨fun k s hs b hb d hd => ?_, fun c hc hu => ?_, fun a ha => ?_, Or.inl ⟨e4, ?_, e5⟩⟩⟩
    · by_cases hP : Indep bs cs d
      · exact Or.inr hP
      left
      obtain ⟨c, hc⟩ : ∃ c, c ∈ cs := by
        by_contra hno
        push Not at hno
        have key : ∀ v, ¬ Reach bs (· ∈ cs) v := by
          intro v hreach
          induction hreach with
          | base h => exact hno _ h
          | step _ _ _ _ ih => exact ih
        exact hP (key d)
      rw [mem_adjStored]
      rcases dep_split c1.live hs hb hd with (hd | hd) | hd
      · exact Or.inr ⟨(hr c hc).fresh k s hs, hd⟩
      · exact absurd hd hP
      · exact Or.inl ((hr c hc).outs k s hs d hd)
    · have := (hr c hc).ended
      rw [if_neg c2] at this
      exact this (fun k s _ hs => hu s (List.mem_of_getElem? hs)) (by rw [c1.length]; exact c1.pos)
    · have : a ∈ pre ++ if sch.maxN = 0 then sch.afterFinal N else sch.acts := by
        rw [← e2]; exact List.mem_append_left _ ha
      rcases List.mem_append.1 this with ha | ha
      · exact hall.acts a (e1 a ha).1
      · split at ha
        · exact hall.after N a ha
        · exact hall.acts a ha
    · rw [← afterEndForward_exact (acts := τ₁.mgr.acts) c1.fwd, e2, afterEndForward_forwards pre fun a ha => (e1 a ha).2]
      exact hall.reverse N c1.pos e3
  · rw [c4 hm]
    exact ⟨N', h1, h2⟩

/-! ### What evaluations and derivatives leave alone -/

theorem AdjKept.set {P : BV → Prop} {τ τ' : CTape V T A} {k : Nat} {s s' : CStep V T A} (h : AdjKept P τ) (hs : τ.steps[k]? = some s)
    (he : τ'.steps = τ.steps.set k s') (hb : s'.blocks = s.blocks)
    (ha : ∀ b ∈ s.blocks, ∀ d ∈ b.deps, d ∈ s.adjStored.elems → d ∈ s'.adjStored.elems ∨ P d) : AdjKept P τ' := by
  intro j t ht b hbt d hd
  rw [he] at ht
  by_cases hj : k = j
  · subst hj
    rw [List.getElem?_set_self (lt_length hs)] at ht
    cases ht
    rw [hb] at hbt
    rcases h k s hs b hbt d hd with h1 | h1
    · exact ha b hbt d hd h1
    · exact Or.inr h1
  · rw [List.getElem?_set_ne hj] at ht
    exact h j t ht b hbt d hd

theorem forwardStep_adjKept {P : BV → Prop} {k : Nat} {first wi wa : Bool} {st : Storage} {keepJ : List BV} {τ τ' : CTape V T A}
    (hk : AdjKept P τ) (h : forwardStep k first wi wa st keepJ τ = .ok τ') : AdjKept P τ' := by
  obtain ⟨s, h1, h2, -⟩ := forwardStep_ok h
  refine hk.set h1 h2 ?_ fun b _ d _ hd => Or.inl ?_
  · split <;> rfl
  · split
    · exact hd
    · exact hd

theorem reverseStep_adjKept [Add A] {P : BV → Prop} {k : Nat} {clear m : Bool} {τ τ' : CTape V T A}
    (hk : AdjKept P τ) (hm : ∀ v, ¬ P v → (τ.heap v).marked = true) (h : reverseStep k clear m τ = .ok τ') : AdjKept P τ' := by
  obtain ⟨s, s', h1, h2, h3, -, -, h4, h5, h6, -⟩ := reverseStep_ok h
  refine hk.set h1 h2 h3 fun b hb d hd hds => ?_
  by_cases hP : P d
  · exact Or.inr hP
  left
  rw [mem_adjStored] at hds ⊢
  left
  by_cases hr : s.revised = true
  · rw [h5 hr]
    exact hds.resolve_right fun h => by rw [hr] at h; cases h.1
  · exact h6 (by simpa using hr) d (hm d hP) (Or.inr ⟨b, hb, hd⟩)

/-- Marks stay during a sweep. -/
def MarkedKept (P : BV → Prop) (τ τ' : CTape V T A) : Prop :=
  AdjKept P τ → (∀ v, ¬ P v → (τ.heap v).marked = true) → AdjKept P τ' ∧ ∀ v, ¬ P v → (τ'.heap v).marked = true

theorem process_adjKept [Add A] {P : BV → Prop} {m : Bool} {keepJ : List BV} {a : Action} {τ τ' : CTape V T A}
    (h : process m keepJ τ a = .ok τ') (hk : AdjKept P τ)
    (hm : (∀ n1 n0 c, a ≠ .reverse n1 n0 c) ∨ ∀ v, ¬ P v → (τ.heap v).marked = true) : AdjKept P τ' := by
  cases a with
  | forward n0 n1 wi wa st =>
    exact forwardSteps_ind (R := fun τ τ' => AdjKept P τ → AdjKept P τ') (fun _ h => h)
      (fun _ _ _ h h' hk => h' (h hk)) (fun k τ τ' h hk => forwardStep_adjKept hk h) h hk
  | reverse n1 n0 clear =>
    have hm := hm.resolve_left fun h => h _ _ _ rfl
    exact (foldlM_ind (R := MarkedKept P) (fun _ h h' => ⟨h, h'⟩)
      (fun _ _ _ h h' h1 h2 => h' (h h1 h2).1 (h h1 h2).2) _ (fun τ τ' k _ h hk hm =>
        ⟨reverseStep_adjKept hk hm h, fun v hv => by rw [(reverseStep_shape h).marked]; exact hm v hv⟩) h hk hm).1
  | copy n src =>
    simp only [process] at h
    split at h
    · cases h
    · cases h; exact hk
  | move n src =>
    simp only [process] at h
    split at h
    · cases h
    · rename_i s hs
      cases h
      exact hk.set hs rfl rfl fun b _ d _ hd => Or.inl hd
  | endForward => cases h; exact hk
  | endReverse => cases h; exact hk

theorem firstReverse_adjKept [Add A] {P : BV → Prop} {m : Bool} {acts : List Action} {τ τ' : CTape V T A}
    (h : firstReverse m acts τ = .ok τ') (hk : AdjKept P τ) (hm : ∀ v, ¬ P v → (τ.heap v).marked = true) : AdjKept P τ' := by
  induction acts generalizing τ with
  | nil =>
    unfold firstReverse at h
    split at h
    · cases h; exact hk
    · cases h
  | cons a acts ih =>
    unfold firstReverse at h
    split at h
    · cases h; exact hk
    · dsimp only at h
      split at h
      · cases h
      · rename_i h₁
        unfold perform at h₁
        exact ih h (process_adjKept h₁ hk (Or.inr hm)) fun v hv => by rw [(process_shape h₁).marked]; exact hm v hv

theorem reverseSweep_adjKept [Add A] {P : BV → Prop} {m : Bool} {τ τ' : CTape V T A}
    (h : reverseSweep m τ = .ok τ') (hk : AdjKept P τ) (hm : ∀ v, ¬ P v → (τ.heap v).marked = true) : AdjKept P τ' := by
  unfold reverseSweep at h
  split at h
  · exact (foldlM_ind (R := MarkedKept P) (fun _ h h' => ⟨h, h'⟩)
      (fun _ _ _ h h' h1 h2 => h' (h h1 h2).1 (h h1 h2).2) _ (fun τ τ' k _ h hk hm =>
        ⟨process_adjKept h hk (Or.inr hm), fun v hv => by rw [(process_shape h).marked]; exact hm v hv⟩) h hk hm).1
  · exact firstReverse_adjKept h hk hm

theorem Exact.unreversed {n N : Nat} {fwd : List Action} (h : Exact n N fwd) :
    ∀ a ∈ fwd, ∀ n1 n0 c, a ≠ Action.reverse n1 n0 c := by
  induction h with
  | done => simp
  | step _ _ _ _ _ _ _ _ _ _ ih => simpa using ih
  | last _ _ _ _ _ _ _ _ ih => simpa using ih

theorem forwardSweep_adjKept [Add A] {P : BV → Prop} {keepJ : List BV} {n N : Nat} {τ τ' : CTape V T A} (hf : Exact n N τ.mgr.fwd)
    (h : forwardSweep keepJ τ = .ok τ') (hk : AdjKept P τ) : AdjKept P τ' := by
  unfold forwardSweep at h
  split at h
  · split at h
    · cases h
    · rename_i s _
      exact foldlM_ind (R := fun τ τ' : CTape V T A => AdjKept P τ → AdjKept P τ') (fun _ => id)
        (fun _ _ _ h h' => h' ∘ h) _
        (fun τ τ' a ha (h : perform false keepJ τ a = .ok τ') hk => by
          unfold perform at h
          exact process_adjKept h hk (Or.inl (hf.unreversed a ha)))
        (τ := { τ with heap := s.restore τ.heap }) h hk
  · cases h

theorem forwardSweep_current [Add A] {keepJ : List BV} {N n : Nat} {τ τ' : CTape V T A}
    (hf : Exact n N τ.mgr.fwd) (h : forwardSweep keepJ τ = .ok τ') :
    τ'.mgr.acts = τ.mgr.acts ∧ (τ.mgr.current ≠ .endReverse → τ'.mgr.current ≠ .endReverse) := by
  unfold forwardSweep at h
  split at h
  · split at h
    · cases h
    · rename_i s _
      exact foldlM_ind (R := fun τ τ' : CTape V T A => τ'.mgr.acts = τ.mgr.acts ∧
          (τ.mgr.current ≠ .endReverse → τ'.mgr.current ≠ .endReverse)) (fun _ => ⟨rfl, id⟩)
        (fun _ _ _ h h' => ⟨h'.1.trans h.1, h'.2 ∘ h.2⟩) _
        (fun τ τ' a ha (h : perform false keepJ τ a = .ok τ') => by
          unfold perform at h
          have ha' := process_acts h
          refine ⟨ha', fun _ => ?_⟩
          rw [process_current h]
          exact hf.no_endReverse a ha)
        (τ := { τ with heap := s.restore τ.heap }) h
  · cases h

theorem Saves.shape {P : BV → Prop} {cs : List BV} {N : Nat} {τ τ' : CTape V T A} (h : Saves P cs N τ) (hs : Shape τ τ')
    (ha : AdjKept P τ') (hr : RevStored N τ') : Saves P cs N τ' := by
  refine ⟨ha, fun c hc hu => ?_, by rw [hs.fwd]; exact h.fwd, hr⟩
  rw [hs.global]
  refine h.glob c hc fun s hmem => ?_
  obtain ⟨k, hk⟩ := List.mem_iff_getElem?.1 hmem
  obtain ⟨s', h1, h2, -⟩ := hs.getElem?' hk
  obtain ⟨b, hb, hcb⟩ := hu s' (List.mem_of_getElem? h1)
  exact ⟨b, by rw [← h2]; exact hb, hcb⟩

theorem Rec.onHeap {c : BV} {τ : CTape V T A} (h : Rec c τ) (f : Heap V T A → Heap V T A) : Rec c (τ.onHeap f) :=
  ⟨h.outs, h.fresh, h.ended, h.current⟩

theorem Saves.onHeap {P : BV → Prop} {cs : List BV} {N : Nat} {τ : CTape V T A} (h : Saves P cs N τ) (f : Heap V T A → Heap V T A) :
    Saves P cs N (τ.onHeap f) := ⟨h.adj, h.glob, h.fwd, h.rev⟩

theorem onHeap_stocked {bs : Blocks V T A} {cs : List BV} {out : BV → V} {sch : Schedule} {τ : CTape V T A} {f : Heap V T A → Heap V T A}
    (hf : HeapOK (Indep bs cs) f τ.heap)
    (h : (Taped (Indep bs cs) out sch bs τ ∧ ∀ c ∈ cs, Rec c τ) ∨
      (τ.mgr.mode ≠ .record ∧ ∃ N, Core (Indep bs cs) out N bs τ ∧ Saves (Indep bs cs) cs N τ)) :
    (Taped (Indep bs cs) out sch bs (τ.onHeap f) ∧ ∀ c ∈ cs, Rec c (τ.onHeap f)) ∨
      ((τ.onHeap f).mgr.mode ≠ .record ∧ ∃ N, Core (Indep bs cs) out N bs (τ.onHeap f) ∧ Saves (Indep bs cs) cs N (τ.onHeap f)) :=
  h.imp (fun ⟨h, h'⟩ => ⟨h.onHeap hf, fun c hc => (h' c hc).onHeap f⟩)
    fun ⟨hm, N, h, h'⟩ => ⟨hm, N, h.onHeap hf, h'.onHeap f⟩

/-- An evaluation keeps the tape in order. -/
theorem rfCall_stocked [Add A] [Mul V] {bs : Blocks V T A} {cs : List BV} {out : BV → V} {sch : Schedule} (hwf : sch.WellFormed)
    (hall : sch.StoresAll) (hst : Stable (Indep bs cs) bs out) (hinputs : ∀ c ∈ cs, ∀ b ∈ bs, c ∉ b.outs)
    {truthy : V → Bool} {J : BV} {scale : V} {xs : List V} {τ τ' : CTape V T A} {y : V}
    (h : Stocked bs cs out sch τ) (hr : rfCall truthy J cs scale xs τ = .ok (y, τ')) : Stocked bs cs out sch τ' := by
  have hP : ∀ v, Indep bs cs v → v ∉ cs := fun v hv hc => hv (.base hc)
  unfold rfCall at hr
  dsimp only at hr
  split at hr
  · cases hr
  · rename_i τ₂ h₂
    simp only [Except.ok.injEq, Prod.mk.injEq] at hr
    obtain ⟨-, rfl⟩ := hr
    unfold recomputeTape at h₂
    split at h₂
    · cases h₂
    · rename_i τ₁ h₁
      obtain ⟨⟨N, c1, cr⟩, c2, c3⟩ := finishTaping_saves hinputs hwf hall (onHeap_stocked (heapOK_call hP xs τ.heap) h.state) h₁
      have c1' : Core (Indep bs cs) out N bs { τ₁ with mgr := { τ₁.mgr with mode := .recompute } } :=
        ⟨c1.pos, ⟨c1.live.dep, c1.live.carry, c1.live.init⟩, c1.total, c1.length, c1.fwd,
          ⟨c1.clean.output, c1.clean.heap, c1.clean.stored⟩, c1.blocks⟩
      have cr' : Saves (Indep bs cs) cs N { τ₁ with mgr := { τ₁.mgr with mode := .recompute } } :=
        ⟨cr.adj, cr.glob, cr.fwd, cr.rev⟩
      have hs := forwardSweep_clean (Indep bs cs) out h₂
      have hm : τ₂.mgr.mode ≠ .record := forwardSweep_mode h₂ Mode.noConfusion
      obtain ⟨k1, k2⟩ := forwardSweep_current (τ := { τ₁ with mgr := { τ₁.mgr with mode := .recompute } }) c1.fwd h₂
      have hrv : RevStored N τ₂ := by
        unfold RevStored
        rw [forwardSweep_rev h₂, k1]
        exact cr.rev.imp (fun h => ⟨h.1, h.2.1, k2 h.2.2⟩) id
      have hsv := cr'.shape hs.1 (forwardSweep_adjKept c1'.fwd h₂ cr'.adj) hrv
      refine ⟨onHeap_stocked (heapOK_mark _ cs false _) (Or.inr ⟨hm, N, c1'.evolve hst hs, hsv⟩), fun v => ?_, fun v => ?_⟩
      · show (markControls cs false τ₂.heap v).isControl = false
        rw [markControls_apply]
        split
        · rfl
        · rename_i hv
          rw [hs.1.control]
          obtain ⟨c, e⟩ := c3 v
          show (τ₁.heap v).isControl = false
          rw [e]
          show (markControls cs true (updateControls cs xs τ.heap) v).isControl = false
          rw [markControls_apply, if_neg hv, updateControls_isControl]
          exact h.flags v
      · have e1 : (markControls cs false τ₂.heap v).marked = (τ₂.heap v).marked := by
          rw [markControls_apply]; split <;> rfl
        show (markControls cs false τ₂.heap v).marked = false
        rw [e1, hs.1.marked]
        obtain ⟨c, e⟩ := c3 v
        show (τ₁.heap v).marked = false
        rw [e]
        show (markControls cs true (updateControls cs xs τ.heap) v).marked = false
        obtain ⟨c, e⟩ := updateControls_frame cs xs τ.heap v
        rw [markControls_apply]
        split <;> (rw [e]; exact h.marks v)

theorem seedAdjoint_marked (J : BV) (cs : List BV) (a : A) (bs : Blocks V T A) {g : Heap V T A} (hg : ∀ v, (g v).marked = false) (v : BV) :
    (seedAdjoint J cs a bs g v).marked = decide (v ∈ findRelevantNodes bs cs) := by
  classical
  have e2 : (resetVariables bs .adjoint g v).marked = false := by
    rw [resetVariables_apply]
    split <;> exact hg v
  unfold seedAdjoint
  dsimp only
  rw [markControls_apply, markAll_apply]
  by_cases hJ : v = J
  · subst hJ
    rw [Function.update_self]
    by_cases h1 : v ∈ cs <;> by_cases h2 : v ∈ findRelevantNodes bs cs <;> simp [h1, h2, e2]
  · rw [Function.update_of_ne hJ]
    by_cases h1 : v ∈ cs <;> by_cases h2 : v ∈ findRelevantNodes bs cs <;> simp [h1, h2, e2]

/-- So does a derivative. -/
theorem rfDerivative_stocked [Add A] [Zero A] {bs : Blocks V T A} (wf : WF bs) {cs : List BV} {out : BV → V} {sch : Schedule}
    (hwf : sch.WellFormed) (hall : sch.StoresAll) (hst : Stable (Indep bs cs) bs out) (hinputs : ∀ c ∈ cs, ∀ b ∈ bs, c ∉ b.outs)
    {J : BV} {a : A} {τ τ' : CTape V T A} {ds : List A}
    (h : Stocked bs cs out sch τ) (hr : rfDerivative J cs a τ = .ok (ds, τ')) : Stocked bs cs out sch τ' := by
  have hbl : τ.blocks = bs := by
    rcases h.state with ⟨h, -⟩ | ⟨-, N, h, -⟩
    · exact h.blocks
    · exact h.blocks
  unfold rfDerivative at hr
  rw [hbl] at hr
  split at hr
  · cases hr
  · rename_i τ₃ h₃
    simp only [Except.ok.injEq, Prod.mk.injEq] at hr
    obtain ⟨-, rfl⟩ := hr
    unfold evaluateAdjTape at h₃
    split at h₃
    · cases h₃
    · rename_i τ₁ h₁
      split at h₃
      · cases h₃
      · split at h₃
        · cases h₃
        · rename_i τ₂ h₂
          cases h₃
          have hok := heapOK_seed (Indep bs cs) J cs a bs τ.heap
          obtain ⟨⟨N, c1, cr⟩, c2, c3⟩ := finishTaping_saves hinputs hwf hall (onHeap_stocked hok h.state) h₁
          have hs := reverseSweep_clean (Indep bs cs) out h₂
          have c4 := c1.evolve hst hs
          have hmk : ∀ v, (τ₁.heap v).marked = decide (v ∈ findRelevantNodes bs cs) := by
            intro v
            obtain ⟨c, e⟩ := c3 v
            rw [e]
            exact seedAdjoint_marked J cs a bs h.marks v
          have hk := reverseSweep_adjKept h₂ cr.adj fun v hv => by
            rw [hmk, decide_eq_true_eq, findRelevantNodes_iff wf]
            exact not_not.1 hv
          have hrv : RevStored N τ₂ := by
            right
            unfold reverseSweep at h₂
            rcases cr.rev with ⟨r1, r2, r3⟩ | ⟨r1, r2⟩
            · rw [if_neg (by simp [r1])] at h₂
              obtain ⟨e, -⟩ := firstReverse_rev r3 h₂
              rw [e, r1, List.nil_append]
              exact ⟨StoredReverse.no_endReverse r2, r2⟩
            · rw [if_pos r1] at h₂
              rw [processes_rev h₂]
              exact ⟨r1, r2⟩
          have hsv := cr.shape hs.1 hk hrv
          have c4' : Core (Indep bs cs) out N bs { τ₂ with mgr := { τ₂.mgr with mode := .evaluateAdjoint } } :=
            ⟨c4.pos, ⟨c4.live.dep, c4.live.carry, c4.live.init⟩, c4.total, c4.length, c4.fwd,
              ⟨c4.clean.output, c4.clean.heap, c4.clean.stored⟩, c4.blocks⟩
          have hsv' : Saves (Indep bs cs) cs N { τ₂ with mgr := { τ₂.mgr with mode := .evaluateAdjoint } } :=
            ⟨hsv.adj, hsv.glob, hsv.fwd, hsv.rev⟩
          refine ⟨onHeap_stocked (heapOK_unmark _ cs bs _) (Or.inr ⟨Mode.noConfusion, N, c4', hsv'⟩), fun v => ?_, fun v => ?_⟩
          · show (unmark cs bs τ₂.heap v).isControl = false
            obtain ⟨m, e⟩ := unmark_frame cs bs τ₂.heap v
            rw [e]
            dsimp only
            split
            · rfl
            · rename_i hv
              rw [hs.1.control]
              obtain ⟨c, e⟩ := c3 v
              rw [e]
              show (seedAdjoint J cs a bs τ.heap v).isControl = false
              obtain ⟨x, m, e⟩ := seedAdjoint_frame J cs a bs τ.heap v
              rw [e]
              dsimp only
              rw [if_neg hv]
              exact h.flags v
          · show (unmark cs bs τ₂.heap v).marked = false
            unfold unmark
            rw [markAll_apply]
            split
            · rfl
            · rename_i hv
              have e1 : (markControls cs false τ₂.heap v).marked = (τ₂.heap v).marked := by
                rw [markControls_apply]; split <;> rfl
              rw [e1, hs.1.marked, hmk]
              simpa using hv

/-! ### The forward sweep stores the values -/

/-- Before step `k` of the forward sweep: the data of the earlier steps are stored and the controls have their values. -/
structure SInv (P : BV → Prop) (cs : List BV) (val : BV → V) (k : Nat) (τ : CTape V T A) : Prop where
  adj : AdjKept P τ
  glob : ∀ c ∈ cs, c ∈ τ.mgr.globalDeps
  inputs : ∀ c ∈ cs, ∀ b ∈ τ.blocks, c ∉ b.outs
  ctl : ∀ c ∈ cs, saved τ.heap c = val c
  stored : ∀ (j : Nat) s, j < k → τ.steps[j]? = some s → ∀ b ∈ s.blocks, ∀ d ∈ b.deps, P d ∨ s.ckpt d = some (some (val d))

theorem forwardStep_good {P : BV → Prop} {out val : BV → V} {N k : Nat} {keepJ : List BV} {τ : CTape V T A} (he : FEnv P out val N τ)
    (hi : FInv keepJ val k τ) {s : CStep V T A} (hs : τ.steps[k]? = some s) :
    ∀ v, (v ∈ s.state.elems ∨ P v) ∨ v ∈ s.outs → saved (recompute s.blocks τ.heap) v = val v := by
  intro v hv
  refine recompute_run (G := fun v => v ∈ s.state.elems ∨ P v) (fun v hv => ?_) (he.live.dep k s hs)
    (fun b hb => he.outs b (mem_blocks_of_step hs hb))
    (fun b hb => he.run b (mem_blocks_of_step hs hb)) v ?_
  · rcases hv with hv | hv
    · exact hi.state s hs v hv
    · rw [he.clean.cleanHeap.saved hv, he.same v hv]
  · rcases hv with hv | hv
    · exact Or.inl hv
    · exact Or.inr (CStep.mem_outs.1 hv)

theorem forwardStep_stores {P : BV → Prop} {out val : BV → V} {N k : Nat} {first wi : Bool} {st : Storage} {cs : List BV}
    {keepJ : List BV} {τ τ' : CTape V T A} (he : FEnv P out val N τ) (hi : FInv keepJ val k τ) (hs : SInv P cs val k τ)
    (hst : st ≠ .work) (h : forwardStep k first wi true st keepJ τ = .ok τ') : SInv P cs val (k + 1) τ' := by
  have hshape := forwardStep_shape h
  have hadj := forwardStep_adjKept hs.adj h
  obtain ⟨s, h1, h2, -, -, h3⟩ := forwardStep_ok h
  rw [if_pos hst] at h2
  have good := forwardStep_good he hi h1
  refine ⟨hadj, by rw [hshape.global]; exact hs.glob, by rw [hshape.blocks]; exact hs.inputs, fun c hc => ?_, fun j t hj ht b hb d hd => ?_⟩
  · have hout : c ∉ s.outs := by
      rw [CStep.mem_outs]
      rintro ⟨b, hb, ho⟩
      exact hs.inputs c hc b (mem_blocks_of_step h1 hb) ho
    have e : recompute s.blocks τ.heap c = τ.heap c := by
      apply recompute_of_not_out
      intro b hb hbo
      exact hout (CStep.mem_outs.2 ⟨b, hb, hbo⟩)
    rcases h3 c with e' | ⟨-, -, ⟨-, e'⟩ | e'⟩
    · rw [← hs.ctl c hc]
      unfold saved
      rw [e', e]
    · exact absurd (hs.glob c hc) e'
    · exact absurd e' hout
  · by_cases hP : P d
    · exact Or.inl hP
    right
    rw [h2] at ht
    by_cases hjk : k = j
    · subst hjk
      rw [List.getElem?_set_self (lt_length h1)] at ht
      cases ht
      have hb : b ∈ s.blocks := hb
      rw [CStep.checkpoint_ckpt, if_pos ⟨rfl, (hs.adj k s h1 b hb d hd).resolve_right hP⟩, good d (dep_split he.live h1 hb hd)]
    · rw [List.getElem?_set_ne hjk] at ht
      exact (hs.stored j t (by omega) ht b hb d hd).resolve_left hP

theorem forwardSteps_stores {P : BV → Prop} {out val : BV → V} {N n0 : Nat} {wi : Bool} {st : Storage} {cs : List BV}
    {keepJ : List BV} (hst : st ≠ .work) (n : Nat) {k : Nat} {τ : CTape V T A} (he : FEnv P out val N τ) (hi : FInv keepJ val k τ)
    (hs : SInv P cs val k τ) (hk : k + n ≤ N) :
    ∃ τ', forwardSteps n0 wi true st keepJ n k τ = .ok τ' ∧ FEnv P out val N τ' ∧ FInv keepJ val (k + n) τ' ∧ SInv P cs val (k + n) τ' := by
  induction n generalizing k τ with
  | zero => exact ⟨τ, rfl, he, hi, hs⟩
  | succ n ih =>
    obtain ⟨τ₁, h1, h2, h3⟩ := forwardStep_inv (first := decide (k = n0)) (wi := wi) (wa := true) (st := st)
      he hi (show k < N by omega)
    obtain ⟨τ', g1, g2, g3⟩ := ih h2 h3 (forwardStep_stores he hi hs hst h1) (by omega)
    refine ⟨τ', ?_, g2, ?_⟩
    · unfold forwardSteps
      rw [h1]
      exact g1
    · have e : k + (n + 1) = k + 1 + n := by omega
      rw [e]; exact g3

theorem sweep_stores [Add A] {P : BV → Prop} {out val : BV → V} {N n : Nat} {cs keepJ : List BV} {m : Bool} {acts : List Action}
    (hx : Exact n N acts) (hst : ∀ a ∈ acts, a.stores) {τ : CTape V T A} (hn : n ≤ N) (he : FEnv P out val N τ) (hi : FInv keepJ val n τ)
    (hs : SInv P cs val n τ) :
    ∃ τ', acts.foldlM (perform m keepJ) τ = .ok τ' ∧ FEnv P out val N τ' ∧ FInv keepJ val N τ' ∧ SInv P cs val N τ' ∧
      τ'.mgr.mode = .evaluated := by
  induction hx generalizing τ with
  | done N =>
    exact ⟨_, rfl, ⟨⟨he.live.dep, he.live.carry, he.live.init⟩, ⟨he.clean.output, he.clean.heap, he.clean.stored⟩, he.stable, he.same, he.total, he.length, he.outs, he.run⟩, ⟨hi.state, hi.kept⟩,
      ⟨hs.adj, hs.glob, hs.inputs, hs.ctl, hs.stored⟩, rfl⟩
  | step n0 n1 N wi wa st as hlt hle h ih =>
    obtain ⟨rfl, hw⟩ := hst _ List.mem_cons_self
    have he' : FEnv P out val N { τ with mgr := { τ.mgr with current := .forward n0 (some n1) wi true st } } :=
      ⟨⟨he.live.dep, he.live.carry, he.live.init⟩, ⟨he.clean.output, he.clean.heap, he.clean.stored⟩, he.stable, he.same, he.total, he.length, he.outs, he.run⟩
    have hi' : FInv keepJ val n0 { τ with mgr := { τ.mgr with current := .forward n0 (some n1) wi true st } } :=
      ⟨hi.state, hi.kept⟩
    have hs' : SInv P cs val n0 { τ with mgr := { τ.mgr with current := .forward n0 (some n1) wi true st } } :=
      ⟨hs.adj, hs.glob, hs.inputs, hs.ctl, hs.stored⟩
    obtain ⟨τ₁, h1, h2, h3, h4⟩ := forwardSteps_stores (n0 := n0) (wi := wi) hw (n1 - n0) he' hi' hs' (by omega)
    have e : n0 + (n1 - n0) = n1 := by omega
    rw [e] at h3 h4
    obtain ⟨τ', g1, g2⟩ := ih (fun a ha => hst a (List.mem_cons_of_mem _ ha)) hle h2 h3 h4
    refine ⟨τ', ?_, g2⟩
    rw [List.foldlM_cons]
    have : perform m keepJ τ (.forward n0 (some n1) wi true st) = .ok τ₁ := by
      have hc : forwardCount n0 (some n1) τ.mgr.total = n1 - n0 := by
        rw [he.total]
        simp only [forwardCount]
        omega
      unfold perform process
      dsimp only
      rw [hc]
      exact h1
    rw [this]
    exact g1
  | last n0 N wi wa st as hlt h ih =>
    obtain ⟨rfl, hw⟩ := hst _ List.mem_cons_self
    have he' : FEnv P out val N { τ with mgr := { τ.mgr with current := .forward n0 none wi true st } } :=
      ⟨⟨he.live.dep, he.live.carry, he.live.init⟩, ⟨he.clean.output, he.clean.heap, he.clean.stored⟩, he.stable, he.same, he.total, he.length, he.outs, he.run⟩
    have hi' : FInv keepJ val n0 { τ with mgr := { τ.mgr with current := .forward n0 none wi true st } } :=
      ⟨hi.state, hi.kept⟩
    have hs' : SInv P cs val n0 { τ with mgr := { τ.mgr with current := .forward n0 none wi true st } } :=
      ⟨hs.adj, hs.glob, hs.inputs, hs.ctl, hs.stored⟩
    obtain ⟨τ₁, h1, h2, h3, h4⟩ := forwardSteps_stores (n0 := n0) (wi := wi) hw (N - n0) he' hi' hs' (by omega)
    have e : n0 + (N - n0) = N := by omega
    rw [e] at h3 h4
    obtain ⟨τ', g1, g2⟩ := ih (fun a ha => hst a (List.mem_cons_of_mem _ ha)) (Nat.le_refl _) h2 h3 h4
    refine ⟨τ', ?_, g2⟩
    rw [List.foldlM_cons]
    have : perform m keepJ τ (.forward n0 none wi true st) = .ok τ₁ := by
      have hc : forwardCount n0 none τ.mgr.total = N - n0 := by
        rw [he.total]
        rfl
      unfold perform process
      dsimp only
      rw [hc]
      exact h1
    rw [this]
    exact g1

/-! ### The reverse sweep -/

/-- After the steps from `k` on were reversed, with the data of the first `l` steps still stored. -/
structure SRInv [Add A] (P : BV → Prop) (cs : List BV) (out val : BV → V) (g : Heap V T A) (k l : Nat) (τ : CTape V T A) : Prop where
  wf : WF τ.blocks
  stable : Stable P τ.blocks out
  mark : ∀ v, (τ.heap v).marked = (g v).marked
  adj : AdjInv true g k τ
  inputs : ∀ c ∈ cs, ∀ b ∈ τ.blocks, c ∉ b.outs
  control : ∀ v, (τ.heap v).isControl = decide (v ∈ cs)
  ctl : ∀ c ∈ cs, saved τ.heap c = val c
  clean : Clean P out τ
  stored : ∀ (j : Nat) s, j < l → τ.steps[j]? = some s → ∀ b ∈ s.blocks, ∀ d ∈ b.deps, P d ∨ s.ckpt d = some (some (val d))
  length : k ≤ τ.steps.length

theorem SRInv.mgr [Add A] {P : BV → Prop} {cs : List BV} {out val : BV → V} {g : Heap V T A} {k l : Nat} {τ : CTape V T A}
    (h : SRInv P cs out val g k l τ) (m : Mgr) : SRInv P cs out val g k l { τ with mgr := m } :=
  ⟨h.wf, h.stable, h.mark, h.adj, h.inputs, h.control, h.ctl, ⟨h.clean.output, h.clean.heap, h.clean.stored⟩, h.stored, h.length⟩

theorem reverseRange_one (n : Nat) : reverseRange (n + 1) n = [n] := by
  unfold reverseRange
  rw [show n + 1 - n = 1 by omega]
  rfl

/-- The stored data of a step are loaded. -/
theorem SRInv.load [Add A] {P : BV → Prop} {cs : List BV} {out val : BV → V} {g : Heap V T A} (hg : ∀ v, saved g v = val v)
    (hsame : ∀ v, P v → val v = out v) {n : Nat} {τ : CTape V T A} (h : SRInv P cs out val g (n + 1) (n + 1) τ) {a : Action}
    (ha : (∃ src, a = .copy n src) ∨ ∃ src, a = .move n src) :
    ∃ τ', process true [] τ a = .ok τ' ∧ SRInv P cs out val g (n + 1) n τ' ∧
      ∀ s, τ'.steps[n]? = some s → ∀ b ∈ s.blocks, ∀ d ∈ b.deps, saved τ'.heap d = saved g d := by
  have hlt : n < τ.steps.length := h.length
  obtain ⟨s, hs⟩ : ∃ s, τ.steps[n]? = some s := ⟨_, List.getElem?_eq_getElem hlt⟩
  obtain ⟨τ', hp, hheap, hsteps⟩ : ∃ τ', process true [] τ a = .ok τ' ∧ τ'.heap = s.restore τ.heap ∧
      ∃ s', τ'.steps = τ.steps.set n s' ∧ s'.blocks = s.blocks := by
    rcases ha with ⟨src, rfl⟩ | ⟨src, rfl⟩
    · refine ⟨{ τ with heap := s.restore τ.heap }, by simp only [process, hs], rfl, s, ?_, rfl⟩
      obtain ⟨hn, rfl⟩ := List.getElem?_eq_some_iff.1 hs
      exact (List.set_getElem_self hn).symm
    · exact ⟨{ τ with heap := s.restore τ.heap, steps := τ.steps.set n s.deleteCheckpoint }, by simp only [process, hs], rfl,
        s.deleteCheckpoint, rfl, rfl⟩
  obtain ⟨s', hsteps, hblocks⟩ := hsteps
  have hcl := process_clean P out hp
  have hclean := hcl.2 h.stable h.clean
  have hctl : ∀ c ∈ cs, saved τ'.heap c = val c := by
    intro c hc
    rw [← h.ctl c hc, hheap]
    have : (τ.heap c).isControl = true := by rw [h.control]; simp [hc]
    unfold saved CStep.restore
    cases s.ckpt c with
    | none => rfl
    | some x => simp [CStep.restoreVar, this]
  refine ⟨τ', hp, ⟨by rw [hcl.1.blocks]; exact h.wf, by rw [hcl.1.blocks]; exact h.stable, fun v => (hcl.1.marked v).trans (h.mark v),
    h.adj.shape hcl.1 fun v => ?_, by rw [hcl.1.blocks]; exact h.inputs, fun v => (hcl.1.control v).trans (h.control v), hctl, hclean,
    fun j t hj ht => ?_, by rw [hcl.1.length]; exact h.length⟩, fun t ht b hb d hd => ?_⟩
  · rw [hheap]
    obtain ⟨c, e⟩ := restore_frame s τ.heap v
    rw [e]
  · rw [hsteps, List.getElem?_set_ne (by omega)] at ht
    exact h.stored j t (by omega) ht
  · rw [hsteps, List.getElem?_set_self hlt] at ht
    cases ht
    rw [hblocks] at hb
    rw [hg]
    by_cases hP : P d
    · rw [hclean.cleanHeap.saved hP, hsame d hP]
    by_cases hc : d ∈ cs
    · exact hctl d hc
    have hk := (h.stored n s (Nat.lt_succ_self n) hs b hb d hd).resolve_left hP
    have hf : (τ.heap d).isControl = false := by rw [h.control]; simp [hc]
    rw [hheap]
    unfold saved CStep.restore
    rw [hk]
    simp [CStep.restoreVar, hf]

/-- The step is reversed. -/
theorem SRInv.reverse [Add A] {P : BV → Prop} {cs : List BV} {out val : BV → V} {g : Heap V T A} {n : Nat} {τ : CTape V T A}
    (h : SRInv P cs out val g (n + 1) n τ)
    (hv : ∀ s, τ.steps[n]? = some s → ∀ b ∈ s.blocks, ∀ d ∈ b.deps, saved τ.heap d = saved g d) (clear : Bool) :
    ∃ τ', process true [] τ (.reverse (n + 1) n clear) = .ok τ' ∧ SRInv P cs out val g n n τ' := by
  have hlt : n < τ.steps.length := h.length
  obtain ⟨τ', hr⟩ : ∃ τ', reverseStep n clear true τ = .ok τ' := by
    unfold reverseStep
    rw [List.getElem?_eq_getElem hlt]
    exact ⟨_, rfl⟩
  have hp : process true [] τ (.reverse (n + 1) n clear) = .ok τ' := by
    simp only [process, reverseRange_one, List.foldlM_cons, List.foldlM_nil, hr]
    rfl
  have hcl := process_clean P out hp
  obtain ⟨s, s', h1, h2, -, -, -, -, -, -, -, -, h3⟩ := reverseStep_ok hr
  refine ⟨τ', hp, ⟨by rw [hcl.1.blocks]; exact h.wf, by rw [hcl.1.blocks]; exact h.stable, fun v => (hcl.1.marked v).trans (h.mark v),
    reverseStep_adj hr h.wf h.mark hv h.adj, by rw [hcl.1.blocks]; exact h.inputs, fun v => (hcl.1.control v).trans (h.control v),
    fun c hc => ?_, hcl.2 h.stable h.clean, fun j t hj ht => ?_, by rw [hcl.1.length]; exact Nat.le_of_lt hlt⟩⟩
  · rw [← h.ctl c hc]
    have : c ∉ s.outs := by
      rw [CStep.mem_outs]
      rintro ⟨b, hb, ho⟩
      exact h.inputs c hc b (mem_blocks_of_step h1 hb) ho
    have e := h3 c
    rw [if_neg this] at e
    obtain ⟨a, e'⟩ := evaluateAdj_frame s.blocks true τ.heap c
    unfold saved
    rw [e, e']
  · rw [h2, List.getElem?_set_ne (by omega)] at ht
    exact h.stored j t hj ht

/-- The recorded reverse actions. -/
theorem SRInv.processes [Add A] {P : BV → Prop} {cs : List BV} {out val : BV → V} {g : Heap V T A} (hg : ∀ v, saved g v = val v)
    (hsame : ∀ v, P v → val v = out v) {n : Nat} {l : List Action} (hl : StoredReverse n l) {τ : CTape V T A}
    (h : SRInv P cs out val g n n τ) : ∃ τ', l.foldlM (process true []) τ = .ok τ' ∧ SRInv P cs out val g 0 0 τ' := by
  induction hl generalizing τ with
  | done => exact ⟨_, rfl, h.mgr _⟩
  | copy n src clear as hl ih =>
    obtain ⟨τ₁, h1, h2, h3⟩ := h.load hg hsame (Or.inl ⟨src, rfl⟩)
    obtain ⟨τ₂, h4, h5⟩ := h2.reverse h3 clear
    obtain ⟨τ', h6, h7⟩ := ih h5
    refine ⟨τ', ?_, h7⟩
    rw [List.foldlM_cons, h1]
    show List.foldlM _ τ₁ _ = _
    rw [List.foldlM_cons, h4]
    exact h6
  | move n src clear as hl ih =>
    obtain ⟨τ₁, h1, h2, h3⟩ := h.load hg hsame (Or.inr ⟨src, rfl⟩)
    obtain ⟨τ₂, h4, h5⟩ := h2.reverse h3 clear
    obtain ⟨τ', h6, h7⟩ := ih h5
    refine ⟨τ', ?_, h7⟩
    rw [List.foldlM_cons, h1]
    show List.foldlM _ τ₁ _ = _
    rw [List.foldlM_cons, h4]
    exact h6

theorem firstReverse_step [Add A] {m : Bool} {a : Action} {acts : List Action} {τ τ₁ : CTape V T A} (hcur : τ.mgr.current ≠ .endReverse)
    (h : perform m [] { τ with mgr := { τ.mgr with rev := τ.mgr.rev ++ [a] } } a = .ok τ₁) :
    firstReverse m (a :: acts) τ = firstReverse m acts τ₁ := by
  rw [firstReverse.eq_def]
  dsimp only
  rw [if_neg hcur, h]

theorem SRInv.first [Add A] {P : BV → Prop} {cs : List BV} {out val : BV → V} {g : Heap V T A} (hg : ∀ v, saved g v = val v)
    (hsame : ∀ v, P v → val v = out v) {n : Nat} {l : List Action} (hl : StoredReverse n l) {acts : List Action}
    (hacts : untilEndReverse acts = l) {τ : CTape V T A} (hcur : τ.mgr.current ≠ .endReverse)
    (h : SRInv P cs out val g n n τ) : ∃ τ', firstReverse true acts τ = .ok τ' ∧ SRInv P cs out val g 0 0 τ' := by
  have split : ∀ {a : Action} {as acts : List Action}, untilEndReverse acts = a :: as → a ≠ .endReverse →
      ∃ acts', acts = a :: acts' ∧ untilEndReverse acts' = as := by
    intro a as acts e hne
    cases acts with
    | nil => cases e
    | cons b acts =>
      unfold untilEndReverse at e
      split at e
      · rename_i hb
        simp only [List.cons.injEq] at e
        exact absurd (e.1.symm.trans hb) hne
      · simp only [List.cons.injEq] at e
        exact ⟨acts, by rw [e.1], e.2⟩
  have two : ∀ {n : Nat} {a : Action} {clear : Bool} {as acts : List Action} {τ : CTape V T A},
      ((∃ src, a = .copy n src) ∨ ∃ src, a = .move n src) → untilEndReverse acts = a :: .reverse (n + 1) n clear :: as →
      τ.mgr.current ≠ .endReverse → SRInv P cs out val g (n + 1) (n + 1) τ →
      ∃ acts' τ₂, untilEndReverse acts' = as ∧ τ₂.mgr.current ≠ .endReverse ∧ SRInv P cs out val g n n τ₂ ∧
        firstReverse true acts τ = firstReverse true acts' τ₂ := by
    intro n a clear as acts τ ha hacts hcur h
    have hne : a ≠ .endReverse := by rcases ha with ⟨_, rfl⟩ | ⟨_, rfl⟩ <;> exact Action.noConfusion
    obtain ⟨acts₁, rfl, e1⟩ := split hacts hne
    obtain ⟨acts₂, rfl, e2⟩ := split e1 Action.noConfusion
    obtain ⟨τ₁, h1, h2, h3⟩ := (h.mgr { τ.mgr with rev := τ.mgr.rev ++ [a], current := a }).load hg hsame ha
    have hc1 : τ₁.mgr.current ≠ .endReverse := by rw [process_current h1]; exact hne
    obtain ⟨τ₂, h4, h5⟩ := (h2.mgr { τ₁.mgr with rev := τ₁.mgr.rev ++ [.reverse (n + 1) n clear], current := .reverse (n + 1) n clear }).reverse h3 clear
    refine ⟨acts₂, τ₂, e2, by rw [process_current h4]; exact Action.noConfusion, h5, ?_⟩
    rw [firstReverse_step hcur h1, firstReverse_step hc1 h4]
  induction hl generalizing τ acts with
  | done =>
    cases acts with
    | nil => cases hacts
    | cons a acts =>
      have ha : a = .endReverse := by
        unfold untilEndReverse at hacts
        split at hacts
        · rename_i hb; exact hb
        · simp only [List.cons.injEq] at hacts
          exact hacts.1
      subst ha
      rw [firstReverse_step (τ₁ := _) hcur rfl, firstReverse.eq_def]
      exact ⟨_, rfl, (h.mgr _).mgr _⟩
  | copy n src clear as hl ih =>
    obtain ⟨acts', τ₂, h1, h2, h3, h4⟩ := two (Or.inl ⟨src, rfl⟩) hacts hcur h
    obtain ⟨τ', h5, h6⟩ := ih h1 h2 h3
    exact ⟨τ', h4.trans h5, h6⟩
  | move n src clear as hl ih =>
    obtain ⟨acts', τ₂, h1, h2, h3, h4⟩ := two (Or.inr ⟨src, rfl⟩) hacts hcur h
    obtain ⟨τ', h5, h6⟩ := ih h1 h2 h3
    exact ⟨τ', h4.trans h5, h6⟩

theorem SRInv.sweep [Add A] {P : BV → Prop} {cs : List BV} {out val : BV → V} {g : Heap V T A} (hg : ∀ v, saved g v = val v)
    (hsame : ∀ v, P v → val v = out v) {N : Nat} {τ : CTape V T A} (hr : RevStored N τ)
    (h : SRInv P cs out val g N N τ) : ∃ τ', reverseSweep true τ = .ok τ' ∧ SRInv P cs out val g 0 0 τ' := by
  unfold reverseSweep
  rcases hr with ⟨r1, r2, r3⟩ | ⟨r1, r2⟩
  · rw [if_neg (by simp [r1])]
    exact h.first hg hsame r2 rfl r3
  · rw [if_pos r1]
    exact h.processes hg hsame r2

end CTape
end Pyadjoint
