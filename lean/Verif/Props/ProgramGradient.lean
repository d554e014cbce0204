import Verif.Props.Recording
import Verif.Props.Gradient
import Verif.Props.Adjoint

/-!
# From the program to the gradient

`program_gradient` joins recording, replay and the adjoint sweep: for every program, the numbers
`ReducedFunctional.derivative` returns are the partial derivatives of the function the program
computes (C02 stated about programs instead of tapes).
-/

namespace Pyadjoint
open Source

namespace Session

variable {s : Session} {A : State}

theorem unique_out {t : FTape} (wf : WF t.blocks) {b b' : FBlock} (hb : b ∈ t) (hb' : b' ∈ t)
    (h : b.out = b'.out) : b = b' := by
  have hnd : (t.map FBlock.out).Nodup := by
    have := wf.later
    rw [List.Nodup, List.pairwise_map]
    unfold FTape.blocks at this
    rw [List.pairwise_map] at this
    refine this.imp ?_
    intro c c' hcc h
    exact hcc.2 c.out ((mem_outs_iff c _).2 rfl) ((mem_outs_iff c' _).2 h)
  exact List.inj_on_of_nodup_map hnd hb hb' h

/-- Creating controls for objects that have block variables changes nothing but the references. -/
theorem Refines.controls_of_refs (R : Refines s A) {cs : List Nat} {vs : List BV}
    (hcs : List.Forall₂ s.RefAt cs vs) :
    Session.controls cs s = some (vs, { s with held := vs.reverse ++ s.held }) := by
  induction cs generalizing s vs with
  | nil => cases hcs; rfl
  | cons c cs ih =>
    obtain ⟨v, vs, h1, h2, rfl⟩ := List.forall₂_cons_left_iff.1 hcs
    obtain ⟨o, ho, hv⟩ := h1
    have hadj : o.adj = true := by
      cases h : o.adj with
      | true => rfl
      | false => rw [R.plain ho h] at hv; cases hv
    have ht : s.touch c o = (v, s) := by unfold Session.touch; rw [hv]
    unfold Session.controls
    rw [ho]
    simp only [Option.bind_eq_bind, Option.bind_some, hadj, if_true, ht]
    have R' := R.hold ⟨o, ho, hv⟩
    rw [ih R' h2]
    simp

theorem Refines.dependsOn (R : Refines s A) {cs : List Nat} {vs : List BV}
    (hcs : List.Forall₂ s.RefAt cs vs) {v : BV} (hv : Reach s.tape.blocks (· ∈ vs) v) :
    ∃ i, s.RefAt i v ∧ A.DependsOn cs i := by
  induction hv with
  | base h =>
    obtain ⟨i, hi, hr⟩ := forall₂_right hcs h
    exact ⟨i, hr, .control hi⟩
  | @step b d o hb hd hreach ho ih =>
    obtain ⟨f, hf, rfl⟩ := List.mem_map.1 hb
    rw [mem_outs_iff] at ho
    subst ho
    obtain ⟨k, hk, hdep⟩ := ih
    obtain ⟨i, r, hr, hnf, href⟩ := R.src f hf
    refine ⟨i, href, ?_⟩
    have hopd : ∀ {a}, s.Opd a d → a = k := by
      rintro a ⟨o, ho, h1, h2⟩
      cases hadj : o.adj with
      | true => exact R.inj ⟨o, ho, h1 hadj⟩ hk
      | false => exact absurd hk ((h2 hadj).2.2.1 k)
    cases horg : r.origin with
    | free => exact absurd horg hnf
    | un op a =>
      obtain ⟨_, w, av, h4, h5, h6⟩ := R.un hr horg
      have hw := refAt_fun href h4
      have hfe : f = .un op av w := unique_out R.wf hf h5 hw
      subst hfe
      have hda : d = av := by simpa [FBlock.toBlock] using hd
      subst hda
      refine .op hr (c := k) ?_ hdep
      rw [horg]; exact (hopd h6).symm
    | bin op a b =>
      obtain ⟨_, _, w, av, bv, h4, h6, h7, h5⟩ := R.bin hr horg
      have hw := refAt_fun href h4
      have hd' : d = av ∨ d = bv := by
        rcases h5 with h5 | ⟨_, h5⟩
        · have hfe : f = .bin op av bv w := unique_out R.wf hf h5 hw
          subst hfe
          simpa [FBlock.toBlock] using hd
        · have hfe : f = .bin op bv av w := unique_out R.wf hf h5 hw
          subst hfe
          rw [or_comm]
          simpa [FBlock.toBlock] using hd
      refine .op hr (c := k) ?_ hdep
      rw [horg]
      rcases hd' with rfl | rfl
      · exact Or.inl (hopd h6).symm
      · exact Or.inr (hopd h7).symm

theorem Refines.not_ref_plain (_R : Refines s A) {a : Nat} {av : BV} (h : s.Opd a av) :
    s.RefAt a av ∨ (∀ j, ¬ s.RefAt j av) := by
  obtain ⟨o, ho, h1, h2⟩ := h
  cases hadj : o.adj with
  | true => exact Or.inl ⟨o, ho, h1 hadj⟩
  | false => exact Or.inr (h2 hadj).2.2.1

/-- The value of an operand's block variable after a replay. -/
theorem Refines.replay_opd (R : Refines s A) {cs : List Nat} {vs : List BV} {xs : List ℝ}
    (hcs : List.Forall₂ s.RefAt cs vs) (hl : xs.length = cs.length) {a : Nat} {av : BV}
    (h : s.Opd a av) :
    saved (rfEval s.tape.blocks vs xs s.heap) av = A.valueAt cs xs a := by
  have hlv : xs.length = vs.length := hl.trans hcs.length_eq
  obtain ⟨p, hp, h1, h2⟩ := h
  cases hadj : p.adj with
  | true => exact R.replay hcs hl a av ⟨p, hp, h1 hadj⟩
  | false =>
    obtain ⟨h3, h4, h5, h6⟩ := h2 hadj
    have hnm : av ∉ vs := by
      intro h
      obtain ⟨k, _, hk'⟩ := forall₂_right hcs h
      exact h5 k hk'
    rw [saved_rfEval_leaf _ vs xs _ hlv R.flags av (Or.inr (not_outs_of _ _ h4)),
      show override vs xs av = none by
        rw [← Option.not_isSome_iff_eq_none]
        exact fun h => hnm ((override_isSome vs xs hlv av).1 h)]
    obtain ⟨q, hq⟩ := R.regs_some hp
    unfold State.valueAt
    rw [reeval_getD _ _ R.older a q hq]
    have hna : a ∉ cs := by
      intro h
      obtain ⟨w, _, p', hp', hp''⟩ := forall₂_left hcs h
      rw [hp] at hp'; cases hp'
      rw [R.plain hp hadj] at hp''; cases hp''
    rw [show override cs xs a = none by
        rw [← Option.not_isSome_iff_eq_none]
        exact fun h => hna ((override_isSome cs xs hl a).1 h)]
    have hfree : q.origin = .free := by
      cases hqo : q.origin with
      | free => rfl
      | un op b =>
        obtain ⟨_, w, _, ⟨p', hp', hp''⟩, _⟩ := R.un hq hqo
        rw [hp] at hp'; cases hp'; rw [R.plain hp hadj] at hp''; cases hp''
      | bin op b c =>
        obtain ⟨_, _, w, _, _, ⟨p', hp', hp''⟩, _⟩ := R.bin hq hqo
        rw [hp] at hp'; cases hp'; rw [R.plain hp hadj] at hp''; cases hp''
    rw [hfree]
    show saved s.heap av = q.leaf
    rw [h3, R.leaf hp hq hfree, R.plain hp hadj]; rfl

/-- Source-level smoothness gives smoothness of the tape. -/
theorem Refines.smooth (R : Refines s A) {cs : List Nat} {vs : List BV} {xs : List ℝ}
    (hcs : List.Forall₂ s.RefAt cs vs) (hl : xs.length = cs.length) (hsm : A.Smooth cs xs) :
    ∀ b ∈ s.tape, b.Smooth (saved (rfEval s.tape.blocks vs xs s.heap))
      (Reach s.tape.blocks (· ∈ vs)) := by
  intro f hf
  obtain ⟨i, r, hr, hnf, href⟩ := R.src f hf
  have hs := hsm i r hr
  cases horg : r.origin with
  | free => exact absurd horg hnf
  | un op a =>
    obtain ⟨_, w, av, h4, h5, h6⟩ := R.un hr horg
    have hfe : f = .un op av w := unique_out R.wf hf h5 (refAt_fun href h4)
    subst hfe
    rw [horg] at hs
    simp only [FBlock.Smooth, R.replay_opd hcs hl h6]
    revert hs
    cases op <;> simp [UOp.Smooth, Def.SmoothAt]
  | bin op a b =>
    obtain ⟨_, _, w, av, bv, h4, h6, h7, h5⟩ := R.bin hr horg
    rw [horg] at hs
    rcases h5 with h5 | ⟨hop, h5⟩
    · have hfe : f = .bin op av bv w := unique_out R.wf hf h5 (refAt_fun href h4)
      subst hfe
      simp only [FBlock.Smooth, R.replay_opd hcs hl h6, R.replay_opd hcs hl h7]
      cases op
      case pow =>
        simp only [Def.SmoothAt, BOp.Smooth] at hs ⊢
        rcases hs with hs | ⟨hs, hs'⟩
        · exact Or.inl hs
        · refine Or.inr ⟨fun hreach => hs ?_, hs'⟩
          obtain ⟨k, hk, hdep⟩ := R.dependsOn hcs hreach
          rcases R.not_ref_plain h7 with h8 | h8
          · rw [R.inj h8 hk]; exact hdep
          · exact absurd hk (h8 k)
      all_goals exact hs
    · have hfe : f = .bin op bv av w := unique_out R.wf hf h5 (refAt_fun href h4)
      subst hfe
      rcases hop with rfl | rfl <;> trivial

theorem Refines.independent (R : Refines s A) {cs : List Nat} {vs : List BV}
    (hcs : List.Forall₂ s.RefAt cs vs) (hfree : A.FreeControls cs) :
    IndependentControls s.tape.blocks vs := by
  intro v hv b hb ho
  obtain ⟨f, hf, rfl⟩ := List.mem_map.1 hb
  rw [mem_outs_iff] at ho
  obtain ⟨i, hi, hr⟩ := forall₂_right hcs hv
  obtain ⟨o, ho', _⟩ := id hr
  obtain ⟨r, hreg⟩ := R.regs_some ho'
  exact absurd ho.symm (R.free hreg (hfree i hi r hreg) hr f hf)

theorem Refines.used (R : Refines s A) {J : Nat} {v : BV} (hJ : s.RefAt J v) {cs : List Nat}
    {vs : List BV} (hcs : List.Forall₂ s.RefAt cs vs) (hu : A.Used J cs) :
    ∀ c ∈ vs, OnTape s.tape.blocks c ∨ c = v := by
  intro w hw
  obtain ⟨i, hi, hr⟩ := forall₂_right hcs hw
  rcases hu i hi with rfl | ⟨k, r, hk, huse⟩
  · exact Or.inr (refAt_fun hr hJ)
  · left
    have hopd : ∀ {av}, s.Opd i av → av = w := by
      rintro av ⟨o, ho, h1, h2⟩
      obtain ⟨o', ho', hw'⟩ := hr
      rw [ho] at ho'; cases ho'
      cases hadj : o.adj with
      | true => rw [h1 hadj] at hw'; exact Option.some.inj hw'
      | false => rw [R.plain ho hadj] at hw'; cases hw'
    cases horg : r.origin with
    | free => rw [horg] at huse; exact huse.elim
    | un op a =>
      rw [horg] at huse
      cases (show i = a from huse)
      obtain ⟨_, u, av, _, h5, h6⟩ := R.un hk horg
      exact ⟨_, List.mem_map.2 ⟨_, h5, rfl⟩, Or.inl (by simp [FBlock.toBlock, hopd h6])⟩
    | bin op a b =>
      rw [horg] at huse
      obtain ⟨_, _, u, av, bv, _, h6, h7, h5⟩ := R.bin hk horg
      have : w = av ∨ w = bv := by
        rcases (show i = a ∨ i = b from huse) with rfl | rfl
        · exact Or.inl (hopd h6).symm
        · exact Or.inr (hopd h7).symm
      rcases h5 with h5 | ⟨_, h5⟩ <;>
        exact ⟨_, List.mem_map.2 ⟨_, h5, rfl⟩, Or.inl (by simp [FBlock.toBlock]; tauto)⟩

theorem nodup_of_forall₂ {P : Nat → BV → Prop} (hinj : ∀ {i j v}, P i v → P j v → i = j)
    {cs : List Nat} {vs : List BV} (hcs : List.Forall₂ P cs vs) (hnd : cs.Nodup) : vs.Nodup := by
  induction hcs with
  | nil => exact List.nodup_nil
  | cons h1 h2 ih =>
    rw [List.nodup_cons] at hnd ⊢
    exact ⟨fun h => hnd.1 (forall₂_mem (P := P) hinj h2 h1 h), ih hnd.2⟩

/-- The gradient, from the state in which the block variables exist. -/
theorem Refines.gradient (R : Refines s A) {J : Nat} {v : BV} (hJ : s.RefAt J v) {cs : List Nat}
    {vs : List BV} (hcs : List.Forall₂ s.RefAt cs vs) (hnd : cs.Nodup) (hfree : A.FreeControls cs)
    (hu : A.Used J cs) (scale seed : ℝ) {n : Nat} (hn : vs.length = n) (x₀ : Fin n → ℝ)
    (hsm : A.Smooth cs (List.ofFn x₀)) :
    ∃ grad : Fin n → ℝ,
      (rfDerivative s.tape.blocks v vs scale seed
        (rfEval s.tape.blocks vs (List.ofFn x₀) s.heap)).1 = List.ofFn grad ∧
      HasFDerivAt (fun x : Fin n → ℝ => seed * (A.valueAt cs (List.ofFn x) J * scale))
        (∑ i, grad i • (ContinuousLinearMap.proj i : (Fin n → ℝ) →L[ℝ] ℝ)) x₀ := by
  subst hn
  have hlen : ∀ x : Fin vs.length → ℝ, (List.ofFn x).length = cs.length := fun x => by
    rw [List.length_ofFn, hcs.length_eq]
  have hcall : ∀ x : Fin vs.length → ℝ, rfCall s.tape.blocks v vs scale (List.ofFn x) s.heap
      = some (A.valueAt cs (List.ofFn x) J * scale, rfEval s.tape.blocks vs (List.ofFn x) s.heap) := by
    intro x
    unfold rfCall
    rw [if_neg (by simp)]
    simp only []
    rw [R.replay hcs (hlen x) J v hJ]
  obtain ⟨grad, h1, h2⟩ := gradient_exact_adjfloat s.tape R.wf v vs
    (nodup_of_forall₂ (P := s.RefAt) R.inj hcs hnd) s.heap R.flags (R.independent hcs hfree) scale seed x₀
    (fun b hb _ => R.smooth hcs (hlen x₀) hsm b hb)
    (fun c hc => (R.used hJ hcs hu c hc).imp id Or.inl) _ _ (hcall x₀)
  refine ⟨grad, h1, ?_⟩
  have hfun : (fun x => seed * rfValue s.tape v vs scale s.heap x)
      = fun x : Fin vs.length → ℝ => seed * (A.valueAt cs (List.ofFn x) J * scale) := by
    funext x
    unfold rfValue
    rw [hcall x]; rfl
  rw [hfun] at h2
  exact h2

/-- **C02, for programs.**  Run any program.  Evaluate the reduced functional with the control values
`x₀` and ask for the derivative.  If the controls are distinct free `AdjFloat`s, each used in some
annotated operation, and every annotated operation is differentiable at the point, the
returned list is the gradient at `x₀` of the function `x ↦ seed * scale * J(x)`, where `J(x)` is the value
of the program as written with `x` for the controls. -/
theorem program_gradient (p : List Instr) (S : Session) (hS : run p {} = some S) (A : State)
    (hA : State.run p {} = some A) (J : Nat) (cs : List Nat) (hnd : cs.Nodup)
    (hfree : A.FreeControls cs) (hu : A.Used J cs) (scale seed : ℝ) {n : Nat} (hn : cs.length = n)
    (x₀ : Fin n → ℝ) (hsm : A.Smooth cs (List.ofFn x₀)) (y : ℝ) (S' S'' : Session) (ds : List ℝ)
    (hcall : S.call J cs scale (List.ofFn x₀) = some (y, S'))
    (hder : S'.derivative J cs scale seed = some (ds, S'')) :
    ∃ grad : Fin n → ℝ, ds = List.ofFn grad ∧
      HasFDerivAt (fun x : Fin n → ℝ => seed * (A.valueAt cs (List.ofFn x) J * scale))
        (∑ i, grad i • (ContinuousLinearMap.proj i : (Fin n → ℝ) →L[ℝ] ℝ)) x₀ := by
  have h := refines_init.run p
  rw [hS, hA] at h
  have R : Refines S A := h
  simp only [call, Option.bind_eq_bind, Option.bind_eq_some_iff] at hcall
  obtain ⟨⟨vs, s₁⟩, hc, o, ho, hcall⟩ := hcall
  split at hcall
  swap
  · cases hcall
  rename_i hadj
  simp only [Option.bind_eq_some_iff, Option.pure_def] at hcall
  obtain ⟨⟨y', h'⟩, hrf, hcall⟩ := hcall
  cases hcall
  obtain ⟨R₁, G₁, hcs, hh⟩ := R.controls cs hc
  have R₂ := R₁.touch ho hadj
  have G₂ := R₁.grows_touch ho
  have hJ := touch_refAt ho
  have hcs₂ : List.Forall₂ (s₁.touch J o).2.RefAt cs vs := hcs.imp fun _ _ h => G₂.refAt h
  have hh₂ : ∀ v ∈ vs, v ∈ (s₁.touch J o).2.held := fun v hv => G₂.held v (hh v hv)
  have hvn : vs.length = n := hcs.length_eq.symm.trans hn
  unfold rfCall at hrf
  rw [if_neg (by rw [List.length_ofFn, hvn]; simp)] at hrf
  cases hrf
  have R₃ := R₂.callHeap (xs := List.ofFn x₀) hcs₂ hh₂ (by simp [hn]) (s₁.touch J o).2.tape (fun _ h => h)
  have hcs₃ : List.Forall₂ (RefAt { (s₁.touch J o).2 with
      heap := rfEval (s₁.touch J o).2.tape.blocks vs (List.ofFn x₀) (s₁.touch J o).2.heap }) cs vs :=
    hcs₂
  simp only [derivative, R₃.controls_of_refs hcs₃, Option.bind_eq_bind, Option.bind_some] at hder
  obtain ⟨o', ho', hv'⟩ := id hJ
  have hadj' : o'.adj = true := by
    cases h : o'.adj with
    | true => rfl
    | false => rw [R₂.plain ho' h] at hv'; cases hv'
  rw [ho'] at hder
  simp only [Option.bind_some, hadj', if_true, touch, hv', Option.pure_def, Option.some.injEq,
    Prod.mk.injEq] at hder
  obtain ⟨grad, h1, h2⟩ := R₂.gradient hJ hcs₂ hnd hfree hu scale seed hvn x₀ hsm
  exact ⟨grad, hder.1.symm.trans h1, h2⟩

/-- The hypotheses of `program_gradient` are met by `exProg`. -/
example (x₀ : Fin 2 → ℝ) : ∃ S A y S' ds S'', run exProg {} = some S ∧ State.run exProg {} = some A ∧
    [0, 1].Nodup ∧ A.FreeControls [0, 1] ∧ A.Used 7 [0, 1] ∧ A.Smooth [0, 1] (List.ofFn x₀) ∧
    S.call 7 [0, 1] 1 (List.ofFn x₀) = some (y, S') ∧ S'.derivative 7 [0, 1] 1 1 = some (ds, S'') := by
  obtain ⟨S, hS⟩ := Option.isSome_iff_exists.1 ((run_isSome_iff exProg).trans (by rw [exProg_state]; rfl))
  have h := refines_init.run exProg
  rw [hS, exProg_state] at h
  have R := (h : Refines S _)
  have hc := R.call 7 [0, 1] 1 (List.ofFn x₀)
  rw [if_pos (by simp [State.AreAdj])] at hc
  obtain ⟨S', v, h1, R', _⟩ := hc
  have hd := R'.derivative 7 [0, 1] 1 1
  rw [if_pos (by simp [State.AreAdj, State.assign])] at hd
  obtain ⟨S'', ds, h2, _⟩ := hd
  refine ⟨S, _, _, S', ds, S'', hS, exProg_state, by decide, ?_, ?_, ?_, h1, h2⟩
  · intro c hc r hr
    simp only [List.mem_cons, List.not_mem_nil, or_false] at hc
    rcases hc with rfl | rfl <;> simp at hr <;> subst hr <;> rfl
  · intro c hc
    simp only [List.mem_cons, List.not_mem_nil, or_false] at hc
    right
    refine ⟨2, _, rfl, ?_⟩
    rcases hc with rfl | rfl <;> simp [Def.Uses]
  · intro i r hr
    match i, hr with
    | 0, hr | 1, hr | 2, hr | 3, hr | 4, hr | 5, hr | 6, hr | 7, hr =>
      simp at hr; subst hr; trivial
    | n + 8, hr => simp at hr
/-! ## The derivative right after recording -/

/-- What is saved is what was recorded. -/
def Untouched (s : Session) : Prop := ∀ v, saved s.heap v = (s.heap v).output

theorem untouched_alloc {s : Session} (h : s.Untouched) (x : ℝ) : (s.alloc x).2.Untouched := by
  intro v
  by_cases hv : v = s.next
  · subst hv; simp [alloc, saved]
  · have := h v
    simp only [alloc, saved, Function.update_of_ne hv] at this ⊢; exact this

theorem untouched_touch {s : Session} (h : s.Untouched) (i : Nat) (o : Obj) :
    (s.touch i o).2.Untouched := by
  unfold touch
  cases o.ref with
  | some v => exact h
  | none => exact untouched_alloc h o.value

theorem untouched_operand {s : Session} (h : s.Untouched) (i : Nat) (o : Obj) :
    (s.operand i o).2.Untouched := by
  unfold operand
  split
  · exact untouched_touch h i o
  · exact untouched_alloc h o.value

theorem untouched_addDependency {s : Session} (h : s.Untouched) (v : BV) :
    (s.addDependency v).Untouched := by
  intro u
  rw [saved_addDependency, h u]
  by_cases hu : u = v
  · subst hu; simp [addDependency]
  · simp [addDependency, Function.update_of_ne hu]

theorem untouched_controls (cs : List Nat) {s s' : Session} {vs : List BV} (h : s.Untouched)
    (hc : controls cs s = some (vs, s')) : s'.Untouched := by
  induction cs generalizing s vs s' with
  | nil => cases hc; exact h
  | cons c cs ih =>
    unfold controls at hc
    simp only [Option.bind_eq_bind, Option.bind_eq_some_iff] at hc
    obtain ⟨o, _, hc⟩ := hc
    split at hc
    · simp only [Option.bind_eq_some_iff, Option.pure_def] at hc
      obtain ⟨⟨vs', s''⟩, h1, h2⟩ := hc
      cases h2
      exact ih (s := { (s.touch c o).2 with held := (s.touch c o).1 :: (s.touch c o).2.held })
        (untouched_touch h c o) h1
    · cases hc

theorem untouched_derivative {s s' : Session} (h : s.Untouched) {J : Nat} {cs : List Nat}
    {scale seed : ℝ} {ds : List ℝ} (hd : s.derivative J cs scale seed = some (ds, s')) :
    s'.Untouched := by
  simp only [derivative, Option.bind_eq_bind, Option.bind_eq_some_iff] at hd
  obtain ⟨⟨vs, s₂⟩, h1, j, _, hd⟩ := hd
  split at hd
  · cases hd
    intro v
    have h2 := untouched_touch (untouched_controls cs h h1) J j v
    obtain ⟨f1, f2, _⟩ := computeGradientState_frame (s₂.touch J j).2.tape.blocks
      (s₂.touch J j).1 vs (seed * scale) (s₂.touch J j).2.heap v
    exact (saved_congr f1 f2).trans (h2.trans f1.symm)
  · cases hd

theorem untouched_functional {s s' : Session} {J : Nat} {cs : List Nat} {r : BV × List BV} (h : s.Untouched)
    (hf : s.functional J cs = some (r, s')) : s'.Untouched := by
  simp only [functional, Option.bind_eq_bind, Option.bind_eq_some_iff] at hf
  obtain ⟨⟨vs, s₂⟩, h1, j, _, hf⟩ := hf
  split at hf
  · cases hf; exact untouched_touch (untouched_controls cs h h1) J j
  · cases hf

theorem untouched_derivs {s : Session} (h : s.Untouched) {P : BV → Prop} {g : FHeap} (d : ∀ v, Derivs P (s.heap v) (g v) v) :
    ({ s with heap := g } : Session).Untouched := by
  intro v
  exact (saved_congr (d v).1 (d v).2.1).trans ((h v).trans (d v).1.symm)

/-- The tape after `functional` is a recorded one. -/
theorem functional_self {s s' : Session} {A : State} (R : Refines s A) {J : Nat} {cs : List Nat} {r : BV × List BV}
    (hf : s.functional J cs = some (r, s')) : ∀ b ∈ s'.tape, b.out ∉ b.deps := by
  have h := R.functional J cs
  split at h
  · obtain ⟨s'', v, vs, h1, R', _⟩ := h
    rw [hf] at h1
    cases h1
    exact FTape.WF_self R'.wf
  · rw [hf] at h; cases h

/-- Neither a complete nor an interrupted evaluation of a reduced functional. -/
def _root_.Pyadjoint.Instr.evaluates : Instr → Bool
  | .call _ _ _ _ | .interrupted _ _ _ => true
  | _ => false

theorem untouched_step {s s' : Session} {A : State} (R : Refines s A) {ins : Instr} (hi : ins.evaluates = false) (h : s.Untouched)
    (hs : s.step ins = some s') : s'.Untouched := by
  have hrec : ∀ {op i j x s'}, s.recordBin op i j x = some s' → s'.Untouched := by
    intro op i j x s' hr
    simp only [recordBin, Option.bind_eq_bind, Option.bind_eq_some_iff, Option.pure_def] at hr
    obtain ⟨o, _, q, _, hr⟩ := hr
    cases hr
    exact untouched_alloc (untouched_addDependency (untouched_addDependency
      (untouched_operand (untouched_operand h _ _) _ _) _) _) _
  cases ins with
  | const r => cases hs; exact h
  | plain r => cases hs; exact h
  | un op i =>
    simp only [step, Option.bind_eq_bind, Option.bind_eq_some_iff, Option.pure_def] at hs
    obtain ⟨o, _, hs⟩ := hs
    split at hs
    · cases hs; exact h
    · split at hs
      · cases hs
        exact untouched_alloc (untouched_addDependency (untouched_operand h _ _) _) _
      · cases hs; exact h
  | bin op i j =>
    simp only [step, Option.bind_eq_bind, Option.bind_eq_some_iff, Option.pure_def] at hs
    obtain ⟨o, _, q, _, hs⟩ := hs
    split at hs
    · cases hs; exact h
    · split at hs
      · exact hrec hs
      · cases hs; exact h
    · split at hs
      · exact hrec hs
      · cases hs; exact h
  | pause => cases hs; exact h
  | cont => cases hs; exact h
  | control i =>
    simp only [step, Option.bind_eq_bind, Option.bind_eq_some_iff, Option.pure_def] at hs
    obtain ⟨⟨vs, s₁⟩, h1, h2⟩ := hs
    cases h2
    exact untouched_controls _ h h1
  | collect i =>
    simp only [step, Option.bind_eq_bind, Option.bind_eq_some_iff, Option.pure_def] at hs
    obtain ⟨o, _, hs⟩ := hs
    split at hs
    · cases hs; exact h
    · split at hs <;> cases hs <;> exact h
  | call J cs scale xs => cases hi
  | interrupted cs xs k => cases hi
  | derivative J cs seed =>
    simp only [step, Option.map_eq_some_iff] at hs
    obtain ⟨⟨y, s₁⟩, hs, rfl⟩ := hs
    exact untouched_derivative h hs
  | crashedDerivative J cs seed k j =>
    simp only [step, crashedDerivative, Option.bind_eq_bind, Option.bind_eq_some_iff] at hs
    obtain ⟨⟨r, s₁⟩, h1, hs⟩ := hs
    cases hs
    exact untouched_derivs (untouched_functional h h1) (derivs_crashedGradient (fun _ => True) _ _ _ _ _ _ (fun _ _ => trivial) _)
  | hessian J cs ds k junk =>
    simp only [step, Option.map_eq_some_iff] at hs
    obtain ⟨⟨y, s₁⟩, hs, rfl⟩ := hs
    simp only [hessian, Option.bind_eq_bind, Option.bind_eq_some_iff] at hs
    obtain ⟨⟨r, s₂⟩, h1, hs⟩ := hs
    have hself := functional_self R h1
    split at hs
    · cases hs
    · split at hs
      · cases hs
        exact untouched_derivs (untouched_functional h h1) (P := fun _ => True) fun v =>
          derivs_computeHessian _ _ hself _ _ _ _ _ ‹_› v
      · cases hs
        exact untouched_derivs (untouched_functional h h1) fun v => derivs_failedHessian _ hself _ _ _ _ _ _ v

theorem untouched_run (p : List Instr) {s s' : Session} {A : State} (R : Refines s A) (hp : ∀ ins ∈ p, ins.evaluates = false)
    (h : s.Untouched) (hs : run p s = some s') : s'.Untouched := by
  induction p generalizing s A with
  | nil => cases hs; exact h
  | cons ins p ih =>
    unfold run at hs
    rw [List.foldlM_cons] at hs
    simp only [Option.bind_eq_bind, Option.bind_eq_some_iff] at hs
    obtain ⟨s₁, h1, h2⟩ := hs
    have hst := R.step ins
    rw [h1] at hst
    cases hA : A.step ins with
    | none => rw [hA] at hst; exact hst.elim
    | some A₁ =>
      rw [hA] at hst
      exact ih (A := A₁) hst (fun i hi => hp i (List.mem_cons_of_mem _ hi))
        (untouched_step R (hp ins List.mem_cons_self) h h1) h2

/-- Recorded values: results of annotated operations are what the operation gives for the values of its
operands. -/
def _root_.Pyadjoint.Source.State.Recorded (A : State) : Prop :=
  ∀ (i : Nat) (r : Reg), A.regs[i]? = some r →
    r.value = r.origin.eval (A.regs.map (·.value)) r.value ∧ r.origin.Older i

theorem recorded_push {A : State} (h : A.Recorded) (x : ℝ) (adj : Bool) (d : Def)
    (hd : d = .free ∨ x = d.eval (A.regs.map (·.value)) x ∧ d.Older A.regs.length) :
    (A.push x adj d).Recorded := by
  intro i r hr
  have hold : ∀ {e : Def} {n}, e.Older n → n ≤ A.regs.length →
      e.Older (A.regs.map (·.value)).length := by
    intro e n he hn
    cases e with
    | free => trivial
    | un op a => rw [List.length_map]; exact lt_of_lt_of_le he hn
    | bin op a b =>
      rw [List.length_map]
      exact ⟨lt_of_lt_of_le he.1 hn, lt_of_lt_of_le he.2 hn⟩
  unfold State.push at hr ⊢
  simp only [List.map_append, List.map_cons, List.map_nil]
  rcases getElem?_append_singleton hr with ⟨rfl, rfl⟩ | ⟨hlt, hr⟩
  · simp only
    split
    · rcases hd with rfl | ⟨h1, h2⟩
      · exact ⟨rfl, trivial⟩
      · exact ⟨by rw [Def.eval_append _ _ _ _ (hold h2 le_rfl)]; exact h1, h2⟩
    · exact ⟨rfl, trivial⟩
  · obtain ⟨h1, h2⟩ := h i r hr
    exact ⟨by rw [Def.eval_append _ _ _ _ (hold h2 hlt.le)]; exact h1, h2⟩

theorem recorded_step {A A' : State} {ins : Instr} (h : A.Recorded) (hs : A.step ins = some A') :
    A'.Recorded := by
  have hassign : ∀ cs xs, (A.assign cs xs).Recorded := by
    intro cs xs i r hr
    obtain ⟨q, hq, e1, _, e3, _⟩ := assign_getElem? A cs xs i hr
    have hm : (A.assign cs xs).regs.map (·.value) = A.regs.map (·.value) := by
      apply List.ext_getElem?
      intro i
      simp [State.assign, List.getElem?_mapIdx, Function.comp_def]
    rw [e1, e3, hm]; exact h i q hq
  cases ins with
  | const r => cases hs; exact recorded_push h _ _ _ (Or.inl rfl)
  | plain r => cases hs; exact recorded_push h _ _ _ (Or.inl rfl)
  | un op i =>
    simp only [State.step, Option.map_eq_some_iff] at hs
    obtain ⟨r, hr, rfl⟩ := hs
    refine recorded_push h _ _ _ (Or.inr ⟨?_, (List.getElem?_eq_some_iff.1 hr).1⟩)
    simp [Def.eval, List.getD_eq_getElem?_getD, hr]
  | bin op i j =>
    simp only [State.step, Option.bind_eq_some_iff, Option.map_eq_some_iff] at hs
    obtain ⟨r, hr, q, hq, rfl⟩ := hs
    refine recorded_push h _ _ _ (Or.inr ⟨?_, (List.getElem?_eq_some_iff.1 hr).1,
      (List.getElem?_eq_some_iff.1 hq).1⟩)
    simp [Def.eval, List.getD_eq_getElem?_getD, hr, hq]
  | pause => cases hs; exact h
  | cont => cases hs; exact h
  | control i => simp only [State.step] at hs; split at hs <;> cases hs; exact h
  | collect i => simp only [State.step] at hs; split at hs <;> cases hs; exact h
  | call J cs scale xs => simp only [State.step] at hs; split at hs <;> cases hs; exact hassign _ _
  | interrupted cs xs k => simp only [State.step] at hs; split at hs <;> cases hs; exact hassign _ _
  | derivative J cs seed => simp only [State.step] at hs; split at hs <;> cases hs; exact h
  | crashedDerivative J cs seed k j => simp only [State.step] at hs; split at hs <;> cases hs; exact h
  | hessian J cs ds k junk => simp only [State.step] at hs; split at hs <;> cases hs; exact h

theorem recorded_run (p : List Instr) {A A' : State} (h : A.Recorded) (hs : State.run p A = some A') :
    A'.Recorded := by
  induction p generalizing A with
  | nil => cases hs; exact h
  | cons ins p ih =>
    unfold State.run at hs
    rw [List.foldlM_cons] at hs
    simp only [Option.bind_eq_bind, Option.bind_eq_some_iff] at hs
    obtain ⟨A₁, h1, h2⟩ := hs
    exact ih (recorded_step h h1) h2

/-- The values recorded for the objects `cs`. -/
def _root_.Pyadjoint.Source.State.valuesOf (A : State) (cs : List Nat) : List ℝ :=
  cs.map fun c => (A.regs.map (·.value)).getD c 0

theorem override_valuesOf (A : State) (cs : List Nat) (i : Nat) (x : ℝ)
    (h : override cs (A.valuesOf cs) i = some x) : x = (A.regs.map (·.value)).getD i 0 := by
  suffices H : ∀ (l : List Nat) (acc : Option ℝ), (∀ y, acc = some y → y = (A.regs.map (·.value)).getD i 0) →
      ∀ y, (l.zip (A.valuesOf l)).foldl (fun acc p => if p.1 = i then some p.2 else acc) acc = some y →
        y = (A.regs.map (·.value)).getD i 0 from H cs none (fun _ h => by cases h) x h
  intro l
  induction l with
  | nil => intro acc h y hy; exact h y hy
  | cons c l ih =>
    intro acc hacc y hy
    refine ih _ ?_ y hy
    intro z hz
    dsimp only at hz
    split at hz
    · rename_i hc; cases hz; subst hc; rfl
    · exact hacc z hz

theorem Refines.valueAt_recorded (R : Refines s A) (hU : s.Untouched) (hA : A.Recorded) (cs : List Nat) :
    ∀ (i : Nat) (r : Reg), A.regs[i]? = some r → A.valueAt cs (A.valuesOf cs) i = r.value := by
  have hget : ∀ {i : Nat} {r : Reg}, A.regs[i]? = some r → (A.regs.map (·.value)).getD i 0 = r.value := by
    intro i r h; simp [List.getD_eq_getElem?_getD, h]
  intro i
  induction i using Nat.strong_induction_on with
  | _ i ih =>
    intro r hr
    obtain ⟨h1, h2⟩ := hA i r hr
    unfold State.valueAt
    rw [reeval_getD _ _ R.older i r hr]
    cases hov : override cs (A.valuesOf cs) i with
    | some x => exact (override_valuesOf A cs i x hov).trans (hget hr)
    | none =>
      have hlt := (List.getElem?_eq_some_iff.1 hr).1
      have harg : ∀ a, a < i → (reeval (override cs (A.valuesOf cs)) A.regs).getD a 0
          = (A.regs.map (·.value)).getD a 0 := by
        intro a ha
        have hq := List.getElem?_eq_getElem (ha.trans hlt)
        exact (ih a ha _ hq).trans (hget hq).symm
      show r.origin.eval _ r.leaf = r.value
      cases horg : r.origin with
      | free =>
        have ho := List.getElem?_eq_getElem (R.len ▸ hlt : i < s.objs.length)
        have hv := (R.val ho hr).1
        show r.leaf = r.value
        rw [R.leaf ho hr horg]
        cases href : (s.objs[i]'(R.len ▸ hlt)).ref with
        | none => exact hv
        | some v => exact (hU v).trans ((R.output ho href).trans hv)
      | un op a =>
        rw [horg] at h1 h2
        rw [h1]
        show op.val _ = op.val _
        rw [harg a h2]
      | bin op a b =>
        rw [horg] at h1 h2
        rw [h1]
        show op.val _ _ = op.val _ _
        rw [harg a h2.1, harg b h2.2]

/-- Replaying at the recorded values changes nothing. -/
theorem Refines.replay_recorded (R : Refines s A) (hU : s.Untouched) (hA : A.Recorded) {cs : List Nat}
    {vs : List BV} (hcs : List.Forall₂ s.RefAt cs vs) (v : BV) :
    saved (rfEval s.tape.blocks vs (A.valuesOf cs) s.heap) v = saved s.heap v := by
  have hl : (A.valuesOf cs).length = cs.length := by simp [State.valuesOf]
  by_cases hv : ∃ i, s.RefAt i v
  · obtain ⟨i, hv⟩ := hv
    obtain ⟨o, ho, hov⟩ := id hv
    obtain ⟨r, hr⟩ := R.regs_some ho
    rw [R.replay hcs hl i v hv, R.valueAt_recorded hU hA cs i r hr, hU v, R.output ho hov,
      (R.val ho hr).1]
  · push Not at hv
    have hnm : v ∉ vs := by
      intro h
      obtain ⟨k, hk, hk'⟩ := forall₂_right hcs h
      exact hv k hk'
    rw [saved_rfEval_leaf _ vs _ _ (hl.trans hcs.length_eq) R.flags v (Or.inr (not_outs_of _ _ fun b hb e => by
      obtain ⟨i, _, _, _, h⟩ := R.src b hb
      exact hv i (e ▸ h))),
      show override vs (A.valuesOf cs) v = none by
        rw [← Option.not_isSome_iff_eq_none]
        exact fun h => hnm ((override_isSome vs _ (hl.trans hcs.length_eq) v).1 h)]
    rfl

/-- **C02, right after recording.**  `derivative()` called on a program that was only recorded (no evaluation
of a reduced functional since) is the gradient at the recorded values. -/
theorem derivative_after_recording (p : List Instr) (hp : ∀ ins ∈ p, ins.evaluates = false)
    (S : Session) (hS : run p {} = some S) (A : State)
    (hA : State.run p {} = some A) (J : Nat) (cs : List Nat) (hnd : cs.Nodup)
    (hfree : A.FreeControls cs) (hu : A.Used J cs) (scale seed : ℝ) {n : Nat} (hn : cs.length = n)
    (x₀ : Fin n → ℝ) (hx₀ : List.ofFn x₀ = A.valuesOf cs) (hsm : A.Smooth cs (List.ofFn x₀))
    (S' : Session) (ds : List ℝ) (hder : S.derivative J cs scale seed = some (ds, S')) :
    ∃ grad : Fin n → ℝ, ds = List.ofFn grad ∧
      HasFDerivAt (fun x : Fin n → ℝ => seed * (A.valueAt cs (List.ofFn x) J * scale))
        (∑ i, grad i • (ContinuousLinearMap.proj i : (Fin n → ℝ) →L[ℝ] ℝ)) x₀ := by
  have h := refines_init.run p
  rw [hS, hA] at h
  have R : Refines S A := h
  have hRec : A.Recorded := recorded_run p (fun i r h => by simp at h) hA
  have hU : S.Untouched := untouched_run p refines_init hp (fun v => rfl) hS
  simp only [derivative, Option.bind_eq_bind, Option.bind_eq_some_iff] at hder
  obtain ⟨⟨vs, s₁⟩, hc, o, ho, hder⟩ := hder
  split at hder
  swap
  · cases hder
  rename_i hadj
  cases hder
  obtain ⟨R₁, G₁, hcs, hh⟩ := R.controls cs hc
  have R₂ := R₁.touch ho hadj
  have G₂ := R₁.grows_touch ho
  have hJ := touch_refAt ho
  have hU₂ := untouched_touch (untouched_controls cs hU hc) J o
  have hcs₂ : List.Forall₂ (s₁.touch J o).2.RefAt cs vs := hcs.imp fun _ _ h => G₂.refAt h
  obtain ⟨grad, h1, h2⟩ := R₂.gradient hJ hcs₂ hnd hfree hu scale seed (hcs.length_eq.symm.trans hn) x₀ hsm
  refine ⟨grad, ?_, h2⟩
  rw [← h1, hx₀]
  unfold rfDerivative
  refine gradient_of_saved R₂.wf _ _ _ _ _ (fun v => (R₂.replay_recorded hU₂ hRec hcs₂ v).symm) ?_
  intro c hc
  right; right
  obtain ⟨k, hk⟩ := rfEval_frame (s₁.touch J o).2.tape.blocks vs (A.valuesOf cs)
    (s₁.touch J o).2.heap c (fun c _ => R₂.flags c)
  rw [hk]

/-- The hypotheses are met: `J = x * x + 1` at `x = 2`. -/
example : ∃ S A ds S', run [.const 2, .plain 1, .bin .mul 0 0, .bin .add 2 1] {} = some S ∧
    State.run [.const 2, .plain 1, .bin .mul 0 0, .bin .add 2 1] {} = some A ∧
    A.FreeControls [0] ∧ A.Used 3 [0] ∧ List.ofFn (fun _ : Fin 1 => (2 : ℝ)) = A.valuesOf [0] ∧
    A.Smooth [0] (List.ofFn fun _ : Fin 1 => (2 : ℝ)) ∧ S.derivative 3 [0] 1 1 = some (ds, S') := by
  have hA : ∃ A, State.run [.const 2, .plain 1, .bin .mul 0 0, .bin .add 2 1] {} = some A ∧
      A.regs = [⟨2, true, .free, 2⟩, ⟨1, false, .free, 1⟩, ⟨2 * 2, true, .bin .mul 0 0, 2 * 2⟩,
        ⟨2 * 2 + 1, true, .bin .add 2 1, 2 * 2 + 1⟩] :=
    ⟨_, rfl, rfl⟩
  obtain ⟨A, hA, hregs⟩ := hA
  obtain ⟨S, hS⟩ := Option.isSome_iff_exists.1
    ((run_isSome_iff [.const 2, .plain 1, .bin .mul 0 0, .bin .add 2 1]).trans (by rw [hA]; rfl))
  have h := refines_init.run [.const 2, .plain 1, .bin .mul 0 0, .bin .add 2 1]
  rw [hS, hA] at h
  have R := (h : Refines S A)
  have hd := R.derivative 3 [0] 1 1
  rw [if_pos (by simp [State.AreAdj, hregs])] at hd
  obtain ⟨S'', ds, h2, _⟩ := hd
  refine ⟨S, A, ds, S'', hS, hA, ?_, ?_, ?_, ?_, h2⟩
  · intro c hc r hr
    rw [hregs] at hr
    simp only [List.mem_cons, List.not_mem_nil, or_false] at hc
    subst hc; simp at hr; subst hr; rfl
  · intro c hc
    simp only [List.mem_cons, List.not_mem_nil, or_false] at hc
    exact Or.inr ⟨2, _, by rw [hregs]; rfl, by subst hc; simp [Def.Uses]⟩
  · simp [State.valuesOf, hregs]
  · intro i r hr
    rw [hregs] at hr
    match i, hr with
    | 0, hr | 1, hr | 2, hr | 3, hr => simp at hr; subst hr; trivial
    | n + 4, hr => simp at hr

end Session
end Pyadjoint
