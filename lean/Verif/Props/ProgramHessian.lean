import Verif.Props.ProgramGradient
import Verif.Props.Hessian

/-! # C06 for recorded programs

A program is run (`Model/Session.lean`); it may evaluate functionals, compute derivatives and Hessians, and any of these may
raise.  After a further evaluation and a derivative, the Hessian action is the second derivative of the function the source program
denotes. -/

namespace Pyadjoint.Session

open Source

variable {s : Session} {A : State}

theorem Refines.opd_ref (R : Refines s A) {a : Nat} {av w : BV} (h : s.Opd a av) (hw : s.RefAt a w) : av = w := by
  obtain ⟨o, ho, h1, h2⟩ := h
  obtain ⟨o', ho', hw'⟩ := hw
  rw [ho] at ho'; cases ho'
  cases hadj : o.adj with
  | true => rw [h1 hadj] at hw'; exact Option.some.inj hw'
  | false => rw [R.plain ho hadj] at hw'; cases hw'

/-- What depends on the controls in the source depends on them on the tape. -/
theorem Refines.reach_of_dependsOn (R : Refines s A) {cs : List Nat} {vs : List BV} (hcs : List.Forall₂ s.RefAt cs vs) {i : Nat}
    (hi : A.DependsOn cs i) : ∃ v, s.RefAt i v ∧ Reach s.tape.blocks (· ∈ vs) v := by
  induction hi with
  | @control i hi =>
    obtain ⟨v, hv, hr⟩ := forall₂_left hcs hi
    exact ⟨v, hr, .base hv⟩
  | @op i c r hr huse _ ih =>
    obtain ⟨w, hw, hreach⟩ := ih
    cases horg : r.origin with
    | free => rw [horg] at huse; exact huse.elim
    | un op a =>
      rw [horg] at huse
      cases (show c = a from huse)
      obtain ⟨_, v, av, h4, h5, h6⟩ := R.un hr horg
      refine ⟨v, h4, .step (List.mem_map.2 ⟨_, h5, rfl⟩) ?_ hreach ((mem_outs_iff _ _).2 rfl)⟩
      simp [FBlock.toBlock, R.opd_ref h6 hw]
    | bin op a b =>
      rw [horg] at huse
      obtain ⟨_, _, v, av, bv, h4, h6, h7, h5⟩ := R.bin hr horg
      have hmem : w = av ∨ w = bv := by
        rcases (show c = a ∨ c = b from huse) with rfl | rfl
        · exact Or.inl (R.opd_ref h6 hw).symm
        · exact Or.inr (R.opd_ref h7 hw).symm
      refine ⟨v, h4, ?_⟩
      rcases h5 with h5 | ⟨_, h5⟩ <;>
        exact .step (List.mem_map.2 ⟨_, h5, rfl⟩) (by simp [FBlock.toBlock]; tauto) hreach ((mem_outs_iff _ _).2 rfl)

/-- Source-level second-order smoothness gives that of the tape. -/
theorem Refines.smooth2 (R : Refines s A) {cs : List Nat} {vs : List BV} {xs : List ℝ}
    (hcs : List.Forall₂ s.RefAt cs vs) (hl : xs.length = cs.length) (hsm : A.Smooth2 cs xs) :
    ∀ b ∈ s.tape, b.Smooth2 (saved (rfEval s.tape.blocks vs xs s.heap))
      (Reach s.tape.blocks (· ∈ vs)) := by
  intro f hf
  obtain ⟨i, r, hr, hnf, href⟩ := R.src f hf
  have hs := hsm i r hr
  cases horg : r.origin with
  | free => exact absurd horg hnf
  | un op a =>
    obtain ⟨_, w, av, h4, h5, h6⟩ := R.un hr horg
    have hfe : f = .un op av w := unique_out R.wf hf h5 (refAt_fun href h4)
    subst hfe
    rw [horg] at hs
    simp only [FBlock.Smooth2, R.replay_opd hcs hl h6]
    revert hs
    cases op <;> simp [UOp.Smooth2, Def.Smooth2At]
  | bin op a b =>
    obtain ⟨_, _, w, av, bv, h4, h6, h7, h5⟩ := R.bin hr horg
    rw [horg] at hs
    rcases h5 with h5 | ⟨hop, h5⟩
    · have hfe : f = .bin op av bv w := unique_out R.wf hf h5 (refAt_fun href h4)
      subst hfe
      simp only [FBlock.Smooth2, R.replay_opd hcs hl h6, R.replay_opd hcs hl h7]
      cases op
      case pow =>
        simp only [Def.Smooth2At, BOp.Smooth2] at hs ⊢
        rcases hs with hs | ⟨hs, hs'⟩
        · exact Or.inl hs
        · refine Or.inr ⟨fun hreach => hs ?_, hs'⟩
          obtain ⟨k, hk, hdep⟩ := R.dependsOn hcs hreach
          rcases R.not_ref_plain h7 with h8 | h8
          · rw [R.inj h8 hk]; exact hdep
          · exact absurd hk (h8 k)
      all_goals exact hs
    · have hfe : f = .bin op bv av w := unique_out R.wf hf h5 (refAt_fun href h4)
      subst hfe
      rcases hop with rfl | rfl <;> trivial

theorem Refines.hessSafe (R : Refines s A) {cs : List Nat} {vs : List BV} (hcs : List.Forall₂ s.RefAt cs vs) (hsafe : A.HessSafe cs) :
    ∀ b ∈ s.tape, (∃ d ∈ b.deps, Reach s.tape.blocks (· ∈ vs) d) → b.HessSafe := by
  rintro f hf ⟨d, hd, hreach⟩
  obtain ⟨i, r, hr, hnf, href⟩ := R.src f hf
  have hout : Reach s.tape.blocks (· ∈ vs) f.out :=
    .step (List.mem_map.2 ⟨f, hf, rfl⟩) (by rw [f.toBlock_deps]; exact hd) hreach ((f.mem_outs _).2 rfl)
  obtain ⟨i', hi', hdep⟩ := R.dependsOn hcs hout
  obtain rfl := R.inj href hi'
  have hs := hsafe i r hr hdep
  cases horg : r.origin with
  | free => exact absurd horg hnf
  | un op a =>
    obtain ⟨_, w, av, h4, h5, h6⟩ := R.un hr horg
    have hfe : f = .un op av w := unique_out R.wf hf h5 (refAt_fun href h4)
    subst hfe
    rw [horg] at hs
    revert hs
    cases op <;> simp [FBlock.HessSafe, Def.HessSafe]
  | bin op a b =>
    obtain ⟨_, _, w, av, bv, h4, h6, h7, h5⟩ := R.bin hr horg
    rw [horg] at hs
    have hab : op = .mul → av = bv := by
      rintro rfl
      obtain rfl : a = b := hs
      have hd' : d = av ∨ d = bv := by
        rcases h5 with h5 | ⟨_, h5⟩
        · have hfe := unique_out R.wf hf h5 (refAt_fun href h4)
          subst hfe
          simpa [FBlock.deps] using hd
        · have hfe := unique_out R.wf hf h5 (refAt_fun href h4)
          subst hfe
          rw [or_comm]
          simpa [FBlock.deps] using hd
      obtain ⟨k, hk, -⟩ := R.dependsOn hcs hreach
      obtain ⟨o, ho, h1, h2⟩ := id h6
      obtain ⟨o', ho', h1', h2'⟩ := id h7
      rw [ho] at ho'; cases ho'
      cases hadj : o.adj with
      | true => exact Option.some.inj ((h1 hadj).symm.trans (h1' hadj))
      | false =>
        rcases hd' with rfl | rfl
        · exact absurd hk ((h2 hadj).2.2.1 k)
        · exact absurd hk ((h2' hadj).2.2.1 k)
    rcases h5 with h5 | ⟨hop, h5⟩
    · have hfe := unique_out R.wf hf h5 (refAt_fun href h4)
      subst hfe
      cases op <;> first | exact hab rfl | trivial
    · have hfe := unique_out R.wf hf h5 (refAt_fun href h4)
      subst hfe
      cases op <;> first | exact (hab rfl).symm | trivial

theorem Refines.needsAdj (R : Refines s A) {cs : List Nat} {vs : List BV} (hcs : List.Forall₂ s.RefAt cs vs) (hq : A.QuotientsVary cs) :
    ∀ b ∈ s.tape, b.NeedsAdj → Reach s.tape.blocks (· ∈ vs) b.out := by
  intro f hf hn
  obtain ⟨i, r, hr, hnf, href⟩ := R.src f hf
  have hdep : r.origin.IsQuotientOrPower := by
    cases horg : r.origin with
    | free => exact absurd horg hnf
    | un op a =>
      obtain ⟨_, w, av, h4, h5, h6⟩ := R.un hr horg
      have hfe : f = .un op av w := unique_out R.wf hf h5 (refAt_fun href h4)
      subst hfe
      exact hn.elim
    | bin op a b =>
      obtain ⟨_, _, w, av, bv, h4, h6, h7, h5⟩ := R.bin hr horg
      rcases h5 with h5 | ⟨hop, h5⟩
      · have hfe := unique_out R.wf hf h5 (refAt_fun href h4)
        subst hfe
        cases op <;> first | exact hn.elim | trivial
      · have hfe := unique_out R.wf hf h5 (refAt_fun href h4)
        subst hfe
        rcases hop with rfl | rfl <;> exact hn.elim
  obtain ⟨v, hv, hreach⟩ := R.reach_of_dependsOn hcs (hq i r hr hdep)
  rw [refAt_fun href hv]; exact hreach

/-- Controls and functional that have block variables. -/
theorem Refines.functional_of_refs (R : Refines s A) {J : Nat} {v : BV} (hJ : s.RefAt J v) {cs : List Nat} {vs : List BV}
    (hcs : List.Forall₂ s.RefAt cs vs) : s.functional J cs = some ((v, vs), { s with held := vs.reverse ++ s.held }) := by
  obtain ⟨o, ho, hv⟩ := hJ
  have hadj : o.adj = true := by
    cases h : o.adj with
    | true => rfl
    | false => rw [R.plain ho h] at hv; cases hv
  simp only [Session.functional, R.controls_of_refs hcs, Option.bind_eq_bind, Option.bind_some, ho, hadj, if_true, Session.touch, hv, Option.pure_def]

/-- The same for the derivative. -/
theorem Refines.derivative_of_refs (R : Refines s A) {J : Nat} {v : BV} (hJ : s.RefAt J v) {cs : List Nat} {vs : List BV}
    (hcs : List.Forall₂ s.RefAt cs vs) (scale seed : ℝ) :
    s.derivative J cs scale seed = some ((rfDerivative s.tape.blocks v vs scale seed s.heap).1,
      { s with held := vs.reverse ++ s.held, heap := (rfDerivative s.tape.blocks v vs scale seed s.heap).2 }) := by
  obtain ⟨o, ho, hv⟩ := hJ
  have hadj : o.adj = true := by
    cases h : o.adj with
    | true => rfl
    | false => rw [R.plain ho h] at hv; cases hv
  simp only [Session.derivative, R.controls_of_refs hcs, Option.bind_eq_bind, Option.bind_some, ho, hadj, if_true, Session.touch, hv, Option.pure_def]

/-- What an evaluation does, from the state in which the block variables exist. -/
theorem Refines.call_state (R : Refines s A) {J : Nat} {cs : List Nat} {scale : ℝ} {xs : List ℝ} {y : ℝ} {s' : Session}
    (hl : xs.length = cs.length) (hcall : s.call J cs scale xs = some (y, s')) :
    ∃ s₂ v vs, Refines s₂ A ∧ s₂.RefAt J v ∧ List.Forall₂ s₂.RefAt cs vs ∧
      s' = { s₂ with heap := rfEval s₂.tape.blocks vs xs s₂.heap } ∧ Refines s' (A.assign cs xs) := by
  simp only [Session.call, Option.bind_eq_bind, Option.bind_eq_some_iff] at hcall
  obtain ⟨⟨vs, s₁⟩, hc, o, ho, hcall⟩ := hcall
  split at hcall
  swap
  · cases hcall
  rename_i hadj
  simp only [Option.bind_eq_some_iff, Option.pure_def] at hcall
  obtain ⟨⟨y', h'⟩, hrf, hcall⟩ := hcall
  cases hcall
  obtain ⟨R₁, G₁, hcs, hh⟩ := R.controls cs hc
  have R₂ := R₁.touch ho hadj
  have G₂ := R₁.grows_touch ho
  have hJ := touch_refAt ho
  have hcs₂ : List.Forall₂ (s₁.touch J o).2.RefAt cs vs := hcs.imp fun _ _ h => G₂.refAt h
  have hh₂ : ∀ v ∈ vs, v ∈ (s₁.touch J o).2.held := fun v hv => G₂.held v (hh v hv)
  unfold rfCall at hrf
  rw [if_neg (by rw [hl, hcs.length_eq]; simp)] at hrf
  cases hrf
  exact ⟨_, _, vs, R₂, hJ, hcs₂, rfl, R₂.callHeap hcs₂ hh₂ hl (s₁.touch J o).2.tape fun _ h => h⟩

/-- The Hessian action, from the state in which the block variables exist. -/
theorem Refines.hessian_exact (R : Refines s A) {J : Nat} {v : BV} (hJ : s.RefAt J v) {cs : List Nat}
    {vs : List BV} (hcs : List.Forall₂ s.RefAt cs vs) (hnd : cs.Nodup) (hfree : A.FreeControls cs)
    (hu : A.Used J cs) (hsafe : A.HessSafe cs) (hq : A.QuotientsVary cs) (scale seed : ℝ) {n : Nat} (hn : vs.length = n) (x₀ dir : Fin n → ℝ)
    (hsm : A.Smooth2 cs (List.ofFn x₀)) :
    let F := fun x : Fin n → ℝ => seed * (A.valueAt cs (List.ofFn x) J * scale)
    ContDiffAt ℝ 2 F x₀ ∧ ∃ h', s.tape.computeHessian v vs (List.ofFn dir)
        (rfDerivative s.tape.blocks v vs scale seed (rfEval s.tape.blocks vs (List.ofFn x₀) s.heap)).2
      = .ok (List.ofFn fun i => fderiv ℝ (fderiv ℝ F) x₀ dir (Pi.single i 1), h') := by
  subst hn
  intro F
  have hlen : ∀ x : Fin vs.length → ℝ, (List.ofFn x).length = cs.length := fun x => by
    rw [List.length_ofFn, hcs.length_eq]
  have hF : F = fun x => seed * rfValue s.tape v vs scale s.heap x := by
    funext x
    rw [rfValue_eq, R.replay hcs (hlen x) J v hJ]
  have hon : ∀ c ∈ vs, OnTape s.tape.blocks c ∨ c = v := fun c hc => R.used hJ hcs hu c hc
  obtain ⟨⟨hs, h'⟩, hok⟩ := hessian_returns_partial s.tape R.wf v vs (rfEval s.tape.blocks vs (List.ofFn x₀) s.heap) scale seed (List.ofFn dir)
    (fun c hc => (hon c hc).imp id Or.inl) (R.needsAdj hcs hq)
  obtain ⟨h1, h2⟩ := hessian_second_derivative_partial s.tape R.wf v vs (nodup_of_forall₂ (P := s.RefAt) R.inj hcs hnd) s.heap R.flags
    (R.independent hcs hfree) scale seed x₀ dir (fun b hb _ => R.smooth2 hcs (hlen x₀) hsm b hb)
    (fun c hc => (hon c hc).imp id Or.inl) (fun b hb hd => (R.hessSafe hcs hsafe b hb hd).noDefect _ _ _ _) hs h' hok
  rw [hF]
  exact ⟨h1, h', by rw [hok, h2]⟩

/-- **C06, for programs, part.**  Run any program; it may contain evaluations, derivatives and Hessians, completed or not.  Then evaluate
the reduced functional at `x₀`, compute the derivative, and ask for the Hessian action in direction `dir`.  If the controls are distinct
free `AdjFloat`s, each used in an annotated operation, all annotated operations are twice differentiable at the point, those
depending on a control are `+ - / ** neg min max` or squares, and no quotient or power is independent of the controls, then the
call returns, and the result is the second derivative at `x₀` of `x ↦ seed * scale * J(x)`, where `J(x)` is the value of the program as
written, applied to `dir`.

Missing for the full claim: `exp`, `log`, products, and quotients and powers independent of the controls, for which the claim fails
(`exp_hessian_wrong`, `log_hessian_wrong`, `mul_hessian_wrong`, `hessian_raises`). -/
theorem program_hessian_partial (p : List Instr) (S : Session) (hS : run p {} = some S) (A : State)
    (hA : State.run p {} = some A) (J : Nat) (cs : List Nat) (hnd : cs.Nodup)
    (hfree : A.FreeControls cs) (hu : A.Used J cs) (hsafe : A.HessSafe cs) (hq : A.QuotientsVary cs) (scale seed : ℝ)
    {n : Nat} (hn : cs.length = n) (x₀ dir : Fin n → ℝ) (hsm : A.Smooth2 cs (List.ofFn x₀)) (y : ℝ) (S₁ S₂ : Session) (ds : List ℝ)
    (hcall : S.call J cs scale (List.ofFn x₀) = some (y, S₁)) (hder : S₁.derivative J cs scale seed = some (ds, S₂))
    (k : Nat) (junk : BV → Option ℝ) :
    let F := fun x : Fin n → ℝ => seed * (A.valueAt cs (List.ofFn x) J * scale)
    ContDiffAt ℝ 2 F x₀ ∧
      ∃ S₃, S₂.hessian J cs (List.ofFn dir) k junk = some (.ok (List.ofFn fun i => fderiv ℝ (fderiv ℝ F) x₀ dir (Pi.single i 1)), S₃) := by
  have h := refines_init.run p
  rw [hS, hA] at h
  have R : Refines S A := h
  obtain ⟨s₂, v, vs, R₂, hJ, hcs, rfl, R₃⟩ := R.call_state (by rw [List.length_ofFn, hn]) hcall
  have hvn : vs.length = n := hcs.length_eq.symm.trans hn
  obtain ⟨h1, h', h2⟩ := R₂.hessian_exact hJ hcs hnd hfree hu hsafe hq scale seed hvn x₀ dir hsm
  refine ⟨h1, ?_⟩
  have hd := R₃.derivative J cs scale seed
  split at hd
  swap
  · rw [hder] at hd; cases hd
  obtain ⟨S₂', ds', hd, R₄⟩ := hd
  rw [hder] at hd
  cases hd
  rw [R₃.derivative_of_refs (v := v) (vs := vs) hJ hcs] at hder
  cases hder
  have hf := R₄.functional_of_refs (J := J) (v := v) (cs := cs) (vs := vs) hJ hcs
  apply Exists.intro
  · simp only [Session.hessian, hf, Option.bind_eq_bind, Option.bind_some]
    rw [if_neg (by simp [hvn]), h2]
    rfl

/-- `x, y = 2, 3`, `J = (x - y)**2 / y` with the square written as a product; a derivative computation that raises, and a Hessian. -/
noncomputable def exHessProg : List Instr :=
  [.const 2, .const 3, .bin .sub 0 1, .bin .mul 2 2, .bin .div 3 1, .crashedDerivative 4 [0, 1] 1 0 0, .hessian 4 [0, 1] [1] 0 fun _ => some 7]

/-- What the source program denotes. -/
noncomputable def exHessState : State := ⟨[⟨2, true, .free, 2⟩, ⟨3, true, .free, 3⟩, ⟨2 - 3, true, .bin .sub 0 1, 2 - 3⟩,
    ⟨(2 - 3) * (2 - 3), true, .bin .mul 2 2, (2 - 3) * (2 - 3)⟩,
    ⟨(2 - 3) * (2 - 3) / 3, true, .bin .div 3 1, (2 - 3) * (2 - 3) / 3⟩], true⟩

theorem exHessProg_state : State.run exHessProg {} = some exHessState := by
  simp [State.run, exHessProg, exHessState, State.step, State.push, overloaded, BOp.val, State.AreAdj]

theorem exHessState_cases (P : Nat → Reg → Prop) (h0 : P 0 ⟨2, true, .free, 2⟩) (h1 : P 1 ⟨3, true, .free, 3⟩)
    (h2 : P 2 ⟨2 - 3, true, .bin .sub 0 1, 2 - 3⟩) (h3 : P 3 ⟨(2 - 3) * (2 - 3), true, .bin .mul 2 2, (2 - 3) * (2 - 3)⟩)
    (h4 : P 4 ⟨(2 - 3) * (2 - 3) / 3, true, .bin .div 3 1, (2 - 3) * (2 - 3) / 3⟩) :
    ∀ i r, exHessState.regs[i]? = some r → P i r := by
  intro i r hr
  match i, hr with
  | 0, hr => cases hr; exact h0
  | 1, hr => cases hr; exact h1
  | 2, hr => cases hr; exact h2
  | 3, hr => cases hr; exact h3
  | 4, hr => cases hr; exact h4
  | n + 5, hr => cases hr

/-- The hypotheses of `program_hessian_partial` are met by `exHessProg` at every point with `y ≠ 0`. -/
example (x₀ : Fin 2 → ℝ) (hy : x₀ 1 ≠ 0) : ∃ S A y S₁ ds S₂, run exHessProg {} = some S ∧ State.run exHessProg {} = some A ∧
    [0, 1].Nodup ∧ A.FreeControls [0, 1] ∧ A.Used 4 [0, 1] ∧ A.HessSafe [0, 1] ∧ A.QuotientsVary [0, 1] ∧ A.Smooth2 [0, 1] (List.ofFn x₀) ∧
    S.call 4 [0, 1] 1 (List.ofFn x₀) = some (y, S₁) ∧ S₁.derivative 4 [0, 1] 1 1 = some (ds, S₂) := by
  have hrun : ∀ p A, State.run p {} = some A → ∃ S, run p {} = some S ∧ Refines S A := by
    intro p A h2
    obtain ⟨S, hS⟩ := Option.isSome_iff_exists.1 ((run_isSome_iff p).trans (by rw [h2]; rfl))
    have h := refines_init.run p
    rw [hS, h2] at h
    exact ⟨S, hS, h⟩
  obtain ⟨S, hS, R⟩ := hrun _ _ exHessProg_state
  have hc := R.call 4 [0, 1] 1 (List.ofFn x₀)
  rw [if_pos (by simp [State.AreAdj, exHessState])] at hc
  obtain ⟨S', v, h1, R', _⟩ := hc
  have hd := R'.derivative 4 [0, 1] 1 1
  rw [if_pos (by simp [State.AreAdj, State.assign, exHessState])] at hd
  obtain ⟨S'', ds, h2, _⟩ := hd
  refine ⟨S, _, _, S', ds, S'', hS, exHessProg_state, by decide, ?_, ?_, ?_, ?_, ?_, h1, h2⟩
  · intro c hc r hr
    simp only [List.mem_cons, List.not_mem_nil, or_false] at hc
    rcases hc with rfl | rfl <;> cases hr <;> rfl
  · intro c hc
    simp only [List.mem_cons, List.not_mem_nil, or_false] at hc
    exact Or.inr ⟨2, _, rfl, hc⟩
  · exact exHessState_cases _ (fun _ => trivial) (fun _ => trivial) (fun _ => trivial) (fun _ => rfl) (fun _ => trivial)
  · exact exHessState_cases _ False.elim False.elim False.elim False.elim
      (fun _ => .op (i := 4) (c := 1) rfl (Or.inr rfl) (.control (by simp)))
  · refine exHessState_cases _ trivial trivial trivial trivial ?_
    show State.valueAt exHessState _ _ 1 ≠ 0
    simp only [State.valueAt, exHessState]
    simp [reeval, override, Def.eval]
    exact hy

end Pyadjoint.Session
