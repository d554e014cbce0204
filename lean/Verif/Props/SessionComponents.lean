import Verif.Model.SessionComponents
import Verif.Props.Recording

/-!
# Derivatives and the tape, with annotation on and off (C21)
-/

namespace Pyadjoint
namespace Session

theorem packLoop_paused (is : List Int) (ds : List ℝ) (cs : List Nat) (i n : Nat) (s s' : Session)
    (r : List ℝ) (ha : s.annotate = false) (h : packLoop is ds cs i n s = some (r, s')) :
    s'.tape = s.tape ∧ s'.annotate = false := by
  induction cs generalizing i n s s' r with
  | nil => cases h; exact ⟨rfl, ha⟩
  | cons c cs ih =>
    unfold packLoop at h
    split at h
    · split at h
      · rename_i h2
        cases h
        exact ih _ _ _ _ _ ha h2
      · cases h
    · split at h
      · rename_i s₁ _ hz
        split at h
        · rename_i h2
          cases h
          have hz' : (s.push 0 false).step (.bin .mul c s.objs.length) = some s₁ := hz
          obtain ⟨k1, k2⟩ := step_paused (s := s.push 0 false) ha (by simp) hz'
          obtain ⟨k3, k4⟩ := ih _ _ _ _ _ k2 h2
          exact ⟨k3.trans k1, k4⟩
        · cases h
      · cases h

/-- **C21, derivative and the tape, part.** With annotation paused, `derivative()` adds no block, with or
without derivative components.  With annotation on this fails: `derivative_annotates_zeros`. -/
theorem derivative_adds_no_block_partial (s s' : Session) (J : Nat) (cs : List Nat) (is : List Int)
    (scale seed : ℝ) (r : List ℝ) (ha : s.annotate = false)
    (h : s.derivativeComponents J cs is scale seed = some (r, s')) : s'.tape = s.tape := by
  unfold derivativeComponents at h
  simp only [Option.bind_eq_bind, Option.bind_eq_some_iff] at h
  obtain ⟨⟨vs, s₂⟩, h1, j, _, h⟩ := h
  split at h
  · obtain ⟨sel, _, h⟩ := Option.bind_eq_some_iff.1 h
    refine (fun k => ?_) (packLoop_paused is _ cs 0 0 _ _ _ ?_ h)
    · exact k.1.trans ((touch_fields s₂ J j).1.trans (controls_keeps _ h1).1)
    · exact ((touch_fields s₂ J j).2.1.trans (controls_keeps _ h1).2).trans ha
  · cases h

/-- Without derivative components `derivative()` adds no block, whether annotation is on or off. -/
theorem derivative_adds_no_block (s s' : Session) (J : Nat) (cs : List Nat) (scale seed : ℝ) (r : List ℝ)
    (h : s.derivative J cs scale seed = some (r, s')) : s'.tape = s.tape := by
  simp only [derivative, Option.bind_eq_bind, Option.bind_eq_some_iff] at h
  obtain ⟨⟨vs, s₂⟩, h1, j, _, h⟩ := h
  split at h
  · cases h
    exact (touch_fields _ _ _).1.trans (controls_keeps _ h1).1
  · cases h

theorem packLoop_values (is : List Int) (ds : List ℝ) (cs : List Nat) (vs : List BV) (hl : vs.length = cs.length) (i n : Nat)
    (s s' : Session) (r : List ℝ) (h : packLoop is ds cs i n s = some (r, s')) : Pyadjoint.packLoop is ds vs i n = some r := by
  induction cs generalizing i n s s' r vs with
  | nil =>
    cases h
    cases vs with
    | nil => rfl
    | cons _ _ => cases hl
  | cons c cs ih =>
    cases vs with
    | nil => cases hl
    | cons v vs =>
      have hl' : vs.length = cs.length := Nat.succ.inj hl
      unfold packLoop at h
      unfold Pyadjoint.packLoop
      split at h
      · rename_i hi
        rw [if_pos hi]
        split at h
        · rename_i h1 h2
          cases h
          rw [h1, ih vs hl' _ _ _ _ _ h2]
        · cases h
      · rename_i hi
        rw [if_neg hi]
        split at h
        · split at h
          · rename_i h2
            cases h
            rw [ih vs hl' _ _ _ _ _ h2]
            simp
          · cases h
        · cases h

theorem controls_length {cs : List Nat} {s s' : Session} {vs : List BV} (h : controls cs s = some (vs, s')) : vs.length = cs.length := by
  induction cs generalizing s s' vs with
  | nil => cases h; rfl
  | cons c cs ih =>
    simp only [controls, Option.bind_eq_bind, Option.bind_eq_some_iff] at h
    obtain ⟨o, _, h⟩ := h
    split at h
    · obtain ⟨⟨ws, s₂⟩, h1, h⟩ := Option.bind_eq_some_iff.1 h
      cases h
      simp [ih h1]
    · cases h

/-- **C19 in a session.** Whatever was recorded before and whether annotation is on or off: the derivatives that a program sees are those of
`RF.derivative` for the block variables of its controls (about which C19 is stated), although the zeros are computed by recorded products. -/
theorem session_components (s s' : Session) (J : Nat) (cs : List Nat) (is : List Int) (hne : is ≠ []) (hcs : cs ≠ [])
    (scale seed : ℝ) (r : List ℝ) (h : s.derivativeComponents J cs is scale seed = some (r, s')) :
    ∃ vs s₂ j, controls cs s = some (vs, s₂) ∧ s₂.objs[J]? = some j ∧
      ((⟨(s₂.touch J j).1, .list vs, some is, scale⟩ : RF ℝ).derivative (s₂.touch J j).2.tape.blocks seed (s₂.touch J j).2.heap).1
        = .ok (.many r) := by
  unfold derivativeComponents at h
  simp only [Option.bind_eq_bind, Option.bind_eq_some_iff] at h
  obtain ⟨⟨vs, s₂⟩, h1, j, hj, h⟩ := h
  refine ⟨vs, s₂, j, h1, hj, ?_⟩
  split at h
  · obtain ⟨sel, hsel, h⟩ := Option.bind_eq_some_iff.1 h
    have hv := packLoop_values is _ cs vs (controls_length h1) 0 0 _ _ _ h
    obtain ⟨i₀, is', rfl⟩ := List.exists_cons_of_ne_nil hne
    have hr : r ≠ [] := by
      obtain ⟨c, cs', rfl⟩ := List.exists_cons_of_ne_nil hcs
      unfold packLoop at h
      rintro rfl
      split at h
      · split at h <;> cases h
      · split at h
        · split at h <;> cases h
        · cases h
    have hp : packComponents (A := ℝ) (.list vs) (i₀ :: is') (computeGradient (s₂.touch J j).2.tape.blocks (s₂.touch J j).1 sel
        (seed * scale) (s₂.touch J j).2.heap).1 = .ok r := by
      unfold packComponents
      simp only []
      rw [show Pyadjoint.packLoop (i₀ :: is') (computeGradient (s₂.touch J j).2.tape.blocks (s₂.touch J j).1 sel
        (seed * scale) (s₂.touch J j).2.heap).1 vs 0 0 = some r from hv]
    unfold RF.derivative
    simp only [RF.enlisted, Enlist.of, hsel]
    rw [hp]
    show finishDerivative ⟨true, vs⟩ r = _
    unfold finishDerivative
    rw [if_neg (by simpa using hr)]
    rfl
  · cases h

/-- An evaluation adds no block, whether annotation is on or off. -/
theorem call_adds_no_block (s s' : Session) (J : Nat) (cs : List Nat) (scale : ℝ) (xs : List ℝ) (y : ℝ)
    (h : s.call J cs scale xs = some (y, s')) : s'.tape = s.tape := by
  simp only [call, Option.bind_eq_bind, Option.bind_eq_some_iff] at h
  obtain ⟨⟨vs, s₂⟩, h1, j, _, h⟩ := h
  split at h
  · simp only [Option.bind_eq_some_iff, Option.pure_def] at h
    obtain ⟨⟨y', h'⟩, _, h⟩ := h
    cases h
    exact (touch_fields _ _ _).1.trans (controls_keeps _ h1).1
  · cases h

/-- The program `x = AdjFloat(5); y = AdjFloat(7); J = x * y`. -/
noncomputable def prodProgram : List Instr := [.const 5, .const 7, .bin .mul 0 1]

/-- **C21 fails for derivative components while annotating.** `ReducedFunctional(x*y, [Control(x),
Control(y)], derivative_components=(0,)).derivative()` appends a block to the user's tape. -/
theorem derivative_annotates_zeros :
    ∃ s r s', run prodProgram {} = some s ∧ s.tape.length = 1 ∧
      s.derivativeComponents 2 [0, 1] [0] 1 1 = some (r, s') ∧ s'.tape.length = 2 := by
  exact ⟨_, _, _, rfl, rfl, rfl, rfl⟩

/-- The hypothesis of `session_components` is met: `y` left out. -/
example : ∃ s s', run prodProgram {} = some s ∧ s.derivativeComponents 2 [0, 1] [0] 1 1 = some ([1 * 1 * 7, 7 * 0], s') :=
  ⟨_, _, rfl, rfl⟩

/-- The paused case is reached. -/
example : ∃ s r s', run (prodProgram ++ [.pause]) {} = some s ∧ s.annotate = false ∧
    s.derivativeComponents 2 [0, 1] [0] 1 1 = some (r, s') ∧ s.derivative 2 [0, 1] 1 1 ≠ none ∧
    s.call 2 [0, 1] 1 [1, 2] ≠ none := by
  exact ⟨_, _, _, rfl, rfl, rfl, Option.some_ne_none _, Option.some_ne_none _⟩

end Session
end Pyadjoint
