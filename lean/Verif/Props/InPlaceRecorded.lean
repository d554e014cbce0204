import Verif.Props.InPlace

/-!
# C89: evaluation at the recorded values

For any type of values, floating-point numbers included: a reduced functional called with the values the control objects had when the controls were
made returns exactly the value that the program computed.
-/

namespace Pyadjoint
namespace InPlace

variable {V T A : Type*}

/-- The values the objects have when controls are made of them, in order, in a run of the program on a plain store. -/
def madeValues : List (Stmt V T A) → (Nat → V) → List V
  | [], _ => []
  | .op k vs o :: p, s => madeValues p (put s o (k.val (vs.map s)))
  | .modify o x :: p, s => madeValues p (put s o x)
  | .assign o x :: p, s => madeValues p (put s o x)
  | .control v :: p, s => s v :: madeValues p s

theorem given_made (ov : Nat → Option V) (p : List (Stmt V T A)) : ∀ (n : Nat) (s : Nat → V),
    (∀ j x, ov (n + j) = some x → (madeValues p s)[j]? = some x ∨ (madeValues p s).length ≤ j) → ∀ v x, given ov v p n = some x → x = s v := by
  induction p with
  | nil => intro n s _ v x hx; cases hx
  | cons st p ih =>
    intro n s h v x hx
    have hput : ∀ {o : Nat} {y : V}, ¬ o = v → put s o y v = s v := fun ho => if_neg fun h => ho h.symm
    cases st with
    | op k vs o =>
      simp only [given] at hx
      split at hx
      · cases hx
      · rename_i ho; exact (ih n _ h v x hx).trans (hput ho)
    | modify o y =>
      simp only [given] at hx
      split at hx
      · cases hx
      · rename_i ho; exact (ih n _ h v x hx).trans (hput ho)
    | assign o y =>
      simp only [given] at hx
      split at hx
      · cases hx
      · rename_i ho; exact (ih n _ h v x hx).trans (hput ho)
    | control u =>
      have h' : ∀ j x, ov (n + 1 + j) = some x → (madeValues p s)[j]? = some x ∨ (madeValues p s).length ≤ j := by
        intro j x hj
        have := h (j + 1) x (by rw [← hj]; congr 1; omega)
        simpa [madeValues] using this
      simp only [given] at hx
      split at hx
      · rename_i hu
        subst hu
        cases hov : ov n with
        | none => rw [hov] at hx; exact ih (n + 1) s h' u x hx
        | some y =>
          rw [hov] at hx
          have hx : some y = some x := hx
          cases hx
          have := h 0 _ hov
          simp [madeValues] at this
          exact this.symm
      · exact ih (n + 1) s h' v x hx

theorem rerunFrom_made (ov : Nat → Option V) (p : List (Stmt V T A)) : ∀ (n : Nat) (s : Nat → V),
    (∀ j x, ov (n + j) = some x → (madeValues p s)[j]? = some x ∨ (madeValues p s).length ≤ j) →
    rerunFrom ov p n s = rerunFrom (fun _ => none) p n s := by
  have hnone : ∀ (p : List (Stmt V T A)) v n, given (fun _ => (none : Option V)) v p n = none := by
    intro p
    induction p with
    | nil => intro v n; rfl
    | cons st p ih => intro v n; cases st <;> simp [given, ih]
  have hval : ∀ (p : List (Stmt V T A)) n (s : Nat → V) o (y : V),
      (∀ j x, ov (n + j) = some x → (madeValues p (put s o y))[j]? = some x ∨ (madeValues p (put s o y)).length ≤ j) →
      (given ov o p n).getD y = y := by
    intro p n s o y h
    cases hg : given ov o p n with
    | none => rfl
    | some x => exact (given_made ov p n _ h o x hg).trans (if_pos rfl)
  induction p with
  | nil => intro n s _; rfl
  | cons st p ih =>
    intro n s h
    cases st with
    | op k vs o => rw [rerunFrom, rerunFrom, hval p n s o _ h, hnone]; exact ih n _ h
    | modify o y => rw [rerunFrom, rerunFrom, hval p n s o _ h, hnone]; exact ih n _ h
    | assign o y => rw [rerunFrom, rerunFrom, hval p n s o _ h, hnone]; exact ih n _ h
    | control u =>
      rw [rerunFrom, rerunFrom]
      refine ih (n + 1) s fun j x hj => ?_
      have := h (j + 1) x (by rw [← hj]; congr 1; omega)
      simpa [madeValues] using this

theorem chosen_map (f : Nat → V) (sel : List Nat) (i : Nat) (x : V) (h : chosen sel (sel.map f) i = some x) : x = f i := by
  unfold chosen at h
  induction sel with
  | nil => cases h
  | cons a sel ih =>
    simp only [List.map_cons, List.zip_cons_cons, List.lookup_cons] at h
    split at h
    · rename_i he
      cases h
      rw [eq_of_beq he]
    · exact ih h

/-- **C89, evaluation at the recorded values.**  Whatever the operations and the type of values: called with the values the objects had when the
controls were made, `rf` returns the value the functional's object has at the end of the program, exactly. -/
theorem in_place_recorded_values (p : List (Stmt V T A)) (hp : ∀ st ∈ p, st.tracked) (vals : Nat → V) (J : Nat) (sel : List Nat)
    (hs : ∀ i ∈ sel, i < ((World.start vals).run p).controls.length)
    (hnd : (((World.start vals).run p).pick sel).Nodup) (d : V) :
    ((World.start vals).run p).rfCall J sel (sel.map fun i => (madeValues p vals).getD i d) = ((World.start vals).run p).vals J := by
  have hov : ∀ j x, chosen sel (sel.map fun i => (madeValues p vals).getD i d) (0 + j) = some x →
      (madeValues p vals)[j]? = some x ∨ (madeValues p vals).length ≤ j := by
    intro j x hj
    have := chosen_map _ sel _ x hj
    rw [Nat.zero_add, List.getD_eq_getElem?_getD] at this
    by_cases hl : j < (madeValues p vals).length
    · rw [List.getElem?_eq_getElem hl] at this ⊢
      exact Or.inl (congrArg some this.symm)
    · exact Or.inr (Nat.le_of_not_lt hl)
  rw [in_place_replay p hp vals J sel hs hnd _ (by simp), in_place_recording]
  have h0 : (fun v => (given (chosen sel (sel.map fun i => (madeValues p vals).getD i d)) v p 0).getD (vals v)) = vals := by
    funext v
    cases hg : given (chosen sel (sel.map fun i => (madeValues p vals).getD i d)) v p 0 with
    | none => rfl
    | some x => exact given_made _ p 0 vals hov v x hg
  unfold rerun
  rw [h0, rerunFrom_made _ p 0 vals hov]
  congr 2
  funext v
  rw [given_nothing]; rfl

/-- A case that meets the hypotheses, `docProgram` with `c2`, made when `u` is `3`. -/
example : madeValues docProgram (fun _ => 1) = [1, 3] ∧
    ((World.start fun _ => 1).run docProgram).rfCall 1 [1] [3] = 9 ∧ ((World.start fun _ => 1).run docProgram).vals 1 = 9 := by decide +kernel

/-- The value an object has at the end is not the one to give: `u` ends as `3`, and `rf(3)` with `c1`, made when `u` was `1`, is not the recorded `9`. -/
example : ((World.start fun _ => 1).run docProgram).vals 0 = 3 ∧ ((World.start fun _ => 1).run docProgram).rfCall 1 [0] [3] = 25 := by decide +kernel

end InPlace
end Pyadjoint
