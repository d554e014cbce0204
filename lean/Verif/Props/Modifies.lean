import Verif.Model.Modifies

/-!
# C38: what `stop_annotating(modifies=...)` accepts and does
-/

namespace Pyadjoint
namespace Modifies

theorem foldl_clear (vs : List Nat) : ∀ w : World, vs.foldl clear w = { w with ref := fun v => if v ∈ vs then none else w.ref v } := by
  induction vs with
  | nil => intro w; simp
  | cons v vs ih =>
    intro w
    rw [List.foldl_cons, ih]
    simp only [clear, World.mk.injEq, true_and]
    funext u
    by_cases hu : u = v
    · subst hu; simp
    · simp [hu]

theorem exit_eq (m : Arg) (w : World) : exit m w =
    { w with enabled := w.stack.headD w.enabled, stack := w.stack.tail, ref := fun v => if v ∈ m.vars then none else w.ref v } := by
  cases m with
  | nothing => simp [exit, Arg.vars]
  | one v =>
    simp only [exit, clear, Arg.vars, World.mk.injEq, true_and]
    funext u
    by_cases hu : u = v
    · subst hu; simp
    · simp [hu]
  | list vs => simp only [exit, foldl_clear]; rfl

/-- **C38.**  A `stop_annotating(modifies=m)` which is not entered already, for a list of any objects, or one object whose truth value Python can tell: the body
is run with annotation off; afterwards, also if the body raised, annotation is as before, the objects named have no block variable, and the others have
the ones the body left.
Missing: arrays that are not in a list; see `modifies_array_raises`. -/
theorem modifies_partial (m : Arg) (body : World → World × Bool) (w : World) (hs : w.stack = []) (ht : (m.truth w).isSome)
    (hbody : ∀ w, (body w).1.stack = w.stack) :
    ∃ w₁ w₂ r, body w₁ = (w₂, r) ∧ w₁.enabled = false ∧ w₁.obj = w.obj ∧ w₁.ref = w.ref ∧
      withModifies m body w = .ok ({ w₂ with enabled := w.enabled, stack := [], ref := fun v => if v ∈ m.vars then none else w₂.ref v }, r) := by
  obtain ⟨b, hb⟩ := Option.isSome_iff_exists.1 ht
  refine ⟨{ w with stack := [w.enabled], enabled := false }, _, _, rfl, rfl, rfl, rfl, ?_⟩
  have hst := hbody { w with stack := [w.enabled], enabled := false }
  simp only [withModifies, enter, hb, hs, List.isEmpty_nil, Bool.not_true, Bool.and_false, Bool.false_eq_true, if_false, exit_eq]
  simp [hst]

/-- A list always has a truth value. -/
theorem list_truth (vs : List Nat) (w : World) : ((Arg.list vs).truth w).isSome := rfl

/-- **C38.**  Entered a second time, with objects to modify, it raises and changes nothing, for lists and for objects that count as true. -/
theorem modifies_nested_refused (m : Arg) (body : World → World × Bool) (w : World) (hs : w.stack ≠ []) (ht : m.truth w = some true) :
    withModifies m body w = .error .nested := by
  have : w.stack.isEmpty = false := by simpa using hs
  simp [withModifies, enter, ht, this]

/-- **C38 fails for arrays.**  `with stop_annotating(modifies=a)` with an array `a` of two or more entries raises NumPy's `ValueError`, nested or not,
whatever the body: the truth value of an array is ambiguous.  (`modifies=[a]` works.) -/
theorem modifies_array_raises (v : Nat) (x y : ℝ) (xs : List ℝ) (body : World → World × Bool) (w : World) (ha : w.obj v = .array (x :: y :: xs)) :
    withModifies (.one v) body w = .error .ambiguous ∧ withModifies (.list [v]) body w ≠ .error .ambiguous := by
  refine ⟨by simp [withModifies, enter, Arg.truth, ha, Obj.truth], ?_⟩
  by_cases h : w.stack.isEmpty = true <;> simp [withModifies, enter, Arg.truth, h]

/-- The check for nesting misses objects that count as false: an `AdjFloat` or an array of one entry that is zero. -/
theorem modifies_zero_nested (v : Nat) (body : World → World × Bool) (w : World) (h0 : w.obj v = .float 0 ∨ w.obj v = .array [0]) :
    withModifies (.one v) body w ≠ .error .nested := by
  rcases h0 with h | h <;> simp [withModifies, enter, Arg.truth, h, Obj.truth]

/-- Objects `0`: an array, `1`: a number, others; all have block variables. -/
noncomputable def demo : World where
  enabled := true
  stack := []
  obj := fun v => if v = 0 then .array [1, 2] else if v = 1 then .float 0 else .other
  ref := fun v => some v

/-- `modifies_partial`, a case that meets its hypotheses: the array in a list.  The body creates a block variable for object `2` and raises. -/
example : ∃ w', withModifies (.list [0, 1]) (fun w => ({ w with ref := Function.update w.ref 2 (some 7) }, false)) demo = .ok (w', false) ∧
    w'.enabled = true ∧ w'.ref 0 = none ∧ w'.ref 1 = none ∧ w'.ref 2 = some 7 ∧ w'.ref 3 = some 3 := by
  obtain ⟨w₁, w₂, r, h1, -, -, h2, h3⟩ := modifies_partial (.list [0, 1])
    (fun w => ({ w with ref := Function.update w.ref 2 (some 7) }, false)) demo rfl rfl (fun _ => rfl)
  cases h1
  refine ⟨_, h3, rfl, rfl, rfl, ?_, ?_⟩
  · simp [Arg.vars]
  · simp [Arg.vars, h2, demo]

/-- `modifies_nested_refused`, `modifies_array_raises` and `modifies_zero_nested`: cases that meet their hypotheses. -/
example : (Arg.one 2).truth { demo with stack := [true] } = some true ∧ demo.obj 0 = .array (1 :: 2 :: []) ∧ demo.obj 1 = .float 0 := by
  refine ⟨rfl, rfl, rfl⟩

end Modifies
end Pyadjoint
