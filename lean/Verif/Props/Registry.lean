import Verif.Model.Registry
import Mathlib.Data.List.Basic

/-!
# C58: the registry of overloaded types
-/

namespace Pyadjoint.Registry

mutual
/-- The classes an argument stands for, from left to right; `none` for a class without a second base. -/
def leaves (w : World) (ot : Cls) : Classes → List (Option Cls)
  | .default => [(w.bases ot)[1]?]
  | .one c => [some c]
  | .many l => leavesMany w ot l

/-- The same for several arguments. -/
def leavesMany (w : World) (ot : Cls) : List Classes → List (Option Cls)
  | [] => []
  | cl :: l => leaves w ot cl ++ leavesMany w ot l
end

/-- One call of `register_overloaded_type`. -/
abbrev Call := Cls × Classes

/-- The registrations a call makes: those before the first class that is missing. -/
def effect (w : World) (c : Call) : List (Cls × Cls) :=
  ((leaves w c.1 c.2).takeWhile Option.isSome).filterMap fun o => o.map fun k => (k, c.1)

/-- A history of calls (exceptions caught by the user), from an empty registry. -/
def history (w : World) (cs : List Call) : Reg := cs.foldl (fun r c => (register w c.1 c.2 r).1) fun _ => none

theorem takeWhile_append_all {α : Type*} (p : α → Bool) (l l' : List α) (h : ∀ x ∈ l, p x = true) :
    (l ++ l').takeWhile p = l ++ l'.takeWhile p := by
  induction l with
  | nil => rfl
  | cons a l ih =>
    simp only [List.cons_append, List.takeWhile_cons, h a (by simp), if_true]
    rw [ih fun x hx => h x (by simp [hx])]

theorem takeWhile_append_some {α : Type*} (p : α → Bool) (l l' : List α) (h : ∃ x ∈ l, p x = false) :
    (l ++ l').takeWhile p = l.takeWhile p := by
  induction l with
  | nil => obtain ⟨x, hx, _⟩ := h; cases hx
  | cons a l ih =>
    simp only [List.cons_append, List.takeWhile_cons]
    cases ha : p a with
    | false => rfl
    | true =>
      simp only [if_true]
      congr 1
      apply ih
      obtain ⟨x, hx, hp⟩ := h
      rcases List.mem_cons.1 hx with rfl | hx
      · rw [ha] at hp; cases hp
      · exact ⟨x, hx, hp⟩

/-- Assignments to the dictionary, in order. -/
def assign (r : Reg) (l : List (Cls × Cls)) : Reg := l.foldl (fun r p => Function.update r p.1 (some p.2)) r

mutual
theorem register_eq (w : World) (ot : Cls) (cl : Classes) (r : Reg) :
    (register w ot cl r).1 = assign r (((leaves w ot cl).takeWhile Option.isSome).filterMap fun o => o.map fun k => (k, ot)) ∧
      ((register w ot cl r).2 = true ↔ none ∈ leaves w ot cl) := by
  cases cl with
  | default =>
    rw [register, leaves]
    cases (w.bases ot)[1]? <;> simp [assign]
  | one c => rw [register, leaves]; simp [assign]
  | many l =>
    rw [register, leaves]
    exact registerMany_eq w ot l r
termination_by sizeOf cl

theorem registerMany_eq (w : World) (ot : Cls) (l : List Classes) (r : Reg) :
    (registerMany w ot l r).1 = assign r (((leavesMany w ot l).takeWhile Option.isSome).filterMap fun o => o.map fun k => (k, ot)) ∧
      ((registerMany w ot l r).2 = true ↔ none ∈ leavesMany w ot l) := by
  cases l with
  | nil => rw [registerMany, leavesMany]; simp [assign]
  | cons cl l =>
    rw [registerMany, leavesMany]
    obtain ⟨h1, h2⟩ := register_eq w ot cl r
    cases hr : register w ot cl r with
    | mk r1 e =>
      rw [hr] at h1 h2
      cases e with
      | true =>
        have hn : none ∈ leaves w ot cl := h2.1 rfl
        rw [takeWhile_append_some _ _ _ ⟨none, hn, rfl⟩]
        exact ⟨h1, by simp [hn]⟩
      | false =>
        have hn : none ∉ leaves w ot cl := fun h => by have := h2.2 h; cases this
        have hall : ∀ x ∈ leaves w ot cl, x.isSome = true := by
          intro x hx
          cases x with
          | none => exact absurd hx hn
          | some _ => rfl
        obtain ⟨h3, h4⟩ := registerMany_eq w ot l r1
        rw [takeWhile_append_all _ _ _ hall, List.filterMap_append]
        refine ⟨?_, ?_⟩
        · show (registerMany w ot l r1).1 = _
          rw [h3]
          simp only at h1
          have htw := takeWhile_append_all Option.isSome (leaves w ot cl) [] hall
          simp only [List.append_nil, List.takeWhile_nil] at htw
          rw [h1, htw]
          simp [assign, List.foldl_append]
        · show (registerMany w ot l r1).2 = true ↔ _
          rw [h4]
          simp [hn]
termination_by sizeOf l
end

theorem assign_apply (l : List (Cls × Cls)) (r : Reg) (c : Cls) :
    assign r l c = match l.reverse.find? (fun p => p.1 = c) with
      | some p => some p.2
      | none => r c := by
  induction l generalizing r with
  | nil => rfl
  | cons p l ih =>
    have : assign r (p :: l) = assign (Function.update r p.1 (some p.2)) l := rfl
    rw [this, ih, List.reverse_cons, List.find?_append]
    cases h : l.reverse.find? (fun p => p.1 = c) with
    | some q => rfl
    | none =>
      by_cases hp : p.1 = c
      · simp [hp]
      · simp [hp, Function.update_of_ne (Ne.symm hp)]

/-- **C58, registration.** After any history of calls of `register_overloaded_type`, with classes given by default, singly or in nested lists, the overloaded
class of `c` is that of the last registration made for exactly `c`; and a call raises exactly if it asks for the second base of a class without one, keeping
the registrations before it. -/
theorem registry_last_wins (w : World) (cs : List Call) (c : Cls) :
    getOverloadedClass (history w cs) c = ((cs.flatMap (effect w)).reverse.find? fun p => p.1 = c).map Prod.snd ∧
      ∀ (k : Call) (r : Reg), (register w k.1 k.2 r).2 = true ↔ none ∈ leaves w k.1 k.2 := by
  refine ⟨?_, fun k r => (register_eq w k.1 k.2 r).2⟩
  have key : ∀ (cs : List Call) (r : Reg), cs.foldl (fun r c => (register w c.1 c.2 r).1) r = assign r (cs.flatMap (effect w)) := by
    intro cs
    induction cs with
    | nil => intro r; rfl
    | cons k cs ih =>
      intro r
      rw [List.foldl_cons, ih, (register_eq w k.1 k.2 r).1, List.flatMap_cons]
      simp [assign, effect, List.foldl_append]
  unfold getOverloadedClass history
  rw [key, assign_apply]
  cases (cs.flatMap (effect w)).reverse.find? (fun p => p.1 = c) <;> rfl

/-- **C58, conversion.** `create_overloaded_object` returns an overloaded object unchanged, converts an object whose class is registered, and leaves any other
object as it is, with a warning unless that is suppressed.  If the registered classes construct overloaded objects, doing it again changes nothing. -/
theorem create_overloaded (w : World) (r : Reg) (hinit : ∀ c ot, r c = some ot → ∀ o, w.isOverloaded (w.init ot o).cls = true) (sup : Bool) (o : PyObj) :
    (w.isOverloaded o.cls = true → create w r sup o = (o, false)) ∧
    (∀ ot, w.isOverloaded o.cls = false → r o.cls = some ot → (create w r sup o) = (w.init ot o, false)) ∧
    (w.isOverloaded o.cls = false → r o.cls = none → create w r sup o = (o, !sup)) ∧
    (create w r sup (create w r sup o).1).1 = (create w r sup o).1 := by
  refine ⟨fun h => by simp [create, h], fun ot h h' => by simp [create, h, h'], fun h h' => by simp [create, h, h'], ?_⟩
  by_cases ho : w.isOverloaded o.cls = true
  · simp [create, ho]
  · cases hr : r o.cls with
    | none => simp [create, ho, hr]
    | some ot => simp [create, ho, hr, hinit _ _ hr o]

/-- **Only the exact class counts.** If `c` itself was never registered, an object of class `c` stays what it is, whatever its bases are: `True` is not made an
`AdjFloat` even when `int` (a base of `bool`) is registered. -/
theorem subclass_not_overloaded (w : World) (cs : List Call) (c : Cls) (hc : w.isOverloaded c = false)
    (hn : ∀ k ∈ cs, some c ∉ leaves w k.1 k.2) (o : PyObj) (ho : o.cls = c) : (create w (history w cs) false o) = (o, true) := by
  have h := (registry_last_wins w cs c).1
  have hnone : (cs.flatMap (effect w)).reverse.find? (fun p => p.1 = c) = none := by
    rw [List.find?_eq_none]
    intro p hp
    rw [List.mem_reverse, List.mem_flatMap] at hp
    obtain ⟨k, hk, hp⟩ := hp
    unfold effect at hp
    rw [List.mem_filterMap] at hp
    obtain ⟨q, hq, hqe⟩ := hp
    cases q with
    | none => cases hqe
    | some q =>
      cases hqe
      have := (List.takeWhile_sublist _).subset hq
      simp only [decide_eq_true_eq]
      rintro rfl
      exact hn k hk this
  rw [hnone] at h
  have h : history w cs c = none := h
  subst ho
  simp [create, hc, h]

/-- Classes: 0 `OverloadedType`, 1 `float`, 2 `AdjFloat(OverloadedType, float)`, 3 `int`, 4 `bool(int)`, 5 `numpy.float64` (example data). -/
def exWorld : World where
  isOverloaded := fun c => c = 0 || c = 2
  bases := fun c => if c = 2 then [0, 1] else if c = 4 then [3] else []
  init := fun ot o => ⟨ot, o.data⟩

/-- `@register_overloaded_type class AdjFloat(OverloadedType, float)` and `register_overloaded_type(AdjFloat, numpy.float64)` as in the sources, and `int` given
in a list (example data). -/
def exCalls : List Call := [(2, .default), (2, .one 5), (2, .many [.one 3, .many []])]

example : create exWorld (history exWorld exCalls) false ⟨1, 7⟩ = (⟨2, 7⟩, false) := by decide
example : create exWorld (history exWorld exCalls) false ⟨4, 1⟩ = (⟨4, 1⟩, true) :=
  subclass_not_overloaded exWorld exCalls 4 rfl (by decide) _ rfl
example : ∀ c ot, history exWorld exCalls c = some ot → ∀ o, exWorld.isOverloaded (exWorld.init ot o).cls = true := by
  intro c ot h o
  have : ot = 2 := by
    simp only [history, exCalls, List.foldl_cons, List.foldl_nil, register, registerMany, exWorld, if_true] at h
    simp only [List.getElem?_cons_succ, List.getElem?_cons_zero, Function.update_apply] at h
    split at h <;> [skip; split at h <;> [skip; split at h]] <;> simp_all
  subst this
  rfl

end Pyadjoint.Registry
