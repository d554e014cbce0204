import Mathlib.Data.List.Forall2
import Mathlib.Tactic.Set
import Verif.Model.Overload

/-!
# Overloaded functions annotate once, and only when asked (C37)
-/

namespace Pyadjoint
namespace Ovl

variable {V : Type}

/-! ## Specification: what a function computes if there is no annotation -/

/-- The overloaded objects: values and number. -/
abbrev Mem (V : Type) := (Nat → V) × Nat

/-- Wrap one value as a new overloaded object, if its type is registered and it is not one yet. -/
def wrap (reg : V → Bool) (m : Mem V) : Val V → Mem V × Val V
  | .over i => (m, .over i)
  | .plain v => if reg v then ((Function.update m.1 m.2 v, m.2 + 1), .over m.2) else (m, .plain v)

/-- Wrap a list of values. -/
def wrapAll (reg : V → Bool) (m : Mem V) : List (Val V) → Mem V × List (Val V)
  | [] => (m, [])
  | x :: l => (((wrapAll reg (wrap reg m x).1 l).1), (wrap reg m x).2 :: (wrapAll reg (wrap reg m x).1 l).2)

/-- The plain meaning of code: flags, annotation keywords and blocks do not exist. -/
def plainRun (reg : V → Bool) : Code V → Mem V → Option (List (Val V)) × Mem V
  | .ret outs, m => (some outs, m)
  | .raise, m => (none, m)
  | .flag _ k, m => plainRun reg k m
  | .read i k, m => plainRun reg (k (m.1 i)) m
  | .call _ _ _ kw body k, m =>
    match plainRun reg (body kw) m with
    | (none, m) => (none, m)
    | (some outs, m) => plainRun reg (k (wrapAll reg m outs).2) (wrapAll reg m outs).1

/-- Code that never switches annotation on (`continue_annotation`), nor does anything it calls. -/
def Quiet : Code V → Prop
  | .ret _ => True
  | .raise => True
  | .flag b k => b = false ∧ Quiet k
  | .read _ k => ∀ v, Quiet (k v)
  | .call _ _ _ _ body k => (∀ kw, Quiet (body kw)) ∧ ∀ l, Quiet (k l)

/-- The objects among the arguments. -/
def objects : List (Val V) → List Nat
  | [] => []
  | .plain _ :: l => objects l
  | .over i :: l => i :: objects l

/-- Block variables belong to their objects. -/
def Inv (w : World V) : Prop := ∀ i b, w.ref i = some b → w.owner b = i ∧ b < w.nextBv

/-! ## Without annotation -/

theorem convertAll_eq (reg : V → Bool) (l : List (Val V)) (w : World V) : convertAll reg w l =
    ({ w with vals := (wrapAll reg (w.vals, w.nextObj) l).1.1, nextObj := (wrapAll reg (w.vals, w.nextObj) l).1.2 },
      (wrapAll reg (w.vals, w.nextObj) l).2) := by
  induction l generalizing w with
  | nil => rfl
  | cons x l ih =>
    cases x with
    | over i =>
      show (((convertAll reg w l).1), _) = _
      rw [ih]
      rfl
    | plain v =>
      unfold convertAll convert wrapAll wrap
      by_cases hr : reg v
      · simp only [hr, if_true]
        rw [ih]
      · simp only [hr, Bool.false_eq_true, if_false]
        rw [ih]

/-- Quiet code with annotation off computes the plain meaning, and touches neither flag, block variables nor tape. -/
theorem run_quiet (reg : V → Bool) (c : Code V) (hq : Quiet c) : ∀ w : World V, w.enabled = false →
    run reg c w = ((plainRun reg c (w.vals, w.nextObj)).1,
      { w with
        vals := (plainRun reg c (w.vals, w.nextObj)).2.1, nextObj := (plainRun reg c (w.vals, w.nextObj)).2.2 }) := by
  induction c with
  | ret outs => intro w _; rfl
  | raise => intro w _; rfl
  | flag b k ih =>
    intro w hw
    obtain ⟨rfl, hk⟩ := hq
    have : ({ w with enabled := false } : World V) = w := by rw [← hw]
    show run reg k { w with enabled := false } = _
    rw [this]
    exact ih hk w hw
  | read i k ih =>
    intro w hw
    exact ih (w.vals i) (hq _) w hw
  | call keys args annotate kw body k ihb ihk =>
    intro w hw
    have hb := ihb kw (hq.1 kw) w hw
    have hcall : callWith reg (fun kw => run reg (body kw)) keys args annotate kw w =
        match plainRun reg (body kw) (w.vals, w.nextObj) with
        | (none, m) => (none, { w with vals := m.1, nextObj := m.2 })
        | (some outs, m) => (some (wrapAll reg m outs).2, { w with
            vals := (wrapAll reg m outs).1.1, nextObj := (wrapAll reg m outs).1.2 }) := by
      unfold callWith
      rw [if_neg (by simp [hw])]
      have : ({ w with enabled := false } : World V) = w := by rw [← hw]
      simp only [this]
      rw [hb]
      generalize plainRun reg (body kw) (w.vals, w.nextObj) = X
      obtain ⟨r, m⟩ := X
      cases r with
      | none => rfl
      | some outs =>
        simp only
        rw [convertAll_eq]
    rw [run, hcall]
    have hp : plainRun reg (.call keys args annotate kw body k) (w.vals, w.nextObj) =
        match plainRun reg (body kw) (w.vals, w.nextObj) with
        | (none, m) => (none, m)
        | (some outs, m) => plainRun reg (k (wrapAll reg m outs).2) (wrapAll reg m outs).1 := by rw [plainRun]
    rw [hp]
    generalize plainRun reg (body kw) (w.vals, w.nextObj) = X
    obtain ⟨r, m⟩ := X
    cases r with
    | none => rfl
    | some outs =>
      simp only
      exact ihk _ (hq.2 _) { w with vals := (wrapAll reg m outs).1.1, nextObj := (wrapAll reg m outs).1.2 } hw

/-- **C37, not annotating.** With annotation off, or `annotate=False`: the call returns the plain function's outputs (wrapped), and flag, block
variables and tape are as before, whether or not the function raises. -/
theorem overload_silent (reg : V → Bool) (keys : List String) (args : List (Val V)) (annotate : Option Bool)
    (kw : List (String × V)) (body : List (String × V) → Code V) (w : World V)
    (hoff : w.enabled = false ∨ annotate = some false) (hq : Quiet (body kw)) :
    ∃ (r : Option (List (Val V))) (m : Mem V),
      callWith reg (fun kw => run reg (body kw)) keys args annotate kw w = (r, { w with vals := m.1, nextObj := m.2 }) ∧
      (∀ outs m₀, plainRun reg (body kw) (w.vals, w.nextObj) = (some outs, m₀) → (m, r) = ((wrapAll reg m₀ outs).1, some (wrapAll reg m₀ outs).2)) ∧
      ((plainRun reg (body kw) (w.vals, w.nextObj)).1 = none → r = none) := by
  have hb := run_quiet reg (body kw) hq { w with enabled := false } rfl
  unfold callWith
  rw [if_neg (by rcases hoff with h | h <;> simp [h])]
  simp only
  rw [hb]
  simp only
  generalize plainRun reg (body kw) (w.vals, w.nextObj) = X
  obtain ⟨r, m⟩ := X
  cases r with
  | none => exact ⟨none, m, rfl, fun _ _ h => (by cases h), fun _ => rfl⟩
  | some outs =>
    simp only
    rw [convertAll_eq]
    refine ⟨_, (wrapAll reg m outs).1, rfl, fun outs' m₀ h => ?_, fun h => by cases h⟩
    cases h
    rfl

/-! ## With annotation -/

theorem blockVar_spec (w : World V) (i : Nat) (h : Inv w) :
    Inv (blockVar w i).1 ∧ (blockVar w i).1.ref i = some (blockVar w i).2 ∧
    (∀ j b, w.ref j = some b → (blockVar w i).1.ref j = some b) ∧ (∀ b < w.nextBv, (blockVar w i).1.owner b = w.owner b) ∧
    w.nextBv ≤ (blockVar w i).1.nextBv ∧ (blockVar w i).1.enabled = w.enabled ∧ (blockVar w i).1.vals = w.vals ∧
    (blockVar w i).1.nextObj = w.nextObj ∧ (blockVar w i).1.tape = w.tape := by
  unfold blockVar
  cases hr : w.ref i with
  | some b => exact ⟨h, hr, fun _ _ h => h, fun _ _ => rfl, Nat.le_refl _, rfl, rfl, rfl, rfl⟩
  | none =>
    refine ⟨fun j b hj => ?_, by simp, fun j b hj => ?_, fun b hb => ?_, Nat.le_succ _, rfl, rfl, rfl, rfl⟩
    · by_cases hji : j = i
      · subst hji
        simp only [Function.update_self, Option.some.injEq] at hj
        subst hj
        exact ⟨by simp, Nat.lt_succ_self _⟩
      · simp only [Function.update_of_ne hji] at hj
        have := h j b hj
        refine ⟨?_, Nat.lt_succ_of_lt this.2⟩
        show Function.update w.owner w.nextBv i b = j
        rw [Function.update_of_ne (by omega), this.1]
    · have hji : j ≠ i := by rintro rfl; rw [hr] at hj; cases hj
      show Function.update w.ref i _ j = _
      rw [Function.update_of_ne hji, hj]
    · show Function.update w.owner w.nextBv i b = _
      rw [Function.update_of_ne (by omega)]

/-- The dependencies recorded are the arguments' block variables, in order, with the ones they had. -/
theorem construct_spec (args : List (Val V)) (w : World V) (h : Inv w) :
    Inv (construct w args).1 ∧
    List.Forall₂ (fun b i => (construct w args).1.owner b = i ∧ b < (construct w args).1.nextBv ∧ ∀ b₀, w.ref i = some b₀ → b = b₀)
      (construct w args).2 (objects args) ∧
    (∀ j b, w.ref j = some b → (construct w args).1.ref j = some b) ∧ (∀ b < w.nextBv, (construct w args).1.owner b = w.owner b) ∧
    w.nextBv ≤ (construct w args).1.nextBv ∧ (construct w args).1.enabled = w.enabled ∧ (construct w args).1.vals = w.vals ∧
    (construct w args).1.nextObj = w.nextObj ∧ (construct w args).1.tape = w.tape := by
  induction args generalizing w with
  | nil => exact ⟨h, .nil, fun _ _ h => h, fun _ _ => rfl, Nat.le_refl _, rfl, rfl, rfl, rfl⟩
  | cons a args ih =>
    cases a with
    | plain v => exact ih w h
    | over i =>
      obtain ⟨b1, b2, b3, b4, b5, b6, b7, b8, b9⟩ := blockVar_spec w i h
      obtain ⟨c1, c2, c3, c4, c5, c6, c7, c8, c9⟩ := ih (blockVar w i).1 b1
      have e1 : (construct w (.over i :: args)).1 = (construct (blockVar w i).1 args).1 := rfl
      have e2 : (construct w (.over i :: args)).2 = (blockVar w i).2 :: (construct (blockVar w i).1 args).2 := rfl
      rw [e1, e2]
      have hown := b1 i _ b2
      refine ⟨c1, .cons ⟨?_, Nat.lt_of_lt_of_le hown.2 c5, ?_⟩ ?_, fun j b hj => c3 j b (b3 j b hj), fun b hb => ?_,
        Nat.le_trans b5 c5, c6.trans b6, c7.trans b7, c8.trans b8, c9.trans b9⟩
      · rw [c4 _ hown.2, hown.1]
      · intro b₀ hb₀
        have := b3 i b₀ hb₀
        rw [b2] at this
        exact Option.some.inj this
      · refine List.Forall₂.imp ?_ c2
        intro b j hbj
        exact ⟨hbj.1, hbj.2.1, fun b₀ hb₀ => hbj.2.2 b₀ (b3 j b₀ hb₀)⟩
      · rw [c4 b (Nat.lt_of_lt_of_le hb b5), b4 b hb]

/-- The outputs get new block variables, in order. -/
theorem addOutputs_spec (ys : List (Val V)) (hys : ∀ y ∈ ys, ∃ i, y = .over i) (w : World V) (h : Inv w) :
    ∃ outs, (addOutputs w ys).2 = some outs ∧ Inv (addOutputs w ys).1 ∧
      List.Forall₂ (fun b y => y = .over ((addOutputs w ys).1.owner b)) outs ys ∧
      outs = List.range' w.nextBv ys.length ∧ (∀ b < w.nextBv, (addOutputs w ys).1.owner b = w.owner b) ∧
      w.nextBv ≤ (addOutputs w ys).1.nextBv ∧ (addOutputs w ys).1.enabled = w.enabled ∧ (addOutputs w ys).1.vals = w.vals ∧
      (addOutputs w ys).1.nextObj = w.nextObj ∧ (addOutputs w ys).1.tape = w.tape := by
  induction ys generalizing w with
  | nil => exact ⟨[], rfl, h, .nil, rfl, fun _ _ => rfl, Nat.le_refl _, rfl, rfl, rfl, rfl⟩
  | cons y ys ih =>
    obtain ⟨i, rfl⟩ := hys y (List.mem_cons_self ..)
    let w₁ : World V := { w with
      ref := Function.update w.ref i (some w.nextBv), owner := Function.update w.owner w.nextBv i, nextBv := w.nextBv + 1 }
    have h₁ : Inv w₁ := by
      intro j b hj
      by_cases hji : j = i
      · subst hji
        simp only [w₁, Function.update_self, Option.some.injEq] at hj
        subst hj
        exact ⟨by simp [w₁], Nat.lt_succ_self _⟩
      · simp only [w₁, Function.update_of_ne hji] at hj
        have := h j b hj
        refine ⟨?_, Nat.lt_succ_of_lt this.2⟩
        show Function.update w.owner w.nextBv i b = j
        rw [Function.update_of_ne (by omega), this.1]
    obtain ⟨outs, c1, c2, c3, c4, c5, c6, c7, c8, c9, c10⟩ := ih (fun y hy => hys y (List.mem_cons_of_mem _ hy)) w₁ h₁
    have e1 : (addOutputs w (.over i :: ys)).1 = (addOutputs w₁ ys).1 := rfl
    have e2 : (addOutputs w (.over i :: ys)).2 = (addOutputs w₁ ys).2.map (w.nextBv :: ·) := rfl
    rw [e1, e2, c1]
    have hb : w.nextBv < w₁.nextBv := Nat.lt_succ_self _
    refine ⟨_, rfl, c2, .cons ?_ c3, ?_, fun b hb' => ?_, Nat.le_trans (Nat.le_succ _) c6, c7, c8, c9, c10⟩
    · rw [c5 _ hb]
      simp [w₁]
    · rw [c4]; rfl
    · rw [c5 b (Nat.lt_succ_of_lt hb')]
      show Function.update w.owner w.nextBv i b = _
      rw [Function.update_of_ne (by omega)]

theorem blockKw_perm (keys : List String) (kw : List (String × V)) : (blockKw keys kw).Perm kw := by
  unfold blockKw rest
  have := List.filter_append_perm (fun p : String × V => decide (p.1 ∈ keys)) kw
  simpa using this

/-- **C37, annotating.** With annotation on and `annotate` not `False`, for any function that does not itself switch annotation on and whose plain
run (with the block's own keywords removed) returns `outs`, all of registered types: the call returns `outs` wrapped, leaves the flag on, and adds
exactly one block; its keywords are all those given; its dependencies are the overloaded arguments in order, with the block variables they
had; its outputs are new block variables of the returned objects, in order.  Nothing that happened inside the function is recorded. -/
theorem overload_annotates_partial (reg : V → Bool) (keys : List String) (args : List (Val V)) (annotate : Option Bool)
    (kw : List (String × V)) (body : List (String × V) → Code V) (w : World V) (hI : Inv w) (hon : w.enabled = true)
    (ha : annotate ≠ some false) (hq : Quiet (body (rest keys kw))) (outs : List (Val V)) (m : Mem V)
    (hplain : plainRun reg (body (rest keys kw)) (w.vals, w.nextObj) = (some outs, m))
    (hreg : ∀ y ∈ (wrapAll reg m outs).2, ∃ i, y = .over i) :
    ∃ w' rec, callWith reg (fun kw => run reg (body kw)) keys args annotate kw w = (some (wrapAll reg m outs).2, w') ∧
      w'.enabled = true ∧ (w'.vals, w'.nextObj) = (wrapAll reg m outs).1 ∧ Inv w' ∧ w'.tape = w.tape ++ [rec] ∧
      rec.kw.Perm kw ∧
      List.Forall₂ (fun b i => w'.owner b = i ∧ ∀ b₀, w.ref i = some b₀ → b = b₀) rec.deps (objects args) ∧
      List.Forall₂ (fun b y => y = .over (w'.owner b)) rec.outs (wrapAll reg m outs).2 ∧
      rec.outs.Nodup ∧ (∀ b ∈ rec.outs, w.nextBv ≤ b ∧ b ∉ rec.deps) := by
  obtain ⟨c1, c2, c3, c4, c5, c6, c7, c8, c9⟩ := construct_spec args w hI
  unfold callWith
  have hann : (w.enabled && annotate.getD true) = true := by
    rw [hon]
    cases annotate with
    | none => rfl
    | some b => cases b with
      | true => rfl
      | false => exact absurd rfl ha
  rw [if_pos hann]
  generalize hX : construct w args = X at *
  obtain ⟨w₁, deps⟩ := X
  simp only at c1 c2 c3 c4 c5 c6 c7 c8 c9 ⊢
  have hb := run_quiet reg (body (rest keys kw)) hq { w₁ with enabled := false } rfl
  simp only at hb
  rw [hb]
  simp only
  rw [c7, c8, hplain]
  simp only
  rw [convertAll_eq]
  simp only
  unfold finish
  set w₂ : World V := { w₁ with vals := (wrapAll reg m outs).1.1, nextObj := (wrapAll reg m outs).1.2 } with hw₂
  have hI₂ : Inv w₂ := c1
  obtain ⟨os, d1, d2, d3, d4, d5, d6, d7, d8, d9, d10⟩ := addOutputs_spec (wrapAll reg m outs).2 hreg w₂ hI₂
  generalize hY : addOutputs w₂ (wrapAll reg m outs).2 = Y at *
  obtain ⟨w₃, r⟩ := Y
  simp only at d1 d2 d3 d4 d5 d6 d7 d8 d9 d10
  subst d1
  simp only
  refine ⟨_, ⟨blockKw keys kw, deps, os⟩, rfl, ?_, ?_, d2, ?_, blockKw_perm keys kw, ?_, d3, ?_, ?_⟩
  · show w₃.enabled = true
    rw [d7]; exact c6.trans hon
  · show (w₃.vals, w₃.nextObj) = _
    rw [d8, d9]
  · show w₃.tape ++ _ = _
    rw [d10]
    show w₁.tape ++ _ = _
    rw [c9]
  · refine List.Forall₂.imp ?_ c2
    intro b i hbi
    refine ⟨?_, hbi.2.2⟩
    show w₃.owner b = i
    rw [d5 b hbi.2.1]
    exact hbi.1
  · show os.Nodup
    rw [d4]; exact List.nodup_range'
  · intro b hb
    have hb' : b ∈ os := hb
    rw [d4, List.mem_range'] at hb'
    have hge : w₁.nextBv ≤ b := by
      obtain ⟨k, _, hk⟩ := hb'
      have : w₂.nextBv = w₁.nextBv := rfl
      omega
    refine ⟨Nat.le_trans c5 hge, fun hd => ?_⟩
    have hall : ∀ (l : List Nat) (is : List Nat), List.Forall₂ (fun b i => w₁.owner b = i ∧ b < w₁.nextBv ∧ ∀ b₀, w.ref i = some b₀ → b = b₀) l is →
        ∀ b ∈ l, b < w₁.nextBv := by
      intro l is hf
      induction hf with
      | nil => intro b hb; cases hb
      | cons hx _ ih =>
        intro b hb
        rcases List.mem_cons.1 hb with rfl | hb
        · exact hx.2.1
        · exact ih b hb
    have := hall _ _ c2 b hd
    omega

/-- **C37, exceptions.** If the function raises, the call raises, nothing is recorded, and annotation is on again. -/
theorem overload_raises (reg : V → Bool) (keys : List String) (args : List (Val V)) (annotate : Option Bool)
    (kw : List (String × V)) (body : List (String × V) → Code V) (w : World V) (hI : Inv w) (hon : w.enabled = true)
    (ha : annotate ≠ some false) (hq : Quiet (body (rest keys kw)))
    (hplain : (plainRun reg (body (rest keys kw)) (w.vals, w.nextObj)).1 = none) :
    ∃ w', callWith reg (fun kw => run reg (body kw)) keys args annotate kw w = (none, w') ∧ w'.enabled = true ∧ w'.tape = w.tape ∧
      ∀ j b, w.ref j = some b → w'.ref j = some b := by
  obtain ⟨c1, c2, c3, c4, c5, c6, c7, c8, c9⟩ := construct_spec args w hI
  unfold callWith
  have hann : (w.enabled && annotate.getD true) = true := by
    rw [hon]
    cases annotate with
    | none => rfl
    | some b => cases b with
      | true => rfl
      | false => exact absurd rfl ha
  rw [if_pos hann]
  generalize hX : construct w args = X at *
  obtain ⟨w₁, deps⟩ := X
  simp only at c1 c2 c3 c4 c5 c6 c7 c8 c9 ⊢
  have hb := run_quiet reg (body (rest keys kw)) hq { w₁ with enabled := false } rfl
  simp only at hb
  rw [hb]
  simp only
  rw [c7, c8, hplain]
  simp only
  exact ⟨_, rfl, c6.trans hon, c9, c3⟩

/-! ## Examples and where the property fails -/

/-- All values are of a registered type. -/
def allReg : Int → Bool := fun _ => true

/-- Reads object 0 and returns the double, as the code of an overloaded function without keywords of its own. -/
def doubleCode : Code Int := .read 0 fun v => .ret [.plain (2 * v)]

/-- Calls the overloaded `doubleCode` and returns its output plus one as a plain value. -/
def nestedCode : Code Int := .call [] [.over 0] none [] (fun _ => doubleCode) fun ys =>
  match ys with
  | [.over i] => .read i fun v => .ret [.plain (v + 1)]
  | _ => .raise

/-- One object with value 5, annotation on, nothing recorded. -/
def world5 : World Int where
  enabled := true
  vals := fun _ => 5
  nextObj := 1
  ref := fun _ => none
  owner := fun _ => 0
  nextBv := 0
  tape := []

theorem world5_inv : Inv world5 := fun _ _ h => by cases h

/-- The hypotheses of `overload_annotates_partial` hold for a function that calls another overloaded function; one block is recorded. -/
example : Quiet nestedCode ∧ (plainRun allReg nestedCode (world5.vals, world5.nextObj)).1.isSome ∧
    (callWith allReg (fun _ => run allReg nestedCode) [] [.over 0] none [] world5).2.tape.length = 1 := by
  refine ⟨⟨fun _ _ => trivial, fun l => ?_⟩, rfl, rfl⟩
  match l with
  | [] => trivial
  | [.over _] => exact fun _ => trivial
  | [.plain _] => trivial
  | .over _ :: _ :: _ => trivial
  | .plain _ :: _ :: _ => trivial

/-- **C37 needs functions that leave annotation off.** If the function calls `continue_annotation`, what it calls afterwards is recorded
too: two blocks for one call. -/
theorem continue_inside_records :
    (callWith allReg (fun _ => run allReg (.flag true nestedCode)) [] [.over 0] none [] world5).2.tape.length = 2 := rfl

/-- **Keywords of the block class.** A function without keywords of its own raises if it gets one.  With `pop_kwargs_keys = ["tag"]` and the
keyword `tag` given, the call works while annotation is on; with annotation off the keyword is not removed, and the call raises. -/
theorem block_keywords_reach_function :
    let strict : List (String × Int) → Code Int := fun kw => if kw.isEmpty then doubleCode else .raise
    (callWith allReg (fun kw => run allReg (strict kw)) ["tag"] [.over 0] none [("tag", 1)] world5).1.isSome ∧
    (callWith allReg (fun kw => run allReg (strict kw)) ["tag"] [.over 0] none [("tag", 1)] { world5 with enabled := false }).1 = none ∧
    (callWith allReg (fun kw => run allReg (strict kw)) ["tag"] [.over 0] (some false) [("tag", 1)] world5).1 = none :=
  ⟨rfl, rfl, rfl⟩

/-- **Unregistered outputs.** If the function's output has no overloaded type the call raises when annotating, after the function was
run, and returns it when not. -/
theorem unregistered_output :
    (callWith (fun _ => false) (fun _ => run (fun _ => false) doubleCode) [] [.over 0] none [] world5).1 = none ∧
    (callWith (fun _ => false) (fun _ => run (fun _ => false) doubleCode) [] [.over 0] (some false) [] world5).1 = some [.plain 10] :=
  ⟨rfl, rfl⟩

end Ovl
end Pyadjoint
