import Verif.Model.Tao
import Mathlib.Data.List.Forall2
import Mathlib.Algebra.BigOperators.Group.List.Basic

/-!
# C59: the layout of PETSc vectors
-/

namespace Pyadjoint.Tao

variable {K X : Type*}

/-! ### Specification -/

/-- The entries a component contributes to a vector, if it has room for `n`. -/
def entries (n : Nat) : Item K → List K
  | .num k => List.replicate n k
  | .obj l => l
  | .other => []

/-- The component can be stored in `n` entries. -/
def Fits (n : Nat) : Item K → Prop
  | .num _ => True
  | .obj l => l.length = n
  | .other => False

/-- A list cut into pieces of the given lengths. -/
def split : List Nat → List K → List (List K)
  | [], _ => []
  | n :: ns, y => y.take n :: split ns (y.drop n)

/-! ### Proofs -/

theorem isets_length (ns : List Nat) (off : Nat) : (isets ns off).length = ns.length := by
  induction ns generalizing off with
  | nil => rfl
  | cons n ns ih => simp [isets, ih]

theorem total_eq (ns : List Nat) : total ns = ns.sum := by
  unfold total
  have : ∀ (a : Nat), ns.foldl (· + ·) a = a + ns.sum := by
    induction ns with
    | nil => intro a; simp
    | cons n ns ih => intro a; simp only [List.foldl_cons, List.sum_cons]; rw [ih]; omega
  rw [this]; omega

theorem getSub_append (pre x : List K) (n : Nat) : getSub (pre ++ x) (pre.length, n) = x.take n := by
  unfold getSub
  rw [List.drop_left]

theorem setSub_append (pre x sub : List K) (n : Nat) : setSub (pre ++ x) (pre.length, n) sub = (pre ++ sub) ++ x.drop n := by
  unfold setSub
  rw [List.take_left, List.drop_length_add_append]

theorem toLoop_ok (ns : List Nat) (is : List (Item K)) (pre x : List K) (hx : x.length = ns.sum) (hf : List.Forall₂ Fits ns is) :
    toLoop true (pre ++ x) (isets ns pre.length) is = (.ok (), pre ++ (List.zipWith entries ns is).flatten) := by
  induction hf generalizing pre x with
  | nil =>
    have : x = [] := List.length_eq_zero_iff.1 (by simpa using hx)
    subst this
    simp [toLoop, isets]
  | @cons n i ns is hi _ ih =>
    have hn : (x.take n).length = n := by rw [List.length_take, hx, List.sum_cons]; omega
    have hd : (x.drop n).length = ns.sum := by rw [List.length_drop, hx, List.sum_cons]; omega
    rw [isets, toLoop.eq_def]
    cases i with
    | other => exact hi.elim
    | num k =>
      simp only [if_true, getSub_append, setSub_append, hn]
      have := ih (pre ++ List.replicate n k) (x.drop n) hd
      rw [List.length_append, List.length_replicate] at this
      rw [this]
      simp [entries]
    | obj l =>
      have hl : l.length = n := hi
      simp only [if_true, getSub_append, setSub_append, hn, hl, ne_eq, not_true_eq_false, if_false]
      have := ih (pre ++ l) (x.drop n) hd
      rw [List.length_append, hl] at this
      rw [this]
      simp [entries]

theorem toLoop_inv (ns : List Nat) (is : List (Item K)) (pre x : List K) (hx : x.length = ns.sum) (hl : is.length = ns.length)
    (hok : (toLoop true (pre ++ x) (isets ns pre.length) is).1 = .ok ()) : List.Forall₂ Fits ns is := by
  induction ns generalizing is pre x with
  | nil =>
    cases is with
    | nil => exact .nil
    | cons i is => cases hl
  | cons n ns ih =>
    match is, hl with
    | i :: is, hl =>
    have hn : (x.take n).length = n := by rw [List.length_take, hx, List.sum_cons]; omega
    have hd : (x.drop n).length = ns.sum := by rw [List.length_drop, hx, List.sum_cons]; omega
    rw [isets, toLoop.eq_def] at hok
    cases i with
    | other => cases hok
    | num k =>
      simp only [if_true, getSub_append, setSub_append, hn] at hok
      refine .cons trivial (ih is (pre ++ List.replicate n k) (x.drop n) hd (by simpa using hl) ?_)
      rw [List.length_append, List.length_replicate]
      exact hok
    | obj l =>
      simp only [if_true, getSub_append, setSub_append, hn, ne_eq] at hok
      by_cases hln : l.length = n
      · simp only [hln, not_true_eq_false, if_false] at hok
        refine .cons hln (ih is (pre ++ l) (x.drop n) hd (by simpa using hl) ?_)
        rw [List.length_append, hln]
        exact hok
      · simp only [hln, not_false_eq_true, if_true] at hok
        cases hok

theorem fromLoop_ok (c : Codec X K) (ns : List Nat) (xs : List X) (pre y : List K) (hy : y.length = ns.sum) (hs : xs.map c.size = ns) :
    fromLoop c (pre ++ y) (isets ns pre.length) xs = .ok (List.zipWith c.dec xs (split ns y)) := by
  induction xs generalizing ns pre y with
  | nil => cases ns with
    | nil => rfl
    | cons n ns => cases hs
  | cons x xs ih =>
    cases ns with
    | nil => cases hs
    | cons n ns =>
      simp only [List.map_cons, List.cons.injEq] at hs
      have hn : (y.take n).length = n := by rw [List.length_take, hy, List.sum_cons]; omega
      have hd : (y.drop n).length = ns.sum := by rw [List.length_drop, hy, List.sum_cons]; omega
      rw [isets, fromLoop.eq_def]
      simp only [getSub_append, hn, hs.1, ne_eq, not_true_eq_false, if_false]
      have := ih ns (pre ++ y.take n) (y.drop n) hd hs.2
      rw [List.append_assoc, List.take_append_drop, List.length_append, hn] at this
      rw [this]
      rfl

theorem split_flatten (ns : List Nat) (ls : List (List K)) (h : ls.map List.length = ns) : split ns ls.flatten = ls := by
  induction ls generalizing ns with
  | nil => subst h; rfl
  | cons l ls ih =>
    subst h
    simp only [List.map_cons, split, List.flatten_cons, List.take_left, List.drop_left]
    rw [ih _ rfl]

theorem flatten_split (ns : List Nat) (y : List K) (h : y.length = ns.sum) : (split ns y).flatten = y := by
  induction ns generalizing y with
  | nil =>
    cases y with
    | nil => rfl
    | cons i is => cases h
  | cons n ns ih =>
    rw [split, List.flatten_cons, ih, List.take_append_drop]
    rw [List.length_drop, h, List.sum_cons]; omega

theorem split_length (ns : List Nat) (y : List K) : (split ns y).length = ns.length := by
  induction ns generalizing y with
  | nil => rfl
  | cons n ns ih => simp [split, ih]

theorem split_lengths (ns : List Nat) (y : List K) (h : y.length = ns.sum) : (split ns y).map List.length = ns := by
  induction ns generalizing y with
  | nil => rfl
  | cons n ns ih =>
    rw [List.sum_cons] at h
    rw [split, List.map_cons, ih, List.length_take, h]
    · congr 1; omega
    · rw [List.length_drop, h]; omega

/-! ### Theorems -/

/-- **C59, `to_petsc`.** If sub-vectors share memory with the vector (as PETSc's do for index sets that are contiguous), `to_petsc` fills the vector with
the entries of the components one after the other, a number standing for a constant component; nothing of the old contents is left. -/
theorem to_petsc_concat (ns : List Nat) (is : List (Item K)) (x : List K) (hx : x.length = total ns) (hf : List.Forall₂ Fits ns is) :
    toPetsc true ns x (.tuple is) = (.ok (), (List.zipWith entries ns is).flatten) := by
  unfold toPetsc
  have hl : is.length = ns.length := hf.length_eq.symm
  simp only [Enlist.of, isets_length, hl, ne_eq, not_true_eq_false, if_false]
  have := toLoop_ok ns is [] x (by rw [hx, total_eq]) hf
  simpa using this

/-- **C59, errors of `to_petsc`.** It raises `ValueError` exactly for a wrong number of components, and otherwise succeeds exactly if every component is a
number or an overloaded object of the right size. -/
theorem to_petsc_errors (ns : List Nat) (is : List (Item K)) (x : List K) (hx : x.length = total ns) :
    ((toPetsc true ns x (.tuple is)).1 = .error .valueError ↔ is.length ≠ ns.length) ∧
    ((toPetsc true ns x (.tuple is)).1 = .ok () ↔ List.Forall₂ Fits ns is) ∧
    (is.length = ns.length → (∀ p ∈ ns.zip is, ∀ l, p.2 = .obj l → l.length = p.1) →
      ((toPetsc true ns x (.tuple is)).1 = .error .typeError ↔ .other ∈ is)) := by
  have hval : ∀ (ss : List (Nat × Nat)) (is : List (Item K)) (x : List K), (toLoop true x ss is).1 ≠ .error .valueError := by
    intro ss
    induction ss with
    | nil => intro is x h; simp [toLoop] at h
    | cons s ss ih =>
      intro is x h
      cases is with
      | nil => simp [toLoop] at h
      | cons i is =>
        rw [toLoop.eq_def] at h
        cases i with
        | other => cases h
        | num k => exact ih _ _ h
        | obj l =>
          simp only at h
          split at h
          · cases h
          · exact ih _ _ h
  by_cases hl : is.length = ns.length
  · have e : toPetsc true ns x (.tuple is) = toLoop true ([] ++ x) (isets ns ([] : List K).length) is := by
      unfold toPetsc
      simp only [Enlist.of, isets_length, hl, ne_eq, not_true_eq_false, if_false]
      rfl
    have hx' : x.length = ns.sum := by rw [hx, total_eq]
    refine ⟨⟨fun h => absurd h (by rw [e]; exact hval _ _ _), fun h => absurd hl h⟩, ⟨fun h => ?_, fun h => ?_⟩, fun _ hobj => ?_⟩
    · rw [e] at h; exact toLoop_inv ns is [] x hx' hl h
    · rw [e, toLoop_ok ns is [] x hx' h]
    · rw [e]
      clear e hx
      generalize ([] : List K) = pre
      induction ns generalizing is pre x with
      | nil =>
        cases is with
        | nil => simp [toLoop, isets]
        | cons i is => cases hl
      | cons n ns ih =>
        match is, hl with
        | i :: is, hl =>
        have hn : (x.take n).length = n := by rw [List.length_take, hx', List.sum_cons]; omega
        have hd : (x.drop n).length = ns.sum := by rw [List.length_drop, hx', List.sum_cons]; omega
        have ih' := fun sub (hs : sub.length = n) => ih is (x.drop n) (by simpa using hl) hd (by simpa using hl) (fun p hp => hobj p (by simp [hp])) (pre ++ sub)
        rw [isets, toLoop.eq_def]
        cases i with
        | other => simp
        | num k =>
          simp only [if_true, getSub_append, setSub_append, hn]
          have := ih' (List.replicate n k) (by simp)
          rw [List.length_append, List.length_replicate] at this
          rw [this]
          simp
        | obj l =>
          have hln : l.length = n := hobj (n, .obj l) (by simp) l rfl
          simp only [if_true, getSub_append, setSub_append, hn, hln, ne_eq, not_true_eq_false, if_false]
          have := ih' l hln
          rw [List.length_append, hln] at this
          rw [this]
          simp
  · have e : toPetsc true ns x (.tuple is) = (.error .valueError, x) := by
      unfold toPetsc
      simp only [Enlist.of, isets_length, ne_eq, hl, not_false_eq_true, if_true]
    refine ⟨⟨fun _ => hl, fun _ => by rw [e]⟩, ⟨fun h => ?_, fun h => absurd h.length_eq.symm hl⟩, fun h => absurd h hl⟩
    rw [e] at h; cases h

/-- **C59, `from_petsc`.** Every variable gets the piece of the vector that belongs to it. -/
theorem from_petsc_split (c : Codec X K) (xs : List X) (y : List K) (hy : y.length = total (xs.map c.size)) :
    fromPetsc c (xs.map c.size) y xs = .ok (List.zipWith c.dec xs (split (xs.map c.size) y)) := by
  unfold fromPetsc
  simp only [isets_length, List.length_map, ne_eq, not_true_eq_false, if_false]
  have := fromLoop_ok c (xs.map c.size) xs [] y (by rw [hy, total_eq]) rfl
  simpa using this

theorem zipWith_dec_enc (c : Codec X K) (hc : c.Lawful) (ws vs : List X) (h : ws.map c.size = vs.map c.size) :
    List.zipWith c.dec ws (vs.map c.enc) = vs := by
  induction vs generalizing ws with
  | nil => rw [List.map_eq_nil_iff.1 h]; rfl
  | cons v vs ih =>
    cases ws with
    | nil => cases h
    | cons w ws =>
      simp only [List.map_cons, List.cons.injEq] at h
      simp only [List.map_cons, List.zipWith_cons_cons]
      rw [hc.dec_enc w v h.1, ih ws h.2]

theorem map_enc_zipWith (c : Codec X K) (hc : c.Lawful) (ws : List X) (ls : List (List K)) (h : ls.map List.length = ws.map c.size) :
    (List.zipWith c.dec ws ls).map c.enc = ls := by
  induction ls generalizing ws with
  | nil => simp
  | cons l ls ih =>
    cases ws with
    | nil => cases h
    | cons w ws =>
      simp only [List.map_cons, List.cons.injEq] at h
      simp only [List.zipWith_cons_cons, List.map_cons]
      rw [hc.enc_dec w l h.1, ih ws h.2]

theorem zipWith_entries_obj (ns : List Nat) (ls : List (List K)) (h : ls.length = ns.length) :
    List.zipWith entries ns (ls.map Item.obj) = ls := by
  induction ls generalizing ns with
  | nil => simp
  | cons l ls ih =>
    cases ns with
    | nil => cases h
    | cons n ns => simp only [List.map_cons, List.zipWith_cons_cons, entries]; rw [ih ns (by simpa using h)]

theorem fits_obj (ls : List (List K)) : List.Forall₂ Fits (ls.map List.length) (ls.map Item.obj) := by
  induction ls with
  | nil => exact .nil
  | cons l ls ih => exact .cons rfl ih

/-- **C59, round trip.** Values written to a vector and read back into variables of the same sizes are the same values, whatever the variables and the
vector held before; and a vector read into variables and written to another vector is the same vector. -/
theorem petsc_round_trip (c : Codec X K) (hc : c.Lawful) (vs ws : List X) (hs : ws.map c.size = vs.map c.size) (x : List K)
    (hx : x.length = total (ws.map c.size)) :
    (∃ x', toPetsc true (ws.map c.size) x (.tuple (vs.map fun v => .obj (c.enc v))) = (.ok (), x') ∧
      fromPetsc c (ws.map c.size) x' ws = .ok vs) ∧
    (∃ us, fromPetsc c (ws.map c.size) x ws = .ok us ∧
      ∀ x', x'.length = x.length → toPetsc true (ws.map c.size) x' (.tuple (us.map fun v => .obj (c.enc v))) = (.ok (), x)) := by
  have hlen : ∀ vs : List X, (vs.map c.enc).map List.length = vs.map c.size := by
    intro vs; rw [List.map_map]; exact List.map_congr_left fun v _ => hc.length v
  have hto : ∀ (vs : List X) (x : List K), ws.map c.size = vs.map c.size → x.length = total (ws.map c.size) →
      toPetsc true (ws.map c.size) x (.tuple (vs.map fun v => .obj (c.enc v))) = (.ok (), (vs.map c.enc).flatten) := by
    intro vs x hs hx
    have hf := fits_obj (vs.map c.enc)
    rw [hlen, ← hs, List.map_map] at hf
    rw [show (vs.map fun v => (Item.obj (c.enc v) : Item K)) = vs.map (Item.obj ∘ c.enc) from rfl, to_petsc_concat _ _ _ hx hf]
    rw [← List.map_map, zipWith_entries_obj]
    have := congrArg List.length hs
    simpa using this.symm
  have hx' := hx
  rw [total_eq] at hx'
  refine ⟨⟨_, hto vs x hs hx, ?_⟩, ⟨_, from_petsc_split c ws x hx, ?_⟩⟩
  · rw [from_petsc_split c ws, hs, split_flatten _ _ (hlen vs), zipWith_dec_enc c hc ws vs hs]
    rw [List.length_flatten, hlen, total_eq, hs]
  · intro x' hxx
    have e := map_enc_zipWith c hc ws (split (ws.map c.size) x) (split_lengths _ _ hx')
    rw [hto _ x' _ (hxx.trans hx), e, flatten_split _ _ hx']
    have e2 := congrArg (List.map List.length) e
    rw [hlen, split_lengths _ _ hx'] at e2
    exact e2.symm

/-- **C59, sub-vectors that are copies.** `to_petsc` gives the sub-vector back to itself instead of to the vector: if it does not share memory with the vector,
nothing is ever written. -/
theorem to_petsc_copy_lost (ns : List Nat) (x : List K) (ys : Arg (Item K)) : (toPetsc false ns x ys).2 = x := by
  unfold toPetsc
  simp only
  split
  · rfl
  · generalize isets ns = ss
    generalize (Enlist.of ys).items = is
    induction ss generalizing is with
    | nil => simp [toLoop]
    | cons s ss ih =>
      cases is with
      | nil => simp [toLoop]
      | cons i is =>
        rw [toLoop.eq_def]
        cases i with
        | other => rfl
        | num k => exact ih is
        | obj l =>
          simp only [Bool.false_eq_true, if_false]
          split
          · rfl
          · exact ih is

/-- **C59, bounds.** The bound vector holds for every control its bound, a number standing for a constant, and the extreme number where no bound was given. -/
theorem tao_bounds (extreme : K) (ns : List Nat) (bs : List (Option (Item K))) (x : List K) (hx : x.length = total ns)
    (hf : List.Forall₂ (fun n b => ∀ i, b = some i → Fits n i) ns bs) :
    toPetsc true ns x (.list (boundItems extreme bs)) =
      (.ok (), (List.zipWith (fun n b => match b with
        | none => List.replicate n extreme
        | some i => entries n i) ns bs).flatten) := by
  have h2 : List.Forall₂ Fits ns (boundItems extreme bs) := by
    unfold boundItems
    rw [List.forall₂_map_right_iff]
    refine hf.imp fun n b h => ?_
    cases b with
    | none => trivial
    | some i => exact h i rfl
  have e := to_petsc_concat ns (boundItems extreme bs) x hx h2
  have : toPetsc true ns x (.list (boundItems extreme bs)) = toPetsc true ns x (.tuple (boundItems extreme bs)) := rfl
  rw [this, e]
  congr 2
  unfold boundItems
  rw [List.zipWith_map_right]
  congr 1
  funext n b
  cases b <;> rfl

/-- Lists as objects (example data). -/
def listCodec : Codec (List Int) Int := ⟨List.length, id, fun x l => if l.length = x.length then l else x⟩

theorem listCodec_lawful : listCodec.Lawful where
  length := fun _ => rfl
  size_dec := fun x l => by unfold listCodec; dsimp only; split <;> simp_all
  enc_dec := fun x l h => by unfold listCodec at *; dsimp only at *; rw [if_pos h]; rfl
  dec_enc := fun x y h => by unfold listCodec at *; dsimp only at *; exact if_pos h.symm

/-- Two controls with two entries and one, and the old contents of a vector, meet the hypotheses of the round trip. -/
example : fromPetsc listCodec [2, 1] [7, 8, 9] [[0, 0], [0]] = .ok [[7, 8], [9]] ∧
    (∃ x', toPetsc true ([[0, 0], [0]].map listCodec.size) [4, 5, 6] (.tuple ([[1, 2], [3]].map fun v => .obj (listCodec.enc v))) = (.ok (), x') ∧
      fromPetsc listCodec ([[0, 0], [0]].map listCodec.size) x' [[0, 0], [0]] = .ok [[1, 2], [3]]) :=
  ⟨from_petsc_split listCodec [[0, 0], [0]] [7, 8, 9] rfl,
    (petsc_round_trip listCodec listCodec_lawful [[1, 2], [3]] [[0, 0], [0]] rfl [4, 5, 6] rfl).1⟩

example : toPetsc true [2, 1] [4, 5, (6 : Int)] (.tuple [.num 3, .obj [9]]) = (.ok (), [3, 3, 9]) :=
  to_petsc_concat [2, 1] [.num 3, .obj [9]] [4, 5, 6] rfl (.cons trivial (.cons rfl .nil))

example : (toPetsc true [2, 1] [4, 5, (6 : Int)] (.tuple [.num 3, .other])).1 = .error .typeError :=
  ((to_petsc_errors [2, 1] [.num 3, .other] [4, 5, (6 : Int)] rfl).2.2 rfl (by simp)).2 (by simp)

example : toPetsc true [2, 1] [4, 5, (6 : Int)] (.list (boundItems (-100) [none, some (.num 2)])) = (.ok (), [-100, -100, 2]) :=
  tao_bounds (-100) [2, 1] [none, some (.num 2)] [4, 5, 6] rfl (.cons (by simp) (.cons (by simp [Fits]) .nil))

end Pyadjoint.Tao
