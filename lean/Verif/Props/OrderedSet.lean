import Verif.Model.OrderedSet

/-! # C17: `OrderedSet` -/

namespace Pyadjoint.OSet

variable {α : Type*} [DecidableEq α]

/-! ## Specification: when an element got in -/

/-- The number of the operation by which `x` came into the set and has stayed since; `none` if it
is not in the set.  Operations are numbered from `k`. -/
def bornFrom (x : α) : Nat → Option Nat → List (SetOp α) → Option Nat
  | _, b, [] => b
  | k, b, .add y :: ops => bornFrom x (k + 1) (if x = y then some (b.getD k) else b) ops
  | k, b, .discard y :: ops => bornFrom x (k + 1) (if x = y then none else b) ops

/-- See `bornFrom`. -/
def born (ops : List (SetOp α)) (x : α) : Option Nat := bornFrom x 0 none ops

theorem elems_add (s : OSet α) (x : α) :
    (s.add x).elems = if x ∈ s.elems then s.elems else s.elems ++ [x] := by
  unfold add; split <;> rfl

theorem elems_discard (s : OSet α) (x : α) : (s.discard x).elems = s.elems.erase x := by
  unfold discard remove contains
  by_cases h : x ∈ s.elems
  · simp [h]
  · simp [h, List.erase_of_not_mem h]

/-- Invariant: `b` gives the birth numbers of the elements, all smaller than `k`. -/
structure Inv (s : OSet α) (b : α → Option Nat) (k : Nat) : Prop where
  nodup : s.elems.Nodup
  mem : ∀ x, x ∈ s.elems ↔ (b x).isSome
  lt : ∀ x n, b x = some n → n < k
  sorted : s.elems.Pairwise fun x y => (b x).getD 0 < (b y).getD 0

theorem Inv.apply {s : OSet α} {b : α → Option Nat} {k : Nat} (h : Inv s b k) (op : SetOp α) :
    Inv (op.apply s) (fun x => bornFrom x k (b x) [op]) (k + 1) := by
  cases op with
  | add y =>
    simp only [bornFrom, SetOp.apply]
    by_cases hy : y ∈ s.elems
    · have hs := (h.mem y).1 hy
      have e : (fun x => if x = y then some ((b x).getD k) else b x) = b := by
        funext x
        split
        · rename_i hx; subst hx
          obtain ⟨n, hn⟩ := Option.isSome_iff_exists.1 hs
          rw [hn]; rfl
        · rfl
      have e2 : s.add y = s := by unfold add; rw [if_pos hy]
      rw [e, e2]
      exact ⟨h.nodup, h.mem, fun x n hn => Nat.lt_succ_of_lt (h.lt x n hn), h.sorted⟩
    · have hb : b y = none := by
        rw [← Option.not_isSome_iff_eq_none]; exact fun hs => hy ((h.mem y).2 hs)
      refine ⟨?_, ?_, ?_, ?_⟩
      · rw [elems_add, if_neg hy, List.nodup_append]
        refine ⟨h.nodup, by simp, ?_⟩
        intro a ha b hb
        rw [List.mem_singleton] at hb
        subst hb
        rintro rfl; exact hy ha
      · intro x
        rw [elems_add, if_neg hy, List.mem_append, List.mem_singleton]
        by_cases hx : x = y
        · simp [hx]
        · simp [hx, h.mem]
      · intro x n
        by_cases hx : x = y
        · subst hx
          simp only [if_true, hb, Option.getD_none, Option.some.injEq]
          rintro rfl; exact Nat.lt_succ_self _
        · simp only [hx, if_false]
          exact fun hn => Nat.lt_succ_of_lt (h.lt x n hn)
      · rw [elems_add, if_neg hy, List.pairwise_append]
        refine ⟨?_, by simp, ?_⟩
        · refine h.sorted.imp_of_mem fun {p q} hp hq hpq => ?_
          rw [if_neg (by rintro rfl; exact hy hp), if_neg (by rintro rfl; exact hy hq)]
          exact hpq
        · intro p hp q hq
          rw [List.mem_singleton] at hq
          subst hq
          rw [if_neg (by rintro rfl; exact hy hp), if_pos rfl, hb]
          obtain ⟨n, hn⟩ := Option.isSome_iff_exists.1 ((h.mem p).1 hp)
          rw [hn]
          exact h.lt p n hn
  | discard y =>
    simp only [bornFrom, SetOp.apply]
    refine ⟨?_, ?_, ?_, ?_⟩
    · rw [elems_discard]; exact h.nodup.erase y
    · intro x
      rw [elems_discard, h.nodup.mem_erase_iff, h.mem]
      by_cases hx : x = y <;> simp [hx]
    · intro x n
      split
      · intro hn; cases hn
      · exact fun hn => Nat.lt_succ_of_lt (h.lt x n hn)
    · rw [elems_discard]
      refine (h.sorted.sublist List.erase_sublist).imp_of_mem fun {p q} hp hq hpq => ?_
      rw [if_neg ((h.nodup.mem_erase_iff).1 hp).1, if_neg ((h.nodup.mem_erase_iff).1 hq).1]
      exact hpq

theorem bornFrom_cons (x : α) (k : Nat) (b : Option Nat) (op : SetOp α) (ops : List (SetOp α)) :
    bornFrom x k b (op :: ops) = bornFrom x (k + 1) (bornFrom x k b [op]) ops := by
  cases op <;> rfl

theorem Inv.run (ops : List (SetOp α)) {s : OSet α} {b : α → Option Nat} {k : Nat} (h : Inv s b k) :
    Inv (ops.foldl SetOp.apply s) (fun x => bornFrom x k (b x) ops) (k + ops.length) := by
  induction ops generalizing s b k with
  | nil => exact h
  | cons op ops ih =>
    have := ih (h.apply op)
    simp only [← bornFrom_cons] at this
    rw [List.foldl_cons, List.length_cons, show k + (ops.length + 1) = k + 1 + ops.length by omega]
    exact this

/-- **C17.** After any sequence of additions and removals an `OrderedSet` has no repetitions, contains
exactly the elements that were added and not removed since, and iterates them in the order in which they
came in. -/
theorem ordered_set_correct (ops : List (SetOp α)) :
    (ops.foldl SetOp.apply ⟨[]⟩).elems.Nodup ∧
    (∀ x, x ∈ (ops.foldl SetOp.apply ⟨[]⟩).elems ↔ (born ops x).isSome) ∧
    (ops.foldl SetOp.apply ⟨[]⟩).elems.Pairwise
      fun x y => ∃ m n, born ops x = some m ∧ born ops y = some n ∧ m < n := by
  have h := Inv.run ops (s := ⟨[]⟩) (b := fun _ : α => none) (k := 0)
    ⟨by simp, by simp, by simp, by simp⟩
  refine ⟨h.nodup, h.mem, h.sorted.imp_of_mem fun {x y} hx hy hxy => ?_⟩
  obtain ⟨m, hm⟩ := Option.isSome_iff_exists.1 ((h.mem x).1 hx)
  obtain ⟨n, hn⟩ := Option.isSome_iff_exists.1 ((h.mem y).1 hy)
  rw [hm, hn] at hxy
  exact ⟨m, n, hm, hn, hxy⟩

/-- A removed and re-added element moves to the end. -/
example : ([SetOp.add 1, .add 2, .add 1, .discard 1, .discard 7, .add 3, .add 1].foldl SetOp.apply ⟨[]⟩).elems
    = [2, 3, 1] := by decide

/-- `remove` raises `KeyError` exactly for non-members, and otherwise removes that element only. -/
theorem remove_spec (s : OSet α) (x : α) :
    (s.remove x = none ↔ x ∉ s.elems) ∧ ∀ s', s.remove x = some s' → s'.elems = s.elems.erase x := by
  unfold remove contains
  constructor
  · simp
  · intro s' h
    split at h
    · cases h; rfl
    · cases h

theorem foldl_add_spec (l : List α) (s : OSet α) (hs : s.elems.Nodup) :
    (l.foldl add s).elems.Nodup ∧ s.elems <+: (l.foldl add s).elems ∧
    (∀ x, x ∈ (l.foldl add s).elems ↔ x ∈ s.elems ∨ x ∈ l) ∧
    ∃ t, (l.foldl add s).elems = s.elems ++ t ∧ t.Sublist l := by
  induction l generalizing s with
  | nil => exact ⟨hs, List.prefix_refl _, by simp, [], by simp, List.Sublist.refl _⟩
  | cons y l ih =>
    rw [List.foldl_cons]
    have hadd : (s.add y).elems.Nodup ∧ ∃ t, (s.add y).elems = s.elems ++ t ∧ t.Sublist [y] ∧
        ∀ x, x ∈ (s.add y).elems ↔ x ∈ s.elems ∨ x = y := by
      rw [elems_add]
      split
      · rename_i h
        refine ⟨hs, [], by simp, by simp, fun x => ⟨Or.inl, ?_⟩⟩
        rintro (h' | rfl)
        · exact h'
        · exact h
      · rename_i h
        refine ⟨?_, [y], rfl, List.Sublist.refl _, fun x => by simp⟩
        rw [List.nodup_append]
        refine ⟨hs, by simp, ?_⟩
        intro a ha b hb
        rw [List.mem_singleton] at hb
        subst hb; rintro rfl; exact h ha
    obtain ⟨h1, t, h2, h3, h4⟩ := hadd
    obtain ⟨i1, i2, i3, u, i4, i5⟩ := ih (s.add y) h1
    refine ⟨i1, (h2 ▸ List.prefix_append _ _ : s.elems <+: (s.add y).elems).trans i2, ?_, t ++ u, ?_, ?_⟩
    · intro x; rw [i3, h4, List.mem_cons]; tauto
    · rw [i4, h2, List.append_assoc]
    · exact List.Sublist.append h3 i5

/-- **C17, union.** The left operand's elements first and in their order, then the new ones in the order
given; no repetitions. -/
theorem union_spec (s : OSet α) (hs : s.elems.Nodup) (others : List (List α)) :
    (s.union others).elems.Nodup ∧
    (∀ x, x ∈ (s.union others).elems ↔ x ∈ s.elems ∨ ∃ o ∈ others, x ∈ o) ∧
    ∃ t, (s.union others).elems = s.elems ++ t ∧ t.Sublist others.flatten := by
  have e : s.union others = others.flatten.foldl add s := by
    unfold union
    induction others generalizing s with
    | nil => rfl
    | cons o others ih =>
      rw [List.foldl_cons, List.flatten_cons, List.foldl_append]
      exact ih _ (foldl_add_spec o s hs).1
  rw [e]
  obtain ⟨h1, _, h3, t, h4, h5⟩ := foldl_add_spec others.flatten s hs
  exact ⟨h1, fun x => by rw [h3, List.mem_flatten], t, h4, h5⟩

/-- **C17, difference.** The elements of the left operand that are in none of the others, in order. -/
theorem difference_spec (s : OSet α) (hs : s.elems.Nodup) (others : List (List α)) :
    (s.difference others).elems = s.elems.filter fun x => decide (∀ o ∈ others, x ∉ o) := by
  have step : ∀ (l : List α) (s : OSet α), s.elems.Nodup →
      (l.foldl discard s).elems = s.elems.filter fun x => decide (x ∉ l) := by
    intro l
    induction l with
    | nil => intro s _; simp
    | cons y l ih =>
      intro s hs
      rw [List.foldl_cons, ih _ (by rw [elems_discard]; exact hs.erase y), elems_discard,
        hs.erase_eq_filter, List.filter_filter]
      refine List.filter_congr fun x _ => ?_
      rw [Bool.eq_iff_iff]; simp [and_comm]
  have step' : ∀ (l : List α) (s : OSet α), s.elems.Nodup → (l.foldl discard s).elems.Nodup :=
    fun l s hs => by rw [step l s hs]; exact hs.filter _
  unfold difference
  induction others generalizing s with
  | nil => simp
  | cons o others ih =>
    rw [List.foldl_cons, ih _ (step' o s hs), step o s hs, List.filter_filter]
    refine List.filter_congr fun x _ => ?_
    rw [Bool.eq_iff_iff]; simp [and_comm]

theorem foldl_add_if (l : List α) (p : α → Bool) (s : OSet α) :
    l.foldl (fun ret x => if p x = true then ret.add x else ret) s = (l.filter p).foldl add s := by
  induction l generalizing s with
  | nil => rfl
  | cons x l ih =>
    rw [List.foldl_cons, List.filter_cons, ih]
    split <;> rfl

theorem foldl_add_nodup (l : List α) (s : OSet α) (h : (s.elems ++ l).Nodup) :
    (l.foldl add s).elems = s.elems ++ l := by
  induction l generalizing s with
  | nil => simp
  | cons x l ih =>
    rw [List.foldl_cons]
    have hx : x ∉ s.elems := fun hx => by
      rw [List.nodup_append] at h
      exact h.2.2 x hx x (by simp) rfl
    have e : s.add x = ⟨s.elems ++ [x]⟩ := by unfold add; rw [if_neg hx]
    rw [e, ih]
    · simp
    · simpa using h

/-- **C17, intersection.** The elements of the left operand that are in all the others, in order. -/
theorem intersection_spec (s : OSet α) (hs : s.elems.Nodup) (others : List (List α)) :
    (s.intersection others).elems = s.elems.filter fun x => decide (∀ o ∈ others, x ∈ o) := by
  unfold intersection
  rw [foldl_add_if, foldl_add_nodup _ _ (by simpa using hs.filter _)]
  simp only [List.nil_append]
  refine List.filter_congr fun x _ => ?_
  rw [Bool.eq_iff_iff]; simp

/-- **C17, symmetric difference.** The elements of the left operand not in the other, in order, then those of the
other that are not in the left; no repetitions. -/
theorem symmetricDifference_spec (s : OSet α) (hs : s.elems.Nodup) (other : List α) :
    (s.symmetricDifference other).elems.Nodup ∧
    (∀ x, x ∈ (s.symmetricDifference other).elems ↔ (x ∈ s.elems ∧ x ∉ other) ∨ (x ∈ other ∧ x ∉ s.elems)) ∧
    ∃ t, (s.symmetricDifference other).elems = (s.elems.filter fun x => decide (x ∉ other)) ++ t ∧ t.Sublist other := by
  have e1 : s.elems.foldl (fun ret x => if x ∈ other then ret else ret.add x) (⟨[]⟩ : OSet α)
      = ⟨s.elems.filter fun x => decide (x ∉ other)⟩ := by
    have : (fun (ret : OSet α) x => if x ∈ other then ret else ret.add x)
        = fun ret x => if decide (x ∉ other) = true then ret.add x else ret := by
      funext ret x; by_cases h : x ∈ other <;> simp [h]
    rw [this, foldl_add_if]
    have := foldl_add_nodup (s.elems.filter fun x => decide (x ∉ other)) (⟨[]⟩ : OSet α)
      (by simpa using hs.filter _)
    simp only [List.nil_append] at this
    cases h : (List.foldl add (⟨[]⟩ : OSet α) (s.elems.filter fun x => decide (x ∉ other))) with
    | mk l => rw [h] at this; exact congrArg OSet.mk this
  have e2 : (fun (ret : OSet α) x => if s.contains x = true then ret else ret.add x)
      = fun ret x => if (!s.contains x) = true then ret.add x else ret := by
    funext ret x; cases s.contains x <;> simp
  unfold symmetricDifference
  simp only []
  rw [e1, e2, foldl_add_if]
  obtain ⟨h1, _, h3, t, h4, h5⟩ := foldl_add_spec (other.filter fun x => !s.contains x)
    ⟨s.elems.filter fun x => decide (x ∉ other)⟩ (hs.filter _)
  refine ⟨h1, fun x => ?_, t, h4, h5.trans List.filter_sublist⟩
  rw [h3]
  simp [contains]

example : ((⟨[1, 2, 3]⟩ : OSet Nat).union [[5, 2], [4, 5]]).elems = [1, 2, 3, 5, 4] ∧
    ((⟨[1, 2, 3]⟩ : OSet Nat).difference [[5, 2]]).elems = [1, 3] ∧
    ((⟨[1, 2, 3]⟩ : OSet Nat).intersection [[3, 2], [1, 3]]).elems = [3] ∧
    ((⟨[1, 2, 3]⟩ : OSet Nat).symmetricDifference [4, 2, 4]).elems = [1, 3, 4] := by decide

/-! ## The order exactly -/

/-- Specification: the elements of a list at their first occurrences. -/
def firsts : List α → List α
  | [] => []
  | x :: l => x :: (firsts l).filter fun y => decide (y ≠ x)

theorem foldl_add_firsts (l : List α) (s : OSet α) :
    (l.foldl add s).elems = s.elems ++ (firsts l).filter fun x => decide (x ∉ s.elems) := by
  induction l generalizing s with
  | nil => simp [firsts]
  | cons x l ih =>
    rw [List.foldl_cons, ih, firsts, elems_add]
    by_cases hx : x ∈ s.elems
    · rw [if_pos hx, List.filter_cons_of_neg (by simpa using hx), List.filter_filter]
      congr 1
      refine List.filter_congr fun y _ => ?_
      by_cases hy : y ∈ s.elems
      · simp [hy]
      · have : y ≠ x := fun e => hy (e ▸ hx)
        simp [hy, this]
    · rw [if_neg hx, List.filter_cons_of_pos (by simpa using hx), List.filter_filter, List.append_assoc]
      congr 1
      rw [List.singleton_append]
      congr 1
      refine List.filter_congr fun y _ => ?_
      by_cases hy : y ∈ s.elems <;> by_cases e : y = x <;> simp [hy, e]

theorem firsts_nodup (l : List α) : (firsts l).Nodup := by
  induction l with
  | nil => exact List.nodup_nil
  | cons x l ih =>
    rw [firsts, List.nodup_cons]
    exact ⟨by simp, ih.filter _⟩

theorem mem_firsts (l : List α) (x : α) : x ∈ firsts l ↔ x ∈ l := by
  induction l with
  | nil => simp [firsts]
  | cons y l ih =>
    rw [firsts, List.mem_cons, List.mem_filter, ih, List.mem_cons]
    by_cases e : x = y <;> simp [e]

theorem firsts_of_nodup (l : List α) (h : l.Nodup) : firsts l = l := by
  induction l with
  | nil => rfl
  | cons x l ih =>
    rw [List.nodup_cons] at h
    rw [firsts, ih h.2]
    congr 1
    rw [List.filter_eq_self]
    intro y hy
    have : y ≠ x := by rintro rfl; exact h.1 hy
    simpa using this

theorem firsts_append (l l' : List α) : firsts (l ++ l') = firsts l ++ (firsts l').filter fun x => decide (x ∉ l) := by
  induction l with
  | nil => simp [firsts]
  | cons x l ih =>
    rw [List.cons_append, firsts, firsts, ih, List.filter_append, List.filter_filter, List.cons_append]
    congr 2
    refine List.filter_congr fun y _ => ?_
    by_cases e : y = x <;> simp [e]

/-- **C17, construction.** `OrderedSet(iterable)` has the elements of the iterable in the order of their first occurrences. -/
theorem ofIterable_spec (l : List α) : (ofIterable l).elems = firsts l := by
  rw [ofIterable, foldl_add_firsts]
  simp

/-- **C17, union, the order.** The elements of all operands in the order of their first occurrences. -/
theorem union_order (s : OSet α) (hs : s.elems.Nodup) (others : List (List α)) :
    (s.union others).elems = firsts (s.elems ++ others.flatten) := by
  have e : s.union others = others.flatten.foldl add s := by
    unfold union
    induction others generalizing s with
    | nil => rfl
    | cons o others ih =>
      rw [List.foldl_cons, List.flatten_cons, List.foldl_append]
      exact ih _ (foldl_add_spec o s hs).1
  rw [e, foldl_add_firsts, firsts_append, firsts_of_nodup _ hs]

/-- **C17, symmetric difference, the order.** -/
theorem symmetricDifference_order (s : OSet α) (hs : s.elems.Nodup) (other : List α) :
    (s.symmetricDifference other).elems
      = (s.elems.filter fun x => decide (x ∉ other)) ++ firsts (other.filter fun x => decide (x ∉ s.elems)) := by
  have e1 : s.elems.foldl (fun ret x => if x ∈ other then ret else ret.add x) (⟨[]⟩ : OSet α)
      = (s.elems.filter fun x => decide (x ∉ other)).foldl add ⟨[]⟩ := by
    rw [← foldl_add_if]
    congr 1
    funext ret x; by_cases h : x ∈ other <;> simp [h]
  have e2 : (fun (ret : OSet α) x => if s.contains x = true then ret else ret.add x)
      = fun ret x => if decide (x ∉ s.elems) = true then ret.add x else ret := by
    funext ret x; by_cases h : x ∈ s.elems <;> simp [h, contains]
  unfold symmetricDifference
  simp only []
  rw [e1, e2, foldl_add_if, foldl_add_firsts, foldl_add_nodup _ _ (by simpa using hs.filter _)]
  simp only [List.nil_append]
  congr 1
  rw [List.filter_eq_self]
  intro x hx
  rw [mem_firsts] at hx
  simp only [List.mem_filter, decide_eq_true_eq] at hx
  simp [hx.2]

example : (ofIterable [3, 1, 3, 2, 1]).elems = [3, 1, 2] ∧ (ofIterable [3, 1, 3, 2, 1]).elems = firsts [3, 1, 3, 2, 1] := by decide

end Pyadjoint.OSet
