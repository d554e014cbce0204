import Verif.Model.Bounds
import Mathlib.Algebra.BigOperators.Group.List.Basic

/-!
# Bounds reach the optimiser in the right slots (C29)

The specification speaks about positions: entry number `o` of control number `j` sits at position
`slot sizes j + o` of the flat array.
-/

namespace Pyadjoint

variable {E : Type*}

/-- First position of control number `j`. -/
def slot (sizes : List Nat) (j : Nat) : Nat := (sizes.take j).sum

/-- What the user meant by a bound, for entry number `o` of the control. -/
def Bound.meaning (b : Bound E) (o : Nat) : Option E :=
  match b with
  | .none => Option.none
  | .int x | .float x | .npInt x => some x
  | .full l => l[o]?

/-- A bound that fits a control with `n` entries: objects have `n` entries, and there are no NumPy integers. -/
def Bound.Fits (n : Nat) : Bound E → Prop
  | .full l => l.length = n
  | .npInt _ => n = 1
  | _ => True

theorem entries_fits {sizes : List Nat} {j n : Nat} (hn : sizes[j]? = some n) {b : Bound E} (hb : b.Fits n) :
    ∃ es, b.entries sizes j = .ok es ∧ es.length = n ∧ ∀ o, o < n → es[o]? = some (b.meaning o) := by
  cases b with
  | none =>
    refine ⟨List.replicate n Option.none, by simp [Bound.entries, hn], by simp, fun o ho => ?_⟩
    rw [List.getElem?_replicate, if_pos ho]; rfl
  | int x =>
    refine ⟨List.replicate n (some x), by simp [Bound.entries, hn], by simp, fun o ho => ?_⟩
    rw [List.getElem?_replicate, if_pos ho]; rfl
  | float x =>
    refine ⟨List.replicate n (some x), by simp [Bound.entries, hn], by simp, fun o ho => ?_⟩
    rw [List.getElem?_replicate, if_pos ho]; rfl
  | npInt x =>
    have h1 : n = 1 := hb
    subst h1
    refine ⟨[some x], rfl, rfl, fun o ho => ?_⟩
    have : o = 0 := by omega
    subst this; rfl
  | full l =>
    have h1 : l.length = n := hb
    refine ⟨l.map some, rfl, by simpa using h1, fun o ho => ?_⟩
    rw [List.getElem?_map]
    show Option.map some l[o]? = some l[o]?
    have : o < l.length := by omega
    simp [this]

/-- A row of bounds that fit: every entry is where it belongs. -/
theorem boundsRow_fits (sizes : List Nat) (j : Nat) (l : List (Bound E))
    (hl : List.Forall₂ (fun b n => b.Fits n) l (sizes.drop j)) :
    ∃ r, boundsRow sizes j l = .ok r ∧ r.length = (sizes.drop j).sum ∧
      ∀ i (b : Bound E) n, l[i]? = some b → (sizes.drop j)[i]? = some n → ∀ o, o < n →
        r[slot (sizes.drop j) i + o]? = some (b.meaning o) := by
  induction l generalizing j with
  | nil =>
    cases hs : sizes.drop j with
    | nil => exact ⟨[], rfl, rfl, fun i b n hb => by simp at hb⟩
    | cons a t => rw [hs] at hl; cases hl
  | cons b l ih =>
    cases hs : sizes.drop j with
    | nil => rw [hs] at hl; cases hl
    | cons n t =>
      rw [hs] at hl
      cases hl with
      | cons hb hl =>
        have hj : sizes[j]? = some n := by
          have := congrArg (fun l : List Nat => l[0]?) hs
          simpa using this
        have ht : sizes.drop (j + 1) = t := by
          have := congrArg List.tail hs
          simpa using this
        obtain ⟨es, he, hlen, hval⟩ := entries_fits hj hb
        obtain ⟨r, hr, hrlen, hrval⟩ := ih (j + 1) (by rw [ht]; exact hl)
        rw [ht] at hrlen hrval
        refine ⟨es ++ r, by simp [boundsRow, he, hr], by simp [hlen, hrlen], fun i b' n' hb' hn' o ho => ?_⟩
        cases i with
        | zero =>
          simp only [List.getElem?_cons_zero, Option.some.injEq] at hb' hn'
          subst hb'; subst hn'
          have : slot (n :: t) 0 + o = o := by simp [slot]
          rw [this, List.getElem?_append_left (by omega)]
          exact hval o ho
        | succ i =>
          simp only [List.getElem?_cons_succ] at hb' hn'
          have : slot (n :: t) (i + 1) + o = es.length + (slot t i + o) := by
            simp [slot, hlen]; omega
          rw [this, List.getElem?_append_right (by omega)]
          simp only [Nat.add_sub_cancel_left]
          exact hrval i b' n' hb' hn' o ho

/-- **C29.** `serialise_bounds` for bounds given per control: as many pairs as the flat array has entries, and the pair at the
position of entry `o` of control `j` is what was given for that entry. -/
theorem serialise_bounds_layout_partial (sizes : List Nat) (lo up : List (Bound E))
    (hlo : List.Forall₂ (fun b n => b.Fits n) lo sizes) (hup : List.Forall₂ (fun b n => b.Fits n) up sizes) :
    ∃ r, serialiseBounds sizes (.nested [lo, up]) = .ok r ∧ r.length = sizes.sum ∧
      ∀ j (bl bu : Bound E) n, lo[j]? = some bl → up[j]? = some bu → sizes[j]? = some n → ∀ o, o < n →
        r[slot sizes j + o]? = some (bl.meaning o, bu.meaning o) := by
  obtain ⟨a, ha, hal, hav⟩ := boundsRow_fits sizes 0 lo (by simpa using hlo)
  obtain ⟨b, hb, hbl, hbv⟩ := boundsRow_fits sizes 0 up (by simpa using hup)
  simp only [List.drop_zero] at hal hav hbl hbv
  refine ⟨a.zip b, ?_, ?_, fun j bl bu n h1 h2 h3 o ho => ?_⟩
  · simp [serialiseBounds, serialiseRows, ha, hb, hal, hbl]
  · simp [hal, hbl]
  · rw [List.zip_eq_zipWith, List.getElem?_zipWith, hav j bl n h1 h3 o ho, hbv j bu n h2 h3 o ho]

/-- **C29, one control.** `[lb, ub]` is right if one of them is a float, `None` or an object, or if the control is a single
number. -/
theorem serialise_bounds_single (n : Nat) (lb ub : Bound E) (hl : lb.Fits n) (hu : ub.Fits n)
    (hint : lb.isInt = true → ub.isInt = true → n = 1) :
    ∃ r, serialiseBounds [n] (.flat [lb, ub]) = .ok r ∧ r.length = n ∧
      ∀ o, o < n → r[o]? = some (lb.meaning o, ub.meaning o) := by
  have conv : ∃ lb' ub' : Bound E, Bound.throughNumpy [lb, ub] = [lb', ub'] ∧ lb'.Fits n ∧ ub'.Fits n ∧
      (∀ o, lb'.meaning o = lb.meaning o) ∧ (∀ o, ub'.meaning o = ub.meaning o) := by
    unfold Bound.throughNumpy
    split
    · rename_i h
      simp only [List.all_cons, List.all_nil, Bool.and_true, Bool.and_eq_true] at h
      refine ⟨lb.toNumpyInt, ub.toNumpyInt, rfl, ?_, ?_, ?_, ?_⟩
      · cases lb <;> first | exact hl | exact hint h.1 h.2
      · cases ub <;> first | exact hu | exact hint h.1 h.2
      · intro o; cases lb <;> rfl
      · intro o; cases ub <;> rfl
    · split
      · refine ⟨lb.toNumpyFloat, ub.toNumpyFloat, rfl, ?_, ?_, ?_, ?_⟩
        · cases lb <;> exact hl
        · cases ub <;> exact hu
        · intro o; cases lb <;> rfl
        · intro o; cases ub <;> rfl
      · exact ⟨lb, ub, rfl, hl, hu, fun _ => rfl, fun _ => rfl⟩
  obtain ⟨lb', ub', hc, hl', hu', ml, mu⟩ := conv
  obtain ⟨r, hr, hlen, hv⟩ := serialise_bounds_layout_partial [n] [lb'] [ub'] (by simpa using hl') (by simpa using hu')
  refine ⟨r, ?_, by simpa using hlen, fun o ho => ?_⟩
  · show serialiseRows [n] ((Bound.throughNumpy [lb, ub]).map fun b => [b]) = _
    rw [hc]
    exact hr
  · have := hv 0 lb' ub' n rfl rfl rfl o ho
    simpa [slot, ml, mu] using this

/-- **Integer bounds are not repeated.** For one control with three entries, `bounds=[0, 1]` gives a single pair, `bounds=[0.0, 1]`
gives three. -/
theorem integer_bounds_not_repeated (a b : E) :
    serialiseBounds [3] (.flat [.int a, .int b]) = .ok [(some a, some b)] ∧
    serialiseBounds [3] (.flat [.float a, .int b]) = .ok [(some a, some b), (some a, some b), (some a, some b)] :=
  ⟨rfl, rfl⟩

/-- **Missing bounds go unnoticed.** With fewer bounds than controls the result is too short, and no exception is raised. -/
theorem too_few_bounds (a b : E) :
    serialiseBounds [1, 1] (.flat [.float a, .float b]) = .ok [(some a, some b)] := rfl

/-- **The documented form of bounds for several controls is not the one the code takes.**
`docs/source/documentation/optimisation.rst:261-270` wants one pair `(lower, upper)` per control.  With any number of pairs
other than two, `ValueError` is raised. -/
theorem documented_bounds_raise (sizes : List Nat) (pairs : List (Bound E × Bound E)) (hp : pairs.length ≠ 2) :
    serialiseBounds sizes (.nested (pairs.map fun p => [p.1, p.2])) = .error .valueError := by
  match pairs, hp with
  | [], _ => rfl
  | [_], _ => rfl
  | [_, _], h => exact absurd rfl h
  | _ :: _ :: _ :: _, _ => rfl

/-- With two controls the documented pairs are silently read the other way round: the entries of the first control get the two
lower bounds as bounds, those of the second the two upper bounds. -/
theorem documented_bounds_transposed (n m : Nat) (l₁ u₁ l₂ u₂ : E) :
    serialiseBounds [n, m] (.nested [[.float l₁, .float u₁], [.float l₂, .float u₂]])
      = .ok (List.replicate n (some l₁, some l₂) ++ List.replicate m (some u₁, some u₂)) := by
  simp [serialiseBounds, serialiseRows, boundsRow, Bound.entries, List.zip_append, List.zip_replicate']

/-- Documented, for two numbers with `0 ≤ m1 ≤ 1` and `2 ≤ m2 ≤ 3`; what SciPy gets is `0 ≤ m1 ≤ 2`, `1 ≤ m2 ≤ 3`. -/
example : serialiseBounds [1, 1] (.nested [[.float 0, .float 1], [.float 2, .float 3]])
    = .ok [(some 0, some 2), (some 1, some (3 : Int))] := rfl

/-- A bound that fits IPOPT: `None` does not. -/
def Bound.FitsIpopt (n : Nat) : Bound E → Prop
  | .full l => l.length = n
  | .int _ | .float _ => True
  | _ => False

theorem ipoptEntries_fits {n : Nat} {b : Bound E} (hb : b.FitsIpopt n) :
    (ipoptEntries n b).length = n ∧ ∀ o, o < n → ∃ x, b.meaning o = some x ∧ (ipoptEntries n b)[o]? = some (.num x) := by
  cases b with
  | none => exact absurd hb id
  | npInt x => exact absurd hb id
  | int x =>
    refine ⟨by simp [ipoptEntries], fun o ho => ⟨x, rfl, ?_⟩⟩
    simp [ipoptEntries, ho]
  | float x =>
    refine ⟨by simp [ipoptEntries], fun o ho => ⟨x, rfl, ?_⟩⟩
    simp [ipoptEntries, ho]
  | full l =>
    have h1 : l.length = n := hb
    refine ⟨by simpa [ipoptEntries] using h1, fun o ho => ⟨l[o]'(by omega), ?_, ?_⟩⟩
    · simp [Bound.meaning, show o < l.length by omega]
    · simp [ipoptEntries, show o < l.length by omega]

theorem flatten_slots {β : Type*} (f : Bound E × Bound E → Nat → List β) (bounds : List (Bound E × Bound E))
    (sizes : List Nat) (h : List.Forall₂ (fun b n => (f b n).length = n) bounds sizes) :
    (((bounds.zip sizes).map fun p => f p.1 p.2).flatten).length = sizes.sum ∧
      ∀ j b n, bounds[j]? = some b → sizes[j]? = some n → ∀ o, o < n →
        (((bounds.zip sizes).map fun p => f p.1 p.2).flatten)[slot sizes j + o]? = (f b n)[o]? := by
  induction h with
  | nil => exact ⟨rfl, fun j b n hb => by simp at hb⟩
  | @cons b n bs ss hb _ ih =>
    refine ⟨by simp [hb, ih.1], fun j b' n' hb' hn' o ho => ?_⟩
    cases j with
    | zero =>
      simp only [List.getElem?_cons_zero, Option.some.injEq] at hb' hn'
      subst hb'; subst hn'
      simp only [List.zip_cons_cons, List.map_cons, List.flatten_cons]
      have : slot (n :: ss) 0 + o = o := by simp [slot]
      rw [this, List.getElem?_append_left (by omega)]
    | succ j =>
      simp only [List.getElem?_cons_succ] at hb' hn'
      simp only [List.zip_cons_cons, List.map_cons, List.flatten_cons]
      have : slot (n :: ss) (j + 1) + o = (f b n).length + (slot ss j + o) := by simp [slot, hb]; omega
      rw [this, List.getElem?_append_right (by omega)]
      simp only [Nat.add_sub_cancel_left]
      exact ih.2 j b' n' hb' hn' o ho

/-- **C29, IPOPT (partial).** The arrays have the length of the flat array and the entries are where they belong, unless a
bound is `None`. -/
theorem ipopt_bounds_partial (bounds : List (Bound E × Bound E)) (sizes : List Nat)
    (h : List.Forall₂ (fun b n => b.1.FitsIpopt n ∧ b.2.FitsIpopt n) bounds sizes) :
    (ipoptBounds bounds sizes).1.length = sizes.sum ∧ (ipoptBounds bounds sizes).2.length = sizes.sum ∧
    ∀ j b n, bounds[j]? = some b → sizes[j]? = some n → ∀ o, o < n →
      ∃ x y, b.1.meaning o = some x ∧ b.2.meaning o = some y ∧
        (ipoptBounds bounds sizes).1[slot sizes j + o]? = some (.num x) ∧
        (ipoptBounds bounds sizes).2[slot sizes j + o]? = some (.num y) := by
  have h1 := flatten_slots (fun b n => ipoptEntries n b.1) bounds sizes
    (h.imp fun b n hb => (ipoptEntries_fits hb.1).1)
  have h2 := flatten_slots (fun b n => ipoptEntries n b.2) bounds sizes
    (h.imp fun b n hb => (ipoptEntries_fits hb.2).1)
  refine ⟨h1.1, h2.1, fun j b n hb hn o ho => ?_⟩
  have hfit : b.1.FitsIpopt n ∧ b.2.FitsIpopt n := by
    have := List.forall₂_iff_get.1 h
    obtain ⟨hj, rfl⟩ := List.getElem?_eq_some_iff.1 hb
    obtain ⟨hj', rfl⟩ := List.getElem?_eq_some_iff.1 hn
    exact this.2 j hj hj'
  obtain ⟨x, hx, hx'⟩ := (ipoptEntries_fits hfit.1).2 o ho
  obtain ⟨y, hy, hy'⟩ := (ipoptEntries_fits hfit.2).2 o ho
  exact ⟨x, y, hx, hy, (h1.2 j b n hb hn o ho).trans hx', (h2.2 j b n hb hn o ho).trans hy'⟩

/-- **`None` is accepted as a bound, and IPOPT gets NaN.** -/
theorem ipopt_none_is_nan (u : E) :
    problemBounds 1 [.atom .none, .atom (.float u)] = .ok [(.none, .float u)] ∧
    ipoptBounds [(.none, .float u)] [1] = ([.nan], [.num u]) := ⟨rfl, rfl⟩

theorem asPairs_eq (s : List (List (Bound E))) (p : List (Bound E × Bound E)) :
    asPairs s = some p ↔ s = p.map fun q => [q.1, q.2] := by
  induction s generalizing p with
  | nil => cases p <;> simp [asPairs]
  | cons a s ih =>
    match a with
    | [] => cases p <;> simp [asPairs]
    | [_] => cases p <;> simp [asPairs]
    | [lb, ub] =>
      cases p with
      | nil => simp [asPairs]
      | cons q p =>
        simp only [asPairs, Option.map_eq_some_iff, List.cons.injEq, List.map_cons]
        constructor
        · rintro ⟨r, hr, h1, rfl⟩
          subst h1
          exact ⟨by simp, (ih _).1 hr⟩
        · rintro ⟨⟨rfl, rfl, _⟩, h⟩
          exact ⟨p, (ih _).2 h, rfl, rfl⟩
    | _ :: _ :: _ :: _ => cases p <;> simp [asPairs]

/-- **The two ways of writing bounds agree.** One pair for one control may be written without the outer list, and a list of
pairs is kept, whatever its length; in particular two pairs are not taken for one. -/
theorem problem_bounds (p : List (Bound E × Bound E)) :
    problemBounds p.length (p.map fun q => .seq [q.1, q.2]) = .ok p ∧
    ∀ lb ub : Bound E, problemBounds 1 [.atom lb, .atom ub] = .ok [(lb, ub)] := by
  refine ⟨?_, fun lb ub => rfl⟩
  have hs : ∀ p : List (Bound E × Bound E), asSeqs (p.map fun q => BoundItem.seq [q.1, q.2]) = some (p.map fun q => [q.1, q.2]) := by
    intro p
    induction p with
    | nil => rfl
    | cons q p ih => simp [asSeqs, ih]
  have he : enlistBounds (p.map fun q => BoundItem.seq [q.1, q.2]) = .inr (p.map fun q => BoundItem.seq [q.1, q.2]) := by
    match p with
    | [] => rfl
    | [_] => rfl
    | [_, _] => rfl
    | _ :: _ :: _ :: _ => rfl
  unfold problemBounds
  rw [he]
  simp only [hs, List.length_map, ne_eq, not_true_eq_false, if_false]
  rw [(asPairs_eq _ p).2 rfl]

example : List.Forall₂ (fun (b : Bound Nat) n => b.Fits n) [.float 1, .none, .full [4, 5]] [3, 1, 2] := by
  simp [Bound.Fits]

example : (serialiseBounds [3, 1, 2] (.nested [[Bound.float 1, .none, .full [4, 5]], [.none, .int 7, .full [8, 9]]])) =
    .ok [(some 1, none), (some 1, none), (some 1, none), (none, some 7), (some 4, some 8), (some 5, some 9)] := by
  rfl

/-- **C29, what is refused.** An `OptimizationProblem` accepts exactly a pair for each control, or one pair of plain bounds if there is one
control. -/
theorem problem_bounds_iff (n : Nat) (items : List (BoundItem E)) (p : List (Bound E × Bound E)) :
    problemBounds n items = .ok p ↔
      p.length = n ∧ ((∃ lb ub, items = [.atom lb, .atom ub] ∧ p = [(lb, ub)]) ∨ items = p.map fun q => .seq [q.1, q.2]) := by
  have hseq : ∀ (l : List (BoundItem E)) (s : List (List (Bound E))), asSeqs l = some s ↔ l = s.map .seq := by
    intro l
    induction l with
    | nil => intro s; cases s <;> simp [asSeqs]
    | cons a l ih =>
      intro s
      cases a with
      | atom b => cases s <;> simp [asSeqs]
      | seq q =>
        cases s with
        | nil => simp [asSeqs]
        | cons r s => simp only [asSeqs, Option.map_eq_some_iff, ih, List.cons.injEq, List.map_cons, BoundItem.seq.injEq]; aesop
  have body : ∀ s : List (List (Bound E)), (if s.length ≠ n then Except.error BoundsErr.typeError else
      match asPairs s with
      | none => .error .typeError
      | some p => .ok p) = .ok p ↔ p.length = n ∧ s = p.map fun q => [q.1, q.2] := by
    intro s
    rw [← asPairs_eq]
    by_cases hs : s.length = n
    · rw [if_neg (by simpa using hs)]
      cases hp : asPairs s with
      | none => simp
      | some q =>
        have hl : q.length = n := by
          rw [← hs, (asPairs_eq s q).1 hp, List.length_map]
        simp only [Except.ok.injEq, Option.some.injEq]
        exact ⟨fun h => ⟨h ▸ hl, h⟩, fun h => h.2⟩
    · rw [if_pos hs]
      simp only [reduceCtorEq, false_iff, not_and]
      intro hl hp
      refine hs ?_
      rw [(asPairs_eq s p).1 hp, List.length_map, hl]
  unfold problemBounds
  by_cases h2 : ∃ lb ub, items = [.atom lb, .atom ub]
  · obtain ⟨lb, ub, rfl⟩ := h2
    refine Iff.trans (body [[lb, ub]]) ?_
    refine and_congr_right fun _ => ⟨fun h => Or.inl ⟨lb, ub, rfl, ?_⟩, fun h => ?_⟩
    · match p, h with
      | [q], h => simp at h; obtain ⟨rfl, rfl⟩ := h; rfl
    · rcases h with ⟨lb', ub', h, rfl⟩ | h
      · simp at h; obtain ⟨rfl, rfl⟩ := h; rfl
      · match p, h with
        | [], h => simp at h
        | q :: _, h => simp at h
  · have he : enlistBounds items = .inr items := by
      unfold enlistBounds
      split
      · exact absurd ⟨_, _, rfl⟩ h2
      · rfl
    rw [he]
    simp only
    cases hs : asSeqs items with
    | none =>
      simp only [reduceCtorEq, false_iff, not_and, not_or]
      refine fun _ => ⟨fun ⟨lb, ub, h, _⟩ => h2 ⟨lb, ub, h⟩, fun h => ?_⟩
      have := (hseq items (p.map fun q => [q.1, q.2])).2 (by rw [h, List.map_map]; rfl)
      rw [hs] at this
      cases this
    | some s =>
      simp only
      refine Iff.trans (body s) ?_
      have hi := (hseq items s).1 hs
      refine and_congr_right fun _ => ⟨fun h => Or.inr (by rw [hi, h, List.map_map]; rfl), fun h => ?_⟩
      rcases h with ⟨lb, ub, h, _⟩ | h
      · exact absurd ⟨lb, ub, h⟩ h2
      · have := (hseq items (p.map fun q => [q.1, q.2])).2 (by rw [h, List.map_map]; rfl)
        rw [hs] at this
        exact Option.some.inj this

theorem boundsRow_full (sizes : List Nat) (ls : List (List E)) (j : Nat) :
    boundsRow sizes j (ls.map .full) = .ok (ls.flatten.map some) := by
  induction ls generalizing j with
  | nil => rfl
  | cons l ls ih => simp [boundsRow, Bound.entries, ih]

/-- **C29, nothing is dropped.** If bounds are returned at all, the two columns are the lower and the upper bounds one after the other; arrays
of different total lengths raise. -/
theorem serialise_bounds_arrays (sizes : List Nat) (ls us : List (List E)) :
    (ls.flatten.length = us.flatten.length → ∃ r, serialiseBounds sizes (.nested [ls.map .full, us.map .full]) = .ok r ∧
      r.map Prod.fst = ls.flatten.map some ∧ r.map Prod.snd = us.flatten.map some) ∧
    (ls.flatten.length ≠ us.flatten.length → serialiseBounds sizes (.nested [ls.map .full, us.map .full]) = .error .valueError) := by
  simp only [serialiseBounds, serialiseRows, boundsRow_full, List.length_map]
  refine ⟨fun h => ⟨_, if_pos h, ?_, ?_⟩, fun h => if_neg h⟩
  · rw [List.map_fst_zip]; simp only [List.length_map, h]; exact Nat.le_refl _
  · rw [List.map_snd_zip]; simp only [List.length_map, h]; exact Nat.le_refl _

example : serialiseBounds [2, 1] (.nested [[.full [1, 2], .full [3]], [.full [4, 5], .full [6]]]) = .ok [(some 1, some 4), (some 2, some 5), (some 3, some 6)] ∧
    serialiseBounds [2] (.nested [[.full [1, 2]], [.full [4]]]) = .error .valueError ∧
    problemBounds 2 [.atom (.float 1), .atom (.float 2)] = .error .typeError ∧
    problemBounds 2 [.seq [.float 1, .float 2], .seq [.none, .float 2]] = .ok [(.float 1, .float 2), (.none, .float 2)] := ⟨rfl, rfl, rfl, rfl⟩

end Pyadjoint
