import Verif.Props.ArrayIndex
import Mathlib.Data.Fintype.Prod
import Mathlib.Data.List.ProdSigma
import Mathlib.Tactic.Ring

/-!
# The adjoint of indexing arrays with several dimensions (C35)
-/

namespace Pyadjoint

instance Ix.fintype : (ds : List Nat) → Fintype (Ix ds)
  | [] => inferInstanceAs (Fintype Unit)
  | _ :: ds => @instFintypeProd _ _ inferInstance (Ix.fintype ds)

theorem pairs_nodup {α β : Type*} {ps : List α} {rs : List β} (hp : ps.Nodup) (hr : rs.Nodup) :
    (ps.flatMap fun p => rs.map fun r => (p, r)).Nodup :=
  List.Nodup.product hp hr

theorem mem_pairs {α β : Type*} {ps : List α} {rs : List β} {x : α × β} :
    x ∈ (ps.flatMap fun p => rs.map fun r => (p, r)) ↔ x.1 ∈ ps ∧ x.2 ∈ rs := by
  simp only [List.mem_flatMap, List.mem_map]
  constructor
  · rintro ⟨p, hp, r, hr, rfl⟩; exact ⟨hp, hr⟩
  · rintro ⟨h1, h2⟩; exact ⟨x.1, h1, x.2, h2, rfl⟩

/-- Every position of the array is listed, once. -/
theorem Ix.all_spec (ds : List Nat) : (Ix.all ds).Nodup ∧ ∀ i, i ∈ Ix.all ds := by
  induction ds with
  | nil => exact ⟨List.nodup_singleton _, fun i => List.mem_singleton.2 rfl⟩
  | cons n ds ih =>
    refine ⟨pairs_nodup (List.nodup_finRange n) ih.1, fun i => ?_⟩
    exact mem_pairs.2 ⟨List.mem_finRange _, ih.2 _⟩

/-- Neither an index list nor a mask. -/
def Item.Basic : Item → Prop
  | .int _ => True
  | .slice _ _ _ => True
  | .list _ => False
  | .mask _ => False

theorem Item.Basic.nodup {n : Nat} {i : Item} (h : i.Basic) {ps : List (Fin n)} (hps : i.positions n = .ok ps) :
    ps.Nodup :=
  (index_adjoint_partial (E := Int) n i (by rintro l rfl; exact h) ps hps).1

theorem productPositions_cons {n : Nat} {ds : List Nat} {i : Item} {is : List Item} {qs : List (Ix (n :: ds))}
    (h : productPositions (n :: ds) (i :: is) = .ok qs) :
    ∃ ps rs, i.positions n = .ok ps ∧ productPositions ds is = .ok rs ∧
      qs = ps.flatMap fun p => rs.map fun r => (p, r) := by
  rw [productPositions] at h
  split at h
  · rename_i ps rs h1 h2
    cases h
    exact ⟨ps, rs, h1, h2, rfl⟩
  · cases h
  · cases h

theorem productPositions_nodup {ds : List Nat} {is : List Item} (hb : ∀ i ∈ is, i.Basic) {ps : List (Ix ds)}
    (h : productPositions ds is = .ok ps) : ps.Nodup := by
  induction ds generalizing is with
  | nil =>
    cases is with
    | nil => cases h; exact List.nodup_singleton _
    | cons i is => cases h
  | cons n ds ih =>
    cases is with
    | nil => cases h
    | cons i is =>
      obtain ⟨ps, rs, h1, h2, rfl⟩ := productPositions_cons h
      exact pairs_nodup ((hb i (by simp)).nodup h1) (ih (fun j hj => hb j (by simp [hj])) h2)

/-- The position on axis `j`. -/
def Ix.axis : {ds : List Nat} → Ix ds → Nat → Option Nat
  | [], _, _ => none
  | _ :: _, p, 0 => some p.1.val
  | _ :: _, p, j + 1 => Ix.axis p.2 j

/-- What is read on axis `j` is what the index expression for that axis reads. -/
theorem productPositions_axis {ds : List Nat} {is : List Item} {qs : List (Ix ds)}
    (h : productPositions ds is = .ok qs) {q : Ix ds} (hq : q ∈ qs) {j n : Nat} {i : Item} (hn : ds[j]? = some n)
    (hi : is[j]? = some i) : ∃ (ps : List (Fin n)) (p : Fin n), i.positions n = .ok ps ∧ p ∈ ps ∧ q.axis j = some p.val := by
  induction ds generalizing is j with
  | nil => simp at hn
  | cons m ds ih =>
    cases is with
    | nil => cases h
    | cons i' is =>
      obtain ⟨ps, rs, h1, h2, rfl⟩ := productPositions_cons h
      obtain ⟨m1, m2⟩ := mem_pairs.1 hq
      cases j with
      | zero =>
        simp only [List.getElem?_cons_zero, Option.some.injEq] at hn hi
        subst hn hi
        exact ⟨ps, q.1, h1, m1, rfl⟩
      | succ j => exact ih h2 m2 (by simpa using hn) (by simpa using hi)

theorem collect_ok {α : Type*} {l : List (Except IndexErr (List α))} {qs : List α} (h : collect l = .ok qs) :
    ∃ pss : List (List α), l = pss.map Except.ok ∧ qs = pss.flatten := by
  induction l generalizing qs with
  | nil => cases h; exact ⟨[], rfl, rfl⟩
  | cons r l ih =>
    cases r with
    | error e => cases h
    | ok ps =>
      rw [collect] at h
      split at h
      · cases h
      · rename_i rs hrs
        cases h
        obtain ⟨pss, h1, h2⟩ := ih hrs
        exact ⟨ps :: pss, by rw [h1]; rfl, by rw [h2]; rfl⟩

/-- The tuple has no lists and no masks. -/
def Entry.Basic : Entry → Prop
  | .item i => i.Basic
  | .ellipsis => True
  | .newaxis => True

theorem expandEntries_ok {d : Nat} {es : List Entry} {is : List Item} (h : expandEntries d es = .ok is) :
    is.length = d ∧ ∀ i ∈ is, i = Item.full ∨ Entry.item i ∈ es := by
  unfold expandEntries at h
  dsimp only at h
  split at h
  · cases h
  · rename_i hc
    push Not at hc
    obtain ⟨h1, h2⟩ := hc
    simp only [Except.ok.injEq] at h
    have aux : ∀ (k : Nat) (es : List Entry), (es.flatMap (Entry.expand k)).length =
        (es.map Entry.axes).sum + es.countP Entry.isDots * k := by
      intro k es
      induction es with
      | nil => simp
      | cons e es ih =>
        rw [List.flatMap_cons, List.length_append, ih, List.map_cons, List.sum_cons, List.countP_cons]
        cases e <;> simp [Entry.axes, Entry.expand, Entry.isDots] <;> ring
    have hl := aux (d - (es.map Entry.axes).sum) es
    have := Nat.mul_le_mul_right (d - (es.map Entry.axes).sum) h1
    refine ⟨?_, ?_⟩
    · rw [← h, List.length_append, List.length_replicate]
      omega
    · intro i hi
      rw [← h, List.mem_append, List.mem_flatMap] at hi
      rcases hi with ⟨e, he, hi⟩ | hi
      · cases e with
        | item i' => simp only [Entry.expand, List.mem_singleton] at hi; subst hi; exact Or.inr he
        | ellipsis => exact Or.inl (List.eq_of_mem_replicate hi)
        | newaxis => simp [Entry.expand] at hi
      · exact Or.inl (List.eq_of_mem_replicate hi)

theorem advancedAll_basic {ds : List Nat} {is : List Item} (hl : is.length = ds.length)
    (hb : ∀ i ∈ is, i.Basic) : advancedAll ds is = .ok (List.replicate ds.length none) := by
  induction ds generalizing is with
  | nil => cases is with
    | nil => rfl
    | cons i is => simp at hl
  | cons n ds ih =>
    cases is with
    | nil => simp at hl
    | cons i is =>
      have h1 := ih (is := is) (by simpa using hl) (fun j hj => hb j (by simp [hj]))
      have hi := hb i (by simp)
      rw [advancedAll, h1]
      cases i with
      | int k => rfl
      | slice a b c => rfl
      | list l => exact hi.elim
      | mask m => exact hi.elim

theorem advancedAll_length {ds : List Nat} {is : List Item} (hl : is.length = ds.length)
    {as : List (Option (List Int))} (h : advancedAll ds is = .ok as) : as.length = ds.length := by
  induction ds generalizing is as with
  | nil => cases is with
    | nil => cases h; rfl
    | cons i is => simp at hl
  | cons n ds ih =>
    cases is with
    | nil => simp at hl
    | cons i is =>
      rw [advancedAll] at h
      split at h
      · rename_i a as' h1 h2
        cases h
        simp [ih (by simpa using hl) h2]
      · cases h
      · cases h

theorem rounds_basic (d : Nat) : rounds (List.replicate d none) = .ok 1 := by
  unfold rounds
  have : (List.replicate d (none : Option (List Int))).filterMap (fun a => a.map List.length) = [] := by
    rw [List.filterMap_eq_nil_iff]
    intro a ha
    rw [List.eq_of_mem_replicate ha]
    rfl
  rw [this]
  rfl

/-- For tuples of integers and slices the positions are all combinations. -/
theorem positions_basic {ds : List Nat} {es : List Entry} (hb : ∀ e ∈ es, e.Basic) :
    (NdIndex.tuple (ds := ds) es).positions = match expandEntries ds.length es with
      | .error e => .error e
      | .ok is => productPositions ds is := by
  simp only [NdIndex.positions]
  cases he : expandEntries ds.length es with
  | error e => rfl
  | ok is =>
    obtain ⟨hl, hi⟩ := expandEntries_ok he
    have hbi : ∀ i ∈ is, i.Basic := by
      intro i h
      rcases hi i h with rfl | h
      · exact trivial
      · exact hb _ h
    dsimp only
    rw [advancedAll_basic hl hbi]
    dsimp only
    rw [rounds_basic]
    dsimp only
    have hz : List.zipWith (fun (i : Item) a => i.atRound 0 a) is (List.replicate ds.length none) = is := by
      rw [← hl]
      clear * -
      induction is with
      | nil => rfl
      | cons i is ih =>
        rw [List.length_cons, List.replicate_succ, List.zipWith_cons_cons, ih]
        rfl
    rw [show List.range 1 = [0] from rfl, List.map_singleton, hz]
    cases productPositions ds is with
    | error e => rfl
    | ok ps => show Except.ok (ps ++ []) = _; rw [List.append_nil]

/-- **C35, several dimensions.**  Tuples of integers, slices, `...` and `newaxis`, and boolean masks of the shape of the array,
never repeat a position: the adjoint is right for all arrays of all shapes. -/
theorem nd_index_adjoint [CommRing E] [CharZero E] (ds : List Nat) (item : NdIndex ds)
    (hitem : ∀ es, item = .tuple es → ∀ e ∈ es, e.Basic) (ps : List (Ix ds)) (hps : item.positions = .ok ps) :
    ps.Nodup ∧ AdjointIdentity (E := E) ps := by
  have : ps.Nodup := by
    cases item with
    | mask m => cases hps; exact (Ix.all_spec ds).1.filter _
    | tuple es =>
      have hb := hitem es rfl
      rw [positions_basic hb] at hps
      split at hps
      · cases hps
      · rename_i is he
        refine productPositions_nodup ?_ hps
        intro i h
        rcases (expandEntries_ok he).2 i h with rfl | h
        · exact trivial
        · exact hb _ h
  exact ⟨this, (index_adjoint_iff ps).2 this⟩

theorem full_positions (n : Nat) : Item.full.positions n = .ok (List.finRange n) := by
  obtain ⟨ps, h1, h2, h3⟩ := slice_length n none none 1 (by decide)
  have e : Item.full.positions n = (Item.slice none none (some 1)).positions n := rfl
  rw [e, h1]
  congr 1
  have hn : (sliceRange n none none 1).2 = n := by
    simp only [sliceRange, clipBound]
    norm_num
    omega
  have h0 : (sliceRange n none none 1).1 = 0 := rfl
  rw [hn] at h2
  apply List.ext_getElem?
  intro k
  by_cases hk : k < n
  · have hk' : k < ps.length := by omega
    have := h3 k ps[k] (List.getElem?_eq_getElem hk')
    rw [h0] at this
    rw [List.getElem?_eq_getElem hk', List.getElem?_eq_getElem (by simpa using hk)]
    simp only [Option.some.injEq, List.getElem_finRange]
    apply Fin.ext
    simp only [Fin.val_cast]
    omega
  · rw [List.getElem?_eq_none (by omega), List.getElem?_eq_none (by simp; omega)]

theorem productPositions_full (ds : List Nat) :
    productPositions ds (List.replicate ds.length Item.full) = .ok (Ix.all ds) := by
  induction ds with
  | nil => rfl
  | cons n ds ih =>
    rw [List.length_cons, List.replicate_succ, productPositions, full_positions, ih]
    rfl

/-- `a[...]` and `a[()]` read the whole array in order. -/
theorem read_all (ds : List Nat) : (NdIndex.tuple (ds := ds) [.ellipsis]).positions = .ok (Ix.all ds) ∧
    (NdIndex.tuple (ds := ds) []).positions = .ok (Ix.all ds) := by
  constructor
  · rw [positions_basic (by simp [Entry.Basic])]
    have : expandEntries ds.length [.ellipsis] = .ok (List.replicate ds.length Item.full) := by
      simp [expandEntries, Entry.axes, Entry.expand, Entry.isDots]
    rw [this]
    exact productPositions_full ds
  · rw [positions_basic (by simp)]
    have : expandEntries ds.length [] = .ok (List.replicate ds.length Item.full) := by
      simp [expandEntries]
    rw [this]
    exact productPositions_full ds

/-- `a[k]` reads row `k`. -/
theorem read_row (n : Nat) (ds : List Nat) (k : Int) :
    (NdIndex.tuple (ds := n :: ds) [.item (.int k)]).positions = match intPosition n k with
      | none => .error .indexError
      | some p => .ok ((Ix.all ds).map fun r => (p, r)) := by
  rw [positions_basic (by simp [Entry.Basic, Item.Basic])]
  have : expandEntries (n :: ds).length [.item (.int k)] = .ok (.int k :: List.replicate ds.length Item.full) := by
    simp [expandEntries, Entry.axes, Entry.expand, Entry.isDots]
  rw [this]
  dsimp only
  rw [productPositions, productPositions_full, Item.positions]
  cases intPosition n k with
  | none => rfl
  | some p => show Except.ok (List.flatMap _ [p]) = _; rw [List.flatMap_singleton]

/-! ## Index lists -/

theorem atRound_advanced {ds : List Nat} {is : List Item} {as : List (Option (List Int))}
    (h : advancedAll ds is = .ok as) {j : Nat} (hj : j < ds.length) (hl : is.length = ds.length) {i : Item}
    (hi : is[j]? = some i) (ha : as[j]? = some none) : i.Basic := by
  induction ds generalizing is as j with
  | nil => simp at hj
  | cons n ds ih =>
    cases is with
    | nil => simp at hl
    | cons i' is =>
      rw [advancedAll] at h
      split at h
      · rename_i a as' h1 h2
        cases h
        cases j with
        | zero =>
          simp only [List.getElem?_cons_zero, Option.some.injEq] at hi ha
          subst hi ha
          cases i' with
          | int k => trivial
          | slice a b c => trivial
          | list l => cases h1
          | mask m => simp only [Item.advanced] at h1; split at h1 <;> cases h1
        | succ j => exact ih h2 (by simpa using hj) (by simpa using hl) (by simpa using hi) (by simpa using ha)
      · cases h
      · cases h

/-- **C35, index lists.**  If the index lists of one axis select pairwise different positions, one in every round, no position
is repeated, whatever stands on the other axes, and the adjoint is right. -/
theorem nd_index_lists [CommRing E] [CharZero E] (ds : List Nat) (es : List Entry) (is : List Item)
    (as : List (Option (List Int))) (k : Nat) (he : expandEntries ds.length es = .ok is)
    (ha : advancedAll ds is = .ok as) (hk : rounds as = .ok k) (j n : Nat) (l : List Int) (hn : ds[j]? = some n)
    (hj : as[j]? = some (some l)) (hlen : l.length = k) (hnd : (l.map (intPosition n)).Nodup) (ps : List (Ix ds))
    (hps : (NdIndex.tuple es).positions = .ok ps) : ps.Nodup ∧ AdjointIdentity (E := E) ps := by
  have hil := (expandEntries_ok he).1
  have hal := advancedAll_length hil ha
  have : ps.Nodup := by
    unfold NdIndex.positions at hps
    simp only [he, ha, hk] at hps
    obtain ⟨pss, h1, rfl⟩ := collect_ok hps
    have hpl : pss.length = k := by
      have := congrArg List.length h1
      simpa using this.symm
    have hround : ∀ (t : Nat) (qs : List (Ix ds)), pss[t]? = some qs → t < k ∧
        productPositions ds (List.zipWith (fun i a => i.atRound t a) is as) = .ok qs := by
      intro t qs ht
      have htk : t < k := by
        have := (List.getElem?_eq_some_iff.1 ht).1
        omega
      have e := congrArg (fun l => l[t]?) h1
      simp only [List.getElem?_map, ht, Option.map_some, List.getElem?_range htk] at e
      exact ⟨htk, by simpa using e⟩
    have hjl : j < ds.length := (List.getElem?_eq_some_iff.1 hn).1
    have haxis : ∀ (t : Nat) (qs : List (Ix ds)), pss[t]? = some qs → ∀ q ∈ qs, ∃ p : Fin n,
        (l.map (intPosition n))[t]? = some (some p) ∧ q.axis j = some p.val := by
      intro t qs ht q hq
      obtain ⟨htk, hp⟩ := hround t qs ht
      obtain ⟨i, hi⟩ : ∃ i, is[j]? = some i := ⟨is[j], List.getElem?_eq_getElem (by omega)⟩
      have hz : (List.zipWith (fun (i : Item) a => i.atRound t a) is as)[j]? = some (i.atRound t (some l)) := by
        rw [List.getElem?_zipWith, hi, hj]
      obtain ⟨qs', p, g1, g2, g3⟩ := productPositions_axis hp hq hn hz
      refine ⟨p, ?_, g3⟩
      have hlt : l[t]? = some l[t] := List.getElem?_eq_getElem (by omega)
      have hsel : pick t l = some l[t] := by
        unfold pick
        split
        · have : t = 0 := by omega
          subst this
          exact hlt
        · exact hlt
      simp only [Item.atRound, hsel, Item.positions] at g1
      rw [List.getElem?_map, hlt, Option.map_some]
      split at g1
      · cases g1
      · rename_i p' hp'
        cases g1
        rw [List.mem_singleton] at g2
        rw [hp', g2]
    rw [List.nodup_flatten]
    refine ⟨fun qs hqs => ?_, ?_⟩
    · obtain ⟨t, ht⟩ := List.mem_iff_getElem?.1 hqs
      obtain ⟨htk, hp⟩ := hround t qs ht
      refine productPositions_nodup ?_ hp
      intro i hi
      obtain ⟨m, hm⟩ := List.mem_iff_getElem?.1 hi
      rw [List.getElem?_zipWith] at hm
      split at hm
      · rename_i i' a' hi' ha'
        simp only [Option.some.injEq] at hm
        subst hm
        cases a' with
        | none =>
          have hm : m < ds.length := by rw [← hil]; exact (List.getElem?_eq_some_iff.1 hi').1
          exact atRound_advanced ha hm hil hi' ha'
        | some l' =>
          simp only [Item.atRound]
          cases hnone : pick t l' with
          | some x => trivial
          | none =>
            -- in round `t` every list has an entry
            exfalso
            have : l'.length = 1 ∨ l'.length = k := by
              have hmem : l'.length ∈ as.filterMap fun a => a.map List.length :=
                List.mem_filterMap.2 ⟨some l', List.mem_of_getElem? ha', rfl⟩
              unfold rounds at hk
              dsimp only at hk
              by_cases h1 : l'.length = 1
              · exact Or.inl h1
              · right
                have hmem' : l'.length ∈ (as.filterMap fun a => a.map List.length).filter (· ≠ 1) :=
                  List.mem_filter.2 ⟨hmem, by simpa using h1⟩
                split at hk
                · rename_i hnil
                  rw [hnil] at hmem'
                  cases hmem'
                · rename_i k' ks hcons
                  rw [hcons] at hmem'
                  split at hk
                  · rename_i hall
                    cases hk
                    rcases List.mem_cons.1 hmem' with h | h
                    · exact h
                    · simpa using List.all_eq_true.1 hall _ h
                  · cases hk
            unfold pick at hnone
            split at hnone
            · rename_i h1
              rw [List.getElem?_eq_none_iff] at hnone
              omega
            · rename_i h1
              rw [List.getElem?_eq_none_iff] at hnone
              omega
      · cases hm
    · rw [List.pairwise_iff_getElem]
      intro t t' ht ht' hlt x hx hx'
      obtain ⟨p, p1, p2⟩ := haxis t _ (List.getElem?_eq_getElem ht) x hx
      obtain ⟨p', p1', p2'⟩ := haxis t' _ (List.getElem?_eq_getElem ht') x hx'
      rw [p2] at p2'
      have : p = p' := Fin.ext (by simpa using p2')
      subst this
      have hi : t = t' := by
        have h1 := (List.getElem?_eq_some_iff.1 p1)
        have h2 := (List.getElem?_eq_some_iff.1 p1')
        obtain ⟨a1, a2⟩ := h1
        obtain ⟨b1, b2⟩ := h2
        exact (List.Nodup.getElem_inj_iff hnd).1 (a2.trans b2.symm)
      omega
  exact ⟨this, (index_adjoint_iff ps).2 this⟩

/-- A matrix: a row, a column, a block with a reversed axis, `newaxis`, a diagonal by index lists. -/
example : (NdIndex.tuple (ds := [2, 3]) [.item (.int (-1))]).positions = .ok [(1, 0, ()), (1, 1, ()), (1, 2, ())] ∧
    (NdIndex.tuple (ds := [2, 3]) [.ellipsis, .newaxis, .item (.int 0)]).positions = .ok [(0, 0, ()), (1, 0, ())] ∧
    (NdIndex.tuple (ds := [2, 3]) [.item (.slice none none (some (-1))), .item (.slice (some 1) none none)]).positions =
      .ok [(1, 1, ()), (1, 2, ()), (0, 1, ()), (0, 2, ())] ∧
    (NdIndex.tuple (ds := [2, 3]) [.item (.list [0, 1]), .item (.list [0, 1])]).positions =
      .ok [(0, 0, ()), (1, 1, ())] ∧
    (NdIndex.tuple (ds := [2, 3]) [.item (.mask [false, true]), .item (.list [0, 1, 2])]).positions =
      .ok [(1, 0, ()), (1, 1, ()), (1, 2, ())] ∧
    (NdIndex.tuple (ds := [2, 3]) [.item (.list [0, 1]), .item (.list [0, 1, 2])]).positions = .error .indexError ∧
    (NdIndex.tuple (ds := [2, 3]) [.item (.int 0), .item (.int 0), .item (.int 0)]).positions = .error .indexError := by
  refine ⟨?_, ?_, ?_, ?_, ?_, ?_, ?_⟩ <;> decide +kernel

/-- `nd_index_lists` applies to `a[[0, 1], [2, 2]]`: the column index repeats, the row index does not. -/
example : ∃ ps, (NdIndex.tuple (ds := [2, 3]) [.item (.list [0, 1]), .item (.list [2, 2])]).positions = .ok ps ∧
    AdjointIdentity (E := Int) ps :=
  ⟨[(0, 2, ()), (1, 2, ())], by decide +kernel,
    (nd_index_lists [2, 3] [.item (.list [0, 1]), .item (.list [2, 2])] [.list [0, 1], .list [2, 2]]
      [some [0, 1], some [2, 2]] 2 rfl rfl rfl 0 2 [0, 1] rfl rfl rfl (by decide) _ (by decide +kernel)).2⟩

/-- **C35 fails** for pairs that are repeated: the adjoint of `a[[0, 0], [1, 1]]` assigns instead of adding. -/
theorem repeated_pair_wrong :
    ∃ ps, (NdIndex.tuple (ds := [2, 3]) [.item (.list [0, 0]), .item (.list [1, 1])]).positions = .ok ps ∧
      sliceAdj ps [(1 : Int), 1] (0, 1, ()) = 1 ∧ ¬ AdjointIdentity (E := Int) ps := by
  refine ⟨[(0, 1, ()), (0, 1, ())], by decide +kernel, by decide +kernel, fun h => ?_⟩
  exact (List.nodup_cons.1 ((index_adjoint_iff _).1 h)).1 (List.mem_singleton.2 rfl)

end Pyadjoint
