import Verif.Model.IndexArray
import Verif.Props.NdIndex

/-!
# The adjoint of indexing with index arrays and masks of several dimensions (C35)
-/

namespace Pyadjoint

variable {E : Type*}

/-! ## Specification -/

/-- The positions that the index arrays select in two different rounds of the broadcasting are never the same on all axes with index arrays. -/
def DistinctRounds (ds : List Nat) (its : List AxisItem) (rounds : List (List Nat)) : Prop :=
  ∀ b ∈ rounds, ∀ b' ∈ rounds,
    (∀ (j n : Nat) (size : Option Nat) (shape : List Nat) (entry : List Nat → Int), ds[j]? = some n → its[j]? = some (.array size shape entry) →
      intPosition n (entry (broadcastPick shape b)) = intPosition n (entry (broadcastPick shape b'))) → b = b'

/-! ## Proof -/

theorem multiIndices_nodup (ds : List Nat) : (multiIndices ds).Nodup := by
  induction ds with
  | nil => exact List.nodup_singleton _
  | cons n ds ih =>
    rw [multiIndices, List.nodup_flatMap]
    refine ⟨fun i _ => ih.map fun a b h => (List.cons.inj h).2, ?_⟩
    rw [List.pairwise_iff_getElem]
    intro i j hi hj hij x hx hx'
    obtain ⟨r, -, rfl⟩ := List.mem_map.1 hx
    obtain ⟨r', -, e⟩ := List.mem_map.1 hx'
    have := (List.cons.inj e).1
    rw [List.getElem_range, List.getElem_range] at this
    omega

theorem productPositions_congr {ds : List Nat} {is is' : List Item} (hl : is.length = is'.length)
    (h : ∀ (j n : Nat) (i i' : Item), ds[j]? = some n → is[j]? = some i → is'[j]? = some i' → i.positions n = i'.positions n) :
    productPositions ds is = productPositions ds is' := by
  induction ds generalizing is is' with
  | nil =>
    cases is <;> cases is' <;> first | rfl | simp at hl
  | cons n ds ih =>
    cases is with
    | nil => cases is' with
      | nil => rfl
      | cons i' is' => simp at hl
    | cons i is =>
      cases is' with
      | nil => simp at hl
      | cons i' is' =>
        rw [productPositions, productPositions, h 0 n i i' rfl rfl rfl, ih (by simpa using hl) fun j m a a' hm ha ha' => h (j + 1) m a a' hm ha ha']

theorem productPositions_ne_nil {ds : List Nat} {is : List Item} {qs : List (Ix ds)} (h : productPositions ds is = .ok qs) :
    qs ≠ [] ↔ ∀ (j n : Nat) (i : Item), ds[j]? = some n → is[j]? = some i → i.positions n ≠ .ok [] := by
  induction ds generalizing is with
  | nil =>
    cases is with
    | nil => cases h; simp
    | cons i is => cases h
  | cons n ds ih =>
    cases is with
    | nil => cases h
    | cons i is =>
      obtain ⟨ps, rs, h1, h2, rfl⟩ := productPositions_cons h
      have hne : (ps.flatMap fun p => rs.map fun r => (p, r)) ≠ [] ↔ ps ≠ [] ∧ rs ≠ [] := by
        cases ps with
        | nil => simp
        | cons p ps => cases rs with
          | nil => simp
          | cons r rs => simp
      have hne' : (ps.flatMap fun p => rs.map fun r => ((p, r) : Ix (n :: ds))) ≠ [] ↔ ps ≠ [] ∧ rs ≠ [] := hne
      refine Iff.trans hne' ?_
      rw [ih h2]
      constructor
      · rintro ⟨g1, g2⟩ j m i' hm hi'
        cases j with
        | zero => cases hm; cases hi'; rw [h1]; exact fun e => g1 (Except.ok.inj e)
        | succ j => exact g2 j m i' hm hi'
      · intro g
        exact ⟨fun e => g 0 n i rfl rfl (by rw [h1, e]), fun j m i' hm hi' => g (j + 1) m i' hm hi'⟩

theorem expandAEntries_ok {d : Nat} {es : List AEntry} {its : List AxisItem} (h : expandAEntries d es = .ok its) :
    its.length = d ∧ ∀ i, AxisItem.basic i ∈ its → i.Basic := by
  unfold expandAEntries at h
  dsimp only at h
  split at h
  · cases h
  · rename_i hc
    push Not at hc
    obtain ⟨h1, h2⟩ := hc
    simp only [Except.ok.injEq] at h
    have aux : ∀ (k : Nat) (es : List AEntry), (es.flatMap (AEntry.expand k)).length = (es.map AEntry.axes).sum + es.countP AEntry.isDots * k := by
      intro k es
      induction es with
      | nil => simp
      | cons e es ih =>
        rw [List.flatMap_cons, List.length_append, ih, List.map_cons, List.sum_cons, List.countP_cons]
        cases e <;> simp [AEntry.axes, AEntry.expand, AEntry.isDots] <;> ring
    have hl := aux (d - (es.map AEntry.axes).sum) es
    have := Nat.mul_le_mul_right (d - (es.map AEntry.axes).sum) h1
    refine ⟨?_, ?_⟩
    · rw [← h, List.length_append, List.length_replicate]
      omega
    · intro i hi
      rw [← h, List.mem_append, List.mem_flatMap] at hi
      rcases hi with ⟨e, he, hi⟩ | hi
      · cases e with
        | int k => rw [AEntry.expand, List.mem_singleton] at hi; cases hi; trivial
        | slice a b c => rw [AEntry.expand, List.mem_singleton] at hi; cases hi; trivial
        | array s f => rw [AEntry.expand, List.mem_singleton] at hi; cases hi
        | mask s m => rw [AEntry.expand, List.mem_map] at hi; obtain ⟨x, -, hx⟩ := hi; cases hx
        | ellipsis => cases List.eq_of_mem_replicate hi; trivial
        | newaxis => cases hi
      · cases List.eq_of_mem_replicate hi; trivial

theorem atRound_basic {d : Nat} {es : List AEntry} {its : List AxisItem} (h : expandAEntries d es = .ok its) (b : List Nat) :
    ∀ i ∈ its.map (AxisItem.atRound b), i.Basic := by
  intro i hi
  obtain ⟨a, ha, rfl⟩ := List.mem_map.1 hi
  cases a with
  | basic i => exact (expandAEntries_ok h).2 i ha
  | array s f g => trivial

/-- What `arrayPositions` computes, if it returns. -/
theorem arrayPositions_ok {ds : List Nat} {es : List AEntry} {ps : List (Ix ds)} (h : arrayPositions ds es = .ok ps) :
    ∃ its r, expandAEntries ds.length es = .ok its ∧ broadcastAll (es.filterMap AEntry.shape?) = .ok r ∧
      (List.zipWith AxisItem.fits ds its).all id = true ∧
      collect ((multiIndices r.reverse).map fun b => productPositions ds (its.map (AxisItem.atRound b))) = .ok ps := by
  unfold arrayPositions at h
  cases he : expandAEntries ds.length es with
  | error e => rw [he] at h; cases h
  | ok its =>
    rw [he] at h
    dsimp only at h
    by_cases hf : (List.zipWith AxisItem.fits ds its).all id = true
    · rw [if_pos hf] at h
      cases hb : broadcastAll (es.filterMap AEntry.shape?) with
      | error e => rw [hb] at h; cases h
      | ok r => rw [hb] at h; exact ⟨its, r, rfl, rfl, hf, h⟩
    · rw [if_neg hf] at h; cases h

theorem int_positions_ne_nil (n : Nat) (k : Int) : (Item.int k).positions n ≠ .ok [] := by
  simp only [Item.positions]
  cases intPosition n k <;> exact fun h => by cases h

theorem int_positions_inj {n : Nat} {k k' : Int} {p : Fin n} {ps ps' : List (Fin n)} (h : (Item.int k).positions n = .ok ps)
    (h' : (Item.int k').positions n = .ok ps') (hp : p ∈ ps) (hp' : p ∈ ps') : intPosition n k = intPosition n k' := by
  simp only [Item.positions] at h h'
  cases e : intPosition n k with
  | none => rw [e] at h; cases h
  | some q =>
    cases e' : intPosition n k' with
    | none => rw [e'] at h'; cases h'
    | some q' =>
      rw [e] at h; rw [e'] at h'
      cases h; cases h'
      rw [← List.mem_singleton.1 hp, ← List.mem_singleton.1 hp']

/-- **C35, index arrays of any shapes.**  For an array of any shape and any tuple of integers, slices, `...`, `newaxis`, masks and index arrays of any
shapes that NumPy accepts: if anything is read at all, the adjoint of `a[item]` is right for all arrays and all adjoint values exactly if the index arrays
select pairwise different combinations of positions; and if nothing is read it is right. -/
theorem index_arrays_adjoint_iff [CommRing E] [CharZero E] (ds : List Nat) (es : List AEntry) (its : List AxisItem) (r : List Nat)
    (he : expandAEntries ds.length es = .ok its) (hr : broadcastAll (es.filterMap AEntry.shape?) = .ok r) (ps : List (Ix ds))
    (hps : arrayPositions ds es = .ok ps) :
    (ps ≠ [] → (AdjointIdentity (E := E) ps ↔ DistinctRounds ds its (multiIndices r.reverse))) ∧ (ps = [] → AdjointIdentity (E := E) ps) := by
  refine ⟨fun hne => ?_, fun h => (index_adjoint_iff ps).2 (by rw [h]; exact List.nodup_nil)⟩
  rw [index_adjoint_iff]
  obtain ⟨its', r', e1, e2, -, hc⟩ := arrayPositions_ok hps
  rw [he] at e1; cases e1
  rw [hr] at e2; cases e2
  obtain ⟨hil, -⟩ := expandAEntries_ok he
  obtain ⟨pss, h1, rfl⟩ := collect_ok hc
  set rs := multiIndices r.reverse with hrs
  have hnd : rs.Nodup := multiIndices_nodup _
  have hlen : pss.length = rs.length := by
    have := congrArg List.length h1
    simpa using this.symm
  have hround : ∀ (t : Nat) (ht : t < rs.length), productPositions ds (its.map (AxisItem.atRound rs[t])) = .ok (pss[t]'(by omega)) := by
    intro t ht
    have e := congrArg (fun l => l[t]?) h1
    simp only [List.getElem?_map, List.getElem?_eq_getElem ht, List.getElem?_eq_getElem (show t < pss.length by omega), Option.map_some, Option.some.injEq] at e
    exact e
  -- two rounds that share a position select the same combination, and conversely
  have hat : ∀ (b : List Nat) (j : Nat) (a : AxisItem), its[j]? = some a → (its.map (AxisItem.atRound b))[j]? = some (a.atRound b) := by
    intro b j a ha
    rw [List.getElem?_map, ha]; rfl
  have hshare : ∀ (t t' : Nat) (ht : t < rs.length) (ht' : t' < rs.length) (q : Ix ds), q ∈ pss[t]'(by omega) → q ∈ pss[t']'(by omega) →
      ∀ (j n : Nat) (size : Option Nat) (shape : List Nat) (entry : List Nat → Int), ds[j]? = some n → its[j]? = some (.array size shape entry) →
        intPosition n (entry (broadcastPick shape rs[t])) = intPosition n (entry (broadcastPick shape rs[t'])) := by
    intro t t' ht ht' q hq hq' j n size shape entry hn ha
    obtain ⟨qs, p, g1, g2, g3⟩ := productPositions_axis (hround t ht) hq hn (hat _ j _ ha)
    obtain ⟨qs', p', g1', g2', g3'⟩ := productPositions_axis (hround t' ht') hq' hn (hat _ j _ ha)
    have : p = p' := Fin.ext (by rw [g3] at g3'; simpa using g3')
    subst this
    exact int_positions_inj g1 g1' g2 g2'
  rw [List.nodup_flatten]
  constructor
  · rintro ⟨-, hdis⟩ b hb b' hb' heq
    obtain ⟨t, ht, rfl⟩ := List.mem_iff_getElem.1 hb
    obtain ⟨t', ht', rfl⟩ := List.mem_iff_getElem.1 hb'
    by_contra hbb
    have htt : t ≠ t' := fun e => hbb (by subst e; rfl)
    -- both rounds read the same positions
    have hsame : productPositions ds (its.map (AxisItem.atRound rs[t])) = productPositions ds (its.map (AxisItem.atRound rs[t'])) := by
      apply productPositions_congr (by simp)
      intro j n i i' hn hi hi'
      rw [List.getElem?_map] at hi hi'
      cases ha : its[j]? with
      | none => rw [ha] at hi; cases hi
      | some a =>
        rw [ha] at hi hi'
        cases hi; cases hi'
        cases a with
        | basic i => rfl
        | array size shape entry =>
          simp only [AxisItem.atRound, Item.positions]
          rw [heq j n size shape entry hn ha]
    rw [hround t ht, hround t' ht'] at hsame
    have hsame' := Except.ok.inj hsame
    -- and they read something
    obtain ⟨qs₀, hq₀, hne₀⟩ : ∃ qs ∈ pss, qs ≠ [] := by
      by_contra hall
      push Not at hall
      exact hne (List.flatten_eq_nil_iff.2 hall)
    obtain ⟨t₀, ht₀, rfl⟩ := List.mem_iff_getElem.1 hq₀
    have hb₀ := (productPositions_ne_nil (hround t₀ (by omega))).1 hne₀
    have hne_t : pss[t]'(by omega) ≠ [] := by
      rw [productPositions_ne_nil (hround t ht)]
      intro j n i hn hi
      rw [List.getElem?_map] at hi
      cases ha : its[j]? with
      | none => rw [ha] at hi; cases hi
      | some a =>
        rw [ha] at hi
        cases hi
        cases a with
        | basic i => exact hb₀ j n i hn (hat _ j _ ha)
        | array size shape entry => exact int_positions_ne_nil n _
    obtain ⟨q, hq⟩ := List.exists_mem_of_ne_nil _ hne_t
    have hq' : q ∈ pss[t']'(by omega) := by rw [← hsame']; exact hq
    rw [List.pairwise_iff_getElem] at hdis
    rcases Nat.lt_or_gt_of_ne htt with hlt | hlt
    · exact hdis t t' (by omega) (by omega) hlt hq hq'
    · exact hdis t' t (by omega) (by omega) hlt hq' hq
  · intro hd
    refine ⟨fun qs hqs => ?_, ?_⟩
    · obtain ⟨t, ht, rfl⟩ := List.mem_iff_getElem.1 hqs
      exact productPositions_nodup (atRound_basic he _) (hround t (by omega))
    · rw [List.pairwise_iff_getElem]
      intro t t' ht ht' hlt q hq hq'
      have := hd _ (List.getElem_mem (show t < rs.length by omega)) _ (List.getElem_mem (show t' < rs.length by omega))
        (hshare t t' (by omega) (by omega) q hq hq')
      have := (List.Nodup.getElem_inj_iff hnd).1 this
      omega

/-! ## Index arrays with different entries, and masks -/

theorem multiIndices_pick {shape b : List Nat} (hb : b ∈ multiIndices shape) : broadcastPick shape b = b ∧ b.length = shape.length := by
  have key : ∀ (shape b : List Nat), b ∈ multiIndices shape →
      List.zipWith (fun d i => if d = 1 then 0 else i) shape b = b ∧ b.length = shape.length := by
    intro shape
    induction shape with
    | nil => intro b hb; rw [multiIndices, List.mem_singleton] at hb; subst hb; exact ⟨rfl, rfl⟩
    | cons n ds ih =>
      intro b hb
      rw [multiIndices, List.mem_flatMap] at hb
      obtain ⟨i, hi, hb⟩ := hb
      obtain ⟨r, hr, rfl⟩ := List.mem_map.1 hb
      obtain ⟨e1, e2⟩ := ih r hr
      refine ⟨?_, by rw [List.length_cons, List.length_cons, e2]⟩
      rw [List.zipWith_cons_cons, e1]
      have := List.mem_range.1 hi
      by_cases h1 : n = 1
      · rw [if_pos h1]
        have : i = 0 := by omega
        rw [this]
      · rw [if_neg h1]
  obtain ⟨e1, e2⟩ := key shape b hb
  refine ⟨?_, e2⟩
  unfold broadcastPick
  rw [← List.reverse_zipWith e2.symm, List.reverse_reverse, e1]

/-- **C35.** If the entries of one index array, which has the full broadcast shape, select pairwise different positions on its axis, the adjoint is right,
whatever stands on the other axes. -/
theorem index_array_distinct [CommRing E] [CharZero E] (ds : List Nat) (es : List AEntry) (its : List AxisItem) (shape : List Nat)
    (he : expandAEntries ds.length es = .ok its) (hr : broadcastAll (es.filterMap AEntry.shape?) = .ok shape.reverse)
    (j n : Nat) (size : Option Nat) (entry : List Nat → Int) (hn : ds[j]? = some n) (hj : its[j]? = some (.array size shape entry))
    (hinj : ∀ b ∈ multiIndices shape, ∀ b' ∈ multiIndices shape, intPosition n (entry b) = intPosition n (entry b') → b = b')
    (ps : List (Ix ds)) (hps : arrayPositions ds es = .ok ps) : AdjointIdentity (E := E) ps := by
  obtain ⟨h1, h2⟩ := index_arrays_adjoint_iff (E := E) ds es its _ he hr ps hps
  by_cases hne : ps = []
  · exact h2 hne
  · refine (h1 hne).2 ?_
    rw [List.reverse_reverse]
    intro b hb b' hb' heq
    have := heq j n size shape entry hn hj
    rw [(multiIndices_pick hb).1, (multiIndices_pick hb').1] at this
    exact hinj b hb b' hb' this

theorem Ix.toList_spec : ∀ (ds : List Nat) (p : Ix ds), (Ix.toList ds p).length = ds.length ∧
    ∀ (j n x : Nat), ds[j]? = some n → (Ix.toList ds p)[j]? = some x → x < n
  | [], _ => ⟨rfl, fun j n x h => by simp at h⟩
  | m :: ds, p => by
    obtain ⟨h1, h2⟩ := Ix.toList_spec ds p.2
    refine ⟨by rw [Ix.toList, List.length_cons, List.length_cons, h1], fun j n x hn hx => ?_⟩
    cases j with
    | zero => cases hn; cases hx; exact p.1.isLt
    | succ j => exact h2 j n x hn hx

theorem Ix.toList_inj : ∀ (ds : List Nat) (p q : Ix ds), Ix.toList ds p = Ix.toList ds q → p = q
  | [], _, _, _ => rfl
  | _ :: ds, p, q, h => by
    obtain ⟨h1, h2⟩ := List.cons.inj h
    exact Prod.ext (Fin.ext h1) (Ix.toList_inj ds p.2 q.2 h2)

theorem trueAt_spec (shape : List Nat) (m : Ix shape → Bool) : (trueAt shape m).Nodup ∧
    ∀ l ∈ trueAt shape m, l.length = shape.length ∧ ∀ (j n x : Nat), shape[j]? = some n → l[j]? = some x → x < n := by
  refine ⟨?_, fun l hl => ?_⟩
  · exact ((Ix.all_spec shape).1.filter _).map fun p q h => Ix.toList_inj shape p q h
  · obtain ⟨p, -, rfl⟩ := List.mem_map.1 hl
    exact Ix.toList_spec shape p

theorem intPosition_nat {n x : Nat} (h : x < n) : intPosition n (x : Int) = some ⟨x, h⟩ := by
  unfold intPosition
  have h0 : ¬ ((x : Int) < 0) := by omega
  simp only [h0, if_false]
  have h1 : 0 ≤ (x : Int) ∧ (x : Int) < n := by omega
  rw [dif_pos h1]
  simp

/-- **C35, masks.** A mask of any shape, on as many axes, with integers, slices, `...` and `newaxis` on the others: the adjoint is right. -/
theorem mask_adjoint [CommRing E] [CharZero E] (ds : List Nat) (pre post : List AEntry) (shape : List Nat) (m : Ix shape → Bool)
    (hpre : ∀ e ∈ pre, e.shape? = none) (hpost : ∀ e ∈ post, e.shape? = none) (ps : List (Ix ds))
    (hps : arrayPositions ds (pre ++ .mask shape m :: post) = .ok ps) : AdjointIdentity (E := E) ps := by
  obtain ⟨its, r, he, hr, hfit, -⟩ := arrayPositions_ok hps
  have hshapes : (pre ++ AEntry.mask shape m :: post).filterMap AEntry.shape? = [[(trueAt shape m).length]] := by
    have none_of : ∀ l : List AEntry, (∀ e ∈ l, e.shape? = none) → l.filterMap AEntry.shape? = [] :=
      fun l hl => List.filterMap_eq_nil_iff.2 hl
    rw [List.filterMap_append, none_of pre hpre, List.nil_append, List.filterMap_cons, AEntry.shape?, none_of post hpost]
  have hr' : r = [(trueAt shape m).length] := by
    rw [hshapes] at hr
    have : broadcastAll [[(trueAt shape m).length]] = .ok [(trueAt shape m).length] := rfl
    rw [this] at hr
    exact (Except.ok.inj hr).symm
  subst hr'
  obtain ⟨h1, h2⟩ := index_arrays_adjoint_iff (E := E) ds _ its _ he hr ps hps
  by_cases hne : ps = []
  · exact h2 hne
  refine (h1 hne).2 ?_
  -- the axes of the mask
  obtain ⟨off, hoff⟩ : ∃ off, ∀ (k s : Nat), shape[k]? = some s → its[off + k]? = some (.array (some s) [(trueAt shape m).length]
      fun t => (((trueAt shape m).getD (t.headD 0) []).getD k 0 : Nat)) := by
    unfold expandAEntries at he
    dsimp only at he
    split at he
    · cases he
    · have he' := Except.ok.inj he
      generalize ds.length - _ = w at he'
      generalize ds.length - _ = w' at he'
      refine ⟨(pre.flatMap (AEntry.expand w)).length, fun k s hk => ?_⟩
      rw [← he', List.flatMap_append, List.flatMap_cons, List.append_assoc, List.append_assoc, List.getElem?_append_right (by omega), Nat.add_sub_cancel_left]
      have hks : k < shape.length := (List.getElem?_eq_some_iff.1 hk).1
      rw [List.getElem?_append_left (by rw [AEntry.expand, List.length_map, List.length_zipIdx]; exact hks), AEntry.expand, List.getElem?_map,
        List.getElem?_zipIdx, hk]
      simp
  obtain ⟨hnd, htrue⟩ := trueAt_spec shape m
  intro b hb b' hb' heq
  have hform : ∀ b ∈ multiIndices ([(trueAt shape m).length] : List Nat).reverse, ∃ t, b = [t] ∧ t < (trueAt shape m).length := by
    intro b hb
    have e : multiIndices ([(trueAt shape m).length] : List Nat).reverse = (List.range (trueAt shape m).length).flatMap fun i => [[i]] := rfl
    rw [e, List.mem_flatMap] at hb
    obtain ⟨i, hi, hb⟩ := hb
    exact ⟨i, List.mem_singleton.1 hb, List.mem_range.1 hi⟩
  have hpick := (multiIndices_pick (shape := [(trueAt shape m).length]) hb).1
  have hpick' := (multiIndices_pick (shape := [(trueAt shape m).length]) hb').1
  obtain ⟨t, rfl, ht⟩ := hform b hb
  obtain ⟨t', rfl, ht'⟩ := hform b' hb'
  have hl := htrue _ (List.getElem_mem ht)
  have hl' := htrue _ (List.getElem_mem ht')
  have : (trueAt shape m)[t] = (trueAt shape m)[t'] := by
    apply List.ext_getElem (hl.1.trans hl'.1.symm)
    intro k hk hk'
    have hks : k < shape.length := by rw [← hl.1]; exact hk
    have hits := hoff k shape[k] (List.getElem?_eq_getElem hks)
    have hlt := (List.getElem?_eq_some_iff.1 hits).1
    have hdl : off + k < ds.length := by rw [← (expandAEntries_ok he).1]; exact hlt
    have hsize : shape[k] = ds[off + k] := by
      have := List.all_eq_true.1 hfit (AxisItem.fits ds[off + k] its[off + k]) (by
        refine List.mem_iff_getElem.2 ⟨off + k, by rw [List.length_zipWith]; omega, ?_⟩
        rw [List.getElem_zipWith])
      rw [(List.getElem?_eq_some_iff.1 hits).2] at this
      simpa [AxisItem.fits] using this
    have := heq (off + k) ds[off + k] _ _ _ (List.getElem?_eq_getElem hdl) hits
    rw [hpick, hpick'] at this
    have g : ∀ (t : Nat) (ht : t < (trueAt shape m).length) (hk : k < (trueAt shape m)[t].length),
        ((trueAt shape m).getD ([t].headD 0) []).getD k 0 = (trueAt shape m)[t][k] := by
      intro t ht hk
      simp only [List.headD_cons, List.getD_eq_getElem?_getD, List.getElem?_eq_getElem ht, Option.getD_some, List.getElem?_eq_getElem hk]
    rw [g t ht hk, g t' ht' hk'] at this
    have b1 := hl.2 k _ _ (List.getElem?_eq_getElem hks) (List.getElem?_eq_getElem hk)
    have b2 := hl'.2 k _ _ (List.getElem?_eq_getElem hks) (List.getElem?_eq_getElem hk')
    rw [intPosition_nat (by omega), intPosition_nat (by omega)] at this
    exact Fin.mk.inj (Option.some.inj this)
  rw [(List.Nodup.getElem_inj_iff hnd).1 this]

/-- The index array `[[0, 1], [2, 3]]` (example data). -/
def square2 : List Nat → Int := fun b => 2 * (b.getD 0 0 : Nat) + (b.getD 1 0 : Nat)

/-- `a[[[0, 1], [2, 3]]]`, `a[[[0], [1]], [0, 2]]` (broadcasting), `a[:, mask]` with a mask of two dimensions, shapes that do not fit. -/
example : arrayPositions [4] [.array [2, 2] square2] = .ok [(0, ()), (1, ()), (2, ()), (3, ())] ∧
    arrayPositions [2, 3] [.array [2, 1] fun b => (b.getD 0 0 : Nat), .array [2] fun b => 2 * (b.getD 0 0 : Nat)] =
      .ok [(0, 0, ()), (0, 2, ()), (1, 0, ()), (1, 2, ())] ∧
    arrayPositions [2, 2, 2] [.slice none none none, .mask [2, 2] fun p => p.1 == p.2.1] =
      .ok [(0, 0, 0, ()), (1, 0, 0, ()), (0, 1, 1, ()), (1, 1, 1, ())] ∧
    arrayPositions [2, 3] [.mask [2, 2] fun _ => true] = .error .indexError ∧
    arrayPositions [4, 4] [.array [2] fun _ => 0, .array [3] fun _ => 0] = .error .indexError := by
  refine ⟨?_, ?_, ?_, ?_, ?_⟩ <;> decide +kernel

/-- The adjoint of `a[[[0, 1], [2, 3]]]` is right, that of `a[[[0, 1], [1, 2]]]` is not. -/
example : AdjointIdentity (E := Int) ([(0, ()), (1, ()), (2, ()), (3, ())] : List (Ix [4])) :=
  index_array_distinct [4] [.array [2, 2] square2] [.array none [2, 2] square2] [2, 2] rfl rfl 0 4 none square2 rfl rfl (by decide +kernel) _ (by decide +kernel)

theorem repeated_in_index_array_wrong : ∃ ps, arrayPositions [4] [.array [2, 2] fun b => (b.getD 0 0 : Nat) + (b.getD 1 0 : Nat)] = .ok ps ∧
    sliceAdj ps [(1 : Int), 1, 1, 1] (1, ()) = 1 ∧ ¬ AdjointIdentity (E := Int) ps := by
  refine ⟨[(0, ()), (1, ()), (1, ()), (2, ())], by decide +kernel, by decide +kernel, fun h => ?_⟩
  have := (index_adjoint_iff _).1 h
  exact absurd this (by decide +kernel)

end Pyadjoint
