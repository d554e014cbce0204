import Verif.Model.ReducedApi
import Verif.Model.CrashEval
import Verif.Props.Pruning
import Verif.Proofs.Replay
import Verif.Proofs.Chain

/-!
# C18, C19, C21: the calling interface of the drivers and of `ReducedFunctional`
-/

namespace Pyadjoint

variable {V T A : Type*}

/-! ## C18 -/

/-- The elements of an argument. -/
def Arg.elems {α : Type*} : Arg α → List α
  | .single a => [a]
  | .list l => l
  | .tuple l => l
  | .enlist e => e.items

/-- Was a single object passed? -/
def Arg.isSingle {α : Type*} : Arg α → Bool
  | .single _ => true
  | _ => false

/-- **C18.** `Enlist(x).delist()` is `x`: the object itself for a single object, otherwise the list of the
elements of `x` (a tuple comes back as a list). -/
theorem enlist_delist {α : Type*} (x : Arg α) :
    (Enlist.of x).delistSelf = .ok (match x with
      | .single a => .one a
      | .list l => .many l
      | .tuple l => .many l
      | .enlist e => .many e.items) := by
  cases x <;> rfl

/-- **C18.** `delist(y)` fails exactly if a single object was enlisted and `y` has not exactly one
element; otherwise it returns `y`, or its only element. -/
theorem delist_iff {α β : Type*} (x : Arg α) (y : List β) :
    ((Enlist.of x).delist y = .error .assertionError ↔ x.isSingle = true ∧ y.length ≠ 1) ∧
    (∀ b, (Enlist.of x).delist y = .ok (.one b) ↔ x.isSingle = true ∧ y = [b]) ∧
    (∀ l, (Enlist.of x).delist y = .ok (.many l) ↔ x.isSingle = false ∧ l = y) := by
  cases x with
  | single a =>
    match y with
    | [] => simp [Enlist.of, Enlist.delist, Arg.isSingle]
    | [b] => simp [Enlist.of, Enlist.delist, Arg.isSingle]
    | b :: c :: y => simp [Enlist.of, Enlist.delist, Arg.isSingle]
  | list l => simp [Enlist.of, Enlist.delist, Arg.isSingle, eq_comm]
  | tuple l => simp [Enlist.of, Enlist.delist, Arg.isSingle, eq_comm]
  | enlist l => simp [Enlist.of, Enlist.delist, Arg.isSingle, eq_comm]

theorem enlist_items {α : Type*} (x : Arg α) : (Enlist.of x).items = x.elems := by
  cases x <;> rfl

theorem enlist_listed {α : Type*} (x : Arg α) : (Enlist.of x).listed = !x.isSingle := by
  cases x <;> rfl

/-- Two gradient computations from the same state agree on every control they have in common. -/
theorem getDerivative_common [Add A] [Zero A] {bs : Blocks V T A} (wf : WF bs) (J : BV)
    (cs cs' : List BV) (seed : A) (h : Heap V T A) (c : BV) (hc : c ∈ cs) (hc' : c ∈ cs') :
    getDerivative (computeGradientState bs J cs seed h) c
      = getDerivative (computeGradientState bs J cs' seed h) c := by
  unfold getDerivative
  rw [pruned_gradient_eq_full wf J cs seed h c hc, pruned_gradient_eq_full wf J cs' seed h c hc']

theorem computeGradient_fst [Add A] [Zero A] (bs : Blocks V T A) (J : BV) (cs : List BV) (seed : A)
    (h : Heap V T A) : (computeGradient bs J cs seed h).1
      = cs.map (getDerivative (computeGradientState bs J cs seed h)) := rfl

/-- **C18 for `compute_gradient`.** A single control gives a single derivative; a list or tuple of
controls gives a list of the same length, whose entry at each position is the derivative returned
when the control at that position is passed alone. -/
theorem gradient_single_and_list [Add A] [Zero A] {bs : Blocks V T A} (wf : WF bs) (J : BV) (seed : A)
    (h : Heap V T A) :
    (∀ c, ∃ a, (computeGradientApi bs J (.single c) seed h).1 = .ok (.one a)) ∧
    ∀ m : Arg BV, m.isSingle = false →
      ∃ r, (computeGradientApi bs J m seed h).1 = .ok (.many r) ∧ r.length = m.elems.length ∧
        ∀ (i : Nat) (c : BV), m.elems[i]? = some c →
          ∃ a, r[i]? = some a ∧ (computeGradientApi bs J (.single c) seed h).1 = .ok (.one a) := by
  have hs : ∀ c, (computeGradientApi bs J (.single c) seed h).1
      = .ok (.one (getDerivative (computeGradientState bs J [c] seed h) c)) := fun c => rfl
  refine ⟨fun c => ⟨_, hs c⟩, fun m hm =>
    ⟨m.elems.map (getDerivative (computeGradientState bs J m.elems seed h)), ?_, ?_, ?_⟩⟩
  · show (Enlist.of m).delist _ = _
    rw [((delist_iff m _).2.2 _).2 ⟨hm, rfl⟩, enlist_items]
    rfl
  · simp
  · intro i c hc
    refine ⟨getDerivative (computeGradientState bs J m.elems seed h) c, by simp [hc], ?_⟩
    rw [hs, getDerivative_common wf J [c] m.elems seed h c (by simp) (List.mem_of_getElem? hc)]

example : WF exTape ∧ (computeGradientApi exTape 3 (.single 0) 1 exHeap).1 = .ok (.one 2) ∧
    (computeGradientApi exTape 3 (.tuple [1, 0]) 1 exHeap).1 = .ok (.many [1, 2]) :=
  ⟨exTape_wf, rfl, rfl⟩

/-- **C18 for `ReducedFunctional.derivative`.** With at least one control it returns what
`compute_gradient` returns for the controls as they were given to the constructor. -/
theorem derivative_single_and_list [Add A] [Zero A] [Mul A] (rf : RF A) (hk : rf.components = none)
    (hne : rf.controls.elems ≠ []) (bs : Blocks V T A) (adjInput : A) (h : Heap V T A) :
    rf.derivative bs adjInput h = computeGradientApi bs rf.J rf.controls (adjInput * rf.scale) h := by
  obtain ⟨J, controls, components, scale⟩ := rf
  simp only at hk hne
  subst hk
  have hne' : (Enlist.of controls).items ≠ [] := by rw [enlist_items]; exact hne
  have h1 : (Enlist.of controls).items.isEmpty = false := by simpa using hne'
  have h2 : (computeGradient bs J (Enlist.of controls).items (adjInput * scale) h).1.isEmpty = false := by
    simpa [computeGradient_fst] using hne'
  show (if (Enlist.of controls).items.isEmpty then _ else
    (if (computeGradient bs J (Enlist.of controls).items (adjInput * scale) h).1.isEmpty then _ else _, _)) = _
  rw [h1, h2]
  rfl

example : (⟨3, .single 0, none, 5⟩ : RF Int).controls.elems ≠ [] ∧
    ((⟨3, .single 0, none, 5⟩ : RF Int).derivative exTape 1 exHeap).1 = .ok (.one 10) ∧
    ((⟨3, .list [1, 0], none, 5⟩ : RF Int).derivative exTape 1 exHeap).1 = .ok (.many [5, 10]) :=
  ⟨by decide, rfl, rfl⟩

/-! ## C19 -/

/-- Specification: entry `i` is the gradient component of control `i` if `i` was selected, else zero. -/
def componentsSpec [Zero A] (is : List Int) (g : List A) : List A :=
  g.mapIdx fun i a => if (i : Int) ∈ is then a else 0

/-- The indices a `derivative_components` tuple selects among `n` controls, in increasing order. -/
def selectedIndices (is : List Int) (n : Nat) : List Nat :=
  (List.range n).filter fun i : Nat => decide ((i : Int) ∈ is)

/-- The packing loop gives the `k`-th derivative to the `k`-th selected index in increasing order. -/
theorem packLoop_eq [Zero A] (is : List Int) (ds : List A) (cs : List BV) (i count : Nat)
    (g : Nat → A)
    (hds : ∀ k j, ((List.range' i cs.length).filter fun i : Nat => decide ((i : Int) ∈ is))[k]? = some j →
      ds[count + k]? = some (g j)) :
    packLoop is ds cs i count
      = some ((List.range' i cs.length).map fun j : Nat => if (j : Int) ∈ is then g j else 0) := by
  induction cs generalizing i count with
  | nil => rfl
  | cons c cs ih =>
    rw [List.length_cons, List.range'_succ] at hds ⊢
    rw [List.map_cons]
    by_cases hi : (i : Int) ∈ is
    · have h0 := hds 0 i (by simp [hi])
      have ih' := ih (i + 1) (count + 1) (fun k j hk => by
        have := hds (k + 1) j (by simpa [hi] using hk)
        rw [← this]; congr 1; omega)
      simp only [packLoop, hi, if_true]
      rw [Nat.add_zero] at h0
      rw [h0, ih']
    · have ih' := ih (i + 1) count (fun k j hk => hds k j (by simpa [hi] using hk))
      simp only [packLoop, hi, if_false]
      rw [ih']; rfl

theorem mapM_pyIndex {α : Type*} (l : List α) (is : List Int) :
    (∀ i ∈ is, 0 ≤ i ∧ i < l.length) → ∃ r, is.mapM (pyIndex l) = some r ∧
      r.length = is.length ∧ ∀ (k : Nat) (i : Int), is[k]? = some i → r[k]? = l[i.toNat]? := by
  induction is with
  | nil => intro _; exact ⟨[], rfl, rfl, by simp⟩
  | cons i is ih =>
    intro hr
    obtain ⟨r, h1, h2, h3⟩ := ih fun j hj => hr j (List.mem_cons_of_mem _ hj)
    obtain ⟨h0, hl⟩ := hr i List.mem_cons_self
    have hlt : i.toNat < l.length := by omega
    have hp : pyIndex l i = some l[i.toNat] := by
      simp [pyIndex, h0, List.getElem?_eq_getElem hlt]
    refine ⟨l[i.toNat] :: r, ?_, by simp [h2], ?_⟩
    · rw [List.mapM_cons, hp, h1]; rfl
    · intro k j hk
      match k with
      | 0 =>
        simp only [List.getElem?_cons_zero, Option.some.injEq] at hk ⊢
        subst hk
        exact (List.getElem?_eq_getElem hlt).symm
      | k + 1 =>
        simp only [List.getElem?_cons_succ] at hk ⊢
        exact h3 k j hk

/-- In a strictly increasing list of indices below `n`, the selected indices in increasing order are
the list itself. -/
theorem selectedIndices_of_increasing (ns : List Nat) (n : Nat) (hs : ns.Pairwise (· < ·))
    (hn : ∀ i ∈ ns, i < n) : selectedIndices (ns.map Int.ofNat) n = ns := by
  unfold selectedIndices
  apply List.Perm.eq_of_pairwise (le := (· < ·))
  · intro a b _ _ h1 h2; omega
  · exact (List.pairwise_lt_range).filter _
  · exact hs
  · rw [List.perm_ext_iff_of_nodup ((List.nodup_range).filter _) (hs.imp fun h => Nat.ne_of_lt h)]
    intro a
    simp only [List.mem_filter, List.mem_range, decide_eq_true_eq, List.mem_map]
    constructor
    · rintro ⟨_, b, hb, e⟩
      have : b = a := Int.ofNat.inj e
      exact this ▸ hb
    · intro ha
      exact ⟨hn a ha, a, ha, rfl⟩

/-- **C19, part.** Controls given as a list or tuple, `derivative_components` any list of non-negative
indices whose first elements are the selected indices in increasing order (as for strictly
increasing tuples, `derivative_components_increasing`): `derivative()` returns one entry per control, the
component of the full gradient if its index was selected and zero if not.

Missing: other orders, negative indices and a single control, for which it is false
(`derivative_components_order`, `derivative_components_negative`, `derivative_components_single`). -/
theorem derivative_components_partial [Add A] [Zero A] [Mul A] {bs : Blocks V T A} (wf : WF bs) (J : BV)
    (controls : Arg BV) (hl : controls.isSingle = false) (is : List Int) (hne : is ≠ [])
    (hr : ∀ i ∈ is, 0 ≤ i ∧ i < controls.elems.length)
    (hp : (selectedIndices is controls.elems.length).map Int.ofNat <+: is)
    (scale adjInput : A) (h : Heap V T A) :
    ∃ g, ((⟨J, controls, none, scale⟩ : RF A).derivative bs adjInput h).1 = .ok (.many g) ∧
      g.length = controls.elems.length ∧
      ((⟨J, controls, some is, scale⟩ : RF A).derivative bs adjInput h).1
        = .ok (.many (componentsSpec is g)) := by
  set cs := controls.elems with hcs
  set seed := adjInput * scale
  set full := fun c => getDerivative (computeGradientState bs J cs seed h) c with hfull
  obtain ⟨i₀, is', rfl⟩ := List.exists_cons_of_ne_nil hne
  have hpos : cs ≠ [] := by
    intro e
    have := hr i₀ List.mem_cons_self
    rw [e] at this
    simp only [List.length_nil] at this
    omega
  refine ⟨cs.map full, ?_, by simp, ?_⟩
  · rw [derivative_single_and_list _ rfl hpos]
    show (Enlist.of controls).delist _ = _
    rw [((delist_iff controls _).2.2 _).2 ⟨hl, rfl⟩, enlist_items]
    rfl
  set is := i₀ :: is' with his
  obtain ⟨sel, h1, h2, h3⟩ := mapM_pyIndex cs is hr
  have hmem : ∀ c ∈ sel, c ∈ cs := by
    intro c hc
    obtain ⟨k, hk, e⟩ := List.mem_iff_getElem.1 hc
    have := h3 k is[k] (List.getElem?_eq_getElem (h2 ▸ hk))
    rw [List.getElem?_eq_getElem hk, e] at this
    exact List.mem_of_getElem? this.symm
  have hgr : (computeGradient bs J sel seed h).1 = sel.map full := by
    rw [computeGradient_fst]
    exact List.map_congr_left fun c hc => getDerivative_common wf J sel cs seed h c hc (hmem c hc)
  let g : Nat → A := fun j => (cs[j]?).elim 0 full
  have hpack : packLoop is (computeGradient bs J sel seed h).1 cs 0 0
      = some ((List.range' 0 cs.length).map fun j : Nat => if (j : Int) ∈ is then g j else 0) := by
    apply packLoop_eq is _ cs 0 0 g
    intro k j hk
    rw [← List.range_eq_range'] at hk
    have hk' : (selectedIndices is cs.length)[k]? = some j := hk
    have hik : is[k]? = some (Int.ofNat j) := by
      obtain ⟨t, ht⟩ := hp
      rw [← ht, List.getElem?_append_left]
      · simp [hk']
      · have := (List.getElem?_eq_some_iff.1 hk').1
        simpa using this
    have hj : j < cs.length := by
      have := List.mem_of_getElem? hk'
      simp only [selectedIndices, List.mem_filter, List.mem_range] at this
      exact this.1
    rw [hgr, Nat.zero_add, List.getElem?_map, h3 k _ hik]
    simp [g, List.getElem?_eq_getElem hj]
  have hspec : (List.range' 0 cs.length).map (fun j : Nat => if (j : Int) ∈ is then g j else 0)
      = componentsSpec is (cs.map full) := by
    apply List.ext_getElem
    · simp [componentsSpec]
    · intro i hi hi'
      have hi'' : i < cs.length := by simpa using hi
      simp [componentsSpec, g, List.getElem?_eq_getElem hi'']
  rw [hspec] at hpack
  have hpk : packComponents controls is (computeGradient bs J sel seed h).1
      = .ok (componentsSpec is (cs.map full)) := by
    cases controls with
    | single a => exact absurd hl (by simp [Arg.isSingle])
    | list l =>
      simp only [packComponents]
      rw [show packLoop is (computeGradient bs J sel seed h).1 l 0 0 = _ from hpack]
    | tuple l =>
      simp only [packComponents]
      rw [show packLoop is (computeGradient bs J sel seed h).1 l 0 0 = _ from hpack]
    | enlist e =>
      obtain ⟨_, l⟩ := e
      simp only [packComponents]
      rw [show packLoop is (computeGradient bs J sel seed h).1 l 0 0 = _ from hpack]
  have hext : extractComponents (Enlist.of controls).items is = some sel := by
    rw [enlist_items]; exact h1
  show (match extractComponents (Enlist.of controls).items is with
    | none => _
    | some sel => _ : Except ApiErr (Ret A) × Heap V T A).1 = _
  rw [hext]
  show (match packComponents controls is (computeGradient bs J sel seed h).1 with
    | .error x => _
    | .ok ds => _ : Except ApiErr (Ret A) × Heap V T A).1 = _
  rw [hpk]
  show finishDerivative (Enlist.of controls) _ = _
  unfold finishDerivative
  rw [if_neg, ((delist_iff controls _).2.2 _).2 ⟨hl, rfl⟩]
  have : (componentsSpec is (cs.map full)).length ≠ 0 := by
    simp [componentsSpec, hpos]
  intro he
  exact this (by simpa using he)

/-- **C19 for strictly increasing tuples.** -/
theorem derivative_components_increasing [Add A] [Zero A] [Mul A] {bs : Blocks V T A} (wf : WF bs) (J : BV)
    (controls : Arg BV) (hl : controls.isSingle = false) (ns : List Nat) (hne : ns ≠ [])
    (hs : ns.Pairwise (· < ·)) (hr : ∀ i ∈ ns, i < controls.elems.length)
    (scale adjInput : A) (h : Heap V T A) :
    ∃ g, ((⟨J, controls, none, scale⟩ : RF A).derivative bs adjInput h).1 = .ok (.many g) ∧
      g.length = controls.elems.length ∧
      ((⟨J, controls, some (ns.map Int.ofNat), scale⟩ : RF A).derivative bs adjInput h).1
        = .ok (.many (componentsSpec (ns.map Int.ofNat) g)) := by
  apply derivative_components_partial wf J controls hl _ (by simpa using hne)
  · intro i hi
    obtain ⟨n, hn, rfl⟩ := List.mem_map.1 hi
    have := hr n hn
    simp only [Int.ofNat_eq_natCast]
    omega
  · rw [selectedIndices_of_increasing ns _ hs hr]

example : WF exTape ∧ ([1, 3] : List Nat).Pairwise (· < ·) ∧
    ((⟨3, .list [0, 1, 2, 0], some [1, 3], 1⟩ : RF Int).derivative exTape 1 exHeap).1
      = .ok (.many [0, 1, 0, 2]) :=
  ⟨exTape_wf, by decide, rfl⟩

/-- Specification: the position in a sequence of length `n` that a Python index means, if it is in range. -/
def position (n : Nat) (i : Int) : Option Nat :=
  if 0 ≤ i ∧ i < n then some i.toNat else if i < 0 ∧ -n ≤ i then some (i + n).toNat else none

theorem pyIndex_eq {α : Type*} (l : List α) (i : Int) : pyIndex l i = (position l.length i).bind fun k => l[k]? := by
  unfold pyIndex position
  by_cases h0 : 0 ≤ i
  · by_cases hl : i < l.length
    · rw [if_pos h0, if_pos ⟨h0, hl⟩]; rfl
    · rw [if_pos h0, if_neg (fun h => hl h.2), if_neg (fun h => absurd h.1 (by omega))]
      exact List.getElem?_eq_none (by omega)
  · by_cases hl : -l.length ≤ i
    · rw [if_neg h0, if_pos (by omega), if_neg (fun h => h0 h.1), if_pos ⟨by omega, hl⟩]
      show _ = l[_]?
      congr 1; omega
    · rw [if_neg h0, if_neg (by omega), if_neg (fun h => h0 h.1), if_neg (fun h => hl h.2)]
      rfl

theorem position_lt {n : Nat} {i : Int} {k : Nat} (h : position n i = some k) : k < n := by
  unfold position at h
  split at h
  · cases h; omega
  · split at h
    · cases h; omega
    · cases h

theorem mapM_pyIndex_iff {α : Type*} (l : List α) (is : List Int) :
    ((∃ i ∈ is, position l.length i = none) → is.mapM (pyIndex l) = none) ∧
    ((∀ i ∈ is, position l.length i ≠ none) → ∃ r, is.mapM (pyIndex l) = some r ∧
      r.length = is.length ∧ ∀ (k : Nat) (i : Int), is[k]? = some i → r[k]? = (position l.length i).bind fun k => l[k]?) := by
  induction is with
  | nil => exact ⟨by simp, fun _ => ⟨[], rfl, rfl, by simp⟩⟩
  | cons i is ih =>
    refine ⟨?_, fun hr => ?_⟩
    · intro hex
      rw [List.mapM_cons]
      cases hp : position l.length i with
      | none => rw [pyIndex_eq, hp]; rfl
      | some k =>
        have hk := position_lt hp
        have : ∃ j ∈ is, position l.length j = none := by
          obtain ⟨j, hj, e⟩ := hex
          rcases List.mem_cons.1 hj with rfl | hj
          · rw [hp] at e; cases e
          · exact ⟨j, hj, e⟩
        rw [pyIndex_eq, hp, ih.1 this, Option.bind_some, List.getElem?_eq_getElem hk]
        rfl
    · obtain ⟨r, h1, h2, h3⟩ := ih.2 fun j hj => hr j (List.mem_cons_of_mem _ hj)
      obtain ⟨k₀, hp⟩ := Option.ne_none_iff_exists'.1 (hr i List.mem_cons_self)
      have hk := position_lt hp
      refine ⟨l[k₀] :: r, ?_, by simp [h2], ?_⟩
      · rw [List.mapM_cons, pyIndex_eq, hp, h1, Option.bind_some, List.getElem?_eq_getElem hk]; rfl
      · intro k j hk'
        match k with
        | 0 =>
          simp only [List.getElem?_cons_zero, Option.some.injEq] at hk' ⊢
          subst hk'
          rw [hp, Option.bind_some, List.getElem?_eq_getElem hk]
        | k + 1 =>
          simp only [List.getElem?_cons_succ] at hk' ⊢
          exact h3 k j hk'

/-- **C19, what the code does for every tuple of components.**  An index out of range raises `IndexError` before anything is computed.
Otherwise there is one entry per control: zero if the index of the control does not occur (as a non-negative number) in the tuple; if
it occurs, and is the `k`-th in increasing order of those that occur, the gradient component of the control meant by the `k`-th
element of the tuple, whichever control that is. -/
theorem derivative_components_exact [Add A] [Zero A] [Mul A] {bs : Blocks V T A} (wf : WF bs) (J : BV)
    (controls : Arg BV) (hl : controls.isSingle = false) (is : List Int) (hne : is ≠ [])
    (scale adjInput : A) (h : Heap V T A) :
    ((∃ i ∈ is, position controls.elems.length i = none) →
      (⟨J, controls, some is, scale⟩ : RF A).derivative bs adjInput h = (.error .indexError, h)) ∧
    ((∀ i ∈ is, position controls.elems.length i ≠ none) →
      ∃ g r, ((⟨J, controls, none, scale⟩ : RF A).derivative bs adjInput h).1 = .ok (.many g) ∧
        ((⟨J, controls, some is, scale⟩ : RF A).derivative bs adjInput h).1 = .ok (.many r) ∧
        g.length = controls.elems.length ∧ r.length = controls.elems.length ∧
        (∀ j, j < r.length → (j : Int) ∉ is → r[j]? = some 0) ∧
        (∀ (k j : Nat), (selectedIndices is r.length)[k]? = some j →
          ∃ i p, is[k]? = some i ∧ position r.length i = some p ∧ r[j]? = g[p]? ∧ p < g.length)) := by
  set cs := controls.elems with hcs
  set seed := adjInput * scale
  obtain ⟨i₀, is', rfl⟩ := List.exists_cons_of_ne_nil hne
  set is := i₀ :: is' with his
  refine ⟨fun hex => ?_, fun hr => ?_⟩
  · have hext : extractComponents (Enlist.of controls).items is = none := by
      rw [enlist_items]; exact (mapM_pyIndex_iff cs is).1 hex
    show (match extractComponents (Enlist.of controls).items is with
      | none => _
      | some sel => _ : Except ApiErr (Ret A) × Heap V T A) = _
    rw [hext]
  set full := fun c => getDerivative (computeGradientState bs J cs seed h) c with hfull
  have hpos : cs ≠ [] := by
    intro e
    obtain ⟨k, hk⟩ := Option.ne_none_iff_exists'.1 (hr i₀ List.mem_cons_self)
    have := position_lt hk
    rw [e] at this
    simp at this
  obtain ⟨sel, h1, h2, h3⟩ := (mapM_pyIndex_iff cs is).2 hr
  have hmem : ∀ c ∈ sel, c ∈ cs := by
    intro c hc
    obtain ⟨k, hk, e⟩ := List.mem_iff_getElem.1 hc
    have := h3 k is[k] (List.getElem?_eq_getElem (h2 ▸ hk))
    rw [List.getElem?_eq_getElem hk, e] at this
    obtain ⟨p, -, hp⟩ := Option.bind_eq_some_iff.1 this.symm
    exact List.mem_of_getElem? hp
  have hgr : (computeGradient bs J sel seed h).1 = sel.map full := by
    rw [computeGradient_fst]
    exact List.map_congr_left fun c hc => getDerivative_common wf J sel cs seed h c hc (hmem c hc)
  have hnd : (selectedIndices is cs.length).Nodup := List.nodup_range.filter _
  have hlen : (selectedIndices is cs.length).length ≤ is.length := by
    have : ((selectedIndices is cs.length).map Int.ofNat).Subperm is := by
      apply List.Nodup.subperm
      · exact hnd.map fun a b e => Int.ofNat.inj e
      · intro i hi
        obtain ⟨n, hn, rfl⟩ := List.mem_map.1 hi
        simp only [selectedIndices, List.mem_filter, decide_eq_true_eq] at hn
        exact hn.2
    simpa using this.length_le
  let g : Nat → A := fun j => ((sel.map full)[(selectedIndices is cs.length).idxOf j]?).getD 0
  have hg : ∀ k j : Nat, (selectedIndices is cs.length)[k]? = some j → (sel.map full)[k]? = some (g j) := by
    intro k j hk
    obtain ⟨hk', e⟩ := List.getElem?_eq_some_iff.1 hk
    have : k < (sel.map full).length := by rw [List.length_map, h2]; omega
    show _ = some (((sel.map full)[(selectedIndices is cs.length).idxOf j]?).getD 0)
    rw [← e, hnd.idxOf_getElem k hk', List.getElem?_eq_getElem this]
    rfl
  have hpack : packLoop is (computeGradient bs J sel seed h).1 cs 0 0
      = some ((List.range cs.length).map fun j : Nat => if (j : Int) ∈ is then g j else 0) := by
    rw [List.range_eq_range', hgr]
    apply packLoop_eq is _ cs 0 0 g
    intro k j hk
    rw [← List.range_eq_range'] at hk
    rw [Nat.zero_add]
    exact hg k j hk
  set r := (List.range cs.length).map fun j : Nat => if (j : Int) ∈ is then g j else 0 with hr'
  have hpk : packComponents controls is (computeGradient bs J sel seed h).1 = .ok r := by
    cases controls with
    | single a => exact absurd hl (by simp [Arg.isSingle])
    | list l =>
      simp only [packComponents]
      rw [show packLoop is (computeGradient bs J sel seed h).1 l 0 0 = _ from hpack]
    | tuple l =>
      simp only [packComponents]
      rw [show packLoop is (computeGradient bs J sel seed h).1 l 0 0 = _ from hpack]
    | enlist e =>
      obtain ⟨_, l⟩ := e
      simp only [packComponents]
      rw [show packLoop is (computeGradient bs J sel seed h).1 l 0 0 = _ from hpack]
  have hext : extractComponents (Enlist.of controls).items is = some sel := by
    rw [enlist_items]; exact h1
  have hrl : r.length = cs.length := by simp [hr']
  refine ⟨cs.map full, r, ?_, ?_, by simp, hrl, fun j hj hn => ?_, fun k j hk => ?_⟩
  · rw [derivative_single_and_list _ rfl hpos]
    show (Enlist.of controls).delist _ = _
    rw [((delist_iff controls _).2.2 _).2 ⟨hl, rfl⟩, enlist_items]
    rfl
  · show (match extractComponents (Enlist.of controls).items is with
      | none => _
      | some sel => _ : Except ApiErr (Ret A) × Heap V T A).1 = _
    rw [hext]
    show (match packComponents controls is (computeGradient bs J sel seed h).1 with
      | .error x => _
      | .ok ds => _ : Except ApiErr (Ret A) × Heap V T A).1 = _
    rw [hpk]
    show finishDerivative (Enlist.of controls) _ = _
    unfold finishDerivative
    rw [if_neg, ((delist_iff controls _).2.2 _).2 ⟨hl, rfl⟩]
    have : r.length ≠ 0 := by rw [hrl]; simpa using hpos
    intro he
    exact this (by simpa using he)
  · rw [hrl] at hj
    simp [hr', List.getElem?_range hj, hn]
  · rw [hrl] at hk
    have hjm := List.mem_of_getElem? hk
    simp only [selectedIndices, List.mem_filter, List.mem_range, decide_eq_true_eq] at hjm
    have hkl : k < is.length := by
      have := (List.getElem?_eq_some_iff.1 hk).1; omega
    have hik := List.getElem?_eq_getElem hkl
    obtain ⟨p, hp⟩ := Option.ne_none_iff_exists'.1 (hr is[k] (List.getElem_mem hkl))
    have hpl := position_lt hp
    refine ⟨is[k], p, hik, by rw [hrl]; exact hp, ?_, by simpa using hpl⟩
    have e1 := hg k j hk
    rw [List.getElem?_map, h3 k _ hik, hp, Option.bind_some, List.getElem?_eq_getElem hpl] at e1
    have e2 : r[j]? = some (g j) := by simp [hr', List.getElem?_range hjm.1, hjm.2]
    rw [e2, ← e1, List.getElem?_map, List.getElem?_eq_getElem hpl]

/-- With the components `(1, -3, 2)` of three controls (the first one given twice) the entries at 1 and 2 are those of the controls meant by the
first two elements of the tuple. -/
example : ((⟨3, .list [0, 1, 0], some [1, -3, 2], 1⟩ : RF Int).derivative exTape 1 exHeap).1 = .ok (.many [0, 1, 2]) ∧
    position 3 (-3) = some 0 ∧
    ((⟨3, .list [0, 1, 0], some [1, -4], 1⟩ : RF Int).derivative exTape 1 exHeap).1 = .error .indexError := ⟨rfl, rfl, rfl⟩

/-- **C19 is false for other orders.**  With `J = 2*x + y`, controls `[x, y]` and components `(1, 0)` the two
derivatives are swapped. -/
theorem derivative_components_order :
    ((⟨3, .list [0, 1], none, 1⟩ : RF Int).derivative exTape 1 exHeap).1 = .ok (.many [2, 1]) ∧
    ((⟨3, .list [0, 1], some [1, 0], 1⟩ : RF Int).derivative exTape 1 exHeap).1 = .ok (.many [1, 2]) :=
  ⟨rfl, rfl⟩

/-- **C19 is false for repeated indices**: `(0, 0, 1)` puts the derivative of the first control into the
second entry. -/
theorem derivative_components_repeated :
    ((⟨3, .list [0, 1], some [0, 0, 1], 1⟩ : RF Int).derivative exTape 1 exHeap).1 = .ok (.many [2, 2]) :=
  rfl

/-- **C19 is false for negative indices**: they select a control, whose derivative is computed and then
dropped: the result is zero. -/
theorem derivative_components_negative :
    ((⟨3, .list [0, 1], some [-1], 1⟩ : RF Int).derivative exTape 1 exHeap).1 = .ok (.many [0, 0]) :=
  rfl

/-- **C19 is false for a single control**: after the sweep, `derivative()` raises `TypeError`, whatever the
tape, the state and the components. -/
theorem derivative_components_single [Add A] [Zero A] [Mul A] (bs : Blocks V T A) (J c : BV) (scale adjInput : A)
    (h : Heap V T A) :
    ((⟨J, .single c, some [0], scale⟩ : RF A).derivative bs adjInput h).1 = .error .typeError :=
  rfl

/-! ## C21 -/

/-- **C21, evaluation.** After `rf(x)` every control holds its `x`, no variable is marked as a control, and
nothing but the saved values has changed. -/
theorem evaluation_undisturbed [Mul V] (bs : Blocks V T A) (rf : RF V) (hnd : rf.controls.elems.Nodup)
    (x : Arg V) (h : Heap V T A) (hfl : ∀ v, (h v).isControl = false) (y : V) (h' : Heap V T A)
    (hok : rf.call bs x h = .ok (y, h')) :
    x.elems.length = rf.controls.elems.length ∧
    (∀ (i : Nat) (c : BV), rf.controls.elems[i]? = some c → x.elems[i]? = some (saved h' c)) ∧
    (∀ v, (h' v).isControl = false) ∧ y = saved h' rf.J * rf.scale ∧
    ∀ v, ∃ o, h' v = { h v with ckpt := o } := by
  unfold RF.call RF.enlisted at hok
  rw [enlist_items, enlist_items] at hok
  unfold rfCall at hok
  split at hok
  · exact absurd hok (by simp)
  · rename_i r hr
    split at hr
    · exact absurd hr (by simp)
    · rename_i hlen
      have hlen : x.elems.length = rf.controls.elems.length := by simpa using hlen
      simp only [Option.some.injEq] at hr
      subst hr
      simp only [Except.ok.injEq, Prod.mk.injEq] at hok
      obtain ⟨rfl, rfl⟩ := hok
      refine ⟨hlen, ?_, ?_, rfl, fun v => rfEval_frame bs _ _ h v (fun c _ => hfl c)⟩
      · intro i c hc
        obtain ⟨hi, rfl⟩ := List.getElem?_eq_some_iff.1 hc
        have := rfEval_control bs rf.controls.elems x.elems h hnd hlen (fun c _ => hfl c) i hi
        rw [saved, this, List.getElem?_eq_getElem (hlen ▸ hi)]
      · intro v
        obtain ⟨o, ho⟩ := rfEval_frame bs rf.controls.elems x.elems h v (fun c _ => hfl c)
        rw [ho]; exact hfl v

example : (⟨3, .list [0, 1], none, 5⟩ : RF Int).call exTape (.list [10, 20]) exHeap
      = .ok (200, rfEval exTape [0, 1] [10, 20] exHeap) ∧
    (⟨3, .list [0, 1], none, 5⟩ : RF Int).controls.elems.Nodup :=
  ⟨rfl, by decide⟩

theorem foldl_setCkpt?_frame (l : List (BV × Nat)) (f : Nat → Option V) (h : Heap V T A) (v : BV) :
    ∃ o, l.foldl (fun h p => setCkpt? h p.1 (f p.2)) h v = { h v with ckpt := o } := by
  induction l generalizing h with
  | nil => exact ⟨_, rfl⟩
  | cons p l ih =>
    rw [List.foldl_cons]
    obtain ⟨o, ho⟩ := ih (setCkpt? h p.1 (f p.2))
    refine ⟨o, ?_⟩
    rw [ho]
    cases f p.2 with
    | none => rfl
    | some x =>
      simp only [setCkpt?, setCkpt]
      split
      · rfl
      · by_cases hv : v = p.1
        · subst hv; simp
        · rw [Function.update_of_ne hv]

theorem foldl_setCkpt?_of_ne (l : List (BV × Nat)) (f : Nat → Option V) (h : Heap V T A) (v : BV)
    (hl : ∀ p ∈ l, p.1 ≠ v) : l.foldl (fun h p => setCkpt? h p.1 (f p.2)) h v = h v := by
  induction l generalizing h with
  | nil => rfl
  | cons p l ih =>
    rw [List.foldl_cons, ih _ (fun q hq => hl q (List.mem_cons_of_mem _ hq))]
    have hp := hl p List.mem_cons_self
    cases f p.2 with
    | none => rfl
    | some x =>
      simp only [setCkpt?, setCkpt]
      split
      · rfl
      · rw [Function.update_of_ne (Ne.symm hp)]

theorem recomputePartial_frame (b : Block V T A) (m : Bool) (j : Nat) (h : Heap V T A) (v : BV) :
    ∃ o, b.recomputePartial m j h v = { h v with ckpt := o } := by
  unfold Block.recomputePartial
  split
  · exact ⟨_, rfl⟩
  · exact foldl_setCkpt?_frame _ _ h v

/-- **C21, evaluation that raises.** Whatever block and component raised, no variable is left marked as
a control and nothing but saved values has changed. -/
theorem crashed_evaluation_undisturbed (bs : Blocks V T A) (cs : List BV) (xs : List V) (k j : Nat)
    (h : Heap V T A) (hfl : ∀ v, (h v).isControl = false) (v : BV) :
    ∃ o, crashedEval bs cs xs k j h v = { h v with ckpt := o } := by
  unfold crashedEval
  simp only []
  set h₁ := markControls cs true (updateControls cs xs h) with hh₁
  have key : ∀ g : Heap V T A, (∃ o, g v = { h₁ v with ckpt := o }) →
      ∃ o, markControls cs false g v = { h v with ckpt := o } := by
    rintro g ⟨o, ho⟩
    refine ⟨o, ?_⟩
    obtain ⟨c, hc⟩ := updateControls_frame cs xs h v
    rw [markControls_apply, ho, hh₁, markControls_apply, hc]
    have := hfl v
    split <;> simp [← this]
  apply key
  obtain ⟨o, ho⟩ := recompute_frame (bs.take k) h₁ v
  cases bs[k]? with
  | none => exact ⟨o, ho⟩
  | some b =>
    obtain ⟨o', ho'⟩ := recomputePartial_frame b false j (recompute (bs.take k) h₁) v
    refine ⟨o', ?_⟩
    show b.recomputePartial false j (recompute (bs.take k) h₁) v = _
    rw [ho', ho]

example : saved (crashedEval exTape [0] [10] 1 0 exHeap) 2 = 20 ∧
    saved (crashedEval exTape [0] [10] 1 0 exHeap) 3 = 3 := ⟨rfl, rfl⟩

/-- A variable an evaluation with controls `cs` does not compute: no control, and either the output of no
block or the output of a block that also produces a control. -/
def Kept (bs : Blocks V T A) (cs : List BV) (v : BV) : Prop :=
  v ∉ cs ∧ ((∀ b ∈ bs, v ∉ b.outs) ∨ ∃ b ∈ bs, v ∈ b.outs ∧ ∃ o ∈ b.outs, o ∈ cs)

/-- **C54.** The values after `rf(x)` depend on the state before it only through the variables that the
tape does not compute. -/
theorem evaluation_history_independent {bs : Blocks V T A} (wf : WF bs) (cs : List BV) (hnd : cs.Nodup)
    (xs : List V) (hlen : xs.length = cs.length)
    (htot : ∀ b ∈ bs, ∀ inputs i, inputs.length = b.deps.length →
      i < b.outs.length → (b.recomputeC inputs i).isSome)
    (h₁ h₂ : Heap V T A) (hf₁ : ∀ v, (h₁ v).isControl = false) (hf₂ : ∀ v, (h₂ v).isControl = false)
    (ho : ∀ v, (h₁ v).output = (h₂ v).output)
    (hk : ∀ v, Kept bs cs v → (h₁ v).ckpt = (h₂ v).ckpt) (v : BV) :
    saved (rfEval bs cs xs h₁) v = saved (rfEval bs cs xs h₂) v := by
  have hout : ∀ (h : Heap V T A), (∀ v, (h v).isControl = false) → ∀ v,
      (rfEval bs cs xs h v).output = (h v).output := by
    intro h hf v
    obtain ⟨c, hc⟩ := rfEval_frame bs cs xs h v (fun c _ => hf c)
    rw [hc]
  revert v
  have hctl : ∀ v ∈ cs, saved (rfEval bs cs xs h₁) v = saved (rfEval bs cs xs h₂) v := by
    intro v hv
    obtain ⟨i, hi, rfl⟩ := List.mem_iff_getElem.1 hv
    unfold saved
    rw [rfEval_control bs cs xs h₁ hnd hlen (fun c _ => hf₁ c) i hi,
      rfEval_control bs cs xs h₂ hnd hlen (fun c _ => hf₂ c) i hi]
  apply tape_induction wf (P := fun v => saved (rfEval bs cs xs h₁) v = saved (rfEval bs cs xs h₂) v)
  · intro v hv
    by_cases hc : v ∈ cs
    · exact hctl v hc
    · rw [saved, saved, rfEval_leaf bs cs xs h₁ v hc hv, rfEval_leaf bs cs xs h₂ v hc hv,
        hk v ⟨hc, Or.inl hv⟩, ho]
  · intro b hb ih o hob
    by_cases hc : o ∈ cs
    · exact hctl o hc
    · obtain ⟨i, hi, rfl⟩ := List.mem_iff_getElem.1 hob
      by_cases hbc : ∃ o ∈ b.outs, o ∈ cs
      · apply saved_congr (by rw [hout h₁ hf₁, hout h₂ hf₂, ho])
        rw [rfEval_block_control wf cs xs h₁ b hb hbc i hi hc,
          rfEval_block_control wf cs xs h₂ b hb hbc i hi hc]
        exact hk _ ⟨hc, Or.inr ⟨b, hb, hob, hbc⟩⟩
      · have hno : ∀ o ∈ b.outs, o ∉ cs := fun o h1 h2 => hbc ⟨o, h1, h2⟩
        have e1 := rfEval_block wf cs xs h₁ hf₁ b hb hno i hi
        have e2 := rfEval_block wf cs xs h₂ hf₂ b hb hno i hi
        rw [List.map_congr_left ih] at e1
        have ht := htot b hb (b.deps.map (saved (rfEval bs cs xs h₂))) i (by simp) hi
        revert e1 e2
        cases hr : b.recomputeC (b.deps.map (saved (rfEval bs cs xs h₂))) i with
        | none => rw [hr] at ht; cases ht
        | some y =>
          intro e1 e2
          simp only [orKeep] at e1 e2
          simp only [saved, e1, e2]

theorem unique_block {bs : Blocks V T A} (wf : WF bs) {b b' : Block V T A} (hb : b ∈ bs) (hb' : b' ∈ bs)
    {v : BV} (hv : v ∈ b.outs) (hv' : v ∈ b'.outs) : b = b' := by
  induction bs with
  | nil => cases hb
  | cons c bs ih =>
    rcases List.mem_cons.1 hb with e | hb <;> rcases List.mem_cons.1 hb' with e' | hb'
    · rw [e, e']
    · exact absurd hv' ((wf.head b' hb').2 v (e ▸ hv))
    · exact absurd hv ((wf.head b hb).2 v (e' ▸ hv'))
    · exact ih wf.tail hb hb'

theorem recompute_kept {bs : Blocks V T A} (wf : WF bs) (cs : List BV) (h : Heap V T A)
    (hcs : ∀ c ∈ cs, (h c).isControl = true) (v : BV)
    (hv : ∃ b ∈ bs, v ∈ b.outs ∧ ∃ o ∈ b.outs, o ∈ cs) : (recompute bs h v).ckpt = (h v).ckpt := by
  obtain ⟨b, hb, hvo, o, hoo, hoc⟩ := hv
  obtain ⟨i, hi, rfl⟩ := List.mem_iff_getElem.1 hvo
  rw [recompute_eq wf h b hb i hi, if_pos (List.any_eq_true.2 ⟨o, hoo, hcs o hoc⟩)]

theorem recomputePartial_of_not_out (b : Block V T A) (m : Bool) (j : Nat) (h : Heap V T A) (v : BV)
    (hv : v ∉ b.outs) : b.recomputePartial m j h v = h v := by
  unfold Block.recomputePartial
  split
  · rfl
  · have : ∀ p ∈ (relevant h m b.outs).take j, p.1 ≠ v := by
      intro p hp e
      have hp' := List.mem_of_mem_take hp
      unfold relevant at hp'
      have := List.mem_of_mem_filter hp'
      obtain ⟨_, hx⟩ := List.mem_zipIdx' (x := p.1) (i := p.2) this
      exact hv (e ▸ hx ▸ List.getElem_mem _)
    exact foldl_setCkpt?_of_ne _ _ h v this

/-- **C54, after an exception.** An evaluation that raised, at any block and any component, has no
influence on the values of the next evaluation. -/
theorem evaluation_after_crash {bs : Blocks V T A} (wf : WF bs) (cs : List BV) (hnd : cs.Nodup)
    (xs ys : List V) (hlen : ys.length = cs.length)
    (htot : ∀ b ∈ bs, ∀ inputs i, inputs.length = b.deps.length →
      i < b.outs.length → (b.recomputeC inputs i).isSome)
    (h : Heap V T A) (hf : ∀ v, (h v).isControl = false) (k j : Nat) (v : BV) :
    saved (rfEval bs cs ys (crashedEval bs cs xs k j h)) v = saved (rfEval bs cs ys h) v := by
  have fr := crashed_evaluation_undisturbed bs cs xs k j h hf
  apply evaluation_history_independent wf cs hnd ys hlen htot _ _ _ hf
  · intro v; obtain ⟨o, ho⟩ := fr v; rw [ho]
  · intro v ⟨hvc, hv⟩
    unfold crashedEval
    simp only [markControls_ckpt]
    set h₁ := markControls cs true (updateControls cs xs h) with hh₁
    have hc₁ : ∀ c ∈ cs, (h₁ c).isControl = true := by
      intro c hc; rw [hh₁, markControls_apply, if_pos hc]
    have e₁ : (h₁ v).ckpt = (h v).ckpt := by
      rw [hh₁, markControls_ckpt, updateControls_of_not_mem cs xs h v hvc]
    have wft : WF (bs.take k) := (WF.append (by rw [List.take_append_drop]; exact wf)).1
    have e₂ : (recompute (bs.take k) h₁ v).ckpt = (h₁ v).ckpt := by
      by_cases hin : ∃ b ∈ bs.take k, v ∈ b.outs
      · obtain ⟨b, hb, hvb⟩ := hin
        have hb'' := List.mem_of_mem_take hb
        rcases hv with hv | ⟨b', hb', hvb', o, hoo, hoc⟩
        · exact absurd hvb (hv b hb'')
        · apply recompute_kept wft cs h₁ hc₁
          exact ⟨b, hb, hvb, o, unique_block wf hb'' hb' hvb hvb' ▸ hoo, hoc⟩
      · rw [recompute_of_not_out _ _ _ (fun b hb hvb => hin ⟨b, hb, hvb⟩)]
    cases hbk : bs[k]? with
    | none => simp only []; rw [e₂, e₁]
    | some b =>
      simp only []
      have hb : b ∈ bs := List.mem_of_getElem? hbk
      by_cases hvb : v ∈ b.outs
      · have hany : ∃ o ∈ b.outs, o ∈ cs := by
          rcases hv with hv | ⟨b', hb', hvb', ho⟩
          · exact absurd hvb (hv b hb)
          · exact unique_block wf hb hb' hvb hvb' ▸ ho
        obtain ⟨o, hoo, hoc⟩ := hany
        have : b.recomputePartial false j (recompute (bs.take k) h₁) = recompute (bs.take k) h₁ := by
          unfold Block.recomputePartial
          rw [if_pos (List.any_eq_true.2 ⟨o, hoo, by rw [recompute_isControl]; exact hc₁ o hoc⟩)]
        rw [this, e₂, e₁]
      · rw [recomputePartial_of_not_out b _ _ _ v hvb, e₂, e₁]
  · intro v; obtain ⟨o, ho⟩ := fr v; rw [ho]; exact hf v

/-- The blocks of the example tape always produce a value. -/
theorem exTape_total : ∀ b ∈ exTape, ∀ inputs i, inputs.length = b.deps.length →
    i < b.outs.length → (b.recomputeC inputs i).isSome := by
  intro b hb inputs i hl _
  simp only [exTape, List.mem_cons, List.not_mem_nil, or_false] at hb
  rcases hb with rfl | rfl
  · match inputs, hl with
    | [x], _ => rfl
  · rfl

example : saved (rfEval exTape [0] [7] (crashedEval exTape [0] [10] 1 0 exHeap)) 3 = 15 ∧
    saved (rfEval exTape [0] [7] exHeap) 3 = 15 ∧ Kept exTape [0] 1 ∧ ¬ Kept exTape [0] 3 :=
  ⟨rfl, rfl, ⟨by decide, Or.inl (by
    intro b hb
    simp only [exTape, List.mem_cons, List.not_mem_nil, or_false] at hb
    rcases hb with rfl | rfl <;> decide)⟩, by
    rintro ⟨-, h | ⟨b, hb, h, o, ho, hc⟩⟩
    · exact h (exAdd 2 1 3) (by simp [exTape]) (by simp [exAdd])
    · simp only [exTape, List.mem_cons, List.not_mem_nil, or_false] at hb
      rcases hb with rfl | rfl
      · simp [exDouble] at h
      · simp [exAdd] at ho; simp [ho] at hc⟩

/-- **C21, derivative.** `derivative()` (with or without components, whatever it returns or raises) changes
adjoint values and clears path markings, and changes nothing else: no output, no saved value, no
control marking, no tangent or Hessian value. -/
theorem derivative_undisturbed [Add A] [Zero A] [Mul A] (rf : RF A) (bs : Blocks V T A) (adjInput : A)
    (h : Heap V T A) (hfl : ∀ v, (h v).isControl = false) (hmk : ∀ v, (h v).marked = false) (v : BV) :
    ∃ a, (rf.derivative bs adjInput h).2 v = { h v with adj := a } := by
  have key : ∀ cs seed, ∃ a, (computeGradient bs rf.J cs seed h).2 v = { h v with adj := a } := by
    intro cs seed
    show ∃ a, computeGradientState bs rf.J cs seed h v = _
    unfold computeGradientState markedAdjoint
    simp only []
    set h₁ := Function.update (resetVariables bs .adjoint h) rf.J
      { resetVariables bs .adjoint h rf.J with adj := some seed } with hh₁
    have f₁ : ∃ a, h₁ v = { h v with adj := a } := by
      have : ∃ a, resetVariables bs .adjoint h v = { h v with adj := a } := by
        rw [resetVariables_apply]
        split
        · exact ⟨none, rfl⟩
        · exact ⟨_, rfl⟩
      rw [hh₁]
      by_cases hv : v = rf.J
      · subst hv
        obtain ⟨a, ha⟩ := this
        exact ⟨some seed, by rw [Function.update_self, ha]⟩
      · rw [Function.update_of_ne hv]; exact this
    obtain ⟨a₁, f₁⟩ := f₁
    obtain ⟨a₂, f₂⟩ := evaluateAdj_frame bs true
      (markControls cs true (markAll (findRelevantNodes bs cs) true h₁)) v
    refine ⟨a₂, ?_⟩
    rw [markAll_apply, markControls_apply, f₂, markControls_apply, markAll_apply, f₁]
    have e1 := hfl v
    have e2 := hmk v
    have e3 : (h v).isControl = false := e1
    cases hx : h v with
    | mk o a t hs c ic mk cr lu =>
      rw [hx] at e1 e2
      simp only at e1 e2
      subst e1 e2
      by_cases m1 : v ∈ cs <;> by_cases m2 : v ∈ findRelevantNodes bs cs <;> simp [m1, m2]
  unfold RF.derivative
  simp only []
  split
  · split
    · exact ⟨_, rfl⟩
    · exact key _ _
  · split
    · exact ⟨_, rfl⟩
    · exact key _ _
  · split
    · exact ⟨_, rfl⟩
    · split
      · exact key _ _
      · exact key _ _

example : (∀ v, (exHeap v).isControl = false) ∧ (∀ v, (exHeap v).marked = false) ∧
    ((⟨3, .list [0, 1], some [0], 1⟩ : RF Int).derivative exTape 1 exHeap).1 = .ok (.many [2, 0]) :=
  ⟨fun _ => rfl, fun _ => rfl, rfl⟩

end Pyadjoint
