import Verif.Model.RolVector
import Mathlib.Algebra.BigOperators.Group.List.Basic
import Mathlib.Tactic.Linarith
import Mathlib.Tactic.NormNum
import Mathlib.Tactic.FinCases

/-!
# C65: ROL vectors and constraints

With components of a mutable type, any sequence of vector operations by ROL gives what it would give with mathematical vectors: no
operation on one vector changes another one, clones are independent zero vectors.  With `AdjFloat` components this is false.  The
adjoint Jacobian of constraints is the adjoint of the Jacobian for one control, and is not with several controls.
-/

namespace Pyadjoint
namespace Rol

/-! ## Specification: vectors as lists of numbers (or functions) -/

section spec
variable {E : Type*} [AddCommGroup E] [Module ℝ E]

/-- What the operations mean: `vs` are the vectors, `out` the numbers returned. -/
noncomputable def Meaning (d : E → E → ℝ) (s : List (List E) × List ℝ) : VOp E → List (List E) × List ℝ
  | .clone i => (s.1 ++ [List.replicate (s.1.getD i []).length 0], s.2)
  | .plus i j => (s.1.set i (List.zipWith (· + ·) (s.1.getD i []) (s.1.getD j [])), s.2)
  | .scale i a => (s.1.set i ((s.1.getD i []).map (a • ·)), s.2)
  | .unary i f => (s.1.set i ((s.1.getD i []).map f), s.2)
  | .binary i f j => (s.1.set i (List.zipWith f (s.1.getD i []) (s.1.getD j [])), s.2)
  | .dot i j => (s.1, s.2 ++ [(List.zipWith d (s.1.getD i []) (s.1.getD j [])).sum])
  | .norm i => (s.1, s.2 ++ [√((s.1.getD i []).map fun e => d e e).sum])
  | .reduce i red r0 => (s.1, s.2 ++ [(s.1.getD i []).foldl (fun r e => red e r) r0])

/-- The operations refer to vectors that exist; there are `n` at the start. -/
def Exist : Nat → List (VOp E) → Prop
  | _, [] => True
  | n, .clone i :: l => i < n ∧ Exist (n + 1) l
  | n, .plus i j :: l => i < n ∧ j < n ∧ Exist n l
  | n, .scale i _ :: l => i < n ∧ Exist n l
  | n, .unary i _ :: l => i < n ∧ Exist n l
  | n, .binary i _ j :: l => i < n ∧ j < n ∧ Exist n l
  | n, .dot i j :: l => i < n ∧ j < n ∧ Exist n l
  | n, .norm i :: l => i < n ∧ Exist n l
  | n, .reduce i _ _ :: l => i < n ∧ Exist n l

/-- The contents of the vectors. -/
def contents (s : VState E) : List (List E) := s.vecs.map fun x => x.map fun i => (s.mem.cell i).val

/-- The components are existing, mutable objects, no object is used twice, and all vectors have `n` components. -/
structure Separate (n : Nat) (s : VState E) : Prop where
  len : ∀ x ∈ s.vecs, x.length = n
  nodup : s.vecs.flatten.Nodup
  exist : ∀ x ∈ s.vecs, ∀ i ∈ x, i < s.mem.next
  chg : ∀ x ∈ s.vecs, ∀ i ∈ x, (s.mem.cell i).immutable = false

end spec

/-! ## Proofs -/

section proofs
variable {E : Type*} [AddCommGroup E] [Module ℝ E]

/-- Assignments in sequence. -/
def zipSet (f : E → E → E) (m : Mem E) (l : List (Nat × Nat)) : Mem E :=
  l.foldl (fun m p => m.set p.1 (f (m.cell p.1).val (m.cell p.2).val)) m

omit [AddCommGroup E] [Module ℝ E] in
theorem set_immutable (m : Mem E) (i : Nat) (x : E) (j : Nat) : ((m.set i x).cell j).immutable = (m.cell j).immutable := by
  unfold Mem.set
  by_cases h : j = i
  · subst h; simp
  · simp [Function.update_of_ne h]

omit [AddCommGroup E] [Module ℝ E] in
theorem set_other (m : Mem E) (i : Nat) (x : E) {j : Nat} (h : j ≠ i) : (m.set i x).cell j = m.cell j := by
  simp [Mem.set, Function.update_of_ne h]

omit [AddCommGroup E] [Module ℝ E] in
theorem set_same (m : Mem E) (i : Nat) (x : E) : ((m.set i x).cell i).val = x := by simp [Mem.set]

omit [AddCommGroup E] [Module ℝ E] in
theorem zipSet_spec (f : E → E → E) (l : List (Nat × Nat)) : ∀ m : Mem E, (l.map Prod.fst).Nodup →
    (∀ p ∈ l, ∀ q ∈ l, p.1 = q.2 → p = q) →
    (∀ p ∈ l, ((zipSet f m l).cell p.1).val = f (m.cell p.1).val (m.cell p.2).val) ∧
    (∀ i, i ∉ l.map Prod.fst → (zipSet f m l).cell i = m.cell i) ∧
    (∀ i, ((zipSet f m l).cell i).immutable = (m.cell i).immutable) ∧ (zipSet f m l).next = m.next := by
  induction l with
  | nil => intro m _ _; exact ⟨by simp, by simp [zipSet], by simp [zipSet], rfl⟩
  | cons p l ih =>
    intro m nd al
    have e : zipSet f m (p :: l) = zipSet f (m.set p.1 (f (m.cell p.1).val (m.cell p.2).val)) l := rfl
    rw [e]
    simp only [List.map_cons, List.nodup_cons] at nd
    obtain ⟨h1, h2, h3, h4⟩ := ih (m.set p.1 (f (m.cell p.1).val (m.cell p.2).val)) nd.2
      (fun a ha b hb => al a (List.mem_cons_of_mem _ ha) b (List.mem_cons_of_mem _ hb))
    refine ⟨?_, ?_, ?_, h4⟩
    · intro q hq
      rcases List.mem_cons.1 hq with rfl | hq
      · rw [h2 _ nd.1, set_same]
      · have n1 : q.1 ≠ p.1 := fun h => nd.1 (h ▸ List.mem_map_of_mem hq)
        have n2 : q.2 ≠ p.1 := fun h => by
          have := al p (List.mem_cons_self ..) q (List.mem_cons_of_mem _ hq) h.symm
          exact n1 (by rw [this])
        rw [h1 q hq, set_other _ _ _ n1, set_other _ _ _ n2]
    · intro i hi
      simp only [List.map_cons, List.mem_cons, not_or] at hi
      rw [h2 i hi.2, set_other _ _ _ hi.1]
    · intro i; rw [h3, set_immutable]

omit [AddCommGroup E] [Module ℝ E] in
/-- Folds that do what `zipSet` does on mutable objects. -/
theorem foldl_zipSet {g : Mem E → Nat × Nat → Mem E} {f : E → E → E}
    (hg : ∀ m p, (m.cell p.1).immutable = false → g m p = m.set p.1 (f (m.cell p.1).val (m.cell p.2).val)) (l : List (Nat × Nat)) :
    ∀ m : Mem E, (∀ p ∈ l, (m.cell p.1).immutable = false) → l.foldl g m = zipSet f m l := by
  induction l with
  | nil => intro m _; rfl
  | cons p l ih =>
    intro m hm
    have h0 := hm p (List.mem_cons_self ..)
    rw [List.foldl_cons, hg m p h0]
    exact ih _ fun q hq => by rw [set_immutable]; exact hm q (List.mem_cons_of_mem _ hq)

omit [AddCommGroup E] [Module ℝ E] in
theorem foldlM_zipSet {g : Mem E → Nat × Nat → Except VecErr (Mem E)} {f : E → E → E}
    (hg : ∀ m p, (m.cell p.1).immutable = false → g m p = .ok (m.set p.1 (f (m.cell p.1).val (m.cell p.2).val))) (l : List (Nat × Nat)) :
    ∀ m : Mem E, (∀ p ∈ l, (m.cell p.1).immutable = false) → l.foldlM g m = .ok (zipSet f m l) := by
  induction l with
  | nil => intro m _; rfl
  | cons p l ih =>
    intro m hm
    have h0 := hm p (List.mem_cons_self ..)
    rw [List.foldlM_cons, hg m p h0]
    exact ih _ fun q hq => by rw [set_immutable]; exact hm q (List.mem_cons_of_mem _ hq)

theorem zip_same (x : List Nat) : x.zip x = x.map fun i => (i, i) := by
  induction x with
  | nil => rfl
  | cons a x ih => simp [ih]

theorem mem_zip_fst {x y : List Nat} {p : Nat × Nat} (h : p ∈ x.zip y) : p.1 ∈ x := (List.of_mem_zip (a := p.1) (b := p.2) h).1

omit [Module ℝ E] in
theorem plus_eq (m : Mem E) (x y : List Nat) (hm : ∀ i ∈ x, (m.cell i).immutable = false) :
    m.plus x y = zipSet (· + ·) m (x.zip y) := by
  refine foldl_zipSet (fun m p h => ?_) _ _ fun p hp => hm _ (mem_zip_fst hp)
  simp [Mem.iadd, h]

theorem scale_eq (m : Mem E) (a : ℝ) (x : List Nat) (hm : ∀ i ∈ x, (m.cell i).immutable = false) :
    m.scale a x = zipSet (fun e _ => a • e) m (x.zip x) := by
  have e : m.scale a x = (x.zip x).foldl (fun m p => m.imul a p.1) m := by
    unfold Mem.scale
    rw [zip_same, List.foldl_map]
  rw [e]
  refine foldl_zipSet (fun m p h => ?_) _ _ fun p hp => hm _ (mem_zip_fst hp)
  simp [Mem.imul, h]

omit [AddCommGroup E] [Module ℝ E] in
theorem unary_eq (m : Mem E) (f : E → E) (x : List Nat) (hm : ∀ i ∈ x, (m.cell i).immutable = false) :
    m.applyUnary f x = .ok (zipSet (fun e _ => f e) m (x.zip x)) := by
  have e : m.applyUnary f x = (x.zip x).foldlM
      (fun m p => if (m.cell p.1).immutable then .error .attributeError else .ok (m.set p.1 (f (m.cell p.1).val))) m := by
    unfold Mem.applyUnary
    rw [zip_same, List.foldlM_map]
  rw [e]
  refine foldlM_zipSet (fun m p h => ?_) _ _ fun p hp => hm _ (mem_zip_fst hp)
  simp [h]

omit [AddCommGroup E] [Module ℝ E] in
theorem binary_eq (m : Mem E) (f : E → E → E) (x y : List Nat) (hm : ∀ i ∈ x, (m.cell i).immutable = false) :
    m.applyBinary f x y = .ok (zipSet f m (x.zip y)) := by
  refine foldlM_zipSet (fun m p h => ?_) _ _ fun p hp => hm _ (mem_zip_fst hp)
  simp [h]

omit [AddCommGroup E] [Module ℝ E] in
theorem dot_eq (d : E → E → ℝ) (m : Mem E) (x y : List Nat) (hm : ∀ i ∈ x, (m.cell i).immutable = false) :
    m.dot d x y = .ok (List.zipWith d (x.map fun i => (m.cell i).val) (y.map fun i => (m.cell i).val)).sum := by
  have key : ∀ (l : List (Nat × Nat)) (r : ℝ), (∀ p ∈ l, (m.cell p.1).immutable = false) →
      l.foldlM (fun r p => if (m.cell p.1).immutable then Except.error VecErr.typeError
        else .ok (r + d (m.cell p.1).val (m.cell p.2).val)) r =
      .ok (r + (l.map fun p => d (m.cell p.1).val (m.cell p.2).val).sum) := by
    intro l
    induction l with
    | nil => intro r _; simp; rfl
    | cons p l ih =>
      intro r hl
      rw [List.foldlM_cons, if_neg (by simp [hl p (List.mem_cons_self ..)])]
      refine (ih _ fun q hq => hl q (List.mem_cons_of_mem _ hq)).trans ?_
      rw [List.map_cons, List.sum_cons, add_assoc]
  rw [Mem.dot, key _ _ fun p hp => hm _ (mem_zip_fst hp), zero_add, List.zipWith_map, List.zip, List.map_zipWith]

omit [AddCommGroup E] [Module ℝ E] in
theorem reduce_eq (red : E → ℝ → ℝ) (m : Mem E) (x : List Nat) (hm : ∀ i ∈ x, (m.cell i).immutable = false) :
    ∀ r0, m.reduce red x r0 = .ok ((x.map fun i => (m.cell i).val).foldl (fun r e => red e r) r0) := by
  induction x with
  | nil => intro r0; rfl
  | cons i x ih =>
    intro r0
    have h0 := hm i (List.mem_cons_self ..)
    unfold Mem.reduce
    rw [List.foldlM_cons, if_neg (by simp [h0])]
    exact ih (fun j hj => hm j (List.mem_cons_of_mem _ hj)) _

omit [AddCommGroup E] [Module ℝ E] in
/-- The copies are new objects with the same contents; nothing else changes. -/
theorem copies_spec (x : List Nat) : ∀ m : Mem E, (∀ i ∈ x, (m.cell i).immutable = false) → (∀ i ∈ x, i < m.next) →
    (m.copies x).1.length = x.length ∧ (m.copies x).1.Nodup ∧
    (∀ i ∈ (m.copies x).1, m.next ≤ i ∧ i < (m.copies x).2.next) ∧
    (∀ i ∈ (m.copies x).1, ((m.copies x).2.cell i).immutable = false) ∧
    (∀ i, i < m.next → (m.copies x).2.cell i = m.cell i) ∧ m.next ≤ (m.copies x).2.next := by
  induction x with
  | nil => intro m _ _; exact ⟨rfl, List.nodup_nil, by simp [Mem.copies], by simp [Mem.copies], fun _ _ => rfl, Nat.le_refl _⟩
  | cons a x ih =>
    intro m hm hx
    have h0 := hm a (List.mem_cons_self ..)
    have e1 : m.copy a = m.alloc (m.cell a).val := by simp [Mem.copy, h0]
    let m1 : Mem E := { cell := Function.update m.cell m.next ⟨false, (m.cell a).val⟩, next := m.next + 1 }
    have e2 : m.copies (a :: x) = (m.next :: (m1.copies x).1, (m1.copies x).2) := by
      simp only [Mem.copies, e1, Mem.alloc]; rfl
    have old : ∀ i, i < m.next → m1.cell i = m.cell i := fun i hi => Function.update_of_ne (by omega) _ _
    obtain ⟨l1, l2, l3, l4, l5, l6⟩ := ih m1
      (fun i hi => by rw [old i (hx i (List.mem_cons_of_mem _ hi))]; exact hm i (List.mem_cons_of_mem _ hi))
      (fun i hi => Nat.lt_succ_of_lt (hx i (List.mem_cons_of_mem _ hi)))
    have n1 : m1.next = m.next + 1 := rfl
    rw [e2]
    refine ⟨by simp [l1], ?_, ?_, ?_, ?_, by dsimp only; omega⟩
    · exact List.nodup_cons.2 ⟨fun h => by have := (l3 _ h).1; omega, l2⟩
    · intro i hi
      rcases List.mem_cons.1 hi with rfl | hi
      · exact ⟨Nat.le_refl _, by dsimp only; omega⟩
      · have := l3 i hi; dsimp only; omega
    · intro i hi
      rcases List.mem_cons.1 hi with rfl | hi
      · dsimp only
        rw [l5 _ (by omega)]; simp [m1]
      · exact l4 i hi
    · intro i hi; dsimp only; rw [l5 i (by omega), old i hi]

theorem zip_self_alias {x : List Nat} : ∀ p ∈ x.zip x, ∀ q ∈ x.zip x, p.1 = q.2 → p = q := by
  intro p hp q hq h
  rw [zip_same] at hp hq
  obtain ⟨a, _, rfl⟩ := List.mem_map.1 hp
  obtain ⟨b, _, rfl⟩ := List.mem_map.1 hq
  simp at h; simp [h]

theorem zip_disjoint_alias {x y : List Nat} (h : ∀ i ∈ x, i ∉ y) : ∀ p ∈ x.zip y, ∀ q ∈ x.zip y, p.1 = q.2 → p = q := by
  intro p hp q hq e
  exact absurd (List.of_mem_zip (a := q.1) (b := q.2) hq).2 (e ▸ h _ (mem_zip_fst hp))

theorem map_fst_zip_of_len {x y : List Nat} (h : x.length = y.length) : (x.zip y).map Prod.fst = x :=
  List.map_fst_zip (by omega)

omit [AddCommGroup E] [Module ℝ E] in
/-- The effect of `zipSet` on one vector. -/
theorem zipSet_vec (f : E → E → E) (m : Mem E) (x y : List Nat) (len : x.length = y.length) (nd : x.Nodup)
    (al : ∀ p ∈ x.zip y, ∀ q ∈ x.zip y, p.1 = q.2 → p = q) :
    (x.map fun i => ((zipSet f m (x.zip y)).cell i).val) =
      List.zipWith f (x.map fun i => (m.cell i).val) (y.map fun i => (m.cell i).val) := by
  obtain ⟨h1, -⟩ := zipSet_spec f (x.zip y) m (by rw [map_fst_zip_of_len len]; exact nd) al
  have e : (x.map fun i => ((zipSet f m (x.zip y)).cell i).val) = (x.zip y).map fun p => ((zipSet f m (x.zip y)).cell p.1).val := by
    generalize zipSet f m (x.zip y) = m'
    conv_lhs => rw [← map_fst_zip_of_len len, List.map_map]
    rfl
  rw [e, List.zipWith_map, ← List.map_uncurry_zip_eq_zipWith]
  exact List.map_congr_left fun p hp => h1 p hp

theorem flatten_disjoint {vs : List (List Nat)} (nd : vs.flatten.Nodup) {i j : Nat} (hi : i < vs.length) (hj : j < vs.length)
    (ne : i ≠ j) : ∀ a ∈ vs[i], a ∉ vs[j] := by
  have pw := (List.nodup_flatten.1 nd).2
  intro a ha hb
  rcases Nat.lt_or_gt_of_ne ne with h | h
  · exact List.pairwise_iff_getElem.1 pw i j hi hj h ha hb
  · exact List.pairwise_iff_getElem.1 pw j i hj hi h hb ha

omit [AddCommGroup E] [Module ℝ E] in
/-- An operation that assigns to the components of vector `i`. -/
theorem assign_step {n : Nat} {s : VState E} (sep : Separate n s) {f : E → E → E} {i j : Nat} (hi : i < s.vecs.length)
    (hj : j < s.vecs.length) {m : Mem E} (hm : m = zipSet f s.mem ((s.vecs.getD i []).zip (s.vecs.getD j []))) :
    Separate n { s with mem := m } ∧ contents { s with mem := m } =
      (contents s).set i (List.zipWith f ((contents s).getD i []) ((contents s).getD j [])) := by
  have gi : s.vecs.getD i [] = s.vecs[i] := by simp [List.getD_eq_getElem?_getD, hi]
  have gj : s.vecs.getD j [] = s.vecs[j] := by simp [List.getD_eq_getElem?_getD, hj]
  rw [gi, gj] at hm
  have li := sep.len _ (List.getElem_mem hi)
  have lj := sep.len _ (List.getElem_mem hj)
  have nd : (s.vecs[i]).Nodup := (List.nodup_flatten.1 sep.nodup).1 _ (List.getElem_mem hi)
  have al : ∀ p ∈ (s.vecs[i]).zip s.vecs[j], ∀ q ∈ (s.vecs[i]).zip s.vecs[j], p.1 = q.2 → p = q := by
    by_cases e : i = j
    · subst e; exact zip_self_alias
    · exact zip_disjoint_alias (flatten_disjoint sep.nodup hi hj e)
  obtain ⟨-, h2, h3, h4⟩ := zipSet_spec f ((s.vecs[i]).zip s.vecs[j]) s.mem (by rw [map_fst_zip_of_len (by omega)]; exact nd) al
  rw [map_fst_zip_of_len (by omega)] at h2
  rw [← hm] at h2 h3 h4
  refine ⟨⟨sep.len, sep.nodup, fun x hx a ha => ?_, fun x hx a ha => ?_⟩, ?_⟩
  · show a < m.next; rw [h4]; exact sep.exist x hx a ha
  · show (m.cell a).immutable = false; rw [h3]; exact sep.chg x hx a ha
  · have ci : (contents s).getD i [] = (s.vecs[i]).map fun a => (s.mem.cell a).val := by
      simp [contents, List.getD_eq_getElem?_getD, hi]
    have cj : (contents s).getD j [] = (s.vecs[j]).map fun a => (s.mem.cell a).val := by
      simp [contents, List.getD_eq_getElem?_getD, hj]
    rw [ci, cj, ← zipSet_vec f s.mem _ _ (by omega) nd al, ← hm]
    apply List.ext_getElem
    · simp [contents]
    · intro k hk hk'
      have hk1 : k < s.vecs.length := by simpa [contents] using hk
      rw [List.getElem_set]
      by_cases e : i = k
      · subst e; simp [contents]
      · rw [if_neg e]
        simp only [contents, List.getElem_map]
        refine List.map_congr_left fun a ha => ?_
        show (m.cell a).val = _
        rw [h2 a (flatten_disjoint sep.nodup hk1 hi (Ne.symm e) a ha)]

/-- One operation: it succeeds, does what it means, and keeps the vectors separate. -/
theorem step_meaning (d : E → E → ℝ) {n : Nat} {s : VState E} (sep : Separate n s) (o : VOp E) {l : List (VOp E)}
    (ex : Exist s.vecs.length (o :: l)) :
    ∃ s', o.step d s = .ok s' ∧ Separate n s' ∧ (contents s', s'.out) = Meaning d (contents s, s.out) o ∧ Exist s'.vecs.length l := by
  have gd : ∀ {i}, i < s.vecs.length → s.vecs.getD i [] ∈ s.vecs := fun {i} hi => by
    rw [show s.vecs.getD i [] = s.vecs[i] by simp [List.getD_eq_getElem?_getD, hi]]; exact List.getElem_mem hi
  have mu : ∀ {i}, i < s.vecs.length → ∀ a ∈ s.vecs.getD i [], (s.mem.cell a).immutable = false := fun hi a ha =>
    sep.chg _ (gd hi) a ha
  have cg : ∀ {i}, i < s.vecs.length → (contents s).getD i [] = (s.vecs.getD i []).map fun a => (s.mem.cell a).val := fun {i} hi => by
    simp [contents, List.getD_eq_getElem?_getD, hi]
  cases o with
  | clone i =>
    obtain ⟨hi, ex⟩ := ex
    obtain ⟨c1, c2, c3, c4, c5, c6⟩ := copies_spec (s.vecs.getD i []) s.mem (mu hi) (sep.exist _ (gd hi))
    generalize hids : (s.mem.copies (s.vecs.getD i [])).1 = ids at *
    generalize hm1 : (s.mem.copies (s.vecs.getD i [])).2 = m1 at *
    have sc := scale_eq m1 0 ids c4
    obtain ⟨-, z2, z3, z4⟩ := zipSet_spec (fun e _ => (0 : ℝ) • e) (ids.zip ids) m1
      (by rw [map_fst_zip_of_len rfl]; exact c2) zip_self_alias
    have zv := zipSet_vec (fun e _ => (0 : ℝ) • e) m1 ids ids rfl c2 zip_self_alias
    rw [map_fst_zip_of_len rfl] at z2
    rw [← sc] at z2 z3 z4 zv
    generalize hm2 : m1.scale 0 ids = m2 at *
    have st : (VOp.clone i).step d s = .ok { s with vecs := s.vecs ++ [ids], mem := m2 } := by
      simp only [VOp.step, Mem.clone, hids, hm1, hm2]
    have keep : ∀ x ∈ s.vecs, ∀ a ∈ x, m2.cell a = s.mem.cell a := fun x hx a ha => by
      have lt := sep.exist x hx a ha
      rw [z2 a (fun h => by have := (c3 a h).1; omega), c5 a lt]
    refine ⟨_, st, ⟨?_, ?_, ?_, ?_⟩, ?_, ?_⟩
    · intro x hx
      rcases List.mem_append.1 hx with hx | hx
      · exact sep.len x hx
      · rw [List.mem_singleton.1 hx, c1]; exact sep.len _ (gd hi)
    · rw [List.flatten_append, List.nodup_append]
      refine ⟨sep.nodup, by simpa using c2, ?_⟩
      intro a ha b hb
      obtain ⟨x, hx, hax⟩ := List.mem_flatten.1 ha
      have lt := sep.exist x hx a hax
      have := (c3 b (by simpa using hb)).1
      omega
    · intro x hx a ha
      show a < m2.next
      rw [z4]
      rcases List.mem_append.1 hx with hx | hx
      · have := sep.exist x hx a ha; omega
      · rw [List.mem_singleton.1 hx] at ha; exact (c3 a ha).2
    · intro x hx a ha
      show (m2.cell a).immutable = false
      rcases List.mem_append.1 hx with hx | hx
      · rw [keep x hx a ha]; exact sep.chg x hx a ha
      · rw [List.mem_singleton.1 hx] at ha; rw [z3]; exact c4 a ha
    · refine Prod.ext ?_ rfl
      show (s.vecs ++ [ids]).map _ = contents s ++ _
      rw [List.map_append, List.map_singleton]
      refine congrArg₂ (· ++ ·) ?_ ?_
      · exact List.map_congr_left fun x hx => List.map_congr_left fun a ha => by
          show (m2.cell a).val = _; rw [keep x hx a ha]
      · refine congrArg (fun z => [z]) ?_
        refine Eq.trans zv ?_
        rw [cg hi, List.length_map, ← c1]
        apply List.ext_getElem
        · simp
        · intro k _ _; simp
    · show Exist (s.vecs ++ [ids]).length l
      rw [List.length_append]; exact ex
  | plus i j =>
    obtain ⟨hi, hj, ex⟩ := ex
    obtain ⟨a, b⟩ := assign_step sep hi hj (plus_eq s.mem (s.vecs.getD i []) (s.vecs.getD j []) (mu hi))
    exact ⟨_, rfl, a, Prod.ext b rfl, ex⟩
  | scale i c =>
    obtain ⟨hi, ex⟩ := ex
    obtain ⟨a, b⟩ := assign_step sep hi hi (scale_eq s.mem c (s.vecs.getD i []) (mu hi))
    refine ⟨_, rfl, a, Prod.ext (b.trans ?_) rfl, ex⟩
    show _ = (contents s).set i _
    rw [List.zipWith_self]
  | unary i f =>
    obtain ⟨hi, ex⟩ := ex
    obtain ⟨a, b⟩ := assign_step (f := fun e _ => f e) sep hi hi rfl
    refine ⟨_, by rw [VOp.step, unary_eq _ _ _ (mu hi)]; rfl, a, Prod.ext (b.trans ?_) rfl, ex⟩
    show _ = (contents s).set i _
    rw [List.zipWith_self]
  | binary i f j =>
    obtain ⟨hi, hj, ex⟩ := ex
    obtain ⟨a, b⟩ := assign_step (f := f) sep hi hj rfl
    exact ⟨_, by rw [VOp.step, binary_eq _ _ _ _ (mu hi)]; rfl, a, Prod.ext b rfl, ex⟩
  | dot i j =>
    obtain ⟨hi, hj, ex⟩ := ex
    have st : (VOp.dot i j).step d s = .ok { s with
        out := s.out ++ [(List.zipWith d ((contents s).getD i []) ((contents s).getD j [])).sum] } := by
      rw [VOp.step, dot_eq _ _ _ _ (mu hi), cg hi, cg hj]; rfl
    exact ⟨_, st, ⟨sep.len, sep.nodup, sep.exist, sep.chg⟩, rfl, ex⟩
  | norm i =>
    obtain ⟨hi, ex⟩ := ex
    have st : (VOp.norm i).step d s = .ok { s with out := s.out ++ [√(((contents s).getD i []).map fun e => d e e).sum] } := by
      rw [VOp.step, Mem.norm, dot_eq _ _ _ _ (mu hi), ← cg hi, List.zipWith_self, Real.sqrt_eq_rpow]
      norm_num [Except.map]
    exact ⟨_, st, ⟨sep.len, sep.nodup, sep.exist, sep.chg⟩, rfl, ex⟩
  | reduce i red r0 =>
    obtain ⟨hi, ex⟩ := ex
    have st : (VOp.reduce i red r0).step d s = .ok { s with
        out := s.out ++ [((contents s).getD i []).foldl (fun r e => red e r) r0] } := by
      rw [VOp.step, reduce_eq _ _ _ (mu hi), cg hi]; rfl
    exact ⟨_, st, ⟨sep.len, sep.nodup, sep.exist, sep.chg⟩, rfl, ex⟩

end proofs

/-! ## Theorems -/

section
variable {E : Type*} [AddCommGroup E] [Module ℝ E]

/-- **C65.** Whatever operations ROL performs on its vectors, they succeed, and the contents of all vectors and the numbers returned are
those of mathematical vectors.  In particular no operation on one vector changes another, and clones are independent. -/
theorem rol_vectors_partial (d : E → E → ℝ) (n : Nat) (ops : List (VOp E)) : ∀ (s : VState E), Separate n s → Exist s.vecs.length ops →
    ∃ s', VOp.run d ops s = .ok s' ∧ (contents s', s'.out) = ops.foldl (Meaning d) (contents s, s.out) ∧ Separate n s' := by
  induction ops with
  | nil => intro s sep _; exact ⟨s, rfl, rfl, sep⟩
  | cons o l ih =>
    intro s sep ex
    obtain ⟨s1, h1, sep1, e1, ex1⟩ := step_meaning d sep o ex
    obtain ⟨s2, h2, e2, sep2⟩ := ih s1 sep1 ex1
    refine ⟨s2, ?_, ?_, sep2⟩
    · unfold VOp.run; rw [List.foldlM_cons, h1]; exact h2
    · rw [List.foldl_cons, ← e1]; exact e2

/-- A vector of two components, all operations; `x + 3 y` as ROL computes it. -/
example : Separate 2 (⟨[[0, 1], [2, 3]], ⟨fun i => ⟨false, (i : ℝ)⟩, 4⟩, []⟩ : VState ℝ) ∧
    Exist (E := ℝ) 2 [.clone 1, .plus 2 1, .scale 2 3, .plus 0 2, .norm 0, .dot 0 1, .unary 1 fun x => x * x, .binary 0 max 1] := by
  refine ⟨⟨?_, ?_, ?_, ?_⟩, by simp [Exist]⟩ <;> simp

/-- ROL's own way of computing `x + a y` (clone, add, scale, add) is right, and leaves `y` as it is. -/
theorem rol_axpy_partial (d : E → E → ℝ) {n : Nat} {s : VState E} (sep : Separate n s) {x y : List E} (hc : contents s = [x, y]) (a : ℝ) :
    ∃ s', VOp.run d [.clone 1, .plus 2 1, .scale 2 a, .plus 0 2] s = .ok s' ∧
      contents s' = [List.zipWith (fun u v => u + a • v) x y, y, y.map (a • ·)] := by
  have hl : s.vecs.length = 2 := by have := congrArg List.length hc; simpa [contents] using this
  obtain ⟨s', h1, h2, -⟩ := rol_vectors_partial d n [.clone 1, .plus 2 1, .scale 2 a, .plus 0 2] s sep
    (by rw [hl]; simp [Exist])
  have z : List.zipWith (· + ·) (List.replicate y.length (0 : E)) y = y := by
    clear h2 hc
    induction y with
    | nil => rfl
    | cons v y ih => simp only [List.length_cons, List.replicate_succ, List.zipWith_cons_cons, zero_add, ih]
  refine ⟨s', h1, ?_⟩
  have h3 := congrArg Prod.fst h2
  rw [hc] at h3
  simp only [List.foldl_cons, List.foldl_nil, Meaning] at h3
  rw [h3]
  simp only [List.getD_eq_getElem?_getD, List.cons_append, List.nil_append, List.getElem?_cons_zero, List.getElem?_cons_succ,
    Option.getD_some, List.set_cons_zero, List.set_cons_succ, z, List.zipWith_map_right]

/-- With `AdjFloat` components a clone is the vector itself, not a zero vector, and nothing is scaled or added. -/
theorem rol_float_vectors (m : Mem E) {x : List Nat} (hx : ∀ i ∈ x, (m.cell i).immutable = true) :
    m.clone x = (x, m) ∧ (∀ y, m.plus x y = m) ∧ (∀ a, m.scale a x = m) := by
  have sc : ∀ a, m.scale a x = m := by
    intro a
    unfold Mem.scale
    induction x with
    | nil => rfl
    | cons i x ih =>
      rw [List.foldl_cons, Mem.imul, if_pos (hx i (List.mem_cons_self ..))]
      exact ih fun j hj => hx j (List.mem_cons_of_mem _ hj)
  refine ⟨?_, ?_, sc⟩
  · have cp : m.copies x = (x, m) := by
      clear sc
      induction x with
      | nil => rfl
      | cons i x ih =>
        rw [Mem.copies, Mem.copy, if_pos (hx i (List.mem_cons_self ..))]
        dsimp only
        rw [ih fun j hj => hx j (List.mem_cons_of_mem _ hj)]
    rw [Mem.clone, cp]
    dsimp only
    rw [sc]
  · intro y
    unfold Mem.plus
    have : ∀ l : List (Nat × Nat), (∀ p ∈ l, (m.cell p.1).immutable = true) → l.foldl (fun m p => m.iadd p.1 p.2) m = m := by
      intro l
      induction l with
      | nil => intro _; rfl
      | cons p l ih =>
        intro hl
        rw [List.foldl_cons, Mem.iadd, if_pos (hl p (List.mem_cons_self ..))]
        exact ih fun q hq => hl q (List.mem_cons_of_mem _ hq)
    exact this _ fun p hp => hx _ (mem_zip_fst hp)

omit [AddCommGroup E] [Module ℝ E] in
/-- With an `AdjFloat` as first component, inner products, norms, dimensions, reductions and element-wise functions raise. -/
theorem rol_float_raises (m : Mem E) {i j : Nat} {x y : List Nat} (hi : (m.cell i).immutable = true) (d : E → E → ℝ) :
    m.dot d (i :: x) (j :: y) = .error .typeError ∧ m.norm d (i :: x) = .error .typeError ∧
    (∀ dim, m.dimension dim (i :: x) = .error .notImplemented) ∧ (∀ red r0, m.reduce red (i :: x) r0 = .error .attributeError) ∧
    (∀ f, m.applyUnary f (i :: x) = .error .attributeError) ∧ (∀ f, m.applyBinary f (i :: x) (j :: y) = .error .attributeError) := by
  refine ⟨?_, ?_, fun dim => ?_, fun red r0 => ?_, fun f => ?_, fun f => ?_⟩
  · rw [Mem.dot, List.zip_cons_cons, List.foldlM_cons, if_pos hi]; rfl
  · rw [Mem.norm, Mem.dot, List.zip_cons_cons, List.foldlM_cons, if_pos hi]; rfl
  · rw [Mem.dimension, List.foldlM_cons, if_pos hi]; rfl
  · rw [Mem.reduce, List.foldlM_cons, if_pos hi]; rfl
  · rw [Mem.applyUnary, List.foldlM_cons, if_pos hi]; rfl
  · rw [Mem.applyBinary, List.zip_cons_cons, List.foldlM_cons, if_pos hi]; rfl

omit [AddCommGroup E] [Module ℝ E] in
/-- For components of mutable types `dimension()` is the sum of the dimensions of the components. -/
theorem rol_dimension (m : Mem E) (dim : E → Nat) (x : List Nat) (hx : ∀ i ∈ x, (m.cell i).immutable = false) :
    m.dimension dim x = .ok (x.map fun i => dim (m.cell i).val).sum := by
  have gen : ∀ (x : List Nat) (r : Nat), (∀ i ∈ x, (m.cell i).immutable = false) →
      x.foldlM (fun r i => if (m.cell i).immutable then Except.error VecErr.notImplemented else .ok (r + dim (m.cell i).val)) r
        = .ok (r + (x.map fun i => dim (m.cell i).val).sum) := by
    intro x
    induction x with
    | nil => intro r _; rfl
    | cons i x ih =>
      intro r hx
      rw [List.foldlM_cons, if_neg (by rw [hx i List.mem_cons_self]; exact Bool.false_ne_true)]
      show x.foldlM _ (r + dim (m.cell i).val) = _
      rw [ih _ fun j hj => hx j (List.mem_cons_of_mem _ hj), List.map_cons, List.sum_cons, Nat.add_assoc]
  rw [Mem.dimension, gen x 0 hx, Nat.zero_add]

example : (⟨fun _ => ⟨false, (3 : ℝ)⟩, 2⟩ : Mem ℝ).dimension (fun _ => 4) [0, 1] = .ok 8 := rfl

/-- A float vector that is not zero: its clone is not zero, and adding to it does nothing. -/
theorem rol_float_witness : ∃ (m : Mem ℝ) (x : List Nat),
    ((m.clone x).1.map fun i => ((m.clone x).2.cell i).val) = [3] ∧ (x.map fun i => ((m.plus x x).cell i).val) = [3] := by
  obtain ⟨h1, h2, -⟩ := rol_float_vectors (E := ℝ) ⟨fun _ => ⟨true, 3⟩, 1⟩ (x := [0]) (fun _ _ => rfl)
  exact ⟨_, _, by rw [h1]; rfl, by rw [h2]; rfl⟩

/-! ## Bounds -/

/-- What a bound means. -/
def Bnd.meaning (const : ℝ → E) : Bnd E → E
  | .num a => const a
  | .obj e => e

omit [AddCommGroup E] [Module ℝ E] in
theorem setBound_eq (const : ℝ → E) (m : Mem E) (i : Nat) (b : Bnd E) (h : (m.cell i).immutable = false) :
    setBound const m i b = .ok (m.set i (b.meaning const)) := by
  cases b <;> simp [setBound, h, Bnd.meaning]

omit [AddCommGroup E] [Module ℝ E] in
theorem boundLoop_spec (const : ℝ → E) (bs : List (Bnd E × Bnd E)) : ∀ (lo up : List Nat) (m : Mem E), lo.length = bs.length →
    up.length = bs.length → lo.Nodup → up.Nodup → (∀ i ∈ lo, i ∉ up) → (∀ i ∈ lo, (m.cell i).immutable = false) →
    (∀ i ∈ up, (m.cell i).immutable = false) →
    ∃ m', boundLoop const m lo up bs = .ok m' ∧ (lo.map fun i => (m'.cell i).val) = bs.map (fun b => b.1.meaning const) ∧
      (up.map fun i => (m'.cell i).val) = bs.map (fun b => b.2.meaning const) ∧
      ∀ i, i ∉ lo → i ∉ up → m'.cell i = m.cell i := by
  induction bs with
  | nil =>
    intro lo up m h1 h2 _ _ _ _ _
    have e1 := List.length_eq_zero_iff.1 h1
    have e2 := List.length_eq_zero_iff.1 h2
    subst e1 e2
    exact ⟨m, rfl, rfl, rfl, fun _ _ _ => rfl⟩
  | cons b bs ih =>
    intro lo up m h1 h2 n1 n2 dj i1 i2
    match lo, up, h1, h2 with
    | l :: lo, u :: up, h1, h2 =>
      rw [List.nodup_cons] at n1 n2
      have lu : l ≠ u := fun h => dj l (List.mem_cons_self ..) (h ▸ List.mem_cons_self ..)
      have lup : l ∉ up := fun h => dj l (List.mem_cons_self ..) (List.mem_cons_of_mem _ h)
      have ulo : u ∉ lo := fun h => dj u (List.mem_cons_of_mem _ h) (List.mem_cons_self ..)
      obtain ⟨m', e, e1, e2, e3⟩ := ih lo up ((m.set l (b.1.meaning const)).set u (b.2.meaning const)) (by simpa using h1)
        (by simpa using h2) n1.2 n2.2 (fun i hi h => dj i (List.mem_cons_of_mem _ hi) (List.mem_cons_of_mem _ h))
        (fun i hi => by rw [set_immutable, set_immutable]; exact i1 i (List.mem_cons_of_mem _ hi))
        (fun i hi => by rw [set_immutable, set_immutable]; exact i2 i (List.mem_cons_of_mem _ hi))
      refine ⟨m', ?_, ?_, ?_, ?_⟩
      · rw [boundLoop, setBound_eq _ _ _ _ (i1 l (List.mem_cons_self ..))]
        show (setBound const _ u b.2 >>= fun m => boundLoop const m lo up bs) = _
        rw [setBound_eq _ _ _ _ (by rw [set_immutable]; exact i2 u (List.mem_cons_self ..))]
        exact e
      · rw [List.map_cons, List.map_cons, e1, e3 l n1.1 lup, set_other _ _ _ lu, set_same]
      · rw [List.map_cons, List.map_cons, e2, e3 u ulo n2.1, set_same]
      · intro i hl hu
        rw [List.mem_cons, not_or] at hl hu
        rw [e3 i hl.2 hu.2, set_other _ _ _ hu.1, set_other _ _ _ hl.1]

/-- **C65.** The bound vectors hold the bounds the user gave, component by component, in new objects; the control vector stays as it is. -/
theorem rol_bounds_partial (const : ℝ → E) (m : Mem E) (x : List Nat) (hx : ∀ i ∈ x, i < m.next)
    (hm : ∀ i ∈ x, (m.cell i).immutable = false) (bs : List (Bnd E × Bnd E)) (hl : bs.length = x.length) :
    ∃ lo up m', getBounds const m x (some bs) = .ok (some (lo, up), m') ∧
      (lo.map fun i => (m'.cell i).val) = bs.map (fun b => b.1.meaning const) ∧
      (up.map fun i => (m'.cell i).val) = bs.map (fun b => b.2.meaning const) ∧
      (∀ i ∈ lo, i ∉ up) ∧ (∀ i, i < m.next → m'.cell i = m.cell i ∧ i ∉ lo ∧ i ∉ up) := by
  -- a clone
  have cl : ∀ m : Mem E, (∀ i ∈ x, i < m.next) → (∀ i ∈ x, (m.cell i).immutable = false) →
      (m.clone x).1.length = x.length ∧ (m.clone x).1.Nodup ∧
      (∀ i ∈ (m.clone x).1, m.next ≤ i ∧ i < (m.clone x).2.next) ∧
      (∀ i ∈ (m.clone x).1, ((m.clone x).2.cell i).immutable = false) ∧
      (∀ i, i < m.next → (m.clone x).2.cell i = m.cell i) ∧ m.next ≤ (m.clone x).2.next := by
    intro m hx hm
    obtain ⟨c1, c2, c3, c4, c5, c6⟩ := copies_spec x m hm hx
    have sc := scale_eq (m.copies x).2 0 (m.copies x).1 c4
    obtain ⟨-, z2, z3, z4⟩ := zipSet_spec (fun e _ => (0 : ℝ) • e) ((m.copies x).1.zip (m.copies x).1) (m.copies x).2
      (by rw [map_fst_zip_of_len rfl]; exact c2) zip_self_alias
    rw [map_fst_zip_of_len rfl] at z2
    rw [← sc] at z2 z3 z4
    have e1 : (m.clone x).1 = (m.copies x).1 := rfl
    have e2 : (m.clone x).2 = (m.copies x).2.scale 0 (m.copies x).1 := rfl
    rw [e1, e2]
    refine ⟨c1, c2, fun i hi => by rw [z4]; exact c3 i hi, fun i hi => by rw [z3]; exact c4 i hi, fun i hi => ?_, by rw [z4]; exact c6⟩
    rw [z2 i (fun h => by have := (c3 i h).1; omega), c5 i hi]
  obtain ⟨a1, a2, a3, a4, a5, a6⟩ := cl m hx hm
  obtain ⟨b1, b2, b3, b4, b5, b6⟩ := cl (m.clone x).2 (fun i hi => by have := hx i hi; omega)
    (fun i hi => by rw [a5 i (hx i hi)]; exact hm i hi)
  have dj : ∀ i ∈ (m.clone x).1, i ∉ ((m.clone x).2.clone x).1 := fun i hi h => by
    have := (a3 i hi).2; have := (b3 i h).1; omega
  obtain ⟨m', e, e1, e2, e3⟩ := boundLoop_spec const bs (m.clone x).1 ((m.clone x).2.clone x).1 ((m.clone x).2.clone x).2
    (by omega) (by omega) a2 b2 dj (fun i hi => by rw [b5 i (a3 i hi).2]; exact a4 i hi) b4
  refine ⟨_, _, m', ?_, e1, e2, dj, fun i hi => ?_⟩
  · rw [getBounds]
    dsimp only
    rw [e]
  · have n1 : i ∉ (m.clone x).1 := fun h => by have := (a3 i h).1; omega
    have n2 : i ∉ ((m.clone x).2.clone x).1 := fun h => by have := (b3 i h).1; omega
    exact ⟨by rw [e3 i n1 n2, b5 i (by omega), a5 i hi], n1, n2⟩

example : ∃ (m : Mem ℝ) (x : List Nat), (∀ i ∈ x, i < m.next) ∧ (∀ i ∈ x, (m.cell i).immutable = false) ∧ x.length = 2 :=
  ⟨⟨fun _ => ⟨false, 1⟩, 2⟩, [0, 1], by simp, fun _ _ => rfl, rfl⟩

/-- **C65.** ROL is given bounds exactly if the problem has bounds, and without bounds no objects are made. -/
theorem rol_bounds_iff {const : ℝ → E} {m m' : Mem E} {x : List Nat} {bounds : Option (List (Bnd E × Bnd E))}
    {r : Option (List Nat × List Nat)} (h : getBounds const m x bounds = .ok (r, m')) :
    (r = none ↔ bounds = none) ∧ (bounds = none → m' = m) := by
  cases bounds with
  | none =>
    unfold getBounds at h
    injection h with h
    injection h with h1 h2
    exact ⟨by simp [← h1], fun _ => h2.symm⟩
  | some bs =>
    unfold getBounds at h
    dsimp only at h
    split at h
    · cases h
    · injection h with h
      injection h with h1 h2
      exact ⟨by simp [← h1], fun h => by cases h⟩

example : getBounds (E := ℝ) (fun a => a) ⟨fun _ => ⟨false, 1⟩, 2⟩ [0, 1] none = .ok (none, ⟨fun _ => ⟨false, 1⟩, 2⟩) := rfl

/-- Bounds for a first control that is an `AdjFloat` raise `AttributeError`. -/
theorem rol_bounds_float_raises (const : ℝ → E) (m : Mem E) (x : List Nat) (hm : ∀ i ∈ x, (m.cell i).immutable = true)
    (bs : List (Bnd E × Bnd E)) (hl : bs.length = x.length) (hne : x ≠ []) :
    getBounds const m x (some bs) = .error .attributeError := by
  obtain ⟨h1, -, -⟩ := rol_float_vectors m hm
  unfold getBounds
  dsimp only
  rw [h1]
  dsimp only
  rw [h1]
  match x, bs, hne, hl, hm with
  | i :: x, b :: bs, _, _, hm =>
    dsimp only
    rw [boundLoop]
    have e : setBound const m i b.1 = .error .attributeError := by simp [setBound, hm i (List.mem_cons_self ..)]
    rw [e]; rfl

end

/-! ## Constraints -/

section
variable {X W : Type*} [AddCommGroup X] [Module ℝ X]

omit [AddCommGroup X] [Module ℝ X] in
theorem jacLoop_eq (x : List X) (v : X) (cs : List (RConstr X W)) : ∀ jv : List W, jv.length = cs.length →
    jacLoop x v cs jv = .ok (cs.map fun c => c.jacAction x v) := by
  induction cs with
  | nil => intro jv h; rw [List.length_eq_zero_iff.1 h]; rfl
  | cons c cs ih =>
    intro jv h
    match jv, h with
    | r :: jv, h => rw [jacLoop, ih jv (by simpa using h)]; rfl

omit [Module ℝ X] in
theorem adjLoop_eq (x : List X) (cs : List (RConstr X W)) : ∀ (ws : List W) (r : X), ws.length = cs.length →
    adjLoop x cs ws r = .ok (r + (List.zipWith (fun c w => c.adjAction x w) cs ws).sum) := by
  induction cs with
  | nil => intro ws r h; rw [List.length_eq_zero_iff.1 h]; simp [adjLoop]
  | cons c cs ih =>
    intro ws r h
    match ws, h with
    | w :: ws, h =>
      rw [adjLoop, ih ws _ (by simpa using h), List.zipWith_cons_cons, List.sum_cons, add_assoc]

omit [Module ℝ X] in
theorem hessLoop_eq (x : List X) (u : X) (cs : List (RConstr X W)) : ∀ (ws : List W) (r : X), ws.length = cs.length →
    hessLoop x u cs ws r = .ok (r + (List.zipWith (fun c w => c.hessAction x u w) cs ws).sum) := by
  induction cs with
  | nil => intro ws r h; rw [List.length_eq_zero_iff.1 h]; simp [hessLoop]
  | cons c cs ih =>
    intro ws r h
    match ws, h with
    | w :: ws, h =>
      rw [hessLoop, ih ws _ (by simpa using h), List.zipWith_cons_cons, List.sum_cons, add_assoc]

omit [Module ℝ X] in
/-- **C65.** With one control: if each constraint's adjoint action is the adjoint of its Jacobian action, then what ROL gets as adjoint
Jacobian is the adjoint of what it gets as Jacobian, for the inner products `dX` (with Riesz map `riesz` of derivatives, paired by
`pair`) and `dW`. -/
theorem rol_constraint_adjoint_partial (dX pair : X → X → ℝ) (dW : W → W → ℝ) (riesz : X → X)
    (hr : ∀ f v, dX v (riesz f) = pair f v) (h0 : ∀ v, pair 0 v = 0) (hadd : ∀ f g v, pair (f + g) v = pair f v + pair g v)
    (cs : List (RConstr X W)) (x : List X) (hadj : ∀ c ∈ cs, ∀ v w, pair (c.adjAction x w) v = dW (c.jacAction x v) w)
    (v : X) (w : List W) (hw : w.length = cs.length) (jv : List W) (hjv : jv.length = cs.length) (av : X) :
    ∃ Jv Aw, applyJacobian cs jv [v] x = .ok Jv ∧ applyAdjointJacobian riesz cs [av] w x = .ok [Aw] ∧
      (List.zipWith dW Jv w).sum = dX v Aw := by
  refine ⟨_, _, jacLoop_eq x v cs jv hjv, by rw [applyAdjointJacobian, adjLoop_eq x cs w 0 hw]; rfl, ?_⟩
  rw [hr, zero_add]
  clear hjv jv
  induction cs generalizing w with
  | nil => simp [h0]
  | cons c cs ih =>
    match w, hw with
    | u :: w, hw =>
      rw [List.map_cons, List.zipWith_cons_cons, List.zipWith_cons_cons, List.sum_cons, List.sum_cons, hadd,
        hadj c (List.mem_cons_self ..), ih (fun c hc => hadj c (List.mem_cons_of_mem _ hc)) w (by simpa using hw)]

/-- The constraints `x² = 1` and `3 x = 2` with one control. -/
def exCons : List (RConstr ℝ ℝ) :=
  [⟨fun x => x.sum ^ 2 - 1, fun x v => 2 * x.sum * v, fun x w => 2 * x.sum * w, fun _ u w => 2 * u * w⟩,
   ⟨fun x => 3 * x.sum - 2, fun _ v => 3 * v, fun _ w => 3 * w, fun _ _ _ => 0⟩]

example : ∀ c ∈ exCons, ∀ v w : ℝ, c.adjAction [5] w * v = c.jacAction [5] v * w := by
  intro c hc v w
  simp only [exCons, List.mem_cons, List.not_mem_nil, or_false] at hc
  rcases hc with rfl | rfl
  · show 2 * _ * w * v = 2 * _ * v * w; rw [mul_right_comm]
  · show 3 * w * v = 3 * v * w; rw [mul_right_comm]

omit [Module ℝ X] in
/-- **C65.** With one control, the second-order term ROL gets is the Riesz representative of the sum of the constraints' terms. -/
theorem rol_constraint_hessian_partial (riesz : X → X) (cs : List (RConstr X W)) (x : List X) (u : X) (w : List W)
    (hw : w.length = cs.length) (a : X) :
    applyAdjointHessian riesz cs [a] [u] w x = .ok [riesz (List.zipWith (fun c w => c.hessAction x u w) cs w).sum] := by
  rw [applyAdjointHessian, hessLoop_eq x u cs w 0 hw, zero_add]; rfl

omit [AddCommGroup X] [Module ℝ X] in
/-- With several controls the Jacobian does not depend on the direction in the others. -/
theorem rol_jacobian_ignores (cs : List (RConstr X W)) (jv : List W) (v0 : X) (r r' : List X) (x : List X) :
    applyJacobian cs jv (v0 :: r) x = applyJacobian cs jv (v0 :: r') x := rfl

omit [Module ℝ X] in
/-- With several controls the adjoint Jacobian has, for the others, whatever the vector had before. -/
theorem rol_adjoint_stale (riesz : X → X) (cs : List (RConstr X W)) (a0 : X) (r : List X) (w : List W) (x : List X)
    (hw : w.length = cs.length) :
    ∃ g, applyAdjointJacobian riesz cs (a0 :: r) w x = .ok (g :: r.map riesz) :=
  ⟨_, by rw [applyAdjointJacobian, adjLoop_eq x cs w 0 hw]; rfl⟩

/-- The constraint `x₁ - x₂ = 0`: the adjoint Jacobian is not the adjoint of the Jacobian, nor is the Jacobian the derivative in the
direction `(1, 1)`, along which the constraint does not change. -/
theorem rol_constraint_two_controls_witness : ∃ (c : RConstr ℝ ℝ),
    (∀ t, c.function [t, t] = 0) ∧ (∀ s t, c.function [s, 0] - c.function [t, 0] = c.jacAction [t, 0] (s - t)) ∧
    applyJacobian [c] [0] [1, 1] [0, 0] = .ok [1] ∧ applyAdjointJacobian id [c] [0, 7] [1] [0, 0] = .ok [1, 7] :=
  ⟨⟨fun x => x.getD 0 0 - x.getD 1 0, fun _ v => v, fun _ w => w, fun _ _ _ => 0⟩, by intro t; simp, by
    intro s t
    simp, rfl, by simp [applyAdjointJacobian, adjLoop]⟩

/-- Workspaces that are not overloaded are refused with `TypeError`; otherwise the multipliers are the workspaces. -/
theorem rol_constraints_typeError (overloaded : W → Bool) (ws : List W) :
    getConstraints overloaded ws = .error .typeError ↔ ∃ w ∈ ws, overloaded w = false := by
  unfold getConstraints
  cases ws with
  | nil => simp
  | cons a l => by_cases h : (a :: l).all overloaded = true
                · simp only [List.isEmpty_cons, Bool.false_eq_true, if_false, h, if_true]
                  constructor
                  · intro h; cases h
                  · rintro ⟨w, hw, e⟩
                    have := List.all_eq_true.1 h w hw
                    rw [e] at this; cases this
                · simp only [List.isEmpty_cons, Bool.false_eq_true, if_false, h, true_iff]
                  obtain ⟨w, hw, e⟩ := List.all_eq_false.1 (Bool.eq_false_iff.2 h)
                  exact ⟨w, hw, Bool.eq_false_iff.2 e⟩

end

end Rol
end Pyadjoint
