import Verif.Proofs.Marking
import Mathlib.Algebra.BigOperators.Group.Finset.Basic
import Mathlib.Algebra.BigOperators.Group.List.Basic
import Mathlib.Algebra.BigOperators.Fin
import Mathlib.Tactic.Abel

/-! The adjoint sweep preserves the pairing with any tangent that satisfies the block equations. -/

namespace Pyadjoint

variable {V T T₀ A R : Type*}

/-- Pairing of an adjoint value that may be missing. -/
def pv [AddCommMonoid R] (pr : A → T → R) (o : Option A) (t : T) : R :=
  match o with
  | none => 0
  | some a => pr a t

section
variable [AddCommMonoid R] [Add A] (pr : A → T → R)

theorem pv_accum (hadd : ∀ a b t, pr (a + b) t = pr a t + pr b t) (o p : Option A) (t : T) :
    pv pr (accum o p) t = pv pr o t + pv pr p t := by
  cases o <;> cases p <;> simp [accum, pv, hadd]

theorem pv_foldl_accum (hadd : ∀ a b t, pr (a + b) t = pr a t + pr b t) {α : Type*}
    (l : List α) (c : α → Option A) (o : Option A) (t : T) :
    pv pr (l.foldl (fun o p => accum o (c p)) o) t
      = pv pr o t + (l.map fun p => pv pr (c p) t).sum := by
  induction l generalizing o with
  | nil => simp
  | cons a l ih => rw [List.foldl_cons, ih, pv_accum pr hadd]; simp [add_assoc]

/-- Regrouping a list sum by the variable the entries refer to. -/
theorem sum_filter_entries {α : Type*} (s : Finset BV) (l : List α) (k : α → BV) (f : α → R)
    (hl : ∀ p ∈ l, k p ∈ s) :
    ∑ v ∈ s, ((l.filter fun p => k p = v).map f).sum = (l.map f).sum := by
  induction l with
  | nil => simp
  | cons p l ih =>
    have ih := ih (fun q hq => hl q (by simp [hq]))
    have e : ∀ v, (((p :: l).filter fun p => k p = v).map f).sum
        = (if k p = v then f p else 0) + ((l.filter fun p => k p = v).map f).sum := by
      intro v
      rw [List.filter_cons]
      by_cases h : k p = v <;> simp [h]
    rw [Finset.sum_congr rfl fun v _ => e v, Finset.sum_add_distrib, ih]
    rw [Finset.sum_ite_eq s (k p) (fun _ => f p), if_pos (hl p (by simp))]
    simp

theorem mem_of_mem_zipIdx {bvs : List BV} {p : BV × Nat} (hp : p ∈ bvs.zipIdx) : p.1 ∈ bvs := by
  obtain ⟨w, i⟩ := p
  obtain ⟨_, _, h3⟩ := List.mem_zipIdx hp
  rw [h3]; exact List.getElem_mem _

/-- One block adds to the pairing exactly the contributions of its dependencies, provided the
dependencies that are skipped pair to zero. -/
theorem Block.adjAfter_sum (hadd : ∀ a b t, pr (a + b) t = pr a t + pr b t)
    (b : Block V T₀ A) (m : Bool) (h : Heap V T₀ A) (D : BV → T) (s : Finset BV)
    (hs : ∀ d ∈ b.deps, d ∈ s)
    (hskip : ∀ d ∈ b.deps, ((h d).marked || !m) = false → ∀ a, pr a (D d) = 0) :
    ∑ v ∈ s, pv pr (b.adjAfter m h v) (D v)
      = ∑ v ∈ s, pv pr (h v).adj (D v) +
        if (b.outs.map fun o => (h o).adj).all Option.isNone then 0 else
          (b.deps.zipIdx.map fun p => pv pr (b.adjC (b.deps.map (saved h))
            (b.outs.map fun o => (h o).adj) p.2) (D p.1)).sum := by
  unfold Block.adjAfter
  split
  · simp
  · rw [← sum_filter_entries (k := fun p : BV × Nat => p.1) s b.deps.zipIdx _
      (fun p hp => hs _ (mem_of_mem_zipIdx hp)), ← Finset.sum_add_distrib]
    apply Finset.sum_congr rfl
    intro v _
    split
    · rw [pv_foldl_accum pr hadd]
      congr 1
      unfold entries
      congr 1
      apply List.map_congr_left
      intro p hp
      have : p.1 = v := by simpa using List.of_mem_filter hp
      rw [this]
    · rename_i hm
      have : ∀ l : List (BV × Nat), (∀ p ∈ l, p ∈ b.deps.zipIdx) →
          ((l.filter fun p => p.1 = v).map fun p => pv pr (b.adjC (b.deps.map (saved h))
            (b.outs.map fun o => (h o).adj) p.2) (D p.1)).sum = 0 := by
        intro l hl
        apply List.sum_eq_zero
        intro x hx
        obtain ⟨p, hp, rfl⟩ := List.mem_map.1 hx
        have h1 : p.1 = v := by simpa using List.of_mem_filter hp
        have h2 := mem_of_mem_zipIdx (hl p (List.mem_of_mem_filter hp))
        have h3 := hskip p.1 h2 (by rw [h1]; simpa using hm)
        unfold pv
        split
        · rfl
        · exact h3 _
      rw [this _ (fun _ h => h), add_zero]

/-- What it means for tangents `D` to satisfy the equation of block `b` at given inputs: pairing the
outputs with any incoming adjoint values equals pairing the dependencies with the adjoint
components. -/
def LocalDual (b : Block V T₀ A) (inputs : List V) (D : BV → T) : Prop :=
  ∀ adjIn : List (Option A), adjIn.length = b.outs.length → adjIn.all Option.isNone = false →
    ((b.outs.zip adjIn).map fun p => pv pr p.2 (D p.1)).sum
      = (b.deps.zipIdx.map fun p => pv pr (b.adjC inputs adjIn p.2) (D p.1)).sum

open Classical in
/-- Variables that are not produced by a block that has a dependency in `Rs`. -/
noncomputable def alive (bs : Blocks V T₀ A) (Rs : BV → Prop) (s : Finset BV) : Finset BV :=
  s.filter fun v => ¬ ∃ b ∈ bs, (∃ d ∈ b.deps, Rs d) ∧ v ∈ b.outs

omit [Add A] in
theorem mem_alive {bs : Blocks V T₀ A} {Rs : BV → Prop} {s : Finset BV} {v : BV} :
    v ∈ alive bs Rs s ↔ v ∈ s ∧ ¬ ∃ b ∈ bs, (∃ d ∈ b.deps, Rs d) ∧ v ∈ b.outs := by
  simp [alive]

/-- **Duality of the adjoint sweep.**  `Rs` is the set of variables that matter, `D` a tangent that
vanishes outside `Rs` and satisfies the equations of all blocks that have a dependency in `Rs`. -/
theorem evaluateAdj_dual (hadd : ∀ a b t, pr (a + b) t = pr a t + pr b t)
    {bs : Blocks V T₀ A} (wf : WF bs) (Rs : BV → Prop) (m : Bool) (h : Heap V T₀ A) (D : BV → T)
    (s : Finset BV) (hs : ∀ v, OnTape bs v → v ∈ s)
    (hmark : ∀ v, Rs v → ((h v).marked || !m) = true)
    (hD0 : ∀ v, ¬ Rs v → ∀ a, pr a (D v) = 0)
    (hloc : ∀ b ∈ bs, (∃ d ∈ b.deps, Rs d) → LocalDual pr b (b.deps.map (saved h)) D) :
    ∑ v ∈ alive bs Rs s, pv pr (evaluateAdj bs m h v).adj (D v)
      = ∑ v ∈ s, pv pr (h v).adj (D v) := by
  classical
  induction bs with
  | nil =>
    have : alive ([] : Blocks V T₀ A) Rs s = s := by ext v; simp [mem_alive]
    rw [this]; rfl
  | cons b bs ih =>
    have ih := ih wf.tail
      (fun v hv => hs v (by obtain ⟨b', hb', h'⟩ := hv; exact ⟨b', by simp [hb'], h'⟩))
      (fun b' hb' => hloc b' (by simp [hb']))
    rw [← ih, evaluateAdj_cons]
    simp only [Block.evaluateAdj_apply]
    have f₁ := evaluateAdj_frame bs m h
    generalize evaluateAdj bs m h = g at *
    have s₁ : b.deps.map (saved g) = b.deps.map (saved h) := List.map_congr_left fun w _ => by
      obtain ⟨a, ha⟩ := f₁ w; exact saved_congr (by rw [ha]) (by rw [ha])
    have hdal : ∀ d ∈ b.deps, d ∈ alive (b :: bs) Rs s := by
      intro d hd
      rw [mem_alive]
      refine ⟨hs d ⟨b, by simp, Or.inl hd⟩, ?_⟩
      rintro ⟨b', hb', _, ho⟩
      rcases List.mem_cons.1 hb' with rfl | hb'
      · exact wf.self b' (by simp) d hd ho
      · exact (wf.head b' hb').1 d hd ho
    have hmk : ∀ v, Rs v → ((g v).marked || !m) = true := fun v hv => by
      obtain ⟨a, ha⟩ := f₁ v; rw [ha]; exact hmark v hv
    rw [Block.adjAfter_sum pr hadd b m g D _ hdal
      (fun d _ hd => hD0 d fun hr => by rw [hmk d hr] at hd; cases hd)]
    by_cases hb : ∃ d ∈ b.deps, Rs d
    · -- a relevant block
      have hloc := hloc b (by simp) hb
      have hsplit : alive bs Rs s = alive (b :: bs) Rs s ∪ b.outs.toFinset := by
        ext v
        rw [Finset.mem_union, mem_alive, mem_alive, List.mem_toFinset]
        constructor
        · rintro ⟨h1, h2⟩
          by_cases hv : v ∈ b.outs
          · exact Or.inr hv
          · refine Or.inl ⟨h1, ?_⟩
            rintro ⟨b', hb', hd', ho'⟩
            rcases List.mem_cons.1 hb' with rfl | hb'
            · exact hv ho'
            · exact h2 ⟨b', hb', hd', ho'⟩
        · rintro (⟨h1, h2⟩ | hv)
          · exact ⟨h1, fun ⟨b', hb', hd', ho'⟩ => h2 ⟨b', by simp [hb'], hd', ho'⟩⟩
          · refine ⟨hs v ⟨b, by simp, Or.inr hv⟩, ?_⟩
            rintro ⟨b', hb', _, ho'⟩
            exact (wf.head b' hb').2 v hv ho'
      have hdisj : Disjoint (alive (b :: bs) Rs s) b.outs.toFinset := by
        rw [Finset.disjoint_left]
        intro v hv ho
        rw [mem_alive] at hv
        exact hv.2 ⟨b, by simp, hb, List.mem_toFinset.1 ho⟩
      rw [hsplit, Finset.sum_union hdisj]
      congr 1
      have houts : ∑ v ∈ b.outs.toFinset, pv pr (g v).adj (D v)
          = (b.outs.map fun v => pv pr (g v).adj (D v)).sum :=
        (List.sum_toFinset _ (wf.nodup b (by simp)))
      rw [houts]
      split
      · rename_i hn
        symm
        apply List.sum_eq_zero
        intro x hx
        obtain ⟨o, ho, rfl⟩ := List.mem_map.1 hx
        have := List.all_eq_true.1 hn (g o).adj (List.mem_map.2 ⟨o, ho, rfl⟩)
        rw [Option.isNone_iff_eq_none] at this
        rw [this]; rfl
      · rename_i hn
        rw [s₁, ← hloc (b.outs.map fun o => (g o).adj) (by simp) (by simpa using hn)]
        congr 1
        have : b.outs.zip (b.outs.map fun o => (g o).adj) = b.outs.map fun o => (o, (g o).adj) := by
          generalize b.outs = l
          induction l with
          | nil => rfl
          | cons a l ih => simp [ih]
        rw [this, List.map_map]
        rfl
    · -- a block without relevant dependencies
      have hal : alive (b :: bs) Rs s = alive bs Rs s := by
        ext v
        rw [mem_alive, mem_alive]
        refine and_congr_right fun _ => not_congr ?_
        constructor
        · rintro ⟨b', hb', hd', ho'⟩
          rcases List.mem_cons.1 hb' with rfl | hb'
          · exact absurd hd' hb
          · exact ⟨b', hb', hd', ho'⟩
        · rintro ⟨b', hb', hd', ho'⟩
          exact ⟨b', by simp [hb'], hd', ho'⟩
      rw [hal]
      have : (if (b.outs.map fun o => (g o).adj).all Option.isNone then (0 : R) else
          (b.deps.zipIdx.map fun p => pv pr (b.adjC (b.deps.map (saved g))
            (b.outs.map fun o => (g o).adj) p.2) (D p.1)).sum) = 0 := by
        split
        · rfl
        · apply List.sum_eq_zero
          intro x hx
          obtain ⟨p, hp, rfl⟩ := List.mem_map.1 hx
          have h3 := hD0 p.1 fun hr => hb ⟨p.1, mem_of_mem_zipIdx hp, hr⟩
          unfold pv
          split
          · rfl
          · exact h3 _
      rw [this, add_zero]

end

end Pyadjoint
