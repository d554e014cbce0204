import Verif.Props.ByHand
import Verif.Props.Duality

/-!
# C88: differentiating in two stages

A program split in two: the derivative of the end result with respect to the values in the middle, handed as `adj_input`
to the derivatives of those values with respect to the controls, gives the derivative of the whole.  In particular the
rules of calculus hold for functionals combined on the tape: sum rule, product rule, chain rule.
-/

namespace Pyadjoint

section
variable {V T A : Type*} [AddCommGroup A]

/-- The heap with the given adjoint values. -/
def seeded (h : Heap V T A) (s : BV → Option A) : Heap V T A := fun v => { h v with adj := s v }

omit [AddCommGroup A] in
theorem saved_seeded (h : Heap V T A) (s : BV → Option A) (v : BV) : saved (seeded h s) v = saved h v := saved_congr rfl rfl

/-- What arrives at `c` when the tape is swept with the given adjoint values. -/
def arrives (bs : Blocks V T A) (h : Heap V T A) (s : BV → A) (c : BV) : A :=
  (evaluateAdj bs false (seeded h fun v => some (s v)) c).adj.getD 0

theorem arrives_add (bs : Blocks V T A) (hadd : ∀ b ∈ bs, AdditiveAdj b) (h : Heap V T A) (s s' : BV → A) (c : BV) :
    arrives bs h (s + s') c = arrives bs h s c + arrives bs h s' c :=
  evaluateAdj_superposition bs hadd false _ _ _ (fun _ => True) (fun _ _ _ _ => trivial)
    (fun v => ⟨by rw [saved_seeded, saved_seeded], by rw [saved_seeded, saved_seeded]⟩) (fun _ => by simp) (fun _ _ => rfl) c trivial

theorem arrives_zero (bs : Blocks V T A) (hadd : ∀ b ∈ bs, AdditiveAdj b) (h : Heap V T A) (c : BV) :
    arrives bs h 0 c = 0 := by
  have := arrives_add bs hadd h 0 0 c
  rw [add_zero] at this
  exact left_eq_add.1 this

theorem arrives_sum (bs : Blocks V T A) (hadd : ∀ b ∈ bs, AdditiveAdj b) (h : Heap V T A) (c : BV) {α : Type*} (l : List α)
    (f : α → BV → A) : arrives bs h (l.map f).sum c = (l.map fun x => arrives bs h (f x) c).sum := by
  induction l with
  | nil => exact arrives_zero bs hadd h c
  | cons x l ih => rw [List.map_cons, List.sum_cons, arrives_add bs hadd, ih, List.map_cons, List.sum_cons]

/-- A sweep as a function of the values it starts from, missing ones counting as zero, where they matter. -/
theorem sweep_arrives (bs : Blocks V T A) (hadd : ∀ b ∈ bs, AdditiveAdj b) (h g : Heap V T A) (s : BV → A) (R : BV → Prop)
    (hR : ∀ b ∈ bs, ∀ o ∈ b.outs, R o) (hs : ∀ v, saved g v = saved h v) (ha : ∀ v, R v → (g v).adj.getD 0 = s v) (c : BV) (hc : R c) :
    (evaluateAdj bs false g c).adj.getD 0 = arrives bs h s c := by
  have h1 := evaluateAdj_superposition bs hadd false (seeded h fun v => some (s v)) (seeded h fun _ => some 0) g R hR
    (fun v => ⟨by rw [saved_seeded, hs], by rw [saved_seeded, hs]⟩) (fun _ => by simp) (fun v hv => by simp [seeded, ha v hv]) c hc
  rw [h1]
  have h2 := arrives_zero bs hadd h c
  unfold arrives at h2 ⊢
  simp only [Pi.zero_apply] at h2
  rw [h2, add_zero]

theorem getDerivative_getD (h : Heap V T A) (c : BV) : getDerivative h c = (h c).adj.getD 0 := by
  unfold getDerivative
  cases (h c).adj <;> rfl

/-- A gradient computation as such a sweep. -/
theorem gradient_arrives {bs : Blocks V T A} (wf : WF bs) (hadd : ∀ b ∈ bs, AdditiveAdj b) (J : BV) (cs : List BV) (a : A)
    (h : Heap V T A) (c : BV) (hc : c ∈ cs) (hon : OnTape bs c ∨ c = J ∨ (h c).adj = none) :
    getDerivative (computeGradientState bs J cs a h) c = arrives bs h (Pi.single J a) c := by
  rw [getDerivative_getD, pruned_gradient_eq_full wf J cs a h c hc]
  unfold fullAdjoint
  apply sweep_arrives bs hadd h _ _ (fun v => OnTape bs v ∨ v = c) (fun b hb o ho => Or.inl ⟨b, hb, Or.inr ho⟩)
  · intro v
    rw [saved_update_adj, saved_resetVariables]
  · intro v hv
    by_cases hJ : v = J
    · subst hJ; simp
    · rw [Function.update_of_ne hJ, Pi.single_eq_of_ne hJ, resetVariables_apply]
      split
      · rfl
      · rename_i hoff
        have hvc : v = c := hv.resolve_left hoff
        subst hvc
        rcases hon with h' | h' | h'
        · exact absurd h' hoff
        · exact absurd h' hJ
        · rw [h']; rfl
  · exact Or.inr rfl

/-- A sweep changes the adjoint values of inputs of operations only. -/
theorem evaluateAdj_not_dep (bs : Blocks V T A) (h : Heap V T A) (v : BV) (hv : ∀ b ∈ bs, v ∉ b.deps) :
    (evaluateAdj bs false h v).adj = (h v).adj := by
  induction bs with
  | nil => rfl
  | cons b bs ih =>
    rw [evaluateAdj_cons, Block.evaluateAdj_apply]
    simp only [Block.adjAfter, entries_nil_of_not_mem (hv b (by simp)), List.foldl_nil, ite_self]
    exact ih fun b' hb' => hv b' (by simp [hb'])

theorem sum_single_apply {α : Type*} (l : List α) (f : α → BV) (x : α → A) (v : BV) :
    (l.map fun p => (Pi.single (f p) (x p) : BV → A)).sum v = ((l.filter fun p => f p = v).map x).sum := by
  induction l with
  | nil => rfl
  | cons p l ih =>
    rw [List.map_cons, List.sum_cons, Pi.add_apply, ih]
    by_cases hp : f p = v
    · subst hp; simp
    · rw [Pi.single_eq_of_ne (fun e => hp e.symm), zero_add, List.filter_cons_of_neg (by simpa using hp)]

/-- **C88.** Differentiating in two stages.  `tail` is the later part of the program, `vs` the values it takes from the
earlier part (and those controls it uses directly).  The derivative of the end result with respect to `vs`, handed on as
adjoint inputs for the derivatives of `vs` with respect to the controls, gives the derivative of the whole program. -/
theorem gradient_in_two_stages {bs tail : Blocks V T A} (wf : WF (bs ++ tail)) (hadd : ∀ b ∈ bs ++ tail, AdditiveAdj b)
    (J : BV) (cs vs : List BV) (hvs : vs.Nodup) (a : A) (h : Heap V T A)
    (hcover : ∀ v, (v = J ∨ ∃ b ∈ tail, v ∈ b.deps) → v ∈ vs ∨ (¬ OnTape bs v ∧ v ∉ cs))
    (honv : ∀ v ∈ vs, OnTape tail v ∨ v = J ∨ (h v).adj = none)
    (hon : ∀ c ∈ cs, OnTape bs c ∨ (h c).adj = none) (k : Nat) :
    (computeGradient (bs ++ tail) J cs a h).1.getD k 0
      = ((vs.zip (computeGradient tail J vs a h).1).map fun p => (computeGradient bs p.1 cs p.2 h).1.getD k 0).sum := by
  have hb : ∀ b ∈ bs, AdditiveAdj b := fun b hb => hadd b (List.mem_append_left _ hb)
  have ht : ∀ b ∈ tail, AdditiveAdj b := fun b hb => hadd b (List.mem_append_right _ hb)
  unfold computeGradient
  simp only []
  by_cases hk : k < cs.length
  · have hc : cs[k] ∈ cs := List.getElem_mem hk
    have e : ∀ f : BV → A, (cs.map f).getD k 0 = f cs[k] := fun f => by simp [List.getD, hk]
    simp only [e]
    rw [gradient_arrives wf hadd J cs a h _ hc (by
      rcases hon _ hc with ⟨b, hb, h'⟩ | h'
      · exact Or.inl ⟨b, List.mem_append_left _ hb, h'⟩
      · exact Or.inr (Or.inr h'))]
    have e2 : ∀ p ∈ vs.zip (vs.map (getDerivative (computeGradientState tail J vs a h))),
        getDerivative (computeGradientState bs p.1 cs p.2 h) cs[k]
          = arrives bs h (Pi.single p.1 (arrives tail h (Pi.single J a) p.1)) cs[k] := by
      intro p hp
      rw [List.zip_map_right] at hp
      obtain ⟨q, hq, rfl⟩ := List.mem_map.1 hp
      have hqv : q.1 ∈ vs := (List.of_mem_zip hq).1
      have hq2 : q.2 = q.1 := by
        obtain ⟨i, hi, rfl⟩ := List.mem_iff_getElem.1 hq
        simp
      show getDerivative (computeGradientState bs q.1 cs (getDerivative (computeGradientState tail J vs a h) q.2) h) cs[k] = _
      rw [gradient_arrives wf.append.1 hb q.1 cs _ h _ hc ((hon _ hc).imp id Or.inr), hq2,
        gradient_arrives wf.append.2 ht J vs a h q.1 hqv (honv _ hqv)]
      rfl
    rw [List.map_congr_left e2]
    have e3 : (vs.zip (vs.map (getDerivative (computeGradientState tail J vs a h)))).map
          (fun p => arrives bs h (Pi.single p.1 (arrives tail h (Pi.single J a) p.1)) cs[k])
        = vs.map fun v => arrives bs h (Pi.single v (arrives tail h (Pi.single J a) v)) cs[k] := by
      refine Eq.trans (List.map_map (f := Prod.fst)
        (g := fun v => arrives bs h (Pi.single v (arrives tail h (Pi.single J a) v)) cs[k])).symm ?_
      rw [List.map_fst_zip (by simp)]
    rw [e3, ← arrives_sum bs hb h cs[k] vs fun v => Pi.single v (arrives tail h (Pi.single J a) v)]
    show (evaluateAdj (bs ++ tail) false (seeded h fun v => some ((Pi.single J a : BV → A) v)) cs[k]).adj.getD 0 = _
    rw [show evaluateAdj (bs ++ tail) false (seeded h fun v => some ((Pi.single J a : BV → A) v))
        = evaluateAdj bs false (evaluateAdj tail false (seeded h fun v => some ((Pi.single J a : BV → A) v))) by
      unfold evaluateAdj; rw [List.reverse_append, List.foldl_append]]
    apply sweep_arrives bs hb h _ _ (fun v => OnTape bs v ∨ v ∈ cs) (fun b hb o ho => Or.inl ⟨b, hb, Or.inr ho⟩)
    · intro v
      rw [saved_evaluateAdj, saved_seeded]
    · intro v hv
      show arrives tail h (Pi.single J a) v = _
      rw [sum_single_apply]
      by_cases hm : v ∈ vs
      · have : (vs.filter fun p => p = v) = [v] := by
          have h1 := List.filter_beq (l := vs) v
          rw [List.count_eq_one_of_mem hvs hm] at h1
          rw [← List.replicate_one, ← h1]
          exact List.filter_congr fun w _ => by rw [Bool.eq_iff_iff]; simp
        rw [this]; simp
      · have : (vs.filter fun p => p = v) = [] := by
          rw [List.filter_eq_nil_iff]
          intro w hw e
          exact hm (by simpa using (of_decide_eq_true e) ▸ hw)
        rw [this]
        have hn : ¬ (v = J ∨ ∃ b ∈ tail, v ∈ b.deps) := fun h' => by
          rcases hcover v h' with h1 | ⟨h1, h2⟩
          · exact hm h1
          · exact hv.elim h1 h2
        push Not at hn
        unfold arrives
        rw [evaluateAdj_not_dep tail _ v hn.2]
        simp [seeded, Pi.single_eq_of_ne hn.1]
    · exact Or.inr hc
  · have e : ∀ f : BV → A, (cs.map f).getD k 0 = 0 := fun f => by
      simp [List.getD, Nat.le_of_not_lt hk]
    simp only [e]
    simp

/-- **C88.** Differentiating in two stages, with the two parts on tapes of their own and whatever was computed in between:
the derivatives of the earlier part may be computed at any time after that of the later part, as long as the values are the
same.  The controls have to occur on the earlier tape: see `two_stages_stale`. -/
theorem gradient_on_two_tapes_partial {bs tail : Blocks V T A} (wf : WF (bs ++ tail)) (hadd : ∀ b ∈ bs ++ tail, AdditiveAdj b)
    (J : BV) (cs vs : List BV) (hvs : vs.Nodup) (a : A) (h h' : Heap V T A) (later : BV × A → Heap V T A)
    (hs : ∀ v, saved h' v = saved h v) (hl : ∀ p v, saved (later p) v = saved h v)
    (hcover : ∀ v, (v = J ∨ ∃ b ∈ tail, v ∈ b.deps) → v ∈ vs ∨ (¬ OnTape bs v ∧ v ∉ cs))
    (honv : ∀ v ∈ vs, OnTape tail v ∨ v = J) (hon : ∀ c ∈ cs, OnTape bs c) (k : Nat) :
    (computeGradient (bs ++ tail) J cs a h).1.getD k 0
      = ((vs.zip (computeGradient tail J vs a h').1).map fun p => (computeGradient bs p.1 cs p.2 (later p)).1.getD k 0).sum := by
  rw [gradient_in_two_stages wf hadd J cs vs hvs a h hcover (fun v hv => (honv v hv).imp id Or.inl) (fun c hc => Or.inl (hon c hc)) k,
    gradient_of_saved wf.append.2 J vs a h' h hs fun c hc => (honv c hc).imp id Or.inl]
  congr 1
  apply List.map_congr_left
  intro p _
  rw [gradient_of_saved wf.append.1 p.1 cs p.2 (later p) h (hl p) fun c hc => Or.inl (hon c hc)]

/-- **C88.** The chain rule for the last operation of a program: the derivative of its result is the sum over its inputs of
their derivatives, with what the operation sends to the input as adjoint input. -/
theorem gradient_of_last_operation {bs : Blocks V T A} {b : Block V T A} (wf : WF (bs ++ [b]))
    (hadd : ∀ b' ∈ bs ++ [b], AdditiveAdj b') (J : BV) (hJ : b.outs = [J]) (cs : List BV) (hJc : J ∉ cs) (a : A) (h : Heap V T A)
    (hon : ∀ c ∈ cs, OnTape bs c ∨ (h c).adj = none) (k : Nat) :
    (computeGradient (bs ++ [b]) J cs a h).1.getD k 0
      = (b.deps.zipIdx.map fun p => (computeGradient bs p.1 cs ((b.adjC (b.deps.map (saved h)) [some a] p.2).getD 0) h).1.getD k 0).sum := by
  have hb : ∀ b' ∈ bs, AdditiveAdj b' := fun b' hb' => hadd b' (List.mem_append_left _ hb')
  have hJb : ¬ OnTape bs J := by
    rintro ⟨b', hb', h'⟩
    have := (List.pairwise_append.1 wf.later).2.2 b' hb' b (by simp)
    rcases h' with h' | h'
    · exact this.1 J h' (by simp [hJ])
    · exact this.2 J h' (by simp [hJ])
  unfold computeGradient
  simp only []
  by_cases hk : k < cs.length
  · have hc : cs[k] ∈ cs := List.getElem_mem hk
    have e : ∀ f : BV → A, (cs.map f).getD k 0 = f cs[k] := fun f => by simp [List.getD, hk]
    simp only [e]
    rw [gradient_arrives wf hadd J cs a h _ hc (by
      rcases hon _ hc with ⟨b, hb, h'⟩ | h'
      · exact Or.inl ⟨b, List.mem_append_left _ hb, h'⟩
      · exact Or.inr (Or.inr h'))]
    rw [List.map_congr_left fun p _ => gradient_arrives wf.append.1 hb p.1 cs _ h _ hc ((hon _ hc).imp id Or.inr),
      ← arrives_sum bs hb h cs[k] b.deps.zipIdx fun p => Pi.single p.1 ((b.adjC (b.deps.map (saved h)) [some a] p.2).getD 0)]
    show (evaluateAdj (bs ++ [b]) false (seeded h fun v => some ((Pi.single J a : BV → A) v)) cs[k]).adj.getD 0 = _
    rw [show evaluateAdj (bs ++ [b]) false (seeded h fun v => some ((Pi.single J a : BV → A) v))
        = evaluateAdj bs false (b.evaluateAdj false (seeded h fun v => some ((Pi.single J a : BV → A) v))) by
      unfold evaluateAdj; rw [List.reverse_append, List.foldl_append]; rfl]
    apply sweep_arrives bs hb h _ _ (fun v => OnTape bs v ∨ v ∈ cs) (fun b hb o ho => Or.inl ⟨b, hb, Or.inr ho⟩)
    · intro v
      have := saved_evaluateAdj [b] false (seeded h fun v => some ((Pi.single J a : BV → A) v)) v
      rw [saved_seeded] at this
      exact this
    · intro v hv
      rw [Block.evaluateAdj_apply]
      simp only []
      rw [Block.getD_adjAfter, sum_single_apply]
      have hvJ : v ≠ J := by
        rintro rfl
        exact hv.elim hJb hJc
      have e1 : b.deps.map (saved (seeded h fun v => some ((Pi.single J a : BV → A) v))) = b.deps.map (saved h) :=
        List.map_congr_left fun w _ => saved_seeded _ _ _
      rw [e1]
      simp [seeded, Pi.single_eq_of_ne hvJ, hJ, Block.sent, entries]
    · exact Or.inr hc
  · have e : ∀ f : BV → A, (cs.map f).getD k 0 = 0 := fun f => by
      simp [List.getD, Nat.le_of_not_lt hk]
    simp only [e]
    simp

/-- A block none of whose outputs has an adjoint value does nothing. -/
theorem evaluateAdj_idle (bs : Blocks V T A) (m : Bool) (h : Heap V T A) (hn : ∀ b ∈ bs, ∀ o ∈ b.outs, (h o).adj = none) :
    ∀ v, (evaluateAdj bs m h v).adj = (h v).adj := by
  induction bs with
  | nil => intro v; rfl
  | cons b bs ih =>
    have ih := ih fun b' hb' => hn b' (by simp [hb'])
    intro v
    rw [evaluateAdj_cons, Block.evaluateAdj_apply]
    simp only [Block.adjAfter]
    rw [if_pos]
    · exact ih v
    · rw [List.all_eq_true]
      intro x hx
      obtain ⟨o, ho, rfl⟩ := List.mem_map.1 hx
      rw [ih o, hn b (by simp) o ho]; rfl

/-- **C88.** Recording further operations does not change the derivative of a functional recorded before. -/
theorem gradient_before_later_operations {bs tail : Blocks V T A} (wf : WF (bs ++ tail)) (J : BV)
    (hJ : ∀ b ∈ tail, J ∉ b.outs) (cs : List BV) (a : A) (h : Heap V T A)
    (hon : ∀ c ∈ cs, OnTape bs c ∨ c = J ∨ (h c).adj = none) :
    (computeGradient (bs ++ tail) J cs a h).1 = (computeGradient bs J cs a h).1 := by
  unfold computeGradient
  apply List.map_congr_left
  intro c hc
  rw [getDerivative_getD, getDerivative_getD, pruned_gradient_eq_full wf J cs a h c hc,
    pruned_gradient_eq_full wf.append.1 J cs a h c hc]
  congr 1
  unfold fullAdjoint
  rw [show ∀ g : Heap V T A, evaluateAdj (bs ++ tail) false g = evaluateAdj bs false (evaluateAdj tail false g) from fun g => by
    unfold evaluateAdj; rw [List.reverse_append, List.foldl_append]]
  apply evaluateAdj_sim bs (fun v => OnTape bs v ∨ v = c) (fun b hb _ o ho => Or.inl ⟨b, hb, Or.inr ho⟩)
  · intro v _; simp
  · intro v _; simp
  · intro v hv
    rw [evaluateAdj_idle]
    · by_cases hvJ : v = J
      · subst hvJ; simp
      · rw [Function.update_of_ne hvJ, Function.update_of_ne hvJ, resetVariables_apply, resetVariables_apply]
        by_cases hb : OnTape bs v
        · obtain ⟨b, hb1, hb2⟩ := hb
          rw [if_pos ⟨b, List.mem_append_left _ hb1, hb2⟩, if_pos ⟨b, hb1, hb2⟩]
        · rw [if_neg hb]
          obtain rfl := hv.resolve_left hb
          have hn : (h v).adj = none := ((hon v hc).resolve_left hb).resolve_left hvJ
          split
          · rw [hn]; rfl
          · rfl
    · intro b hb o ho
      have hoJ : o ≠ J := fun e => hJ b hb (e ▸ ho)
      rw [Function.update_of_ne hoJ, resetVariables_apply, if_pos ⟨b, List.mem_append_right _ hb, Or.inr ho⟩]
      rfl
  · intro v
    simp only [saved_evaluateAdj, saved_update_adj, saved_resetVariables]
  · exact Or.inr rfl

end

/-- The adjoint component methods of `AdjFloat` operations are linear. -/
theorem FBlock.linearAdj (b : FBlock) : IsLinearAdj (K := ℝ) b.toBlock := by
  intro r s inputs x y i hxy
  match x, y, hxy with
  | [], [], _ =>
    cases b <;> exact ⟨rfl, rfl⟩
  | u :: x, w :: y, h =>
    cases b with
    | un op a o =>
      cases hi : inputs[0]? with
      | none => cases u <;> cases w <;> simp [FBlock.toBlock, combO, hi] at h ⊢
      | some p =>
        cases op <;> cases u <;> cases w <;> simp [FBlock.toBlock, combO, hi, UOp.adjC] at h ⊢ <;> ring
    | bin op a c o =>
      cases hi : inputs[0]? with
      | none => cases u <;> cases w <;> simp [FBlock.toBlock, combO, hi] at h ⊢
      | some p =>
        cases hj : inputs[1]? with
        | none => cases u <;> cases w <;> simp [FBlock.toBlock, combO, hi, hj] at h ⊢
        | some q =>
          have : ∀ l, op.adjC p q l i = l * op.adjC p q 1 i := by
            intro l
            cases op <;> simp only [BOp.adjC] <;> (repeat' split) <;> ring
          cases u <;> cases w <;> simp [FBlock.toBlock, combO, hi, hj] at h ⊢
          rename_i u w
          rw [this (r * u + s * w), this u, this w]; ring

/-- `adj_input` multiplies the derivative. -/
theorem float_gradient_seed (t : FTape) (wf : WF t.blocks) (J : BV) (cs : List BV) (a : ℝ) (h : FHeap)
    (hon : ∀ c ∈ cs, OnTape t.blocks c ∨ c = J ∨ (h c).adj = none) (k : Nat) :
    (computeGradient t.blocks J cs a h).1.getD k 0 = a * (computeGradient t.blocks J cs 1 h).1.getD k 0 := by
  have := gradient_linear_in_adj_input (K := ℝ) a 0 wf (fun b hb => by
    obtain ⟨f, _, rfl⟩ := List.mem_map.1 hb
    exact f.linearAdj) J cs 1 0 h hon
  simp only [smul_eq_mul, mul_one, zero_mul, add_zero, mul_zero] at this
  rw [this]
  unfold computeGradient
  simp only [List.getD]
  rw [List.getElem?_zipWith]
  by_cases hk : k < cs.length
  · simp [hk]
  · simp [Nat.le_of_not_lt hk]

section
variable (t : FTape) (cs : List BV) (h : FHeap) (k : Nat)

/-- Derivative of the variable `j` with respect to the control in place `k`, as returned by `compute_gradient`. -/
noncomputable def dOf (j : BV) : ℝ := (computeGradient t.blocks j cs 1 h).1.getD k 0

theorem float_blocks_append (t : FTape) (b : FBlock) : FTape.blocks (t ++ [b]) = t.blocks ++ [b.toBlock] := by
  simp [FTape.blocks]

theorem float_additive (t : FTape) : ∀ b ∈ t.blocks, AdditiveAdj b := fun b hb => by
  obtain ⟨f, _, rfl⟩ := List.mem_map.1 hb
  exact f.additive

/-- **C88.** The rules of calculus, for functionals combined on the tape: whatever was recorded before, and whatever the
values are, the derivative of the combination is the combination of the derivatives. -/
theorem binary_rule (op : BOp) (j₁ j₂ J : BV) (wf : WF (FTape.blocks (t ++ [.bin op j₁ j₂ J]))) (hJ : J ∉ cs)
    (hon : ∀ c ∈ cs, OnTape t.blocks c ∨ (h c).adj = none) :
    dOf (t ++ [.bin op j₁ j₂ J]) cs h k J
      = op.adjC (saved h j₁) (saved h j₂) 1 0 * dOf t cs h k j₁ + op.adjC (saved h j₁) (saved h j₂) 1 1 * dOf t cs h k j₂ := by
  unfold dOf
  rw [float_blocks_append] at wf ⊢
  have hon' : ∀ j, ∀ c ∈ cs, OnTape t.blocks c ∨ c = j ∨ (h c).adj = none := fun j c hc => (hon c hc).imp id Or.inr
  rw [gradient_of_last_operation wf (by rw [← float_blocks_append]; exact float_additive _) J rfl cs hJ 1 h hon k]
  show (computeGradient t.blocks j₁ cs (op.adjC (saved h j₁) (saved h j₂) 1 0) h).1.getD k 0
    + ((computeGradient t.blocks j₂ cs (op.adjC (saved h j₁) (saved h j₂) 1 1) h).1.getD k 0 + 0) = _
  rw [add_zero]
  exact congrArg₂ (· + ·) (float_gradient_seed t wf.append.1 _ cs _ h (hon' _) k) (float_gradient_seed t wf.append.1 _ cs _ h (hon' _) k)

/-- **C88.** The rules for one argument. -/
theorem unary_rule (op : UOp) (j J : BV) (wf : WF (FTape.blocks (t ++ [.un op j J]))) (hJ : J ∉ cs)
    (hon : ∀ c ∈ cs, OnTape t.blocks c ∨ (h c).adj = none) :
    dOf (t ++ [.un op j J]) cs h k J = op.adjC (saved h j) 1 * dOf t cs h k j := by
  unfold dOf
  rw [float_blocks_append] at wf ⊢
  have hon' : ∀ j, ∀ c ∈ cs, OnTape t.blocks c ∨ c = j ∨ (h c).adj = none := fun j c hc => (hon c hc).imp id Or.inr
  rw [gradient_of_last_operation wf (by rw [← float_blocks_append]; exact float_additive _) J rfl cs hJ 1 h hon k]
  show (computeGradient t.blocks j cs (op.adjC (saved h j) 1) h).1.getD k 0 + 0 = _
  rw [add_zero]
  exact float_gradient_seed t wf.append.1 _ cs _ h (hon' _) k

/-- **C88.** Sum, difference, product, quotient. -/
theorem calculus_rules (op : BOp) (j₁ j₂ J : BV) (wf : WF (FTape.blocks (t ++ [.bin op j₁ j₂ J]))) (hJ : J ∉ cs)
    (hon : ∀ c ∈ cs, OnTape t.blocks c ∨ (h c).adj = none) :
    (op = .add → dOf (t ++ [.bin op j₁ j₂ J]) cs h k J = dOf t cs h k j₁ + dOf t cs h k j₂) ∧
    (op = .sub → dOf (t ++ [.bin op j₁ j₂ J]) cs h k J = dOf t cs h k j₁ - dOf t cs h k j₂) ∧
    (op = .mul → dOf (t ++ [.bin op j₁ j₂ J]) cs h k J
      = dOf t cs h k j₁ * saved h j₂ + saved h j₁ * dOf t cs h k j₂) ∧
    (op = .div → saved h j₂ ≠ 0 → dOf (t ++ [.bin op j₁ j₂ J]) cs h k J
      = (dOf t cs h k j₁ * saved h j₂ - saved h j₁ * dOf t cs h k j₂) / saved h j₂ ^ 2) := by
  rw [binary_rule t cs h k op j₁ j₂ J wf hJ hon]
  refine ⟨?_, ?_, ?_, ?_⟩
  · rintro rfl; simp [BOp.adjC]
  · rintro rfl; simp [BOp.adjC]; ring
  · rintro rfl; simp [BOp.adjC]; ring
  · rintro rfl h0; simp [BOp.adjC]; field_simp; ring

end

/-! ### Examples -/

theorem exTape_additive : ∀ b ∈ exTape, AdditiveAdj b := by
  intro b hb
  simp only [exTape, List.mem_cons, List.not_mem_nil, or_false] at hb
  rcases hb with rfl | rfl
  · intro inputs x y z i hz
    have hz := hz 2 (by simp [exDouble])
    simp only [Block.sent, exDouble, List.map_cons, List.map_nil] at hz ⊢
    revert hz
    cases x 2 <;> cases y 2 <;> cases z 2 <;> simp <;> omega
  · intro inputs x y z i hz
    have hz := hz 3 (by simp [exAdd])
    simp only [Block.sent, exAdd, List.map_cons, List.map_nil] at hz ⊢
    revert hz
    cases x 3 <;> cases y 3 <;> cases z 3 <;> simp

/-- Non-vacuity: `y = 2 z`, `J = y + x`; the derivative with respect to `z` in two stages through `y`. -/
example : WF ([exDouble 0 2] ++ [exAdd 2 1 3]) ∧ (∀ b ∈ [exDouble 0 2] ++ [exAdd 2 1 3], AdditiveAdj b) ∧
    (∀ v, (v = 3 ∨ ∃ b ∈ [exAdd 2 1 3], v ∈ b.deps) → v ∈ [2] ∨ (¬ OnTape [exDouble 0 2] v ∧ v ∉ [0])) ∧
    (∀ c ∈ [0], OnTape [exDouble 0 2] c) ∧ (computeGradient ([exDouble 0 2] ++ [exAdd 2 1 3]) 3 [0] 1 exHeap).1 = [2] := by
  refine ⟨exTape_wf, exTape_additive, ?_, ?_, by decide⟩
  · rintro v (rfl | ⟨b, hb, hv⟩)
    · refine Or.inr ⟨?_, by simp⟩
      rintro ⟨b, hb, h⟩
      rw [List.mem_singleton] at hb
      subst hb
      simp [exDouble] at h
    · rw [List.mem_singleton] at hb
      subst hb
      rcases (by simpa [exAdd] using hv : v = 2 ∨ v = 1) with rfl | rfl
      · exact Or.inl (by simp)
      · refine Or.inr ⟨?_, by simp⟩
        rintro ⟨b, hb, h⟩
        rw [List.mem_singleton] at hb
        subst hb
        simp [exDouble] at h
  · intro c hc
    exact ⟨_, List.mem_singleton.2 rfl, Or.inl (by simpa [exDouble] using hc)⟩

/-- **Disagreement.** A control that does not occur on the earlier tape: `y = 2 z` on one tape, `J = y + x` on another, control
`x`.  The derivative of `J` is 1, but after the computation on the second tape the derivative of `y` with respect to `x`
comes out as 1 instead of 0, being the value left over on `x`; the two stages add up to 2. -/
theorem two_stages_stale :
    (computeGradient ([exDouble 0 2] ++ [exAdd 2 1 3]) 3 [1] 1 exHeap).1 = [1] ∧
    (computeGradient [exAdd 2 1 3] 3 [1, 2] 1 exHeap).1 = [1, 1] ∧
    (let h := (computeGradient [exAdd 2 1 3] 3 [1, 2] 1 exHeap).2
     (computeGradient [exDouble 0 2] 2 [1] 1 h).1 = [1] ∧
     (computeGradient [exDouble 0 2] 1 [1] 1 (computeGradient [exDouble 0 2] 2 [1] 1 h).2).1 = [1]) := by
  decide

/-- Non-vacuity of the rules: `J = j₁ * j₂` for `j₁ = exp x`, `j₂ = x + y`. -/
example : WF (FTape.blocks ([.un .exp 0 2, .bin .add 0 1 3] ++ [.bin .mul 2 3 4])) ∧
    ∀ c ∈ [0, 1], OnTape (FTape.blocks [.un .exp 0 2, .bin .add 0 1 3]) c := by
  refine ⟨⟨?_, ?_, ?_⟩, fun c hc => ?_⟩
  · simp [FTape.blocks, FBlock.toBlock]
  · simp [FTape.blocks, FBlock.toBlock]
  · simp [FTape.blocks, FBlock.toBlock]
  · exact ⟨_, List.mem_cons_of_mem _ List.mem_cons_self, Or.inl (by simpa [FBlock.toBlock] using hc)⟩

end Pyadjoint
