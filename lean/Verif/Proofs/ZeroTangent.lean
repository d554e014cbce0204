import Verif.Proofs.HessCongr
import Verif.Proofs.HessSweep

/-! A missing tangent and a tangent that is zero give the same Hessian values. -/

namespace Pyadjoint

/-- Equal, or missing where the other is zero. -/
def ZeroOr (x y : Option ℝ) : Prop := x = y ∨ (x = none ∧ y = some 0)

theorem ZeroOr.map {x y : Option ℝ} (h : ZeroOr x y) (f : ℝ → ℝ) (hf : f 0 = 0) : ZeroOr (x.map f) (y.map f) := by
  rcases h with rfl | ⟨rfl, rfl⟩
  · exact Or.inl rfl
  · exact Or.inr ⟨rfl, by rw [Option.map_some, hf]⟩

theorem ZeroOr.getD {x y : Option ℝ} (h : ZeroOr x y) : x.getD 0 = y.getD 0 := by
  rcases h with rfl | ⟨rfl, rfl⟩ <;> rfl

/-- The same variables, apart from tangents that are missing in `h` and zero in `g`. -/
def ZeroHeap (h g : FHeap) : Prop := ∀ v, g v = { h v with tlm := (g v).tlm } ∧ ZeroOr (h v).tlm (g v).tlm

variable {h g : FHeap}

theorem ZeroHeap.saved (z : ZeroHeap h g) (v : BV) : saved g v = saved h v := by
  refine saved_congr ?_ ?_ <;> rw [(z v).1]

theorem ZeroHeap.marked (z : ZeroHeap h g) (v : BV) : (g v).marked = (h v).marked := by rw [(z v).1]
theorem ZeroHeap.hess (z : ZeroHeap h g) (v : BV) : (g v).hess = (h v).hess := by rw [(z v).1]
theorem ZeroHeap.adj (z : ZeroHeap h g) (v : BV) : (g v).adj = (h v).adj := by rw [(z v).1]

theorem ZeroHeap.update (z : ZeroHeap h g) (v : BV) {x y : Var ℝ ℝ ℝ} (e : y = { x with tlm := y.tlm }) (o : ZeroOr x.tlm y.tlm) :
    ZeroHeap (Function.update h v x) (Function.update g v y) := by
  intro w
  by_cases hw : w = v
  · subst hw; rw [Function.update_self, Function.update_self]; exact ⟨e, o⟩
  · rw [Function.update_of_ne hw, Function.update_of_ne hw]; exact z w

theorem ZeroHeap.updateRight (z : ZeroHeap h g) (v : BV) {y : Var ℝ ℝ ℝ} (e : y = { h v with tlm := y.tlm }) (o : ZeroOr (h v).tlm y.tlm) :
    ZeroHeap h (Function.update g v y) := by
  have := z.update v e o
  rwa [Function.update_eq_self] at this

theorem ZeroHeap.addTlm (z : ZeroHeap h g) (o : BV) {x y : Option ℝ} (hz : ZeroOr x y) : ZeroHeap (addTlm? h o x) (addTlm? g o y) := by
  have e := (z o).1
  rcases hz with rfl | ⟨rfl, rfl⟩
  · cases x with
    | none => exact z
    | some a =>
      refine z.update o (by rw [e]) (Or.inl ?_)
      rcases (z o).2 with h1 | ⟨h1, h2⟩
      · simp only [h1]
      · simp only [h1, h2, zero_add]
  · refine z.updateRight o (by rw [e]) ?_
    rcases (z o).2 with h1 | ⟨h1, h2⟩
    · rw [← h1]
      cases (h o).tlm with
      | none => exact Or.inr ⟨rfl, rfl⟩
      | some b => exact Or.inl (by simp)
    · rw [h2, h1]; exact Or.inr ⟨rfl, by simp⟩

theorem ZeroHeap.addHess (z : ZeroHeap h g) (v : BV) (a : ℝ) : ZeroHeap (addHess h v a) (addHess g v a) := by
  have e := (z v).1
  refine z.update v ?_ (z v).2
  rw [e]

theorem addHess_zero_add (g : FHeap) (v : BV) (f : ℝ) : addHess (addHess g v 0) v f = addHess g v f := by
  unfold addHess
  rw [Function.update_idem, Function.update_self]
  congr 1
  cases (g v).hess <;> simp

theorem addHess_zero_self (g : FHeap) (v : BV) (hg : (g v).hess.isSome) : addHess g v 0 = g := by
  unfold addHess
  refine Function.update_eq_self_iff.2 ?_
  obtain ⟨b, hb⟩ := Option.isSome_iff_exists.1 hg
  rw [hb]
  simp only [add_zero]
  conv_rhs => rw [show g v = { g v with hess := (g v).hess } from rfl, hb]

/-- A contribution of a tangent, followed by another one. -/
theorem ZeroHeap.addHessThen (z : ZeroHeap h g) (v : BV) {x y : Option ℝ} (hz : ZeroOr x y) (f : ℝ) :
    ZeroHeap (Pyadjoint.addHess (addHess? h v x) v f) (Pyadjoint.addHess (addHess? g v y) v f) := by
  rcases hz with rfl | ⟨rfl, rfl⟩
  · cases x with
    | none => exact z.addHess v f
    | some a => exact (z.addHess v a).addHess v f
  · show ZeroHeap _ (Pyadjoint.addHess (Pyadjoint.addHess g v 0) v f)
    rw [addHess_zero_add]
    exact z.addHess v f

/-- A contribution of a tangent to a Hessian value that is there. -/
theorem ZeroHeap.addHessSome (z : ZeroHeap h g) (v : BV) {x y : Option ℝ} (hz : ZeroOr x y) (hs : (g v).hess.isSome) :
    ZeroHeap (addHess? h v x) (addHess? g v y) := by
  rcases hz with rfl | ⟨rfl, rfl⟩
  · cases x with
    | none => exact z
    | some a => exact z.addHess v a
  · show ZeroHeap h (Pyadjoint.addHess g v 0)
    rw [addHess_zero_self g v hs]
    exact z

theorem ZeroHeap.relevant (z : ZeroHeap h g) (m : Bool) (l : List BV) : relevant g m l = relevant h m l := by
  unfold Pyadjoint.relevant
  exact List.filter_congr fun p _ => by rw [z.marked]

theorem ZeroHeap.map_saved (z : ZeroHeap h g) (l : List BV) : l.map (Pyadjoint.saved g) = l.map (Pyadjoint.saved h) := List.map_congr_left fun v _ => z.saved v

theorem relevant_one (h : FHeap) (m : Bool) (o : BV) : relevant h m [o] = if (h o).marked || !m then [(o, 0)] else [] := by
  unfold relevant
  simp [List.zipIdx_cons, List.filter_cons]

theorem relevant_two (h : FHeap) (m : Bool) (a b : BV) :
    relevant h m [a, b] = (if (h a).marked || !m then [(a, 0)] else []) ++ if (h b).marked || !m then [(b, 1)] else [] := by
  unfold relevant
  simp only [List.zipIdx_cons, List.zipIdx_nil, List.filter_cons, List.filter_nil]
  split <;> split <;> simp_all

theorem FBlock.un_evaluateTlm (op : UOp) (a o : BV) (m : Bool) (h : FHeap) :
    (FBlock.un op a o).evaluateTlm m h = if (h o).marked || !m then addTlm? h o ((h a).tlm.map (op.tlmC (saved h a))) else h := by
  show (if [(h a).tlm].all Option.isNone then h else if (relevant h m [o]).isEmpty then h else
    (relevant h m [o]).foldl (fun h' p => addTlm? h' p.1 (([(h a).tlm][0]?).join.bind fun t => ([saved h a][0]?).map fun x => op.tlmC x t)) h) = _
  rw [relevant_one]
  cases (h a).tlm with
  | none => simp [addTlm?]
  | some t => by_cases hm : ((h o).marked || !m) = true <;> simp [hm, addTlm?]

/-- The tangent that a sum, product, minimum or maximum adds. -/
noncomputable def binTlm (op : BOp) (x y : ℝ) (ta tb : Option ℝ) : Option ℝ := if ta = none ∧ tb = none then none else op.tlmC x y ta tb

theorem FBlock.bin_evaluateTlm (op : BOp) (hop : op = .add ∨ op = .mul ∨ op = .min ∨ op = .max) (a b o : BV) (m : Bool) (h : FHeap) :
    (FBlock.bin op a b o).evaluateTlm m h = if (h o).marked || !m then addTlm? h o (binTlm op (saved h a) (saved h b) (h a).tlm (h b).tlm) else h := by
  have : (FBlock.bin op a b o).evaluateTlm m h = (FBlock.bin op a b o).toBlock.evaluateTlm m h := by
    rcases hop with rfl | rfl | rfl | rfl <;> rfl
  rw [this]
  show (if [(h a).tlm, (h b).tlm].all Option.isNone then h else if (relevant h m [o]).isEmpty then h else
    (relevant h m [o]).foldl (fun h' p => addTlm? h' p.1 (([saved h a, saved h b][0]?).bind fun x => ([saved h a, saved h b][1]?).bind fun y =>
      op.tlmC x y ([(h a).tlm, (h b).tlm][0]?).join ([(h a).tlm, (h b).tlm][1]?).join)) h) = _
  unfold binTlm
  rw [relevant_one]
  cases (h a).tlm <;> cases (h b).tlm <;> by_cases hm : ((h o).marked || !m) = true <;> simp [hm, addTlm?]

theorem binTlm_zero (op : BOp) (hop : op = .add ∨ op = .mul ∨ op = .min ∨ op = .max) (x y : ℝ) {ta tb sa sb : Option ℝ} (ha : ZeroOr ta sa) (hb : ZeroOr tb sb) :
    ZeroOr (binTlm op x y ta tb) (binTlm op x y sa sb) := by
  unfold binTlm
  rcases ha with rfl | ⟨rfl, rfl⟩ <;> rcases hb with rfl | ⟨rfl, rfl⟩
  · exact Or.inl rfl
  · rcases hop with rfl | rfl | rfl | rfl <;> cases ta <;> simp [BOp.tlmC, ZeroOr] <;> first
    | (split <;> simp <;> exact ⟨not_le.1 ‹_›, fun k => absurd k ‹_›⟩)
    | exact le_or_gt _ _
  · rcases hop with rfl | rfl | rfl | rfl <;> cases tb <;> simp [BOp.tlmC, ZeroOr] <;> first
    | (split <;> simp <;> exact ⟨‹_›, fun k => absurd k (not_lt.2 ‹_›)⟩)
    | exact le_or_gt _ _
    | exact lt_or_ge _ _
  · rcases hop with rfl | rfl | rfl | rfl <;> simp [BOp.tlmC, ZeroOr]

theorem ZeroHeap.evaluateTlm (z : ZeroHeap h g) (b : FBlock) (m : Bool) : ZeroHeap (b.evaluateTlm m h) (b.evaluateTlm m g) := by
  cases b with
  | un op a o =>
    rw [FBlock.un_evaluateTlm, FBlock.un_evaluateTlm, z.marked, z.saved]
    split
    · exact z.addTlm o ((z a).2.map _ (by cases op <;> simp [UOp.tlmC]))
    · exact z
  | bin op a b o =>
    have dflt : (op = .add ∨ op = .mul ∨ op = .min ∨ op = .max) → ZeroHeap ((FBlock.bin op a b o).evaluateTlm m h) ((FBlock.bin op a b o).evaluateTlm m g) := by
      intro hop
      rw [FBlock.bin_evaluateTlm op hop, FBlock.bin_evaluateTlm op hop, z.marked, z.saved, z.saved]
      split
      · exact z.addTlm o (binTlm_zero op hop _ _ (z a).2 (z b).2)
      · exact z
    cases op with
    | add => exact dflt (by simp)
    | mul => exact dflt (by simp)
    | min => exact dflt (by simp)
    | max => exact dflt (by simp)
    | sub =>
      simp only [FBlock.evaluateTlm]
      have z1 := z.addTlm o (z a).2
      exact z1.addTlm o ((z1 b).2.map _ (by simp))
    | div =>
      simp only [FBlock.evaluateTlm]
      rw [z.saved b]
      have z1 := z.addTlm o ((z a).2.map (fun t => t * (1 / Pyadjoint.saved h b)) (by simp))
      rw [z1.saved, z1.saved]
      exact z1.addTlm o ((z1 b).2.map _ (by simp))
    | pow =>
      simp only [FBlock.evaluateTlm]
      rw [z.saved a, z.saved b]
      have z1 := z.addTlm o ((z a).2.map (fun t => (t * Pyadjoint.saved h b) * Pyadjoint.saved h a ^ (Pyadjoint.saved h b - 1)) (by simp))
      exact z1.addTlm o ((z1 b).2.map _ (by simp))

/-- Outcomes of a computation with zero tangents (`q`) and without (`r`): if the first returns, so does the second, with the same. -/
def ZeroOutcome (r q : Except FBlock.PyErr FHeap) : Prop := ∀ g', q = .ok g' → ∃ h', r = .ok h' ∧ ZeroHeap h' g'

theorem ZeroOutcome.default (z : ZeroHeap h g) (deps : List BV) (o : BV) (m : Bool)
    (comp : List ℝ → ℝ → Option ℝ → Nat → List (Nat × Option ℝ) → Except FBlock.PyErr ℝ)
    (hc : ∀ i x l j, j ∈ (Pyadjoint.relevant h m deps).map Prod.snd → ∀ v,
      comp i x l j ((Pyadjoint.relevant h m deps).map fun q => (q.2, (g q.1).tlm)) = .ok v →
      comp i x l j ((Pyadjoint.relevant h m deps).map fun q => (q.2, (h q.1).tlm)) = .ok v) :
    ZeroOutcome (FBlock.evaluateHessianDefault deps o m comp h) (FBlock.evaluateHessianDefault deps o m comp g) := by
  unfold FBlock.evaluateHessianDefault
  rw [z.hess, z.adj, z.relevant, z.map_saved]
  cases (h o).hess with
  | none => intro g' hg; cases hg; exact ⟨h, rfl, z⟩
  | some hin =>
    dsimp only
    have gen : ∀ (l : List (BV × Nat)), (∀ p ∈ l, p.2 ∈ (Pyadjoint.relevant h m deps).map Prod.snd) → ∀ h₁ g₁ : FHeap, ZeroHeap h₁ g₁ →
        ZeroOutcome
          (l.foldlM (fun (h' : FHeap) p => do
            let v ← comp (deps.map (Pyadjoint.saved h)) hin (h o).adj p.2 ((Pyadjoint.relevant h m deps).map fun q => (q.2, (h q.1).tlm))
            pure (Pyadjoint.addHess h' p.1 v)) h₁)
          (l.foldlM (fun (h' : FHeap) p => do
            let v ← comp (deps.map (Pyadjoint.saved h)) hin (h o).adj p.2 ((Pyadjoint.relevant h m deps).map fun q => (q.2, (g q.1).tlm))
            pure (Pyadjoint.addHess h' p.1 v)) g₁) := by
      intro l
      induction l with
      | nil => intro _ h₁ g₁ z₁ g' hg; cases hg; exact ⟨h₁, rfl, z₁⟩
      | cons p l ih =>
        intro hl h₁ g₁ z₁ g' hg
        rw [List.foldlM_cons] at hg ⊢
        cases hv : comp (deps.map (Pyadjoint.saved h)) hin (h o).adj p.2 ((Pyadjoint.relevant h m deps).map fun q => (q.2, (g q.1).tlm)) with
        | error e => rw [hv] at hg; cases hg
        | ok v =>
          rw [hv] at hg
          rw [hc _ _ _ _ (hl p List.mem_cons_self) _ hv]
          exact ih (fun q hq => hl q (List.mem_cons_of_mem _ hq)) _ _ (z₁.addHess p.1 v) g' hg
    exact gen _ (fun p hp => List.mem_map_of_mem hp) _ _ z

theorem mulHessC_zero {ta tb sa sb : Option ℝ} (ha : ZeroOr ta sa) (hb : ZeroOr tb sb) (ma mb : Bool) (i : List ℝ) (x : ℝ) (l : Option ℝ) (j : Nat)
    (hj : j ∈ (if ma then [0] else []) ++ if mb then [1] else []) (v : ℝ)
    (hv : FBlock.mulHessC i x l j ((if ma then [(0, sa)] else []) ++ if mb then [(1, sb)] else []) = .ok v) :
    FBlock.mulHessC i x l j ((if ma then [(0, ta)] else []) ++ if mb then [(1, tb)] else []) = .ok v := by
  rw [← hv]
  cases l with
  | none =>
    cases ma <;> cases mb <;> simp at hj <;> (try rcases hj with rfl | rfl) <;> (try subst hj) <;>
      rcases ha with rfl | ⟨rfl, rfl⟩ <;> rcases hb with rfl | ⟨rfl, rfl⟩ <;>
      simp_all [FBlock.mulHessC, FBlock.needFloat, bind, Except.bind, pure, Except.pure]
  | some l =>
    cases ma <;> cases mb <;> simp at hj <;> (try rcases hj with rfl | rfl) <;> (try subst hj) <;>
      rcases ha with rfl | ⟨rfl, rfl⟩ <;> rcases hb with rfl | ⟨rfl, rfl⟩ <;>
      simp [FBlock.mulHessC, FBlock.needFloat, bind, Except.bind, pure, Except.pure]

theorem FBlock.div_evaluateHessian (a b o : BV) (m : Bool) (h : FHeap) {hin l : ℝ} (hh : (h o).hess = some hin) (hl : (h o).adj = some l) :
    (FBlock.bin .div a b o).evaluateHessian m h =
      .ok (addHess? (addHess? (addHess? (addHess (addHess h a (hin * (1 / saved h b))) b (hin * (-(saved h a / saved h b ^ (2 : ℝ))))) b
        ((h b).tlm.map fun t => (l * ((2 * saved h a) / saved h b ^ 3)) * t)) a ((h b).tlm.map fun t => t * -(l / saved h b ^ 2))) b
        ((h a).tlm.map fun t => t * -(l / saved h b ^ 2))) := by
  simp only [FBlock.evaluateHessian, hh, hl, FBlock.needFloat, addHess_tlm_at]
  cases hb : (h b).tlm <;> cases ha : (h a).tlm <;>
    simp [addHess?, ha, hb, bind, Except.bind, pure, Except.pure]

theorem FBlock.pow_evaluateHessian (a b o : BV) (m : Bool) (h : FHeap) {hin l : ℝ} (hh : (h o).hess = some hin) (hl : (h o).adj = some l) :
    (FBlock.bin .pow a b o).evaluateHessian m h =
      .ok (addHess? (addHess? (addHess (addHess? (addHess (addHess? h a
        ((h a).tlm.map fun t => ((l * (saved h b * (saved h b - 1))) * saved h a ^ (saved h b - 2)) * t)) a ((hin * saved h b) * saved h a ^ (saved h b - 1))) b
        ((h b).tlm.map fun t => ((l * (Real.log (saved h a)) ^ 2) * saved h a ^ saved h b) * t)) b ((hin * Real.log (saved h a)) * saved h a ^ saved h b)) a
        ((h b).tlm.map fun t => t * (l * (saved h a ^ (saved h b - 1) * (saved h b * Real.log (saved h a) + 1))))) b
        ((h a).tlm.map fun t => t * (l * (saved h a ^ (saved h b - 1) * (saved h b * Real.log (saved h a) + 1))))) := by
  simp only [FBlock.evaluateHessian, hh, hl, FBlock.needFloat]
  cases ha : (h a).tlm <;> cases hb : (h b).tlm <;>
    simp [addHess?, ha, hb, bind, Except.bind, pure, Except.pure]

theorem addHess_isSome_of {h : FHeap} {w : BV} (v : BV) (a : ℝ) (hw : w = v ∨ (h w).hess.isSome) : (addHess h v a w).hess.isSome := by
  unfold addHess
  by_cases e : w = v
  · subst e
    rw [Function.update_self]
    cases (h w).hess <;> rfl
  · rw [Function.update_of_ne e]
    exact hw.resolve_left e

theorem addHess?_isSome_of {h : FHeap} {w : BV} (v : BV) (x : Option ℝ) (hw : (h w).hess.isSome) : (addHess? h v x w).hess.isSome := by
  cases x with
  | none => exact hw
  | some a => exact addHess_isSome_of v a (Or.inr hw)

theorem ZeroHeap.evaluateHessian (z : ZeroHeap h g) (b : FBlock) (m : Bool) : ZeroOutcome (b.evaluateHessian m h) (b.evaluateHessian m g) := by
  cases b with
  | un op a o =>
    cases op with
    | neg =>
      simp only [FBlock.evaluateHessian]
      rw [z.hess]
      cases (h o).hess with
      | none => intro g' hg; cases hg; exact ⟨h, rfl, z⟩
      | some hin => intro g' hg; cases hg; exact ⟨_, rfl, z.addHess a _⟩
    | exp => exact ZeroOutcome.default z [a] o m (fun i hin _ _ _ => .ok (Real.exp (i.getD 0 0) * hin)) fun i x l j _ v hv => hv
    | log => exact ZeroOutcome.default z [a] o m (fun i hin _ _ _ => .ok (-hin / i.getD 0 0 / i.getD 0 0)) fun i x l j _ v hv => hv
  | bin op a b o =>
    cases op with
    | add => exact ZeroOutcome.default z [a, b] o m (fun _ hin _ _ _ => .ok hin) fun i x l j _ v hv => hv
    | min => exact ZeroOutcome.default z [a, b] o m (fun i hin _ idx _ => .ok (BOp.adjC .min (i.getD 0 0) (i.getD 1 0) hin idx)) fun i x l j _ v hv => hv
    | max => exact ZeroOutcome.default z [a, b] o m (fun i hin _ idx _ => .ok (BOp.adjC .max (i.getD 0 0) (i.getD 1 0) hin idx)) fun i x l j _ v hv => hv
    | mul =>
      refine ZeroOutcome.default z [a, b] o m FBlock.mulHessC fun i x l j hj v hv => ?_
      have key := mulHessC_zero (z a).2 (z b).2 ((h a).marked || !m) ((h b).marked || !m) i x l j
      have e : ∀ (k : FHeap), (Pyadjoint.relevant h m [a, b]).map (fun q => (q.2, (k q.1).tlm)) =
          (if ((h a).marked || !m) = true then [(0, (k a).tlm)] else []) ++ if ((h b).marked || !m) = true then [(1, (k b).tlm)] else [] := by
        intro k
        rw [relevant_two]
        split <;> split <;> rfl
      rw [e] at hv ⊢
      refine key ?_ v hv
      rw [relevant_two] at hj
      revert hj
      split <;> split <;> exact id
    | sub =>
      simp only [FBlock.evaluateHessian]
      rw [z.hess]
      cases (h o).hess with
      | none => intro g' hg; cases hg; exact ⟨h, rfl, z⟩
      | some hin => intro g' hg; cases hg; exact ⟨_, rfl, (z.addHess a _).addHess b _⟩
    | div =>
      cases hh : (h o).hess with
      | none =>
        have hh' := (z.hess o).trans hh
        simp only [FBlock.evaluateHessian, hh, hh']
        intro g' hg; cases hg; exact ⟨h, rfl, z⟩
      | some hin =>
        cases hl : (h o).adj with
        | none =>
          have hh' := (z.hess o).trans hh
          have hl' := (z.adj o).trans hl
          intro g' hg
          simp only [FBlock.evaluateHessian, hh', hl', FBlock.needFloat] at hg
          revert hg
          cases (Pyadjoint.addHess (Pyadjoint.addHess g a (hin * (1 / Pyadjoint.saved g b))) b
            (hin * -(Pyadjoint.saved g a / Pyadjoint.saved g b ^ (2 : ℝ))) b).tlm <;> exact fun hg => (by cases hg)
        | some l =>
          rw [FBlock.div_evaluateHessian a b o m h hh hl, FBlock.div_evaluateHessian a b o m g ((z.hess o).trans hh) ((z.adj o).trans hl), z.saved a, z.saved b]
          intro g' hg
          cases hg
          refine ⟨_, rfl, ?_⟩
          have z1 := (z.addHess a (hin * (1 / Pyadjoint.saved h b))).addHess b (hin * (-(Pyadjoint.saved h a / Pyadjoint.saved h b ^ (2 : ℝ))))
          have sb := addHess_isSome_of (h := Pyadjoint.addHess g a (hin * (1 / Pyadjoint.saved h b))) b
            (hin * (-(Pyadjoint.saved h a / Pyadjoint.saved h b ^ (2 : ℝ)))) (Or.inl rfl)
          have sa := addHess_isSome_of (h := Pyadjoint.addHess g a (hin * (1 / Pyadjoint.saved h b))) b
            (hin * (-(Pyadjoint.saved h a / Pyadjoint.saved h b ^ (2 : ℝ)))) (Or.inr (addHess_isSome_of (h := g) a _ (Or.inl rfl)))
          have z2 := z1.addHessSome b ((z b).2.map (fun t => (l * ((2 * Pyadjoint.saved h a) / Pyadjoint.saved h b ^ 3)) * t) (by simp)) sb
          have z3 := z2.addHessSome a ((z b).2.map (fun t => t * -(l / Pyadjoint.saved h b ^ 2)) (by simp)) (addHess?_isSome_of _ _ sa)
          exact z3.addHessSome b ((z a).2.map (fun t => t * -(l / Pyadjoint.saved h b ^ 2)) (by simp)) (addHess?_isSome_of _ _ (addHess?_isSome_of _ _ sb))
    | pow =>
      cases hh : (h o).hess with
      | none =>
        have hh' := (z.hess o).trans hh
        simp only [FBlock.evaluateHessian, hh, hh']
        intro g' hg; cases hg; exact ⟨h, rfl, z⟩
      | some hin =>
        cases hl : (h o).adj with
        | none =>
          have hh' := (z.hess o).trans hh
          have hl' := (z.adj o).trans hl
          intro g' hg
          exfalso
          simp only [FBlock.evaluateHessian, hh', hl', FBlock.needFloat] at hg
          cases ha : (g a).tlm <;> cases hb : (g b).tlm <;> simp [ha, hb, bind, Except.bind, pure, Except.pure] at hg
        | some l =>
          rw [FBlock.pow_evaluateHessian a b o m h hh hl, FBlock.pow_evaluateHessian a b o m g ((z.hess o).trans hh) ((z.adj o).trans hl), z.saved a, z.saved b]
          intro g' hg
          cases hg
          refine ⟨_, rfl, ?_⟩
          have z1 := z.addHessThen a ((z a).2.map (fun t => ((l * (Pyadjoint.saved h b * (Pyadjoint.saved h b - 1))) * Pyadjoint.saved h a ^ (Pyadjoint.saved h b - 2)) * t) (by simp))
            ((hin * Pyadjoint.saved h b) * Pyadjoint.saved h a ^ (Pyadjoint.saved h b - 1))
          have z2 := z1.addHessThen b ((z b).2.map (fun t => ((l * (Real.log (Pyadjoint.saved h a)) ^ 2) * Pyadjoint.saved h a ^ Pyadjoint.saved h b) * t) (by simp))
            ((hin * Real.log (Pyadjoint.saved h a)) * Pyadjoint.saved h a ^ Pyadjoint.saved h b)
          have z3 := z2.addHessSome a ((z b).2.map (fun t => t * (l * (Pyadjoint.saved h a ^ (Pyadjoint.saved h b - 1) * (Pyadjoint.saved h b * Real.log (Pyadjoint.saved h a) + 1)))) (by simp))
            (addHess_isSome_of _ _ (Or.inr (addHess?_isSome_of _ _ (addHess_isSome_of _ _ (Or.inl rfl)))))
          exact z3.addHessSome b ((z a).2.map (fun t => t * (l * (Pyadjoint.saved h a ^ (Pyadjoint.saved h b - 1) * (Pyadjoint.saved h b * Real.log (Pyadjoint.saved h a) + 1)))) (by simp))
            (addHess?_isSome_of _ _ (addHess_isSome_of _ _ (Or.inl rfl)))

theorem ZeroHeap.tlmSweep (m : Bool) (t : FTape) : ∀ {h g : FHeap}, ZeroHeap h g → ZeroHeap (FTape.evaluateTlm t m h) (FTape.evaluateTlm t m g) := by
  unfold FTape.evaluateTlm
  induction t with
  | nil => exact fun z => z
  | cons b t ih => exact fun z => ih (z.evaluateTlm b m)

theorem ZeroHeap.hessSweep (m : Bool) (t : FTape) : ∀ {h g : FHeap}, ZeroHeap h g → ZeroOutcome (FTape.evaluateHessian t m h) (FTape.evaluateHessian t m g) := by
  unfold FTape.evaluateHessian
  induction t.reverse with
  | nil => intro h g z g' hg; cases hg; exact ⟨h, rfl, z⟩
  | cons b l ih =>
    intro h g z g' hg
    rw [List.foldlM_cons] at hg ⊢
    cases hb : b.evaluateHessian m g with
    | error e => rw [hb] at hg; cases hg
    | ok g₁ =>
      rw [hb] at hg
      obtain ⟨h₁, e, z₁⟩ := z.evaluateHessian b m g₁ hb
      rw [e]
      exact ih z₁ g' hg

theorem ZeroHeap.markAll (nodes : List BV) (x : Bool) : ∀ {h g : FHeap}, ZeroHeap h g → ZeroHeap (Pyadjoint.markAll nodes x h) (Pyadjoint.markAll nodes x g) := by
  unfold Pyadjoint.markAll
  induction nodes with
  | nil => exact fun z => z
  | cons n nodes ih =>
    intro h g z
    refine ih fun v => ?_
    beta_reduce
    by_cases e : v = n
    · subst e
      rw [Function.update_self, Function.update_self]
      refine ⟨?_, (z v).2⟩
      rw [(z v).1]
    · rw [Function.update_of_ne e, Function.update_of_ne e]
      exact z v

theorem ZeroHeap.setHess (z : ZeroHeap h g) (J : BV) (x : Option ℝ) :
    ZeroHeap (Function.update h J { h J with hess := x }) (Function.update g J { g J with hess := x }) := by
  intro v
  by_cases e : v = J
  · subst e
    rw [Function.update_self, Function.update_self]
    refine ⟨?_, (z v).2⟩
    rw [(z v).1]
  · rw [Function.update_of_ne e, Function.update_of_ne e]
    exact z v

theorem seedTlm_zeros (cs : List BV) (h₀ : FHeap) (hn : ∀ c ∈ cs, (h₀ c).tlm = none) :
    ZeroHeap h₀ (seedTlm cs (List.replicate cs.length 0) h₀) := by
  intro v
  obtain ⟨o, ho⟩ := seedTlm_frame cs (List.replicate cs.length 0) h₀ v
  refine ⟨by rw [ho], ?_⟩
  by_cases hv : v ∈ cs
  · right
    refine ⟨hn v hv, ?_⟩
    have gen : ∀ (cs : List BV) (h₀ : FHeap), (h₀ v).tlm = some 0 ∨ v ∈ cs → (seedTlm cs (List.replicate cs.length 0) h₀ v).tlm = some 0 := by
      intro cs
      induction cs with
      | nil => intro h₀ hv; exact hv.resolve_right (by simp)
      | cons c cs ih =>
        intro h₀ hv
        refine ih (Function.update h₀ c { h₀ c with tlm := some 0 }) ?_
        by_cases e : v = c
        · subst e
          left
          rw [Function.update_self]
        · rw [Function.update_of_ne e]
          exact hv.imp id fun m => (List.mem_cons.1 m).resolve_left e
    exact gen cs h₀ (Or.inr hv)
  · left
    rw [seedTlm_of_not_mem _ _ _ _ hv]

theorem seedTlm_take (cs : List BV) (ds : List ℝ) (h : FHeap) : seedTlm cs ds h = seedTlm (cs.take ds.length) ds h := by
  unfold seedTlm
  congr 1
  induction cs generalizing ds with
  | nil => simp
  | cons c cs ih =>
    cases ds with
    | nil => simp
    | cons d ds => simp [ih ds]

theorem seedTlm_pad (cs : List BV) (ds zs : List ℝ) (h : FHeap) (hl : ds.length ≤ cs.length) :
    seedTlm cs (ds ++ zs) h = seedTlm (cs.drop ds.length) zs (seedTlm cs ds h) := by
  rw [seedTlm_take cs ds]
  unfold seedTlm
  rw [← List.foldl_append, ← List.zip_append (by rw [List.length_take]; omega), List.take_append_drop]

end Pyadjoint
