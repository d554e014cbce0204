import Verif.Props.PlainTangents

/-!
# Hessians with Python numbers are returned (C60, C61)
-/

namespace Pyadjoint

open PyNum

attribute [local simp] saved_eraseKinds

/-- No Hessian value on the tape is an `int`. -/
def HessFloats (t : FTape) (h : PHeap) : Prop := ∀ v, OnTape t.blocks v → ∀ a, (h v).hess = some a → a.kind ≠ .int

/-- Everything but Hessian values is the same. -/
def SameButHess (h g : PHeap) : Prop := SameValues h g ∧ ∀ v, (g v).tlm = (h v).tlm

theorem SameButHess.refl (h : PHeap) : SameButHess h h := ⟨.refl h, fun _ => rfl⟩

theorem SameButHess.trans {h g k : PHeap} (a : SameButHess h g) (b : SameButHess g k) : SameButHess h k :=
  ⟨a.1.trans b.1, fun v => (b.2 v).trans (a.2 v)⟩

theorem sameButHess_addHess (h : PHeap) (w : BV) (a : PyNum) : SameButHess h (addHess h w a) := by
  refine ⟨fun v => ?_, fun v => by simp⟩
  unfold addHess
  by_cases hv : v = w
  · subst hv; simp
  · rw [Function.update_of_ne hv]; simp

theorem HessFloats.addHess {t : FTape} {h : PHeap} (hf : HessFloats t h) (w : BV) {a : PyNum}
    (ha : a.kind ≠ .int) : HessFloats t (addHess h w a) := by
  intro v hv x hx
  unfold Pyadjoint.addHess at hx
  by_cases e : v = w
  · subst e
    rw [Function.update_self] at hx
    simp only at hx
    cases hy : (h v).hess with
    | none => rw [hy] at hx; cases hx; exact ha
    | some y =>
      rw [hy] at hx
      cases hx
      rw [add_kind, ne_eq, Kind.join_int]
      exact fun k => ha k.2
  · rw [Function.update_of_ne e] at hx
    exact hf v hv x hx

/-- A computation returns a state that satisfies `HessFloats` and differs from `h` in Hessian values only. -/
def HessRet (t : FTape) (h : PHeap) (x : Except NumErr PHeap) : Prop := ∃ h', x = .ok h' ∧ HessFloats t h' ∧ SameButHess h h'

theorem HessRet.val {t : FTape} {h : PHeap} {α : Type _} {x : Except NumErr α} {f : α → Except NumErr PHeap} (v : α) (hx : x = .ok v)
    (hf : HessRet t h (f v)) : HessRet t h (x >>= f) := by
  rw [hx]
  exact hf

theorem HessRet.heap {t : FTape} {h : PHeap} {x : Except NumErr PHeap} {f : PHeap → Except NumErr PHeap} (hx : HessRet t h x)
    (hf : ∀ g, HessFloats t g → SameButHess h g → HessRet t h (f g)) : HessRet t h (x >>= f) := by
  obtain ⟨g, rfl, h2, h3⟩ := hx
  exact hf g h2 h3

theorem HessRet.ok {t : FTape} {h g : PHeap} (hf : HessFloats t g) (hs : SameButHess h g) : HessRet t h (.ok g) := ⟨g, rfl, hf, hs⟩

theorem HessRet.addHessWith {t : FTape} {h g : PHeap} (hf : HessFloats t g) (hs : SameButHess h g) {v : BV} {x : Option PyNum}
    {f : PyNum → Except NumErr PyNum} (hc : ∀ y, x = some y → ∃ r, f y = .ok (ofFloat r)) : HessRet t h (addHessWith g v x f) := by
  cases x with
  | none => exact .ok hf hs
  | some y =>
    obtain ⟨r, e⟩ := hc y rfl
    refine .val _ e ?_
    exact .ok (hf.addHess v (by simp)) (hs.trans (sameButHess_addHess _ _ _))

theorem ret_val {α : Type _} {x : Except NumErr α} {f : α → Except NumErr PyNum} (v : α) (hx : x = .ok v)
    (hf : ∃ r, f v = .ok (ofFloat r)) : ∃ r, (x >>= f) = .ok (ofFloat r) := by
  rw [hx]
  exact hf

theorem ret_fmul {x y : PyNum} (hx : x.kind ≠ .int) : ∃ r, fmul x y = .ok (ofFloat r) := ⟨_, fmul_ok.2 ⟨hx, rfl⟩⟩

theorem kHessianDiv_returns {t : FTape} {a c : BV} {hin l : PyNum} {adj : Option PyNum} {h : PHeap} (hf : HessFloats t h)
    (hhin : hin.kind ≠ .int) (hadj : adj = some l) (hl : l.kind ≠ .int) (hx : (saved h a).kind ≠ .int) (hy : (saved h c).kind ≠ .int)
    (hy0 : (saved h c).val ≠ 0) (hta : ∀ y, (h a).tlm = some y → y.kind ≠ .int) (htc : ∀ y, (h c).tlm = some y → y.kind ≠ .int) :
    HessRet t h (kHessianDiv a c hin adj h) := by
  have pw : ∀ n : ℕ, (ofFloat ((saved h c).val ^ ((n : ℤ) : ℝ))).val ≠ 0 := by
    intro n
    rw [ofFloat_val, rpow_int]
    exact pow_ne_zero _ hy0
  have pd : ∀ n : ℕ, PowDom (saved h c).val ((n : ℤ) : ℝ) := fun n => powDom_two
  unfold kHessianDiv
  refine .val _ (ftruediv_ok.2 ⟨by simp, hy0, rfl⟩) ?_
  refine .val _ (fmul_ok.2 ⟨hhin, rfl⟩) ?_
  refine .val _ (fpow_ok.2 ⟨hy, by simpa using pd 2, rfl⟩) ?_
  refine .val _ (ftruediv_ok.2 ⟨hx, by simpa using pw 2, rfl⟩) ?_
  refine .val _ (fneg_ok.2 ⟨by simp, rfl⟩) ?_
  refine .val _ (fmul_ok.2 ⟨hhin, rfl⟩) ?_
  dsimp only
  refine .heap (.addHessWith ((hf.addHess _ (by simp)).addHess _ (by simp)) ((sameButHess_addHess _ _ _).trans (sameButHess_addHess _ _ _)) ?_) ?_
  · intro y _
    refine ret_val _ (fmul_ok.2 ⟨by simp, rfl⟩) ?_
    refine ret_val _ (fpow_ok.2 ⟨hy, by simpa using pd 3, rfl⟩) ?_
    refine ret_val _ (ftruediv_ok.2 ⟨by simp, by simpa using pw 3, rfl⟩) ?_
    refine ret_val l (by rw [hadj]; rfl) ?_
    refine ret_val _ (fmul_ok.2 ⟨hl, rfl⟩) ?_
    exact ret_fmul (by simp)
  intro g hg hs
  refine .val _ (fpow_ok.2 ⟨hy, by simpa using pd 2, rfl⟩) ?_
  refine .val l (by rw [hadj]; rfl) ?_
  refine .val _ (ftruediv_ok.2 ⟨hl, by simpa using pw 2, rfl⟩) ?_
  refine .val _ (fneg_ok.2 ⟨by simp, rfl⟩) ?_
  refine .heap (.addHessWith hg hs fun y hy' => ret_fmul (htc y (by rw [← hs.2]; exact hy'))) ?_
  intro g' hg' hs'
  exact .addHessWith hg' hs' fun y hy' => ret_fmul (hta y (by rw [← hs'.2]; exact hy'))

/-- Where `PowBlock.evaluate_hessian` returns: a positive base, or an integer exponent that keeps `x ** (y - 2)` defined. -/
def PowDom2 (x y : ℝ) : Prop := 0 < x ∨ ∃ n : ℤ, y = n ∧ (x ≠ 0 ∨ 2 ≤ n)

theorem PowDom2.powDom {x y : ℝ} (h : PowDom2 x y) (k : ℤ) (hk : k ≤ 2) : PowDom x (y - k) := by
  rcases h with h | ⟨n, rfl, h⟩
  · exact powDom_pos h _
  · rw [show ((n : ℝ) - (k : ℝ)) = ((n - k : ℤ) : ℝ) by push_cast; ring]
    exact powDom_int (h.imp_right fun h => by omega)

theorem kHessianPow_returns {t : FTape} {a c : BV} {hin l : PyNum} {adj : Option PyNum} {h : PHeap} (hf : HessFloats t h)
    (hhin : hin.kind ≠ .int) (hadj : adj = some l) (hl : l.kind ≠ .int) (hx : (saved h a).kind ≠ .int) (hy : (saved h c).kind ≠ .int)
    (hd : PowDom2 (saved h a).val (saved h c).val) (hta : ∀ y, (h a).tlm = some y → y.kind ≠ .int)
    (htc : ∀ y, (h c).tlm = some y → y.kind ≠ .int) : HessRet t h (kHessianPow a c hin adj h) := by
  have d0 : PowDom (saved h a).val (saved h c).val := by simpa using hd.powDom 0 (by omega)
  have d1 : PowDom (saved h a).val ((saved h c).subInt 1).val := hd.powDom 1 (by omega)
  have d2 : PowDom (saved h a).val ((saved h c).subInt 2).val := hd.powDom 2 (by omega)
  unfold kHessianPow
  dsimp only
  refine .heap (.addHessWith hf (.refl h) ?_) ?_
  · intro y _
    refine ret_val _ (fmul_ok.2 ⟨hy, rfl⟩) ?_
    refine ret_val l (by rw [hadj]; rfl) ?_
    refine ret_val _ (fmul_ok.2 ⟨hl, rfl⟩) ?_
    refine ret_val _ (fpow_ok.2 ⟨hx, d2, rfl⟩) ?_
    refine ret_val _ (fmul_ok.2 ⟨by simp, rfl⟩) ?_
    exact ret_fmul (by simp)
  intro g hg hs
  refine .val _ (fmul_ok.2 ⟨hhin, rfl⟩) ?_
  refine .val _ (fpow_ok.2 ⟨hx, d1, rfl⟩) ?_
  refine .val _ (fmul_ok.2 ⟨by simp, rfl⟩) ?_
  refine .heap (.addHessWith (hg.addHess _ (by simp)) (hs.trans (sameButHess_addHess _ _ _)) ?_) ?_
  · intro y _
    refine ret_val _ (fpow_ok.2 ⟨by simp, by simpa using powDom_two (n := 2), rfl⟩) ?_
    refine ret_val l (by rw [hadj]; rfl) ?_
    refine ret_val _ (fmul_ok.2 ⟨hl, rfl⟩) ?_
    refine ret_val _ (fpow_ok.2 ⟨hx, d0, rfl⟩) ?_
    refine ret_val _ (fmul_ok.2 ⟨by simp, rfl⟩) ?_
    exact ret_fmul (by simp)
  intro g hg hs
  refine .val _ (fmul_ok.2 ⟨hhin, rfl⟩) ?_
  refine .val _ (fpow_ok.2 ⟨hx, d0, rfl⟩) ?_
  refine .val _ (fmul_ok.2 ⟨by simp, rfl⟩) ?_
  refine .val _ (fpow_ok.2 ⟨hx, d1, rfl⟩) ?_
  refine .val _ (fmul_ok.2 ⟨hy, rfl⟩) ?_
  refine .val _ (fadd_ok.2 ⟨by simp, rfl⟩) ?_
  refine .val _ (fmul_ok.2 ⟨by simp, rfl⟩) ?_
  refine .val l (by rw [hadj]; rfl) ?_
  refine .val _ (fmul_ok.2 ⟨hl, rfl⟩) ?_
  refine .heap (.addHessWith (hg.addHess _ (by simp)) (hs.trans (sameButHess_addHess _ _ _)) fun y hy' => ret_fmul (htc y ?_)) ?_
  · rw [← hs.2, ← hy']; simp
  intro g' hg' hs'
  exact .addHessWith hg' hs' fun y hy' => ret_fmul (hta y (by rw [← hs'.2]; exact hy'))

theorem kHessianDefault_returns {t : FTape} {deps : List BV} {o : BV} {m : Bool} {h : PHeap} (hf : HessFloats t h)
    {comp : PyNum → Option PyNum → Nat → List (Nat × Option PyNum) → Except NumErr PyNum}
    (hc : ∀ hin, (h o).hess = some hin → ∀ p ∈ relevant h m deps,
      ∃ v, v.kind ≠ .int ∧ comp hin (h o).adj p.2 ((relevant h m deps).map fun q => (q.2, (h q.1).tlm)) = .ok v) :
    HessRet t h (kHessianDefault deps o m comp h) := by
  unfold kHessianDefault
  cases hx : (h o).hess with
  | none => exact .ok hf (.refl h)
  | some hin =>
    have key : ∀ (r : List (BV × Nat)) (g : PHeap), HessFloats t g → SameButHess h g → (∀ p ∈ r, p ∈ relevant h m deps) →
        HessRet t h (r.foldlM (fun (h' : PHeap) p => do
          let v ← comp hin (h o).adj p.2 ((relevant h m deps).map fun q => (q.2, (h q.1).tlm))
          pure (addHess h' p.1 v)) g) := by
      intro r
      induction r with
      | nil => exact fun g hg hs _ => .ok hg hs
      | cons p r ih =>
        intro g hg hs hr
        obtain ⟨v, hv, e⟩ := hc hin hx p (hr p (by simp))
        rw [List.foldlM_cons, e]
        exact ih _ (hg.addHess p.1 hv) (hs.trans (sameButHess_addHess _ _ _)) fun q hq => hr q (by simp [hq])
    exact key _ h hf (.refl h) fun p hp => hp

theorem mulHess_fold_returns {adj : Option PyNum} {idx : Nat} (rel : List (Nat × Option PyNum)) (acc : PyNum × Nat)
    (hadj : ∀ l, adj = some l → l.kind ≠ .int) (hne : (∃ q ∈ rel, q.1 ≠ idx ∧ q.2 ≠ none) → adj ≠ none) (ha : acc.1.kind ≠ .int) :
    ∃ r, rel.foldlM (mulHessStep adj idx) acc = .ok r ∧ r.1.kind ≠ .int := by
  induction rel generalizing acc with
  | nil => exact ⟨acc, rfl, ha⟩
  | cons q rel ih =>
    have ih' := fun acc ha => ih acc (fun ⟨p, hp, hp'⟩ => hne ⟨p, by simp [hp], hp'⟩) ha
    rw [List.foldlM_cons]
    obtain ⟨q1, q2⟩ := q
    by_cases hq : q1 = idx
    · have e : mulHessStep adj idx acc (q1, q2) = .ok (acc.1, q1) := by
        simp only [mulHessStep]; rw [decide_eq_false (by simpa using hq)]
      rw [e]
      exact ih' _ ha
    · cases q2 with
      | none =>
        have e : mulHessStep adj idx acc (q1, none) = .ok (acc.1, q1) := by
          simp only [mulHessStep]; rw [decide_eq_true hq]
        rw [e]
        exact ih' _ ha
      | some y =>
        cases hl : adj with
        | none => exact absurd hl (hne ⟨(q1, some y), by simp, hq, by simp⟩)
        | some l =>
          have e : mulHessStep adj idx acc (q1, some y) = .ok (ofFloat (l.val * y.val), q1) := by
            simp only [mulHessStep]
            rw [decide_eq_true hq]
            simp only [hl]
            exact Except.bind_ok.2 ⟨l, rfl, Except.bind_ok.2 ⟨_, fmul_ok.2 ⟨hadj l hl, rfl⟩, rfl⟩⟩
          rw [← hl, e]
          exact ih' _ (by simp)

/-! ## Where the adjoint value is present -/

theorem components_ok {c : BV × Nat → Except FBlock.PyErr ℝ} (r : List (BV × Nat)) (g g' : FHeap)
    (hr : r.foldlM (fun (h' : FHeap) p => do
      let v ← c p
      pure (addHess h' p.1 v)) g = .ok g') : ∀ p ∈ r, ∃ v, c p = .ok v := by
  induction r generalizing g with
  | nil => simp
  | cons p r ih =>
    rw [List.foldlM_cons] at hr
    obtain ⟨g₁, h1, h2⟩ := Except.bind_ok.1 hr
    obtain ⟨v, hv, _⟩ := Except.bind_ok.1 h1
    intro q hq
    rcases List.mem_cons.1 hq with rfl | hq
    · exact ⟨v, hv⟩
    · exact ih g₁ h2 q hq

theorem mulHessC_ok {inputs : List ℝ} {hin v : ℝ} {idx : Nat} {rel : List (Nat × Option ℝ)}
    (hr : FBlock.mulHessC inputs hin none idx rel = .ok v) : ¬ ∃ q ∈ rel, q.1 ≠ idx ∧ q.2 ≠ none := by
  unfold FBlock.mulHessC at hr
  obtain ⟨r, h1, _⟩ := Except.bind_ok.1 hr
  clear hr
  generalize ((0 : ℝ), if idx = 1 then 0 else 1) = acc at h1
  induction rel generalizing acc with
  | nil => simp
  | cons q rel ih =>
    rw [List.foldlM_cons] at h1
    obtain ⟨a, h2, h3⟩ := Except.bind_ok.1 h1
    rintro ⟨p, hp, hp'⟩
    rcases List.mem_cons.1 hp with rfl | hp
    · obtain ⟨q1, q2⟩ := p
      obtain ⟨n1, n2⟩ := hp'
      cases q2 with
      | none => exact n2 rfl
      | some y =>
        simp only [decide_eq_true n1] at h2
        obtain ⟨l, h4, _⟩ := Except.bind_ok.1 h2
        cases h4
    · exact ih a h3 ⟨p, hp, hp'⟩

theorem hessianDiv_adj {a c o : BV} {m : Bool} {h g : FHeap} {hin : ℝ} (hh : (h o).hess = some hin)
    (hr : (FBlock.bin .div a c o).evaluateHessian m h = .ok g) : ∃ l, (h o).adj = some l := by
  cases hx : (h o).adj with
  | some l => exact ⟨l, rfl⟩
  | none =>
    simp only [FBlock.evaluateHessian, hh, hx, addHess_tlm'] at hr
    cases hc : (h c).tlm <;> rw [hc] at hr <;> cases hr

theorem hessianPow_adj {a c o : BV} {m : Bool} {h g : FHeap} {hin : ℝ} (hh : (h o).hess = some hin)
    (hr : (FBlock.bin .pow a c o).evaluateHessian m h = .ok g) : ∃ l, (h o).adj = some l := by
  cases hx : (h o).adj with
  | some l => exact ⟨l, rfl⟩
  | none =>
    simp only [FBlock.evaluateHessian, hh, hx] at hr
    cases ha : (h a).tlm with
    | some y => rw [ha] at hr; cases hr
    | none =>
      rw [ha] at hr
      simp only [pure_bind, addHess_tlm'] at hr
      cases hc : (h c).tlm <;> rw [hc] at hr <;> cases hr

/-! ## The sweep -/

/-- Where the Hessian methods of the blocks are defined.  `SubBlock`, `NegBlock`, `DivBlock` and `PowBlock` pass Hessian values to
operands that do not depend on the controls, so that the conditions on `/` and `**` concern every block; `R` are the variables that
depend on the controls. -/
def FBlock.HessDom (val : BV → ℝ) (R : BV → Prop) : FBlock → Prop
  | .un .log a _ => R a → val a ≠ 0
  | .bin .div _ c _ => val c ≠ 0
  | .bin .pow a c _ => PowDom2 (val a) (val c)
  | _ => True

/-- Variables that may hold an `int` (`S`): operands of no `/` and of no `**`. -/
def HessIntSafe (t : FTape) (S : BV → Prop) : Prop :=
  ∀ b ∈ t, match b with
    | .bin .div a c _ => ¬ S a ∧ ¬ S c
    | .bin .pow a c _ => ¬ S a ∧ ¬ S c
    | _ => True

theorem FBlock.kEvaluateHessian_returns {t : FTape} {b : FBlock} (hb : b ∈ t) {S R : BV → Prop} (safe : HessIntSafe t S) {h : PHeap}
    (hS : ∀ v, (saved h v).kind = .int → S v) (hdom : b.HessDom (saved (eraseKinds h)) R) (hmark : ∀ v, (h v).marked = true → R v)
    (hadj : AdjFloats t h) (htlm : TlmFloats t R h) (hf : HessFloats t h) {g : FHeap}
    (hok : b.evaluateHessian true (eraseKinds h) = .ok g) : HessRet t h (b.kEvaluateHessian true h) := by
  have out_onTape : OnTape t.blocks b.out :=
    ⟨b.toBlock, List.mem_map_of_mem hb, Or.inr ((b.mem_outs _).2 rfl)⟩
  have ka : ∀ l, (h b.out).adj = some l → l.kind ≠ .int := hadj b.out out_onTape
  have kh : ∀ l, (h b.out).hess = some l → l.kind ≠ .int := hf b.out out_onTape
  have kt : ∀ d ∈ b.deps, ∀ y, (h d).tlm = some y → y.kind ≠ .int := fun d hd y hy => (htlm d (b.dep_onTape hb hd) y hy).1
  have rel : ∀ p ∈ relevant h true b.deps, R p.1 := fun p hp => hmark _ (by simpa using (mem_relevant_num hp).2)
  have sb := safe b hb
  have eh : ∀ x, (h b.out).hess = some x → (eraseKinds h b.out).hess = some x.val := fun x hx => by rw [eraseKinds_hess, hx]; rfl
  have ea : (∃ l, (eraseKinds h b.out).adj = some l) → ∃ l, (h b.out).adj = some l := by
    rintro ⟨l, hl⟩
    rw [eraseKinds_adj] at hl
    cases hx : (h b.out).adj with
    | none => rw [hx] at hl; cases hl
    | some l => exact ⟨l, rfl⟩
  cases b with
  | un op a o =>
    cases op with
    | neg =>
      simp only [FBlock.kEvaluateHessian]
      cases hx : (h o).hess with
      | none => exact .ok hf (.refl h)
      | some hin =>
        refine .val _ (fneg_ok.2 ⟨kh hin hx, rfl⟩) ?_
        exact .ok (hf.addHess _ (by simp)) (sameButHess_addHess _ _ _)
    | exp =>
      simp only [FBlock.kEvaluateHessian]
      refine kHessianDefault_returns hf fun hin hx p _ => ⟨_, ?_, rfl⟩
      rw [mul_kind, ne_eq, Kind.join_int]
      exact fun k => kh hin hx k.2
    | log =>
      simp only [FBlock.kEvaluateHessian]
      refine kHessianDefault_returns hf fun hin hx p hp => ?_
      have h0 : (saved h a).val ≠ 0 := by
        have hpa : p.1 = a := by
          have h1 := (mem_relevant_num hp).1
          match hi : p.2, h1 with
          | 0, h1 => simpa [eq_comm, hi] using h1
          | n + 1, h1 => simp at h1
        have hd : R a → saved (eraseKinds h) a ≠ 0 := hdom
        rw [saved_eraseKinds] at hd
        exact hd (hpa ▸ rel p hp)
      refine ⟨_, ?_, Except.bind_ok.2 ⟨_, div_ok.2 ⟨h0, rfl⟩, div_ok.2 ⟨h0, rfl⟩⟩⟩
      simp only; split <;> simp
  | bin op a c o =>
    cases op with
    | add =>
      simp only [FBlock.kEvaluateHessian]
      exact kHessianDefault_returns hf fun hin hx p _ => ⟨hin, kh hin hx, rfl⟩
    | min =>
      simp only [FBlock.kEvaluateHessian]
      refine kHessianDefault_returns hf fun hin hx p _ => ⟨_, ?_, rfl⟩
      have := kh hin hx
      split <;> split <;> first | exact this | simp
    | max =>
      simp only [FBlock.kEvaluateHessian]
      refine kHessianDefault_returns hf fun hin hx p _ => ⟨_, ?_, rfl⟩
      have := kh hin hx
      split <;> split <;> first | exact this | simp
    | sub =>
      simp only [FBlock.kEvaluateHessian]
      cases hx : (h o).hess with
      | none => exact .ok hf (.refl h)
      | some hin =>
        refine .val _ (fneg_ok.2 ⟨kh hin hx, rfl⟩) ?_
        exact .ok ((hf.addHess _ (kh hin hx)).addHess _ (by simp)) ((sameButHess_addHess _ _ _).trans (sameButHess_addHess _ _ _))
    | div =>
      simp only [FBlock.kEvaluateHessian]
      cases hx : (h o).hess with
      | none => exact .ok hf (.refl h)
      | some hin =>
        obtain ⟨l, hl⟩ := ea (hessianDiv_adj (eh hin hx) hok)
        refine kHessianDiv_returns hf (kh hin hx) hl (ka l hl) (fun k => sb.1 (hS _ k)) (fun k => sb.2 (hS _ k)) ?_
          (kt a (by simp [FBlock.deps])) (kt c (by simp [FBlock.deps]))
        have hd : saved (eraseKinds h) c ≠ 0 := hdom
        rwa [saved_eraseKinds] at hd
    | pow =>
      simp only [FBlock.kEvaluateHessian]
      cases hx : (h o).hess with
      | none => exact .ok hf (.refl h)
      | some hin =>
        obtain ⟨l, hl⟩ := ea (hessianPow_adj (eh hin hx) hok)
        refine kHessianPow_returns hf (kh hin hx) hl (ka l hl) (fun k => sb.1 (hS _ k)) (fun k => sb.2 (hS _ k)) ?_
          (kt a (by simp [FBlock.deps])) (kt c (by simp [FBlock.deps]))
        have hd : PowDom2 (saved (eraseKinds h) a) (saved (eraseKinds h) c) := hdom
        rwa [saved_eraseKinds, saved_eraseKinds] at hd
    | mul =>
      simp only [FBlock.kEvaluateHessian]
      refine kHessianDefault_returns hf fun hin hx p hp => ?_
      have hx' := eh hin hx
      have hok' : FBlock.evaluateHessianDefault [a, c] o true FBlock.mulHessC (eraseKinds h) = .ok g := hok
      unfold FBlock.evaluateHessianDefault at hok'
      rw [show (eraseKinds h o).hess = some hin.val from hx'] at hok'
      obtain ⟨v, hv⟩ := components_ok _ _ _ hok' p hp
      obtain ⟨r, h1, h2⟩ := mulHess_fold_returns (adj := (h o).adj) (idx := p.2)
        ((relevant h true [a, c]).map fun q => (q.2, (h q.1).tlm)) (ofFloat 0, if p.2 = 1 then 0 else 1) ka (by
          rintro ⟨q, hq, n1, n2⟩ hn
          rw [eraseKinds_adj, hn] at hv
          refine mulHessC_ok hv ?_
          obtain ⟨w, hw, rfl⟩ := List.mem_map.1 hq
          refine ⟨(w.2, (eraseKinds h w.1).tlm), List.mem_map.2 ⟨w, hw, rfl⟩, n1, ?_⟩
          rw [eraseKinds_tlm]
          simpa using n2) (by simp)
      refine ⟨_, ?_, Except.bind_ok.2 ⟨r, h1, Except.bind_ok.2 ⟨_, fmul_ok.2 ⟨kh hin hx, rfl⟩, fadd_ok.2 ⟨h2, rfl⟩⟩⟩⟩
      simp

theorem hessian_sweep_returns {t : FTape} {S R : BV → Prop} (safe : HessIntSafe t S) (l : List FBlock) (hl : ∀ b ∈ l, b ∈ t) (h : PHeap)
    (hS : ∀ v, (saved h v).kind = .int → S v) (hdom : ∀ b ∈ l, b.HessDom (saved (eraseKinds h)) R)
    (hmark : ∀ v, (h v).marked = true → R v) (hadj : AdjFloats t h) (htlm : TlmFloats t R h) (hf : HessFloats t h) {g : FHeap}
    (hok : l.foldlM (fun h b => b.evaluateHessian true h) (eraseKinds h) = .ok g) :
    HessRet t h (l.foldlM (fun h b => b.kEvaluateHessian true h) h) := by
  induction l generalizing h with
  | nil => exact .ok hf (.refl h)
  | cons b l ih =>
    rw [List.foldlM_cons] at hok
    obtain ⟨g₁, h1, h2⟩ := Except.bind_ok.1 hok
    obtain ⟨h₁, e1, e2, e3⟩ := FBlock.kEvaluateHessian_returns (hl b (by simp)) safe hS (hdom b (by simp)) hmark hadj htlm hf h1
    have hs := FBlock.kEvaluateHessian_sound b true h h₁ e1
    rw [h1] at hs
    obtain rfl : g₁ = eraseKinds h₁ := by injection hs
    have hse : saved (eraseKinds h₁) = saved (eraseKinds h) := by
      funext v; rw [saved_eraseKinds, saved_eraseKinds, e3.1.saved]
    obtain ⟨h', k1, k2, k3⟩ := ih (fun b hb => hl b (by simp [hb])) h₁ (fun v hv => hS v (by rw [← e3.1.saved]; exact hv))
      (fun b hb => by rw [hse]; exact hdom b (by simp [hb])) (fun v hv => hmark v (by rw [← (e3.1 v).2.2.2]; exact hv))
      (fun v hv a ha => hadj v hv a (by rw [← (e3.1 v).2.2.1]; exact ha))
      (fun v hv a ha => htlm v hv a (by rw [← e3.2]; exact ha)) e2 h2
    refine ⟨h', ?_, k2, e3.trans k3⟩
    rw [List.foldlM_cons, e1]
    exact k1

/-- **C60 and C61 for Hessians.** With directions that are `float`s or `AdjFloat`s, `rf.hessian` after `rf.derivative` returns if the result
of every `/` and `**` on the tape depends on a control, if every `/` and `**` on the tape (also on operands the controls do not affect) is twice
differentiable, and if no `int` is stored at their operands.  What it returns is the number of the model without Python types, so that the
theorems of C06 apply. -/
theorem hessian_returns_numbers {t : FTape} (wf : WF t.blocks) (J : BV) (cs : List BV) {h : PHeap} (hmk : ∀ v, (h v).marked = false)
    {S : BV → Prop} (hS : ∀ v, (saved h v).kind = .int → S v) (safe : HessIntSafe t S)
    (hdom : ∀ b ∈ t, b.HessDom (saved (eraseKinds h)) (Reach t.blocks (· ∈ cs)))
    (hsmooth : ∀ b ∈ t, (∃ d ∈ b.deps, Reach t.blocks (· ∈ cs) d) → b.Smooth (saved (eraseKinds h)) (Reach t.blocks (· ∈ cs)))
    (hon : ∀ c ∈ cs, OnTape t.blocks c ∨ c = J ∨ ((h c).adj = none ∧ (h c).hess = none))
    (hneed : ∀ b ∈ t, b.NeedsAdj → Reach t.blocks (· ∈ cs) b.out)
    (scale : ℝ) (adjInput : PyNum) (hin : adjInput.kind ≠ .int) (ds : List PyNum) (hds : ∀ d ∈ ds, d.kind ≠ .int) :
    ∃ grad h₁ hs h₂, kDerivative t J cs scale adjInput h = .ok (grad, h₁) ∧ kComputeHessian t J cs ds h₁ = .ok (hs, h₂) ∧
      t.computeHessian J cs (ds.map PyNum.val) (rfDerivative t.blocks J cs scale adjInput.val (eraseKinds h)).2 = .ok (hs, eraseKinds h₂) := by
  have asafe : AdjIntSafe t S (Reach t.blocks (· ∈ cs)) := by
    intro b hb
    have := safe b hb
    cases b with
    | un op a o => trivial
    | bin op a c o =>
      cases op with
      | div => exact fun _ => this
      | pow => exact fun _ => this.1
      | _ => trivial
  obtain ⟨grad, h₁, d1, d2, d3⟩ := gradient_returns wf J cs ⟨.adj, adjInput.val * scale⟩ (by simp) h hmk hS asafe hsmooth
  have hd : eraseKinds h₁ = (rfDerivative t.blocks J cs scale adjInput.val (eraseKinds h)).2 :=
    congrArg Prod.snd (gradient_returned t J cs _ _ _ _ d1)
  obtain ⟨r, hr⟩ := hessian_returns_partial t wf J cs (eraseKinds h) scale adjInput.val (ds.map PyNum.val)
    (fun c hc => (hon c hc).imp_right (Or.imp_right fun k => by simp [k.1, k.2])) hneed
  have hr' := hr
  rw [← hd] at hr
  -- the tangent sweep
  have sv : ∀ v, saved h₁ v = saved h v := fun v => by
    obtain ⟨_, k2, k3⟩ := d3 v
    unfold saved
    rw [k2, k3]
  set nodes := findRelevantNodes t.blocks cs with hnodes
  have hn : ∀ v, v ∈ nodes ↔ Reach t.blocks (· ∈ cs) v := fun v => findRelevantNodes_iff wf cs v
  set k₀ := seedTlm cs ds (resetVariables (t.map FBlock.shape) .hessian (resetVariables (t.map FBlock.shape) .tlm h₁)) with hk₀
  have sb₀ : SameValues h₁ k₀ := ((sameValues_reset _ _ (Or.inl rfl) _).trans (sameValues_reset _ _ (Or.inr rfl) _)).trans (sameValues_seedTlm _ _ _)
  have sv₀ : ∀ v, saved (markAll nodes true k₀) v = saved h v := fun v => by
    rw [saved_markAll, sb₀.saved, sv]
  have se₀ : saved (eraseKinds (markAll nodes true k₀)) = saved (eraseKinds h) := by
    funext v; rw [saved_eraseKinds, saved_eraseKinds, sv₀]
  have tf₀ : TlmFloats t (Reach t.blocks (· ∈ cs)) k₀ := seedTlm_floats cs ds hds _ (fun v hv a ha => by
    rw [resetVariables_apply, if_pos ((shape_onTape t v).2 hv)] at ha
    simp only [Var.reset] at ha
    rw [resetVariables_apply, if_pos ((shape_onTape t v).2 hv)] at ha
    cases ha)
  obtain ⟨k₁, e1, e2, e3⟩ := tangent_sweep_returns asafe true t (fun b hb => hb) (markAll nodes true k₀)
    (fun v hv => hS v (by rw [← sv₀]; exact hv)) (by rw [se₀]; exact hsmooth) (fun v hv a ha => tf₀ v hv a (by simpa using ha))
  -- the Hessian sweep
  set k₂ := Function.update (markAll nodes false k₁) J { markAll nodes false k₁ J with hess := some ⟨.adj, 0⟩ } with hk₂
  have f₂ : ∀ v, (k₂ v).output = (k₁ v).output ∧ (k₂ v).ckpt = (k₁ v).ckpt ∧ (k₂ v).adj = (k₁ v).adj ∧ (k₂ v).tlm = (k₁ v).tlm ∧
      (k₂ v).marked = (markAll nodes false k₁ v).marked := by
    intro v
    by_cases hJ : v = J
    · subst hJ; rw [hk₂, Function.update_self]; simp
    · rw [hk₂, Function.update_of_ne hJ]; simp
  have sv₂ : ∀ v, saved (markAll nodes true k₂) v = saved h v := fun v => by
    rw [saved_markAll, ← sv₀, ← e3.saved]
    obtain ⟨a1, a2, _⟩ := f₂ v
    unfold saved
    rw [a1, a2]
  have se₂ : saved (eraseKinds (markAll nodes true k₂)) = saved (eraseKinds h) := by
    funext v; rw [saved_eraseKinds, saved_eraseKinds, sv₂]
  have adj₁ : ∀ v, (k₁ v).adj = (h₁ v).adj := fun v => by
    rw [(e3 v).2.2.1, markAll_adj, (sb₀ v).2.2.1]
  -- Hessian values are untouched by the tangent sweep
  have hess₁ : ∀ v, OnTape t.blocks v → (k₁ v).hess = none := by
    intro v hv
    have hs := congrFun (tangent_stored t true _ _ e1) v
    obtain ⟨o, ho⟩ := FTape.evaluateTlm_frame t true (eraseKinds (markAll nodes true k₀)) v (FTape.WF_self wf)
    rw [ho] at hs
    have hs' := congrArg Var.hess hs
    simp only [eraseKinds_hess, markAll_hess] at hs'
    have : (k₀ v).hess = none := by
      obtain ⟨o, ho⟩ := seedTlm_frame cs ds (resetVariables (t.map FBlock.shape) .hessian (resetVariables (t.map FBlock.shape) .tlm h₁)) v
      rw [hk₀, ho]
      show (resetVariables (t.map FBlock.shape) .hessian _ v).hess = none
      rw [resetVariables_apply, if_pos ((shape_onTape t v).2 hv)]
      rfl
    rw [this] at hs'
    cases hx : (k₁ v).hess with
    | none => rfl
    | some x => rw [hx] at hs'; cases hs'
  have hok : ∃ g, t.reverse.foldlM (fun h b => b.evaluateHessian true h) (eraseKinds (markAll nodes true k₂)) = .ok g := by
    rw [computeHessian_eq] at hr
    have hp : preHess t J cs (ds.map PyNum.val) (eraseKinds h₁) = eraseKinds (markAll nodes true k₂) := by
      unfold preHess
      simp only
      rw [eraseKinds_markAll, hk₂, eraseKinds_update]
      have e : eraseKinds (markAll nodes false k₁) = markAll nodes false
          (t.evaluateTlm true (markAll nodes true
            (seedTlm cs (ds.map PyNum.val) (resetVariables t.blocks .hessian (resetVariables t.blocks .tlm (eraseKinds h₁)))))) := by
        rw [eraseKinds_markAll, tangent_stored t true _ _ e1, eraseKinds_markAll, hk₀, eraseKinds_seedTlm, eraseKinds_reset,
          eraseKinds_reset]
      rw [e]
      congr 2
      show _ = ({ eraseKinds (markAll nodes false k₁) J with hess := some 0 } : Var ℝ ℝ ℝ)
      rw [e]
    rw [hp] at hr
    unfold FTape.evaluateHessian at hr
    cases hx : t.reverse.foldlM (fun h b => b.evaluateHessian true h) (eraseKinds (markAll nodes true k₂)) with
    | ok g => exact ⟨g, rfl⟩
    | error e => rw [hx] at hr; cases hr
  obtain ⟨g, hg⟩ := hok
  obtain ⟨k₃, i1, _, _⟩ := hessian_sweep_returns safe t.reverse (fun b hb => List.mem_reverse.1 hb) (markAll nodes true k₂)
    (R := Reach t.blocks (· ∈ cs)) (fun v hv => hS v (by rw [← sv₂]; exact hv))
    (fun b hb => by rw [se₂]; exact hdom b (List.mem_reverse.1 hb))
    (fun v hv => by
      rw [markAll_apply] at hv
      split at hv
      · exact (hn v).1 ‹_›
      · rename_i hv'
        rw [(f₂ v).2.2.2.2, markAll_apply, if_neg hv', (e3 v).2.2.2, markAll_apply, if_neg hv', (sb₀ v).2.2.2, (d3 v).1] at hv
        cases hv)
    (fun v hv a ha => d2 v hv a (by rw [markAll_adj, (f₂ v).2.2.1, adj₁] at ha; exact ha))
    (fun v hv a ha => e2 v hv a (by rw [markAll_tlm, (f₂ v).2.2.2.1] at ha; exact ha))
    (fun v hv a ha => by
      rw [markAll_hess, hk₂] at ha
      by_cases hJ : v = J
      · subst hJ
        rw [Function.update_self] at ha
        cases ha
        simp
      · rw [Function.update_of_ne hJ, markAll_hess, hess₁ v hv] at ha
        cases ha) hg
  have hfin : ∃ hs h₂, kComputeHessian t J cs ds h₁ = .ok (hs, h₂) := by
    unfold kComputeHessian
    simp only [shape_nodes]
    exact ⟨_, _, Except.bind_ok.2 ⟨k₁, e1, Except.bind_ok.2 ⟨k₃, i1, rfl⟩⟩⟩
  obtain ⟨hs, h₂, hf⟩ := hfin
  refine ⟨grad, h₁, hs, h₂, ?_, hf, ?_⟩
  · unfold kDerivative
    rw [if_neg hin, d1]
  · rw [← hd]
    exact hessian_returned t J cs ds h₁ h₂ hs hf

end Pyadjoint
