import Verif.Model.Taylor
import Verif.Props.ReducedApi
import Verif.Props.Scale
import Verif.Props.Gradient

/-!
# What the Taylor test's verdict means (C34)
-/

namespace Pyadjoint

open Real

/-! ## Rates -/

theorem rate_halving {E0 E1 e : ℝ} (h0 : 0 < E0) (h1 : 0 < E1) (he : 0 < e) :
    rate E0 E1 e (e / 2) = .ok ((logb 2 (E0 / E1) : ℝ) : EReal) := by
  unfold rate
  rw [if_neg h0.ne', if_neg h1.ne']
  congr 2
  have : e / 2 / e = (2 : ℝ)⁻¹ := by field_simp
  rw [this, log_inv, ← inv_div E0 E1, log_inv, logb, neg_div_neg_eq]

theorem convergenceRates_from (E : Nat → ℝ) (e : ℝ) (he : 0 < e) (n : Nat) : ∀ k, (∀ i, 0 < E i) →
    convergenceRates ((List.range' k (n + 1)).map E) ((List.range' k (n + 1)).map fun i => e / 2 ^ i) =
      .ok ((List.range' k n).map fun i => ((logb 2 (E i / E (i + 1)) : ℝ) : EReal)) := by
  induction n with
  | zero => intro k _; rfl
  | succ n ih =>
    intro k hE
    rw [List.range'_succ, List.range'_succ]
    simp only [List.map_cons]
    have hih := ih (k + 1) hE
    rw [List.range'_succ] at hih
    simp only [List.map_cons] at hih
    unfold convergenceRates
    have hr := rate_halving (hE k) (hE (k + 1)) (show 0 < e / 2 ^ k by positivity)
    rw [show e / 2 ^ k / 2 = e / 2 ^ (k + 1) by rw [div_div, pow_succ]] at hr
    rw [hr]
    simp only
    rw [hih]
    simp only [List.range'_succ, List.map_cons]

/-- **C34, rates.** For positive residuals of any number at halving perturbations, `convergence_rates` gives the binary logarithms of
the ratios of consecutive residuals. -/
theorem convergence_rates_log2 (E : Nat → ℝ) (hE : ∀ i, 0 < E i) (e : ℝ) (he : 0 < e) (n : Nat) :
    convergenceRates ((List.range (n + 1)).map E) ((List.range (n + 1)).map fun i => e / 2 ^ i) =
      .ok ((List.range n).map fun i => ((logb 2 (E i / E (i + 1)) : ℝ) : EReal)) := by
  rw [List.range_eq_range', List.range_eq_range']
  exact convergenceRates_from E e he n 0 hE

example : ∀ i : Nat, (0 : ℝ) < 3 / 4 ^ i := fun i => by positivity

theorem epsilons_eq : epsilons = [0.01, 0.005, 0.0025, 0.00125] := by
  unfold epsilons
  simp [List.range_succ]
  norm_num

/-- The `i`-th perturbation size. -/
noncomputable def eps (i : Nat) : ℝ := 0.01 / 2 ^ i

theorem eps_pos (i : Nat) : 0 < eps i := by unfold eps; positivity

theorem eps_succ (i : Nat) : eps (i + 1) = eps i / 2 := by unfold eps; rw [pow_succ, div_div]

theorem pyMin_spec (l : List ℝ) (hl : l ≠ []) :
    ∃ x : ℝ, pyMin (l.map Real.toEReal) = .ok (x : EReal) ∧ x ∈ l ∧ ∀ y ∈ l, x ≤ y := by
  cases l with
  | nil => exact absurd rfl hl
  | cons a l =>
    simp only [List.map_cons, pyMin]
    clear hl
    induction l generalizing a with
    | nil => exact ⟨a, rfl, by simp, by simp⟩
    | cons b l ih =>
      obtain ⟨x, h1, h2, h3⟩ := ih (min a b)
      refine ⟨x, ?_, ?_, ?_⟩
      · simp only [List.map_cons, List.foldl_cons]
        rw [← (EReal.coe_strictMono.monotone.map_min (a := a) (b := b))]
        exact h1
      · rcases List.mem_cons.1 h2 with h | h
        · rcases min_choice a b with h' | h' <;> simp [h, h']
        · simp [h]
      · intro y hy
        have hx := h3 (min a b) (by simp)
        simp only [List.mem_cons] at hy
        rcases hy with rfl | rfl | hy
        · exact hx.trans (min_le_left _ _)
        · exact hx.trans (min_le_right _ _)
        · exact h3 y (List.mem_cons_of_mem _ hy)

/-! ## The test for any functional -/

/-- The points `m + eps h`. -/
def line {C : Type*} [Add C] [SMul ℝ C] (ms hs : List C) (e : ℝ) : List C := List.zipWith (fun m h => m + e • h) ms hs

variable {C S : Type*} [Add C] [SMul ℝ C]

/-- In the states `Inv` the object evaluates the function `F` of `n` values and stays in `Inv`. -/
def Evaluates (J : TaylorObj C S) (Inv : S → Prop) (n : Nat) (F : List C → ℝ) : Prop :=
  ∀ x s, Inv s → x.elems.length = n → ∃ s', J.call x s = .ok (F x.elems, s') ∧ Inv s'

theorem perturbe_ok (m : Arg C) (hs : List C) (hl : hs.length = m.elems.length) (e : ℝ) :
    ∃ x : Arg C, perturbe (Enlist.of m) hs e = .ok x ∧ x.elems = line m.elems hs e := by
  unfold perturbe
  rw [enlist_items]
  rw [show List.zipWith (fun m h => m + e • h) m.elems hs = line m.elems hs e from rfl]
  unfold Enlist.delist
  rw [enlist_listed]
  cases m with
  | single a =>
    cases hs with
    | nil => simp [Arg.elems] at hl
    | cons h hs =>
      cases hs with
      | cons _ _ => simp [Arg.elems] at hl
      | nil => exact ⟨_, rfl, rfl⟩
  | list l => exact ⟨_, rfl, rfl⟩
  | tuple l => exact ⟨_, rfl, rfl⟩
  | enlist en => exact ⟨_, rfl, rfl⟩

theorem perturbedValues_ok {J : TaylorObj C S} {Inv : S → Prop} {n : Nat} {F : List C → ℝ} (hJ : Evaluates J Inv n F)
    (m : Arg C) (hs : List C) (hl : hs.length = m.elems.length) (hm : m.elems.length = n) (es : List ℝ) :
    ∀ s, Inv s → ∃ s', perturbedValues J (Enlist.of m) hs es s = .ok (es.map fun e => F (line m.elems hs e), s') ∧ Inv s' := by
  induction es with
  | nil => intro s h; exact ⟨s, rfl, h⟩
  | cons e es ih =>
    intro s h
    obtain ⟨x, hx, hxe⟩ := perturbe_ok m hs hl e
    obtain ⟨s1, h1, hi1⟩ := hJ x s h (by rw [hxe]; simp [line, hl, hm])
    obtain ⟨s2, h2, hi2⟩ := ih s1 hi1
    refine ⟨s2, ?_, hi2⟩
    unfold perturbedValues
    rw [hx]
    simp only
    rw [h1]
    simp only
    rw [h2, hxe]
    rfl

/-- The residual of the test at `m + e h`. -/
noncomputable def remainder (F : List C → ℝ) (ms hs : List C) (d H e : ℝ) : ℝ :=
  |F (line ms hs e) - F ms - e * d - 0.5 * e ^ 2 * H|

theorem zipWith_residual (F : List C → ℝ) (ms hs : List C) (d H : ℝ) (es : List ℝ) :
    List.zipWith (residual (F ms) d H) es (es.map fun e => F (line ms hs e)) = es.map (remainder F ms hs d H) := by
  induction es with
  | nil => rfl
  | cons e es ih => simp only [List.map_cons, List.zipWith_cons_cons, ih]; rfl

theorem epsilons_range : epsilons = (List.range 4).map eps := rfl

theorem taylorTest_eq {dot : C → C → ℝ} {J : TaylorObj C S} {Inv : S → Prop} {F : List C → ℝ} (m h : Arg C)
    (hl : h.elems.length = m.elems.length) (hJ : Evaluates J Inv m.elems.length F) (dJdm : Option ℝ) (Hm d : ℝ) (s : S)
    (hs : Inv s)
    (hd : ∀ y s₁, J.call m s = .ok (y, s₁) →
      ∃ s₂, directional dot J m.elems.length h.elems dJdm s₁ = .ok (d, s₂) ∧ Inv s₂) :
    ∃ s', Inv s' ∧ taylorTest dot J m h dJdm Hm s =
      match convergenceRates (epsilons.map (remainder F m.elems h.elems d Hm)) epsilons with
      | .error e => .error e
      | .ok rs => match pyMin rs with
        | .error e => .error e
        | .ok r => .ok (r, s') := by
  obtain ⟨s1, h1, hi1⟩ := hJ m s hs rfl
  obtain ⟨s2, h2, hi2⟩ := hd _ _ h1
  obtain ⟨s3, h3, hi3⟩ := perturbedValues_ok hJ m h.elems hl rfl epsilons s2 hi2
  refine ⟨s3, hi3, ?_⟩
  unfold taylorTest
  simp only [enlist_items]
  rw [if_neg (by simpa using hl), h1]
  simp only
  rw [h2]
  simp only
  rw [h3]
  simp only
  rw [zipWith_residual]
  rfl

/-- **C34, verdict.** If the functional's evaluations return `F` and the directional derivative used is `d`, and no
residual vanishes, then `taylor_test` returns the least of the three numbers `log2 (r i / r (i+1))`, where `r i` is the
remainder of `F` at the `i`-th perturbation. -/
theorem taylor_test_verdict {dot : C → C → ℝ} {J : TaylorObj C S} {Inv : S → Prop} {F : List C → ℝ} (m h : Arg C)
    (hl : h.elems.length = m.elems.length) (hJ : Evaluates J Inv m.elems.length F) (dJdm : Option ℝ) (Hm d : ℝ) (s : S)
    (hs : Inv s)
    (hd : ∀ y s₁, J.call m s = .ok (y, s₁) →
      ∃ s₂, directional dot J m.elems.length h.elems dJdm s₁ = .ok (d, s₂) ∧ Inv s₂)
    (hr : ∀ i < 4, remainder F m.elems h.elems d Hm (eps i) ≠ 0) :
    ∃ (x : ℝ) (s' : S), taylorTest dot J m h dJdm Hm s = .ok ((x : EReal), s') ∧ Inv s' ∧
      (∃ i < 3, x = logb 2 (remainder F m.elems h.elems d Hm (eps i) / remainder F m.elems h.elems d Hm (eps (i + 1)))) ∧
      ∀ i < 3, x ≤ logb 2 (remainder F m.elems h.elems d Hm (eps i) / remainder F m.elems h.elems d Hm (eps (i + 1))) := by
  obtain ⟨s', hi, heq⟩ := taylorTest_eq m h hl hJ dJdm Hm d s hs hd
  set r := remainder F m.elems h.elems d Hm with hrdef
  -- outside the range of the test the values do not matter
  let E : Nat → ℝ := fun i => if i < 4 then r (eps i) else 1
  have hE : ∀ i, 0 < E i := by
    intro i
    simp only [E]
    split
    · rename_i hi
      exact lt_of_le_of_ne (abs_nonneg _) (Ne.symm (hr i hi))
    · exact one_pos
  have hEr : epsilons.map r = (List.range 4).map E := by
    rw [epsilons_range, List.map_map]
    apply List.map_congr_left
    intro i hi
    have : i < 4 := List.mem_range.1 hi
    simp [E, this]
  have hrates := convergence_rates_log2 E hE 0.01 (by norm_num) 3
  have : ((List.range (3 + 1)).map fun i => (0.01 : ℝ) / 2 ^ i) = epsilons := rfl
  rw [this, ← hEr] at hrates
  have hmap : ((List.range 3).map fun i => ((logb 2 (E i / E (i + 1)) : ℝ) : EReal)) =
      ((List.range 3).map fun i => logb 2 (r (eps i) / r (eps (i + 1)))).map Real.toEReal := by
    rw [List.map_map]
    apply List.map_congr_left
    intro i hi
    have h3 : i < 3 := List.mem_range.1 hi
    simp only [E, Function.comp]
    rw [if_pos (by omega), if_pos (by omega)]
  obtain ⟨x, hx, hmem, hle⟩ := pyMin_spec ((List.range 3).map fun i => logb 2 (r (eps i) / r (eps (i + 1)))) (by simp)
  refine ⟨x, s', ?_, hi, ?_, ?_⟩
  · rw [heq, hrates]
    simp only
    rw [hmap, hx]
  · obtain ⟨i, hi, hxi⟩ := List.mem_map.1 hmem
    exact ⟨i, List.mem_range.1 hi, hxi.symm⟩
  · intro i hi
    exact hle _ (List.mem_map.2 ⟨i, List.mem_range.2 hi, rfl⟩)

/-- **C34, exact orders.** If the remainders are exactly `c * eps ^ k` for some nonzero `c` then `taylor_test` returns exactly `k`:
2 with a correct directional derivative and an exactly quadratic remainder, 1 if the remainder is linear because the directional
derivative supplied is wrong, 3 for an exactly cubic remainder with the second derivative supplied. -/
theorem taylor_test_order {dot : C → C → ℝ} {J : TaylorObj C S} {Inv : S → Prop} {F : List C → ℝ} (m h : Arg C)
    (hl : h.elems.length = m.elems.length) (hJ : Evaluates J Inv m.elems.length F) (dJdm : Option ℝ) (Hm d : ℝ) (s : S)
    (hs : Inv s)
    (hd : ∀ y s₁, J.call m s = .ok (y, s₁) →
      ∃ s₂, directional dot J m.elems.length h.elems dJdm s₁ = .ok (d, s₂) ∧ Inv s₂)
    (c : ℝ) (hc : c ≠ 0) (k : Nat)
    (hr : ∀ i < 4, F (line m.elems h.elems (eps i)) - F m.elems - eps i * d - 0.5 * eps i ^ 2 * Hm = c * eps i ^ k) :
    ∃ s', taylorTest dot J m h dJdm Hm s = .ok (((k : ℝ) : EReal), s') ∧ Inv s' := by
  have hrem : ∀ i < 4, remainder F m.elems h.elems d Hm (eps i) = |c| * eps i ^ k := by
    intro i hi
    unfold remainder
    rw [hr i hi, abs_mul, abs_of_pos (pow_pos (eps_pos i) k)]
  have hpos : ∀ i, 0 < |c| * eps i ^ k := fun i => mul_pos (abs_pos.2 hc) (pow_pos (eps_pos i) k)
  obtain ⟨x, s', h1, h2, ⟨i, hi, hx⟩, -⟩ := taylor_test_verdict m h hl hJ dJdm Hm d s hs hd
    (fun i hi => by rw [hrem i hi]; exact (hpos i).ne')
  refine ⟨s', ?_, h2⟩
  rw [h1, hx, hrem i (by omega), hrem (i + 1) (by omega), eps_succ]
  have : |c| * eps i ^ k / (|c| * (eps i / 2) ^ k) = 2 ^ k := by
    have := (abs_pos.2 hc).ne'
    have := (eps_pos i).ne'
    rw [div_pow]
    field_simp
  rw [this, logb_pow, logb_self_eq_one (by norm_num), mul_one]

/-- **C34, bounds.** If the remainders lie between `c₁ eps ^ k` and `c₂ eps ^ k` then the result differs from `k` by at most
`log2 (c₂ / c₁)`. -/
theorem taylor_test_bounds {dot : C → C → ℝ} {J : TaylorObj C S} {Inv : S → Prop} {F : List C → ℝ} (m h : Arg C)
    (hl : h.elems.length = m.elems.length) (hJ : Evaluates J Inv m.elems.length F) (dJdm : Option ℝ) (Hm d : ℝ) (s : S)
    (hs : Inv s)
    (hd : ∀ y s₁, J.call m s = .ok (y, s₁) →
      ∃ s₂, directional dot J m.elems.length h.elems dJdm s₁ = .ok (d, s₂) ∧ Inv s₂)
    (c₁ c₂ : ℝ) (hc : 0 < c₁) (k : Nat)
    (hr : ∀ i < 4, c₁ * eps i ^ k ≤ remainder F m.elems h.elems d Hm (eps i) ∧
      remainder F m.elems h.elems d Hm (eps i) ≤ c₂ * eps i ^ k) :
    ∃ (x : ℝ) (s' : S), taylorTest dot J m h dJdm Hm s = .ok ((x : EReal), s') ∧ Inv s' ∧ |x - k| ≤ logb 2 (c₂ / c₁) := by
  have hep : ∀ i, 0 < eps i ^ k := fun i => pow_pos (eps_pos i) k
  have hpos : ∀ i < 4, 0 < remainder F m.elems h.elems d Hm (eps i) :=
    fun i hi => lt_of_lt_of_le (mul_pos hc (hep i)) (hr i hi).1
  have hc2 : c₁ ≤ c₂ := le_of_mul_le_mul_right ((hr 0 (by omega)).1.trans (hr 0 (by omega)).2) (hep 0)
  have hc2p := lt_of_lt_of_le hc hc2
  obtain ⟨x, s', h1, h2, ⟨i, hi, hx⟩, -⟩ := taylor_test_verdict m h hl hJ dJdm Hm d s hs hd (fun i hi => (hpos i hi).ne')
  refine ⟨x, s', h1, h2, ?_⟩
  set r := remainder F m.elems h.elems d Hm
  have ha := hr i (by omega)
  have hb := hr (i + 1) (by omega)
  have pa := hpos i (by omega)
  have pb := hpos (i + 1) (by omega)
  have hk : (k : ℝ) = logb 2 (2 ^ k) := by rw [logb_pow, logb_self_eq_one (by norm_num), mul_one]
  have heps : eps (i + 1) ^ k = eps i ^ k / 2 ^ k := by rw [eps_succ, div_pow]
  rw [heps] at hb
  have h2k : (0 : ℝ) < 2 ^ k := by positivity
  rw [abs_le]
  constructor
  · have : logb 2 (2 ^ k / (c₂ / c₁)) ≤ x := by
      rw [hx]
      apply logb_le_logb_of_le (by norm_num) (by positivity)
      rw [div_le_div_iff₀ (by positivity) pb]
      have e1 : 2 ^ k * r (eps (i + 1)) ≤ c₂ * eps i ^ k := by
        have := mul_le_mul_of_nonneg_left hb.2 h2k.le
        calc _ ≤ _ := this
          _ = _ := by field_simp
      have e2 : c₂ * eps i ^ k ≤ r (eps i) * (c₂ / c₁) := by
        have := mul_le_mul_of_nonneg_right ha.1 (show 0 ≤ c₂ / c₁ by positivity)
        calc _ = c₁ * eps i ^ k * (c₂ / c₁) := by field_simp
          _ ≤ _ := this
      exact e1.trans e2
    rw [logb_div (by positivity) (by positivity), ← hk] at this
    linarith
  · have : x ≤ logb 2 (2 ^ k * (c₂ / c₁)) := by
      rw [hx]
      apply logb_le_logb_of_le (by norm_num) (by positivity)
      rw [div_le_iff₀ pb]
      have := mul_le_mul_of_nonneg_left hb.1 (show 0 ≤ 2 ^ k * (c₂ / c₁) by positivity)
      calc r (eps i) ≤ c₂ * eps i ^ k := ha.2
        _ = 2 ^ k * (c₂ / c₁) * (c₁ * (eps i ^ k / 2 ^ k)) := by field_simp
        _ ≤ _ := this
    rw [logb_mul (by positivity) (by positivity), ← hk] at this
    linarith

/-- **C34, wrong derivatives are found.** If along the direction the functional is `F m + eps g + a eps²` and the directional
derivative supplied is off by `δ` with `|δ| ≥ 0.04 |a|`, `δ ≠ 0`, then the result is below 1.6 (and not close to 2). -/
theorem taylor_test_detects {dot : C → C → ℝ} {J : TaylorObj C S} {Inv : S → Prop} {F : List C → ℝ} (m h : Arg C)
    (hl : h.elems.length = m.elems.length) (hJ : Evaluates J Inv m.elems.length F) (s : S) (hs : Inv s) (g a δ : ℝ)
    (hF : ∀ e, F (line m.elems h.elems e) = F m.elems + e * g + a * e ^ 2) (hδ : δ ≠ 0) (hbig : 0.04 * |a| ≤ |δ|) :
    ∃ (x : ℝ) (s' : S), taylorTest dot J m h (some (g + δ)) 0 s = .ok ((x : EReal), s') ∧ x < 1.6 := by
  have hrem : ∀ e, 0 < e → remainder F m.elems h.elems (g + δ) 0 e = e * |a * e - δ| := by
    intro e he
    unfold remainder
    rw [hF, show F m.elems + e * g + a * e ^ 2 - F m.elems - e * (g + δ) - 0.5 * e ^ 2 * 0 = e * (a * e - δ) by ring,
      abs_mul, abs_of_pos he]
  have hδp := abs_pos.2 hδ
  have hlow : ∀ e, 0 < e → e ≤ 0.01 → 0.75 * |δ| ≤ |a * e - δ| := by
    intro e he he1
    have h1 : |δ| - |a * e| ≤ |a * e - δ| := by
      have := abs_sub_abs_le_abs_sub δ (a * e)
      rwa [abs_sub_comm] at this
    rw [abs_mul, abs_of_pos he] at h1
    nlinarith [abs_nonneg a]
  have he4 : ∀ i, eps i ≤ 0.01 := by
    intro i
    unfold eps
    exact div_le_self (by norm_num) (one_le_pow₀ (by norm_num))
  obtain ⟨x, s', h1, -, -, hx⟩ := taylor_test_verdict (dot := dot) m h hl hJ (some (g + δ)) 0 (g + δ) s hs
    (fun y s₁ hc => by
      obtain ⟨s₂, h2, hi⟩ := hJ m s hs rfl
      rw [h2] at hc
      cases hc
      exact ⟨_, rfl, hi⟩)
    (fun i _ => by
      rw [hrem _ (eps_pos i)]
      have := hlow _ (eps_pos i) (he4 i)
      have : 0 < |a * eps i - δ| := by nlinarith
      exact (mul_pos (eps_pos i) this).ne')
  refine ⟨x, s', h1, ?_⟩
  have h2 := hx 2 (by omega)
  refine lt_of_le_of_lt h2 ?_
  rw [hrem _ (eps_pos _), hrem _ (eps_pos _), eps_succ 2]
  have e2 : eps 2 = 0.0025 := by unfold eps; norm_num
  rw [e2]
  have hup : |a * 0.0025 - δ| ≤ 1.0625 * |δ| := by
    have := abs_sub (a * 0.0025) δ
    rw [abs_mul, abs_of_pos (show (0 : ℝ) < 0.0025 by norm_num)] at this
    nlinarith
  have hdn : 0.96875 * |δ| ≤ |a * (0.0025 / 2) - δ| := by
    have h1 : |δ| - |a * (0.0025 / 2)| ≤ |a * (0.0025 / 2) - δ| := by
      have := abs_sub_abs_le_abs_sub δ (a * (0.0025 / 2))
      rwa [abs_sub_comm] at this
    rw [abs_mul, abs_of_pos (show (0 : ℝ) < 0.0025 / 2 by norm_num)] at h1
    nlinarith
  have hden : 0 < |a * (0.0025 / 2) - δ| := by nlinarith
  have hnum : 0 < |a * 0.0025 - δ| := by
    have := hlow 0.0025 (by norm_num) (by norm_num)
    nlinarith
  rw [logb_lt_iff_lt_rpow (by norm_num) (by positivity)]
  have hq : 0.0025 * |a * 0.0025 - δ| / (0.0025 / 2 * |a * (0.0025 / 2) - δ|) ≤ 2.8 := by
    rw [div_le_iff₀ (by positivity)]
    nlinarith
  refine lt_of_le_of_lt hq ?_
  -- `2.8 ^ 5 < 2 ^ 8`
  have : (2.8 : ℝ) = ((2.8 : ℝ) ^ (5 : ℕ)) ^ ((1 : ℝ) / 5) := by
    rw [← rpow_natCast, ← rpow_mul (by norm_num)]; norm_num
  rw [this]
  have h3 : (2 : ℝ) ^ (1.6 : ℝ) = ((2 : ℝ) ^ (8 : ℕ)) ^ ((1 : ℝ) / 5) := by
    rw [← rpow_natCast, ← rpow_mul (by norm_num)]; norm_num
  rw [h3]
  apply rpow_lt_rpow (by norm_num) _ (by norm_num)
  norm_num

/-- **C34, exactly linear functionals.** If the remainder is zero, as for a functional that is affine along the direction with the
correct derivative, the test divides by zero. -/
theorem taylor_test_affine_raises {dot : C → C → ℝ} {J : TaylorObj C S} {Inv : S → Prop} {F : List C → ℝ} (m h : Arg C)
    (hl : h.elems.length = m.elems.length) (hJ : Evaluates J Inv m.elems.length F) (s : S) (hs : Inv s) (g : ℝ)
    (hF : ∀ e, F (line m.elems h.elems e) = F m.elems + e * g) :
    taylorTest dot J m h (some g) 0 s = .error .zeroDivision := by
  obtain ⟨s', -, heq⟩ := taylorTest_eq (dot := dot) m h hl hJ (some g) 0 g s hs
    (fun y s₁ hc => by
      obtain ⟨s₂, h2, hi⟩ := hJ m s hs rfl
      rw [h2] at hc
      cases hc
      exact ⟨_, rfl, hi⟩)
  rw [heq, epsilons_range]
  have h0 : remainder F m.elems h.elems g 0 (eps 0) = 0 := by
    unfold remainder
    rw [hF]
    simp
  simp only [List.range_succ, List.range_zero, List.nil_append, List.cons_append, List.map_cons, List.map_nil]
  unfold convergenceRates rate
  rw [if_pos h0]

/-! ### Example: `F x = x²` -/

/-- A functional of one real without state. -/
noncomputable def squareObj : TaylorObj ℝ Unit where
  call x s := .ok ((x.elems.getD 0 0) ^ 2, s)
  derivative s := .ok (.one 6, s)
  hessian _ s := .ok (.one 2, s)

theorem squareObj_evaluates : Evaluates squareObj (fun _ => True) 1 fun l => (l.getD 0 0) ^ 2 :=
  fun _ _ _ _ => ⟨(), rfl, trivial⟩

/-- At `m = 3` in direction 1 the test returns 2 with the object's derivative, and less than 1.6 if given 7 for the derivative 6. -/
example : (∃ s', taylorTest (· * ·) squareObj (.single 3) (.single 1) none 0 () = .ok (((2 : ℕ) : ℝ), s') ∧ True) ∧
    ∃ (x : ℝ) (s' : Unit), taylorTest (· * ·) squareObj (.single 3) (.single 1) (some (6 + 1)) 0 () = .ok ((x : EReal), s') ∧ x < 1.6 := by
  constructor
  · refine taylor_test_order (Inv := fun _ => True) (.single 3) (.single 1) rfl squareObj_evaluates none 0 6 () trivial ?_ 1 one_ne_zero 2 ?_
    · intro y s₁ _
      exact ⟨(), by simp [directional, squareObj, Ret.items, dotSum, Arg.elems], trivial⟩
    · intro i _
      simp [line, Arg.elems]
      ring
  · refine taylor_test_detects (Inv := fun _ => True) (.single 3) (.single 1) rfl squareObj_evaluates () trivial 6 1 1 ?_ one_ne_zero ?_
    · intro e
      simp [line, Arg.elems]
      ring
    · norm_num

end Pyadjoint
