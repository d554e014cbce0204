import Verif.Props.Scale
import Verif.Props.Gradient

/-!
# Flat arrays (C28)
-/

namespace Pyadjoint

variable {V T A E : Type*}

theorem Codec.float_lawful : (Codec.float : Codec V V).Lawful where
  length_encode _ := rfl
  decode_encode _ := rfl
  encode_decode l v h := by
    rcases l with _ | ⟨a, _ | ⟨b, l⟩⟩
    · cases h
    · cases h; rfl
    · cases h

/-- The number of entries of a flat array for the given controls. -/
def totalSize : List (Codec V E) → Nat
  | [] => 0
  | c :: cs => c.size + totalSize cs

theorem setLocal_getGlobal (cs : List (Codec V E)) (hl : ∀ c ∈ cs, c.Lawful) (vs : List V)
    (hlen : vs.length = cs.length) (pre rest : List E) :
    setLocal (pre ++ getGlobal cs vs ++ rest) cs pre.length = some vs := by
  induction cs generalizing vs pre with
  | nil =>
    cases vs with
    | nil => rfl
    | cons _ _ => cases hlen
  | cons c cs ih =>
    cases vs with
    | nil => cases hlen
    | cons v vs =>
      have hc := hl c List.mem_cons_self
      have e : ((pre ++ getGlobal (c :: cs) (v :: vs) ++ rest).drop pre.length).take c.size = c.encode v := by
        rw [List.append_assoc, List.drop_left]
        show ((c.encode v ++ getGlobal cs vs) ++ rest).take c.size = _
        rw [List.append_assoc, ← hc.length_encode v, List.take_left]
      unfold setLocal Codec.assign
      rw [e, hc.decode_encode]
      simp only []
      have ih := ih (fun c' h' => hl c' (List.mem_cons_of_mem _ h')) vs (by simpa using hlen)
        (pre ++ c.encode v)
      rw [List.length_append, hc.length_encode] at ih
      have e2 : pre ++ getGlobal (c :: cs) (v :: vs) ++ rest
          = pre ++ c.encode v ++ getGlobal cs vs ++ rest := by
        show pre ++ (c.encode v ++ getGlobal cs vs) ++ rest = _
        simp only [List.append_assoc]
      rw [e2, ih]
      rfl

theorem getGlobal_setLocal (cs : List (Codec V E)) (hl : ∀ c ∈ cs, c.Lawful) (src : List E) (o : Nat)
    (vs : List V) (h : setLocal src cs o = some vs) :
    vs.length = cs.length ∧ getGlobal cs vs = (src.drop o).take (totalSize cs) := by
  induction cs generalizing o vs with
  | nil => cases h; simp [getGlobal, totalSize]
  | cons c cs ih =>
    unfold setLocal Codec.assign at h
    cases hd : c.decode ((src.drop o).take c.size) with
    | none => rw [hd] at h; cases h
    | some v =>
      rw [hd] at h
      simp only [] at h
      cases hs : setLocal src cs (o + c.size) with
      | none => rw [hs] at h; cases h
      | some vs' =>
        rw [hs] at h
        cases h
        obtain ⟨h1, h2⟩ := ih (fun c' h' => hl c' (List.mem_cons_of_mem _ h')) _ _ hs
        refine ⟨by simp [h1], ?_⟩
        show c.encode v ++ getGlobal cs vs' = _
        rw [(hl c List.mem_cons_self).encode_decode _ _ hd, h2]
        show _ = (src.drop o).take (c.size + totalSize cs)
        rw [List.take_add, List.drop_drop]

/-- **C28, layout.** For control types whose array methods are inverse to each other (`AdjFloat`:
`Codec.float_lawful`), values written to a flat array and read back are unchanged, with no entry
shifted, whatever follows in the array; and an array that can be read is, up to superfluous entries at
its end, the one written for the values read. -/
theorem flat_array_roundtrip (cs : List (Codec V E)) (hl : ∀ c ∈ cs, c.Lawful) :
    (∀ vs rest, vs.length = cs.length → setLocal (getGlobal cs vs ++ rest) cs 0 = some vs) ∧
    (∀ src vs, setLocal src cs 0 = some vs →
      vs.length = cs.length ∧ getGlobal cs vs = src.take (totalSize cs)) :=
  ⟨fun vs rest hlen => setLocal_getGlobal cs hl vs hlen [] rest,
   fun src vs h => by simpa using getGlobal_setLocal cs hl src 0 vs h⟩

/-- **C28, `AdjFloat` controls.** The array is the list of the values, superfluous entries are ignored,
a missing entry raises. -/
theorem flat_array_floats (bvs : List BV) (src : List V) :
    setLocal src (floatCodecs bvs) 0 = (if bvs.length ≤ src.length then some (src.take bvs.length) else none) ∧
    ∀ vs : List V, vs.length = bvs.length → getGlobal (floatCodecs bvs) vs = vs := by
  constructor
  · rw [setLocal_float]
    simp only [Nat.zero_add, List.drop_zero]
    by_cases h : bvs = []
    · subst h; simp
    · simp [h]
  · intro vs hlen
    rw [getGlobal_float, ← hlen, List.take_length]

example : (∀ c ∈ floatCodecs (V := Int) [4, 7], c.Lawful) ∧
    setLocal [(1 : Int), 2, 3] (floatCodecs [4, 7]) 0 = some [1, 2] ∧
    setLocal [(1 : Int)] (floatCodecs [4, 7]) 0 = none := by
  refine ⟨?_, rfl, rfl⟩
  intro c hc
  simp only [floatCodecs, List.map_cons, List.map_nil, List.mem_cons, List.not_mem_nil, or_false] at hc
  rcases hc with rfl | rfl <;> exact Codec.float_lawful

/-- **C28, evaluation.** `rf_np(array)` is `rf` called with the values laid out in the array, and leaves
the same state. -/
theorem numpy_call [Mul V] (f : NpRF V) (codecs : List (Codec V E)) (hl : ∀ c ∈ codecs, c.Lawful)
    (bs : Blocks V T A) (vs : List V) (hlen : vs.length = codecs.length) (h : Heap V T A) :
    f.call codecs bs (getGlobal codecs vs) h = f.rf.call bs (.list vs) h := by
  have := (flat_array_roundtrip codecs hl).1 vs [] hlen
  rw [List.append_nil] at this
  unfold NpRF.call
  rw [this]

/-- **C28, reading back.** After `rf_np(array)` the array `get_controls()` is the part of `array` that was
used, for distinct controls. -/
theorem numpy_get_after_call [Mul V] (f : NpRF V) (codecs : List (Codec V E))
    (hl : ∀ c ∈ codecs, c.Lawful) (bs : Blocks V T A) (h : Heap V T A)
    (hnd : f.rf.enlisted.items.Nodup) (hfl : ∀ c ∈ f.rf.enlisted.items, (h c).isControl = false)
    (src : List E) (r : V) (h' : Heap V T A) (hok : f.call codecs bs src h = .ok (r, h')) :
    f.getControls codecs h' = src.take (totalSize codecs) := by
  unfold NpRF.call at hok
  cases hs : setLocal src codecs 0 with
  | none => rw [hs] at hok; cases hok
  | some xs =>
    rw [hs] at hok
    obtain ⟨h1, h2⟩ := (flat_array_roundtrip codecs hl).2 src xs hs
    rw [← h2]
    unfold NpRF.getControls
    congr 1
    unfold RF.call rfCall at hok
    simp only [] at hok
    split at hok
    · cases hok
    · rename_i x hx
      split at hx
      · cases hx
      · rename_i hlen
        push Not at hlen
        cases hx
        cases hok
        have hlen' : xs.length = f.rf.enlisted.items.length := hlen
        apply List.ext_getElem
        · simp [hlen']
        · intro i hi hi'
          rw [List.getElem_map]
          have hc := rfEval_control bs f.rf.enlisted.items xs h hnd hlen' hfl i (by simpa using hi)
          unfold saved
          simp only [Enlist.of]
          rw [hc]

/-- **C28, writing.** `set_controls(array)` followed by `get_controls()` returns the entries used; no
other variable changes. -/
theorem numpy_get_after_set {S : Type*} (f : NpRF S) (codecs : List (Codec V E))
    (hl : ∀ c ∈ codecs, c.Lawful) (hlen : codecs.length = f.rf.enlisted.items.length)
    (h : Heap V T A) (hnd : f.rf.enlisted.items.Nodup)
    (hfl : ∀ c ∈ f.rf.enlisted.items, (h c).isControl = false)
    (src : List E) (xs : List V) (h' : Heap V T A) (hok : f.setControls codecs src h = .ok (xs, h')) :
    f.getControls codecs h' = src.take (totalSize codecs) ∧
      ∀ v, v ∉ f.rf.enlisted.items → h' v = h v := by
  unfold NpRF.setControls at hok
  cases hs : setLocal src codecs 0 with
  | none => rw [hs] at hok; cases hok
  | some ys =>
    rw [hs] at hok
    cases hok
    obtain ⟨h1, h2⟩ := (flat_array_roundtrip codecs hl).2 src xs hs
    refine ⟨?_, fun v hv => updateControls_of_not_mem _ _ _ _ hv⟩
    rw [← h2]
    unfold NpRF.getControls
    congr 1
    apply List.ext_getElem
    · simp [h1, hlen]
    · intro i hi hi'
      rw [List.getElem_map]
      have hc := updateControls_ckpt f.rf.enlisted.items xs h hnd (by rw [h1, hlen]) hfl i (by simpa using hi)
      unfold saved
      rw [hc]

/-- **C28, derivative.** `rf_np.derivative()` is the concatenation of the entries of the derivatives
`rf.derivative()` returns, in the order of the controls. -/
theorem numpy_derivative_floats [Add A] [Zero A] [Mul A] [One A] (f : NpRF A) (bs : Blocks V T A)
    (m : Option (List A)) (h : Heap V T A) (hcomp : f.rf.components = none)
    (hne : f.rf.enlisted.items ≠ []) :
    (f.derivative (floatCodecs f.rf.enlisted.items) bs m h).1
      = .ok (computeGradient bs f.rf.J f.rf.enlisted.items (1 * f.rf.scale) h).1 := by
  have hlen : (computeGradient bs f.rf.J f.rf.enlisted.items (1 * f.rf.scale) h).1.length
      = f.rf.enlisted.items.length := by simp [computeGradient]
  unfold NpRF.derivative RF.derivative
  rw [hcomp]
  simp only []
  rw [if_neg (by simpa using hne)]
  generalize (computeGradient bs f.rf.J f.rf.enlisted.items (1 * f.rf.scale) h).1 = g at *
  simp only []
  unfold finishDerivative
  rw [if_neg (by
    intro hg
    rw [List.isEmpty_iff] at hg
    subst hg
    exact hne (List.length_eq_zero_iff.1 hlen.symm))]
  unfold Enlist.delist
  have hg := (flat_array_floats f.rf.enlisted.items g).2 g hlen
  split
  · simp only [Except.map, Ret.items, hg]
  · rename_i hl
    have : ∃ a, f.rf.controls = .single a := by
      unfold RF.enlisted at hl
      cases hc : f.rf.controls with
      | single a => exact ⟨a, rfl⟩
      | list l => rw [hc] at hl; exact absurd rfl hl
      | tuple l => rw [hc] at hl; exact absurd rfl hl
      | enlist l => rw [hc] at hl; exact absurd rfl hl
    obtain ⟨a, ha⟩ := this
    have h1 : g.length = 1 := by rw [hlen]; unfold RF.enlisted; rw [ha]; rfl
    rcases g with _ | ⟨b, _ | ⟨c, g⟩⟩
    · cases h1
    · simp only [Except.map, Ret.items, hg]
    · cases h1

/-- **C28, the optimiser's view.** For every `AdjFloat` tape: after `y = rf_np(x)`, `y` is `F(x)` and
`rf_np.derivative(...)` is the gradient of `F` at `x`, entry by entry, where `F` is the function of flat
arrays computed by `rf_np`. -/
theorem numpy_gradient_exact (t : FTape) (wf : WF t.blocks) (f : NpRF ℝ)
    (hcomp : f.rf.components = none) (hne : f.rf.enlisted.items ≠ [])
    (hnd : f.rf.enlisted.items.Nodup) (h : FHeap) (hfl : ∀ v, (h v).isControl = false)
    (hind : IndependentControls t.blocks f.rf.enlisted.items)
    (x₀ : Fin f.rf.enlisted.items.length → ℝ)
    (hsmooth : ∀ b ∈ t, (∃ d ∈ b.deps, Reach t.blocks (· ∈ f.rf.enlisted.items) d) →
      b.Smooth (saved (rfEval t.blocks f.rf.enlisted.items (List.ofFn x₀) h))
        (Reach t.blocks (· ∈ f.rf.enlisted.items)))
    (hon : ∀ c ∈ f.rf.enlisted.items, OnTape t.blocks c ∨ c = f.rf.J ∨ (h c).adj = none)
    (F : (Fin f.rf.enlisted.items.length → ℝ) → ℝ)
    (hF : ∀ x, (f.call (floatCodecs f.rf.enlisted.items) t.blocks (List.ofFn x) h).map (·.1) = .ok (F x))
    (y : ℝ) (h₁ : FHeap)
    (hcall : f.call (floatCodecs f.rf.enlisted.items) t.blocks (List.ofFn x₀) h = .ok (y, h₁))
    (m : Option (List ℝ)) :
    ∃ grad : Fin f.rf.enlisted.items.length → ℝ,
      (f.derivative (floatCodecs f.rf.enlisted.items) t.blocks m h₁).1 = .ok (List.ofFn grad) ∧
      HasFDerivAt F (∑ i, grad i •
        (ContinuousLinearMap.proj i : (Fin f.rf.enlisted.items.length → ℝ) →L[ℝ] ℝ)) x₀ := by
  have hc : ∀ x : Fin f.rf.enlisted.items.length → ℝ,
      f.call (floatCodecs f.rf.enlisted.items) t.blocks (List.ofFn x) h
        = .ok (saved (rfEval t.blocks f.rf.enlisted.items (List.ofFn x) h) f.rf.J * f.rf.scale,
            rfEval t.blocks f.rf.enlisted.items (List.ofFn x) h) := by
    intro x
    unfold NpRF.call
    rw [(flat_array_floats f.rf.enlisted.items (List.ofFn x)).1]
    simp only [List.length_ofFn, Nat.le_refl, if_true]
    rw [List.take_of_length_le (by simp)]
    simp [RF.call, rfCall, Enlist.of]
  have hF' : F = fun x => 1 * rfValue t f.rf.J f.rf.enlisted.items f.rf.scale h x := by
    funext x
    have := hF x
    rw [hc x] at this
    rw [one_mul, rfValue_eq]
    exact (Except.ok.inj this).symm
  rw [hc x₀] at hcall
  cases hcall
  obtain ⟨grad, h1, h2⟩ := gradient_exact_adjfloat t wf f.rf.J f.rf.enlisted.items hnd h hfl hind
    f.rf.scale 1 x₀ hsmooth hon (saved (rfEval t.blocks f.rf.enlisted.items (List.ofFn x₀) h) f.rf.J * f.rf.scale)
    (rfEval t.blocks f.rf.enlisted.items (List.ofFn x₀) h) (by simp [rfCall])
  refine ⟨grad, ?_, hF' ▸ h2⟩
  rw [numpy_derivative_floats f t.blocks m _ hcomp hne]
  rw [← h1]; rfl

/-- The hypotheses of `numpy_gradient_exact` hold for `exF` at every point. -/
example (x₀ : Fin 2 → ℝ) :
    let f : NpRF ℝ := { rf := { J := 4, controls := .list [0, 1], scale := 1 } }
    f.rf.enlisted.items = [0, 1] ∧ f.rf.enlisted.items.Nodup ∧
      IndependentControls exF.blocks f.rf.enlisted.items ∧
      (∃ y h₁, f.call (floatCodecs [0, 1]) exF.blocks (List.ofFn x₀) exFHeap = .ok (y, h₁)) ∧
      ∀ x : Fin 2 → ℝ, (f.call (floatCodecs [0, 1]) exF.blocks (List.ofFn x) exFHeap).map (·.1)
        = .ok (Real.exp (x 0 * x 1) + x 0) := by
  refine ⟨rfl, by decide, exF_independent, ⟨_, _, rfl⟩, fun x => ?_⟩
  show Except.ok ((Real.exp (x 0 * x 1) + x 0) * 1) = _
  rw [mul_one]

/-- **`rf_np.derivative(m)` ignores `m`.** After `rf_np([x])` for `J = x²`, `rf_np.derivative([y])` is the
gradient at `x`, whatever `y` is. -/
theorem numpy_derivative_ignores_point (x y : ℝ) :
    ∃ h, ((({ rf := sqRF 1 } : NpRF ℝ).call (floatCodecs [0]) sqTape.blocks [x] unitHeap)
        = .ok (x * x * 1, h)) ∧
      (({ rf := sqRF 1 } : NpRF ℝ).derivative (floatCodecs [0]) sqTape.blocks (some [y]) h).1
        = .ok [2 * x] := by
  refine ⟨_, rfl, ?_⟩
  show Except.ok [1 * 1 * x + 1 * 1 * x] = _
  congr 2; ring

/-- **`rf_np.hessian` discards the adjoint values.** On the working tape, `J = x²`: after `rf_np.hessian`, a
Hessian call of the underlying functional no longer gives `2d` but the `TypeError` of a missing adjoint
value. -/
theorem numpy_hessian_discards_adjoint (x d : ℝ) :
    ∃ r h, (({ rf := sqRF 1 } : NpRF ℝ).hessian (floatCodecs [0]) sqTape sqTape none [d]
        (rfEval sqTape.blocks [0] [x] unitHeap)) = .ok ([r], h) ∧ r = 2 * d ∧
      ((sqRF 1).hessian sqTape (.single d) h).map (·.1) = .error .typeError := by
  refine ⟨_, _, rfl, ?_, ?_⟩
  · show (((1 : ℝ) * 1) * d + 0 * x) + ((1 * 1) * d + 0 * x) = _
    ring
  · rfl

end Pyadjoint
