import Verif.Props.PlainReturns

/-!
# Tangents with Python numbers are returned (C60, C61)
-/

namespace Pyadjoint

open PyNum

attribute [local simp] saved_eraseKinds

/-- Every tangent value on the tape belongs to a variable in `R` and is not an `int`. -/
def TlmFloats (t : FTape) (R : BV → Prop) (h : PHeap) : Prop :=
  ∀ v, OnTape t.blocks v → ∀ a, (h v).tlm = some a → a.kind ≠ .int ∧ R v

/-- Everything but tangent and Hessian values is the same. -/
def SameValues (h g : PHeap) : Prop :=
  ∀ v, (g v).output = (h v).output ∧ (g v).ckpt = (h v).ckpt ∧ (g v).adj = (h v).adj ∧ (g v).marked = (h v).marked

theorem SameValues.refl (h : PHeap) : SameValues h h := fun _ => ⟨rfl, rfl, rfl, rfl⟩

theorem SameValues.trans {h g k : PHeap} (a : SameValues h g) (b : SameValues g k) : SameValues h k := fun v =>
  let ⟨a1, a2, a3, a4⟩ := a v
  let ⟨b1, b2, b3, b4⟩ := b v
  ⟨b1.trans a1, b2.trans a2, b3.trans a3, b4.trans a4⟩

theorem SameValues.saved {h g : PHeap} (a : SameValues h g) (v : BV) : saved g v = saved h v := by
  obtain ⟨h1, h2, _⟩ := a v
  unfold Pyadjoint.saved
  rw [h1, h2]

theorem sameValues_addTlm (h : PHeap) (w : BV) (a : PyNum) : SameValues h (addTlm h w a) := by
  intro v
  unfold addTlm
  by_cases hv : v = w
  · subst hv; simp
  · rw [Function.update_of_ne hv]; simp

theorem TlmFloats.addTlm {t : FTape} {R : BV → Prop} {h : PHeap} (hf : TlmFloats t R h) {w : BV} (hw : R w) {a : PyNum}
    (ha : a.kind ≠ .int) : TlmFloats t R (addTlm h w a) := by
  intro v hv x hx
  unfold Pyadjoint.addTlm at hx
  by_cases e : v = w
  · subst e
    rw [Function.update_self] at hx
    simp only at hx
    refine ⟨?_, hw⟩
    cases hy : (h v).tlm with
    | none => rw [hy] at hx; cases hx; exact ha
    | some y =>
      rw [hy] at hx
      cases hx
      rw [add_kind, ne_eq, Kind.join_int]
      exact fun k => ha k.2
  · rw [Function.update_of_ne e] at hx
    exact hf v hv x hx

theorem addTlmWith_returns {t : FTape} {R : BV → Prop} {h : PHeap} (hf : TlmFloats t R h) {o : BV} (ho : R o) {x : Option PyNum}
    {f : PyNum → Except NumErr PyNum} (hc : ∀ y, x = some y → ∃ v, v.kind ≠ .int ∧ f y = .ok v) :
    ∃ h', addTlmWith h o x f = .ok h' ∧ TlmFloats t R h' ∧ SameValues h h' := by
  cases x with
  | none => exact ⟨h, rfl, hf, .refl h⟩
  | some y =>
    obtain ⟨v, hv, e⟩ := hc y rfl
    refine ⟨addTlm h o v, ?_, hf.addTlm ho hv, sameValues_addTlm h o v⟩
    simp only [addTlmWith, e]
    rfl

theorem addTlmWith_none (h : PHeap) (o : BV) (f : PyNum → Except NumErr PyNum) : addTlmWith h o none f = .ok h := rfl

theorem UOp.tlmNum_eq (op : UOp) (x l : PyNum) : op.tlmNum x l = op.adjNum x l := by cases op <;> rfl

/-- The methods of `SubBlock`, `DivBlock` and `PowBlock` apply the same components as their adjoints. -/
theorem kEvaluateTlm_sub (a c o : BV) (m : Bool) (h : PHeap) : (FBlock.bin .sub a c o).kEvaluateTlm m h = (do
    let g ← addTlmWith h o (h a).tlm fun t => BOp.adjNum .sub (saved h a) (saved h c) t 0
    addTlmWith g o (g c).tlm fun t => BOp.adjNum .sub (saved g a) (saved g c) t 1) := by
  simp only [FBlock.kEvaluateTlm, BOp.adjNum, if_true, one_ne_zero, if_false]

theorem kEvaluateTlm_div (a c o : BV) (m : Bool) (h : PHeap) : (FBlock.bin .div a c o).kEvaluateTlm m h = (do
    let g ← addTlmWith h o (h a).tlm fun t => BOp.adjNum .div (saved h a) (saved h c) t 0
    addTlmWith g o (g c).tlm fun t => BOp.adjNum .div (saved g a) (saved g c) t 1) := by
  simp only [FBlock.kEvaluateTlm, BOp.adjNum, if_true, one_ne_zero, if_false]

theorem kEvaluateTlm_pow (a c o : BV) (m : Bool) (h : PHeap) : (FBlock.bin .pow a c o).kEvaluateTlm m h = (do
    let g ← addTlmWith h o (h a).tlm fun t => BOp.adjNum .pow (saved h a) (saved h c) t 0
    addTlmWith g o (g c).tlm fun t => BOp.adjNum .pow (saved h a) (saved h c) t 1) := by
  simp only [FBlock.kEvaluateTlm, BOp.adjNum, if_true, one_ne_zero, if_false]

theorem addTlmStep_returns {acc : PyNum} (ha : acc.kind ≠ .int) (x : Option PyNum) : (addTlmStep acc x).kind ≠ .int := by
  cases x with
  | none => exact ha
  | some y =>
    rw [addTlmStep, add_kind, ne_eq, Kind.join_int]
    exact fun k => ha k.1

theorem mulTlmStep_returns {acc other : PyNum} (ha : acc.kind ≠ .int) {x : Option PyNum} (hx : ∀ y, x = some y → y.kind ≠ .int) :
    ∃ v, v.kind ≠ .int ∧ mulTlmStep acc x other = .ok v := by
  cases x with
  | none => exact ⟨acc, ha, rfl⟩
  | some y =>
    refine ⟨acc + ofFloat (y.val * other.val), ?_, ?_⟩
    · rw [add_kind, ne_eq, Kind.join_int]
      exact fun k => ha k.1
    · exact Except.bind_ok.2 ⟨_, fmul_ok.2 ⟨hx y rfl, rfl⟩, rfl⟩

theorem FBlock.dep_onTape {t : FTape} {b : FBlock} (hb : b ∈ t) {d : BV} (hd : d ∈ b.deps) : OnTape t.blocks d :=
  ⟨b.toBlock, List.mem_map_of_mem hb, Or.inl (by rw [b.toBlock_deps]; exact hd)⟩

theorem FBlock.kEvaluateTlm_returns {t : FTape} {cs : List BV} {b : FBlock} (hb : b ∈ t)
    {S : BV → Prop} (safe : AdjIntSafe t S (Reach t.blocks (· ∈ cs))) {h : PHeap}
    (hS : ∀ v, (saved h v).kind = .int → S v)
    (hsmooth : (∃ d ∈ b.deps, Reach t.blocks (· ∈ cs) d) → b.Smooth (saved (eraseKinds h)) (Reach t.blocks (· ∈ cs)))
    (hf : TlmFloats t (Reach t.blocks (· ∈ cs)) h) (m : Bool) :
    ∃ h', b.kEvaluateTlm m h = .ok h' ∧ TlmFloats t (Reach t.blocks (· ∈ cs)) h' ∧ SameValues h h' := by
  have hout : ∀ d ∈ b.deps, Reach t.blocks (· ∈ cs) d → Reach t.blocks (· ∈ cs) b.out := fun d hd hr =>
    .step (List.mem_map_of_mem hb) (by rw [b.toBlock_deps]; exact hd) hr ((b.mem_outs _).2 rfl)
  have hdep : ∀ d ∈ b.deps, ∀ x, (h d).tlm = some x → x.kind ≠ .int ∧ Reach t.blocks (· ∈ cs) d := fun d hd x hx =>
    hf d (b.dep_onTape hb hd) x hx
  have comp : ∀ g : PHeap, SameValues h g → ∀ v i, b.deps[i]? = some v → Reach t.blocks (· ∈ cs) v → ∀ l : PyNum, l.kind ≠ .int →
      ∃ w : PyNum, w.kind ≠ .int ∧ b.adjNum g l i = .ok w := by
    intro g hg v i hi hv l hl
    have hse : saved (eraseKinds g) = saved (eraseKinds h) := by
      funext v; rw [saved_eraseKinds, saved_eraseKinds, hg.saved]
    refine FBlock.adjNum_returns hb safe (fun v hv => hS v (by rw [← hg.saved]; exact hv)) ?_ v i hi hv l hl
    rw [hse]; exact hsmooth
  cases b with
  | un op a o =>
    simp only [FBlock.kEvaluateTlm]
    cases hx : (h a).tlm with
    | none => exact ⟨h, rfl, hf, .refl h⟩
    | some x =>
      simp only
      split
      · obtain ⟨k1, k2⟩ := hdep a (by simp [FBlock.deps]) x hx
        obtain ⟨v, v1, v2⟩ := comp h (.refl h) a 0 (by simp [FBlock.deps]) k2 x k1
        refine ⟨addTlm h o v, ?_, hf.addTlm (hout a (by simp [FBlock.deps]) k2) v1, sameValues_addTlm h o v⟩
        rw [UOp.tlmNum_eq]
        exact Except.bind_ok.2 ⟨v, v2, rfl⟩
      · exact ⟨h, rfl, hf, .refl h⟩
  | bin op a c o =>
    have ha := hdep a (by simp [FBlock.deps])
    have hc := hdep c (by simp [FBlock.deps])
    have oa := hout a (by simp [FBlock.deps])
    have oc := hout c (by simp [FBlock.deps])
    -- the three overrides
    have two : ∀ f₀ f₁ : PHeap → PyNum → Except NumErr PyNum,
        (∀ x, x.kind ≠ .int → Reach t.blocks (· ∈ cs) a → ∃ v, v.kind ≠ .int ∧ f₀ h x = .ok v) →
        (∀ g, SameValues h g → ∀ x, x.kind ≠ .int → Reach t.blocks (· ∈ cs) c → ∃ v, v.kind ≠ .int ∧ f₁ g x = .ok v) →
        ∃ h', (do
          let g ← addTlmWith h o (h a).tlm (f₀ h)
          addTlmWith g o (g c).tlm (f₁ g)) = Except.ok h' ∧ TlmFloats t (Reach t.blocks (· ∈ cs)) h' ∧ SameValues h h' := by
      intro f₀ f₁ h0 h1
      have first : ∃ g, addTlmWith h o (h a).tlm (f₀ h) = .ok g ∧ TlmFloats t (Reach t.blocks (· ∈ cs)) g ∧ SameValues h g := by
        cases hx : (h a).tlm with
        | none => exact ⟨h, rfl, hf, .refl h⟩
        | some x =>
          obtain ⟨k1, k2⟩ := ha x hx
          exact addTlmWith_returns hf (oa k2) fun y hy => by cases hy; exact h0 x k1 k2
      obtain ⟨g, g1, g2, g3⟩ := first
      cases hy : (g c).tlm with
      | none =>
        refine ⟨g, Except.bind_ok.2 ⟨g, g1, ?_⟩, g2, g3⟩
        rw [hy]; rfl
      | some y =>
        obtain ⟨k1, k2⟩ := g2 c (FBlock.dep_onTape hb (by simp [FBlock.deps])) y hy
        obtain ⟨g', e1, e2, e3⟩ := addTlmWith_returns g2 (oc k2) (x := some y) (f := f₁ g) fun z hz => by cases hz; exact h1 g g3 y k1 k2
        refine ⟨g', Except.bind_ok.2 ⟨g, g1, ?_⟩, e2, g3.trans e3⟩
        rw [hy]; exact e1
    have simple : ∀ v : Option PyNum, op.tlmNum (saved h a) (saved h c) (h a).tlm (h c).tlm = .ok v →
        (∀ w, v = some w → w.kind ≠ .int) →
        ∃ h', (if (h a).tlm.isNone && (h c).tlm.isNone then Except.ok h else
          if (h o).marked || !m then do
            let v ← op.tlmNum (saved h a) (saved h c) (h a).tlm (h c).tlm
            pure (addTlm? h o v)
          else Except.ok h) = .ok h' ∧ TlmFloats t (Reach t.blocks (· ∈ cs)) h' ∧ SameValues h h' := by
      intro v hv hk
      split
      · exact ⟨h, rfl, hf, .refl h⟩
      · rename_i hne
        split
        · have ho : Reach t.blocks (· ∈ cs) o := by
            cases hx : (h a).tlm with
            | some x => exact oa (ha x hx).2
            | none =>
              cases hy : (h c).tlm with
              | some y => exact oc (hc y hy).2
              | none => exact absurd (by rw [hx, hy]; rfl) hne
          cases v with
          | none => exact ⟨h, Except.bind_ok.2 ⟨_, hv, rfl⟩, hf, .refl h⟩
          | some w => exact ⟨addTlm h o w, Except.bind_ok.2 ⟨_, hv, rfl⟩, hf.addTlm ho (hk w rfl), sameValues_addTlm h o w⟩
        · exact ⟨h, rfl, hf, .refl h⟩
    cases op with
    | sub =>
      rw [kEvaluateTlm_sub]
      exact two (fun g t => BOp.adjNum .sub (saved g a) (saved g c) t 0) (fun g t => BOp.adjNum .sub (saved g a) (saved g c) t 1)
        (fun x hx hr => comp h (.refl h) a 0 rfl hr x hx) (fun g hg x hx hr => comp g hg c 1 rfl hr x hx)
    | div =>
      rw [kEvaluateTlm_div]
      exact two (fun g t => BOp.adjNum .div (saved g a) (saved g c) t 0) (fun g t => BOp.adjNum .div (saved g a) (saved g c) t 1)
        (fun x hx hr => comp h (.refl h) a 0 rfl hr x hx) (fun g hg x hx hr => comp g hg c 1 rfl hr x hx)
    | pow =>
      rw [kEvaluateTlm_pow]
      exact two (fun g t => BOp.adjNum .pow (saved g a) (saved g c) t 0) (fun _ t => BOp.adjNum .pow (saved h a) (saved h c) t 1)
        (fun x hx hr => comp h (.refl h) a 0 rfl hr x hx) (fun _ _ x hx hr => comp h (.refl h) c 1 rfl hr x hx)
    | add =>
      refine simple _ rfl fun w hw => ?_
      cases hw
      exact addTlmStep_returns (addTlmStep_returns (by simp) _) _
    | mul =>
      obtain ⟨v₁, k1, e1⟩ := mulTlmStep_returns (acc := ofFloat 0) (other := saved h c) (by simp) fun y hy => (ha y hy).1
      obtain ⟨v₂, k2, e2⟩ := mulTlmStep_returns (acc := v₁) (other := saved h a) k1 fun y hy => (hc y hy).1
      refine simple (some v₂) (Except.bind_ok.2 ⟨v₁, e1, Except.bind_ok.2 ⟨v₂, e2, rfl⟩⟩) fun w hw => ?_
      cases hw
      exact k2
    | min =>
      refine simple _ rfl fun w hw => ?_
      split at hw
      · exact (ha w hw).1
      · exact (hc w hw).1
    | max =>
      refine simple _ rfl fun w hw => ?_
      split at hw
      · exact (ha w hw).1
      · exact (hc w hw).1

theorem tangent_sweep_returns {t : FTape} {cs : List BV} {S : BV → Prop} (safe : AdjIntSafe t S (Reach t.blocks (· ∈ cs))) (m : Bool)
    (l : List FBlock) (hl : ∀ b ∈ l, b ∈ t) (h : PHeap) (hS : ∀ v, (saved h v).kind = .int → S v)
    (hsmooth : ∀ b ∈ l, (∃ d ∈ b.deps, Reach t.blocks (· ∈ cs) d) → b.Smooth (saved (eraseKinds h)) (Reach t.blocks (· ∈ cs)))
    (hf : TlmFloats t (Reach t.blocks (· ∈ cs)) h) :
    ∃ h', l.foldlM (fun h b => b.kEvaluateTlm m h) h = .ok h' ∧ TlmFloats t (Reach t.blocks (· ∈ cs)) h' ∧ SameValues h h' := by
  induction l generalizing h with
  | nil => exact ⟨h, rfl, hf, .refl h⟩
  | cons b l ih =>
    obtain ⟨h₁, a1, a2, a3⟩ := FBlock.kEvaluateTlm_returns (hl b (by simp)) safe hS (hsmooth b (by simp)) hf m
    have hse : saved (eraseKinds h₁) = saved (eraseKinds h) := by
      funext v; rw [saved_eraseKinds, saved_eraseKinds, a3.saved]
    obtain ⟨h₂, b1, b2, b3⟩ := ih (fun b hb => hl b (by simp [hb])) h₁ (fun v hv => hS v (by rw [← a3.saved]; exact hv))
      (fun b hb => by rw [hse]; exact hsmooth b (by simp [hb])) a2
    refine ⟨h₂, ?_, b2, a3.trans b3⟩
    rw [List.foldlM_cons, a1]
    exact b1

theorem seedTlm_floats {t : FTape} (cs : List BV) (ds : List PyNum) (hds : ∀ d ∈ ds, d.kind ≠ .int) (h : PHeap)
    (hf : TlmFloats t (Reach t.blocks (· ∈ cs)) h) : TlmFloats t (Reach t.blocks (· ∈ cs)) (seedTlm cs ds h) := by
  unfold seedTlm
  have key : ∀ (l : List (BV × PyNum)) (h : PHeap), (∀ p ∈ l, p.1 ∈ cs ∧ p.2.kind ≠ .int) → TlmFloats t (Reach t.blocks (· ∈ cs)) h →
      TlmFloats t (Reach t.blocks (· ∈ cs)) (l.foldl (fun h p => Function.update h p.1 { h p.1 with tlm := some p.2 }) h) := by
    intro l
    induction l with
    | nil => exact fun h _ hf => hf
    | cons p l ih =>
      intro h hl hf
      refine ih _ (fun q hq => hl q (by simp [hq])) ?_
      intro v hv a ha
      dsimp only at ha
      obtain ⟨p1, p2⟩ := hl p (by simp)
      by_cases e : v = p.1
      · subst e
        rw [Function.update_self] at ha
        cases ha
        exact ⟨p2, .base p1⟩
      · rw [Function.update_of_ne e] at ha
        exact hf v hv a ha
  exact key _ h (fun p hp => ⟨(List.of_mem_zip hp).1, hds _ (List.of_mem_zip hp).2⟩) hf

theorem sameValues_seedTlm (cs : List BV) (ds : List PyNum) (h : PHeap) : SameValues h (seedTlm cs ds h) := by
  unfold seedTlm
  generalize cs.zip ds = l
  induction l generalizing h with
  | nil => exact .refl h
  | cons p l ih =>
    refine SameValues.trans ?_ (ih _)
    intro v
    dsimp only
    by_cases e : v = p.1
    · subst e; simp
    · rw [Function.update_of_ne e]; simp

theorem sameValues_reset (bs : Blocks PyNum PyNum PyNum) (ty : ResetType) (hty : ty = .tlm ∨ ty = .hessian) (h : PHeap) :
    SameValues h (resetVariables bs ty h) := by
  intro v
  rw [resetVariables_apply]
  rcases hty with rfl | rfl <;> split <;> exact ⟨rfl, rfl, rfl, rfl⟩

/-- **C60 and C61 for tangents.** Directions that are `float`s or `AdjFloat`s: if every operation that depends on the controls is
differentiable and no `int` is stored at a denominator or base (`AdjIntSafe`), the tangent sweep returns and stores the directional
derivative of every variable on the tape. -/
theorem tangent_returns {t : FTape} (wf : WF t.blocks) (cs : List BV) (hnd : cs.Nodup) {h : PHeap}
    (hfl : ∀ v, (h v).isControl = false) (hind : IndependentControls t.blocks cs) (xs : List PyNum)
    {S : BV → Prop} (safe : IntSafe t S) (ok : KindsOk t S h) (hargs : ArgsOk t S cs xs)
    (x₀ : Fin cs.length → ℝ) (hx : xs.map PyNum.val = List.ofFn x₀) (hret : (pyEval t cs xs h).2 = none)
    (hadj : AdjIntSafe t S (Reach t.blocks (· ∈ cs)))
    (hsmooth : ∀ b ∈ t, (∃ d ∈ b.deps, Reach t.blocks (· ∈ cs) d) →
      b.Smooth (saved (rfEval t.blocks cs (List.ofFn x₀) (eraseKinds h))) (Reach t.blocks (· ∈ cs)))
    (ds : List PyNum) (hds : ∀ d ∈ ds, d.kind ≠ .int) (dir : Fin cs.length → ℝ) (hdir : ds.map PyNum.val = List.ofFn dir) :
    ∃ h', kEvaluateTlm t false (seedTlm cs ds (resetVariables (t.map FBlock.shape) .tlm (pyEval t cs xs h).1)) = .ok h' ∧
      ∀ v, OnTape t.blocks v → HasDerivAt (fun s : ℝ => saved (rfEval t.blocks cs (List.ofFn (x₀ + s • dir)) (eraseKinds h)) v)
        ((((h' v).tlm).map PyNum.val).getD 0) 0 := by
  obtain ⟨ok', _, _, hspec, _⟩ := plain_numbers_partial wf safe ok cs xs hargs
  have he := hspec hret
  rw [hx] at he
  set h₁ := (pyEval t cs xs h).1 with hh₁
  have sb : SameValues h₁ (seedTlm cs ds (resetVariables (t.map FBlock.shape) .tlm h₁)) :=
    (sameValues_reset _ _ (Or.inl rfl) h₁).trans (sameValues_seedTlm _ _ _)
  have hse : saved (eraseKinds (seedTlm cs ds (resetVariables (t.map FBlock.shape) .tlm h₁)))
      = saved (rfEval t.blocks cs (List.ofFn x₀) (eraseKinds h)) := by
    funext v; rw [saved_eraseKinds, sb.saved, ← saved_eraseKinds, he]
  obtain ⟨h', e1, _, _⟩ := tangent_sweep_returns hadj false t (fun b hb => hb) _
    (fun v hv => ok'.saved_int (by rw [← sb.saved]; exact hv)) (by rw [hse]; exact hsmooth)
    (seedTlm_floats cs ds hds _ (fun v hv a ha => by
      rw [resetVariables_apply, if_pos ((shape_onTape t v).2 hv)] at ha
      cases ha))
  refine ⟨h', e1, fun v hv => ?_⟩
  have := tangent_stored t false _ _ e1
  have k := (tlm_exact t wf cs hnd (eraseKinds h) hfl hind x₀ dir hsmooth v hv).1
  rw [← eraseKinds_tlm, this, eraseKinds_seedTlm, eraseKinds_reset, he, hdir]
  exact k

end Pyadjoint
