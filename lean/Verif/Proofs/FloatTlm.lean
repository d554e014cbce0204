import Verif.Proofs.FloatCalc
import Verif.Proofs.GradientExact

/-! The tangent linear sweep over `AdjFloat` blocks. -/

namespace Pyadjoint

theorem FBlock.mem_outs (blk : FBlock) (v : BV) : v ∈ blk.toBlock.outs ↔ v = blk.out := by
  cases blk <;> simp [toBlock, out]

theorem FBlock.toBlock_deps (blk : FBlock) : blk.toBlock.deps = blk.deps := by
  cases blk <;> rfl

/-- Tangent value of the output after the block, from the values and tangents of the operands. -/
noncomputable def FBlock.tlmNew (blk : FBlock) (rel : Bool) (val : BV → ℝ) (tl : BV → Option ℝ)
    (o : Option ℝ) : Option ℝ :=
  match blk with
  | un op a _ => if rel then accum o ((tl a).map (op.tlmC (val a))) else o
  | bin .sub a b _ => accum (accum o (tl a)) ((tl b).map fun t => -t)
  | bin .div a b _ => accum (accum o ((tl a).map fun t => t * (1 / val b)))
      ((tl b).map fun t => t * (-(val a / (val b) ^ 2)))
  | bin .pow a b _ => accum (accum o ((tl a).map fun t => (t * val b) * val a ^ (val b - 1)))
      ((tl b).map fun t => (t * Real.log (val a)) * val a ^ val b)
  | bin op a b _ =>
    if rel && ((tl a).isSome || (tl b).isSome) then
      accum o (op.tlmC (val a) (val b) (tl a) (tl b)) else o

theorem addTlm?_apply {V T A : Type*} [Add T] (h : Heap V T A) (o : BV) (x : Option T) (v : BV) :
    addTlm? h o x v = if v = o then { h v with tlm := accum (h v).tlm x } else h v := by
  rw [addTlm?_eq]
  by_cases hv : v = o
  · subst hv; simp
  · simp [hv]

theorem entries_singleton (o : BV) : entries [o] o = [(o, 0)] := by simp [entries]

theorem FBlock.evaluateTlm_apply (blk : FBlock) (m : Bool) (h : FHeap) (hself : blk.out ∉ blk.deps)
    (v : BV) : blk.evaluateTlm m h v =
      if v = blk.out then { h v with tlm := blk.tlmNew ((h v).marked || !m) (saved h) (fun d => (h d).tlm) (h v).tlm }
      else h v := by
  have default : ∀ b : FBlock, (∀ a c o, b ≠ bin .sub a c o ∧ b ≠ bin .div a c o ∧ b ≠ bin .pow a c o) →
      b.toBlock.evaluateTlm m h v =
      if v = b.out then { h v with tlm := b.tlmNew ((h v).marked || !m) (saved h) (fun d => (h d).tlm) (h v).tlm }
      else h v := by
    intro b hb
    rw [Block.evaluateTlm_apply]
    unfold Block.tlmAfter
    by_cases hv : v = b.out
    · rw [if_pos hv]
      cases b with
      | un op a o =>
        simp only [out] at hv; subst hv
        simp only [toBlock, entries_singleton, tlmNew]
        cases hta : (h a).tlm <;> simp [hta, accum]
      | bin op a c o =>
        simp only [out] at hv; subst hv
        have := hb a c v
        cases op <;> simp only [toBlock, entries_singleton, tlmNew] <;>
          first
          | (cases hta : (h a).tlm <;> cases htc : (h c).tlm <;> simp [hta, htc] <;> done)
          | simp at this
    · rw [if_neg hv, entries_nil_of_not_mem (by rw [mem_outs]; exact hv)]
      simp
  cases blk with
  | un op a o => exact default _ (by simp)
  | bin op a b o =>
    have ha : a ≠ o := by rintro rfl; simp [out, deps] at hself
    have hb : b ≠ o := by rintro rfl; simp [out, deps] at hself
    cases op
    case sub | div | pow =>
      have e : ∀ o', FBlock.out (bin o' a b o) = o := fun _ => rfl
      by_cases hv : v = o
      · subst hv
        rw [e, if_pos rfl]
        simp [evaluateTlm, addTlm?_apply, tlmNew, hb, saved, ha]
      · rw [e, if_neg hv]
        simp [evaluateTlm, addTlm?_apply, hv]
    all_goals exact default _ (by simp)

/-- Variables no block produces keep their tangent. -/
theorem FTape.evaluateTlm_of_not_out (t : FTape) (m : Bool) (h : FHeap) (v : BV)
    (hself : ∀ b ∈ t, b.out ∉ b.deps) (hv : ∀ b ∈ t, v ≠ b.out) : t.evaluateTlm m h v = h v := by
  unfold FTape.evaluateTlm
  induction t generalizing h with
  | nil => rfl
  | cons b t ih =>
    rw [List.foldl_cons, ih _ (fun b' hb' => hself b' (by simp [hb']))
      (fun b' hb' => hv b' (by simp [hb'])), b.evaluateTlm_apply m h (hself b (by simp)),
      if_neg (hv b (by simp))]

theorem FTape.evaluateTlm_frame (t : FTape) (m : Bool) (h : FHeap) (v : BV)
    (hself : ∀ b ∈ t, b.out ∉ b.deps) : ∃ o, t.evaluateTlm m h v = { h v with tlm := o } := by
  unfold FTape.evaluateTlm
  induction t generalizing h with
  | nil => exact ⟨_, rfl⟩
  | cons b t ih =>
    obtain ⟨o, ho⟩ := ih (b.evaluateTlm m h) (fun b' hb' => hself b' (by simp [hb']))
    refine ⟨o, ?_⟩
    rw [List.foldl_cons, ho, b.evaluateTlm_apply m h (hself b (by simp))]
    split <;> rfl

theorem FTape.WF_self {t : FTape} (wf : WF t.blocks) : ∀ b ∈ t, b.out ∉ b.deps := by
  intro b hb hd
  refine wf.self b.toBlock (List.mem_map.2 ⟨b, hb, rfl⟩) b.out ?_ ?_
  · rw [b.toBlock_deps]; exact hd
  · rw [b.mem_outs]

theorem FTape.WF_tail {b : FBlock} {t : FTape} (wf : WF (FTape.blocks (b :: t))) : WF t.blocks :=
  WF.tail wf

theorem FTape.WF_head {b : FBlock} {t : FTape} (wf : WF (FTape.blocks (b :: t))) :
    ∀ b' ∈ t, (∀ d ∈ b.deps, d ≠ b'.out) ∧ b.out ≠ b'.out := by
  intro b' hb'
  obtain ⟨h1, h2⟩ := WF.head wf b'.toBlock (List.mem_map.2 ⟨b', hb', rfl⟩)
  refine ⟨fun d hd e => h1 d (by rw [b.toBlock_deps]; exact hd) ((b'.mem_outs d).2 e), fun e =>
    h2 b.out ((b.mem_outs _).2 rfl) ((b'.mem_outs _).2 e)⟩

theorem FBlock.tlmNew_congr (blk : FBlock) (rel : Bool) (val val' : BV → ℝ) (tl tl' : BV → Option ℝ)
    (o : Option ℝ) (hv : ∀ d ∈ blk.deps, val d = val' d) (ht : ∀ d ∈ blk.deps, tl d = tl' d) :
    blk.tlmNew rel val tl o = blk.tlmNew rel val' tl' o := by
  cases blk with
  | un op a _ => simp [tlmNew, hv a (by simp [deps]), ht a (by simp [deps])]
  | bin op a b _ =>
    cases op <;> simp [tlmNew, hv a (by simp [deps]), ht a (by simp [deps]),
      hv b (by simp [deps]), ht b (by simp [deps])]

/-- The sweep solves the tangent equation of every block. -/
theorem FTape.evaluateTlm_eq {t : FTape} (wf : WF t.blocks) (m : Bool) (h : FHeap) :
    ∀ b ∈ t, (t.evaluateTlm m h b.out).tlm
      = b.tlmNew ((h b.out).marked || !m) (saved h) (fun d => (t.evaluateTlm m h d).tlm)
          (h b.out).tlm := by
  induction t generalizing h with
  | nil => intro b hb; cases hb
  | cons c t ih =>
    intro b hb
    have e : FTape.evaluateTlm (c :: t) m h = FTape.evaluateTlm t m (c.evaluateTlm m h) := rfl
    have hs := FTape.WF_self wf
    have hst : ∀ b ∈ t, b.out ∉ b.deps := fun b hb => hs b (by simp [hb])
    have hc := c.evaluateTlm_apply m h (hs c (by simp))
    rw [e]
    rcases List.mem_cons.1 hb with rfl | hb
    · rw [FTape.evaluateTlm_of_not_out t m _ _ hst (fun b' hb' => (FTape.WF_head wf b' hb').2), hc,
        if_pos rfl]
      apply FBlock.tlmNew_congr _ _ _ _ _ _ _ (fun d _ => rfl)
      intro d hd
      rw [FTape.evaluateTlm_of_not_out t m _ _ hst (fun b' hb' => (FTape.WF_head wf b' hb').1 d hd), hc,
        if_neg (fun (e : d = b.out) => hs b (by simp) (e ▸ hd))]
    · rw [ih (FTape.WF_tail wf) _ b hb, hc, if_neg (fun e => (FTape.WF_head wf b hb).2 e.symm)]
      apply FBlock.tlmNew_congr _ _ _ _ _ _ _ _ (fun d _ => rfl)
      intro d _
      apply saved_congr <;> rw [hc] <;> split <;> rfl

/-- Linear combination of the operand tangents with the partial derivatives. -/
noncomputable def FBlock.lin {M : Type*} [AddCommMonoid M] [Module ℝ M] (blk : FBlock)
    (val : BV → ℝ) (D : BV → M) : M :=
  match blk with
  | un op a _ => op.adjC (val a) 1 • D a
  | bin op a b _ => op.adjC (val a) (val b) 1 0 • D a + op.adjC (val a) (val b) 1 1 • D b

theorem FBlock.tlmNew_none (blk : FBlock) (rel : Bool) (val : BV → ℝ) (tl : BV → Option ℝ)
    (o : Option ℝ) (h : ∀ d ∈ blk.deps, tl d = none) : blk.tlmNew rel val tl o = o := by
  cases blk with
  | un op a _ => simp [tlmNew, h a (by simp [deps]), accum]
  | bin op a b _ =>
    cases op <;> simp [tlmNew, h a (by simp [deps]), h b (by simp [deps]), accum]

theorem FBlock.tlmNew_getD (blk : FBlock) (val : BV → ℝ) (tl : BV → Option ℝ) :
    (blk.tlmNew true val tl none).getD 0 = blk.lin val fun d => (tl d).getD 0 := by
  cases blk with
  | un op a _ =>
    cases hta : tl a <;> cases op <;> simp [tlmNew, lin, hta, accum, UOp.tlmC, UOp.adjC]
    ring
  | bin op a b _ =>
    cases op
    case min =>
      by_cases hab : val a ≤ val b <;>
      cases hta : tl a <;> cases htb : tl b <;>
        simp [tlmNew, lin, hta, htb, accum, BOp.tlmC, BOp.adjC, hab]
    case max =>
      by_cases hab : val b ≤ val a <;>
      cases hta : tl a <;> cases htb : tl b <;>
        simp [tlmNew, lin, hta, htb, accum, BOp.tlmC, BOp.adjC, hab]
    all_goals
      cases hta : tl a <;> cases htb : tl b <;>
        simp [tlmNew, lin, hta, htb, accum, BOp.tlmC, BOp.adjC] <;> try ring

theorem FBlock.lin_of_dual {M : Type*} [AddCommMonoid M] [Module ℝ M] (blk : FBlock) (val : BV → ℝ)
    (D : BV → M)
    (hd : LocalDual (fun (a : ℝ) (t : M) => a • t) blk.toBlock (blk.toBlock.deps.map val) D) :
    D blk.out = blk.lin val D := by
  cases blk with
  | un op a o =>
    have := hd [some 1] rfl rfl
    simpa [toBlock, pv, lin, out] using this
  | bin op a b o =>
    have := hd [some 1] rfl rfl
    simpa [toBlock, pv, lin, out] using this

/-- The tangent linear sweep started with direction `dir` on the controls computes the directional
derivative of every variable of the replay. -/
theorem FTape.tlm_exact_aux {t : FTape} (wf : WF t.blocks) (cs : List BV)
    (val : BV → ℝ) (dir : BV → ℝ) (D : BV → ℝ)
    (hD0 : ∀ v, ¬ Reach t.blocks (· ∈ cs) v → D v = 0) (hDc : ∀ c ∈ cs, D c = dir c)
    (hDb : ∀ b ∈ t, (∃ d ∈ b.deps, Reach t.blocks (· ∈ cs) d) → D b.out = b.lin val D)
    (hind : ∀ b ∈ t, (∃ d ∈ b.deps, Reach t.blocks (· ∈ cs) d) → b.out ∉ cs)
    (m : Bool) (h : FHeap) (hval : ∀ v, saved h v = val v)
    (hm : ∀ v, Reach t.blocks (· ∈ cs) v → ((h v).marked || !m) = true)
    (hseed : ∀ c ∈ cs, (h c).tlm.getD 0 = dir c) (hrest : ∀ v, OnTape t.blocks v → v ∉ cs → (h v).tlm = none) :
    ∀ v, OnTape t.blocks v ∨ v ∈ cs → (t.evaluateTlm m h v).tlm.getD 0 = D v ∧
      (¬ Reach t.blocks (· ∈ cs) v → (t.evaluateTlm m h v).tlm = none) := by
  have hs := FTape.WF_self wf
  apply tape_induction wf (P := fun v => OnTape t.blocks v ∨ v ∈ cs →
    (t.evaluateTlm m h v).tlm.getD 0 = D v ∧
      (¬ Reach t.blocks (· ∈ cs) v → (t.evaluateTlm m h v).tlm = none))
  · intro v hv hon
    have hv' : ∀ b ∈ t, v ≠ b.out := fun b hb e =>
      hv b.toBlock (List.mem_map.2 ⟨b, hb, rfl⟩) ((b.mem_outs v).2 e)
    rw [FTape.evaluateTlm_of_not_out t m h v hs hv']
    by_cases hc : v ∈ cs
    · exact ⟨by rw [hseed v hc, hDc v hc], fun hr => absurd (Reach.base hc) hr⟩
    · have hr : ¬ Reach t.blocks (· ∈ cs) v := by
        intro hr
        cases hr with
        | base h => exact hc h
        | step hb _ _ ho => exact hv _ hb ho
      have := hrest v (hon.resolve_right hc) hc
      exact ⟨by rw [hD0 v hr, this]; rfl, fun _ => this⟩
  · intro b' hb' ih o ho _
    obtain ⟨b, hb, rfl⟩ := List.mem_map.1 hb'
    rw [b.mem_outs] at ho
    subst ho
    rw [b.toBlock_deps] at ih
    have hon : ∀ d ∈ b.deps, OnTape t.blocks d := fun d hd =>
      ⟨b.toBlock, hb', Or.inl (by rw [b.toBlock_deps]; exact hd)⟩
    have hono : OnTape t.blocks b.out := ⟨b.toBlock, hb', Or.inr ((b.mem_outs _).2 rfl)⟩
    rw [FTape.evaluateTlm_eq wf m h b hb]
    by_cases hd : ∃ d ∈ b.deps, Reach t.blocks (· ∈ cs) d
    · have hoc := hind b hb hd
      obtain ⟨d, hd', hr⟩ := hd
      have hro : Reach t.blocks (· ∈ cs) b.out :=
        Reach.step hb' (by rw [b.toBlock_deps]; exact hd') hr ((b.mem_outs _).2 rfl)
      refine ⟨?_, fun h => absurd hro h⟩
      rw [hm _ hro, hrest _ hono hoc, FBlock.tlmNew_getD, hDb b hb ⟨d, hd', hr⟩]
      have e : ∀ d ∈ b.deps, (t.evaluateTlm m h d).tlm.getD 0 = D d := fun d hd =>
        (ih d hd (Or.inl (hon d hd))).1
      cases b with
      | un op a _ => simp only [FBlock.lin, hval, e a (by simp [FBlock.deps])]
      | bin op a b _ =>
        simp only [FBlock.lin, hval, e a (by simp [FBlock.deps]), e b (by simp [FBlock.deps])]
    · push Not at hd
      rw [FBlock.tlmNew_none _ _ _ _ _ fun d hd' => (ih d hd' (Or.inl (hon d hd'))).2 (hd d hd')]
      by_cases hc : b.out ∈ cs
      · exact ⟨by rw [hseed _ hc, hDc _ hc], fun hr => absurd (Reach.base hc) hr⟩
      · have hr : ¬ Reach t.blocks (· ∈ cs) b.out := by
          intro hr
          cases hr with
          | base h => exact hc h
          | step hb2 hd2 hr2 ho2 =>
            have := WF.unique_producer wf hb2 hb' ho2 ((b.mem_outs _).2 rfl)
            subst this
            rw [b.toBlock_deps] at hd2
            exact hd _ hd2 hr2
        have := hrest _ hono hc
        exact ⟨by rw [hD0 _ hr, this]; rfl, fun _ => this⟩

theorem seedTlm_of_not_mem {V T A : Type*} (cs : List BV) (ds : List T) (h : Heap V T A) (v : BV)
    (hv : v ∉ cs) : seedTlm cs ds h v = h v := by
  unfold seedTlm
  induction cs generalizing ds h with
  | nil => rfl
  | cons c cs ih =>
    cases ds with
    | nil => rfl
    | cons x xs =>
      rw [List.zip_cons_cons, List.foldl_cons, ih _ _ (fun h => hv (by simp [h])),
        Function.update_of_ne (fun h => hv (by simp [h]))]

theorem seedTlm_frame {V T A : Type*} (cs : List BV) (ds : List T) (h : Heap V T A) (v : BV) :
    ∃ o, seedTlm cs ds h v = { h v with tlm := o } := by
  unfold seedTlm
  generalize cs.zip ds = l
  induction l generalizing h with
  | nil => exact ⟨_, rfl⟩
  | cons p l ih =>
    rw [List.foldl_cons]
    obtain ⟨c, hc⟩ := ih (Function.update h p.1 { h p.1 with tlm := some p.2 })
    refine ⟨c, ?_⟩
    rw [hc]
    by_cases hv : v = p.1
    · subst hv; simp
    · rw [Function.update_of_ne hv]

theorem seedTlm_tlm {V T A : Type*} (cs : List BV) (ds : List T) (h : Heap V T A)
    (hnd : cs.Nodup) (hlen : ds.length = cs.length) (i : Nat) (hi : i < cs.length) :
    (seedTlm cs ds h cs[i]).tlm = some (ds[i]'(hlen ▸ hi)) := by
  unfold seedTlm
  induction cs generalizing ds h i with
  | nil => simp at hi
  | cons c cs ih =>
    cases ds with
    | nil => simp at hlen
    | cons x xs =>
      obtain ⟨hc, hnd⟩ := List.nodup_cons.1 hnd
      rw [List.zip_cons_cons, List.foldl_cons]
      cases i with
      | zero =>
        have := seedTlm_of_not_mem cs xs (Function.update h c { h c with tlm := some x }) c hc
        unfold seedTlm at this
        simp only [List.getElem_cons_zero]
        rw [this]; simp
      | succ i =>
        simp only [List.getElem_cons_succ]
        exact ih _ _ hnd (by simpa using hlen) _ _

@[simp] theorem saved_seedTlm {V T A : Type*} (cs : List BV) (ds : List T) (h : Heap V T A) (v : BV) :
    saved (seedTlm cs ds h) v = saved h v := by
  obtain ⟨o, ho⟩ := seedTlm_frame cs ds h v
  exact saved_congr (by rw [ho]) (by rw [ho])

/-- Existence of the derivatives of all variables of an `AdjFloat` replay. -/
theorem FTape.deriv {t : FTape} (wf : WF t.blocks) (cs : List BV) (hnd : cs.Nodup)
    (h : FHeap) (hfl : ∀ v, (h v).isControl = false) (x₀ : Fin cs.length → ℝ)
    (hind : ∀ b ∈ t, (∃ d ∈ b.deps, Reach t.blocks (· ∈ cs) d) → b.out ∉ cs)
    (hsmooth : ∀ b ∈ t, (∃ d ∈ b.deps, Reach t.blocks (· ∈ cs) d) →
      b.Smooth (saved (rfEval t.blocks cs (List.ofFn x₀) h)) (Reach t.blocks (· ∈ cs))) :
    ∃ D : BV → ((Fin cs.length → ℝ) →L[ℝ] ℝ),
      (∀ v, HasFDerivAt (fun x => saved (rfEval t.blocks cs (List.ofFn x) h) v) (D v) x₀) ∧
      (∀ v, ¬ Reach t.blocks (· ∈ cs) v → D v = 0) ∧
      (∀ i : Fin cs.length, D cs[i] = ContinuousLinearMap.proj i) ∧
      (∀ b ∈ t, (∃ d ∈ b.deps, Reach t.blocks (· ∈ cs) d) →
        D b.out = b.lin (saved (rfEval t.blocks cs (List.ofFn x₀) h)) D) := by
  obtain ⟨D, h1, h2, h3, h4⟩ := replayVal_deriv wf cs hnd h hfl x₀ mulFunctional (by
      intro b hb hd o ho
      obtain ⟨fb, hfb, rfl⟩ := List.mem_map.1 hb
      rw [fb.mem_outs] at ho
      rw [fb.toBlock_deps] at hd
      subst ho
      exact hind fb hfb hd) (by
      intro b hb hdep
      obtain ⟨fb, hfb, rfl⟩ := List.mem_map.1 hb
      apply FBlock.correctAdjoint fb
      apply hsmooth fb hfb
      cases fb <;> exact hdep)
  refine ⟨D, h1, h2, h3, ?_⟩
  intro b hb hd
  apply FBlock.lin_of_dual
  have := h4 b.toBlock (List.mem_map.2 ⟨b, hb, rfl⟩) (by rw [b.toBlock_deps]; exact hd)
  have e : (fun (a : ℝ) (t : (Fin cs.length → ℝ) →L[ℝ] ℝ) => a • t)
      = fun a t => (mulFunctional a).comp t := by
    funext a t; ext y; simp
  rw [e]
  exact this

end Pyadjoint
