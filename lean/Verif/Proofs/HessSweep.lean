import Verif.Proofs.FloatHess
import Verif.Proofs.FloatTlm
import Verif.Proofs.Marking

/-! The Hessian sweep is the derivative of the adjoint sweep. -/

set_option linter.unusedSimpArgs false
set_option linter.unnecessarySeqFocus false

namespace Pyadjoint

theorem addMany_append (C C' : List (BV × ℝ)) (g : FHeap) :
    addMany (C ++ C') g = addMany C' (addMany C g) := by
  simp [addMany, List.foldl_append]

theorem evaluateHessianDefault_ok (deps : List BV) (o : BV) (m : Bool)
    (comp : List ℝ → ℝ → Option ℝ → Nat → List (Nat × Option ℝ) → Except FBlock.PyErr ℝ)
    (g g' : FHeap) (h : FBlock.evaluateHessianDefault deps o m comp g = .ok g') :
    ∃ C : List (BV × ℝ), g' = addMany C g ∧ ∀ p ∈ C, p.1 ∈ deps := by
  unfold FBlock.evaluateHessianDefault at h
  split at h
  · cases h; exact ⟨[], rfl, by simp⟩
  · rename_i hin _
    have hrel : ∀ p ∈ relevant g m deps, p.1 ∈ deps := by
      intro p hp
      have := (List.mem_filter.1 hp).1
      have := List.mem_zipIdx this
      obtain ⟨h1, h2, h3⟩ := this
      rw [h3]; exact List.getElem_mem _
    simp only [] at h
    generalize hr : (relevant g m deps).map (fun q => (q.2, (g q.1).tlm)) = r at h
    clear hr
    generalize relevant g m deps = l at h hrel
    generalize hg0 : g = g0 at h ⊢
    have : ∀ (l : List (BV × Nat)) (g1 g' : FHeap), (∀ p ∈ l, p.1 ∈ deps) →
        (List.foldlM (m := Except FBlock.PyErr) (fun (h' : FHeap) (p : BV × Nat) => do
          let v ← comp (deps.map (saved g0)) hin (g0 o).adj p.2 r
          pure (addHess h' p.1 v)) g1 l) = .ok g' →
        ∃ C : List (BV × ℝ), g' = addMany C g1 ∧ ∀ p ∈ C, p.1 ∈ deps := by
      intro l
      induction l with
      | nil => intro g1 g' _ h; cases h; exact ⟨[], rfl, by simp⟩
      | cons p l ih =>
        intro g1 g' hp h
        rw [List.foldlM_cons] at h
        cases hc : comp (deps.map (saved g0)) hin (g0 o).adj p.2 r with
        | error e => rw [hc] at h; cases h
        | ok x =>
          rw [hc] at h
          obtain ⟨C, h1, h2⟩ := ih (addHess g1 p.1 x) g' (fun q hq => hp q (by simp [hq])) h
          refine ⟨(p.1, x) :: C, h1, ?_⟩
          intro q hq
          rcases List.mem_cons.1 hq with rfl | hq
          · exact hp p (by simp)
          · exact h2 q hq
    exact this l g0 g' hrel h

theorem addHess_eq_addMany (g : FHeap) (v : BV) (x : ℝ) : addHess g v x = addMany [(v, x)] g := rfl

theorem FBlock.evaluateHessian_ok (blk : FBlock) (m : Bool) (g g' : FHeap)
    (h : blk.evaluateHessian m g = .ok g') :
    ∃ C : List (BV × ℝ), g' = addMany C g ∧ ∀ p ∈ C, p.1 ∈ blk.deps := by
  cases blk with
  | un op a o =>
    cases op
    case neg =>
      simp only [evaluateHessian] at h
      split at h
      · cases h; exact ⟨[], rfl, by simp⟩
      · cases h; exact ⟨[(a, _)], rfl, by simp [deps]⟩
    all_goals
      simp only [evaluateHessian] at h
      exact evaluateHessianDefault_ok _ _ _ _ _ _ h
  | bin op a b o =>
    cases op
    case sub =>
      simp only [evaluateHessian] at h
      split at h
      · cases h; exact ⟨[], rfl, by simp⟩
      · cases h; exact ⟨[(a, _), (b, _)], rfl, by simp [deps]⟩
    case div =>
      simp only [evaluateHessian] at h
      split at h
      · cases h; exact ⟨[], rfl, by simp⟩
      · rename_i hin _
        cases hl : (g o).adj with
        | none =>
          rw [hl] at h
          cases htb : (g b).tlm <;> simp [htb, needFloat] at h <;> cases h
        | some l =>
          rw [hl] at h
          cases htb : (g b).tlm <;> cases hta : (g a).tlm <;>
            simp [htb, hta, needFloat, addHess?] at h <;> cases h
          · exact ⟨[(a, _), (b, _)], rfl, by simp [deps]⟩
          · exact ⟨[(a, _), (b, _), (b, _)], rfl, by simp [deps]⟩
          · exact ⟨[(a, _), (b, _), (b, _), (a, _)], rfl, by simp [deps]⟩
          · exact ⟨[(a, _), (b, _), (b, _), (a, _), (b, _)], rfl, by simp [deps]⟩
    case pow =>
      simp only [evaluateHessian] at h
      split at h
      · cases h; exact ⟨[], rfl, by simp⟩
      · rename_i hin _
        cases hl : (g o).adj with
        | none =>
          rw [hl] at h
          cases hta : (g a).tlm <;> cases htb : (g b).tlm <;> simp [hta, htb, needFloat] at h <;> cases h
        | some l =>
          rw [hl] at h
          cases htb : (g b).tlm <;> cases hta : (g a).tlm <;>
            simp [htb, hta, needFloat, addHess?] at h <;> cases h
          · exact ⟨[(a, _), (b, _)], rfl, by simp [deps]⟩
          · exact ⟨[(a, _), (a, _), (b, _), (b, _)], rfl, by simp [deps]⟩
          · exact ⟨[(a, _), (b, _), (b, _), (a, _)], rfl, by simp [deps]⟩
          · exact ⟨[(a, _), (a, _), (b, _), (b, _), (a, _), (b, _)], rfl, by simp [deps]⟩
    all_goals
      simp only [evaluateHessian] at h
      exact evaluateHessianDefault_ok _ _ _ _ _ _ h

theorem contr_of_not_mem (C : List (BV × ℝ)) (v : BV) (h : ∀ p ∈ C, p.1 ≠ v) : contr C v = 0 := by
  unfold contr
  induction C with
  | nil => rfl
  | cons p C ih =>
    simp [h p (by simp)]
    simpa using ih fun q hq => h q (by simp [hq])

theorem FBlock.coef_of_not_dep (blk : FBlock) (val : BV → ℝ) (v : BV) (hv : v ∉ blk.deps) :
    blk.coef val v = 0 := by
  cases blk with
  | un op a o =>
    have : a ≠ v := by rintro rfl; simp [deps] at hv
    simp [coef, this]
  | bin op a b o =>
    have h1 : a ≠ v := by rintro rfl; simp [deps] at hv
    have h2 : b ≠ v := by rintro rfl; simp [deps] at hv
    simp [coef, h1, h2]

theorem FTape.evaluateHessian_cons (b : FBlock) (t : FTape) (m : Bool) (g : FHeap) :
    FTape.evaluateHessian (b :: t) m g = (do
      let g₁ ← t.evaluateHessian m g
      b.evaluateHessian m g₁) := by
  simp only [FTape.evaluateHessian, List.reverse_cons, List.foldlM_append]
  congr 1
  funext g1
  simp [List.foldlM]

/-- The Hessian sweep only changes Hessian values. -/
theorem FTape.evaluateHessian_frame (t : FTape) (m : Bool) (g g' : FHeap)
    (h : t.evaluateHessian m g = .ok g') (v : BV) : ∃ o, g' v = { g v with hess := o } := by
  induction t generalizing g' with
  | nil => cases h; exact ⟨_, rfl⟩
  | cons b t ih =>
    rw [FTape.evaluateHessian_cons] at h
    cases h1 : FTape.evaluateHessian t m g with
    | error e => rw [h1] at h; cases h
    | ok g₁ =>
      rw [h1] at h
      obtain ⟨o, ho⟩ := ih g₁ h1
      obtain ⟨C, rfl, -⟩ := b.evaluateHessian_ok m g₁ g' h
      obtain ⟨o', ho', -⟩ := addMany_frame C g₁ v
      exact ⟨o', by rw [ho', ho]⟩

/-- **The Hessian sweep is the derivative of the adjoint sweep.** -/
theorem FTape.hess_sweep (t : FTape) (wf : WF t.blocks) (R : BV → Prop)
    (hR : ∀ b ∈ t, (∃ d ∈ b.deps, R d) → R b.out)
    (val : ℝ → BV → ℝ) (tl : BV → ℝ)
    (hval : ∀ b ∈ t, ∀ d ∈ b.deps, HasDerivAt (fun s => val s d) (tl d) 0)
    (hconst : ∀ b ∈ t, ∀ d ∈ b.deps, ¬ R d → (∀ s, val s d = val 0 d) ∧ tl d = 0)
    (hs : ∀ b ∈ t, (∃ d ∈ b.deps, R d) → b.Smooth2 (val 0) R)
    (H : ℝ → FHeap) (hHm : ∀ s v, R v → (H s v).marked = true) (hHv : ∀ s v, saved (H s) v = val s v)
    (g g' : FHeap) (hgm : ∀ v, R v → (g v).marked = true) (hgv : ∀ v, saved g v = val 0 v)
    (hgt : ∀ b ∈ t, ∀ d ∈ b.deps, (g d).tlm.getD 0 = tl d ∧ (¬ R d → (g d).tlm = none))
    (hga : ∀ b ∈ t, R b.out → (g b.out).adj = (evaluateAdj t.blocks true (H 0) b.out).adj)
    (hinit : ∀ v, R v → HasDerivAt (fun s => (H s v).adj.getD 0) ((g v).hess.getD 0) 0 ∧
      ∀ s, (H s v).adj.isSome = (g v).hess.isSome)
    (hgood : ∀ b ∈ t, (∃ d ∈ b.deps, R d) → b.NoDefect (val 0) tl
      ((evaluateAdj t.blocks true (H 0) b.out).adj.getD 0)
      (_root_.deriv (fun s => (evaluateAdj t.blocks true (H s) b.out).adj.getD 0) 0))
    (hok : t.evaluateHessian true g = .ok g') :
    ∀ v, R v → HasDerivAt (fun s => (evaluateAdj t.blocks true (H s) v).adj.getD 0)
        ((g' v).hess.getD 0) 0 ∧
      ∀ s, (evaluateAdj t.blocks true (H s) v).adj.isSome = (g' v).hess.isSome := by
  induction t generalizing g' with
  | nil => cases hok; exact hinit
  | cons b t ih =>
    rw [FTape.evaluateHessian_cons] at hok
    cases h1 : FTape.evaluateHessian t true g with
    | error e => rw [h1] at hok; cases hok
    | ok g₁ =>
      rw [h1] at hok
      have hok : b.evaluateHessian true g₁ = .ok g' := hok
      have wft := FTape.WF_tail wf
      have hself := FTape.WF_self wf
      have hhead := FTape.WF_head wf
      have ecs : ∀ h : FHeap, evaluateAdj (FTape.blocks (b :: t)) true h
          = b.toBlock.evaluateAdj true (evaluateAdj (FTape.blocks t) true h) := fun h => evaluateAdj_cons _ _ _ _
      have keep : ∀ (h : FHeap) (v : BV), v ∉ b.deps →
          (evaluateAdj (FTape.blocks (b :: t)) true h v).adj = (evaluateAdj (FTape.blocks t) true h v).adj := by
        intro h v hv
        rw [ecs, Block.evaluateAdj_apply]
        simp only
        unfold Block.adjAfter
        split
        · rfl
        · have hv' : v ∉ b.toBlock.deps := by rw [b.toBlock_deps]; exact hv
          have : entries b.toBlock.deps v = [] := entries_nil_of_not_mem hv'
          simp [this]
      have ihv := ih wft (fun b' hb' => hR b' (by simp [hb']))
        (fun b' hb' => hval b' (by simp [hb'])) (fun b' hb' => hconst b' (by simp [hb']))
        (fun b' hb' => hs b' (by simp [hb'])) g₁ (fun b' hb' => hgt b' (by simp [hb']))
        (by
          intro b' hb' hr
          rw [hga b' (by simp [hb']) hr]
          exact keep _ _ fun hd => (hhead b' hb').1 _ hd rfl)
        (by
          intro b' hb' hd
          have := hgood b' (by simp [hb']) hd
          have hn : b'.out ∉ b.deps := fun hd => (hhead b' hb').1 _ hd rfl
          simpa only [keep _ _ hn] using this)
        h1
      have hbn : b.out ∉ b.deps := hself b (by simp)
      have hfr := FTape.evaluateHessian_frame t true g g₁ h1
      have sv : ∀ s v, saved (evaluateAdj (FTape.blocks t) true (H s)) v = val s v := by
        intro s v; simp [hHv]
      by_cases hout : ∃ d ∈ b.deps, R d
      swap
      · -- the block does not touch `R`
        intro v hr
        have hv : v ∉ b.deps := fun hd => hout ⟨v, hd, hr⟩
        obtain ⟨C, rfl, hC⟩ := b.evaluateHessian_ok true g₁ g' hok
        obtain ⟨o, ho, ho2, ho3⟩ := addMany_frame C g₁ v
        have hne : ∀ p ∈ C, p.1 ≠ v := fun p hp e => hv (e ▸ hC p hp)
        rw [contr_of_not_mem C v hne, add_zero] at ho2
        have hnm : ¬ v ∈ C.map Prod.fst := by
          intro hm; obtain ⟨p, hp, e⟩ := List.mem_map.1 hm; exact hne p hp e
        rw [decide_eq_false hnm, Bool.or_false] at ho3
        simp only [keep _ _ hv, ho, ho2, ho3]
        exact ihv v hr
      · have hro : R b.out := hR b (by simp) hout
        obtain ⟨ihd, ihs⟩ := ihv b.out hro
        have e0 : (g₁ b.out).adj = (evaluateAdj (FTape.blocks t) true (H 0) b.out).adj := by
          obtain ⟨o, ho⟩ := hfr b.out
          rw [ho]
          show (g b.out).adj = _
          rw [hga b (by simp) hro, keep _ _ hbn]
        intro v hr
        have hmk : ∀ s, ((evaluateAdj (FTape.blocks t) true (H s) v).marked || !true) = true := by
          intro s; simp [hHm s v hr]
        have hstep := fun s => b.evaluateAdj_getD true (evaluateAdj (FTape.blocks t) true (H s)) v (hmk s)
        obtain ⟨ihvd, ihvs⟩ := ihv v hr
        cases hh : (g₁ b.out).hess with
        | none =>
          have : b.evaluateHessian true g₁ = .ok g₁ := b.evaluateHessian_of_none true g₁ hh
          rw [this] at hok; cases hok
          have hnone : ∀ s, (evaluateAdj (FTape.blocks t) true (H s) b.out).adj = none := by
            intro s
            have := ihs s
            rw [hh] at this
            exact Option.not_isSome_iff_eq_none.1 (by rw [this]; simp)
          constructor
          · simp only [ecs]
            simp only [fun s => (hstep s).1, hnone, Option.getD_none, mul_zero, add_zero]
            exact ihvd
          · intro s
            rw [ecs, (hstep s).2, hnone, ← ihvs s]
            simp
        | some hin =>
          have hsome : ∀ s, (evaluateAdj (FTape.blocks t) true (H s) b.out).adj.isSome = true := by
            intro s; rw [ihs s, hh]; rfl
          obtain ⟨l, hl⟩ := Option.isSome_iff_exists.1 (hsome 0)
          rw [hl] at e0
          have g1m : ∀ d, (g₁ d).marked = (g d).marked := by
            intro d; obtain ⟨o, ho⟩ := hfr d; rw [ho]
          have g1t : ∀ d, (g₁ d).tlm = (g d).tlm := by
            intro d; obtain ⟨o, ho⟩ := hfr d; rw [ho]
          have g1v : ∀ d, saved g₁ d = val 0 d := by
            intro d; rw [← hgv d]; obtain ⟨o, ho⟩ := hfr d
            exact saved_congr (by rw [ho]) (by rw [ho])
          obtain ⟨C, hC1, hC2, hC3⟩ := b.hess_list g₁ hin l hh e0 (by
            intro d hd hm
            rw [g1t]
            apply (hgt b (by simp) d hd).2
            intro hr
            rw [g1m, hgm d hr] at hm; cases hm)
          rw [hC1] at hok
          cases hok
          obtain ⟨hC3, hC4⟩ := hC3 v (by rw [g1m]; exact hgm v hr)
          obtain ⟨o, ho, ho2, ho3⟩ := addMany_frame C g₁ v
          have ihd' : HasDerivAt (fun s => (evaluateAdj (FTape.blocks t) true (H s) b.out).adj.getD 0) hin 0 := by
            simpa [hh] using ihd
          have hsm := hs b (by simp) hout
          have hcoef := b.coef_hasDerivAt val tl R (hval b (by simp)) (hconst b (by simp)) hsm v hr
          have hcode : contr C v = b.coef (val 0) v * hin + l * b.coef2 (val 0) tl v := by
            have hnd := hgood b (by simp) hout
            simp only [keep _ _ hbn, hl, Option.getD_some, ihd'.deriv] at hnd
            rw [hC3, ← b.codeContr_of_noDefect (val 0) tl l hin R hsm hnd
              ((b.deps.getLast?.map fun d => (g₁ d).marked).getD false) v]
            exact b.codeContr_congr g1v (fun d hd => by rw [g1t]; exact (hgt b (by simp) d hd).1)
          constructor
          · simp only [ecs]
            simp only [fun s => (hstep s).1, ho, ho2, hcode]
            have e : ∀ s, saved (evaluateAdj (FTape.blocks t) true (H s)) = val s := fun s => funext (sv s)
            simp only [e]
            have := ihvd.add (hcoef.mul ihd')
            refine this.congr_deriv ?_
            rw [hl, Option.getD_some]; ring
          · intro s
            rw [ecs, (hstep s).2, hsome s, ho, ho3, ← ihvs s, Bool.and_true]
            congr 1
            rw [decide_eq_decide]
            refine ⟨hC4, ?_⟩
            intro hm; obtain ⟨p, hp, e⟩ := List.mem_map.1 hm; exact e ▸ hC2 p hp

end Pyadjoint
