import Verif.Spec.Calculus
import Verif.Proofs.Replay
import Verif.Proofs.Duality

/-! The chain rule along a tape. -/

namespace Pyadjoint

variable {V T A : Type*}

/-- Induction along a well-formed tape. -/
theorem tape_induction {bs : Blocks V T A} (wf : WF bs) {P : BV → Prop}
    (leaf : ∀ v, (∀ b ∈ bs, v ∉ b.outs) → P v)
    (step : ∀ b ∈ bs, (∀ d ∈ b.deps, P d) → ∀ o ∈ b.outs, P o) : ∀ v, P v := by
  have gen : ∀ (pre post : Blocks V T A), bs = pre ++ post →
      ∀ v, (∀ b ∈ post, v ∉ b.outs) → P v := by
    intro pre
    induction pre using List.reverseRecOn with
    | nil => intro post h v hv; apply leaf; rw [h]; simpa using hv
    | append_singleton pre b ih =>
      intro post h v hv
      rw [List.append_assoc] at h
      have hb : b ∈ bs := by rw [h]; simp
      have hwf : WF (b :: post) := by
        rw [h] at wf; exact wf.append.2
      by_cases ho : v ∈ b.outs
      · refine step b hb ?_ v ho
        intro d hd
        apply ih (b :: post) h
        intro b' hb'
        rcases List.mem_cons.1 hb' with rfl | hb'
        · exact hwf.self _ (by simp) d hd
        · exact (hwf.head b' hb').1 d hd
      · apply ih (b :: post) h
        intro b' hb'
        rcases List.mem_cons.1 hb' with rfl | hb'
        · exact ho
        · exact hv b' hb'
  intro v
  exact gen bs [] (by simp) v (by simp)

/-- A variable is produced by at most one block. -/
theorem WF.unique_producer {bs : Blocks V T A} (wf : WF bs) {b b' : Block V T A} (hb : b ∈ bs)
    (hb' : b' ∈ bs) {o : BV} (ho : o ∈ b.outs) (ho' : o ∈ b'.outs) : b = b' := by
  by_contra hne
  rcases List.pairwise_iff_getElem.1 wf.later with hpw
  obtain ⟨m, hm, rfl⟩ := List.getElem_of_mem hb
  obtain ⟨n, hn, rfl⟩ := List.getElem_of_mem hb'
  rcases Nat.lt_trichotomy m n with hmn | hmn | hmn
  · exact (hpw m n hm hn hmn).2 o ho ho'
  · subst hmn; exact hne rfl
  · exact (hpw n m hn hm hmn).2 o ho' ho

theorem map_eq_ofFn {α β : Type*} (l : List α) (f : α → β) :
    l.map f = List.ofFn fun j : Fin l.length => f l[j] := by
  apply List.ext_getElem <;> simp

section
variable [NormedAddCommGroup V]

/-- Value of variable `v` after evaluating with control values `x`. -/
def replayVal (bs : Blocks V T A) (cs : List BV) (h : Heap V T A) (x : Fin cs.length → V)
    (v : BV) : V := saved (rfEval bs cs (List.ofFn x) h) v

omit [NormedAddCommGroup V] in
theorem replayVal_control (bs : Blocks V T A) (cs : List BV) (hnd : cs.Nodup) (h : Heap V T A)
    (hfl : ∀ v, (h v).isControl = false) (x : Fin cs.length → V) (i : Fin cs.length) :
    replayVal bs cs h x cs[i] = x i := by
  have := rfEval_control bs cs (List.ofFn x) h hnd (by simp) (fun c _ => hfl c) i i.2
  unfold replayVal saved
  simp only [Fin.getElem_fin]
  rw [this]
  simp

omit [NormedAddCommGroup V] in
theorem replayVal_of_not_reach {bs : Blocks V T A} (wf : WF bs) (cs : List BV) (h : Heap V T A)
    (hfl : ∀ v, (h v).isControl = false) (x y : Fin cs.length → V) :
    ∀ v, ¬ Reach bs (· ∈ cs) v → replayVal bs cs h x v = replayVal bs cs h y v := by
  apply tape_induction wf (P := fun v => ¬ Reach bs (· ∈ cs) v →
    replayVal bs cs h x v = replayVal bs cs h y v)
  · intro v hv hr
    have hc : v ∉ cs := fun hc => hr (Reach.base hc)
    unfold replayVal
    exact saved_congr (by rw [rfEval_leaf _ _ _ _ _ hc hv, rfEval_leaf _ _ _ _ _ hc hv])
      (by rw [rfEval_leaf _ _ _ _ _ hc hv, rfEval_leaf _ _ _ _ _ hc hv])
  · intro b hb ih o ho hr
    obtain ⟨i, hi, rfl⟩ := List.getElem_of_mem ho
    have hc : b.outs[i] ∉ cs := fun hc => hr (Reach.base hc)
    have hout : ∀ x : Fin cs.length → V, (rfEval bs cs (List.ofFn x) h b.outs[i]).output
        = (h b.outs[i]).output := by
      intro x
      obtain ⟨c, e⟩ := rfEval_frame bs cs (List.ofFn x) h b.outs[i] (fun c _ => hfl c)
      rw [e]
    unfold replayVal
    refine saved_congr (by rw [hout, hout]) ?_
    · by_cases hbc : ∃ o ∈ b.outs, o ∈ cs
      · rw [rfEval_block_control wf cs _ h b hb hbc i hi hc,
          rfEval_block_control wf cs _ h b hb hbc i hi hc]
      · push Not at hbc
        rw [rfEval_block wf cs _ h hfl b hb hbc i hi, rfEval_block wf cs _ h hfl b hb hbc i hi]
        have : b.deps.map (saved (rfEval bs cs (List.ofFn x) h))
            = b.deps.map (saved (rfEval bs cs (List.ofFn y) h)) :=
          List.map_congr_left fun d hd => ih d hd fun hr' => hr (Reach.step hb hd hr' ho)
        rw [this]

/-- The equation of a block that does not produce a control. -/
theorem replayVal_block {bs : Blocks V T A} (wf : WF bs) (cs : List BV) (h : Heap V T A)
    (hfl : ∀ v, (h v).isControl = false) (x : Fin cs.length → V) (b : Block V T A) (hb : b ∈ bs)
    (hno : ∀ o ∈ b.outs, o ∉ cs) (i : Fin b.outs.length)
    (htot : ∀ u : Fin b.deps.length → V, (b.recomputeC (List.ofFn u) i).isSome) :
    replayVal bs cs h x b.outs[i]
      = (b.recomputeC (List.ofFn fun j : Fin b.deps.length => replayVal bs cs h x b.deps[j]) i).getD 0 := by
  have e := rfEval_block wf cs (List.ofFn x) h hfl b hb hno i i.2
  rw [map_eq_ofFn] at e
  have ht := htot fun j => saved (rfEval bs cs (List.ofFn x) h) b.deps[j]
  obtain ⟨y, hy⟩ := Option.isSome_iff_exists.1 ht
  rw [hy] at e
  unfold replayVal
  rw [hy]
  simp only [Fin.getElem_fin] at e ⊢
  unfold saved
  rw [e]
  simp [orKeep]

end

section
variable [NormedAddCommGroup V] [NormedSpace ℝ V] [AddCommMonoid A]

/-- All the facts about the derivative of the replay with respect to the controls. -/
theorem replayVal_deriv {bs : Blocks V T A} (wf : WF bs) (cs : List BV) (hnd : cs.Nodup)
    (h : Heap V T A) (hfl : ∀ v, (h v).isControl = false) (x₀ : Fin cs.length → V)
    (ι : A →+ (V →L[ℝ] ℝ))
    (hind : ∀ b ∈ bs, (∃ d ∈ b.deps, Reach bs (· ∈ cs) d) → ∀ o ∈ b.outs, o ∉ cs)
    (hcorrect : ∀ b ∈ bs, (∃ d ∈ b.deps, Reach bs (· ∈ cs) d) →
      CorrectAdjoint ι b (fun j => replayVal bs cs h x₀ b.deps[j])
        (fun j => Reach bs (· ∈ cs) b.deps[j])) :
    ∃ D : BV → ((Fin cs.length → V) →L[ℝ] V),
      (∀ v, HasFDerivAt (fun x => replayVal bs cs h x v) (D v) x₀) ∧
      (∀ v, ¬ Reach bs (· ∈ cs) v → D v = 0) ∧
      (∀ i : Fin cs.length, D cs[i] = ContinuousLinearMap.proj i) ∧
      (∀ b ∈ bs, (∃ d ∈ b.deps, Reach bs (· ∈ cs) d) →
        LocalDual (fun (a : A) (t : (Fin cs.length → V) →L[ℝ] V) => (ι a).comp t) b
          (b.deps.map (saved (rfEval bs cs (List.ofFn x₀) h))) D) := by
  classical
  -- unreachable variables
  have hconst : ∀ v, ¬ Reach bs (· ∈ cs) v →
      HasFDerivAt (fun x => replayVal bs cs h x v) (0 : (Fin cs.length → V) →L[ℝ] V) x₀ := by
    intro v hv
    have : (fun x => replayVal bs cs h x v) = fun _ => replayVal bs cs h x₀ v :=
      funext fun x => replayVal_of_not_reach wf cs h hfl x x₀ v hv
    rw [this]
    exact hasFDerivAt_const _ _
  have hctl : ∀ i : Fin cs.length, HasFDerivAt (fun x => replayVal bs cs h x cs[i])
      (ContinuousLinearMap.proj i : (Fin cs.length → V) →L[ℝ] V) x₀ := by
    intro i
    have : (fun x => replayVal bs cs h x cs[i]) = fun x : Fin cs.length → V => x i :=
      funext fun x => replayVal_control bs cs hnd h hfl x i
    rw [this]
    exact (ContinuousLinearMap.proj (R := ℝ) (φ := fun _ : Fin cs.length => V) i).hasFDerivAt
  -- the chain rule at one block
  have hchain : ∀ b ∈ bs, (∃ d ∈ b.deps, Reach bs (· ∈ cs) d) →
      ∀ D : Fin b.deps.length → ((Fin cs.length → V) →L[ℝ] V),
      (∀ j : Fin b.deps.length, HasFDerivAt (fun x => replayVal bs cs h x b.deps[j]) (D j) x₀) →
      ∀ G : Fin b.outs.length → Fin b.deps.length → V →L[ℝ] V,
      (∀ i : Fin b.outs.length, HasFDerivWithinAt (fun u => (b.recomputeC (List.ofFn u) i).getD 0)
        (∑ j, (G i j).comp (ContinuousLinearMap.proj j))
        {u | ∀ j, ¬ Reach bs (· ∈ cs) b.deps[j] → u j = replayVal bs cs h x₀ b.deps[j]}
        (fun j => replayVal bs cs h x₀ b.deps[j])) →
      ∀ i : Fin b.outs.length, HasFDerivAt (fun x => replayVal bs cs h x b.outs[i])
        (∑ j, (G i j).comp (D j)) x₀ := by
    intro b hb hd D hD G hG i
    have hpi : HasFDerivAt (fun x (j : Fin b.deps.length) => replayVal bs cs h x b.deps[j])
        (ContinuousLinearMap.pi D) x₀ := hasFDerivAt_pi.2 hD
    have hmem : ∀ x, (fun j : Fin b.deps.length => replayVal bs cs h x b.deps[j]) ∈
        {u : Fin b.deps.length → V | ∀ j : Fin b.deps.length,
          ¬ Reach bs (· ∈ cs) b.deps[j] → u j = replayVal bs cs h x₀ b.deps[j]} :=
      fun x j hj => replayVal_of_not_reach wf cs h hfl x x₀ _ hj
    have hcomp := (hG i).comp_hasFDerivAt x₀ hpi (Filter.Eventually.of_forall hmem)
    have efun : (fun x => replayVal bs cs h x b.outs[i])
        = (fun u => (b.recomputeC (List.ofFn u) i).getD 0) ∘
          (fun x (j : Fin b.deps.length) => replayVal bs cs h x b.deps[j]) :=
      funext fun x => replayVal_block wf cs h hfl x b hb (hind b hb hd) i
        (fun u => (hcorrect b hb hd).total u i)
    rw [efun]
    refine hcomp.congr_fderiv ?_
    ext y
    simp
  have hdiff : ∀ v, ∃ D : (Fin cs.length → V) →L[ℝ] V, HasFDerivAt (fun x => replayVal bs cs h x v) D x₀ := by
    apply tape_induction wf (P := fun v =>
      ∃ D : (Fin cs.length → V) →L[ℝ] V, HasFDerivAt (fun x => replayVal bs cs h x v) D x₀)
    · intro v hv
      by_cases hr : Reach bs (· ∈ cs) v
      · cases hr with
        | base hc =>
          obtain ⟨i, hi, rfl⟩ := List.getElem_of_mem hc
          exact ⟨_, hctl ⟨i, hi⟩⟩
        | step hb _ _ ho => exact absurd ho (hv _ hb)
      · exact ⟨_, hconst v hr⟩
    · intro b hb ih o ho
      by_cases hd : ∃ d ∈ b.deps, Reach bs (· ∈ cs) d
      · obtain ⟨i, hi, rfl⟩ := List.getElem_of_mem ho
        obtain ⟨G, hG, _⟩ := (hcorrect b hb hd).deriv
        choose D hD using fun j : Fin b.deps.length => ih b.deps[j] (List.getElem_mem _)
        exact ⟨_, hchain b hb hd D hD G hG ⟨i, hi⟩⟩
      · by_cases hc : o ∈ cs
        · obtain ⟨i, hi, rfl⟩ := List.getElem_of_mem hc
          exact ⟨_, hctl ⟨i, hi⟩⟩
        · refine ⟨_, hconst o fun hr => ?_⟩
          cases hr with
          | base h => exact hc h
          | step hb' hd' hr' ho' =>
            rename_i b' d'
            have : b' = b := wf.unique_producer hb' hb ho' ho
            subst this
            exact hd ⟨d', hd', hr'⟩
  choose D hD using hdiff
  refine ⟨D, hD, fun v hv => (hD v).unique (hconst v hv), fun i => (hD _).unique (hctl i), ?_⟩
  intro b hb hd adjIn hlen hne
  obtain ⟨G, hG, hT⟩ := (hcorrect b hb hd).deriv
  have hout : ∀ i : Fin b.outs.length, D b.outs[i] = ∑ j, (G i j).comp (D b.deps[j]) := fun i =>
    (hD _).unique (hchain b hb hd (fun j => D b.deps[j]) (fun j => hD _) G hG i)
  let lam : Fin b.outs.length → Option A := fun i => adjIn[i.val]'(by rw [hlen]; exact i.2)
  have hlam : adjIn = List.ofFn lam := by
    apply List.ext_getElem
    · simp [hlen]
    · intro i h1 h2; simp [lam]
  have hpv : ∀ (o : Option A) (t : (Fin cs.length → V) →L[ℝ] V),
      pv (fun (a : A) (t : (Fin cs.length → V) →L[ℝ] V) => (ι a).comp t) o t
        = (optFunctional ι o).comp t := by
    intro o t; cases o <;> simp [pv, optFunctional]
  have e1 : ((b.outs.zip adjIn).map fun p => pv (fun (a : A)
      (t : (Fin cs.length → V) →L[ℝ] V) => (ι a).comp t) p.2 (D p.1))
      = List.ofFn fun i : Fin b.outs.length => (optFunctional ι (lam i)).comp (D b.outs[i]) := by
    apply List.ext_getElem
    · simp [hlen]
    · intro i h1 h2; simp [hpv, lam]
  have e2 : (b.deps.zipIdx.map fun p => pv (fun (a : A)
      (t : (Fin cs.length → V) →L[ℝ] V) => (ι a).comp t)
        (b.adjC (b.deps.map (saved (rfEval bs cs (List.ofFn x₀) h))) adjIn p.2) (D p.1))
      = List.ofFn fun j : Fin b.deps.length => (optFunctional ι (b.adjC
          (List.ofFn fun j : Fin b.deps.length => replayVal bs cs h x₀ b.deps[j]) (List.ofFn lam) j)).comp
          (D b.deps[j]) := by
    rw [map_eq_ofFn b.deps, ← hlam]
    apply List.ext_getElem
    · simp
    · intro i h1 h2; simp [hpv]; rfl
  rw [e1, e2, List.sum_ofFn, List.sum_ofFn]
  have hex : ∃ i, lam i ≠ none := by
    by_contra hc
    push Not at hc
    rw [hlam] at hne
    have : (List.ofFn lam).all Option.isNone = true := by
      rw [List.all_eq_true]
      intro a ha
      obtain ⟨i, rfl⟩ := (List.mem_ofFn' _ _).1 ha
      simp [hc i]
    rw [this] at hne
    cases hne
  have e3 : ∀ j : Fin b.deps.length, (optFunctional ι (b.adjC
      (List.ofFn fun j : Fin b.deps.length => replayVal bs cs h x₀ b.deps[j]) (List.ofFn lam) j)).comp
        (D b.deps[j]) = ∑ i, ((optFunctional ι (lam i)).comp (G i j)).comp (D b.deps[j]) := by
    intro j
    by_cases hr : Reach bs (· ∈ cs) b.deps[j]
    · rw [hT lam hex j hr]
      ext y; simp
    · rw [(hD _).unique (hconst _ hr)]; simp
  rw [Finset.sum_congr rfl fun j _ => e3 j, Finset.sum_comm]
  apply Finset.sum_congr rfl
  intro i _
  rw [hout i]
  ext y; simp

end

end Pyadjoint
