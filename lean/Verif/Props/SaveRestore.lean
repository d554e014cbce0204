import Verif.Model.SaveRestore
import Verif.Props.Adjoint
import Verif.Props.ReducedApi

/-!
# Saving and restoring block variables (C22)
-/

namespace Pyadjoint

variable {V T A : Type*}

theorem restoreVars_apply (vs : List BV) (f : BV → Option V) (h : Heap V T A) (v : BV) :
    restoreVars (vs.map fun v => (v, f v)) h v = if v ∈ vs then { h v with ckpt := f v } else h v := by
  unfold restoreVars
  induction vs generalizing h with
  | nil => rfl
  | cons w vs ih =>
    rw [List.map_cons, List.foldl_cons, ih]
    by_cases hw : v = w
    · subst hw; simp
    · simp [hw]

theorem mem_savedVars (bs : Blocks V T A) (cs : List BV) (v : BV) :
    v ∈ bs.flatMap Block.outs ++ cs ↔ (∃ b ∈ bs, v ∈ b.outs) ∨ v ∈ cs := by
  simp

/-- **C22, the assignment.** Restoring sets the saved value of every variable a block of the tape
produces and of every control given to `checkpoint_block_vars` to what it was when it was saved,
whatever happened since and whether or not the control is marked; nothing else changes. -/
theorem restore_sets {P C : Type*} (hooks : PackageHooks P C) (bs : Blocks V T A) (cs : List BV)
    (pk pk' : List (String × P)) (h h' : Heap V T A) (v : BV) :
    (restoreBlockVars hooks (checkpointBlockVars hooks bs cs pk h) pk' h').2 v
      = open Classical in if (∃ b ∈ bs, v ∈ b.outs) ∨ v ∈ cs then { h' v with ckpt := (h v).ckpt } else h' v := by
  classical
  show restoreVars _ h' v = _
  unfold checkpointBlockVars
  rw [restoreVars_apply]
  by_cases hv : (∃ b ∈ bs, v ∈ b.outs) ∨ v ∈ cs
  · rw [if_pos hv, if_pos ((mem_savedVars bs cs v).2 hv)]
  · rw [if_neg hv, if_neg (fun h => hv ((mem_savedVars bs cs v).1 h))]

/-- Saving is a function of the state and restoring twice is restoring once. -/
theorem restore_idempotent {P C : Type*} (hooks : PackageHooks P C) (bs : Blocks V T A) (cs : List BV)
    (pk pk₁ pk₂ : List (String × P)) (h h' : Heap V T A) :
    let sd := checkpointBlockVars hooks bs cs pk h
    (restoreBlockVars hooks sd pk₂ (restoreBlockVars hooks sd pk₁ h').2).2
      = (restoreBlockVars hooks sd pk₁ h').2 := by
  classical
  intro sd
  funext v
  rw [restore_sets, restore_sets]
  split <;> rfl

/-- Restoring right after saving changes nothing. -/
theorem restore_now {P C : Type*} (hooks : PackageHooks P C) (bs : Blocks V T A) (cs : List BV)
    (pk pk₁ : List (String × P)) (h : Heap V T A) :
    (restoreBlockVars hooks (checkpointBlockVars hooks bs cs pk h) pk₁ h).2 = h := by
  classical
  funext v
  rw [restore_sets]
  split <;> rfl

/-- What an operation may change: saved values of computed variables and of its controls. -/
theorem op_frame [Add A] (bs : Blocks V T A) (h : Heap V T A) (op : ReplayOp V A) (v : BV) :
    (op.apply bs h v).output = (h v).output ∧
      ((∀ b ∈ bs, v ∉ b.outs) → v ∉ op.controls → (op.apply bs h v).ckpt = (h v).ckpt) := by
  have mk : ∀ (cs : List BV) m (g : Heap V T A), (markControls cs m g v).output = (g v).output ∧
      (markControls cs m g v).ckpt = (g v).ckpt := fun cs m g => ⟨by simp, by simp⟩
  cases op with
  | eval cs xs =>
    show (rfEval bs cs xs h v).output = _ ∧ (_ → v ∉ cs → (rfEval bs cs xs h v).ckpt = _)
    unfold rfEval
    simp only [markControls_output, markControls_ckpt]
    constructor
    · simp
    · intro hb hc
      rw [recompute_of_not_out bs _ v hb]
      simp only [markControls_ckpt]
      rw [updateControls_of_not_mem cs xs h v hc]
  | crashedEval cs xs k j =>
    show (Pyadjoint.crashedEval bs cs xs k j h v).output = _ ∧
      (_ → v ∉ cs → (Pyadjoint.crashedEval bs cs xs k j h v).ckpt = _)
    unfold Pyadjoint.crashedEval
    simp only [markControls_output, markControls_ckpt]
    set h₁ := recompute (bs.take k) (markControls cs true (updateControls cs xs h)) with hh₁
    have o₁ : (h₁ v).output = (h v).output := by rw [hh₁]; simp
    have c₁ : (∀ b ∈ bs, v ∉ b.outs) → v ∉ cs → (h₁ v).ckpt = (h v).ckpt := by
      intro hb hc
      rw [hh₁, recompute_of_not_out _ _ v (fun b hb' => hb b (List.mem_of_mem_take hb'))]
      simp only [markControls_ckpt]
      rw [updateControls_of_not_mem cs xs h v hc]
    cases hb : bs[k]? with
    | none => exact ⟨o₁, c₁⟩
    | some b =>
      simp only []
      have hbm : b ∈ bs := List.mem_of_getElem? hb
      unfold Block.recomputePartial
      split
      · exact ⟨o₁, c₁⟩
      · simp only []
        obtain ⟨c, hc⟩ := foldl_setCkpt?_frame ((relevant h₁ false b.outs).take j)
          (fun i => b.recomputeC (b.deps.map (saved h₁)) i) h₁ v
        refine ⟨by rw [hc]; exact o₁, fun hv hcs => ?_⟩
        rw [foldl_setCkpt?_of_ne]
        · exact c₁ hv hcs
        · intro p hp hpv
          have := List.mem_of_mem_take hp
          unfold relevant at this
          have := List.fst_mem_of_mem_zipIdx (List.mem_of_mem_filter this)
          exact hv b hbm (hpv ▸ this)
  | gradient J cs seed =>
    show (computeGradientState bs J cs seed h v).output = _ ∧ (_ → _ → (computeGradientState bs J cs seed h v).ckpt = _)
    unfold computeGradientState markedAdjoint
    simp only [markAll_output, markControls_output, evaluateAdj_output, markAll_ckpt, markControls_ckpt,
      evaluateAdj_ckpt]
    by_cases hv : v = J
    · subst hv; simp
    · rw [Function.update_of_ne hv]; simp
  | crashedGradient J cs seed k j =>
    have := crashedGradientState_frame bs h J cs seed k j v
    exact ⟨this.1, fun _ _ => this.2.1⟩
  | update c x =>
    show (updateControls [c] [x] h v).output = _ ∧ (_ → v ∉ [c] → (updateControls [c] [x] h v).ckpt = _)
    refine ⟨by simp, fun _ hc => ?_⟩
    rw [updateControls_of_not_mem _ _ h v hc]
  | mark cs flag => exact ⟨(mk cs flag h).1, fun _ _ => (mk cs flag h).2⟩

/-- **C22.** Between saving with the controls `cs` and restoring, let the program evaluate the tape, raise
exceptions in evaluations, compute gradients, raise exceptions there, update and mark controls,
any number of times, writing to controls in `cs` only.  After restoring, every variable has the value it
had when it was saved, and gradients are those at the saved point. -/
theorem restore_roundtrip [Add A] [Zero A] {P C : Type*} (hooks : PackageHooks P C)
    {bs : Blocks V T A} (wf : WF bs) (cs : List BV) (pk pk' : List (String × P)) (h : Heap V T A)
    (ops : List (ReplayOp V A)) (hops : ∀ op ∈ ops, ∀ c ∈ op.controls, c ∈ cs) :
    let h' := ops.foldl (fun h op => op.apply bs h) h
    let r := (restoreBlockVars hooks (checkpointBlockVars hooks bs cs pk h) pk' h').2
    (∀ v, saved r v = saved h v) ∧
    ∀ J cs' seed, (∀ c ∈ cs', OnTape bs c ∨ c = J) →
      (computeGradient bs J cs' seed r).1 = (computeGradient bs J cs' seed h).1 := by
  intro h' r
  have fr : ∀ (ops : List (ReplayOp V A)) (h : Heap V T A), (∀ op ∈ ops, ∀ c ∈ op.controls, c ∈ cs) → ∀ v,
      (ops.foldl (fun h op => op.apply bs h) h v).output = (h v).output ∧
      ((∀ b ∈ bs, v ∉ b.outs) → v ∉ cs → (ops.foldl (fun h op => op.apply bs h) h v).ckpt = (h v).ckpt) := by
    intro ops
    induction ops with
    | nil => intro h _ v; exact ⟨rfl, fun _ _ => rfl⟩
    | cons op ops ih =>
      intro h hops v
      obtain ⟨i1, i2⟩ := ih (op.apply bs h) (fun o ho => hops o (List.mem_cons_of_mem _ ho)) v
      obtain ⟨j1, j2⟩ := op_frame bs h op v
      rw [List.foldl_cons]
      exact ⟨i1.trans j1, fun hb hc => (i2 hb hc).trans
        (j2 hb fun hc' => hc (hops op List.mem_cons_self v hc'))⟩
  have hs : ∀ v, saved r v = saved h v := by
    intro v
    obtain ⟨i1, i2⟩ := fr ops h hops v
    show saved (restoreBlockVars hooks (checkpointBlockVars hooks bs cs pk h) pk' h').2 v = _
    apply saved_congr
    · rw [restore_sets]; split <;> exact i1
    · rw [restore_sets]
      split
      · rfl
      · rename_i hn
        push Not at hn
        exact i2 hn.1 hn.2
  refine ⟨hs, fun J cs' seed hon => gradient_of_saved wf J cs' seed r h hs fun c hc => ?_⟩
  rcases hon c hc with h1 | h1
  · exact Or.inl h1
  · exact Or.inr (Or.inl h1)

/-- **C22, package data.** Restoring fails exactly if there is package data of which nothing was saved. -/
theorem restore_packages_fails {P C : Type*} (hooks : PackageHooks P C) (sd : StateDict V C) (pk : List (String × P)) (h : Heap V T A) :
    (restoreBlockVars hooks sd pk h).1 = none ↔ ∃ p ∈ pk, ∀ q ∈ sd.package, q.1 ≠ p.1 := by
  have hl : ∀ (k : String) (l : List (String × C)), l.lookup k = none ↔ ∀ q ∈ l, q.1 ≠ k := by
    intro k l
    rw [List.lookup_eq_none_iff]
    refine forall_congr' fun q => imp_congr_right fun _ => ?_
    rw [bne_iff_ne]
    exact ne_comm
  show restorePackages hooks sd.package pk = none ↔ _
  induction pk with
  | nil => simp [restorePackages]
  | cons p pk ih =>
    unfold restorePackages
    rw [List.exists_mem_cons_iff, ← ih, ← hl]
    cases List.lookup p.1 sd.package <;> cases restorePackages hooks sd.package pk <;> simp

example : (restoreBlockVars (V := Int) (T := Int) (A := Int) ⟨fun (p : Nat) => p, fun c _ => c⟩ ⟨[], [("a", 1)]⟩ [("a", 2), ("b", 3)]
    (fun _ => { output := 0 })).1 = none := (restore_packages_fails _ _ _ _).2 ⟨("b", 3), by simp, by simp⟩

/-- Package data whose `restore_from_checkpoint` undoes everything since `checkpoint`. -/
def PackageHooks.Lawful {P C : Type*} (hooks : PackageHooks P C) : Prop :=
  ∀ p q, hooks.restore (hooks.checkpoint p) q = p

/-- **C22, package data.** If the keys of the package dictionary are distinct and the same as when saving,
restoring brings back the saved package data. -/
theorem restore_packages {P C : Type*} (hooks : PackageHooks P C) (hl : hooks.Lawful)
    (bs : Blocks V T A) (cs : List BV) (pk pk' : List (String × P)) (h h' : Heap V T A)
    (hnd : (pk.map Prod.fst).Nodup) (hkeys : pk'.map Prod.fst = pk.map Prod.fst) :
    (restoreBlockVars hooks (checkpointBlockVars hooks bs cs pk h) pk' h').1 = some pk := by
  show restorePackages hooks (pk.map fun p => (p.1, hooks.checkpoint p.2)) pk' = some pk
  have key : ∀ (full l l' : List (String × P)), (full.map Prod.fst).Nodup → (∀ p ∈ l, p ∈ full) →
      l'.map Prod.fst = l.map Prod.fst →
      restorePackages hooks (full.map fun p => (p.1, hooks.checkpoint p.2)) l' = some l := by
    intro full l
    induction l with
    | nil => intro l' _ _ hk; rw [List.map_nil, List.map_eq_nil_iff] at hk; subst hk; rfl
    | cons p l ih =>
      intro l' hnd hsub hk
      cases l' with
      | nil => cases hk
      | cons q l' =>
        simp only [List.map_cons, List.cons.injEq] at hk
        obtain ⟨k, x⟩ := q
        obtain ⟨k', y⟩ := p
        obtain ⟨rfl, hk⟩ := hk
        have hlook : ∀ full : List (String × P), (full.map Prod.fst).Nodup → (k, y) ∈ full →
            (full.map fun p => (p.1, hooks.checkpoint p.2)).lookup k = some (hooks.checkpoint y) := by
          intro full
          induction full with
          | nil => intro _ h; cases h
          | cons a full ih2 =>
            intro hnd hm
            rw [List.map_cons, List.nodup_cons] at hnd
            rw [List.map_cons, List.lookup_cons]
            by_cases ha : k = a.1
            · rcases List.mem_cons.1 hm with rfl | hm
              · simp
              · exact absurd (List.mem_map.2 ⟨_, hm, ha⟩) hnd.1
            · have hne : (k == a.1) = false := by simpa using ha
              rw [hne]
              rcases List.mem_cons.1 hm with rfl | hm
              · exact absurd rfl ha
              · exact ih2 hnd.2 hm
        unfold restorePackages
        rw [hlook full hnd (hsub _ List.mem_cons_self),
          ih l' hnd (fun p hp => hsub p (List.mem_cons_of_mem _ hp)) hk]
        simp only [hl y x]
  exact key pk pk pk' hnd (fun _ h => h) hkeys

/-- **The controls have to be given.** `J = 2*x + y`, `x = 1`, saved without controls; after `rf(x = 10)` and
restoring, `J` has its saved value but `x` still holds `10`. -/
theorem restore_without_controls :
    let hooks : PackageHooks Unit Unit := ⟨id, fun c _ => c⟩
    let h := rfEval exTape [0] [1] exHeap
    let h' := rfEval exTape [0] [10] h
    let r := (restoreBlockVars hooks (checkpointBlockVars hooks exTape [] [] h) [] h').2
    let r' := (restoreBlockVars hooks (checkpointBlockVars hooks exTape [0] [] h) [] h').2
    saved r 3 = saved h 3 ∧ saved r 0 = 10 ∧ saved h 0 = 1 ∧ saved h' 3 ≠ saved h 3 ∧
      saved r' 0 = 1 ∧ saved r' 3 = saved h 3 := by
  decide

example : WF exTape ∧ (∀ op ∈ [ReplayOp.eval [0] [10], .gradient 3 [0] 1, .mark [0] true, .update 0 7,
    .crashedEval [0] [5] 1 0], ∀ c ∈ (op : ReplayOp Int Int).controls, c ∈ [0]) := by
  refine ⟨exTape_wf, ?_⟩
  simp [ReplayOp.controls]

end Pyadjoint
