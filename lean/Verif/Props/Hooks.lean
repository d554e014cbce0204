import Verif.Model.Hooks
import Verif.Proofs.Marking
import Verif.Proofs.Replay

/-!
# C72: which methods of a block a computation calls
-/

namespace Pyadjoint

variable {V T A P : Type*}

/-- What `prepare_*` returns serves every relevant component as if it had been prepared for that component alone. -/
structure HBlock.Local (b : HBlock V T A P) : Prop where
  adj : ∀ xs ls R i, i ∈ R → b.adjC xs ls i (b.prepareAdj xs ls R) = b.adjC xs ls i (b.prepareAdj xs ls [i])
  tlm : ∀ xs ts R i, i ∈ R → b.tlmC xs ts i (b.prepareTlm xs ts R) = b.tlmC xs ts i (b.prepareTlm xs ts [i])

theorem foldl_congr_mem {α β : Type*} (l : List α) (f g : β → α → β) (h : ∀ a ∈ l, ∀ b, f b a = g b a) (b : β) : l.foldl f b = l.foldl g b := by
  induction l generalizing b with
  | nil => rfl
  | cons a l ih =>
    rw [List.foldl_cons, List.foldl_cons, h a (List.mem_cons_self ..), ih fun a ha => h a (List.mem_cons_of_mem _ ha)]

namespace HBlock

theorem evaluateAdj_fuse [Add A] (b : HBlock V T A P) (hb : b.Local) (j : Nat) (m : Bool) (s : Heap V T A × List HookCall) :
    (b.evaluateAdj j m s).1 = b.fuse.evaluateAdj m s.1 := by
  unfold HBlock.evaluateAdj Block.evaluateAdj
  dsimp only [HBlock.fuse]
  split
  · rfl
  · split
    · rfl
    · exact foldl_congr_mem _ _ _ (fun p hp h => by rw [hb.adj _ _ _ _ (List.mem_map_of_mem hp)]) _

theorem evaluateTlm_fuse [Add T] (b : HBlock V T A P) (hb : b.Local) (j : Nat) (m : Bool) (s : Heap V T A × List HookCall) :
    (b.evaluateTlm j m s).1 = b.fuse.evaluateTlm m s.1 := by
  unfold HBlock.evaluateTlm Block.evaluateTlm
  dsimp only [HBlock.fuse]
  split
  · rfl
  · split
    · rfl
    · exact foldl_congr_mem _ _ _ (fun p hp h => by rw [hb.tlm _ _ _ _ (List.mem_map_of_mem hp)]) _

theorem evaluateHessian_fuse [Add A] (b : HBlock V T A P) (j : Nat) (m : Bool) (s : Heap V T A × List HookCall) :
    (b.evaluateHessian j m s).1 = b.fuse.evaluateHessian m s.1 := by
  unfold HBlock.evaluateHessian Block.evaluateHessian
  dsimp only [HBlock.fuse]
  split
  · rfl
  · split <;> rfl

theorem relevant_false (h : Heap V T A) (l : List BV) : (relevant h false l).map Prod.snd = List.range l.length := by
  unfold relevant
  rw [List.filter_eq_self.2 (by simp)]
  simp [List.range_eq_range']

theorem recompute_fuse (b : HBlock V T A P) (j : Nat) (s : Heap V T A × List HookCall) :
    (b.recompute j false s).1 = b.fuse.recompute false s.1 := by
  unfold HBlock.recompute Block.recompute
  dsimp only [HBlock.fuse]
  rw [relevant_false]
  by_cases hc : (b.outs.any fun o => (s.1 o).isControl) = true
  · rw [if_pos hc]; exact (if_pos hc).symm
  · rw [if_neg hc]
    refine Eq.trans ?_ (if_neg hc).symm
    split <;> rfl

end HBlock

namespace HTape

theorem foldl_fuse (f : HBlock V T A P → Nat → Heap V T A × List HookCall → Heap V T A × List HookCall) (g : Block V T A → Heap V T A → Heap V T A)
    (l : List (HBlock V T A P × Nat)) (hfg : ∀ b ∈ l, ∀ s, (f b.1 b.2 s).1 = g b.1.fuse s.1) (s : Heap V T A × List HookCall) :
    (l.foldl (fun s b => f b.1 b.2 s) s).1 = (l.map fun b => b.1.fuse).foldl (fun h b => g b h) s.1 := by
  induction l generalizing s with
  | nil => rfl
  | cons b l ih =>
    rw [List.foldl_cons, List.map_cons, List.foldl_cons, ih (fun b hb => hfg b (List.mem_cons_of_mem _ hb)), hfg b (List.mem_cons_self ..)]

theorem zipIdx_fuse (bs : HTape V T A P) (k : Nat) : ((bs.zipIdx k).map fun b => b.1.fuse) = bs.fuse := by
  induction bs generalizing k with
  | nil => rfl
  | cons b bs ih => rw [List.zipIdx_cons, List.map_cons, ih]; rfl

theorem mem_of_zipIdx {bs : HTape V T A P} {k : Nat} {b : HBlock V T A P × Nat} (h : b ∈ bs.zipIdx k) : b.1 ∈ bs := by
  have := List.mem_map_of_mem (f := Prod.fst) h
  rwa [List.zipIdx_map_fst] at this

/-- **C72, hooks.**  An evaluation of a tape whose blocks use `prepare_recompute_component` is one of the tape whose components prepare for themselves. -/
theorem hooks_eval (bs : HTape V T A P) (cs : List BV) (xs : List V) (h : Heap V T A) : (bs.rfEval cs xs h).1 = Pyadjoint.rfEval bs.fuse cs xs h := by
  unfold HTape.rfEval Pyadjoint.rfEval HTape.recompute Pyadjoint.recompute
  dsimp only
  rw [foldl_fuse (fun b j s => b.recompute j false s) (fun b h => b.recompute false h) _ (fun b _ s => b.1.recompute_fuse b.2 s), zipIdx_fuse]

/-- **C72, hooks.**  The gradient of a tape whose blocks use `prepare_evaluate_adj` is that of the tape whose components prepare for themselves. -/
theorem hooks_gradient [Add A] [Zero A] (bs : HTape V T A P) (hb : ∀ b ∈ bs, b.Local) (J : BV) (cs : List BV) (seed : A) (h : Heap V T A) :
    ((bs.computeGradient J cs seed h).1, (bs.computeGradient J cs seed h).2.1) = Pyadjoint.computeGradient bs.fuse J cs seed h := by
  unfold HTape.computeGradient Pyadjoint.computeGradient computeGradientState markedAdjoint HTape.evaluateAdj Pyadjoint.evaluateAdj
  dsimp only
  rw [foldl_fuse (fun b j s => b.evaluateAdj j true s) (fun b h => b.evaluateAdj true h) _
    (fun b hm s => b.1.evaluateAdj_fuse (hb _ (mem_of_zipIdx (List.mem_reverse.1 hm))) b.2 true s), List.map_reverse, zipIdx_fuse]

/-- **C72, hooks.**  Likewise for `compute_hessian`, with the hooks of the tangent and the Hessian sweep. -/
theorem hooks_hessian [Add T] [Add A] [Zero A] (bs : HTape V T A P) (hb : ∀ b ∈ bs, b.Local) (J : BV) (cs : List BV) (ds : List T) (h : Heap V T A) :
    ((bs.computeHessian J cs ds h).1, (bs.computeHessian J cs ds h).2.1) = computeHessianOf bs.fuse J cs ds h := by
  unfold HTape.computeHessian computeHessianOf HTape.evaluateTlm HTape.evaluateHessian Pyadjoint.evaluateTlm Pyadjoint.evaluateHessian
  dsimp only
  rw [foldl_fuse (fun b j s => b.evaluateHessian j true s) (fun b h => b.evaluateHessian true h) _
    (fun b _ s => b.1.evaluateHessian_fuse b.2 true s), List.map_reverse, zipIdx_fuse]
  rw [foldl_fuse (fun b j s => b.evaluateTlm j true s) (fun b h => b.evaluateTlm true h) _
    (fun b hm s => b.1.evaluateTlm_fuse (hb _ (mem_of_zipIdx hm)) b.2 true s), zipIdx_fuse]

/-! ## The calls of the backward sweeps -/

open Classical in
/-- The indices of the dependencies with the property `mk`. -/
noncomputable def relIdx (mk : BV → Prop) (b : HBlock V T A P) : List Nat := (b.deps.zipIdx.filter fun p => mk p.1).map Prod.snd

open Classical in
/-- The calls for the blocks `bs` at the positions `k`, `k + 1`, ..., last block first: blocks with a dependency in `mk` and an output that leads to `J`. -/
noncomputable def backCalls (mk : BV → Prop) (whole : Blocks V T A) (J : BV) (bs : HTape V T A P) (k : Nat) : List HookCall :=
  (bs.zipIdx k).reverse.flatMap fun b =>
    if (∃ d ∈ b.1.deps, mk d) ∧ ∃ o ∈ b.1.outs, CoReach whole (· = J) o then hookCalls b.2 (relIdx mk b.1) else []

theorem coReach_mono {b : Block V T A} {bs : Blocks V T A} {S : BV → Prop} {v : BV} (h : CoReach bs S v) : CoReach (b :: bs) S v := by
  induction h with
  | base h => exact .base h
  | step hb ho _ hd ih => exact .step (List.mem_cons_of_mem _ hb) ho ih hd

theorem coReach_cons {b : Block V T A} {bs : Blocks V T A} (wf : WF (b :: bs)) {S : BV → Prop} {v : BV} (hv : v ∉ b.deps) :
    CoReach (b :: bs) S v ↔ CoReach bs S v := by
  refine ⟨fun h => ?_, coReach_mono⟩
  induction h with
  | base h => exact .base h
  | @step b' d o hb ho _ hd ih =>
    rcases List.mem_cons.1 hb with rfl | hb
    · exact absurd hd hv
    · exact .step hb ho (ih fun h => (WF.head wf b' hb).1 o h ho) hd

theorem coReach_dep {b : Block V T A} {bs : Blocks V T A} (wf : WF (b :: bs)) {S : BV → Prop} {v : BV} (h : CoReach (b :: bs) S v) :
    CoReach bs S v ∨ (v ∈ b.deps ∧ ∃ o ∈ b.outs, CoReach bs S o) := by
  cases h with
  | base h => exact .inl (.base h)
  | @step b' _ o hb ho h hd =>
    rcases List.mem_cons.1 hb with rfl | hb
    · exact .inr ⟨hd, o, ho, (coReach_cons wf fun h => wf.self b' (List.mem_cons_self ..) o h ho).1 h⟩
    · exact .inl (.step hb ho ((coReach_cons wf fun h => (WF.head wf b' hb).1 o h ho).1 h) hd)

open Classical in
theorem backCalls_cons (mk : BV → Prop) (J : BV) (b : HBlock V T A P) (bs : HTape V T A P) (wf : WF (fuse (b :: bs))) (k : Nat) :
    backCalls mk (fuse (b :: bs)) J (b :: bs) k = backCalls mk bs.fuse J bs (k + 1) ++
      (if (∃ d ∈ b.deps, mk d) ∧ ∃ o ∈ b.outs, CoReach bs.fuse (· = J) o then hookCalls k (relIdx mk b) else []) := by
  unfold backCalls
  rw [List.zipIdx_cons, List.reverse_cons, List.flatMap_append, List.flatMap_singleton]
  have hiff : ∀ b' ∈ b :: bs, (∃ o ∈ b'.outs, CoReach (fuse (b :: bs)) (· = J) o) ↔ ∃ o ∈ b'.outs, CoReach bs.fuse (· = J) o := by
    intro b' hb'
    refine exists_congr fun o => and_congr_right fun ho => ?_
    refine coReach_cons (b := b.fuse) wf ?_
    rcases List.mem_cons.1 hb' with rfl | hb'
    · exact fun h => wf.self b'.fuse (List.mem_cons_self ..) o h ho
    · exact fun h => (WF.head (b := b.fuse) wf b'.fuse (List.mem_map_of_mem hb')).1 o h ho
  congr 1
  · refine List.flatMap_congr fun p hp => ?_
    exact if_congr (and_congr_right fun _ => hiff p.1 (List.mem_cons_of_mem _ (mem_of_zipIdx (List.mem_reverse.1 hp)))) rfl rfl
  · exact if_congr (and_congr_right fun _ => hiff b (List.mem_cons_self ..)) rfl rfl

/-- What a backward sweep does at one block: nothing if no output carries a value or no dependency is in `mk`; otherwise it makes the calls of the block and
values appear only on dependencies in `mk`. -/
structure Backward {S : Type*} (mk : BV → Prop) (Ok : S → Prop) (live : S → BV → Prop) (log : S → List HookCall)
    (step : HBlock V T A P → Nat → S → S) (b : HBlock V T A P) : Prop where
  ok : ∀ j s, Ok s → Ok (step b j s)
  idle : ∀ j s, Ok s → ¬ ((∃ o ∈ b.outs, live s o) ∧ ∃ d ∈ b.deps, mk d) → step b j s = s
  acts : ∀ j s, Ok s → (∃ o ∈ b.outs, live s o) → (∃ d ∈ b.deps, mk d) → log (step b j s) = log s ++ hookCalls j (relIdx mk b)
  le : ∀ j s, Ok s → ∀ v, live (step b j s) v → live s v ∨ (v ∈ b.deps ∧ mk v)
  mono : ∀ j s, Ok s → ∀ v, live s v → live (step b j s) v

theorem back_sweep {S : Type*} {mk : BV → Prop} {Ok : S → Prop} {live : S → BV → Prop} {log : S → List HookCall}
    {step : HBlock V T A P → Nat → S → S} {On : BV → Prop} {J : BV} (s₀ : S) (hok : Ok s₀) (hlive : ∀ v, On v → live s₀ v → v = J)
    (bs : HTape V T A P) (k : Nat) (wf : WF bs.fuse) (hstep : ∀ b ∈ bs, Backward mk Ok live log step b)
    (hclosed : ∀ b ∈ bs, (∃ d ∈ b.deps, mk d) → ∀ o ∈ b.outs, mk o) (hOn : ∀ b ∈ bs, ∀ o ∈ b.outs, On o) :
    ∃ s, (bs.zipIdx k).reverse.foldl (fun s b => step b.1 b.2 s) s₀ = s ∧ Ok s ∧ (∀ v, On v → live s v → v = J ∨ mk v ∧ CoReach bs.fuse (· = J) v) ∧
      ∃ l, log s = log s₀ ++ l ∧ l.Sublist (backCalls mk bs.fuse J bs k) ∧
        (live s₀ J → (∀ b ∈ bs, ∀ j s, Ok s → (∃ o ∈ b.outs, live s o) → ∀ d ∈ b.deps, mk d → live (step b j s) d) →
          (∀ v, v = J ∨ mk v ∧ CoReach bs.fuse (· = J) v → live s v) ∧ l = backCalls mk bs.fuse J bs k) := by
  induction bs generalizing k with
  | nil =>
    refine ⟨s₀, rfl, hok, fun v hv h => .inl (hlive v hv h), [], by simp, List.nil_sublist _, fun hJ _ => ⟨?_, rfl⟩⟩
    rintro v (rfl | ⟨_, h⟩)
    · exact hJ
    · cases h with
      | base h => exact h ▸ hJ
      | step hb => cases hb
  | cons b bs ih =>
    obtain ⟨s, hs, hok', hl, l, hlog, hsub, hfull⟩ := ih (k + 1) (WF.tail (b := b.fuse) wf) (fun b hb => hstep b (List.mem_cons_of_mem _ hb))
      (fun b hb => hclosed b (List.mem_cons_of_mem _ hb)) (fun b hb => hOn b (List.mem_cons_of_mem _ hb))
    have B := hstep b (List.mem_cons_self ..)
    have hc := hclosed b (List.mem_cons_self ..)
    rw [backCalls_cons mk J b bs wf k, List.zipIdx_cons, List.reverse_cons, List.foldl_append, hs, List.foldl_cons, List.foldl_nil]
    refine ⟨_, rfl, B.ok _ _ hok', ?_, ?_⟩
    · intro v hv h
      by_cases hact : (∃ o ∈ b.outs, live s o) ∧ ∃ d ∈ b.deps, mk d
      · rcases B.le _ _ hok' v h with h | ⟨hd, hm⟩
        · exact (hl v hv h).imp_right fun h => ⟨h.1, coReach_mono h.2⟩
        · obtain ⟨⟨o, ho, hlo⟩, _⟩ := hact
          refine .inr ⟨hm, .step (b := b.fuse) (o := o) (List.mem_cons_self ..) ho ?_ hd⟩
          rcases hl o (hOn b (List.mem_cons_self ..) o ho) hlo with rfl | h
          · exact .base rfl
          · exact coReach_mono h.2
      · rw [B.idle _ _ hok' hact] at h
        exact (hl v hv h).imp_right fun h => ⟨h.1, coReach_mono h.2⟩
    · by_cases hact : (∃ o ∈ b.outs, live s o) ∧ ∃ d ∈ b.deps, mk d
      · refine ⟨l ++ hookCalls k (relIdx mk b), ?_, ?_, fun hJ hf => ?_⟩
        · rw [B.acts _ _ hok' hact.1 hact.2, hlog, List.append_assoc]
        · refine hsub.append ?_
          rw [if_pos]
          refine ⟨hact.2, ?_⟩
          obtain ⟨⟨o, ho, hlo⟩, _⟩ := hact
          refine ⟨o, ho, ?_⟩
          rcases hl o (hOn b (List.mem_cons_self ..) o ho) hlo with rfl | h
          · exact .base rfl
          · exact h.2
        · obtain ⟨h1, h2⟩ := hfull hJ fun b hb => hf b (List.mem_cons_of_mem _ hb)
          refine ⟨?_, ?_⟩
          · rintro v (rfl | ⟨hm, h⟩)
            · exact B.mono _ _ hok' _ (h1 _ (.inl rfl))
            · rcases coReach_dep (b := b.fuse) wf h with h | ⟨hd, _⟩
              · exact B.mono _ _ hok' _ (h1 _ (.inr ⟨hm, h⟩))
              · exact hf b (List.mem_cons_self ..) _ _ hok' hact.1 v hd hm
          · rw [h2, if_pos]
            refine ⟨hact.2, ?_⟩
            obtain ⟨⟨o, ho, hlo⟩, _⟩ := hact
            refine ⟨o, ho, ?_⟩
            rcases hl o (hOn b (List.mem_cons_self ..) o ho) hlo with rfl | h
            · exact .base rfl
            · exact h.2
      · refine ⟨l, ?_, ?_, fun hJ hf => ?_⟩
        · rw [B.idle _ _ hok' hact, hlog]
        · exact hsub.trans (List.sublist_append_left _ _)
        · obtain ⟨h1, h2⟩ := hfull hJ fun b hb => hf b (List.mem_cons_of_mem _ hb)
          have hno : ¬ ((∃ d ∈ b.deps, mk d) ∧ ∃ o ∈ b.outs, CoReach (fuse bs) (· = J) o) := by
            rintro ⟨hd, o, ho, h⟩
            exact hact ⟨⟨o, ho, h1 o (.inr ⟨hc hd o ho, h⟩)⟩, hd⟩
          refine ⟨?_, by rw [h2, if_neg hno, List.append_nil]⟩
          rw [B.idle _ _ hok' hact]
          rintro v (rfl | ⟨hm, h⟩)
          · exact h1 _ (.inl rfl)
          · rcases coReach_dep (b := b.fuse) wf h with h | ⟨hd, o, ho, h⟩
            · exact h1 _ (.inr ⟨hm, h⟩)
            · exact absurd ⟨⟨v, hd, hm⟩, o, ho, h⟩ hno

theorem addAdj?_spec [Add A] (h : Heap V T A) (w : BV) (a : Option A) (v : BV) :
    (addAdj? h w a v).marked = (h v).marked ∧ ((addAdj? h w a v).adj.isSome ↔ (h v).adj.isSome ∨ (w = v ∧ a.isSome)) := by
  cases a with
  | none => simp [addAdj?]
  | some a =>
    simp only [addAdj?, addAdj]
    by_cases hv : v = w
    · subst hv
      rw [Function.update_self]
      refine ⟨rfl, ?_⟩
      cases (h v).adj <;> simp
    · rw [Function.update_of_ne hv]
      simp [Ne.symm hv]

theorem addHess?_spec [Add A] (h : Heap V T A) (w : BV) (a : Option A) (v : BV) :
    (addHess? h w a v).marked = (h v).marked ∧ ((addHess? h w a v).hess.isSome ↔ (h v).hess.isSome ∨ (w = v ∧ a.isSome)) := by
  cases a with
  | none => simp [addHess?]
  | some a =>
    simp only [addHess?, addHess]
    by_cases hv : v = w
    · subst hv
      rw [Function.update_self]
      refine ⟨rfl, ?_⟩
      cases (h v).hess <;> simp
    · rw [Function.update_of_ne hv]
      simp [Ne.symm hv]

theorem foldl_live {B : Type*} (live : Heap V T A → BV → Prop) (add : Heap V T A → BV → Option B → Heap V T A)
    (hadd : ∀ h w a v, (add h w a v).marked = (h v).marked ∧ (live (add h w a) v ↔ live h v ∨ (w = v ∧ a.isSome)))
    (rel : List (BV × Nat)) (f : Nat → Option B) (h : Heap V T A) (v : BV) :
    (rel.foldl (fun h p => add h p.1 (f p.2)) h v).marked = (h v).marked ∧
      (live (rel.foldl (fun h p => add h p.1 (f p.2)) h) v ↔ live h v ∨ ∃ p ∈ rel, p.1 = v ∧ (f p.2).isSome) := by
  induction rel generalizing h with
  | nil => simp
  | cons p rel ih =>
    rw [List.foldl_cons]
    obtain ⟨h1, h2⟩ := ih (add h p.1 (f p.2))
    obtain ⟨g1, g2⟩ := hadd h p.1 (f p.2) v
    refine ⟨h1.trans g1, ?_⟩
    rw [h2, g2, or_assoc]
    simp

theorem relevant_mk {mk : BV → Prop} {h : Heap V T A} (hm : ∀ v, (h v).marked = true ↔ mk v) (b : HBlock V T A P) :
    (relevant h true b.deps).map Prod.snd = relIdx mk b ∧ (∀ p, p ∈ relevant h true b.deps ↔ p ∈ b.deps.zipIdx ∧ mk p.1) ∧
      ((relevant h true b.deps).isEmpty = true ↔ ¬ ∃ d ∈ b.deps, mk d) := by
  have hmem : ∀ p, p ∈ relevant h true b.deps ↔ p ∈ b.deps.zipIdx ∧ mk p.1 := by
    intro p
    simp [relevant, ← hm]
  refine ⟨?_, hmem, ?_⟩
  · unfold relevant relIdx
    congr 1
    refine List.filter_congr fun p _ => ?_
    rw [Bool.eq_iff_iff]
    simp [hm]
  · rw [List.isEmpty_iff, List.eq_nil_iff_forall_not_mem]
    constructor
    · rintro he ⟨d, hd, hmk⟩
      obtain ⟨i, hi, rfl⟩ := List.mem_iff_getElem.1 hd
      exact he (b.deps[i], i) ((hmem _).2 ⟨by rw [List.mk_mem_zipIdx_iff_getElem?]; exact List.getElem?_eq_getElem hi, hmk⟩)
    · rintro he p hp
      obtain ⟨h1, h2⟩ := (hmem p).1 hp
      exact he ⟨p.1, List.fst_mem_of_mem_zipIdx h1, h2⟩

/-- A block step of a backward sweep, in general form. -/
theorem backward_of [Add A] (mk : BV → Prop) (live : Heap V T A → BV → Prop) (add : Heap V T A → BV → Option A → Heap V T A)
    (hadd : ∀ h w a v, (add h w a v).marked = (h v).marked ∧ (live (add h w a) v ↔ live h v ∨ (w = v ∧ a.isSome)))
    (step : HBlock V T A P → Nat → Heap V T A × List HookCall → Heap V T A × List HookCall) (b : HBlock V T A P)
    (f : Heap V T A → Nat → Option A)
    (hidle : ∀ j s, ¬ (∃ o ∈ b.outs, live s.1 o) ∨ (relevant s.1 true b.deps).isEmpty = true → step b j s = s)
    (hacts : ∀ j s, (∃ o ∈ b.outs, live s.1 o) → ¬ (relevant s.1 true b.deps).isEmpty = true →
      step b j s = ((relevant s.1 true b.deps).foldl (fun h p => add h p.1 (f s.1 p.2)) s.1, s.2 ++ hookCalls j ((relevant s.1 true b.deps).map Prod.snd))) :
    Backward mk (fun s => ∀ v, (s.1 v).marked = true ↔ mk v) (fun s => live s.1) Prod.snd step b ∧
      ((∀ h i, (∃ o ∈ b.outs, live h o) → i < b.deps.length → (f h i).isSome) → ∀ (j : Nat) (s : Heap V T A × List HookCall), (∀ v, (s.1 v).marked = true ↔ mk v) →
        (∃ o ∈ b.outs, live s.1 o) → ∀ d ∈ b.deps, mk d → live (step b j s).1 d) := by
  refine ⟨⟨fun j s hs v => ?_, fun j s hs hn => ?_, fun j s hs h1 h2 => ?_, fun j s hs v hv => ?_, fun j s hs v hv => ?_⟩, fun hf j s hs h1 d hd hm => ?_⟩
  · by_cases hc : (∃ o ∈ b.outs, live s.1 o) ∧ ¬ (relevant s.1 true b.deps).isEmpty = true
    · rw [hacts j s hc.1 hc.2, (foldl_live live add hadd _ _ _ _).1]; exact hs v
    · rw [hidle j s (by by_contra h; push Not at h; exact hc h)]; exact hs v
  · refine hidle j s ?_
    by_contra h
    push Not at h
    refine hn ⟨h.1, ?_⟩
    by_contra h'
    exact h.2 ((relevant_mk hs b).2.2.2 h')
  · rw [hacts j s h1 (fun h => (relevant_mk hs b).2.2.1 h h2), (relevant_mk hs b).1]
  · by_cases hc : (∃ o ∈ b.outs, live s.1 o) ∧ ¬ (relevant s.1 true b.deps).isEmpty = true
    · rw [hacts j s hc.1 hc.2, (foldl_live live add hadd _ _ _ _).2] at hv
      rcases hv with hv | ⟨p, hp, rfl, _⟩
      · exact .inl hv
      · obtain ⟨h1, h2⟩ := ((relevant_mk hs b).2.1 p).1 hp
        exact .inr ⟨List.fst_mem_of_mem_zipIdx h1, h2⟩
    · rw [hidle j s (by by_contra h; push Not at h; exact hc h)] at hv; exact .inl hv
  · by_cases hc : (∃ o ∈ b.outs, live s.1 o) ∧ ¬ (relevant s.1 true b.deps).isEmpty = true
    · rw [hacts j s hc.1 hc.2, (foldl_live live add hadd _ _ _ _).2]
      exact .inl hv
    · rw [hidle j s (by by_contra h; push Not at h; exact hc h)]; exact hv
  · have hne : ¬ (relevant s.1 true b.deps).isEmpty = true := fun h => (relevant_mk hs b).2.2.1 h ⟨d, hd, hm⟩
    rw [hacts j s h1 hne, (foldl_live live add hadd _ _ _ _).2]
    obtain ⟨i, hi, rfl⟩ := List.mem_iff_getElem.1 hd
    exact .inr ⟨(b.deps[i], i), ((relevant_mk hs b).2.1 _).2 ⟨by rw [List.mk_mem_zipIdx_iff_getElem?]; exact List.getElem?_eq_getElem hi, hm⟩, rfl, hf _ i h1 hi⟩

theorem all_none_iff {α : Type*} (l : List BV) (f : BV → Option α) : (l.map f).all Option.isNone = true ↔ ¬ ∃ o ∈ l, (f o).isSome := by
  rw [List.all_map, List.all_eq_true]
  simp

end HTape

/-- No component of the adjoint returns `None`, given values for the inputs and an adjoint value for at least one output. -/
def HBlock.AdjTotal (b : HBlock V T A P) : Prop := ∀ xs (ls : List (Option A)) i p, xs.length = b.deps.length → ls.length = b.outs.length →
  (∃ l ∈ ls, l.isSome) → i < b.deps.length → (b.adjC xs ls i p).isSome

/-- No component of the Hessian returns `None`, given values for the inputs and a Hessian value for at least one output. -/
def HBlock.HessTotal (b : HBlock V T A P) : Prop := ∀ xs (hs as : List (Option A)) i r p, xs.length = b.deps.length → hs.length = b.outs.length →
  as.length = b.outs.length → (∃ l ∈ hs, l.isSome) → i < b.deps.length → (b.hessC xs hs as i r p).isSome

/-- No component of the tangent returns `None`, given values for the inputs and a tangent value for at least one input. -/
def HBlock.TlmTotal (b : HBlock V T A P) : Prop := ∀ xs (ts : List (Option T)) i p, xs.length = b.deps.length → ts.length = b.deps.length →
  (∃ t ∈ ts, t.isSome) → i < b.outs.length → (b.tlmC xs ts i p).isSome

namespace HTape

theorem adj_backward [Add A] (mk : BV → Prop) (b : HBlock V T A P) :
    Backward mk (fun s => ∀ v, (s.1 v).marked = true ↔ mk v) (fun s v => (s.1 v).adj.isSome) Prod.snd (fun b j s => b.evaluateAdj j true s) b ∧
      (b.AdjTotal → ∀ (j : Nat) (s : Heap V T A × List HookCall), (∀ v, (s.1 v).marked = true ↔ mk v) →
        (∃ o ∈ b.outs, (s.1 o).adj.isSome) → ∀ d ∈ b.deps, mk d → ((b.evaluateAdj j true s).1 d).adj.isSome) := by
  have := backward_of (A := A) mk (fun h v => (h v).adj.isSome) addAdj? addAdj?_spec (fun b j s => b.evaluateAdj j true s) b
    (fun h i => b.adjC (b.deps.map (saved h)) (b.outs.map fun o => (h o).adj) i
      (b.prepareAdj (b.deps.map (saved h)) (b.outs.map fun o => (h o).adj) ((relevant h true b.deps).map Prod.snd))) ?_ ?_
  · exact ⟨this.1, fun hf => this.2 fun h i ho hi => hf _ _ _ _ (by simp) (by simp) (by simpa using ho) hi⟩
  · rintro j s (h | h)
    · unfold HBlock.evaluateAdj
      dsimp only
      rw [if_pos ((all_none_iff _ _).2 h)]
    · unfold HBlock.evaluateAdj
      dsimp only
      rw [if_pos h, ite_self]
  · intro j s h1 h2
    unfold HBlock.evaluateAdj
    dsimp only
    rw [if_neg (fun h => (all_none_iff _ _).1 h h1), if_neg h2]

theorem hess_backward [Add A] (mk : BV → Prop) (b : HBlock V T A P) :
    Backward mk (fun s => ∀ v, (s.1 v).marked = true ↔ mk v) (fun s v => (s.1 v).hess.isSome) Prod.snd (fun b j s => b.evaluateHessian j true s) b ∧
      (b.HessTotal → ∀ (j : Nat) (s : Heap V T A × List HookCall), (∀ v, (s.1 v).marked = true ↔ mk v) →
        (∃ o ∈ b.outs, (s.1 o).hess.isSome) → ∀ d ∈ b.deps, mk d → ((b.evaluateHessian j true s).1 d).hess.isSome) := by
  have := backward_of (A := A) mk (fun h v => (h v).hess.isSome) addHess? addHess?_spec (fun b j s => b.evaluateHessian j true s) b
    (fun h i => b.hessC (b.deps.map (saved h)) (b.outs.map fun o => (h o).hess) (b.outs.map fun o => (h o).adj) i
      ((relevant h true b.deps).map fun q => (q.2, (h q.1).tlm))
      (b.prepareHess (b.deps.map (saved h)) (b.outs.map fun o => (h o).hess) (b.outs.map fun o => (h o).adj)
        ((relevant h true b.deps).map fun q => (q.2, (h q.1).tlm)))) ?_ ?_
  · exact ⟨this.1, fun hf => this.2 fun h i ho hi => hf _ _ _ _ _ _ (by simp) (by simp) (by simp) (by simpa using ho) hi⟩
  · rintro j s (h | h)
    · unfold HBlock.evaluateHessian
      dsimp only
      rw [if_pos ((all_none_iff _ _).2 h)]
    · unfold HBlock.evaluateHessian
      dsimp only
      rw [if_pos h, ite_self]
  · intro j s h1 h2
    unfold HBlock.evaluateHessian
    dsimp only
    rw [if_neg (fun h => (all_none_iff _ _).1 h h1), if_neg h2]

/-- **C72, adjoints.**  A gradient computation calls the adjoint methods only of blocks that have a dependency computed from a control and an output `J` is
computed from, last block first: `prepare_evaluate_adj` once with the dependencies computed from a control, then the component of each of them once.
If no component returns `None`, it makes all these calls. -/
theorem gradient_calls [Add A] [Zero A] (bs : HTape V T A P) (wf : WF bs.fuse) (J : BV) (cs : List BV) (seed : A) (h : Heap V T A)
    (hm : ∀ v, (h v).marked = false) :
    (bs.computeGradient J cs seed h).2.2.Sublist (backCalls (Reach bs.fuse (· ∈ cs)) bs.fuse J bs 0) ∧
      ((∀ b ∈ bs, b.AdjTotal) → (bs.computeGradient J cs seed h).2.2 = backCalls (Reach bs.fuse (· ∈ cs)) bs.fuse J bs 0) := by
  classical
  set h₁ := Function.update (resetVariables bs.fuse .adjoint h) J { resetVariables bs.fuse .adjoint h J with adj := some seed } with hh₁
  set h₂ := markControls cs true (markAll (findRelevantNodes bs.fuse cs) true h₁) with hh₂
  have hok : ∀ v, (h₂ v).marked = true ↔ Reach bs.fuse (· ∈ cs) v := by
    intro v
    rw [← findRelevantNodes_iff wf, hh₂, markControls_marked, markAll_apply]
    have h1 : (h₁ v).marked = false := by
      rw [hh₁]
      by_cases hv : v = J
      · subst hv; rw [Function.update_self]; simp [hm]
      · rw [Function.update_of_ne hv]; simp [hm]
    by_cases hv : v ∈ findRelevantNodes bs.fuse cs
    · simp [hv]
    · simp [hv, h1]
  have hadj : ∀ v, OnTape bs.fuse v → (h₂ v).adj.isSome → v = J := by
    intro v hv hs
    by_contra hne
    rw [hh₂, markControls_adj, markAll_adj, hh₁, Function.update_of_ne hne, resetVariables_apply, if_pos hv] at hs
    exact absurd hs (by simp [Var.reset])
  have hJ : (h₂ J).adj.isSome := by
    rw [hh₂, markControls_adj, markAll_adj, hh₁, Function.update_self]; rfl
  obtain ⟨s, hs, -, -, l, hlog, hsub, hfull⟩ := back_sweep (J := J) (On := OnTape bs.fuse) ((h₂, []) : Heap V T A × List HookCall) hok hadj bs 0 wf
    (fun b _ => (adj_backward _ b).1) (fun b hb ⟨d, hd, hr⟩ o ho => .step (b := b.fuse) (List.mem_map_of_mem hb) hd hr ho)
    (fun b hb o ho => ⟨b.fuse, List.mem_map_of_mem hb, .inr ho⟩)
  have e : (bs.computeGradient J cs seed h).2.2 = s.2 := by rw [← hs]; rfl
  rw [e, hlog, List.nil_append]
  exact ⟨hsub, fun ht => (hfull hJ fun b hb => (adj_backward _ b).2 (ht b hb)).2⟩

/-! ## The calls of the forward sweeps -/

theorem ite_any {α : Type*} {c d : Prop} (dc : Decidable c) (dd : Decidable d) (h : c ↔ d) (x y : α) : @ite _ c dc x y = @ite _ d dd x y := if_congr h rfl rfl

open Classical in
/-- The calls for the blocks `bs` at the positions `k`, `k + 1`, ..., first block first: all outputs of the blocks with the property `act`. -/
noncomputable def forwardCalls (act : HBlock V T A P → Prop) (bs : HTape V T A P) (k : Nat) : List HookCall :=
  (bs.zipIdx k).flatMap fun b => if act b.1 ∧ b.1.outs ≠ [] then hookCalls b.2 (List.range b.1.outs.length) else []

theorem recompute_calls (bs : HTape V T A P) (cs : List BV) (k : Nat) (s : Heap V T A × List HookCall) (hs : ∀ v, (s.1 v).isControl = true ↔ v ∈ cs) :
    ((bs.zipIdx k).foldl (fun s b => b.1.recompute b.2 false s) s).2 = s.2 ++ forwardCalls (fun b => ∀ o ∈ b.outs, o ∉ cs) bs k := by
  classical
  induction bs generalizing k s with
  | nil => simp [forwardCalls]
  | cons b bs ih =>
    rw [List.zipIdx_cons, List.foldl_cons]
    have hc : ∀ v, (((b.recompute k false s).1 v).isControl = true ↔ v ∈ cs) := by
      intro v
      rw [b.recompute_fuse, show b.fuse.recompute false s.1 = Pyadjoint.recompute [b.fuse] s.1 from rfl, recompute_isControl]; exact hs v
    rw [ih (k + 1) _ hc]
    have e : (b.recompute k false s).2 = s.2 ++ (if (∀ o ∈ b.outs, o ∉ cs) ∧ b.outs ≠ [] then hookCalls k (List.range b.outs.length) else []) := by
      unfold HBlock.recompute
      dsimp only
      by_cases h1 : ∀ o ∈ b.outs, o ∉ cs
      · rw [if_neg (by simpa [hs] using h1), HBlock.relevant_false]
        by_cases h2 : b.outs = []
        · simp [h2, relevant]
        · rw [if_neg, if_pos ⟨h1, h2⟩]
          intro h
          have := congrArg List.length (HBlock.relevant_false s.1 b.outs)
          rw [List.isEmpty_iff.1 h] at this
          simp at this
          exact h2 (by simpa using this.symm)
      · rw [if_pos (by simpa [hs] using h1), if_neg fun h => h1 h.1, List.append_nil]
    rw [e, List.append_assoc]
    unfold forwardCalls
    rw [List.zipIdx_cons, List.flatMap_cons]
    congr 2
    exact ite_any _ _ Iff.rfl _ _

/-- **C72, evaluations.**  An evaluation calls `prepare_recompute_component` and `recompute_component` of every block that does not compute a control, first block
first: the preparation once, then the component of every output once. -/
theorem evaluation_calls (bs : HTape V T A P) (cs : List BV) (xs : List V) (h : Heap V T A) (hfl : ∀ v, (h v).isControl = false) :
    (bs.rfEval cs xs h).2 = forwardCalls (fun b => ∀ o ∈ b.outs, o ∉ cs) bs 0 := by
  unfold HTape.rfEval HTape.recompute
  dsimp only
  rw [recompute_calls bs cs 0 _ ?_, List.nil_append]
  intro v
  dsimp only
  rw [markControls_apply]
  by_cases hv : v ∈ cs
  · simp [hv]
  · simp [hv, hfl, updateControls_isControl]

theorem addTlm?_spec [Add T] (h : Heap V T A) (w : BV) (a : Option T) (v : BV) :
    (addTlm? h w a v).marked = (h v).marked ∧ ((addTlm? h w a v).tlm.isSome ↔ (h v).tlm.isSome ∨ (w = v ∧ a.isSome)) := by
  cases a with
  | none => simp [addTlm?]
  | some a =>
    simp only [addTlm?, addTlm]
    by_cases hv : v = w
    · subst hv
      rw [Function.update_self]
      refine ⟨rfl, ?_⟩
      cases (h v).tlm <;> simp
    · rw [Function.update_of_ne hv]
      simp [Ne.symm hv]

/-- The sources after a block has been passed. -/
def after (b : HBlock V T A P) (S : BV → Prop) (v : BV) : Prop := S v ∨ ((∃ d ∈ b.deps, S d) ∧ v ∈ b.outs)

theorem reach_dep_iff {b : HBlock V T A P} {bs : HTape V T A P} (wf : WF (fuse (b :: bs))) {S : BV → Prop} {d : BV} (hd : d ∈ b.deps) :
    Reach (fuse (b :: bs)) S d ↔ S d := by
  refine ⟨fun h => ?_, .base⟩
  cases h with
  | base h => exact h
  | @step b' _ _ hb _ _ ho =>
    rcases List.mem_cons.1 hb with rfl | hb
    · exact absurd ho (wf.self _ (List.mem_cons_self ..) d hd)
    · exact absurd ho ((WF.head (b := b.fuse) wf b' hb).1 d hd)

theorem reach_after {b : HBlock V T A P} {bs : HTape V T A P} (wf : WF (fuse (b :: bs))) {S : BV → Prop} {v : BV} :
    Reach (fuse (b :: bs)) S v ↔ Reach bs.fuse (after b S) v := by
  constructor
  · intro h
    induction h with
    | base h => exact .base (.inl h)
    | @step b' d o hb hd hr ho ih =>
      rcases List.mem_cons.1 hb with rfl | hb
      · exact .base (.inr ⟨⟨d, hd, (reach_dep_iff wf hd).1 hr⟩, ho⟩)
      · exact .step hb hd ih ho
  · intro h
    induction h with
    | base h =>
      rcases h with h | ⟨⟨d, hd, hs⟩, ho⟩
      · exact .base h
      · exact .step (b := b.fuse) (List.mem_cons_self ..) hd (.base hs) ho
    | step hb hd _ ho ih => exact .step (List.mem_cons_of_mem _ hb) hd ih ho

theorem tlm_block [Add T] (b : HBlock V T A P) (j : Nat) (m : Bool) (s : Heap V T A × List HookCall) :
    (¬ ((∃ d ∈ b.deps, (s.1 d).tlm.isSome) ∧ ¬ (relevant s.1 m b.outs).isEmpty = true) → b.evaluateTlm j m s = s) ∧
    ((∃ d ∈ b.deps, (s.1 d).tlm.isSome) → ¬ (relevant s.1 m b.outs).isEmpty = true →
      (b.evaluateTlm j m s).2 = s.2 ++ hookCalls j ((relevant s.1 m b.outs).map Prod.snd) ∧ ∀ v, ((b.evaluateTlm j m s).1 v).marked = (s.1 v).marked ∧
        (((b.evaluateTlm j m s).1 v).tlm.isSome ↔ (s.1 v).tlm.isSome ∨ ∃ p ∈ relevant s.1 m b.outs, p.1 = v ∧
          (b.tlmC (b.deps.map (saved s.1)) (b.deps.map fun d => (s.1 d).tlm) p.2
            (b.prepareTlm (b.deps.map (saved s.1)) (b.deps.map fun d => (s.1 d).tlm) ((relevant s.1 m b.outs).map Prod.snd))).isSome)) := by
  refine ⟨fun hn => ?_, fun h1 h2 => ?_⟩
  · unfold HBlock.evaluateTlm
    dsimp only
    by_cases h1 : ∃ d ∈ b.deps, (s.1 d).tlm.isSome
    · rw [if_pos (c := (relevant s.1 m b.outs).isEmpty = true) (by by_contra h; exact hn ⟨h1, h⟩), ite_self]
    · rw [if_pos ((all_none_iff _ _).2 h1)]
  · unfold HBlock.evaluateTlm
    dsimp only
    rw [if_neg (fun h => (all_none_iff _ _).1 h h1), if_neg h2]
    exact ⟨rfl, fun v => foldl_live (fun h v => (h v).tlm.isSome) addTlm? addTlm?_spec (relevant s.1 m b.outs)
      (fun i => b.tlmC (b.deps.map (saved s.1)) (b.deps.map fun d => (s.1 d).tlm) i
        (b.prepareTlm (b.deps.map (saved s.1)) (b.deps.map fun d => (s.1 d).tlm) ((relevant s.1 m b.outs).map Prod.snd))) s.1 v⟩

theorem tlm_calls_aux [Add T] (m : Bool) (On : BV → Prop) (bs : HTape V T A P) (k : Nat) (wf : WF bs.fuse) (S : BV → Prop) (s : Heap V T A × List HookCall)
    (hmk : ∀ v, Reach bs.fuse S v → ((s.1 v).marked || !m) = true) (hle : ∀ v, On v → (s.1 v).tlm.isSome → S v) (hOn : ∀ b ∈ bs, ∀ d ∈ b.deps, On d) :
    ∃ l, ((bs.zipIdx k).foldl (fun s b => b.1.evaluateTlm b.2 m s) s).2 = s.2 ++ l ∧
      l.Sublist (forwardCalls (fun b => ∃ d ∈ b.deps, Reach bs.fuse S d) bs k) ∧
      ((∀ v, On v → S v → (s.1 v).tlm.isSome) → (∀ b ∈ bs, b.TlmTotal) → l = forwardCalls (fun b => ∃ d ∈ b.deps, Reach bs.fuse S d) bs k) := by
  classical
  induction bs generalizing k S s with
  | nil => exact ⟨[], by simp, List.nil_sublist _, fun _ _ => rfl⟩
  | cons b bs ih =>
    have hfc : forwardCalls (fun b' => ∃ d ∈ b'.deps, Reach (fuse (b :: bs)) S d) (b :: bs) k =
        (if (∃ d ∈ b.deps, S d) ∧ b.outs ≠ [] then hookCalls k (List.range b.outs.length) else []) ++
          forwardCalls (fun b' => ∃ d ∈ b'.deps, Reach (fuse bs) (after b S) d) bs (k + 1) := by
      unfold forwardCalls
      rw [List.zipIdx_cons, List.flatMap_cons]
      congr 1
      · exact ite_any _ _ (and_congr_left fun _ => exists_congr fun d => and_congr_right fun hd => reach_dep_iff wf hd) _ _
      · exact List.flatMap_congr fun p hp => ite_any _ _ (and_congr_left fun _ => exists_congr fun d => and_congr_right fun hd => reach_after wf) _ _
    obtain ⟨hidle, hacts⟩ := tlm_block b k m s
    rw [List.zipIdx_cons, List.foldl_cons, hfc]
    by_cases hact : (∃ d ∈ b.deps, (s.1 d).tlm.isSome) ∧ ¬ (relevant s.1 m b.outs).isEmpty = true
    · obtain ⟨a1, a2⟩ := hacts hact.1 hact.2
      obtain ⟨⟨d, hd, hds⟩, hne⟩ := hact
      have hSd : S d := hle d (hOn b (List.mem_cons_self ..) d hd) hds
      have hrel : relevant s.1 m b.outs = b.outs.zipIdx := by
        unfold relevant
        rw [List.filter_eq_self]
        intro p hp
        exact hmk p.1 (.step (b := b.fuse) (List.mem_cons_self ..) hd (.base hSd) (List.fst_mem_of_mem_zipIdx hp))
      have hne' : b.outs ≠ [] := by
        intro h; rw [hrel, h] at hne; exact hne rfl
      have hidx : (relevant s.1 m b.outs).map Prod.snd = List.range b.outs.length := by
        rw [hrel]; simp [List.range_eq_range']
      obtain ⟨l, hl, hsub, hfull⟩ := ih (k + 1) (WF.tail (b := b.fuse) wf) (after b S) (b.evaluateTlm k m s)
        (fun v hv => by rw [(a2 v).1]; exact hmk v ((reach_after wf).2 hv))
        (fun v hv h => by
          rcases ((a2 v).2).1 h with h | ⟨p, hp, rfl, _⟩
          · exact .inl (hle v hv h)
          · rw [hrel] at hp
            exact .inr ⟨⟨d, hd, hSd⟩, List.fst_mem_of_mem_zipIdx hp⟩)
        (fun b hb => hOn b (List.mem_cons_of_mem _ hb))
      refine ⟨hookCalls k (List.range b.outs.length) ++ l, by rw [hl, a1, hidx, List.append_assoc], ?_, fun hge ht => ?_⟩
      · rw [if_pos ⟨⟨d, hd, hSd⟩, hne'⟩]
        exact (List.Sublist.refl _).append hsub
      · rw [if_pos ⟨⟨d, hd, hSd⟩, hne'⟩, hfull ?_ fun b hb => ht b (List.mem_cons_of_mem _ hb)]
        rintro v hv (h | ⟨_, ho⟩)
        · exact ((a2 v).2).2 (.inl (hge v hv h))
        · obtain ⟨i, hi, rfl⟩ := List.mem_iff_getElem.1 ho
          refine ((a2 _).2).2 (.inr ⟨(b.outs[i], i), by rw [hrel, List.mk_mem_zipIdx_iff_getElem?]; exact List.getElem?_eq_getElem hi, rfl, ?_⟩)
          exact ht b (List.mem_cons_self ..) _ _ _ _ (by simp) (by simp) (by simpa using ⟨d, hd, hds⟩) hi
    · rw [hidle hact]
      obtain ⟨l, hl, hsub, hfull⟩ := ih (k + 1) (WF.tail (b := b.fuse) wf) (after b S) s
        (fun v hv => hmk v ((reach_after wf).2 hv)) (fun v hv h => .inl (hle v hv h)) (fun b hb => hOn b (List.mem_cons_of_mem _ hb))
      refine ⟨l, hl, hsub.trans (List.sublist_append_right _ _), fun hge ht => ?_⟩
      have hno : ¬ ((∃ d ∈ b.deps, S d) ∧ b.outs ≠ []) := by
        rintro ⟨⟨d, hd, hSd⟩, hne⟩
        refine hact ⟨⟨d, hd, hge d (hOn b (List.mem_cons_self ..) d hd) hSd⟩, fun he => ?_⟩
        obtain ⟨o, ho⟩ := List.exists_mem_of_ne_nil _ hne
        obtain ⟨i, hi, rfl⟩ := List.mem_iff_getElem.1 ho
        rw [List.isEmpty_iff] at he
        have : (b.outs[i], i) ∈ relevant s.1 m b.outs := by
          unfold relevant
          rw [List.mem_filter]
          exact ⟨by rw [List.mk_mem_zipIdx_iff_getElem?]; exact List.getElem?_eq_getElem hi,
            hmk _ (.step (b := b.fuse) (List.mem_cons_self ..) hd (.base hSd) ho)⟩
        rw [he] at this
        cases this
      rw [if_neg hno, List.nil_append]
      refine hfull ?_ fun b hb => ht b (List.mem_cons_of_mem _ hb)
      rintro v hv (h | ⟨h, ho⟩)
      · exact hge v hv h
      · exact absurd ⟨h, List.ne_nil_of_mem ho⟩ hno

theorem seedTlm_some {V T A : Type*} (cs : List BV) (ds : List T) (h : Heap V T A) (v : BV) :
    ((seedTlm cs ds h v).marked = (h v).marked ∧ (seedTlm cs ds h v).hess = (h v).hess) ∧ ((seedTlm cs ds h v).tlm.isSome → v ∈ cs ∨ (h v).tlm.isSome) ∧
      (v ∈ cs ∨ (h v).tlm.isSome → ds.length = cs.length → (seedTlm cs ds h v).tlm.isSome) := by
  unfold seedTlm
  induction cs generalizing ds h with
  | nil => exact ⟨⟨rfl, rfl⟩, .inr, fun h _ => h.resolve_left List.not_mem_nil⟩
  | cons c cs ih =>
    cases ds with
    | nil => exact ⟨⟨rfl, rfl⟩, .inr, fun _ hl => by simp at hl⟩
    | cons d ds =>
      rw [List.zip_cons_cons, List.foldl_cons]
      obtain ⟨h1, h2, h3⟩ := ih ds (Function.update h c { h c with tlm := some d })
      by_cases hv : v = c
      · subst hv
        rw [Function.update_self] at h1 h2 h3
        exact ⟨h1, fun _ => .inl (List.mem_cons_self ..), fun _ hl => h3 (.inr rfl) (by simpa using hl)⟩
      · rw [Function.update_of_ne hv] at h1 h2 h3
        exact ⟨h1, fun hs => (h2 hs).imp_left (List.mem_cons_of_mem _), fun hs hl => h3 (hs.imp_left fun hs => (List.mem_cons.1 hs).resolve_left hv) (by simpa using hl)⟩

theorem foldl_addTlm?_hess [Add T] (rel : List (BV × Nat)) (f : Nat → Option T) (h : Heap V T A) (v : BV) :
    (rel.foldl (fun h p => addTlm? h p.1 (f p.2)) h v).hess = (h v).hess := by
  induction rel generalizing h with
  | nil => rfl
  | cons p rel ih =>
    rw [List.foldl_cons, ih]
    cases f p.2 with
    | none => rfl
    | some a =>
      simp only [addTlm?, addTlm]
      by_cases hv : v = p.1
      · subst hv; rw [Function.update_self]
      · rw [Function.update_of_ne hv]

theorem tlm_sweep_frame [Add T] (m : Bool) (l : List (HBlock V T A P × Nat)) (s : Heap V T A × List HookCall) (v : BV) :
    ((l.foldl (fun s b => b.1.evaluateTlm b.2 m s) s).1 v).marked = (s.1 v).marked ∧ ((l.foldl (fun s b => b.1.evaluateTlm b.2 m s) s).1 v).hess = (s.1 v).hess := by
  induction l generalizing s with
  | nil => exact ⟨rfl, rfl⟩
  | cons b l ih =>
    rw [List.foldl_cons, (ih _).1, (ih _).2]
    obtain ⟨hidle, hacts⟩ := tlm_block b.1 b.2 m s
    by_cases hact : (∃ d ∈ b.1.deps, (s.1 d).tlm.isSome) ∧ ¬ (relevant s.1 m b.1.outs).isEmpty = true
    · refine ⟨((hacts hact.1 hact.2).2 v).1, ?_⟩
      unfold HBlock.evaluateTlm
      dsimp only
      rw [if_neg (fun h => (all_none_iff _ _).1 h hact.1), if_neg hact.2]
      exact foldl_addTlm?_hess (relevant s.1 m b.1.outs) (fun i => b.1.tlmC (b.1.deps.map (saved s.1)) (b.1.deps.map fun d => (s.1 d).tlm) i
        (b.1.prepareTlm (b.1.deps.map (saved s.1)) (b.1.deps.map fun d => (s.1 d).tlm) ((relevant s.1 m b.1.outs).map Prod.snd))) s.1 v
    · rw [hidle hact]; exact ⟨rfl, rfl⟩

/-- **C72, tangents and Hessians.**  Every block in `bs` is asked for its tangent at most once, first block first; it is asked for the components of all of its
outputs, and only if one of its dependencies is computed from a control.  In the Hessian sweep the calls are those of a gradient computation, for the methods of the
Hessian.  If no component returns `None` and there is a direction for every control, all these calls are made. -/
theorem hessian_calls [Add T] [Add A] [Zero A] (bs : HTape V T A P) (wf : WF bs.fuse) (J : BV) (cs : List BV) (ds : List T) (h : Heap V T A)
    (hm : ∀ v, (h v).marked = false) (hlen : ds.length = cs.length) :
    (bs.computeHessian J cs ds h).2.2.1.Sublist (forwardCalls (fun b => ∃ d ∈ b.deps, Reach bs.fuse (· ∈ cs) d) bs 0) ∧
      (bs.computeHessian J cs ds h).2.2.2.Sublist (backCalls (Reach bs.fuse (· ∈ cs)) bs.fuse J bs 0) ∧
      ((∀ b ∈ bs, b.TlmTotal) → (bs.computeHessian J cs ds h).2.2.1 = forwardCalls (fun b => ∃ d ∈ b.deps, Reach bs.fuse (· ∈ cs) d) bs 0) ∧
      ((∀ b ∈ bs, b.HessTotal) → (bs.computeHessian J cs ds h).2.2.2 = backCalls (Reach bs.fuse (· ∈ cs)) bs.fuse J bs 0) := by
  classical
  set h₁ := markAll (findRelevantNodes bs.fuse cs) true (seedTlm cs ds (resetVariables bs.fuse .hessian (resetVariables bs.fuse .tlm h))) with hh₁
  have hreset : ∀ v, (resetVariables bs.fuse .hessian (resetVariables bs.fuse .tlm h) v).marked = false ∧
      (OnTape bs.fuse v → (resetVariables bs.fuse .hessian (resetVariables bs.fuse .tlm h) v).tlm = none ∧
        (resetVariables bs.fuse .hessian (resetVariables bs.fuse .tlm h) v).hess = none) := by
    intro v
    refine ⟨by simp [hm], fun hv => ?_⟩
    rw [resetVariables_apply, resetVariables_apply, if_pos hv, if_pos hv]
    exact ⟨rfl, rfl⟩
  have hmk₁ : ∀ v, (h₁ v).marked = true ↔ Reach bs.fuse (· ∈ cs) v := by
    intro v
    rw [← findRelevantNodes_iff wf, hh₁, markAll_apply]
    by_cases hv : v ∈ findRelevantNodes bs.fuse cs
    · simp [hv]
    · simp [hv, (seedTlm_some cs ds _ v).1.1, (hreset v).1]
  obtain ⟨l, hl, hsub, hfull⟩ := tlm_calls_aux true (OnTape bs.fuse) bs 0 wf (· ∈ cs) (h₁, []) (fun v hv => by simp [(hmk₁ v).2 hv])
    (fun v hv hs => by
      rw [hh₁, markAll_tlm] at hs
      rcases (seedTlm_some cs ds _ v).2.1 hs with hs | hs
      · exact hs
      · rw [((hreset v).2 hv).1] at hs; cases hs)
    (fun b hb d hd => ⟨b.fuse, List.mem_map_of_mem hb, .inl hd⟩)
  have e₁ : (bs.computeHessian J cs ds h).2.2.1 = l := by
    rw [← List.nil_append l]; exact hl
  set h₂ := ((bs.zipIdx 0).foldl (fun s b => b.1.evaluateTlm b.2 true s) (h₁, [])).1 with hh₂
  set h₃ := Function.update (markAll (findRelevantNodes bs.fuse cs) false h₂) J { markAll (findRelevantNodes bs.fuse cs) false h₂ J with hess := some 0 } with hh₃
  have hfr : ∀ v, (h₂ v).marked = (h₁ v).marked ∧ (h₂ v).hess = (h₁ v).hess := tlm_sweep_frame true (bs.zipIdx 0) (h₁, [])
  have h₃m : ∀ v, (h₃ v).marked = (markAll (findRelevantNodes bs.fuse cs) false h₂ v).marked := by
    intro v
    rw [hh₃]
    by_cases hv : v = J
    · subst hv; rw [Function.update_self]
    · rw [Function.update_of_ne hv]
  have hok : ∀ v, (markAll (findRelevantNodes bs.fuse cs) true h₃ v).marked = true ↔ Reach bs.fuse (· ∈ cs) v := by
    intro v
    rw [← findRelevantNodes_iff wf, markAll_apply]
    by_cases hv : v ∈ findRelevantNodes bs.fuse cs
    · simp [hv]
    · have : (h₁ v).marked = false := by
        rw [Bool.eq_false_iff]; intro h; exact hv ((findRelevantNodes_iff wf _ _).2 ((hmk₁ v).1 h))
      simp [hv, h₃m, markAll_apply, (hfr v).1, this]
  have hhess : ∀ v, OnTape bs.fuse v → (markAll (findRelevantNodes bs.fuse cs) true h₃ v).hess.isSome → v = J := by
    intro v hv hs
    by_contra hne
    rw [markAll_hess, hh₃, Function.update_of_ne hne, markAll_hess, (hfr v).2, hh₁, markAll_hess, (seedTlm_some cs ds _ v).1.2, ((hreset v).2 hv).2] at hs
    cases hs
  have hJ : (markAll (findRelevantNodes bs.fuse cs) true h₃ J).hess.isSome := by
    rw [markAll_hess, hh₃, Function.update_self]; rfl
  obtain ⟨s, hs, -, -, l', hlog, hsub', hfull'⟩ := back_sweep (J := J) (On := OnTape bs.fuse)
    ((markAll (findRelevantNodes bs.fuse cs) true h₃, []) : Heap V T A × List HookCall) hok hhess bs 0 wf
    (fun b _ => (hess_backward _ b).1) (fun b hb ⟨d, hd, hr⟩ o ho => .step (b := b.fuse) (List.mem_map_of_mem hb) hd hr ho)
    (fun b hb o ho => ⟨b.fuse, List.mem_map_of_mem hb, .inr ho⟩)
  have e₂ : (bs.computeHessian J cs ds h).2.2.2 = l' := by
    rw [← List.nil_append l', ← hlog, ← hs]; rfl
  rw [e₁, e₂]
  refine ⟨hsub, hsub', fun ht => hfull (fun v _ hv => ?_) ht, fun ht => (hfull' hJ fun b hb => (hess_backward _ b).2 (ht b hb)).2⟩
  rw [hh₁, markAll_tlm]
  exact (seedTlm_some cs ds _ v).2.2 (.inl hv) hlen

/-! ## No call is made twice -/

/-- The position of the block that is called. -/
def _root_.Pyadjoint.HookCall.block : HookCall → Nat
  | .prepare j _ => j
  | .component j _ => j

theorem hookCalls_nodup (j : Nat) {rel : List Nat} (h : rel.Nodup) : (hookCalls j rel).Nodup := by
  unfold hookCalls
  rw [List.nodup_cons]
  refine ⟨by simp, h.map fun a b hab => ?_⟩
  injection hab

theorem hookCalls_block {j : Nat} {rel : List Nat} {c : HookCall} (h : c ∈ hookCalls j rel) : c.block = j := by
  unfold hookCalls at h
  rcases List.mem_cons.1 h with rfl | h
  · rfl
  · obtain ⟨i, -, rfl⟩ := List.mem_map.1 h
    rfl

theorem flatMap_nodup (l : List (HBlock V T A P × Nat)) (f : HBlock V T A P × Nat → List HookCall) (hl : (l.map Prod.snd).Nodup)
    (hf : ∀ b ∈ l, (f b).Nodup ∧ ∀ c ∈ f b, c.block = b.2) : (l.flatMap f).Nodup := by
  rw [List.nodup_flatMap]
  refine ⟨fun b hb => (hf b hb).1, ?_⟩
  rw [List.Nodup, List.pairwise_map] at hl
  refine (List.Pairwise.and_mem.1 hl).imp fun {a b} hab c ha hb => ?_
  exact hab.2.2 (((hf a hab.1).2 c ha).symm.trans ((hf b hab.2.1).2 c hb))

theorem zipIdx_snd_nodup {α : Type*} (l : List α) (k : Nat) : ((l.zipIdx k).map Prod.snd).Nodup := by
  rw [List.zipIdx_map_snd]; exact List.nodup_range'

theorem backCalls_nodup (mk : BV → Prop) (whole : Blocks V T A) (J : BV) (bs : HTape V T A P) (k : Nat) : (backCalls mk whole J bs k).Nodup := by
  classical
  unfold backCalls
  refine flatMap_nodup _ _ ?_ fun b hb => ?_
  · rw [List.map_reverse, List.nodup_reverse]
    exact zipIdx_snd_nodup bs k
  · split
    · refine ⟨hookCalls_nodup _ ?_, fun c => hookCalls_block⟩
      exact ((List.filter_sublist).map Prod.snd).nodup (zipIdx_snd_nodup b.1.deps 0)
    · exact ⟨List.nodup_nil, fun c hc => absurd hc List.not_mem_nil⟩

theorem forwardCalls_nodup (act : HBlock V T A P → Prop) (bs : HTape V T A P) (k : Nat) : (forwardCalls act bs k).Nodup := by
  classical
  unfold forwardCalls
  refine flatMap_nodup _ _ (zipIdx_snd_nodup bs k) fun b hb => ?_
  split
  · exact ⟨hookCalls_nodup _ List.nodup_range, fun c => hookCalls_block⟩
  · exact ⟨List.nodup_nil, fun c hc => absurd hc List.not_mem_nil⟩

/-- **C72, once.**  No evaluation, gradient or Hessian computation calls the same method of the same block for the same variable twice, or prepares a block twice. -/
theorem calls_once [Add T] [Add A] [Zero A] (bs : HTape V T A P) (wf : WF bs.fuse) (J : BV) (cs : List BV) (xs : List V) (seed : A) (ds : List T) (h : Heap V T A)
    (hm : ∀ v, (h v).marked = false) (hc : ∀ v, (h v).isControl = false) (hlen : ds.length = cs.length) :
    (bs.rfEval cs xs h).2.Nodup ∧ (bs.computeGradient J cs seed h).2.2.Nodup ∧
      (bs.computeHessian J cs ds h).2.2.1.Nodup ∧ (bs.computeHessian J cs ds h).2.2.2.Nodup := by
  refine ⟨?_, ?_, ?_, ?_⟩
  · rw [evaluation_calls bs cs xs h hc]; exact forwardCalls_nodup _ _ _
  · exact (gradient_calls bs wf J cs seed h hm).1.nodup (backCalls_nodup _ _ _ _ _)
  · exact (hessian_calls bs wf J cs ds h hm hlen).1.nodup (forwardCalls_nodup _ _ _)
  · exact (hessian_calls bs wf J cs ds h hm hlen).2.1.nodup (backCalls_nodup _ _ _ _ _)

end HTape

/-! ## Examples -/

/-- `c = f(a, b)` with `f(a, b) = a * b`, prepared by computing the factors. -/
def exHMul (a b c : BV) : HBlock ℤ ℤ ℤ (ℤ × ℤ) where
  deps := [a, b]
  outs := [c]
  prepareRecompute xs _ := (xs.getD 0 0, xs.getD 1 0)
  recomputeC _ _ p := some (p.1 * p.2)
  prepareAdj xs _ _ := (xs.getD 0 0, xs.getD 1 0)
  adjC _ ls i p := some ((ls.head?.join.getD 0) * if i = 0 then p.2 else p.1)
  prepareTlm xs _ _ := (xs.getD 0 0, xs.getD 1 0)
  tlmC _ ts _ p := some ((ts.getD 0 none).getD 0 * p.2 + (ts.getD 1 none).getD 0 * p.1)
  prepareHess xs _ _ _ := (xs.getD 0 0, xs.getD 1 0)
  hessC _ hs _ i _ p := some ((hs.head?.join.getD 0) * if i = 0 then p.2 else p.1)

/-- The control 0; the product 2 of 0 and the constant 1; the square 3 of the constant; the result 4, the product of 2 and 3; the unused 5, the square of 0. -/
def exHTape : HTape ℤ ℤ ℤ (ℤ × ℤ) := [exHMul 0 1 2, exHMul 1 1 3, exHMul 2 3 4, exHMul 0 0 5]

def exHHeap : Heap ℤ ℤ ℤ := fun v => { output := v + 2, ckpt := some (v + 2) }

/-- The hypotheses of the theorems hold of the example. -/
example : (∀ b ∈ exHTape, b.Local ∧ b.AdjTotal ∧ b.HessTotal ∧ b.TlmTotal) ∧ WF exHTape.fuse ∧ (∀ v, (exHHeap v).marked = false) ∧
    (∀ v, (exHHeap v).isControl = false) := by
  refine ⟨fun b hb => ?_, ?_, fun v => rfl, fun v => rfl⟩
  · obtain ⟨a, b', c, rfl⟩ : ∃ a b' c, b = exHMul a b' c := by
      simp only [exHTape, List.mem_cons, List.not_mem_nil, or_false] at hb
      rcases hb with rfl | rfl | rfl | rfl <;> exact ⟨_, _, _, rfl⟩
    exact ⟨⟨fun _ _ _ _ _ => rfl, fun _ _ _ _ _ => rfl⟩, fun _ _ _ _ _ _ _ _ => rfl, fun _ _ _ _ _ _ _ _ _ _ _ => rfl, fun _ _ _ _ _ _ _ _ => rfl⟩
  · exact ⟨by simp [exHTape, HTape.fuse, HBlock.fuse, exHMul], by simp [exHTape, HTape.fuse, HBlock.fuse, exHMul],
      by simp [exHTape, HTape.fuse, HBlock.fuse, exHMul]⟩

/-- The third and the first block are asked for the derivative, for the dependency that matters.  The second does not depend on the control, the fourth does not
matter for the result. -/
example : (exHTape.computeGradient 4 [0] 1 exHHeap).2.2 = [.prepare 2 [0], .component 2 0, .prepare 0 [0], .component 0 0] := by decide +kernel

/-- The tangent of the fourth block is computed although the result does not depend on it. -/
example : (exHTape.computeHessian 4 [0] [1] exHHeap).2.2 =
    ([.prepare 0 [0], .component 0 0, .prepare 2 [0], .component 2 0, .prepare 3 [0], .component 3 0],
      [.prepare 2 [0], .component 2 0, .prepare 0 [0], .component 0 0]) := by decide +kernel

/-- All blocks are evaluated. -/
example : (exHTape.rfEval [0] [7] exHHeap).2 = [.prepare 0 [0], .component 0 0, .prepare 1 [0], .component 1 0, .prepare 2 [0], .component 2 0,
    .prepare 3 [0], .component 3 0] := by decide +kernel

end Pyadjoint
