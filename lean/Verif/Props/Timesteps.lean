import Verif.Proofs.Timesteps
import Verif.Proofs.Optimize

/-! # C15, C44: timesteps and copies of tapes -/

namespace Pyadjoint

variable {V T A : Type*}

namespace World

open Spec (Tapes)

theorem zip_range {c : Bool} {w : World V T A} {s : Tapes V T A} (h : Rel c w s) (t : Nat) (l : List (Blocks V T A)) :
    ∀ p ∈ (w.tapes t).stepIds.zip l, p.1 ∈ (w.tapes t).stepIds := by
  intro p hp
  exact (List.of_mem_zip hp).1

theorem optimizeForControls_length {steps r : List (Blocks V T A)} {cs : List BV}
    (h : optimizeForControls steps cs = some r) : r.length = steps.length := by
  have key : ∀ (l : List (Blocks V T A)) (st st' : List BV × List (Blocks V T A)),
      l.foldlM optControlsOuter st = some st' → st'.2.length = st.2.length + l.length := by
    intro l
    induction l with
    | nil => intro st st' h; cases h; rfl
    | cons x l ih =>
      intro st st' h
      rw [List.foldlM_cons] at h
      cases h1 : optControlsOuter st x with
      | none => rw [h1] at h; cases h
      | some st1 =>
        rw [h1] at h
        have := ih st1 st' h
        unfold optControlsOuter at h1
        cases h2 : optControlsStep st.1 x with
        | none => rw [h2] at h1; cases h1
        | some q => rw [h2] at h1; cases h1; simp at this ⊢; omega
  unfold optimizeForControls at h
  cases h1 : steps.foldlM optControlsOuter (cs, []) with
  | none => rw [h1] at h; cases h
  | some st => rw [h1] at h; cases h; simpa using key _ _ _ h1

theorem optimizeForFunctionals_length (steps : List (Blocks V T A)) (fs : List BV) :
    (optimizeForFunctionals steps fs).length = steps.length := by
  have key : ∀ (l : List (Blocks V T A)) (st : List BV × List (Blocks V T A)),
      (l.foldl optFunctionalsOuter st).2.length = st.2.length + l.length := by
    intro l
    induction l with
    | nil => intro st; rfl
    | cons x l ih => intro st; rw [List.foldl_cons, ih]; simp [optFunctionalsOuter]; omega
  unfold optimizeForFunctionals
  rw [List.length_reverse, key]; simp

/-- The rebuilt steps have the values the specification asks for. -/
theorem Rel.rebuild_alloc {c : Bool} {w : World V T A} {s : Tapes V T A} (h : Rel c w s) (t : Nat)
    (keep : BV → Bool) (bs : List (Blocks V T A)) (hlen : bs.length = (s.tapes t).length) :
    Alloc c w (w.rebuildSteps keep ((w.tapes t).stepIds.zip bs)).1
      (w.rebuildSteps keep ((w.tapes t).stepIds.zip bs)).2 (Spec.rebuild keep (s.tapes t) bs) := by
  refine rebuildSteps_alloc c keep _ w (fun p hp => h.range t _ (zip_range h t bs p hp))
    (fun hc p hp => h.rangeS hc t _ (zip_range h t bs p hp)) _ ?_
  cases c with
  | true =>
    rw [if_pos rfl, ← h.vals rfl t]
    simp only [Spec.rebuild, List.zipWith_map_left, List.zip, List.map_zipWith]
    rfl
  | false =>
    simp only [Bool.false_eq_true, if_false]
    have hl : (w.tapes t).stepIds.length = bs.length := by rw [h.length t, hlen]
    rw [List.map_snd_zip hl.ge]
    simp only [Spec.rebuild, List.map_zipWith]
    apply List.ext_getElem
    · simp [hlen]
    · intro i h1 h2; simp

theorem rebuild_blocks (keep : BV → Bool) (l : List (Spec.Step V T A)) (bs : List (Blocks V T A))
    (hlen : bs.length = l.length) : (Spec.rebuild keep l bs).map (·.blocks) = bs := by
  simp only [Spec.rebuild, List.map_zipWith]
  apply List.ext_getElem
  · simp [hlen]
  · intro i h1 h2; simp

/-- Copying freshly allocated steps (which are then dropped) is again an allocation. -/
theorem Alloc.copied {c : Bool} {w w1 w2 : World V T A} {is js : List Nat} {vs : List (Spec.Step V T A)}
    (h1 : Alloc c w w1 is vs) (h2 : Copied w1 w2 is js) (hv : ∀ v ∈ vs, v.adjDeps = ⟨[]⟩) :
    Alloc c w w2 js vs := by
  have hb : js.map (fun i => (w2.steps i).blocks) = is.map (fun i => (w1.steps i).blocks) := by
    have := h2.same
    clear h1 h2
    induction this with
    | nil => rfl
    | cons hab _ ih => simp [hab.1, ih]
  have pre : ∀ j ∈ js, ∃ i ∈ is, (w2.steps j).state = (w1.steps i).state := by
    have := h2.same
    clear h1 h2
    induction this with
    | nil => simp
    | cons hab _ ih =>
      intro j hj
      rcases List.mem_cons.1 hj with rfl | hj
      · exact ⟨_, List.mem_cons_self, hab.2⟩
      · obtain ⟨i, hi, e⟩ := ih (hb := by simpa [hab.1] using hb) j hj
        exact ⟨i, List.mem_cons_of_mem _ hi, e⟩
  have n1 := h1.nextStep
  have n2 := h2.nextStep
  have m1 := h1.nextSet
  have m2 := h2.nextSet
  refine ⟨h2.tapes.trans h1.tapes, h2.nextTape.trans h1.nextTape, h2.lastUse.trans h1.lastUse, by omega, by omega,
    ?_, ?_, ?_, h2.nodup, hb.trans h1.blocks, ?_, ?_, ?_, ?_, ?_, ?_⟩
  · intro i hi; rw [h2.steps i (by omega), h1.steps i hi]
  · intro i hi; rw [h2.sets i (by omega), h1.sets i hi]
  · intro i hi; have := h2.fresh i hi; omega
  · intro hc
    have hval := h1.vals hc
    have hS := h1.freshS hc
    have hE := h2.emptyA
    have hsets := h2.sets
    have hsame := h2.same
    clear h1 h2 hb pre
    induction hsame generalizing vs with
    | nil => exact hval
    | @cons a b l1 l2 hab _ ih =>
      cases vs with
      | nil => simp at hval
      | cons v vs =>
        simp only [List.map_cons, List.cons.injEq] at hval ⊢
        refine ⟨?_, ih (fun v hv' => hv v (List.mem_cons_of_mem _ hv')) hval.2
          (fun i hi => hS i (List.mem_cons_of_mem _ hi)) (fun i hi => hE i (List.mem_cons_of_mem _ hi))⟩
        rw [← hval.1]
        have ha := hv v List.mem_cons_self
        rw [← hval.1] at ha
        have ha : w1.sets (w1.steps a).adjDeps = ⟨[]⟩ := ha
        simp only [stepVal, hab.1, hab.2, hE b List.mem_cons_self, hsets _ (hS a List.mem_cons_self).2, ha]
  · intro hc j hj
    obtain ⟨i, hi, e⟩ := pre j hj
    have := h1.freshS hc i hi; omega
  · intro _ j hj; have := h2.freshA j hj; omega
  · intro hc
    have hinj := h1.injS hc
    have hsame := h2.same
    have hnd := h1.nodup
    clear h1 h2 hb pre hv
    induction hsame with
    | nil => simp
    | @cons a b l1 l2 hab hrest ih =>
      have hl2 : ∀ j ∈ l2, ∃ i ∈ l1, (w2.steps j).state = (w1.steps i).state := by
        clear ih hnd hinj
        induction hrest with
        | nil => simp
        | cons hab _ ih =>
          intro j hj
          rcases List.mem_cons.1 hj with rfl | hj
          · exact ⟨_, List.mem_cons_self, hab.2⟩
          · obtain ⟨i, hi, e⟩ := ih j hj
            exact ⟨i, List.mem_cons_of_mem _ hi, e⟩
      rw [List.nodup_cons] at hnd
      have ih := ih (fun i hi j hj => hinj i (List.mem_cons_of_mem _ hi) j (List.mem_cons_of_mem _ hj)) hnd.2
      intro i hi j hj e
      rcases List.mem_cons.1 hi with hi | hi <;> rcases List.mem_cons.1 hj with hj | hj
      · rw [hi, hj]
      · obtain ⟨k, hk, ek⟩ := hl2 j hj
        rw [hi, hab.2, ek] at e
        have := hinj a List.mem_cons_self k (List.mem_cons_of_mem _ hk) e
        subst this; exact absurd hk hnd.1
      · obtain ⟨k, hk, ek⟩ := hl2 i hi
        rw [hj, hab.2, ek] at e
        have := hinj k (List.mem_cons_of_mem _ hk) a List.mem_cons_self e
        subst this; exact absurd hk hnd.1
      · exact ih i hi j hj e
  · exact fun _ => h2.injA
  · intro hc j hj k hk e
    obtain ⟨i, hi, e'⟩ := pre j hj
    have := h1.freshS hc i hi; have := h2.freshA k hk; omega

/-- `copy` is the only operation after which two timesteps share a set. -/
def _root_.Pyadjoint.TapeOp.isCopy : TapeOp V T A → Bool
  | .copy _ => true
  | _ => false

theorem Rel.step {c : Bool} {w : World V T A} {s : Tapes V T A} (h : Rel c w s) (op : TapeOp V T A)
    (hc : c = true → op.isCopy = false) : Rel c (w.step op) (s.step op) := by
  cases op with
  | newTape =>
    have h1 := (h.assign (Alloc.refl c w) w.nextTape false [] rfl).count_lastUse (w.nextTape + 1) w.lastUse
    have e : s.step .newTape = { s.upd w.nextTape [] with count := w.nextTape + 1, lastUse := w.lastUse } := by
      rw [h.count, h.lastUse]; rfl
    rw [e]; exact h1
  | copy t =>
    have hcf : c = false := by cases c with
      | true => exact absurd (hc rfl) (by simp [TapeOp.isCopy])
      | false => rfl
    subst hcf
    have hcp := copySteps_copied (w.tapes t).stepIds w (h.range t)
    have hb : (w.copySteps (w.tapes t).stepIds).2.map (fun i => ((w.copySteps (w.tapes t).stepIds).1.steps i).blocks)
        = (s.tapes t).map (·.blocks) := by
      rw [← h.blocks t]
      have := hcp.same
      generalize (w.copySteps (w.tapes t).stepIds).1 = w1 at this ⊢
      generalize (w.copySteps (w.tapes t).stepIds).2 = js at this ⊢
      generalize (w.tapes t).stepIds = is at this ⊢
      induction this with
      | nil => rfl
      | cons hab _ ih => simp [hab.1, ih]
    have ha : Alloc false w (w.copySteps (w.tapes t).stepIds).1 (w.copySteps (w.tapes t).stepIds).2 (s.tapes t) :=
      ⟨hcp.tapes, hcp.nextTape, hcp.lastUse, hcp.nextStep, hcp.nextSet, hcp.steps, hcp.sets, hcp.fresh, hcp.nodup, hb,
        by simp, by simp, by simp, by simp, by simp, by simp⟩
    have h1 := (h.assign ha w.nextTape false ((s.tapes t).map (·.blocks)).flatten rfl).count_lastUse
      (w.nextTape + 1) w.lastUse
    have e : s.step (.copy t) = { s.upd w.nextTape ([] ++ s.tapes t) with count := w.nextTape + 1, lastUse := w.lastUse } := by
      rw [h.count, h.lastUse]; rfl
    rw [e]
    have e2 : w.step (.copy t) = { (w.copySteps (w.tapes t).stepIds).1.setTape w.nextTape
        ⟨(w.copySteps (w.tapes t).stepIds).2, ((s.tapes t).map (·.blocks)).flatten⟩ with
          nextTape := w.nextTape + 1, lastUse := w.lastUse } := by
      rw [← hb]
      show World.copyTape w t = _
      unfold World.copyTape World.chain
      simp only [hcp.nextTape, ← hcp.lastUse, List.flatMap_def]
      rfl
    rw [e2]; exact h1
  | clear t => exact h.assign (Alloc.refl c w) t false [] rfl
  | addBlock t b =>
    have h1 := h.ensureStep t
    have h2 := h1.appendBlock t b (by rw [Spec_upd_self]; exact ensure_ne_nil _)
    rw [Spec_upd_upd, Spec_upd_self] at h2
    have e : w.step (.addBlock t b) = ((w.ensureStep t).appendLast t b).setTape t
        ⟨((w.ensureStep t).tapes t).stepIds, ((w.ensureStep t).tapes t).flat ++ [b]⟩ := by
      show ((w.ensureStep t).appendLast t b).setTape t
        { ((w.ensureStep t).appendLast t b).tapes t with flat := (((w.ensureStep t).appendLast t b).tapes t).flat ++ [b] } = _
      have : ((w.ensureStep t).appendLast t b).tapes = (w.ensureStep t).tapes := by
        unfold appendLast; split <;> rfl
      rw [this]
    rw [e]; exact h2
  | endTimestep t => exact h.appendStep t
  | depend t v =>
    have h1 := h.ensureStep t
    have h2 := h1.addToState t v (w.lastUse v + 1).toNat
    rw [Spec_upd_upd, Spec_upd_self] at h2
    have h3 := h2.count_lastUse w.nextTape
      (Function.update w.lastUse v (((Spec.ensure (s.tapes t)).length - 1 : Nat) : Int))
    have e1 : s.step (.depend t v) = { s.upd t (Spec.useStep v (w.lastUse v + 1).toNat (Spec.ensure (s.tapes t))) with
        count := w.nextTape, lastUse := Function.update w.lastUse v (((Spec.ensure (s.tapes t)).length - 1 : Nat) : Int) } := by
      rw [h.count, h.lastUse]; rfl
    rw [e1]
    have hl := h1.length t
    rw [Spec_upd_self] at hl
    rw [← hl] at h3 ⊢
    have e2 : w.step (.depend t v) = { (w.ensureStep t).addToSets v ((((w.ensureStep t).tapes t).stepIds.drop (w.lastUse v + 1).toNat).map
        fun i => ((w.ensureStep t).steps i).state) with
          nextTape := w.nextTape,
          lastUse := Function.update w.lastUse v ((((w.ensureStep t).tapes t).stepIds.length - 1 : Nat) : Int) } := by
      show World.depend w t v = _
      unfold World.depend World.addToState World.latestTimestep World.addToSets
      simp only [ensureStep_lastUse, ← ensureStep_nextTape w t]
    rw [e2]; exact h3
  | output t v =>
    have h0 := h.count_lastUse w.nextTape (Function.update w.lastUse v ((w.latestTimestep t : Nat) : Int))
    have h1 := h0.ensureStep t
    have h2 := h1.addToAdj t v (w.latestTimestep t)
    rw [Spec_upd_upd, Spec_upd_self] at h2
    have hl : w.latestTimestep t = (s.tapes t).length - 1 := by
      unfold World.latestTimestep; rw [h.length]
    have e1 : s.step (.output t v) = ({ s with count := w.nextTape, lastUse := Function.update w.lastUse v ((w.latestTimestep t : Nat) : Int) } : Tapes V T A).upd t
        (Spec.makeStep v (w.latestTimestep t) (Spec.ensure (s.tapes t))) := by
      rw [h.count, h.lastUse, hl]; rfl
    rw [e1]
    have e2 : w.step (.output t v) = (({ w with nextTape := w.nextTape, lastUse := Function.update w.lastUse v ((w.latestTimestep t : Nat) : Int) } : World V T A).ensureStep t).addToSets v
        (((({ w with nextTape := w.nextTape, lastUse := Function.update w.lastUse v ((w.latestTimestep t : Nat) : Int) } : World V T A).ensureStep t).tapes t).stepIds.drop (w.latestTimestep t) |>.map
        fun i => ((({ w with nextTape := w.nextTape, lastUse := Function.update w.lastUse v ((w.latestTimestep t : Nat) : Int) } : World V T A).ensureStep t).steps i).adjDeps) := by
      show World.output w t v = _
      unfold World.output World.addToAdjDeps
      simp only [Int.sub_add_cancel, Int.toNat_natCast]
    rw [e2]; exact h2
  | optControls t cs =>
    have hts : w.timesteps t = (s.tapes t).map (·.blocks) := h.blocks t
    show Rel c (w.optControls t cs) _
    unfold World.optControls
    simp only [Spec.Tapes.step]
    rw [hts]
    cases ho : optimizeForControls ((s.tapes t).map (·.blocks)) cs with
    | none => exact h
    | some steps =>
      have hlen : steps.length = (s.tapes t).length := by
        rw [optimizeForControls_length ho, List.length_map]
      refine h.assign (h.rebuild_alloc t (fun _ => true) steps hlen) t false steps.flatten ?_
      rw [if_neg (by simp), List.nil_append, rebuild_blocks _ _ _ hlen]
  | optFunctionals t fs =>
    have hts : w.timesteps t = (s.tapes t).map (·.blocks) := h.blocks t
    have hlen : (optimizeForFunctionals ((s.tapes t).map (·.blocks)) fs).length = (s.tapes t).length := by
      rw [optimizeForFunctionals_length, List.length_map]
    have ha := h.rebuild_alloc t (fun v => decide (v ∈ retainedNodes ((s.tapes t).map (·.blocks)) fs))
      (optimizeForFunctionals ((s.tapes t).map (·.blocks)) fs) hlen
    have hcp := copySteps_copied _ _ (fun i hi => (ha.fresh i hi).2)
    have ha2 := ha.copied hcp (fun v hv => by
      obtain ⟨i, hi, rfl⟩ := List.mem_iff_getElem.1 hv
      simp [Spec.rebuild])
    show Rel c (w.optFunctionals t fs) _
    unfold World.optFunctionals Spec.Tapes.step
    rw [hts]
    refine h.assign ha2 t false _ ?_
    rw [if_neg (by simp), List.nil_append, ← ha2.blocks]
    unfold World.chain
    rw [List.flatMap_def]

theorem Rel.run {c : Bool} (ops : List (TapeOp V T A)) {w : World V T A} {s : Tapes V T A} (h : Rel c w s)
    (hc : c = true → ∀ op ∈ ops, op.isCopy = false) :
    Rel c (ops.foldl World.step w) (ops.foldl Spec.Tapes.step s) := by
  induction ops generalizing w s with
  | nil => exact h
  | cons op ops ih =>
    exact ih (h.step op fun e => hc e op List.mem_cons_self)
      fun e o ho => hc e o (List.mem_cons_of_mem _ ho)

end World

/-- All tapes after some operations. -/
def World.after (ops : List (TapeOp V T A)) : World V T A := ops.foldl World.step World.empty

/-- **C15, C44.** After any sequence of operations on any number of tapes, including copies: the timesteps of
every tape are those it would have if the tapes were independent values, and `get_blocks()` is their
concatenation. -/
theorem tapes_independent (ops : List (TapeOp V T A)) (t : Nat) :
    (World.after ops).timesteps t = ((ops.foldl Spec.Tapes.step {}).tapes t).map (·.blocks) ∧
    ((World.after ops).tapes t).flat = ((World.after ops).timesteps t).flatten := by
  have h := World.Rel.run ops (World.Rel.init (V := V) (T := T) (A := A) false) (by simp)
  have e : (World.after ops).timesteps t = ((ops.foldl Spec.Tapes.step {}).tapes t).map (·.blocks) := h.blocks t
  exact ⟨e, by rw [e]; exact h.flat t⟩

/-- The tape an operation is performed on. -/
def TapeOp.target : TapeOp V T A → Option Nat
  | .newTape => none
  | .copy _ => none
  | .clear t | .addBlock t _ | .endTimestep t | .depend t _ | .output t _ | .optControls t _ | .optFunctionals t _ => some t

theorem Spec.step_other (s : Spec.Tapes V T A) (op : TapeOp V T A) (t : Nat) (ht : t < s.count) (h : op.target ≠ some t) :
    (s.step op).tapes t = s.tapes t := by
  have key : ∀ (n : Nat) (l : List (Spec.Step V T A)), n ≠ t → (s.upd n l).tapes t = s.tapes t :=
    fun n l hn => World.Spec_upd_ne s (Ne.symm hn) l
  cases op <;> simp only [TapeOp.target, ne_eq, Option.some.injEq] at h <;> simp only [Spec.Tapes.step]
  case newTape => exact key _ _ (by omega)
  case copy => exact key _ _ (by omega)
  case optControls =>
    split
    · rfl
    · exact key _ _ h
  all_goals exact key _ _ h

theorem Spec.count_mono (s : Spec.Tapes V T A) (op : TapeOp V T A) : s.count ≤ (s.step op).count := by
  cases op <;> simp only [Spec.Tapes.step, Spec.Tapes.upd] <;> try exact Nat.le_refl _
  · exact Nat.le_succ _
  · exact Nat.le_succ _
  · split <;> exact Nat.le_refl _

/-- **C44.** Operations on other tapes — whether copies of this tape, its original, or unrelated — leave its blocks and
timesteps as they are. -/
theorem other_tapes_undisturbed (before ops : List (TapeOp V T A)) (t : Nat)
    (ht : t < (World.after before).nextTape) (h : ∀ op ∈ ops, op.target ≠ some t) :
    (World.after (before ++ ops)).timesteps t = (World.after before).timesteps t ∧
    ((World.after (before ++ ops)).tapes t).flat = ((World.after before).tapes t).flat := by
  have hc := (World.Rel.run before (World.Rel.init (V := V) (T := T) (A := A) false) (by simp)).count
  have ht' : t < (before.foldl Spec.Tapes.step ({} : Spec.Tapes V T A)).count := by rw [← hc]; exact ht
  have key : ∀ (ops : List (TapeOp V T A)) (s : Spec.Tapes V T A), t < s.count → (∀ op ∈ ops, op.target ≠ some t) →
      (ops.foldl Spec.Tapes.step s).tapes t = s.tapes t := by
    intro ops
    induction ops with
    | nil => intros; rfl
    | cons op ops ih =>
      intro s hs h
      rw [List.foldl_cons, ih _ (lt_of_lt_of_le hs (Spec.count_mono s op)) fun o ho => h o (List.mem_cons_of_mem _ ho),
        Spec.step_other s op t hs (h op List.mem_cons_self)]
  have e : (World.after (before ++ ops)).timesteps t = (World.after before).timesteps t := by
    rw [(tapes_independent _ t).1, (tapes_independent _ t).1, List.foldl_append, key ops _ ht' h]
  exact ⟨e, by rw [(tapes_independent _ t).2, (tapes_independent _ t).2, e]⟩

/-- **C44.** A copy has the timesteps of the original. -/
theorem copy_same (before : List (TapeOp V T A)) (t : Nat) :
    (World.after (before ++ [.copy t])).timesteps (World.after before).nextTape = (World.after before).timesteps t := by
  have hc := (World.Rel.run before (World.Rel.init (V := V) (T := T) (A := A) false) (by simp)).count
  rw [(tapes_independent _ _).1, (tapes_independent _ _).1, List.foldl_append]
  rw [show (World.after before).nextTape = (before.foldl Spec.Tapes.step ({} : Spec.Tapes V T A)).count from hc]
  simp [Spec.Tapes.step, Spec.Tapes.upd]

/-- **C15.** `add_block` returns the index at which the block now stands, and it is the last block, after all
the previous ones in order; ending a timestep moves no block. -/
theorem add_block_spec (ops : List (TapeOp V T A)) (t : Nat) (b : Block V T A) :
    (((World.after ops).addBlock t b).1.tapes t).flat = ((World.after ops).tapes t).flat ++ [b] ∧
    ((World.after ops).addBlock t b).2 = ((World.after ops).tapes t).flat.length ∧
    (((World.after ops).addBlock t b).1.timesteps t).getLast?.bind (·.getLast?) = some b ∧
    (((World.after ops).endTimestep t).tapes t).flat = ((World.after ops).tapes t).flat ∧
    ((World.after ops).endTimestep t).timesteps t = (World.after ops).timesteps t ++ [[]] := by
  have h := World.Rel.run ops (World.Rel.init (V := V) (T := T) (A := A) false) (by simp)
  have h1 := h.step (.addBlock t b) (by simp)
  have h2 := h.step (.endTimestep t) (by simp)
  have f1 : (((World.after ops).addBlock t b).1.tapes t).flat = ((World.after ops).tapes t).flat ++ [b] := by
    refine (h1.flat t).trans ?_
    simp only [Spec.Tapes.step]
    rw [World.Spec_upd_self, World.flatten_addLast _ (World.ensure_ne_nil _)]
    congr 1
    refine Eq.trans ?_ (h.flat t).symm
    cases (List.foldl Spec.Tapes.step ({} : Spec.Tapes V T A) ops).tapes t <;> rfl
  refine ⟨f1, ?_, ?_, ?_, ?_⟩
  · show (((World.after ops).addBlock t b).1.tapes t).flat.length - 1 = _
    rw [f1]; simp
  · have e : ((World.after ops).addBlock t b).1.timesteps t = _ := h1.blocks t
    rw [e]
    simp only [Spec.Tapes.step]
    rw [World.Spec_upd_self]
    generalize hl : Spec.ensure _ = l
    have hne : l ≠ [] := by rw [← hl]; exact World.ensure_ne_nil _
    obtain ⟨init, x, rfl⟩ : ∃ init x, l = init ++ [x] := ⟨_, _, (List.dropLast_append_getLast hne).symm⟩
    simp [Spec.addLast]
  · refine (h2.flat t).trans ?_
    simp only [Spec.Tapes.step]
    rw [World.Spec_upd_self]
    refine Eq.trans ?_ (h.flat t).symm
    simp
  · refine (h2.blocks t).trans ?_
    simp only [Spec.Tapes.step]
    rw [World.Spec_upd_self]
    refine Eq.trans ?_ (congrArg (· ++ [[]]) (h.blocks t).symm)
    simp

/-- **C44, sets.** As long as no tape is copied, the checkpointable states and adjoint dependencies, too, are those of
independent values. -/
theorem states_independent_partial (ops : List (TapeOp V T A)) (hc : ∀ op ∈ ops, op.isCopy = false) (t : Nat) :
    ((World.after ops).tapes t).stepIds.map (World.after ops).stepVal = (ops.foldl Spec.Tapes.step {}).tapes t :=
  (World.Rel.run ops (World.Rel.init (V := V) (T := T) (A := A) true) fun _ => hc).vals rfl t

/-- A block for examples. -/
def exBlk (deps outs : List BV) : Block Int Int Int :=
  ⟨deps, outs, none, fun _ _ => none, fun _ _ _ => none, fun _ _ _ => none, fun _ _ _ _ _ => none⟩

/-- Two timesteps on tape 0, then a copy, then more on both. -/
def exCopyOps : List (TapeOp Int Int Int) :=
  [.newTape, .addBlock 0 (exBlk [0] [1]), .endTimestep 0, .addBlock 0 (exBlk [1] [2]), .copy 0,
    .addBlock 1 (exBlk [2] [3]), .endTimestep 1, .addBlock 0 (exBlk [2] [4]), .optFunctionals 1 [1]]

example : ((World.after exCopyOps).timesteps 0).map (·.map (·.outs)) = [[[1]], [[2], [4]]] ∧
    ((World.after exCopyOps).timesteps 1).map (·.map (·.outs)) = [[[1]], [], []] := by decide

/-- **C44 is false of the checkpointable states.**  `TimeStep.copy` lets the copy refer to the very set of the
original: a dependency recorded on one tape afterwards enters the checkpointable state of the other. -/
theorem copy_shares_state :
    ∃ (before : List (TapeOp Int Int Int)) (op : TapeOp Int Int Int), op.target = some 1 ∧
      ((World.after (before ++ [op])).tapes 0).stepIds.map (fun i => ((World.after (before ++ [op])).stepVal i).state.elems) ≠
      ((World.after before).tapes 0).stepIds.map (fun i => ((World.after before).stepVal i).state.elems) :=
  ⟨[.newTape, .addBlock 0 (exBlk [0] [1]), .copy 0], .depend 1 5, rfl, by decide⟩

end Pyadjoint
