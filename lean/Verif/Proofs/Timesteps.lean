import Verif.Spec.Tapes
import Mathlib.Order.Basic
import Mathlib.Order.Nat

/-! # The objects implement the values -/

namespace Pyadjoint

variable {V T A : Type*}

namespace World

open Spec (Tapes)

/-- The value of a timestep object. -/
def stepVal (w : World V T A) (i : Nat) : Spec.Step V T A :=
  ⟨(w.steps i).blocks, w.sets (w.steps i).state, w.sets (w.steps i).adjDeps⟩

/-- Only step allocations distinguish `w'` from `w`: the new steps `ids` have the values `vals`
(only their blocks if `c = false`) and, if `c = true`, sets of their own. -/
structure Alloc (c : Bool) (w w' : World V T A) (ids : List Nat) (vals : List (Spec.Step V T A)) : Prop where
  tapes : w'.tapes = w.tapes
  nextTape : w'.nextTape = w.nextTape
  lastUse : w'.lastUse = w.lastUse
  nextStep : w.nextStep ≤ w'.nextStep
  nextSet : w.nextSet ≤ w'.nextSet
  steps : ∀ i < w.nextStep, w'.steps i = w.steps i
  sets : ∀ i < w.nextSet, w'.sets i = w.sets i
  fresh : ∀ i ∈ ids, w.nextStep ≤ i ∧ i < w'.nextStep
  nodup : ids.Nodup
  blocks : ids.map (fun i => (w'.steps i).blocks) = vals.map (·.blocks)
  vals : c = true → ids.map w'.stepVal = vals
  freshS : c = true → ∀ i ∈ ids, w.nextSet ≤ (w'.steps i).state ∧ (w'.steps i).state < w'.nextSet
  freshA : c = true → ∀ i ∈ ids, w.nextSet ≤ (w'.steps i).adjDeps ∧ (w'.steps i).adjDeps < w'.nextSet
  injS : c = true → ∀ i ∈ ids, ∀ j ∈ ids, (w'.steps i).state = (w'.steps j).state → i = j
  injA : c = true → ∀ i ∈ ids, ∀ j ∈ ids, (w'.steps i).adjDeps = (w'.steps j).adjDeps → i = j
  disj : c = true → ∀ i ∈ ids, ∀ j ∈ ids, (w'.steps i).state ≠ (w'.steps j).adjDeps

theorem Alloc.refl (c : Bool) (w : World V T A) : Alloc c w w [] [] where
  tapes := rfl
  nextTape := rfl
  lastUse := rfl
  nextStep := le_rfl
  nextSet := le_rfl
  steps _ _ := rfl
  sets _ _ := rfl
  fresh := by simp
  nodup := by simp
  blocks := rfl
  vals _ := rfl
  freshS := by simp
  freshA := by simp
  injS := by simp
  injA := by simp
  disj := by simp

/-- One allocation after another. -/
theorem Alloc.cons {c : Bool} {w w1 w2 : World V T A} {j : Nat} {js : List Nat} {v : Spec.Step V T A}
    {vs : List (Spec.Step V T A)} (h1 : Alloc c w w1 [j] [v]) (h2 : Alloc c w1 w2 js vs) :
    Alloc c w w2 (j :: js) (v :: vs) := by
  have hj := h1.fresh j (by simp)
  have hs : w2.steps j = w1.steps j := h2.steps j hj.2
  have hv : c = true → w2.stepVal j = v := fun hc => by
    have := h1.vals hc
    simp only [List.map_cons, List.map_nil, List.cons.injEq, and_true] at this
    rw [← this]
    have a := h1.freshS hc j (by simp)
    have b := h1.freshA hc j (by simp)
    simp only [stepVal, hs, h2.sets _ a.2, h2.sets _ b.2]
  refine ⟨h2.tapes.trans h1.tapes, h2.nextTape.trans h1.nextTape, h2.lastUse.trans h1.lastUse,
    h1.nextStep.trans h2.nextStep, h1.nextSet.trans h2.nextSet, ?_, ?_, ?_, ?_, ?_, ?_, ?_, ?_, ?_, ?_, ?_⟩
  · intro i hi; rw [h2.steps i (by have := h1.nextStep; omega), h1.steps i hi]
  · intro i hi; rw [h2.sets i (by have := h1.nextSet; omega), h1.sets i hi]
  · intro i hi
    rcases List.mem_cons.1 hi with rfl | hi
    · exact ⟨hj.1, lt_of_lt_of_le hj.2 h2.nextStep⟩
    · have := h2.fresh i hi; exact ⟨h1.nextStep.trans this.1, this.2⟩
  · refine List.nodup_cons.2 ⟨fun hm => ?_, h2.nodup⟩
    have := h2.fresh j hm; omega
  · have := h1.blocks
    simp only [List.map_cons, List.map_nil, List.cons.injEq, and_true] at this
    rw [List.map_cons, List.map_cons, h2.blocks, hs, this]
  · intro hc; rw [List.map_cons, hv hc, h2.vals hc]
  · intro hc i hi
    rcases List.mem_cons.1 hi with rfl | hi
    · have := h1.freshS hc i (by simp); rw [hs]; exact ⟨this.1, lt_of_lt_of_le this.2 h2.nextSet⟩
    · have := h2.freshS hc i hi; exact ⟨h1.nextSet.trans this.1, this.2⟩
  · intro hc i hi
    rcases List.mem_cons.1 hi with rfl | hi
    · have := h1.freshA hc i (by simp); rw [hs]; exact ⟨this.1, lt_of_lt_of_le this.2 h2.nextSet⟩
    · have := h2.freshA hc i hi; exact ⟨h1.nextSet.trans this.1, this.2⟩
  · intro hc i hi k hk e
    have a := h1.freshS hc j (by simp)
    rcases List.mem_cons.1 hi with hi | hi <;> rcases List.mem_cons.1 hk with hk | hk
    · rw [hi, hk]
    · have b := h2.freshS hc k hk; rw [hi, hs] at e; omega
    · have b := h2.freshS hc i hi; rw [hk, hs] at e; omega
    · exact h2.injS hc i hi k hk e
  · intro hc i hi k hk e
    have a := h1.freshA hc j (by simp)
    rcases List.mem_cons.1 hi with hi | hi <;> rcases List.mem_cons.1 hk with hk | hk
    · rw [hi, hk]
    · have b := h2.freshA hc k hk; rw [hi, hs] at e; omega
    · have b := h2.freshA hc i hi; rw [hk, hs] at e; omega
    · exact h2.injA hc i hi k hk e
  · intro hc i hi k hk e
    have a := h1.freshS hc j (by simp)
    have a' := h1.freshA hc j (by simp)
    rcases List.mem_cons.1 hi with hi | hi <;> rcases List.mem_cons.1 hk with hk | hk
    · rw [hi, hk, hs] at e; exact h1.disj hc j (by simp) j (by simp) e
    · have b := h2.freshA hc k hk; rw [hi, hs] at e; omega
    · have b := h2.freshS hc i hi; rw [hk, hs] at e; omega
    · exact h2.disj hc i hi k hk e

theorem newStep_alloc (c : Bool) (w : World V T A) (bs : Blocks V T A) :
    Alloc c w (w.newStep bs).1 [(w.newStep bs).2] [{ blocks := bs }] := by
  refine ⟨rfl, rfl, rfl, Nat.le_succ _, Nat.le_add_right _ 2, ?_, ?_, ?_, by simp, ?_, ?_, ?_, ?_, ?_, ?_, ?_⟩
  · intro i hi
    show Function.update w.steps w.nextStep _ i = _
    exact Function.update_of_ne (by omega) _ _
  · intro i hi
    show Function.update (Function.update w.sets w.nextSet _) (w.nextSet + 1) _ i = _
    rw [Function.update_of_ne (by omega), Function.update_of_ne (by omega)]
  · intro i hi; rw [List.mem_singleton] at hi; subst hi
    exact ⟨le_rfl, Nat.lt_succ_self _⟩
  all_goals simp only [newStep, newSet, List.map_cons, List.map_nil, Function.update_self, List.mem_singleton,
    stepVal, List.cons.injEq, and_true]
  · intro _
    ext <;> simp [Function.update]
  all_goals intros; subst_vars; first | rfl | (simp only [Function.update_self]; omega) | skip

theorem rebuildStep_alloc (c : Bool) (w : World V T A) (src : Nat) (bs : Blocks V T A) (keep : BV → Bool) :
    Alloc c w (w.rebuildStep src bs keep).1 [(w.rebuildStep src bs keep).2]
      [{ blocks := bs, state := ⟨(w.sets (w.steps src).state).elems.filter keep⟩ }] := by
  refine ⟨rfl, rfl, rfl, Nat.le_succ _, Nat.le_add_right _ 3, ?_, ?_, ?_, by simp, ?_, ?_, ?_, ?_, ?_, ?_, ?_⟩
  · intro i hi
    show Function.update (Function.update w.steps w.nextStep _) w.nextStep _ i = _
    rw [Function.update_of_ne (by omega), Function.update_of_ne (by omega)]
  · intro i hi
    show Function.update (Function.update (Function.update w.sets w.nextSet _) (w.nextSet + 1) _)
      (w.nextSet + 1 + 1) _ i = _
    rw [Function.update_of_ne (by omega), Function.update_of_ne (by omega), Function.update_of_ne (by omega)]
  · intro i hi; rw [List.mem_singleton] at hi; subst hi
    exact ⟨le_rfl, Nat.lt_succ_self _⟩
  all_goals simp only [rebuildStep, setState, newStep, newSet, List.map_cons, List.map_nil, Function.update_self,
    List.mem_singleton, stepVal, List.cons.injEq, and_true]
  · intro _
    ext <;> simp [Function.update]
  all_goals intros; subst_vars; first | rfl | (simp only [Function.update_self]; omega) | skip

theorem rebuildSteps_alloc (c : Bool) (keep : BV → Bool) (l : List (Nat × Blocks V T A)) (w : World V T A)
    (hl : ∀ p ∈ l, p.1 < w.nextStep) (hs : c = true → ∀ p ∈ l, (w.steps p.1).state < w.nextSet)
    (vs : List (Spec.Step V T A))
    (hv : if c then vs = l.map fun p => { blocks := p.2, state := ⟨(w.sets (w.steps p.1).state).elems.filter keep⟩ }
      else vs.map (·.blocks) = l.map (·.2)) :
    Alloc c w (w.rebuildSteps keep l).1 (w.rebuildSteps keep l).2 vs := by
  induction l generalizing w vs with
  | nil =>
    have : vs = [] := by cases c <;> simpa using hv
    subst this; exact Alloc.refl c w
  | cons p l ih =>
    obtain ⟨src, bs⟩ := p
    have h1 := rebuildStep_alloc c w src bs keep
    cases vs with
    | nil => cases c <;> simp at hv
    | cons v vs =>
      refine Alloc.cons (w1 := (w.rebuildStep src bs keep).1) (v := v) ?_ (ih _ ?_ ?_ vs ?_)
      · cases c with
        | true =>
          simp only [if_true, List.map_cons, List.cons.injEq] at hv
          rw [hv.1]; exact h1
        | false =>
          simp only [Bool.false_eq_true, if_false, List.map_cons, List.cons.injEq] at hv
          exact { h1 with blocks := h1.blocks.trans (by simp [hv.1]), vals := by simp }
      · exact fun q hq => lt_of_lt_of_le (hl q (List.mem_cons_of_mem _ hq)) h1.nextStep
      · intro hc q hq
        rw [h1.steps _ (hl q (List.mem_cons_of_mem _ hq))]
        exact lt_of_lt_of_le (hs hc q (List.mem_cons_of_mem _ hq)) h1.nextSet
      · cases c with
        | true =>
          simp only [if_true, List.map_cons, List.cons.injEq] at hv ⊢
          rw [hv.2]
          refine List.map_congr_left fun q hq => ?_
          rw [h1.steps _ (hl q (List.mem_cons_of_mem _ hq)),
            h1.sets _ (hs rfl q (List.mem_cons_of_mem _ hq))]
        | false =>
          simp only [Bool.false_eq_true, if_false, List.map_cons, List.cons.injEq] at hv ⊢
          exact hv.2

/-- What `[step.copy() for step in steps]` does. -/
structure Copied (w w' : World V T A) (is js : List Nat) : Prop where
  tapes : w'.tapes = w.tapes
  nextTape : w'.nextTape = w.nextTape
  lastUse : w'.lastUse = w.lastUse
  nextStep : w.nextStep ≤ w'.nextStep
  nextSet : w.nextSet ≤ w'.nextSet
  steps : ∀ i < w.nextStep, w'.steps i = w.steps i
  sets : ∀ i < w.nextSet, w'.sets i = w.sets i
  fresh : ∀ i ∈ js, w.nextStep ≤ i ∧ i < w'.nextStep
  nodup : js.Nodup
  same : List.Forall₂ (fun i j => (w'.steps j).blocks = (w.steps i).blocks ∧ (w'.steps j).state = (w.steps i).state)
    is js
  freshA : ∀ i ∈ js, w.nextSet ≤ (w'.steps i).adjDeps ∧ (w'.steps i).adjDeps < w'.nextSet
  emptyA : ∀ i ∈ js, w'.sets (w'.steps i).adjDeps = ⟨[]⟩
  injA : ∀ i ∈ js, ∀ j ∈ js, (w'.steps i).adjDeps = (w'.steps j).adjDeps → i = j

theorem copySteps_copied (is : List Nat) (w : World V T A) (hi : ∀ i ∈ is, i < w.nextStep) :
    Copied w (w.copySteps is).1 is (w.copySteps is).2 := by
  induction is generalizing w with
  | nil =>
    exact ⟨rfl, rfl, rfl, le_rfl, le_rfl, fun _ _ => rfl, fun _ _ => rfl, by simp [copySteps], by simp [copySteps],
      .nil, by simp [copySteps], by simp [copySteps], by simp [copySteps]⟩
  | cons i is ih =>
    have hi0 := hi i (by simp)
    have e1 : (w.copyStep i).1.nextStep = w.nextStep + 1 := rfl
    have e2 : (w.copyStep i).1.nextSet = w.nextSet + 2 := rfl
    have e3 : ∀ k < w.nextStep, (w.copyStep i).1.steps k = w.steps k := fun k hk => by
      show Function.update (Function.update w.steps w.nextStep _) w.nextStep _ k = _
      rw [Function.update_of_ne (by omega), Function.update_of_ne (by omega)]
    have e4 : ∀ k < w.nextSet, (w.copyStep i).1.sets k = w.sets k := fun k hk => by
      show Function.update (Function.update w.sets w.nextSet _) (w.nextSet + 1) _ k = _
      rw [Function.update_of_ne (by omega), Function.update_of_ne (by omega)]
    have e5 : (w.copyStep i).2 = w.nextStep := rfl
    have e6 : (w.copyStep i).1.steps w.nextStep = ⟨(w.steps i).blocks, (w.steps i).state, w.nextSet + 1⟩ := by
      show Function.update (Function.update w.steps w.nextStep _) w.nextStep _ w.nextStep = _
      rw [Function.update_self]
      simp [newStep, newSet]
    have e7 : (w.copyStep i).1.sets (w.nextSet + 1) = ⟨[]⟩ := by
      show Function.update (Function.update w.sets w.nextSet _) (w.nextSet + 1) _ (w.nextSet + 1) = _
      rw [Function.update_self]
    have h := ih (w.copyStep i).1 (fun k hk => by
      have := hi k (List.mem_cons_of_mem _ hk); omega)
    show Copied w ((w.copyStep i).1.copySteps is).1 (i :: is)
      ((w.copyStep i).2 :: ((w.copyStep i).1.copySteps is).2)
    rw [e5]
    generalize ((w.copyStep i).1.copySteps is).1 = w2 at h ⊢
    generalize ((w.copyStep i).1.copySteps is).2 = js at h ⊢
    have hn := h.nextStep
    have hns := h.nextSet
    have f6 : w2.steps w.nextStep = ⟨(w.steps i).blocks, (w.steps i).state, w.nextSet + 1⟩ := by
      rw [h.steps _ (by omega), e6]
    refine ⟨h.tapes, h.nextTape, h.lastUse, by omega, by omega, ?_, ?_, ?_, ?_, ?_, ?_, ?_, ?_⟩
    · intro k hk; rw [h.steps k (by omega), e3 k hk]
    · intro k hk; rw [h.sets k (by omega), e4 k hk]
    · intro k hk
      rcases List.mem_cons.1 hk with rfl | hk
      · omega
      · have := h.fresh k hk; omega
    · refine List.nodup_cons.2 ⟨fun hm => ?_, h.nodup⟩
      have := h.fresh _ hm; omega
    · refine .cons (by rw [f6]; exact ⟨rfl, rfl⟩) ?_
      have hmem : ∀ k ∈ is, k < w.nextStep := fun k hk => hi k (List.mem_cons_of_mem _ hk)
      have := h.same
      clear h f6 ih hi
      induction this with
      | nil => exact .nil
      | cons hab _ ih2 =>
        refine .cons ?_ (ih2 fun k hk => hmem k (List.mem_cons_of_mem _ hk))
        rw [e3 _ (hmem _ (by simp))] at hab
        exact hab
    · intro k hk
      rcases List.mem_cons.1 hk with rfl | hk
      · rw [f6]; exact ⟨Nat.le_succ _, by show w.nextSet + 1 < _; omega⟩
      · have := h.freshA k hk; omega
    · intro k hk
      rcases List.mem_cons.1 hk with rfl | hk
      · rw [f6]; show w2.sets (w.nextSet + 1) = _
        rw [h.sets _ (by omega), e7]
      · exact h.emptyA k hk
    · intro k hk l hl e
      rcases List.mem_cons.1 hk with hk | hk <;> rcases List.mem_cons.1 hl with hl | hl
      · rw [hk, hl]
      · have := h.freshA l hl
        rw [hk, f6] at e
        have e : w.nextSet + 1 = _ := e
        omega
      · have := h.freshA k hk
        rw [hl, f6] at e
        have e : _ = w.nextSet + 1 := e
        omega
      · exact h.injA k hk l hl e

/-- The objects `w` have the values `s` (only as far as blocks go, if `c = false`). -/
structure Rel (c : Bool) (w : World V T A) (s : Tapes V T A) : Prop where
  count : w.nextTape = s.count
  lastUse : w.lastUse = s.lastUse
  range : ∀ t, ∀ i ∈ (w.tapes t).stepIds, i < w.nextStep
  nodup : ∀ t, (w.tapes t).stepIds.Nodup
  own : ∀ t t' i, i ∈ (w.tapes t).stepIds → i ∈ (w.tapes t').stepIds → t = t'
  blocks : ∀ t, (w.tapes t).stepIds.map (fun i => (w.steps i).blocks) = (s.tapes t).map (·.blocks)
  flat : ∀ t, (w.tapes t).flat = ((s.tapes t).map (·.blocks)).flatten
  vals : c = true → ∀ t, (w.tapes t).stepIds.map w.stepVal = s.tapes t
  rangeS : c = true → ∀ t, ∀ i ∈ (w.tapes t).stepIds, (w.steps i).state < w.nextSet
  rangeA : c = true → ∀ t, ∀ i ∈ (w.tapes t).stepIds, (w.steps i).adjDeps < w.nextSet
  injS : c = true → ∀ t t', ∀ i ∈ (w.tapes t).stepIds, ∀ j ∈ (w.tapes t').stepIds,
    (w.steps i).state = (w.steps j).state → i = j
  injA : c = true → ∀ t t', ∀ i ∈ (w.tapes t).stepIds, ∀ j ∈ (w.tapes t').stepIds,
    (w.steps i).adjDeps = (w.steps j).adjDeps → i = j
  disj : c = true → ∀ t t', ∀ i ∈ (w.tapes t).stepIds, ∀ j ∈ (w.tapes t').stepIds,
    (w.steps i).state ≠ (w.steps j).adjDeps

theorem Rel.init (c : Bool) : Rel c (World.empty : World V T A) {} := by
  refine ⟨rfl, rfl, ?_, ?_, ?_, ?_, ?_, ?_, ?_, ?_, ?_, ?_, ?_⟩ <;> simp [World.empty]

theorem Rel.weaken {c : Bool} {w : World V T A} {s : Tapes V T A} (h : Rel c w s) : Rel false w s :=
  { h with vals := by simp, rangeS := by simp, rangeA := by simp, injS := by simp, injA := by simp, disj := by simp }

/-- Allocating changes no value; the tapes may then be given the new steps, in addition to some or none of
the old ones. -/
theorem Rel.assign {c : Bool} {w w' : World V T A} {s : Tapes V T A} {ids : List Nat}
    {vals : List (Spec.Step V T A)} (h : Rel c w s) (ha : Alloc c w w' ids vals) (t : Nat) (keep : Bool)
    (flat : Blocks V T A)
    (hflat : flat = (((if keep then s.tapes t else []) ++ vals).map (·.blocks)).flatten) :
    Rel c (w'.setTape t ⟨(if keep then (w.tapes t).stepIds else []) ++ ids, flat⟩)
      (s.upd t ((if keep then s.tapes t else []) ++ vals)) := by
  have hold : ∀ t', ∀ i ∈ (w.tapes t').stepIds, w'.steps i = w.steps i := fun t' i hi =>
    ha.steps i (h.range t' i hi)
  have hval : c = true → ∀ t', ∀ i ∈ (w.tapes t').stepIds, w'.stepVal i = w.stepVal i := fun hc t' i hi => by
    simp only [stepVal, hold t' i hi, ha.sets _ (h.rangeS hc t' i hi), ha.sets _ (h.rangeA hc t' i hi)]
  -- the ids of a tape afterwards
  have tap : ∀ t', ((w'.setTape t ⟨(if keep then (w.tapes t).stepIds else []) ++ ids, flat⟩).tapes t').stepIds =
      if t' = t then (if keep then (w.tapes t).stepIds else []) ++ ids else (w.tapes t').stepIds := by
    intro t'
    show (Function.update w'.tapes t _ t').stepIds = _
    rw [Function.update_apply]
    split
    · rfl
    · rw [ha.tapes]
  have memT : ∀ t' i, i ∈ ((w'.setTape t ⟨(if keep then (w.tapes t).stepIds else []) ++ ids, flat⟩).tapes t').stepIds →
      i ∈ (w.tapes t').stepIds ∨ (t' = t ∧ i ∈ ids) := by
    intro t' i hi
    rw [tap] at hi
    split at hi
    · rename_i e; subst e
      rcases List.mem_append.1 hi with hi | hi
      · cases keep
        · cases hi
        · exact Or.inl hi
      · exact Or.inr ⟨rfl, hi⟩
    · exact Or.inl hi
  have spec : ∀ t', (s.upd t ((if keep then s.tapes t else []) ++ vals)).tapes t' =
      if t' = t then (if keep then s.tapes t else []) ++ vals else s.tapes t' := fun t' => by
    show Function.update s.tapes t _ t' = _
    rw [Function.update_apply]
  have hsteps : (w'.setTape t ⟨(if keep then (w.tapes t).stepIds else []) ++ ids, flat⟩).steps = w'.steps := rfl
  refine ⟨ha.nextTape.trans h.count, ha.lastUse.trans h.lastUse, ?_, ?_, ?_, ?_, ?_, ?_, ?_, ?_, ?_, ?_, ?_⟩
  · intro t' i hi
    rcases memT t' i hi with hi | ⟨_, hi⟩
    · exact lt_of_lt_of_le (h.range t' i hi) ha.nextStep
    · exact (ha.fresh i hi).2
  · intro t'
    rw [tap]
    split
    · refine List.nodup_append.2 ⟨?_, ha.nodup, ?_⟩
      · cases keep
        · exact List.nodup_nil
        · exact h.nodup t
      · intro a hma b hb
        have hb := ha.fresh b hb
        cases keep
        · cases hma
        · have := h.range t a hma
          omega
    · exact h.nodup t'
  · intro t1 t2 i h1 h2
    rcases memT _ i h1 with h1 | ⟨e1, h1⟩ <;> rcases memT _ i h2 with h2 | ⟨e2, h2⟩
    · exact h.own t1 t2 i h1 h2
    · have := h.range _ i h1; have := ha.fresh i h2; omega
    · have := h.range _ i h2; have := ha.fresh i h1; omega
    · rw [e1, e2]
  · intro t'
    rw [tap, spec, hsteps]
    split
    · rw [List.map_append, List.map_append, ha.blocks]
      congr 1
      cases keep
      · rfl
      · rw [if_pos rfl, if_pos rfl, ← h.blocks t]
        exact List.map_congr_left fun i hi => by rw [hold t i hi]
    · rw [← h.blocks t']
      exact List.map_congr_left fun i hi => by rw [hold t' i hi]
  · intro t'
    rw [spec]
    show (Function.update w'.tapes t _ t').flat = _
    rw [Function.update_apply]
    split
    · exact hflat
    · rw [ha.tapes, h.flat]
  · intro hc t'
    rw [tap, spec]
    show List.map w'.stepVal _ = _
    split
    · rw [List.map_append, ha.vals hc]
      congr 1
      cases keep
      · rfl
      · rw [if_pos rfl, if_pos rfl, ← h.vals hc t]
        exact List.map_congr_left fun i hi => hval hc t i hi
    · rw [← h.vals hc t']
      exact List.map_congr_left fun i hi => hval hc t' i hi
  · intro hc t' i hi
    rw [hsteps]
    rcases memT t' i hi with hi | ⟨_, hi⟩
    · rw [hold t' i hi]; exact lt_of_lt_of_le (h.rangeS hc t' i hi) ha.nextSet
    · exact (ha.freshS hc i hi).2
  · intro hc t' i hi
    rw [hsteps]
    rcases memT t' i hi with hi | ⟨_, hi⟩
    · rw [hold t' i hi]; exact lt_of_lt_of_le (h.rangeA hc t' i hi) ha.nextSet
    · exact (ha.freshA hc i hi).2
  · intro hc t1 t2 i h1 j h2
    rw [hsteps]
    rcases memT _ i h1 with h1 | ⟨e1, h1⟩ <;> rcases memT _ j h2 with h2 | ⟨e2, h2⟩
    · rw [hold _ i h1, hold _ j h2]; exact h.injS hc t1 t2 i h1 j h2
    · rw [hold _ i h1]; have := h.rangeS hc _ i h1; have := ha.freshS hc j h2; omega
    · rw [hold _ j h2]; have := h.rangeS hc _ j h2; have := ha.freshS hc i h1; omega
    · exact ha.injS hc i h1 j h2
  · intro hc t1 t2 i h1 j h2
    rw [hsteps]
    rcases memT _ i h1 with h1 | ⟨e1, h1⟩ <;> rcases memT _ j h2 with h2 | ⟨e2, h2⟩
    · rw [hold _ i h1, hold _ j h2]; exact h.injA hc t1 t2 i h1 j h2
    · rw [hold _ i h1]; have := h.rangeA hc _ i h1; have := ha.freshA hc j h2; omega
    · rw [hold _ j h2]; have := h.rangeA hc _ j h2; have := ha.freshA hc i h1; omega
    · exact ha.injA hc i h1 j h2
  · intro hc t1 t2 i h1 j h2
    rw [hsteps]
    rcases memT _ i h1 with h1 | ⟨e1, h1⟩ <;> rcases memT _ j h2 with h2 | ⟨e2, h2⟩
    · rw [hold _ i h1, hold _ j h2]; exact h.disj hc t1 t2 i h1 j h2
    · rw [hold _ i h1]; have := h.rangeS hc _ i h1; have := ha.freshA hc j h2; omega
    · rw [hold _ j h2]; have := h.rangeA hc _ j h2; have := ha.freshS hc i h1; omega
    · exact ha.disj hc i h1 j h2

/-- The number of tapes and the last uses play no other role. -/
theorem Rel.count_lastUse {c : Bool} {w : World V T A} {s : Tapes V T A} (h : Rel c w s) (n : Nat) (f : BV → Int) :
    Rel c { w with nextTape := n, lastUse := f } { s with count := n, lastUse := f } :=
  ⟨rfl, rfl, h.range, h.nodup, h.own, h.blocks, h.flat, h.vals, h.rangeS, h.rangeA, h.injS, h.injA, h.disj⟩

theorem Rel.appendStep {c : Bool} {w : World V T A} {s : Tapes V T A} (h : Rel c w s) (t : Nat) :
    Rel c (w.appendStep t) (s.upd t (s.tapes t ++ [{ blocks := [] }])) :=
  h.assign (newStep_alloc c w []) t true (w.tapes t).flat (by simp [h.flat t])

theorem Rel.length {c : Bool} {w : World V T A} {s : Tapes V T A} (h : Rel c w s) (t : Nat) :
    (w.tapes t).stepIds.length = (s.tapes t).length := by
  have := congrArg List.length (h.blocks t)
  simpa using this

theorem Rel.ensureStep {c : Bool} {w : World V T A} {s : Tapes V T A} (h : Rel c w s) (t : Nat) :
    Rel c (w.ensureStep t) (s.upd t (Spec.ensure (s.tapes t))) := by
  have hl := h.length t
  unfold World.ensureStep
  split
  · rename_i he
    have : s.tapes t = [] := by
      rw [he] at hl; exact List.length_eq_zero_iff.1 hl.symm
    have h' := h.appendStep t
    rw [this] at h' ⊢
    exact h'
  · rename_i he
    have : Spec.ensure (s.tapes t) = s.tapes t := by
      cases hs : s.tapes t with
      | nil => rw [hs] at hl; exact absurd (List.length_eq_zero_iff.1 hl) he
      | cons => rfl
    rw [this]
    have : s.upd t (s.tapes t) = s := by unfold Spec.Tapes.upd; rw [Function.update_eq_self]
    rw [this]; exact h

theorem ensureStep_lastUse (w : World V T A) (t : Nat) : (w.ensureStep t).lastUse = w.lastUse := by
  unfold ensureStep; split <;> rfl

theorem ensureStep_nextTape (w : World V T A) (t : Nat) : (w.ensureStep t).nextTape = w.nextTape := by
  unfold ensureStep; split <;> rfl

theorem ensure_ne_nil (l : List (Spec.Step V T A)) : Spec.ensure l ≠ [] := by cases l <;> simp [Spec.ensure]

theorem Spec_upd_upd (s : Tapes V T A) (t : Nat) (l m : List (Spec.Step V T A)) :
    (s.upd t l).upd t m = s.upd t m := by
  unfold Spec.Tapes.upd; simp

theorem Spec_upd_self (s : Tapes V T A) (t : Nat) (l : List (Spec.Step V T A)) :
    (s.upd t l).tapes t = l := by unfold Spec.Tapes.upd; simp

theorem Spec_upd_ne (s : Tapes V T A) {t t' : Nat} (h : t' ≠ t) (l : List (Spec.Step V T A)) :
    (s.upd t l).tapes t' = s.tapes t' := by unfold Spec.Tapes.upd; simp [h]

theorem flatten_addLast (l : List (Spec.Step V T A)) (hl : l ≠ []) (b : Block V T A) :
    ((Spec.addLast l b).map (·.blocks)).flatten = (l.map (·.blocks)).flatten ++ [b] := by
  obtain ⟨init, x, rfl⟩ : ∃ init x, l = init ++ [x] := ⟨l.dropLast, l.getLast hl, (List.dropLast_append_getLast hl).symm⟩
  simp [Spec.addLast]

/-- Adding a block to the last step. -/
theorem Rel.appendBlock {c : Bool} {w : World V T A} {s : Tapes V T A} (h : Rel c w s) (t : Nat) (b : Block V T A)
    (hne : s.tapes t ≠ []) :
    Rel c ((w.appendLast t b).setTape t ⟨(w.tapes t).stepIds, (w.tapes t).flat ++ [b]⟩)
      (s.upd t (Spec.addLast (s.tapes t) b)) := by
  obtain ⟨init, i, hi⟩ : ∃ init i, (w.tapes t).stepIds = init ++ [i] := by
    have : (w.tapes t).stepIds ≠ [] := fun e => by
      have := h.length t; rw [e] at this; exact hne (List.length_eq_zero_iff.1 this.symm)
    exact ⟨_, _, (List.dropLast_append_getLast this).symm⟩
  have hlast : (w.tapes t).stepIds.getLast? = some i := by rw [hi]; simp
  have hi_mem : i ∈ (w.tapes t).stepIds := by rw [hi]; simp
  have e : w.appendLast t b = { w with steps := Function.update w.steps i { w.steps i with blocks := (w.steps i).blocks ++ [b] } } := by
    unfold appendLast; rw [hlast]
  rw [e]
  set w1 : World V T A := { w with steps := Function.update w.steps i { w.steps i with blocks := (w.steps i).blocks ++ [b] } } with hw1
  have st : ∀ k, (w1.steps k).state = (w.steps k).state := fun k => by
    rw [hw1]; simp only [Function.update_apply]; split
    · rename_i hk; rw [hk]
    · rfl
  have sa : ∀ k, (w1.steps k).adjDeps = (w.steps k).adjDeps := fun k => by
    rw [hw1]; simp only [Function.update_apply]; split
    · rename_i hk; rw [hk]
    · rfl
  have sb : ∀ k, k ≠ i → w1.steps k = w.steps k := fun k hk => by
    rw [hw1]; exact Function.update_of_ne hk _ _
  have sv : ∀ k, k ≠ i → w1.stepVal k = w.stepVal k := fun k hk => by
    simp only [stepVal, sb k hk]; rfl
  have ids : ∀ t', ((w1.setTape t ⟨(w.tapes t).stepIds, (w.tapes t).flat ++ [b]⟩).tapes t').stepIds = (w.tapes t').stepIds := by
    intro t'
    show (Function.update w.tapes t _ t').stepIds = _
    rw [Function.update_apply]; split
    · rename_i e; rw [e]
    · rfl
  have hnd := h.nodup t
  rw [hi, List.nodup_append] at hnd
  have init_ne : ∀ k ∈ init, k ≠ i := fun k hk => hnd.2.2 k hk i (by simp)
  have other : ∀ t', t' ≠ t → ∀ k ∈ (w.tapes t').stepIds, k ≠ i := fun t' ht k hk e => by
    subst e; exact ht (h.own _ _ _ hk hi_mem)
  refine ⟨h.count, h.lastUse, ?_, ?_, ?_, ?_, ?_, ?_, ?_, ?_, ?_, ?_, ?_⟩
  · intro t' k hk; rw [ids] at hk; exact h.range t' k hk
  · intro t'; rw [ids]; exact h.nodup t'
  · intro t1 t2 k h1 h2; rw [ids] at h1 h2; exact h.own t1 t2 k h1 h2
  · intro t'
    rw [ids]
    show List.map (fun k => (w1.steps k).blocks) _ = _
    by_cases ht : t' = t
    · subst ht
      rw [Spec_upd_self]
      have hb := h.blocks t'
      obtain ⟨si, sx, hs⟩ : ∃ si sx, s.tapes t' = si ++ [sx] := ⟨_, _, (List.dropLast_append_getLast hne).symm⟩
      rw [hi, hs, List.map_append, List.map_append] at hb
      have hb1 := List.append_inj_left' hb rfl
      have hb2 := List.append_inj_right' hb rfl
      simp only [List.map_cons, List.map_nil, List.cons.injEq, and_true] at hb2
      rw [hi, hs]
      simp only [Spec.addLast, List.dropLast_concat, List.getLast?_append_of_ne_nil, List.map_append,
        List.getLast?_concat, Option.map_some, Option.toList_some, List.map_cons, List.map_nil]
      congr 1
      · rw [← hb1]; exact List.map_congr_left fun k hk => by rw [sb k (init_ne k hk)]
      · rw [hw1]; simp [hb2]
    · rw [Spec_upd_ne _ ht, ← h.blocks t']
      exact List.map_congr_left fun k hk => by rw [sb k (other t' ht k hk)]
  · intro t'
    show (Function.update w.tapes t _ t').flat = _
    rw [Function.update_apply]
    split
    · rename_i ht; subst ht
      rw [Spec_upd_self, flatten_addLast _ hne, h.flat]
    · rename_i ht; rw [Spec_upd_ne _ ht, h.flat]
  · intro hc t'
    rw [ids]
    show List.map w1.stepVal _ = _
    by_cases ht : t' = t
    · subst ht
      rw [Spec_upd_self]
      have hb := h.vals hc t'
      obtain ⟨si, sx, hs⟩ : ∃ si sx, s.tapes t' = si ++ [sx] := ⟨_, _, (List.dropLast_append_getLast hne).symm⟩
      rw [hi, hs, List.map_append] at hb
      have hb1 := List.append_inj_left' hb rfl
      have hb2 := List.append_inj_right' hb rfl
      simp only [List.map_cons, List.map_nil, List.cons.injEq, and_true] at hb2
      rw [hi, hs]
      simp only [Spec.addLast, List.dropLast_concat, List.map_append,
        List.getLast?_concat, Option.map_some, Option.toList_some, List.map_cons, List.map_nil]
      congr 1
      · rw [← hb1]; exact List.map_congr_left fun k hk => sv k (init_ne k hk)
      · rw [← hb2]; simp [stepVal, hw1]
    · rw [Spec_upd_ne _ ht, ← h.vals hc t']
      exact List.map_congr_left fun k hk => sv k (other t' ht k hk)
  · intro hc t' k hk; rw [ids] at hk
    show (w1.steps k).state < _
    rw [st]; exact h.rangeS hc t' k hk
  · intro hc t' k hk; rw [ids] at hk
    show (w1.steps k).adjDeps < _
    rw [sa]; exact h.rangeA hc t' k hk
  · intro hc t1 t2 k h1 l h2; rw [ids] at h1 h2
    show (w1.steps k).state = (w1.steps l).state → _
    rw [st, st]; exact h.injS hc t1 t2 k h1 l h2
  · intro hc t1 t2 k h1 l h2; rw [ids] at h1 h2
    show (w1.steps k).adjDeps = (w1.steps l).adjDeps → _
    rw [sa, sa]; exact h.injA hc t1 t2 k h1 l h2
  · intro hc t1 t2 k h1 l h2; rw [ids] at h1 h2
    show (w1.steps k).state ≠ (w1.steps l).adjDeps
    rw [st, sa]; exact h.disj hc t1 t2 k h1 l h2

theorem OSet_add_idem (s : OSet BV) (v : BV) : (s.add v).add v = s.add v := by
  unfold OSet.add
  by_cases h : v ∈ s.elems <;> simp [h]

theorem foldl_addSets (v : BV) (ids : List Nat) (f : Nat → OSet BV) (x : Nat) :
    (ids.foldl (fun f i => Function.update f i ((f i).add v)) f) x = if x ∈ ids then (f x).add v else f x := by
  induction ids generalizing f with
  | nil => simp
  | cons i ids ih =>
    rw [List.foldl_cons, ih]
    by_cases h : x = i
    · subst h; simp [OSet_add_idem]
    · simp [h]

/-- Adding a variable to some sets of one tape. -/
theorem Rel.addToSets {c : Bool} {w : World V T A} {s : Tapes V T A} (h : Rel c w s) (t : Nat) (v : BV) (n : Nat)
    (l : List (Spec.Step V T A)) (hb : l.map (·.blocks) = (s.tapes t).map (·.blocks)) (ids : List Nat)
    (hv : c = true → (w.tapes t).stepIds.map (w.addToSets v ids).stepVal = l)
    (ho : c = true → ∀ t', t' ≠ t → ∀ i ∈ (w.tapes t').stepIds, (w.addToSets v ids).stepVal i = w.stepVal i) :
    Rel c (w.addToSets v ids) (s.upd t l) := by
  have spec : ∀ t', ((s.upd t l).tapes t').map (·.blocks) = (s.tapes t').map (·.blocks) := fun t' => by
    by_cases ht : t' = t
    · subst ht; rw [Spec_upd_self, hb]
    · rw [Spec_upd_ne _ ht]
  refine ⟨h.count, h.lastUse, h.range, h.nodup, h.own, ?_, ?_, ?_, h.rangeS, h.rangeA, h.injS, h.injA, h.disj⟩
  · intro t'; rw [spec]; exact h.blocks t'
  · intro t'; rw [spec]; exact h.flat t'
  · intro hc t'
    by_cases ht : t' = t
    · subst ht; rw [Spec_upd_self]; exact hv hc
    · rw [Spec_upd_ne _ ht, ← h.vals hc t']
      exact List.map_congr_left fun i hi => ho hc t' ht i hi

theorem map_take_drop {α β : Type*} (f g : α → β) (k : β → β) (n : Nat) (l : List α) (hnd : l.Nodup)
    (h1 : ∀ i ∈ l, i ∈ l.drop n → g i = k (f i)) (h2 : ∀ i ∈ l, i ∉ l.drop n → g i = f i) :
    l.map g = (l.map f).take n ++ ((l.map f).drop n).map k := by
  conv_lhs => rw [← List.take_append_drop n l]
  have hd := hnd
  rw [← List.take_append_drop n l, List.nodup_append] at hd
  rw [List.map_append, List.map_take.symm, List.map_drop.symm, List.map_map]
  congr 1
  · exact List.map_congr_left fun i hi => h2 i (List.mem_of_mem_take hi) fun hi' => hd.2.2 i hi i hi' rfl
  · exact List.map_congr_left fun i hi => h1 i (List.mem_of_mem_drop hi) hi

theorem Rel.addToState {c : Bool} {w : World V T A} {s : Tapes V T A} (h : Rel c w s) (t : Nat) (v : BV) (n : Nat) :
    Rel c (w.addToSets v (((w.tapes t).stepIds.drop n).map fun i => (w.steps i).state))
      (s.upd t (Spec.useStep v n (s.tapes t))) := by
  have key : c = true → ∀ t', ∀ i ∈ (w.tapes t').stepIds,
      (w.addToSets v (((w.tapes t).stepIds.drop n).map fun i => (w.steps i).state)).stepVal i =
        if i ∈ (w.tapes t).stepIds.drop n then { w.stepVal i with state := (w.stepVal i).state.add v }
        else w.stepVal i := by
    intro hc t' i hi
    have e1 : (w.steps i).adjDeps ∉ (((w.tapes t).stepIds.drop n).map fun i => (w.steps i).state) := by
      intro hm
      obtain ⟨j, hj, e⟩ := List.mem_map.1 hm
      exact h.disj hc t t' j (List.mem_of_mem_drop hj) i hi e
    have e2 : (w.steps i).state ∈ (((w.tapes t).stepIds.drop n).map fun i => (w.steps i).state) ↔
        i ∈ (w.tapes t).stepIds.drop n := by
      constructor
      · intro hm
        obtain ⟨j, hj, e⟩ := List.mem_map.1 hm
        rw [← h.injS hc t t' j (List.mem_of_mem_drop hj) i hi e]; exact hj
      · exact fun hm => List.mem_map.2 ⟨i, hm, rfl⟩
    simp only [stepVal, World.addToSets, foldl_addSets, if_neg e1, e2]
    split <;> rfl
  refine h.addToSets t v n _ ?_ _ ?_ ?_
  · simp [Spec.useStep, List.map_take, List.map_drop]
    rw [show ((fun x : Spec.Step V T A => x.blocks) ∘ fun x : Spec.Step V T A => { x with state := x.state.add v }) = fun x => x.blocks from rfl]
    rw [← List.map_take, ← List.map_drop, ← List.map_append, List.take_append_drop]
  · intro hc
    rw [← h.vals hc t]
    refine map_take_drop _ _ (fun x : Spec.Step V T A => { x with state := x.state.add v }) n _ (h.nodup t) ?_ ?_
    · intro i hi hd; rw [key hc t i hi, if_pos hd]
    · intro i hi hd; rw [key hc t i hi, if_neg hd]
  · intro hc t' ht i hi
    rw [key hc t' i hi, if_neg]
    exact fun hd => ht (h.own _ _ _ hi (List.mem_of_mem_drop hd))

theorem Rel.addToAdj {c : Bool} {w : World V T A} {s : Tapes V T A} (h : Rel c w s) (t : Nat) (v : BV) (n : Nat) :
    Rel c (w.addToSets v (((w.tapes t).stepIds.drop n).map fun i => (w.steps i).adjDeps))
      (s.upd t (Spec.makeStep v n (s.tapes t))) := by
  have key : c = true → ∀ t', ∀ i ∈ (w.tapes t').stepIds,
      (w.addToSets v (((w.tapes t).stepIds.drop n).map fun i => (w.steps i).adjDeps)).stepVal i =
        if i ∈ (w.tapes t).stepIds.drop n then { w.stepVal i with adjDeps := (w.stepVal i).adjDeps.add v }
        else w.stepVal i := by
    intro hc t' i hi
    have e1 : (w.steps i).state ∉ (((w.tapes t).stepIds.drop n).map fun i => (w.steps i).adjDeps) := by
      intro hm
      obtain ⟨j, hj, e⟩ := List.mem_map.1 hm
      exact h.disj hc t' t i hi j (List.mem_of_mem_drop hj) e.symm
    have e2 : (w.steps i).adjDeps ∈ (((w.tapes t).stepIds.drop n).map fun i => (w.steps i).adjDeps) ↔
        i ∈ (w.tapes t).stepIds.drop n := by
      constructor
      · intro hm
        obtain ⟨j, hj, e⟩ := List.mem_map.1 hm
        rw [← h.injA hc t t' j (List.mem_of_mem_drop hj) i hi e]; exact hj
      · exact fun hm => List.mem_map.2 ⟨i, hm, rfl⟩
    simp only [stepVal, World.addToSets, foldl_addSets, if_neg e1, e2]
    split <;> rfl
  refine h.addToSets t v n _ ?_ _ ?_ ?_
  · simp [Spec.makeStep, List.map_take, List.map_drop]
    rw [show ((fun x : Spec.Step V T A => x.blocks) ∘ fun x : Spec.Step V T A => { x with adjDeps := x.adjDeps.add v }) = fun x => x.blocks from rfl]
    rw [← List.map_take, ← List.map_drop, ← List.map_append, List.take_append_drop]
  · intro hc
    rw [← h.vals hc t]
    refine map_take_drop _ _ (fun x : Spec.Step V T A => { x with adjDeps := x.adjDeps.add v }) n _ (h.nodup t) ?_ ?_
    · intro i hi hd; rw [key hc t i hi, if_pos hd]
    · intro i hi hd; rw [key hc t i hi, if_neg hd]
  · intro hc t' ht i hi
    rw [key hc t' i hi, if_neg]
    exact fun hd => ht (h.own _ _ _ hi (List.mem_of_mem_drop hd))

end World

end Pyadjoint
