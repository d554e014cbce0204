import Verif.Model.ClearTape
import Verif.Props.CheckpointGradient

/-! # C40: `clear_tape` -/

namespace Pyadjoint
open CTape (Event Schedule)

namespace PTape

variable {V T A : Type*}

/-- **C40**, first part: after `clear_tape()` there are no blocks, no manager, the count of recomputations is zero, and
no variable that was on the tape has an adjoint value; the values, saved values and markings are as before. -/
theorem clear_tape_empty (τ : PTape V T A) (h : Heap V T A) :
    (τ.clear h).1.blocks = [] ∧ (τ.clear h).1.mgr = none ∧ (τ.clear h).1.count = 0 ∧
    (∀ b ∈ τ.blocks, ∀ v ∈ b.deps ++ b.outs, ((τ.clear h).2 v).adj = none) ∧
    ∀ v, (τ.clear h).2 v = { h v with adj := ((τ.clear h).2 v).adj } := by
  refine ⟨rfl, rfl, rfl, fun b hb v hv => ?_, fun v => ?_⟩
  · show (resetVariables τ.blocks .adjoint h v).adj = none
    rw [resetVariables_apply, if_pos ⟨b, hb, by simpa using hv⟩]
    rfl
  · show resetVariables τ.blocks .adjoint h v = { h v with adj := (resetVariables τ.blocks .adjoint h v).adj }
    rw [resetVariables_apply]
    split <;> rfl

/-- The two tapes differ at most in `latest_checkpoint`. -/
def Alike (s s' : PTape V T A × Heap V T A) : Prop :=
  s.2 = s'.2 ∧ s.1.steps = s'.1.steps ∧ s.1.eager = s'.1.eager ∧ s.1.mgr = s'.1.mgr ∧ s.1.count = s'.1.count

theorem Alike.cases {s s' : PTape V T A × Heap V T A} (h : Alike s s') :
    ∃ n, s' = ({ s.1 with latestCkpt := n }, s.2) := by
  obtain ⟨⟨a, b, c, d, e⟩, f⟩ := s
  obtain ⟨⟨a', b', c', d', e'⟩, f'⟩ := s'
  obtain ⟨h1, h2, h3, h4, h5⟩ := h
  cases h1; cases h2; cases h3; cases h4; cases h5
  exact ⟨b', rfl⟩

theorem ensure_latestCkpt (τ : PTape V T A) (n : Option Int) :
    ({ τ with latestCkpt := n } : PTape V T A).ensure = { τ.ensure with latestCkpt := n } := by
  unfold ensure
  dsimp only
  split <;> rfl

theorem saveOutput_twice (h : Heap V T A) (v : BV) : saveOutput (saveOutput h v false) v false = saveOutput h v false := by
  unfold saveOutput
  by_cases hc : (h v).ckpt.isNone
  · simp [hc]
  · simp [hc]

theorem saveOutput_if (h : Heap V T A) (v : BV) (c : Bool) :
    (if c = true then saveOutput (saveOutput h v false) v false else saveOutput h v false) = saveOutput h v false := by
  split
  · exact saveOutput_twice h v
  · rfl

/-- For types that use the hooks of the base class, `latest_checkpoint` makes no difference. -/
theorem depend_alike {s s' : PTape V T A × Heap V T A} (h : Alike s s') (v : BV) :
    Alike (depend {} v s) (depend {} v s') := by
  obtain ⟨n, rfl⟩ := h.cases
  unfold depend
  simp only [if_true]
  rw [ensure_latestCkpt s.1 n]
  simp only [saveOutput_if]
  exact ⟨rfl, rfl, rfl, rfl, rfl⟩

theorem output_alike {s s' : PTape V T A × Heap V T A} (h : Alike s s') (hk : Hooks) (v : BV) :
    Alike (output hk v s) (output hk v s') := by
  obtain ⟨n, rfl⟩ := h.cases
  unfold output
  dsimp only
  rw [ensure_latestCkpt s.1 n]
  exact ⟨rfl, rfl, rfl, rfl, rfl⟩

theorem event_alike {s s' : PTape V T A × Heap V T A} (h : Alike s s') (e : Event V T A) :
    Alike (event {} s e) (event {} s' e) := by
  cases e with
  | endTimestep =>
    obtain ⟨n, rfl⟩ := h.cases
    exact ⟨rfl, rfl, rfl, rfl, rfl⟩
  | block b =>
    unfold event
    dsimp only
    have h1 : Alike (b.deps.foldl (fun s v => depend {} v s) s) (b.deps.foldl (fun s v => depend {} v s) s') := by
      generalize b.deps = l
      induction l generalizing s s' with
      | nil => exact h
      | cons v l ih => exact ih (depend_alike h v)
    generalize b.deps.foldl (fun s v => depend {} v s) s = s₁ at h1 ⊢
    generalize b.deps.foldl (fun s v => depend {} v s) s' = s₁' at h1 ⊢
    have h2 : Alike (s₁.1.addBlock b, s₁.2) (s₁'.1.addBlock b, s₁'.2) := by
      obtain ⟨n, rfl⟩ := h1.cases
      unfold addBlock
      dsimp only
      rw [ensure_latestCkpt s₁.1 n]
      exact ⟨rfl, rfl, rfl, rfl, rfl⟩
    generalize (s₁.1.addBlock b, s₁.2) = s₂ at h2 ⊢
    generalize (s₁'.1.addBlock b, s₁'.2) = s₂' at h2 ⊢
    generalize b.outs = l
    induction l generalizing s₂ s₂' with
    | nil => exact h2
    | cons v l ih => exact ih _ _ (output_alike h2 {} v)

/-- **C40** (partial: the tape was not left in the state of storing outputs eagerly).  Whatever happened before, every
recording after `clear_tape()` has the same effect on the tape and on all variables as on a new tape.  For types
that override the hooks the cleared tape must also never have had a checkpoint manager. -/
theorem clear_tape_as_new_partial (τ : PTape V T A) (h : Heap V T A) (he : τ.eager = false) (es : List (Event V T A)) :
    ((recording {} es (τ.clear h)).2 = (recording {} es (new, (τ.clear h).2)).2 ∧
      (recording {} es (τ.clear h)).1.steps = (recording {} es (new, (τ.clear h).2)).1.steps) ∧
    (τ.latestCkpt = none → ∀ hk, recording hk es (τ.clear h) = recording hk es (new, (τ.clear h).2)) := by
  refine ⟨?_, fun hl hk => ?_⟩
  · have : Alike (recording {} es (τ.clear h)) (recording {} es (new, (τ.clear h).2)) := by
      have h0 : Alike (τ.clear h) (new, (τ.clear h).2) := ⟨rfl, rfl, he, rfl, rfl⟩
      generalize τ.clear h = s at h0 ⊢
      generalize ((new : PTape V T A), s.2) = s' at h0 ⊢
      unfold recording
      induction es generalizing s s' with
      | nil => exact h0
      | cons e es ih => exact ih _ _ (event_alike h0 e)
    exact ⟨this.1, this.2.1⟩
  · have : τ.clear h = (new, (τ.clear h).2) := by
      obtain ⟨a, b, c, d, e⟩ := τ
      cases he; cases hl
      rfl
    rw [this]

/-- **C40**: for every tape, however it was used, enabling checkpointing again after `clear_tape()` gives exactly what it
gives on a new tape. -/
theorem clear_tape_enable (τ : PTape V T A) (h : Heap V T A) (sch : Schedule) {n1 : Option Nat} {wi wa : Bool}
    {st : Storage} {acts : List Action} (hs : sch.acts = .forward 0 n1 wi wa st :: acts) (gc : Option Int) (pk : Bool) :
    enable sch gc pk (τ.clear h) = enable sch gc pk (new, (τ.clear h).2) := by
  unfold enable CTape.enable
  show (if ([] : List (CStep V T A)).flatMap (·.blocks) ≠ [] then _ else _) = _
  rw [hs]
  have key : ∀ e e' : Bool, ∀ m : Mgr, m.current = .forward 0 n1 wi wa st → ∀ acts,
      CTape.endTimestepLoop 0 acts ({ heap := (τ.clear h).2, steps := [], eager := e, mgr := m } : CTape V T A) =
      CTape.endTimestepLoop 0 acts { heap := (τ.clear h).2, steps := [], eager := e', mgr := m } := by
    intro e e' m hm acts
    cases acts with
    | nil =>
      unfold CTape.endTimestepLoop
      simp only [hm, CTape.processTaping, CTape.tapingForward]
    | cons a acts =>
      unfold CTape.endTimestepLoop
      simp only [hm, CTape.processTaping, CTape.tapingForward]
  have e2 : ((new : PTape V T A), (τ.clear h).2).1.steps = [] := rfl
  have e3 : ¬ (([] : List (CStep V T A)).flatMap (·.blocks) ≠ []) := fun h => h rfl
  rw [e2, if_neg e3, if_neg e3]
  by_cases hd : (sch.usesDisk && !pk) = true
  · rw [if_pos hd, if_pos hd]
  · rw [if_neg hd, if_neg hd]
    dsimp only
    unfold CTape.mgrEndTimestep
    simp only [if_false, ne_eq, not_true_eq_false]
    exact key _ _ _ rfl _

/-- **C40 fails** when a schedule has set `_eagerly_checkpoint_outputs` (`checkpointing.py:165`): `clear_tape` does not
reset it, so every output recorded afterwards is stored. -/
theorem clear_tape_eager_persists (τ : PTape V T A) (h : Heap V T A) (he : τ.eager = true) (b : Block V T A) {o : BV}
    (ho : b.outs = [o]) (hd : o ∉ b.deps) (hc : (h o).ckpt = none) :
    ((recording {} [.block b] (τ.clear h)).2 o).ckpt = some (h o).output ∧
    ((recording {} [.block b] (new, (τ.clear h).2)).2 o).ckpt = none := by
  have hclear : ∀ v, ((τ.clear h).2 v).ckpt = (h v).ckpt ∧ ((τ.clear h).2 v).output = (h v).output := by
    intro v
    have := (clear_tape_empty τ h).2.2.2.2 v
    rw [this]
    exact ⟨rfl, rfl⟩
  have hdep : ∀ (l : List BV) (s : PTape V T A × Heap V T A), o ∉ l →
      ((l.foldl (fun s v => depend {} v s) s).2 o) = s.2 o ∧ (l.foldl (fun s v => depend {} v s) s).1.eager = s.1.eager := by
    intro l
    induction l with
    | nil => exact fun s _ => ⟨rfl, rfl⟩
    | cons v l ih =>
      intro s hl
      simp only [List.mem_cons, not_or] at hl
      obtain ⟨i1, i2⟩ := ih (depend {} v s) hl.2
      rw [List.foldl_cons, i1, i2]
      unfold depend
      simp only [if_true, saveOutput_if]
      refine ⟨?_, ?_⟩
      · rw [Function.update_of_ne hl.1]
        unfold saveOutput
        split
        · rw [Function.update_of_ne hl.1]
        · rfl
      · unfold ensure
        split <;> rfl
  have haddB : ∀ s : PTape V T A × Heap V T A, (s.1.addBlock b).eager = s.1.eager := by
    intro s
    unfold addBlock ensure
    dsimp only
    split <;> rfl
  unfold recording
  simp only [List.foldl_cons, List.foldl_nil, event, ho]
  constructor
  · obtain ⟨d1, d2⟩ := hdep b.deps (τ.clear h) hd
    unfold output
    simp only [if_true, haddB, d2]
    rw [if_pos (show (τ.clear h).1.eager = true from he)]
    unfold saveOutput
    simp only [Bool.true_or, if_true, Function.update_self]
    rw [d1, (hclear o).2]
  · obtain ⟨d1, d2⟩ := hdep b.deps (new, (τ.clear h).2) hd
    unfold output
    simp only [if_true, haddB, d2]
    rw [if_neg (show ¬ (new : PTape V T A).eager = true from Bool.false_ne_true)]
    simp only [Function.update_self]
    rw [d1]
    exact (hclear o).1.trans hc

/-- Non-vacuity of `clear_tape_as_new_partial`. -/
example (h : Heap Int Int Int) (es : List (Event Int Int Int)) :
    (recording {} es (({ steps := [{}, {}], count := 3 } : PTape Int Int Int).clear h)).2 =
      (recording {} es (new, (({ steps := [{}, {}], count := 3 } : PTape Int Int Int).clear h).2)).2 :=
  (clear_tape_as_new_partial _ h rfl es).1.1

/-- Non-vacuity of `clear_tape_enable`. -/
example (τ : PTape Int Int Int) (h : Heap Int Int Int) :
    enable CTape.multistage2 (some 3) false (τ.clear h) = enable CTape.multistage2 (some 3) false (new, (τ.clear h).2) :=
  clear_tape_enable τ h _ rfl _ _

/-! ## What a recording is -/

/-- A block at the end of the last time step; a tape without time steps gets one. -/
def atEnd {β : Type*} (b : β) : List (List β) → List (List β)
  | [] => [[b]]
  | [s] => [s ++ [b]]
  | s :: s' :: l => s :: atEnd b (s' :: l)

/-- The time steps of a recording. -/
def stepsOf (es : List (Event V T A)) : List (Blocks V T A) :=
  es.foldl (fun l e => match e with
    | .block b => atEnd b l
    | .endTimestep => l ++ [[]]) []

theorem ensure_blocks (τ : PTape V T A) :
    τ.ensure.steps.map (·.blocks) = if τ.steps = [] then [[]] else τ.steps.map (·.blocks) := by
  unfold ensure
  split <;> rfl

theorem ensure_ne (τ : PTape V T A) : τ.ensure.steps ≠ [] := by
  unfold ensure
  split
  · simp
  · assumption

theorem map_blocks_keep {f : CStep V T A → CStep V T A} (hf : ∀ s, (f s).blocks = s.blocks) (l : List (CStep V T A)) (k : Nat) :
    (l.take k ++ (l.drop k).map f).map (·.blocks) = l.map (·.blocks) := by
  rw [List.map_append, List.map_map, show ((·.blocks) ∘ f : CStep V T A → _) = (·.blocks) from funext hf, ← List.map_append,
    List.take_append_drop]

theorem depend_blocks (hk : Hooks) (v : BV) (s : PTape V T A × Heap V T A) :
    (depend hk v s).1.steps.map (·.blocks) = if s.1.steps = [] then [[]] else s.1.steps.map (·.blocks) := by
  rw [← ensure_blocks]
  exact map_blocks_keep (f := fun s => { s with state := s.state.add v }) (fun _ => rfl) _ _

theorem output_blocks (hk : Hooks) (v : BV) (s : PTape V T A × Heap V T A) :
    (output hk v s).1.steps.map (·.blocks) = if s.1.steps = [] then [[]] else s.1.steps.map (·.blocks) := by
  rw [← ensure_blocks]
  exact map_blocks_keep (f := fun s => { s with adjDeps := s.adjDeps.add v }) (fun _ => rfl) _ _

theorem modify_last (b : Block V T A) : ∀ l : List (CStep V T A), l ≠ [] →
    (l.modify (l.length - 1) fun s => { s with blocks := s.blocks ++ [b] }).map (·.blocks) = atEnd b (l.map (·.blocks))
  | [], h => absurd rfl h
  | [s], _ => rfl
  | s :: s' :: l, _ => by
    have := modify_last b (s' :: l) (by simp)
    simp only [List.length_cons, Nat.add_sub_cancel] at this ⊢
    rw [List.modify_succ_cons, List.map_cons, this]
    rfl

theorem addBlock_blocks (b : Block V T A) (τ : PTape V T A) :
    (τ.addBlock b).steps.map (·.blocks) = atEnd b (τ.steps.map (·.blocks)) := by
  have := modify_last b τ.ensure.steps (ensure_ne τ)
  refine this.trans ?_
  rw [ensure_blocks]
  split
  · rename_i h; rw [h]; rfl
  · rfl

theorem atEnd_ne {β : Type*} (b : β) (l : List (List β)) : atEnd b l ≠ [] := by
  match l with
  | [] => simp [atEnd]
  | [_] => simp [atEnd]
  | _ :: _ :: _ => simp [atEnd]

/-- Adding variables leaves the blocks as they are. -/
theorem fold_blocks {f : BV → PTape V T A × Heap V T A → PTape V T A × Heap V T A}
    (hf : ∀ v s, (f v s).1.steps.map (·.blocks) = if s.1.steps = [] then [[]] else s.1.steps.map (·.blocks))
    (l : List BV) (s : PTape V T A × Heap V T A) (b : Block V T A) :
    atEnd b ((l.foldl (fun s v => f v s) s).1.steps.map (·.blocks)) = atEnd b (s.1.steps.map (·.blocks)) ∧
    (s.1.steps ≠ [] → (l.foldl (fun s v => f v s) s).1.steps.map (·.blocks) = s.1.steps.map (·.blocks)) := by
  induction l generalizing s with
  | nil => exact ⟨rfl, fun _ => rfl⟩
  | cons v l ih =>
    obtain ⟨h1, h2⟩ := ih (f v s)
    rw [List.foldl_cons]
    have hv := hf v s
    constructor
    · rw [h1, hv]
      split
      · rename_i h; rw [h]; rfl
      · rfl
    · intro hs
      rw [if_neg hs] at hv
      have : (f v s).1.steps ≠ [] := by
        intro h
        rw [h] at hv
        exact hs (List.map_eq_nil_iff.1 hv.symm)
      rw [h2 this, hv]

theorem event_blocks (hk : Hooks) (s : PTape V T A × Heap V T A) (e : Event V T A) :
    (event hk s e).1.steps.map (·.blocks) = match e with
    | .block b => atEnd b (s.1.steps.map (·.blocks))
    | .endTimestep => s.1.steps.map (·.blocks) ++ [[]] := by
  cases e with
  | endTimestep => simp [event]
  | block b =>
    simp only [event]
    have h1 := (fold_blocks (depend_blocks hk) b.deps s b).1
    generalize b.deps.foldl (fun s v => depend hk v s) s = s1 at h1
    have h2 : (s1.1.addBlock b).steps.map (·.blocks) = atEnd b (s.1.steps.map (·.blocks)) := (addBlock_blocks b s1.1).trans h1
    have h3 : (s1.1.addBlock b).steps ≠ [] := by
      intro h
      rw [h] at h2
      exact atEnd_ne _ _ h2.symm
    exact ((fold_blocks (output_blocks hk) b.outs (s1.1.addBlock b, s1.2) b).2 h3).trans h2

/-- **C40**: whatever the tape was used for before, after `clear_tape()` it holds exactly the blocks recorded since, in the order and in the
time steps in which they were recorded. -/
theorem clear_tape_then_record (τ : PTape V T A) (h : Heap V T A) (hk : Hooks) (es : List (Event V T A)) :
    (recording hk es (τ.clear h)).1.steps.map (·.blocks) = stepsOf es := by
  have key : ∀ (s : PTape V T A × Heap V T A), (recording hk es s).1.steps.map (·.blocks) =
      es.foldl (fun l e => match e with
        | .block b => atEnd b l
        | .endTimestep => l ++ [[]]) (s.1.steps.map (·.blocks)) := by
    induction es with
    | nil => exact fun s => rfl
    | cons e es ih =>
      intro s
      refine (ih (event hk s e)).trans ?_
      rw [event_blocks]
      rfl
  exact key (τ.clear h)

theorem depend_ckpt (v w : BV) (s : PTape V T A × Heap V T A) :
    ((depend {} v s).2 w).ckpt = (if w = v then some ((s.2 w).ckpt.getD (s.2 w).output) else (s.2 w).ckpt) ∧
    ((depend {} v s).2 w).output = (s.2 w).output ∧ (depend {} v s).1.eager = s.1.eager := by
  unfold depend
  simp only [if_true, saveOutput_if]
  refine ⟨?_, ?_, by unfold ensure; split <;> rfl⟩
  · by_cases hw : w = v
    · subst hw
      rw [if_pos rfl, Function.update_self]
      unfold saveOutput
      cases hc : (s.2 w).ckpt <;> simp [hc]
    · rw [if_neg hw, Function.update_of_ne hw]
      unfold saveOutput
      split
      · rw [Function.update_of_ne hw]
      · rfl
  · by_cases hw : w = v
    · subst hw
      rw [Function.update_self]
      unfold saveOutput
      split
      · rw [Function.update_self]
      · rfl
    · rw [Function.update_of_ne hw]
      unfold saveOutput
      split
      · rw [Function.update_of_ne hw]
      · rfl

theorem output_ckpt (v w : BV) (s : PTape V T A × Heap V T A) (he : s.1.eager = false) :
    ((output {} v s).2 w).ckpt = (s.2 w).ckpt ∧
    ((output {} v s).2 w).output = (s.2 w).output ∧ (output {} v s).1.eager = s.1.eager := by
  unfold output
  simp only [if_true, he, Bool.false_eq_true, if_false]
  refine ⟨?_, ?_, by unfold ensure; split <;> simp [he]⟩
  · by_cases hw : w = v
    · subst hw; rw [Function.update_self]
    · rw [Function.update_of_ne hw]
  · by_cases hw : w = v
    · subst hw; rw [Function.update_self]
    · rw [Function.update_of_ne hw]

/-- The dependencies of the recorded blocks. -/
def used (es : List (Event V T A)) : List BV :=
  es.flatMap fun e => match e with
    | .block b => b.deps
    | .endTimestep => []


theorem fold_ckpt {f : BV → PTape V T A × Heap V T A → PTape V T A × Heap V T A} {w : BV} {e : Bool}
    (hf : ∀ v s, s.1.eager = e → ((f v s).2 w).ckpt = (if w = v then some ((s.2 w).ckpt.getD (s.2 w).output) else (s.2 w).ckpt) ∧
      ((f v s).2 w).output = (s.2 w).output ∧ (f v s).1.eager = s.1.eager)
    (l : List BV) (s : PTape V T A × Heap V T A) (he : s.1.eager = e) :
    ((l.foldl (fun s v => f v s) s).2 w).ckpt = (if w ∈ l then some ((s.2 w).ckpt.getD (s.2 w).output) else (s.2 w).ckpt) ∧
    ((l.foldl (fun s v => f v s) s).2 w).output = (s.2 w).output ∧ (l.foldl (fun s v => f v s) s).1.eager = s.1.eager := by
  induction l generalizing s with
  | nil => simp
  | cons v l ih =>
    obtain ⟨g1, g2, g3⟩ := hf v s he
    obtain ⟨h1, h2, h3⟩ := ih (f v s) (g3.trans he)
    rw [List.foldl_cons]
    refine ⟨?_, h2.trans g2, h3.trans g3⟩
    rw [h1, g1, g2]
    by_cases hv : w = v
    · simp [hv]
    · by_cases hl : w ∈ l <;> simp [hv, hl]

theorem fold_out {w : BV} (l : List BV) (s : PTape V T A × Heap V T A) (he : s.1.eager = false) :
    ((l.foldl (fun s v => output {} v s) s).2 w).ckpt = (s.2 w).ckpt ∧
    ((l.foldl (fun s v => output {} v s) s).2 w).output = (s.2 w).output ∧
    (l.foldl (fun s v => output {} v s) s).1.eager = false := by
  induction l generalizing s with
  | nil => exact ⟨rfl, rfl, he⟩
  | cons v l ih =>
    obtain ⟨g1, g2, g3⟩ := output_ckpt v w s he
    obtain ⟨h1, h2, h3⟩ := ih (output {} v s) (g3.trans he)
    exact ⟨h1.trans g1, h2.trans g2, h3⟩

/-- **C40**: a recording after `clear_tape()`, with types that use the hooks of the base class and a tape that does not store outputs
eagerly, saves the values of exactly the variables that the recorded blocks depend on; a value saved before is kept. -/
theorem clear_tape_then_saves (τ : PTape V T A) (h : Heap V T A) (he : τ.eager = false) (es : List (Event V T A)) (w : BV) :
    ((recording {} es (τ.clear h)).2 w).ckpt =
      if w ∈ used es then some ((h w).ckpt.getD (h w).output) else (h w).ckpt := by
  have key : ∀ (s : PTape V T A × Heap V T A), s.1.eager = false →
      ((recording {} es s).2 w).ckpt = if w ∈ used es then some ((s.2 w).ckpt.getD (s.2 w).output) else (s.2 w).ckpt := by
    induction es with
    | nil => intro s _; rfl
    | cons e es ih =>
      intro s hs
      cases e with
      | endTimestep => exact ih (event {} s .endTimestep) hs
      | block b =>
        obtain ⟨d1, d2, d3⟩ := fold_ckpt (f := depend {}) (e := false) (w := w) (fun v s _ => depend_ckpt v w s) b.deps s hs
        have hev : event {} s (.block b) = b.outs.foldl (fun s v => output {} v s)
            ((b.deps.foldl (fun s v => depend {} v s) s).1.addBlock b, (b.deps.foldl (fun s v => depend {} v s) s).2) := rfl
        generalize b.deps.foldl (fun s v => depend {} v s) s = s1 at d1 d2 d3 hev
        have hb : (s1.1.addBlock b).eager = false := by
          have : (s1.1.addBlock b).eager = s1.1.eager := by
            unfold addBlock ensure
            dsimp only
            split <;> rfl
          rw [this, d3, hs]
        obtain ⟨o1, o2, o3⟩ := fold_out (w := w) b.outs (s1.1.addBlock b, s1.2) hb
        have hrec : recording {} (.block b :: es) s = recording {} es (event {} s (.block b)) := rfl
        rw [hrec, ih _ (by rw [hev]; exact o3), hev, o1, o2]
        dsimp only
        rw [d1, d2]
        have hu : w ∈ used (.block b :: es) ↔ w ∈ b.deps ∨ w ∈ used es := by simp [used]
        by_cases hb : w ∈ b.deps <;> by_cases hes : w ∈ used es <;> simp [hu, hb, hes]
  have hw := (clear_tape_empty τ h).2.2.2.2 w
  rw [key (τ.clear h) he, hw]

/-- **C40 fails** for types whose `_ad_will_add_as_dependency` asks for an update of the saved value: `clear_tape` keeps
`latest_checkpoint`, which `enable_checkpointing` has set to zero, so the update that a new tape would make is not
made (`block_variable.py:68-70`).  The variable `w` was saved, then changed in place, and last used at time step `k`. -/
theorem clear_tape_latest_persists (τ : PTape V T A) (h : Heap V T A) (b : Block V T A) {w : BV} {n : Int} {old : V}
    (hb : b.deps = [w]) (ho : b.outs = []) (hc : (h w).ckpt = some old) (hl : τ.latestCkpt = some n) (hn : n ≤ (h w).lastUse) :
    ((recording { depOverwrite := true } [.block b] (τ.clear h)).2 w).ckpt = some old ∧
    ((recording { depOverwrite := true } [.block b] (new, (τ.clear h).2)).2 w).ckpt = some (h w).output := by
  have hw := (clear_tape_empty τ h).2.2.2.2 w
  have hc' : ((τ.clear h).2 w).ckpt = some old := by rw [hw]; exact hc
  have hu : ((τ.clear h).2 w).lastUse = (h w).lastUse := by rw [hw]
  have hout : ((τ.clear h).2 w).output = (h w).output := by rw [hw]
  have hs : saveOutput (τ.clear h).2 w false = (τ.clear h).2 := by
    unfold saveOutput
    simp [hc']
  have hl' : (τ.clear h).1.latestCkpt = some n := hl
  constructor
  · simp only [recording, List.foldl_cons, List.foldl_nil, event, hb, ho, depend, if_true, hs, hl', before, hu]
    rw [if_neg (by simpa using hn)]
    simp [hc']
  · simp only [recording, List.foldl_cons, List.foldl_nil, event, hb, ho, depend, if_true, hs, new, before]
    simp [saveOutput, hout]

/-- The two hypotheses under which `clear_tape` differs from a new tape are reached: a tape recorded with everything kept in memory has
`_eagerly_checkpoint_outputs` set and a finite `latest_checkpoint`, and both survive `clear_tape()`, while the blocks do not. -/
theorem clear_tape_flags_reached :
    let s := ofChecked 0 (CTape.tapeOf CTape.emptyTape
      (CTape.record CTape.singleMemory3 (CTape.freshHeap [2, 4, 16, 64]) CTape.exSixth))
    s.1.blocks.length = 3 ∧ (s.1.clear s.2).1.blocks.length = 0 ∧
      (s.1.clear s.2).1.eager = true ∧ (s.1.clear s.2).1.latestCkpt = some 0 := by
  decide +kernel

/-- Non-vacuity: two blocks in two time steps, recorded on a tape that held three blocks. -/
example (a b c : Block Int Int Int) (h : Heap Int Int Int) :
    (recording {} [.block a, .endTimestep, .block b, .block c]
      (({ steps := [{ blocks := [a, b, c] }] } : PTape Int Int Int).clear h)).1.steps.map (·.blocks) = [[a], [b, c]] :=
  clear_tape_then_record _ h {} _

/-- Non-vacuity of `clear_tape_latest_persists`: the variable was saved as 1, is 2 now, and was last used in time step 0 of a tape with
checkpointing. -/
example (b : Block Int Int Int) (hb : b.deps = [0]) (ho : b.outs = []) :
    let h : Heap Int Int Int := fun _ => { output := 2, ckpt := some 1, lastUse := 0 }
    let τ : PTape Int Int Int := { steps := [{}], latestCkpt := some 0 }
    ((recording { depOverwrite := true } [.block b] (τ.clear h)).2 0).ckpt = some 1 ∧
    ((recording { depOverwrite := true } [.block b] (new, (τ.clear h).2)).2 0).ckpt = some 2 :=
  clear_tape_latest_persists _ _ b hb ho rfl rfl (by decide)

end PTape
end Pyadjoint
