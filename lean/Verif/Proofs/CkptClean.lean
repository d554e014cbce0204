import Verif.Proofs.CkptStep
import Verif.Spec.Schedule

/-!
# What every action of the checkpoint manager preserves

* `Shape`: blocks, live-in sets, flags and the recorded values;
* `Clean P`: the variables in `P`, a set of variables that do not change when the controls do, hold their
  recorded value wherever they hold one.
-/

namespace Pyadjoint
namespace CTape

variable {V T A : Type*}

/-- The parts of a time step that evaluations never change. -/
def static (s : CStep V T A) : Blocks V T A × OSet BV := (s.blocks, s.state)

/-- The parts of a tape with manager that evaluations never change. -/
structure Shape (τ τ' : CTape V T A) : Prop where
  steps : τ'.steps.map static = τ.steps.map static
  fwd : τ'.mgr.fwd = τ.mgr.fwd
  total : τ'.mgr.total = τ.mgr.total
  global : τ'.mgr.globalDeps = τ.mgr.globalDeps
  singleMem : τ'.mgr.singleMem = τ.mgr.singleMem
  output : ∀ v, (τ'.heap v).output = (τ.heap v).output
  control : ∀ v, (τ'.heap v).isControl = (τ.heap v).isControl
  marked : ∀ v, (τ'.heap v).marked = (τ.heap v).marked

theorem Shape.refl (τ : CTape V T A) : Shape τ τ :=
  ⟨rfl, rfl, rfl, rfl, rfl, fun _ => rfl, fun _ => rfl, fun _ => rfl⟩

theorem Shape.trans {τ₁ τ₂ τ₃ : CTape V T A} (h : Shape τ₁ τ₂) (h' : Shape τ₂ τ₃) : Shape τ₁ τ₃ :=
  ⟨h'.steps.trans h.steps, h'.fwd.trans h.fwd, h'.total.trans h.total, h'.global.trans h.global,
    h'.singleMem.trans h.singleMem, fun v => (h'.output v).trans (h.output v),
    fun v => (h'.control v).trans (h.control v), fun v => (h'.marked v).trans (h.marked v)⟩

theorem map_static_set {l : List (CStep V T A)} {k : Nat} {s s' : CStep V T A} (h : l[k]? = some s)
    (hs : static s' = static s) : (l.set k s').map static = l.map static := by
  rw [List.map_set, hs]
  apply List.ext_getElem?
  intro i
  rw [List.getElem?_set]
  split
  · rename_i hi
    subst hi
    rw [List.getElem?_map, h]
    split
    · rfl
    · rename_i hlt
      have : k < l.length := by
        by_contra hc
        rw [List.getElem?_eq_none (by omega)] at h
        cases h
      simp at hlt
      omega
  · rfl

theorem Shape.getElem? {τ τ' : CTape V T A} (h : Shape τ τ') {k : Nat} {s' : CStep V T A}
    (hs : τ'.steps[k]? = some s') : ∃ s, τ.steps[k]? = some s ∧ s'.blocks = s.blocks ∧ s'.state = s.state := by
  have := congrArg (·[k]?) h.steps
  simp only [List.getElem?_map, hs, Option.map_some] at this
  cases hk : τ.steps[k]? with
  | none => rw [hk] at this; cases this
  | some s =>
    rw [hk] at this
    simp only [Option.map_some, Option.some.injEq, static, Prod.mk.injEq] at this
    exact ⟨s, rfl, this.1, this.2⟩

theorem Shape.getElem?' {τ τ' : CTape V T A} (h : Shape τ τ') {k : Nat} {s : CStep V T A}
    (hs : τ.steps[k]? = some s) : ∃ s', τ'.steps[k]? = some s' ∧ s'.blocks = s.blocks ∧ s'.state = s.state := by
  have := congrArg (·[k]?) h.steps
  simp only [List.getElem?_map, hs, Option.map_some] at this
  cases hk : τ'.steps[k]? with
  | none => rw [hk] at this; cases this
  | some s' =>
    rw [hk] at this
    simp only [Option.map_some, Option.some.injEq, static, Prod.mk.injEq] at this
    exact ⟨s', rfl, this.1, this.2⟩

theorem Shape.length {τ τ' : CTape V T A} (h : Shape τ τ') : τ'.steps.length = τ.steps.length := by
  have := congrArg List.length h.steps
  simpa using this

theorem Shape.blocks {τ τ' : CTape V T A} (h : Shape τ τ') : τ'.blocks = τ.blocks := by
  have e : ∀ l : List (CStep V T A), l.flatMap (·.blocks) = (l.map static).flatMap (·.1) := by
    intro l
    rw [List.flatMap_map]
    rfl
  unfold CTape.blocks
  rw [e, e, h.steps]

theorem mem_blocks_of_step {τ : CTape V T A} {k : Nat} {s : CStep V T A} (h : τ.steps[k]? = some s)
    {b : Block V T A} (hb : b ∈ s.blocks) : b ∈ τ.blocks :=
  List.mem_flatMap.2 ⟨s, List.mem_of_getElem? h, hb⟩

/-- The variables in `P` do not change with the controls: whatever block produces one of them has inputs
in `P` only and reproduces the recorded value from the recorded values. -/
def Stable (P : BV → Prop) (bs : Blocks V T A) (out : BV → V) : Prop :=
  ∀ b ∈ bs, ∀ (i : Nat) (o : BV), b.outs[i]? = some o → P o →
    (∀ d ∈ b.deps, P d) ∧ ∀ y, b.recomputeC (b.deps.map out) i = some y → y = out o

/-- The variables in `P` hold the recorded value wherever they hold a value. -/
structure Clean (P : BV → Prop) (out : BV → V) (τ : CTape V T A) : Prop where
  output : ∀ v, (τ.heap v).output = out v
  heap : ∀ v, P v → ∀ c, (τ.heap v).ckpt = some c → c = out v
  stored : ∀ s ∈ τ.steps, ∀ v, P v → ∀ c, s.ckpt v = some (some c) → c = out v

/-- The heap part of `Clean`. -/
structure CleanHeap (P : BV → Prop) (out : BV → V) (h : Heap V T A) : Prop where
  output : ∀ v, (h v).output = out v
  heap : ∀ v, P v → ∀ c, (h v).ckpt = some c → c = out v

theorem CleanHeap.saved {P : BV → Prop} {out : BV → V} {h : Heap V T A} (hc : CleanHeap P out h) {v : BV}
    (hv : P v) : saved h v = out v := by
  unfold Pyadjoint.saved
  cases hk : (h v).ckpt with
  | none => exact hc.output v
  | some c => exact hc.heap v hv c hk

theorem CleanHeap.mono {P : BV → Prop} {out : BV → V} {h h' : Heap V T A} (hc : CleanHeap P out h)
    (ho : ∀ v, (h' v).output = (h v).output)
    (hk : ∀ v, P v → (h' v).ckpt = (h v).ckpt ∨ (h' v).ckpt = none) : CleanHeap P out h' := by
  refine ⟨fun v => (ho v).trans (hc.output v), fun v hv c hc' => ?_⟩
  rcases hk v hv with e | e
  · rw [e] at hc'; exact hc.heap v hv c hc'
  · rw [e] at hc'; cases hc'

theorem foldl_orKeep_some {X : Type*} (f : X → Option V) (l : List X) (o : Option V) (c : V)
    (h : l.foldl (fun o p => orKeep o (f p)) o = some c) : o = some c ∨ ∃ p ∈ l, f p = some c := by
  induction l generalizing o with
  | nil => exact Or.inl h
  | cons p l ih =>
    rw [List.foldl_cons] at h
    rcases ih _ h with e | ⟨q, hq, e⟩
    · cases hp : f p with
      | none => rw [hp] at e; exact Or.inl e
      | some y => rw [hp] at e; exact Or.inr ⟨p, by simp, by rw [hp]; exact e⟩
    · exact Or.inr ⟨q, by simp [hq], e⟩

theorem entries_getElem? {bvs : List BV} {v : BV} {p : BV × Nat} (h : p ∈ entries bvs v) :
    bvs[p.2]? = some v := by
  unfold entries at h
  rw [List.mem_filter] at h
  obtain ⟨h1, h2⟩ := h
  simp only [decide_eq_true_eq] at h2
  obtain ⟨q, i⟩ := p
  obtain ⟨_, h3, h4⟩ := List.mem_zipIdx h1
  simp only at h2 ⊢
  subst h2
  rw [h4]
  simp only [Nat.zero_add, Nat.sub_zero] at h3 ⊢
  exact List.getElem?_eq_getElem h3

/-- The checkpoint a recomputed block leaves is the old one or one of its results. -/
theorem recompute_ckpt {b : Block V T A} {h : Heap V T A} {v : BV} {c : V}
    (hc : (b.recompute false h v).ckpt = some c) :
    (h v).ckpt = some c ∨ ∃ i : Nat, b.outs[i]? = some v ∧ b.recomputeC (b.deps.map (saved h)) i = some c := by
  rw [Block.recompute_apply] at hc
  simp only [Block.ckptAfter] at hc
  split at hc
  · exact Or.inl hc
  · split at hc
    · rcases foldl_orKeep_some _ _ _ _ hc with e | ⟨p, hp, e⟩
      · exact Or.inl e
      · exact Or.inr ⟨p.2, entries_getElem? hp, e⟩
    · exact Or.inl hc

theorem CleanHeap.recomputeBlock {P : BV → Prop} {out : BV → V} {h : Heap V T A}
    (hc : CleanHeap P out h) {b : Block V T A} (hs : Stable P [b] out) :
    CleanHeap P out (b.recompute false h) := by
  refine ⟨fun v => by rw [Block.recompute_apply]; exact hc.output v, fun v hv c hk => ?_⟩
  rcases recompute_ckpt hk with e | ⟨i, hi, e⟩
  · exact hc.heap v hv c e
  · obtain ⟨hd, hr⟩ := hs b (by simp) i v hi hv
    have : b.deps.map (Pyadjoint.saved h) = b.deps.map out :=
      List.map_congr_left fun d hd' => hc.saved (hd d hd')
    rw [this] at e
    exact hr c e

theorem CleanHeap.recompute {P : BV → Prop} {out : BV → V} {h : Heap V T A} (hc : CleanHeap P out h)
    {bs : Blocks V T A} (hs : Stable P bs out) : CleanHeap P out (recompute bs h) := by
  unfold Pyadjoint.recompute
  induction bs generalizing h with
  | nil => exact hc
  | cons b bs ih =>
    rw [List.foldl_cons]
    apply ih
    · exact hc.recomputeBlock fun b' hb' => by
        simp only [List.mem_singleton] at hb'
        subst hb'
        exact hs b' (by simp)
    · exact fun b' hb' => hs b' (by simp [hb'])

theorem Clean.cleanHeap {P : BV → Prop} {out : BV → V} {τ : CTape V T A} (h : Clean P out τ) :
    CleanHeap P out τ.heap := ⟨h.output, h.heap⟩

theorem stored_set {P : BV → Prop} {out : BV → V} {l : List (CStep V T A)} {k : Nat} {s' : CStep V T A}
    (h : ∀ s ∈ l, ∀ v, P v → ∀ c, s.ckpt v = some (some c) → c = out v)
    (h' : ∀ v, P v → ∀ c, s'.ckpt v = some (some c) → c = out v) :
    ∀ s ∈ l.set k s', ∀ v, P v → ∀ c, s.ckpt v = some (some c) → c = out v := by
  intro s hs
  rcases List.mem_or_eq_of_mem_set hs with hs | rfl
  · exact h s hs
  · exact h'

theorem checkpoint_clean {P : BV → Prop} {out : BV → V} {s : CStep V T A} {ss sa : Bool}
    {global : List BV} {h : Heap V T A} (hc : CleanHeap P out h)
    (hs : ∀ v, P v → ∀ c, s.ckpt v = some (some c) → c = out v) :
    ∀ v, P v → ∀ c, (s.checkpoint ss sa global h).ckpt v = some (some c) → c = out v := by
  intro v hv c hk
  rw [CStep.checkpoint_ckpt] at hk
  split at hk
  · simp only [Option.some.injEq] at hk
    rw [← hk]; exact hc.saved hv
  · split at hk
    · simp only [Option.some.injEq, CStep.stateValue] at hk
      split at hk
      · exact hc.heap v hv c hk
      · simp only [Option.some.injEq] at hk
        rw [← hk]; exact hc.saved hv
    · exact hs v hv c hk

theorem restore_clean {P : BV → Prop} {out : BV → V} {s : CStep V T A} {h : Heap V T A}
    (hc : CleanHeap P out h) (hs : ∀ v, P v → ∀ c, s.ckpt v = some (some c) → c = out v) :
    CleanHeap P out (s.restore h) := by
  have e : ∀ v, (s.restore h v).ckpt = (h v).ckpt ∨ ∃ c, s.ckpt v = some c ∧ (s.restore h v).ckpt = c := by
    intro v
    unfold CStep.restore
    cases hk : s.ckpt v with
    | none => exact Or.inl rfl
    | some c =>
      simp only [CStep.restoreVar]
      split
      · exact Or.inl rfl
      · exact Or.inr ⟨c, rfl, rfl⟩
  have o : ∀ v, (s.restore h v).output = (h v).output := by
    intro v
    unfold CStep.restore
    cases s.ckpt v with
    | none => rfl
    | some c => simp only [CStep.restoreVar]; split <;> rfl
  refine ⟨fun v => (o v).trans (hc.output v), fun v hv c hk => ?_⟩
  rcases e v with e | ⟨c', h1, h2⟩
  · rw [e] at hk; exact hc.heap v hv c hk
  · rw [h2] at hk
    rw [hk] at h1
    exact hs v hv c h1

theorem restore_frame (s : CStep V T A) (h : Heap V T A) (v : BV) :
    ∃ c, s.restore h v = { h v with ckpt := c } := by
  unfold CStep.restore
  cases s.ckpt v with
  | none => exact ⟨_, rfl⟩
  | some c =>
    simp only [CStep.restoreVar]
    split
    · exact ⟨_, rfl⟩
    · exact ⟨_, rfl⟩

/-- A forward step touches nothing but checkpoints. -/
theorem forwardStep_frame {k : Nat} {first wi wa : Bool} {st : Storage} {keepJ : List BV}
    {τ τ' : CTape V T A} (h : forwardStep k first wi wa st keepJ τ = .ok τ') (v : BV) :
    ∃ c, τ'.heap v = { τ.heap v with ckpt := c } := by
  obtain ⟨s, -, -, -, -, hv⟩ := forwardStep_ok h
  obtain ⟨c, hc⟩ := recompute_frame s.blocks τ.heap v
  rcases hv v with e | ⟨e, -⟩
  · exact ⟨c, by rw [e, hc]⟩
  · exact ⟨none, by rw [e, hc]⟩

theorem forwardStep_shape {k : Nat} {first wi wa : Bool} {st : Storage} {keepJ : List BV}
    {τ τ' : CTape V T A} (h : forwardStep k first wi wa st keepJ τ = .ok τ') : Shape τ τ' := by
  have hf := forwardStep_frame h
  obtain ⟨s, hs, hst, ⟨b, hm⟩, -, hv⟩ := forwardStep_ok h
  refine ⟨?_, by rw [hm], by rw [hm], by rw [hm], by rw [hm], fun v => ?_, fun v => ?_, fun v => ?_⟩
  · rw [hst]
    exact map_static_set hs (by split <;> rfl)
  all_goals (obtain ⟨c, hc⟩ := hf v; rw [hc])

theorem forwardStep_clean {P : BV → Prop} {out : BV → V} {k : Nat} {first wi wa : Bool} {st : Storage}
    {keepJ : List BV} {τ τ' : CTape V T A} (hc : Clean P out τ) (hP : Stable P τ.blocks out)
    (h : forwardStep k first wi wa st keepJ τ = .ok τ') : Clean P out τ' := by
  have hshape := forwardStep_shape h
  obtain ⟨s, hs, hst, -, -, hv⟩ := forwardStep_ok h
  have hb : Stable P s.blocks out := fun b hb => hP b (mem_blocks_of_step hs hb)
  have hr := hc.cleanHeap.recompute hb
  refine ⟨fun v => (hshape.output v).trans (hc.output v), fun v hP' c hk => ?_, ?_⟩
  · rcases hv v with e | ⟨e, -⟩
    · rw [e] at hk; exact hr.heap v hP' c hk
    · rw [e] at hk; cases hk
  · rw [hst]
    apply stored_set hc.stored
    have hs' := hc.stored s (List.mem_of_getElem? hs)
    split
    · exact checkpoint_clean hr hs'
    · exact hs'

theorem reverseStep_shape [Add A] {k : Nat} {clear m : Bool} {τ τ' : CTape V T A}
    (h : reverseStep k clear m τ = .ok τ') : Shape τ τ' := by
  obtain ⟨s, s', hs, hst, hb, hss, hck, -, -, -, hm, -, hv⟩ := reverseStep_ok h
  refine ⟨?_, by rw [hm], by rw [hm], by rw [hm], by rw [hm], fun v => ?_, fun v => ?_, fun v => ?_⟩
  · rw [hst]
    exact map_static_set hs (by unfold static; rw [hb, hss])
  all_goals
    obtain ⟨a, ha⟩ := evaluateAdj_frame s.blocks m τ.heap v
    rw [hv v]
    split
    · unfold resetOut
      simp only [Function.update_self, ha]
      split <;> split <;> rfl
    · rw [ha]

theorem reverseStep_clean [Add A] {P : BV → Prop} {out : BV → V} {k : Nat} {clear m : Bool}
    {τ τ' : CTape V T A} (hc : Clean P out τ) (h : reverseStep k clear m τ = .ok τ') : Clean P out τ' := by
  have hshape := reverseStep_shape h
  obtain ⟨s, s', hs, hst, hb, hss, hck, -, -, -, hm, -, hv⟩ := reverseStep_ok h
  refine ⟨fun v => (hshape.output v).trans (hc.output v), fun v hP' c hk => ?_, ?_⟩
  · obtain ⟨a, ha⟩ := evaluateAdj_frame s.blocks m τ.heap v
    rw [hv v] at hk
    split at hk
    · unfold resetOut at hk
      simp only [Function.update_self, ha] at hk
      split at hk
      · cases hk
      · split at hk <;> exact hc.heap v hP' c hk
    · rw [ha] at hk; exact hc.heap v hP' c hk
  · rw [hst]
    apply stored_set hc.stored
    rw [hck]
    exact hc.stored s (List.mem_of_getElem? hs)

/-- A relation between tapes that contains single forward and reverse steps, restores and changes of mode
contains every action. -/
theorem forwardSteps_ind {R : CTape V T A → CTape V T A → Prop} (hrefl : ∀ τ, R τ τ)
    (htrans : ∀ τ₁ τ₂ τ₃, R τ₁ τ₂ → R τ₂ τ₃ → R τ₁ τ₃) {n0 : Nat} {wi wa : Bool} {st : Storage}
    {keepJ : List BV}
    (hstep : ∀ k τ τ', forwardStep k (decide (k = n0)) wi wa st keepJ τ = .ok τ' → R τ τ')
    {n k : Nat} {τ τ' : CTape V T A} (h : forwardSteps n0 wi wa st keepJ n k τ = .ok τ') : R τ τ' := by
  induction n generalizing k τ with
  | zero => cases h; exact hrefl _
  | succ n ih =>
    unfold forwardSteps at h
    split at h
    · cases h
    · rename_i τ₁ h₁
      exact htrans _ _ _ (hstep _ _ _ h₁) (ih h)

theorem foldlM_ind {α : Type*} {R : CTape V T A → CTape V T A → Prop} (hrefl : ∀ τ, R τ τ)
    (htrans : ∀ τ₁ τ₂ τ₃, R τ₁ τ₂ → R τ₂ τ₃ → R τ₁ τ₃)
    {f : CTape V T A → α → Except CkptError (CTape V T A)} (l : List α)
    (hstep : ∀ τ τ', ∀ a ∈ l, f τ a = .ok τ' → R τ τ') {τ τ' : CTape V T A}
    (h : l.foldlM f τ = .ok τ') : R τ τ' := by
  induction l generalizing τ with
  | nil => cases h; exact hrefl _
  | cons a l ih =>
    rw [List.foldlM_cons] at h
    cases h₁ : f τ a with
    | error e => rw [h₁] at h; cases h
    | ok τ₁ =>
      rw [h₁] at h
      exact htrans _ _ _ (hstep _ _ a (by simp) h₁)
        (ih (fun τ τ' b hb => hstep τ τ' b (by simp [hb])) h)

theorem process_shape [Add A] {m : Bool} {keepJ : List BV} {a : Action} {τ τ' : CTape V T A}
    (h : process m keepJ τ a = .ok τ') : Shape τ τ' := by
  cases a with
  | forward n0 n1 wi wa st =>
    exact forwardSteps_ind Shape.refl (fun _ _ _ => Shape.trans) (fun _ _ _ => forwardStep_shape) h
  | reverse n1 n0 clear =>
    exact foldlM_ind Shape.refl (fun _ _ _ => Shape.trans) _ (fun _ _ _ _ => reverseStep_shape) h
  | copy n src =>
    simp only [process] at h
    split at h
    · cases h
    · cases h
      refine ⟨rfl, rfl, rfl, rfl, rfl, fun v => ?_, fun v => ?_, fun v => ?_⟩ <;>
        (rename_i s hs; obtain ⟨c, hc⟩ := restore_frame s τ.heap v; simp only [hc])
  | move n src =>
    simp only [process] at h
    split at h
    · cases h
    · rename_i s hs
      cases h
      refine ⟨map_static_set hs rfl, rfl, rfl, rfl, rfl, fun v => ?_, fun v => ?_, fun v => ?_⟩ <;>
        (obtain ⟨c, hc⟩ := restore_frame s τ.heap v; simp only [hc])
  | endForward =>
    cases h
    exact ⟨rfl, rfl, rfl, rfl, rfl, fun _ => rfl, fun _ => rfl, fun _ => rfl⟩
  | endReverse =>
    cases h
    exact ⟨rfl, rfl, rfl, rfl, rfl, fun _ => rfl, fun _ => rfl, fun _ => rfl⟩

/-- "Still clean": the relation used to run through actions. -/
def StaysClean (P : BV → Prop) (out : BV → V) (τ τ' : CTape V T A) : Prop :=
  Shape τ τ' ∧ (Stable P τ.blocks out → Clean P out τ → Clean P out τ')

theorem StaysClean.refl (P : BV → Prop) (out : BV → V) (τ : CTape V T A) : StaysClean P out τ τ :=
  ⟨Shape.refl τ, fun _ h => h⟩

theorem StaysClean.trans {P : BV → Prop} {out : BV → V} {τ₁ τ₂ τ₃ : CTape V T A}
    (h : StaysClean P out τ₁ τ₂) (h' : StaysClean P out τ₂ τ₃) : StaysClean P out τ₁ τ₃ :=
  ⟨h.1.trans h'.1, fun hP hc => h'.2 (by rw [h.1.blocks]; exact hP) (h.2 hP hc)⟩

theorem process_clean [Add A] (P : BV → Prop) (out : BV → V) {m : Bool} {keepJ : List BV} {a : Action}
    {τ τ' : CTape V T A} (h : process m keepJ τ a = .ok τ') : StaysClean P out τ τ' := by
  refine ⟨process_shape h, ?_⟩
  cases a with
  | forward n0 n1 wi wa st =>
    exact (forwardSteps_ind (R := StaysClean P out) (StaysClean.refl P out)
      (fun _ _ _ => StaysClean.trans)
      (fun _ _ _ h => ⟨forwardStep_shape h, fun hP hc => forwardStep_clean hc hP h⟩) h).2
  | reverse n1 n0 clear =>
    exact (foldlM_ind (R := StaysClean P out) (StaysClean.refl P out)
      (fun _ _ _ => StaysClean.trans) _
      (fun _ _ _ _ h => ⟨reverseStep_shape h, fun _ hc => reverseStep_clean hc h⟩) h).2
  | copy n src =>
    simp only [process] at h
    split at h
    · cases h
    · rename_i s hs
      cases h
      intro _ hc
      have := restore_clean hc.cleanHeap (hc.stored s (List.mem_of_getElem? hs))
      exact ⟨this.output, this.heap, hc.stored⟩
  | move n src =>
    simp only [process] at h
    split at h
    · cases h
    · rename_i s hs
      cases h
      intro _ hc
      have := restore_clean hc.cleanHeap (hc.stored s (List.mem_of_getElem? hs))
      refine ⟨this.output, this.heap, ?_⟩
      apply stored_set hc.stored
      intro v _ c hk
      cases hk
  | endForward => cases h; exact fun _ hc => ⟨hc.output, hc.heap, hc.stored⟩
  | endReverse => cases h; exact fun _ hc => ⟨hc.output, hc.heap, hc.stored⟩

theorem perform_clean [Add A] (P : BV → Prop) (out : BV → V) {m : Bool} {keepJ : List BV} {a : Action}
    {τ τ' : CTape V T A} (h : perform m keepJ τ a = .ok τ') : StaysClean P out τ τ' := by
  have h0 : StaysClean P out τ { τ with mgr := { τ.mgr with current := a } } :=
    ⟨⟨rfl, rfl, rfl, rfl, rfl, fun _ => rfl, fun _ => rfl, fun _ => rfl⟩,
      fun _ hc => ⟨hc.output, hc.heap, hc.stored⟩⟩
  unfold perform at h
  exact h0.trans (process_clean P out h)

theorem firstReverse_clean [Add A] (P : BV → Prop) (out : BV → V) {m : Bool} {acts : List Action}
    {τ τ' : CTape V T A} (h : firstReverse m acts τ = .ok τ') : StaysClean P out τ τ' := by
  have base : ∀ (τ : CTape V T A) (acts rev : List Action), StaysClean P out τ
      { τ with mgr := { τ.mgr with acts := acts, rev := rev } } := fun τ acts rev =>
    ⟨⟨rfl, rfl, rfl, rfl, rfl, fun _ => rfl, fun _ => rfl, fun _ => rfl⟩,
      fun _ hc => ⟨hc.output, hc.heap, hc.stored⟩⟩
  induction acts generalizing τ with
  | nil =>
    unfold firstReverse at h
    split at h
    · cases h; exact base τ _ _
    · cases h
  | cons a acts ih =>
    unfold firstReverse at h
    split at h
    · cases h; exact base τ _ _
    · simp only at h
      split at h
      · cases h
      · rename_i τ₁ h₁
        exact (base τ τ.mgr.acts (τ.mgr.rev ++ [a])).trans ((perform_clean P out h₁).trans (ih h))

theorem reverseSweep_clean [Add A] (P : BV → Prop) (out : BV → V) {m : Bool} {τ τ' : CTape V T A}
    (h : reverseSweep m τ = .ok τ') : StaysClean P out τ τ' := by
  unfold reverseSweep at h
  split at h
  · exact foldlM_ind (R := StaysClean P out) (StaysClean.refl P out) (fun _ _ _ => StaysClean.trans) _
      (fun _ _ _ _ h => process_clean P out h) h
  · exact firstReverse_clean P out h

theorem forwardSweep_clean [Add A] (P : BV → Prop) (out : BV → V) {keepJ : List BV}
    {τ τ' : CTape V T A} (h : forwardSweep keepJ τ = .ok τ') : StaysClean P out τ τ' := by
  unfold forwardSweep at h
  split at h
  · split at h
    · cases h
    · rename_i s hs
      have h1 := foldlM_ind (R := StaysClean P out) (StaysClean.refl P out)
        (fun _ _ _ => StaysClean.trans) _ (fun _ _ _ _ h => perform_clean P out h) h
      refine StaysClean.trans (τ₂ := { τ with heap := s.restore τ.heap })
        ⟨⟨rfl, rfl, rfl, rfl, rfl, fun v => ?_, fun v => ?_, fun v => ?_⟩, ?_⟩ h1
      iterate 3 (obtain ⟨c, hc⟩ := restore_frame s τ.heap v; simp only [hc])
      intro _ hc
      have := restore_clean hc.cleanHeap (hc.stored s (List.mem_of_getElem? hs))
      exact ⟨this.output, this.heap, hc.stored⟩
  · cases h

end CTape
end Pyadjoint
