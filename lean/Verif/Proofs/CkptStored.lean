import Verif.Proofs.CkptOptimise
import Verif.Props.CheckpointStorage

/-! # Schedules that store what the adjoint of every step needs: invariants -/

namespace Pyadjoint

variable {V T A : Type*}

/-- A forward action stores the data the adjoints of its steps need, on disk or in memory. -/
def Action.stores : Action → Prop
  | .forward _ _ _ wa st => wa = true ∧ st ≠ .work
  | _ => True

/-- Actions that reverse the steps `n - 1`, …, `0`, each after its stored data were loaded. -/
inductive StoredReverse : Nat → List Action → Prop
  | done : StoredReverse 0 [.endReverse]
  | copy (n : Nat) (src : Storage) (clear : Bool) (as : List Action) (h : StoredReverse n as) :
      StoredReverse (n + 1) (.copy n src :: .reverse (n + 1) n clear :: as)
  | move (n : Nat) (src : Storage) (clear : Bool) (as : List Action) (h : StoredReverse n as) :
      StoredReverse (n + 1) (.move n src :: .reverse (n + 1) n clear :: as)

/-- The actions after the first `EndForward`. -/
def afterEndForward : List Action → List Action
  | [] => []
  | a :: as => if a = .endForward then as else afterEndForward as

namespace CTape

/-- The schedule stores the data for the adjoint of every step, and loads them before it reverses the step.  (As
`SingleDiskStorageSchedule`.) -/
structure Schedule.StoresAll (sch : Schedule) : Prop where
  acts : ∀ a ∈ sch.acts, a.stores
  after : ∀ N, ∀ a ∈ sch.afterFinal N, a.stores
  reverse : ∀ N, 0 < N → (sch.maxN = 0 ∨ N = sch.maxN) →
    StoredReverse N (untilEndReverse (afterEndForward (if sch.maxN = 0 then sch.afterFinal N else sch.acts)))

theorem afterEndForward_exact {n N : Nat} {fwd acts : List Action} (h : Exact n N fwd) : afterEndForward (fwd ++ acts) = acts := by
  induction h with
  | done => rfl
  | step _ _ _ _ _ _ _ _ _ _ ih => exact ih
  | last _ _ _ _ _ _ _ _ ih => exact ih

theorem afterEndForward_forwards (pre : List Action) {l : List Action} (h : ∀ a ∈ pre, ∃ wi wa st, a = Action.forward 0 none wi wa st) :
    afterEndForward (pre ++ l) = afterEndForward l := by
  induction pre with
  | nil => rfl
  | cons a pre ih =>
    obtain ⟨wi, wa, st, rfl⟩ := h a (by simp)
    exact ih fun a ha => h a (by simp [ha])

theorem StoredReverse.no_endReverse {n : Nat} {l : List Action} (h : StoredReverse n l) : l ≠ [] := by
  cases h <;> exact List.cons_ne_nil _ _

/-! ### Recording -/

/-- The variable is used in the step. -/
def Used (c : BV) (s : CStep V T A) : Prop := ∃ b ∈ s.blocks, c ∈ b.deps

/-- If the variable is used in each of the first `n` steps then it is a global dependency. -/
def GlobalIn (c : BV) (n : Nat) (τ : CTape V T A) : Prop :=
  (∀ (k : Nat) s, k < n → τ.steps[k]? = some s → Used c s) → 0 < n → c ∈ τ.mgr.globalDeps

/-- Where it is used, the variable is in the checkpointable state. -/
def InState (c : BV) (τ : CTape V T A) : Prop := ∀ (k : Nat) s, τ.steps[k]? = some s → Used c s → c ∈ s.state.elems

/-- The parts of a step that the end of a time step leaves alone. -/
def frozen (s : CStep V T A) : Blocks V T A × OSet BV × OSet BV × Bool := (s.blocks, s.state, s.adjDeps, s.revised)

/-- Steps stay, up to stored data, and empty ones may follow. -/
def Grown (τ τ' : CTape V T A) : Prop :=
  ∃ m, τ'.steps.map frozen = τ.steps.map frozen ++ List.replicate m ([], ⟨[]⟩, ⟨[]⟩, false)

theorem Grown.refl (τ : CTape V T A) : Grown τ τ := ⟨0, by simp⟩

theorem Grown.trans {τ₁ τ₂ τ₃ : CTape V T A} (h : Grown τ₁ τ₂) (h' : Grown τ₂ τ₃) : Grown τ₁ τ₃ := by
  obtain ⟨m, e⟩ := h
  obtain ⟨m', e'⟩ := h'
  exact ⟨m + m', by rw [e', e, List.append_assoc, List.replicate_append_replicate]⟩

theorem Grown.of_steps {τ τ' : CTape V T A} (h : τ'.steps = τ.steps) : Grown τ τ' := ⟨0, by simp [h]⟩

theorem Grown.getElem? {τ τ' : CTape V T A} (h : Grown τ τ') {k : Nat} {s' : CStep V T A} (hs : τ'.steps[k]? = some s') :
    (∃ s, τ.steps[k]? = some s ∧ frozen s' = frozen s) ∨ (τ.steps.length ≤ k ∧ frozen s' = ([], ⟨[]⟩, ⟨[]⟩, false)) := by
  obtain ⟨m, e⟩ := h
  have := congrArg (·[k]?) e
  simp only [List.getElem?_map, hs, Option.map_some] at this
  by_cases hk : k < τ.steps.length
  · rw [List.getElem?_append_left (by simpa using hk), List.getElem?_map, List.getElem?_eq_getElem hk] at this
    simp only [Option.map_some, Option.some.injEq] at this
    exact Or.inl ⟨_, List.getElem?_eq_getElem hk, this⟩
  · rw [List.getElem?_append_right (by simpa using hk), List.getElem?_replicate] at this
    split at this
    · simp only [Option.some.injEq] at this
      exact Or.inr ⟨by omega, this⟩
    · cases this

theorem frozen_blocks {s s' : CStep V T A} (h : frozen s' = frozen s) :
    s'.blocks = s.blocks ∧ s'.state = s.state ∧ s'.adjDeps = s.adjDeps ∧ s'.revised = s.revised := by
  unfold frozen at h
  simp only [Prod.mk.injEq] at h
  exact h

theorem Grown.getElem?' {τ τ' : CTape V T A} (h : Grown τ τ') {k : Nat} {s : CStep V T A} (hs : τ.steps[k]? = some s) :
    ∃ s', τ'.steps[k]? = some s' ∧ frozen s' = frozen s := by
  obtain ⟨m, e⟩ := h
  have hk := lt_length hs
  have := congrArg (·[k]?) e
  simp only [List.getElem?_map] at this
  rw [List.getElem?_append_left (by simpa using hk), List.getElem?_map, hs] at this
  obtain ⟨s', h1, h2⟩ := Option.map_eq_some_iff.1 this
  exact ⟨s', h1, h2⟩

theorem Grown.inState {τ τ' : CTape V T A} (h : Grown τ τ') {c : BV} (hi : InState c τ) : InState c τ' := by
  rintro k s' hs ⟨b, hb, hc⟩
  rcases h.getElem? hs with ⟨s, h1, h2⟩ | ⟨-, h2⟩
  · obtain ⟨e1, e2, -⟩ := frozen_blocks h2
    rw [e2]
    exact hi k s h1 ⟨b, by rw [← e1]; exact hb, hc⟩
  · have : s'.blocks = [] := congrArg (·.1) h2
    rw [this] at hb
    cases hb

theorem GlobalIn.grown {τ τ' : CTape V T A} (h : Grown τ τ') {c : BV} {n : Nat} (hg : GlobalIn c n τ)
    (he : τ'.mgr.globalDeps = τ.mgr.globalDeps) : GlobalIn c n τ' := by
  intro hu h0
  rw [he]
  refine hg (fun k s hk hs => ?_) h0
  obtain ⟨s', h1, h2⟩ := h.getElem?' hs
  obtain ⟨b, hb, hc⟩ := hu k s' hk h1
  exact ⟨b, by rw [← (frozen_blocks h2).1]; exact hb, hc⟩

theorem storeEnded_stored {t : Nat} {ss sa : Bool} {τ τ' : CTape V T A} (h : storeEnded t ss sa τ = .ok τ') (ht : 0 < t) :
    Grown τ τ' ∧ ∀ c, InState c τ → (GlobalIn c t τ ∨ GlobalIn c (t - 1) τ) → GlobalIn c t τ' := by
  unfold storeEnded at h
  split at h
  · cases h
  · rename_i s hs
    simp only [Except.ok.injEq] at h
    have hgr : Grown τ τ' := by
      refine ⟨0, ?_⟩
      rw [← h]
      simp only [List.replicate_zero, List.append_nil]
      rw [List.map_set]
      apply List.ext_getElem?
      intro i
      rw [List.getElem?_set]
      split
      · rename_i hi
        subst hi
        rw [if_pos (by simpa using lt_length hs), List.getElem?_map, hs]
        rfl
      · rfl
    refine ⟨hgr, fun c hi hg => ?_⟩
    intro hu h0
    have hu' : ∀ (k : Nat) s, k < t → τ.steps[k]? = some s → Used c s := by
      intro k s hk hs
      obtain ⟨s', h1, h2⟩ := hgr.getElem?' hs
      obtain ⟨b, hb, hc⟩ := hu k s' hk h1
      exact ⟨b, by rw [← (frozen_blocks h2).1]; exact hb, hc⟩
    have hcs : c ∈ s.state.elems := hi (t - 1) s hs (hu' (t - 1) s (by omega) hs)
    rw [← h]
    dsimp only
    by_cases h1 : t = 1
    · rw [if_pos h1]
      exact List.mem_append_right _ hcs
    · rw [if_neg h1]
      refine List.mem_filter.2 ⟨?_, by simpa using hcs⟩
      rcases hg with hg | hg
      · exact hg hu' h0
      · exact hg (fun k s hk => hu' k s (by omega)) (by omega)

theorem tapingForward_stored {n0 : Nat} {n1 : Option Nat} {wi wa : Bool} {st : Storage} {t : Nat} {τ τ' : CTape V T A} {d : Bool}
    (h : tapingForward n0 n1 wi wa st t τ = .ok (d, τ')) (hst : st ≠ .work) :
    Grown τ τ' ∧ ∀ c, InState c τ → (GlobalIn c t τ ∨ (GlobalIn c (t - 1) τ ∧ n0 < t)) → GlobalIn c t τ' := by
  unfold tapingForward at h
  split at h
  · cases h
  · rename_i hn
    dsimp only at h
    generalize hr : (if n0 < t ∧ st ≠ .work then
      storeEnded t (wi && decide (t = n0 + 1)) wa { τ with eager := wa }
      else .ok { τ with eager := wa }) = r at h
    cases r with
    | error e => cases h
    | ok τ₁ =>
      have h1 : Grown τ τ₁ ∧ ∀ c, InState c τ → (GlobalIn c t τ ∨ (GlobalIn c (t - 1) τ ∧ n0 < t)) → GlobalIn c t τ₁ := by
        by_cases hc : n0 < t ∧ st ≠ .work
        · rw [if_pos hc] at hr
          obtain ⟨g1, g2⟩ := storeEnded_stored (τ := { τ with eager := wa }) hr (by omega)
          exact ⟨g1, fun c hi hg => g2 c hi (hg.imp_right And.left)⟩
        · rw [if_neg hc] at hr
          cases hr
          refine ⟨.of_steps rfl, fun c hi hg => ?_⟩
          rcases hg with hg | ⟨-, hg⟩
          · exact hg
          · exact absurd ⟨hg, hst⟩ hc
      dsimp only at h
      split at h
      · cases h
      · split at h
        · cases h
          have hgr : Grown τ₁ τ₁.appendStep := ⟨1, by unfold appendStep; simp [frozen]⟩
          exact ⟨h1.1.trans hgr, fun c hi hg => (h1.2 c hi hg).grown hgr rfl⟩
        · cases h; exact h1

theorem endTimestepLoop_stored {t : Nat} {acts : List Action} {τ τ' : CTape V T A} (h : endTimestepLoop t acts τ = .ok τ')
    (hst : ∀ a ∈ τ.mgr.current :: acts, a.stores) :
    Grown τ τ' ∧ (∀ c, InState c τ → (GlobalIn c t τ ∨ (GlobalIn c (t - 1) τ ∧ τ.mgr.current ≠ .endForward ∧
        ∀ n0 n1 wi wa st, τ.mgr.current = .forward n0 n1 wi wa st → n0 < t)) → GlobalIn c t τ') ∧
      ∀ n0 n1 wi wa st, τ'.mgr.current = .forward n0 n1 wi wa st → n0 ≤ t := by
  have one : ∀ {τ τ₁ : CTape V T A} {d : Bool}, processTaping τ.mgr.current t τ = .ok (d, τ₁) → τ.mgr.current.stores →
      Grown τ τ₁ ∧ (∀ c, InState c τ → (GlobalIn c t τ ∨ (GlobalIn c (t - 1) τ ∧ τ.mgr.current ≠ .endForward ∧
        ∀ n0 n1 wi wa st, τ.mgr.current = .forward n0 n1 wi wa st → n0 < t)) → GlobalIn c t τ₁) ∧
      ∀ n0 n1 wi wa st, τ.mgr.current = .forward n0 n1 wi wa st → n0 ≤ t := by
    intro τ τ₁ d h hs
    generalize τ.mgr.current = a at h hs
    cases a with
    | forward n0 n1 wi wa st =>
      obtain ⟨g1, g2⟩ := tapingForward_stored h hs.2
      refine ⟨g1, fun c hi hg => g2 c hi (hg.imp_right fun hg => ⟨hg.1, hg.2.2 n0 n1 wi wa st rfl⟩), ?_⟩
      rintro _ _ _ _ _ ⟨⟩
      exact (tapingForward_ok h).1
    | endForward =>
      simp only [processTaping] at h
      split at h
      · cases h
      · cases h
        refine ⟨.of_steps rfl, fun c hi hg => ?_, by rintro _ _ _ _ _ ⟨⟩⟩
        rcases hg with hg | hg
        · exact hg
        · exact absurd rfl hg.2.1
    | reverse _ _ _ => cases h
    | copy _ _ => cases h
    | move _ _ => cases h
    | endReverse => cases h
  induction acts generalizing τ with
  | nil =>
    unfold endTimestepLoop at h
    split at h
    · cases h
    · rename_i τ₁ h₁
      cases h
      obtain ⟨g1, g2, g3⟩ := one h₁ (hst _ (by simp))
      exact ⟨g1, g2, by rw [(processTaping_ok h₁).1.current]; exact g3⟩
    · cases h
  | cons a acts ih =>
    unfold endTimestepLoop at h
    split at h
    · cases h
    · rename_i τ₁ h₁
      cases h
      obtain ⟨g1, g2, g3⟩ := one h₁ (hst _ (by simp))
      exact ⟨g1, g2, by rw [(processTaping_ok h₁).1.current]; exact g3⟩
    · rename_i τ₁ h₁
      obtain ⟨g1, g2, -⟩ := one h₁ (hst _ (by simp))
      obtain ⟨i1, i2, i3⟩ := ih h (fun x hx => hst x (List.mem_cons_of_mem _ hx))
      have hgr : Grown τ τ' := g1.trans i1
      exact ⟨hgr, fun c hi hg => i2 c (g1.inState hi) (Or.inl (g2 c hi hg)), i3⟩

/-- What recording establishes. -/
structure Rec (c : BV) (τ : CTape V T A) : Prop where
  outs : ∀ (k : Nat) s, τ.steps[k]? = some s → ∀ v ∈ s.outs, v ∈ s.adjDeps.elems
  fresh : ∀ (k : Nat) s, τ.steps[k]? = some s → s.revised = false
  ended : GlobalIn c (if τ.mgr.mode = .record then τ.steps.length - 1 else τ.steps.length) τ
  current : τ.mgr.mode = .record → ∀ n0 n1 wi wa st, τ.mgr.current = .forward n0 n1 wi wa st → n0 < τ.steps.length

theorem LInv.inState {τ : CTape V T A} (h : LInv τ) {c : BV} (hc : ∀ b ∈ τ.blocks, c ∉ b.outs) : InState c τ := by
  rintro k s hs ⟨b, hb, hcb⟩
  obtain ⟨pre, post, e⟩ := List.append_of_mem hb
  rw [h.state k s hs]
  refine ⟨?_, (h.deps k s hs pre b post e c hcb).1⟩
  have : ¬ 0 ≤ (τ.heap c).creation := fun h0 => by
    obtain ⟨k, s, h1, -, h2⟩ := h.created c h0
    obtain ⟨b, h3, h4⟩ := CStep.mem_outs.1 h2
    exact hc b (mem_blocks.2 ⟨k, s, h1, h3⟩) h4
  omega

/-- The end of a time step. -/
theorem Rec.mgrEndTimestep {c : BV} {τ τ' : CTape V T A} (h : Rec c τ) (hi : InState c τ)
    (hst : ∀ a ∈ τ.mgr.current :: τ.mgr.acts, a.stores) (hcur : τ.mgr.mode = .record → τ.mgr.current ≠ .endForward)
    (he : mgrEndTimestep τ.steps.length τ = .ok τ') : Rec c τ' ∧ InState c τ' ∧ Grown τ τ' := by
  obtain ⟨hm, hloop⟩ := mgrEndTimestep_ok he
  obtain ⟨g1, g2, g3⟩ := endTimestepLoop_stored hloop hst
  obtain ⟨-, -, -, -, -, -, -, -, hx⟩ := endTimestepLoop_ok hloop
  have hglob : GlobalIn c τ.steps.length τ' := by
    refine g2 c hi (Or.inr ⟨?_, hcur hm, h.current hm⟩)
    have := h.ended
    rw [if_pos hm] at this
    exact this
  refine ⟨⟨fun k s' hs v hv => ?_, fun k s' hs => ?_, ?_, fun hm' n0 n1 wi wa st e => ?_⟩, g1.inState hi, g1⟩
  · rcases g1.getElem? hs with ⟨s, h1, h2⟩ | ⟨-, h2⟩
    · obtain ⟨e1, -, e2, -⟩ := frozen_blocks h2
      rw [e2]
      refine h.outs k s h1 v ?_
      rw [CStep.mem_outs] at hv ⊢
      rw [← e1]
      exact hv
    · rw [CStep.mem_outs, show s'.blocks = [] from congrArg (·.1) h2] at hv
      obtain ⟨b, hb, -⟩ := hv
      cases hb
  · rcases g1.getElem? hs with ⟨s, h1, h2⟩ | ⟨-, h2⟩
    · rw [(frozen_blocks h2).2.2.2]
      exact h.fresh k s h1
    · exact congrArg (·.2.2.2) h2
  · rcases hx with ⟨-, h2, -, h3⟩ | ⟨-, h2, -, h3⟩
    · rw [if_neg (by rw [h2]; exact Mode.noConfusion), h3]
      exact hglob
    · rw [if_pos (h2.trans hm), h3]
      exact hglob
  · rcases hx with ⟨-, h2, -, h3⟩ | ⟨-, h2, -, h3⟩
    · rw [h2] at hm'; cases hm'
    · have := g3 n0 n1 wi wa st e
      omega

theorem outputs_adjDeps (vs : List BV) (τ : CTape V T A) {k : Nat} {s' : CStep V T A}
    (hs : (vs.foldl (fun τ v => τ.output v) τ).steps[k]? = some s') :
    ∃ s, τ.steps[k]? = some s ∧ s'.blocks = s.blocks ∧ s'.revised = s.revised ∧ (∀ v ∈ s.adjDeps.elems, v ∈ s'.adjDeps.elems) ∧
      (k = τ.latest → ∀ v ∈ vs, v ∈ s'.adjDeps.elems) := by
  induction vs generalizing τ with
  | nil => exact ⟨s', hs, rfl, rfl, fun _ h => h, fun _ v hv => by cases hv⟩
  | cons w vs ih =>
    obtain ⟨s₁, h1, h2, h3, h4, h5⟩ := ih (τ.output w) hs
    have hlat : (τ.output w).latest = τ.latest := by
      unfold latest output
      simp only [List.length_append, List.length_take, List.length_map, List.length_drop]
      omega
    unfold output at h1
    dsimp only at h1
    rw [getElem?_take_map_drop] at h1
    split at h1
    · rename_i hk
      exact ⟨s₁, h1, h2, h3, h4, fun e => absurd e (by omega)⟩
    · obtain ⟨s, e1, e2⟩ := Option.map_eq_some_iff.1 h1
      subst e2
      refine ⟨s, e1, h2, h3, fun v hv => h4 v ?_, fun e v hv => ?_⟩
      · rw [OSet_mem_add]; exact Or.inl hv
      · rcases List.mem_cons.1 hv with rfl | hv
        · apply h4
          rw [OSet_mem_add]; exact Or.inr rfl
        · exact h5 (by rw [hlat]; exact e) v hv

theorem depends_adjDeps (vs : List BV) (τ : CTape V T A) {k : Nat} {s' : CStep V T A}
    (hs : (vs.foldl (fun τ v => τ.depend v) τ).steps[k]? = some s') :
    ∃ s, τ.steps[k]? = some s ∧ s'.blocks = s.blocks ∧ s'.revised = s.revised ∧ s'.adjDeps = s.adjDeps := by
  induction vs generalizing τ with
  | nil => exact ⟨s', hs, rfl, rfl, rfl⟩
  | cons w vs ih =>
    obtain ⟨s₁, h1, h2, h3, h4⟩ := ih (τ.depend w) hs
    unfold depend at h1
    dsimp only at h1
    rw [getElem?_take_map_drop] at h1
    split at h1
    · exact ⟨s₁, h1, h2, h3, h4⟩
    · obtain ⟨s, e1, e2⟩ := Option.map_eq_some_iff.1 h1
      subst e2
      exact ⟨s, e1, h2, h3, h4⟩

theorem depends_length (vs : List BV) (τ : CTape V T A) :
    (vs.foldl (fun τ v => τ.depend v) τ).steps.length = τ.steps.length := by
  induction vs generalizing τ with
  | nil => rfl
  | cons w vs ih =>
    rw [List.foldl_cons, ih]
    unfold depend
    simp only [List.length_append, List.length_take, List.length_map, List.length_drop]
    omega

theorem Rec.recordBlock {c : BV} {τ : CTape V T A} (h : Rec c τ) (b : Block V T A) (hpos : 0 < τ.steps.length)
    (hm : τ.mgr.mode = .record) : Rec c (τ.recordBlock b) := by
  obtain ⟨hm', hl, -⟩ := recordBlock_frame b τ
  have key : ∀ (k : Nat) s', (τ.recordBlock b).steps[k]? = some s' → ∃ s, τ.steps[k]? = some s ∧
      s'.blocks = (if k = τ.latest then s.blocks ++ [b] else s.blocks) ∧ s'.revised = s.revised ∧
      (∀ v ∈ s.adjDeps.elems, v ∈ s'.adjDeps.elems) ∧ (k = τ.latest → ∀ v ∈ b.outs, v ∈ s'.adjDeps.elems) := by
    intro k s' hs
    unfold CTape.recordBlock at hs
    dsimp only at hs
    obtain ⟨s₁, h1, h2, h3, h4, h5⟩ := outputs_adjDeps _ _ hs
    have hlen := depends_length b.deps τ
    generalize hτ₁ : b.deps.foldl (fun τ v => τ.depend v) τ = τ₁ at h1 h5 hlen
    have hlat1 : τ₁.latest = τ.latest := by unfold latest; rw [hlen]
    have hlat : (τ₁.addBlock b).latest = τ.latest := by
      rw [← hlat1]
      unfold latest addBlock modStep
      simp
    unfold addBlock modStep at h1
    dsimp only at h1
    rw [List.getElem?_modify] at h1
    obtain ⟨s₂, e1, e2⟩ := Option.map_eq_some_iff.1 h1
    rw [← hτ₁] at e1
    obtain ⟨s, g1, g2, g3, g4⟩ := depends_adjDeps _ _ e1
    refine ⟨s, g1, ?_, ?_, fun v hv => h4 v ?_, fun e => h5 (by rw [hlat]; exact e)⟩
    · rw [h2, ← e2, hlat1]
      by_cases hk : τ.latest = k
      · rw [if_pos hk, if_pos hk.symm, g2]
      · rw [if_neg hk, if_neg (Ne.symm hk), g2]
    · rw [h3, ← e2]
      split <;> exact g3
    · rw [← e2]
      split <;> rw [g4] <;> exact hv
  refine ⟨fun k s' hs v hv => ?_, fun k s' hs => ?_, ?_, fun _ => by rw [hm', hl]; exact h.current hm⟩
  · obtain ⟨s, h1, h2, -, h4, h5⟩ := key k s' hs
    rw [CStep.mem_outs] at hv
    obtain ⟨b', hb', hv⟩ := hv
    rw [h2] at hb'
    have old : b' ∈ s.blocks → v ∈ s'.adjDeps.elems := fun hb' =>
      h4 v (h.outs k s h1 v (CStep.mem_outs.2 ⟨b', hb', hv⟩))
    split at hb'
    · rename_i hk
      rcases List.mem_append.1 hb' with hb' | hb'
      · exact old hb'
      · rw [List.mem_singleton.1 hb'] at hv
        exact h5 hk v hv
    · exact old hb'
  · obtain ⟨s, h1, -, h3, -⟩ := key k s' hs
    rw [h3]
    exact h.fresh k s h1
  · have hg := h.ended
    rw [if_pos hm] at hg
    rw [hm', hl, if_pos hm]
    intro hu h0
    rw [hm']
    refine hg (fun k s hk hs => ?_) h0
    have hk' : k < (τ.recordBlock b).steps.length := by rw [hl]; omega
    obtain ⟨s₀, h1, h2, -⟩ := key k _ (List.getElem?_eq_getElem hk')
    rw [hs] at h1
    cases h1
    obtain ⟨b', hb', hc⟩ := hu k _ hk (List.getElem?_eq_getElem hk')
    rw [h2, if_neg (by unfold latest; omega)] at hb'
    exact ⟨b', hb', hc⟩

theorem Rec.enable {sch : Schedule} {gc : Option Int} {pk : Bool} {h : Heap V T A} {eager : Bool} {τ : CTape V T A}
    (he : enable sch gc pk h [] eager = .ok τ) (hst : ∀ a ∈ sch.acts, a.stores) (c : BV) : Rec c τ := by
  obtain ⟨-, t2, t3, -⟩ := track_enable he
  unfold CTape.enable at he
  split at he
  · cases he
  · split at he
    · cases he
    · split at he
      · cases he
      · rename_i a acts hs
        obtain ⟨hm, hloop⟩ := mgrEndTimestep_ok he
        obtain ⟨g1, -, g3⟩ := endTimestepLoop_stored hloop (by rw [hs] at hst; exact hst)
        have hstep : ∀ (k : Nat) s, τ.steps[k]? = some s → frozen s = ([], ⟨[]⟩, ⟨[]⟩, false) := by
          intro k s hs
          rcases g1.getElem? hs with ⟨s₀, h1, -⟩ | ⟨-, h2⟩
          · simp at h1
          · exact h2
        refine ⟨fun k s hs v hv => ?_, fun k s hs => ?_, ?_, fun _ n0 n1 wi wa st e => ?_⟩
        · rw [CStep.mem_outs, show s.blocks = [] from congrArg (·.1) (hstep k s hs)] at hv
          obtain ⟨b, hb, -⟩ := hv
          cases hb
        · exact congrArg (·.2.2.2) (hstep k s hs)
        · rw [if_pos t2, t3]
          exact fun _ h0 => absurd h0 (Nat.lt_irrefl 0)
        · have := g3 n0 n1 wi wa st e
          omega

/-- The actions still to be used while recording. -/
theorem Track.stores {sch : List Action} {N : Option Nat} {τ : CTape V T A} (h : Track sch N τ) (hst : ∀ a ∈ sch, a.stores) :
    ∀ a ∈ τ.mgr.current :: τ.mgr.acts, a.stores := by
  intro a ha
  refine hst a ?_
  rw [← h.sched, List.mem_append]
  rcases List.mem_cons.1 ha with rfl | ha
  · exact Or.inl (List.mem_of_getLast? h.last)
  · exact Or.inr ha

theorem Rec.recording {P : BV → Prop} {out : BV → V} {sch : Schedule} (hst : ∀ a ∈ sch.acts, a.stores) {c : BV}
    (es : List (Event V T A)) {bs : Blocks V T A} {τ τ' : CTape V T A} (h : Rec c τ) (ht : Taped P out sch bs τ)
    (wf : WF (bs ++ Event.blocks es)) (hc : ∀ b ∈ bs ++ Event.blocks es, c ∉ b.outs) (hr : recording es τ = .ok τ')
    (hm : τ'.mgr.mode = .record) : Rec c τ' ∧ τ.mgr.mode = .record := by
  induction es generalizing bs τ with
  | nil =>
    simp only [CTape.recording, List.foldlM_nil] at hr
    cases hr
    exact ⟨h, hm⟩
  | cons e es ih =>
    rw [recording_cons] at hr
    cases e with
    | block b =>
      have e1 : bs ++ Event.blocks (.block b :: es) = (bs ++ [b]) ++ Event.blocks es := by
        simp [Event.blocks]
      rw [e1] at wf hc
      have hmode : (τ.recordBlock b).mgr.mode = .record → τ.mgr.mode = .record := by
        rw [(recordBlock_frame b τ).1]; exact id
      have ht' := ht.recordBlock b (WF.prefix' wf)
      by_cases hmb : τ.mgr.mode = .record
      · exact ⟨(ih (h.recordBlock b ht.inv.pos hmb) ht' wf hc hr).1, hmb⟩
      · -- recording after the last step leaves the mode alone
        exfalso
        have key : ∀ (es : List (Event V T A)) (τ : CTape V T A), τ.mgr.mode = .evaluated → CTape.recording es τ = .ok τ' →
            τ'.mgr.mode ≠ .record := by
          intro es
          induction es with
          | nil =>
            intro τ h1 h2
            simp only [CTape.recording, List.foldlM_nil] at h2
            cases h2
            rw [h1]; exact Mode.noConfusion
          | cons e es ih =>
            intro τ h1 h2
            rw [recording_cons] at h2
            cases e with
            | block b =>
              refine ih (τ.recordBlock b) ?_ h2
              rw [(recordBlock_frame b τ).1]; exact h1
            | endTimestep =>
              simp only [event] at h2
              split at h2
              · cases h2
              · rename_i τ₂ h3
                have := (mgrEndTimestep_ok h3).1
                rw [h1] at this
                cases this
        refine key es (τ.recordBlock b) ?_ hr hm
        rw [(recordBlock_frame b τ).1]
        exact ht.track.mode.resolve_left hmb
    | endTimestep =>
      have e1 : Event.blocks (.endTimestep :: es : List (Event V T A)) = Event.blocks es := by
        simp [Event.blocks]
      rw [e1] at wf hc
      simp only [event] at hr
      split at hr
      · cases hr
      · rename_i τ₁ h₁
        have hl : τ.latest + 1 = τ.steps.length := by
          have := ht.inv.pos
          unfold latest
          omega
        have hmr := (mgrEndTimestep_ok h₁).1
        have ht₁ := ht.endTimestep hl h₁
        unfold endTimestep at h₁
        rw [hl] at h₁
        have hr₁ := (h.mgrEndTimestep (ht.inv.inState fun b hb => hc b (List.mem_append_left _ (by rw [← ht.blocks]; exact hb)))
          (ht.track.stores hst) (fun hm e => by rw [ht.track.finished.2 e] at hm; cases hm) h₁).1
        exact ⟨(ih hr₁ ht₁ wf hc hr).1, hmr⟩

theorem Event.blocks_ended (es : List (Event V T A)) : Event.blocks (es ++ [.endTimestep]) = Event.blocks es := by
  induction es with
  | nil => rfl
  | cons e es ih => cases e <;> simp [Event.blocks, ih]

theorem recording_ended (es : List (Event V T A)) {τ τ' : CTape V T A} (h : recording (es ++ [.endTimestep]) τ = .ok τ') :
    ∃ τ₁, recording es τ = .ok τ₁ ∧ τ₁.endTimestep = .ok τ' := by
  induction es generalizing τ with
  | nil =>
    refine ⟨τ, rfl, ?_⟩
    rw [List.nil_append, recording_cons] at h
    simp only [event] at h
    split at h
    · cases h
    · rename_i h1
      rw [h1]
      exact h
  | cons e es ih =>
    rw [List.cons_append, recording_cons] at h
    split at h
    · cases h
    · rename_i τ₁ h1
      obtain ⟨τ₂, h2, h3⟩ := ih h
      refine ⟨τ₂, ?_, h3⟩
      rw [recording_cons, h1]
      exact h2

/-- A recorded tape: taping was not continued after the last time step had ended. -/
theorem Recorded.recd {sch : Schedule} {h : Heap V T A} {es : List (Event V T A)} {τ : CTape V T A} (hr : Recorded sch h es τ)
    (hst : ∀ a ∈ sch.acts, a.stores) (hend : τ.mgr.mode = .record ∨ ∃ es', es = es' ++ [.endTimestep]) {c : BV}
    (hc : ∀ b ∈ Event.blocks es, c ∉ b.outs) : Rec c τ := by
  obtain ⟨gc, pk, eager, τ₀, hgc, h1, h2⟩ := hr.recorded
  have hf : Fresh (fun _ => False) (fun v => (h v).output) h :=
    ⟨fun _ => rfl, fun v hv => hv.elim, fun v => (hr.unused v).2.2.2.1, fun v => (hr.unused v).2.2.2.2⟩
  have t0 := taped_enable hf hgc h1
  have r0 := Rec.enable h1 hst c
  rcases hend with hm | ⟨es', rfl⟩
  · exact (r0.recording hst es t0 hr.ssa hc h2 hm).1
  · have e1 := Event.blocks_ended es'
    have ssa := hr.ssa
    rw [e1] at hc ssa
    obtain ⟨τ₁, h3, h2⟩ := recording_ended es' h2
    have t1 := t0.recording es' (show WF ([] ++ Event.blocks es') from ssa) h3
    have hl : τ₁.latest + 1 = τ₁.steps.length := by
      have := t1.inv.pos
      unfold latest
      omega
    have hmr := (mgrEndTimestep_ok h2).1
    have r1 := (r0.recording hst es' t0 ssa hc h3 hmr).1
    unfold endTimestep at h2
    rw [hl] at h2
    exact (r1.mgrEndTimestep (t1.inv.inState fun b hb => hc b (by rw [t1.blocks] at hb; exact hb)) (t1.track.stores hst)
      (fun hm e => by rw [t1.track.finished.2 e] at hm; cases hm) h2).1

theorem Rec.endTapingLoop {c : BV} {fuel t : Nat} {τ τ' : CTape V T A} (h : Rec c τ) (hi : InState c τ)
    (ht : τ.mgr.mode ≠ .evaluated → t = τ.steps.length) (hst : ∀ a ∈ τ.mgr.fwd ++ τ.mgr.acts, a.stores)
    (hlast : τ.mgr.fwd.getLast? = some τ.mgr.current)
    (hcur : τ.mgr.mode = .record → τ.mgr.current ≠ .endForward) (he : CTape.endTapingLoop fuel t τ = .ok τ') : Rec c τ' := by
  induction fuel generalizing t τ with
  | zero =>
    unfold CTape.endTapingLoop at he
    split at he
    · cases he; exact h
    · cases he
  | succ fuel ih =>
    unfold CTape.endTapingLoop at he
    split at he
    · cases he; exact h
    · rename_i hm
      dsimp only at he
      split at he
      · cases he
      · rename_i τ₁ h₁
        rw [ht hm] at h₁
        have hst' : ∀ a ∈ τ.mgr.current :: τ.mgr.acts, a.stores := by
          intro a ha
          refine hst a (List.mem_append.2 ?_)
          rcases List.mem_cons.1 ha with rfl | ha
          · exact Or.inl (List.mem_of_getLast? hlast)
          · exact Or.inr ha
        obtain ⟨r1, r2, -⟩ := h.mgrEndTimestep hi hst' hcur h₁
        obtain ⟨hmr, hloop⟩ := mgrEndTimestep_ok h₁
        obtain ⟨-, -, -, -, -, -, hsched, hl, hx⟩ := endTimestepLoop_ok hloop
        refine ih r1 r2 (fun hm' => ?_) ?_ (hl hlast) (fun hm' => ?_) he
        · rcases hx with ⟨-, e, -⟩ | ⟨-, -, -, e⟩
          · exact absurd e hm'
          · rw [e, ht hm]
        · rw [hsched]; exact hst
        · rcases hx with ⟨-, e, -⟩ | ⟨-, -, e, -⟩
          · rw [e] at hm'; cases hm'
          · exact e

theorem Rec.finishTaping {P : BV → Prop} {out : BV → V} {sch : Schedule} (hs : sch.StoresAll) {bs : Blocks V T A}
    {τ τ' : CTape V T A} (ht : Taped P out sch bs τ) {c : BV} (h : Rec c τ) (hc : ∀ b ∈ bs, c ∉ b.outs)
    (he : CTape.finishTaping τ = .ok τ') : Rec c τ' := by
  unfold CTape.finishTaping at he
  split at he
  · unfold CTape.endTaping at he
    have hl : τ.latest + 1 = τ.steps.length := by
      have := ht.inv.pos
      unfold latest
      omega
    have hi : InState c τ := ht.inv.inState fun b hb => hc b (by rw [ht.blocks] at hb; exact hb)
    have hall : ∀ a ∈ τ.mgr.fwd ++ τ.mgr.acts, a.stores := by rw [ht.track.sched]; exact hs.acts
    have hcur : τ.mgr.mode = .record → τ.mgr.current ≠ .endForward :=
      fun hm e => by rw [ht.track.finished.2 e] at hm; cases hm
    dsimp only at he
    unfold finalize at he
    split at he
    · refine Rec.endTapingLoop (τ := { τ with mgr := { τ.mgr with acts := τ.mgr.afterFinal τ.steps.length, maxN := τ.steps.length, total := some τ.steps.length } })
        ⟨h.outs, h.fresh, h.ended, h.current⟩ hi (fun _ => hl) ?_ ht.track.last hcur he
      intro a ha
      rcases List.mem_append.1 ha with ha | ha
      · exact hall a (List.mem_append_left _ ha)
      · rw [ht.afterFinal] at ha
        exact hs.after _ a ha
    · exact Rec.endTapingLoop h hi (fun _ => hl) hall ht.track.last hcur he
  · cases he; exact h

end CTape
end Pyadjoint
