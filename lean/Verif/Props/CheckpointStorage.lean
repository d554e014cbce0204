import Verif.Props.CheckpointCrash

/-!
# C69: what checkpointing keeps in memory

The stored checkpoints of the time steps follow the schedule: a step holds stored values only if an action that has been performed
wrote them and no later `Move` action deleted them (`storage_follows_schedule`).  After an evaluation of the functional the working
memory holds no intermediate value except the functional and what an action keeps in working memory for the adjoint
(`evaluation_working_memory`).
-/

namespace Pyadjoint

/-- The action stores data of time step `i`: a `Forward` action to a storage other than working memory stores the data for a
restart in its first step, and the data for the adjoint in all its steps. -/
def Action.writes (i : Nat) : Action → Prop
  | .forward n0 n1 wi wa st =>
    st ≠ .work ∧ n0 ≤ i ∧ (∀ m, n1 = some m → i < m) ∧ (wi = true ∧ i = n0 ∨ wa = true)
  | _ => False

/-- Among the performed actions there is one that stores data of step `i`, and none after it that deletes them. -/
def Written (acts : List Action) (i : Nat) : Prop :=
  ∃ p a q, acts = p ++ a :: q ∧ a.writes i ∧ ∀ src, Action.move i src ∉ q

theorem Written.append_left {q : List Action} {i : Nat} (p : List Action) (h : Written q i) : Written (p ++ q) i := by
  obtain ⟨p', a, q', rfl, h1, h2⟩ := h
  exact ⟨p ++ p', a, q', by simp, h1, h2⟩

theorem Written.append_right {p : List Action} {i : Nat} (q : List Action) (h : Written p i) (hq : ∀ src, Action.move i src ∉ q) :
    Written (p ++ q) i := by
  obtain ⟨p', a, q', rfl, h1, h2⟩ := h
  refine ⟨p', a, q' ++ q, by simp, h1, fun src hm => ?_⟩
  rcases List.mem_append.1 hm with hm | hm
  · exact h2 src hm
  · exact hq src hm

namespace CTape

variable {V T A : Type*}

/-- Time step `i` holds stored data. -/
def Holds (τ : CTape V T A) (i : Nat) : Prop := ∃ s v, τ.steps[i]? = some s ∧ s.ckpt v ≠ none

theorem holds_set {τ τ' : CTape V T A} {k : Nat} {s s' : CStep V T A} (hs : τ.steps[k]? = some s) (he : τ'.steps = τ.steps.set k s')
    {i : Nat} (h : τ'.Holds i) : (i ≠ k ∧ τ.Holds i) ∨ (i = k ∧ ∃ v, s'.ckpt v ≠ none) := by
  obtain ⟨s₁, v, h1, h2⟩ := h
  rw [he, List.getElem?_set] at h1
  by_cases hk : k = i
  · subst hk
    rw [if_pos rfl, if_pos (lt_length hs)] at h1
    cases h1
    exact Or.inr ⟨rfl, v, h2⟩
  · rw [if_neg hk] at h1
    exact Or.inl ⟨fun e => hk e.symm, s₁, v, h1, h2⟩

theorem checkpoint_holds {s : CStep V T A} {ss sa : Bool} {g : List BV} {h : Heap V T A} {v : BV}
    (hc : (s.checkpoint ss sa g h).ckpt v ≠ none) : s.ckpt v ≠ none ∨ ss = true ∨ sa = true := by
  rw [CStep.checkpoint_ckpt] at hc
  split at hc
  · rename_i h1; exact Or.inr (Or.inr h1.1)
  · split at hc
    · rename_i h1; exact Or.inr (Or.inl h1.1)
    · exact Or.inl hc

theorem forwardStep_holds {k : Nat} {first wi wa : Bool} {st : Storage} {keepJ : List BV} {τ τ' : CTape V T A}
    (h : forwardStep k first wi wa st keepJ τ = .ok τ') {i : Nat} (hi : τ'.Holds i) :
    τ.Holds i ∨ (i = k ∧ st ≠ .work ∧ (wi = true ∧ first = true ∨ wa = true)) := by
  obtain ⟨s, hs, he, -⟩ := forwardStep_ok h
  rcases holds_set hs he hi with ⟨-, h1⟩ | ⟨rfl, v, h1⟩
  · exact Or.inl h1
  · by_cases hw : st = .work
    · rw [if_neg (by simpa using hw)] at h1
      exact Or.inl ⟨s, v, hs, h1⟩
    · rw [if_pos hw] at h1
      rcases checkpoint_holds h1 with h2 | h2 | h2
      · exact Or.inl ⟨s, v, hs, h2⟩
      · exact Or.inr ⟨rfl, hw, Or.inl (by simpa using h2)⟩
      · exact Or.inr ⟨rfl, hw, Or.inr h2⟩

theorem forwardSteps_holds {n0 : Nat} {wi wa : Bool} {st : Storage} {keepJ : List BV} {n k : Nat} {τ τ' : CTape V T A}
    (h : forwardSteps n0 wi wa st keepJ n k τ = .ok τ') {i : Nat} (hi : τ'.Holds i) :
    τ.Holds i ∨ (k ≤ i ∧ i < k + n ∧ st ≠ .work ∧ (wi = true ∧ i = n0 ∨ wa = true)) := by
  induction n generalizing k τ with
  | zero => cases h; exact Or.inl hi
  | succ n ih =>
    unfold forwardSteps at h
    split at h
    · cases h
    · rename_i τ₁ h₁
      rcases ih h with h2 | ⟨h2, h3, h4⟩
      · rcases forwardStep_holds h₁ h2 with h3 | ⟨rfl, h4, h5⟩
        · exact Or.inl h3
        · refine Or.inr ⟨Nat.le_refl _, by omega, h4, ?_⟩
          rcases h5 with ⟨h5, h6⟩ | h5
          · exact Or.inl ⟨h5, by simpa using h6⟩
          · exact Or.inr h5
      · exact Or.inr ⟨by omega, by omega, h4⟩

/-- One action: what is held afterwards was held before and not deleted, or is written by the action. -/
theorem process_holds [Add A] {m : Bool} {keepJ : List BV} {a : Action} {τ τ' : CTape V T A}
    (h : process m keepJ τ a = .ok τ') {i : Nat} (hi : τ'.Holds i) :
    a.writes i ∨ (τ.Holds i ∧ ∀ src, a ≠ .move i src) := by
  cases a with
  | forward n0 n1 wi wa st =>
    rcases forwardSteps_holds h hi with h1 | ⟨h1, h2, h3, h4⟩
    · exact Or.inr ⟨h1, fun _ => Action.noConfusion⟩
    · refine Or.inl ⟨h3, h1, fun m hm => ?_, h4⟩
      subst hm
      unfold forwardCount at h2
      split at h2 <;> simp_all <;> omega
  | reverse n1 n0 clear =>
    refine Or.inr ⟨?_, fun _ => Action.noConfusion⟩
    refine foldlM_ind (R := fun τ τ' : CTape V T A => τ'.Holds i → τ.Holds i) (fun _ h => h)
      (fun _ _ _ h h' hm => h (h' hm)) _ (fun τ τ' k _ h hi => ?_) h hi
    obtain ⟨s, s', hs, he, -, -, hc, -⟩ := reverseStep_ok h
    rcases holds_set hs he hi with ⟨-, h1⟩ | ⟨rfl, v, h1⟩
    · exact h1
    · exact ⟨s, v, hs, by rw [← hc]; exact h1⟩
  | copy n src =>
    simp only [process] at h
    split at h
    · cases h
    · cases h
      exact Or.inr ⟨hi, fun _ => Action.noConfusion⟩
  | move n src =>
    simp only [process] at h
    split at h
    · cases h
    · rename_i s hs
      cases h
      rcases holds_set (τ := τ) hs rfl hi with ⟨h1, h2⟩ | ⟨rfl, v, h1⟩
      · refine Or.inr ⟨h2, fun src' e => ?_⟩
        cases e
        exact h1 rfl
      · exact absurd rfl h1
  | endForward => cases h; exact Or.inr ⟨hi, fun _ => Action.noConfusion⟩
  | endReverse => cases h; exact Or.inr ⟨hi, fun _ => Action.noConfusion⟩

theorem written_cons {a : Action} {acts : List Action} {i : Nat} (h : a.writes i) (hq : ∀ src, Action.move i src ∉ acts) :
    Written (a :: acts) i := ⟨[], a, acts, rfl, h, hq⟩

/-- The actions `acts`, performed by a function `f` that performs each like `process`. -/
theorem foldlM_holds [Add A] {m : Bool} {keepJ : List BV} {f : CTape V T A → Action → Except CkptError (CTape V T A)}
    (hf : ∀ τ τ' a, f τ a = .ok τ' → ∃ τ₁ : CTape V T A, τ₁.steps = τ.steps ∧ process m keepJ τ₁ a = .ok τ')
    {acts : List Action} {τ τ' : CTape V T A} (h : acts.foldlM f τ = .ok τ') {i : Nat} (hi : τ'.Holds i) :
    Written acts i ∨ (τ.Holds i ∧ ∀ src, Action.move i src ∉ acts) := by
  induction acts generalizing τ with
  | nil => cases h; exact Or.inr ⟨hi, fun _ h => by cases h⟩
  | cons a acts ih =>
    rw [List.foldlM_cons] at h
    cases h₁ : f τ a with
    | error e => rw [h₁] at h; cases h
    | ok τ₁ =>
      rw [h₁] at h
      rcases ih h with h2 | ⟨h2, h3⟩
      · exact Or.inl (h2.append_left [a])
      · obtain ⟨τ₂, e1, e2⟩ := hf _ _ _ h₁
        rcases process_holds e2 h2 with h4 | ⟨h4, h5⟩
        · exact Or.inl (written_cons h4 h3)
        · refine Or.inr ⟨?_, fun src hm => ?_⟩
          · obtain ⟨s, v, g1, g2⟩ := h4
            exact ⟨s, v, by rw [← e1]; exact g1, g2⟩
          · rcases List.mem_cons.1 hm with hm | hm
            · exact h5 src hm.symm
            · exact h3 src hm

/-! ### Recording -/

/-- The manager is at time `t`, with a schedule that goes on without gap or overlap. -/
def Ahead (t : Nat) (acts : List Action) (τ : CTape V T A) : Prop :=
  (∃ N n, τ.mgr.total = some N ∧ Tiling n N (τ.mgr.current :: acts) ∧ n ≤ t ∧
    ∀ n0 n1 wi wa st, τ.mgr.current = .forward n0 (some n1) wi wa st → t ≤ n1) ∨
  (τ.mgr.total = none ∧ ∃ wi wa st, τ.mgr.current = .forward 0 none wi wa st)

theorem storeEnded_holds {t : Nat} {ss sa : Bool} {τ τ' : CTape V T A} (h : storeEnded t ss sa τ = .ok τ') {i : Nat}
    (hi : τ'.Holds i) : τ.Holds i ∨ (i = t - 1 ∧ (ss = true ∨ sa = true)) := by
  unfold storeEnded at h
  split at h
  · cases h
  · rename_i s hs
    cases h
    rcases holds_set (τ := τ) hs rfl hi with ⟨-, h1⟩ | ⟨rfl, v, h1⟩
    · exact Or.inl h1
    · rcases checkpoint_holds h1 with h2 | h2
      · exact Or.inl ⟨s, v, hs, h2⟩
      · exact Or.inr ⟨rfl, h2⟩

theorem appendStep_holds {τ : CTape V T A} {i : Nat} (hi : τ.appendStep.Holds i) : τ.Holds i := by
  obtain ⟨s, v, h1, h2⟩ := hi
  unfold appendStep at h1
  dsimp only at h1
  by_cases hlt : i < τ.steps.length
  · rw [List.getElem?_append_left hlt] at h1
    exact ⟨s, v, h1, h2⟩
  · rw [List.getElem?_append_right (by omega)] at h1
    by_cases h0 : i - τ.steps.length = 0
    · rw [h0] at h1
      cases h1
      exact absurd rfl h2
    · rw [List.getElem?_eq_none (by simp; omega)] at h1
      cases h1

theorem tapingForward_holds {n0 : Nat} {n1 : Option Nat} {wi wa : Bool} {st : Storage} {t : Nat} {τ τ' : CTape V T A} {d : Bool}
    (h : tapingForward n0 n1 wi wa st t τ = .ok (d, τ')) (ht : ∀ m, n1 = some m → t ≤ m) {i : Nat} (hi : τ'.Holds i) :
    τ.Holds i ∨ (Action.forward n0 n1 wi wa st).writes i := by
  unfold tapingForward at h
  split at h
  · cases h
  · dsimp only at h
    generalize hr : (if n0 < t ∧ st ≠ .work then
      storeEnded t (wi && decide (t = n0 + 1)) wa { τ with eager := wa }
      else .ok { τ with eager := wa }) = r at h
    cases r with
    | error e => cases h
    | ok τ₁ =>
      dsimp only at h
      have h1 : τ₁.Holds i := by
        split at h
        · cases h
        · split at h
          · cases h; exact appendStep_holds hi
          · cases h; exact hi
      split at hr
      · rename_i hc
        rcases storeEnded_holds hr h1 with h2 | ⟨rfl, h2⟩
        · exact Or.inl h2
        · refine Or.inr ⟨hc.2, by omega, fun m hm => ?_, ?_⟩
          · have := ht m hm
            omega
          · rcases h2 with h2 | h2
            · simp only [Bool.and_eq_true, decide_eq_true_eq] at h2
              exact Or.inl ⟨h2.1, by omega⟩
            · exact Or.inr h2
      · cases hr
        exact Or.inl h1

theorem processTaping_step {t : Nat} {acts : List Action} {τ τ₁ : CTape V T A} {d : Bool}
    (h : processTaping τ.mgr.current t τ = .ok (d, τ₁)) (ha : Ahead t acts τ) :
    (∀ i, τ₁.Holds i → τ.Holds i ∨ τ.mgr.current.writes i) ∧
    (d = true → τ₁.mgr.mode = .record → ∀ τ₂ : CTape V T A, τ₂.mgr.total = τ₁.mgr.total → τ₂.mgr.current = τ₁.mgr.current →
      Ahead (t + 1) acts τ₂) ∧
    (d = false → ∀ a acts', acts = a :: acts' → ∀ τ₂ : CTape V T A, τ₂.mgr.total = τ₁.mgr.total → τ₂.mgr.current = a →
      Ahead t acts' τ₂) := by
  have hsame := (processTaping_ok h).1
  rcases ha with ⟨N, n, h1, h2, h3, h4⟩ | ⟨h1, wi, wa, st, h2⟩
  · generalize hcur : τ.mgr.current = c at h h2 h4
    cases h2 with
    | done N rest =>
      simp only [processTaping] at h
      split at h
      · cases h
      · cases h
        refine ⟨fun i hi => Or.inl hi, ?_, ?_⟩
        · intro _ hm
          cases hm
        · intro hd
          cases hd
    | step n0 n1 N wi wa st as hlt hle ht =>
      have htn : t ≤ n1 := h4 _ _ _ _ _ rfl
      obtain ⟨g1, -, g3, g4, -⟩ := tapingForward_ok h
      refine ⟨fun i hi => tapingForward_holds h (fun m hm => by cases hm; exact htn) hi, fun hd _ τ₂ e1 e2 => ?_,
        fun hd a acts' e τ₂ e1 e2 => ?_⟩
      · subst hd
        rw [h1, eq_comm, Bool.and_eq_true] at g4
        have : t < n1 := by
          have := g4.1
          simp only [inForward, Bool.and_eq_true, decide_eq_true_eq] at this
          exact this.2
        have ec : τ₂.mgr.current = .forward n (some n1) wi wa st := by rw [e2, hsame.current, hcur]
        refine Or.inl ⟨N, n, by rw [e1, hsame.total, h1], by rw [ec]; exact .step _ _ _ _ _ _ _ hlt hle ht, by omega, ?_⟩
        rintro n0 n1' wi' wa' st' e
        rw [ec] at e
        cases e
        omega
      · subst hd e
        have : t = n1 := by
          rw [h1, eq_comm, Bool.and_eq_false_iff] at g4
          simp only [inForward, ltTotal, Bool.and_eq_false_iff, decide_eq_false_iff_not] at g4
          omega
        subst this
        refine Or.inl ⟨N, t, by rw [e1, hsame.total, h1], by rw [e2]; exact ht, Nat.le_refl _, ?_⟩
        rintro n0 n1' wi' wa' st' e
        rw [e2] at e
        subst e
        cases ht
        omega
    | last n0 N wi wa st as hlt ht =>
      obtain ⟨g1, -, g3, g4, -⟩ := tapingForward_ok h
      refine ⟨fun i hi => tapingForward_holds h (fun m hm => by cases hm) hi, fun hd _ τ₂ e1 e2 => ?_,
        fun hd a acts' e τ₂ e1 e2 => ?_⟩
      · have ec : τ₂.mgr.current = .forward n none wi wa st := by rw [e2, hsame.current, hcur]
        refine Or.inl ⟨N, n, by rw [e1, hsame.total, h1], by rw [ec]; exact .last _ _ _ _ _ _ hlt ht, by omega, ?_⟩
        rintro n0 n1' wi' wa' st' e
        rw [ec] at e
        cases e
      · subst hd e
        have : N ≤ t := by
          rw [h1, eq_comm, Bool.and_eq_false_iff] at g4
          simp only [inForward, ltTotal, Bool.and_eq_false_iff, decide_eq_false_iff_not] at g4
          rcases g4 with (g4 | g4) | g4
          · omega
          · cases g4
          · omega
        refine Or.inl ⟨N, N, by rw [e1, hsame.total, h1], by rw [e2]; exact ht, this, ?_⟩
        rintro n0 n1' wi' wa' st' e
        rw [e2] at e
        subst e
        cases ht
        omega
  · rw [h2] at h ⊢
    obtain ⟨g1, -, g3, g4, -⟩ := tapingForward_ok h
    refine ⟨fun i hi => tapingForward_holds h (fun m hm => by cases hm) hi, fun hd _ τ₂ e1 e2 => ?_, fun hd => ?_⟩
    · exact Or.inr ⟨by rw [e1, hsame.total, h1], wi, wa, st, by rw [e2, hsame.current, h2]⟩
    · subst hd
      rw [h1] at g4
      simp [inForward, ltTotal] at g4

theorem endTimestepLoop_done {t : Nat} {acts : List Action} {τ τ₁ : CTape V T A}
    (h₁ : processTaping τ.mgr.current t τ = .ok (true, τ₁)) (ha : Ahead t acts τ) (hc : τ.mgr.current ∈ τ.mgr.fwd) :
    (∀ i, τ₁.Holds i → τ.Holds i ∨ ∃ a ∈ τ₁.mgr.fwd, a.writes i) ∧
    (τ₁.mgr.mode = .record → Ahead (t + 1) acts τ₁) ∧ τ₁.mgr.current ∈ τ₁.mgr.fwd ∧ ∀ a ∈ τ.mgr.fwd, a ∈ τ₁.mgr.fwd := by
  obtain ⟨h3, h4, -⟩ := processTaping_step h₁ ha
  have hsame := (processTaping_ok h₁).1
  refine ⟨fun i hi => ?_, fun hm => h4 rfl hm _ rfl rfl, ?_, fun a ha => ?_⟩
  · rcases h3 i hi with h5 | h5
    · exact Or.inl h5
    · exact Or.inr ⟨_, by rw [hsame.fwd]; exact hc, h5⟩
  · rw [hsame.fwd, hsame.current]; exact hc
  · rw [hsame.fwd]; exact ha

theorem endTimestepLoop_holds {t : Nat} {acts : List Action} {τ τ' : CTape V T A} (h : endTimestepLoop t acts τ = .ok τ')
    (ha : Ahead t acts τ) (hc : τ.mgr.current ∈ τ.mgr.fwd) :
    (∀ i, τ'.Holds i → τ.Holds i ∨ ∃ a ∈ τ'.mgr.fwd, a.writes i) ∧
    (τ'.mgr.mode = .record → Ahead (t + 1) τ'.mgr.acts τ') ∧ τ'.mgr.current ∈ τ'.mgr.fwd ∧ ∀ a ∈ τ.mgr.fwd, a ∈ τ'.mgr.fwd := by
  induction acts generalizing τ with
  | nil =>
    unfold endTimestepLoop at h
    split at h
    · cases h
    · rename_i τ₁ h₁
      cases h
      have := endTimestepLoop_done h₁ ha hc
      exact this
    · cases h
  | cons a acts ih =>
    unfold endTimestepLoop at h
    split at h
    · cases h
    · rename_i τ₁ h₁
      cases h
      have := endTimestepLoop_done h₁ ha hc
      exact this
    · rename_i τ₁ h₁
      obtain ⟨h3, -, h4⟩ := processTaping_step h₁ ha
      have hsame := (processTaping_ok h₁).1
      obtain ⟨g1, g2, g3, g4⟩ := ih h (h4 rfl a acts rfl _ rfl rfl) (by simp)
      have hsub : ∀ a ∈ τ.mgr.fwd, a ∈ τ'.mgr.fwd := fun x hx => g4 x (by simp [hsame.fwd, hx])
      refine ⟨fun i hi => ?_, g2, g3, hsub⟩
      rcases g1 i hi with h5 | h5
      · rcases h3 i h5 with h6 | h6
        · exact Or.inl h6
        · exact Or.inr ⟨_, hsub _ hc, h6⟩
      · exact Or.inr h5

/-- A tape that is or was recorded: the stored data were written by the forward actions taken so far. -/
structure Storing (τ : CTape V T A) : Prop where
  held : ∀ i, τ.Holds i → ∃ a ∈ τ.mgr.fwd, a.writes i
  current : τ.mgr.current ∈ τ.mgr.fwd
  ahead : τ.mgr.mode = .record → Ahead τ.steps.length τ.mgr.acts τ

theorem Storing.mgrEndTimestep {τ τ' : CTape V T A} (h : Storing τ) (he : mgrEndTimestep τ.steps.length τ = .ok τ') :
    Storing τ' ∧ (τ'.mgr.mode = .record → τ'.steps.length = τ.steps.length + 1) := by
  obtain ⟨hm, hloop⟩ := mgrEndTimestep_ok he
  obtain ⟨g1, g2, g3, g4⟩ := endTimestepLoop_holds hloop (h.ahead hm) h.current
  obtain ⟨-, -, -, -, -, -, -, -, hx⟩ := endTimestepLoop_ok hloop
  have hlen : τ'.mgr.mode = .record → τ'.steps.length = τ.steps.length + 1 := by
    intro hm'
    rcases hx with ⟨_, h2, _⟩ | ⟨_, _, _, h4⟩
    · rw [h2] at hm'; cases hm'
    · exact h4
  refine ⟨⟨fun i hi => ?_, g3, fun hm' => ?_⟩, hlen⟩
  · rcases g1 i hi with h5 | h5
    · obtain ⟨a, h6, h7⟩ := h.held i h5
      exact ⟨a, g4 a h6, h7⟩
    · exact h5
  · rw [hlen hm']
    exact g2 hm'

theorem recordBlock_holds (b : Block V T A) (τ : CTape V T A) {i : Nat} (h : (τ.recordBlock b).Holds i) : τ.Holds i := by
  have keep : ∀ (l : List (CStep V T A)) (k : Nat) (f : CStep V T A → CStep V T A), (∀ s, (f s).ckpt = s.ckpt) →
      ∀ s v, (l.take k ++ (l.drop k).map f)[i]? = some s → s.ckpt v ≠ none → ∃ s, l[i]? = some s ∧ s.ckpt v ≠ none := by
    intro l k f hf s v hs hv
    rw [getElem?_take_map_drop] at hs
    split at hs
    · exact ⟨s, hs, hv⟩
    · rw [Option.map_eq_some_iff] at hs
      obtain ⟨s₁, h1, rfl⟩ := hs
      exact ⟨s₁, h1, by rw [← hf]; exact hv⟩
  have hdep : ∀ (v : BV) (τ : CTape V T A), (τ.depend v).Holds i → τ.Holds i := by
    rintro v τ ⟨s, w, h1, h2⟩
    obtain ⟨s', h3, h4⟩ := keep _ _ (fun s => { s with state := s.state.add v }) (fun _ => rfl) s w h1 h2
    exact ⟨s', w, h3, h4⟩
  have hout : ∀ (v : BV) (τ : CTape V T A), (τ.output v).Holds i → τ.Holds i := by
    rintro v τ ⟨s, w, h1, h2⟩
    obtain ⟨s', h3, h4⟩ := keep _ _ (fun s => { s with adjDeps := s.adjDeps.add v }) (fun _ => rfl) s w h1 h2
    exact ⟨s', w, h3, h4⟩
  have hfold : ∀ (f : BV → CTape V T A → CTape V T A), (∀ v τ, (f v τ).Holds i → τ.Holds i) → ∀ (l : List BV) (τ : CTape V T A),
      (l.foldl (fun τ v => f v τ) τ).Holds i → τ.Holds i := by
    intro f hf l
    induction l with
    | nil => exact fun τ h => h
    | cons v l ih => exact fun τ h => hf v τ (ih _ h)
  have hadd : ∀ τ : CTape V T A, (τ.addBlock b).Holds i → τ.Holds i := by
    rintro τ ⟨s, w, h1, h2⟩
    unfold addBlock modStep at h1
    dsimp only at h1
    rw [List.getElem?_modify] at h1
    obtain ⟨s₁, e1, e2⟩ := Option.map_eq_some_iff.1 h1
    refine ⟨s₁, w, e1, ?_⟩
    split at e2
    · rw [← e2] at h2; exact h2
    · rw [← e2] at h2; exact h2
  exact hfold _ hdep _ _ (hadd _ (hfold _ hout _ _ h))

theorem Storing.recording (es : List (Event V T A)) {τ τ' : CTape V T A}
    (h : Storing τ) (hpos : 0 < τ.steps.length) (hr : recording es τ = .ok τ') : Storing τ' := by
  induction es generalizing τ with
  | nil =>
    simp only [CTape.recording, List.foldlM_nil] at hr
    cases hr
    exact h
  | cons e es ih =>
    rw [recording_cons] at hr
    cases e with
    | block b =>
      obtain ⟨f1, f2, -⟩ := recordBlock_frame b τ
      refine ih ⟨fun i hi => ?_, by rw [f1]; exact h.current, fun hm => ?_⟩ (by rw [f2]; exact hpos) hr
      · rw [f1]; exact h.held i (recordBlock_holds b τ hi)
      · rw [f2, f1]
        have := h.ahead (by rw [← f1]; exact hm)
        unfold Ahead at this ⊢
        rw [f1]; exact this
    | endTimestep =>
      simp only [event] at hr
      split at hr
      · cases hr
      · rename_i τ₁ h₁
        have hl : τ.latest + 1 = τ.steps.length := by
          unfold latest
          omega
        unfold endTimestep at h₁
        rw [hl] at h₁
        have h2 := h.mgrEndTimestep h₁
        refine ih h2.1 ?_ hr
        obtain ⟨-, -, -, -, -, -, -, -, hx⟩ := endTimestepLoop_ok (mgrEndTimestep_ok h₁).2
        rcases hx with ⟨_, _, _, e⟩ | ⟨_, _, _, e⟩ <;> omega

theorem storing_enable {sch : Schedule} (hwf : sch.WellFormed) {gc : Option Int} {pk : Bool} {h : Heap V T A} {eager : Bool}
    {τ : CTape V T A} (he : enable sch gc pk h [] eager = .ok τ) : Storing τ := by
  unfold enable at he
  split at he
  · rename_i h0; simp at h0
  · split at he
    · cases he
    · split at he
      · cases he
      · rename_i a acts hacts
        refine (Storing.mgrEndTimestep (τ := _) ⟨fun i hi => ?_, by simp, fun _ => ?_⟩ he).1
        · obtain ⟨s, v, h1, -⟩ := hi
          cases h1
        · rcases hwf with ⟨h1, h2⟩ | ⟨h1, wi, wa, st, rest, h2, -⟩
          · rw [hacts] at h2
            refine Or.inl ⟨sch.maxN, 0, if_neg h1, h2, Nat.le_refl _, fun _ _ _ _ _ _ => Nat.zero_le _⟩
          · rw [hacts] at h2
            cases h2
            exact Or.inr ⟨if_pos h1, wi, wa, st, rfl⟩

theorem Storing.endTapingLoop {fuel : Nat} {τ τ' : CTape V T A} (h : Storing τ) (he : endTapingLoop fuel τ.steps.length τ = .ok τ') :
    Storing τ' := by
  induction fuel generalizing τ with
  | zero =>
    unfold CTape.endTapingLoop at he
    split at he
    · cases he; exact h
    · cases he
  | succ fuel ih =>
    unfold CTape.endTapingLoop at he
    split at he
    · cases he; exact h
    · dsimp only at he
      split at he
      · cases he
      · rename_i τ₁ h₁
        obtain ⟨h2, h3⟩ := h.mgrEndTimestep h₁
        by_cases hm : τ₁.mgr.mode = .record
        · rw [← h3 hm] at he
          exact ih h2 he
        · have hm' : τ₁.mgr.mode = .evaluated := by
            obtain ⟨hm0, hl⟩ := mgrEndTimestep_ok h₁
            obtain ⟨-, -, -, -, -, -, -, -, hx⟩ := endTimestepLoop_ok hl
            rcases hx with ⟨_, e, _⟩ | ⟨_, e, _⟩
            · exact e
            · exact absurd (e.trans hm0) hm
          unfold CTape.endTapingLoop at he
          rw [if_pos hm'] at he
          cases he
          exact h2

theorem Storing.finishTaping {P : BV → Prop} {out : BV → V} {sch : Schedule} (hwf : sch.WellFormed) {bs : Blocks V T A}
    {τ τ' : CTape V T A} (h : Storing τ) (ht : τ.mgr.mode = .record → Taped P out sch bs τ) (he : finishTaping τ = .ok τ') :
    Storing τ' := by
  unfold CTape.finishTaping at he
  split at he
  · rename_i hm
    have ht := ht hm
    have hpos := ht.inv.pos
    unfold endTaping at he
    have hl : τ.latest + 1 = τ.finalize.steps.length := by
      have e : τ.finalize.steps = τ.steps := by unfold finalize; split <;> rfl
      rw [e]
      unfold latest
      omega
    dsimp only at he
    rw [hl] at he
    refine Storing.endTapingLoop ?_ he
    unfold finalize
    split
    · rename_i h0
      rw [ht.maxN] at h0
      refine ⟨h.held, h.current, fun _ => ?_⟩
      rcases h.ahead hm with ⟨N, n, h1, -⟩ | ⟨h1, wi, wa, st, h2⟩
      · rw [ht.track.total, if_pos h0] at h1
        cases h1
      · rcases hwf with ⟨g1, -⟩ | ⟨-, -, -, -, -, -, g2⟩
        · exact absurd h0 g1
        · obtain ⟨rest', e⟩ := g2 τ.steps.length hpos
          refine Or.inl ⟨τ.steps.length, 0, rfl, ?_, Nat.zero_le _, ?_⟩
          · dsimp only
            rw [h2, ht.afterFinal, e]
            exact .last _ _ _ _ _ _ hpos (.done _ _)
          · dsimp only
            intro n0 n1 wi' wa' st' e'
            rw [h2] at e'
            cases e'
    · exact h
  · cases he; exact h

/-! ### Evaluations and derivatives -/

/-- The actions performed on a recorded tape: those of the recording, then for each evaluation of the functional the rest of
the recording, if it was not complete, and the forward schedule, and for each derivative the reverse schedule. -/
inductive Performed [Add A] [Zero A] [Mul V] (truthy : V → Bool) (cs : List BV) (τ₀ : CTape V T A) :
    List Action → CTape V T A → Prop
  | start : Performed truthy cs τ₀ τ₀.mgr.fwd τ₀
  | call {τ τ' : CTape V T A} {acts J scale xs y} (h : Performed truthy cs τ₀ acts τ)
      (hr : rfCall truthy J cs scale xs τ = .ok (y, τ')) :
      Performed truthy cs τ₀ (acts ++ (τ'.mgr.fwd.drop τ.mgr.fwd.length ++ τ'.mgr.fwd)) τ'
  | derivative {τ τ' : CTape V T A} {acts J a ds} (h : Performed truthy cs τ₀ acts τ)
      (hr : rfDerivative J cs a τ = .ok (ds, τ')) :
      Performed truthy cs τ₀ (acts ++ (τ'.mgr.fwd.drop τ.mgr.fwd.length ++ τ'.mgr.rev)) τ'

theorem Exact.noMove {n N : Nat} {acts : List Action} (h : Exact n N acts) (i : Nat) (src : Storage) : Action.move i src ∉ acts := by
  induction h with
  | done => simp
  | step n0 n1 N wi wa st as hlt hle h ih =>
    intro hm
    rcases List.mem_cons.1 hm with hm | hm
    · cases hm
    · exact ih hm
  | last n0 N wi wa st as hlt h ih =>
    intro hm
    rcases List.mem_cons.1 hm with hm | hm
    · cases hm
    · exact ih hm

theorem holds_steps {τ τ' : CTape V T A} (h : τ'.steps = τ.steps) {i : Nat} (hi : τ'.Holds i) : τ.Holds i := by
  obtain ⟨s, v, h1, h2⟩ := hi
  exact ⟨s, v, by rw [← h]; exact h1, h2⟩

theorem written_of_mem {acts : List Action} {i : Nat} {a : Action} (ha : a ∈ acts) (hw : a.writes i)
    (hn : ∀ src, Action.move i src ∉ acts) : Written acts i := by
  obtain ⟨p, q, rfl⟩ := List.append_of_mem ha
  exact ⟨p, a, q, rfl, hw, fun src hm => hn src (by simp [hm])⟩

theorem firstReverse_holds [Add A] {m : Bool} {acts : List Action} {τ τ' : CTape V T A} (h : firstReverse m acts τ = .ok τ') :
    ∃ l, τ'.mgr.rev = τ.mgr.rev ++ l ∧
      ∀ i, τ'.Holds i → Written l i ∨ (τ.Holds i ∧ ∀ src, Action.move i src ∉ l) := by
  induction acts generalizing τ with
  | nil =>
    unfold firstReverse at h
    split at h
    · cases h
      exact ⟨[], by simp, fun i hi => Or.inr ⟨hi, by simp⟩⟩
    · cases h
  | cons a acts ih =>
    unfold firstReverse at h
    split at h
    · cases h
      exact ⟨[], by simp, fun i hi => Or.inr ⟨hi, by simp⟩⟩
    · dsimp only at h
      split at h
      · cases h
      · rename_i τ₁ h₁
        have hr₁ : τ₁.mgr.rev = τ.mgr.rev ++ [a] := process_rev (by unfold perform at h₁; exact h₁)
        obtain ⟨l, e1, e2⟩ := ih h
        refine ⟨a :: l, by rw [e1, hr₁]; simp, fun i hi => ?_⟩
        rcases e2 i hi with h2 | ⟨h2, h3⟩
        · exact Or.inl (h2.append_left [a])
        · unfold perform at h₁
          rcases process_holds h₁ h2 with h4 | ⟨h4, h5⟩
          · exact Or.inl (written_cons h4 h3)
          · refine Or.inr ⟨holds_steps (τ := τ) rfl h4, fun src hm => ?_⟩
            rcases List.mem_cons.1 hm with hm | hm
            · exact h5 src hm.symm
            · exact h3 src hm

theorem reverseSweep_holds [Add A] {m : Bool} {τ τ' : CTape V T A} (h : reverseSweep m τ = .ok τ') {i : Nat} (hi : τ'.Holds i) :
    Written τ'.mgr.rev i ∨ (τ.Holds i ∧ ∀ src, Action.move i src ∉ τ'.mgr.rev) := by
  unfold reverseSweep at h
  split at h
  · rw [processes_rev h]
    exact foldlM_holds (fun τ τ' a h => ⟨τ, rfl, h⟩) h hi
  · rename_i h0
    obtain ⟨l, e1, e2⟩ := firstReverse_holds h
    rw [not_not.1 h0, List.nil_append] at e1
    rw [e1]
    exact e2 i hi

theorem forwardSweep_holds [Add A] {keepJ : List BV} {τ τ' : CTape V T A} (h : forwardSweep keepJ τ = .ok τ') {i : Nat}
    (hi : τ'.Holds i) : Written τ.mgr.fwd i ∨ (τ.Holds i ∧ ∀ src, Action.move i src ∉ τ.mgr.fwd) := by
  unfold forwardSweep at h
  split at h
  · split at h
    · cases h
    · rcases foldlM_holds (m := false) (keepJ := keepJ) (f := perform false keepJ) (fun τ τ' a h => ⟨{ τ with mgr := { τ.mgr with current := a } }, rfl, h⟩) h hi with h1 | ⟨h1, h2⟩
      · exact Or.inl h1
      · exact Or.inr ⟨holds_steps (τ := τ) rfl h1, h2⟩
  · cases h

theorem endTimestepLoop_fwd {t : Nat} {acts : List Action} {τ τ' : CTape V T A} (h : endTimestepLoop t acts τ = .ok τ') :
    τ.mgr.fwd <+: τ'.mgr.fwd := by
  induction acts generalizing τ with
  | nil =>
    unfold endTimestepLoop at h
    split at h
    · cases h
    · rename_i τ₁ h₁
      cases h
      exact ⟨[], by dsimp only; rw [(processTaping_ok h₁).1.fwd, List.append_nil]⟩
    · cases h
  | cons a acts ih =>
    unfold endTimestepLoop at h
    split at h
    · cases h
    · rename_i τ₁ h₁
      cases h
      exact ⟨[], by dsimp only; rw [(processTaping_ok h₁).1.fwd, List.append_nil]⟩
    · rename_i τ₁ h₁
      obtain ⟨l, e⟩ := ih h
      dsimp only at e
      rw [(processTaping_ok h₁).1.fwd] at e
      exact ⟨a :: l, by rw [← e]; simp⟩

theorem endTapingLoop_fwd {fuel t : Nat} {τ τ' : CTape V T A} (h : endTapingLoop fuel t τ = .ok τ') : τ.mgr.fwd <+: τ'.mgr.fwd := by
  induction fuel generalizing t τ with
  | zero =>
    unfold endTapingLoop at h
    split at h
    · cases h; exact List.prefix_refl _
    · cases h
  | succ fuel ih =>
    unfold endTapingLoop at h
    split at h
    · cases h; exact List.prefix_refl _
    · dsimp only at h
      split at h
      · cases h
      · rename_i τ₁ h₁
        exact (endTimestepLoop_fwd (mgrEndTimestep_ok h₁).2).trans (ih h)

theorem finishTaping_fwd {τ τ' : CTape V T A} (h : finishTaping τ = .ok τ') : τ.mgr.fwd <+: τ'.mgr.fwd := by
  unfold finishTaping at h
  split at h
  · unfold endTaping at h
    have := endTapingLoop_fwd h
    have e : τ.finalize.mgr.fwd = τ.mgr.fwd := by unfold finalize; split <;> rfl
    rwa [e] at this
  · cases h; exact List.prefix_refl _

theorem endTimestepLoop_noMove {t : Nat} {acts : List Action} {τ τ' : CTape V T A} (h : endTimestepLoop t acts τ = .ok τ')
    (hn : ∀ i src, Action.move i src ∈ τ.mgr.fwd → .move i src = τ.mgr.current) : ∀ i src, Action.move i src ∉ τ'.mgr.fwd := by
  have hcur : ∀ {d : Bool} {τ τ₁ : CTape V T A}, processTaping τ.mgr.current t τ = .ok (d, τ₁) →
      (∀ i src, Action.move i src ∈ τ.mgr.fwd → .move i src = τ.mgr.current) → ∀ i src, Action.move i src ∉ τ₁.mgr.fwd := by
    intro d τ τ₁ h₁ hn i src hi
    rw [(processTaping_ok h₁).1.fwd] at hi
    rw [← hn i src hi] at h₁
    cases h₁
  induction acts generalizing τ with
  | nil =>
    unfold endTimestepLoop at h
    split at h
    · cases h
    · rename_i τ₁ h₁
      cases h
      have := hcur h₁ hn
      exact this
    · cases h
  | cons a acts ih =>
    unfold endTimestepLoop at h
    split at h
    · cases h
    · rename_i τ₁ h₁
      cases h
      have := hcur h₁ hn
      exact this
    · rename_i τ₁ h₁
      refine ih h fun i src hi => ?_
      have hi' : Action.move i src ∈ τ₁.mgr.fwd ++ [a] := hi
      rw [List.mem_append, List.mem_singleton] at hi'
      rcases hi' with h2 | h2
      · exact absurd h2 (hcur h₁ hn i src)
      · exact h2

theorem recording_noMove (es : List (Event V T A)) {τ τ' : CTape V T A} (hn : ∀ i src, Action.move i src ∉ τ.mgr.fwd)
    (hr : recording es τ = .ok τ') : ∀ i src, Action.move i src ∉ τ'.mgr.fwd := by
  induction es generalizing τ with
  | nil =>
    simp only [CTape.recording, List.foldlM_nil] at hr
    cases hr
    exact hn
  | cons e es ih =>
    rw [recording_cons] at hr
    cases e with
    | block b => exact ih (by rw [(recordBlock_frame b τ).1]; exact hn) hr
    | endTimestep =>
      simp only [event] at hr
      split at hr
      · cases hr
      · rename_i τ₁ h₁
        unfold endTimestep at h₁
        exact ih (endTimestepLoop_noMove (mgrEndTimestep_ok h₁).2 fun i src hi => absurd hi (hn i src)) hr

theorem enable_noMove {sch : Schedule} {gc : Option Int} {pk : Bool} {h : Heap V T A} {eager : Bool}
    {τ : CTape V T A} (he : enable sch gc pk h [] eager = .ok τ) : ∀ i src, Action.move i src ∉ τ.mgr.fwd := by
  unfold enable at he
  split at he
  · rename_i h0; simp at h0
  · split at he
    · cases he
    · split at he
      · cases he
      · exact endTimestepLoop_noMove (mgrEndTimestep_ok he).2 fun i src hi => List.mem_singleton.1 hi

/-- What holds of a tape and the actions performed on it. -/
structure Follows (sch : Schedule) (bs : Blocks V T A) (out : BV → V) (acts : List Action) (τ : CTape V T A) : Prop where
  alive : Alive (fun _ => False) out sch bs τ
  held : ∀ i, τ.Holds i → Written acts i
  recording : τ.mgr.mode = .record → acts = τ.mgr.fwd ∧ Storing τ

theorem Follows.finishTaping {sch : Schedule} (hwf : sch.WellFormed) {bs : Blocks V T A} {out : BV → V} {acts : List Action}
    {τ τ₁ : CTape V T A} (h : Follows sch bs out acts τ) {f : Heap V T A → Heap V T A}
    (hok : HeapOK (fun _ => False) f τ.heap) (hf : finishTaping (τ.onHeap f) = .ok τ₁) :
    ∀ i, τ₁.Holds i → Written (acts ++ τ₁.mgr.fwd.drop τ.mgr.fwd.length) i := by
  by_cases hm : τ.mgr.mode = .record
  · obtain ⟨e, hs⟩ := h.recording hm
    subst e
    have hst : Storing (τ.onHeap f) := ⟨hs.held, hs.current, hs.ahead⟩
    have htp : (τ.onHeap f).mgr.mode = .record → Taped (fun _ => False) out sch bs (τ.onHeap f) := by
      intro _
      rcases h.alive.state with ht | ⟨hn, -⟩
      · exact ht.onHeap hok
      · exact absurd hm hn
    have hs₁ := hst.finishTaping hwf htp hf
    obtain ⟨⟨N, hc⟩, -⟩ := finishTaping_core hwf (onHeap_state hok h.alive.state) hf
    obtain ⟨rest, er⟩ : ∃ rest, τ₁.mgr.fwd = τ.mgr.fwd ++ rest := by
      obtain ⟨rest, e⟩ := finishTaping_fwd hf
      exact ⟨rest, e.symm⟩
    intro i hi
    obtain ⟨a, h1, h2⟩ := hs₁.held i hi
    have hw := written_of_mem h1 h2 fun src => hc.fwd.noMove i src
    rw [er] at hw ⊢
    rw [List.drop_left]
    exact hw
  · unfold CTape.finishTaping at hf
    rw [if_neg (show ¬ (τ.onHeap f).mgr.mode = .record from hm)] at hf
    cases hf
    intro i hi
    have : (τ.onHeap f).mgr.fwd.drop τ.mgr.fwd.length = [] := List.drop_eq_nil_of_le (Nat.le_refl _)
    rw [this, List.append_nil]
    exact h.held i hi

theorem Follows.call [Add A] [Mul V] {sch : Schedule} (hwf : sch.WellFormed) {bs : Blocks V T A} {out : BV → V} {acts : List Action}
    {τ τ' : CTape V T A} (h : Follows sch bs out acts τ) {truthy : V → Bool} {J : BV} {cs : List BV} {scale : V} {xs : List V} {y : V}
    (hr : rfCall truthy J cs scale xs τ = .ok (y, τ')) :
    Follows sch bs out (acts ++ (τ'.mgr.fwd.drop τ.mgr.fwd.length ++ τ'.mgr.fwd)) τ' := by
  obtain ⟨g1, g2⟩ := rfCall_alive hwf (P := fun _ => False) (out := out) (fun b _ i o _ hP => absurd hP id) (cs := cs)
    (fun _ hP => absurd hP id) h.alive hr
  refine ⟨g1, fun i hi => ?_, fun hm => absurd hm g2⟩
  unfold rfCall at hr
  dsimp only at hr
  split at hr
  · cases hr
  · rename_i τ₂ h₂
    simp only [Except.ok.injEq, Prod.mk.injEq] at hr
    obtain ⟨-, rfl⟩ := hr
    unfold recomputeTape at h₂
    split at h₂
    · cases h₂
    · rename_i τ₁ h₁
      have hfin := h.finishTaping hwf (heapOK_call (P := fun _ => False) (fun _ hP => absurd hP id) xs τ.heap) h₁
      have hsh := (forwardSweep_clean (fun _ => False) out h₂).1
      have ef : τ₂.mgr.fwd = τ₁.mgr.fwd := hsh.fwd
      show Written (acts ++ (τ₂.mgr.fwd.drop τ.mgr.fwd.length ++ τ₂.mgr.fwd)) i
      rw [ef, ← List.append_assoc]
      rcases forwardSweep_holds h₂ (holds_steps (τ := τ₂) rfl hi) with h3 | ⟨h3, h4⟩
      · exact h3.append_left _
      · exact (hfin i (holds_steps (τ := τ₁) rfl h3)).append_right _ h4

theorem Follows.derivative [Add A] [Zero A] {sch : Schedule} (hwf : sch.WellFormed) {bs : Blocks V T A} {out : BV → V}
    {acts : List Action} {τ τ' : CTape V T A} (h : Follows sch bs out acts τ) {J : BV} {cs : List BV} {a : A} {ds : List A}
    (hr : rfDerivative J cs a τ = .ok (ds, τ')) :
    Follows sch bs out (acts ++ (τ'.mgr.fwd.drop τ.mgr.fwd.length ++ τ'.mgr.rev)) τ' := by
  obtain ⟨g1, g2⟩ := rfDerivative_alive hwf (P := fun _ => False) (out := out) (fun b _ i o _ hP => absurd hP id) h.alive hr
  refine ⟨g1, fun i hi => ?_, fun hm => absurd hm g2⟩
  unfold rfDerivative at hr
  split at hr
  · cases hr
  · rename_i τ₃ h₃
    simp only [Except.ok.injEq, Prod.mk.injEq] at hr
    obtain ⟨-, rfl⟩ := hr
    unfold evaluateAdjTape at h₃
    split at h₃
    · cases h₃
    · rename_i τ₁ h₁
      split at h₃
      · cases h₃
      · split at h₃
        · cases h₃
        · rename_i τ₂ h₂
          cases h₃
          have hfin := h.finishTaping hwf (heapOK_seed (fun _ => False) J cs a τ.blocks τ.heap) h₁
          have hsh := (reverseSweep_clean (fun _ => False) out h₂).1
          have ef : τ₂.mgr.fwd = τ₁.mgr.fwd := hsh.fwd
          show Written (acts ++ (τ₂.mgr.fwd.drop τ.mgr.fwd.length ++ τ₂.mgr.rev)) i
          rw [ef, ← List.append_assoc]
          rcases reverseSweep_holds h₂ (holds_steps (τ := τ₂) rfl hi) with h3 | ⟨h3, h4⟩
          · exact h3.append_left _
          · exact (hfin i h3).append_right _ h4

/-- **C69**: whatever was recorded, for every well-formed schedule and any evaluations and derivatives, a time step holds stored
data only if one of the actions performed so far wrote them and no `Move` action since deleted them.  So the stored data are
never more than the schedule has planned for. -/
theorem storage_follows_schedule [Add A] [Zero A] [Mul V] {sch : Schedule} {h : Heap V T A} {es : List (Event V T A)}
    {τ₀ τ : CTape V T A} (hr : Recorded sch h es τ₀) {truthy : V → Bool} {cs : List BV} {acts : List Action}
    (hp : Performed truthy cs τ₀ acts τ) (i : Nat) (hi : τ.Holds i) : Written acts i := by
  suffices hf : Follows sch (Event.blocks es) (fun v => (h v).output) acts τ from hf.held i hi
  clear hi
  induction hp with
  | start =>
    have hal := hr.alive (fun _ => False)
    obtain ⟨gc, pk, eager, τ₁, hgc, h1, h2⟩ := hr.recorded
    have hs := (storing_enable hr.wellFormed h1).recording es (by have := (track_enable h1).2.2.1; omega) h2
    refine ⟨hal, fun j hj => ?_, fun _ => ⟨rfl, hs⟩⟩
    obtain ⟨a, g1, g2⟩ := hs.held j hj
    refine written_of_mem g1 g2 fun src hm => ?_
    exact recording_noMove es (enable_noMove h1) h2 j src hm
  | call _ hr' ih => exact ih.call hr.wellFormed hr'
  | derivative _ hr' ih => exact ih.derivative hr.wellFormed hr'

/-! ## Working memory after an evaluation -/

/-- The action advances step `k` and keeps the data for its adjoint in working memory. -/
def _root_.Pyadjoint.Action.keepsInWork (k : Nat) : Action → Prop
  | .forward n0 n1 _ wa st => wa = true ∧ st = .work ∧ n0 ≤ k ∧ ∀ m, n1 = some m → k < m
  | _ => False

/-- The global dependencies are among the state the first step starts with. -/
structure Globals (sm : Bool) (τ : CTape V T A) : Prop where
  init : ∀ v ∈ τ.mgr.globalDeps, ∃ s, τ.steps[0]? = some s ∧ v ∈ s.state.elems
  singleMem : τ.mgr.singleMem = sm

theorem Globals.grow {sm : Bool} {τ τ' : CTape V T A} (h : Globals sm τ) (hg : τ'.mgr.globalDeps = τ.mgr.globalDeps)
    (hs : τ'.mgr.singleMem = τ.mgr.singleMem)
    (hst : ∀ s, τ.steps[0]? = some s → ∃ s', τ'.steps[0]? = some s' ∧ ∀ v ∈ s.state.elems, v ∈ s'.state.elems) : Globals sm τ' := by
  refine ⟨fun v hv => ?_, hs.trans h.singleMem⟩
  rw [hg] at hv
  obtain ⟨s, h1, h2⟩ := h.init v hv
  obtain ⟨s', h3, h4⟩ := hst s h1
  exact ⟨s', h3, h4 v h2⟩

theorem storeEnded_globals {sm : Bool} {t : Nat} {ss sa : Bool} {τ τ' : CTape V T A} (h : storeEnded t ss sa τ = .ok τ')
    (hg : Globals sm τ) : Globals sm τ' := by
  unfold storeEnded at h
  split at h
  · cases h
  · rename_i s hs
    simp only [Except.ok.injEq] at h
    subst h
    refine ⟨fun v hv => ?_, hg.singleMem⟩
    dsimp only at hv ⊢
    have key : ∀ s₀, τ.steps[0]? = some s₀ → v ∈ s₀.state.elems → ∀ s' : CStep V T A, s'.state = s.state →
        ∃ s₁, (τ.steps.set (t - 1) s')[0]? = some s₁ ∧ v ∈ s₁.state.elems := by
      intro s₀ h1 h2 s' h3
      rw [List.getElem?_set]
      by_cases ht : t - 1 = 0
      · rw [if_pos ht, if_pos (lt_length hs)]
        rw [ht, h1] at hs
        cases hs
        exact ⟨s', rfl, by rw [h3]; exact h2⟩
      · rw [if_neg ht]
        exact ⟨s₀, h1, h2⟩
    by_cases ht : t = 1
    · rw [if_pos ht] at hv
      subst ht
      rcases List.mem_append.1 hv with h1 | h1
      · obtain ⟨s₀, h2, h3⟩ := hg.init v h1
        exact key s₀ h2 h3 _ rfl
      · exact key s hs h1 _ rfl
    · rw [if_neg ht] at hv
      obtain ⟨s₀, h2, h3⟩ := hg.init v (List.mem_filter.1 hv).1
      exact key s₀ h2 h3 _ rfl

theorem tapingForward_globals {sm : Bool} {n0 : Nat} {n1 : Option Nat} {wi wa : Bool} {st : Storage} {t : Nat} {τ τ' : CTape V T A}
    {d : Bool} (h : tapingForward n0 n1 wi wa st t τ = .ok (d, τ')) (hg : Globals sm τ) : Globals sm τ' := by
  unfold tapingForward at h
  split at h
  · cases h
  · dsimp only at h
    generalize hr : (if n0 < t ∧ st ≠ .work then
      storeEnded t (wi && decide (t = n0 + 1)) wa { τ with eager := wa }
      else .ok { τ with eager := wa }) = r at h
    cases r with
    | error e => cases h
    | ok τ₁ =>
      have h1 : Globals sm τ₁ := by
        split at hr
        · exact storeEnded_globals hr ⟨hg.init, hg.singleMem⟩
        · cases hr; exact ⟨hg.init, hg.singleMem⟩
      dsimp only at h
      split at h
      · cases h
      · split at h
        · cases h
          refine h1.grow rfl rfl fun s hs => ⟨s, ?_, fun v hv => hv⟩
          unfold appendStep
          rw [List.getElem?_append_left (lt_length hs)]
          exact hs
        · cases h; exact h1

theorem processTaping_globals {sm : Bool} {a : Action} {t : Nat} {τ τ' : CTape V T A} {d : Bool}
    (h : processTaping a t τ = .ok (d, τ')) (hg : Globals sm τ) : Globals sm τ' := by
  cases a with
  | forward n0 n1 wi wa st => exact tapingForward_globals h hg
  | endForward =>
    simp only [processTaping] at h
    split at h
    · cases h
    · cases h; exact ⟨hg.init, hg.singleMem⟩
  | reverse _ _ _ => cases h
  | copy _ _ => cases h
  | move _ _ => cases h
  | endReverse => cases h

theorem endTimestepLoop_globals {sm : Bool} {t : Nat} {acts : List Action} {τ τ' : CTape V T A}
    (h : endTimestepLoop t acts τ = .ok τ') (hg : Globals sm τ) : Globals sm τ' := by
  induction acts generalizing τ with
  | nil =>
    unfold endTimestepLoop at h
    split at h
    · cases h
    · rename_i τ₁ h₁
      cases h
      have := processTaping_globals h₁ hg
      exact ⟨this.init, this.singleMem⟩
    · cases h
  | cons a acts ih =>
    unfold endTimestepLoop at h
    split at h
    · cases h
    · rename_i τ₁ h₁
      cases h
      have := processTaping_globals h₁ hg
      exact ⟨this.init, this.singleMem⟩
    · rename_i τ₁ h₁
      have := processTaping_globals h₁ hg
      exact ih h ⟨this.init, this.singleMem⟩

theorem endTapingLoop_globals {sm : Bool} {fuel t : Nat} {τ τ' : CTape V T A} (h : endTapingLoop fuel t τ = .ok τ')
    (hg : Globals sm τ) : Globals sm τ' := by
  induction fuel generalizing t τ with
  | zero =>
    unfold endTapingLoop at h
    split at h
    · cases h; exact hg
    · cases h
  | succ fuel ih =>
    unfold endTapingLoop at h
    split at h
    · cases h; exact hg
    · dsimp only at h
      split at h
      · cases h
      · rename_i τ₁ h₁
        exact ih h (endTimestepLoop_globals (mgrEndTimestep_ok h₁).2 hg)

theorem finishTaping_globals {sm : Bool} {τ τ' : CTape V T A} (h : finishTaping τ = .ok τ') (hg : Globals sm τ) : Globals sm τ' := by
  unfold finishTaping at h
  split at h
  · unfold endTaping at h
    refine endTapingLoop_globals h ?_
    unfold finalize
    split
    · exact ⟨hg.init, hg.singleMem⟩
    · exact hg
  · cases h; exact hg

theorem recordBlock_globals {sm : Bool} (b : Block V T A) {τ : CTape V T A} (h : Globals sm τ) : Globals sm (τ.recordBlock b) := by
  have hdep : ∀ (v : BV) (τ : CTape V T A), Globals sm τ → Globals sm (τ.depend v) := by
    intro v τ h
    refine h.grow rfl rfl fun s hs => ?_
    unfold depend
    dsimp only
    rw [getElem?_take_map_drop]
    split
    · exact ⟨s, hs, fun _ hv => hv⟩
    · rw [hs]
      exact ⟨_, rfl, fun w hw => by
        have : w ∈ (s.state.add v).elems := by rw [OSet_mem_add]; exact Or.inl hw
        exact this⟩
  have hout : ∀ (v : BV) (τ : CTape V T A), Globals sm τ → Globals sm (τ.output v) := by
    intro v τ h
    refine h.grow rfl rfl fun s hs => ?_
    unfold output
    dsimp only
    rw [getElem?_take_map_drop]
    split
    · exact ⟨s, hs, fun _ hv => hv⟩
    · rw [hs]
      exact ⟨_, rfl, fun w hw => hw⟩
  have hfold : ∀ (f : BV → CTape V T A → CTape V T A), (∀ v τ, Globals sm τ → Globals sm (f v τ)) → ∀ (l : List BV)
      (τ : CTape V T A), Globals sm τ → Globals sm (l.foldl (fun τ v => f v τ) τ) := by
    intro f hf l
    induction l with
    | nil => exact fun τ h => h
    | cons v l ih => exact fun τ h => ih _ (hf v τ h)
  have hadd : ∀ τ : CTape V T A, Globals sm τ → Globals sm (τ.addBlock b) := by
    intro τ h
    refine h.grow rfl rfl fun s hs => ?_
    unfold addBlock modStep
    dsimp only
    rw [List.getElem?_modify, hs]
    by_cases hl : τ.latest = 0
    · exact ⟨_, rfl, fun w hw => by simp only [if_pos hl]; exact hw⟩
    · exact ⟨_, rfl, fun w hw => by simp only [if_neg hl]; exact hw⟩
  exact hfold _ hout _ _ (hadd _ (hfold _ hdep _ _ h))

theorem recording_globals {sm : Bool} (es : List (Event V T A)) {τ τ' : CTape V T A} (h : Globals sm τ)
    (hr : recording es τ = .ok τ') : Globals sm τ' := by
  induction es generalizing τ with
  | nil =>
    simp only [CTape.recording, List.foldlM_nil] at hr
    cases hr
    exact h
  | cons e es ih =>
    rw [recording_cons] at hr
    cases e with
    | block b => exact ih (recordBlock_globals b h) hr
    | endTimestep =>
      simp only [event] at hr
      split at hr
      · cases hr
      · rename_i τ₁ h₁
        unfold endTimestep at h₁
        exact ih (endTimestepLoop_globals (mgrEndTimestep_ok h₁).2 h) hr

theorem enable_globals {sch : Schedule} {gc : Option Int} {pk : Bool} {h : Heap V T A} {eager : Bool}
    {τ : CTape V T A} (he : enable sch gc pk h [] eager = .ok τ) : Globals sch.singleMem τ := by
  unfold enable at he
  split at he
  · rename_i h0; simp at h0
  · split at he
    · cases he
    · split at he
      · cases he
      · refine endTimestepLoop_globals (mgrEndTimestep_ok he).2 ⟨fun v hv => ?_, rfl⟩
        cases hv

theorem Globals.shape {sm : Bool} {τ τ' : CTape V T A} (h : Globals sm τ) (hs : Shape τ τ') : Globals sm τ' :=
  h.grow hs.global hs.singleMem fun s h1 => by
    obtain ⟨s', g1, g2, g3⟩ := hs.getElem?' h1
    exact ⟨s', g1, fun v hv => by rw [g3]; exact hv⟩

theorem clearState_cleared {step : Nat} (hstep : step ≠ 0) {f g i : BV → Bool} {vs : List BV} {h : Heap V T A} {keep : Bool} {v : BV}
    (hv : v ∈ vs) (hi : i v = false) : ((clearState step false f g i vs h keep).1 v).ckpt = none := by
  induction vs generalizing h keep with
  | nil => cases hv
  | cons w vs ih =>
    unfold clearState
    rw [if_neg (fun h => hstep h.1), if_neg Bool.false_ne_true]
    rcases List.mem_cons.1 hv with rfl | hv
    · rw [hi, Bool.false_and, if_neg Bool.false_ne_true]
      rcases clearState_apply step false f g i vs (setCkptRaw h v none) keep v with e | ⟨-, e⟩
      · rw [e]; simp [setCkptRaw]
      · rw [e]
    · split
      · exact ih hv
      · exact ih hv

/-- What a forward step leaves in working memory. -/
theorem forwardStep_work {k : Nat} {first wi wa : Bool} {st : Storage} {keepJ : List BV} {τ τ' : CTape V T A}
    (h : forwardStep k first wi wa st keepJ τ = .ok τ') (hsm : τ.mgr.singleMem = false) :
    ∃ s, τ.steps[k]? = some s ∧ ∀ v, (τ'.heap v).ckpt ≠ none →
      (v ∈ s.outs ∧ (v ∈ τ.toKeep k keepJ ∨ (wa = true ∧ st = .work ∧ v ∈ s.adjDeps.elems))) ∨
      (v ∉ s.outs ∧ (τ.heap v).ckpt ≠ none ∧ (k ≠ 0 → v ∈ s.state.elems →
        v ∈ τ.toKeep k keepJ ∨ v ∈ τ.mgr.globalDeps ∨ ∃ s₀, τ.steps[0]? = some s₀ ∧ v ∈ s₀.state.elems)) := by
  have hgen := forwardStep_ok h
  obtain ⟨s, hs, -, -, -, hval⟩ := hgen
  refine ⟨s, hs, fun v hv => ?_⟩
  unfold forwardStep at h
  rw [hs] at h
  dsimp only at h
  split at h
  · cases h
  · simp only [Except.ok.injEq] at h
    by_cases ho : v ∈ s.outs
    · refine Or.inl ⟨ho, ?_⟩
      by_contra hc
      rw [not_or] at hc
      apply hv
      rw [← h]
      dsimp only
      rw [clearAll_apply, if_pos]
      rw [List.mem_filter]
      refine ⟨ho, ?_⟩
      simp only [decide_eq_true_eq]
      refine ⟨hc.1, ?_⟩
      by_cases h1 : wa = true
      · by_cases h2 : st = .work
        · exact Or.inr fun h3 => hc.2 ⟨h1, h2, h3⟩
        · exact Or.inl (by simp [h1, h2])
      · exact Or.inl (by simp [h1])
    · refine Or.inr ⟨ho, ?_, fun hk hm => ?_⟩
      · have e : recompute s.blocks τ.heap v = τ.heap v := by
          apply recompute_of_not_out
          intro b hb hbo
          exact ho (CStep.mem_outs.2 ⟨b, hb, hbo⟩)
        rcases hval v with e' | ⟨e', -⟩
        · rw [e', e] at hv; exact hv
        · rw [e'] at hv; exact absurd rfl hv
      · by_contra hc
        rw [not_or, not_or] at hc
        apply hv
        rw [← h]
        dsimp only
        rw [clearAll_apply, if_neg (fun hm => ho (List.mem_filter.1 hm).1), hsm]
        refine clearState_cleared hk ?_ ?_
        · rw [List.mem_filter]
          exact ⟨hm, by simp only [decide_eq_true_eq]; exact ⟨hc.1, hc.2.1⟩⟩
        · rw [List.getElem?_set]
          rw [if_neg hk]
          cases h0 : τ.steps[0]? with
          | none => rfl
          | some s₀ =>
            simp only [Option.map_some, Option.getD_some]
            rw [Bool.eq_false_iff]
            intro hm'
            exact hc.2.2 ⟨s₀, h0, List.contains_iff_mem.1 hm'⟩

/-- The invariant of the forward sweep before step `k`: of the outputs of the steps before it, only those that step `k` starts
with, those to be kept and those in `K` are in working memory. -/
structure Work (L : List (List BV × List BV)) (K : BV → Prop) (keepJ : List BV) (N k : Nat) (τ : CTape V T A) : Prop where
  adj : τ.steps.map (fun s => (s.outs, s.adjDeps.elems)) = L
  live : LiveOK (fun _ => True) τ
  globals : Globals false τ
  length : τ.steps.length = N
  total : τ.mgr.total = some N
  work : ∀ j s v, j < k → τ.steps[j]? = some s → v ∈ s.outs → (τ.heap v).ckpt ≠ none →
    v ∈ keepJ ∨ (∃ s', τ.steps[k]? = some s' ∧ v ∈ s'.state.elems) ∨ K v

theorem map_set_same {X Y : Type*} {l : List X} {k : Nat} {s s' : X} {f : X → Y} (h : l[k]? = some s) (hf : f s' = f s) :
    (l.set k s').map f = l.map f := by
  rw [List.map_set, hf]
  apply List.ext_getElem?
  intro i
  rw [List.getElem?_set]
  by_cases hi : k = i
  · subst hi
    have hlt : k < (l.map f).length := by
      rw [List.length_map]
      by_contra hc
      rw [List.getElem?_eq_none (by omega)] at h
      cases h
    rw [if_pos rfl, if_pos hlt, List.getElem?_map, h]
    rfl
  · rw [if_neg hi]

theorem Work.forwardStep {L : List (List BV × List BV)} {K : BV → Prop} {keepJ : List BV} {N k : Nat} {first wi wa : Bool} {st : Storage} {τ τ' : CTape V T A}
    (h : Work L K keepJ N k τ) (hr : forwardStep k first wi wa st keepJ τ = .ok τ')
    (hK : wa = true → st = .work → ∀ p v, L[k]? = some p → v ∈ p.1 → v ∈ p.2 → K v) :
    Work L K keepJ N (k + 1) τ' := by
  have hsh := forwardStep_shape hr
  obtain ⟨s, hs, hw⟩ := forwardStep_work hr h.globals.singleMem
  have hadj : τ'.steps.map (fun s => (s.outs, s.adjDeps.elems)) = τ.steps.map (fun s => (s.outs, s.adjDeps.elems)) := by
    obtain ⟨s₀, e1, e2, -⟩ := forwardStep_ok hr
    rw [e2]
    refine map_set_same e1 ?_
    split <;> rfl
  refine ⟨hadj.trans h.adj, hsh.liveOK h.live, h.globals.shape hsh, hsh.length.trans h.length, hsh.total.trans h.total, fun j s₁ v hj hs₁ hv hc => ?_⟩
  obtain ⟨s₂, g1, g2, g3⟩ := hsh.getElem? hs₁
  have hv₂ : v ∈ s₂.outs := by
    rw [CStep.mem_outs] at hv ⊢
    rw [g2] at hv
    exact hv
  have hkeep : v ∈ τ.toKeep k keepJ → v ∈ keepJ ∨ ∃ s', τ'.steps[k + 1]? = some s' ∧ v ∈ s'.state.elems := by
    intro hm
    unfold toKeep at hm
    rcases List.mem_append.1 hm with hm | hm
    · right
      rw [h.total] at hm
      dsimp only at hm
      by_cases hlt : k + 1 < N
      · rw [if_pos (decide_eq_true hlt)] at hm
        split at hm
        · rename_i s₃ h₃
          obtain ⟨s₄, e1, e2, e3⟩ := hsh.getElem?' h₃
          exact ⟨s₄, e1, by rw [e3]; exact hm⟩
        · cases hm
      · rw [if_neg (by simpa using hlt)] at hm
        cases hm
    · exact Or.inl hm
  have hnot : (∃ s₀, τ.steps[0]? = some s₀ ∧ v ∈ s₀.state.elems) → False := by
    rintro ⟨s₀, e1, e2⟩
    obtain ⟨b, hb, hbo⟩ := CStep.mem_outs.1 hv₂
    exact h.live.init s₀ e1 v e2 b (mem_blocks.2 ⟨j, s₂, g1, hb⟩) hbo
  rcases hw v hc with ⟨ho, hk | ⟨e1, e2, e3⟩⟩ | ⟨ho, hc', hk⟩
  · rcases hkeep hk with h1 | h1
    · exact Or.inl h1
    · exact Or.inr (Or.inl h1)
  · exact Or.inr (Or.inr (hK e1 e2 (s.outs, s.adjDeps.elems) v (by rw [← h.adj, List.getElem?_map, hs]; rfl) ho e3))
  · rcases Nat.lt_or_ge j k with hlt | hge
    · rcases h.work j s₂ v hlt g1 hv₂ hc' with h1 | ⟨s', e1, e2⟩ | h1
      · exact Or.inl h1
      · rw [hs] at e1
        cases e1
        rcases hk (by omega) e2 with h2 | h2 | h2
        · rcases hkeep h2 with h1 | h1
          · exact Or.inl h1
          · exact Or.inr (Or.inl h1)
        · exact absurd (h.globals.init v h2) hnot
        · exact absurd h2 hnot
      · exact Or.inr (Or.inr h1)
    · have : j = k := by omega
      subst this
      rw [hs] at g1
      cases g1
      exact absurd hv₂ ho

theorem Work.forwardSteps {L : List (List BV × List BV)} {K : BV → Prop} {keepJ : List BV} {N n0 n k : Nat} {wi wa : Bool}
    {st : Storage} {τ τ' : CTape V T A} (h : Work L K keepJ N k τ) (hr : forwardSteps n0 wi wa st keepJ n k τ = .ok τ')
    (hK : wa = true → st = .work → ∀ j p v, k ≤ j → j < k + n → L[j]? = some p → v ∈ p.1 → v ∈ p.2 → K v) :
    Work L K keepJ N (k + n) τ' := by
  induction n generalizing k τ with
  | zero => cases hr; exact h
  | succ n ih =>
    unfold CTape.forwardSteps at hr
    split at hr
    · cases hr
    · rename_i τ₁ h₁
      have h2 := h.forwardStep h₁ fun e1 e2 p v => hK e1 e2 k p v (Nat.le_refl _) (by omega)
      have e : k + (n + 1) = k + 1 + n := by omega
      rw [e]
      exact ih h2 hr fun e1 e2 j p v e3 e4 => hK e1 e2 j p v (by omega) (by omega)

theorem Work.sweep [Add A] {L : List (List BV × List BV)} {K : BV → Prop} {keepJ : List BV} {N n : Nat} {m : Bool} {acts : List Action}
    (hx : Exact n N acts) {τ τ' : CTape V T A} (h : Work L K keepJ N n τ) (hr : acts.foldlM (perform m keepJ) τ = .ok τ')
    (hK : ∀ a ∈ acts, ∀ k, k < N → a.keepsInWork k → ∀ p v, L[k]? = some p → v ∈ p.1 → v ∈ p.2 → K v) :
    Work L K keepJ N N τ' := by
  have cur : ∀ {k : Nat} {τ : CTape V T A} (a : Action), Work L K keepJ N k τ →
      Work L K keepJ N k { τ with mgr := { τ.mgr with current := a } } := fun a h =>
    ⟨h.adj, ⟨h.live.dep, h.live.carry, h.live.init⟩, ⟨h.globals.init, h.globals.singleMem⟩, h.length, h.total, h.work⟩
  induction hx generalizing τ with
  | done N =>
    rw [List.foldlM_cons] at hr
    cases hr
    exact ⟨h.adj, ⟨h.live.dep, h.live.carry, h.live.init⟩, ⟨h.globals.init, h.globals.singleMem⟩, h.length, h.total, h.work⟩
  | step n0 n1 N wi wa st as hlt hle hx ih =>
    rw [List.foldlM_cons] at hr
    cases h₁ : perform m keepJ τ (.forward n0 (some n1) wi wa st) with
    | error e => rw [h₁] at hr; cases hr
    | ok τ₁ =>
      rw [h₁] at hr
      have hc : forwardCount n0 (some n1) τ.mgr.total = n1 - n0 := by
        rw [h.total]
        simp only [forwardCount]
        omega
      unfold perform process at h₁
      dsimp only at h₁
      rw [hc] at h₁
      have h2 := (cur (.forward n0 (some n1) wi wa st) h).forwardSteps h₁ fun e1 e2 j p v e3 e4 =>
        hK (.forward n0 (some n1) wi wa st) (by simp) j (by omega) ⟨e1, e2, e3, fun m hm => by cases hm; omega⟩ p v
      have e : n0 + (n1 - n0) = n1 := by omega
      rw [e] at h2
      exact ih h2 hr (fun a ha => hK a (List.mem_cons_of_mem _ ha)) cur
  | last n0 N wi wa st as hlt hx ih =>
    rw [List.foldlM_cons] at hr
    cases h₁ : perform m keepJ τ (.forward n0 none wi wa st) with
    | error e => rw [h₁] at hr; cases hr
    | ok τ₁ =>
      rw [h₁] at hr
      have hc : forwardCount n0 none τ.mgr.total = N - n0 := by rw [h.total]; rfl
      unfold perform process at h₁
      dsimp only at h₁
      rw [hc] at h₁
      have h2 := (cur (.forward n0 none wi wa st) h).forwardSteps h₁ fun e1 e2 j p v e3 e4 =>
        hK (.forward n0 none wi wa st) (by simp) j (by omega) ⟨e1, e2, e3, fun m hm => by cases hm⟩ p v
      have e : n0 + (N - n0) = N := by omega
      rw [e] at h2
      exact ih h2 hr (fun a ha => hK a (List.mem_cons_of_mem _ ha)) cur

theorem Recorded.globals {sch : Schedule} {h : Heap V T A} {es : List (Event V T A)} {τ : CTape V T A}
    (hr : Recorded sch h es τ) : Globals sch.singleMem τ := by
  obtain ⟨gc, pk, eager, τ₀, hgc, h1, h2⟩ := hr.recorded
  exact recording_globals es (enable_globals h1) h2

theorem Globals.onHeap {sm : Bool} {τ : CTape V T A} (f : Heap V T A → Heap V T A) (h : Globals sm τ) : Globals sm (τ.onHeap f) :=
  ⟨h.init, h.singleMem⟩

theorem History.globals [Add A] [Zero A] [Mul V] {sm : Bool} {truthy : V → Bool} {cs : List BV} {τ τ' : CTape V T A}
    (hh : History truthy cs τ τ') (h : Globals sm τ) : Globals sm τ' := by
  induction hh with
  | start => exact h
  | @call τ τ' J scale xs y _ hr ih =>
    unfold rfCall at hr
    dsimp only at hr
    split at hr
    · cases hr
    · rename_i τ₂ h₂
      simp only [Except.ok.injEq, Prod.mk.injEq] at hr
      obtain ⟨-, rfl⟩ := hr
      unfold recomputeTape at h₂
      split at h₂
      · cases h₂
      · rename_i τ₁ h₁
        have h3 := finishTaping_globals h₁ (ih.onHeap _)
        have h4 := Globals.shape (τ := { τ₁ with mgr := { τ₁.mgr with mode := .recompute } }) ⟨h3.init, h3.singleMem⟩
          (forwardSweep_clean (fun _ => False) (fun v => (τ.heap v).output) h₂).1
        exact h4.onHeap _
  | @derivative τ τ' J a ds _ hr ih =>
    unfold rfDerivative at hr
    split at hr
    · cases hr
    · rename_i τ₃ h₃
      simp only [Except.ok.injEq, Prod.mk.injEq] at hr
      obtain ⟨-, rfl⟩ := hr
      unfold evaluateAdjTape at h₃
      split at h₃
      · cases h₃
      · rename_i τ₁ h₁
        split at h₃
        · cases h₃
        · split at h₃
          · cases h₃
          · rename_i τ₂ h₂
            cases h₃
            have h3 := finishTaping_globals h₁ (ih.onHeap _)
            have h4 := h3.shape (reverseSweep_clean (fun _ => False) (fun v => (τ.heap v).output) h₂).1
            exact ⟨h4.init, h4.singleMem⟩

/-- **C69**: after an evaluation of the functional, whatever was recorded and done before, the working memory holds no value that
an operation of the tape computes, except that of the functional and what an action of the schedule keeps there for the adjoint of
its steps.  For every well-formed schedule other than the ones that keep everything in memory (`SingleMemoryStorageSchedule`). -/
theorem evaluation_working_memory [Add A] [Zero A] [Mul V] {sch : Schedule} {h : Heap V T A} {es : List (Event V T A)}
    {τ₀ τ τ' : CTape V T A} (hr : Recorded sch h es τ₀) (hsm : sch.singleMem = false) {truthy : V → Bool} {cs : List BV}
    (hh : History truthy cs τ₀ τ) {J : BV} {scale : V} {xs : List V} {y : V} (hc : rfCall truthy J cs scale xs τ = .ok (y, τ'))
    (b : Block V T A) (hb : b ∈ Event.blocks es) (v : BV) (hv : v ∈ b.outs) (hm : (τ'.heap v).ckpt ≠ none) :
    v = J ∨ ∃ k s a, τ'.steps[k]? = some s ∧ v ∈ s.outs ∧ v ∈ s.adjDeps.elems ∧ a ∈ τ'.mgr.fwd ∧ a.keepsInWork k := by
  have hst : Stable (fun _ => False) (Event.blocks es) (fun v => (h v).output) := fun b _ i o _ hP => absurd hP id
  have hal := History.alive hr.wellFormed hst (fun _ hP => absurd hP id) hh (hr.alive (fun _ => False))
  have hgl := hh.globals hr.globals
  rw [hsm] at hgl
  have hkeep : ∀ w ∈ (τ.onHeap fun h => markControls cs true (updateControls cs xs h)).keepFunctional truthy J, w = J := by
    intro w hw
    unfold keepFunctional at hw
    split at hw
    · exact List.mem_singleton.1 hw
    · cases hw
  unfold rfCall at hc
  dsimp only at hc
  generalize keepFunctional truthy J _ = keepJ at hc hkeep
  split at hc
  · cases hc
  · rename_i τ₂ h₂
    simp only [Except.ok.injEq, Prod.mk.injEq] at hc
    obtain ⟨-, rfl⟩ := hc
    unfold recomputeTape at h₂
    split at h₂
    · cases h₂
    · rename_i τ₁ h₁
      obtain ⟨⟨N, c1⟩, c2, -, -⟩ := finishTaping_core hr.wellFormed
        (onHeap_state (heapOK_call (P := fun _ => False) (fun _ hP => absurd hP id) xs τ.heap) hal.state) h₁
      have g1 := finishTaping_globals h₁ (hgl.onHeap _)
      have hsh := (forwardSweep_clean (fun _ => False) (fun v => (h v).output) h₂).1
      have hfwd : τ₂.mgr.fwd = τ₁.mgr.fwd := hsh.fwd
      have hbl : τ₂.blocks = Event.blocks es := hsh.blocks.trans c1.blocks
      have hm' : (τ₂.heap v).ckpt ≠ none := by
        have e : (markControls cs false τ₂.heap v).ckpt = (τ₂.heap v).ckpt := by rw [markControls_apply]; split <;> rfl
        rw [← e]; exact hm
      unfold forwardSweep at h₂
      split at h₂
      · split at h₂
        · cases h₂
        · rename_i s₀ hs₀
          have hw := Work.sweep (L := τ₁.steps.map (fun s => (s.outs, s.adjDeps.elems)))
            (K := fun v => ∃ k p a, (τ₁.steps.map (fun s => (s.outs, s.adjDeps.elems)))[k]? = some p ∧ v ∈ p.1 ∧ v ∈ p.2 ∧
              a ∈ τ₁.mgr.fwd ∧ a.keepsInWork k) (keepJ := keepJ) (m := false)
            (τ := { τ₁ with heap := s₀.restore τ₁.heap, mgr := { τ₁.mgr with mode := .recompute } }) c1.fwd
            ⟨rfl, ⟨(c1.live.mono fun _ _ => trivial).dep, (c1.live.mono fun _ _ => trivial).carry, c1.live.init⟩, ⟨g1.init, g1.singleMem⟩, c1.length, c1.total,
              fun j s v hj => absurd hj (Nat.not_lt_zero _)⟩ h₂
            (fun a ha k _ hk p v e1 e2 e3 => ⟨k, p, a, e1, e2, e3, ha, hk⟩)
          rw [← hbl] at hb
          obtain ⟨j, s, e1, e2⟩ := mem_blocks.1 hb
          rcases hw.work j s v (by rw [← hw.length]; exact lt_length e1) e1 (CStep.mem_outs.2 ⟨b, e2, hv⟩) hm' with h3 | ⟨s', h3, -⟩ | h3
          · exact Or.inl (hkeep v h3)
          · have := lt_length h3
            rw [hw.length] at this
            omega
          · obtain ⟨k, p, a, f1, f2, f3, f4, f5⟩ := h3
            rw [← hw.adj, List.getElem?_map, Option.map_eq_some_iff] at f1
            obtain ⟨s', f6, rfl⟩ := f1
            exact Or.inr ⟨k, s', a, f6, f2, f3, by show a ∈ τ₂.mgr.fwd; rw [hfwd]; exact f4, f5⟩
      · cases h₂

/-! ## Examples -/

/-- Is a value of variable `v` stored for step `i`? -/
def stored (τ : CTape V T A) (i : Nat) (v : BV) : Bool := ((τ.steps[i]?).bind fun s => s.ckpt v).isSome

/-- The tape after a computation that succeeds. -/
def after {Y : Type*} (d : CTape V T A) (r : Except CkptError (Y × CTape V T A)) : CTape V T A :=
  match r with
  | .ok (_, τ) => τ
  | .error _ => d

/-- Does the computation succeed? -/
def succeeds {Y : Type*} (r : Except CkptError (Y × CTape V T A)) : Bool :=
  match r with
  | .ok _ => true
  | .error _ => false

theorem after_spec {Y : Type*} {d : CTape V T A} {r : Except CkptError (Y × CTape V T A)} (h : succeeds r = true) :
    ∃ y, r = .ok (y, after d r) := by
  cases r with
  | error e => cases h
  | ok p => exact ⟨p.1, rfl⟩

/-- `x⁴` in two steps, recorded with the multistage schedule. -/
def powerTape : CTape Int Int Int := tapeOf emptyTape (record multistage2 (freshHeap [2, 4, 16]) exPower)

theorem powerTape_recorded : Recorded multistage2 (freshHeap [2, 4, 16]) exPower powerTape :=
  recorded_of multistage2_wellFormed exPower_wf (by decide +kernel)

/-- `storage_follows_schedule` on `x⁴`: the recording stores the state of the first step, the derivative uses it and deletes it, so
that nothing is stored afterwards. -/
example : powerTape.stored 0 0 = true ∧
    ∀ i, ¬ (after emptyTape (rfDerivative 2 [0] 1 powerTape)).Holds i := by
  refine ⟨by decide +kernel, fun i hi => ?_⟩
  obtain ⟨y, hd⟩ := after_spec (d := emptyTape) (r := rfDerivative 2 [0] 1 powerTape) (by decide +kernel)
  have := storage_follows_schedule powerTape_recorded
    (.derivative (truthy := fun x : Int => x != 0) .start hd) i hi
  have e : powerTape.mgr.fwd ++ ((after emptyTape (rfDerivative 2 [0] 1 powerTape)).mgr.fwd.drop powerTape.mgr.fwd.length ++
      (after emptyTape (rfDerivative 2 [0] 1 powerTape)).mgr.rev) = multistage2.acts := by decide +kernel
  rw [e] at this
  obtain ⟨p, a, q, e, hw, hq⟩ := this
  unfold multistage2 at e
  rcases p with _ | ⟨_, p⟩
  · cases e
    have : i = 0 := by
      obtain ⟨-, -, h3, -⟩ := hw
      have := h3 1 rfl
      omega
    subst this
    exact hq .ram (by decide)
  iterate 7
    rcases p with _ | ⟨_, p⟩
    · cases e
      first
        | exact hw
        | exact hw.1 rfl
  cases p <;> cases e

/-- Everything is recomputed from the state of the first step. -/
def restart3 : Schedule where
  acts := [.forward 0 (some 3) true false .ram, .endForward]
  maxN := 3

theorem restart3_wellFormed : restart3.WellFormed :=
  Or.inl ⟨by decide +kernel, .step 0 3 3 _ _ _ _ (by decide +kernel) (by decide +kernel) (.done _ _)⟩

/-- `x⁶` in three steps. -/
def sixthTape : CTape Int Int Int := tapeOf emptyTape (record restart3 (freshHeap [2, 4, 16, 64]) exSixth)

theorem sixthTape_recorded : Recorded restart3 (freshHeap [2, 4, 16, 64]) exSixth sixthTape :=
  recorded_of restart3_wellFormed exSixth_wf (by decide +kernel)

/-- `evaluation_working_memory` on `x⁶`: of what the three steps compute, only the value of the functional is in memory
afterwards. -/
example : ((after emptyTape (rfCall (fun x : Int => x != 0) 3 [0] 1 [3] sixthTape)).heap 3).ckpt = some 729 ∧
    ∀ v, v = 1 ∨ v = 2 → ((after emptyTape (rfCall (fun x : Int => x != 0) 3 [0] 1 [3] sixthTape)).heap v).ckpt = none := by
  refine ⟨by decide +kernel, fun v hv => ?_⟩
  obtain ⟨y, hd⟩ := after_spec (d := emptyTape) (r := rfCall (fun x : Int => x != 0) 3 [0] 1 [3] sixthTape) (by decide +kernel)
  by_contra hc
  have hb : ∃ b ∈ Event.blocks exSixth, v ∈ b.outs := by
    rcases hv with rfl | rfl
    · exact ⟨mulBlk 0 0 1, by simp [exSixth, Event.blocks], by simp [mulBlk]⟩
    · exact ⟨mulBlk 1 1 2, by simp [exSixth, Event.blocks], by simp [mulBlk]⟩
  obtain ⟨b, hb, hbv⟩ := hb
  rcases evaluation_working_memory sixthTape_recorded rfl (.start _) hd b hb v hbv hc with h | ⟨k, s, a, -, -, -, ha, hk⟩
  · rcases hv with rfl | rfl <;> cases h
  · have e : (after emptyTape (rfCall (fun x : Int => x != 0) 3 [0] 1 [3] sixthTape)).mgr.fwd = restart3.acts := by decide +kernel
    rw [e] at ha
    simp only [restart3, List.mem_cons, List.not_mem_nil, or_false] at ha
    rcases ha with rfl | rfl
    · cases hk.1
    · exact hk

/-- `SingleMemoryStorageSchedule` for two steps. -/
def singleMemory2 : Schedule where
  acts := [.forward 0 (some 2) false true .work, .endForward, .reverse 2 0 true, .endReverse]
  maxN := 2
  singleMem := true

theorem singleMemory2_wellFormed : singleMemory2.WellFormed :=
  Or.inl ⟨by decide +kernel, .step 0 2 2 _ _ _ _ (by decide +kernel) (by decide +kernel) (.done _ _)⟩

/-- Step 0 computes `u = y * y`, step 1 computes `J = u * x`. -/
def exSide : List (Event Int Int Int) := [.block (mulBlk 0 0 1), .endTimestep, .block (mulBlk 1 2 3), .endTimestep]

theorem exSide_wf : WF (Event.blocks exSide) := by
  refine ⟨by decide +kernel, ?_, ?_⟩ <;> simp [exSide, Event.blocks, mulBlk]

def sideTape : CTape Int Int Int := tapeOf emptyTape (record singleMemory2 (freshHeap [2, 4, 3, 12]) exSide)

def sideTape₁ : CTape Int Int Int := after emptyTape (rfDerivative 3 [2] 1 sideTape)

def sideTape₂ : CTape Int Int Int := after emptyTape (rfCall (fun x : Int => x != 0) 3 [2] 1 [5] sideTape₁)

/-- **`evaluation_working_memory` fails for `SingleMemoryStorageSchedule`**: once a derivative has shown that `u` is not needed for
the adjoint, evaluations go on keeping it, since values of the first two steps are never forgotten with this schedule
(`checkpointing.py:361-365`). -/
theorem single_memory_keeps :
    Recorded singleMemory2 (freshHeap [2, 4, 3, 12]) exSide sideTape ∧ History (fun x : Int => x != 0) [2] sideTape sideTape₁ ∧
    (∃ y, rfCall (fun x : Int => x != 0) 3 [2] 1 [5] sideTape₁ = .ok (y, sideTape₂)) ∧
    (sideTape₂.heap 1).ckpt = some 4 ∧ ∀ s ∈ sideTape₂.steps, 1 ∉ s.adjDeps.elems := by
  refine ⟨recorded_of singleMemory2_wellFormed exSide_wf (by decide +kernel), ?_, ?_, by decide +kernel, by decide +kernel⟩
  · obtain ⟨y, hd⟩ := after_spec (d := emptyTape) (r := rfDerivative 3 [2] 1 sideTape) (by decide +kernel)
    exact .derivative (.start _) hd
  · exact after_spec (d := emptyTape) (r := rfCall (fun x : Int => x != 0) 3 [2] 1 [5] sideTape₁) (by decide +kernel)

end CTape
end Pyadjoint
