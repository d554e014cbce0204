import Verif.Proofs.Taping
import Verif.Spec.Schedule

/-!
# C23: recording and misuse under a checkpoint schedule

The theorems of the first part hold for every schedule whatsoever, that is, for every list of actions.
-/

namespace Pyadjoint
namespace CTape

variable {V T A : Type*}

theorem endTaping_ok {sch : List Action} {N : Option Nat} {τ τ' : CTape V T A}
    (hτ : Track sch N τ) (hN : N = if τ.mgr.maxN = 0 then none else some τ.mgr.maxN)
    (h : endTaping τ = .ok τ') :
    τ'.mgr.mode = .evaluated ∧ τ'.blocks = τ.blocks ∧ τ'.mgr.total = some τ'.steps.length ∧
    τ'.mgr.rev = [] ∧
    (τ.mgr.maxN ≠ 0 → τ'.steps.length = τ.mgr.maxN ∧ τ'.mgr.fwd ++ τ'.mgr.acts = sch) ∧
    (τ.mgr.maxN = 0 → τ'.steps.length = τ.steps.length ∧
      τ'.mgr.fwd ++ τ'.mgr.acts = τ.mgr.fwd ++ τ.mgr.afterFinal τ.steps.length) ∧
    τ'.mgr.fwd.getLast? = some .endForward ∧ τ'.mgr.current = .endForward := by
  have hlat : τ.latest + 1 = τ.steps.length := by
    have := hτ.pos
    unfold latest; omega
  unfold endTaping at h
  by_cases h0 : τ.mgr.maxN = 0
  · have hrec : τ.mgr.mode = .record := by
      refine hτ.mode.resolve_right fun he => ?_
      have := hτ.eq he
      rw [hτ.total, hN, if_pos h0] at this
      cases this
    have hfin : τ.finalize = { τ with mgr := { τ.mgr with
        acts := τ.mgr.afterFinal τ.steps.length,
        maxN := τ.steps.length, total := some τ.steps.length } } := by
      simp [finalize, h0]
    have hτ' : Track (τ.mgr.fwd ++ τ.mgr.afterFinal τ.steps.length) (some τ.steps.length)
        τ.finalize := by
      rw [hfin]
      refine ⟨⟨hτ.pos, hτ.mode, fun n hn => ?_, fun _ => rfl⟩, rfl, hτ.last, hτ.finished, hτ.rev, rfl⟩
      simp only [Option.some.injEq] at hn
      exact hn ▸ le_refl _
    have hs : τ.finalize.steps = τ.steps := by rw [hfin]
    have hb : τ.finalize.blocks = τ.blocks := by rw [hfin]; rfl
    obtain ⟨g1, g2, g3, g4⟩ := track_endTapingLoop _ hτ' (fun _ => by rw [hs]; exact hlat) h
    have hlen : τ'.steps.length = τ.steps.length := by
      have := g1.eq g2
      rw [g1.total] at this
      simpa using this.symm
    refine ⟨g2, g3.trans hb, g1.eq g2, g1.rev, fun h => absurd h0 h, fun _ => ⟨hlen, g1.sched⟩, ?_⟩
    rw [g1.last, g1.finished.1 g2]
    exact ⟨rfl, rfl⟩
  · have hfin : τ.finalize = τ := by simp [finalize, h0]
    rw [hfin] at h
    rw [if_neg h0] at hN
    subst hN
    obtain ⟨g1, g2, g3, g4⟩ := track_endTapingLoop _ hτ (fun _ => hlat) h
    have hlen : τ'.steps.length = τ.mgr.maxN := by
      have := g1.eq g2
      rw [g1.total] at this
      simpa using this.symm
    refine ⟨g2, g3, g1.eq g2, g1.rev, fun _ => ⟨hlen, g1.sched⟩, fun h => absurd h h0, ?_⟩
    rw [g1.last, g1.finished.1 g2]
    exact ⟨rfl, rfl⟩

/-- **C23**: whatever the schedule, if recording a program under a checkpoint schedule and finishing
the recording raises no exception, then the tape holds exactly the operations of the program, in order,
in exactly as many time steps as the schedule announced; a schedule that announced no number gets
one more step than the program ended. -/
theorem recorded_steps {sch : Schedule} {gc : Option Int} {pk : Bool} {h : Heap V T A} {eager : Bool}
    {es : List (Event V T A)} {τ₀ τ τ' : CTape V T A} (he : enable sch gc pk h [] eager = .ok τ₀)
    (hr : recording es τ₀ = .ok τ) (hf : endTaping τ = .ok τ') :
    τ'.blocks = Event.blocks es ∧ τ'.mgr.mode = .evaluated ∧
    τ'.mgr.total = some τ'.steps.length ∧
    (sch.maxN ≠ 0 → τ'.steps.length = sch.maxN) ∧
    (sch.maxN = 0 → τ'.steps.length = Event.ends es + 1) := by
  obtain ⟨t1, t2, t3, t4, t5, t6, t7⟩ := track_enable he
  obtain ⟨r1, r2, r3, r4, r5, r6, r7, r8⟩ := track_recording es t1 hr
  have hmax : τ.mgr.maxN = sch.maxN := r4.trans t5
  obtain ⟨f1, f2, f3, f4, f5, f6, f7⟩ := endTaping_ok r1 (by rw [hmax]) hf
  refine ⟨by rw [f2, r2, t4, List.nil_append], f1, f3, fun h0 => ?_, fun h0 => ?_⟩
  · rw [← hmax] at h0 ⊢
    exact (f5 h0).1
  · rw [← hmax] at h0
    rw [(f6 h0).1]
    rcases r1.mode with hm | hm
    · rw [r6 hm, t3]; omega
    · exfalso
      have := r1.eq hm
      rw [r1.total, ← hmax, if_pos h0] at this
      cases this

/-- **C23**: whatever the schedule, a program that ends more time steps than the schedule has gets
an exception. -/
theorem too_many_timesteps {sch : Schedule} {gc : Option Int} {pk : Bool} {h : Heap V T A}
    {eager : Bool} {es : List (Event V T A)} {τ₀ : CTape V T A}
    (he : enable sch gc pk h [] eager = .ok τ₀) (hN : sch.maxN ≠ 0)
    (hends : sch.maxN < Event.ends es) : ∃ e, recording es τ₀ = .error e := by
  obtain ⟨t1, t2, t3, t4, t5, t6, t7⟩ := track_enable he
  cases hr : recording es τ₀ with
  | error e => exact ⟨e, rfl⟩
  | ok τ =>
    exfalso
    obtain ⟨r1, r2, r3, r4, r5, r6, r7, r8⟩ := track_recording es t1 hr
    have hle := r1.le sch.maxN (by rw [r1.total, if_neg hN])
    rcases r1.mode with hm | hm
    · have := r6 hm
      omega
    · have := r7 hm t2
      omega

/-- **C23**: whatever the schedule, when the recording of a program is complete, ending another time step raises "Not enough
timesteps in schedule". -/
theorem end_timestep_after_end {sch : Schedule} {gc : Option Int} {pk : Bool} {h : Heap V T A} {eager : Bool}
    {es : List (Event V T A)} {τ₀ τ τ' : CTape V T A} (he : enable sch gc pk h [] eager = .ok τ₀)
    (hr : recording es τ₀ = .ok τ) (hf : endTaping τ = .ok τ') :
    endTimestep τ' = .error .notEnoughTimesteps := by
  simp [endTimestep, mgrEndTimestep, (recorded_steps he hr hf).2.1]

theorem evaluateAdjTape_mode [Add A] {m : Bool} {τ τ' : CTape V T A}
    (h : evaluateAdjTape m τ = .ok τ') : τ'.mgr.mode = .evaluateAdjoint := by
  unfold evaluateAdjTape at h
  split at h
  · cases h
  · split at h
    · cases h
    · split at h
      · cases h
      · cases h
        rfl

/-- **C23**: whatever the schedule and the state, after one adjoint evaluation another one without
re-evaluating the functional raises "Evaluate Functional before calling gradient". -/
theorem adjoint_twice_raises [Add A] {m m' : Bool} {τ τ' : CTape V T A}
    (h : evaluateAdjTape m τ = .ok τ') : evaluateAdjTape m' τ' = .error .evaluateFirst := by
  simp [evaluateAdjTape, finishTaping, canReverse, evaluateAdjTape_mode h]

/-- The same for the derivative of a reduced functional: two calls of `derivative` in a row. -/
theorem derivative_twice_raises [Add A] [Zero A] {J J' : BV} {cs cs' : List BV} {a a' : A}
    {τ τ' : CTape V T A} {ds : List A} (h : rfDerivative J cs a τ = .ok (ds, τ')) :
    rfDerivative J' cs' a' τ' = .error .evaluateFirst := by
  unfold rfDerivative at h
  split at h
  · cases h
  · rename_i τ₁ h₁
    cases h
    simp [rfDerivative, evaluateAdjTape, finishTaping, canReverse, onHeap, evaluateAdjTape_mode h₁]

/-- **C23**: checkpointing cannot be enabled on a tape that has blocks. -/
theorem enable_on_used_tape {sch : Schedule} {gc : Option Int} {pk : Bool} {h : Heap V T A}
    {steps : List (CStep V T A)} {eager : Bool} (hs : ∃ s ∈ steps, s.blocks ≠ []) :
    enable sch gc pk h steps eager = .error .notEmpty := by
  obtain ⟨s, hs, hb⟩ := hs
  have : steps.flatMap (·.blocks) ≠ [] := by
    intro h0
    rw [List.flatMap_eq_nil_iff] at h0
    exact hb (h0 s hs)
  simp [enable, this]

/-! ### Well-formed schedules: no exception, and a shorter program is padded -/

theorem storeEnded_exists {t : Nat} {ss sa : Bool} {τ : CTape V T A} (h0 : 0 < t)
    (h : t ≤ τ.steps.length) : ∃ τ', storeEnded t ss sa τ = .ok τ' := by
  have : t - 1 < τ.steps.length := by omega
  simp [storeEnded, List.getElem?_eq_getElem this]

theorem tapingForward_exists {n0 : Nat} {n1 : Option Nat} {wi wa : Bool} {st : Storage} {t : Nat}
    {τ : CTape V T A} (hn : n0 ≤ t) (hl : t ≤ τ.steps.length) (hg : τ.mgr.gcFreq ≠ some 0) :
    ∃ d τ', tapingForward n0 n1 wi wa st t τ = .ok (d, τ') := by
  unfold tapingForward
  rw [if_neg (by omega)]
  dsimp only
  generalize hr : (if n0 < t ∧ st ≠ .work then
      storeEnded t (wi && decide (t = n0 + 1)) wa { τ with eager := wa }
      else .ok { τ with eager := wa }) = r
  have hok : ∃ τ₁, r = .ok τ₁ ∧ τ₁.mgr.gcFreq = τ.mgr.gcFreq := by
    split at hr
    · rename_i hc
      obtain ⟨τ₁, h₁⟩ := storeEnded_exists (t := t) (ss := wi && decide (t = n0 + 1)) (sa := wa)
        (τ := { τ with eager := wa }) (by omega) hl
      exact ⟨τ₁, hr.symm.trans h₁, (storeEnded_ok h₁).1.gcFreq⟩
    · exact ⟨_, hr.symm, rfl⟩
  obtain ⟨τ₁, rfl, hg₁⟩ := hok
  simp only [gcRaises, hg₁, hg, decide_false, Bool.false_eq_true, if_false]
  split
  · exact ⟨_, _, rfl⟩
  · exact ⟨_, _, rfl⟩

theorem endTimestepLoop_tiling {N n0 t : Nat} {acts : List Action} {τ : CTape V T A}
    (ht : Tiling n0 N (τ.mgr.current :: acts)) (hn : n0 ≤ t) (hN : t ≤ N)
    (hl : τ.steps.length = t) (htot : τ.mgr.total = some N) (hg : τ.mgr.gcFreq ≠ some 0) :
    ∃ τ', endTimestepLoop t acts τ = .ok τ' ∧
      ∃ n0', Tiling n0' N (τ'.mgr.current :: τ'.mgr.acts) ∧ n0' ≤ t := by
  induction acts generalizing τ n0 with
  | nil =>
    unfold endTimestepLoop
    cases hc : τ.mgr.current with
    | endForward =>
      rw [hc] at ht
      cases ht
      have : t = N := by omega
      subst this
      refine ⟨_, by simp [processTaping, htot]; rfl, t, ?_, le_refl _⟩
      simp only [hc]
      exact Tiling.done _ _
    | forward m0 n1 wi wa st => rw [hc] at ht; cases ht <;> rename_i h <;> cases h
    | reverse _ _ _ => rw [hc] at ht; cases ht
    | copy _ _ => rw [hc] at ht; cases ht
    | move _ _ => rw [hc] at ht; cases ht
    | endReverse => rw [hc] at ht; cases ht
  | cons a acts ih =>
    unfold endTimestepLoop
    cases hc : τ.mgr.current with
    | endForward =>
      rw [hc] at ht
      cases ht
      have : t = N := by omega
      subst this
      refine ⟨_, by simp [processTaping, htot]; rfl, t, ?_, le_refl _⟩
      simp only [hc]
      exact Tiling.done _ _
    | forward m0 n1 wi wa st =>
      have hm0 : m0 = n0 := by rw [hc] at ht; cases ht <;> rfl
      subst hm0
      obtain ⟨d, τ₁, h₁⟩ := tapingForward_exists (n0 := m0) (n1 := n1) (wi := wi) (wa := wa) (st := st)
        (τ := τ) hn (by omega) hg
      obtain ⟨-, hs, hm, hd, hlen⟩ := tapingForward_ok h₁
      simp only [processTaping, h₁]
      cases d with
      | true =>
        refine ⟨_, rfl, m0, ?_, hn⟩
        simp only [hs.current]
        exact ht
      | false =>
        simp only [Bool.false_eq_true, if_false, Nat.add_zero] at hlen
        have hnext : ∃ n0', Tiling n0' N (a :: acts) ∧ n0' ≤ t := by
          rw [hc] at ht
          rw [htot] at hd
          cases ht with
          | step _ n1' _ _ _ _ _ hlt hle h =>
            refine ⟨n1', h, ?_⟩
            by_contra hlt'
            push Not at hlt'
            have h1 : t < N := lt_of_lt_of_le hlt' hle
            simp [inForward, ltTotal, hn, hlt', h1] at hd
          | last _ _ _ _ _ _ hlt h =>
            refine ⟨N, h, ?_⟩
            by_contra hlt'
            push Not at hlt'
            simp [inForward, ltTotal, hn, hlt'] at hd
        obtain ⟨n0', hT, hle⟩ := hnext
        exact ih (τ := { τ₁ with mgr := { τ₁.mgr with current := a, fwd := τ₁.mgr.fwd ++ [a] } })
          hT hle (hlen.trans hl) (hs.total.trans htot) (by rw [← hs.gcFreq] at hg; exact hg)
    | reverse _ _ _ => rw [hc] at ht; cases ht
    | copy _ _ => rw [hc] at ht; cases ht
    | move _ _ => rw [hc] at ht; cases ht
    | endReverse => rw [hc] at ht; cases ht

/-- The state of a recording under a well-formed schedule. -/
structure Tiled (N : Nat) (τ : CTape V T A) : Prop where
  tiling : ∃ n0, Tiling n0 N (τ.mgr.current :: τ.mgr.acts) ∧ n0 ≤ τ.steps.length
  total : τ.mgr.total = some N
  gc : τ.mgr.gcFreq ≠ some 0

theorem mgrEndTimestep_tiled {sch : List Action} {N t : Nat} {τ : CTape V T A}
    (hτ : Track sch (some N) τ) (hT : Tiled N τ) (ht : t = τ.steps.length)
    (hm : τ.mgr.mode = .record) : ∃ τ', mgrEndTimestep t τ = .ok τ' ∧ Tiled N τ' := by
  subst ht
  obtain ⟨n0, h1, h2⟩ := hT.tiling
  obtain ⟨τ', h', n0', h3, h4⟩ := endTimestepLoop_tiling h1 h2 (hτ.le N hT.total) rfl hT.total hT.gc
  have hok : mgrEndTimestep τ.steps.length τ = .ok τ' := by simp [mgrEndTimestep, hm, h']
  obtain ⟨f1, f2, f3, f4, f5, f6, f7⟩ := track_endTimestep hτ rfl hok
  refine ⟨τ', hok, ⟨n0', h3, ?_⟩, f1.total, by rw [f3]; exact hT.gc⟩
  rcases f1.mode with hm' | hm'
  · rw [f6 hm']; omega
  · rw [f7 hm']; omega

theorem recording_tiled {sch : List Action} {N : Nat} (es : List (Event V T A)) {τ : CTape V T A}
    (hτ : Track sch (some N) τ) (hT : Tiled N τ) (hm : τ.mgr.mode = .record)
    (hends : τ.steps.length + Event.ends es ≤ N + 1) : ∃ τ', recording es τ = .ok τ' ∧ Tiled N τ' := by
  induction es generalizing τ with
  | nil => exact ⟨τ, rfl, hT⟩
  | cons e es ih =>
    rw [recording_cons]
    cases e with
    | block b =>
      obtain ⟨hm', hl, hb⟩ := recordBlock_frame b τ
      have hτ₁ : Track sch (some N) (τ.recordBlock b) := by
        refine ⟨⟨by rw [hl]; exact hτ.pos, by rw [hm']; exact hτ.mode, by rw [hm', hl]; exact hτ.le,
          by rw [hm', hl]; exact hτ.eq⟩, by rw [hm']; exact hτ.sched, by rw [hm']; exact hτ.last,
          by rw [hm']; exact hτ.finished, by rw [hm']; exact hτ.rev, by rw [hm']; exact hτ.total⟩
      exact ih hτ₁ ⟨by rw [hm', hl]; exact hT.tiling, by rw [hm']; exact hT.total,
        by rw [hm']; exact hT.gc⟩ (by rw [hm']; exact hm) (by rw [hl]; exact hends)
    | endTimestep =>
      simp only [Event.ends] at hends
      have hlat : τ.latest + 1 = τ.steps.length := by
        have := hτ.pos
        unfold latest; omega
      obtain ⟨τ₁, h₁, hT₁⟩ := mgrEndTimestep_tiled hτ hT hlat hm
      obtain ⟨f1, f2, f3, f4, f5, f6, f7⟩ := track_endTimestep hτ hlat h₁
      simp only [event, endTimestep, h₁]
      rcases f1.mode with hm₁ | hm₁
      · exact ih f1 hT₁ hm₁ (by rw [f6 hm₁]; omega)
      · -- the recording is complete: only operations follow
        have hlen := f7 hm₁
        have hN : τ₁.steps.length = N := by
          have := f1.eq hm₁
          rw [f1.total] at this
          simpa using this.symm
        have h0 : Event.ends es = 0 := by omega
        clear ih
        have : ∀ (es : List (Event V T A)) (τ : CTape V T A), Event.ends es = 0 → Tiled N τ →
            ∃ τ', recording es τ = .ok τ' ∧ Tiled N τ' := by
          intro es
          induction es with
          | nil => exact fun τ _ h => ⟨τ, rfl, h⟩
          | cons e es ih =>
            intro τ h0 h
            cases e with
            | block b =>
              rw [recording_cons]
              obtain ⟨hm', hl, hb⟩ := recordBlock_frame b τ
              exact ih _ h0 ⟨by rw [hm', hl]; exact h.tiling, by rw [hm']; exact h.total,
                by rw [hm']; exact h.gc⟩
            | endTimestep => simp [Event.ends] at h0
        exact this es τ₁ h0 hT₁

theorem endTapingLoop_tiled {sch : List Action} {N : Nat} (fuel : Nat) {τ : CTape V T A} {t : Nat}
    (hτ : Track sch (some N) τ) (hT : Tiled N τ) (ht : τ.mgr.mode = .record → t = τ.steps.length)
    (hf : N + 1 ≤ fuel + t) : ∃ τ', endTapingLoop fuel t τ = .ok τ' := by
  induction fuel generalizing τ t with
  | zero =>
    unfold endTapingLoop
    split
    · exact ⟨_, rfl⟩
    · rename_i hm
      have hrec := hτ.mode.resolve_right hm
      have := hτ.le N hτ.total
      have := ht hrec
      omega
  | succ fuel ih =>
    unfold endTapingLoop
    split
    · exact ⟨_, rfl⟩
    · rename_i hm
      have hrec := hτ.mode.resolve_right hm
      obtain ⟨τ₁, h₁, hT₁⟩ := mgrEndTimestep_tiled hτ hT (ht hrec) hrec
      obtain ⟨f1, f2, f3, f4, f5, f6, f7⟩ := track_endTimestep hτ (ht hrec) h₁
      simp only [h₁]
      exact ih f1 hT₁ (fun hm₁ => by rw [f6 hm₁, ht hrec]) (by omega)

/-- **C23**: under a well-formed schedule for `N` steps, a program that ends at most `N` time steps
is recorded without exception, and finishing the recording succeeds: if the program had fewer steps,
empty ones are added. -/
theorem well_formed_schedule_records {sch : Schedule} {gc : Option Int} {pk : Bool} {h : Heap V T A}
    {eager : Bool} (es : List (Event V T A)) (hT : Tiling 0 sch.maxN sch.acts) (hN : sch.maxN ≠ 0)
    (hd : sch.usesDisk = true → pk = true) (hgc : gc ≠ some 0) (hends : Event.ends es ≤ sch.maxN) :
    ∃ τ₀ τ τ', enable sch gc pk h [] eager = .ok τ₀ ∧ recording es τ₀ = .ok τ ∧
      endTaping τ = .ok τ' ∧ τ'.blocks = Event.blocks es ∧ τ'.steps.length = sch.maxN := by
  have hen : ∃ τ₀, enable sch gc pk h [] eager = .ok τ₀ ∧ Tiled sch.maxN τ₀ := by
    unfold enable
    rw [if_neg (by simp)]
    have h1 : (sch.usesDisk && !pk) = false := by
      cases hu : sch.usesDisk with
      | false => rfl
      | true => rw [hd hu]; rfl
    rw [if_neg (by rw [h1]; exact Bool.false_ne_true)]
    cases hs : sch.acts with
    | nil =>
      rw [hs] at hT
      generalize sch.maxN = N at hT
      cases hT
    | cons a acts =>
      rw [hs] at hT
      simp only [mgrEndTimestep, if_neg hN]
      obtain ⟨τ', h', n0', h3, h4⟩ := endTimestepLoop_tiling (t := 0) (N := sch.maxN) (acts := acts)
        (τ := { heap := h, steps := [], eager := eager,
                mgr := {
                  acts := acts, maxN := sch.maxN, afterFinal := sch.afterFinal,
                  singleMem := sch.singleMem, exhausted := sch.exhausted, current := a, fwd := [a],
                  total := some sch.maxN, gcFreq := gc } })
        hT (le_refl _) (Nat.zero_le _) rfl rfl hgc
      obtain ⟨-, ht, -, -, -, hg, -, -, -⟩ := endTimestepLoop_ok h'
      refine ⟨τ', by simpa using h', ⟨n0', h3, by omega⟩, ht, ?_⟩
      rw [hg]; exact hgc
  obtain ⟨τ₀, he, hT₀⟩ := hen
  obtain ⟨t1, t2, t3, t4, t5, t6, t7⟩ := track_enable he
  rw [if_neg hN] at t1
  obtain ⟨τ, hr, hTr⟩ := recording_tiled es t1 hT₀ t2 (by omega)
  obtain ⟨r1, r2, r3, r4, r5, r6, r7, r8⟩ := track_recording es t1 hr
  have hmax : τ.mgr.maxN ≠ 0 := by rw [r4, t5]; exact hN
  have hlat : τ.latest + 1 = τ.steps.length := by
    have := r1.pos
    unfold latest; omega
  have hfin : τ.finalize = τ := by simp [finalize, hmax]
  obtain ⟨τ', hf⟩ := endTapingLoop_tiled (τ.mgr.total.getD 0 + 1) r1 hTr (fun _ => hlat)
    (by rw [r1.total]; simp only [Option.getD_some]; omega)
  have hf' : endTaping τ = .ok τ' := by simp only [endTaping, hfin]; exact hf
  obtain ⟨x1, -, -, x4, -⟩ := recorded_steps he hr hf'
  exact ⟨τ₀, τ, τ', he, hr, hf', x1, x4 hN⟩

/-! ### Non-vacuity -/

/-- One multiplication block `o = a * b` on integers. -/
def mulBlk (a b o : BV) : Block Int Int Int where
  deps := [a, b]
  outs := [o]
  recomputeC := fun xs _ => some (xs.getD 0 0 * xs.getD 1 0)
  adjC := fun xs as i => (as.getD 0 none).map (· * xs.getD (1 - i) 0)
  tlmC := fun xs ts _ => some (((ts.getD 0 none).getD 0) * xs.getD 1 0 + xs.getD 0 0 * ((ts.getD 1 none).getD 0))
  hessC := fun _ _ _ _ _ => none

/-- A multistage schedule for three steps with one snapshot in memory. -/
def exSchedule : Schedule where
  acts := [.forward 0 (some 2) true false .ram, .forward 2 (some 3) false true .work, .endForward,
    .reverse 3 2 true, .copy 0 .ram, .forward 0 (some 1) false false .none,
    .forward 1 (some 2) false true .work, .reverse 2 1 true, .move 0 .ram,
    .forward 0 (some 1) false true .work, .reverse 1 0 true, .endReverse]
  maxN := 3

/-- `well_formed_schedule_records` applies to it, for a program with two time steps. -/
example : ∃ τ₀ τ τ', enable exSchedule none false (fun v => { output := (v : Int) }) [] false = .ok τ₀ ∧
    recording [.block (mulBlk 0 0 1), .endTimestep, .block (mulBlk 1 0 2)] τ₀ = .ok τ ∧
    endTaping τ = .ok τ' ∧ τ'.blocks = [mulBlk 0 0 1, mulBlk 1 0 2] ∧ τ'.steps.length = 3 := by
  refine well_formed_schedule_records (T := Int) (A := Int)
    [.block (mulBlk 0 0 1), .endTimestep, .block (mulBlk 1 0 2)]
    ?_ (by decide) (by decide) (by decide) (by decide)
  exact .step 0 2 3 _ _ _ _ (by decide) (by decide)
    (.step 2 3 3 _ _ _ _ (by decide) (by decide) (.done _ _))

/-- `too_many_timesteps` applies to a program with four. -/
example : ∃ τ₀ : CTape Int Int Int,
    enable exSchedule none false (fun v => { output := (v : Int) }) [] false = .ok τ₀ ∧
    ∃ e, recording [.endTimestep, .endTimestep, .endTimestep, .endTimestep] τ₀ = .error e := by
  obtain ⟨τ₀, -, -, he, -⟩ := well_formed_schedule_records (T := Int) (A := Int) (V := Int)
    (sch := exSchedule) (gc := none) (pk := false) (h := fun v => { output := (v : Int) })
    (eager := false) []
    (.step 0 2 3 _ _ _ _ (by decide) (by decide)
      (.step 2 3 3 _ _ _ _ (by decide) (by decide) (.done _ _)))
    (by decide) (by decide) (by decide) (by decide)
  exact ⟨τ₀, he, too_many_timesteps he (by decide) (by decide)⟩

end CTape
end Pyadjoint
