import Verif.Proofs.CkptForward

/-! # Tapes with manager, from recording through any number of evaluations -/

namespace Pyadjoint
namespace CTape

variable {V T A : Type*}

/-- An input of the program that is not a control. -/
def Input (bs : Blocks V T A) (cs : List BV) (v : BV) : Prop := v ∉ cs ∧ ∀ b ∈ bs, v ∉ b.outs

theorem stable_input (bs : Blocks V T A) (cs : List BV) (out : BV → V) : Stable (Input bs cs) bs out := by
  intro b hb i o ho hP
  exact absurd (List.mem_of_getElem? ho) (hP.2 b hb)

/-- The functional's tape between evaluations, after the end of recording. -/
structure Core (P : BV → Prop) (out : BV → V) (N : Nat) (bs : Blocks V T A) (τ : CTape V T A) : Prop where
  pos : 0 < N
  live : LiveOK P τ
  total : τ.mgr.total = some N
  length : τ.steps.length = N
  fwd : Exact 0 N τ.mgr.fwd
  clean : Clean P out τ
  blocks : τ.blocks = bs

theorem Core.evolve {P : BV → Prop} {out : BV → V} {N : Nat} {bs : Blocks V T A} {τ τ' : CTape V T A}
    (h : Core P out N bs τ) (hst : Stable P bs out) (hs : StaysClean P out τ τ') : Core P out N bs τ' :=
  ⟨h.pos, hs.1.liveOK h.live, hs.1.total.trans h.total, hs.1.length.trans h.length,
    by rw [hs.1.fwd]; exact h.fwd, hs.2 (by rw [h.blocks]; exact hst) h.clean, hs.1.blocks.trans h.blocks⟩

/-- Changes of the heap that leave values of `P` alone. -/
structure HeapOK (P : BV → Prop) (f : Heap V T A → Heap V T A) (h : Heap V T A) : Prop where
  output : ∀ v, (f h v).output = (h v).output
  ckpt : ∀ v, P v → (f h v).ckpt = (h v).ckpt
  creation : ∀ v, (f h v).creation = (h v).creation
  lastUse : ∀ v, (f h v).lastUse = (h v).lastUse

theorem Clean.onHeap {P : BV → Prop} {out : BV → V} {τ : CTape V T A} {f : Heap V T A → Heap V T A}
    (h : Clean P out τ) (hf : HeapOK P f τ.heap) : Clean P out (τ.onHeap f) :=
  ⟨fun v => (hf.output v).trans (h.output v), fun v hv c hc => h.heap v hv c (by rw [← hf.ckpt v hv]; exact hc),
    h.stored⟩

theorem Core.onHeap {P : BV → Prop} {out : BV → V} {N : Nat} {bs : Blocks V T A} {τ : CTape V T A}
    {f : Heap V T A → Heap V T A} (h : Core P out N bs τ) (hf : HeapOK P f τ.heap) :
    Core P out N bs (τ.onHeap f) :=
  ⟨h.pos, ⟨h.live.dep, h.live.carry, h.live.init⟩, h.total, h.length, h.fwd, h.clean.onHeap hf, h.blocks⟩

theorem LInv.onHeap {P : BV → Prop} {τ : CTape V T A} {f : Heap V T A → Heap V T A} (h : LInv τ)
    (hf : HeapOK P f τ.heap) : LInv (τ.onHeap f) := by
  have hc := hf.creation
  have hl := hf.lastUse
  refine ⟨h.pos, fun v => ?_, fun v => ?_, fun v => ?_, fun v hv => ?_, fun k s hs v => ?_,
    fun k s hs pre b post hb d hd => ?_, fun k s hs v hv => ?_, fun v hv => ?_⟩
  · show -1 ≤ (f τ.heap v).creation; rw [hc]; exact h.creGe v
  · show (f τ.heap v).creation ≤ (f τ.heap v).lastUse; rw [hc, hl]; exact h.creLe v
  · show (f τ.heap v).lastUse ≤ _; rw [hl]; exact h.lastLe v
  · have hv : 0 ≤ (f τ.heap v).lastUse := hv
    show ∃ (k : Nat) (s : CStep V T A), τ.steps[k]? = some s ∧ (f τ.heap v).lastUse = k ∧ ∃ b ∈ s.blocks, v ∈ b.deps ∨ v ∈ b.outs
    rw [hl] at hv ⊢; exact h.used v hv
  · show _ ↔ (f τ.heap v).creation < k ∧ k ≤ (f τ.heap v).lastUse
    rw [hc, hl]; exact h.state k s hs v
  · show _ ≤ (f τ.heap d).lastUse ∧ (f τ.heap d).creation ≤ _ ∧ ((f τ.heap d).creation = _ → _)
    rw [hc, hl]; exact h.deps k s hs pre b post hb d hd
  · show (f τ.heap v).creation = _
    rw [hc]; exact h.outs k s hs v hv
  · have hv : 0 ≤ (f τ.heap v).creation := hv
    show ∃ (k : Nat) (s : CStep V T A), τ.steps[k]? = some s ∧ (f τ.heap v).creation = k ∧ v ∈ s.outs
    rw [hc] at hv ⊢
    exact h.created v hv

/-- The tape while recording. -/
structure Taped (P : BV → Prop) (out : BV → V) (sch : Schedule) (bs : Blocks V T A) (τ : CTape V T A) :
    Prop where
  inv : LInv τ
  clean : Clean P out τ
  track : Track sch.acts (if sch.maxN = 0 then none else some sch.maxN) τ
  noEnd : NoEnd τ
  maxN : τ.mgr.maxN = sch.maxN
  afterFinal : τ.mgr.afterFinal = sch.afterFinal
  gcFreq : τ.mgr.gcFreq ≠ some 0
  blocks : τ.blocks = bs
  unbounded : sch.maxN = 0 → ∀ wi wa st rest, sch.acts = .forward 0 none wi wa st :: rest →
    τ.mgr.fwd = [.forward 0 none wi wa st]

theorem Track.onHeap {sch : List Action} {N : Option Nat} {τ : CTape V T A} {f : Heap V T A → Heap V T A}
    (h : Track sch N τ) : Track sch N (τ.onHeap f) :=
  ⟨⟨h.pos, h.mode, h.le, h.eq⟩, h.sched, h.last, h.finished, h.rev, h.total⟩

theorem Taped.onHeap {P : BV → Prop} {out : BV → V} {sch : Schedule} {bs : Blocks V T A} {τ : CTape V T A}
    {f : Heap V T A → Heap V T A} (h : Taped P out sch bs τ) (hf : HeapOK P f τ.heap) :
    Taped P out sch bs (τ.onHeap f) :=
  ⟨h.inv.onHeap hf, h.clean.onHeap hf, h.track.onHeap, h.noEnd, h.maxN, h.afterFinal, h.gcFreq, h.blocks,
    h.unbounded⟩

/-- While an unbounded schedule is recorded, no new action is asked for. -/
theorem endTimestepLoop_unbounded {t : Nat} {acts : List Action} {τ τ' : CTape V T A} {wi wa : Bool}
    {st : Storage} (hc : τ.mgr.current = .forward 0 none wi wa st) (ht : τ.mgr.total = none)
    (h : endTimestepLoop t acts τ = .ok τ') : τ'.mgr.fwd = τ.mgr.fwd := by
  unfold endTimestepLoop at h
  rw [hc] at h
  simp only [processTaping] at h
  split at h
  · cases h
  · rename_i τ₁ h₁
    cases h
    exact (tapingForward_ok h₁).2.1.fwd
  · rename_i τ₁ h₁
    have := (tapingForward_ok h₁).2.2.2.1
    rw [ht] at this
    simp [inForward, ltTotal] at this

theorem Taped.endTimestep {P : BV → Prop} {out : BV → V} {sch : Schedule} {bs : Blocks V T A}
    {τ τ' : CTape V T A} {t : Nat} (h : Taped P out sch bs τ) (ht : t = τ.steps.length)
    (he : mgrEndTimestep t τ = .ok τ') : Taped P out sch bs τ' := by
  obtain ⟨t1, t2, t3, t4, t5, -⟩ := track_endTimestep h.track ht he
  obtain ⟨hm, hloop⟩ := mgrEndTimestep_ok he
  obtain ⟨e1, e2⟩ := endTimestepLoop_ended P out hloop
  refine ⟨h.inv.ended e1, e1.clean h.clean, t1, e2 h.noEnd h.track.last, t4.trans h.maxN,
    t5.trans h.afterFinal, by rw [t3]; exact h.gcFreq, t2.trans h.blocks, ?_⟩
  intro h0 wi wa st rest hs
  have hf := h.unbounded h0 wi wa st rest hs
  have hcur : τ.mgr.current = .forward 0 none wi wa st := by
    have := h.track.last
    rw [hf] at this
    simpa using this.symm
  rw [endTimestepLoop_unbounded hcur (by rw [h.track.total, if_pos h0]) hloop, hf]

theorem WF.fresh {bs : Blocks V T A} {b : Block V T A} (h : WF (bs ++ [b])) :
    (∀ d ∈ b.deps, d ∉ b.outs) ∧
    ∀ b' ∈ bs, (∀ d ∈ b'.deps, d ∉ b.outs) ∧ (∀ o ∈ b'.outs, o ∉ b.outs) := by
  refine ⟨h.self b (by simp), fun b' hb' => ?_⟩
  exact (List.pairwise_append.1 h.later).2.2 b' hb' b (by simp)

theorem WF.prefix' {bs cs : Blocks V T A} (h : WF (bs ++ cs)) : WF bs :=
  ⟨fun b hb => h.nodup b (by simp [hb]), fun b hb => h.self b (by simp [hb]),
    (List.pairwise_append.1 h.later).1⟩

theorem Taped.recordBlock {P : BV → Prop} {out : BV → V} {sch : Schedule} {bs : Blocks V T A}
    {τ : CTape V T A} (h : Taped P out sch bs τ) (b : Block V T A) (wf : WF (bs ++ [b])) :
    Taped P out sch (bs ++ [b]) (τ.recordBlock b) := by
  obtain ⟨hm', hl, hb⟩ := recordBlock_frame b τ
  obtain ⟨f1, f2⟩ := WF.fresh wf
  obtain ⟨c1, c2, c3, c4, c5, c6, c7, c8⟩ := recordBlock_closed b τ h.inv.pos
    (fun v => Int.le_trans (h.inv.creGe v) (h.inv.creLe v))
  refine ⟨h.inv.recordBlock b f1 (by rw [h.blocks]; exact f2), ?_, ?_, ?_, by rw [hm']; exact h.maxN,
    by rw [hm']; exact h.afterFinal, by rw [hm']; exact h.gcFreq, by rw [hb h.inv.pos, h.blocks],
    by rw [hm']; exact h.unbounded⟩
  · refine ⟨fun v => (c3 v).trans (h.clean.output v), fun v hv c hc => ?_, fun s' hs' v hv c hc => ?_⟩
    · rcases c6 v with e | e
      · rw [e] at hc; exact h.clean.heap v hv c hc
      · rw [e] at hc; cases hc; exact h.clean.output v
    · obtain ⟨k, hk⟩ := List.mem_iff_getElem?.1 hs'
      obtain ⟨s, g1, -, g2, -⟩ := c8 k s' hk
      rw [g2] at hc
      exact h.clean.stored s (List.mem_of_getElem? g1) v hv c hc
  · have hτ := h.track
    exact ⟨⟨by rw [hl]; exact hτ.pos, by rw [hm']; exact hτ.mode, by rw [hm', hl]; exact hτ.le,
      by rw [hm', hl]; exact hτ.eq⟩, by rw [hm']; exact hτ.sched, by rw [hm']; exact hτ.last,
      by rw [hm']; exact hτ.finished, by rw [hm']; exact hτ.rev, by rw [hm']; exact hτ.total⟩
  · unfold NoEnd; rw [hm']; exact h.noEnd

theorem Taped.recording {P : BV → Prop} {out : BV → V} {sch : Schedule} (es : List (Event V T A))
    {bs : Blocks V T A} {τ τ' : CTape V T A} (h : Taped P out sch bs τ)
    (wf : WF (bs ++ Event.blocks es)) (hr : recording es τ = .ok τ') :
    Taped P out sch (bs ++ Event.blocks es) τ' := by
  induction es generalizing bs τ with
  | nil =>
    simp only [CTape.recording, List.foldlM_nil] at hr
    cases hr
    simpa [Event.blocks] using h
  | cons e es ih =>
    rw [recording_cons] at hr
    cases e with
    | block b =>
      have e1 : bs ++ Event.blocks (.block b :: es) = (bs ++ [b]) ++ Event.blocks es := by
        simp [Event.blocks]
      rw [e1] at wf ⊢
      exact ih (h.recordBlock b (WF.prefix' wf)) wf hr
    | endTimestep =>
      have e1 : Event.blocks (.endTimestep :: es : List (Event V T A)) = Event.blocks es := by
        simp [Event.blocks]
      rw [e1] at wf ⊢
      simp only [event] at hr
      split at hr
      · cases hr
      · rename_i τ₁ h₁
        refine ih (h.endTimestep ?_ h₁) wf hr
        have := h.inv.pos
        unfold latest
        omega

/-- Heaps on which nothing has been recorded yet. -/
structure Fresh (P : BV → Prop) (out : BV → V) (h : Heap V T A) : Prop where
  output : ∀ v, (h v).output = out v
  ckpt : ∀ v, P v → ∀ c, (h v).ckpt = some c → c = out v
  creation : ∀ v, (h v).creation = -1
  lastUse : ∀ v, (h v).lastUse = -1

theorem taped_enable {P : BV → Prop} {out : BV → V} {sch : Schedule} {gc : Option Int} {pk : Bool}
    {h : Heap V T A} {eager : Bool} {τ : CTape V T A} (hf : Fresh P out h) (hgc : gc ≠ some 0)
    (he : enable sch gc pk h [] eager = .ok τ) : Taped P out sch [] τ := by
  obtain ⟨t1, t2, t3, t4, t5, t6, t7⟩ := track_enable he
  unfold enable at he
  split at he
  · rename_i h0; simp at h0
  · split at he
    · cases he
    · split at he
      · cases he
      · rename_i a acts hs
        obtain ⟨hm, hloop⟩ := mgrEndTimestep_ok he
        obtain ⟨e1, e2⟩ := endTimestepLoop_ended P out hloop
        have hsteps : τ.steps.map static = [([], ⟨[]⟩)] := by
          obtain ⟨m, e⟩ := e1.steps
          have hl := congrArg List.length e
          simp only [List.length_map, List.map_nil, List.nil_append, List.length_replicate] at hl
          rw [e]
          have : m = 1 := by omega
          subst this
          rfl
        have hone : ∀ (k : Nat) s, τ.steps[k]? = some s → k = 0 ∧ s.blocks = [] ∧ s.state = ⟨[]⟩ := by
          intro k s hs
          have hk := lt_length hs
          have e := congrArg (fun l => l[k]?) hsteps
          have : k = 0 := by omega
          subst this
          simp only [List.getElem?_map, hs, Option.map_some, List.getElem?_cons_zero, Option.some.injEq,
            static, Prod.mk.injEq] at e
          exact ⟨rfl, e⟩
        have hc : ∀ v, (τ.heap v).creation = -1 := fun v => by
          obtain ⟨c, e⟩ := e1.heap v; rw [e]; exact hf.creation v
        have hl : ∀ v, (τ.heap v).lastUse = -1 := fun v => by
          obtain ⟨c, e⟩ := e1.heap v; rw [e]; exact hf.lastUse v
        refine ⟨⟨by omega, fun v => ?_, fun v => ?_, fun v => ?_, fun v hv => ?_, fun k s hs v => ?_,
          fun k s hs pre b post hb d hd => ?_, fun k s hs v hv => ?_, fun v hv => ?_⟩, ?_, t1, ?_, t5, t6,
          by rw [t7]; exact hgc, t4, ?_⟩
        · rw [hc]; decide
        · rw [hc, hl]; decide
        · rw [hl]; omega
        · rw [hl] at hv; omega
        · rw [hc, hl, (hone k s hs).2.2]
          simp only [List.not_mem_nil, false_iff]
          omega
        · rw [(hone k s hs).2.1] at hb; simp at hb
        · rw [CStep.mem_outs, (hone k s hs).2.1] at hv; simp at hv
        · rw [hc] at hv; omega
        · exact e1.clean ⟨hf.output, hf.ckpt, by intro s hs; cases hs⟩
        · apply e2
          · unfold NoEnd; simp
          · rfl
        · intro h0 wi wa st rest hs'
          rw [hs] at hs'
          have ha : a = .forward 0 none wi wa st := by
            have := congrArg List.head? hs'; simpa using this
          have := endTimestepLoop_unbounded (wi := wi) (wa := wa) (st := st) ha
            (show (if sch.maxN = 0 then none else some sch.maxN) = none from if_pos h0) hloop
          rw [this, ← ha]

/-! ### The end of recording -/

theorem endTapingLoop_ended (P : BV → Prop) (out : BV → V) {fuel t : Nat} {τ τ' : CTape V T A}
    (h : endTapingLoop fuel t τ = .ok τ') :
    Ended P out τ τ' ∧ (NoEnd τ → τ.mgr.fwd.getLast? = some τ.mgr.current → NoEnd τ') := by
  induction fuel generalizing t τ with
  | zero =>
    unfold endTapingLoop at h
    split at h
    · cases h; exact ⟨Ended.refl _ _ _, fun hn _ => hn⟩
    · cases h
  | succ fuel ih =>
    unfold endTapingLoop at h
    split at h
    · cases h; exact ⟨Ended.refl _ _ _, fun hn _ => hn⟩
    · dsimp only at h
      split at h
      · cases h
      · rename_i τ₁ h₁
        obtain ⟨-, hloop⟩ := mgrEndTimestep_ok h₁
        obtain ⟨e1, e2⟩ := endTimestepLoop_ended P out hloop
        obtain ⟨-, -, -, -, -, -, -, hlast, -⟩ := endTimestepLoop_ok hloop
        obtain ⟨i1, i2⟩ := ih h
        exact ⟨e1.trans i1, fun hn hl => i2 (e2 hn hl) (hlast hl)⟩

theorem endTaping_ended (P : BV → Prop) (out : BV → V) {τ τ' : CTape V T A} (h : endTaping τ = .ok τ') :
    Ended P out τ τ' ∧ (NoEnd τ → τ.mgr.fwd.getLast? = some τ.mgr.current → NoEnd τ') := by
  unfold endTaping at h
  obtain ⟨e1, e2⟩ := endTapingLoop_ended P out h
  have hf : τ.finalize.steps = τ.steps ∧ τ.finalize.heap = τ.heap ∧ τ.finalize.mgr.fwd = τ.mgr.fwd ∧
      τ.finalize.mgr.current = τ.mgr.current := by
    unfold finalize
    split <;> exact ⟨rfl, rfl, rfl, rfl⟩
  refine ⟨(Ended.frame P out hf.1 hf.2.1).trans e1, fun hn hl => e2 ?_ (by rw [hf.2.2.1, hf.2.2.2]; exact hl)⟩
  unfold NoEnd; rw [hf.2.2.1]; exact hn

/-- After the end of recording. -/
theorem Taped.core {P : BV → Prop} {out : BV → V} {sch : Schedule} {bs : Blocks V T A}
    {τ τ' : CTape V T A} (h : Taped P out sch bs τ)
    (he : (τ.mgr.mode = .evaluated ∧ τ' = τ) ∨ endTaping τ = .ok τ')
    (hwf : sch.WellFormed) : Core P out τ'.steps.length bs τ' ∧ τ'.mgr.mode = .evaluated := by
  rcases he with ⟨hm, rfl⟩ | he
  · have hp := h.inv.pos
    refine ⟨⟨hp, h.inv.liveOK P, h.track.eq hm, rfl, ?_, h.clean, h.blocks⟩, hm⟩
    have hlast : τ'.mgr.fwd.getLast? = some .endForward := by rw [h.track.last, h.track.finished.1 hm]
    rcases hwf with ⟨h1, h3⟩ | ⟨h1, -⟩
    · have h2 : τ'.steps.length = sch.maxN := by
        have := h.track.eq hm
        rw [h.track.total, if_neg h1] at this
        simpa using this.symm
      rw [h2]
      apply exact_of_tiling (acts := τ'.mgr.acts) _ hlast h.noEnd
      rw [h.track.sched]; exact h3
    · have := h.track.eq hm
      rw [h.track.total, if_pos h1] at this
      cases this
  · obtain ⟨f1, f2, f3, f4, f5, f6, f7, -⟩ := endTaping_ok h.track (by rw [h.maxN]) he
    obtain ⟨e1, e2⟩ := endTaping_ended P out he
    have hinv := h.inv.ended e1
    refine ⟨⟨hinv.pos, hinv.liveOK P, f3, rfl, ?_, e1.clean h.clean, f2.trans h.blocks⟩, f1⟩
    have hn := e2 h.noEnd h.track.last
    rcases hwf with ⟨h1, h3⟩ | ⟨h1, wi, wa, st, rest, h2, h3⟩
    · rw [← h.maxN] at h1
      apply exact_of_tiling (acts := τ'.mgr.acts) _ f7 hn
      rw [(f5 h1).2, (f5 h1).1, h.maxN]; exact h3
    · have hpos := hinv.pos
      obtain ⟨rest', h3⟩ := h3 _ hpos
      have hfw := h.unbounded h1 wi wa st rest h2
      rw [← h.maxN] at h1
      obtain ⟨g1, g2⟩ := f6 h1
      apply exact_of_tiling (acts := τ'.mgr.acts) _ f7 hn
      rw [g2, hfw, h.afterFinal, ← g1, h3]
      exact .last _ _ _ _ _ _ hpos (.done _ _)

end CTape
end Pyadjoint
