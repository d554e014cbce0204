import Verif.Model.Checkpoint
import Mathlib.Order.Basic
import Mathlib.Order.Nat

/-! What recording under a checkpoint manager does to the time steps. -/

namespace Pyadjoint
namespace CTape

variable {V T A : Type*}

theorem blocks_append (τ : CTape V T A) : τ.appendStep.blocks = τ.blocks := by
  simp [appendStep, blocks]

theorem flatMap_set_blocks (l : List (CStep V T A)) (i : Nat) (s s' : CStep V T A)
    (h : l[i]? = some s) (hb : s'.blocks = s.blocks) :
    (l.set i s').flatMap (·.blocks) = l.flatMap (·.blocks) := by
  induction l generalizing i with
  | nil => rfl
  | cons a l ih =>
    cases i with
    | zero =>
      simp only [List.getElem?_cons_zero, Option.some.injEq] at h
      subst h
      simp [hb]
    | succ i =>
      simp only [List.getElem?_cons_succ] at h
      simp [ih i h]

/-- What one call of `process_taping` leaves alone. -/
structure SameTape (τ τ' : CTape V T A) : Prop where
  blocks : τ'.blocks = τ.blocks
  total : τ'.mgr.total = τ.mgr.total
  maxN : τ'.mgr.maxN = τ.mgr.maxN
  current : τ'.mgr.current = τ.mgr.current
  fwd : τ'.mgr.fwd = τ.mgr.fwd
  rev : τ'.mgr.rev = τ.mgr.rev
  afterFinal : τ'.mgr.afterFinal = τ.mgr.afterFinal
  gcFreq : τ'.mgr.gcFreq = τ.mgr.gcFreq
  keepInit : τ'.mgr.keepInit = τ.mgr.keepInit
  singleMem : τ'.mgr.singleMem = τ.mgr.singleMem

theorem SameTape.refl (τ : CTape V T A) : SameTape τ τ := ⟨rfl, rfl, rfl, rfl, rfl, rfl, rfl, rfl, rfl, rfl⟩

theorem storeEnded_ok {t : Nat} {ss sa : Bool} {τ τ' : CTape V T A}
    (h : storeEnded t ss sa τ = .ok τ') :
    SameTape τ τ' ∧ τ'.steps.length = τ.steps.length ∧ τ'.mgr.mode = τ.mgr.mode := by
  unfold storeEnded at h
  split at h
  · cases h
  · rename_i s hs
    simp only [Except.ok.injEq] at h
    subst h
    refine ⟨⟨?_, rfl, rfl, rfl, rfl, rfl, rfl, rfl, rfl, rfl⟩, by simp, rfl⟩
    exact flatMap_set_blocks _ _ _ _ hs rfl

theorem tapingForward_ok {n0 : Nat} {n1 : Option Nat} {wi wa : Bool} {st : Storage} {t : Nat}
    {τ τ' : CTape V T A} {d : Bool} (h : tapingForward n0 n1 wi wa st t τ = .ok (d, τ')) :
    n0 ≤ t ∧ SameTape τ τ' ∧ τ'.mgr.mode = τ.mgr.mode ∧
    d = (inForward n0 n1 t && ltTotal t τ.mgr.total) ∧
    τ'.steps.length = τ.steps.length + (if d then 1 else 0) := by
  unfold tapingForward at h
  split at h
  · cases h
  · rename_i hn
    have hn : n0 ≤ t := by omega
    dsimp only at h
    generalize hr : (if n0 < t ∧ st ≠ .work then
      storeEnded t (wi && decide (t = n0 + 1)) wa { τ with eager := wa }
      else .ok { τ with eager := wa }) = r at h
    have key : ∀ τ₁, r = .ok τ₁ → SameTape τ τ₁ ∧ τ₁.steps.length = τ.steps.length ∧
        τ₁.mgr.mode = τ.mgr.mode := by
      intro τ₁ h₁
      rw [h₁] at hr
      split at hr
      · obtain ⟨hs, hl, hm⟩ := storeEnded_ok hr
        exact ⟨⟨hs.blocks, hs.total, hs.maxN, hs.current, hs.fwd, hs.rev, hs.afterFinal, hs.gcFreq,
          hs.keepInit, hs.singleMem⟩, hl, hm⟩
      · simp only [Except.ok.injEq] at hr
        subst hr
        exact ⟨⟨rfl, rfl, rfl, rfl, rfl, rfl, rfl, rfl, rfl, rfl⟩, rfl, rfl⟩
    cases r with
    | error e => simp at h
    | ok τ₁ =>
      obtain ⟨hs, hl, hm⟩ := key τ₁ rfl
      simp only at h
      split at h
      · cases h
      · split at h
        · rename_i hc
          simp only [Except.ok.injEq, Prod.mk.injEq] at h
          obtain ⟨rfl, rfl⟩ := h
          rw [hs.total] at hc
          refine ⟨hn, ⟨by rw [blocks_append]; exact hs.blocks, hs.total, hs.maxN, hs.current, hs.fwd,
            hs.rev, hs.afterFinal, hs.gcFreq, hs.keepInit, hs.singleMem⟩, hm, hc.symm, ?_⟩
          simp [appendStep, hl]
        · rename_i hc
          simp only [Except.ok.injEq, Prod.mk.injEq] at h
          obtain ⟨rfl, rfl⟩ := h
          rw [hs.total] at hc
          refine ⟨hn, hs, hm, ?_, by simpa using hl⟩
          simpa using hc

/-- What a successful `process_taping` did. -/
theorem processTaping_ok {a : Action} {t : Nat} {τ τ' : CTape V T A} {d : Bool}
    (h : processTaping a t τ = .ok (d, τ')) :
    SameTape τ τ' ∧
    ((d = true ∧ a = .endForward ∧ τ.mgr.total = some t ∧ τ'.mgr.mode = .evaluated ∧
        τ'.steps.length = τ.steps.length) ∨
     (d = true ∧ a ≠ .endForward ∧ ltTotal t τ.mgr.total = true ∧ τ'.mgr.mode = τ.mgr.mode ∧
        τ'.steps.length = τ.steps.length + 1) ∨
     (d = false ∧ a ≠ .endForward ∧ τ'.mgr.mode = τ.mgr.mode ∧ τ'.steps.length = τ.steps.length)) := by
  cases a with
  | forward n0 n1 wi wa st =>
    obtain ⟨hn, hs, hm, hd, hl⟩ := tapingForward_ok h
    refine ⟨hs, ?_⟩
    cases d with
    | true =>
      have hd := hd.symm
      rw [Bool.and_eq_true] at hd
      exact Or.inr (Or.inl ⟨rfl, by simp, hd.2, hm, by simpa using hl⟩)
    | false => exact Or.inr (Or.inr ⟨rfl, by simp, hm, by simpa using hl⟩)
  | endForward =>
    simp only [processTaping] at h
    split at h
    · cases h
    · rename_i ht
      simp only [ne_eq, not_not] at ht
      simp only [Except.ok.injEq, Prod.mk.injEq] at h
      obtain ⟨rfl, rfl⟩ := h
      exact ⟨⟨rfl, rfl, rfl, rfl, rfl, rfl, rfl, rfl, rfl, rfl⟩,
        Or.inl ⟨rfl, rfl, ht.symm, rfl, rfl⟩⟩
  | reverse _ _ _ => simp [processTaping] at h
  | copy _ _ => simp [processTaping] at h
  | move _ _ => simp [processTaping] at h
  | endReverse => simp [processTaping] at h

/-- What a successful `end_timestep` did to a recording tape: either one more step, or the recording
is complete. -/
theorem endTimestepLoop_ok {t : Nat} {acts : List Action} {τ τ' : CTape V T A}
    (h : endTimestepLoop t acts τ = .ok τ') :
    τ'.blocks = τ.blocks ∧ τ'.mgr.total = τ.mgr.total ∧ τ'.mgr.maxN = τ.mgr.maxN ∧
    τ'.mgr.rev = τ.mgr.rev ∧ τ'.mgr.afterFinal = τ.mgr.afterFinal ∧
    τ'.mgr.gcFreq = τ.mgr.gcFreq ∧
    τ'.mgr.fwd ++ τ'.mgr.acts = τ.mgr.fwd ++ acts ∧
    (τ.mgr.fwd.getLast? = some τ.mgr.current → τ'.mgr.fwd.getLast? = some τ'.mgr.current) ∧
    ((τ.mgr.total = some t ∧ τ'.mgr.mode = .evaluated ∧ τ'.mgr.current = .endForward ∧
        τ'.steps.length = τ.steps.length) ∨
     (ltTotal t τ.mgr.total = true ∧ τ'.mgr.mode = τ.mgr.mode ∧ τ'.mgr.current ≠ .endForward ∧
        τ'.steps.length = τ.steps.length + 1)) := by
  induction acts generalizing τ with
  | nil =>
    unfold endTimestepLoop at h
    split at h
    · cases h
    · rename_i τ₁ h₁
      simp only [Except.ok.injEq] at h
      subst h
      obtain ⟨hs, hc⟩ := processTaping_ok h₁
      refine ⟨hs.blocks, hs.total, hs.maxN, hs.rev, hs.afterFinal, hs.gcFreq, by simp [hs.fwd],
        by simp only [hs.fwd, hs.current]; exact id, ?_⟩
      rcases hc with ⟨_, ha, ht, hm, hl⟩ | ⟨_, ha, ht, hm, hl⟩ | ⟨hd, _⟩
      · exact Or.inl ⟨ht, hm, by simpa [hs.current] using ha, hl⟩
      · exact Or.inr ⟨ht, hm, by simpa [hs.current] using ha, hl⟩
      · cases hd
    · cases h
  | cons a acts ih =>
    unfold endTimestepLoop at h
    split at h
    · cases h
    · rename_i τ₁ h₁
      simp only [Except.ok.injEq] at h
      subst h
      obtain ⟨hs, hc⟩ := processTaping_ok h₁
      refine ⟨hs.blocks, hs.total, hs.maxN, hs.rev, hs.afterFinal, hs.gcFreq, by simp [hs.fwd],
        by simp only [hs.fwd, hs.current]; exact id, ?_⟩
      rcases hc with ⟨_, ha, ht, hm, hl⟩ | ⟨_, ha, ht, hm, hl⟩ | ⟨hd, _⟩
      · exact Or.inl ⟨ht, hm, by simpa [hs.current] using ha, hl⟩
      · exact Or.inr ⟨ht, hm, by simpa [hs.current] using ha, hl⟩
      · cases hd
    · rename_i τ₁ h₁
      obtain ⟨hs, hc⟩ := processTaping_ok h₁
      obtain ⟨hb, ht, hm, hr, haf, hg, hf, hcur, hx⟩ := ih h
      rcases hc with ⟨hd, _⟩ | ⟨hd, _⟩ | ⟨_, ha, hm₁, hl⟩
      · cases hd
      · cases hd
      · refine ⟨hb.trans hs.blocks, ht.trans hs.total, hm.trans hs.maxN, hr.trans hs.rev,
          haf.trans hs.afterFinal, hg.trans hs.gcFreq, by simpa [hs.fwd] using hf,
          fun _ => hcur (by simp), ?_⟩
        rcases hx with ⟨h1, h2, h3, h4⟩ | ⟨h1, h2, h3, h4⟩
        · exact Or.inl ⟨hs.total ▸ h1, h2, h3, h4.trans hl⟩
        · exact Or.inr ⟨by rw [← hs.total]; exact h1, h2.trans hm₁, h3, by rw [h4]; simp [hl]⟩

theorem mgrEndTimestep_ok {t : Nat} {τ τ' : CTape V T A} (h : mgrEndTimestep t τ = .ok τ') :
    τ.mgr.mode = .record ∧ endTimestepLoop t τ.mgr.acts τ = .ok τ' := by
  unfold mgrEndTimestep at h
  split at h
  · cases h
  · split at h
    · cases h
    · rename_i h1 h2
      simp only [ne_eq, not_not] at h2
      exact ⟨h2, h⟩

/-- The state of a tape being recorded: while recording the steps are at most the total number;
when the recording is complete they are exactly that many. -/
structure Taping (τ : CTape V T A) : Prop where
  pos : 0 < τ.steps.length
  mode : τ.mgr.mode = .record ∨ τ.mgr.mode = .evaluated
  le : ∀ n, τ.mgr.total = some n → τ.steps.length ≤ n
  eq : τ.mgr.mode = .evaluated → τ.mgr.total = some τ.steps.length

theorem ltTotal_some {t n : Nat} (h : ltTotal t (some n) = true) : t < n := by
  simpa [ltTotal] using h

theorem mgrEndTimestep_taping {τ τ' : CTape V T A}
    (h : mgrEndTimestep τ.steps.length τ = .ok τ') : Taping τ' ∨ τ.steps.length = 0 := by
  obtain ⟨hm, h⟩ := mgrEndTimestep_ok h
  obtain ⟨-, ht, -, -, -, -, -, -, hx⟩ := endTimestepLoop_ok h
  rcases Nat.eq_zero_or_pos τ.steps.length with h0 | h0
  · exact Or.inr h0
  · left
    rcases hx with ⟨h1, h2, h3, h4⟩ | ⟨h1, h2, h3, h4⟩
    · refine ⟨by omega, Or.inr h2, fun n hn => ?_, fun _ => by rw [ht, h1, h4]⟩
      rw [ht, h1] at hn
      simp only [Option.some.injEq] at hn
      omega
    · refine ⟨by omega, Or.inl (h2.trans hm), fun n hn => ?_, fun he => ?_⟩
      · rw [ht] at hn
        rw [hn] at h1
        have := ltTotal_some h1
        omega
      · rw [h2, hm] at he
        cases he

/-- Recording an operation changes neither the manager nor the number of steps. -/
theorem depend_frame (v : BV) (τ : CTape V T A) :
    (τ.depend v).mgr = τ.mgr ∧ (τ.depend v).eager = τ.eager ∧
    (τ.depend v).steps.length = τ.steps.length ∧ (τ.depend v).blocks = τ.blocks := by
  refine ⟨rfl, rfl, by simp [depend]; omega, ?_⟩
  simp only [depend, blocks, List.flatMap_append, List.flatMap_map]
  rw [← List.flatMap_append, List.take_append_drop]

theorem output_frame (v : BV) (τ : CTape V T A) :
    (τ.output v).mgr = τ.mgr ∧ (τ.output v).eager = τ.eager ∧
    (τ.output v).steps.length = τ.steps.length ∧ (τ.output v).blocks = τ.blocks := by
  refine ⟨rfl, rfl, by simp [output]; omega, ?_⟩
  simp only [output, blocks, List.flatMap_append, List.flatMap_map]
  rw [← List.flatMap_append, List.take_append_drop]

theorem depends_frame (vs : List BV) (τ : CTape V T A) :
    (vs.foldl (fun τ v => τ.depend v) τ).mgr = τ.mgr ∧
    (vs.foldl (fun τ v => τ.depend v) τ).eager = τ.eager ∧
    (vs.foldl (fun τ v => τ.depend v) τ).steps.length = τ.steps.length ∧
    (vs.foldl (fun τ v => τ.depend v) τ).blocks = τ.blocks := by
  induction vs generalizing τ with
  | nil => exact ⟨rfl, rfl, rfl, rfl⟩
  | cons v vs ih =>
    obtain ⟨h1, h2, h3, h4⟩ := ih (τ.depend v)
    obtain ⟨g1, g2, g3, g4⟩ := depend_frame v τ
    exact ⟨h1.trans g1, h2.trans g2, h3.trans g3, h4.trans g4⟩

theorem outputs_frame (vs : List BV) (τ : CTape V T A) :
    (vs.foldl (fun τ v => τ.output v) τ).mgr = τ.mgr ∧
    (vs.foldl (fun τ v => τ.output v) τ).eager = τ.eager ∧
    (vs.foldl (fun τ v => τ.output v) τ).steps.length = τ.steps.length ∧
    (vs.foldl (fun τ v => τ.output v) τ).blocks = τ.blocks := by
  induction vs generalizing τ with
  | nil => exact ⟨rfl, rfl, rfl, rfl⟩
  | cons v vs ih =>
    obtain ⟨h1, h2, h3, h4⟩ := ih (τ.output v)
    obtain ⟨g1, g2, g3, g4⟩ := output_frame v τ
    exact ⟨h1.trans g1, h2.trans g2, h3.trans g3, h4.trans g4⟩

theorem flatMap_modify_last (l : List (CStep V T A)) (b : Block V T A) (h : 0 < l.length) :
    (l.modify (l.length - 1) fun s => { s with blocks := s.blocks ++ [b] }).flatMap (·.blocks) =
      l.flatMap (·.blocks) ++ [b] := by
  induction l with
  | nil => simp at h
  | cons a l ih =>
    cases l with
    | nil => simp
    | cons a' l =>
      have : (a :: a' :: l).length - 1 = ((a' :: l).length - 1) + 1 := by simp
      rw [this, List.modify_succ_cons, List.flatMap_cons, ih (by simp)]
      simp

theorem recordBlock_frame (b : Block V T A) (τ : CTape V T A) :
    (τ.recordBlock b).mgr = τ.mgr ∧ (τ.recordBlock b).steps.length = τ.steps.length ∧
    (0 < τ.steps.length → (τ.recordBlock b).blocks = τ.blocks ++ [b]) := by
  obtain ⟨h1, h2, h3, h4⟩ := depends_frame b.deps τ
  obtain ⟨g1, g2, g3, g4⟩ := outputs_frame b.outs
    ((b.deps.foldl (fun τ v => τ.depend v) τ).addBlock b)
  refine ⟨g1.trans h1, g3.trans ?_, fun hpos => g4.trans ?_⟩
  · simp [addBlock, modStep, h3]
  · show (List.flatMap _ (List.modify _ _ _)) = _
    unfold latest
    rw [flatMap_modify_last _ _ (by omega)]
    exact congrArg (· ++ [b]) h4

/-- The blocks the events record. -/
def Event.blocks : List (Event V T A) → Blocks V T A
  | [] => []
  | .block b :: es => b :: Event.blocks es
  | .endTimestep :: es => Event.blocks es

/-- How often the user's program ended a time step. -/
def Event.ends : List (Event V T A) → Nat
  | [] => 0
  | .block _ :: es => Event.ends es
  | .endTimestep :: es => Event.ends es + 1

theorem recording_cons (e : Event V T A) (es : List (Event V T A)) (τ : CTape V T A) :
    recording (e :: es) τ = (match event τ e with
      | .error x => .error x
      | .ok τ => recording es τ) := by
  simp only [recording, List.foldlM_cons]
  cases event τ e <;> rfl

/-- Everything the manager keeps track of while recording. -/
structure Track (sch : List Action) (N : Option Nat) (τ : CTape V T A) : Prop extends Taping τ where
  sched : τ.mgr.fwd ++ τ.mgr.acts = sch
  last : τ.mgr.fwd.getLast? = some τ.mgr.current
  finished : τ.mgr.mode = .evaluated ↔ τ.mgr.current = .endForward
  rev : τ.mgr.rev = []
  total : τ.mgr.total = N

theorem track_endTimestep {sch : List Action} {N : Option Nat} {τ τ' : CTape V T A} {t : Nat}
    (hτ : Track sch N τ) (ht : t = τ.steps.length) (h : mgrEndTimestep t τ = .ok τ') :
    Track sch N τ' ∧ τ'.blocks = τ.blocks ∧ τ'.mgr.gcFreq = τ.mgr.gcFreq ∧
    τ'.mgr.maxN = τ.mgr.maxN ∧ τ'.mgr.afterFinal = τ.mgr.afterFinal ∧
    (τ'.mgr.mode = .record → τ'.steps.length = τ.steps.length + 1) ∧
    (τ'.mgr.mode = .evaluated → τ'.steps.length = τ.steps.length) := by
  subst ht
  have htap := mgrEndTimestep_taping h
  obtain ⟨hm, h⟩ := mgrEndTimestep_ok h
  obtain ⟨hb, ht, hmax, hr, haf, hg, hf, hc, hx⟩ := endTimestepLoop_ok h
  have htap : Taping τ' := htap.resolve_right (by have := hτ.pos; omega)
  refine ⟨⟨htap, hf.trans hτ.sched, hc hτ.last, ?_, hr.trans hτ.rev, ht.trans hτ.total⟩, hb, hg, hmax,
    haf, ?_, ?_⟩
  · rcases hx with ⟨_, h2, h3, _⟩ | ⟨_, h2, h3, _⟩
    · simp [h2, h3]
    · simp [h2, h3, hm]
  · rcases hx with ⟨_, h2, h3, h4⟩ | ⟨_, h2, h3, h4⟩
    · intro h'; rw [h2] at h'; cases h'
    · exact fun _ => h4
  · rcases hx with ⟨_, h2, h3, h4⟩ | ⟨_, h2, h3, h4⟩
    · exact fun _ => h4
    · intro h'; rw [h2, hm] at h'; cases h'

theorem recording_evaluated (es : List (Event V T A)) {τ τ' : CTape V T A}
    (hm : τ.mgr.mode = .evaluated) (h : recording es τ = .ok τ') : τ'.mgr.mode = .evaluated := by
  induction es generalizing τ with
  | nil =>
    simp only [recording, List.foldlM_nil] at h
    cases h
    exact hm
  | cons e es ih =>
    rw [recording_cons] at h
    cases e with
    | block b => exact ih (by rw [(recordBlock_frame b τ).1]; exact hm) h
    | endTimestep => simp [event, endTimestep, mgrEndTimestep, hm] at h

theorem track_recording {sch : List Action} {N : Option Nat} (es : List (Event V T A))
    {τ τ' : CTape V T A} (hτ : Track sch N τ) (h : recording es τ = .ok τ') :
    Track sch N τ' ∧ τ'.blocks = τ.blocks ++ Event.blocks es ∧ τ'.mgr.gcFreq = τ.mgr.gcFreq ∧
    τ'.mgr.maxN = τ.mgr.maxN ∧ τ'.mgr.afterFinal = τ.mgr.afterFinal ∧
    (τ'.mgr.mode = .record → τ'.steps.length = τ.steps.length + Event.ends es) ∧
    (τ'.mgr.mode = .evaluated → τ.mgr.mode = .record → τ'.steps.length + 1 = τ.steps.length + Event.ends es) ∧
    (τ.mgr.mode = .evaluated → Event.ends es = 0) := by
  induction es generalizing τ with
  | nil =>
    simp only [recording, List.foldlM_nil] at h
    cases h
    refine ⟨hτ, by simp [Event.blocks], rfl, rfl, rfl, fun _ => rfl, fun h h' => ?_, fun _ => rfl⟩
    rw [h] at h'
    cases h'
  | cons e es ih =>
    rw [recording_cons] at h
    cases e with
    | block b =>
      obtain ⟨hm, hl, hb⟩ := recordBlock_frame b τ
      have hτ₁ : Track sch N (τ.recordBlock b) := by
        refine ⟨⟨by rw [hl]; exact hτ.pos, by rw [hm]; exact hτ.mode, by rw [hm, hl]; exact hτ.le,
          by rw [hm, hl]; exact hτ.eq⟩, by rw [hm]; exact hτ.sched, by rw [hm]; exact hτ.last,
          by rw [hm]; exact hτ.finished, by rw [hm]; exact hτ.rev, by rw [hm]; exact hτ.total⟩
      obtain ⟨g1, g2, g3, g4, g5, g6, g7, g8⟩ := ih hτ₁ h
      refine ⟨g1, ?_, by rw [g3, hm], by rw [g4, hm], by rw [g5, hm], ?_, ?_, ?_⟩
      · rw [g2, hb hτ.pos]
        simp [Event.blocks]
      · rw [← hl]; exact g6
      · rw [← hl, ← hm]; exact g7
      · rw [← hm]; exact g8
    | endTimestep =>
      simp only [event] at h
      cases he : endTimestep τ with
      | error x => rw [he] at h; cases h
      | ok τ₁ =>
        rw [he] at h
        have hlat : τ.latest + 1 = τ.steps.length := by
          have := hτ.pos
          unfold latest; omega
        obtain ⟨f1, f2, f3, f4, f5, f6, f7⟩ := track_endTimestep hτ hlat he
        obtain ⟨g1, g2, g3, g4, g5, g6, g7, g8⟩ := ih f1 h
        have hrec := (mgrEndTimestep_ok he).1
        refine ⟨g1, by rw [g2, f2]; rfl, g3.trans f3, g4.trans f4, g5.trans f5, ?_, ?_, ?_⟩
        · intro hmode
          have h1 := g6 hmode
          rcases f1.mode with h2 | h2
          · rw [h1, f6 h2]; simp [Event.ends]; omega
          · rw [recording_evaluated es h2 h] at hmode
            cases hmode
        · intro hmode _
          rcases f1.mode with h2 | h2
          · have h3 := g7 hmode h2
            have := f6 h2
            simp only [Event.ends]
            omega
          · have h3 := g8 h2
            have h4 := f7 h2
            have h5 := recording_evaluated es h2 h
            have h6 : τ'.steps.length = τ₁.steps.length := by
              have a := g1.eq h5
              have b := f1.eq h2
              rw [g1.total] at a
              rw [f1.total, a] at b
              simpa using b
            simp only [Event.ends]
            omega
        · intro h2
          rw [hrec] at h2
          cases h2

/-- `enable_checkpointing` on a fresh tape. -/
theorem track_enable {sch : Schedule} {gc : Option Int} {pk : Bool} {h : Heap V T A} {eager : Bool}
    {τ : CTape V T A} (he : enable sch gc pk h [] eager = .ok τ) :
    Track sch.acts (if sch.maxN = 0 then none else some sch.maxN) τ ∧ τ.mgr.mode = .record ∧
    τ.steps.length = 1 ∧ τ.blocks = [] ∧ τ.mgr.maxN = sch.maxN ∧ τ.mgr.afterFinal = sch.afterFinal ∧
    τ.mgr.gcFreq = gc := by
  unfold enable at he
  split at he
  · rename_i h0; simp at h0
  · split at he
    · cases he
    · split at he
      · cases he
      · rename_i a acts hacts
        obtain ⟨hm, h1⟩ := mgrEndTimestep_ok he
        obtain ⟨hb, ht, hmax, hr, haf, hg, hf, hc, hx⟩ := endTimestepLoop_ok h1
        have hx : ltTotal 0 τ.mgr.total = true ∧ τ.mgr.mode = .record ∧
            τ.mgr.current ≠ .endForward ∧ τ.steps.length = 1 := by
          rcases hx with ⟨h1, h2, h3, h4⟩ | ⟨h1, h2, h3, h4⟩
          · exfalso
            by_cases h0 : sch.maxN = 0
            · simp [h0] at h1
            · simp [h0] at h1
          · exact ⟨by rw [ht]; exact h1, h2, h3, h4⟩
        obtain ⟨x1, x2, x3, x4⟩ := hx
        refine ⟨⟨⟨by omega, Or.inl x2, fun n hn => ?_, fun hm => ?_⟩, by rw [hf, hacts]; rfl, hc rfl, ?_,
          hr, ht⟩, x2, x4, hb, hmax, haf, hg⟩
        · rw [hn] at x1
          have := ltTotal_some x1
          omega
        · rw [x2] at hm; cases hm
        · simp [x2, x3]

theorem processTaping_ne_fuel {a : Action} {t : Nat} {τ : CTape V T A} :
    processTaping a t τ ≠ .error .outOfFuel := by
  cases a with
  | forward n0 n1 wi wa st =>
    simp only [processTaping, tapingForward]
    split
    · simp
    · generalize hr : (if n0 < t ∧ st ≠ .work then
        storeEnded t (wi && decide (t = n0 + 1)) wa { τ with eager := wa }
        else .ok { τ with eager := wa }) = r
      cases r with
      | error e =>
        split at hr
        · unfold storeEnded at hr
          split at hr
          · simp only [Except.error.injEq] at hr
            subst hr
            simp
          · cases hr
        · cases hr
      | ok τ₁ =>
        simp only
        split
        · simp
        · split <;> simp
  | endForward => simp only [processTaping]; split <;> simp
  | reverse _ _ _ => simp [processTaping]
  | copy _ _ => simp [processTaping]
  | move _ _ => simp [processTaping]
  | endReverse => simp [processTaping]

theorem endTimestepLoop_ne_fuel {t : Nat} {acts : List Action} {τ : CTape V T A} :
    endTimestepLoop t acts τ ≠ .error .outOfFuel := by
  induction acts generalizing τ with
  | nil =>
    unfold endTimestepLoop
    split
    · rename_i e h
      intro h'
      cases h'
      exact processTaping_ne_fuel h
    · simp
    · simp
  | cons a acts ih =>
    unfold endTimestepLoop
    split
    · rename_i e h
      intro h'
      cases h'
      exact processTaping_ne_fuel h
    · simp
    · exact ih

theorem mgrEndTimestep_ne_fuel {t : Nat} {τ : CTape V T A} (h : mgrEndTimestep t τ = .error .outOfFuel) :
    False := by
  unfold mgrEndTimestep at h
  split at h
  · cases h
  · split at h
    · cases h
    · exact endTimestepLoop_ne_fuel h

theorem track_endTapingLoop {sch : List Action} {n : Nat} (fuel : Nat) {τ τ' : CTape V T A} {t : Nat}
    (hτ : Track sch (some n) τ) (ht : τ.mgr.mode = .record → t = τ.steps.length)
    (h : endTapingLoop fuel t τ = .ok τ') :
    Track sch (some n) τ' ∧ τ'.mgr.mode = .evaluated ∧ τ'.blocks = τ.blocks ∧
    τ'.mgr.gcFreq = τ.mgr.gcFreq := by
  induction fuel generalizing τ t with
  | zero =>
    unfold endTapingLoop at h
    split at h
    · rename_i hm
      cases h
      exact ⟨hτ, hm, rfl, rfl⟩
    · cases h
  | succ fuel ih =>
    unfold endTapingLoop at h
    split at h
    · rename_i hm
      cases h
      exact ⟨hτ, hm, rfl, rfl⟩
    · rename_i hm
      have hrec := hτ.mode.resolve_right hm
      simp only at h
      cases he : mgrEndTimestep t τ with
      | error e => rw [he] at h; cases h
      | ok τ₁ =>
        rw [he] at h
        obtain ⟨f1, f2, f3, f4, f5, f6, f7⟩ := track_endTimestep hτ (ht hrec) he
        obtain ⟨g1, g2, g3, g4⟩ := ih f1 (fun hm₁ => by rw [f6 hm₁, ht hrec]) h
        exact ⟨g1, g2, g3.trans f2, g4.trans f3⟩

/-- The fuel of `endTapingLoop` is never used up. -/
theorem endTapingLoop_fuel {sch : List Action} {n : Nat} (fuel : Nat) {τ : CTape V T A} {t : Nat}
    (hτ : Track sch (some n) τ) (ht : τ.mgr.mode = .record → t = τ.steps.length)
    (hf : n + 1 ≤ fuel + t) : endTapingLoop fuel t τ ≠ .error .outOfFuel := by
  induction fuel generalizing τ t with
  | zero =>
    unfold endTapingLoop
    split
    · simp
    · rename_i hm
      have hrec := hτ.mode.resolve_right hm
      have := hτ.le n hτ.total
      have := ht hrec
      omega
  | succ fuel ih =>
    unfold endTapingLoop
    split
    · simp
    · rename_i hm
      have hrec := hτ.mode.resolve_right hm
      simp only
      cases he : mgrEndTimestep t τ with
      | error e =>
        simp only [ne_eq, Except.error.injEq]
        intro hee
        subst hee
        exact mgrEndTimestep_ne_fuel he
      | ok τ₁ =>
        obtain ⟨f1, f2, f3, f4, f5, f6, f7⟩ := track_endTimestep hτ (ht hrec) he
        exact ih f1 (fun hm₁ => by rw [f6 hm₁, ht hrec]) (by omega)

end CTape
end Pyadjoint
