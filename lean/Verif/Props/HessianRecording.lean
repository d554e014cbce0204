import Verif.Model.HessianRecording
import Verif.Props.SweepRecording
import Verif.Proofs.HessCongr
import Verif.Proofs.HessSweep

/-!
# C91: Hessian sweeps by hand and the recorded program

A program that computes Hessians by hand, with annotation on, extends the tape: every power with a Hessian value records two or four subtractions in every sweep
(`hessian_by_hand_records`).  The Hessian values are right all the same (`hessian_by_hand_values`), and values, derivatives and Hessians of what was recorded before stay as they are,
whatever is swept (`calls_by_hand_keep_functionals_partial`).
-/

namespace Pyadjoint.HandRec

/-! ## Specification -/

/-- The operations that the Hessian sweep records for a block: for a power that has a Hessian value in `h` and whose exponent is an `AdjFloat`, four if the base has a tangent and two otherwise. -/
def hRecords (s : World) (h : FHeap) : FBlock → Nat
  | .bin .pow a e o => if (h o).hess.isSome && (s.holds e).isSome then if (h a).tlm.isSome then 4 else 2 else 0
  | _ => 0

/-! ## Proof -/

/-- What recording something leaves of the state. -/
structure Extends (s s' : World) (n : Nat) : Prop where
  tape : ∃ u, s'.tape = s.tape ++ u ∧ (∀ c ∈ u, s.next ≤ c.out) ∧ u.length = n
  heap : Agree s.next s'.heap s.heap
  next : s.next ≤ s'.next
  sound : s'.Sound
  annotate : s'.annotate = s.annotate
  holds : ∀ v, v < s.next → s'.holds v = s.holds v
  idle : Idle s.heap → Idle s'.heap

theorem Extends.refl {s : World} (hs : s.Sound) : Extends s s 0 :=
  ⟨⟨[], by simp, by simp, rfl⟩, fun _ _ => rfl, le_rfl, hs, rfl, fun _ _ => rfl, id⟩

theorem Extends.trans {s s' s'' : World} {n m : Nat} (h : Extends s s' n) (h' : Extends s' s'' m) : Extends s s'' (n + m) := by
  obtain ⟨u, hu, hun, hul⟩ := h.tape
  obtain ⟨w, hw, hwn, hwl⟩ := h'.tape
  refine ⟨⟨u ++ w, by rw [hw, hu, List.append_assoc], fun c hc => ?_, by rw [List.length_append, hul, hwl]⟩, fun v hv => ?_, h.next.trans h'.next, h'.sound,
    h'.annotate.trans h.annotate, fun v hv => (h'.holds v (hv.trans_le h.next)).trans (h.holds v hv), fun hi => h'.idle (h.idle hi)⟩
  · rcases List.mem_append.1 hc with hc | hc
    · exact hun c hc
    · exact h.next.trans (hwn c hc)
  · rw [h'.heap v (hv.trans_le h.next), h.heap v hv]

theorem minus_spec {s : World} (hs : s.Sound) {e : BV} (he : e < s.next) (c : ℝ) :
    Extends s (s.minus e c) (if s.annotate && (s.holds e).isSome then 1 else 0) := by
  obtain ⟨u, h1, h2, h3, -, h5, h6, h7, h8⟩ := minusOne_spec hs he
  have e1 : (s.minus e c).tape = (s.minusOne e).tape := by unfold World.minus World.minusOne; cases s.annotate <;> cases s.holds e <;> rfl
  have e2 : (s.minus e c).next = (s.minusOne e).next := by unfold World.minus World.minusOne; cases s.annotate <;> cases s.holds e <;> rfl
  have e3 : (s.minus e c).annotate = (s.minusOne e).annotate := by unfold World.minus World.minusOne; cases s.annotate <;> cases s.holds e <;> rfl
  have e4 : (s.minus e c).holds = (s.minusOne e).holds := by unfold World.minus World.minusOne; cases s.annotate <;> cases s.holds e <;> rfl
  refine ⟨⟨u, e1.trans h1, fun b hb => (h2 b hb).1, h3⟩, fun v hv => ?_, e2 ▸ h5, ⟨?_, ?_, ?_⟩, e3.trans h7, fun v hv => by rw [e4]; exact h8 v hv, fun hi => ?_⟩
  · unfold World.minus
    split
    · simp only []
      rw [Function.update_of_ne (fresh₁ hv), Function.update_of_ne (fresh₀ hv)]
    · rfl
  · rw [e1]; exact h6.wf
  · rw [e1, e2]; exact h6.below
  · rw [e2, e4]; exact h6.held
  · unfold World.minus
    split
    · intro v
      simp only [Function.update_apply]
      split
      · exact ⟨rfl, rfl⟩
      · split
        · exact ⟨rfl, rfl⟩
        · exact hi v
    · exact hi

theorem powHessian_spec {s : World} (hs : s.Sound) {a e o : BV} (he : e < s.next) :
    Extends s (s.powHessian a e o) (if s.annotate then hRecords s s.heap (.bin .pow a e o) else 0) := by
  have two : ∀ {s : World}, s.Sound → e < s.next → ∀ c d : ℝ, Extends s ((s.minus e c).minus e d) (if s.annotate && (s.holds e).isSome then 2 else 0) := by
    intro s hs he c d
    have h1 := minus_spec hs he c
    have h2 := h1.trans (minus_spec h1.sound (he.trans_le h1.next) d)
    rw [h1.annotate, h1.holds e he] at h2
    convert h2 using 1
    split <;> rfl
  unfold World.powHessian
  cases hh : (s.heap o).hess with
  | none =>
    simp only [Option.isNone_none, if_true, hRecords, hh, Option.isSome_none, Bool.false_and, Bool.false_eq_true, if_false, ite_self]
    exact .refl hs
  | some x =>
    simp only [Option.isNone_some, Bool.false_eq_true, if_false, hRecords, hh, Option.isSome_some, Bool.true_and]
    by_cases ht : (s.heap a).tlm.isSome
    · simp only [ht, if_true]
      have h1 := two hs he 1 2
      have h2 := h1.trans (two h1.sound (he.trans_le h1.next) 1 1)
      rw [h1.annotate, h1.holds e he] at h2
      convert h2 using 1
      cases s.annotate <;> cases (s.holds e).isSome <;> rfl
    · simp only [ht, Bool.false_eq_true, if_false]
      have h2 := two hs he 1 1
      convert h2 using 1
      cases s.annotate <;> cases (s.holds e).isSome <;> simp

/-- The same outcome, as far as variables below `n` are concerned. -/
def SameOutcome (n : BV) (r r' : Except FBlock.PyErr FHeap) : Prop :=
  match r, r' with
  | .error x, .error y => x = y
  | .ok h, .ok g => Agree n h g
  | _, _ => False

theorem canon_of_agree {n : BV} {h g : FHeap} (e : Agree n h g) : canon (· < n) h = canon (· < n) g := by
  funext v
  unfold canon
  split
  · rename_i hv
    rw [e.saved hv, e v hv]
  · rfl

theorem hessian_frame {b : FBlock} {g g' : FHeap} (h : b.evaluateHessian false g = .ok g') (v : BV) :
    (∃ o, g' v = { g v with hess := o }) ∧ (v ∉ b.deps → g' v = g v) := by
  obtain ⟨C, rfl, hC⟩ := b.evaluateHessian_ok false g g' h
  refine ⟨?_, fun hv => ?_⟩
  · obtain ⟨o, ho, -⟩ := addMany_frame C g v
    exact ⟨o, ho⟩
  · have gen : ∀ (C : List (BV × ℝ)), (∀ p ∈ C, p.1 ≠ v) → ∀ g : FHeap, addMany C g v = g v := by
      intro C
      induction C with
      | nil => exact fun _ _ => rfl
      | cons p C ih =>
        intro hp g
        show addMany C (addHess g p.1 p.2) v = g v
        rw [ih (fun q hq => hp q (List.mem_cons_of_mem _ hq))]
        unfold addHess
        rw [Function.update_of_ne (hp p List.mem_cons_self).symm]
    exact gen C (fun p hp e => hv (e ▸ hC p hp)) g

theorem Agree.hessian {n : BV} {h g : FHeap} (e : Agree n h g) (b : FBlock) (hd : ∀ d ∈ b.deps, d < n) (ho : b.out < n) :
    SameOutcome n (b.evaluateHessian false h) (b.evaluateHessian false g) := by
  have h1 := FBlock.evaluateHessian_canon (· < n) b hd ho false h
  have h2 := FBlock.evaluateHessian_canon (· < n) b hd ho false g
  rw [canon_of_agree e, h2] at h1
  cases hh : b.evaluateHessian false h with
  | error x =>
    cases hg : b.evaluateHessian false g with
    | error y => rw [hh, hg] at h1; cases h1; rfl
    | ok g' => rw [hh, hg] at h1; cases h1
  | ok h' =>
    cases hg : b.evaluateHessian false g with
    | error y => rw [hh, hg] at h1; cases h1
    | ok g' =>
      rw [hh, hg] at h1
      have h3 : canon (· < n) g' = canon (· < n) h' := by injection h1
      intro v hv
      obtain ⟨⟨o₁, e₁⟩, -⟩ := hessian_frame hh v
      obtain ⟨⟨o₂, e₂⟩, -⟩ := hessian_frame hg v
      have h4 : (g' v).hess = (h' v).hess := by rw [← canon_hess (· < n) hv g', h3, canon_hess (· < n) hv h']
      rw [e₁, e₂] at h4
      rw [e₁, e₂, e v hv, show o₁ = o₂ from h4.symm]

theorem Agree.hessians {n : BV} (l : List FBlock) (hl : ∀ b ∈ l, (∀ d ∈ b.deps, d < n) ∧ b.out < n) {h g : FHeap} (e : Agree n h g) :
    SameOutcome n (l.foldlM (fun h b => b.evaluateHessian false h) h) (l.foldlM (fun h b => b.evaluateHessian false h) g) := by
  induction l generalizing h g with
  | nil => exact e
  | cons b l ih =>
    have h1 := e.hessian b (hl b List.mem_cons_self).1 (hl b List.mem_cons_self).2
    rw [List.foldlM_cons, List.foldlM_cons]
    cases hh : b.evaluateHessian false h with
    | error x =>
      cases hg : b.evaluateHessian false g with
      | error y => rw [hh, hg] at h1; exact h1
      | ok g' => rw [hh, hg] at h1; exact h1.elim
    | ok h' =>
      cases hg : b.evaluateHessian false g with
      | error y => rw [hh, hg] at h1; exact h1.elim
      | ok g' =>
        rw [hh, hg] at h1
        exact ih (fun c hc => hl c (List.mem_cons_of_mem _ hc)) h1

/-- The outcome of a sweep that records, beside that of the sweep that does not. -/
def Matches (s : World) (n : FHeap → Nat) (r : Except FBlock.PyErr World) (q : Except FBlock.PyErr FHeap) : Prop :=
  match q with
  | .error x => r = .error x
  | .ok h => ∃ s', r = .ok s' ∧ Extends { s with heap := h } s' (n h)

theorem Sound.heap {s : World} (hs : s.Sound) (h : FHeap) : World.Sound { s with heap := h } := ⟨hs.wf, hs.below, hs.held⟩

theorem hblock_spec {s : World} (hs : s.Sound) {b : FBlock} (hd : ∀ d ∈ b.deps, d < s.next) (ho : b.out < s.next) :
    Matches s (fun _ => if s.annotate then hRecords s s.heap b else 0) (s.hblock b) (b.evaluateHessian false s.heap) := by
  have key : ∀ s₁ : World, Extends s s₁ (if s.annotate then hRecords s s.heap b else 0) →
      s.hblock b = ((b.evaluateHessian false s₁.heap).map fun h => { s₁ with heap := h }) →
      Matches s (fun _ => if s.annotate then hRecords s s.heap b else 0) (s.hblock b) (b.evaluateHessian false s.heap) := by
    intro s₁ h1 hb
    have h2 := h1.heap.hessian b hd ho
    rw [hb]
    cases hq : b.evaluateHessian false s.heap with
    | error x =>
      cases hr : b.evaluateHessian false s₁.heap with
      | error y => rw [hq, hr] at h2; cases h2; rfl
      | ok g => rw [hq, hr] at h2; exact h2.elim
    | ok h =>
      cases hr : b.evaluateHessian false s₁.heap with
      | error y => rw [hq, hr] at h2; exact h2.elim
      | ok g =>
        rw [hq, hr] at h2
        refine ⟨_, rfl, ⟨h1.tape, h2, h1.next, Sound.heap h1.sound g, h1.annotate, h1.holds, fun hi v => ?_⟩⟩
        obtain ⟨⟨o, e⟩, -⟩ := hessian_frame hr v
        have hi₀ : Idle s.heap := fun w => by
          obtain ⟨⟨o', e'⟩, -⟩ := hessian_frame hq w
          have := hi w
          simp only [e'] at this
          exact this
        show (g v).isControl = false ∧ (g v).marked = false
        rw [e]
        exact h1.idle hi₀ v
  cases b with
  | un op a o => exact key s (by simp only [hRecords, ite_self]; exact .refl hs) rfl
  | bin op a e o =>
    cases op with
    | pow => exact key _ (powHessian_spec hs (hd e (by simp [FBlock.deps]))) rfl
    | add => exact key s (by simp only [hRecords, ite_self]; exact .refl hs) rfl
    | sub => exact key s (by simp only [hRecords, ite_self]; exact .refl hs) rfl
    | mul => exact key s (by simp only [hRecords, ite_self]; exact .refl hs) rfl
    | div => exact key s (by simp only [hRecords, ite_self]; exact .refl hs) rfl
    | min => exact key s (by simp only [hRecords, ite_self]; exact .refl hs) rfl
    | max => exact key s (by simp only [hRecords, ite_self]; exact .refl hs) rfl

theorem hessians_frame (l : List FBlock) {g g' : FHeap} (h : l.foldlM (fun h b => b.evaluateHessian false h) g = .ok g') (v : BV) :
    (∃ o, g' v = { g v with hess := o }) ∧ ((∀ b ∈ l, v ∉ b.deps) → g' v = g v) := by
  induction l generalizing g with
  | nil => cases h; exact ⟨⟨_, rfl⟩, fun _ => rfl⟩
  | cons b l ih =>
    rw [List.foldlM_cons] at h
    cases hb : b.evaluateHessian false g with
    | error x => rw [hb] at h; cases h
    | ok g₁ =>
      rw [hb] at h
      obtain ⟨⟨o₁, e₁⟩, f₁⟩ := hessian_frame hb v
      obtain ⟨⟨o₂, e₂⟩, f₂⟩ := ih h
      exact ⟨⟨o₂, by rw [e₂, e₁]⟩, fun hv => (f₂ fun c hc => hv c (List.mem_cons_of_mem _ hc)).trans (f₁ (hv b List.mem_cons_self))⟩

theorem hblocks_spec {s : World} (hs : s.Sound) (l : List FBlock) (hl : ∀ b ∈ l, b.out ∉ b.deps ∧ (∀ d ∈ b.deps, d < s.next) ∧ b.out < s.next)
    (hearlier : l.Pairwise fun b c => b.out ∉ c.deps) :
    Matches s (fun h => if s.annotate then (l.map (hRecords s h)).sum else 0) (l.foldlM World.hblock s)
      (l.foldlM (fun h b => b.evaluateHessian false h) s.heap) := by
  induction l generalizing s with
  | nil => exact ⟨s, rfl, by simp only [List.map_nil, List.sum_nil, ite_self]; exact .refl hs⟩
  | cons b l ih =>
    obtain ⟨hself, hd, ho⟩ := hl b List.mem_cons_self
    rw [List.pairwise_cons] at hearlier
    have h1 := hblock_spec hs hd ho
    rw [List.foldlM_cons, List.foldlM_cons]
    cases hq : b.evaluateHessian false s.heap with
    | error x =>
      rw [hq] at h1
      have h1 : s.hblock b = .error x := h1
      rw [h1]
      rfl
    | ok h₁ =>
      rw [hq] at h1
      obtain ⟨s₁, e₁, x₁⟩ := h1
      rw [e₁]
      have hn : s.next ≤ s₁.next := x₁.next
      have h2 := ih x₁.sound (fun c hc => ⟨(hl c (List.mem_cons_of_mem _ hc)).1, fun d hd => ((hl c (List.mem_cons_of_mem _ hc)).2.1 d hd).trans_le hn,
        (hl c (List.mem_cons_of_mem _ hc)).2.2.trans_le hn⟩) hearlier.2
      have h3 := Agree.hessians l (fun c hc => (hl c (List.mem_cons_of_mem _ hc)).2) x₁.heap
      show Matches s _ (l.foldlM World.hblock s₁) (l.foldlM (fun h b => b.evaluateHessian false h) h₁)
      change SameOutcome s.next (l.foldlM (fun h b => b.evaluateHessian false h) s₁.heap) (l.foldlM (fun h b => b.evaluateHessian false h) h₁) at h3
      cases hr : l.foldlM (fun h b => b.evaluateHessian false h) s₁.heap with
      | error x =>
        cases hp : l.foldlM (fun h b => b.evaluateHessian false h) h₁ with
        | error y =>
          rw [hr, hp] at h3; rw [hr] at h2
          cases h3
          exact h2
        | ok g => rw [hr, hp] at h3; exact h3.elim
      | ok g =>
        cases hp : l.foldlM (fun h b => b.evaluateHessian false h) h₁ with
        | error y => rw [hr, hp] at h3; exact h3.elim
        | ok h =>
          rw [hr, hp] at h3; rw [hr] at h2
          obtain ⟨s₂, e₂, x₂⟩ := h2
          refine ⟨s₂, e₂, ?_⟩
          have hrec : ∀ c ∈ l, hRecords s₁ g c = hRecords s h c := by
            intro c hc
            obtain ⟨-, c2, c3⟩ := hl c (List.mem_cons_of_mem _ hc)
            cases c with
            | un op a o => rfl
            | bin op a e o =>
              have ha := c2 a (by simp [FBlock.deps])
              have he := c2 e (by simp [FBlock.deps])
              cases op <;> first
                | rfl
                | simp only [hRecords, h3 a ha, h3 o c3, show s₁.holds e = s.holds e from x₁.holds e he]
          have hfirst : hRecords s s.heap b = hRecords s h b := by
            have hout : h b.out = s.heap b.out :=
              ((hessians_frame l hp b.out).2 hearlier.1).trans ((hessian_frame hq b.out).2 hself)
            have htl : ∀ v, (h v).tlm = (s.heap v).tlm := by
              intro v
              obtain ⟨⟨o₁, f₁⟩, -⟩ := hessians_frame l hp v
              obtain ⟨⟨o₂, f₂⟩, -⟩ := hessian_frame hq v
              rw [f₁, f₂]
            cases b with
            | un op a o => rfl
            | bin op a e o =>
              have hout' : h o = s.heap o := hout
              cases op <;> first
                | rfl
                | simp only [hRecords, hout', htl]
          have x₁' : Extends { s with heap := h } { s₁ with heap := g } (if s.annotate then hRecords s s.heap b else 0) :=
            ⟨x₁.tape, h3, hn, Sound.heap x₁.sound g, x₁.annotate, x₁.holds, fun hi v => by
              have hi₁ : Idle h₁ := fun w => by
                obtain ⟨⟨o', e'⟩, -⟩ := hessians_frame l hp w
                have := hi w
                simp only [e'] at this
                exact this
              obtain ⟨⟨o, e⟩, -⟩ := hessians_frame l hr v
              show (g v).isControl = false ∧ (g v).marked = false
              rw [e]
              exact x₁.idle hi₁ v⟩
          have := x₁'.trans x₂
          convert this using 1
          simp only []
          rw [List.map_cons, List.sum_cons, hfirst, show s₁.annotate = s.annotate from x₁.annotate, List.map_congr_left hrec]
          cases s.annotate <;> rfl

theorem sweepHessian_spec {s : World} (hs : s.Sound) :
    Matches s (fun h => if s.annotate then (s.tape.map (hRecords s h)).sum else 0) s.sweepHessian (s.tape.evaluateHessian false s.heap) := by
  have := hblocks_spec hs s.tape.reverse (fun b hb => ⟨self_of_wf hs.wf (List.mem_reverse.1 hb), hs.below b (List.mem_reverse.1 hb)⟩)
    (List.pairwise_reverse.2 ((later_of_wf hs.wf).imp fun {a b} h hd => h _ hd rfl))
  simp only [List.map_reverse, List.sum_reverse] at this
  exact this

/-- **C91, Hessians.** A Hessian sweep by hand raises exactly if the sweep over the recorded operations does, and stores the same Hessian values, as if nothing had been recorded. -/
theorem hessian_by_hand_values {s : World} (hs : s.Sound) :
    (∀ x, s.sweepHessian = .error x ↔ s.tape.evaluateHessian false s.heap = .error x) ∧
    ∀ s', s.sweepHessian = .ok s' → ∃ h, s.tape.evaluateHessian false s.heap = .ok h ∧ ∀ v, v < s.next → s'.heap v = h v := by
  have h := sweepHessian_spec hs
  cases hq : s.tape.evaluateHessian false s.heap with
  | error y =>
    rw [hq] at h
    have h : s.sweepHessian = .error y := h
    rw [h]
    exact ⟨fun x => ⟨fun h => (by cases h; rfl), fun h => (by cases h; rfl)⟩, fun s' h => (by cases h)⟩
  | ok g =>
    rw [hq] at h
    obtain ⟨s₁, h1, h2⟩ := h
    rw [h1]
    refine ⟨fun x => ⟨fun h => (by cases h), fun h => (by cases h)⟩, fun s' h => ?_⟩
    cases h
    exact ⟨g, rfl, h2.heap⟩

/-- **C91, what Hessian sweeps record.** A Hessian sweep by hand that returns, with annotation on, extends the tape: by four operations for each power with a Hessian value whose base has a tangent
and whose exponent is an `AdjFloat`, and by two if the base has none; with annotation paused by none. -/
theorem hessian_by_hand_records {s s' : World} (hs : s.Sound) (hr : s.sweepHessian = .ok s') : s.tape <+: s'.tape ∧
    ∃ h, s.tape.evaluateHessian false s.heap = .ok h ∧ s'.tape.length = s.tape.length + if s.annotate then (s.tape.map (hRecords s h)).sum else 0 := by
  have h := sweepHessian_spec hs
  cases hq : s.tape.evaluateHessian false s.heap with
  | error y =>
    rw [hq] at h
    have h : s.sweepHessian = .error y := h
    rw [h] at hr; cases hr
  | ok g =>
    rw [hq] at h
    obtain ⟨s₁, h1, h2⟩ := h
    rw [h1] at hr
    cases hr
    obtain ⟨u, e, -, hl⟩ := h2.tape
    have e : s'.tape = s.tape ++ u := e
    exact ⟨⟨u, e.symm⟩, g, rfl, by rw [e, List.length_append, hl]⟩

/-- What calls by hand leave of the program recorded before. -/
structure HKept (s₀ s : World) : Prop where
  sound : s.Sound
  next : s₀.next ≤ s.next
  tape : ∃ u, s.tape = s₀.tape ++ u
  vars : SameValues (· < s₀.next) s.heap s₀.heap
  idle : Idle s.heap

theorem HKept.heap {s₀ s : World} (h : HKept s₀ s) (g : FHeap)
    (hg : ∀ v, (g v).output = (s.heap v).output ∧ (g v).ckpt = (s.heap v).ckpt ∧ (g v).isControl = (s.heap v).isControl ∧ (g v).marked = (s.heap v).marked) :
    HKept s₀ { s with heap := g } :=
  ⟨Sound.heap h.sound g, h.next, h.tape, fun v hv => ⟨(hg v).1.trans (h.vars v hv).1, (hg v).2.1.trans (h.vars v hv).2.1, (hg v).2.2.1.trans (h.vars v hv).2.2⟩,
    fun v => ⟨(hg v).2.2.1.trans (h.idle v).1, (hg v).2.2.2.trans (h.idle v).2⟩⟩

theorem HKept.run {s₀ s s' : World} (h : HKept s₀ s) (op : HOp) (hr : op.run s = .ok s') : HKept s₀ s' := by
  cases op with
  | tangent op =>
    cases hr
    have hk : Kept s (op.run s) := Kept.run ⟨h.sound, le_rfl, ⟨[], by simp, by simp⟩, fun v _ => ⟨_, rfl⟩, h.idle⟩ op
    obtain ⟨u₀, e₀⟩ := h.tape
    obtain ⟨u, e, -⟩ := hk.tape
    refine ⟨hk.sound, h.next.trans hk.next, ⟨u₀ ++ u, by rw [e, e₀, List.append_assoc]⟩, fun v hv => ?_, hk.idle⟩
    obtain ⟨d, hd⟩ := hk.vars v (hv.trans_le h.next)
    rw [hd]
    exact h.vars v hv
  | setAdj v a =>
    cases hr
    refine h.heap _ fun w => ?_
    by_cases hw : w = v
    · subst hw; rw [Function.update_self]; exact ⟨rfl, rfl, rfl, rfl⟩
    · rw [Function.update_of_ne hw]; exact ⟨rfl, rfl, rfl, rfl⟩
  | setHess v a =>
    cases hr
    refine h.heap _ fun w => ?_
    by_cases hw : w = v
    · subst hw; rw [Function.update_self]; exact ⟨rfl, rfl, rfl, rfl⟩
    · rw [Function.update_of_ne hw]; exact ⟨rfl, rfl, rfl, rfl⟩
  | sweepAdj =>
    cases hr
    refine h.heap _ fun w => ?_
    obtain ⟨a, e⟩ := evaluateAdj_frame s.tape.blocks false s.heap w
    rw [e]
    exact ⟨rfl, rfl, rfl, rfl⟩
  | reset t =>
    cases hr
    refine h.heap _ fun w => ?_
    classical
    rw [resetVariables_apply]
    split
    · cases t <;> exact ⟨rfl, rfl, rfl, rfl⟩
    · exact ⟨rfl, rfl, rfl, rfl⟩
  | sweepHessian =>
    have hm := sweepHessian_spec h.sound
    have hr : s.sweepHessian = .ok s' := hr
    cases hq : s.tape.evaluateHessian false s.heap with
    | error y =>
      rw [hq] at hm
      have hm : s.sweepHessian = .error y := hm
      rw [hm] at hr; cases hr
    | ok g =>
      rw [hq] at hm
      obtain ⟨s₁, h1, x⟩ := hm
      rw [h1] at hr
      cases hr
      have hg := h.heap g fun w => by
        obtain ⟨o, e⟩ := FTape.evaluateHessian_frame s.tape false s.heap g hq w
        rw [e]; exact ⟨rfl, rfl, rfl, rfl⟩
      obtain ⟨u₀, e₀⟩ := h.tape
      obtain ⟨u, e, -, -⟩ := x.tape
      have e : s'.tape = s.tape ++ u := e
      refine ⟨x.sound, h.next.trans x.next, ⟨u₀ ++ u, by rw [e, e₀, List.append_assoc]⟩, fun v hv => ?_, x.idle hg.idle⟩
      rw [x.heap v (hv.trans_le h.next)]
      exact hg.vars v hv

/-- **C91, for everything that can be computed by hand.** Whatever a program assigns, sweeps (adjoints, tangents and Hessians) and resets by hand, in any order, as long as no call raises: afterwards
the values, derivatives and Hessians of every functional recorded before, at every point, are what they would have been, on the tape as it is then. -/
theorem calls_by_hand_keep_functionals_partial {s s' : World} (hs : s.Sound) (hidle : Idle s.heap) (ops : List HOp) (hr : hrun ops s = .ok s') (J : BV)
    (hJ : OnTape s.tape.blocks J) (cs : List BV) (hcs : ∀ c ∈ cs, OnTape s.tape.blocks c) (xs : List ℝ) (seed : ℝ) (ds : List ℝ) :
    saved (rfEval s'.tape.blocks cs xs s'.heap) J = saved (rfEval s.tape.blocks cs xs s.heap) J ∧
    (computeGradient s'.tape.blocks J cs seed (rfEval s'.tape.blocks cs xs s'.heap)).1
      = (computeGradient s.tape.blocks J cs seed (rfEval s.tape.blocks cs xs s.heap)).1 ∧
    (s'.tape.computeHessian J cs ds (computeGradient s'.tape.blocks J cs seed (rfEval s'.tape.blocks cs xs s'.heap)).2).map (·.1)
      = (s.tape.computeHessian J cs ds (computeGradient s.tape.blocks J cs seed (rfEval s.tape.blocks cs xs s.heap)).2).map (·.1) := by
  have gen : ∀ (ops : List HOp) (s₁ : World), HKept s s₁ → hrun ops s₁ = .ok s' → HKept s s' := by
    intro ops
    induction ops with
    | nil => intro s₁ h hr; cases hr; exact h
    | cons op ops ih =>
      intro s₁ h hr
      unfold hrun at hr
      rw [List.foldlM_cons] at hr
      cases ho : op.run s₁ with
      | error x => rw [ho] at hr; cases hr
      | ok s₂ => rw [ho] at hr; exact ih s₂ (h.run op ho) hr
  have hk := gen ops s ⟨hs, le_rfl, ⟨[], by simp⟩, fun v _ => ⟨rfl, rfl, rfl⟩, hidle⟩ hr
  exact functionals_kept hs hidle hk.sound hk.idle hk.tape hk.vars J hJ cs hcs xs seed ds

/-! ## Non-vacuity -/

/-- `y = x ** 3`, with a direction for `x`, and `y.block_variable.adj_value = 1.`, `y.block_variable.hessian_value = 0.`. -/
noncomputable def cubeHessian : World :=
  { tape := [.bin .pow 0 1 2]
    heap := fun v => { output := if v = 0 then 2 else if v = 1 then 3 else (2 : ℝ) ^ (3 : ℝ), tlm := if v = 0 then some 1 else none,
                       adj := if v = 2 then some 1 else none, hess := if v = 2 then some 0 else none }
    next := 3 }

theorem cubeHessian_sound : cubeHessian.Sound := ⟨cubePower_sound.wf, cubePower_sound.below, cubePower_sound.held⟩

/-- The hypotheses of the theorems hold for this program: the sweep returns, and records four operations. -/
example : cubeHessian.Sound ∧ Idle cubeHessian.heap ∧ OnTape cubeHessian.tape.blocks 2 ∧ (∀ c ∈ [0], OnTape cubeHessian.tape.blocks c) ∧
    ∃ s', hrun [.sweepHessian] cubeHessian = .ok s' ∧ cubeHessian.sweepHessian = .ok s' ∧ s'.tape.length = 5 := by
  refine ⟨cubeHessian_sound, fun _ => ⟨rfl, rfl⟩, ⟨_, List.mem_cons_self, Or.inr (by simp [FBlock.toBlock])⟩, fun c hc => ?_, ?_⟩
  · rw [List.mem_singleton.1 hc]
    exact ⟨_, List.mem_cons_self, Or.inl (by simp [FBlock.toBlock])⟩
  · obtain ⟨s', hs'⟩ : ∃ s', cubeHessian.sweepHessian = .ok s' := ⟨_, rfl⟩
    obtain ⟨-, h, h1, h2⟩ := hessian_by_hand_records cubeHessian_sound hs'
    refine ⟨s', ?_, hs', ?_⟩
    · unfold hrun
      rw [List.foldlM_cons, show HOp.sweepHessian.run cubeHessian = .ok s' from hs']
      rfl
    · have ho : h 2 = cubeHessian.heap 2 := (hessians_frame _ h1 2).2 fun b hb => by
        rw [List.mem_singleton.1 (List.mem_reverse.1 hb)]
        simp [FBlock.deps]
      obtain ⟨⟨o, ha⟩, -⟩ := hessians_frame _ h1 0
      rw [h2]
      simp [cubeHessian, hRecords] at ho ha ⊢
      simp [ho, ha]

end Pyadjoint.HandRec
