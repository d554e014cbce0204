import Verif.Props.HessianRecording
import Verif.Props.LaterOperations
import Verif.Proofs.CkptQuiet

/-!
# C91: whatever is computed by hand is right

Sweeps by hand record operations, and later sweeps go over these as well.  After any sequence of assignments, sweeps and resets by hand the variables of the program have the adjoints,
tangents and Hessian values that the same calls give on the tape of the program alone.
-/

namespace Pyadjoint.HandRec

/-! ## Specification -/

/-- What a call by hand does to the variables if the operations on the tape are those in `t` and nothing is recorded.  (`tape.py:362-401`; the specification.) -/
noncomputable def HOp.plain (t : FTape) : HOp → FHeap → Except FBlock.PyErr FHeap
  | .tangent (.setTlm v d), h => .ok (Function.update h v { h v with tlm := d })
  | .tangent .sweep, h => .ok (t.evaluateTlm false h)
  | .tangent .reset, h => .ok (resetVariables t.blocks .tlm h)
  | .tangent (.annotation _), h => .ok h
  | .setAdj v a, h => .ok (Function.update h v { h v with adj := a })
  | .setHess v a, h => .ok (Function.update h v { h v with hess := a })
  | .sweepAdj, h => .ok (evaluateAdj t.blocks false h)
  | .sweepHessian, h => t.evaluateHessian false h
  | .reset ty, h => .ok (resetVariables t.blocks ty h)

/-- The variable that a call assigns to is one of the first `n`.  (A condition on the user's program.) -/
def HOp.Below (n : BV) : HOp → Prop
  | .setAdj v _ => v < n
  | .setHess v _ => v < n
  | _ => True

/-! ## Proof -/

/-- Two states of the variables in `P`. -/
def AgreeOn (P : BV → Prop) (h g : FHeap) : Prop := ∀ v, P v → h v = g v

theorem AgreeOn.saved {P : BV → Prop} {h g : FHeap} (e : AgreeOn P h g) {v : BV} (hv : P v) : Pyadjoint.saved h v = Pyadjoint.saved g v :=
  saved_congr (by rw [e v hv]) (by rw [e v hv])

theorem AgreeOn.tlmBlock {P : BV → Prop} {h g : FHeap} (e : AgreeOn P h g) (b : FBlock) (hself : b.out ∉ b.deps) (hd : ∀ d ∈ b.deps, P d) :
    AgreeOn P (b.evaluateTlm false h) (b.evaluateTlm false g) := by
  intro v hv
  rw [FBlock.evaluateTlm_apply b false h hself, FBlock.evaluateTlm_apply b false g hself]
  by_cases hvo : v = b.out
  · rw [if_pos hvo, if_pos hvo, e v hv]
    congr 1
    cases b with
    | un op a o =>
      have ha := hd a (by simp [FBlock.deps])
      cases op <;> simp only [FBlock.tlmNew, e.saved ha, e a ha]
    | bin op a c o =>
      have ha := hd a (by simp [FBlock.deps])
      have hc := hd c (by simp [FBlock.deps])
      cases op <;> simp only [FBlock.tlmNew, e.saved ha, e a ha, e.saved hc, e c hc]
  · rw [if_neg hvo, if_neg hvo, e v hv]

theorem AgreeOn.tlm {P : BV → Prop} (t : FTape) (hself : ∀ b ∈ t, b.out ∉ b.deps) (hd : ∀ b ∈ t, ∀ d ∈ b.deps, P d) :
    ∀ {h g : FHeap}, AgreeOn P h g → AgreeOn P (t.evaluateTlm false h) (t.evaluateTlm false g) := by
  unfold FTape.evaluateTlm
  induction t with
  | nil => exact fun e => e
  | cons b t ih =>
    exact fun e => ih (fun c hc => hself c (List.mem_cons_of_mem _ hc)) (fun c hc => hd c (List.mem_cons_of_mem _ hc))
      (e.tlmBlock b (hself b List.mem_cons_self) (hd b List.mem_cons_self))

/-- The same outcome, as far as variables in `P` are concerned. -/
def SameOn (P : BV → Prop) (r r' : Except FBlock.PyErr FHeap) : Prop :=
  match r, r' with
  | .error x, .error y => x = y
  | .ok h, .ok g => AgreeOn P h g
  | _, _ => False

theorem AgreeOn.hessBlock {P : BV → Prop} {h g : FHeap} (e : AgreeOn P h g) (b : FBlock) (hd : ∀ d ∈ b.deps, P d) (ho : P b.out) :
    SameOn P (b.evaluateHessian false h) (b.evaluateHessian false g) := by
  classical
  have ec : canon P h = canon P g := by
    funext v
    unfold canon
    split
    · rename_i hv
      rw [e.saved hv, e v hv]
    · rfl
  have h1 := FBlock.evaluateHessian_canon P b hd ho false h
  have h2 := FBlock.evaluateHessian_canon P b hd ho false g
  rw [ec, h2] at h1
  cases hh : b.evaluateHessian false h with
  | error x =>
    cases hg : b.evaluateHessian false g with
    | error y => rw [hh, hg] at h1; cases h1; rfl
    | ok g' => rw [hh, hg] at h1; cases h1
  | ok h' =>
    cases hg : b.evaluateHessian false g with
    | error y => rw [hh, hg] at h1; cases h1
    | ok g' =>
      rw [hh, hg] at h1
      have h3 : canon P g' = canon P h' := by injection h1
      intro v hv
      obtain ⟨⟨o₁, e₁⟩, -⟩ := hessian_frame hh v
      obtain ⟨⟨o₂, e₂⟩, -⟩ := hessian_frame hg v
      have h4 : (g' v).hess = (h' v).hess := by rw [← canon_hess P hv g', h3, canon_hess P hv h']
      rw [e₁, e₂] at h4
      rw [e₁, e₂, e v hv, show o₁ = o₂ from h4.symm]

theorem AgreeOn.hess {P : BV → Prop} (t : FTape) (ht : ∀ b ∈ t, (∀ d ∈ b.deps, P d) ∧ P b.out) {h g : FHeap} (e : AgreeOn P h g) :
    SameOn P (t.evaluateHessian false h) (t.evaluateHessian false g) := by
  unfold FTape.evaluateHessian
  have hl : ∀ b ∈ t.reverse, (∀ d ∈ b.deps, P d) ∧ P b.out := fun b hb => ht b (List.mem_reverse.1 hb)
  revert h g
  generalize t.reverse = l at hl
  induction l with
  | nil => exact fun e => e
  | cons b l ih =>
    intro h g e
    have h1 := e.hessBlock b (hl b List.mem_cons_self).1 (hl b List.mem_cons_self).2
    rw [List.foldlM_cons, List.foldlM_cons]
    cases hh : b.evaluateHessian false h with
    | error x =>
      cases hg : b.evaluateHessian false g with
      | error y => rw [hh, hg] at h1; exact h1
      | ok g' => rw [hh, hg] at h1; exact h1.elim
    | ok h' =>
      cases hg : b.evaluateHessian false g with
      | error y => rw [hh, hg] at h1; exact h1.elim
      | ok g' =>
        rw [hh, hg] at h1
        exact ih (fun c hc => hl c (List.mem_cons_of_mem _ hc)) h1

/-- New variables have no adjoints and no Hessian values. -/
def Blank (n : BV) (h : FHeap) : Prop := ∀ v, n ≤ v → (h v).adj = none ∧ (h v).hess = none

theorem Blank.minus {n : BV} {s : World} (hq : Blank n s.heap) (e : BV) (c : ℝ) : Blank n (s.minus e c).heap := by
  unfold World.minus
  split
  · intro v hv
    simp only [Function.update_apply]
    split
    · exact ⟨rfl, rfl⟩
    · split
      · exact ⟨rfl, rfl⟩
      · exact hq v hv
  · exact hq

theorem Blank.minusOne {n : BV} {s : World} (hq : Blank n s.heap) (e : BV) : Blank n (s.minusOne e).heap := by
  unfold World.minusOne
  split
  · intro v hv
    simp only [Function.update_apply]
    split
    · exact ⟨rfl, rfl⟩
    · split
      · exact ⟨rfl, rfl⟩
      · exact hq v hv
  · exact hq

theorem Blank.block {n : BV} {s : World} (hq : Blank n s.heap) (b : FBlock) (hself : b.out ∉ b.deps) : Blank n (s.block b).heap := by
  unfold World.block
  have gen : ∀ h : FHeap, Blank n h → Blank n (b.evaluateTlm false h) := by
    intro h hh v hv
    rw [FBlock.evaluateTlm_apply b false h hself]
    split
    · exact hh v hv
    · exact hh v hv
  refine gen _ ?_
  split
  · split
    · exact hq.minusOne _
    · exact hq
  · exact hq

theorem Blank.sweep {n : BV} {s : World} (hq : Blank n s.heap) (wf : WF s.tape.blocks) : Blank n s.sweep.heap := by
  have gen : ∀ (l : List FBlock), (∀ b ∈ l, b.out ∉ b.deps) → ∀ s : World, Blank n s.heap → Blank n (l.foldl World.block s).heap := by
    intro l
    induction l with
    | nil => exact fun _ _ h => h
    | cons b l ih => exact fun hl s hi => ih (fun c hc => hl c (List.mem_cons_of_mem _ hc)) _ (hi.block b (hl b List.mem_cons_self))
  exact gen s.tape (fun b hb => self_of_wf wf hb) s hq

theorem evaluateHessian_idle (b : FBlock) {h : FHeap} (hb : (h b.out).hess = none) : b.evaluateHessian false h = .ok h := by
  cases b with
  | un op a o =>
    have hb1 : (h o).hess = none := hb
    cases op <;> simp only [FBlock.evaluateHessian, FBlock.evaluateHessianDefault, hb1]
  | bin op a c o =>
    have hb1 : (h o).hess = none := hb
    cases op <;> simp only [FBlock.evaluateHessian, FBlock.evaluateHessianDefault, hb1]

theorem hblock_idle {s : World} (b : FBlock) (hb : (s.heap b.out).hess = none) : s.hblock b = .ok s := by
  have e := evaluateHessian_idle b hb
  have e' : s.hblock b = ((b.evaluateHessian false s.heap).map fun h => { s with heap := h }) := by
    cases b with
    | un op a o => rfl
    | bin op a c o =>
      cases op with
      | pow =>
        have hb1 : (s.heap o).hess = none := hb
        simp only [World.hblock, World.powHessian, hb1, Option.isNone_none, if_true]
      | _ => rfl
  rw [e', e]
  rfl

theorem Blank.powHessian {n : BV} {s : World} (hq : Blank n s.heap) (a e o : BV) : Blank n (s.powHessian a e o).heap := by
  unfold World.powHessian
  split
  · exact hq
  · dsimp only
    split
    · exact (((hq.minus e 1).minus e 2).minus e 1).minus e 1
    · exact (hq.minus e 1).minus e 1

theorem Blank.hblock {n : BV} {s s' : World} (hq : Blank n s.heap) (b : FBlock) (hb : (∀ d ∈ b.deps, d < n) ∨ n ≤ b.out) (hr : s.hblock b = .ok s') : Blank n s'.heap := by
  rcases hb with hb | hb
  · have gen : ∀ s₁ : World, Blank n s₁.heap → ((b.evaluateHessian false s₁.heap).map fun h => { s₁ with heap := h }) = .ok s' → Blank n s'.heap := by
      intro s₁ h1 hr
      cases he : b.evaluateHessian false s₁.heap with
      | error x => rw [he] at hr; cases hr
      | ok g =>
        rw [he] at hr
        cases hr
        intro v hv
        show (g v).adj = none ∧ (g v).hess = none
        rw [(hessian_frame he v).2 fun hd => absurd (hb v hd) (not_lt.2 hv)]
        exact h1 v hv
    refine gen _ ?_ hr
    split
    · exact hq.powHessian _ _ _
    · exact hq
  · rw [hblock_idle b (hq _ hb).2] at hr
    cases hr
    exact hq

theorem Blank.hblocks {n : BV} (l : List FBlock) (hl : ∀ b ∈ l, (∀ d ∈ b.deps, d < n) ∨ n ≤ b.out) {s s' : World} (hq : Blank n s.heap)
    (hr : l.foldlM World.hblock s = .ok s') : Blank n s'.heap := by
  induction l generalizing s with
  | nil => cases hr; exact hq
  | cons b l ih =>
    rw [List.foldlM_cons] at hr
    cases hb : s.hblock b with
    | error x => rw [hb] at hr; cases hr
    | ok s₁ =>
      rw [hb] at hr
      exact ih (fun c hc => hl c (List.mem_cons_of_mem _ hc)) (hq.hblock b (hl b List.mem_cons_self) hb) hr

/-- The program as it was recorded, and the state that the same calls lead to without recording. -/
structure Beside (s₀ s : World) (h : FHeap) : Prop where
  sound : s.Sound
  next : s₀.next ≤ s.next
  tape : ∃ u, s.tape = s₀.tape ++ u ∧ ∀ b ∈ u, s₀.next ≤ b.out
  agree : AgreeOn (OnTape s₀.tape.blocks) s.heap h
  blank : Blank s₀.next s.heap

theorem onTape_out {t : FTape} {b : FBlock} (hb : b ∈ t) : OnTape t.blocks b.out :=
  ⟨b.toBlock, List.mem_map.2 ⟨b, hb, rfl⟩, Or.inr (by cases b <;> simp [FBlock.toBlock, FBlock.out])⟩

theorem onTape_dep {t : FTape} {b : FBlock} (hb : b ∈ t) {d : BV} (hd : d ∈ b.deps) : OnTape t.blocks d :=
  ⟨b.toBlock, List.mem_map.2 ⟨b, hb, rfl⟩, Or.inl (by cases b <;> exact hd)⟩

theorem onTape_lt {s : World} (hs : s.Sound) {v : BV} (hv : OnTape s.tape.blocks v) : v < s.next := by
  obtain ⟨b', hb', h⟩ := hv
  obtain ⟨b, hb, rfl⟩ := List.mem_map.1 hb'
  rcases h with h | h
  · exact (hs.below b hb).1 v (by cases b <;> exact h)
  · have : v = b.out := by cases b <;> simpa [FBlock.toBlock, FBlock.out] using h
    rw [this]
    exact (hs.below b hb).2

theorem evaluateHessian_idles (u : FTape) {n : BV} (hu : ∀ b ∈ u, n ≤ b.out) {h : FHeap} (hq : Blank n h) : u.evaluateHessian false h = .ok h := by
  unfold FTape.evaluateHessian
  have hl : ∀ b ∈ u.reverse, n ≤ b.out := fun b hb => hu b (List.mem_reverse.1 hb)
  generalize u.reverse = l at hl
  induction l with
  | nil => rfl
  | cons b l ih =>
    rw [List.foldlM_cons, evaluateHessian_idle b (hq _ (hl b List.mem_cons_self)).2]
    exact ih fun c hc => hl c (List.mem_cons_of_mem _ hc)

theorem evaluateAdj_idles (u : FTape) {n : BV} (hu : ∀ b ∈ u, n ≤ b.out) {h : FHeap} (hq : Blank n h) : evaluateAdj u.blocks false h = h := by
  induction u with
  | nil => rfl
  | cons b u ih =>
    show evaluateAdj (b.toBlock :: FTape.blocks u) false h = h
    rw [evaluateAdj_cons, ih fun c hc => hu c (List.mem_cons_of_mem _ hc)]
    unfold Block.evaluateAdj
    have : (b.toBlock.outs.map fun o => (h o).adj).all Option.isNone = true := by
      have hb := (hq _ (hu b List.mem_cons_self)).1
      cases b <;> simpa [FBlock.toBlock, FBlock.out] using hb
    dsimp only
    rw [if_pos this]

theorem Beside.run {s₀ s : World} {h : FHeap} (hs₀ : s₀.Sound) (hb : Beside s₀ s h) (op : HOp) (hop : op.Below s₀.next) :
    match op.plain s₀.tape h with
    | .error x => op.run s = .error x
    | .ok h' => ∃ s', op.run s = .ok s' ∧ Beside s₀ s' h' := by
  obtain ⟨u, hu, hnew⟩ := hb.tape
  have hP : ∀ b ∈ s₀.tape, (∀ d ∈ b.deps, OnTape s₀.tape.blocks d) ∧ OnTape s₀.tape.blocks b.out := fun b hb => ⟨fun d hd => onTape_dep hb hd, onTape_out hb⟩
  have set : ∀ (v : BV) (f : Var ℝ ℝ ℝ → Var ℝ ℝ ℝ), Blank s₀.next (Function.update s.heap v (f (s.heap v))) →
      Beside s₀ { s with heap := Function.update s.heap v (f (s.heap v)) } (Function.update h v (f (h v))) := by
    intro v f hq
    refine ⟨Sound.heap hb.sound _, hb.next, hb.tape, fun w hw => ?_, hq⟩
    show Function.update s.heap v _ w = _
    by_cases e : w = v
    · subst e
      rw [Function.update_self, Function.update_self, hb.agree w hw]
    · rw [Function.update_of_ne e, Function.update_of_ne e]
      exact hb.agree w hw
  have reset : ∀ ty, Beside s₀ { s with heap := resetVariables s.tape.blocks ty s.heap } (resetVariables s₀.tape.blocks ty h) := by
    intro ty
    classical
    refine ⟨Sound.heap hb.sound _, hb.next, hb.tape, fun w hw => ?_, fun w hw => ?_⟩
    · have hw' : OnTape s.tape.blocks w := by
        obtain ⟨b, h1, h2⟩ := hw
        exact ⟨b, by rw [hu]; exact List.mem_map.2 ((List.mem_map.1 h1).imp fun c hc => ⟨List.mem_append_left _ hc.1, hc.2⟩), h2⟩
      show resetVariables s.tape.blocks ty s.heap w = _
      rw [resetVariables_apply, resetVariables_apply, if_pos hw', if_pos hw, hb.agree w hw]
    · show (resetVariables s.tape.blocks ty s.heap w).adj = none ∧ (resetVariables s.tape.blocks ty s.heap w).hess = none
      rw [resetVariables_apply]
      have := hb.blank w hw
      split
      · cases ty <;> simp [Var.reset, this]
      · exact this
  cases op with
  | tangent op =>
    cases op with
    | setTlm v d =>
      refine ⟨_, rfl, set v (fun x => { x with tlm := d }) fun w hw => ?_⟩
      by_cases e : w = v
      · subst e; rw [Function.update_self]; exact hb.blank w hw
      · rw [Function.update_of_ne e]; exact hb.blank w hw
    | sweep =>
      obtain ⟨u', h1, h2, -, h4, h5, h6, -⟩ := sweep_spec hb.sound
      refine ⟨_, rfl, ⟨h6, hb.next.trans h5, ⟨u ++ u', by show s.sweep.tape = _; rw [h1, hu, List.append_assoc], fun b hb' => ?_⟩, fun v hv => ?_, hb.blank.sweep hb.sound.wf⟩⟩
      · rcases List.mem_append.1 hb' with hb' | hb'
        · exact hnew b hb'
        · exact hb.next.trans (h2 b hb').1
      · have hv' := onTape_lt hs₀ hv
        show s.sweep.heap v = _
        rw [h4 v (hv'.trans_le hb.next), hu]
        have e : FTape.evaluateTlm (s₀.tape ++ u) false s.heap = FTape.evaluateTlm u false (FTape.evaluateTlm s₀.tape false s.heap) := List.foldl_append
        rw [e, evaluateTlm_later u (fun b hb' => self_of_wf hb.sound.wf (by rw [hu]; exact List.mem_append_right _ hb')) false _ v
          (fun b hb' e => absurd (hnew b hb') (not_le.2 (e ▸ hv')))]
        exact hb.agree.tlm s₀.tape (fun b hb' => self_of_wf hs₀.wf hb') (fun b hb' => (hP b hb').1) v hv
    | reset => exact ⟨_, rfl, reset .tlm⟩
    | annotation on => exact ⟨_, rfl, ⟨⟨hb.sound.wf, hb.sound.below, hb.sound.held⟩, hb.next, hb.tape, hb.agree, hb.blank⟩⟩
  | setAdj v a =>
    refine ⟨_, rfl, set v (fun x => { x with adj := a }) fun w hw => ?_⟩
    have hop : v < s₀.next := hop
    have e : w ≠ v := fun e => absurd hw (not_le.2 (e ▸ hop))
    rw [Function.update_of_ne e]
    exact hb.blank w hw
  | setHess v a =>
    refine ⟨_, rfl, set v (fun x => { x with hess := a }) fun w hw => ?_⟩
    have hop : v < s₀.next := hop
    have e : w ≠ v := fun e => absurd hw (not_le.2 (e ▸ hop))
    rw [Function.update_of_ne e]
    exact hb.blank w hw
  | sweepAdj =>
    have e : evaluateAdj s.tape.blocks false s.heap = evaluateAdj s₀.tape.blocks false s.heap := by
      have eb : s.tape.blocks = s₀.tape.blocks ++ FTape.blocks u := by rw [hu]; exact List.map_append
      rw [eb, evaluateAdj_append', evaluateAdj_idles u hnew hb.blank]
    refine ⟨_, rfl, ⟨Sound.heap hb.sound _, hb.next, hb.tape, fun v hv => ?_, fun v hv => ?_⟩⟩
    · show evaluateAdj s.tape.blocks false s.heap v = _
      rw [e]
      have hadj := evaluateAdj_congr_on (bs := s₀.tape.blocks) (m := false) (h := s.heap) (h' := h) (S := OnTape s₀.tape.blocks)
        (fun b hb' => ⟨fun d hd => ⟨b, hb', Or.inl hd⟩, fun o ho => ⟨b, hb', Or.inr ho⟩⟩) (fun b hb' d hd => hb.agree.saved ⟨b, hb', Or.inl hd⟩)
        (fun v hv => by rw [hb.agree v hv]) (fun v hv => by rw [hb.agree v hv]) v hv
      obtain ⟨a₁, e₁⟩ := evaluateAdj_frame s₀.tape.blocks false s.heap v
      obtain ⟨a₂, e₂⟩ := evaluateAdj_frame s₀.tape.blocks false h v
      rw [e₁, e₂] at hadj
      rw [e₁, e₂, hb.agree v hv, show a₁ = a₂ from hadj]
    · show (evaluateAdj s.tape.blocks false s.heap v).adj = none ∧ (evaluateAdj s.tape.blocks false s.heap v).hess = none
      rw [e, evaluateAdj_of_not_dep _ _ _ _ fun b hb' hd => absurd (onTape_lt hs₀ ⟨b, hb', Or.inl hd⟩) (not_lt.2 hv)]
      exact hb.blank v hv
  | sweepHessian =>
    have hm := sweepHessian_spec hb.sound
    have e : s.tape.evaluateHessian false s.heap = s₀.tape.evaluateHessian false s.heap := by
      have h1 := evaluateHessian_idles u hnew hb.blank
      unfold FTape.evaluateHessian at h1 ⊢
      rw [hu, List.reverse_append, List.foldlM_append, h1]
      rfl
    rw [e] at hm
    have hsame := hb.agree.hess s₀.tape hP
    show match s₀.tape.evaluateHessian false h with
      | .error x => s.sweepHessian = .error x
      | .ok h' => ∃ s', s.sweepHessian = .ok s' ∧ Beside s₀ s' h'
    cases hr : s₀.tape.evaluateHessian false s.heap with
    | error x =>
      cases hq : s₀.tape.evaluateHessian false h with
      | error y => rw [hr, hq] at hsame; rw [hr] at hm; cases hsame; exact hm
      | ok g => rw [hr, hq] at hsame; exact hsame.elim
    | ok g₁ =>
      cases hq : s₀.tape.evaluateHessian false h with
      | error y => rw [hr, hq] at hsame; exact hsame.elim
      | ok g =>
        rw [hr, hq] at hsame
        rw [hr] at hm
        obtain ⟨s', e₁, x⟩ := hm
        obtain ⟨u', h1, h2, -⟩ := x.tape
        refine ⟨s', e₁, ⟨x.sound, hb.next.trans x.next, ⟨u ++ u', by rw [h1, ← List.append_assoc, ← hu], fun b hb' => ?_⟩, fun v hv => ?_, ?_⟩⟩
        · rcases List.mem_append.1 hb' with hb' | hb'
          · exact hnew b hb'
          · exact hb.next.trans (h2 b hb')
        · rw [x.heap v ((onTape_lt hs₀ hv).trans_le hb.next)]
          exact hsame v hv
        · refine Blank.hblocks s.tape.reverse (fun b hb' => ?_) hb.blank e₁
          rw [List.mem_reverse, hu] at hb'
          rcases List.mem_append.1 hb' with hb' | hb'
          · exact Or.inl (hs₀.below b hb').1
          · exact Or.inr (hnew b hb')
  | reset ty => exact ⟨_, rfl, reset ty⟩

/-- **C91, for everything that is computed by hand.** Any sequence of assignments, sweeps (adjoints, tangents, Hessians), resets and changes of the annotation by hand raises exactly if the
same calls raise on the tape of the program alone, without recording, and leaves every variable of the program as these do: whatever the sweeps have recorded in between.  The assignments
are to variables that exist when the sequence starts; variables that do not exist yet have no adjoint and no Hessian value. -/
theorem calls_by_hand_values {s : World} (hs : s.Sound) (hnew : ∀ v, s.next ≤ v → (s.heap v).adj = none ∧ (s.heap v).hess = none) (ops : List HOp)
    (hops : ∀ op ∈ ops, op.Below s.next) :
    (∀ x, hrun ops s = .error x ↔ ops.foldlM (fun h op => op.plain s.tape h) s.heap = .error x) ∧
    ∀ s', hrun ops s = .ok s' → ∃ h, ops.foldlM (fun h op => op.plain s.tape h) s.heap = .ok h ∧ ∀ v, OnTape s.tape.blocks v → s'.heap v = h v := by
  have gen : ∀ (ops : List HOp), (∀ op ∈ ops, op.Below s.next) → ∀ (s₁ : World) (h : FHeap), Beside s s₁ h →
      match ops.foldlM (fun h op => op.plain s.tape h) h with
      | .error x => hrun ops s₁ = .error x
      | .ok h' => ∃ s', hrun ops s₁ = .ok s' ∧ Beside s s' h' := by
    intro ops
    induction ops with
    | nil => intro _ s₁ h hb; exact ⟨s₁, rfl, hb⟩
    | cons op ops ih =>
      intro hops s₁ h hb
      have h1 := hb.run hs op (hops op List.mem_cons_self)
      unfold hrun
      rw [List.foldlM_cons, List.foldlM_cons]
      cases hp : op.plain s.tape h with
      | error x =>
        rw [hp] at h1
        have h1 : op.run s₁ = .error x := h1
        rw [h1]
        rfl
      | ok h' =>
        rw [hp] at h1
        obtain ⟨s', e, hb'⟩ := h1
        rw [e]
        exact ih (fun o ho => hops o (List.mem_cons_of_mem _ ho)) s' h' hb'
  have h := gen ops hops s s.heap ⟨hs, le_rfl, ⟨[], by simp, by simp⟩, fun _ _ => rfl, hnew⟩
  cases hq : ops.foldlM (fun h op => op.plain s.tape h) s.heap with
  | error y =>
    rw [hq] at h
    have h : hrun ops s = .error y := h
    rw [h]
    exact ⟨fun x => ⟨fun h => (by cases h; rfl), fun h => (by cases h; rfl)⟩, fun s' h => (by cases h)⟩
  | ok g =>
    rw [hq] at h
    obtain ⟨s₁, h1, h2⟩ := h
    rw [h1]
    refine ⟨fun x => ⟨fun h => (by cases h), fun h => (by cases h)⟩, fun s' h => ?_⟩
    cases h
    exact ⟨g, rfl, h2.agree⟩

/-- The hypotheses hold for a program with two Hessian sweeps and a tangent sweep, which all record. -/
example : cubeHessian.Sound ∧ (∀ v, cubeHessian.next ≤ v → (cubeHessian.heap v).adj = none ∧ (cubeHessian.heap v).hess = none) ∧
    (∀ op ∈ [HOp.sweepHessian, .tangent .sweep, .reset .hessian, .setHess 2 (some 1), .sweepHessian], op.Below cubeHessian.next) ∧
    OnTape cubeHessian.tape.blocks 0 ∧ ∃ s', hrun [.sweepHessian, .tangent .sweep, .reset .hessian, .setHess 2 (some 1), .sweepHessian] cubeHessian = .ok s' := by
  refine ⟨cubeHessian_sound, fun v hv => ?_, ?_, ⟨_, List.mem_cons_self, Or.inl (by simp [FBlock.toBlock])⟩, ?_⟩
  · have hv : v ≠ 2 := fun e => absurd (show (3 : ℕ) ≤ v from hv) (by rw [e]; decide)
    simp [cubeHessian, hv]
  · intro op hop
    simp only [List.mem_cons, List.not_mem_nil, or_false] at hop
    rcases hop with rfl | rfl | rfl | rfl | rfl
    · trivial
    · trivial
    · trivial
    · show (2 : ℕ) < 3
      decide
    · trivial
  · have hn : ∀ v, cubeHessian.next ≤ v → (cubeHessian.heap v).adj = none ∧ (cubeHessian.heap v).hess = none := fun v hv => by
      have hv : v ≠ 2 := fun e => absurd (show (3 : ℕ) ≤ v from hv) (by rw [e]; decide)
      simp [cubeHessian, hv]
    have h := (calls_by_hand_values cubeHessian_sound hn [.sweepHessian, .tangent .sweep, .reset .hessian, .setHess 2 (some 1), .sweepHessian] (by
      intro op hop
      simp only [List.mem_cons, List.not_mem_nil, or_false] at hop
      rcases hop with rfl | rfl | rfl | rfl | rfl
      · trivial
      · trivial
      · trivial
      · show (2 : ℕ) < 3
        decide
      · trivial)).1
    cases hr : hrun [.sweepHessian, .tangent .sweep, .reset .hessian, .setHess 2 (some 1), .sweepHessian] cubeHessian with
    | ok s' => exact ⟨s', rfl⟩
    | error x =>
      have h1 := (h x).1 hr
      obtain ⟨g, hg⟩ : ∃ g, [HOp.sweepHessian, .tangent .sweep, .reset .hessian, .setHess 2 (some 1), .sweepHessian].foldlM
          (fun h op => HOp.plain cubeHessian.tape op h) cubeHessian.heap = .ok g := ⟨_, rfl⟩
      rw [hg] at h1
      cases h1

end Pyadjoint.HandRec
