import Verif.Model.SweepRecording
import Verif.Model.ByHand
import Verif.Props.LaterOperations
import Verif.Props.History
import Verif.Proofs.Session
import Verif.Proofs.FloatTlm

/-!
# C91: tangent sweeps by hand and the recorded program

A program that computes tangents by hand, with annotation on, extends the tape: every power whose base has a tangent records a subtraction in every sweep
(`sweep_by_hand_records`, `sweeps_by_hand_grow`).  The tangents are right all the same (`sweep_by_hand_tangents_partial`), and values, derivatives and Hessians of
what was recorded before stay as they are, whatever is swept (`sweeps_by_hand_keep_functionals_partial`).
-/

namespace Pyadjoint.HandRec

/-! ## Specification -/

/-- What every recorded program satisfies: each variable is computed once and before it is used, and variables are numbered below `next`. -/
structure World.Sound (s : World) : Prop where
  wf : WF s.tape.blocks
  below : ∀ b ∈ s.tape, (∀ d ∈ b.deps, d < s.next) ∧ b.out < s.next
  held : ∀ v w, v < s.next → s.holds v = some w → w < s.next

/-- A power whose base has a tangent in `h`, and whose exponent is an `AdjFloat`. -/
def Records (s : World) (h : FHeap) : FBlock → Bool
  | .bin .pow a e _ => (h a).tlm.isSome && (s.holds e).isSome
  | _ => false

/-! ## Proof -/

theorem evaluateTlm_eq (b : FBlock) (h : FHeap) (hself : b.out ∉ b.deps) (v : BV) (hv : v ≠ b.out) : b.evaluateTlm false h v = h v := by
  rw [FBlock.evaluateTlm_apply b false h hself, if_neg hv]

theorem self_of_wf {t : FTape} (wf : WF t.blocks) {b : FBlock} (hb : b ∈ t) : b.out ∉ b.deps := by
  intro h
  have hd : b.toBlock.deps = b.deps := by cases b <;> rfl
  have ho : b.toBlock.outs = [b.out] := by cases b <;> rfl
  exact wf.self b.toBlock (List.mem_map.2 ⟨b, hb, rfl⟩) b.out (by rw [hd]; exact h) (by rw [ho]; simp)

/-- Two states of the same old variables. -/
def Agree (n : BV) (h g : FHeap) : Prop := ∀ v, v < n → h v = g v

theorem Agree.saved {n : BV} {h g : FHeap} (e : Agree n h g) {v : BV} (hv : v < n) : saved h v = saved g v :=
  saved_congr (by rw [e v hv]) (by rw [e v hv])

theorem Agree.block {n : BV} {h g : FHeap} (e : Agree n h g) (b : FBlock) (hself : b.out ∉ b.deps) (hd : ∀ d ∈ b.deps, d < n) (ho : b.out < n) :
    Agree n (b.evaluateTlm false h) (b.evaluateTlm false g) := by
  intro v hv
  rw [FBlock.evaluateTlm_apply b false h hself, FBlock.evaluateTlm_apply b false g hself]
  by_cases hvo : v = b.out
  · rw [if_pos hvo, if_pos hvo, e v hv]
    congr 1
    cases b with
    | un op a o =>
      have ha := hd a (by simp [FBlock.deps])
      cases op <;> simp only [FBlock.tlmNew, e.saved ha, e a ha]
    | bin op a c o =>
      have ha := hd a (by simp [FBlock.deps])
      have hc := hd c (by simp [FBlock.deps])
      cases op <;> simp only [FBlock.tlmNew, e.saved ha, e a ha, e.saved hc, e c hc]
  · rw [if_neg hvo, if_neg hvo, e v hv]

theorem fresh₁ {n v : Nat} (h : v < n) : v ≠ n + 1 := by omega

theorem fresh₀ {n v : Nat} (h : v < n) : v ≠ n := by omega

theorem lt_of_not_fresh {n v : Nat} (h : v < n + 2) (h₁ : v ≠ n + 1) (h₀ : v ≠ n) : v < n := by omega

theorem minusOne_spec {s : World} (hs : s.Sound) {e : BV} (he : e < s.next) :
    ∃ u, (s.minusOne e).tape = s.tape ++ u ∧ (∀ b ∈ u, s.next ≤ b.out ∧ ∀ a c o, b ≠ .bin .pow a c o) ∧
      u.length = (if s.annotate && (s.holds e).isSome then 1 else 0) ∧ Agree s.next (s.minusOne e).heap s.heap ∧
      s.next ≤ (s.minusOne e).next ∧ (s.minusOne e).Sound ∧ (s.minusOne e).annotate = s.annotate ∧ ∀ v, v < s.next → (s.minusOne e).holds v = s.holds v := by
  unfold World.minusOne
  split
  · rename_i w ha hw
    have hwn := hs.held e w he hw
    refine ⟨[.bin .sub w s.next (s.next + 1)], rfl, ?_, by simp [ha, hw], ?_, by simp, ⟨?_, ?_, ?_⟩, rfl, ?_⟩
    · intro b hb
      rw [List.mem_singleton.1 hb]
      exact ⟨by simp [FBlock.out], by simp⟩
    · intro v hv
      simp only []
      rw [Function.update_of_ne (fresh₁ hv), Function.update_of_ne (fresh₀ hv)]
    · refine Session.wf_append hs.wf _ ?_ fun c hc => ?_
      · simp only [FBlock.out, FBlock.deps, List.mem_cons, List.not_mem_nil, or_false, not_or]
        exact ⟨(fresh₁ hwn).symm, Nat.succ_ne_self _⟩
      · obtain ⟨h1, h2⟩ := hs.below c hc
        refine ⟨fun h => ?_, fun h => ?_⟩
        · exact fresh₁ (h1 _ h) rfl
        · exact fresh₁ h2 h.symm
    · intro b hb
      rcases List.mem_append.1 hb with hb | hb
      · obtain ⟨h1, h2⟩ := hs.below b hb
        exact ⟨fun d hd => (h1 d hd).trans (by simp), h2.trans (by simp)⟩
      · rw [List.mem_singleton.1 hb]
        refine ⟨fun d hd => ?_, by simp [FBlock.out]⟩
        simp only [FBlock.deps, List.mem_cons, List.not_mem_nil, or_false] at hd
        rcases hd with rfl | rfl
        · exact hwn.trans (by simp)
        · exact Nat.lt_add_of_pos_right (by decide)
    · intro v w' hv hw'
      simp only [] at hv hw' ⊢
      by_cases h1 : v = s.next + 1
      · subst h1
        rw [Function.update_self] at hw'
        cases hw'; exact hv
      · rw [Function.update_of_ne h1] at hw'
        by_cases h2 : v = s.next
        · subst h2
          rw [Function.update_self] at hw'
          cases hw'; exact hv
        · rw [Function.update_of_ne h2] at hw'
          exact (hs.held v w' (lt_of_not_fresh hv h1 h2) hw').trans (by simp)
    · intro v hv
      simp only []
      rw [Function.update_of_ne (fresh₁ hv), Function.update_of_ne (fresh₀ hv)]
  · rename_i hno
    refine ⟨[], by simp, by simp, ?_, fun _ _ => rfl, le_rfl, hs, rfl, fun _ _ => rfl⟩
    split
    · rename_i h
      obtain ⟨h1, h2⟩ := Bool.and_eq_true_iff.1 h
      obtain ⟨w, hw⟩ := Option.isSome_iff_exists.1 h2
      exact absurd hw (hno w h1)
    · rfl

/-- One block of a sweep. -/
theorem block_spec {s : World} (hs : s.Sound) {b : FBlock} (hself : b.out ∉ b.deps) (hd : ∀ d ∈ b.deps, d < s.next) (ho : b.out < s.next) :
    ∃ u, (s.block b).tape = s.tape ++ u ∧ (∀ c ∈ u, s.next ≤ c.out ∧ ∀ a e o, c ≠ .bin .pow a e o) ∧
      u.length = (if s.annotate && Records s s.heap b then 1 else 0) ∧ Agree s.next (s.block b).heap (b.evaluateTlm false s.heap) ∧
      s.next ≤ (s.block b).next ∧ (s.block b).Sound ∧ (s.block b).annotate = s.annotate ∧ ∀ v, v < s.next → (s.block b).holds v = s.holds v := by
  have idle : Records s s.heap b = false → s.block b = { s with heap := b.evaluateTlm false s.heap } →
      ∃ u, (s.block b).tape = s.tape ++ u ∧ (∀ c ∈ u, s.next ≤ c.out ∧ ∀ a e o, c ≠ .bin .pow a e o) ∧
      u.length = (if s.annotate && Records s s.heap b then 1 else 0) ∧ Agree s.next (s.block b).heap (b.evaluateTlm false s.heap) ∧
      s.next ≤ (s.block b).next ∧ (s.block b).Sound ∧ (s.block b).annotate = s.annotate ∧ ∀ v, v < s.next → (s.block b).holds v = s.holds v := by
    intro hr e
    rw [e]
    exact ⟨[], by simp, by simp, by simp [hr], fun _ _ => rfl, le_rfl, ⟨hs.wf, hs.below, hs.held⟩, rfl, fun _ _ => rfl⟩
  cases b with
  | un op a o => exact idle rfl rfl
  | bin op a e o =>
    cases op with
    | pow =>
      by_cases ht : (s.heap a).tlm.isSome
      · obtain ⟨u, h1, h2, h3, h4, h5, h6, h7, h8⟩ := minusOne_spec hs (e := e) (hd e (by simp [FBlock.deps]))
        have hb : s.block (.bin .pow a e o) = { s.minusOne e with heap := (FBlock.bin .pow a e o).evaluateTlm false (s.minusOne e).heap } := by
          unfold World.block
          simp only [ht, if_true]
        rw [hb]
        refine ⟨u, h1, h2, by simp [h3, Records, ht], h4.block _ hself hd ho, h5, ⟨h6.wf, h6.below, h6.held⟩, h7, h8⟩
      · refine idle (by simp [Records, ht]) ?_
        unfold World.block
        simp only [ht]
        rfl
    | add => exact idle rfl rfl
    | sub => exact idle rfl rfl
    | mul => exact idle rfl rfl
    | div => exact idle rfl rfl
    | min => exact idle rfl rfl
    | max => exact idle rfl rfl

/-- The first blocks of a sweep. -/
theorem blocks_spec {s : World} (hs : s.Sound) (l : List FBlock) (hl : ∀ b ∈ l, b.out ∉ b.deps ∧ (∀ d ∈ b.deps, d < s.next) ∧ b.out < s.next)
    (hlater : l.Pairwise fun b b' => ∀ d ∈ b.deps, d ≠ b'.out) :
    ∃ u, (l.foldl World.block s).tape = s.tape ++ u ∧ (∀ c ∈ u, s.next ≤ c.out ∧ ∀ a e o, c ≠ .bin .pow a e o) ∧
      u.length = (if s.annotate then l.countP (Records s (l.foldl (fun h b => b.evaluateTlm false h) s.heap)) else 0) ∧
      Agree s.next (l.foldl World.block s).heap (l.foldl (fun h b => b.evaluateTlm false h) s.heap) ∧
      s.next ≤ (l.foldl World.block s).next ∧ (l.foldl World.block s).Sound ∧ (l.foldl World.block s).annotate = s.annotate ∧
      ∀ v, v < s.next → (l.foldl World.block s).holds v = s.holds v := by
  induction l generalizing s with
  | nil => exact ⟨[], by simp, by simp, by simp, fun _ _ => rfl, le_rfl, hs, rfl, fun _ _ => rfl⟩
  | cons b l ih =>
    rw [List.pairwise_cons] at hlater
    obtain ⟨hself, hd, ho⟩ := hl b List.mem_cons_self
    obtain ⟨u₁, h1, h2, h3, h4, h5, h6, h7, h8⟩ := block_spec hs hself hd ho
    have hl' : ∀ c ∈ l, c.out ∉ c.deps ∧ (∀ d ∈ c.deps, d < (s.block b).next) ∧ c.out < (s.block b).next := fun c hc =>
      ⟨(hl c (List.mem_cons_of_mem _ hc)).1, fun d hd => ((hl c (List.mem_cons_of_mem _ hc)).2.1 d hd).trans_le h5,
        (hl c (List.mem_cons_of_mem _ hc)).2.2.trans_le h5⟩
    obtain ⟨u₂, g1, g2, g3, g4, g5, g6, g7, g8⟩ := ih h6 hl' hlater.2
    -- the sweep without recording, from either state
    have key : ∀ (l : List FBlock), (∀ c ∈ l, c.out ∉ c.deps ∧ (∀ d ∈ c.deps, d < s.next) ∧ c.out < s.next) → ∀ h g : FHeap, Agree s.next h g →
        Agree s.next (l.foldl (fun h b => b.evaluateTlm false h) h) (l.foldl (fun h b => b.evaluateTlm false h) g) := by
      intro l
      induction l with
      | nil => exact fun _ _ _ h => h
      | cons c l ihl =>
        intro hc h g e
        obtain ⟨c1, c2, c3⟩ := hc c List.mem_cons_self
        exact ihl (fun c' hc' => hc c' (List.mem_cons_of_mem _ hc')) _ _ (e.block c c1 c2 c3)
    have hag := key l (fun c hc => hl c (List.mem_cons_of_mem _ hc)) _ _ h4
    have hrec : ∀ c ∈ l, Records (s.block b) (l.foldl (fun h b => b.evaluateTlm false h) (s.block b).heap) c
        = Records s (l.foldl (fun h b => b.evaluateTlm false h) (b.evaluateTlm false s.heap)) c := by
      intro c hc
      obtain ⟨-, c2, -⟩ := hl c (List.mem_cons_of_mem _ hc)
      cases c with
      | un op a o => rfl
      | bin op a e o =>
        have ha := c2 a (by simp [FBlock.deps])
        have he := c2 e (by simp [FBlock.deps])
        cases op <;> first
          | rfl
          | simp only [Records, hag a ha, h8 e he]
    -- the base of the first block keeps its tangent
    have hfirst : Records s s.heap b = Records s (l.foldl (fun h b => b.evaluateTlm false h) (b.evaluateTlm false s.heap)) b := by
      have frame : ∀ v ∈ b.deps, (l.foldl (fun h b => b.evaluateTlm false h) (b.evaluateTlm false s.heap)) v = s.heap v := by
        intro v hv
        have : ∀ (l : List FBlock), (∀ c ∈ l, c.out ∉ c.deps ∧ v ≠ c.out) → ∀ h : FHeap, (l.foldl (fun h b => b.evaluateTlm false h) h) v = h v := by
          intro l
          induction l with
          | nil => exact fun _ _ => rfl
          | cons c l ihl =>
            intro hc h
            rw [List.foldl_cons, ihl (fun c' hc' => hc c' (List.mem_cons_of_mem _ hc'))]
            exact evaluateTlm_eq c h (hc c List.mem_cons_self).1 v (hc c List.mem_cons_self).2
        rw [this l fun c hc => ⟨(hl c (List.mem_cons_of_mem _ hc)).1, hlater.1 c hc v hv⟩]
        exact evaluateTlm_eq b s.heap hself v fun h => hself (h ▸ hv)
      cases b with
      | un op a o => rfl
      | bin op a e o =>
        cases op <;> first
          | rfl
          | simp only [Records, frame a (by simp [FBlock.deps])]
    refine ⟨u₁ ++ u₂, ?_, ?_, ?_, fun v hv => ?_, h5.trans g5, g6, g7.trans h7, fun v hv => (g8 v (hv.trans_le h5)).trans (h8 v hv)⟩
    · rw [List.foldl_cons, g1, h1, List.append_assoc]
    · intro c hc
      rcases List.mem_append.1 hc with hc | hc
      · exact h2 c hc
      · exact ⟨h5.trans (g2 c hc).1, (g2 c hc).2⟩
    · rw [List.length_append, h3, g3, h7, hfirst, List.countP_cons, List.countP_congr fun c hc => by rw [hrec c hc]]
      simp only [List.foldl_cons]
      cases s.annotate
      · simp
      · simp only [Bool.true_and, if_true]
        exact Nat.add_comm _ _
    · rw [List.foldl_cons, List.foldl_cons, g4 v (hv.trans_le h5), hag v hv]

theorem later_of_wf {t : FTape} (wf : WF t.blocks) : t.Pairwise fun b b' => ∀ d ∈ b.deps, d ≠ b'.out := by
  have := wf.later
  unfold FTape.blocks at this
  rw [List.pairwise_map] at this
  refine this.imp fun {b b'} h d hd e => ?_
  have hdeps : b.toBlock.deps = b.deps := by cases b <;> rfl
  have ho : b'.toBlock.outs = [b'.out] := by cases b' <;> rfl
  exact h.1 d (by rw [hdeps]; exact hd) (by rw [ho, e]; simp)

theorem sweep_spec {s : World} (hs : s.Sound) :
    ∃ u, s.sweep.tape = s.tape ++ u ∧ (∀ c ∈ u, s.next ≤ c.out ∧ ∀ a e o, c ≠ .bin .pow a e o) ∧
      u.length = (if s.annotate then s.tape.countP (Records s (s.tape.evaluateTlm false s.heap)) else 0) ∧
      Agree s.next s.sweep.heap (s.tape.evaluateTlm false s.heap) ∧
      s.next ≤ s.sweep.next ∧ s.sweep.Sound ∧ s.sweep.annotate = s.annotate ∧ ∀ v, v < s.next → s.sweep.holds v = s.holds v :=
  blocks_spec hs s.tape (fun b hb => ⟨self_of_wf hs.wf hb, hs.below b hb⟩) (later_of_wf hs.wf)

/-- **C91.** The tangents a sweep by hand stores are those of the recorded operations, as if nothing had been recorded. -/
theorem sweep_by_hand_tangents_partial {s : World} (hs : s.Sound) (v : BV) (hv : v < s.next) :
    s.sweep.heap v = Hand.Op.run s.tape .sweepTlm s.heap v := by
  obtain ⟨-, -, -, -, h, -⟩ := sweep_spec hs
  exact h v hv

/-- **C91, what is recorded.** A sweep by hand with annotation on extends the tape, by one operation for each power whose base has a tangent (after the sweep) and whose exponent is an
`AdjFloat`; with annotation paused by none. -/
theorem sweep_by_hand_records {s : World} (hs : s.Sound) : s.tape <+: s.sweep.tape ∧
    s.sweep.tape.length = s.tape.length + if s.annotate then s.tape.countP (Records s (Hand.Op.run s.tape .sweepTlm s.heap)) else 0 := by
  obtain ⟨u, h1, -, h3, -⟩ := sweep_spec hs
  rw [h1, List.length_append, h3]
  exact ⟨⟨u, rfl⟩, rfl⟩

/-- No control and no path is marked, as always between calls. -/
def Idle (h : FHeap) : Prop := ∀ v, (h v).isControl = false ∧ (h v).marked = false

theorem Idle.evaluateTlm {h : FHeap} (hi : Idle h) (b : FBlock) (hself : b.out ∉ b.deps) : Idle (b.evaluateTlm false h) := by
  intro v
  rw [FBlock.evaluateTlm_apply b false h hself]
  split
  · exact hi v
  · exact hi v

theorem Idle.minusOne {s : World} (hi : Idle s.heap) (e : BV) : Idle (s.minusOne e).heap := by
  unfold World.minusOne
  split
  · intro v
    simp only [Function.update_apply]
    split
    · exact ⟨rfl, rfl⟩
    · split
      · exact ⟨rfl, rfl⟩
      · exact hi v
  · exact hi

theorem Idle.block {s : World} (hi : Idle s.heap) (b : FBlock) (hself : b.out ∉ b.deps) : Idle (s.block b).heap := by
  unfold World.block
  refine Idle.evaluateTlm ?_ b hself
  split
  · split
    · exact hi.minusOne _
    · exact hi
  · exact hi

theorem Idle.sweep {s : World} (hi : Idle s.heap) (wf : WF s.tape.blocks) : Idle s.sweep.heap := by
  have gen : ∀ (l : List FBlock), (∀ b ∈ l, b.out ∉ b.deps) → ∀ s : World, Idle s.heap → Idle (l.foldl World.block s).heap := by
    intro l
    induction l with
    | nil => exact fun _ _ h => h
    | cons b l ih => exact fun hl s hi => ih (fun c hc => hl c (List.mem_cons_of_mem _ hc)) _ (hi.block b (hl b List.mem_cons_self))
  exact gen s.tape (fun b hb => self_of_wf wf hb) s hi

/-- What calls by hand leave of the program recorded before. -/
structure Kept (s₀ s : World) : Prop where
  sound : s.Sound
  next : s₀.next ≤ s.next
  tape : ∃ u, s.tape = s₀.tape ++ u ∧ ∀ b ∈ u, s₀.next ≤ b.out
  vars : ∀ v, v < s₀.next → ∃ d, s.heap v = { s₀.heap v with tlm := d }
  idle : Idle s.heap

theorem Kept.run {s₀ s : World} (h : Kept s₀ s) (op : Op) : Kept s₀ (op.run s) := by
  cases op with
  | setTlm v d =>
    refine ⟨⟨h.sound.wf, h.sound.below, h.sound.held⟩, h.next, h.tape, fun w hw => ?_, fun w => ?_⟩
    swap
    · simp only [Op.run, Function.update_apply]
      split
      · rename_i e; subst e; exact h.idle w
      · exact h.idle w
    obtain ⟨d', hd'⟩ := h.vars w hw
    by_cases hwv : w = v
    · subst hwv
      exact ⟨d, by simp only [Op.run, Function.update_self, hd']⟩
    · exact ⟨d', by simp only [Op.run, Function.update_of_ne hwv, hd']⟩
  | sweep =>
    obtain ⟨u, h1, h2, -, h4, h5, h6, -⟩ := sweep_spec h.sound
    obtain ⟨u₀, e₀, hu₀⟩ := h.tape
    refine ⟨h6, h.next.trans h5, ⟨u₀ ++ u, ?_, fun b hb => ?_⟩, fun v hv => ?_, h.idle.sweep h.sound.wf⟩
    · show s.sweep.tape = _
      rw [h1, e₀, List.append_assoc]
    · rcases List.mem_append.1 hb with hb | hb
      · exact hu₀ b hb
      · exact h.next.trans (h2 b hb).1
    · obtain ⟨d, hd⟩ := h.vars v hv
      show ∃ d, s.sweep.heap v = _
      rw [h4 v (hv.trans_le h.next)]
      have : ∀ (l : List FBlock), (∀ c ∈ l, c.out ∉ c.deps) → ∀ g : FHeap, ∃ d, (l.foldl (fun h b => b.evaluateTlm false h) g) v = { g v with tlm := d } := by
        intro l
        induction l with
        | nil => exact fun _ g => ⟨_, rfl⟩
        | cons c l ihl =>
          intro hc g
          obtain ⟨d, hd⟩ := ihl (fun c' hc' => hc c' (List.mem_cons_of_mem _ hc')) (c.evaluateTlm false g)
          refine ⟨d, ?_⟩
          rw [List.foldl_cons, hd, FBlock.evaluateTlm_apply c false g (hc c List.mem_cons_self)]
          split <;> rfl
      obtain ⟨d', hd'⟩ := this s.tape (fun c hc => self_of_wf h.sound.wf hc) s.heap
      exact ⟨d', by rw [FTape.evaluateTlm, hd', hd]⟩
  | reset =>
    refine ⟨⟨h.sound.wf, h.sound.below, h.sound.held⟩, h.next, h.tape, fun v hv => ?_, fun v => ?_⟩
    swap
    · show (resetVariables s.tape.blocks .tlm s.heap v).isControl = false ∧ (resetVariables s.tape.blocks .tlm s.heap v).marked = false
      rw [resetVariables_apply]
      split <;> exact h.idle v
    obtain ⟨d, hd⟩ := h.vars v hv
    show ∃ d, resetVariables s.tape.blocks .tlm s.heap v = _
    rw [resetVariables_apply, hd]
    split
    · exact ⟨none, rfl⟩
    · exact ⟨d, rfl⟩
  | annotation on => exact ⟨⟨h.sound.wf, h.sound.below, h.sound.held⟩, h.next, h.tape, h.vars, h.idle⟩

theorem Kept.runs {s₀ s : World} (h : Kept s₀ s) (ops : List Op) : Kept s₀ (HandRec.run ops s) := by
  unfold HandRec.run
  induction ops generalizing s with
  | nil => exact h
  | cons op ops ih => exact ih (h.run op)

/-- The same values and flags of the variables in `P`. -/
def SameValues (P : BV → Prop) (h g : FHeap) : Prop :=
  ∀ v, P v → (h v).output = (g v).output ∧ (h v).ckpt = (g v).ckpt ∧ (h v).isControl = (g v).isControl

theorem SameValues.saved {P : BV → Prop} {h g : FHeap} (e : SameValues P h g) {v : BV} (hv : P v) : saved h v = saved g v :=
  saved_congr (e v hv).1 (e v hv).2.1

theorem SameValues.recompute {P : BV → Prop} {bs : Blocks ℝ ℝ ℝ} (hP : ∀ v, OnTape bs v → P v) {h g : FHeap} (e : SameValues P h g) :
    SameValues P (recompute bs h) (recompute bs g) := by
  unfold Pyadjoint.recompute
  have gen : ∀ l : Blocks ℝ ℝ ℝ, (∀ b ∈ l, b ∈ bs) → ∀ h g : FHeap, SameValues P h g →
      SameValues P (l.foldl (fun h b => b.recompute false h) h) (l.foldl (fun h b => b.recompute false h) g) := by
    intro l
    induction l with
    | nil => exact fun _ _ _ e => e
    | cons b l ih =>
      intro hl h g e
      refine ih (fun b' hb' => hl b' (List.mem_cons_of_mem _ hb')) _ _ fun v hv => ?_
      have hb := hl b List.mem_cons_self
      simp only []
      rw [Block.recompute_apply, Block.recompute_apply]
      refine ⟨(e v hv).1, ?_, (e v hv).2.2⟩
      have hany : (b.outs.any fun o => (h o).isControl) = b.outs.any fun o => (g o).isControl := by
        rw [Bool.eq_iff_iff, List.any_eq_true, List.any_eq_true]
        refine exists_congr fun o => and_congr_right fun ho => ?_
        rw [(e o (hP o ⟨b, hb, Or.inr ho⟩)).2.2]
      show b.ckptAfter false h v = b.ckptAfter false g v
      unfold Block.ckptAfter
      rw [hany, (e v hv).2.1, List.map_congr_left fun d hd => e.saved (hP d ⟨b, hb, Or.inl hd⟩)]
      simp
  exact gen bs (fun _ h => h) h g e

theorem SameValues.rfEval {P : BV → Prop} {bs : Blocks ℝ ℝ ℝ} (hP : ∀ v, OnTape bs v → P v) {h g : FHeap} (e : SameValues P h g) (cs : List BV) (xs : List ℝ) :
    SameValues P (rfEval bs cs xs h) (rfEval bs cs xs g) := by
  have hmark : ∀ m, ∀ h g : FHeap, SameValues P h g → SameValues P (markControls cs m h) (markControls cs m g) := by
    intro m h g e v hv
    rw [markControls_apply, markControls_apply]
    split
    · exact ⟨(e v hv).1, (e v hv).2.1, rfl⟩
    · exact e v hv
  have hup : SameValues P (updateControls cs xs h) (updateControls cs xs g) := by
    unfold updateControls
    generalize cs.zip xs = l
    induction l generalizing h g with
    | nil => exact e
    | cons p l ih =>
      rw [List.foldl_cons, List.foldl_cons]
      refine ih fun v hv => ?_
      by_cases hvp : v = p.1
      · subst hvp
        unfold setCkpt
        rw [(e _ hv).2.2]
        split
        · exact e _ hv
        · rw [Function.update_self, Function.update_self]
          exact ⟨(e _ hv).1, rfl, (e _ hv).2.2⟩
      · have other : ∀ h : FHeap, setCkpt h p.1 (some p.2) v = h v := by
          intro h
          unfold setCkpt
          split
          · rfl
          · rw [Function.update_of_ne hvp]
        simp only [other]
        exact e v hv
  exact hmark false _ _ ((hmark true _ _ hup).recompute hP)

/-- Values, derivatives and Hessians of what was recorded before do not depend on what was recorded afterwards, nor on the derivative values that are stored. -/
theorem functionals_kept {s s' : World} (hs : s.Sound) (hidle : Idle s.heap) (hs' : s'.Sound) (hidle' : Idle s'.heap)
    (htape : ∃ u, s'.tape = s.tape ++ u) (hsame : SameValues (· < s.next) s'.heap s.heap) (J : BV) (hJ : OnTape s.tape.blocks J)
    (cs : List BV) (hcs : ∀ c ∈ cs, OnTape s.tape.blocks c) (xs : List ℝ) (seed : ℝ) (ds : List ℝ) :
    saved (rfEval s'.tape.blocks cs xs s'.heap) J = saved (rfEval s.tape.blocks cs xs s.heap) J ∧
    (computeGradient s'.tape.blocks J cs seed (rfEval s'.tape.blocks cs xs s'.heap)).1
      = (computeGradient s.tape.blocks J cs seed (rfEval s.tape.blocks cs xs s.heap)).1 ∧
    (s'.tape.computeHessian J cs ds
        (computeGradient s'.tape.blocks J cs seed (rfEval s'.tape.blocks cs xs s'.heap)).2).map (·.1)
      = (s.tape.computeHessian J cs ds (computeGradient s.tape.blocks J cs seed (rfEval s.tape.blocks cs xs s.heap)).2).map (·.1) := by
  obtain ⟨u, hu⟩ := htape
  have wf : WF (FTape.blocks (s.tape ++ u)) := hu ▸ hs'.wf
  have hbl : FTape.blocks (s.tape ++ u) = s.tape.blocks ++ u.blocks := by simp [FTape.blocks]
  have wf' := wf
  rw [hbl] at wf'
  have hlt : ∀ v, OnTape s.tape.blocks v → v < s.next := by
    rintro v ⟨b, hb, hv⟩
    obtain ⟨f, hf, rfl⟩ := List.mem_map.1 hb
    have hd : f.toBlock.deps = f.deps := by cases f <;> rfl
    have ho : f.toBlock.outs = [f.out] := by cases f <;> rfl
    rcases hv with hv | hv
    · exact (hs.below f hf).1 v (hd ▸ hv)
    · rw [ho] at hv
      rw [List.mem_singleton.1 hv]
      exact (hs.below f hf).2
  have hsv : ∀ v, OnTape s.tape.blocks v → saved (rfEval s'.tape.blocks cs xs s'.heap) v = saved (rfEval s.tape.blocks cs xs s.heap) v := by
    intro v hv
    rw [hu, hbl, value_before_later_operations cs xs s'.heap v (not_out_of_later wf' hv)]
    exact (hsame.rfEval hlt cs xs).saved (hlt v hv)
  have hon : ∀ v, touched s.tape cs J v → OnTape s.tape.blocks v := by
    rintro v (hv | hv | rfl)
    · exact hv
    · exact hcs v hv
    · exact hJ
  have m₁ : ∀ v, (rfEval s'.tape.blocks cs xs s'.heap v).marked = false := fun v => by
    obtain ⟨o, ho⟩ := rfEval_frame s'.tape.blocks cs xs s'.heap v (fun c _ => (hidle' c).1); rw [ho]; exact (hidle' v).2
  have m₀ : ∀ v, (rfEval s.tape.blocks cs xs s.heap v).marked = false := fun v => by
    obtain ⟨o, ho⟩ := rfEval_frame s.tape.blocks cs xs s.heap v (fun c _ => (hidle c).1); rw [ho]; exact (hidle v).2
  have f₁ : ∀ v, (rfEval s'.tape.blocks cs xs s'.heap v).isControl = false := fun v => by
    obtain ⟨o, ho⟩ := rfEval_frame s'.tape.blocks cs xs s'.heap v (fun c _ => (hidle' c).1); rw [ho]; exact (hidle' v).1
  have f₀ : ∀ v, (rfEval s.tape.blocks cs xs s.heap v).isControl = false := fun v => by
    obtain ⟨o, ho⟩ := rfEval_frame s.tape.blocks cs xs s.heap v (fun c _ => (hidle c).1); rw [ho]; exact (hidle v).1
  refine ⟨hsv J hJ, ?_⟩
  generalize rfEval s'.tape.blocks cs xs s'.heap = g₁ at *
  generalize rfEval s.tape.blocks cs xs s.heap = g₀ at *
  have ha := adj_of_saved s.tape J cs seed hon g₁ g₀ (fun v hv => hsv v (hon v hv)) m₁ m₀
  obtain ⟨hg, hh⟩ := derivatives_before_later_operations s.tape u wf J hJ cs hcs seed ds g₁
  rw [hu, hg, hh]
  constructor
  · unfold computeGradient
    simp only []
    apply List.map_congr_left
    intro c hc
    unfold getDerivative
    rw [ha c (Or.inr (Or.inl hc))]
  · show (s.tape.computeHessian J cs ds (computeGradientState s.tape.blocks J cs seed g₁)).map (·.1)
      = (s.tape.computeHessian J cs ds (computeGradientState s.tape.blocks J cs seed g₀)).map (·.1)
    refine hessian_of_saved s.tape J cs ds _ _ (fun v hv => ?_) ha (fun v _ => ?_) fun v hv => Or.inl (hon v hv)
    · obtain ⟨a, e1⟩ := computeGradientState_adj_frame s.tape.blocks J cs seed g₁ f₁ m₁ v
      obtain ⟨b, e0⟩ := computeGradientState_adj_frame s.tape.blocks J cs seed g₀ f₀ m₀ v
      have := hsv v (hon v hv)
      unfold saved at this ⊢
      rw [e1, e0]; exact this
    · obtain ⟨a, e1⟩ := computeGradientState_adj_frame s.tape.blocks J cs seed g₁ f₁ m₁ v
      obtain ⟨b, e0⟩ := computeGradientState_adj_frame s.tape.blocks J cs seed g₀ f₀ m₀ v
      rw [e1, e0]
      exact (m₁ v).trans (m₀ v).symm

/-- **C91, what matters.** Whatever a program computes by hand: afterwards the values, derivatives and Hessians of every functional recorded before, at every point, are
what they would have been, on the tape as it is then. -/
theorem sweeps_by_hand_keep_functionals_partial {s : World} (hs : s.Sound) (hidle : Idle s.heap) (ops : List Op) (J : BV) (hJ : OnTape s.tape.blocks J)
    (cs : List BV) (hcs : ∀ c ∈ cs, OnTape s.tape.blocks c) (xs : List ℝ) (seed : ℝ) (ds : List ℝ) :
    saved (rfEval (run ops s).tape.blocks cs xs (run ops s).heap) J = saved (rfEval s.tape.blocks cs xs s.heap) J ∧
    (computeGradient (run ops s).tape.blocks J cs seed (rfEval (run ops s).tape.blocks cs xs (run ops s).heap)).1
      = (computeGradient s.tape.blocks J cs seed (rfEval s.tape.blocks cs xs s.heap)).1 ∧
    ((run ops s).tape.computeHessian J cs ds
        (computeGradient (run ops s).tape.blocks J cs seed (rfEval (run ops s).tape.blocks cs xs (run ops s).heap)).2).map (·.1)
      = (s.tape.computeHessian J cs ds (computeGradient s.tape.blocks J cs seed (rfEval s.tape.blocks cs xs s.heap)).2).map (·.1) := by
  have hk : Kept s (run ops s) := Kept.runs ⟨hs, le_rfl, ⟨[], by simp, by simp⟩, fun v _ => ⟨_, rfl⟩, hidle⟩ ops
  obtain ⟨u, hu, -⟩ := hk.tape
  refine functionals_kept hs hidle hk.sound hk.idle ⟨u, hu⟩ (fun v hv => ?_) J hJ cs hcs xs seed ds
  obtain ⟨d, hd⟩ := hk.vars v hv
  rw [hd]
  exact ⟨rfl, rfl, rfl⟩

/-! ## Sweeps that do extend the tape -/

/-- `y = x ** 3`, recorded with annotation on, and a direction for `x`. -/
noncomputable def cubePower : World :=
  { tape := [.bin .pow 0 1 2], heap := fun v => { output := if v = 0 then 2 else if v = 1 then 3 else (2 : ℝ) ^ (3 : ℝ), tlm := if v = 0 then some 1 else none }, next := 3 }

theorem cubePower_sound : cubePower.Sound := by
  refine ⟨⟨?_, ?_, ?_⟩, ?_, ?_⟩
  · simp [cubePower, FTape.blocks, FBlock.toBlock]
  · simp [cubePower, FTape.blocks, FBlock.toBlock]
  · simp [cubePower, FTape.blocks, FBlock.toBlock]
  · simp [cubePower, FBlock.deps, FBlock.out]
  · intro v w hv hw
    cases hw
    exact hv

/-- The state after some sweeps: one power, whose base has a tangent, and other operations. -/
structure Growing (s : World) : Prop where
  sound : s.Sound
  on : s.annotate = true
  power : ∃ u, s.tape = .bin .pow 0 1 2 :: u ∧ (∀ b ∈ u, 3 ≤ b.out ∧ ∀ a e o, b ≠ .bin .pow a e o)
  base : (s.heap 0).tlm.isSome
  exponent : (s.holds 1).isSome
  next : 3 ≤ s.next

theorem Growing.sweep {s : World} (h : Growing s) : Growing s.sweep ∧ s.sweep.tape.length = s.tape.length + 1 := by
  obtain ⟨u, h1, h2, h3, h4, h5, h6, h7, h8⟩ := sweep_spec h.sound
  obtain ⟨u₀, e₀, hu₀⟩ := h.power
  have hbase : s.tape.evaluateTlm false s.heap 0 = s.heap 0 := by
    refine evaluateTlm_later s.tape (fun b hb => self_of_wf h.sound.wf hb) false s.heap 0 fun b hb e => ?_
    rw [e₀] at hb
    rcases List.mem_cons.1 hb with rfl | hb
    · cases e
    · have := (hu₀ b hb).1
      rw [← e] at this
      cases this
  have h0 : (0 : BV) < s.next := Nat.lt_of_lt_of_le (by decide) h.next
  have h1' : (1 : BV) < s.next := Nat.lt_of_lt_of_le (by decide) h.next
  refine ⟨⟨h6, h7.trans h.on, ⟨u₀ ++ u, by rw [h1, e₀]; rfl, fun b hb => ?_⟩, ?_, ?_, h.next.trans h5⟩, ?_⟩
  · rcases List.mem_append.1 hb with hb | hb
    · exact hu₀ b hb
    · exact ⟨h.next.trans (h2 b hb).1, (h2 b hb).2⟩
  · rw [h4 0 h0, hbase]; exact h.base
  · rw [h8 1 h1']; exact h.exponent
  · rw [h1, List.length_append, h3, if_pos h.on]
    congr 1
    rw [e₀, List.countP_cons_of_pos, List.countP_eq_zero.2]
    · intro b hb
      cases b with
      | un op a o => simp [Records]
      | bin op a e o =>
        cases op <;> first
          | exact absurd rfl ((hu₀ _ hb).2 a e o)
          | simp [Records]
    · rw [← e₀]
      simp [Records, hbase, h.base, h.exponent]

/-- **C91, refuted: the tape stays as it is.** `y = x ** 3; x.block_variable.tlm_value = 1.; tape.evaluate_tlm(); …`: `n` sweeps make the tape `n` operations longer,
although the program does nothing but compute tangents. -/
theorem sweeps_by_hand_grow (n : Nat) : (run (List.replicate n .sweep) cubePower).tape.length = 1 + n := by
  have gen : ∀ (n : Nat) (s : World), Growing s → (run (List.replicate n .sweep) s).tape.length = s.tape.length + n := by
    intro n
    induction n with
    | zero => exact fun _ _ => rfl
    | succ n ih =>
      intro s hs
      obtain ⟨h1, h2⟩ := hs.sweep
      show (run (List.replicate n .sweep) s.sweep).tape.length = _
      rw [ih _ h1, h2, Nat.add_assoc, Nat.add_comm 1 n]
  exact gen n cubePower ⟨cubePower_sound, rfl, ⟨[], rfl, by simp⟩, by simp [cubePower], rfl, le_rfl⟩

/-! ## Non-vacuity -/

/-- The hypotheses of `sweep_by_hand_tangents_partial`, `sweep_by_hand_records` and `sweeps_by_hand_keep_functionals_partial` hold for this program, and the sweep does record. -/
example : cubePower.Sound ∧ Idle cubePower.heap ∧ OnTape cubePower.tape.blocks 2 ∧ (∀ c ∈ [0], OnTape cubePower.tape.blocks c) ∧
    cubePower.sweep.tape.length = 2 := by
  refine ⟨cubePower_sound, fun _ => ⟨rfl, rfl⟩, ⟨_, List.mem_cons_self, Or.inr (by simp [FBlock.toBlock])⟩, fun c hc => ?_, sweeps_by_hand_grow 1⟩
  rw [List.mem_singleton.1 hc]
  exact ⟨_, List.mem_cons_self, Or.inl (by simp [FBlock.toBlock])⟩

end Pyadjoint.HandRec
