import Verif.Model.Clients
import Verif.Props.TapeCopy
import Verif.Props.CheckpointStored

/-!
# C83: optimisers and other clients under checkpointing

Code that evaluates and differentiates a reduced functional, and decides from the answers what to do next, returns with checkpointing what it returns without it:
for schedules that store what every adjoint needs (`checkpointed_client_partial`), and on a copy of the tape for every schedule (`client_on_copy`).  For the standard
multistage schedule it does not (`multistage_descent_wrong`).
-/

namespace Pyadjoint

variable {V T A R : Type*}

/-! ## Specification -/

/-- The client, run without checkpointing, passes the right number of values and asks for derivatives only when it has called the functional: since the last
derivative, or if `again`, at all (`called` says whether it has).
With checkpointing a second derivative without an evaluation in between raises for every tape (`derivative_twice_raises`). -/
def Client.Polite [Add A] [Zero A] [Mul V] (again : Bool) (bs : Blocks V T A) (J : BV) (cs : List BV) (scale : V) (a : A) :
    Bool → Client V A R → Heap V T A → Prop
  | _, .done _, _ => True
  | _, .call xs next, h => xs.length = cs.length ∧
      (next (saved (rfEval bs cs xs h) J * scale)).Polite again bs J cs scale a true (rfEval bs cs xs h)
  | called, .derivative next, h => called = true ∧
      (next (computeGradient bs J cs a h).1).Polite again bs J cs scale a again (computeGradient bs J cs a h).2

namespace CTape

/-- A tape of the same program without checkpointing, at any time between calls: the inputs that are not controls have the values they were recorded with. -/
structure Plain (bs : Blocks V T A) (cs : List BV) (out : BV → V) (h : Heap V T A) : Prop where
  inputs : ∀ v, v ∉ cs → (∀ b ∈ bs, v ∉ b.outs) → saved h v = out v
  flags : ∀ v, (h v).isControl = false
  marks : ∀ v, (h v).marked = false

/-! ## Proof -/

theorem Plain.eval {bs : Blocks V T A} {cs : List BV} {out : BV → V} {h : Heap V T A} (p : Plain bs cs out h) (xs : List V) :
    Plain bs cs out (rfEval bs cs xs h) := by
  have fr := fun v => rfEval_frame bs cs xs h v (fun c _ => p.flags c)
  refine ⟨fun v hc ho => ?_, fun v => ?_, fun v => ?_⟩
  · rw [← p.inputs v hc ho]
    unfold saved
    rw [rfEval_leaf _ _ _ _ _ hc ho]
  · obtain ⟨c, e⟩ := fr v; rw [e]; exact p.flags v
  · obtain ⟨c, e⟩ := fr v; rw [e]; exact p.marks v

theorem Plain.gradient [Add A] [Zero A] {bs : Blocks V T A} {cs : List BV} {out : BV → V} {h : Heap V T A} (p : Plain bs cs out h) (J : BV) (a : A) :
    Plain bs cs out (computeGradient bs J cs a h).2 ∧ ∀ v, saved (computeGradient bs J cs a h).2 v = saved h v := by
  have fr := fun v => computeGradientState_adj_frame bs J cs a h p.flags p.marks v
  have hsv : ∀ v, saved (computeGradient bs J cs a h).2 v = saved h v := by
    intro v
    obtain ⟨c, e⟩ := fr v
    show saved (computeGradientState bs J cs a h) v = _
    unfold saved
    rw [e]
  refine ⟨⟨fun v hc ho => (hsv v).trans (p.inputs v hc ho), fun v => ?_, fun v => ?_⟩, hsv⟩
  · obtain ⟨c, e⟩ := fr v
    show (computeGradientState bs J cs a h v).isControl = false
    rw [e]; exact p.flags v
  · obtain ⟨c, e⟩ := fr v
    show (computeGradientState bs J cs a h v).marked = false
    rw [e]; exact p.marks v

theorem rfCall_steps [Add A] [Mul V] {truthy : V → Bool} {J : BV} {cs : List BV} {scale : V} {xs : List V} {τ τ' : CTape V T A} {y : V}
    (hm : τ.mgr.mode ≠ .record) (hr : rfCall truthy J cs scale xs τ = .ok (y, τ')) :
    τ'.steps.map (·.blocks) = τ.steps.map (·.blocks) ∧ τ'.mgr.mode ≠ .record := by
  unfold rfCall at hr
  dsimp only at hr
  split at hr
  · cases hr
  · rename_i τ₂ h₂
    simp only [Except.ok.injEq, Prod.mk.injEq] at hr
    obtain ⟨-, rfl⟩ := hr
    unfold recomputeTape at h₂
    split at h₂
    · cases h₂
    · rename_i τ₁ h₁
      unfold finishTaping at h₁
      rw [if_neg (show (τ.onHeap _).mgr.mode ≠ .record from hm)] at h₁
      cases h₁
      have hs := (forwardSweep_clean (fun _ => False) (fun v => (τ.heap v).output) h₂).1.steps
      have hm₂ : τ₂.mgr.mode ≠ .record := forwardSweep_mode h₂ Mode.noConfusion
      refine ⟨?_, hm₂⟩
      have := congrArg (List.map Prod.fst) hs
      simp only [List.map_map] at this
      exact this

theorem rfDerivative_steps [Add A] [Zero A] {J : BV} {cs : List BV} {a : A} {τ τ' : CTape V T A} {ds : List A}
    (hm : τ.mgr.mode ≠ .record) (hr : rfDerivative J cs a τ = .ok (ds, τ')) :
    τ'.steps.map (·.blocks) = τ.steps.map (·.blocks) ∧ τ'.mgr.mode ≠ .record := by
  unfold rfDerivative at hr
  split at hr
  · cases hr
  · rename_i τ₃ h₃
    simp only [Except.ok.injEq, Prod.mk.injEq] at hr
    obtain ⟨-, rfl⟩ := hr
    unfold evaluateAdjTape at h₃
    split at h₃
    · cases h₃
    · rename_i τ₁ h₁
      split at h₃
      · cases h₃
      · split at h₃
        · cases h₃
        · rename_i τ₂ h₂
          cases h₃
          unfold finishTaping at h₁
          rw [if_neg (show (τ.onHeap _).mgr.mode ≠ .record from hm)] at h₁
          cases h₁
          have hs := (reverseSweep_clean (fun _ => False) (fun v => (τ.heap v).output) h₂).1.steps
          refine ⟨?_, Mode.noConfusion⟩
          have := congrArg (List.map Prod.fst) hs
          simp only [List.map_map] at this
          exact this

/-- Every control is used in every time step. -/
def EverywhereUsed (cs : List BV) (τ : CTape V T A) : Prop := ∀ c ∈ cs, ∀ s ∈ τ.steps, ∃ b ∈ s.blocks, c ∈ b.deps

theorem EverywhereUsed.of_steps {cs : List BV} {τ τ' : CTape V T A} (h : EverywhereUsed cs τ) (e : τ'.steps.map (·.blocks) = τ.steps.map (·.blocks)) :
    EverywhereUsed cs τ' := by
  intro c hc s hs
  have : s.blocks ∈ τ.steps.map (·.blocks) := by rw [← e]; exact List.mem_map_of_mem hs
  obtain ⟨s', hs', e'⟩ := List.mem_map.1 this
  rw [← e']
  exact h c hc s' hs'

/-! ## The theorems -/

/-- **C83** (partial: for schedules that store what every adjoint needs, with controls used in every time step and a functional recorded with a truthy value; the
recording is ended).  After any history, a client that asks for derivatives directly after evaluations returns under checkpointing exactly what it returns
on the tape recorded without checkpointing, in whatever state that tape is, and no exception is raised. -/
theorem checkpointed_client_partial [Add A] [Zero A] [Mul V] {sch : Schedule} {h : Heap V T A} {es : List (Event V T A)} {τ₀ τ : CTape V T A}
    (hr : Recorded sch h es τ₀) (hall : sch.StoresAll) (hend : τ₀.mgr.mode = .record ∨ ∃ es', es = es' ++ [.endTimestep])
    (hfaithful : ∀ b ∈ Event.blocks es, ∀ (i : Nat) (o : BV), b.outs[i]? = some o →
      ∀ y, b.recomputeC (b.deps.map fun d => (h d).output) i = some y → y = (h o).output)
    (htotal : ∀ b ∈ Event.blocks es, ∀ ys (i : Nat), ys.length = b.deps.length → i < b.outs.length → (b.recomputeC ys i).isSome)
    {truthy : V → Bool} {cs : List BV} (hcs : cs.Nodup) (hinputs : ∀ c ∈ cs, ∀ b ∈ Event.blocks es, c ∉ b.outs)
    (hh : History truthy cs τ₀ τ) (hmode : τ.mgr.mode ≠ .record) (hused : EverywhereUsed cs τ)
    {J : BV} (htruthy : truthy (h J).output = true) (scale : V) (a : A)
    {hp : Heap V T A} (hplain : Plain (Event.blocks es) cs (fun v => (h v).output) hp)
    (c : Client V A R) (hpolite : c.Polite false (Event.blocks es) J cs scale a false hp) :
    c.checkpointed truthy J cs scale a τ = .ok (c.plain (Event.blocks es) J cs scale a hp) := by
  have hst : Stable (Indep (Event.blocks es) cs) (Event.blocks es) (fun v => (h v).output) := stable_indep (fun _ h => h) hfaithful
  have hs := hh.stocked hr.ssa hr.wellFormed hall hst hinputs (hr.stocked hall hend hinputs)
  -- what is known when the client has just called the functional
  suffices key : ∀ (c : Client V A R) (called : Bool) (τ : CTape V T A) (hp : Heap V T A), Stocked (Event.blocks es) cs (fun v => (h v).output) sch τ →
      τ.mgr.mode ≠ .record → EverywhereUsed cs τ → Plain (Event.blocks es) cs (fun v => (h v).output) hp →
      (called = true → ∃ τ', rfDerivative J cs a τ = .ok ((computeGradient (Event.blocks es) J cs a hp).1, τ')) →
      c.Polite false (Event.blocks es) J cs scale a called hp →
      c.checkpointed truthy J cs scale a τ = .ok (c.plain (Event.blocks es) J cs scale a hp) from
    key c false τ hp hs hmode hused hplain (fun h => by cases h) hpolite
  clear hpolite hplain hs hh hused hmode c hp τ
  intro c
  induction c with
  | done r => intros; rfl
  | call xs next ih =>
    intro called τ hp hs hmode hused hplain _ hpol
    obtain ⟨hlen, hpol⟩ := hpol
    have hp' := hplain.eval xs
    have hrun : IsRun (Event.blocks es) cs xs (fun v => (h v).output) (saved (rfEval (Event.blocks es) cs xs hp)) :=
      rfEval_isRun_of hr.ssa (fun v hv => hplain.inputs v hv.1 hv.2) hplain.flags hcs hinputs htotal hlen
    obtain ⟨y, τ₁, τ₂, h1, hy, h2⟩ := hs.gradient hr.ssa hr.wellFormed hall hst hinputs hmode hcs hused truthy J J scale a hlen
      hp'.marks hrun (IsRun.indep hr.ssa hfaithful hrun)
    obtain ⟨est, em⟩ := rfCall_steps hmode h1
    unfold Client.checkpointed Client.plain
    rw [h1]
    dsimp only
    rw [hy htruthy]
    exact ih _ true τ₁ _ (rfCall_stocked hr.wellFormed hall hst hinputs hs h1) em (hused.of_steps est) hp' (fun _ => ⟨τ₂, h2⟩) hpol
  | derivative next ih =>
    intro called τ hp hs hmode hused hplain hd hpol
    obtain ⟨hc, hpol⟩ := hpol
    obtain ⟨τ', hd⟩ := hd hc
    obtain ⟨est, em⟩ := rfDerivative_steps hmode hd
    unfold Client.checkpointed Client.plain
    rw [hd]
    exact ih _ false τ' _ (rfDerivative_stocked hr.ssa hr.wellFormed hall hst hinputs hs hd) em (hused.of_steps est) (hplain.gradient J a).1
      (fun h => by cases h) hpol

/-- **C83, on a copy.** For every schedule and whatever was done with the tape and copies of it before, also while the recording has not been ended: a client
that has called the functional before it asks for derivatives returns on a copy of the checkpointed tape what it returns on the tape recorded without checkpointing. -/
theorem client_on_copy [Add A] [Zero A] [Mul V] {sch : Schedule} {h : Heap V T A} {es : List (Event V T A)} {τ₀ τ : CTape V T A}
    (hr : Recorded sch h es τ₀) {truthy : V → Bool} {cs : List BV} (hh : CopyHistory truthy cs τ₀ τ)
    (hcs : cs.Nodup) (hinputs : ∀ c ∈ cs, ∀ b ∈ Event.blocks es, c ∉ b.outs) (hon : ∀ c ∈ cs, OnTape (Event.blocks es) c)
    (htotal : ∀ b ∈ Event.blocks es, ∀ ys (i : Nat), ys.length = b.deps.length → i < b.outs.length → (b.recomputeC ys i).isSome)
    (J : BV) (scale : V) (a : A) {hp : Heap V T A} (hplain : Plain (Event.blocks es) cs (fun v => (h v).output) hp)
    (c : Client V A R) (hpolite : c.Polite true (Event.blocks es) J cs scale a false hp) :
    c.onCopy J cs scale a τ = c.plain (Event.blocks es) J cs scale a hp := by
  obtain ⟨hal, hm⟩ := hh.alive hr.wellFormed (hr.alive (Input (Event.blocks es) cs)) hr.usable.marks
  have hp₁ : Plain (Event.blocks es) cs (fun v => (h v).output) τ.heap :=
    ⟨fun v hc ho => hal.clean.cleanHeap.saved (⟨hc, ho⟩ : Input (Event.blocks es) cs v), hal.flags, hm⟩
  suffices key : ∀ (c : Client V A R) (called : Bool) (τ : CTape V T A) (hp : Heap V T A), τ.blocks = Event.blocks es →
      Plain (Event.blocks es) cs (fun v => (h v).output) τ.heap → Plain (Event.blocks es) cs (fun v => (h v).output) hp →
      (called = true → ∀ v, saved τ.heap v = saved hp v) → c.Polite true (Event.blocks es) J cs scale a called hp →
      c.onCopy J cs scale a τ = c.plain (Event.blocks es) J cs scale a hp from
    key c false τ hp hal.blocks hp₁ hplain (fun h => by cases h) hpolite
  clear hpolite hplain hp₁ hm hal hh c hp τ
  intro c
  induction c with
  | done r => intros; rfl
  | call xs next ih =>
    intro called τ hp hb p₁ p _ hpol
    obtain ⟨hlen, hpol⟩ := hpol
    have hheap : (τ.copyCall J cs scale xs).2.heap = rfEval (Event.blocks es) cs xs τ.heap := by
      show rfEval τ.blocks cs xs τ.heap = _
      rw [hb]
    have hrun := rfEval_isRun_of hr.ssa (fun v hv => p₁.inputs v hv.1 hv.2) p₁.flags hcs hinputs htotal hlen
    have hrun' := rfEval_isRun_of hr.ssa (fun v hv => p.inputs v hv.1 hv.2) p.flags hcs hinputs htotal hlen
    have hsv : ∀ v, saved (τ.copyCall J cs scale xs).2.heap v = saved (rfEval (Event.blocks es) cs xs hp) v := by
      rw [hheap]; exact hrun.unique hr.ssa hlen hrun'
    have hy : (τ.copyCall J cs scale xs).1 = saved (rfEval (Event.blocks es) cs xs hp) J * scale := by rw [← hsv]; rfl
    unfold Client.onCopy Client.plain
    rw [hy]
    exact ih _ true _ _ hb (by rw [hheap]; exact p₁.eval xs) (p.eval xs) (fun _ => hsv) hpol
  | derivative next ih =>
    intro called τ hp hb p₁ p hsv hpol
    obtain ⟨hc, hpol⟩ := hpol
    have hsv := hsv hc
    have hgrad : (τ.copyDerivative J cs a).1 = (computeGradient (Event.blocks es) J cs a hp).1 := by
      have sim := SimA.computeGradientState (Event.blocks es) J cs a (h₁ := τ.heap) (h₂ := hp) (fun v _ => hsv v)
        (fun v _ => (p₁.marks v).trans (p.marks v).symm)
      show (computeGradient τ.blocks J cs a τ.heap).1 = _
      rw [hb]
      unfold computeGradient
      apply List.map_congr_left
      intro c hc
      unfold getDerivative
      rw [sim.adj c (hon c hc)]
    have hheap : (τ.copyDerivative J cs a).2.heap = (computeGradient (Event.blocks es) J cs a τ.heap).2 := by
      show (computeGradient τ.blocks J cs a τ.heap).2 = _
      rw [hb]
    unfold Client.onCopy Client.plain
    rw [hgrad]
    refine ih _ true _ _ hb (by rw [hheap]; exact (p₁.gradient J a).1) (p.gradient J a).1 (fun _ v => ?_) hpol
    rw [hheap, (p₁.gradient J a).2, (p.gradient J a).2]
    exact hsv v

/-! ### The theorems apply; a schedule for which C83 fails -/

/-- Gradient descent with step size 1, started at `x`: `n` times `rf(x)` and `x = x - rf.derivative()`. -/
def descent : Nat → Int → Client Int Int Int
  | 0, x => .done x
  | n + 1, x => .call [x] fun _ => .derivative fun ds => descent n (x - ds.headD 0)

theorem descent_polite {again : Bool} (bs : Blocks Int Int Int) (J c : BV) (scale a : Int) (n : Nat) :
    ∀ (called : Bool) (x : Int) (h : Heap Int Int Int), (descent n x).Polite again bs J [c] scale a called h := by
  induction n with
  | zero => intros; trivial
  | succ n ih => intro called x h; exact ⟨rfl, rfl, ih _ _ _⟩

theorem seventh_plain : Plain (Event.blocks exSeventh) [0] (fun v => (freshHeap [2, 4, 8, 64, 128, 256] v).output) (freshHeap [2, 4, 8, 64, 128, 256]) :=
  ⟨fun _ _ _ => rfl, fun _ => rfl, fun _ => rfl⟩

/-- `checkpointed_client_partial` applies: descent on `x⁷`, recorded in two steps kept on disk, started after an evaluation and a derivative elsewhere. -/
example (n : Nat) (x : Int) : (descent n x).checkpointed (fun x => x != 0) 4 [0] 1 1 seventhAfter
    = .ok ((descent n x).plain (Event.blocks exSeventh) 4 [0] 1 1 (freshHeap [2, 4, 8, 64, 128, 256])) := by
  obtain ⟨y, h₁⟩ := afterC_ok (r := rfCall (fun x => x != 0) 4 [0] 1 [5] seventhTape) (by decide +kernel)
  obtain ⟨ds, h₂⟩ := afterD_ok (r := rfDerivative 4 [0] 1 (afterC (rfCall (fun x => x != 0) 4 [0] 1 [5] seventhTape))) (by decide +kernel)
  have hh : History (fun x : Int => x != 0) [0] seventhTape seventhAfter := ((History.start _).call h₁).derivative h₂
  exact checkpointed_client_partial seventh_recorded singleDisk2_storesAll (Or.inr ⟨exSeventh.dropLast, rfl⟩) seventh_faithful
    (fun b hb ys i _ hi => by
      simp only [exSeventh, Event.blocks, List.mem_cons, List.not_mem_nil, or_false] at hb
      rcases hb with rfl | rfl | rfl | rfl | rfl <;>
      · have : i = 0 := by simpa [mulBlk] using hi
        subst this
        rfl)
    (by simp)
    (fun c hc b hb => by
      rw [List.mem_singleton.1 hc]
      simp only [exSeventh, Event.blocks, List.mem_cons, List.not_mem_nil, or_false] at hb
      rcases hb with rfl | rfl | rfl | rfl | rfl <;> decide)
    hh (by decide +kernel)
    (fun c hc s hs => by
      rw [List.mem_singleton.1 hc]
      have hall : seventhAfter.steps.all (fun s => s.blocks.any fun b => b.deps.any (· == 0)) = true := by decide +kernel
      obtain ⟨b, hb, hb'⟩ := List.any_eq_true.1 (List.all_eq_true.1 hall s hs)
      obtain ⟨d, hd, hd'⟩ := List.any_eq_true.1 hb'
      exact ⟨b, hb, by rw [← eq_of_beq hd']; exact hd⟩)
    (by decide) 1 1 seventh_plain _ (descent_polite _ _ _ _ _ _ _ _ _)

/-- `client_on_copy` applies: descent on a copy of the tape of `x⁴` under multistage checkpointing, after evaluations on the tape and on another copy. -/
example (n : Nat) (x : Int) : (descent n x).onCopy 2 [0] 1 1 exUsed = (descent n x).plain (Event.blocks exPower) 2 [0] 1 1 (freshHeap [2, 4, 16]) := by
  refine client_on_copy exCopied_recorded exUsed_history (by simp) (by simp [exPower, Event.blocks, mulBlk]) (fun c hc => ?_) ?_ 2 1 1
    ⟨fun _ _ _ => rfl, fun _ => rfl, fun _ => rfl⟩ _ (descent_polite _ _ _ _ _ _ _ _ _)
  · rw [List.mem_singleton.1 hc]
    exact ⟨mulBlk 0 0 1, by simp [exPower, Event.blocks], Or.inl (by simp [mulBlk])⟩
  · intro b hb ys i hy hi
    simp only [exPower, Event.blocks, List.mem_cons, List.not_mem_nil, or_false] at hb
    rcases hb with rfl | rfl <;>
    · have : i = 0 := by simpa [mulBlk] using hi
      subst this
      rfl

/-- What a client returns if no exception ends it. -/
def resultOf : Except CkptError R → Option R
  | .error _ => none
  | .ok r => some r

/-- **C83 is false of the code for the standard multistage schedule**: the first step of descent on `x⁴` from `x = 3` goes to `-105` without checkpointing, and
to `-45` with it. -/
theorem multistage_descent_wrong :
    ∃ (sch : Schedule) (h : Heap Int Int Int) (es : List (Event Int Int Int)) (τ : CTape Int Int Int), Recorded sch h es τ ∧ sch.Reverses ∧
      (descent 1 3).plain (Event.blocks es) 2 [0] 1 1 h = -105 ∧
      resultOf ((descent 1 3).checkpointed (fun x => x != 0) 2 [0] 1 1 τ) = some (-45) :=
  ⟨multistage2, freshHeap [2, 4, 16], exPower, exCopied, exCopied_recorded, multistage2_reverses, by decide +kernel, by decide +kernel⟩

end CTape
end Pyadjoint
