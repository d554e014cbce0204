import Verif.Model.Rol
import Verif.Props.SaveRestore
import Verif.Props.ReducedApi
import Verif.Spec.Tapes

/-!
# ROL's updates (C31)
-/

namespace Pyadjoint
namespace Rol

variable {V T A : Type*}

/-! ## Specification: at which point the objective is -/

/-- What happened last. -/
inductive Phase | evaluated | temporary | reverted
  deriving DecidableEq

/-- The point the objective stands at, the accepted point, and what happened last. -/
structure Points (V : Type*) where
  cur : List V
  acc : List V
  phase : Phase

/-- `Initial`, `Trial` and `Temp` go to a point; `Accept` makes it the accepted one; `Revert` goes back to the accepted one. -/
def Points.step (p : Points V) : Op V T A → Points V
  | .update .initial x => ⟨x, x, .evaluated⟩
  | .update .trial x => { p with cur := x, phase := .evaluated }
  | .update .temp x => { p with cur := x, phase := .temporary }
  | .update .accept _ => { p with acc := p.cur }
  | .update .revert _ => { p with cur := p.acc, phase := .reverted }
  | .update .other x => { p with cur := x, phase := .temporary }
  | .sweep _ => p

/-- The calls ROL makes: `Accept` only for a point that was a trial (or the initial) point and was not reverted
(`rol_solver.py:35`: "this is the new iterate, trial has been called"), points of the right size, derivative sweeps that leave values and flags alone. -/
def Points.Allowed (n : Nat) (p : Points V) : Op V T A → Prop
  | .update .initial x => x.length = n
  | .update .trial x => x.length = n
  | .update .temp x => x.length = n
  | .update .accept _ => p.phase = .evaluated
  | .update .revert _ => True
  | .update .other _ => False
  | .sweep f => ∀ h, (∀ v, (h v).isControl = false) → ∀ v, (f h v).output = (h v).output ∧ (f h v).ckpt = (h v).ckpt ∧ (f h v).isControl = (h v).isControl

/-- All calls of a sequence are allowed. -/
def Points.AllAllowed (n : Nat) : Points V → List (Op V T A) → Prop
  | _, [] => True
  | p, op :: l => p.Allowed n op ∧ (p.step op).AllAllowed n l

/-- The points after a sequence. -/
def Points.after (p : Points V) (l : List (Op V T A)) : Points V := l.foldl Points.step p

/-! ## Proof -/

/-- The state of the tape is the one after an evaluation at `x` of the tape in state `h₀`. -/
structure At (bs : Blocks V T A) (cs : List BV) (h₀ : Heap V T A) (x : List V) (h : Heap V T A) : Prop where
  output : ∀ v, (h v).output = (h₀ v).output
  flags : ∀ v, (h v).isControl = false
  kept : ∀ v, Kept bs cs v → (h v).ckpt = (h₀ v).ckpt
  saved : ∀ v, saved h v = saved (rfEval bs cs x h₀) v

theorem rfEval_kept_ckpt {bs : Blocks V T A} (wf : WF bs) (cs : List BV) (xs : List V) (h : Heap V T A) (v : BV) (hk : Kept bs cs v) :
    (rfEval bs cs xs h v).ckpt = (h v).ckpt := by
  rcases hk.2 with hl | ⟨b, hb, hvb, o, ho, hoc⟩
  · rw [rfEval_leaf bs cs xs _ v hk.1 hl]
  · obtain ⟨i, hi, rfl⟩ := List.mem_iff_getElem.1 hvb
    exact rfEval_block_control wf cs xs _ b hb ⟨o, ho, hoc⟩ i hi hk.1

theorem At.eval {bs : Blocks V T A} (wf : WF bs) {cs : List BV} (hnd : cs.Nodup)
    (htot : ∀ b ∈ bs, ∀ inputs i, inputs.length = b.deps.length → i < b.outs.length → (b.recomputeC inputs i).isSome)
    {h₀ h : Heap V T A} (hfl : ∀ v, (h₀ v).isControl = false) (ho : ∀ v, (h v).output = (h₀ v).output)
    (hf : ∀ v, (h v).isControl = false) (hk : ∀ v, Kept bs cs v → (h v).ckpt = (h₀ v).ckpt) (x : List V) (hx : x.length = cs.length) :
    At bs cs h₀ x (rfEval bs cs x h) where
  output := fun v => by
    obtain ⟨c, hc⟩ := rfEval_frame bs cs x h v (fun c _ => hf c)
    rw [hc]; exact ho v
  flags := fun v => by
    obtain ⟨c, hc⟩ := rfEval_frame bs cs x h v (fun c _ => hf c)
    rw [hc]; exact hf v
  kept := fun v hv => (rfEval_kept_ckpt wf cs x h v hv).trans (hk v hv)
  saved := evaluation_history_independent wf cs hnd x hx htot h h₀ hf hfl ho hk

theorem At.restore {bs : Blocks V T A} {cs : List BV} {h₀ h h' : Heap V T A} {x : List V} (hA : At bs cs h₀ x h)
    (ho : ∀ v, (h' v).output = (h₀ v).output) (hf : ∀ v, (h' v).isControl = false) (hk : ∀ v, Kept bs cs v → (h' v).ckpt = (h₀ v).ckpt) :
    At bs cs h₀ x (restoreVars (snapshot bs cs h) h') := by
  have key : ∀ v, restoreVars (snapshot bs cs h) h' v
      = if v ∈ bs.flatMap Block.outs ++ cs then { h' v with ckpt := (h v).ckpt } else h' v :=
    fun v => restoreVars_apply _ (fun v => (h v).ckpt) h' v
  have hck : ∀ v, (restoreVars (snapshot bs cs h) h' v).ckpt = (h v).ckpt := by
    intro v
    rw [key]
    split
    · rfl
    · rename_i hv
      have hkept : Kept bs cs v := by
        rw [mem_savedVars] at hv
        refine ⟨fun hc => hv (Or.inr hc), Or.inl fun b hb hvb => hv (Or.inl ⟨b, hb, hvb⟩)⟩
      rw [hk v hkept, hA.kept v hkept]
  have hout : ∀ v, (restoreVars (snapshot bs cs h) h' v).output = (h₀ v).output := by
    intro v; rw [key]; split <;> exact ho v
  refine ⟨hout, fun v => ?_, fun v hv => (hck v).trans (hA.kept v hv), fun v => ?_⟩
  · rw [key]; split <;> exact hf v
  · rw [← hA.saved v]
    exact saved_congr ((hout v).trans (hA.output v).symm) (hck v)

/-- Everything agrees with the points. -/
structure Good [Mul V] (bs : Blocks V T A) (J : BV) (cs : List BV) (scale : V) (h₀ : Heap V T A) (p : Points V) (o : Obj V) (h : Heap V T A) : Prop where
  tape : At bs cs h₀ p.cur h
  val : o.val = some (saved (rfEval bs cs p.cur h₀) J * scale)
  cache : o.cache = some (saved (rfEval bs cs p.acc h₀) J * scale)
  tapeCache : ∃ hA, o.tapeCache = some (snapshot bs cs hA) ∧ At bs cs h₀ p.acc hA
  tapeTrial : ∃ hT, o.tapeTrial = some (snapshot bs cs hT) ∧ (p.phase = .evaluated → At bs cs h₀ p.cur hT)

section
variable [Mul V] {bs : Blocks V T A} {J : BV} {cs : List BV} {scale : V} {h₀ : Heap V T A}

theorem evalSave_spec (wf : WF bs) (hnd : cs.Nodup)
    (htot : ∀ b ∈ bs, ∀ inputs i, inputs.length = b.deps.length → i < b.outs.length → (b.recomputeC inputs i).isSome)
    (hfl : ∀ v, (h₀ v).isControl = false) {h : Heap V T A} (ho : ∀ v, (h v).output = (h₀ v).output)
    (hf : ∀ v, (h v).isControl = false) (hk : ∀ v, Kept bs cs v → (h v).ckpt = (h₀ v).ckpt) (x : List V) (hx : x.length = cs.length) (o : Obj V) :
    ∃ h', evalSave bs J cs scale x o h
        = some ({ o with val := some (saved (rfEval bs cs x h₀) J * scale), tapeTrial := some (snapshot bs cs h') }, h') ∧ At bs cs h₀ x h' := by
  have hA := At.eval wf hnd htot hfl ho hf hk x hx
  refine ⟨rfEval bs cs x h, ?_, hA⟩
  unfold evalSave rfCall
  rw [if_neg (by simpa using hx)]
  simp only []
  rw [hA.saved J]

/-- One call keeps everything in agreement, and does not raise. -/
theorem Good.step (wf : WF bs) (hnd : cs.Nodup)
    (htot : ∀ b ∈ bs, ∀ inputs i, inputs.length = b.deps.length → i < b.outs.length → (b.recomputeC inputs i).isSome)
    (hfl : ∀ v, (h₀ v).isControl = false) {p : Points V} {o : Obj V} {h : Heap V T A} (g : Good bs J cs scale h₀ p o h)
    (op : Op V T A) (hop : p.Allowed cs.length op) :
    ∃ o' h', (∀ l, run bs J cs scale (op :: l) o h = run bs J cs scale l o' h') ∧ Good bs J cs scale h₀ (p.step op) o' h' := by
  cases op with
  | sweep f =>
    refine ⟨o, f h, fun l => rfl, ?_⟩
    have hop := hop h g.tape.flags
    have hf : ∀ v, saved (f h) v = saved h v := fun v => saved_congr (hop v).1 (hop v).2.1
    exact ⟨⟨fun v => (hop v).1.trans (g.tape.output v), fun v => (hop v).2.2.trans (g.tape.flags v),
      fun v hv => (hop v).2.1.trans (g.tape.kept v hv), fun v => (hf v).trans (g.tape.saved v)⟩, g.val, g.cache, g.tapeCache, g.tapeTrial⟩
  | update flag x =>
    cases flag with
    | other => exact absurd hop (by simp [Points.Allowed])
    | initial =>
      obtain ⟨h', e, hA⟩ := evalSave_spec (J := J) (scale := scale) wf hnd htot hfl g.tape.output g.tape.flags g.tape.kept x hop o
      refine ⟨_, h', fun l => by rw [run, update]; simp only [e, store]; rfl, ?_⟩
      exact ⟨hA, rfl, rfl, ⟨h', rfl, hA⟩, ⟨h', rfl, fun _ => hA⟩⟩
    | trial =>
      obtain ⟨h', e, hA⟩ := evalSave_spec (J := J) (scale := scale) wf hnd htot hfl g.tape.output g.tape.flags g.tape.kept x hop o
      refine ⟨_, h', fun l => by rw [run, update]; simp only [e]; rfl, ?_⟩
      exact ⟨hA, rfl, g.cache, g.tapeCache, ⟨h', rfl, fun _ => hA⟩⟩
    | temp =>
      obtain ⟨h', e, hA⟩ := evalSave_spec (J := J) (scale := scale) wf hnd htot hfl g.tape.output g.tape.flags g.tape.kept x hop o
      refine ⟨_, h', fun l => by rw [run, update]; simp only [e]; rfl, ?_⟩
      exact ⟨hA, rfl, g.cache, g.tapeCache, ⟨h', rfl, fun hp => by cases hp⟩⟩
    | accept =>
      obtain ⟨hT, e, hA⟩ := g.tapeTrial
      refine ⟨{ o with cache := o.val, tapeCache := some (snapshot bs cs hT) }, h, fun l => by rw [run, update]; simp only [store, e], ?_⟩
      exact ⟨g.tape, g.val, g.val, ⟨hT, rfl, hA hop⟩, ⟨hT, e, hA⟩⟩
    | revert =>
      obtain ⟨hA, e, hAt⟩ := g.tapeCache
      obtain ⟨hT, eT, _⟩ := g.tapeTrial
      refine ⟨{ o with val := o.cache }, restoreVars (snapshot bs cs hA) h, fun l => by rw [run, update]; simp only [revert, e], ?_⟩
      exact ⟨hAt.restore g.tape.output g.tape.flags g.tape.kept, g.cache, g.cache, ⟨hA, e, hAt⟩, ⟨hT, eT, fun hp => by cases hp⟩⟩

/-- **C31.** For every sequence of calls that starts with `Initial`: nothing raises, `value()` is `rf` at the point the sequence leads to, the tape
holds the values of an evaluation there, and the gradient is the gradient there. -/
theorem rol_sequence_partial [Add A] [Zero A] (wf : WF bs) (hnd : cs.Nodup)
    (htot : ∀ b ∈ bs, ∀ inputs i, inputs.length = b.deps.length → i < b.outs.length → (b.recomputeC inputs i).isSome)
    (hfl : ∀ v, (h₀ v).isControl = false) (x₀ : List V) (hx₀ : x₀.length = cs.length) (l : List (Op V T A))
    (hl : (⟨x₀, x₀, .evaluated⟩ : Points V).AllAllowed cs.length l) :
    ∃ o h, run bs J cs scale (.update .initial x₀ :: l) {} h₀ = some (o, h) ∧
      o.val = some (saved (rfEval bs cs ((⟨x₀, x₀, .evaluated⟩ : Points V).after l).cur h₀) J * scale) ∧
      (∀ v, saved h v = saved (rfEval bs cs ((⟨x₀, x₀, .evaluated⟩ : Points V).after l).cur h₀) v) ∧
      ∀ seed, (∀ c ∈ cs, OnTape bs c ∨ c = J) →
        (computeGradient bs J cs seed h).1
          = (computeGradient bs J cs seed (rfEval bs cs ((⟨x₀, x₀, .evaluated⟩ : Points V).after l).cur h₀)).1 := by
  obtain ⟨h', e, hA⟩ := evalSave_spec (J := J) (scale := scale) wf hnd htot hfl (fun _ => rfl) hfl (fun _ _ => rfl) x₀ hx₀ {}
  have e1 : run bs J cs scale (.update .initial x₀ :: l) {} h₀
      = run bs J cs scale l ⟨some (saved (rfEval bs cs x₀ h₀) J * scale), some (saved (rfEval bs cs x₀ h₀) J * scale),
          some (snapshot bs cs h'), some (snapshot bs cs h')⟩ h' := by
    rw [run, update]; simp only [e, store]
  rw [e1]
  have gen : ∀ (l : List (Op V T A)) (p : Points V) (o : Obj V) (h : Heap V T A), Good bs J cs scale h₀ p o h → p.AllAllowed cs.length l →
      ∃ o' h', run bs J cs scale l o h = some (o', h') ∧ Good bs J cs scale h₀ (p.after l) o' h' := by
    intro l
    induction l with
    | nil => intro p o h g _; exact ⟨o, h, rfl, g⟩
    | cons op l ih =>
      intro p o h g hal
      obtain ⟨o', h', e, g'⟩ := g.step wf hnd htot hfl op hal.1
      rw [e]
      exact ih _ o' h' g' hal.2
  obtain ⟨o, h, e2, g⟩ := gen l ⟨x₀, x₀, .evaluated⟩
    ⟨some (saved (rfEval bs cs x₀ h₀) J * scale), some (saved (rfEval bs cs x₀ h₀) J * scale), some (snapshot bs cs h'), some (snapshot bs cs h')⟩
    h' ⟨hA, rfl, rfl, ⟨h', rfl, hA⟩, ⟨h', rfl, fun _ => hA⟩⟩ hl
  refine ⟨o, h, e2, g.val, g.tape.saved, fun seed hon => ?_⟩
  exact gradient_of_saved wf J cs seed _ _ g.tape.saved fun c hc => (hon c hc).elim Or.inl fun h => Or.inr (Or.inl h)

end

/-- Computing a gradient is one of the sweeps that may come in between. -/
theorem gradient_allowed [Add A] (bs : Blocks V T A) (J : BV) (cs : List BV) (seed : A) (p : Points V) (n : Nat) :
    p.Allowed n (.sweep (computeGradientState bs J cs seed)) := by
  intro h hfl v
  unfold computeGradientState markedAdjoint
  simp only []
  obtain ⟨a, ha⟩ := evaluateAdj_frame bs true (markControls cs true (markAll (findRelevantNodes bs cs) true
    (Function.update (resetVariables bs .adjoint h) J { resetVariables bs .adjoint h J with adj := some seed }))) v
  have hu : ∃ a, Function.update (resetVariables bs .adjoint h) J { resetVariables bs .adjoint h J with adj := some seed } v
      = { h v with adj := a } := by
    classical
    have hr : ∀ v, ∃ a, resetVariables bs .adjoint h v = { h v with adj := a } := by
      intro v
      rw [resetVariables_apply]
      split
      · exact ⟨none, rfl⟩
      · exact ⟨_, rfl⟩
    by_cases hv : v = J
    · subst hv
      obtain ⟨a, ha⟩ := hr v
      exact ⟨some seed, by rw [Function.update_self, ha]⟩
    · obtain ⟨a, ha⟩ := hr v
      exact ⟨a, by rw [Function.update_of_ne hv, ha]⟩
  obtain ⟨a', ha'⟩ := hu
  rw [markAll_apply, markControls_apply, ha, markControls_apply, markAll_apply, ha']
  have := hfl v
  by_cases h1 : v ∈ findRelevantNodes bs cs <;> by_cases h2 : v ∈ cs <;> simp_all

/-! ## Examples, and what happens outside the protocol -/

/-- The hypotheses of `rol_sequence_partial` hold for `exTape` and a sequence with an accepted and two rejected trials. -/
example : WF exTape ∧ [0].Nodup ∧
    (∀ b ∈ exTape, ∀ inputs i, inputs.length = b.deps.length → i < b.outs.length → (b.recomputeC inputs i).isSome) ∧
    (⟨[1], [1], .evaluated⟩ : Points Int).AllAllowed 1
      [.sweep (computeGradientState exTape 3 [0] 1), .update .trial [5], .update .accept [5], .update .trial [8], .update .revert [5],
        .update .temp [9], .update .revert [5]] ∧
    ((⟨[1], [1], .evaluated⟩ : Points Int).after
      [.sweep (computeGradientState exTape 3 [0] 1), .update .trial [5], .update .accept [5], .update .trial [8], .update .revert [5],
        .update .temp [9], .update .revert [5]]).cur = [5] := by
  refine ⟨exTape_wf, by simp, ?_, ⟨gradient_allowed _ _ _ _ _ _, rfl, rfl, rfl, trivial, rfl, trivial, trivial⟩, rfl⟩
  intro b hb inputs i hi ho
  simp [exTape] at hb
  rcases hb with rfl | rfl  <;> (simp [exDouble, exAdd] at hi ho ⊢; try omega)

/-- **`Accept` after a temporary update** accepts the temporary point: `Revert` goes to 7, the trial point was 2. -/
theorem accept_after_temp :
    (run exTape 3 [0] 1 [.update .initial [1], .update .trial [2], .update .temp [7], .update .accept [2], .update .trial [3],
      .update .revert [2]] {} exHeap).map (fun r => saved r.2 0) = some 7 := by decide

/-- **`Accept` after `Revert`** keeps the value of the accepted point with the tape of the rejected one: after the next `Revert`, `value()` is that of
the point 1 (`2 * 1 + 1`), and the tape, hence the gradient, is at the point 4. -/
theorem accept_after_revert :
    (run exTape 3 [0] 1 [.update .initial [1], .update .trial [4], .update .revert [1], .update .accept [1], .update .trial [6],
      .update .revert [1]] {} exHeap).map (fun r => (r.1.val, saved r.2 0, saved r.2 3)) = some (some 3, 4, 9) := by decide

/-- **`Revert` first** (which the code provides for, `rol_solver.py:46-53`) raises: there is no trial to take the tape's state from. -/
theorem revert_first [Mul V] (bs : Blocks V T A) (J : BV) (cs : List BV) (scale : V) (x : List V) (h : Heap V T A) :
    run bs J cs scale [.update .revert x] {} h = none := by
  show (match update bs J cs scale .revert x {} h with
    | none => none
    | some (o, h) => some (o, h)) = none
  have : update bs J cs scale .revert x ({} : Obj V) h = none := by
    show (match rfCall bs J cs scale x h, (none : Option (Snapshot V)) with
      | some (y, h), some sd => some (({ val := some y, cache := some y, tapeCache := some sd } : Obj V), h)
      | _, _ => none) = none
    cases rfCall bs J cs scale x h <;> rfl
  rw [this]

/-- **`Revert` after a trial, without `Initial`**: the tape's state that is remembered is the trial's, the value that of the point reverted to. -/
theorem revert_without_initial :
    (run exTape 3 [0] 1 [.update .trial [4], .update .revert [1], .update .trial [6], .update .revert [1]] {} exHeap).map
      (fun r => (r.1.val, saved r.2 0, saved r.2 3)) = some (some 3, 4, 9) := by decide

end Rol
end Pyadjoint
