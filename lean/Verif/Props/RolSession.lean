import Verif.Model.RolSession
import Verif.Props.Rol
import Verif.Props.HistoryBlocks

/-!
# What ROL is told (C77)
-/

namespace Pyadjoint
namespace Rol

variable {V T A : Type*}

/-! ## Specification: at which point the objective is, and at which point the last gradient was asked for -/

/-- The point the objective stands at (`none`: where the tape was recorded), the accepted point, whether the current point is one that may be
accepted, and the point of the last gradient (`none`: no gradient yet). -/
structure Where (V : Type*) where
  cur : Option (List V) := none
  acc : Option (List V) := none
  fresh : Bool := false
  grad : Option (Option (List V)) := none

/-- `Initial`, `Trial`, `Temp` and an update without flag go to a point; `Initial` and `Accept` make it the accepted one; `Revert` goes back to the
accepted one; a gradient is the gradient at the current point. -/
def Where.step (p : Where V) : Call V T → Where V
  | .value => p
  | .update .initial x => { p with cur := some x, acc := some x, fresh := true }
  | .update .trial x => { p with cur := some x, fresh := true }
  | .update .temp x => { p with cur := some x, fresh := false }
  | .update .other x => { p with cur := some x, fresh := false }
  | .update .accept _ => { p with acc := p.cur }
  | .update .revert _ => { p with cur := p.acc, fresh := false }
  | .gradient => { p with grad := some p.cur }
  | .hessVec _ => p

/-- Points have the right size, `Accept` is for a trial (or initial) point that was not reverted, `Revert` is for when there is an accepted point. -/
def Where.Allowed (n : Nat) (p : Where V) : Call V T → Prop
  | .update .initial x => x.length = n
  | .update .trial x => x.length = n
  | .update .temp x => x.length = n
  | .update .other x => x.length = n
  | .update .accept _ => p.fresh = true
  | .update .revert _ => p.acc ≠ none
  | _ => True

/-- All calls of a sequence are allowed. -/
def Where.AllAllowed (n : Nat) : Where V → List (Call V T) → Prop
  | _, [] => True
  | p, c :: l => p.Allowed n c ∧ (p.step c).AllAllowed n l

/-- The tape as it was recorded, or evaluated at a point right after. -/
def place (bs : Blocks V T A) (cs : List BV) (h₀ : Heap V T A) : Option (List V) → Heap V T A
  | none => h₀
  | some x => rfEval bs cs x h₀

/-- The values of one heap with the adjoint values of another. -/
def withAdjoints (h g : Heap V T A) : Heap V T A := fun v => { h v with adj := (g v).adj }

/-- The tape right after the gradient that was asked for last. -/
def lastGradient [Add A] (bs : Blocks V T A) (J : BV) (cs : List BV) (seed : A) (h₀ : Heap V T A) : Option (Option (List V)) → Heap V T A
  | none => h₀
  | some c => computeGradientState bs J cs seed (place bs cs h₀ c)

/-- What a call is to tell, each computed on the tape as it was recorded: the value and the gradient at the current point; the Hessian action
with the values of the current point and the adjoint values of the point of the last gradient. -/
def Where.told [Mul V] [Add T] [Add A] [Zero A] (bs : Blocks V T A) (J : BV) (cs : List BV) (scale : V) (seed : A) (h₀ : Heap V T A) (p : Where V) :
    Call V T → Report V A
  | .value => .value (p.cur.map fun x => saved (rfEval bs cs x h₀) J * scale)
  | .update _ _ => .nothing
  | .gradient => .vector (computeGradient bs J cs seed (place bs cs h₀ p.cur)).1
  | .hessVec v => .vector (computeHessianOf bs J cs v (withAdjoints (place bs cs h₀ p.cur) (lastGradient bs J cs seed h₀ p.grad))).1

/-- What a sequence of calls is to tell. -/
def Where.reports [Mul V] [Add T] [Add A] [Zero A] (bs : Blocks V T A) (J : BV) (cs : List BV) (scale : V) (seed : A) (h₀ : Heap V T A) :
    Where V → List (Call V T) → List (Report V A)
  | _, [] => []
  | p, c :: l => p.told bs J cs scale seed h₀ c :: (p.step c).reports bs J cs scale seed h₀ l

/-! ## Proof -/

/-- The values on the tape are those at the point. -/
structure Stands (bs : Blocks V T A) (cs : List BV) (h₀ : Heap V T A) (c : Option (List V)) (h : Heap V T A) : Prop extends Base bs cs h₀ h where
  saved : ∀ v, saved h v = saved (place bs cs h₀ c) v

/-- Everything agrees with the points. -/
structure Agrees [Mul V] [Add A] (bs : Blocks V T A) (J : BV) (cs : List BV) (scale : V) (seed : A) (h₀ : Heap V T A) (p : Where V) (o : Obj V)
    (h : Heap V T A) : Prop where
  tape : Stands bs cs h₀ p.cur h
  adj : ∀ v, OnTape bs v → (h v).adj = (lastGradient bs J cs seed h₀ p.grad v).adj
  val : o.val = p.cur.map fun x => saved (rfEval bs cs x h₀) J * scale
  cache : ∀ x, p.acc = some x → o.cache = some (saved (rfEval bs cs x h₀) J * scale) ∧
    ∃ hA, o.tapeCache = some (snapshot bs cs hA) ∧ Stands bs cs h₀ (some x) hA
  trial : p.fresh = true → ∃ x hT, p.cur = some x ∧ o.tapeTrial = some (snapshot bs cs hT) ∧ Stands bs cs h₀ (some x) hT

theorem Stands.eval {bs : Blocks V T A} (wf : WF bs) {cs : List BV} (hnd : cs.Nodup)
    (htot : ∀ b ∈ bs, ∀ inputs i, inputs.length = b.deps.length → i < b.outs.length → (b.recomputeC inputs i).isSome)
    {h₀ h : Heap V T A} (hfl : ∀ v, (h₀ v).isControl = false) (s : Base bs cs h₀ h) (x : List V) (hx : x.length = cs.length) :
    Stands bs cs h₀ (some x) (rfEval bs cs x h) where
  toBase := s.eval wf x
  saved := evaluation_history_independent wf cs hnd x hx htot h h₀ s.flags hfl s.output s.kept

theorem restore_frame (bs : Blocks V T A) (cs : List BV) (h h' : Heap V T A) (v : BV) :
    ∃ c, restoreVars (snapshot bs cs h) h' v = { h' v with ckpt := c } := by
  have key : restoreVars (snapshot bs cs h) h' v
      = if v ∈ bs.flatMap Block.outs ++ cs then { h' v with ckpt := (h v).ckpt } else h' v :=
    restoreVars_apply _ (fun v => (h v).ckpt) h' v
  rw [key]
  split
  · exact ⟨_, rfl⟩
  · exact ⟨_, rfl⟩

theorem Stands.restore {bs : Blocks V T A} {cs : List BV} {h₀ h h' : Heap V T A} {x : List V} (hA : Stands bs cs h₀ (some x) h)
    (s : Base bs cs h₀ h') : Stands bs cs h₀ (some x) (restoreVars (snapshot bs cs h) h') := by
  have a : At bs cs h₀ x h := ⟨hA.output, hA.flags, hA.kept, hA.saved⟩
  have r := a.restore s.output s.flags s.kept
  refine ⟨⟨r.output, r.flags, fun v => ?_, r.kept⟩, r.saved⟩
  obtain ⟨c, hc⟩ := restore_frame bs cs h h' v
  rw [hc]
  exact s.marks v

section
variable [Mul V] [Add T] [Add A] [Zero A] {bs : Blocks V T A} {J : BV} {cs : List BV} {scale : V} {seed : A} {h₀ : Heap V T A}

omit [Mul V] [Add T] [Add A] [Zero A] in
theorem place_marks (hfl : ∀ v, (h₀ v).isControl = false) (hmk : ∀ v, (h₀ v).marked = false) (wf : WF bs) (c : Option (List V)) :
    ∀ v, (place bs cs h₀ c v).marked = false := by
  cases c with
  | none => exact hmk
  | some x => exact ((Base.refl hfl hmk : Base bs cs h₀ h₀).eval wf x).marks

omit [Add T] [Add A] [Zero A] in
theorem rfCall_some (bs : Blocks V T A) (J : BV) (cs : List BV) (scale : V) (x : List V) (hx : x.length = cs.length) (h : Heap V T A) :
    rfCall bs J cs scale x h = some (saved (rfEval bs cs x h) J * scale, rfEval bs cs x h) := by
  unfold rfCall
  rw [if_neg (by simpa using hx)]

/-- One call tells what it is to tell, and keeps everything in agreement. -/
theorem Agrees.step (wf : WF bs) (hnd : cs.Nodup) (hcs : ∀ c ∈ cs, OnTape bs c)
    (htot : ∀ b ∈ bs, ∀ inputs i, inputs.length = b.deps.length → i < b.outs.length → (b.recomputeC inputs i).isSome)
    (hfl : ∀ v, (h₀ v).isControl = false) (hmk : ∀ v, (h₀ v).marked = false) {p : Where V} {o : Obj V} {h : Heap V T A}
    (g : Agrees bs J cs scale seed h₀ p o h) (c : Call V T) (hc : p.Allowed cs.length c) :
    ∃ o' h', c.run bs J cs scale seed o h = some (p.told bs J cs scale seed h₀ c, o', h') ∧ Agrees bs J cs scale seed h₀ (p.step c) o' h' := by
  have eadj : ∀ (x : List V) (v : BV), (rfEval bs cs x h v).adj = (h v).adj := by
    intro x v
    obtain ⟨k, hk⟩ := rfEval_frame bs cs x h v (fun c _ => g.tape.flags c)
    rw [hk]
  have ev : ∀ x : List V, x.length = cs.length → saved (rfEval bs cs x h) J = saved (rfEval bs cs x h₀) J :=
    fun x hx => (Stands.eval wf hnd htot hfl g.tape.toBase x hx).saved J
  cases c with
  | value => exact ⟨o, h, by rw [Call.run, g.val]; rfl, g⟩
  | gradient =>
    have sim : SimA (OnTape bs) (computeGradientState bs J cs seed h) (computeGradientState bs J cs seed (place bs cs h₀ p.cur)) :=
      SimA.computeGradientState bs J cs seed (fun v _ => g.tape.saved v) fun v _ => (g.tape.marks v).trans (place_marks hfl hmk wf p.cur v).symm
    refine ⟨o, computeGradientState bs J cs seed h, ?_, ?_⟩
    · have e : (computeGradient bs J cs seed h).1 = (computeGradient bs J cs seed (place bs cs h₀ p.cur)).1 := by
        unfold computeGradient
        apply List.map_congr_left
        intro c hc
        unfold getDerivative
        rw [sim.adj c (hcs c hc)]
      show some (Report.vector (computeGradient bs J cs seed h).1, o, _) = _
      rw [e]
      rfl
    · refine ⟨⟨g.tape.toBase.derivative J cs seed, fun v => ?_⟩, fun v hv => sim.adj v hv, g.val, g.cache, g.trial⟩
      refine Eq.trans ?_ (g.tape.saved v)
      obtain ⟨a, ha⟩ := computeGradientState_adj_frame bs J cs seed h g.tape.flags g.tape.marks v
      exact saved_congr (by rw [ha]) (by rw [ha])
  | hessVec d =>
    have sim : SimA (OnTape bs) h (withAdjoints (place bs cs h₀ p.cur) (lastGradient bs J cs seed h₀ p.grad)) :=
      ⟨fun v _ => g.tape.saved v, fun v hv => g.adj v hv, fun v _ => (g.tape.marks v).trans (place_marks hfl hmk wf p.cur v).symm⟩
    refine ⟨o, (computeHessianOf bs J cs d h).2, ?_, ?_⟩
    · have e : (computeHessianOf bs J cs d h).1
          = (computeHessianOf bs J cs d (withAdjoints (place bs cs h₀ p.cur) (lastGradient bs J cs seed h₀ p.grad))).1 := by
        have hh := SimH.computeHessianOf sim J cs d
        show cs.map (getHessian (computeHessianOf bs J cs d _).2) = cs.map (getHessian (computeHessianOf bs J cs d _).2)
        apply List.map_congr_left
        intro c hc
        unfold getHessian
        rw [hh.hess c (hcs c hc)]
      show some (Report.vector (computeHessianOf bs J cs d h).1, o, _) = _
      rw [e]
      rfl
    · have fr := fun v => computeHessianOf_frame bs J cs d h g.tape.marks v
      refine ⟨⟨g.tape.toBase.hessian J cs d, fun v => ?_⟩, fun v hv => ?_, g.val, g.cache, g.trial⟩
      · obtain ⟨t, a, ha⟩ := fr v
        refine Eq.trans ?_ (g.tape.saved v)
        exact saved_congr (by rw [ha]) (by rw [ha])
      · obtain ⟨t, a, ha⟩ := fr v
        rw [ha]
        exact g.adj v hv
  | update flag x =>
    cases flag with
    | initial =>
      have hx : x.length = cs.length := hc
      have hS := Stands.eval wf hnd htot hfl g.tape.toBase x hx
      refine ⟨⟨some (saved (rfEval bs cs x h) J * scale), some (saved (rfEval bs cs x h) J * scale), some (snapshot bs cs (rfEval bs cs x h)),
        some (snapshot bs cs (rfEval bs cs x h))⟩, rfEval bs cs x h, ?_, ?_⟩
      · simp only [Call.run, Rol.update, evalSave, rfCall_some bs J cs scale x hx h, store]
        rfl
      · refine ⟨hS, fun v hv => (eadj x v).trans (g.adj v hv), ?_, ?_, fun _ => ⟨x, _, rfl, rfl, hS⟩⟩
        · show some _ = some _; rw [ev x hx]
        · intro y hy
          have : x = y := by injection hy
          subst this
          exact ⟨by show some _ = some _; rw [ev x hx], _, rfl, hS⟩
    | trial =>
      have hx : x.length = cs.length := hc
      have hS := Stands.eval wf hnd htot hfl g.tape.toBase x hx
      refine ⟨⟨some (saved (rfEval bs cs x h) J * scale), o.cache, some (snapshot bs cs (rfEval bs cs x h)), o.tapeCache⟩, rfEval bs cs x h, ?_, ?_⟩
      · simp only [Call.run, Rol.update, evalSave, rfCall_some bs J cs scale x hx h]
        rfl
      · refine ⟨hS, fun v hv => (eadj x v).trans (g.adj v hv), ?_, g.cache, fun _ => ⟨x, _, rfl, rfl, hS⟩⟩
        show some _ = some _; rw [ev x hx]
    | temp =>
      have hx : x.length = cs.length := hc
      have hS := Stands.eval wf hnd htot hfl g.tape.toBase x hx
      refine ⟨⟨some (saved (rfEval bs cs x h) J * scale), o.cache, some (snapshot bs cs (rfEval bs cs x h)), o.tapeCache⟩, rfEval bs cs x h, ?_, ?_⟩
      · simp only [Call.run, Rol.update, evalSave, rfCall_some bs J cs scale x hx h]
        rfl
      · refine ⟨hS, fun v hv => (eadj x v).trans (g.adj v hv), ?_, g.cache, fun h => by cases h⟩
        show some _ = some _; rw [ev x hx]
    | other =>
      have hx : x.length = cs.length := hc
      have hS := Stands.eval wf hnd htot hfl g.tape.toBase x hx
      refine ⟨{ o with val := some (saved (rfEval bs cs x h) J * scale) }, rfEval bs cs x h, ?_, ?_⟩
      · simp only [Call.run, Rol.update, rfCall_some bs J cs scale x hx h]
        rfl
      · refine ⟨hS, fun v hv => (eadj x v).trans (g.adj v hv), ?_, g.cache, fun h => by cases h⟩
        show some _ = some _; rw [ev x hx]
    | accept =>
      obtain ⟨y, hT, ey, e, hS⟩ := g.trial hc
      refine ⟨{ o with cache := o.val, tapeCache := some (snapshot bs cs hT) }, h, ?_, ?_⟩
      · simp only [Call.run, Rol.update, store, e]
        rfl
      · refine ⟨g.tape, g.adj, g.val, ?_, fun _ => ⟨y, hT, ey, e, hS⟩⟩
        intro z hz
        have : p.cur = some z := hz
        rw [ey] at this
        have : y = z := by injection this
        subst this
        refine ⟨?_, hT, rfl, hS⟩
        show o.val = _
        rw [g.val, ey]
        rfl
    | revert =>
      obtain ⟨y, hy⟩ := Option.ne_none_iff_exists'.1 hc
      obtain ⟨ec, hA, e, hS⟩ := g.cache y hy
      refine ⟨{ o with val := o.cache }, restoreVars (snapshot bs cs hA) h, ?_, ?_⟩
      · simp only [Call.run, Rol.update, revert, e]
        rfl
      · have hR := hS.restore g.tape.toBase
        refine ⟨?_, fun v hv => ?_, ?_, g.cache, fun h => by cases h⟩
        · show Stands bs cs h₀ p.acc _
          rw [hy]; exact hR
        · obtain ⟨k, hk⟩ := restore_frame bs cs hA h v
          rw [hk]; exact g.adj v hv
        · show o.cache = p.acc.map _
          rw [hy, ec]; rfl

/-- **C77.** Whatever ROL calls, in whatever order (`Accept` only for a trial point, `Revert` only if there is an accepted one), nothing raises; `value`
tells the functional and `gradient` its gradient at the point the updates lead to; `hessVec` tells what the Hessian sweep makes of the values at that
point and the adjoint values of the last gradient. -/
theorem rol_told (wf : WF bs) (hnd : cs.Nodup) (hcs : ∀ c ∈ cs, OnTape bs c)
    (htot : ∀ b ∈ bs, ∀ inputs i, inputs.length = b.deps.length → i < b.outs.length → (b.recomputeC inputs i).isSome)
    (hfl : ∀ v, (h₀ v).isControl = false) (hmk : ∀ v, (h₀ v).marked = false) (l : List (Call V T))
    (hl : ({} : Where V).AllAllowed cs.length l) :
    session bs J cs scale seed l {} h₀ = some (({} : Where V).reports bs J cs scale seed h₀ l) := by
  have gen : ∀ (l : List (Call V T)) (p : Where V) (o : Obj V) (h : Heap V T A), Agrees bs J cs scale seed h₀ p o h → p.AllAllowed cs.length l →
      session bs J cs scale seed l o h = some (p.reports bs J cs scale seed h₀ l) := by
    intro l
    induction l with
    | nil => intro p o h _ _; rfl
    | cons c l ih =>
      intro p o h g hal
      obtain ⟨o', h', e, g'⟩ := g.step wf hnd hcs htot hfl hmk c hal.1
      rw [session, e]
      simp only []
      rw [ih _ o' h' g' hal.2]
      rfl
  exact gen l {} {} h₀ ⟨⟨Base.refl hfl hmk, fun _ => rfl⟩, fun _ _ => rfl, rfl, fun x hx => (by cases hx), fun h => (by cases h)⟩ hl

/-- If the last gradient was asked for at the current point, then `hessVec` is to tell the Hessian action after a gradient there, on the tape as it was
recorded. -/
theorem told_at_gradient (wf : WF bs) (hcs : ∀ c ∈ cs, OnTape bs c) (hfl : ∀ v, (h₀ v).isControl = false) (hmk : ∀ v, (h₀ v).marked = false)
    (p : Where V) (hp : p.grad = some p.cur) (d : List T) :
    p.told bs J cs scale seed h₀ (.hessVec d)
      = .vector (computeHessianOf bs J cs d (computeGradient bs J cs seed (place bs cs h₀ p.cur)).2).1 := by
  have hmk' := place_marks (cs := cs) hfl hmk wf p.cur
  have hfl' : ∀ v, (place bs cs h₀ p.cur v).isControl = false := by
    cases p.cur with
    | none => exact hfl
    | some x => exact ((Base.refl hfl hmk : Base bs cs h₀ h₀).eval wf x).flags
  have sim : SimA (OnTape bs) (withAdjoints (place bs cs h₀ p.cur) (lastGradient bs J cs seed h₀ p.grad))
      (computeGradientState bs J cs seed (place bs cs h₀ p.cur)) := by
    have fr := computeGradientState_adj_frame bs J cs seed (place bs cs h₀ p.cur) hfl' hmk'
    refine ⟨fun v _ => ?_, fun v _ => by rw [hp]; rfl, fun v _ => ?_⟩
    · obtain ⟨a, ha⟩ := fr v
      exact saved_congr (by rw [ha]; rfl) (by rw [ha]; rfl)
    · obtain ⟨a, ha⟩ := fr v
      rw [ha]; rfl
  have hh := SimH.computeHessianOf sim J cs d
  show Report.vector _ = Report.vector _
  congr 1
  show cs.map (getHessian (computeHessianOf bs J cs d _).2) = cs.map (getHessian (computeHessianOf bs J cs d _).2)
  apply List.map_congr_left
  intro c hc
  unfold getHessian
  rw [hh.hess c (hcs c hc)]
  rfl

end

/-! ## The Hessian action is the second derivative, if the last gradient was asked for at the current point -/

/-- The points after a sequence. -/
def Where.after (p : Where V) (l : List (Call V T)) : Where V := l.foldl Where.step p

theorem reports_append [Mul V] [Add T] [Add A] [Zero A] (bs : Blocks V T A) (J : BV) (cs : List BV) (scale : V) (seed : A) (h₀ : Heap V T A)
    (p : Where V) (l : List (Call V T)) (c : Call V T) :
    p.reports bs J cs scale seed h₀ (l ++ [c]) = p.reports bs J cs scale seed h₀ l ++ [(p.after l).told bs J cs scale seed h₀ c] := by
  induction l generalizing p with
  | nil => rfl
  | cons d l ih =>
    exact congrArg (p.told bs J cs scale seed h₀ d :: ·) (ih (p.step d))

theorem allAllowed_append (n : Nat) (p : Where V) (l : List (Call V T)) (c : Call V T) (hl : p.AllAllowed n l) (hc : (p.after l).Allowed n c) :
    p.AllAllowed n (l ++ [c]) := by
  induction l generalizing p with
  | nil => exact ⟨hc, trivial⟩
  | cons d l ih => exact ⟨hl.1, ih _ hl.2 hc⟩

/-- **C77, second derivatives.** Whatever ROL called before: if the last gradient was asked for at the point where the objective now stands, then
`hessVec` tells the second derivative there.  (Missing: the case that the last gradient was asked for elsewhere or not at all, where it is false, see
`hessian_after_temp` and `hessian_after_accept`.) -/
theorem rol_hessian_partial [NormedAddCommGroup V] [NormedSpace ℝ V] [NormedAddCommGroup A] [NormedSpace ℝ A] [Mul V] {bs : Blocks V V A}
    (wf : WF bs) (J : BV) (cs : List BV) (hnd : cs.Nodup) (hcs : ∀ c ∈ cs, OnTape bs c)
    (htot : ∀ b ∈ bs, ∀ inputs i, inputs.length = b.deps.length → i < b.outs.length → (b.recomputeC inputs i).isSome)
    (h₀ : Heap V V A) (hfl : ∀ v, (h₀ v).isControl = false) (hmk : ∀ v, (h₀ v).marked = false) (hind : IndependentControls bs cs)
    (scale : V) (seed : A) (l : List (Call V V)) (hl : ({} : Where V).AllAllowed cs.length l) (x₀ dir : Fin cs.length → V)
    (hcur : (({} : Where V).after l).cur = some (List.ofFn x₀)) (hgrad : (({} : Where V).after l).grad = some (some (List.ofFn x₀)))
    (ι : A →L[ℝ] (V →L[ℝ] ℝ))
    (hadj : ∀ᶠ s in nhds (0 : ℝ), ∀ b ∈ bs, (∃ d ∈ b.deps, Reach bs (· ∈ cs) d) →
      CorrectAdjoint (ι : A →+ (V →L[ℝ] ℝ)) b (fun j => saved (rfEval bs cs (List.ofFn (x₀ + s • dir)) h₀) b.deps[j])
        (fun j => Reach bs (· ∈ cs) b.deps[j]))
    (htan : ∀ b ∈ bs, (∃ d ∈ b.deps, Reach bs (· ∈ cs) d) →
      CorrectTangent b (fun j => saved (rfEval bs cs (List.ofFn x₀) h₀) b.deps[j]) (fun j => Reach bs (· ∈ cs) b.deps[j]))
    (hhess : ∀ b ∈ bs, (∃ d ∈ b.deps, Reach bs (· ∈ cs) d) →
      CorrectHessian b (fun j => saved (rfEval bs cs (List.ofFn x₀) h₀) b.deps[j]) (fun j => Reach bs (· ∈ cs) b.deps[j])) :
    ∃ rs hess, session bs J cs scale seed (l ++ [.hessVec (List.ofFn dir)]) {} h₀ = some (rs ++ [.vector (List.ofFn hess)]) ∧
      rs.length = l.length ∧
      ∀ (i : Fin cs.length) (w : V),
        HasDerivAt (fun s : ℝ => fderiv ℝ (fun x : Fin cs.length → V => ι seed (saved (rfEval bs cs (List.ofFn x) h₀) J)) (x₀ + s • dir) (Pi.single i w))
          (ι (hess i) w) 0 := by
  obtain ⟨hess, e, hd⟩ := hessian_exact_blocks wf J cs hnd h₀ hfl hmk hind seed x₀ dir ι hadj htan hhess fun c hc => Or.inl (hcs c hc)
  refine ⟨({} : Where V).reports bs J cs scale seed h₀ l, hess, ?_, ?_, hd⟩
  · rw [rol_told wf hnd hcs htot hfl hmk _ (allAllowed_append _ _ l (.hessVec (List.ofFn dir)) hl trivial), reports_append,
      told_at_gradient wf hcs hfl hmk _ (by rw [hgrad, hcur]), hcur]
    show some (_ ++ [Report.vector (computeHessianOf bs J cs (List.ofFn dir) (computeGradient bs J cs seed (rfEval bs cs (List.ofFn x₀) h₀)).2).1]) = _
    rw [e]
  · have : ∀ (l : List (Call V V)) (p : Where V), (p.reports bs J cs scale seed h₀ l).length = l.length := by
      intro l
      induction l with
      | nil => intro p; rfl
      | cons c l ih => intro p; show (_ :: _).length = _; rw [List.length_cons, ih]; rfl
    exact this l _

/-- A rejected trial and a temporary update between the gradient and the Hessian action do no harm: the objective is back at 4, where the last gradient
was asked for (example data). -/
noncomputable def someSession : List (Call ℝ ℝ) :=
  [.update .initial [1], .value, .gradient, .update .trial [4], .value, .update .accept [4], .gradient, .update .trial [8], .value, .update .revert [4],
    .hessVec [2], .update .temp [3], .update .revert [4]]

/-- The hypotheses of `rol_hessian_partial` hold for `(v₀³)³` and `someSession`, in every direction. -/
example (dir : Fin 1 → ℝ) : ∃ rs hess,
    session cubeTape 2 [0] 1 1 (someSession ++ [.hessVec (List.ofFn dir)]) {} cubeHeap = some (rs ++ [.vector (List.ofFn hess)]) ∧
      rs.length = someSession.length ∧
      ∀ (i : Fin 1) (w : ℝ), HasDerivAt (fun s : ℝ => fderiv ℝ (fun x : Fin 1 → ℝ => cubeAdj 1 (saved (rfEval cubeTape [0] (List.ofFn x) cubeHeap) 2))
        ((fun _ => 4) + s • dir) (Pi.single i w)) (cubeAdj (hess i) w) 0 := by
  refine rol_hessian_partial cubeTape_wf 2 [0] (by simp) ?_ ?_ cubeHeap (fun _ => rfl) (fun _ => rfl) ?_ 1 1 someSession ?_ (fun _ => 4) dir rfl rfl
    cubeAdj (Filter.Eventually.of_forall ?_) ?_ ?_
  · intro c hc
    simp only [List.mem_singleton] at hc
    subst hc
    exact ⟨cubeBlock 0 1, by simp [cubeTape], Or.inl (by simp [cubeBlock])⟩
  · intro b hb inputs i hl hi
    obtain ⟨d, o, rfl, -⟩ := cubeTape_dep b hb
    match inputs, hl with
    | [x], _ => rfl
  · intro c hc b hb ho
    simp only [List.mem_singleton] at hc
    subst hc
    simp only [cubeTape, List.mem_cons, List.not_mem_nil, or_false] at hb
    rcases hb with rfl | rfl <;> simp [cubeBlock] at ho
  · exact ⟨rfl, trivial, trivial, rfl, trivial, rfl, trivial, rfl, trivial, by simp [Where.step, Where.Allowed], trivial, rfl, by simp [Where.step, Where.Allowed], trivial⟩
  · intro s b hb _
    obtain ⟨d, o, rfl, _⟩ := cubeTape_dep b hb
    exact cube_adjoint d o _ _
  · intro b hb _
    obtain ⟨d, o, rfl, _⟩ := cubeTape_dep b hb
    exact cube_tangent d o _ _
  · intro b hb _
    obtain ⟨d, o, rfl, hr⟩ := cubeTape_dep b hb
    exact cube_hessian d o _ _ hr

/-! ## Hessian actions with the adjoint values of another point -/

/-- A block that squares a variable (example data). -/
def squareBlock (d o : BV) : Block Int Int Int where
  deps := [d]
  outs := [o]
  recomputeC := fun xs _ => match xs with
    | [x] => some (x * x)
    | _ => none
  adjC := fun xs ls _ => match xs, ls with
    | [x], [some l] => some (2 * x * l)
    | _, _ => none
  tlmC := fun xs ts _ => match xs, ts with
    | [x], [some t] => some (2 * x * t)
    | _, _ => none
  hessC := fun xs ms ls _ rel => match xs, ms, ls, rel with
    | [x], [some m], [l], [(_, t)] => some (2 * x * m + 2 * t.getD 0 * l.getD 0)
    | _, _, _, _ => none

/-- The functional `x⁴`, with second derivative `12 x²` (example data). -/
def fourthPower : Blocks Int Int Int := [squareBlock 0 1, squareBlock 1 2]

/-- Every variable holds 1 (example data). -/
def onesHeap : Heap Int Int Int := fun _ => { output := 1 }

/-- The numbers told. -/
def Report.numbers : Report Int Int → List Int
  | .nothing => []
  | .value y => y.toList
  | .vector g => g

/-- The calls up to the Hessian action are allowed; right after the gradient, the Hessian action at 3 is `12 * 9`, also after a rejected trial. -/
example : ({} : Where Int).AllAllowed 1 ([.update .initial [3], .value, .gradient, .update .trial [5], .update .revert [3], .hessVec [1]] : List (Call Int Int)) ∧
    (session fourthPower 2 [0] 1 1 [.update .initial [3], .value, .gradient, .update .trial [5], .update .revert [3], .hessVec [1]] {} onesHeap).map
      (List.map Report.numbers) = some [[], [81], [108], [], [], [108]] :=
  ⟨⟨rfl, trivial, trivial, rfl, by simp [Where.step, Where.Allowed], trivial, trivial⟩, by decide +kernel⟩

/-- **A gradient at a temporary point** leaves its adjoint values behind: after `Revert` to 1 the value is right again, and the Hessian action
told is 44 instead of 12. -/
theorem hessian_after_temp :
    ({} : Where Int).AllAllowed 1
      ([.update .initial [1], .gradient, .update .temp [3], .gradient, .update .revert [1], .value, .hessVec [1]] : List (Call Int Int)) ∧
    (session fourthPower 2 [0] 1 1 [.update .initial [1], .gradient, .update .temp [3], .gradient, .update .revert [1], .value, .hessVec [1]] {}
      onesHeap).map (List.map Report.numbers) = some [[], [4], [], [108], [], [1], [44]] :=
  ⟨⟨rfl, trivial, rfl, trivial, by simp [Where.step, Where.Allowed], trivial, trivial, trivial⟩, by decide +kernel⟩

/-- **A Hessian action at a new point before the gradient there**: at 3, 76 is told instead of 108 (and 108 once the gradient was asked for). -/
theorem hessian_after_accept :
    ({} : Where Int).AllAllowed 1
      ([.update .initial [1], .gradient, .update .trial [3], .update .accept [3], .hessVec [1], .gradient, .hessVec [1]] : List (Call Int Int)) ∧
    (session fourthPower 2 [0] 1 1 [.update .initial [1], .gradient, .update .trial [3], .update .accept [3], .hessVec [1], .gradient, .hessVec [1]] {}
      onesHeap).map (List.map Report.numbers) = some [[], [4], [], [], [76], [108], [108]] :=
  ⟨⟨rfl, trivial, rfl, rfl, trivial, trivial, trivial, trivial⟩, by decide +kernel⟩

/-- **A Hessian action without any gradient before**, as in a check of the Hessian's symmetry: at 1, 0 is told instead of 12. -/
theorem hessian_without_gradient :
    (session fourthPower 2 [0] 1 1 [.update .other [1], .hessVec [1]] {} onesHeap).map (List.map Report.numbers) = some [[], [0]] := by
  decide +kernel

/-- **C77, `checkGradient`.** `ROLSolver.checkGradient` starts from the gradient at the given point. -/
theorem check_gradient [Mul V] [Add T] [Add A] [Zero A] {bs : Blocks V T A} (wf : WF bs) (J : BV) (cs : List BV) (hnd : cs.Nodup)
    (hcs : ∀ c ∈ cs, OnTape bs c)
    (htot : ∀ b ∈ bs, ∀ inputs i, inputs.length = b.deps.length → i < b.outs.length → (b.recomputeC inputs i).isSome)
    (h₀ : Heap V T A) (hfl : ∀ v, (h₀ v).isControl = false) (hmk : ∀ v, (h₀ v).marked = false) (scale : V) (seed : A) (x : List V)
    (hx : x.length = cs.length) :
    session bs J cs scale seed (checkGradientCalls x) {} h₀ = some [.nothing, .vector (computeGradient bs J cs seed (rfEval bs cs x h₀)).1] :=
  rol_told wf hnd hcs htot hfl hmk _ ⟨hx, trivial, trivial⟩

example : (session fourthPower 2 [0] 1 1 (checkGradientCalls [3]) {} onesHeap).map (List.map Report.numbers) = some [[], [108]] := by
  decide +kernel

end Rol
end Pyadjoint
