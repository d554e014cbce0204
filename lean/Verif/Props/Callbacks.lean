import Verif.Model.Callbacks
import Verif.Props.HistoryBlocks

/-!
# C67: callbacks of a reduced functional

Callbacks that only watch change no result (`watching_changes_nothing`); what they are told is what the user asked for and gets
(`callbacks_are_told`); whatever they do and wherever they raise, annotation is restored (`annotation_restored`), nothing they do inside an
evaluation is recorded (`evaluation_records_nothing_partial`), and the reduced functional works as before (`callbacks_history_independent`).
-/

namespace Pyadjoint
namespace Cb

variable {σ R T α β : Type*}

/-! ### Annotation -/

/-- **C67**, annotation.  For all callbacks, whatever they do to the annotation flag and whether or not they raise: after an evaluation and after
a Hessian annotation is on if it was on before. -/
theorem annotation_restored [Add T] [Add R] [Zero R] [Mul R] (rf : RF R) (cb : Callbacks σ R T) (w : World σ R T) :
    (∀ values, (callFn rf cb values w).2.enabled = w.enabled) ∧ ∀ d, (hessianFn rf cb d w).2.enabled = w.enabled :=
  ⟨fun _ => rfl, fun _ => rfl⟩

/-- `f` leaves the tape and the flag alone when annotation is off. -/
def Respects (f : Fn σ R T α) : Prop := ∀ w, w.enabled = false → (f w).2.blocks = w.blocks ∧ (f w).2.enabled = false

theorem Respects.bind {f : Fn σ R T α} {g : α → Fn σ R T β} (hf : Respects f) (hg : ∀ a, Respects (g a)) : Respects (f.bind g) := by
  intro w hw
  obtain ⟨h1, h2⟩ := hf w hw
  unfold Fn.bind
  cases hx : f w with
  | mk r w' =>
    rw [hx] at h1 h2
    cases r with
    | error e => exact ⟨h1, h2⟩
    | ok a =>
      obtain ⟨h3, h4⟩ := hg a w' h2
      exact ⟨h3.trans h1, h4⟩

theorem ofApi_respects (r : Except ApiErr α) : Respects (ofApi r : Fn σ R T α) := by
  intro w hw
  cases r <;> exact ⟨rfl, hw⟩

/-- A recorded operation (`block` is added to the tape if annotation is on, `tape.py:149-155`). -/
def recordOp (b : Block R T R) : Fn σ R T Unit := fun w => (.ok (), if w.enabled then { w with blocks := w.blocks ++ [b] } else w)

theorem recordOp_respects (b : Block R T R) : Respects (recordOp b : Fn σ R T Unit) := by
  intro w hw
  unfold recordOp
  rw [hw]
  exact ⟨rfl, hw⟩

/-- **C67**, recording.  Nothing that evaluation and Hessian callbacks do is recorded. -/
theorem evaluation_records_nothing_partial [Add T] [Add R] [Zero R] [Mul R] (rf : RF R) (cb : Callbacks σ R T)
    (h1 : ∀ a, Respects (cb.evalPre a)) (h2 : ∀ y a, Respects (cb.evalPost y a)) (h3 : ∀ a, Respects (cb.hessianPre a))
    (h4 : ∀ c r a, Respects (cb.hessianPost c r a)) (w : World σ R T) :
    (∀ values, (callFn rf cb values w).2.blocks = w.blocks) ∧ ∀ d, (hessianFn rf cb d w).2.blocks = w.blocks := by
  constructor
  · intro values
    unfold callFn noAnnotations
    dsimp only
    split
    · rfl
    · refine ((ofApi_respects _).bind (fun arg => (h1 arg).bind (fun _ w hw => ?_)) { w with enabled := false } rfl).1
      exact ((h2 _ arg).bind (fun _ w hw => ⟨rfl, hw⟩)) { w with heap := rfEval w.blocks rf.enlisted.items (Enlist.of values).items w.heap } hw
  · intro d
    unfold hessianFn noAnnotations
    refine ((ofApi_respects _).bind (fun arg => (h3 arg).bind (fun _ w hw => ?_)) { w with enabled := false } rfl).1
    dsimp only
    split
    · exact ⟨rfl, hw⟩
    · exact ((ofApi_respects _).bind (fun out => (h4 _ out arg).bind (fun _ w hw => ⟨rfl, hw⟩))) { w with heap := (computeHessianOf w.blocks
        rf.J rf.enlisted.items (Enlist.of d).items w.heap).2 } hw

/-! ### Callbacks that watch -/

/-- The world without the user's part. -/
def World.plain (w : World σ R T) : World Unit R T := ⟨w.heap, w.blocks, w.enabled, ()⟩

/-- The callbacks return what they are given, do not raise, and change only what belongs to the user. -/
structure Watches (cb : Callbacks σ R T) : Prop where
  evalPre : ∀ a w, ∃ u, cb.evalPre a w = (.ok (), { w with user := u })
  evalPost : ∀ y a w, ∃ u, cb.evalPost y a w = (.ok (), { w with user := u })
  derivativePre : ∀ cs w, ∃ u, cb.derivativePre cs w = (.ok cs, { w with user := u })
  derivativePost : ∀ c ds vs w, ∃ u, cb.derivativePost c ds vs w = (.ok ds, { w with user := u })
  hessianPre : ∀ a w, ∃ u, cb.hessianPre a w = (.ok (), { w with user := u })
  hessianPost : ∀ c r a w, ∃ u, cb.hessianPost c r a w = (.ok (), { w with user := u })

/-- Same result, same effect apart from the user's part. -/
def Sim (f : Fn σ R T α) (f' : Fn Unit R T α) : Prop := ∀ w, (f w).1 = (f' w.plain).1 ∧ (f w).2.plain = (f' w.plain).2

theorem Sim.of_eq {f : Fn σ R T α} {f' : Fn Unit R T α} (a : α) (h : ∀ w, ∃ u, f w = (.ok a, { w with user := u }))
    (h' : ∀ w, f' w = (.ok a, w)) : Sim f f' := by
  intro w
  obtain ⟨u, e⟩ := h w
  rw [e, h']
  exact ⟨rfl, rfl⟩

theorem Sim.ofApi (r : Except ApiErr α) : Sim (ofApi r : Fn σ R T α) (ofApi r) := by
  intro w
  cases r <;> exact ⟨rfl, rfl⟩

theorem Sim.bind {f : Fn σ R T α} {f' : Fn Unit R T α} {g : α → Fn σ R T β} {g' : α → Fn Unit R T β} (hf : Sim f f')
    (hg : ∀ a, Sim (g a) (g' a)) : Sim (f.bind g) (f'.bind g') := by
  intro w
  obtain ⟨h1, h2⟩ := hf w
  unfold Fn.bind
  cases hx : f w with
  | mk r v =>
    cases hx' : f' w.plain with
    | mk r' v' =>
      rw [hx, hx'] at h1 h2
      dsimp only at h1 h2
      subst h1 h2
      cases r with
      | error e => exact ⟨rfl, rfl⟩
      | ok a => exact hg a v

theorem Sim.noAnnotations {f : Fn σ R T α} {f' : Fn Unit R T α} (hf : Sim f f') : Sim (noAnnotations f) (noAnnotations f') := by
  intro w
  obtain ⟨h1, h2⟩ := hf { w with enabled := false }
  refine ⟨h1, ?_⟩
  show ({ (f { w with enabled := false }).2.plain with enabled := w.enabled } : World Unit R T) = _
  rw [h2]
  rfl

structure SimCb (cb : Callbacks σ R T) (cb' : Callbacks Unit R T) : Prop where
  evalPre : ∀ a, Sim (cb.evalPre a) (cb'.evalPre a)
  evalPost : ∀ y a, Sim (cb.evalPost y a) (cb'.evalPost y a)
  derivativePre : ∀ cs, Sim (cb.derivativePre cs) (cb'.derivativePre cs)
  derivativePost : ∀ c ds vs, Sim (cb.derivativePost c ds vs) (cb'.derivativePost c ds vs)
  hessianPre : ∀ a, Sim (cb.hessianPre a) (cb'.hessianPre a)
  hessianPost : ∀ c r a, Sim (cb.hessianPost c r a) (cb'.hessianPost c r a)

theorem Watches.sim {cb : Callbacks σ R T} (h : Watches cb) : SimCb cb .default :=
  ⟨fun a => .of_eq _ (h.evalPre a) fun _ => rfl, fun y a => .of_eq _ (h.evalPost y a) fun _ => rfl,
    fun cs => .of_eq _ (h.derivativePre cs) fun _ => rfl, fun c ds vs => .of_eq _ (h.derivativePost c ds vs) fun _ => rfl,
    fun a => .of_eq _ (h.hessianPre a) fun _ => rfl, fun c r a => .of_eq _ (h.hessianPost c r a) fun _ => rfl⟩

theorem SimCb.init [Zero R] {cb : Callbacks σ R T} {cb' : Callbacks Unit R T} (h : SimCb cb cb') (rf : RF R) :
    SimCb (cb.init rf) (cb'.init rf) := by
  unfold Callbacks.init
  split
  · exact h
  · exact h
  · rename_i is _ _
    exact ⟨h.evalPre, h.evalPost, fun cs => Sim.ofApi _, fun c ds vs => Sim.ofApi _, h.hessianPre, h.hessianPost⟩

theorem SimCb.callFn [Mul R] {cb : Callbacks σ R T} {cb' : Callbacks Unit R T} (h : SimCb cb cb') (rf : RF R) (values : Arg R) :
    Sim (callFn rf cb values) (callFn rf cb' values) := by
  refine Sim.noAnnotations fun w => ?_
  dsimp only
  split
  · exact ⟨rfl, rfl⟩
  · refine (Sim.ofApi _).bind (fun arg => (h.evalPre _).bind (fun _ w => ?_)) w
    exact (h.evalPost _ _).bind (fun _ w => ⟨rfl, rfl⟩) { w with heap := rfEval w.blocks rf.enlisted.items (Enlist.of values).items w.heap }

theorem SimCb.derivativeFn [Add R] [Zero R] [Mul R] {cb : Callbacks σ R T} {cb' : Callbacks Unit R T} (h : SimCb cb cb') (rf : RF R) (a : R) :
    Sim (derivativeFn rf cb a) (derivativeFn rf cb' a) := by
  intro w
  unfold Cb.derivativeFn
  refine (h.derivativePre _).bind (fun sel v => ?_) w
  dsimp only
  split
  · exact ⟨rfl, rfl⟩
  · exact (h.derivativePost _ _ _).bind (fun ds => Sim.ofApi _) { v with heap := (computeGradient v.blocks rf.J sel (a * rf.scale) v.heap).2 }

theorem SimCb.hessianFn [Add T] [Add R] [Zero R] {cb : Callbacks σ R T} {cb' : Callbacks Unit R T} (h : SimCb cb cb') (rf : RF R) (d : Arg T) :
    Sim (hessianFn rf cb d) (hessianFn rf cb' d) := by
  refine Sim.noAnnotations fun w => ?_
  refine (Sim.ofApi _).bind (fun arg => (h.hessianPre _).bind (fun _ v => ?_)) w
  dsimp only
  split
  · exact ⟨rfl, rfl⟩
  · exact (Sim.ofApi _).bind (fun out => (h.hessianPost _ _ _).bind (fun _ w => ⟨rfl, rfl⟩)) { v with heap := (computeHessianOf v.blocks rf.J
      rf.enlisted.items (Enlist.of d).items v.heap).2 }

theorem SimCb.run [Add T] [Add R] [Zero R] [Mul R] {cb : Callbacks σ R T} {cb' : Callbacks Unit R T} (h : SimCb cb cb') (rf : RF R) (w : World σ R T)
    (q : Request R T) : (q.run rf cb w).1 = (q.run rf cb' w.plain).1 ∧ (q.run rf cb w).2.plain = (q.run rf cb' w.plain).2 := by
  have key : ∀ {γ : Type _} (f : Fn σ R T γ) (f' : Fn Unit R T γ) (k : γ → Answer R), Sim f f' →
      (f.answer k w).1 = (f'.answer k w.plain).1 ∧ (f.answer k w).2.plain = (f'.answer k w.plain).2 := by
    intro γ f f' k hs
    obtain ⟨h1, h2⟩ := hs w
    unfold Fn.answer
    cases hx : f w with
    | mk r v =>
      cases hx' : f' w.plain with
      | mk r' v' =>
        rw [hx, hx'] at h1 h2
        dsimp only at h1 h2
        subst h1 h2
        cases r <;> exact ⟨rfl, rfl⟩
  cases q with
  | call values => exact key _ _ Answer.value (h.callFn rf values)
  | derivative a => exact key _ _ Answer.derivatives (h.derivativeFn rf a)
  | hessian d => exact key _ _ Answer.derivatives (h.hessianFn rf d)

/-- **C67**, results.  Callbacks that only watch change nothing: for every sequence of evaluations, derivatives and Hessians the user gets, and
the tape holds afterwards, what they get and what it holds without callbacks, with and without `derivative_components`. -/
theorem watching_changes_nothing [Add T] [Add R] [Zero R] [Mul R] {cb : Callbacks σ R T} (hw : Watches cb) (rf : RF R) (qs : List (Request R T))
    (w : World σ R T) :
    (runAll rf (cb.init rf) qs w).1 = (runAll rf (Callbacks.default.init rf) qs w.plain).1 ∧
    (runAll rf (cb.init rf) qs w).2.plain = (runAll rf (Callbacks.default.init rf) qs w.plain).2 := by
  induction qs generalizing w with
  | nil => exact ⟨rfl, rfl⟩
  | cons q qs ih =>
    obtain ⟨h1, h2⟩ := (hw.sim.init rf).run rf w q
    obtain ⟨h3, h4⟩ := ih (q.run rf (cb.init rf) w).2
    rw [h2] at h3 h4
    exact ⟨by unfold runAll; dsimp only; rw [h1, h3], by unfold runAll; dsimp only; exact h4⟩

/-- One value per control as the user sees it: the value itself if the controls were given as a single control. -/
def shape (rf : RF R) (ys : List β) : Ret β :=
  match rf.controls, ys with
  | .single _, [y] => .one y
  | _, ys => .many ys

theorem delist_shape (rf : RF R) {ys : List β} (hl : ys.length = rf.enlisted.items.length) : rf.enlisted.delist ys = .ok (shape rf ys) := by
  unfold RF.enlisted at hl ⊢
  unfold Enlist.delist shape
  cases hc : rf.controls with
  | single c =>
    rw [hc] at hl
    match ys, hl with
    | [x], _ => rfl
  | list l => cases ys <;> rfl
  | tuple l => cases ys <;> rfl
  | enlist e => cases ys <;> rfl

/-- Without callbacks, evaluation and derivative are `RF.call` and `RF.derivative`; and with `derivative_components` the derivative is that whatever
derivative callbacks the user gave: they are not called. -/
theorem default_callbacks [Add R] [Zero R] [Mul R] (rf : RF R) (w : World σ R T) :
    (∀ values, (callFn rf .default values w).1 = match rf.call w.blocks values w.heap with
      | .error e => .error (.api e)
      | .ok (y, _) => .ok y) ∧
    ∀ (cb : Callbacks σ R T) a, (rf.components = none ∨ rf.components = some [] → cb = .default) →
      derivativeFn rf (cb.init rf) a w = ((rf.derivative w.blocks a w.heap).1.mapError .api, { w with heap := (rf.derivative w.blocks a w.heap).2 }) := by
  constructor
  · intro values
    unfold callFn noAnnotations RF.call rfCall
    dsimp only
    by_cases hl : (Enlist.of values).items.length = rf.enlisted.items.length
    · rw [if_neg (by simpa using hl), if_neg (by simpa using hl)]
      rw [delist_shape rf hl]
      rfl
    · rw [if_pos (by simpa using hl), if_pos (by simpa using hl)]
  · intro cb a hcb
    have h0 : rf.components = none ∨ rf.components = some [] → derivativeFn rf (cb.init rf) a w =
        ((rf.derivative w.blocks a w.heap).1.mapError .api, { w with heap := (rf.derivative w.blocks a w.heap).2 }) := by
      intro hn
      have e1 : cb.init rf = .default := by
        rw [hcb hn]
        unfold Callbacks.init
        rcases hn with hn | hn <;> rw [hn]
      have e2 : rf.derivative w.blocks a w.heap = if rf.enlisted.items.isEmpty then (.error .valueError, w.heap) else
          (finishDerivative rf.enlisted (computeGradient w.blocks rf.J rf.enlisted.items (a * rf.scale) w.heap).1,
            (computeGradient w.blocks rf.J rf.enlisted.items (a * rf.scale) w.heap).2) := by
        unfold RF.derivative
        rcases hn with hn | hn <;> rw [hn]
      rw [e1, e2]
      unfold derivativeFn Fn.bind Callbacks.default
      dsimp only
      cases rf.enlisted.items.isEmpty with
      | true => rfl
      | false =>
        show ofApi _ _ = _
        rw [if_neg Bool.false_ne_true]
        cases finishDerivative rf.enlisted _ <;> rfl
    cases hc : rf.components with
    | none => exact h0 (Or.inl hc)
    | some is =>
      cases is with
      | nil => exact h0 (Or.inr hc)
      | cons i is =>
        unfold RF.derivative derivativeFn Callbacks.init
        rw [hc]
        unfold Fn.bind
        dsimp only
        unfold extractCallback
        cases hx : extractComponents rf.enlisted.items (i :: is) with
        | none => rfl
        | some sel =>
          have hs : sel.isEmpty = false := by
            unfold extractComponents at hx
            rw [List.mapM_cons] at hx
            cases h1 : pyIndex rf.enlisted.items i with
            | none => rw [h1] at hx; cases hx
            | some b =>
              rw [h1] at hx
              cases h2 : is.mapM (pyIndex rf.enlisted.items) with
              | none => simp [h2] at hx
              | some l => simp [h2] at hx; subst hx; rfl
          unfold ofApi
          dsimp only
          rw [hs, if_neg Bool.false_ne_true]
          unfold packCallback ofApi
          cases hp : packComponents rf.controls (i :: is) (computeGradient w.blocks rf.J sel (a * rf.scale) w.heap).1 with
          | error e => rfl
          | ok ds =>
            dsimp only
            cases finishDerivative rf.enlisted ds <;> rfl

theorem callFn_default [Mul R] (rf : RF R) (w : World σ R T) {values : Arg R} (hl : (Enlist.of values).items.length = rf.enlisted.items.length) :
    callFn rf .default values w = (.ok (saved (rfEval w.blocks rf.enlisted.items (Enlist.of values).items w.heap) rf.J * rf.scale),
      { w with heap := rfEval w.blocks rf.enlisted.items (Enlist.of values).items w.heap }) := by
  unfold callFn noAnnotations
  dsimp only
  rw [if_neg (by simpa using hl), delist_shape rf hl]
  rfl

theorem derivativeFn_default [Add R] [Zero R] [Mul R] (rf : RF R) (w : World σ R T) (hne : rf.enlisted.items ≠ []) (a : R) :
    derivativeFn rf .default a w = (.ok (shape rf (computeGradient w.blocks rf.J rf.enlisted.items (a * rf.scale) w.heap).1),
      { w with heap := (computeGradient w.blocks rf.J rf.enlisted.items (a * rf.scale) w.heap).2 }) := by
  have he : rf.enlisted.items.isEmpty = false := by simpa using hne
  unfold derivativeFn Fn.bind Callbacks.default
  dsimp only
  rw [he, if_neg Bool.false_ne_true]
  have hf : finishDerivative rf.enlisted (computeGradient w.blocks rf.J rf.enlisted.items (a * rf.scale) w.heap).1 =
      .ok (shape rf (computeGradient w.blocks rf.J rf.enlisted.items (a * rf.scale) w.heap).1) := by
    unfold finishDerivative
    rw [if_neg, delist_shape rf (by simp [computeGradient])]
    simpa [computeGradient] using hne
  rw [hf]
  rfl

theorem hessianFn_default [Add T] [Add R] [Zero R] (rf : RF R) (w : World σ R T) (d : Arg T)
    (hl : (Enlist.of d).items.length ≤ rf.enlisted.items.length) :
    hessianFn rf .default d w = (.ok (shape rf (computeHessianOf w.blocks rf.J rf.enlisted.items (Enlist.of d).items w.heap).1),
      { w with heap := (computeHessianOf w.blocks rf.J rf.enlisted.items (Enlist.of d).items w.heap).2 }) := by
  unfold hessianFn noAnnotations
  dsimp only
  rw [delist_shape rf (by simp)]
  unfold Fn.bind Callbacks.default
  simp only [ofApi]
  rw [if_neg (by omega), delist_shape rf (by simp [computeHessianOf])]

/-- Evaluation, derivative and Hessian without callbacks. -/
theorem default_answers [Add T] [Add R] [Zero R] [Mul R] (rf : RF R) (hne : rf.enlisted.items ≠ []) (w : World σ R T) {values : Arg R}
    (hl : (Enlist.of values).items.length = rf.enlisted.items.length) {a : R} {d : Arg T} :
    (runAll rf .default [.call values, .derivative a, .hessian d] w).1 =
      let h := rfEval w.blocks rf.enlisted.items (Enlist.of values).items w.heap
      let r := computeGradient w.blocks rf.J rf.enlisted.items (a * rf.scale) h
      [.value (saved h rf.J * rf.scale), .derivatives (shape rf r.1),
       if rf.enlisted.items.length < (Enlist.of d).items.length then .raised (.api .indexError)
       else .derivatives (shape rf (computeHessianOf w.blocks rf.J rf.enlisted.items (Enlist.of d).items r.2).1)] := by
  simp only [runAll, Request.run, Fn.answer, callFn_default rf w hl, derivativeFn_default rf _ hne]
  by_cases hd : rf.enlisted.items.length < (Enlist.of d).items.length
  · rw [if_pos hd]
    unfold hessianFn noAnnotations
    dsimp only
    rw [delist_shape rf (by simp)]
    unfold Fn.bind Callbacks.default
    simp only [ofApi, if_pos hd]
  · rw [if_neg hd, hessianFn_default rf _ d (by omega)]

/-! ### Callbacks that do anything -/

/-- `f` keeps `P`, whether it returns or raises. -/
def Keeps (P : World σ R T → Prop) (f : Fn σ R T α) : Prop := ∀ w, P w → P (f w).2

/-- All callbacks keep `P`. -/
structure Callbacks.Keep (P : World σ R T → Prop) (cb : Callbacks σ R T) : Prop where
  evalPre : ∀ a, Keeps P (cb.evalPre a)
  evalPost : ∀ y a, Keeps P (cb.evalPost y a)
  derivativePre : ∀ cs, Keeps P (cb.derivativePre cs)
  derivativePost : ∀ c ds vs, Keeps P (cb.derivativePost c ds vs)
  hessianPre : ∀ a, Keeps P (cb.hessianPre a)
  hessianPost : ∀ c r a, Keeps P (cb.hessianPost c r a)

theorem Keeps.ofApi (P : World σ R T → Prop) (r : Except ApiErr α) : Keeps P (ofApi r) := by
  intro w hw
  cases r <;> exact hw

theorem Keeps.bind {P : World σ R T → Prop} {f : Fn σ R T α} {g : α → Fn σ R T β} (hf : Keeps P f) (hg : ∀ a, Keeps P (g a)) :
    Keeps P (f.bind g) := by
  intro w hw
  have h1 := hf w hw
  unfold Fn.bind
  cases hx : f w with
  | mk r v =>
    rw [hx] at h1
    cases r with
    | error e => exact h1
    | ok a => exact hg a v h1

/-- The tape as recorded: its blocks are `bs`, and the values that evaluations with controls `cs` do not compute are those of `h₀`. -/
def Intact (bs : Blocks R T R) (cs : List BV) (h₀ : Heap R T R) (w : World σ R T) : Prop := w.blocks = bs ∧ Base bs cs h₀ w.heap

variable {bs : Blocks R T R} {h₀ : Heap R T R}

theorem Keeps.noAnnotations {cs : List BV} {f : Fn σ R T α} (hf : Keeps (Intact bs cs h₀) f) : Keeps (Intact bs cs h₀) (noAnnotations f) :=
  fun w hw => hf { w with enabled := false } hw

theorem callFn_keeps [Mul R] (wf : WF bs) (rf : RF R) {cb : Callbacks σ R T} (hc : cb.Keep (Intact bs rf.enlisted.items h₀)) (values : Arg R) :
    Keeps (Intact bs rf.enlisted.items h₀) (callFn rf cb values) := by
  refine Keeps.noAnnotations fun w hw => ?_
  dsimp only
  split
  · exact hw
  · refine (Keeps.ofApi _ _).bind (fun arg => (hc.evalPre arg).bind (fun _ w hw => ?_)) w hw
    refine (hc.evalPost _ arg).bind (fun _ w hw => hw) { w with heap := rfEval w.blocks rf.enlisted.items (Enlist.of values).items w.heap } ⟨hw.1, ?_⟩
    show Base bs _ h₀ (rfEval w.blocks _ _ _)
    rw [hw.1]
    exact hw.2.eval wf _

theorem derivativeFn_keeps [Add R] [Zero R] [Mul R] (cs : List BV) (rf : RF R) {cb : Callbacks σ R T} (hc : cb.Keep (Intact bs cs h₀)) (a : R) :
    Keeps (Intact bs cs h₀) (derivativeFn rf cb a) := by
  intro w hw
  unfold derivativeFn
  refine (hc.derivativePre _).bind (fun sel w hw => ?_) w hw
  dsimp only
  split
  · exact hw
  · refine (hc.derivativePost _ _ _).bind (fun ds => Keeps.ofApi _ _) { w with heap := (computeGradient w.blocks rf.J sel (a * rf.scale) w.heap).2 } ⟨hw.1, ?_⟩
    show Base bs _ h₀ (computeGradientState w.blocks _ _ _ _)
    rw [hw.1]
    exact hw.2.derivative _ _ _

theorem hessianFn_keeps [Add T] [Add R] [Zero R] (cs : List BV) (rf : RF R) {cb : Callbacks σ R T} (hc : cb.Keep (Intact bs cs h₀)) (d : Arg T) :
    Keeps (Intact bs cs h₀) (hessianFn rf cb d) := by
  refine Keeps.noAnnotations fun w hw => ?_
  refine (Keeps.ofApi _ _).bind (fun arg => (hc.hessianPre arg).bind (fun _ w hw => ?_)) w hw
  dsimp only
  split
  · refine ⟨hw.1, hw.2.of_frame fun v => ?_⟩
    obtain ⟨t, e⟩ := seedTlm_frame rf.enlisted.items (Enlist.of d).items (resetVariables w.blocks .hessian (resetVariables w.blocks .tlm w.heap)) v
    refine ⟨(w.heap v).adj, t, (resetVariables w.blocks .hessian (resetVariables w.blocks .tlm w.heap) v).hess, ?_⟩
    dsimp only
    rw [e]
    simp only [resetVariables_apply]
    by_cases hv : OnTape w.blocks v
    · simp only [if_pos hv, Var.reset]
    · simp only [if_neg hv]
  · refine (Keeps.ofApi _ _).bind (fun out => (hc.hessianPost _ out arg).bind (fun _ w hw => hw)) { w with heap := (computeHessianOf w.blocks rf.J
        rf.enlisted.items (Enlist.of d).items w.heap).2 } ⟨hw.1, ?_⟩
    show Base bs _ h₀ (computeHessianOf w.blocks _ _ _ _).2
    rw [hw.1]
    exact hw.2.hessian _ _ _

theorem Fn.answer_world (k : α → Answer R) (f : Fn σ R T α) (w : World σ R T) : (f.answer k w).2 = (f w).2 := by
  unfold Fn.answer
  cases f w with
  | mk r v => cases r <;> rfl

theorem run_keeps [Add T] [Add R] [Zero R] [Mul R] (wf : WF bs) (rf : RF R) {cb : Callbacks σ R T}
    (hc : cb.Keep (Intact bs rf.enlisted.items h₀)) (q : Request R T) {w : World σ R T} (hw : Intact bs rf.enlisted.items h₀ w) :
    Intact bs rf.enlisted.items h₀ (q.run rf cb w).2 := by
  cases q with
  | call values => unfold Request.run; rw [Fn.answer_world]; exact callFn_keeps wf rf hc values w hw
  | derivative a => unfold Request.run; rw [Fn.answer_world]; exact derivativeFn_keeps _ rf hc a w hw
  | hessian d => unfold Request.run; rw [Fn.answer_world]; exact hessianFn_keeps _ rf hc d w hw

theorem runAll_keeps [Add T] [Add R] [Zero R] [Mul R] (wf : WF bs) (rf : RF R) {cb : Callbacks σ R T}
    (hc : cb.Keep (Intact bs rf.enlisted.items h₀)) (qs : List (Request R T)) {w : World σ R T} (hw : Intact bs rf.enlisted.items h₀ w) :
    Intact bs rf.enlisted.items h₀ (runAll rf cb qs w).2 := by
  induction qs generalizing w with
  | nil => exact hw
  | cons q qs ih => exact ih (run_keeps wf rf hc q hw)

/-- The default callbacks keep everything, so that callbacks may themselves evaluate and differentiate the reduced functional (`callFn_keeps`,
`derivativeFn_keeps`, `hessianFn_keeps`). -/
theorem default_keeps (P : World σ R T → Prop) : (Callbacks.default : Callbacks σ R T).Keep P :=
  ⟨fun _ _ h => h, fun _ _ _ h => h, fun _ _ h => h, fun _ _ _ _ h => h, fun _ _ h => h, fun _ _ _ _ h => h⟩

/-- **C67**, exceptions.  Whatever the callbacks do, as long as they leave the recorded operations and inputs alone, and wherever they raise: after
any sequence of requests, a later evaluation, derivative and Hessian have the results they have on the tape as recorded. -/
theorem callbacks_history_independent [Add T] [Add R] [Zero R] [Mul R] (wf : WF bs) (rf : RF R) (hnd : rf.enlisted.items.Nodup)
    (hne : rf.enlisted.items ≠ []) (hon : ∀ c ∈ rf.enlisted.items, OnTape bs c)
    (htot : ∀ b ∈ bs, ∀ inputs i, inputs.length = b.deps.length → i < b.outs.length → (b.recomputeC inputs i).isSome)
    (cb : Callbacks σ R T) (w : World σ R T) (hbs : w.blocks = bs) (hfl : ∀ v, (w.heap v).isControl = false)
    (hmk : ∀ v, (w.heap v).marked = false) (hc : cb.Keep (Intact bs rf.enlisted.items w.heap)) (qs : List (Request R T))
    (values : Arg R) (hl : (Enlist.of values).items.length = rf.enlisted.items.length) (a : R) (d : Arg T) :
    (runAll rf .default [.call values, .derivative a, .hessian d] (runAll rf cb qs w).2).1 =
      (runAll rf .default [.call values, .derivative a, .hessian d] w).1 := by
  obtain ⟨hb', hB⟩ := runAll_keeps wf rf hc qs (w := w) ⟨hbs, Base.refl hfl hmk⟩
  generalize (runAll rf cb qs w).2 = w' at hb' hB
  obtain ⟨hsv, hs⟩ := hB.sim wf hnd hfl hmk htot _ hl rf.J (a * rf.scale)
  rw [default_answers rf hne w' hl, default_answers rf hne w hl, hb', hbs]
  have hg : (computeGradient bs rf.J rf.enlisted.items (a * rf.scale) (rfEval bs rf.enlisted.items (Enlist.of values).items w'.heap)).1 =
      (computeGradient bs rf.J rf.enlisted.items (a * rf.scale) (rfEval bs rf.enlisted.items (Enlist.of values).items w.heap)).1 := by
    unfold computeGradient
    refine List.map_congr_left fun c hc => ?_
    unfold getDerivative
    rw [hs.adj c (hon c hc)]
  have hh : (computeHessianOf bs rf.J rf.enlisted.items (Enlist.of d).items
      (computeGradient bs rf.J rf.enlisted.items (a * rf.scale) (rfEval bs rf.enlisted.items (Enlist.of values).items w'.heap)).2).1 =
      (computeHessianOf bs rf.J rf.enlisted.items (Enlist.of d).items
      (computeGradient bs rf.J rf.enlisted.items (a * rf.scale) (rfEval bs rf.enlisted.items (Enlist.of values).items w.heap)).2).1 := by
    have hh := SimH.computeHessianOf hs rf.J rf.enlisted.items (Enlist.of d).items
    show rf.enlisted.items.map (getHessian (computeHessianOf bs _ _ _ _).2) = rf.enlisted.items.map (getHessian (computeHessianOf bs _ _ _ _).2)
    refine List.map_congr_left fun c hc => ?_
    unfold getHessian
    have := hh.hess c (hon c hc)
    unfold computeGradient
    simp only
    rw [this]
  dsimp only
  rw [hsv, hg, hh]

/-- **C67**, values.  Whatever the callbacks do, as long as they leave the recorded operations and inputs alone, also if they evaluate the reduced
functional at other points: after any sequence of requests, an evaluation that does not raise returns the scaled functional at the values passed. -/
theorem callbacks_cannot_change_value [Add T] [Add R] [Zero R] [Mul R] (wf : WF bs) (rf : RF R) (hnd : rf.enlisted.items.Nodup)
    (htot : ∀ b ∈ bs, ∀ inputs i, inputs.length = b.deps.length → i < b.outs.length → (b.recomputeC inputs i).isSome)
    (cb : Callbacks σ R T) (w : World σ R T) (hbs : w.blocks = bs) (hfl : ∀ v, (w.heap v).isControl = false)
    (hmk : ∀ v, (w.heap v).marked = false) (hc : cb.Keep (Intact bs rf.enlisted.items w.heap)) (qs : List (Request R T)) (values : Arg R) (y : R)
    (hy : (callFn rf cb values (runAll rf cb qs w).2).1 = .ok y) :
    y = saved (rfEval bs rf.enlisted.items (Enlist.of values).items w.heap) rf.J * rf.scale := by
  obtain ⟨hb', hB⟩ := runAll_keeps wf rf hc qs (w := w) ⟨hbs, Base.refl hfl hmk⟩
  generalize (runAll rf cb qs w).2 = w' at hb' hB hy
  unfold callFn noAnnotations at hy
  dsimp only at hy
  by_cases hl : (Enlist.of values).items.length = rf.enlisted.items.length
  · rw [if_neg (by simpa using hl), delist_shape rf hl] at hy
    unfold Fn.bind at hy
    simp only [ofApi] at hy
    have h1 := hc.evalPre (shape rf (Enlist.of values).items) { w' with enabled := false } ⟨hb', hB⟩
    cases hx : cb.evalPre (shape rf (Enlist.of values).items) { w' with enabled := false } with
    | mk r v =>
      rw [hx] at hy h1
      cases r with
      | error e => cases hy
      | ok u =>
        have hbv : v.blocks = bs := h1.1
        have hBv : Base bs rf.enlisted.items w.heap v.heap := h1.2
        simp only [hbv] at hy
        have hv := evaluation_history_independent wf rf.enlisted.items hnd _ hl htot v.heap w.heap hBv.flags hfl hBv.output hBv.kept
        simp only [hv] at hy
        generalize cb.evalPost _ _ _ = z at hy
        obtain ⟨r, v'⟩ := z
        cases r with
        | error e => cases hy
        | ok u => exact (Except.ok.inj hy).symm
  · rw [if_pos hl] at hy
    cases hy

/-! ### What the callbacks are told -/

/-- The calls of the callbacks with their arguments. -/
inductive Event (R : Type*)
  | evalPre (values : Ret R)
  | evalPost (y : R) (values : Ret R)
  | derivativePre (controls : List BV)
  | derivativePost (checkpoint : Option R) (derivatives values : List R)
  | hessianPre (values : Ret R)
  | hessianPost (checkpoint : Option R) (hessian values : Ret R)

/-- Callbacks that write down what they are told. -/
def logging : Callbacks (List (Event R)) R T where
  evalPre a w := (.ok (), { w with user := w.user ++ [.evalPre a] })
  evalPost y a w := (.ok (), { w with user := w.user ++ [.evalPost y a] })
  derivativePre cs w := (.ok cs, { w with user := w.user ++ [.derivativePre cs] })
  derivativePost c ds vs w := (.ok ds, { w with user := w.user ++ [.derivativePost c ds vs] })
  hessianPre a w := (.ok (), { w with user := w.user ++ [.hessianPre a] })
  hessianPost c r a w := (.ok (), { w with user := w.user ++ [.hessianPost c r a] })

/-- The current point: control values, and the functional's value if there is one. -/
structure Point (R : Type*) where
  values : List R
  functional : Option R

/-- The specification of one request at a point: what the user gets, what the callbacks are told, and the next point.  `F` is the functional. -/
inductive Told [Mul R] (rf : RF R) (F : List R → R) : Point R → Request R T → Answer R → List (Event R) → Point R → Prop
  | call (p : Point R) (values : Arg R) (hl : (Enlist.of values).items.length = rf.enlisted.items.length) :
    Told rf F p (.call values) (.value (F (Enlist.of values).items * rf.scale))
      [.evalPre (shape rf (Enlist.of values).items), .evalPost (F (Enlist.of values).items * rf.scale) (shape rf (Enlist.of values).items)]
      ⟨(Enlist.of values).items, some (F (Enlist.of values).items)⟩
  | wrongLength (p : Point R) (values : Arg R) (hl : (Enlist.of values).items.length ≠ rf.enlisted.items.length) :
    Told rf F p (.call values) (.raised (.api .valueError)) [] p
  | derivative (p : Point R) (a : R) (ds : List R) (hl : ds.length = rf.enlisted.items.length) :
    Told rf F p (.derivative a) (.derivatives (shape rf ds))
      [.derivativePre rf.enlisted.items, .derivativePost p.functional ds p.values] p
  | hessian (p : Point R) (d : Arg T) (hs : List R) (hl : hs.length = rf.enlisted.items.length)
      (hd : (Enlist.of d).items.length ≤ rf.enlisted.items.length) :
    Told rf F p (.hessian d) (.derivatives (shape rf hs))
      [.hessianPre (shape rf p.values), .hessianPost p.functional (shape rf hs) (shape rf p.values)] p
  | tooMany (p : Point R) (d : Arg T) (hd : rf.enlisted.items.length < (Enlist.of d).items.length) :
    Told rf F p (.hessian d) (.raised (.api .indexError)) [.hessianPre (shape rf p.values)] p

/-- The specification of a sequence of requests. -/
inductive ToldAll [Mul R] (rf : RF R) (F : List R → R) : Point R → List (Request R T) → List (Answer R) → List (Event R) → Prop
  | nil (p : Point R) : ToldAll rf F p [] [] []
  | cons {p p' : Point R} {q : Request R T} {a : Answer R} {es : List (Event R)} {qs : List (Request R T)} {as : List (Answer R)}
      {es' : List (Event R)} (h : Told rf F p q a es p') (hs : ToldAll rf F p' qs as es') : ToldAll rf F p (q :: qs) (a :: as) (es ++ es')

theorem callFn_logging [Mul R] (rf : RF R) (w : World (List (Event R)) R T) {values : Arg R}
    (hl : (Enlist.of values).items.length = rf.enlisted.items.length) :
    callFn rf logging values w = (.ok (saved (rfEval w.blocks rf.enlisted.items (Enlist.of values).items w.heap) rf.J * rf.scale),
      { w with
        heap := rfEval w.blocks rf.enlisted.items (Enlist.of values).items w.heap
        user := w.user ++ [.evalPre (shape rf (Enlist.of values).items),
          .evalPost (saved (rfEval w.blocks rf.enlisted.items (Enlist.of values).items w.heap) rf.J * rf.scale)
            (shape rf (Enlist.of values).items)] }) := by
  unfold callFn noAnnotations
  dsimp only
  rw [if_neg (by simpa using hl), delist_shape rf hl]
  unfold Fn.bind logging
  simp only [ofApi, List.append_assoc, List.cons_append, List.nil_append]

theorem derivativeFn_logging [Add R] [Zero R] [Mul R] (rf : RF R) (w : World (List (Event R)) R T) (hne : rf.enlisted.items ≠ []) (a : R) :
    derivativeFn rf logging a w = (.ok (shape rf (computeGradient w.blocks rf.J rf.enlisted.items (a * rf.scale) w.heap).1),
      { w with
        heap := (computeGradient w.blocks rf.J rf.enlisted.items (a * rf.scale) w.heap).2
        user := w.user ++ [.derivativePre rf.enlisted.items,
          .derivativePost ((computeGradient w.blocks rf.J rf.enlisted.items (a * rf.scale) w.heap).2 rf.J).ckpt
            (computeGradient w.blocks rf.J rf.enlisted.items (a * rf.scale) w.heap).1 (rf.enlisted.items.map (saved w.heap))] }) := by
  have he : rf.enlisted.items.isEmpty = false := by simpa using hne
  unfold derivativeFn Fn.bind logging
  dsimp only
  rw [he, if_neg Bool.false_ne_true]
  have hf : finishDerivative rf.enlisted (computeGradient w.blocks rf.J rf.enlisted.items (a * rf.scale) w.heap).1 =
      .ok (shape rf (computeGradient w.blocks rf.J rf.enlisted.items (a * rf.scale) w.heap).1) := by
    unfold finishDerivative
    rw [if_neg, delist_shape rf (by simp [computeGradient])]
    simpa [computeGradient] using hne
  rw [hf]
  simp only [ofApi, List.append_assoc, List.cons_append, List.nil_append]

theorem hessianFn_logging [Add T] [Add R] [Zero R] (rf : RF R) (w : World (List (Event R)) R T) (d : Arg T)
    (hl : (Enlist.of d).items.length ≤ rf.enlisted.items.length) :
    hessianFn rf logging d w = (.ok (shape rf (computeHessianOf w.blocks rf.J rf.enlisted.items (Enlist.of d).items w.heap).1),
      { w with
        heap := (computeHessianOf w.blocks rf.J rf.enlisted.items (Enlist.of d).items w.heap).2
        user := w.user ++ [.hessianPre (shape rf (rf.enlisted.items.map (saved w.heap))),
          .hessianPost ((computeHessianOf w.blocks rf.J rf.enlisted.items (Enlist.of d).items w.heap).2 rf.J).ckpt
            (shape rf (computeHessianOf w.blocks rf.J rf.enlisted.items (Enlist.of d).items w.heap).1)
            (shape rf (rf.enlisted.items.map (saved w.heap)))] }) := by
  unfold hessianFn noAnnotations
  dsimp only
  rw [delist_shape rf (by simp)]
  unfold Fn.bind logging
  simp only [ofApi]
  rw [if_neg (by omega), delist_shape rf (by simp [computeHessianOf])]
  simp only [List.append_assoc, List.cons_append, List.nil_append]

theorem hessianFn_logging_error [Add T] [Add R] [Zero R] (rf : RF R) (w : World (List (Event R)) R T) (d : Arg T)
    (hl : rf.enlisted.items.length < (Enlist.of d).items.length) :
    hessianFn rf logging d w = (.error (.api .indexError),
      { w with
        heap := seedTlm rf.enlisted.items (Enlist.of d).items (resetVariables w.blocks .hessian (resetVariables w.blocks .tlm w.heap))
        user := w.user ++ [.hessianPre (shape rf (rf.enlisted.items.map (saved w.heap)))] }) := by
  unfold hessianFn noAnnotations
  dsimp only
  rw [delist_shape rf (by simp)]
  unfold Fn.bind logging
  simp only [ofApi, if_pos hl]

/-- The state of the tape at a point. -/
structure AtPoint (bs : Blocks R T R) (rf : RF R) (h₀ : Heap R T R) (p : Point R) (w : World σ R T) : Prop where
  intact : Intact bs rf.enlisted.items h₀ w
  values : rf.enlisted.items.map (saved w.heap) = p.values
  functional : (w.heap rf.J).ckpt = p.functional

theorem AtPoint.of_frame {rf : RF R} {p : Point R} {w w' : World σ R T} (h : AtPoint bs rf h₀ p w) (hb : w'.blocks = w.blocks)
    (fr : ∀ v, ∃ a t e, w'.heap v = { w.heap v with adj := a, tlm := t, hess := e }) : AtPoint bs rf h₀ p w' := by
  refine ⟨⟨hb.trans h.intact.1, h.intact.2.of_frame fr⟩, ?_, ?_⟩
  · rw [← h.values]
    refine List.map_congr_left fun c _ => ?_
    obtain ⟨a, t, e, hv⟩ := fr c
    unfold saved
    rw [hv]
  · obtain ⟨a, t, e, hv⟩ := fr rf.J
    rw [hv]
    exact h.functional

theorem some_saved {h : Heap R T R} {v : BV} (hs : (h v).ckpt.isSome) : (h v).ckpt = some (saved h v) := by
  obtain ⟨y, hy⟩ := Option.isSome_iff_exists.1 hs
  unfold saved
  rw [hy]

theorem AtPoint.step [Add T] [Add R] [Zero R] [Mul R] (wf : WF bs) {rf : RF R} (hnd : rf.enlisted.items.Nodup) (hne : rf.enlisted.items ≠ [])
    (htot : ∀ b ∈ bs, ∀ inputs i, inputs.length = b.deps.length → i < b.outs.length → (b.recomputeC inputs i).isSome)
    (hJ : rf.J ∈ rf.enlisted.items ∨ ∃ b ∈ bs, rf.J ∈ b.outs ∧ ∀ o ∈ b.outs, o ∉ rf.enlisted.items)
    (hfl : ∀ v, (h₀ v).isControl = false) {p : Point R} {w : World (List (Event R)) R T} (h : AtPoint bs rf h₀ p w) (q : Request R T) :
    ∃ es p', Told rf (fun xs => saved (rfEval bs rf.enlisted.items xs h₀) rf.J) p q (q.run rf logging w).1 es p' ∧
      (q.run rf logging w).2.user = w.user ++ es ∧ AtPoint bs rf h₀ p' (q.run rf logging w).2 := by
  cases q with
  | call values =>
    by_cases hl : (Enlist.of values).items.length = rf.enlisted.items.length
    · simp only [Request.run, Fn.answer, callFn_logging rf w hl]
      have hv := evaluation_history_independent wf rf.enlisted.items hnd _ hl htot w.heap h₀ h.intact.2.flags hfl h.intact.2.output
        h.intact.2.kept
      rw [h.intact.1]
      refine ⟨_, ⟨(Enlist.of values).items, some (saved (rfEval bs rf.enlisted.items (Enlist.of values).items h₀) rf.J)⟩, ?_, rfl,
        ⟨rfl, h.intact.2.eval wf _⟩, ?_, ?_⟩
      · rw [hv]
        exact Told.call p values hl
      · refine List.ext_getElem (by simp [hl]) fun i h1 h2 => ?_
        rw [List.getElem_map]
        unfold saved
        rw [rfEval_control bs _ _ _ hnd hl (fun c _ => h.intact.2.flags c) i (by simpa using h1)]
      · rw [← hv]
        refine some_saved ?_
        rcases hJ with hJ | ⟨b, hb, hJb, hno⟩
        · obtain ⟨i, hi, hJi⟩ := List.getElem_of_mem hJ
          rw [← hJi, rfEval_control bs _ _ _ hnd hl (fun c _ => h.intact.2.flags c) i hi]
          rfl
        · obtain ⟨i, hi, hJi⟩ := List.getElem_of_mem hJb
          rw [← hJi, rfEval_block wf _ _ _ h.intact.2.flags b hb hno i hi]
          obtain ⟨y, hy⟩ := Option.isSome_iff_exists.1 (htot b hb (b.deps.map (saved (rfEval bs rf.enlisted.items (Enlist.of values).items w.heap))) i
            (by simp) hi)
          rw [hy]
          rfl
    · have e : callFn rf logging values w = (.error (.api .valueError), w) := by
        unfold callFn noAnnotations
        dsimp only
        rw [if_pos hl]
      simp only [Request.run, Fn.answer, e]
      exact ⟨[], p, .wrongLength p values hl, (List.append_nil _).symm, h⟩
  | derivative a =>
    simp only [Request.run, Fn.answer, derivativeFn_logging rf w hne]
    have fr : ∀ v, ∃ x t e, (computeGradient w.blocks rf.J rf.enlisted.items (a * rf.scale) w.heap).2 v =
        { w.heap v with adj := x, tlm := t, hess := e } := fun v => by
      obtain ⟨x, hx⟩ := computeGradientState_adj_frame w.blocks rf.J rf.enlisted.items (a * rf.scale) w.heap h.intact.2.flags h.intact.2.marks v
      exact ⟨x, _, _, hx⟩
    have hp := h.of_frame (w' := { w with heap := (computeGradient w.blocks rf.J rf.enlisted.items (a * rf.scale) w.heap).2 }) rfl fr
    refine ⟨_, p, ?_, rfl, ⟨hp.intact, hp.values, hp.functional⟩⟩
    rw [h.values, hp.functional]
    exact Told.derivative p a _ (by simp [computeGradient])
  | hessian d =>
    by_cases hl : (Enlist.of d).items.length ≤ rf.enlisted.items.length
    · simp only [Request.run, Fn.answer, hessianFn_logging rf w d hl]
      have fr : ∀ v, ∃ x t e, (computeHessianOf w.blocks rf.J rf.enlisted.items (Enlist.of d).items w.heap).2 v =
          { w.heap v with adj := x, tlm := t, hess := e } := fun v => by
        obtain ⟨t, e, hx⟩ := computeHessianOf_frame w.blocks rf.J rf.enlisted.items (Enlist.of d).items w.heap h.intact.2.marks v
        exact ⟨_, t, e, hx⟩
      have hp := h.of_frame (w' := { w with heap := (computeHessianOf w.blocks rf.J rf.enlisted.items (Enlist.of d).items w.heap).2 }) rfl fr
      refine ⟨_, p, ?_, rfl, ⟨hp.intact, hp.values, hp.functional⟩⟩
      rw [h.values, hp.functional]
      exact Told.hessian p d _ (by simp [computeHessianOf]) hl
    · simp only [Request.run, Fn.answer, hessianFn_logging_error rf w d (by omega)]
      have fr : ∀ v, ∃ x t e, seedTlm rf.enlisted.items (Enlist.of d).items (resetVariables w.blocks .hessian (resetVariables w.blocks .tlm w.heap)) v =
          { w.heap v with adj := x, tlm := t, hess := e } := fun v => by
        obtain ⟨o, ho⟩ := seedTlm_frame rf.enlisted.items (Enlist.of d).items (resetVariables w.blocks .hessian (resetVariables w.blocks .tlm w.heap)) v
        rw [ho]
        simp only [resetVariables_apply]
        by_cases hv : OnTape w.blocks v
        · simp only [if_pos hv, Var.reset]; exact ⟨_, _, _, rfl⟩
        · simp only [if_neg hv]; exact ⟨_, _, _, rfl⟩
      have hp := h.of_frame (w' := { w with heap := seedTlm rf.enlisted.items (Enlist.of d).items (resetVariables w.blocks .hessian (resetVariables w.blocks .tlm w.heap)) }) rfl fr
      refine ⟨_, p, ?_, rfl, ⟨hp.intact, hp.values, hp.functional⟩⟩
      rw [h.values]
      exact Told.tooMany p d (by omega)

/-- **C67**, arguments.  For every sequence of requests, the callbacks are called exactly once each, in order, with the values the user passed, the
value the user gets, the controls, the current control values, and the derivatives the user gets.  The value given to the derivative and Hessian
callbacks is the unscaled functional. -/
theorem callbacks_are_told [Add T] [Add R] [Zero R] [Mul R] (wf : WF bs) (rf : RF R) (hnd : rf.enlisted.items.Nodup) (hne : rf.enlisted.items ≠ [])
    (htot : ∀ b ∈ bs, ∀ inputs i, inputs.length = b.deps.length → i < b.outs.length → (b.recomputeC inputs i).isSome)
    (hJ : rf.J ∈ rf.enlisted.items ∨ ∃ b ∈ bs, rf.J ∈ b.outs ∧ ∀ o ∈ b.outs, o ∉ rf.enlisted.items)
    (w : World (List (Event R)) R T) (hbs : w.blocks = bs) (hfl : ∀ v, (w.heap v).isControl = false) (hmk : ∀ v, (w.heap v).marked = false)
    (qs : List (Request R T)) :
    ∃ es, ToldAll rf (fun xs => saved (rfEval bs rf.enlisted.items xs w.heap) rf.J)
        ⟨rf.enlisted.items.map (saved w.heap), (w.heap rf.J).ckpt⟩ qs (runAll rf logging qs w).1 es ∧
      (runAll rf logging qs w).2.user = w.user ++ es := by
  have key : ∀ (qs : List (Request R T)) (p : Point R) (v : World (List (Event R)) R T), AtPoint bs rf w.heap p v →
      ∃ es, ToldAll rf (fun xs => saved (rfEval bs rf.enlisted.items xs w.heap) rf.J) p qs (runAll rf logging qs v).1 es ∧
        (runAll rf logging qs v).2.user = v.user ++ es := by
    intro qs
    induction qs with
    | nil => intro p v _; exact ⟨[], .nil p, (List.append_nil _).symm⟩
    | cons q qs ih =>
      intro p v hv
      obtain ⟨es, p', h1, h2, h3⟩ := hv.step wf hnd hne htot hJ hfl q
      obtain ⟨es', h4, h5⟩ := ih p' _ h3
      exact ⟨es ++ es', .cons h1 h4, by simp only [runAll]; rw [h5, h2, List.append_assoc]⟩
  exact key qs _ w ⟨⟨hbs, Base.refl hfl hmk⟩, rfl, rfl⟩

/-! ### Derivative callbacks are run annotated -/

/-- A `derivative_cb_post` that does a recorded operation. -/
def recordingPost (b : Block R T R) : Callbacks σ R T := { Callbacks.default with derivativePost := fun _ ds _ => (recordOp b).bind fun _ w => (.ok ds, w) }

/-- **C67 fails for derivative callbacks**: `ReducedFunctional.derivative` has no `no_annotations`, so that whatever operation a derivative callback
does is added to the tape, by every call of `derivative`; the same callback in `eval_cb_post` or `hessian_cb_post` adds nothing
(`evaluation_records_nothing_partial`). -/
theorem derivative_callback_records [Add T] [Add R] [Zero R] [Mul R] (rf : RF R) (hne : rf.enlisted.items ≠ []) (b : Block R T R) (w : World σ R T)
    (hen : w.enabled = true) (seeds : List R) :
    (runAll rf (recordingPost b) (seeds.map .derivative) w).2.blocks = w.blocks ++ List.replicate seeds.length b := by
  have he : rf.enlisted.items.isEmpty = false := by simpa using hne
  have one : ∀ (w : World σ R T) (a : R), w.enabled = true → (derivativeFn rf (recordingPost b) a w).2.blocks = w.blocks ++ [b] ∧
      (derivativeFn rf (recordingPost b) a w).2.enabled = true := by
    intro w a hen
    unfold derivativeFn recordingPost Fn.bind recordOp
    simp only [Callbacks.default, he, hen]
    cases finishDerivative rf.enlisted (computeGradient w.blocks rf.J rf.enlisted.items (a * rf.scale) w.heap).1 <;> exact ⟨rfl, rfl⟩
  induction seeds generalizing w with
  | nil => simp [runAll]
  | cons a seeds ih =>
    obtain ⟨h1, h2⟩ := one w a hen
    simp only [List.map_cons, runAll, Request.run, Fn.answer_world]
    rw [ih _ h2, h1, List.append_assoc, List.length_cons, List.replicate_succ]
    rfl

/-! ### Examples -/

/-- `rf = ReducedFunctional(J, Control(x), scale=10)` on `J = (x³)³`. -/
def cubeRF : RF ℝ := ⟨2, .single 0, none, 10⟩

theorem cube_total : ∀ b ∈ cubeTape, ∀ inputs i, inputs.length = b.deps.length → i < b.outs.length → (b.recomputeC inputs i).isSome := by
  intro b hb inputs i hl hi
  obtain ⟨d, o, rfl, -⟩ := cubeTape_dep b hb
  match inputs, hl with
  | [x], _ => rfl

def cubeWorld (s : σ) : World σ ℝ ℝ := ⟨cubeHeap, cubeTape, true, s⟩

/-- Callbacks that differentiate the reduced functional, count, and then raise. -/
def nosy : Callbacks Nat ℝ ℝ where
  evalPre _ := (derivativeFn cubeRF .default 3).bind fun _ w => (.error (.user 1), { w with user := w.user + 1 })
  evalPost _ _ := (hessianFn cubeRF .default (.single 2)).bind fun _ w => (.error (.user 2), w)
  derivativePre _ := (callFn cubeRF .default (.single 7)).bind fun _ w => (.ok [0], w)
  derivativePost _ _ _ w := (.error (.user 3), w)
  hessianPre _ w := (.ok (), w)
  hessianPost _ _ _ := (callFn cubeRF .default (.single 9)).bind fun _ w => (.error (.user 4), w)

theorem nosy_keeps (h₀ : Heap ℝ ℝ ℝ) : nosy.Keep (Intact cubeTape cubeRF.enlisted.items h₀) where
  evalPre _ := (derivativeFn_keeps _ cubeRF (default_keeps _) 3).bind fun _ _ h => h
  evalPost _ _ := (hessianFn_keeps _ cubeRF (default_keeps _) (.single 2)).bind fun _ _ h => h
  derivativePre _ := (callFn_keeps cubeTape_wf cubeRF (default_keeps _) (.single 7)).bind fun _ _ h => h
  derivativePost _ _ _ _ h := h
  hessianPre _ _ h := h
  hessianPost _ _ _ := (callFn_keeps cubeTape_wf cubeRF (default_keeps _) (.single 9)).bind fun _ _ h => h

/-- `callbacks_history_independent` applies to callbacks that evaluate, differentiate and raise. -/
example (qs : List (Request ℝ ℝ)) :
    (runAll cubeRF .default [.call (.single 2), .derivative 1, .hessian (.single 1)] (runAll cubeRF nosy qs (cubeWorld 0)).2).1 =
      (runAll cubeRF .default [.call (.single 2), .derivative 1, .hessian (.single 1)] (cubeWorld 0)).1 :=
  callbacks_history_independent cubeTape_wf cubeRF (by simp [cubeRF, RF.enlisted, Enlist.of]) (by simp [cubeRF, RF.enlisted, Enlist.of])
    (by
      intro c hc
      simp only [cubeRF, RF.enlisted, Enlist.of, List.mem_singleton] at hc
      subst hc
      exact ⟨cubeBlock 0 1, by simp [cubeTape], Or.inl (by simp [cubeBlock])⟩)
    cube_total nosy (cubeWorld 0) rfl (fun _ => rfl) (fun _ => rfl) (nosy_keeps _) qs (.single 2) rfl 1 (.single 1)

/-- Callbacks that evaluate the reduced functional elsewhere. -/
def elsewhere : Callbacks Nat ℝ ℝ := { nosy with
  evalPre := fun _ => (callFn cubeRF .default (.single 5)).bind fun _ w => (.ok (), w)
  evalPost := fun _ _ => (callFn cubeRF .default (.single 6)).bind fun _ w => (.ok (), w) }

theorem elsewhere_keeps (h₀ : Heap ℝ ℝ ℝ) : elsewhere.Keep (Intact cubeTape cubeRF.enlisted.items h₀) where
  evalPre _ := (callFn_keeps cubeTape_wf cubeRF (default_keeps _) (.single 5)).bind fun _ _ h => h
  evalPost _ _ := (callFn_keeps cubeTape_wf cubeRF (default_keeps _) (.single 6)).bind fun _ _ h => h
  derivativePre := (nosy_keeps h₀).derivativePre
  derivativePost := (nosy_keeps h₀).derivativePost
  hessianPre := (nosy_keeps h₀).hessianPre
  hessianPost := (nosy_keeps h₀).hessianPost

/-- They do not change the value returned, and there is one. -/
example (qs : List (Request ℝ ℝ)) (x y : ℝ) (h : (callFn cubeRF elsewhere (.single x) (runAll cubeRF elsewhere qs (cubeWorld 0)).2).1 = .ok y) :
    y = (x ^ 3) ^ 3 * 10 :=
  callbacks_cannot_change_value cubeTape_wf cubeRF (by simp [cubeRF, RF.enlisted, Enlist.of]) cube_total _ (cubeWorld 0) rfl (fun _ => rfl)
    (fun _ => rfl) (elsewhere_keeps _) qs (.single x) y h

example (x : ℝ) : (callFn cubeRF elsewhere (.single x) (cubeWorld 0)).1 = .ok ((x ^ 3) ^ 3 * 10) := rfl

/-- All of these callbacks but `hessian_cb_pre` raise or are followed by one that does. -/
example : (callFn cubeRF nosy (.single 2) (cubeWorld 0)).1 = .error (.user 1) ∧ (callFn cubeRF nosy (.single 2) (cubeWorld 0)).2.user = 1 ∧
    (derivativeFn cubeRF nosy 1 (cubeWorld 0)).1 = .error (.user 3) ∧ (hessianFn cubeRF nosy (.single 1) (cubeWorld 0)).1 = .error (.user 4) :=
  ⟨rfl, rfl, rfl, rfl⟩

/-- `callbacks_are_told` applies. -/
example (qs : List (Request ℝ ℝ)) : ∃ es, ToldAll cubeRF (fun xs => saved (rfEval cubeTape [0] xs cubeHeap) 2) ⟨[1], none⟩ qs
    (runAll cubeRF logging qs (cubeWorld [])).1 es ∧ (runAll cubeRF logging qs (cubeWorld [])).2.user = [] ++ es :=
  callbacks_are_told cubeTape_wf cubeRF (by simp [cubeRF, RF.enlisted, Enlist.of]) (by simp [cubeRF, RF.enlisted, Enlist.of]) cube_total
    (Or.inr ⟨cubeBlock 1 2, by simp [cubeTape], by simp [cubeBlock, cubeRF], by simp [cubeBlock, cubeRF, RF.enlisted, Enlist.of]⟩)
    (cubeWorld []) rfl (fun _ => rfl) (fun _ => rfl) qs

/-- The derivative callbacks are given `None` for the functional as long as nothing was evaluated, and then its value without the scale, here for
`scale=10`; the evaluation callback is given the value with the scale. -/
theorem derivative_callback_checkpoint :
    (runAll cubeRF (logging : Callbacks _ ℝ ℝ) [.derivative 1, .call (.single 2), .derivative 1] (cubeWorld [])).2.user =
      [.derivativePre [0], .derivativePost none [90] [1], .evalPre (.one 2), .evalPost (512 * 10) (.one 2), .derivativePre [0],
        .derivativePost (some 512) [23040] [2]] := by
  have h8 : ((2 : ℝ) ^ 3) ^ 3 = 512 := by norm_num
  have h1 : 3 * (1 : ℝ) ^ 2 * (3 * 1 ^ 2 * (1 * 10)) = 90 := by norm_num
  have h2 : 3 * (2 : ℝ) ^ 2 * (3 * (2 ^ 3) ^ 2 * (1 * 10)) = 23040 := by norm_num
  rw [← h8, ← h1, ← h2]
  rfl

/-- `logging` and the callbacks of `watching_changes_nothing`. -/
theorem logging_watches : Watches (logging : Callbacks _ R T) :=
  ⟨fun _ _ => ⟨_, rfl⟩, fun _ _ _ => ⟨_, rfl⟩, fun _ _ => ⟨_, rfl⟩, fun _ _ _ _ => ⟨_, rfl⟩, fun _ _ => ⟨_, rfl⟩, fun _ _ _ _ => ⟨_, rfl⟩⟩

/-- `watching_changes_nothing` applies, also with derivative components. -/
example (qs : List (Request ℝ ℝ)) : let rf := { cubeRF with components := some [0] }
    (runAll rf ((logging : Callbacks _ ℝ ℝ).init rf) qs (cubeWorld [])).1 = (runAll rf (Callbacks.default.init rf) qs (cubeWorld ())).1 :=
  (watching_changes_nothing logging_watches _ qs (cubeWorld [])).1

/-- A callback that turns annotation on and raises. -/
example : let cb : Callbacks Unit ℝ ℝ := { Callbacks.default with evalPre := fun _ w => (.error (.user 0), { w with enabled := true }) }
    (callFn cubeRF cb (.single 1) { cubeWorld () with enabled := false }).2.enabled = false :=
  (annotation_restored _ _ _).1 _

/-- Callbacks that do recorded operations meet the hypotheses of `evaluation_records_nothing_partial`; nothing is recorded. -/
example (b : Block ℝ ℝ ℝ) (x d : ℝ) :
    let cb : Callbacks Unit ℝ ℝ := { Callbacks.default with evalPre := fun _ => recordOp b, hessianPost := fun _ _ _ => recordOp b }
    (callFn cubeRF cb (.single x) (cubeWorld ())).2.blocks = cubeTape ∧ (hessianFn cubeRF cb (.single d) (cubeWorld ())).2.blocks = cubeTape := by
  intro cb
  have := evaluation_records_nothing_partial cubeRF cb (fun _ => recordOp_respects b) (fun _ _ _ h => ⟨rfl, h⟩) (fun _ _ h => ⟨rfl, h⟩)
    (fun _ _ _ => recordOp_respects b) (cubeWorld ())
  exact ⟨this.1 _, this.2 _⟩

/-- The same operation in `derivative_cb_post` is on the tape twice after two derivatives. -/
example (b : Block ℝ ℝ ℝ) : (runAll cubeRF (recordingPost b) [.derivative 1, .derivative 1] (cubeWorld ())).2.blocks = cubeTape ++ [b, b] :=
  derivative_callback_records cubeRF (by simp [cubeRF, RF.enlisted, Enlist.of]) b (cubeWorld ()) rfl [1, 1]

end Cb
end Pyadjoint
