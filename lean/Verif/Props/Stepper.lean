import Verif.Model.Stepper
import Verif.Props.Timestepper
import Verif.Props.CheckpointValue

/-!
# C16: `timestepper` as a Python iterator

With an iterator, or with a progress bar, the loop is the program written out with `end_timestep()` between the iterations
(`timestepper_unrolled_partial`), with and without checkpointing.  With a collection such as `range(10)`, as documented, and the default
progress bar the loop raises `TypeError` before its first iteration (`timestepper_collection_raises`).
-/

namespace Pyadjoint
namespace Stepper

variable {W X E V T A : Type*}

/-- The program written out: the iterations with `end_timestep()` before each but the first.  Operations recorded while an item is
produced come before the `end_timestep()`. -/
def writtenOut (endT : W → Except E W) (body : X → W → Except E W) : List (X × (W → W)) → W → Except E W
  | [], w => .ok w
  | (x, effect) :: rest, w => do
    let w ← body x (effect w)
    rest.foldlM (fun w p => do
      let w ← endT (p.2 w)
      body p.1 w) w

/-- The result of a loop over `xs`. -/
def result (xs : List X) : Except E W → Except (PyError E) (List X × W)
  | .error e => .error (.raised e)
  | .ok w => .ok (xs, w)

theorem forLoop_error {endT : W → Except E W} {body : X → W → Except E W} {s : TimeStepper W X} {w : W} {e : PyError E}
    (h : s.next endT w = .error e) : forLoop endT body s w = .error e := by
  rw [forLoop]
  split
  · rename_i h'; rw [h] at h'; cases h'
  · rename_i h'; rw [h] at h'; cases h'; rfl
  · rename_i h'; rw [h] at h'; cases h'

theorem forLoop_item {endT : W → Except E W} {body : X → W → Except E W} {s : TimeStepper W X} {w w' : W} {x : X}
    {rest : List (X × (W → W))} (h : s.next endT w = .item x rest w') :
    forLoop endT body s w = match body x w' with
      | .error e => .error (.raised e)
      | .ok w => match forLoop endT body { iterator := .iterator rest, first := false } w with
        | .error e => .error e
        | .ok (xs, w) => .ok (x :: xs, w) := by
  rw [forLoop]
  split
  · rename_i h'; rw [h] at h'; cases h'
  · rename_i h'; rw [h] at h'; cases h'
  · rename_i h'; rw [h] at h'; cases h'; rfl

theorem forLoop_later (endT : W → Except E W) (body : X → W → Except E W) (l : List (X × (W → W))) (w : W) :
    forLoop endT body { iterator := .iterator l, first := false } w =
      result (l.map (·.1)) (l.foldlM (fun w p => do
        let w ← endT (p.2 w)
        body p.1 w) w) := by
  induction l generalizing w with
  | nil => rw [forLoop]; rfl
  | cons p l ih =>
    obtain ⟨x, effect⟩ := p
    rw [List.foldlM_cons]
    cases he : endT (effect w) with
    | error e =>
      rw [forLoop_error (e := .raised e) (by simp [TimeStepper.next, he])]
      rfl
    | ok w₁ =>
      rw [forLoop_item (x := x) (rest := l) (w' := w₁) (by simp [TimeStepper.next, he])]
      cases hb : body x w₁ with
      | error e => simp [hb, result, bind, Except.bind]
      | ok w₂ =>
        simp only [hb, ih, bind, Except.bind, List.map_cons]
        generalize List.foldlM (m := Except E) _ w₂ l = r
        cases r <;> rfl

theorem forLoop_first (endT : W → Except E W) (body : X → W → Except E W) (l : List (X × (W → W))) (w : W) :
    forLoop endT body { iterator := .iterator l } w = result (l.map (·.1)) (writtenOut endT body l w) := by
  cases l with
  | nil => rw [forLoop]; rfl
  | cons p l =>
    obtain ⟨x, effect⟩ := p
    rw [forLoop_item (x := x) (rest := l) (w' := effect w) (by simp [TimeStepper.next])]
    unfold writtenOut
    cases hb : body x (effect w) with
    | error e => simp [hb, result, bind, Except.bind]
    | ok w₂ =>
      simp only [hb, forLoop_later, bind, Except.bind, List.map_cons]
      generalize List.foldlM (m := Except E) _ w₂ l = r
      cases r <;> rfl

/-- The items of an iterable with what producing them does. -/
def Items.list : Items W X → List (X × (W → W))
  | .iterator l => l
  | .collection l => l

/-- Whether `next` can be applied to the object. -/
def Items.isIterator : Items W X → Prop
  | .iterator _ => True
  | .collection _ => False

theorem isIterator_iterator (l : List (X × (W → W))) : (Items.iterator l).isIterator := trivial

/-- **C16** (partial: not for collections with the default progress bar, see `timestepper_collection_raises`).  For every iterator, and for
every iterable if a progress bar is set: the loop binds the items of the iterable, in order and each once, and does what the program written
out with `end_timestep()` between the iterations does, exceptions included. -/
theorem timestepper_unrolled_partial (endT : W → Except E W) (body : X → W → Except E W) (bar : Bar) (it : Items W X)
    (h : it.isIterator ∨ bar = .generator) (w : W) :
    forLoop endT body (timestepper bar it) w = result it.values (writtenOut endT body it.list w) := by
  have hi : bar.iter it = .iterator it.list := by
    cases it with
    | iterator l => cases bar <;> rfl
    | collection l =>
      rcases h with h | rfl
      · exact h.elim
      · rfl
  have hv : it.values = it.list.map (·.1) := by cases it <;> rfl
  unfold timestepper
  rw [hi, hv, forLoop_first]

/-- **C16 is false for the documented use.**  With the default progress bar every collection, even an empty one, makes the loop
raise `TypeError` before its body runs. -/
theorem timestepper_collection_raises (endT : W → Except E W) (body : X → W → Except E W) (l : List (X × (W → W))) (w : W) :
    forLoop endT body (timestepper .null (.collection l)) w = .error .typeError := by
  exact forLoop_error rfl

/-- The progress bar is not transparent: setting one makes a loop over a collection work that raises without. -/
theorem progress_bar_not_transparent (endT : W → Except E W) (l : List (X × (W → W))) (w : W) :
    forLoop endT (fun _ w => .ok w) (timestepper .null (.collection l)) w ≠
      forLoop endT (fun _ w => .ok w) (timestepper .generator (.collection l)) w := by
  rw [timestepper_collection_raises, timestepper_unrolled_partial _ _ _ _ (Or.inr rfl)]
  cases writtenOut endT (fun _ w => .ok w) (Items.collection l).list w <;> simp [result]

/-- For iterators the progress bar makes no difference. -/
theorem progress_bar_transparent (endT : W → Except E W) (body : X → W → Except E W) (bar : Bar) (it : Items W X)
    (h : it.isIterator) (w : W) :
    forLoop endT body (timestepper bar it) w = forLoop endT body (timestepper .null it) w := by
  rw [timestepper_unrolled_partial _ _ _ _ (Or.inl h), timestepper_unrolled_partial _ _ _ _ (Or.inl h)]

/-! ### On a tape with a checkpoint manager -/

open CTape

/-- The events of the program written out. -/
def loopEvents (f : X → List (Event V T A)) : List X → List (Event V T A)
  | [] => []
  | x :: xs => f x ++ xs.flatMap fun x => .endTimestep :: f x

theorem recording_append (es es' : List (Event V T A)) (τ : CTape V T A) :
    recording (es ++ es') τ = (do let τ ← recording es τ; recording es' τ) := by
  unfold recording
  rw [List.foldlM_append]

/-- **C16 with checkpointing.**  A loop over an iterator whose iterations record the events `f x` records exactly the program written out:
what is proved for recordings under a checkpoint schedule (`Recorded`) applies to programs that use `timestepper`. -/
theorem timestepper_recording (f : X → List (Event V T A)) (items : List X) (bar : Bar) (τ : CTape V T A) :
    forLoop endTimestep (fun x τ => recording (f x) τ) (timestepper bar (.iterator (items.map fun x => (x, id)))) τ =
      result items (recording (loopEvents f items) τ) := by
  rw [timestepper_unrolled_partial _ _ _ _ (Or.inl (isIterator_iterator _))]
  have hv : (Items.iterator (items.map fun x => (x, (id : CTape V T A → CTape V T A)))).values = items := by
    simp [Items.values, Function.comp_def]
  rw [hv]
  congr 1
  cases items with
  | nil => rfl
  | cons x xs =>
    show (do
      let w ← recording (f x) τ
      (xs.map fun x => (x, (id : CTape V T A → CTape V T A))).foldlM (fun w (p : X × (CTape V T A → CTape V T A)) => do
        let w ← endTimestep (p.2 w)
        recording (f p.1) w) w) = _
    unfold loopEvents
    rw [recording_append]
    congr 1
    funext w
    rw [List.foldlM_map]
    induction xs generalizing w with
    | nil => rfl
    | cons y ys ih =>
      rw [List.flatMap_cons, recording_append, List.foldlM_cons]
      have e : recording (.endTimestep :: f y) w = (do let w ← endTimestep w; recording (f y) w) := by
        unfold recording
        rw [List.foldlM_cons]
        rfl
      rw [e]
      simp only [id]
      congr 1
      funext w'
      exact ih (by simp [Items.values, Function.comp_def]) w'

/-- The loop of `tape.timestepper` over an iterator on a tape without manager is the one of `timestepper_on_any_tape`. -/
theorem timestepper_plain (t : Nat) (body : X → World V T A → World V T A) (items : List X) (bar : Bar) (w : World V T A) :
    forLoop (E := Empty) (fun w => .ok (w.endTimestep t)) (fun x w => .ok (body x w))
      (timestepper bar (.iterator (items.map fun x => (x, id)))) w = .ok (timestepLoop t body true w items).swap := by
  rw [timestepper_unrolled_partial _ _ _ _ (Or.inl (isIterator_iterator _))]
  have hv : (Items.iterator (items.map fun x => (x, (id : World V T A → World V T A)))).values = items := by
    simp [Items.values, Function.comp_def]
  rw [hv]
  cases items with
  | nil => rfl
  | cons x xs =>
    have key : ∀ (xs : List X) (w : World V T A),
        (xs.map fun x => (x, (id : World V T A → World V T A))).foldlM (m := Except Empty)
          (fun w p => do
            let w ← Except.ok ((p.2 w).endTimestep t)
            Except.ok (body p.1 w)) w = .ok (timestepLoop t body false w xs).1 := by
      intro xs
      induction xs with
      | nil => intro w; rfl
      | cons y ys ih =>
        intro w
        rw [List.map_cons, List.foldlM_cons]
        exact ih (body y (w.endTimestep t))
    show result (x :: xs) ((xs.map fun x => (x, (id : World V T A → World V T A))).foldlM (m := Except Empty)
      (fun w p => do
        let w ← Except.ok ((p.2 w).endTimestep t)
        Except.ok (body p.1 w)) (body x w)) = _
    rw [key]
    show Except.ok (x :: xs, (timestepLoop t body false (body x w) xs).1) = _
    have := timestepLoop_items t body true w (x :: xs)
    simp only [timestepLoop, if_true] at this ⊢
    rw [timestepLoop_items]
    rfl

/-- The documented loop `for timestep in tape.timestepper(range(10))` raises; over `iter(range(10))` it records ten steps. -/
example :
    forLoop (E := Empty) (fun w : List Nat => .ok (w ++ [0])) (fun x w => .ok (w ++ [x + 1]))
      (timestepper .null (.collection ((List.range 10).map fun x => (x, id)))) [] = .error .typeError ∧
    forLoop (E := Empty) (fun w : List Nat => .ok (w ++ [0])) (fun x w => .ok (w ++ [x + 1]))
      (timestepper .null (.iterator ((List.range 3).map fun x => (x, id)))) [] = .ok ([0, 1, 2], [1, 0, 2, 0, 3]) := by
  refine ⟨timestepper_collection_raises _ _ _ _, ?_⟩
  rw [timestepper_unrolled_partial _ _ _ _ (Or.inl (isIterator_iterator _))]
  rfl

/-- What a generator records while it produces an item belongs to the step before. -/
example :
    forLoop (E := Empty) (fun w : List Nat => .ok (w ++ [0])) (fun x w => .ok (w ++ [x]))
      (timestepper .null (.iterator [(1, fun w => w ++ [7]), (2, fun w => w ++ [8])])) [] = .ok ([1, 2], [7, 1, 8, 0, 2]) := by
  rw [timestepper_unrolled_partial _ _ _ _ (Or.inl (isIterator_iterator _))]
  rfl

end Stepper
end Pyadjoint
