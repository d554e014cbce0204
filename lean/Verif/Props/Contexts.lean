import Verif.Spec.Scoping

/-! # C13, C14, C38: annotation, working tape and detached variables -/

namespace Pyadjoint
namespace Ctx

variable {V : Type*}

/-! ### What a statement leaves alone -/

theorem foldl_detach (vs : List Nat) (w : World V) :
    ∃ r, vs.foldl World.detach w = { w with ref := r } ∧ ∀ v, r v = if v ∈ vs then none else w.ref v := by
  induction vs generalizing w with
  | nil => exact ⟨w.ref, rfl, fun v => by simp⟩
  | cons a vs ih =>
    obtain ⟨r, e, h⟩ := ih (w.detach a)
    refine ⟨r, by rw [List.foldl_cons, e]; rfl, fun v => ?_⟩
    rw [h]
    unfold World.detach
    by_cases hv : v = a
    · subst hv; simp
    · simp [hv]

theorem exit_eq (w : World V) (c : Nat) : ∃ r, w.exit c =
    { w with enabled := (w.stacks c).headD w.enabled, stacks := Function.update w.stacks c (w.stacks c).tail, ref := r } ∧
    ∀ v, r v = if ∃ vs, w.mods c = some vs ∧ v ∈ vs then none else w.ref v := by
  unfold World.exit
  dsimp only
  cases hm : w.mods c with
  | none => exact ⟨w.ref, rfl, fun v => by simp⟩
  | some vs =>
    obtain ⟨r, e, h⟩ := foldl_detach vs { w with
      enabled := (w.stacks c).headD w.enabled, stacks := Function.update w.stacks c (w.stacks c).tail }
    refine ⟨r, e, fun v => ?_⟩
    rw [h]
    simp

/-- Parts of the state that recording does not touch. -/
def SameCtl (w w' : World V) : Prop :=
  w'.enabled = w.enabled ∧ w'.stacks = w.stacks ∧ w'.mods = w.mods ∧ w'.tape = w.tape ∧ w'.nextTape = w.nextTape ∧
    w'.old = w.old ∧ w'.log = w.log

theorem SameCtl.refl (w : World V) : SameCtl w w := ⟨rfl, rfl, rfl, rfl, rfl, rfl, rfl⟩

theorem SameCtl.trans {w w' w'' : World V} (h : SameCtl w w') (h' : SameCtl w' w'') : SameCtl w w'' :=
  ⟨h'.1.trans h.1, h'.2.1.trans h.2.1, h'.2.2.1.trans h.2.2.1, h'.2.2.2.1.trans h.2.2.2.1,
    h'.2.2.2.2.1.trans h.2.2.2.2.1, h'.2.2.2.2.2.1.trans h.2.2.2.2.2.1, h'.2.2.2.2.2.2.trans h.2.2.2.2.2.2⟩

theorem addDep_ctl (w : World V) (v : Nat) : SameCtl w (w.addDep v).1 := by
  have h1 : SameCtl w (w.blockVar v).1 := by
    unfold World.blockVar
    split <;> exact ⟨rfl, rfl, rfl, rfl, rfl, rfl, rfl⟩
  refine h1.trans ?_
  unfold World.addDep
  dsimp only
  split <;> exact ⟨rfl, rfl, rfl, rfl, rfl, rfl, rfl⟩

theorem addDeps_ctl (vs : List Nat) (w : World V) : SameCtl w (w.addDeps vs).1 := by
  induction vs generalizing w with
  | nil => exact .refl w
  | cons v vs ih => exact (addDep_ctl w v).trans (ih _)

theorem operate_ctl (w : World V) (vs : List Nat) (o : Nat) (x : V) : SameCtl w (w.operate vs o x) := by
  unfold World.operate
  split
  · exact (addDeps_ctl vs w).trans ⟨rfl, rfl, rfl, rfl, rfl, rfl, rfl⟩
  · exact ⟨rfl, rfl, rfl, rfl, rfl, rfl, rfl⟩

theorem chooseTape_eq (w : World V) (t : Option Nat) : ∃ n, (w.chooseTape t).1 = { w with nextTape := n } := by
  cases t with
  | some t => exact ⟨w.nextTape, rfl⟩
  | none => exact ⟨w.nextTape + 1, rfl⟩

theorem install_eq (w : World V) (t : Option Nat) :
    (w.install t).2 = w.tape ∧ ∃ n m, (w.install t).1 = { w with nextTape := n, tape := m } := by
  obtain ⟨n, e⟩ := chooseTape_eq w t
  refine ⟨rfl, n, (w.chooseTape t).2, ?_⟩
  show ({ (w.chooseTape t).1 with tape := (w.chooseTape t).2 } : World V) = _
  rw [e]

/-- The stacks of the context managers, and their arguments, after any program are what they were before. -/
theorem run_stacks (p : Stmt V) (w : World V) : (run p w).1.stacks = w.stacks ∧ (run p w).1.mods = w.mods := by
  induction p generalizing w with
  | skip | pause | cont | raise | observe => exact ⟨rfl, rfl⟩
  | assign => exact ⟨rfl, rfl⟩
  | op vs o x => exact ⟨(operate_ctl w vs o x).2.1, (operate_ctl w vs o x).2.2.1⟩
  | seq p q ihp ihq =>
    unfold run
    dsimp only
    obtain ⟨a1, a2⟩ := ihp w
    split
    · exact ⟨a1, a2⟩
    · obtain ⟨b1, b2⟩ := ihq (run p w).1
      exact ⟨b1.trans a1, b2.trans a2⟩
  | attempt p q ihp ihq =>
    unfold run
    dsimp only
    obtain ⟨a1, a2⟩ := ihp w
    split
    · obtain ⟨b1, b2⟩ := ihq (run p w).1
      exact ⟨b1.trans a1, b2.trans a2⟩
    · exact ⟨a1, a2⟩
  | stopping c p ih =>
    unfold run
    dsimp only
    split
    · exact ⟨rfl, rfl⟩
    · obtain ⟨a1, a2⟩ := ih (w.enter c)
      obtain ⟨r, e, -⟩ := exit_eq (run p (w.enter c)).1 c
      rw [e]
      refine ⟨?_, a2⟩
      show Function.update (run p (w.enter c)).1.stacks c ((run p (w.enter c)).1.stacks c).tail = w.stacks
      rw [a1]
      unfold World.enter
      funext c'
      by_cases hc : c' = c
      · subst hc; simp
      · simp [hc]
  | withTape t p ih =>
    unfold run
    dsimp only
    obtain ⟨-, n, m, e⟩ := install_eq w t
    obtain ⟨a1, a2⟩ := ih (w.install t).1
    rw [e] at a1 a2
    rw [e]
    exact ⟨a1, a2⟩
  | setTape t =>
    obtain ⟨-, n, m, e⟩ := install_eq w t
    unfold run
    rw [e]
    exact ⟨rfl, rfl⟩
  | decorate d t =>
    obtain ⟨-, n, m, e⟩ := install_eq w t
    unfold run
    dsimp only
    rw [e]
    exact ⟨rfl, rfl⟩
  | callDecorated d p ih =>
    unfold run
    exact ih w

/-! ## C13 -/

/-- **C13**: whatever happens inside a `stop_annotating` context (or a function decorated with it), `pause_annotation`
and `continue_annotation` calls, nested contexts of the same or of other objects, exceptions, the annotation flag is
afterwards what it was before. -/
theorem stop_annotating_restores (c : Nat) (p : Stmt V) (w : World V) :
    (run (.stopping c p) w).1.enabled = w.enabled := by
  unfold run
  dsimp only
  split
  · rfl
  · obtain ⟨r, e, -⟩ := exit_eq (run p (w.enter c)).1 c
    rw [e]
    show (((run p (w.enter c)).1.stacks c).headD _) = _
    rw [(run_stacks p (w.enter c)).1]
    simp [World.enter]

/-- The program does not call `continue_annotation()`. -/
def NeverContinues : Stmt V → Prop
  | .cont => False
  | .seq p q | .attempt p q => NeverContinues p ∧ NeverContinues q
  | .stopping _ p | .withTape _ p | .callDecorated _ p => NeverContinues p
  | _ => True

theorem run_off (p : Stmt V) (hp : NeverContinues p) (w : World V) (hw : w.enabled = false) :
    (run p w).1.enabled = false ∧ (run p w).1.entries = w.entries ∧
      ∃ l, (run p w).1.log = w.log ++ l ∧ ∀ e ∈ l, e.1 = false := by
  induction p generalizing w with
  | skip | raise => exact ⟨hw, rfl, [], by simp [run], by simp⟩
  | pause => exact ⟨rfl, rfl, [], by simp [run], by simp⟩
  | cont => exact hp.elim
  | observe => exact ⟨hw, rfl, [(w.enabled, w.tape)], rfl, by simp [hw]⟩
  | assign => exact ⟨hw, rfl, [], by simp [run], by simp⟩
  | op vs o x =>
    have e : w.operate vs o x = { w with vals := Function.update w.vals o x } := by simp [World.operate, hw]
    refine ⟨?_, ?_, [], ?_, by simp⟩ <;> simp only [run, e, List.append_nil] <;> exact hw
  | seq p q ihp ihq =>
    obtain ⟨a1, a2, l, a3, a4⟩ := ihp hp.1 w hw
    unfold run
    dsimp only
    split
    · exact ⟨a1, a2, l, a3, a4⟩
    · obtain ⟨b1, b2, l', b3, b4⟩ := ihq hp.2 _ a1
      refine ⟨b1, b2.trans a2, l ++ l', by rw [b3, a3, List.append_assoc], fun e he => ?_⟩
      rcases List.mem_append.1 he with he | he
      exacts [a4 e he, b4 e he]
  | attempt p q ihp ihq =>
    obtain ⟨a1, a2, l, a3, a4⟩ := ihp hp.1 w hw
    unfold run
    dsimp only
    split
    · obtain ⟨b1, b2, l', b3, b4⟩ := ihq hp.2 _ a1
      refine ⟨b1, b2.trans a2, l ++ l', by rw [b3, a3, List.append_assoc], fun e he => ?_⟩
      rcases List.mem_append.1 he with he | he
      exacts [a4 e he, b4 e he]
    · exact ⟨a1, a2, l, a3, a4⟩
  | stopping c p ih =>
    unfold run
    dsimp only
    split
    · exact ⟨hw, rfl, [], by simp, by simp⟩
    · obtain ⟨a1, a2, l, a3, a4⟩ := ih hp (w.enter c) rfl
      obtain ⟨r, e, -⟩ := exit_eq (run p (w.enter c)).1 c
      rw [e]
      refine ⟨?_, a2, l, a3, a4⟩
      show ((run p (w.enter c)).1.stacks c).headD _ = false
      rw [(run_stacks p (w.enter c)).1]
      simp [World.enter, hw]
  | withTape t p ih =>
    obtain ⟨-, n, m, e⟩ := install_eq w t
    obtain ⟨a1, a2, l, a3, a4⟩ := ih hp (w.install t).1 (by rw [e]; exact hw)
    unfold run
    dsimp only
    rw [e] at a1 a2 a3
    rw [e]
    exact ⟨a1, a2, l, a3, a4⟩
  | setTape t =>
    obtain ⟨-, n, m, e⟩ := install_eq w t
    unfold run
    rw [e]
    exact ⟨hw, rfl, [], by simp, by simp⟩
  | decorate d t =>
    obtain ⟨-, n, m, e⟩ := install_eq w t
    unfold run
    dsimp only
    rw [e]
    exact ⟨hw, rfl, [], by simp, by simp⟩
  | callDecorated d p ih => exact ih hp w hw

/-- **C13**, what the context is for: whatever program without `continue_annotation()` runs inside a `stop_annotating` context or a
function decorated with it, with nested contexts, other working tapes and exceptions, nothing is recorded on any tape, and
`annotate_tape()` is false wherever it looks. -/
theorem stop_annotating_records_nothing (c : Nat) (p : Stmt V) (hp : NeverContinues p) (w : World V) :
    (run (.stopping c p) w).1.entries = w.entries ∧
      ∃ l, (run (.stopping c p) w).1.log = w.log ++ l ∧ ∀ e ∈ l, e.1 = false := by
  unfold run
  dsimp only
  split
  · exact ⟨rfl, [], by simp, by simp⟩
  · obtain ⟨-, a2, l, a3, a4⟩ := run_off p hp (w.enter c) rfl
    obtain ⟨r, e, -⟩ := exit_eq (run p (w.enter c)).1 c
    rw [e]
    exact ⟨a2, l, a3, a4⟩

/-- Non-vacuity: operations on two tapes inside, and one afterwards, which is recorded. -/
example : NeverContinues (V := Int) (.seq (.op [0] 1 2) (.withTape (some 3) (.stopping 0 (.seq .pause (.op [1] 2 3))))) ∧
    (run (.seq (.stopping 0 (.seq (.op [0] 1 2) (.withTape (some 3) (.stopping 0 (.seq .pause (.op [1] 2 3)))))) (.op [0] 1 2))
      ({ vals := fun _ => (0 : Int) } : World Int)).1.entries 0 = [⟨[0], 1⟩] :=
  ⟨⟨trivial, trivial, trivial⟩, rfl⟩

/-- Non-vacuity: a recursive function decorated with the shared object `no_annotations` (object 0) that turns
annotation on again inside and ends with an exception. -/
example : (run (.stopping 0 (.seq .cont (.stopping 0 (.seq .cont .raise)))) ({ vals := fun _ => (0 : Int) } : World Int)).1.enabled
    = true := stop_annotating_restores _ _ _

/-! ## C81 -/

/-- A sequence of calls of `pause_annotation()` (`false`) and `continue_annotation()` (`true`). -/
def switches : List Bool → Stmt V
  | [] => .skip
  | b :: l => .seq (if b then .cont else .pause) (switches l)

/-- What the documentation says (`docs/source/documentation/pyadjoint_docs.rst:364-365`): pauses are counted, and every one of
them has to be undone before annotation is on again. -/
def counted : List Bool → Nat → Nat
  | [], n => n
  | false :: l, n => counted l (n + 1)
  | true :: l, n => counted l (n - 1)

/-- **C81** (partial): the calls switch; the last one decides, and without a call annotation stays as it was. -/
theorem switches_last_decides_partial (l : List Bool) (w : World V) :
    (run (switches l) w).1.enabled = l.getLastD w.enabled ∧ (run (switches l) w).2 = false := by
  induction l generalizing w with
  | nil => exact ⟨rfl, rfl⟩
  | cons b l ih =>
    have : run (switches (b :: l)) w = run (switches l) { w with enabled := b } := by
      cases b <;> simp [switches, run]
    rw [this]
    refine ⟨(ih _).1.trans ?_, (ih _).2⟩
    cases l <;> rfl

/-- **C81 is false**: however often annotation was paused, a single `continue_annotation()` switches it on, although the
documentation counts the pauses. -/
theorem pauses_are_not_counted (n : Nat) (w : World V) :
    (run (switches (List.replicate n false ++ [true])) w).1.enabled = true ∧
    (2 ≤ n → 0 < counted (List.replicate n false ++ [true]) 0) := by
  constructor
  · rw [(switches_last_decides_partial _ w).1]
    simp [List.getLastD_eq_getLast?]
  · have : ∀ n m, counted (List.replicate n false ++ [true]) m = n + m - 1 := by
      intro n
      induction n with
      | zero => intro m; simp [counted]
      | succ n ih => intro m; simp only [List.replicate_succ, List.cons_append, counted, ih]; omega
    intro hn
    rw [this]
    omega

example : (run (switches [false, false, true]) ({ vals := fun _ => (0 : Int) } : World Int)).1.enabled = true ∧
    counted [false, false, true] 0 = 1 := ⟨rfl, rfl⟩

/-! ## C14 -/

/-- **C14** (partial: as context manager): after a `with set_working_tape(t)` block the working tape is what it was
before, however the block is left and whatever it does. -/
theorem set_working_tape_restores_partial (t : Option Nat) (p : Stmt V) (w : World V) :
    (run (.withTape t p) w).1.tape = w.tape := by
  unfold run
  dsimp only
  exact (install_eq w t).1

/-- **C13 and C14**, all together: every program that does not use `set_working_tape` as a decorator sees at every
point the annotation flag and the working tape that the lexical nesting of the contexts prescribes, and ends with
them. -/
theorem contexts_scoped (args : Nat → Option Nat) (p : Stmt V) (hp : Undecorated p) (w : World V) (e : Env) (a : Nat → Nat)
    (h1 : e.flag = w.enabled) (h2 : e.tape = w.tape) (h3 : e.tapes = w.nextTape) (h4 : e.log = w.log)
    (ha : ∀ c, a c = (w.stacks c).length) :
    let r := run p w
    let d := denote w.mods args p a e
    d.2 = r.2 ∧ d.1.flag = r.1.enabled ∧ d.1.tape = r.1.tape ∧ d.1.tapes = r.1.nextTape ∧ d.1.log = r.1.log := by
  have key : ∀ (p : Stmt V), Undecorated p → ∀ (w : World V) (a : Nat → Nat), (∀ c, a c = (w.stacks c).length) →
      denote w.mods args p a ⟨w.enabled, w.tape, w.nextTape, w.log⟩ =
        (⟨(run p w).1.enabled, (run p w).1.tape, (run p w).1.nextTape, (run p w).1.log⟩, (run p w).2) := by
    intro p
    induction p with
    | skip | pause | cont | raise | observe => intro _ w a _; rfl
    | assign => intro _ w a _; rfl
    | op vs o x =>
      intro _ w a _
      obtain ⟨e1, -, -, e4, e5, -, e7⟩ := operate_ctl w vs o x
      simp only [denote, run, e1, e4, e5, e7]
    | seq p q ihp ihq =>
      intro hp w a ha
      unfold denote run
      dsimp only
      rw [ihp hp.1 w a ha]
      dsimp only
      split
      · rfl
      · have := ihq hp.2 (run p w).1 a (by rw [(run_stacks p w).1]; exact ha)
        rw [(run_stacks p w).2] at this
        rw [this]
    | attempt p q ihp ihq =>
      intro hp w a ha
      unfold denote run
      dsimp only
      rw [ihp hp.1 w a ha]
      dsimp only
      split
      · have := ihq hp.2 (run p w).1 a (by rw [(run_stacks p w).1]; exact ha)
        rw [(run_stacks p w).2] at this
        rw [this]
      · rfl
    | stopping c p ih =>
      intro hp w a ha
      unfold denote run
      have hr : (namesSome (w.mods c) && decide (0 < a c)) = w.refuses c := by
        unfold World.refuses
        rw [ha]
        cases w.mods c with
        | none => rfl
        | some vs =>
          cases vs with
          | nil => rfl
          | cons v vs =>
            cases w.stacks c <;> simp [namesSome]
      rw [hr]
      split
      · rfl
      · have := ih hp (w.enter c) (fun c' => if c' = c then a c + 1 else a c') (by
          intro c'
          unfold World.enter
          by_cases hc : c' = c
          · subst hc; simp [ha]
          · simp [hc, ha])
        have e0 : (⟨(w.enter c).enabled, (w.enter c).tape, (w.enter c).nextTape, (w.enter c).log⟩ : Env) =
            { flag := false, tape := w.tape, tapes := w.nextTape, log := w.log } := rfl
        rw [e0] at this
        have em : (w.enter c).mods = w.mods := rfl
        rw [em] at this
        dsimp only
        rw [this]
        obtain ⟨r, e, -⟩ := exit_eq (run p (w.enter c)).1 c
        rw [e]
        dsimp only
        have hs : ((run p (w.enter c)).1.stacks c) = w.enabled :: w.stacks c := by
          rw [(run_stacks p (w.enter c)).1]
          simp [World.enter]
        rw [hs]
        rfl
    | withTape t p ih =>
      intro hp w a ha
      unfold denote run
      cases t with
      | some t =>
        have := ih hp { w with tape := t } a ha
        dsimp only [Env.choose, World.install, World.chooseTape]
        rw [this]
      | none =>
        have := ih hp { w with nextTape := w.nextTape + 1, tape := w.nextTape } a ha
        dsimp only [Env.choose, World.install, World.chooseTape]
        rw [this]
    | setTape t =>
      intro _ w a _
      cases t <;> rfl
    | decorate d t => exact fun h => h.elim
    | callDecorated d p _ => exact fun h => h.elim
  intro r d
  have := key p hp w a ha
  have he : e = ⟨w.enabled, w.tape, w.nextTape, w.log⟩ := by
    cases e
    cases h1; cases h2; cases h3; cases h4
    rfl
  show (denote w.mods args p a e).2 = _ ∧ _
  simp only [d, r, he, this]
  simp

/-- Non-vacuity: a program that looks inside and outside of nested contexts, one of them left by an exception. -/
example : (run (.seq (.attempt (.withTape (some 7) (.seq .observe (.withTape none (.stopping 0 (.seq .observe .raise))))) .skip)
    .observe) ({ vals := fun _ => (0 : Int) } : World Int)).1.log = [(true, 7), (false, 1), (true, 0)] := rfl

/-- **C14 fails for decorated functions** (`tape.py:75-91`): the tape is created and installed when the function is
*defined*, so that definition alone changes the working tape; and the second call runs on the tape that is current
outside. -/
theorem set_working_tape_decorator_leaks :
    ∃ (w : World Int) (p q : Stmt Int),
      p = .decorate 0 none ∧ (run p w).1.tape ≠ w.tape ∧
      q = .seq (.decorate 0 (some 7)) (.seq (.callDecorated 0 .observe) (.callDecorated 0 .observe)) ∧
      (run q w).1.log = [(true, 7), (true, w.tape)] ∧
      (denote w.mods (fun _ => some 7) q (fun _ => 0) ⟨w.enabled, w.tape, w.nextTape, w.log⟩).1.log =
        [(true, 7), (true, 7)] :=
  ⟨{ vals := fun _ => 0 }, _, _, rfl, by decide, rfl, by decide, by decide⟩

/-! ## C38 -/

/-- Block variables are numbered in the order of creation; dependencies on tapes have stored values. -/
structure Inv (w : World V) : Prop where
  ref : ∀ v b, w.ref v = some b → b < w.next
  deps : ∀ t, ∀ e ∈ w.entries t, ∀ b ∈ e.deps, b < w.next ∧ w.ckpt b ≠ none
  out : ∀ t, ∀ e ∈ w.entries t, e.out < w.next

/-- What stays: the entries made so far, and the stored values of existing block variables. -/
structure Keeps (w w' : World V) : Prop where
  next : w.next ≤ w'.next
  ckpt : ∀ b, b < w.next → w.ckpt b ≠ none → w'.ckpt b = w.ckpt b
  entries : ∀ t, ∃ l, w'.entries t = w.entries t ++ l

theorem Keeps.refl (w : World V) : Keeps w w := ⟨Nat.le_refl _, fun _ _ _ => rfl, fun _ => ⟨[], by simp⟩⟩

theorem Keeps.trans {w w' w'' : World V} (h : Keeps w w') (h' : Keeps w' w'') : Keeps w w'' := by
  refine ⟨Nat.le_trans h.next h'.next, fun b hb hc => ?_, fun t => ?_⟩
  · have h1 := h.ckpt b hb hc
    rw [h'.ckpt b (Nat.lt_of_lt_of_le hb h.next) (by rw [h1]; exact hc), h1]
  · obtain ⟨l, e⟩ := h.entries t
    obtain ⟨l', e'⟩ := h'.entries t
    exact ⟨l ++ l', by rw [e', e, List.append_assoc]⟩

/-- A change that only concerns flags, tapes, values and detached references. -/
theorem soft_change {w w' : World V} (hn : w'.next = w.next) (hc : w'.ckpt = w.ckpt) (he : w'.entries = w.entries)
    (hr : ∀ v b, w'.ref v = some b → w.ref v = some b) (h : Inv w) : Inv w' ∧ Keeps w w' := by
  refine ⟨⟨fun v b hb => ?_, fun t e hm b hb => ?_, fun t e hm => ?_⟩, ?_, fun b _ _ => ?_, fun t => ⟨[], ?_⟩⟩
  · rw [hn]; exact h.ref v b (hr v b hb)
  · rw [hn, hc]; rw [he] at hm; exact h.deps t e hm b hb
  · rw [hn]; rw [he] at hm; exact h.out t e hm
  · rw [hn]; exact Nat.le_refl _
  · rw [hc]
  · rw [he]; simp

theorem addDep_inv (w : World V) (v : Nat) (h : Inv w) :
    Inv (w.addDep v).1 ∧ Keeps w (w.addDep v).1 ∧ (w.addDep v).2 < (w.addDep v).1.next ∧
    (w.addDep v).1.ckpt (w.addDep v).2 ≠ none ∧ (w.addDep v).1.entries = w.entries := by
  have h1 : Inv (w.blockVar v).1 ∧ Keeps w (w.blockVar v).1 ∧ (w.blockVar v).2 < (w.blockVar v).1.next ∧
      (w.blockVar v).1.entries = w.entries := by
    unfold World.blockVar
    cases hr : w.ref v with
    | some b => exact ⟨h, .refl w, h.ref v b hr, rfl⟩
    | none =>
      refine ⟨⟨fun v' b hb => ?_, fun t e hm b hb => ?_, fun t e hm => ?_⟩, ⟨?_, fun b hb _ => ?_, fun t => ⟨[], ?_⟩⟩, ?_, rfl⟩
      · dsimp only at hb ⊢
        by_cases hv : v' = v
        · subst hv
          rw [Function.update_self] at hb
          cases hb
          omega
        · rw [Function.update_of_ne hv] at hb
          have := h.ref v' b hb
          omega
      · dsimp only at hm ⊢
        obtain ⟨d1, d2⟩ := h.deps t e hm b hb
        rw [Function.update_of_ne (show b ≠ w.next by omega)]
        exact ⟨by omega, d2⟩
      · have := h.out t e hm
        dsimp only
        omega
      · dsimp only; omega
      · dsimp only
        rw [Function.update_of_ne (show b ≠ w.next by omega)]
      · simp
      · dsimp only; omega
  obtain ⟨i1, k1, l1, e1⟩ := h1
  unfold World.addDep
  dsimp only
  generalize hw : (w.blockVar v).1 = w₁ at *
  generalize hb : (w.blockVar v).2 = b at *
  cases hc : w₁.ckpt b with
  | some y => exact ⟨i1, k1, l1, by rw [hc]; simp, e1⟩
  | none =>
    refine ⟨⟨i1.ref, fun t e hm b' hb' => ?_, i1.out⟩, k1.trans ⟨Nat.le_refl _, fun b' _ hb' => ?_, fun t => ⟨[], by simp⟩⟩, l1,
      by simp, e1⟩
    · obtain ⟨d1, d2⟩ := i1.deps t e hm b' hb'
      refine ⟨d1, ?_⟩
      dsimp only
      rw [Function.update_of_ne (show b' ≠ b from fun hh => d2 (by rw [hh, hc]))]
      exact d2
    · dsimp only
      rw [Function.update_of_ne (show b' ≠ b from fun hh => hb' (by rw [hh, hc]))]

theorem addDeps_inv (vs : List Nat) (w : World V) (h : Inv w) :
    Inv (w.addDeps vs).1 ∧ Keeps w (w.addDeps vs).1 ∧
    (∀ b ∈ (w.addDeps vs).2, b < (w.addDeps vs).1.next ∧ (w.addDeps vs).1.ckpt b ≠ none) ∧
    (w.addDeps vs).1.entries = w.entries := by
  induction vs generalizing w with
  | nil => exact ⟨h, .refl w, fun _ hb => absurd hb List.not_mem_nil, rfl⟩
  | cons v vs ih =>
    obtain ⟨i1, k1, l1, c1, e1⟩ := addDep_inv w v h
    obtain ⟨i2, k2, l2, e2⟩ := ih _ i1
    refine ⟨i2, k1.trans k2, fun b hb => ?_, e2.trans e1⟩
    have hb' : b = (w.addDep v).2 ∨ b ∈ ((w.addDep v).1.addDeps vs).2 := List.mem_cons.1 hb
    rcases hb' with hb' | hb'
    · refine ⟨by rw [hb']; exact Nat.lt_of_lt_of_le l1 k2.next, ?_⟩
      have := k2.ckpt _ l1 c1
      rw [← hb'] at this c1
      show ((w.addDep v).1.addDeps vs).1.ckpt b ≠ none
      rw [this]
      exact c1
    · exact l2 b hb'

theorem operate_inv (w : World V) (vs : List Nat) (o : Nat) (x : V) (h : Inv w) :
    Inv (w.operate vs o x) ∧ Keeps w (w.operate vs o x) := by
  unfold World.operate
  split
  · obtain ⟨i1, k1, l1, e1⟩ := addDeps_inv vs w h
    dsimp only
    generalize (w.addDeps vs).1 = w₁ at *
    generalize (w.addDeps vs).2 = bs at *
    have hent : ∀ t e, e ∈ Function.update w₁.entries w₁.tape (w₁.entries w₁.tape ++ [⟨bs, w₁.next⟩]) t →
        e ∈ w₁.entries t ∨ e = ⟨bs, w₁.next⟩ := by
      intro t e hm
      by_cases ht : t = w₁.tape
      · subst ht
        rw [Function.update_self] at hm
        simpa using hm
      · rw [Function.update_of_ne ht] at hm
        exact Or.inl hm
    refine ⟨⟨fun v b hb => ?_, fun t e hm b hb => ?_, fun t e hm => ?_⟩, k1.trans ⟨?_, fun b hb _ => ?_, fun t => ?_⟩⟩
    · dsimp only at hb ⊢
      by_cases hv : v = o
      · subst hv
        rw [Function.update_self] at hb
        cases hb
        omega
      · rw [Function.update_of_ne hv] at hb
        have := i1.ref v b hb
        omega
    · dsimp only at hm ⊢
      have : b < w₁.next ∧ w₁.ckpt b ≠ none := by
        rcases hent t e hm with h1 | rfl
        · exact i1.deps t e h1 b hb
        · exact l1 b hb
      rw [Function.update_of_ne (show b ≠ w₁.next by omega)]
      exact ⟨by omega, this.2⟩
    · dsimp only at hm ⊢
      rcases hent t e hm with h1 | rfl
      · have := i1.out t e h1
        omega
      · exact Nat.lt_succ_self _
    · dsimp only; omega
    · dsimp only
      rw [Function.update_of_ne (show b ≠ w₁.next by omega)]
    · dsimp only
      by_cases ht : t = w₁.tape
      · subst ht
        exact ⟨_, Function.update_self ..⟩
      · rw [Function.update_of_ne ht]
        exact ⟨[], by simp⟩
  · exact soft_change rfl rfl rfl (fun _ _ h => h) h

theorem run_inv (p : Stmt V) (w : World V) (h : Inv w) : Inv (run p w).1 ∧ Keeps w (run p w).1 := by
  induction p generalizing w with
  | skip | pause | cont | raise | observe => exact soft_change rfl rfl rfl (fun _ _ h => h) h
  | assign => exact soft_change rfl rfl rfl (fun _ _ h => h) h
  | op vs o x => exact operate_inv w vs o x h
  | seq p q ihp ihq =>
    unfold run
    dsimp only
    obtain ⟨i1, k1⟩ := ihp w h
    split
    · exact ⟨i1, k1⟩
    · obtain ⟨i2, k2⟩ := ihq _ i1
      exact ⟨i2, k1.trans k2⟩
  | attempt p q ihp ihq =>
    unfold run
    dsimp only
    obtain ⟨i1, k1⟩ := ihp w h
    split
    · obtain ⟨i2, k2⟩ := ihq _ i1
      exact ⟨i2, k1.trans k2⟩
    · exact ⟨i1, k1⟩
  | stopping c p ih =>
    unfold run
    dsimp only
    split
    · exact ⟨h, .refl w⟩
    · obtain ⟨i0, k0⟩ := soft_change (w := w) (w' := w.enter c) rfl rfl rfl (fun _ _ h => h) h
      obtain ⟨i1, k1⟩ := ih _ i0
      obtain ⟨r, e, hr⟩ := exit_eq (run p (w.enter c)).1 c
      obtain ⟨i2, k2⟩ := soft_change (w' := (run p (w.enter c)).1.exit c) (by rw [e]) (by rw [e]) (by rw [e])
        (fun v b hb => by
          rw [e] at hb
          have hb' : r v = some b := hb
          rw [hr] at hb'
          split at hb'
          · cases hb'
          · exact hb') i1
      exact ⟨i2, (k0.trans k1).trans k2⟩
  | withTape t p ih =>
    unfold run
    dsimp only
    obtain ⟨-, n, m, e⟩ := install_eq w t
    obtain ⟨i0, k0⟩ := soft_change (w' := (w.install t).1) (by rw [e]) (by rw [e]) (by rw [e])
      (fun _ _ h => by rw [e] at h; exact h) h
    obtain ⟨i1, k1⟩ := ih _ i0
    obtain ⟨i2, k2⟩ := soft_change (w := (run p (w.install t).1).1) (w' := { (run p (w.install t).1).1 with tape := (w.install t).2 }) rfl rfl rfl
      (fun _ _ h => h) i1
    exact ⟨i2, (k0.trans k1).trans k2⟩
  | setTape t =>
    unfold run
    obtain ⟨-, n, m, e⟩ := install_eq w t
    exact soft_change (by rw [e]) (by rw [e]) (by rw [e]) (fun _ _ h => by rw [e] at h; exact h) h
  | decorate d t =>
    unfold run
    dsimp only
    obtain ⟨-, n, m, e⟩ := install_eq w t
    rw [e]
    exact soft_change rfl rfl rfl (fun _ _ h => h) h
  | callDecorated d p ih =>
    unfold run
    obtain ⟨i1, k1⟩ := ih w h
    obtain ⟨i2, k2⟩ := soft_change (w := (run p w).1) (w' := { (run p w).1 with tape := (run p w).1.old d }) rfl rfl rfl (fun _ _ h => h) i1
    exact ⟨i2, k1.trans k2⟩

/-- **C38**: let `p` be any program run inside `stop_annotating(modifies=vs)`.  Afterwards, left normally or by an
exception,
* each variable of `vs` has no block variable, and the one it gets when it is used next is on no tape and is saved
  with the value the variable has then;
* the other variables keep theirs;
* whatever happens, the dependencies recorded before keep the values they were recorded with. -/
theorem modifies_detaches (c : Nat) (vs : List Nat) (p : Stmt V) (w : World V) (h : Inv w)
    (hm : w.mods c = some vs) (hc : w.stacks c = []) :
    let w' := (run (.stopping c p) w).1
    (∀ v ∈ vs, w'.ref v = none ∧
      (∀ t, ∀ e ∈ w'.entries t, (w'.addDep v).2 ∉ e.deps ∧ (w'.addDep v).2 ≠ e.out) ∧
      (w'.addDep v).1.saved (w'.addDep v).2 = w'.vals v) ∧
    (∀ v, v ∉ vs → w'.ref v = (run p (w.enter c)).1.ref v) ∧
    (∀ t, ∀ e ∈ w.entries t, e ∈ w'.entries t ∧ ∀ b ∈ e.deps, w'.saved b = w.saved b) := by
  intro w'
  have hinv := run_inv (.stopping c p) w h
  have hw' : w' = (run p (w.enter c)).1.exit c := by
    show (if w.refuses c then (w, true) else ((run p (w.enter c)).1.exit c, (run p (w.enter c)).2)).1 = _
    rw [if_neg (by unfold World.refuses; rw [hm, hc]; simp)]
  obtain ⟨r, e, hr⟩ := exit_eq (run p (w.enter c)).1 c
  have hmods : (run p (w.enter c)).1.mods c = some vs := by
    rw [(run_stacks p (w.enter c)).2]
    exact hm
  have href : w'.ref = r := by rw [hw', e]
  refine ⟨fun v hv => ?_, fun v hv => ?_, fun t en hen => ?_⟩
  · have hn : w'.ref v = none := by
      rw [href, hr, if_pos ⟨vs, hmods, hv⟩]
    have hadd : (w'.addDep v).2 = w'.next ∧ (w'.addDep v).1.saved (w'.addDep v).2 = w'.vals v := by
      unfold World.addDep World.blockVar
      rw [hn]
      simp [World.saved]
    refine ⟨hn, fun t en hen => ?_, hadd.2⟩
    rw [hadd.1]
    refine ⟨fun hb => ?_, fun hb => ?_⟩
    · have := (hinv.1.deps t en hen _ hb).1
      exact absurd this (Nat.lt_irrefl _)
    · have := hinv.1.out t en hen
      rw [← hb] at this
      exact absurd this (Nat.lt_irrefl _)
  · rw [href, hr, if_neg]
    rintro ⟨vs', e1, e2⟩
    rw [hmods] at e1
    cases e1
    exact hv e2
  · obtain ⟨l, hl⟩ := hinv.2.entries t
    refine ⟨by show en ∈ (run (.stopping c p) w).1.entries t; rw [hl]; simp [hen], fun b hb => ?_⟩
    obtain ⟨d1, d2⟩ := h.deps t en hen b hb
    have := hinv.2.ckpt b d1 d2
    show (run (.stopping c p) w).1.saved b = _
    unfold World.saved
    rw [this]
    cases hk : w.ckpt b with
    | none => exact absurd hk d2
    | some y => rfl

/-- **C38**, continued: dependencies keep their recorded values through every later program. -/
theorem recorded_values_kept_partial (p : Stmt V) (w : World V) (h : Inv w) (t : Nat) (e : Entry) (he : e ∈ w.entries t) (b : Nat)
    (hb : b ∈ e.deps) : (run p w).1.saved b = w.saved b := by
  obtain ⟨d1, d2⟩ := h.deps t e he b hb
  have := (run_inv p w h).2.ckpt b d1 d2
  unfold World.saved
  rw [this]
  cases hk : w.ckpt b with
  | none => exact absurd hk d2
  | some y => rfl

/-- The state at the start satisfies the invariant. -/
theorem inv_start (vals : Nat → V) (mods : Nat → Option (List Nat)) : Inv ({ vals := vals, mods := mods } : World V) :=
  ⟨fun _ _ h => (by cases h), fun _ _ h => absurd h List.not_mem_nil, fun _ _ h => absurd h List.not_mem_nil⟩

/-- The example: `y = f(x)`; `x` is changed inside `stop_annotating(modifies=x)` or inside `stop_annotating()`;
`z = f(x)`. -/
def exModify (c : Nat) : Stmt Int :=
  .seq (.op [0] 1 10) (.seq (.stopping c (.assign 0 5)) (.op [0] 2 50))

/-- Two objects: `0` without and `1` with `modifies=[x]`. -/
def exWorld : World Int := { vals := fun _ => 1, mods := fun c => if c = 1 then some [0] else none }

/-- What the dependencies of the recorded blocks are saved with. -/
def savedDeps (w : World Int) : List (List Int) := (w.entries 0).map fun e => e.deps.map w.saved

/-- Non-vacuity, and the purpose of the argument: with it the second block is recorded with the new value, without it
with the old one. -/
example : savedDeps (run (exModify 1) exWorld).1 = [[1], [5]] ∧ savedDeps (run (exModify 0) exWorld).1 = [[1], [1]] := by
  decide

/-- **C38 fails for outputs**: the value of a variable that was recorded as an output and not used since is not stored
(`block_variable.py:73-83`), so that its entry changes when the variable is modified in the context. -/
theorem modified_output_changes :
    ∃ (w : World Int) (b : Nat), Inv w ∧ w.mods 1 = some [0] ∧ w.stacks 1 = [] ∧ (∃ e ∈ w.entries 0, e.out = b) ∧
      w.saved b = 3 ∧ (run (.stopping 1 (.assign 0 5)) w).1.saved b = 5 :=
  ⟨(run (.op [7] 0 3) exWorld).1, 1, (run_inv _ _ (inv_start _ _)).1, by decide, by decide, ⟨⟨[0], 1⟩, List.mem_singleton.2 rfl, rfl⟩,
    by decide, by decide⟩

end Ctx
end Pyadjoint
