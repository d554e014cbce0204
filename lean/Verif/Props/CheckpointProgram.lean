import Verif.Props.CheckpointExact
import Verif.Props.CheckpointGradient
import Verif.Props.CheckpointMisuse
import Verif.Props.ProgramGradient
import Verif.Props.Rerun

/-!
# Programs recorded under a checkpoint schedule

C25 and C26 with nothing but the user's program in the conclusions: a program of `AdjFloat` operations (with pauses of the annotation, controls and
garbage collection anywhere) is recorded on a tape with a checkpoint schedule, its operations divided into time steps in any way.  The value of the
reduced functional is the value of the program as written, and its derivative the derivative of that.
-/

namespace Pyadjoint

open Source

/-- Creations and operations, pauses of the annotation, controls, and garbage collection: everything but uses of reduced functionals. -/
def Instr.records : Instr → Bool
  | .const _ | .plain _ | .un _ _ | .bin _ _ _ | .pause | .cont | .control _ | .collect _ => true
  | _ => false

namespace CTape

/-- The program `p` was run on a tape with the checkpoint schedule `sch`: `es` are its annotated operations, in order, with ends of time steps
anywhere among them; `h` are the block variables before, with the objects that they will be made for; `Jv` and `cvs` are the block variables of
the object `J` and of the controls made of the objects `cs`; `τ₀` is the tape afterwards.  `A` is the source-level reading of the program. -/
structure RecordedProgram (p : List Instr) (A : State) (sch : Schedule) (J : Nat) (cs : List Nat) (h : FHeap) (es : List (Event ℝ ℝ ℝ))
    (τ₀ : CTape ℝ ℝ ℝ) (Jv : BV) (cvs : List BV) : Prop where
  records : ∀ ins ∈ p, ins.records = true
  source : State.run p {} = some A
  session : ∃ S S₁, Session.run p {} = some S ∧ S.functional J cs = some ((Jv, cvs), S₁) ∧ Event.blocks es = S.tape.blocks ∧
    ∀ v, (h v).output = (S₁.heap v).output
  recorded : Recorded sch h es τ₀

theorem functional_refs {s s' : Session} {A : State} (R : Session.Refines s A) (hU : s.Untouched) {J : Nat} {cs : List Nat} {v : BV} {vs : List BV}
    (hf : s.functional J cs = some ((v, vs), s')) :
    Session.Refines s' A ∧ s'.Untouched ∧ s'.RefAt J v ∧ List.Forall₂ s'.RefAt cs vs := by
  simp only [Session.functional, Option.bind_eq_bind, Option.bind_eq_some_iff] at hf
  obtain ⟨⟨ws, s₁⟩, hc, o, ho, hf⟩ := hf
  split at hf
  swap
  · cases hf
  rename_i hadj
  cases hf
  obtain ⟨R₁, G₁, hcs, hh⟩ := R.controls cs hc
  have G₂ := R₁.grows_touch ho
  exact ⟨R₁.touch ho hadj, Session.untouched_touch (Session.untouched_controls cs hU hc) J o, Session.touch_refAt ho,
    hcs.imp fun _ _ h => G₂.refAt h⟩

variable {p : List Instr} {A : State} {sch : Schedule} {J : Nat} {cs : List Nat} {h : FHeap} {es : List (Event ℝ ℝ ℝ)}
  {τ₀ τ : CTape ℝ ℝ ℝ} {Jv : BV} {cvs : List BV}

/-- The tape without checkpointing of the same program. -/
theorem RecordedProgram.plain (hp : RecordedProgram p A sch J cs h es τ₀ Jv cvs) : ∃ s : Session, Session.Refines s A ∧ s.Untouched ∧
    A.Recorded ∧ s.RefAt J Jv ∧ List.Forall₂ s.RefAt cs cvs ∧ s.heap = h ∧ Event.blocks es = s.tape.blocks := by
  obtain ⟨S, S₁, hS, hf, hes, hout⟩ := hp.session
  have hr := Session.refines_init.run p
  rw [hS, hp.source] at hr
  have R : Session.Refines S A := hr
  have hev : ∀ ins ∈ p, ins.evaluates = false := by
    intro ins hi
    have := hp.records ins hi
    cases ins <;> first | rfl | cases this
  have hU : S.Untouched := Session.untouched_run p Session.refines_init hev (fun v => rfl) hS
  obtain ⟨R₁, hU₁, hJ, hcs⟩ := functional_refs R hU hf
  have hck : ∀ v, saved h v = (h v).output := fun v => by unfold saved; rw [(hp.recorded.unused v).1]
  refine ⟨{ S₁ with heap := h }, R₁.heap h hout (fun v => (hp.recorded.unused v).2.1) fun v => ?_, hck,
    Session.recorded_run p (fun i r h => by simp at h) hp.source, hJ, hcs, rfl, ?_⟩
  · rw [hck, hout, hU₁]
  · rw [hes]
    show _ = S₁.tape.blocks
    rw [(Session.functional_keeps hf).1]

/-- What was recorded is what the operations compute. -/
theorem RecordedProgram.faithful (hp : RecordedProgram p A sch J cs h es τ₀ Jv cvs) : Faithful h es := by
  obtain ⟨s, R, hU, hA, -, -, rfl, hes⟩ := hp.plain
  have hrep : ∀ v, saved (rfEval s.tape.blocks [] [] s.heap) v = (s.heap v).output := fun v =>
    (R.replay_recorded hU hA (cs := []) .nil v).trans (hU v)
  intro b hb i o ho y hy
  rw [hes] at hb
  obtain ⟨hi, rfl⟩ := List.getElem?_eq_some_iff.1 ho
  have e := rfEval_block R.wf [] [] s.heap R.flags b hb (fun o _ => by simp) i hi
  rw [show b.deps.map (saved (rfEval s.tape.blocks [] [] s.heap)) = b.deps.map fun d => (s.heap d).output from
    List.map_congr_left fun d _ => hrep d, hy] at e
  have := hrep b.outs[i]
  unfold saved at this
  rw [e] at this
  exact this

theorem RecordedProgram.nodup (hp : RecordedProgram p A sch J cs h es τ₀ Jv cvs) (hnd : cs.Nodup) : cvs.Nodup := by
  obtain ⟨s, R, -, -, -, hcs, -, -⟩ := hp.plain
  exact Session.nodup_of_forall₂ (P := s.RefAt) R.inj hcs hnd

theorem RecordedProgram.inputs (hp : RecordedProgram p A sch J cs h es τ₀ Jv cvs) (hfree : A.FreeControls cs) :
    ∀ c ∈ cvs, ∀ b ∈ Event.blocks es, c ∉ b.outs := by
  obtain ⟨s, R, -, -, -, hcs, -, hes⟩ := hp.plain
  rw [hes]
  intro c hc
  obtain ⟨k, hk, hr⟩ := forall₂_right hcs hc
  obtain ⟨o, ho, hov⟩ := id hr
  obtain ⟨r, hr'⟩ := R.regs_some ho
  exact Session.not_outs_of _ _ fun b hb => R.free hr' (hfree k hk r hr') hr b hb

theorem RecordedProgram.length (hp : RecordedProgram p A sch J cs h es τ₀ Jv cvs) : cvs.length = cs.length := by
  obtain ⟨s, R, -, -, -, hcs, -, -⟩ := hp.plain
  exact hcs.length_eq.symm

/-- **C25 for programs** (partial: `hmode` and `htruthy` as in `checkpointed_value_partial`).  Whatever the program, the schedule and the division into
time steps, after any history of evaluations and derivatives: `rf(xs)` is `scale` times the value of `J` in the program as written with
`xs` for the controls. -/
theorem program_value_partial (hp : RecordedProgram p A sch J cs h es τ₀ Jv cvs) (hnd : cs.Nodup) (hfree : A.FreeControls cs)
    {truthy : ℝ → Bool} (hh : History truthy cvs τ₀ τ) (hmode : τ.mgr.mode ≠ .record)
    (htruthy : ∀ r, A.regs[J]? = some r → truthy r.value = true) (scale : ℝ) {xs : List ℝ} (hlen : xs.length = cs.length) :
    ∃ τ', rfCall truthy Jv cvs scale xs τ = .ok (A.valueAt cs xs J * scale, τ') := by
  obtain ⟨s, R, hU, hA, hJ, hcs, rfl, hes⟩ := hp.plain
  have ht : truthy (s.heap Jv).output = true := by
    obtain ⟨o, ho, hov⟩ := id hJ
    obtain ⟨r, hr⟩ := R.regs_some ho
    rw [R.output ho hov, (R.val ho hr).1]
    exact htruthy r hr
  have := checkpointed_value_as_without_partial hp.recorded hh hmode (hp.nodup hnd) (hp.inputs hfree)
    (by rw [hes]; exact float_total s.tape) ht scale (xs := xs) (by rw [hlen, hp.length])
  rwa [hes, R.replay hcs hlen J Jv hJ] at this

/-- In a program of creations and operations, the objects created are free. -/
theorem const_free (p : List Instr) : ∀ A, State.run p {} = some A → (∀ ins ∈ p, ins.creates = true) →
    p.length = A.regs.length ∧ ∀ (c : Nat) (x : ℝ), p[c]? = some (.const x) → ∀ r, A.regs[c]? = some r → r.origin = .free := by
  induction p using List.reverseRecOn with
  | nil => intro A hA _; cases hA; exact ⟨rfl, fun c x h => by simp at h⟩
  | append_singleton p ins ih =>
    intro A' hA hcr
    obtain ⟨A, h1, h2⟩ := Session.run_snoc p ins _ _ hA
    obtain ⟨hl, hi⟩ := ih A h1 fun s hs => hcr s (List.mem_append_left _ hs)
    obtain ⟨q, hq⟩ := Session.step_regs (hcr ins (by simp)) h2
    refine ⟨by rw [hq]; simp [hl], fun c x hc r hr => ?_⟩
    by_cases hlt : c < p.length
    · rw [List.getElem?_append_left hlt] at hc
      rw [hq, List.getElem?_append_left (hl ▸ hlt)] at hr
      exact hi c x hc r hr
    · have hc' : c = p.length := by
        have := (List.getElem?_eq_some_iff.1 hc).1
        simp at this
        omega
      subst hc'
      rw [List.getElem?_append_right le_rfl] at hc
      simp at hc
      subst hc
      cases h2
      rw [State.push, hl, List.getElem?_append_right le_rfl] at hr
      simp at hr
      rw [← hr]

/-- **C25 and C52 for programs** (partial as `program_value_partial` and `rerun_agrees_partial`).  A program of creations and operations, without a
literal divided by or raised to an `AdjFloat`: `rf(xs)` on the checkpointed tape is what the program prints for `J` when it is run from the start in plain Python
with `xs` for its inputs. -/
theorem program_prints_partial (hp : RecordedProgram p A sch J cs h es τ₀ Jv cvs) (hnd : cs.Nodup)
    (hcr : ∀ ins ∈ p, ins.creates = true) (hnr : Session.NoReflected A p) (hin : ∀ c ∈ cs, ∃ r, p[c]? = some (.const r))
    {truthy : ℝ → Bool} (hh : History truthy cvs τ₀ τ) (hmode : τ.mgr.mode ≠ .record)
    (htruthy : ∀ r, A.regs[J]? = some r → truthy r.value = true) {xs : List ℝ} (hlen : xs.length = cs.length) :
    ∃ y τ', rfCall truthy Jv cvs 1 xs τ = .ok (y, τ') ∧ Session.prints (Session.rewriteInputs cs xs p) J = some y := by
  obtain ⟨hlen', hag⟩ := Session.agrees_run cs xs hlen p A hp.source hcr (fun c hc _ => hin c hc) hnr
  have hfree : A.FreeControls cs := fun c hc r hr => by
    obtain ⟨x, hx⟩ := hin c hc
    exact (const_free p A hp.source hcr).2 c x hx r hr
  obtain ⟨τ', hc⟩ := program_value_partial hp hnd hfree hh hmode htruthy 1 hlen
  refine ⟨_, τ', hc, ?_⟩
  obtain ⟨s, R, -, -, ⟨o, ho, -⟩, -⟩ := hp.plain
  obtain ⟨r, hr⟩ := R.regs_some ho
  have hlt : J < ((Session.rewriteInputs cs xs p).foldl Session.plainStep []).length := by
    rw [hag.len]; exact (List.getElem?_eq_some_iff.1 hr).1
  have he := List.getElem?_eq_getElem hlt
  unfold Session.prints
  rw [he, Option.map_some, hag.val J _ he, mul_one]; rfl

/-- **C26 for programs, right after recording** (partial: a schedule that evaluates the adjoint of every step once).  `rf.derivative(adj_input)` is the gradient, at the
values recorded, of `adj_input · scale · J(x)`, where `J(x)` is the value of the program as written. -/
theorem program_derivative_after_recording_partial (hp : RecordedProgram p A sch J cs h es τ₀ Jv cvs) (hrev : sch.Reverses) (hnd : cs.Nodup)
    (hfree : A.FreeControls cs) (hu : A.Used J cs) (scale seed : ℝ) {n : Nat} (hn : cs.length = n) (x₀ : Fin n → ℝ)
    (hx₀ : List.ofFn x₀ = A.valuesOf cs) (hsm : A.Smooth cs (List.ofFn x₀)) {ds : List ℝ} {τ' : CTape ℝ ℝ ℝ}
    (hd : rfDerivative Jv cvs (seed * scale) τ₀ = .ok (ds, τ')) :
    ∃ grad : Fin n → ℝ, ds = List.ofFn grad ∧
      HasFDerivAt (fun x : Fin n → ℝ => seed * (A.valueAt cs (List.ofFn x) J * scale))
        (∑ i, grad i • (ContinuousLinearMap.proj i : (Fin n → ℝ) →L[ℝ] ℝ)) x₀ := by
  have hds := recorded_gradient_partial hp.recorded hrev hp.faithful hd
  obtain ⟨s, R, hU, hA, hJ, hcs, rfl, hes⟩ := hp.plain
  obtain ⟨grad, h1, h2⟩ := R.gradient hJ hcs hnd hfree hu scale seed (hp.length.trans hn) x₀ hsm
  refine ⟨grad, ?_, h2⟩
  rw [hds, ← h1, hx₀, hes]
  refine gradient_of_saved R.wf _ _ _ _ _ (fun v => (R.replay_recorded hU hA hcs v).symm) ?_
  intro c hc
  right; right
  obtain ⟨k, hk⟩ := rfEval_frame s.tape.blocks cvs (A.valuesOf cs) s.heap c (fun c _ => R.flags c)
  rw [hk]

/-- **C26 for programs** (partial: for schedules that store what every adjoint needs, with controls used in every time step).  After any history, `rf(x₀)` followed
by `rf.derivative(adj_input)` returns the gradient at `x₀` of `adj_input · scale · J(x)`, where `J(x)` is the value of the program as written. -/
theorem checkpointed_program_gradient_partial (hp : RecordedProgram p A sch J cs h es τ₀ Jv cvs) (hall : sch.StoresAll)
    (hend : τ₀.mgr.mode = .record ∨ ∃ es', es = es' ++ [.endTimestep]) (hnd : cs.Nodup) (hfree : A.FreeControls cs) (hu : A.Used J cs)
    {truthy : ℝ → Bool} (hh : History truthy cvs τ₀ τ) (hmode : τ.mgr.mode ≠ .record)
    (hused : ∀ c ∈ cvs, ∀ s ∈ τ.steps, ∃ b ∈ s.blocks, c ∈ b.deps)
    (scale seed : ℝ) {n : Nat} (hn : cs.length = n) (x₀ : Fin n → ℝ) (hsm : A.Smooth cs (List.ofFn x₀)) :
    ∃ y τ₁ τ₂, ∃ grad : Fin n → ℝ, rfCall truthy Jv cvs scale (List.ofFn x₀) τ = .ok (y, τ₁) ∧
      rfDerivative Jv cvs (seed * scale) τ₁ = .ok (List.ofFn grad, τ₂) ∧
      HasFDerivAt (fun x : Fin n → ℝ => seed * (A.valueAt cs (List.ofFn x) J * scale))
        (∑ i, grad i • (ContinuousLinearMap.proj i : (Fin n → ℝ) →L[ℝ] ℝ)) x₀ := by
  have hf := hp.faithful
  have hnd' := hp.nodup hnd
  have hin' := hp.inputs hfree
  have hlen := hp.length
  have hrec := hp.recorded
  obtain ⟨s, R, hU, hA, hJ, hcs, rfl, hes⟩ := hp.plain
  obtain ⟨grad, h1, h2⟩ := R.gradient hJ hcs hnd hfree hu scale seed (hlen.trans hn) x₀ hsm
  obtain ⟨y, τ₁, τ₂, h3, h4⟩ := stored_gradient_partial hrec hall hend hf (by rw [hes]; exact float_total s.tape) hnd' hin' hh hmode hused
    Jv Jv scale (seed * scale) (xs := List.ofFn x₀) (by rw [List.length_ofFn, hlen, hn])
  refine ⟨y, τ₁, τ₂, grad, h3, ?_, h2⟩
  rw [h4, ← h1, hes]
  rfl

/-! ## Non-vacuity -/

/-- `x = AdjFloat(3); y = x * x; J = y * x`. -/
def cubeProgram : List Instr := [.const 3, .bin .mul 0 0, .bin .mul 1 0]

noncomputable def cubeProgHeap : FHeap := fun v => { output := if v = 0 then 3 else if v = 1 then 3 * 3 else if v = 2 then (3 * 3) * 3 else 0 }

noncomputable def cubeProgTape : CTape ℝ ℝ ℝ := tapeOf emptyFloatTape (record singleDisk2 cubeProgHeap exCubeEvents)

theorem cubeProg_recorded : Recorded singleDisk2 cubeProgHeap exCubeEvents cubeProgTape := by
  refine ⟨singleDisk2_wellFormed, fun v => ⟨rfl, rfl, rfl, rfl, rfl⟩, exCube_wf, none, true, false, ?_⟩
  have h := tapeOf_spec (d := emptyFloatTape) (r := record singleDisk2 cubeProgHeap exCubeEvents) (by decide +kernel)
  unfold cubeProgTape
  generalize tapeOf emptyFloatTape _ = τ at h
  unfold record at h
  split at h
  · cases h
  · rename_i τ₀ h₀
    exact ⟨τ₀, by decide, h₀, h⟩

theorem cubeProgram_recorded : ∃ A, A.regs = [⟨3, true, .free, 3⟩, ⟨3 * 3, true, .bin .mul 0 0, 3 * 3⟩, ⟨3 * 3 * 3, true, .bin .mul 1 0, 3 * 3 * 3⟩] ∧
    RecordedProgram cubeProgram A singleDisk2 2 [0] cubeProgHeap exCubeEvents cubeProgTape 2 [0] := by
  refine ⟨_, rfl, by decide, rfl, ⟨_, _, rfl, rfl, rfl, fun v => ?_⟩, cubeProg_recorded⟩
  match v with
  | 0 => rfl
  | 1 => rfl
  | 2 => rfl
  | v + 3 => rfl

/-- `program_value_partial` and `program_prints_partial` for this program: the checkpointed tape computes `x³` at every `x`. -/
example (x : ℝ) : ∃ y τ', rfCall (fun _ => true) 2 [0] 1 [x] cubeProgTape = .ok (y, τ') ∧
    Session.prints (Session.rewriteInputs [0] [x] cubeProgram) 2 = some y ∧ y = x * x * x := by
  obtain ⟨A, hregs, hp⟩ := cubeProgram_recorded
  obtain ⟨y, τ', h1, h2⟩ := program_prints_partial hp (by simp) (by decide) (fun op i j hm hop => by
      simp [cubeProgram] at hm
      rcases hm with ⟨rfl, rfl, rfl⟩ | ⟨rfl, rfl, rfl⟩ <;> simp at hop)
    (fun c hc => ⟨3, by rw [List.mem_singleton.1 hc]; rfl⟩) (truthy := fun _ => true) (.start _) (by decide +kernel) (fun _ _ => rfl) (xs := [x]) rfl
  refine ⟨y, τ', h1, h2, ?_⟩
  have h3 : Session.prints (Session.rewriteInputs [0] [x] cubeProgram) 2 = some (x * x * x) := rfl
  rw [h2] at h3
  cases h3
  rfl

/-- `program_derivative_after_recording_partial` and `checkpointed_program_gradient_partial` for this program: it is smooth everywhere. -/
example (scale seed : ℝ) (x₀ : Fin 1 → ℝ) : ∃ A : State, RecordedProgram cubeProgram A singleDisk2 2 [0] cubeProgHeap exCubeEvents cubeProgTape 2 [0] ∧
    ∃ y τ₁ τ₂, ∃ grad : Fin 1 → ℝ, rfCall (fun _ => true) 2 [0] scale (List.ofFn x₀) cubeProgTape = .ok (y, τ₁) ∧
      rfDerivative 2 [0] (seed * scale) τ₁ = .ok (List.ofFn grad, τ₂) ∧
      HasFDerivAt (fun x : Fin 1 → ℝ => seed * (A.valueAt [0] (List.ofFn x) 2 * scale))
        (∑ i, grad i • (ContinuousLinearMap.proj i : (Fin 1 → ℝ) →L[ℝ] ℝ)) x₀ := by
  obtain ⟨A, hregs, hp⟩ := cubeProgram_recorded
  have hall : cubeProgTape.steps.all (fun s => s.blocks.any fun b => b.deps.any (· == 0)) = true := by decide +kernel
  refine ⟨A, hp, checkpointed_program_gradient_partial hp singleDisk2_storesAll (Or.inr ⟨exCubeEvents.dropLast, rfl⟩) (by simp) ?_ ?_ (.start _)
    (by decide +kernel) ?_ scale seed rfl x₀ ?_⟩
  · intro c hc r hr
    rw [List.mem_singleton.1 hc, hregs] at hr
    cases hr; rfl
  · intro c hc
    rw [List.mem_singleton.1 hc]
    exact Or.inr ⟨1, ⟨3 * 3, true, .bin .mul 0 0, 3 * 3⟩, by rw [hregs]; rfl, Or.inl rfl⟩
  · intro c hc s hs
    rw [List.mem_singleton.1 hc]
    obtain ⟨b, hb, hb'⟩ := List.any_eq_true.1 (List.all_eq_true.1 hall s hs)
    obtain ⟨d, hd, hd'⟩ := List.any_eq_true.1 hb'
    exact ⟨b, hb, by rw [← eq_of_beq hd']; exact hd⟩
  · intro i r hr
    rw [hregs] at hr
    match i, hr with
    | 0, hr => cases hr; trivial
    | 1, hr => cases hr; trivial
    | 2, hr => cases hr; trivial

/-- The derivative right after recording exists there, and the schedule evaluates every adjoint. -/
example : singleDisk2.Reverses ∧ ∃ ds τ', rfDerivative 2 [0] 1 cubeProgTape = .ok (ds, τ') := by
  refine ⟨singleDisk2_reverses, ?_⟩
  have h : (match rfDerivative 2 [0] 1 cubeProgTape with | .ok _ => true | .error _ => false) = true := by decide +kernel
  split at h
  · rename_i r hr; exact ⟨r.1, r.2, hr⟩
  · cases h

end CTape
end Pyadjoint
