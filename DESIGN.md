# A Lean 4 model of pyadjoint

## What this is

`/verif/lean` holds a formal model of the Python package in `/repo/pyadjoint` (and of the small
`numpy_adjoint` companion), and machine-checked theorems about it. `properties.jsonl` lists the
properties (C01, C02, ...), `MANIFEST.json` maps each one to theorem names, `seeded/LOG.jsonl`
records the experiments in which the model was broken on purpose.

## Layout

* `Verif/Model/*`  definitions that mirror the Python code, function by function. Every definition
  cites file and lines of `/repo`. Simplifications are stated there.
* `Verif/Spec/*`   small specifications that do not mention the model's helpers
  (real functions computed by straight line programs, reachability, schedules, ...).
* `Verif/Proofs/*` helper lemmas.
* `Verif/Props/*`  the property theorems, one or a few properties per file, each followed by an
  `example` showing a concrete case that meets the hypotheses.
* `Verif/Audit.lean` fails the build if a theorem depends on a principle other than the three below.

## Trusted base

* Lean 4.33.0 kernel, Mathlib as installed.
* Axioms: only `propext`, `Classical.choice` and `Quot.sound` (the three of Lean/Mathlib). No
  own axioms, no `sorry`, no `native_decide`, no `bv_decide`. `Verif/Audit.lean` checks this for
  every theorem of the development at build time.
* The reading of the Python code that led to the definitions in `Verif/Model`. There is no
  extraction: that the model is what the code does is by inspection, with line citations.
* The statements in `Verif/Props` and `Verif/Spec`, which say what a property means.

## Modelling conventions

* Objects with identity (block variables, overloaded objects, tapes) are numbers into a heap.
* A `BlockVariable` is a record with the same fields as in Python
  (`output`, `adj_value`, `tlm_value`, `hessian_value`, `checkpoint`, `is_control`,
  `marked_in_path`, `creation_timestep`, `last_use`).
* Python exceptions are values (`Except`, `Option` or a flag) where a property mentions them.
* `float` is modelled by the real numbers in the calculus theorems (no rounding, no NaN, no
  overflow). The sweeps themselves are generic in the value type; the pruning, history,
  checkpointing and bookkeeping theorems hold for every value type, hence for IEEE doubles too.
* Blocks are arbitrary functions (generic theorems) or the AdjFloat operations (calculus theorems).
* Values are immutable, except in the models made for mutation and sharing
  (`Model/Contexts`, `Model/Aliasing`).

## What is modelled and what is not

| file | modelled | not modelled |
|------|----------|--------------|
| `tape.py` | working tape, annotation flag, `stop_annotating`, `set_working_tape`, `no_annotations`; `Tape` blocks, time steps, `timestepper`, tags, `copy`, `clear_tape`, the three sweeps, reset functions, `checkpoint_block_vars`/`restore_block_vars`, `optimize*`, `marked_nodes`, `_find_relevant_nodes`; `TimeStep`, `TimeStepSequence`; `enable_checkpointing`, `add_to_*`; name scopes, TensorFlow and networkx graphs | progress bars, logging, writing and drawing of graphs, what packages do in the methods of their tape data (when these are called is modelled) |
| `block.py` | dependencies, outputs, default sweeps, `recompute`, `prepare_*` hooks, `pop_kwargs`, `create_graph` | — |
| `block_variable.py` | all | |
| `adjfloat.py` | all operations and blocks, over the reals | IEEE rounding, NaN, infinities |
| `checkpointing.py` | all actions, modes and errors, for arbitrary schedules | disk files of other packages, the schedules of the `checkpoint_schedules` package themselves (arbitrary lists of actions) |
| `control.py`, `drivers.py`, `reduced_functional.py`, `reduced_functional_numpy.py`, `enlisting.py` | all public functions; `__getattr__` and copies in `Verif.Model.Copying`; values as objects in `Verif.Model.Ownership` | MPI gathers |
| `overloaded_type.py` | registry, `create_overloaded_object`, weak references to block variables (via the recorder session), `FloatingType` | the abstract methods (parameters of the model) |
| `overloaded_function.py`, `placeholder.py`, `ordered_set.py`, `verification.py` | all | |
| `optimization/optimization.py`, `optimization_problem.py`, `constraints.py` | bounds, objectives, keyword arguments and options handed to SciPy, constraints, canonicalisation, minimise/maximise | the optimisers |
| `optimization/ipopt_solver.py`, `rol_solver.py`, `moola_problem.py`, `tao_solver.py` | bounds, feasible sets, IPOPT options, ROL updates, Moola memoisation, PETSc options, PETSc vector layout, TAO callbacks | the external libraries |
| `numpy_adjoint/array.py` | indexing of arrays of any shape and its adjoint; programs with arrays: reads, arithmetic, assignment | the order of the axes of a result; memory shared between an array and its slices |

## Property by property: the plan

| id | what is modelled | how it is proved |
|----|------------------|------------------|
| C01 | recorder session (objects, weakrefs, tape), `Block.recompute`, `ReducedFunctional.__call__` | independent semantics of straight-line programs; simulation by induction on the program |
| C02 | `evaluate_adj`, `compute_gradient`, AdjFloat blocks over the reals | `HasFDerivAt` of the replay by induction; adjoint/tangent duality |
| C03, C54, C55 | evaluations and sweeps from an arbitrary leftover heap, and after interruptions | the resets make the result a function of the checkpoints only |
| C04 | generic blocks with pairing | telescoping sum by induction over the block list |
| C05 | `evaluate_tlm` with overrides | induction over the tape with `HasDerivAt` |
| C06, C47 | `evaluate_hessian` with overrides, in `Except` | the claims are false for the code (product, exp, log blocks; unmarked subtraction); negations by witnesses, `_partial` for the exact condition |
| C07 | `marked_nodes`, `_find_relevant_nodes` | unmarked variables cannot reach controls; simulation of pruned and full sweeps |
| C08-C10 | `optimize_for_controls`, `optimize_for_functionals` | reachability invariants |
| C11, C12, C38 | recorder session with garbage collection | invariant over all operation sequences |
| C13, C14 | annotation/working tape state machines with structured programs and exceptions | induction on program syntax; decorator claim is false, negation proved |
| C15, C16, C44 | TimeStepSequence, TapeTimeStepper | invariants over operations |
| C17 | OrderedSet as dict keys | refinement to lists without duplicates / sets |
| C18-C21, C45 | ReducedFunctional glue | direct; derivative_components claim partly false, negations proved |
| C22 | checkpoint_block_vars / restore_block_vars | state lemma |
| C23-C27, C49 | CheckpointManager as a state machine over schedules | invariants; specification of well-formed schedules; crash claim is false, negation |
| C28-C30 | flat layouts, constraints | list induction; SciPy Jacobian late binding is false, negation |
| C31, C32 | ROL and Moola state machines | invariants over call sequences; negations where false |
| C33 | flatten_parameters, OptionsManager | structural induction |
| C34 | taylor_test over the reals | algebra with `Real.log` |
| C35 | slice block | finite sums; duplicate index claim false, negation |
| C36-C37, C39-C43, C46, C48, C50, C51 | the respective small functions | direct induction |
| C52 | recorder session run again at other inputs | induction on the program |
| C53 | `compute_hessian` after another derivative | algebra of the sweep |
| C56 on | see below | |

## What was proved

`Pyadjoint.` is omitted in theorem names. `partial` means that the full statement is false of the code (the note names the refutation) or that the note says what is missing.

### C01 Replay fidelity of a reduced functional (proved)

If a program of AdjFloat operations (+,-,*,/,unary -,**,exp,log,min,max, with AdjFloat or literal operands) is run with annotation on, then calling ReducedFunctional(J, controls, scale)(x) returns scale times the value that the same program computes when each control variable is given its value from x and every other free variable keeps the value currently stored for it on the tape. A control that is itself the result of an operation is treated as an independent variable.

*Theorems:* `Session.replay_fidelity`, `Session.run_isSome_iff`.

*Note:* For every program (object creation, literals, all AdjFloat operations, pause/continue, control creation, garbage collection, complete and interrupted evaluations, derivatives and Hessians, completed or raising) the value returned by the reduced functional is the source-level value of the program.

### C02 The gradient is the true derivative (proved)

After rf(x), rf.derivative(adj_input) returns, for each control i, adj_input*scale times the exact partial derivative at x of the real function the taped program computes, provided every elementary operation is differentiable at the values it is applied to and no control is computed from another control.

*Theorems:* `gradient_exact`, `gradient_exact_adjfloat`, `Session.program_gradient`, `Session.derivative_after_recording`, `dependent_controls_wrong_gradient`, `duplicate_controls_wrong_gradient`.

*Note:* gradient_exact is for arbitrary blocks with a correct adjoint component, gradient_exact_adjfloat instantiates it for every AdjFloat operation, program_gradient and derivative_after_recording state it for whole programs (including ones in which evaluations, derivatives or Hessians raised) without mentioning tapes; the two negations show that the independence and no-repetition hypotheses are needed.

### C03 Gradient does not depend on leftovers (crash and history independence) (proved)

compute_gradient(J, m) returns the same result whatever adjoint, tangent-linear or Hessian values and whatever path markings earlier calls (including calls that died with an exception half way through a sweep) left on the variables of the tape.

*Theorems:* `gradient_history_independent`, `gradient_after_crash`.

*Note:* Arbitrary leftovers and arbitrary crash points (block and component); generic in values and blocks. Controls not on the tape need an equal leftover, see stale_gradient_off_tape (C43).

### C04 Adjoint/tangent duality for arbitrary block types (proved)

For every tape of user defined blocks (any number of inputs and outputs, repeated inputs allowed) whose component methods satisfy the local duality sum_out <adj_out, tlm_component(out)> = sum_dep <adj_component(dep), tlm_dep>, the whole sweeps satisfy it too: sum over outputs <seed, tlm result> = sum over inputs <adjoint result, tlm seed>.

*Theorems:* `adjoint_tlm_duality`.

*Note:* Arbitrary blocks, arbitrary bilinear (additive in the adjoint argument) pairing.

### C05 The tangent linear sweep is the directional derivative (proved)

Setting tlm_value on controls and running tape.evaluate_tlm leaves on every variable of an AdjFloat tape the exact directional derivative of that variable with respect to the controls at the currently stored values (a missing value standing for zero); variables that are not computed from a seeded variable carry no value.

*Theorems:* `tlm_exact`, `min_missing_tangent`, `Session.program_tangent`.

*Note:* program_tangent: the same for whole programs that may also evaluate functionals and compute derivatives before; the program can go on afterwards.

### C06 The Hessian action is the true second derivative (partial)

After rf(x) and rf.derivative(), rf.hessian(m_dot) returns, for each control, the exact derivative of the gradient component in direction m_dot.

*Theorems:* `hessian_exact_partial`, `hessian_second_derivative_partial`, `hessian_exact_safe`, `hessian_returns_partial`, `Session.program_hessian_partial`, `exp_hessian_wrong`, `log_hessian_wrong`, `mul_hessian_wrong`, `hessian_raises`.

*Note:* The unrestricted claim is false of the code: exp, log and products have wrong second-order formulas and a quotient or power independent of the controls makes the call raise. Proved: exactness under the exact condition NoDefect on the relevant exp/log/* blocks, for all tapes; exactness for tapes without them; absence of exceptions; and the four refutations. program_hessian_partial states it for whole programs, which may contain evaluations, derivatives and Hessians that raised, without mentioning tapes.

### C07 Pruning the adjoint sweep to marked paths loses nothing (proved)

compute_gradient restricts the sweep to variables that depend on a control. The derivative it returns equals the adjoint value an unrestricted sweep over the whole tape (solve_adjoint style) leaves on that control. Marking additional variables never changes the result.

*Theorems:* `pruned_gradient_eq_full`, `marked_nodes_iff_reachable`, `gradient_history_independent`.

*Note:* Extra markings are covered by gradient_history_independent (arbitrary initial markings).

### C08 optimize_tape preserves the functional and its gradient (partial)

If optimize_tape() returns normally, rf(x) and rf.derivative() return for every x exactly what they returned on the unoptimised tape.

*Theorems:* `optimize_preserves_value_partial`, `optimize_preserves_derivative_partial`, `consistent_after_evaluation`, `Session.recorded_consistent`, `Session.optimize_recorded_value`, `optimize_changes_value`, `optimize_stale_derivative`.

*Note:* Proved for tapes whose stored values are consistent with the blocks (in particular straight after recording, or after any evaluation of a functional over the whole tape). False in general: optimize_changes_value and optimize_stale_derivative are concrete refutations (values overridden through another reduced functional; adjoint values left on a control whose blocks were removed).

### C09 optimize_for_controls rejects exactly dependent controls (proved)

optimize_for_controls raises RuntimeError if and only if some control on the tape is computed (transitively) from a control; when it raises, the tape is unchanged.

*Theorems:* `optimize_raises_iff`.

### C10 Tape optimisation keeps exactly the relevant blocks, in order, in their timesteps (proved)

After optimize_for_controls the tape consists, in order and in the same timestep, of exactly the blocks reachable from a control; after optimize_for_functionals of exactly the blocks from which a functional is reachable. Optimising again changes nothing.

*Theorems:* `optimize_for_controls_exact`, `optimize_for_functionals_exact`, `optimize_for_controls_idempotent`, `optimize_for_functionals_idempotent`.

### C11 A recorded tape is in evaluation order with single assignment (proved)

Whatever sequence of AdjFloat operations, literals, object creations, control creations, pauses and garbage collections of unreferenced variables a program performs, on the resulting tape every dependency of a block is produced by an earlier block or by no block, every variable is produced by at most one block, and every produced variable is new.

*Theorems:* `Session.recorded_tape_wf`.

*Note:* For every program including garbage collection of unreferenced block variables at any point.

### C12 Annotation does not change values and pausing records nothing (proved)

The numeric results of a program are the same whether or not annotation is on; while annotation is off (pause_annotation, stop_annotating, annotate=False) no block is added to any tape.

*Theorems:* `Session.values_independent_of_annotation`, `Session.paused_records_nothing`, `Session.one_block_per_operation`.

*Note:* stop_annotating itself is modelled separately for C13.

### C13 stop_annotating restores the annotation flag (proved)

On leaving a stop_annotating context or a no_annotations function, normally or by exception, the annotation flag has the value it had on entry, for any nesting depth including recursion through the single shared no_annotations object, and whatever pause/continue calls happened inside.

*Theorems:* `Ctx.stop_annotating_restores`, `Ctx.stop_annotating_records_nothing`, `Ctx.contexts_scoped`.

*Note:* all programs of nested contexts, calls and exceptions

### C14 set_working_tape scoping (partial)

Inside 'with set_working_tape(t)' get_working_tape() is t, and after the block, normal or exceptional exit and any well nested use inside, it is what it was before; a function decorated with @set_working_tape() behaves the same on every call.

*Theorems:* `Ctx.set_working_tape_restores_partial`, `Ctx.contexts_scoped`, `Ctx.set_working_tape_decorator_leaks`.

*Note:* proved for with-blocks; false for the bare decorator form without a tape on first entry

### C15 The flat block list and the timestep lists never disagree (proved)

After any sequence of add_block, end_timestep, copy and optimise operations, tape.get_blocks() is the concatenation of tape.timesteps in order, add_block returns the index of the block it added, and blocks are never lost, duplicated or reordered.

*Theorems:* `tapes_independent`, `add_block_spec`.

*Note:* Tapes without a checkpoint manager; with one, end_timestep appends timesteps through the same append_step.

### C16 timestepper puts each iteration in its own timestep (partial)

Iterating tape.timestepper(it) to exhaustion over an iterable of n>=1 items on a fresh tape yields the items unchanged, produces exactly n timesteps, and the blocks annotated in iteration i are exactly the blocks of timestep i. (end_timestep is called between iterations only.)

*Theorems:* `timestepper_on_any_tape`, `timestepper_partial`, `timestepper_first_empty`, `Stepper.timestepper_unrolled_partial`, `Stepper.timestepper_collection_raises`, `Stepper.progress_bar_not_transparent`, `Stepper.progress_bar_transparent`, `Stepper.timestepper_recording`, `Stepper.timestepper_plain`.

*Note:* Holds on any tape that already has a timestep and on a fresh tape if the first iteration records something. False otherwise (timestepper_first_empty): with nothing recorded in the first iteration, iteration 1's blocks end up in timestep 0. For iterators (and with a progress bar for every iterable) the loop is the program written out, also with checkpointing (timestepper_unrolled_partial, timestepper_recording). False for the documented use tape.timestepper(range(10)) with the default progress bar: it raises TypeError (timestepper_collection_raises).

### C17 OrderedSet is a set that remembers first insertion order (proved)

For every sequence of operations an OrderedSet contains exactly the elements a mathematical set would, iterates them without repetition in order of first insertion since last removal, and union/difference/intersection/symmetric_difference have the set-theoretic contents, leave their operands unchanged and keep the left operand's order first.

*Theorems:* `OSet.ordered_set_correct`, `OSet.remove_spec`, `OSet.union_spec`, `OSet.difference_spec`, `OSet.intersection_spec`, `OSet.symmetricDifference_spec`, `OSet.ofIterable_spec`, `OSet.union_order`, `OSet.symmetricDifference_order`.

### C18 Single control in, single result out (proved)

For Enlist: delist undoes Enlist for every argument; a driver given a single control returns a single object and given a list returns a list of the same length and order; delisting a list of length other than one for an unlisted argument fails.

*Theorems:* `enlist_delist`, `delist_iff`, `gradient_single_and_list`, `derivative_single_and_list`.

### C19 derivative_components returns the derivative in the slot of its control (partial)

With derivative_components, derivative() returns a list with one entry per control holding the full gradient component for every selected index and zero for every other.

*Theorems:* `derivative_components_partial`, `derivative_components_increasing`, `derivative_components_order`, `derivative_components_repeated`, `derivative_components_negative`, `derivative_components_single`, `Session.session_components`, `derivative_components_exact`.

*Note:* Holds for strictly increasing in-range component tuples and a list of controls. Refuted for unordered, repeated, negative components and for a single control (theorems with witnesses). derivative_components_exact says what the code returns for every tuple of indices.

### C20 scale multiplies value, gradient and Hessian alike; maximize is minimize of the negative (partial)

rf with scale s has value, derivative and Hessian equal to s times those of the unscaled functional; maximize hands the optimiser exactly the negated functional and gradient.

*Theorems:* `value_scaled`, `derivative_scaled`, `hessian_scaled_partial`, `hessian_scale_missing`, `maximize_negates`, `maximize_numpy_minimises`, `maximize_numpy_witness`, `maximize_leaves_scale`.

*Note:* Value and gradient proved in general; Hessian only directly after the functional's own derivative (hessian_scale_missing refutes the rest); maximize proved for ReducedFunctional and refuted for ReducedFunctionalNumPy.

### C21 Evaluating does not disturb the controls or the tape (partial)

rf(x) leaves every control holding x, leaves the list of blocks unchanged and unmarks the controls afterwards; derivative() and hessian() change no forward value, no block and no control marking, whatever the annotation state.

*Theorems:* `evaluation_undisturbed`, `crashed_evaluation_undisturbed`, `derivative_undisturbed`, `hessian_undisturbed`, `Session.call_adds_no_block`, `Session.derivative_adds_no_block`, `Session.derivative_adds_no_block_partial`, `Session.derivative_annotates_zeros`.

*Note:* Proved except that derivative() with derivative_components annotates one multiplication per omitted component while annotation is on (refuted by derivative_annotates_zeros). The Hessian sweep's statement is about calls that return.

### C22 Saving and restoring block variables round-trips (proved)

After cp = tape.checkpoint_block_vars(controls) and any further evaluations, tape.restore_block_vars(cp) brings every produced variable and every control back to its saved value, even while controls are marked, so that derivative() again returns the derivative at the saved point. Saving changes nothing and restoring twice equals restoring once.

*Theorems:* `restore_roundtrip`, `restore_sets`, `restore_idempotent`, `restore_now`, `restore_packages`, `restore_without_controls`, `restore_packages_fails`.

*Note:* Any sequence of evaluations, gradients, crashes in either, updates and markings between saving and restoring, writing only to controls given when saving. restore_without_controls: if the controls are not given, J and the control end up inconsistent. Values are immutable in the model (no in-place mutation of a saved checkpoint).

### C23 Checkpoint manager rejects misuse (proved)

With a schedule of N steps: ending more timesteps than the schedule has raises CheckpointError and no other call is needed to detect it; evaluating the adjoint twice without recomputing in between raises CheckpointError; enabling checkpointing on a tape that has blocks raises CheckpointError; a shorter recording is padded with empty timesteps to exactly N.

*Theorems:* `CTape.recorded_steps`, `CTape.too_many_timesteps`, `CTape.end_timestep_after_end`, `CTape.adjoint_twice_raises`, `CTape.derivative_twice_raises`, `CTape.enable_on_used_tape`, `CTape.well_formed_schedule_records`.

*Note:* For every schedule (an arbitrary list of actions) and every recording: a successful recording has exactly the scheduled steps; ending too many time steps, ending one after the end of the recording, a second gradient without a recompute, and enabling checkpointing on a used tape raise the documented errors; a schedule that tiles the steps records without error.

### C24 checkpointable_state is exactly the set of live-in variables (proved)

After recording, the checkpointable state of timestep k contains exactly the variables that exist before timestep k (created in an earlier timestep or outside the tape) and are used as a dependency in timestep k or a later one.

*Theorems:* `checkpointable_state_live_in`, `CTape.recorded_state_live_in`.

*Note:* checkpointable_state_live_in: tapes without a checkpoint manager, timesteps ended by the user. recorded_state_live_in: tapes recorded under any well-formed schedule, before and after the recording is ended.

### C25 Recomputing under a checkpoint schedule gives the same functional value (partial)

For every schedule whose forward actions tile the timesteps, rf(x) with checkpointing returns the value rf(x) returns without checkpointing.

*Theorems:* `CTape.checkpointed_value_partial`, `CTape.checkpointed_value_as_without_partial`, `CTape.zero_functional_stale`, `CTape.first_evaluation_stale`, `CTape.program_value_partial`, `CTape.program_prints_partial`.

*Note:* Proved for every recording, every well-formed schedule and every history of evaluations and derivatives with the same controls, for controls that are inputs of the recorded program. Two hypotheses are necessary, shown by the two refutations: the functional was recorded with a truthy value, and the recording was ended before the first evaluation. The full statement is false for the code. program_value_partial and program_prints_partial put this together with the recorder: for every AdjFloat program, schedule and division into time steps, rf(x) is the value of the program as written, or what the program prints when run again with x.

### C26 The gradient under a checkpoint schedule is the gradient without it (partial)

For every valid schedule, derivative() with checkpointing returns the value it returns without checkpointing, directly after recording and after any number of rf(x)/derivative() cycles.

*Theorems:* `CTape.recorded_gradient_partial`, `CTape.cycles_gradient_partial`, `CTape.stored_gradient_partial`, `CTape.multistage_gradient_stale`, `CTape.unused_control_gradient_stale`, `CTape.single_memory_gradient_stale`, `CTape.other_controls_gradient_stale`, `CTape.checkpointed_gradient_exact_partial`, `CTape.program_derivative_after_recording_partial`, `CTape.checkpointed_program_gradient_partial`, `CTape.affine_gradient_partial`, `CTape.affine_gradient_exact_partial`, `CTape.affine_program_gradient_partial`.

*Note:* Proved for every recording and every well-formed schedule reversing each step once, directly after recording and after any number of evaluations at the recorded control values and derivatives of any functionals and controls. At new control values: proved, after any history of functionals of the same controls, for schedules that store what the adjoint of every step needs and load it before reversing the step (SingleDiskStorageSchedule), if every control is used in every step (stored_gradient_partial). False otherwise: four refutations (multistage; disk storage with a control not used in every step; single memory storage; a derivative with respect to other controls taken before). checkpointed_gradient_exact_partial states it without another tape: the derivative returned is the Fréchet derivative of the function the checkpointed AdjFloat tape computes. For whole programs, without mentioning tapes in the conclusion: program_derivative_after_recording_partial (at the recorded values) and checkpointed_program_gradient_partial (at new values). For programs affine in the controls (no adjoint reads a value that depends on them): at all values, for every well-formed schedule that reverses each step once, multistage included, and after any evaluations and derivatives (affine_gradient_partial; for AdjFloat tapes without another tape in the conclusion affine_gradient_exact_partial). affine_program_gradient_partial: the same for whole programs as written, for every division into time steps.

### C27 A failed adjoint evaluation under checkpointing does not corrupt later ones (partial)

If the first adjoint evaluation under a schedule raises in some block, then a later rf(x) followed by derivative() still executes the complete reverse schedule.

*Theorems:* `CTape.crash_truncates_schedule`, `CTape.crash_keeps_schedule_partial`, `CTape.crash_gradient_wrong`.

*Note:* False for the first adjoint evaluation: at every crash point the recorded reverse schedule is cut off there, and a concrete tape then returns derivative 0 instead of 32 without raising. Proved for exceptions in later evaluations, for all schedules, histories and crash points.

### C28 Flat array interface round-trips (proved)

For ReducedFunctionalNumPy, writing an array of the right length into the controls and reading it back gives the same array; reading the controls and writing them back changes nothing; each control receives its own consecutive segment; gradients are laid out in the same order.

*Theorems:* `flat_array_roundtrip`, `flat_array_floats`, `numpy_call`, `numpy_get_after_call`, `numpy_get_after_set`, `numpy_derivative_floats`, `numpy_gradient_exact`, `numpy_derivative_ignores_point`, `numpy_hessian_discards_adjoint`.

*Note:* Layout for any control types whose array methods are inverse to each other, instantiated for AdjFloat.

### C29 Bounds reach the optimiser in the right slots (partial)

serialise_bounds returns one (lower, upper) pair per scalar control component in control order, scalar bounds being broadcast over their control; the IPOPT bounds arrays have the same layout.

*Theorems:* `serialise_bounds_layout_partial`, `serialise_bounds_single`, `integer_bounds_not_repeated`, `too_few_bounds`, `ipopt_bounds_partial`, `ipopt_none_is_nan`, `problem_bounds`, `problem_bounds_iff`, `serialise_bounds_arrays`, `documented_bounds_raise`, `documented_bounds_transposed`.

*Note:* Layout proved for all sizes and bounds that fit. False of the code in three cases, each with a witness: integer bounds [0, 1] for one control with several entries are not repeated; fewer bounds than controls go unnoticed; None passes the checks of OptimizationProblem but becomes NaN for IPOPT. What an OptimizationProblem accepts is characterised exactly; arrays of bounds are laid out in full or refused. The form documented for several controls, one (lower, upper) pair per control, raises ValueError unless there are two controls, and is then silently transposed (documented_bounds_raise, documented_bounds_transposed).

### C30 Merged constraints behave like the list of constraints (partial)

MergedConstraints evaluates every constraint in order, its adjoint and Hessian actions are the sums of the constituents', its dimension is the sum of dimensions, equality and inequality parts partition it, canonicalise is idempotent; the i-th SciPy constraint dictionary carries the function and Jacobian of the i-th constraint; IPOPT constraint bounds match each constraint's kind and dimension.

*Theorems:* `merged_actions`, `merged_action_short`, `merged_jacobian_action`, `merged_parts`, `canonicalise_idempotent`, `canonicalise_single`, `scipy_constraints`, `scipy_jacobian_partial`, `scipy_jacobian_mixed`, `scipy_unknown`, `ipopt_feasible_partial`, `ipopt_ragged`, `ipopt_unknown`, `scipy_accepts`.

*Note:* Merged constraints, canonicalise and partition proved. SciPy: false of the code; every Jacobian closure is that of the last constraint (scipy_constraints, witness scipy_jacobian_mixed), right for one constraint. IPOPT: the feasible set is right for constraints of one common length; for different lengths the code raises (ipopt_ragged). scipy_accepts: exactly which arguments the SciPy methods accept.

### C31 ROL trial/accept/revert bookkeeping (partial)

For every update sequence ROL may issue, after Accept the cached value and tape state are those of the last trial point, and after Revert value() and the tape are those of the last accepted point, so that the gradient returned is the gradient there.

*Theorems:* `Rol.rol_sequence_partial`, `Rol.gradient_allowed`, `Rol.accept_after_temp`, `Rol.accept_after_revert`, `Rol.revert_first`, `Rol.revert_without_initial`.

*Note:* Proved for every sequence starting with Initial in which Accept follows Initial/Trial (the protocol the code's comments state). Outside of it the statement is false: Accept after Temp accepts the temporary point, Accept after Revert pairs the old value with the rejected tape, Revert without Initial raises or stores a stale tape (each proved with a witness).

### C32 Moola memoisation is transparent (partial)

With any memoize count, Functional(x) returns what rf would return at x, and derivative(x) and hessian(x) are those at x, provided hashes do not collide, for every sequence of calls in which derivative(x) follows an evaluation at x; a failing evaluation does not corrupt later results.

*Theorems:* `Moola.memo_transparent_partial`, `Moola.memo_default_transparent`, `Moola.memo_values`, `Moola.tape_faithful`, `Moola.moola_on_tape`, `Moola.direct_after_failures`, `Moola.memo_stale_derivative`, `Moola.memo_corrupt_after_failure`, `Moola.memo_index_error_after_failure`, `Moola.memo_derivative_never_index`.

*Note:* Proved for memoize <= 1 and, for any memoize, when derivatives follow an evaluation not answered from memory. False for memoize >= 2 (memo_stale_derivative: a call answered from memory leaves the tape elsewhere) and after failing evaluations (memo_corrupt_after_failure: a later call returns the value of another point). The memory of derivatives is never corrupted (memo_derivative_never_index).

### C33 PETSc options handling (partial)

flatten_parameters keeps every leaf of the nested dictionary under the separator-joined path of its keys; inserted_options removes on exit exactly the options it inserted, even when the body raises, and set_from_options runs at most once.

*Theorems:* `Opts.flatten_keeps`, `Opts.flatten_sound`, `Opts.flatten_covers`, `Opts.flatten_nodup`, `Opts.flatten_idempotent`, `Opts.duplicate_option_overwrites`, `Opts.inserted_visible`, `Opts.inserted_exit`, `Opts.inserted_restores_partial`, `Opts.auto_restores`, `Opts.prefix_precedence`, `Opts.prefix_restores`, `Opts.inserted_deletes_existing`, `Opts.autoPrefix_separate`, `Opts.auto_nested`, `Opts.set_from_options_once`, `Opts.default_parameter`, `Opts.flatten_any_keys_iff`, `Opts.flatten_any_keys`.

*Note:* False for options set by the program before and also given as parameters: they are removed on exit (inserted_deletes_existing); the duplicate warning says the new value is ignored but it wins. Proved: no leakage and precedence otherwise. Keys that are not strings: accepted exactly where no dictionary with entries is below them (flatten_any_keys_iff), and then treated as their text (flatten_any_keys). A default never replaces a given parameter or an option of the database.

### C34 Taylor test verdict (proved)

taylor_test returns exactly 2 for a functional whose remainder is exactly quadratic when the correct gradient is supplied, and exactly 1 when the remainder is exactly linear because the directional derivative supplied is wrong; in general each reported rate is log2 of the ratio of consecutive residuals; taylor_to_dict leaves the functional evaluated at m; and for every functional with a nonzero second derivative along the direction the result tends to 2 with the correct gradient, and to 1 with a wrong one, as the direction is made small.

*Theorems:* `convergence_rates_log2`, `taylor_test_verdict`, `taylor_test_order`, `taylor_test_bounds`, `taylor_test_detects`, `taylor_test_affine_raises`, `taylor_test_quadratic`, `taylor_test_second_order`, `taylor_to_dict_leaves_m`, `taylor_to_dict_residuals`, `taylor_test_limit`, `taylor_test_tends_to_two`, `taylor_test_tends_to_one`.

*Note:* In exact real arithmetic. taylor_test_order covers the orders 1, 2 and 3 of the statement for every object with the interface of a reduced functional; taylor_test_quadratic and taylor_test_second_order are for every recorded float program, with the derivative the test computes itself. For an affine functional with correct derivative the test divides by zero (taylor_test_affine_raises). For functionals that are not quadratic the verdict is a limit for small directions: taylor_test_tends_to_two and taylor_test_tends_to_one (recorded float programs), taylor_test_limit (any order, any object).

### C35 Adjoint of array indexing is scatter-add (partial)

For the NumPy array type the adjoint of y = a[item] satisfies <y_bar, a[item]> = <a_bar, a> for every index expression numpy accepts.

*Theorems:* `index_adjoint_partial`, `index_adjoint_iff`, `slice_in_range`, `slice_length`, `nd_index_adjoint`, `nd_index_lists`, `read_all`, `read_row`, `repeated_index_wrong`, `repeated_pair_wrong`, `int_selects`, `mask_selects`, `list_selects`, `slice_selects`, `slice_selects_backwards`, `index_arrays_adjoint_iff`, `index_array_distinct`, `mask_adjoint`, `repeated_in_index_array_wrong`, `full_mask_selects`, `mask_wrong_shape`, `index_array_selects`, `outer_selects`, `broadcast_mismatch`, `arrayPositions_basic`, `broadcast_shape`.

*Note:* Arrays of any shape; integers, slices with any bounds and steps, ellipsis, newaxis, masks of any shape, index arrays of any shapes with broadcasting. The adjoint identity holds for every array and cotangent exactly if the index expression selects no position twice (index_adjoint_iff), which for index arrays means that they select pairwise different combinations of positions (index_arrays_adjoint_iff). That is so for all tuples of integers and slices (nd_index_adjoint), for masks (mask_adjoint), and for index arrays that are distinct on one axis (nd_index_lists, index_array_distinct). With repeated positions the code assigns instead of accumulating and the property is false (repeated_index_wrong, repeated_pair_wrong, repeated_in_index_array_wrong). Which entries are selected: full_mask_selects, index_array_selects, outer_selects (broadcasting), arrayPositions_basic; mask_wrong_shape and broadcast_mismatch are the errors.

### C36 Placeholders substitute values, not derivatives (partial)

A block whose dependency was replaced by a Placeholder linked to v reads the value v had at the end of the previous evaluation (the recorded value before linking) and its adjoint contribution never reaches v or the original variable.

*Theorems:* `Ph.placeholder_history`, `Ph.placeholder_evaluation`, `Ph.placeholder_gradient`, `Ph.placeholder_stops_derivative`, `Ph.placeholder_gradient_converged_partial`, `Ph.ph_values`, `Ph.ph_derivative`, `Ph.self_link_diverges`, `Ph.placeholder_control_ignored`, `Ph.ph_control_derivative`, `Ph.resolve_fresh`, `Ph.resolve_linked`, `Ph.placeholder_evaluation_read`, `Ph.late_readAs`, `Ph.late_history`, `Ph.placeholder_tangent`, `Ph.placeholder_hessian`, `Ph.placeholder_gradient_read_partial`, `Ph.placeholder_tangent_read_partial`, `Ph.placeholder_hessian_read_partial`, `Ph.late_derivative_wrong`, `Ph.resolves_of_rank`, `Ph.Resolves.spec`.

*Note:* Proved for all tapes and all sequences of evaluations: with placeholders used before the block computing their target each evaluation is the ordinary one with the placeholder holding the target's previous value (placeholder_history); with placeholders used after it, the ordinary one with the target in their place (late_history). Adjoint, tangent and Hessian sweeps treat the placeholder as a source that holds its target's value. Since the sweeps read the placeholder after the evaluation, gradient, tangent and Hessian are derivatives of the value returned, with placeholders held fixed, only when every use read the value the target has at the end (placeholder_gradient_read_partial and its companions); ph_derivative is the counterexample otherwise, and late_derivative_wrong shows that no derivative flows through a placeholder even when its value does.

### C37 overload_function annotates exactly once and only when asked (partial)

Calling an overloaded function returns the plain function's outputs, adds exactly one block with those outputs in order when annotation is on, none when annotation is off or annotate=False is passed, and annotates nothing for operations inside the plain function.

*Theorems:* `Ovl.overload_annotates_partial`, `Ovl.overload_silent`, `Ovl.overload_raises`, `Ovl.run_quiet`, `Ovl.continue_inside_records`, `Ovl.block_keywords_reach_function`, `Ovl.unregistered_output`.

*Note:* Proved for arbitrary (nested, raising) functions that do not themselves call continue_annotation: exactly one block, plain outputs in order, nothing from inside, flag restored. False in three corners, each with a witness: a function that switches annotation on has its inner operations recorded; with annotation off the block class's own keywords reach the plain function; an output of an unregistered type raises when annotating.

### C38 stop_annotating(modifies=...) detaches the modified variables (partial)

After leaving stop_annotating(modifies=vs) each variable in vs has a new block variable the first time it is used, which no existing block references, so that tape entries made before keep the old value and those made after use the new one; other variables are unaffected.

*Theorems:* `Ctx.modifies_detaches`, `Ctx.recorded_values_kept_partial`, `Ctx.modified_output_changes`, `Modifies.modifies_partial`, `Modifies.modifies_nested_refused`, `Modifies.modifies_array_raises`, `Modifies.modifies_zero_nested`.

*Note:* fresh block variable proved; the saved value of a recorded output whose object is modified changes. With the argument as Python sees it (None, one object, a list) and bodies that may raise: modifies_partial and modifies_nested_refused; a single array of several entries makes __enter__ raise whatever the body (modifies_array_raises), and the check for nesting misses objects that count as false (modifies_zero_nested).

### C39 Tags select blocks (proved)

get_blocks(tag) returns the blocks with that tag in tape order; get_tags returns each tag in use exactly once in order of first appearance; every tagged block appears in exactly the list of its tag.

*Theorems:* `tags_partition`.

### C40 clear_tape makes the tape as good as new (partial)

After clear_tape() the tape has no blocks, its variables carry no adjoint values, and recording on it behaves exactly as on a newly created tape.

*Theorems:* `PTape.clear_tape_empty`, `PTape.clear_tape_as_new_partial`, `PTape.clear_tape_enable`, `PTape.clear_tape_eager_persists`, `PTape.clear_tape_then_record`, `PTape.clear_tape_then_saves`, `PTape.clear_tape_latest_persists`, `PTape.clear_tape_flags_reached`.

*Note:* Emptiness and reset adjoint values proved for all tapes; recording as on a new tape proved for all histories in which eager storing of outputs is off, and when checkpointing is enabled again; refuted when a schedule left _eagerly_checkpoint_outputs set. clear_tape_then_record: the blocks and time steps recorded after clearing are exactly the tape's; clear_tape_then_saves: which values are saved; clear_tape_latest_persists: latest_checkpoint is not reset, which matters for types that override the dependency hook.

### C41 Accumulating one derivative never changes another (partial)

add_adj_output/add_tlm_output/add_hessian_output on one variable change no other variable's derivative value, also when a block returned the same object for several dependencies.

*Theorems:* `RState.accumulation_refines_partial`, `RState.hessian_accumulation_refines_partial`, `RState.tangent_refines`, `inplace_sharing_wrong`, `inplace_seed_changed`, `inplace_hessian_sharing_wrong`, `inplace_direction_changed`.

*Note:* Sweeps with objects and references. Adjoint and Hessian sweeps: for immutable derivative values, or blocks that return new objects, every sweep of every tape gives the values of the sweep over values and changes no foreign object. Tangent sweep: always, also in place and with objects handed on, if no control is the result of a block; no object that existed before is changed. False for in-place += together with blocks that hand on their input, as AddBlock does (inplace_sharing_wrong, inplace_hessian_sharing_wrong, inplace_seed_changed), and for a direction given to a control that is the result of a block (inplace_direction_changed).

### C42 Plain Python numbers are accepted as control values (partial)

For AdjFloat controls rf(values) accepts ints and floats and evaluates the functional at those numbers.

*Theorems:* `plain_numbers_partial`, `plain_numbers_history`, `plain_numbers_derivative_partial`, `gradient_returned`, `int_control_refused`, `float_intermediate_control`, `int_denominator`, `int_numerator`.

*Note:* False as stated: the value converted on reduced_functional.py:215 is discarded. J = x*x with the int 2 raises TypeError (int_control_refused); a float given to a control that is the result of an operator makes later evaluations of other functionals raise AttributeError (float_intermediate_control); J = a/x evaluates at an int but its derivative raises (int_denominator), and so does a quotient with an int numerator (int_numerator). Proved: floats are accepted for all other controls, ints where no operator takes them first and no min/max sees them; then the evaluation is that at the given numbers, for all histories of calls including failed ones. Whenever the gradient of a state with Python numbers is returned it is the gradient of the model over the reals (gradient_returned, no condition on types); after a call that returned it is returned and is the Frechet derivative if no int was given to a denominator, numerator over a varying denominator, or base (plain_numbers_derivative_partial).

### C43 Independent controls get derivative zero (partial)

If the functional does not depend on a control, the derivative returned for it is zero, whether or not the control occurs on the tape and whatever was computed before.

*Theorems:* `independent_control_zero_partial`, `stale_gradient_off_tape`.

*Note:* Proved for controls on the tape; false for controls off the tape (stale value), proved by witness.

### C44 A copied tape is independent (partial)

tape.copy() has the same blocks and timesteps; adding blocks to, ending timesteps on, or optimising either tape does not change the other.

*Theorems:* `tapes_independent`, `other_tapes_undisturbed`, `copy_same`, `states_independent_partial`, `copy_shares_state`.

*Note:* Blocks and timesteps of a copy are independent, for all operation sequences. The checkpointable states are not: TimeStep.copy shares the set object (copy_shares_state); they are independent as long as no tape is copied.

### C45 The gradient is linear in adj_input (proved)

derivative(a*u + b*w) = a*derivative(u) + b*derivative(w) for every tape of blocks whose adjoint components are linear.

*Theorems:* `gradient_linear_in_adj_input`.

### C46 min and max follow the documented tie rule (proved)

min/max return the value Python's min/max return; away from ties the derivative goes to the selected operand only; at a tie value and derivative are those of the first operand.

*Theorems:* `min_max_value`, `min_max_gradient`, `select_locally`.

*Note:* For all float programs with min and max blocks anywhere, at all points: the replayed value is that of Python's min/max, and the computed gradient is the exact gradient of the program in which each min/max is replaced by the operand selected at that point (the first operand at a tie); away from ties this branch program equals the program near the point.

### C47 Hessian action is symmetric (partial)

For two directions u, w: <u, rf.hessian(w)> = <w, rf.hessian(u)> at twice continuously differentiable points.

*Theorems:* `hessian_symmetric_partial`, `mul_hessian_asymmetric`.

*Note:* False in general (products); proved for tapes of + - / ** neg min max and squares.

### C48 Duplicate dependencies (proved)

add_dependency(x, no_duplicates=True) never creates a second entry for the same variable, add_dependency(x) always appends, the order of first insertion is kept, and an operation applied to the same variable twice contributes both partial derivatives.

*Theorems:* `add_dependency`, `add_dependency_saves`, `duplicate_contributions`, `square_gradient`.

*Note:* For all sequences of add_dependency calls: the dependency list is the keep-first de-duplication requested; every occurrence contributes to the adjoint.

### C49 Garbage collection frequency has no effect on results (partial)

enable_checkpointing with any gc_timestep_frequency runs the same actions in the same order and gives the same values; a non-integer frequency is rejected.

*Theorems:* `CTape.gc_frequency_irrelevant_partial`, `CTape.zero_frequency_raises`, `CTape.noninteger_frequency_rejected`.

*Note:* Proved for every schedule, recording, use and non-zero frequency; frequency 0 raises ZeroDivisionError, proved as a refutation. Garbage collection itself is modelled as changing nothing reachable.

### C50 TensorFlow/graph export covers the tape (partial)

The exported graph has exactly one node per block and per variable used, an edge from each dependency to its block and from each block to each output, and nothing else; name_scope registers every block exactly once, under the scope it was created in.

*Theorems:* `Graph.create_graph_raises_iff`, `Graph.create_graph_exact`, `Graph.create_graph_paths`, `Graph.scopes_exactly_once`, `Graph.scopes_where_created_partial`, `Graph.nested_scope_loses_name`, `Graph.raised_scope_loses_name`, `Graph.tf_graph_exact_partial`, `Graph.tf_second_graph_stale`, `Graph.valid_name`, `Graph.valid_name_id`, `Graph.valid_name_empty_or_underscore`.

*Note:* networkx export: exact nodes, edges, labels and paths for every tape; KeyError exactly for tapes with a block without dependencies and outputs. Scopes: every block exported exactly once whatever happened before; under the scope it was created in for programs without nested scopes and without scopes left by an exception, and false otherwise (nested_scope_loses_name, raised_scope_loses_name). TensorFlow graph exact at the first export; false at the second (tf_second_graph_stale).

### C51 solve_adjoint computes the sensitivities of all states (partial)

solve_adjoint(J) leaves on every variable of the tape the adjoint value that a complete backward traversal from the seed on J produces.

*Theorems:* `solve_adjoint_computes_nothing`, `solve_adjoint_wrong`.

*Note:* The property is false for the code: the seed is put on the wrong object, so the sweep does nothing; both theorems establish this.

### C52 A reduced functional is the program re-run with new inputs (partial)

For a program of AdjFloat creations, literals and arithmetic recorded with annotation on, rf(x) is the value the program prints when run from the start in plain Python with x for the inputs. (False when a literal is divided by, or raised to the power of, an AdjFloat: such results are not recorded.)

*Theorems:* `Session.rerun_agrees_partial`, `Session.reflected_division_not_recorded`, `Session.reflected_power_not_recorded`.

*Note:* rerun_agrees_partial assumes no literal / AdjFloat and no literal ** AdjFloat; the two negations show that the assumption is needed (AdjFloat has no __rtruediv__ and no __rpow__).

### C53 rf.hessian refers to the last adjoint computed on the tape (proved)

rf.hessian(d), called right after rf.derivative(), is scale*adj_input times the Hessian action of the unscaled functional; hessian itself never applies the scale, so if the last derivative on the same tape was another reduced functional's, the Hessian carries that one's scale.

*Theorems:* `hessian_scaled_by_last_derivative`, `hessian_after_other_derivative`, `hessian_scale_missing`.

### C54 An evaluation does not depend on what was evaluated, differentiated or crashed before (proved)

The value rf(x) and the states it leaves behind depend only on x and on the values of the tape's inputs that are not controls, not on earlier evaluations at other points, earlier derivatives, or an earlier evaluation that raised an exception midway.

*Theorems:* `evaluation_history_independent`, `evaluation_after_crash`.

### C55 Values, gradients and Hessians do not depend on what was computed before (proved)

After rf(x), the value, the gradient and the Hessian action (computed after the gradient) are the same whatever was evaluated or differentiated before on the same tape, by this or another functional and with respect to any controls, including evaluations that raised at any point.

*Theorems:* `history_independent`, `hessian_of_saved`, `adj_of_saved`, `history_independent_blocks`.

*Note:* History: evaluations, crashed evaluations, derivatives of any functional, completed Hessian actions. Functional and controls on the tape. history_independent_blocks: the same for arbitrary user-defined blocks (history of completed evaluations, derivatives and Hessian actions). Derivatives or Hessians that raise are not part of the history (C03 has the crash form for gradients).

### C56 Tangents and Hessians through user-defined blocks are exact (proved)

If the tangent and Hessian components that a user supplies for each block class are right (the tangent component is the directional derivative of the block, the Hessian component the derivative of its adjoint component), then for every tape of such blocks evaluate_tlm gives the directional derivative of every recorded variable and compute_hessian / ReducedFunctional.hessian returns the derivative of the gradient in the given direction, after the functional and its derivative have been evaluated at the point.

*Theorems:* `tlm_exact_blocks`, `hessian_eq_deriv_gradient_blocks`, `hessian_exact_blocks`, `none_for_zero_hessian_wrong`.

*Note:* For every tape of blocks with right components that return a value (not None) for a dependency that varies. none_for_zero_hessian_wrong shows that this last condition cannot be dropped: a block returning None for a zero Hessian contribution makes the sweep skip every block before it.

### C57 Views (floating objects) behave as if recomputed on every read and written through on every write (proved)

For a program that uses active FloatingType objects, the recorded tape is well formed, and replaying it from any initial values gives every object the value the program computes when each view is recomputed from its arguments whenever it is read, and writes through to its targets whenever it is written; one use of a view records exactly one block for it and one for each view it is made from.

*Theorems:* `Floating.floating_tape_wf`, `Floating.floating_replay`, `Floating.floating_use_blocks`.

*Note:* For every configuration of views and every program; execution is given by an independent interpreter (Verif.Spec.Views).

### C58 Overloaded objects are created by the class registered last (proved)

After any history of register_overloaded_type calls, get_overloaded_class(c) returns the class whose registration for c was the last, and raises KeyError iff there was none; create_overloaded_object returns an overloaded object unchanged, converts an object of a registered class with the class registered last for exactly its type, and otherwise returns the object itself with a warning unless suppressed. An object of an (unregistered) subclass of a registered class is not converted.

*Theorems:* `Registry.registry_last_wins`, `Registry.create_overloaded`, `Registry.subclass_not_overloaded`.

*Note:* For every history of calls; a call that raises keeps the registrations made before the exception.

### C59 PETSc TAO is told the functional, its gradient and its Hessian, whatever it asked before (partial)

Control values and PETSc vectors are in one-to-one correspondence (the vector is the concatenation of the controls in order); the value and gradient the TAO callbacks report for a vector are the functional and its derivative at the controls the vector stands for, and the Hessian product is the derivative of the gradient at the point of the last Hessian callback plus the shifts since, independent of all earlier callbacks; solve starts at the control values, returns the controls of TAO's last vector, listed as the controls were, and raises TAOConvergenceError exactly if the reason is not positive.

*Theorems:* `Tao.to_petsc_concat`, `Tao.to_petsc_errors`, `Tao.from_petsc_split`, `Tao.petsc_round_trip`, `Tao.to_petsc_copy_lost`, `Tao.tao_bounds`, `Tao.tao_objective_history`, `Tao.tao_hessian_history`, `Tao.tao_gradient_exact_partial`, `Tao.tao_hessian_exact_partial`, `Tao.tao_unused_control_fails`, `Tao.tao_gradient_norm`, `Tao.tao_gradient_norm_needs_derivative`, `Tao.tao_solve`, `Tao.tao_changed_object_wrong`.

*Note:* Vectors are lists of numbers on one process. PETSc itself, and that sub-vectors obtained by getSubVector share storage with the vector, are trusted (to_petsc_copy_lost shows what happens if they do not). The successful callbacks are exact; tao_unused_control_fails shows that the gradient callback raises for a control that does not influence the functional. False for mutable control objects changed in place after their Control was made (tao_changed_object_wrong): TAOObjective reads control.control.block_variable, the variable the object has now, instead of control.block_variable, so TAO gets the derivative with respect to a later version (3x^6 instead of 9x^8), or a TypeError. tao_gradient_exact_partial and tao_hessian_exact_partial assume that this did not happen; the independence of earlier callbacks does not need that.

### C60 Plain Python numbers are accepted as adjoint inputs and directions (partial)

rf.derivative(adj_input=a), compute_gradient(..., adj_value=a), tangent directions and rf.hessian(d) accept a and d given as int, float or AdjFloat, and give what the AdjFloat of the same value gives.

*Theorems:* `plain_numbers_derivative_partial`, `tangent_returns`, `plain_numbers_hessian_partial`, `gradient_returned`, `tangent_stored`, `hessian_returned`, `int_seed`, `int_adj_input`, `int_direction`.

*Note:* False for ints: rf.derivative(adj_input=1) raises AttributeError for every functional (int_adj_input), compute_gradient with an int seed and rf.hessian with an int direction raise TypeError for J = x*x (int_seed, int_direction). Proved: floats and AdjFloats are accepted by the derivative, the tangent sweep and the Hessian and give the derivative at the numbers (plain_numbers_derivative_partial, tangent_returns, plain_numbers_hessian_partial); whatever the types, a sweep that returns has computed what the model over the reals computes (gradient_returned, tangent_stored, hessian_returned).

### C61 Derivatives are returned wherever the functional is differentiable (partial)

If the operations that depend on the controls are differentiable at their operands, rf.derivative, the tangent evaluation and rf.hessian return instead of raising ZeroDivisionError, TypeError or producing complex numbers.

*Theorems:* `gradient_returns`, `tangent_returns`, `hessian_returns_numbers`, `plain_numbers_hessian_partial`, `pow_zero_derivative`, `pow_one_hessian`, `hessian_raises`.

*Note:* False at x = 0.0 for x**0.0 (derivative raises ZeroDivisionError: pow_zero_derivative) and for the Hessian of x**1.0 (pow_one_hessian), and for Hessians of tapes with a / or ** the controls do not affect (hessian_raises). Proved with domain conditions that leave these out: the derivative and the tangents are returned if only the operations that depend on a control are differentiable (gradient_returns, tangent_returns), the Hessian if moreover every / and ** depends on a control and is twice differentiable (hessian_returns_numbers).

### C62 An optimisation run optimises the recorded functional (partial)

minimize(rf, scale=s) behaves as the chosen optimiser does on the mathematical function s*J with its exact gradient and Hessian action, started from the current control values: the same result, or an exception of the optimiser; afterwards the controls hold the result and the tape is evaluated there. IPOPTSolver.solve likewise.

*Theorems:* `optimiser_run_partial`, `ipopt_run_partial`, `optimiser_stale_gradient`, `derivative_after_minimize`, `ipopt_leaves_controls`, `minimize_unwraps`.

*Note:* Proved for every adaptive optimiser that asks for gradients and Hessian actions only at the point it evaluated last, where the tape is smooth and the Hessian formulas are right (C06). False otherwise: the derivative callbacks ignore the point they are given (optimiser_stale_gradient). After minimize the controls hold the result but the rest of the tape is that of the last evaluation, so that rf.derivative() is wrong (derivative_after_minimize); IPOPT leaves the controls as well (ipopt_leaves_controls); a list of one control comes back bare (minimize_unwraps).

### C63 An operation that raises while being recorded leaves no trace (proved)

If exp or log raise during recording and the program catches the exception and goes on, then for a functional and controls of the completed operations rf(m), rf.derivative(), tangent evaluation and rf.hessian(d) give exactly what they give for the program without the failed operations; in particular they do not raise for them.

*Theorems:* `failed_operations_harmless`, `failed_evaluateTlm`, `recordFailed_spec`, `failed_operation_resets`.

*Note:* For every AdjFloat tape with blocks left by failed operations, from every state with the same values. The blocks are on the tape nevertheless: they make the tape reset the adjoint values of their dependencies (failed_operation_resets).

### C64 Derivative and Hessian computations that raised do not affect later ones (partial)

After any number of evaluations, derivative computations and Hessian computations on a tape, some of which died with an exception at any point of any sweep and with respect to any controls, rf(x), rf.derivative() and rf.hessian(d) return what they would have returned on the tape as first recorded.

*Theorems:* `gradient_after_crashes`, `hessian_after_crashes_partial`, `hessian_exact_after_crashes_partial`, `crash_changes_hessian`.

*Note:* Values and gradients: proved for all histories. Hessians: false of the code (crash_changes_hessian: the markings left by a derivative with respect to another control change the Hessian of a product); proved when the computations that raised marked only values that depend on the present controls, and proved exact for all crashes when the operations have a right Hessian formula.

### C65 ROL vectors behave like vectors, and constraint adjoints are adjoints (partial)

Whatever sequence of vector operations (clone, plus, scale, dot, norm, reduce, element-wise functions) ROL performs on the vectors ROLSolver gives it, no operation on one vector changes another, clones are independent zero vectors, and all contents and returned numbers are those of mathematical vectors; bound vectors hold the user's bounds and leave the controls as they are; the adjoint Jacobian of constraints is the adjoint of the Jacobian.

*Theorems:* `Rol.rol_vectors_partial`, `Rol.rol_axpy_partial`, `Rol.rol_float_vectors`, `Rol.rol_float_raises`, `Rol.rol_float_witness`, `Rol.rol_bounds_partial`, `Rol.rol_bounds_float_raises`, `Rol.rol_constraint_adjoint_partial`, `Rol.rol_constraint_hessian_partial`, `Rol.rol_jacobian_ignores`, `Rol.rol_adjoint_stale`, `Rol.rol_constraint_two_controls_witness`, `Rol.rol_constraints_typeError`, `Rol.rol_dimension`, `Rol.rol_bounds_iff`.

*Note:* Proved for components of mutable types and, for constraints, for one control. False with AdjFloat controls (a clone is the vector itself, plus and scale do nothing, inner products raise TypeError) and for constraints with several controls (only the first component is passed and filled); both with witnesses.

### C66 Second derivatives and tangents of a checkpointed tape are those of the tape without checkpointing (partial)

On a tape recorded with a checkpoint schedule, ReducedFunctional.hessian (after the derivative it needs) and tape.evaluate_tlm give what the same program recorded without checkpointing gives, at the recorded control values and after evaluations at others.

*Theorems:* `CTape.checkpointed_hessian_zero`, `CTape.checkpointed_hessian_partial`, `CTape.checkpointed_hessian_raises`, `CTape.checkpointed_hessian_silent`, `CTape.checkpointed_tangent_partial`, `CTape.checkpointed_float_tangent_partial`, `CTape.checkpointed_tangent_stale`, `CTape.affine_tangent_partial`, `CTape.affine_program_tangent_partial`.

*Note:* False of the code for Hessians: the reverse sweep deletes the adjoint values that compute_hessian needs. Proved: a Hessian that is returned for AdjFloat operations is always zero; at the recorded values it is the one without checkpointing or TypeError is raised, and it is raised whenever the true Hessian is not zero; blocks of the user that treat a missing adjoint as zero give a silent zero (witness). Tangents are right at the recorded values after any evaluations and derivatives there, and wrong after an evaluation at other values (witness). For programs affine in the controls tangents are right at every point, after any history and under every schedule, and are the directional derivatives of the program as written.

### C67 Callbacks of a reduced functional watch without disturbing, and cannot break it (partial)

The callbacks given to ReducedFunctional (before and after evaluations, derivatives and Hessians) are each called once per request, in order, with the values the user passed and the results the user gets. Callbacks that only watch change no result. Whatever callbacks do and wherever they raise, the annotation state is as before, operations done inside them are not recorded, and later evaluations, derivatives and Hessians are those of the recorded program.

*Theorems:* `Cb.annotation_restored`, `Cb.evaluation_records_nothing_partial`, `Cb.watching_changes_nothing`, `Cb.default_callbacks`, `Cb.default_answers`, `Cb.callbacks_history_independent`, `Cb.callbacks_cannot_change_value`, `Cb.callbacks_are_told`, `Cb.derivative_callback_records`, `Cb.derivative_callback_checkpoint`.

*Note:* Proved for all callbacks, requests and tapes of blocks with the default sweeps. False of the code for recording: ReducedFunctional.derivative runs its callbacks annotated, every operation in them is added to the tape (derivative_callback_records). The functional value given to derivative and Hessian callbacks is unscaled, and None before the first evaluation (derivative_callback_checkpoint), the one given to eval_cb_post is scaled. Sweeps that raise on their own and checkpoint managers are in C64 and C27.

### C68 Programs that read NumPy arrays (partial)

For a program that makes overloaded arrays and numbers, reads entries and parts of arrays and computes a number from those read, ReducedFunctional(J, controls)(xs) is the scaled value that NumPy computes when the program is run with the control values xs, and derivative() after it gives, for every control, the array of the partial derivatives with respect to its entries.

*Theorems:* `Arr.array_replay_partial`, `Arr.array_gradient_exact_partial`, `Arr.array_arithmetic_is_not_recorded`, `Arr.array_assignment_is_not_recorded`, `Arr.repeated_position_gradient_wrong`, `Arr.scaled_array_functional_changes_control`, `Arr.constant_array_functional_drifts`.

*Note:* Proved after any evaluations and derivative computations, for programs that only read arrays and compute with the numbers read. False for programs with NumPy arithmetic on arrays, assignments to entries, or indices that repeat a position, and for a scaled functional that is an array the program does not compute (witnesses). Tangents and Hessians of reads are not implemented in the code.

### C69 Memory under checkpointing: stored data and working memory follow the schedule (proved)

With enable_checkpointing(schedule), a time step holds stored checkpoint data only if some action of the schedule performed so far (while recording, evaluating or differentiating) writes data of that step to RAM or disk and no Move action performed later deleted them. After every evaluation of a reduced functional, working memory holds the value of no operation of the tape except the functional itself and what an action of the schedule keeps in working memory for the adjoint of its steps, unless the schedule is SingleMemoryStorageSchedule. A Reverse action removes from working memory the results of the operations of the steps it reverses if its flag clear_adj_deps says so, and no other value.

*Theorems:* `CTape.storage_follows_schedule`, `CTape.evaluation_working_memory`, `CTape.single_memory_keeps`, `CTape.reverse_frees_exactly`.

*Note:* storage_follows_schedule: stored data of a step were written by a performed action and not deleted since. evaluation_working_memory: what is left in working memory after an evaluation. single_memory_keeps shows that the schedule that keeps everything in memory has to be excluded from the second part. reverse_frees_exactly: what a Reverse action removes from working memory, on every tape in every state.

### C70 Reduced functionals on several tapes that share variables (proved)

Values recorded on one tape may be read by operations recorded on another (set_working_tape), and several reduced functionals may be built on one tape. After any sequence of evaluations (also failing ones), derivatives and Hessian actions through any of these reduced functionals, in any order and on any tapes, calling rf(x) and then derivative() and hessian() gives the values it gives with none of those calls before, provided no evaluation in the sequence writes a constant of rf, that is, a value its tape reads but neither computes nor has as a control. The provisos are needed: without a new rf(x) the derivative may mix values of two evaluations, and an evaluation that writes a constant of rf changes rf.

*Theorems:* `several_tapes_independent`, `derivative_mixes_tapes`, `other_tape_changes_constant`.

*Note:* Heap of shared block variables, any number of AdjFloat tapes. derivative_mixes_tapes and other_tape_changes_constant show that the two provisos are needed: a derivative without a new evaluation after a call on another tape is wrong (54 instead of 12 or 75), and an evaluation that writes a constant changes the functional.

### C71 Optimising a tape with checkpointing (partial)

A tape recorded with a checkpointing schedule may be optimised for a reduced functional (rf.optimize_tape()) at any time after the recording has ended, also between evaluations and derivatives. After any history of evaluations, derivatives and optimisations, rf(x) succeeds and gives the value of the functional in the run of all recorded operations at x, and the derivative is that of the program as recorded without checkpointing. (The second half is false away from the recorded control values: the first derivative after the optimisation is computed from recorded values of intermediate variables, without an error.)

*Theorems:* `CTape.optimised_value_partial`, `CTape.optimised_gradient_partial`, `CTape.optimised_steps`, `CTape.optimised_gradient_stale`, `retained_iff`.

*Note:* Values after any history of evaluations, derivatives and optimisations are those of the recorded program (hypotheses as in C25: the recorded value of the functional is not falsy, taping has ended; recomputation of recorded values is faithful). Derivatives at the recorded control values are right. Derivatives at other values are false of the code: optimised_gradient_stale gives a program and a schedule whose derivative is right (5103) before the optimisation and wrong (3628) directly after it.

### C72 A computation calls a block's own methods once, and only for the blocks that matter (proved)

Evaluating a reduced functional prepares each block that does not compute a control once and asks it once for each of its outputs, in the order of the tape. Computing a gradient prepares and asks only blocks with an input computed from a control and an output that the functional is computed from, in reverse order, once for each such input. Computing a Hessian asks for tangents only where an input is computed from a control, once per output and in order, and then for second derivatives under the same conditions as the gradient. If no component returns None, all these calls are made. If what a block prepares serves each component as if it had been prepared for it alone, values, gradients and Hessians equal those computed without preparation.

*Theorems:* `HTape.hooks_eval`, `HTape.hooks_gradient`, `HTape.hooks_hessian`, `HTape.evaluation_calls`, `HTape.gradient_calls`, `HTape.hessian_calls`, `HTape.calls_once`.

*Note:* Blocks with all hooks and a record of the calls made. The value theorems relate them to the blocks of the other properties, for preparations that serve each component as if prepared for it alone.

### C73 minimize and IPOPTSolver pass on the caller's arguments and leave the caller's dictionaries alone (partial)

minimize gives the chosen method the caller's bounds laid out entry by entry, the gradient with the caller's derivative_options if the method uses gradients, the Hessian action if it uses Hessians, the caller's options completed by defaults, the constraints, and every other keyword argument unchanged; an unknown method or a missing algorithm raises KeyError. The dictionaries the caller passed are the same afterwards, so that running again gives the method the same arguments. IPOPT gets the caller's parameters under its own names and maximises exactly if the problem is a maximisation problem.

*Theorems:* `minimize_hands_over_partial`, `minimize_calls_iff`, `unknown_method`, `custom_hands_over`, `minimize_again`, `basinhopping_hands_over`, `basinhopping_ignores_bounds`, `basinhopping_needs_kwargs`, `basinhopping_again_transposed`, `basinhopping_again_refused`, `options_leak`, `ipopt_options`, `ipopt_maximization_lost`, `bounds_given_iff`.

*Note:* What is handed over is proved exactly for all methods and keyword arguments. False of the code: the caller's options dictionary is changed (harmless for the same method, minimize_again, but SLSQP leaves iprint for later methods, options_leak); basinhopping ignores the keyword bounds, raises KeyError without minimizer_kwargs, and replaces the bounds in minimizer_kwargs, so that a second run has transposed bounds for two numbers as controls (basinhopping_again_transposed) and raises ValueError otherwise; obj_scaling_factor among the parameters turns a maximisation for IPOPT into a minimisation (ipopt_maximization_lost).

### C74 Copies made by copy.deepcopy and pickle behave like the original and apart from it (partial)

Copying a tape together with its variables, controls and reduced functionals (copy.copy, copy.deepcopy, or pickling and unpickling) gives objects of the same classes. The copied tape has the copied blocks and timesteps, a reduced functional on it gives in any sequence of evaluations, derivatives and Hessian actions what the original gives in that sequence, and none of these calls changes a variable of the original. Looking up an attribute on a control or on a ReducedFunctionalNumPy gives its own attribute, else that of the object it wraps.

*Theorems:* `Copying.copied_tape_behaves_partial`, `Copying.unpickled_tape`, `Copying.deepcopy_blocks`, `Copying.deepcopy_timesteps`, `Copying.deepcopy_timesteps_iff`, `Copying.copy_of_deepcopy_doubles`, `Copying.deepcopied_tape_gradient_doubled`, `Copying.control_copy_raises`, `Copying.numpy_copy_raises`, `Copying.control_deepcopy_of_array`, `Copying.control_never_deepcopied`, `Copying.plain_copy`, `Copying.forwarded_lookup`, `Copying.bare_lookup_recurses`, `Copying.record_timesteps`.

*Note:* False of the code for controls, for ReducedFunctionalNumPy and for deep copies of tapes; these are the exact results. copied_tape_behaves_partial: a tape copied with its variables behaves like the original in every sequence of calls and does not touch it. unpickled_tape: pickling keeps blocks and timesteps. copy.deepcopy(tape) appends all blocks to the last timestep again (deepcopy_timesteps), for every non-empty tape (deepcopy_timesteps_iff), so that Tape.copy() of it has every block twice (copy_of_deepcopy_doubles) and gradients double (deepcopied_tape_gradient_doubled). No control can be copied or unpickled (control_copy_raises, control_never_deepcopied, control_deepcopy_of_array), nor a ReducedFunctionalNumPy (numpy_copy_raises). Python's copy protocol is part of the trusted reading of the code.

### C75 Values passed to and returned by a reduced functional belong to the caller (partial)

The object passed as a control value may be changed by the caller after the call, and the object returned by an evaluation may be changed, without any effect on what later evaluations, derivatives and Hessian actions give, on the values held from other calls, or on what the caller still holds; and no later call changes an object the caller holds. Everything the caller sees is as if each object were an independent value.

*Theorems:* `Own.callers_values`, `Own.callers_values_partial`, `Own.returned_array_is_the_tapes`, `Own.scaling_changes_the_tape`, `Own.scaling_changes_the_control`.

*Note:* callers_values proves it without restriction for types that copy on restoring and for types whose *= makes a new object (AdjFloat). False for numpy_adjoint.ndarray, whose _ad_restore_at_checkpoint returns the checkpoint itself: changing the returned array changes later derivatives (returned_array_is_the_tapes), and a scale other than 1 does so without the caller changing anything (scaling_changes_the_tape, scaling_changes_the_control). callers_values_partial: for such types it holds for all sequences in which the caller changes only objects it made itself, with scale 1. Derivative values as objects are in Verif.Model.Aliasing; views of arrays are not modelled.

### C76 Derivatives returned and directions given belong to the caller (partial)

A derivative or Hessian action returned by a reduced functional stays as it was returned until the caller changes it, whatever is computed afterwards; and the caller may change it, or a direction it passed, at any time without an effect on later derivatives, Hessian actions, values, or on other results it holds. Everything the caller sees is as if results and directions were independent values.

*Theorems:* `DWorld.caller_owns_derivatives_partial`, `DWorld.intermediate_derivative_is_the_tapes`, `DWorld.derivatives_of_a_sum_shared`, `DWorld.derivatives_of_repeated_control_shared`.

*Note:* For types whose values are changed in place and whose _ad_convert_type returns the value it was given (numpy_adjoint.ndarray): caller_owns_derivatives_partial proves it for all sequences if controls are distinct inputs of the tape and blocks return new objects for adjoint and Hessian components (they may hand on tangent values). False otherwise: a derivative with respect to an intermediate variable is the object the Hessian sweep reads (intermediate_derivative_is_the_tapes), a block that hands on its adjoint input makes derivatives share one object (derivatives_of_a_sum_shared), and so does a control given twice (derivatives_of_repeated_control_shared). The Riesz map of other types and compute_gradient called with the caller's own object as adj_value are not modelled here (for the latter see inplace_seed_changed, C41).

### C77 ROL is told the functional, its gradient and its Hessian at the point it stands at (partial)

Whatever updates, values, gradients and Hessian actions ROL asks for, in whatever order: value() is the functional and gradient the gradient at the point the updates lead to (the last point evaluated, or the accepted point after Revert), as computed on the tape as recorded, and hessVec is the second derivative there in the direction asked for. checkGradient compares with the gradient at its point.

*Theorems:* `Rol.rol_told`, `Rol.told_at_gradient`, `Rol.rol_hessian_partial`, `Rol.check_gradient`, `Rol.hessian_after_temp`, `Rol.hessian_after_accept`, `Rol.hessian_without_gradient`.

*Note:* rol_told gives what every call tells, for all sequences in which Accept follows a trial and Revert an accepted point (for the others see C31): values and gradients are those of the current point; Hessian actions are what the second-order sweep makes of the values at the current point and the adjoint values of the last gradient. Hence (rol_hessian_partial) hessVec is the second derivative if the last gradient was asked for at the current point, also with rejected trials in between. It is not otherwise: after a gradient at a temporary point and Revert (hessian_after_temp), at a new point before the gradient there (hessian_after_accept), or before any gradient (hessian_without_gradient).

### C78 ROL's vector of controls is its own, starting at the values on the tape (partial)

ROLSolver(problem).solve() starts at the values of the controls on the tape, and whatever ROL then writes to its vector between evaluations, derivatives and Hessian actions, each of these refers to the values the vector had when the functional was last evaluated, and what solve returns is what ROL last wrote.

*Theorems:* `Own.rol_vector_copied`, `Own.rol_vector_partial`, `Own.vector_changed_before_the_first_evaluation`, `Own.two_vectors_of_one_tape`.

*Note:* rol_vector_copied: for types that copy on restoring it holds without conditions on what ROL does. rol_vector_partial: for types that do not copy it holds from the first evaluation on, if the checkpoints of the controls are objects of their own; the first evaluation replaces them on the tape by copies. Before that a write to the vector is a write to the tape and changes derivatives (vector_changed_before_the_first_evaluation), and two solvers made of one functional share their vector (two_vectors_of_one_tape).

### C79 Disk checkpointing writes to disk exactly what the schedule puts there (partial)

A package that stores checkpoints on disk (TapePackageData) is told to write to disk exactly while the data of a timestep are stored for a schedule action whose storage is the disk. Recording, setting controls, recomputing blocks, restoring and adjoints happen while it is told to keep values in memory, so that working memory is never on disk, and so it is left when the operation returns. What an evaluation stores, and on which medium, is what the actions of the schedule say.

*Theorems:* `CTape.disk_bracketed_partial`, `CTape.disk_paused`, `CTape.disk_bracketed_on`, `CTape.evaluation_stores`, `CTape.adjoint_stores`, `CTape.on_until_the_first_disk_action`, `CTape.disk_left_on`, `CTape.read_after_reset`.

*Note:* Holds from enabling checkpointing on for all schedules, programs and evaluations and at every point of them, up to the first exception, if the package keeps values in memory when checkpointing is enabled (disk_bracketed_partial, disk_paused) or the first action stores on disk (disk_bracketed_on); evaluation_stores and adjoint_stores say what is stored where. False if the package was writing to disk and the first actions are not on disk (on_until_the_first_disk_action) and after an exception while values are stored (disk_left_on). read_after_reset: an evaluation reads data stored before the package was reset.

### C80 Derivatives computed by hand, as documented, are the derivatives (partial)

Following the documentation, a user can do without the drivers: put a weight into y.block_variable.adj_value, call tape.evaluate_adj(), and x.block_variable.adj_value is the gradient of the weighted y; put a direction into x.block_variable.tlm_value, call tape.evaluate_tlm(), and y.block_variable.tlm_value is the directional derivative. Several results may be weighted at once, which gives the derivative of the weighted sum, and evaluate_adj(last_block=k) gives the derivatives by the values that the rest of the program, from block k on, starts from.

*Theorems:* `Hand.gradient_by_hand_partial`, `Hand.gradient_by_hand_fresh`, `Hand.tangent_by_hand_partial`, `Hand.last_block_by_hand`, `Hand.seeds_add`, `Hand.recipe_adds_leftovers`, `Hand.recipes_accumulate`.

*Note:* Proved for AdjFloat tapes for all histories if tape.reset_variables() (tape.reset_tlm_values()) comes first, or if no derivative was computed before. The documented recipes have no reset: in general they add what earlier sweeps left, propagated to the inputs (recipe_adds_leftovers, an identity for every state), so the second use is wrong (recipes_accumulate).

### C81 Pauses of annotation are counted (partial)

The documentation says that if pause_annotation() is called twice, continue_annotation() must be called twice to enable annotation again: a function that pauses and continues annotation around its own work can be called from code that has paused it.

*Theorems:* `Ctx.switches_last_decides_partial`, `Ctx.pauses_are_not_counted`.

*Note:* False of the code, which has a flag and no counter: the last call decides (switches_last_decides_partial), a single continue_annotation() undoes any number of pauses (pauses_are_not_counted). stop_annotating does nest (C13).

### C82 A copy of a checkpointed tape is an ordinary tape of the same program (partial)

tape.copy() of a tape with checkpointing has the same operations and no checkpointing. A reduced functional on the copy evaluates and differentiates the recorded program as if it had been recorded without checkpointing, whatever was done with the original and with other copies; and using a copy does not disturb the original.

*Theorems:* `CTape.copy_value_and_gradient`, `CTape.value_after_copies_partial`, `CTape.copy_derivative_stale`.

*Note:* Evaluations on copies, and derivatives on a copy that follow an evaluation on it, are right for all programs, schedules and interleavings (copy_value_and_gradient); evaluations on the original stay right under the hypotheses of C25 (value_after_copies_partial). A derivative on the copy that does not follow an evaluation on the copy is wrong: checkpointing has cleared values and the copy has no manager to recompute them (copy_derivative_stale). Hypothesis that all functionals involved have the same controls, as in C25.

### C83 Optimisation with checkpointing takes the steps it takes without (partial)

Checkpointing is transparent to optimisers and to all code that calls a reduced functional: code that evaluates rf(x) and rf.derivative() and chooses its next call from the answers returns the same result whether the tape was recorded with a checkpoint schedule or without.

*Theorems:* `CTape.checkpointed_client_partial`, `CTape.client_on_copy`, `CTape.multistage_descent_wrong`.

*Note:* Proved for schedules that store what every adjoint needs, controls that every time step uses, a functional recorded with a truthy value, and clients that ask for derivatives directly after evaluations (checkpointed_client_partial); on tape.copy() proved for every schedule (client_on_copy). False for the standard multistage schedule: gradient descent takes another first step (multistage_descent_wrong).

### C84 Adjoint sweeps driven by hand work with checkpointing (partial)

The documented recipe `J.block_variable.adj_value = w; tape.evaluate_adj()` leaves the same adjoint values on a tape with a checkpoint schedule as on one without, and does not disturb derivatives computed later.

*Theorems:* `CTape.by_hand_sweep_partial`, `CTape.by_hand_recipe_partial`, `CTape.derivative_after_by_hand_partial`, `CTape.by_hand_twice`, `CTape.by_hand_spoils_derivative`, `CTape.by_hand_again_wrong`, `CTape.by_hand_intermediate_lost`.

*Note:* Proved for histories whose evaluations use the control values of the recording: what a sweep leaves is characterised exactly (by_hand_sweep_partial), the recipe after a reset agrees with the one without checkpointing on variables that no operation computes (by_hand_recipe_partial), and derivatives stay right (derivative_after_by_hand_partial). False otherwise: a first sweep by hand silently spoils later derivatives at other values (by_hand_spoils_derivative) and later sweeps by hand (by_hand_again_wrong); adjoint values of computed variables are lost (by_hand_intermediate_lost); a second sweep without an evaluation raises (by_hand_twice).

### C85 Tangents and Hessian actions are linear in the direction (proved)

rf.hessian(a*d + b*e) = a*rf.hessian(d) + b*rf.hessian(e), and likewise for tangents, also where the Hessian is not the second derivative (C06); whether rf.hessian raises does not depend on the direction. Krylov solvers (Newton-CG, TAO, ROL) rely on it.

*Theorems:* `rf_hessian_linear`, `float_hessian_linear`, `tangents_linear`, `hessian_linear_in_direction`.

*Note:* rf_hessian_linear: three calls in sequence; if the first returns so do the others. float_hessian_linear: from any three states that differ in tangent and Hessian values only; all raise or none. hessian_linear_in_direction: blocks of the user with linear methods.

### C86 What a reduced functional says about a control does not depend on its other controls (partial)

Two ReducedFunctionals of the same functional on one tape agree on the controls they share: listing the controls in another order, or adding a control that is given the value it already has (and direction 0), changes neither the value of the functional, nor the derivative with respect to a control, nor the Hessian action.

*Theorems:* `evaluation_of_same_inputs`, `derivative_control_by_control`, `derivative_of_same_inputs`, `hessian_of_permuted_controls`, `hessian_of_same_inputs_partial`, `further_control_changes_hessian`.

*Note:* Values and derivatives: all tapes and lists of controls. Hessians: the order of the controls does not matter on any AdjFloat tape; further controls do not matter where the Hessian formulas are right (HessSafe), and do matter otherwise: further_control_changes_hessian, J = (x*c)**2 at c = 5 as (x*c)*(x*c): the Hessian with respect to x is 10x for the control x, and 50 if c is a control too.

### C87 Derivatives with respect to controls computed from one another (partial)

A ReducedFunctional may list variables as controls that the program computes from other controls. rf.derivative(), the tangents of evaluate_tlm and rf.hessian() are then still the derivatives of rf, or the combination is rejected.

*Theorems:* `derivative_of_any_controls_partial`, `derivative_of_computed_controls_partial`, `computed_control_wrong_derivative`, `tangent_of_any_controls`, `computed_control_wrong_second`.

*Note:* False of the code: computed_control_wrong_derivative (y = x + x, J = y*y, controls x and y: rf(x, y) = y*y, the derivative returned is [4y, 2y] instead of [0, 2y]; only optimize_tape rejects it, C09). What is returned instead, for all tapes of correct blocks and all choices of controls: each component is the derivative of the reduced functional with that control alone, the other controls being left to the program (derivative_of_computed_controls_partial), and with operations corrected by constants where the values given to computed controls are not those computed (derivative_of_any_controls_partial). Tangents: the tangent of a variable is the sum over the controls of its directional derivatives with that control alone (tangent_of_any_controls), so tangents and Hessians of rf are wrong too (computed_control_wrong_second: in the same program, direction (a, b) gives tangent 2y(2a+b) instead of 2yb and Hessian [4(2a+b), 2(2a+b)] instead of [0, 2b]).

### C88 Programs in parts: chain rule, rules of calculus, later operations (partial)

Functionals may be combined by further recorded operations: the derivative of J1+J2, J1-J2, J1*J2, J1/J2, f(J1) returned by compute_gradient is the combination of the derivatives by the rule of calculus. A program recorded in two parts (on one tape or two) may be differentiated in two stages, handing the derivative with respect to the intermediate values to the first part as adj_input. Recording further operations after J changes neither its value nor its derivative nor its Hessian action.

*Theorems:* `gradient_in_two_stages`, `gradient_on_two_tapes_partial`, `two_stages_stale`, `gradient_of_last_operation`, `binary_rule`, `unary_rule`, `calculus_rules`, `value_before_later_operations`, `gradient_before_later_operations`, `hessian_before_later_operations`, `derivatives_before_later_operations`.

*Note:* Rules of calculus (calculus_rules, binary_rule, unary_rule; for user-defined blocks with additive adjoints gradient_of_last_operation), later operations (value, gradient, Hessian action) and differentiation in two stages from one state (gradient_in_two_stages) hold for all programs. Two stages one after the other on two tapes: proved when the controls occur on the first tape (gradient_on_two_tapes_partial); false otherwise (two_stages_stale): a control used only by the second part keeps the adjoint value left by it, since compute_gradient resets only variables on its own tape, and get_derivative reports it as derivative of the first part.

### C89 Programs that change objects in place (partial)

Overloaded objects may be mutable: an annotated operation may store its result in an existing object, possibly one of its inputs, and values may be changed inside stop_annotating(modifies=...). A ReducedFunctional of such a program returns what the program computes when it is run again with the versions of the objects the Controls were made of at the new values, and rf.derivative() is the derivative of that. A Control of a mutable object represents the value at the time of its creation. What the program does afterwards does not change what an existing ReducedFunctional computes.

*Theorems:* `InPlace.in_place_replay`, `InPlace.in_place_gradient`, `InPlace.in_place_recording`, `InPlace.in_place_wellFormed`, `InPlace.control_data_partial`, `InPlace.control_value_partial`, `InPlace.control_data_missing`, `InPlace.control_value_overwritten`, `InPlace.unannounced_change_missed`, `InPlace.in_place_tangent`, `InPlace.in_place_hessian`, `InPlace.in_place_later_partial`, `InPlace.functional_follows_object`, `InPlace.in_place_recorded_values`.

*Note:* Values and derivatives of reduced functionals are proved for all such programs (in_place_replay, in_place_gradient), also tangents and Hessians (in_place_tangent, in_place_hessian). The value a Control represents: c.data() is the value at creation or None, c.tape_value() is it if that version was read by an operation or never overwritten (control_data_partial, control_value_partial); false in general (control_data_missing: the last line of the documentation's example gives None instead of 3.0; control_value_overwritten: tape_value() is the value the object was overwritten with). unannounced_change_missed shows that the announcement of changes is necessary. What is done after rf was made, changes of the control objects included, does not matter to rf(x) as long as the functional's own object is not written (in_place_later_partial); if it is, the existing rf computes the new version instead (functional_follows_object). in_place_recorded_values: called with the values the objects had when the controls were made, rf returns exactly the value the program computed, for any type of values, floating-point numbers included.

### C90 Mutable objects under checkpointing (partial)

Enabling checkpointing does not change what a ReducedFunctional returns for programs that change objects in place or inside stop_annotating(modifies=...): rf(x) is the value of the functional in the recorded operations at the new control values, and rf.derivative() its derivative, although the objects the tape refers to have been overwritten since.

*Theorems:* `CTape.in_place_checkpointed_value_partial`, `CTape.overwritten_forcing_value_wrong`, `CTape.in_place_gradient_wrong`, `CTape.recorded_result_overwritten`, `CTape.in_place_stored_gradient_partial`, `CTape.overwritten_forcing_stored_wrong`.

*Note:* False in general. Values are proved for all well-formed schedules if whatever is changed is a control or the result of an operation, during recording and later (in_place_checkpointed_value_partial); derivatives for schedules that store what every adjoint needs, with controls used in every step, if whatever is changed is a control or depends on the controls (in_place_stored_gradient_partial). overwritten_forcing_value_wrong and overwritten_forcing_stored_wrong: a forcing set anew in each step inside stop_annotating(modifies=f) gives a wrong value and a wrong derivative at the recorded point. in_place_gradient_wrong: with operations in place only, under a multistage schedule the derivative after an evaluation at the recorded point is 128 instead of 32. Results are saved with the operation only under actions that store adjoint data (recorded_result_overwritten).

### C91 Sweeping by hand leaves the recorded program as it is (partial)

A program that sets tlm_value, adj_value or hessian_value of some variables and calls tape.evaluate_tlm(), tape.evaluate_adj() and tape.evaluate_hessian(), as documented, gets the derivatives of the recorded operations, and the tape is the recorded program afterwards: it has the same operations, and values, derivatives and Hessian actions of every functional recorded before are what they would have been.

*Theorems:* `HandRec.sweep_by_hand_tangents_partial`, `HandRec.sweep_by_hand_records`, `HandRec.sweeps_by_hand_keep_functionals_partial`, `HandRec.sweeps_by_hand_grow`, `HandRec.hessian_by_hand_values`, `HandRec.hessian_by_hand_records`, `HandRec.calls_by_hand_keep_functionals_partial`, `HandRec.calls_by_hand_values`.

*Note:* Tangents (sweep_by_hand_tangents_partial) and everything later computed by functionals recorded before (sweeps_by_hand_keep_functionals_partial) are proved. That the tape has the same operations is false: PowBlock.evaluate_tlm is not decorated with no_annotations and computes exponent_value - 1, which is recorded, once for every power whose base has a tangent (sweep_by_hand_records, an exact count), so that n sweeps over x**3 make the tape n operations longer (sweeps_by_hand_grow). Directions are Python floats, and there is no checkpointing. Hessian sweeps by hand record as well (two or four subtractions for each power with a Hessian value); their values are right, and calls of every kind by hand keep the functionals recorded before. Any sequence of assignments, sweeps and resets by hand gives, on the variables of the program, the values, tangents, adjoints and Hessian values of the same calls on the tape without what has been recorded since, and raises in the same cases (calls_by_hand_values).

### C92 Unsuitable arguments are refused and a refusal leaves no trace (partial)

Calling a reduced functional with the wrong number of control values raises ValueError, with a value whose class does not suit its control raises TypeError naming the first such value, and asking for a Hessian with the wrong number of directions raises. A refused request runs no callback, changes nothing, and later requests have the outcomes they would have had without it.

*Theorems:* `Cb.call_refused_iff`, `Cb.refused_calls_can_be_left_out`, `Cb.too_many_directions_partial`, `Cb.too_few_directions`, `missing_directions_are_zero`, `few_directions_after_derivative_partial`, `repeated_control_direction`.

*Note:* Evaluations: proved in full, for all classes and callbacks (call_refused_iff is an equivalence for both exceptions, including the index in the message; refused_calls_can_be_left_out). Hessians: too many directions raise IndexError, but only after hessian_cb_pre has run and the tangents on the tape have been changed; later requests are not affected (too_many_directions_partial, for controls on the tape and callbacks that do not look at tangents and Hessian values). False for too few directions, which are accepted silently (too_few_directions). On all AdjFloat programs the missing ones then count as zero, if their controls are on the tape and not given twice (missing_directions_are_zero; few_directions_after_derivative_partial: after a derivative the call does return; repeated_control_direction shows that the last condition is needed). The checks use the classes of the controls' objects at the time of the call; numbers are accepted for AdjFloat controls only if the class is AdjFloat itself, not a subclass.


## Where the code does not satisfy the natural property

Each line names the theorem that exhibits it in the model (`Pyadjoint.` omitted), or says that it was only read.

* `MulBlock`'s Hessian uses the same product for both directions and drops a term: `mul_hessian_wrong`, `mul_hessian_asymmetric`.
* `ExpBlock`, `LogBlock` Hessians are wrong: `exp_hessian_wrong`, `log_hessian_wrong`.
* Subtraction, quotient, power and negation ignore the markings in the Hessian sweep and raise: `hessian_raises`.
* Min/Max give no tangent to an output if the selected operand has none: `min_missing_tangent`.
* Dependent or repeated controls give wrong gradients: `dependent_controls_wrong_gradient`, `duplicate_controls_wrong_gradient`.
* A control that is not on the tape reports whatever adjoint value is left on it: `stale_gradient_off_tape`, `optimize_stale_derivative`.
* `optimize` changes the value if stored values are not consistent: `optimize_changes_value`.
* `derivative_components`: order, repetition, negative and single components: `derivative_components_order`, `_repeated`, `_negative`, `_single`; the zeros are annotated: `Session.derivative_annotates_zeros`.
* `hessian()` uses the adjoint values of the last derivative, of whatever functional and scale: `hessian_scale_missing`, `hessian_after_other_derivative`.
* `maximize` of a `ReducedFunctionalNumPy` minimises: `maximize_numpy_minimises`, `maximize_numpy_witness`; the scale stays changed: `maximize_leaves_scale`.
* `ReducedFunctionalNumPy.derivative` ignores the point it is given; its Hessian discards the adjoint input: `numpy_derivative_ignores_point`, `numpy_hessian_discards_adjoint`.
* Optimisers: derivative callbacks ignore the point (`optimiser_stale_gradient`); after `minimize` the controls hold the result but the tape that of the last evaluation, `rf.derivative()` mixes the two (`derivative_after_minimize`); IPOPT does not write the controls (`ipopt_leaves_controls`); `minimize` returns a list of one control bare (`minimize_unwraps`).
* Leftover markings (C64): `Tape.marked_nodes` has no `finally`: a derivative or Hessian computation that raises leaves its path marked for ever (until a later computation on a superset of the path). Gradients do not notice, but `MulBlock.evaluate_hessian_component` does: after a derivative with respect to `c` that raised, the Hessian of `(x*c)**2` with respect to `x` is `2 c**2` instead of the (wrong) `2 c x` returned before (`crash_changes_hessian`).
* `solve_adjoint` seeds an attribute of the wrong object: `solve_adjoint_computes_nothing`, `solve_adjoint_wrong`.
* `set_working_tape` as a bare decorator leaks the tape made at first entry: `Ctx.set_working_tape_decorator_leaks`.
* `stop_annotating(modifies=...)`: the recorded output's saved value changes with the object: `Ctx.modified_output_changes`.
* `timestepper` on a fresh tape puts the second iteration's blocks in step 0 if the first records nothing: `timestepper_first_empty`.
* Hessians on checkpointed tapes: the reverse sweep of the derivative deletes the adjoint values that `compute_hessian` needs.  A nonzero
  Hessian of `AdjFloat` operations raises `TypeError` (`checkpointed_hessian_raises`); blocks that accept a missing adjoint value give a
  silent zero (`checkpointed_hessian_silent`).
* Tangents on checkpointed tapes after an evaluation at new values use the old intermediate values: `checkpointed_tangent_stale`.
* `Tape.copy` shares the sets of checkpointable states: `copy_shares_state`.
* `clear_tape` keeps eager storing on (`PTape.clear_tape_eager_persists`) and `latest_checkpoint` (`PTape.clear_tape_latest_persists`).
* `checkpoint_block_vars` without controls: `restore_without_controls`.
* Plain numbers as controls: the converted value is discarded: `int_control_refused`, `float_intermediate_control`, `int_denominator`, `int_numerator`.
* `int`s as seeds and directions: `rf.derivative(adj_input=1)` raises `AttributeError` (`int_adj_input`), `compute_gradient(..., adj_value=1)` and `rf.hessian(1)` raise `TypeError` (`int_seed`, `int_direction`).
* `x ** 0.0` at `0.0` has no derivative and `x ** 1.0` no Hessian: `ZeroDivisionError` (`pow_zero_derivative`, `pow_one_hessian`).
* `literal / AdjFloat` and `literal ** AdjFloat` are not recorded: `Session.reflected_division_not_recorded`, `Session.reflected_power_not_recorded`.
* Checkpointing: a functional recorded with value 0 is stale, evaluation before the end of the recording is stale: `CTape.zero_functional_stale`, `CTape.first_evaluation_stale`; gradients after an evaluation at other controls: `CTape.multistage_gradient_stale`, `CTape.unused_control_gradient_stale`, `CTape.single_memory_gradient_stale`; the first derivative fixes which variables are stored for the adjoint (`_revised_adj_deps` is never reset), so derivatives with respect to other controls are silently wrong after an evaluation at new values: `CTape.other_controls_gradient_stale`; an exception in the first adjoint evaluation cuts off the reverse schedule: `CTape.crash_gradient_wrong`; `gc_timestep_frequency=0`: `CTape.zero_frequency_raises`; with `SingleMemoryStorageSchedule` evaluations keep values that no adjoint needs: `CTape.single_memory_keeps`.
* Adjoint values shared between variables and added to in place: `inplace_sharing_wrong`, and `inplace_hessian_sharing_wrong` for Hessian values. The adjoint input the user gave can be changed in the same way (`inplace_seed_changed`), and so can the direction given to a control that is the result of a block (`inplace_direction_changed`).
* Repeated indices in `a[[0, 0]]`: `repeated_index_wrong`.
* Bounds: `integer_bounds_not_repeated`, `too_few_bounds`, `ipopt_none_is_nan`.
* Constraints: every SciPy Jacobian is that of the last constraint: `scipy_jacobian_mixed`; IPOPT needs constraints of one length: `ipopt_ragged`.
* ROL: `Rol.accept_after_temp`, `Rol.accept_after_revert`, `Rol.revert_first`, `Rol.revert_without_initial`.
* Moola: `Moola.memo_stale_derivative`, `Moola.memo_corrupt_after_failure`, `Moola.memo_index_error_after_failure`.
* PETSc options: existing options are deleted on exit: `Opts.inserted_deletes_existing`; the warning for a duplicate says the opposite of what happens: `Opts.duplicate_option_overwrites`.
* Taylor test: division by zero for an affine functional with an exact derivative: `taylor_test_affine_raises`.
* Placeholders: `Ph.ph_derivative`, `Ph.late_derivative_wrong`, `Ph.self_link_diverges`, `Ph.ph_control_derivative`.
* `overload_function`: `Ovl.continue_inside_records`, `Ovl.block_keywords_reach_function`, `Ovl.unregistered_output`.
* Graph export: `Graph.create_graph_raises_iff`, `Graph.nested_scope_loses_name`, `Graph.raised_scope_loses_name`, `Graph.tf_second_graph_stale`, `Graph.valid_name_empty_or_underscore`.
* A user block that returns `None` for a zero Hessian contribution makes the sweep skip every block before it (`evaluate_hessian` looks only at the Hessian values of the outputs): `none_for_zero_hessian_wrong`.
* TAO: the gradient callback raises `TypeError` for a control that does not influence the functional, although `rf.derivative` reports zero: `Tao.tao_unused_control_fails`; `to_petsc` restores each sub-vector to itself, so nothing is written if sub-vectors are copies: `Tao.to_petsc_copy_lost`; the gradient norm needs a derivative computed before: `Tao.tao_gradient_norm_needs_derivative`.
* **Callbacks (C67).** `ReducedFunctional.derivative` has no `no_annotations`: an operation on annotated values inside `derivative_cb_pre` or `derivative_cb_post` is added to the tape at every call, so the tape grows and every later evaluation replays it. The documentation promises "the functional" to the derivative and Hessian callbacks; they get its unscaled checkpoint, which is `None` until the first evaluation, while `eval_cb_post` gets the scaled value.
* **ROL vectors (C65).** `ROLVector` needs `_ad_iadd` and `_ad_imul` to work in place. The defaults in `OverloadedType` (`self += other`) only rebind a local name for immutable types, `AdjFloat._ad_copy` returns `self` and `AdjFloat._ad_dot` has no `options` parameter. With `AdjFloat` controls a clone is the vector itself, `plus` and `scale` do nothing, `dot` and `norm` raise `TypeError`, bounds raise `AttributeError`. With several controls `ROLConstraint` passes only the first component of the direction and fills only the first component of the adjoint; the others keep what they had (mapped by the Riesz map).
* **Arrays (C68).** `numpy_adjoint.ndarray` records reads (`a[item]`) only. Arithmetic with arrays and assignments to entries are NumPy's own and leave nothing on the tape, so values and gradients are silently wrong (`Arr.array_arithmetic_is_not_recorded`, `Arr.array_assignment_is_not_recorded`). An index that repeats a position has a wrong adjoint (`Arr.repeated_position_gradient_wrong`). With an array as functional, `func_value *= scale` in `ReducedFunctional.__call__` changes the stored value in place, which is the control's value when the functional is the control (`Arr.scaled_array_functional_changes_control`), and makes the value of a functional that no block computes grow with every call (`Arr.constant_array_functional_drifts`); a recomputed slice is a view, so the same happens to the control when the functional is a slice of it (read, not modelled). The derivative for an array control that is not on the tape is the float `0.`, not an array (read, not modelled).
* **Several tapes (C70).** Block variables belong to objects, not to tapes. A derivative taken without a new evaluation after another functional of the same control, on another tape, was evaluated mixes new control values with old intermediate ones (`derivative_mixes_tapes`); evaluating on one tape changes a functional that reads its results as constants (`other_tape_changes_constant`).
* **Optimised checkpointed tapes (C71).** `optimize_tape` on a tape with a checkpoint manager replaces every `TimeStep` by one with empty `adjoint_dependencies`. The next forward sweep therefore neither stores nor keeps the intermediate values of a step, and the next derivative is computed from the recorded ones: silently wrong away from the recorded control values (`CTape.optimised_gradient_stale`). That reverse sweep fills `adjoint_dependencies` in again, so that the derivatives after it are right.

Read, not modelled:

* `optimize_for_controls` computes `discarded_variables.union(...)` and drops the result (`tape.py:488`): the loop therefore discards less than intended only for variables of several outputs; the model has the code as it is (C10 is about what it does).
* `PowBlock.evaluate_hessian`, and `add_tlm_output` with `AdjFloat`s as directions, record operations when the user calls the sweeps with annotation on (for `PowBlock.evaluate_tlm` see C91).
* `func_value *= scale` (`reduced_functional.py`) would change the stored checkpoint in place for mutable functionals.
* `rf.derivative()` with an empty list of controls raises `ValueError`.
* `constraints=None` raises `TypeError` on the SciPy path; a tuple of constraints is an "Unknown constraint class".
* Integer arrays: `a[0]` is an unregistered `np.int64`.
* **Arguments of optimisers (C73).** `minimize(..., method="basinhopping")` ignores `bounds` (`basinhopping_ignores_bounds`), raises `KeyError` without `minimizer_kwargs`, and overwrites the bounds in the caller's `minimizer_kwargs` with SciPy's layout: a second run with the same dictionary lays them out again, which silently transposes them for two scalar controls (`basinhopping_again_transposed`) and raises otherwise. Options dictionaries are changed in place (`options_leak`). With `obj_scaling_factor` among the parameters, `IPOPTSolver` minimises a `MaximizationProblem` (`ipopt_maximization_lost`).
* **Copies (C74).** `Control` and `ReducedFunctionalNumPy` forward every unknown attribute to an attribute that a bare instance does not have yet, so `copy.copy`, `copy.deepcopy` and unpickling raise `RecursionError` for each of them (`control_copy_raises`, `numpy_copy_raises`), although `Weakref` was written to make block variables picklable; `copy.deepcopy` of a control of an array even finds the array's `__deepcopy__` and returns an array (`control_deepcopy_of_array`). `copy.deepcopy(tape)` restores the timesteps and then appends every block again with the overridden `append`: the last timestep of the copy holds all blocks of the tape once more, for every tape that is not empty (`deepcopy_timesteps_iff`), and `.copy()` of it has every block twice, which doubles gradients (`deepcopied_tape_gradient_doubled`). Pickled tapes are right (`unpickled_tape`).
* **Arrays returned by evaluations (C75).** `ndarray._ad_restore_at_checkpoint` returns the checkpoint, so `rf(x)` with an array-valued functional returns the array on the tape and `func_value *= self.scale` multiplies that array in place: with a scale other than 1, derivatives of any other functional depending on it are wrong from then on (`scaling_changes_the_tape`), and if a block handed on its input the control's own value is scaled (`scaling_changes_the_control`). With scale 1, changing the returned array changes later derivatives (`returned_array_is_the_tapes`).
* **Derivatives as objects (C76).** `ndarray._ad_convert_type` returns the value it is given, so `rf.derivative()` returns the very array stored as `adj_value`. For controls that are inputs of the tape this is harmless, since adjoint values of inputs are reset before they are read (`DWorld.caller_owns_derivatives_partial`). For an intermediate control it is not: an optimiser scaling the returned gradient in place changes the next Hessian action (`DWorld.intermediate_derivative_is_the_tapes`).
* **ROL's Hessian actions (C77).** `ROLObjective.hessVec` calls `rf.hessian` without a derivative before it, and `update` saves and restores checkpoints but not adjoint values. So the Hessian action refers to the adjoint values of the last gradient, wherever that was: wrong after a gradient at a temporary point followed by `Revert`, at a new point before its gradient, and before any gradient (`Rol.hessian_after_temp`, `Rol.hessian_after_accept`, `Rol.hessian_without_gradient`). `TAOSolver` evaluates the derivative in its Hessian callback and does not have the problem (C59).
* **ROL's vector (C78).** `ROLSolver.__init__` keeps the objects `tape_value()` returns, and ROL writes to them in place. For types that do not copy on restoring these are the checkpoints on the tape until the first evaluation: a write before it changes derivatives, and two solvers made of one functional share their starting vector, so that the second starts where the first ended (`Own.vector_changed_before_the_first_evaluation`, `Own.two_vectors_of_one_tape`). From the first evaluation on the vector is ROL's own (`Own.rol_vector_partial`).
* **Disk checkpointing (C79).** `continue_checkpointing` and `pause_checkpointing` are not paired by `try`/`finally`: an exception while a step is stored on disk (a full disk, say) leaves the package writing to disk, and the next evaluation recomputes in this state (`CTape.disk_left_on`). `pause_checkpointing` is called for actions on disk only, so a package that was writing to disk when checkpointing was enabled goes on with the working memory of the recording until the first action on disk (`CTape.on_until_the_first_disk_action`). `reset` is called twice in each evaluation (`reset_blocks`, `recompute`), the first time before the recording is finished, and the initial state is read after it: a package must not delete what the tape refers to (`CTape.read_after_reset`).
* **Sweeps by hand (C80).** The recipes of `pyadjoint_docs.rst` set `adj_value` (`tlm_value`) of one variable and sweep; nothing resets what earlier sweeps left on the others. `Hand.recipe_adds_leftovers`: the result is the gradient plus the leftovers propagated to the inputs; for `y = x + x` the second use gives 4 (`Hand.recipes_accumulate`), also after `compute_gradient`.
* **Counting pauses (C81).** `pyadjoint_docs.rst:364` says that two `pause_annotation()` need two `continue_annotation()`; the code has one flag, so the first `continue_annotation()` switches recording on (`Ctx.pauses_are_not_counted`).
* **Documented bounds (C29).** `docs/source/documentation/optimisation.rst` tells users of several controls to pass `bounds = [(m1_lb, m1_ub), (m2_lb, m2_ub), ...]`; `serialise_bounds` wants `[[m1_lb, m2_lb, ...], [m1_ub, m2_ub, ...]]`. With two controls the documented form is accepted and means something else (`documented_bounds_transposed`), otherwise it raises (`documented_bounds_raise`). The same page has inequality constraints as `g(m) <= 0`, the code (`constraints.py:12, 68`) as `c(m) >= 0`.
* **Copies of checkpointed tapes (C82).** `Tape.copy` leaves out the checkpoint manager but shares the block variables, from which checkpointing clears values. A derivative on the copy that does not follow an evaluation on the copy silently uses recorded values: for `J = x**4` recorded at 2 and evaluated at 3 it gives 48 for 108 (`CTape.copy_derivative_stale`). After an evaluation on the copy it is right for every schedule (`CTape.copy_value_and_gradient`), which for the schedules of `multistage_gradient_stale` (C26) is more than the original gives.
* **Optimisers under checkpointing (C83).** With the standard multistage schedule gradient descent takes wrong steps without an error: for `x**4` from 3 the first step goes to -45 instead of -105 (`CTape.multistage_descent_wrong`). With schedules that store the adjoint data of every step, and on `tape.copy()` for every schedule, every adaptive client gets the answers it gets without checkpointing (`CTape.checkpointed_client_partial`, `CTape.client_on_copy`).
* **Sweeps by hand under checkpointing (C84).** `tape.evaluate_adj()` without markings removes every variable from the adjoint dependencies that the schedule will store, for good. After it `rf(3)` and `rf.derivative()` give 22 for the derivative of `x**3` instead of 27, without an error (`CTape.by_hand_spoils_derivative`), and the recipe itself gives the derivative at the recorded value (`CTape.by_hand_again_wrong`).
* **timestepper over a collection (C16).** `TapeTimeStepper.__next__` calls `next(self.iterator)`, and the default progress bar hands the iterable through as it is, so the documented loop `for timestep in tape.timestepper(range(10))` raises `TypeError` before the first iteration (`Stepper.timestepper_collection_raises`). It works for iterators, or if a progress bar is set.

* **C85** The wrong second-order formulas of `adjfloat.py` (C06) are at least linear in the direction, so that Krylov solvers work on a linear
  (but possibly wrong and, C47, unsymmetric) operator.

* **C86** The Hessian with respect to `x` depends on whether a constant `c` that stays fixed is listed among the controls: the product rule of
  `MulBlock.evaluate_hessian_component` takes the wrong factor unless both operands are marked (`further_control_changes_hessian`: `10 x` instead of `50`).

* **C87** `ReducedFunctional(J, [Control(x), Control(y)])` with `y` computed from `x` is accepted.  The evaluation treats `y` as independent (its block is
  skipped, `block.py:344`), the adjoint sweep does not: `rf.derivative()` is the list of total derivatives, not the derivative of `rf`
  (`computed_control_wrong_derivative`; a Taylor test fails).  Only `tape.optimize_for_controls` looks for this (C09).

* **C88** Two tapes that share variables, differentiated one after the other: `y = 2*z` on the first, `J = y + x` on the second, control `x`.  After
  `compute_gradient(J, [x, y], tape=second)` the call `compute_gradient(y, x, tape=first)` returns 1 instead of 0: `x` is not on the first tape, so nothing
  resets its `adj_value` (`two_stages_stale`; the same cause as C43).

* **C89** `Control` of a mutable object.  The documentation (`control.py:6-36`) says that a control represents the value at the time of its creation
  and shows `c2.data()` as `3.0`.  A block variable has no saved value until an operation reads it, so `c2.data()` is `None` there
  (`control_data_missing`), and if the object is overwritten without having been read, `c.tape_value()` is the new value
  (`control_value_overwritten`).  Reduced functionals called with values for the controls are not affected (`in_place_replay`).

* **C90** Inputs that are overwritten, under checkpointing.  `process_taping` clears the checkpoints of block variables used in a finished step
  (`checkpointing.py:160-225`), and what is cleared is afterwards read from the object itself (`block_variable.py:57-62`).  A forcing changed between
  steps inside `stop_annotating(modifies=f)` is then replayed with its last value: wrong value and wrong derivative at the recorded point
  (`overwritten_forcing_value_wrong`).  With operations in place the derivative after an evaluation at the recorded point is wrong
  (`in_place_gradient_wrong`).

* C59: `TAOObjective` takes the derivatives from `control.control.block_variable` (`tao_solver.py:362, 385, 417`), the block variable
  the control object has *now*, whereas `Control` refers to the one it had when the control was made (`control.py:7-41`).  If a
  mutable object is changed in place after `Control(u)`, TAO is given the derivative with respect to a later version of `u`;
  if it got a new block variable after the recording, the callbacks raise `TypeError` (`Tao.tao_changed_object_wrong`).

* C89: a `ReducedFunctional` follows the functional *object*: `__call__`, `derivative` and `hessian` use
  `self.functional.block_variable` at the time of the call (`reduced_functional.py:151, 187, 247`, `drivers.py`), whereas its controls are
  fixed at creation.  If `J` is mutable and changed in place later, the existing `rf` computes the new version
  (`InPlace.functional_follows_object`); all other later changes are harmless (`InPlace.in_place_later_partial`).

* C38: `__enter__` of `stop_annotating` evaluates `self.modifies and ...` (`tape.py:115`), so it asks a single object for its truth value.
  `with stop_annotating(modifies=a)` for an array `a` of two or more entries always raises NumPy's `ValueError`
  (`Modifies.modifies_array_raises`; `modifies=[a]` works), and a nested use with `AdjFloat(0.0)` is not refused (`Modifies.modifies_zero_nested`).

* **C91** `PowBlock.evaluate_tlm` and `PowBlock.evaluate_hessian` override decorated methods without the decorator `no_annotations`.  The documented
  `tape.evaluate_tlm()`, called with annotation on, therefore records `exponent - 1` once per power and sweep: the tape of a program that computes tangents in a loop
  grows without bound (`sweeps_by_hand_grow`), though results stay right (`sweeps_by_hand_keep_functionals_partial`).

* **C92** `compute_hessian` loops over the directions, not over the controls (`drivers.py:60-61`): a list of directions that is too short is accepted, and the missing
  directions count as zero (`too_few_directions`); one that is too long raises a bare `IndexError` after `hessian_cb_pre` has run and tangents were assigned.
