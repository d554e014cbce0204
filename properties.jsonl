{"id": "C01", "title": "Replay fidelity of a reduced functional", "statement": "If a program of AdjFloat operations (+,-,*,/,unary -,**,exp,log,min,max, with AdjFloat or literal operands) is run with annotation on, then calling ReducedFunctional(J, controls, scale)(x) returns scale times the value that the same program computes when each control variable is given its value from x and every other free variable keeps the value currently stored for it on the tape. A control that is itself the result of an operation is treated as an independent variable.", "quantifier": "all straight-line programs of any length, all choices of functional and control list, all real control values, all previous histories of evaluations", "why_tests_cant": "tests replay a handful of fixed expressions at a few points; the claim is about every program, every sharing pattern of operands and every earlier use of the tape", "anchors": ["pyadjoint/reduced_functional.py:ReducedFunctional.__call__", "pyadjoint/block.py:Block.recompute", "pyadjoint/adjfloat.py:annotate_operator", "pyadjoint/block_variable.py:BlockVariable.saved_output"]}
{"id": "C02", "title": "The gradient is the true derivative", "statement": "After rf(x), rf.derivative(adj_input) returns, for each control i, adj_input*scale times the exact partial derivative at x of the real function the taped program computes, provided every elementary operation is differentiable at the values it is applied to and no control is computed from another control.", "quantifier": "all straight-line AdjFloat programs, all control lists, all points at which the operations are differentiable", "why_tests_cant": "Taylor tests sample finitely many programs, points and directions and only observe convergence rates", "anchors": ["pyadjoint/drivers.py:compute_gradient", "pyadjoint/block.py:Block.evaluate_adj", "pyadjoint/adjfloat.py:*Block.evaluate_adj_component", "pyadjoint/control.py:Control.get_derivative"]}
{"id": "C03", "title": "Gradient does not depend on leftovers (crash and history independence)", "statement": "compute_gradient(J, m) returns the same result whatever adjoint, tangent-linear or Hessian values and whatever path markings earlier calls (including calls that died with an exception half way through a sweep) left on the variables of the tape.", "quantifier": "all tapes, all leftover states of variables on the tape, in particular all crash points of an earlier sweep", "why_tests_cant": "the leftover state after an exception at an arbitrary block of an arbitrary tape cannot be enumerated", "anchors": ["pyadjoint/drivers.py:compute_gradient", "pyadjoint/tape.py:Tape.reset_variables", "pyadjoint/tape.py:Tape.marked_nodes"]}
{"id": "C04", "title": "Adjoint/tangent duality for arbitrary block types", "statement": "For every tape of user defined blocks (any number of inputs and outputs, repeated inputs allowed) whose component methods satisfy the local duality sum_out <adj_out, tlm_component(out)> = sum_dep <adj_component(dep), tlm_dep>, the whole sweeps satisfy it too: sum over outputs <seed, tlm result> = sum over inputs <adjoint result, tlm seed>.", "quantifier": "all tapes, all block types, all seeds, all spaces with a bilinear pairing", "why_tests_cant": "quantifies over block implementations that do not exist yet", "anchors": ["pyadjoint/block.py:Block.evaluate_adj", "pyadjoint/block.py:Block.evaluate_tlm", "pyadjoint/tape.py:Tape.evaluate_adj", "pyadjoint/tape.py:Tape.evaluate_tlm"]}
{"id": "C05", "title": "The tangent linear sweep is the directional derivative", "statement": "Setting tlm_value on controls and running tape.evaluate_tlm leaves on every variable of an AdjFloat tape the exact directional derivative of that variable with respect to the controls at the currently stored values (a missing value standing for zero); variables that are not computed from a seeded variable carry no value.", "quantifier": "all straight-line AdjFloat programs, all seeds, all points of differentiability", "why_tests_cant": "same as C02", "anchors": ["pyadjoint/tape.py:Tape.evaluate_tlm", "pyadjoint/block.py:Block.evaluate_tlm", "pyadjoint/adjfloat.py:*Block.evaluate_tlm"]}
{"id": "C06", "title": "The Hessian action is the true second derivative", "statement": "After rf(x) and rf.derivative(), rf.hessian(m_dot) returns, for each control, the exact derivative of the gradient component in direction m_dot.", "quantifier": "all straight-line AdjFloat programs, all control lists, all directions, all points where the operations are twice differentiable", "why_tests_cant": "Taylor tests sample finitely many expressions; whole operation classes (exp, log, products) are never tested in a nonlinear context", "anchors": ["pyadjoint/drivers.py:compute_hessian", "pyadjoint/adjfloat.py:*Block.evaluate_hessian*", "pyadjoint/block.py:Block.evaluate_hessian"]}
{"id": "C07", "title": "Pruning the adjoint sweep to marked paths loses nothing", "statement": "compute_gradient restricts the sweep to variables that depend on a control. The derivative it returns equals the adjoint value an unrestricted sweep over the whole tape (solve_adjoint style) leaves on that control. Marking additional variables never changes the result.", "quantifier": "all tapes of arbitrary blocks, all control sets, all supersets of the marked set", "why_tests_cant": "requires every tape and every marking", "anchors": ["pyadjoint/tape.py:_find_relevant_nodes", "pyadjoint/tape.py:Tape.marked_nodes", "pyadjoint/block.py:Block.evaluate_adj"]}
{"id": "C08", "title": "optimize_tape preserves the functional and its gradient", "statement": "If optimize_tape() returns normally, rf(x) and rf.derivative() return for every x exactly what they returned on the unoptimised tape.", "quantifier": "all tapes of arbitrary blocks, all controls, functionals and control values", "why_tests_cant": "dead-code and constant pruning must be right for every dependency graph", "anchors": ["pyadjoint/tape.py:Tape.optimize_for_controls", "pyadjoint/tape.py:Tape.optimize_for_functionals", "pyadjoint/reduced_functional.py:ReducedFunctional.optimize_tape"]}
{"id": "C09", "title": "optimize_for_controls rejects exactly dependent controls", "statement": "optimize_for_controls raises RuntimeError if and only if some control on the tape is computed (transitively) from a control; when it raises, the tape is unchanged.", "quantifier": "all tapes and control lists", "why_tests_cant": "an iff over all graphs", "anchors": ["pyadjoint/tape.py:Tape.optimize_for_controls"]}
{"id": "C10", "title": "Tape optimisation keeps exactly the relevant blocks, in order, in their timesteps", "statement": "After optimize_for_controls the tape consists, in order and in the same timestep, of exactly the blocks reachable from a control; after optimize_for_functionals of exactly the blocks from which a functional is reachable. Optimising again changes nothing.", "quantifier": "all tapes, all splits into timesteps", "why_tests_cant": "graph reachability over all graphs", "anchors": ["pyadjoint/tape.py:Tape.optimize_for_controls", "pyadjoint/tape.py:Tape.optimize_for_functionals"]}
{"id": "C11", "title": "A recorded tape is in evaluation order with single assignment", "statement": "Whatever sequence of AdjFloat operations, literals, object creations, control creations, pauses and garbage collections of unreferenced variables a program performs, on the resulting tape every dependency of a block is produced by an earlier block or by no block, every variable is produced by at most one block, and every produced variable is new.", "quantifier": "all programs and all garbage collection schedules", "why_tests_cant": "weak references may die at any moment; tests cannot cover every collection point", "anchors": ["pyadjoint/adjfloat.py:annotate_operator", "pyadjoint/overloaded_type.py:OverloadedType.block_variable", "pyadjoint/overloaded_type.py:Weakref", "pyadjoint/block.py:Block.add_output"]}
{"id": "C12", "title": "Annotation does not change values and pausing records nothing", "statement": "The numeric results of a program are the same whether or not annotation is on; while annotation is off (pause_annotation, stop_annotating, annotate=False) no block is added to any tape.", "quantifier": "all programs and all interleavings of pause/continue/stop_annotating", "why_tests_cant": "all interleavings", "anchors": ["pyadjoint/tape.py:annotate_tape", "pyadjoint/adjfloat.py:annotate_operator", "pyadjoint/adjfloat.py:exp"]}
{"id": "C13", "title": "stop_annotating restores the annotation flag", "statement": "On leaving a stop_annotating context or a no_annotations function, normally or by exception, the annotation flag has the value it had on entry, for any nesting depth including recursion through the single shared no_annotations object, and whatever pause/continue calls happened inside.", "quantifier": "all nestings, all exception points, all interleaved pause/continue calls", "why_tests_cant": "unbounded nesting and exceptions at every point", "anchors": ["pyadjoint/tape.py:stop_annotating", "pyadjoint/tape.py:no_annotations"]}
{"id": "C14", "title": "set_working_tape scoping", "statement": "Inside 'with set_working_tape(t)' get_working_tape() is t, and after the block, normal or exceptional exit and any well nested use inside, it is what it was before; a function decorated with @set_working_tape() behaves the same on every call.", "quantifier": "all well nested programs, all numbers of calls of decorated functions", "why_tests_cant": "nesting and call histories are unbounded", "anchors": ["pyadjoint/tape.py:set_working_tape"]}
{"id": "C15", "title": "The flat block list and the timestep lists never disagree", "statement": "After any sequence of add_block, end_timestep, copy and optimise operations, tape.get_blocks() is the concatenation of tape.timesteps in order, add_block returns the index of the block it added, and blocks are never lost, duplicated or reordered.", "quantifier": "all operation sequences", "why_tests_cant": "all sequences", "anchors": ["pyadjoint/tape.py:TimeStepSequence", "pyadjoint/tape.py:TimeStep", "pyadjoint/tape.py:Tape.add_block", "pyadjoint/tape.py:Tape.end_timestep"]}
{"id": "C16", "title": "timestepper puts each iteration in its own timestep", "statement": "Iterating tape.timestepper(it) to exhaustion over an iterable of n>=1 items on a fresh tape yields the items unchanged, produces exactly n timesteps, and the blocks annotated in iteration i are exactly the blocks of timestep i. (end_timestep is called between iterations only.)", "quantifier": "all iterables and all block sequences per iteration", "why_tests_cant": "all lengths and contents", "anchors": ["pyadjoint/tape.py:TapeTimeStepper", "pyadjoint/tape.py:Tape.timestepper"]}
{"id": "C17", "title": "OrderedSet is a set that remembers first insertion order", "statement": "For every sequence of operations an OrderedSet contains exactly the elements a mathematical set would, iterates them without repetition in order of first insertion since last removal, and union/difference/intersection/symmetric_difference have the set-theoretic contents, leave their operands unchanged and keep the left operand's order first.", "quantifier": "all operation sequences over any hashable element type", "why_tests_cant": "all sequences", "anchors": ["pyadjoint/ordered_set.py:OrderedSet"]}
{"id": "C18", "title": "Single control in, single result out", "statement": "For Enlist: delist undoes Enlist for every argument; a driver given a single control returns a single object and given a list returns a list of the same length and order; delisting a list of length other than one for an unlisted argument fails.", "quantifier": "all arguments", "why_tests_cant": "all lengths", "anchors": ["pyadjoint/enlisting.py:Enlist", "pyadjoint/drivers.py:compute_gradient", "pyadjoint/reduced_functional.py:ReducedFunctional.derivative"]}
{"id": "C19", "title": "derivative_components returns the derivative in the slot of its control", "statement": "With derivative_components, derivative() returns a list with one entry per control holding the full gradient component for every selected index and zero for every other.", "quantifier": "all numbers of controls, all tuples of indices", "why_tests_cant": "tests use one sorted one-element tuple", "anchors": ["pyadjoint/reduced_functional.py:_get_extract_derivative_components", "pyadjoint/reduced_functional.py:_get_pack_derivative_components"]}
{"id": "C20", "title": "scale multiplies value, gradient and Hessian alike; maximize is minimize of the negative", "statement": "rf with scale s has value, derivative and Hessian equal to s times those of the unscaled functional; maximize hands the optimiser exactly the negated functional and gradient.", "quantifier": "all programs, points, directions and scales", "why_tests_cant": "all functionals", "anchors": ["pyadjoint/reduced_functional.py:ReducedFunctional.__call__", "pyadjoint/reduced_functional.py:ReducedFunctional.derivative", "pyadjoint/optimization/optimization.py:maximize", "pyadjoint/optimization/optimization.py:minimize"]}
{"id": "C21", "title": "Evaluating does not disturb the controls or the tape", "statement": "rf(x) leaves every control holding x, leaves the list of blocks unchanged and unmarks the controls afterwards; derivative() and hessian() change no forward value, no block and no control marking, whatever the annotation state.", "quantifier": "all tapes, control lists and values", "why_tests_cant": "all tapes", "anchors": ["pyadjoint/block_variable.py:BlockVariable.checkpoint", "pyadjoint/reduced_functional.py:marked_controls", "pyadjoint/drivers.py:marked_controls"]}
{"id": "C22", "title": "Saving and restoring block variables round-trips", "statement": "After cp = tape.checkpoint_block_vars(controls) and any further evaluations, tape.restore_block_vars(cp) brings every produced variable and every control back to its saved value, even while controls are marked, so that derivative() again returns the derivative at the saved point. Saving changes nothing and restoring twice equals restoring once.", "quantifier": "all tapes, all evaluations in between", "why_tests_cant": "all histories between save and restore", "anchors": ["pyadjoint/tape.py:Tape.checkpoint_block_vars", "pyadjoint/tape.py:Tape.restore_block_vars"]}
{"id": "C23", "title": "Checkpoint manager rejects misuse", "statement": "With a schedule of N steps: ending more timesteps than the schedule has raises CheckpointError and no other call is needed to detect it; evaluating the adjoint twice without recomputing in between raises CheckpointError; enabling checkpointing on a tape that has blocks raises CheckpointError; a shorter recording is padded with empty timesteps to exactly N.", "quantifier": "all schedules whose forward part tiles 0..N, all recordings", "why_tests_cant": "all schedules and call histories", "anchors": ["pyadjoint/checkpointing.py:CheckpointManager.end_timestep", "pyadjoint/checkpointing.py:CheckpointManager.end_taping", "pyadjoint/checkpointing.py:CheckpointManager.evaluate_adj", "pyadjoint/tape.py:Tape.enable_checkpointing"]}
{"id": "C24", "title": "checkpointable_state is exactly the set of live-in variables", "statement": "After recording, the checkpointable state of timestep k contains exactly the variables that exist before timestep k (created in an earlier timestep or outside the tape) and are used as a dependency in timestep k or a later one.", "quantifier": "all recordings of any number of timesteps", "why_tests_cant": "all recordings", "anchors": ["pyadjoint/tape.py:Tape.add_to_checkpointable_state", "pyadjoint/block_variable.py:BlockVariable.will_add_as_dependency", "pyadjoint/block_variable.py:BlockVariable.will_add_as_output"]}
{"id": "C25", "title": "Recomputing under a checkpoint schedule gives the same functional value", "statement": "For every schedule whose forward actions tile the timesteps, rf(x) with checkpointing returns the value rf(x) returns without checkpointing.", "quantifier": "all tapes of arbitrary blocks, all splits into timesteps, all schedules, all control values", "why_tests_cant": "tests use a few schedules from one package on a few PDEs", "anchors": ["pyadjoint/checkpointing.py:CheckpointManager.recompute", "pyadjoint/checkpointing.py:CheckpointManager.process_operation"]}
{"id": "C26", "title": "The gradient under a checkpoint schedule is the gradient without it", "statement": "For every valid schedule, derivative() with checkpointing returns the value it returns without checkpointing, directly after recording and after any number of rf(x)/derivative() cycles.", "quantifier": "all tapes, all valid schedules, all cycles", "why_tests_cant": "the space of schedules, tapes and cycles is unbounded", "anchors": ["pyadjoint/checkpointing.py:CheckpointManager.evaluate_adj", "pyadjoint/checkpointing.py:CheckpointManager.process_operation", "pyadjoint/tape.py:TimeStep.checkpoint", "pyadjoint/tape.py:TimeStep.restore_from_checkpoint"]}
{"id": "C27", "title": "A failed adjoint evaluation under checkpointing does not corrupt later ones", "statement": "If the first adjoint evaluation under a schedule raises in some block, then a later rf(x) followed by derivative() still executes the complete reverse schedule.", "quantifier": "all schedules and crash points", "why_tests_cant": "all crash points", "anchors": ["pyadjoint/checkpointing.py:CheckpointManager.evaluate_adj"]}
{"id": "C28", "title": "Flat array interface round-trips", "statement": "For ReducedFunctionalNumPy, writing an array of the right length into the controls and reading it back gives the same array; reading the controls and writing them back changes nothing; each control receives its own consecutive segment; gradients are laid out in the same order.", "quantifier": "all numbers and sizes of controls, all arrays", "why_tests_cant": "all layouts", "anchors": ["pyadjoint/reduced_functional_numpy.py:ReducedFunctionalNumPy.set_local", "pyadjoint/reduced_functional_numpy.py:ReducedFunctionalNumPy.get_global", "pyadjoint/adjfloat.py:AdjFloat._ad_assign_numpy"]}
{"id": "C29", "title": "Bounds reach the optimiser in the right slots", "statement": "serialise_bounds returns one (lower, upper) pair per scalar control component in control order, scalar bounds being broadcast over their control; the IPOPT bounds arrays have the same layout.", "quantifier": "all numbers and sizes of controls, all mixtures of scalar and full bounds", "why_tests_cant": "all layouts", "anchors": ["pyadjoint/optimization/optimization.py:serialise_bounds", "pyadjoint/optimization/ipopt_solver.py:IPOPTSolver.__get_bounds"]}
{"id": "C30", "title": "Merged constraints behave like the list of constraints", "statement": "MergedConstraints evaluates every constraint in order, its adjoint and Hessian actions are the sums of the constituents', its dimension is the sum of dimensions, equality and inequality parts partition it, canonicalise is idempotent; the i-th SciPy constraint dictionary carries the function and Jacobian of the i-th constraint; IPOPT constraint bounds match each constraint's kind and dimension.", "quantifier": "all lists of constraints", "why_tests_cant": "tests use at most one constraint", "anchors": ["pyadjoint/optimization/constraints.py:MergedConstraints", "pyadjoint/optimization/constraints.py:canonicalise", "pyadjoint/optimization/optimization.py:minimize_scipy_generic", "pyadjoint/optimization/ipopt_solver.py:IPOPTSolver.__get_constraints"]}
{"id": "C31", "title": "ROL trial/accept/revert bookkeeping", "statement": "For every update sequence ROL may issue, after Accept the cached value and tape state are those of the last trial point, and after Revert value() and the tape are those of the last accepted point, so that the gradient returned is the gradient there.", "quantifier": "all sequences of update calls starting with Initial", "why_tests_cant": "all sequences", "anchors": ["pyadjoint/optimization/rol_solver.py:ROLObjective.update"]}
{"id": "C32", "title": "Moola memoisation is transparent", "statement": "With any memoize count, Functional(x) returns what rf would return at x, and derivative(x) and hessian(x) are those at x, provided hashes do not collide, for every sequence of calls in which derivative(x) follows an evaluation at x; a failing evaluation does not corrupt later results.", "quantifier": "all call sequences, all memoize counts, all failure points", "why_tests_cant": "all sequences", "anchors": ["pyadjoint/optimization/moola_problem.py:MoolaOptimizationProblem"]}
{"id": "C33", "title": "PETSc options handling", "statement": "flatten_parameters keeps every leaf of the nested dictionary under the separator-joined path of its keys; inserted_options removes on exit exactly the options it inserted, even when the body raises, and set_from_options runs at most once.", "quantifier": "all nested dictionaries, all databases", "why_tests_cant": "all nestings", "anchors": ["pyadjoint/optimization/tao_solver.py:flatten_parameters", "pyadjoint/optimization/tao_solver.py:OptionsManager"]}
{"id": "C34", "title": "Taylor test verdict", "statement": "taylor_test returns exactly 2 for a functional whose remainder is exactly quadratic when the correct gradient is supplied, and exactly 1 when the remainder is exactly linear because the directional derivative supplied is wrong; in general each reported rate is log2 of the ratio of consecutive residuals; taylor_to_dict leaves the functional evaluated at m; and for every functional with a nonzero second derivative along the direction the result tends to 2 with the correct gradient, and to 1 with a wrong one, as the direction is made small.", "quantifier": "all functionals, points and directions", "why_tests_cant": "all functionals", "anchors": ["pyadjoint/verification.py:taylor_test", "pyadjoint/verification.py:convergence_rates", "pyadjoint/verification.py:taylor_to_dict"]}
{"id": "C35", "title": "Adjoint of array indexing is scatter-add", "statement": "For the NumPy array type the adjoint of y = a[item] satisfies <y_bar, a[item]> = <a_bar, a> for every index expression numpy accepts.", "quantifier": "all arrays and index lists", "why_tests_cant": "one test with a length one array", "anchors": ["numpy_adjoint/array.py:NumpyArraySliceBlock"]}
{"id": "C36", "title": "Placeholders substitute values, not derivatives", "statement": "A block whose dependency was replaced by a Placeholder linked to v reads the value v had at the end of the previous evaluation (the recorded value before linking) and its adjoint contribution never reaches v or the original variable.", "quantifier": "all tapes and sequences of evaluations", "why_tests_cant": "all sequences", "anchors": ["pyadjoint/placeholder.py:Placeholder"]}
{"id": "C37", "title": "overload_function annotates exactly once and only when asked", "statement": "Calling an overloaded function returns the plain function's outputs, adds exactly one block with those outputs in order when annotation is on, none when annotation is off or annotate=False is passed, and annotates nothing for operations inside the plain function.", "quantifier": "all functions, arguments and annotation states", "why_tests_cant": "all functions", "anchors": ["pyadjoint/overloaded_function.py:overload_function", "pyadjoint/tape.py:annotate_tape", "pyadjoint/block.py:Block.pop_kwargs"]}
{"id": "C38", "title": "stop_annotating(modifies=...) detaches the modified variables", "statement": "After leaving stop_annotating(modifies=vs) each variable in vs has a new block variable the first time it is used, which no existing block references, so that tape entries made before keep the old value and those made after use the new one; other variables are unaffected.", "quantifier": "all tapes and variable lists", "why_tests_cant": "all tapes", "anchors": ["pyadjoint/tape.py:stop_annotating.__exit__", "pyadjoint/overloaded_type.py:OverloadedType.clear_block_variable"]}
{"id": "C39", "title": "Tags select blocks", "statement": "get_blocks(tag) returns the blocks with that tag in tape order; get_tags returns each tag in use exactly once in order of first appearance; every tagged block appears in exactly the list of its tag.", "quantifier": "all tapes and tags", "why_tests_cant": "all tapes", "anchors": ["pyadjoint/tape.py:Tape.get_blocks", "pyadjoint/tape.py:Tape.get_tags"]}
{"id": "C40", "title": "clear_tape makes the tape as good as new", "statement": "After clear_tape() the tape has no blocks, its variables carry no adjoint values, and recording on it behaves exactly as on a newly created tape.", "quantifier": "all tape histories including checkpointed ones", "why_tests_cant": "all histories", "anchors": ["pyadjoint/tape.py:Tape.clear_tape", "pyadjoint/tape.py:Tape.__init__"]}
{"id": "C41", "title": "Accumulating one derivative never changes another", "statement": "add_adj_output/add_tlm_output/add_hessian_output on one variable change no other variable's derivative value, also when a block returned the same object for several dependencies.", "quantifier": "all heaps of mutable and immutable derivative values, all sequences of accumulations", "why_tests_cant": "aliasing patterns are unbounded", "anchors": ["pyadjoint/block_variable.py:BlockVariable.add_adj_output", "pyadjoint/block.py:Block.evaluate_adj"]}
{"id": "C42", "title": "Plain Python numbers are accepted as control values", "statement": "For AdjFloat controls rf(values) accepts ints and floats and evaluates the functional at those numbers.", "quantifier": "all programs and all int/float arguments", "why_tests_cant": "all programs", "anchors": ["pyadjoint/reduced_functional.py:ReducedFunctional.__call__", "pyadjoint/adjfloat.py:FloatOperatorBlock.recompute_component"]}
{"id": "C43", "title": "Independent controls get derivative zero", "statement": "If the functional does not depend on a control, the derivative returned for it is zero, whether or not the control occurs on the tape and whatever was computed before.", "quantifier": "all tapes and histories", "why_tests_cant": "all histories", "anchors": ["pyadjoint/control.py:Control.get_derivative", "pyadjoint/tape.py:Tape.reset_variables"]}
{"id": "C44", "title": "A copied tape is independent", "statement": "tape.copy() has the same blocks and timesteps; adding blocks to, ending timesteps on, or optimising either tape does not change the other.", "quantifier": "all operation sequences on both tapes", "why_tests_cant": "all sequences", "anchors": ["pyadjoint/tape.py:Tape.copy", "pyadjoint/tape.py:TimeStep.copy"]}
{"id": "C45", "title": "The gradient is linear in adj_input", "statement": "derivative(a*u + b*w) = a*derivative(u) + b*derivative(w) for every tape of blocks whose adjoint components are linear.", "quantifier": "all tapes, all seeds", "why_tests_cant": "all tapes", "anchors": ["pyadjoint/drivers.py:compute_gradient", "pyadjoint/reduced_functional.py:ReducedFunctional.derivative"]}
{"id": "C46", "title": "min and max follow the documented tie rule", "statement": "min/max return the value Python's min/max return; away from ties the derivative goes to the selected operand only; at a tie value and derivative are those of the first operand.", "quantifier": "all programs and points", "why_tests_cant": "all points", "anchors": ["pyadjoint/adjfloat.py:MinBlock", "pyadjoint/adjfloat.py:MaxBlock"]}
{"id": "C47", "title": "Hessian action is symmetric", "statement": "For two directions u, w: <u, rf.hessian(w)> = <w, rf.hessian(u)> at twice continuously differentiable points.", "quantifier": "all programs and directions", "why_tests_cant": "all directions", "anchors": ["pyadjoint/drivers.py:compute_hessian"]}
{"id": "C48", "title": "Duplicate dependencies", "statement": "add_dependency(x, no_duplicates=True) never creates a second entry for the same variable, add_dependency(x) always appends, the order of first insertion is kept, and an operation applied to the same variable twice contributes both partial derivatives.", "quantifier": "all sequences of add_dependency calls", "why_tests_cant": "all sequences", "anchors": ["pyadjoint/block.py:Block.add_dependency"]}
{"id": "C49", "title": "Garbage collection frequency has no effect on results", "statement": "enable_checkpointing with any gc_timestep_frequency runs the same actions in the same order and gives the same values; a non-integer frequency is rejected.", "quantifier": "all schedules and frequencies", "why_tests_cant": "all schedules", "anchors": ["pyadjoint/checkpointing.py:CheckpointManager.__init__", "pyadjoint/tape.py:Tape.enable_checkpointing"]}
{"id": "C50", "title": "TensorFlow/graph export covers the tape", "statement": "The exported graph has exactly one node per block and per variable used, an edge from each dependency to its block and from each block to each output, and nothing else; name_scope registers every block exactly once, under the scope it was created in.", "quantifier": "all tapes and scope nestings", "why_tests_cant": "all tapes", "anchors": ["pyadjoint/tape.py:Tape.create_graph", "pyadjoint/block.py:Block.create_graph", "pyadjoint/tape.py:Tape._tf_register_blocks", "pyadjoint/tape.py:Tape._tf_rebuild_registered_blocks"]}
{"id": "C51", "title": "solve_adjoint computes the sensitivities of all states", "statement": "solve_adjoint(J) leaves on every variable of the tape the adjoint value that a complete backward traversal from the seed on J produces.", "quantifier": "all tapes, functionals and seeds", "why_tests_cant": "no test calls it; the claim is about every tape", "anchors": ["pyadjoint/drivers.py:solve_adjoint"]}
{"id": "C52", "title": "A reduced functional is the program re-run with new inputs", "statement": "For a program of AdjFloat creations, literals and arithmetic recorded with annotation on, rf(x) is the value the program prints when run from the start in plain Python with x for the inputs. (False when a literal is divided by, or raised to the power of, an AdjFloat: such results are not recorded.)", "quantifier": "all straight-line programs, all inputs, all control subsets", "why_tests_cant": "all programs and values", "anchors": ["pyadjoint/adjfloat.py:AdjFloat", "pyadjoint/reduced_functional.py:ReducedFunctional.__call__"]}
{"id": "C53", "title": "rf.hessian refers to the last adjoint computed on the tape", "statement": "rf.hessian(d), called right after rf.derivative(), is scale*adj_input times the Hessian action of the unscaled functional; hessian itself never applies the scale, so if the last derivative on the same tape was another reduced functional's, the Hessian carries that one's scale.", "quantifier": "all tapes, points, directions, scales, and interleavings of two reduced functionals", "why_tests_cant": "the interleavings and values are unbounded", "anchors": ["pyadjoint/reduced_functional.py:ReducedFunctional.hessian", "pyadjoint/drivers.py:compute_hessian"]}
{"id": "C54", "title": "An evaluation does not depend on what was evaluated, differentiated or crashed before", "statement": "The value rf(x) and the states it leaves behind depend only on x and on the values of the tape's inputs that are not controls, not on earlier evaluations at other points, earlier derivatives, or an earlier evaluation that raised an exception midway.", "quantifier": "all tapes, all earlier histories, all crash points", "why_tests_cant": "histories and crash points are unbounded", "anchors": ["pyadjoint/reduced_functional.py:ReducedFunctional.__call__", "pyadjoint/block.py:Block.recompute"]}
{"id": "C55", "title": "Values, gradients and Hessians do not depend on what was computed before", "statement": "After rf(x), the value, the gradient and the Hessian action (computed after the gradient) are the same whatever was evaluated or differentiated before on the same tape, by this or another functional and with respect to any controls, including evaluations that raised at any point.", "quantifier": "all tapes of AdjFloat operations, all finite histories of evaluations (completed or raising at any block), derivatives and Hessian actions, all points and directions", "why_tests_cant": "all histories", "anchors": ["pyadjoint/reduced_functional.py:ReducedFunctional.__call__", "pyadjoint/drivers.py:compute_gradient", "pyadjoint/drivers.py:compute_hessian", "pyadjoint/tape.py:Tape.reset_hessian_values"]}
{"id": "C56", "title": "Tangents and Hessians through user-defined blocks are exact", "statement": "If the tangent and Hessian components that a user supplies for each block class are right (the tangent component is the directional derivative of the block, the Hessian component the derivative of its adjoint component), then for every tape of such blocks evaluate_tlm gives the directional derivative of every recorded variable and compute_hessian / ReducedFunctional.hessian returns the derivative of the gradient in the given direction, after the functional and its derivative have been evaluated at the point.", "quantifier": "All tapes of arbitrary blocks (any numbers of inputs and outputs, values in any normed space) that use the inherited sweeps, all functionals, lists of distinct independent controls, points, directions and seeds.", "why_tests_cant": "The composition of local rules into the second derivative must hold for every tape shape and every user block; a test exercises one expression with one set of blocks.", "anchors": ["pyadjoint/block.py: Block.evaluate_tlm, Block.evaluate_hessian", "pyadjoint/drivers.py: compute_hessian", "pyadjoint/tape.py: Tape.evaluate_tlm, Tape.evaluate_hessian", "pyadjoint/reduced_functional.py: ReducedFunctional.hessian"]}
{"id": "C57", "title": "Views (floating objects) behave as if recomputed on every read and written through on every write", "statement": "For a program that uses active FloatingType objects, the recorded tape is well formed, and replaying it from any initial values gives every object the value the program computes when each view is recomputed from its arguments whenever it is read, and writes through to its targets whenever it is written; one use of a view records exactly one block for it and one for each view it is made from.", "quantifier": "All configurations of views (including views of views and cyclic ones), all programs of operations on them, all initial values.", "why_tests_cant": "The order in which nested views are recorded and the block variables they leave behind depend on the whole program; a test fixes one nesting.", "anchors": ["pyadjoint/overloaded_type.py: FloatingType", "pyadjoint/block.py: Block.add_dependency, Block.add_output", "pyadjoint/block_variable.py: will_add_as_dependency, will_add_as_output"]}
{"id": "C58", "title": "Overloaded objects are created by the class registered last", "statement": "After any history of register_overloaded_type calls, get_overloaded_class(c) returns the class whose registration for c was the last, and raises KeyError iff there was none; create_overloaded_object returns an overloaded object unchanged, converts an object of a registered class with the class registered last for exactly its type, and otherwise returns the object itself with a warning unless suppressed. An object of an (unregistered) subclass of a registered class is not converted.", "quantifier": "All histories of registrations (single classes, nested lists and tuples, the default second base, failing calls), all objects.", "why_tests_cant": "The outcome depends on the whole history of registrations, including ones that failed half way.", "anchors": ["pyadjoint/overloaded_type.py: register_overloaded_type, get_overloaded_class, create_overloaded_object"]}
{"id": "C59", "title": "PETSc TAO is told the functional, its gradient and its Hessian, whatever it asked before", "statement": "Control values and PETSc vectors are in one-to-one correspondence (the vector is the concatenation of the controls in order); the value and gradient the TAO callbacks report for a vector are the functional and its derivative at the controls the vector stands for, and the Hessian product is the derivative of the gradient at the point of the last Hessian callback plus the shifts since, independent of all earlier callbacks; solve starts at the control values, returns the controls of TAO's last vector, listed as the controls were, and raises TAOConvergenceError exactly if the reason is not positive.", "quantifier": "All sizes and numbers of controls, all tapes and blocks, all sequences of callbacks of the TAO solver, all vectors.", "why_tests_cant": "Which callbacks are made, in which order and at which points, is decided by TAO at run time; the offsets must be right for every number and size of controls.", "anchors": ["pyadjoint/optimization/tao_solver.py: PETScVecInterface, TAOObjective, TAOSolver", "pyadjoint/overloaded_type.py: _ad_to_petsc, _ad_from_petsc"]}
{"id": "C60", "title": "Plain Python numbers are accepted as adjoint inputs and directions", "statement": "rf.derivative(adj_input=a), compute_gradient(..., adj_value=a), tangent directions and rf.hessian(d) accept a and d given as int, float or AdjFloat, and give what the AdjFloat of the same value gives.", "quantifier": "All AdjFloat programs, all stored values and their Python types, all seeds and directions and their types.", "why_tests_cant": "Whether a number is accepted depends on which float methods the blocks of the particular tape apply to it, and in which order; every combination of program and argument type must work.", "anchors": ["pyadjoint/reduced_functional.py: ReducedFunctional.derivative, hessian", "pyadjoint/drivers.py: compute_gradient, compute_hessian", "pyadjoint/adjfloat.py: evaluate_adj_component, evaluate_tlm, evaluate_hessian of all blocks", "pyadjoint/overloaded_type.py: create_overloaded_object"]}
{"id": "C61", "title": "Derivatives are returned wherever the functional is differentiable", "statement": "If the operations that depend on the controls are differentiable at their operands, rf.derivative, the tangent evaluation and rf.hessian return instead of raising ZeroDivisionError, TypeError or producing complex numbers.", "quantifier": "All AdjFloat programs (including parts that do not depend on the controls), all points, all seeds and directions that are floats.", "why_tests_cant": "The formulas of the derivative methods are undefined at other points than the operations; which parts of the tape are visited depends on markings that some methods ignore.", "anchors": ["pyadjoint/adjfloat.py: PowBlock, DivBlock, SubBlock, NegBlock, LogBlock", "pyadjoint/block.py: Block.evaluate_adj, evaluate_tlm, evaluate_hessian", "pyadjoint/drivers.py"]}
{"id": "C62", "title": "An optimisation run optimises the recorded functional", "statement": "minimize(rf, scale=s) behaves as the chosen optimiser does on the mathematical function s*J with its exact gradient and Hessian action, started from the current control values: the same result, or an exception of the optimiser; afterwards the controls hold the result and the tape is evaluated there. IPOPTSolver.solve likewise.", "quantifier": "All optimisers (adaptive, any number of calls, any order of value, gradient and Hessian calls, raising at any time), all AdjFloat programs, controls, scales, earlier calls.", "why_tests_cant": "The optimiser decides from the answers which points it asks about next; correctness must hold for every such strategy and for every history of calls it produces.", "anchors": ["pyadjoint/optimization/optimization.py: minimize, minimize_scipy_generic, minimize_custom", "pyadjoint/optimization/ipopt_solver.py: IPOPTSolver.solve", "pyadjoint/reduced_functional_numpy.py: ReducedFunctionalNumPy"]}
{"id": "C63", "title": "An operation that raises while being recorded leaves no trace", "statement": "If exp or log raise during recording and the program catches the exception and goes on, then for a functional and controls of the completed operations rf(m), rf.derivative(), tangent evaluation and rf.hessian(d) give exactly what they give for the program without the failed operations; in particular they do not raise for them.", "quantifier": "All AdjFloat programs, any number of failed operations anywhere in them, all control values, seeds, scales and directions.", "why_tests_cant": "The blocks of failed operations stay on the tape without outputs and take part in every sweep; that none of them changes anything must hold for every position and every state.", "anchors": ["pyadjoint/adjfloat.py: exp, log, ExpBlock, LogBlock", "pyadjoint/block.py: Block.recompute, evaluate_adj, evaluate_tlm, evaluate_hessian", "pyadjoint/drivers.py"]}
{"id": "C64", "title": "Derivative and Hessian computations that raised do not affect later ones", "statement": "After any number of evaluations, derivative computations and Hessian computations on a tape, some of which died with an exception at any point of any sweep and with respect to any controls, rf(x), rf.derivative() and rf.hessian(d) return what they would have returned on the tape as first recorded.", "quantifier": "all tapes of AdjFloat operations, all finite histories of calls, all crash points of evaluations, adjoint, tangent and Hessian sweeps, all points and directions", "why_tests_cant": "all histories and all crash points", "anchors": ["pyadjoint/tape.py:Tape.marked_nodes", "pyadjoint/drivers.py:compute_gradient", "pyadjoint/drivers.py:compute_hessian", "pyadjoint/adjfloat.py:MulBlock.evaluate_hessian_component"]}
{"id": "C65", "title": "ROL vectors behave like vectors, and constraint adjoints are adjoints", "statement": "Whatever sequence of vector operations (clone, plus, scale, dot, norm, reduce, element-wise functions) ROL performs on the vectors ROLSolver gives it, no operation on one vector changes another, clones are independent zero vectors, and all contents and returned numbers are those of mathematical vectors; bound vectors hold the user's bounds and leave the controls as they are; the adjoint Jacobian of constraints is the adjoint of the Jacobian.", "quantifier": "every sequence of vector operations on any number of vectors with any number of components, all inner products and element-wise functions, all bounds, all constraint lists, directions and multipliers", "why_tests_cant": "The vectors share mutable component objects with the program; whether aliasing corrupts a vector depends on the whole sequence of operations.", "anchors": ["pyadjoint/optimization/rol_solver.py:ROLVector", "pyadjoint/optimization/rol_solver.py:ROLConstraint", "pyadjoint/optimization/rol_solver.py:ROLSolver", "pyadjoint/overloaded_type.py:OverloadedType._ad_iadd", "pyadjoint/adjfloat.py:AdjFloat", "pyadjoint/optimization/constraints.py:MergedConstraints"]}
{"id": "C66", "title": "Second derivatives and tangents of a checkpointed tape are those of the tape without checkpointing", "statement": "On a tape recorded with a checkpoint schedule, ReducedFunctional.hessian (after the derivative it needs) and tape.evaluate_tlm give what the same program recorded without checkpointing gives, at the recorded control values and after evaluations at others.", "quantifier": "every recorded program, every well-formed schedule that reverses each step once, all functionals, controls, adjoint seeds and directions, every sequence of evaluations and derivatives before", "why_tests_cant": "Which values and adjoint values survive depends on the schedule and on everything that was evaluated before; tests check single schedules and no second derivatives.", "anchors": ["pyadjoint/drivers.py:compute_hessian", "pyadjoint/tape.py:Tape.evaluate_tlm", "pyadjoint/tape.py:Tape.evaluate_hessian", "pyadjoint/checkpointing.py:CheckpointManager.evaluate_adj", "pyadjoint/checkpointing.py:CheckpointManager.process_operation"]}
{"id": "C67", "title": "Callbacks of a reduced functional watch without disturbing, and cannot break it", "statement": "The callbacks given to ReducedFunctional (before and after evaluations, derivatives and Hessians) are each called once per request, in order, with the values the user passed and the results the user gets. Callbacks that only watch change no result. Whatever callbacks do and wherever they raise, the annotation state is as before, operations done inside them are not recorded, and later evaluations, derivatives and Hessians are those of the recorded program.", "quantifier": "all tapes, controls, scales, derivative components, callbacks (arbitrary functions, which may themselves evaluate and differentiate, and may raise), all sequences of requests", "why_tests_cant": "A callback is arbitrary user code that can raise at any point of any history; tests check that a callback was called.", "anchors": ["pyadjoint/reduced_functional.py:ReducedFunctional.__init__", "pyadjoint/reduced_functional.py:ReducedFunctional.__call__", "pyadjoint/reduced_functional.py:ReducedFunctional.derivative", "pyadjoint/reduced_functional.py:ReducedFunctional.hessian", "pyadjoint/tape.py:no_annotations"]}
{"id": "C68", "title": "Programs that read NumPy arrays", "statement": "For a program that makes overloaded arrays and numbers, reads entries and parts of arrays and computes a number from those read, ReducedFunctional(J, controls)(xs) is the scaled value that NumPy computes when the program is run with the control values xs, and derivative() after it gives, for every control, the array of the partial derivatives with respect to its entries.", "quantifier": "all programs (sequences of array and number creations, reads with any list of positions, unary and binary operations on numbers), array sizes, sets of controls, control values, scales and adjoint inputs; gradients where the operations are differentiable and no index repeats a position", "why_tests_cant": "A test runs one program; whether reads of reads, overlapping parts and mixtures of arrays and numbers accumulate the adjoint in the right entries must hold for all programs.", "anchors": ["numpy_adjoint/array.py: ndarray.__getitem__, NumpyArraySliceBlock", "pyadjoint/adjfloat.py", "pyadjoint/reduced_functional.py: ReducedFunctional.__call__, derivative"]}
{"id": "C69", "title": "Memory under checkpointing: stored data and working memory follow the schedule", "statement": "With enable_checkpointing(schedule), a time step holds stored checkpoint data only if some action of the schedule performed so far (while recording, evaluating or differentiating) writes data of that step to RAM or disk and no Move action performed later deleted them. After every evaluation of a reduced functional, working memory holds the value of no operation of the tape except the functional itself and what an action of the schedule keeps in working memory for the adjoint of its steps, unless the schedule is SingleMemoryStorageSchedule. A Reverse action removes from working memory the results of the operations of the steps it reverses if its flag clear_adj_deps says so, and no other value.", "quantifier": "every recorded program, every well-formed schedule, every sequence of successful evaluations and derivatives with any functionals, scales and control values, every time step and every variable", "why_tests_cant": "memory use depends on the whole interplay of schedule, program and history; tests look at a few programs and mostly at values, so a value kept or stored too long passes unnoticed", "anchors": ["pyadjoint/checkpointing.py: CheckpointManager.process_taping, process_operation, recompute, evaluate_adj", "pyadjoint/tape.py: TimeStep.checkpoint, restore_from_checkpoint, delete_checkpoint"]}
{"id": "C70", "title": "Reduced functionals on several tapes that share variables", "statement": "Values recorded on one tape may be read by operations recorded on another (set_working_tape), and several reduced functionals may be built on one tape. After any sequence of evaluations (also failing ones), derivatives and Hessian actions through any of these reduced functionals, in any order and on any tapes, calling rf(x) and then derivative() and hessian() gives the values it gives with none of those calls before, provided no evaluation in the sequence writes a constant of rf, that is, a value its tape reads but neither computes nor has as a control. The provisos are needed: without a new rf(x) the derivative may mix values of two evaluations, and an evaluation that writes a constant of rf changes rf.", "quantifier": "all programs of AdjFloat operations on any number of tapes, controls, functionals, and all finite sequences of calls on all of them, including evaluations that raise at any point", "why_tests_cant": "the tapes share mutable checkpoints; the claim ranges over all interleavings of calls on all combinations of tapes and controls", "anchors": ["pyadjoint/tape.py:set_working_tape", "pyadjoint/tape.py:Tape", "pyadjoint/reduced_functional.py:ReducedFunctional.__call__", "pyadjoint/reduced_functional.py:ReducedFunctional.derivative", "pyadjoint/reduced_functional.py:ReducedFunctional.hessian", "pyadjoint/block_variable.py:BlockVariable", "pyadjoint/overloaded_type.py:OverloadedType"]}
{"id": "C71", "title": "Optimising a tape with checkpointing", "statement": "A tape recorded with a checkpointing schedule may be optimised for a reduced functional (rf.optimize_tape()) at any time after the recording has ended, also between evaluations and derivatives. After any history of evaluations, derivatives and optimisations, rf(x) succeeds and gives the value of the functional in the run of all recorded operations at x, and the derivative is that of the program as recorded without checkpointing. (The second half is false away from the recorded control values: the first derivative after the optimisation is computed from recorded values of intermediate variables, without an error.)", "quantifier": "all recorded programs, all well-formed schedules, all control values, all finite histories of evaluations, derivatives and optimisations", "why_tests_cant": "the optimisation throws away what was stored for each step and which variables each step must keep; whether the remaining live-in sets suffice depends on program, schedule and history", "anchors": ["pyadjoint/tape.py:Tape.optimize", "pyadjoint/tape.py:Tape.optimize_for_controls", "pyadjoint/tape.py:Tape.optimize_for_functionals", "pyadjoint/tape.py:TimeStep", "pyadjoint/checkpointing.py:CheckpointManager.process_operation", "pyadjoint/reduced_functional.py:ReducedFunctional.optimize_tape"]}
{"id": "C72", "title": "A computation calls a block's own methods once, and only for the blocks that matter", "statement": "Evaluating a reduced functional prepares each block that does not compute a control once and asks it once for each of its outputs, in the order of the tape. Computing a gradient prepares and asks only blocks with an input computed from a control and an output that the functional is computed from, in reverse order, once for each such input. Computing a Hessian asks for tangents only where an input is computed from a control, once per output and in order, and then for second derivatives under the same conditions as the gradient. If no component returns None, all these calls are made. If what a block prepares serves each component as if it had been prepared for it alone, values, gradients and Hessians equal those computed without preparation.", "quantifier": "all tapes of user-defined blocks with any number of inputs and outputs, all sets of controls, functionals, directions and saved values, all preparation results", "why_tests_cant": "a test checks the calls for one tape; which blocks lie between controls and functional ranges over all graphs, and a call that is missed or made twice gives wrong values only for blocks whose methods have effects or are not linear", "anchors": ["pyadjoint/block.py: Block.evaluate_adj, evaluate_tlm, evaluate_hessian, recompute, prepare_evaluate_adj, prepare_evaluate_tlm, prepare_evaluate_hessian, prepare_recompute_component", "pyadjoint/drivers.py: compute_gradient, compute_hessian", "pyadjoint/reduced_functional.py: ReducedFunctional.__call__", "pyadjoint/tape.py: Tape.evaluate_adj, evaluate_tlm, evaluate_hessian"]}
{"id": "C73", "title": "minimize and IPOPTSolver pass on the caller's arguments and leave the caller's dictionaries alone", "statement": "minimize gives the chosen method the caller's bounds laid out entry by entry, the gradient with the caller's derivative_options if the method uses gradients, the Hessian action if it uses Hessians, the caller's options completed by defaults, the constraints, and every other keyword argument unchanged; an unknown method or a missing algorithm raises KeyError. The dictionaries the caller passed are the same afterwards, so that running again gives the method the same arguments. IPOPT gets the caller's parameters under its own names and maximises exactly if the problem is a maximisation problem.", "quantifier": "all methods, all keyword arguments, all dictionaries passed by reference and shared between calls, all sequences of two calls, all IPOPT parameters", "why_tests_cant": "the combinations of methods, keywords and dictionaries used again in later calls are unbounded, and tests call minimize once with literals", "anchors": ["pyadjoint/optimization/optimization.py: minimize, minimize_scipy_generic, minimize_custom, serialise_bounds, optimization_algorithms_dict", "pyadjoint/optimization/ipopt_solver.py: IPOPTSolver.__init__, _param_map"]}
{"id": "C74", "title": "Copies made by copy.deepcopy and pickle behave like the original and apart from it", "statement": "Copying a tape together with its variables, controls and reduced functionals (copy.copy, copy.deepcopy, or pickling and unpickling) gives objects of the same classes. The copied tape has the copied blocks and timesteps, a reduced functional on it gives in any sequence of evaluations, derivatives and Hessian actions what the original gives in that sequence, and none of these calls changes a variable of the original. Looking up an attribute on a control or on a ReducedFunctionalNumPy gives its own attribute, else that of the object it wraps.", "quantifier": "all tapes (any blocks, any division into timesteps), all controls and reduced functionals, all ways of copying, all sequences of calls after the copy, all recursion limits", "why_tests_cant": "what copying does depends on Python's copy protocol meeting __getattr__ and an overridden list.append; it must be right for every tape and for every later sequence of calls, while tests pickle one small object at most", "anchors": ["pyadjoint/control.py: Control.__getattr__", "pyadjoint/reduced_functional_numpy.py: ReducedFunctionalNumPy.__getattr__", "pyadjoint/tape.py: TimeStepSequence.append, TimeStepSequence.__init__, Tape.copy, Tape.get_blocks", "pyadjoint/overloaded_type.py: Weakref.__getstate__, Weakref.__setstate__"]}
{"id": "C75", "title": "Values passed to and returned by a reduced functional belong to the caller", "statement": "The object passed as a control value may be changed by the caller after the call, and the object returned by an evaluation may be changed, without any effect on what later evaluations, derivatives and Hessian actions give, on the values held from other calls, or on what the caller still holds; and no later call changes an object the caller holds. Everything the caller sees is as if each object were an independent value.", "quantifier": "all tapes and blocks (including blocks returning an input itself), all types of values (restoring by copy or by reference, with in-place or out-of-place multiplication), all sequences of evaluations of any functionals at any controls, derivatives, Hessian actions, and creations, changes and inspections of objects by the caller", "why_tests_cant": "an aliased object shows only if the caller changes it and later asks for something depending on it; the property must hold for every interleaving and every pattern of sharing on the tape", "anchors": ["pyadjoint/reduced_functional.py: ReducedFunctional.__call__", "pyadjoint/control.py: Control.update", "pyadjoint/block_variable.py: BlockVariable.saved_output, BlockVariable.checkpoint", "pyadjoint/block.py: Block.recompute", "numpy_adjoint/array.py: ndarray._ad_create_checkpoint, ndarray._ad_restore_at_checkpoint", "pyadjoint/adjfloat.py: AdjFloat._ad_create_checkpoint, AdjFloat._ad_restore_at_checkpoint"]}
{"id": "C76", "title": "Derivatives returned and directions given belong to the caller", "statement": "A derivative or Hessian action returned by a reduced functional stays as it was returned until the caller changes it, whatever is computed afterwards; and the caller may change it, or a direction it passed, at any time without an effect on later derivatives, Hessian actions, values, or on other results it holds. Everything the caller sees is as if results and directions were independent values.", "quantifier": "all tapes, all sequences of evaluations, derivatives and Hessian actions of any functionals at any lists of controls with any of the caller's directions, interleaved with creations and changes of directions and changes of results by the caller", "why_tests_cant": "aliasing shows only if the caller changes an object and later asks for something that reads it; the property must hold for every interleaving", "anchors": ["pyadjoint/drivers.py: compute_gradient, compute_hessian", "pyadjoint/control.py: Control.get_derivative, Control.get_hessian, Control.tlm_value", "pyadjoint/block_variable.py: BlockVariable.add_adj_output, add_hessian_output, add_tlm_output, reset_variables", "pyadjoint/block.py: evaluate_adj, evaluate_tlm, evaluate_hessian", "numpy_adjoint/array.py: ndarray._ad_convert_type"]}
{"id": "C77", "title": "ROL is told the functional, its gradient and its Hessian at the point it stands at", "statement": "Whatever updates, values, gradients and Hessian actions ROL asks for, in whatever order: value() is the functional and gradient the gradient at the point the updates lead to (the last point evaluated, or the accepted point after Revert), as computed on the tape as recorded, and hessVec is the second derivative there in the direction asked for. checkGradient compares with the gradient at its point.", "quantifier": "all tapes of arbitrary blocks, all finite sequences of value, update (any flag, or none), gradient and hessVec calls, all points and directions", "why_tests_cant": "which calls are made and in which order is decided by ROL at run time from numerical values; the property must hold for every sequence", "anchors": ["pyadjoint/optimization/rol_solver.py: ROLObjective, ROLSolver.checkGradient", "pyadjoint/reduced_functional.py: ReducedFunctional.derivative, ReducedFunctional.hessian", "pyadjoint/drivers.py: compute_hessian", "pyadjoint/tape.py: Tape.restore_block_vars"]}
{"id": "C78", "title": "ROL's vector of controls is its own, starting at the values on the tape", "statement": "ROLSolver(problem).solve() starts at the values of the controls on the tape, and whatever ROL then writes to its vector between evaluations, derivatives and Hessian actions, each of these refers to the values the vector had when the functional was last evaluated, and what solve returns is what ROL last wrote.", "quantifier": "all tapes of arbitrary blocks (also blocks handing on an input), all lists of controls, all sequences of writes to the vector and calls of the objective, all mutable and immutable types of controls", "why_tests_cant": "the vector consists of the objects the tape refers to; whether a write reaches the tape depends on the order of writes and evaluations, which ROL decides at run time", "anchors": ["pyadjoint/optimization/rol_solver.py: ROLSolver.__init__, ROLSolver.solve", "pyadjoint/control.py: Control.tape_value, Control.update", "pyadjoint/block_variable.py: BlockVariable.saved_output", "pyadjoint/overloaded_type.py: create_overloaded_object"]}
{"id": "C79", "title": "Disk checkpointing writes to disk exactly what the schedule puts there", "statement": "A package that stores checkpoints on disk (TapePackageData) is told to write to disk exactly while the data of a timestep are stored for a schedule action whose storage is the disk. Recording, setting controls, recomputing blocks, restoring and adjoints happen while it is told to keep values in memory, so that working memory is never on disk, and so it is left when the operation returns. What an evaluation stores, and on which medium, is what the actions of the schedule say.", "quantifier": "all schedules with any mix of storages, all recordings, all sequences of evaluations and derivatives, every point in them (also the points where an exception comes next)", "why_tests_cant": "the calls interleave with the actions of the schedule and the time steps; a missing pause shows only in where later values are kept, not in results", "anchors": ["pyadjoint/checkpointing.py: CheckpointManager.process_taping, CheckpointManager.process_operation, CheckpointManager.recompute", "pyadjoint/tape.py: TapePackageData, Tape.reset_blocks", "pyadjoint/reduced_functional.py: ReducedFunctional.__call__"]}
{"id": "C80", "title": "Derivatives computed by hand, as documented, are the derivatives", "statement": "Following the documentation, a user can do without the drivers: put a weight into y.block_variable.adj_value, call tape.evaluate_adj(), and x.block_variable.adj_value is the gradient of the weighted y; put a direction into x.block_variable.tlm_value, call tape.evaluate_tlm(), and y.block_variable.tlm_value is the directional derivative. Several results may be weighted at once, which gives the derivative of the weighted sum, and evaluate_adj(last_block=k) gives the derivatives by the values that the rest of the program, from block k on, starts from.", "quantifier": "all tapes, functionals, inputs, weights, directions, values of last_block, and all histories of evaluations, sweeps by hand, resets and driver calls before", "why_tests_cant": "depends on what earlier sweeps left on any variable of the tape and on the whole history of calls", "anchors": ["docs/source/documentation/pyadjoint_docs.rst: Tape", "pyadjoint/tape.py: Tape.evaluate_adj, Tape.evaluate_tlm, Tape.reset_variables, Tape.reset_tlm_values", "pyadjoint/block_variable.py: BlockVariable.add_adj_output, BlockVariable.add_tlm_output"]}
{"id": "C81", "title": "Pauses of annotation are counted", "statement": "The documentation says that if pause_annotation() is called twice, continue_annotation() must be called twice to enable annotation again: a function that pauses and continues annotation around its own work can be called from code that has paused it.", "quantifier": "all sequences of calls of pause_annotation and continue_annotation", "why_tests_cant": "must hold for every nesting of calls", "anchors": ["docs/source/documentation/pyadjoint_docs.rst: Tape", "pyadjoint/tape.py: pause_annotation, continue_annotation"]}
{"id": "C82", "title": "A copy of a checkpointed tape is an ordinary tape of the same program", "statement": "tape.copy() of a tape with checkpointing has the same operations and no checkpointing. A reduced functional on the copy evaluates and differentiates the recorded program as if it had been recorded without checkpointing, whatever was done with the original and with other copies; and using a copy does not disturb the original.", "quantifier": "all recorded programs, all schedules, also before the recording is ended, all interleavings of evaluations and derivatives on the original and on copies, all control values", "why_tests_cant": "the tapes share their block variables, from which checkpointing clears values at points that depend on the schedule; all interleavings count", "anchors": ["pyadjoint/tape.py: Tape.copy, TimeStep.copy", "pyadjoint/reduced_functional.py: ReducedFunctional.__call__, ReducedFunctional.derivative", "pyadjoint/checkpointing.py: CheckpointManager.recompute"]}
{"id": "C83", "title": "Optimisation with checkpointing takes the steps it takes without", "statement": "Checkpointing is transparent to optimisers and to all code that calls a reduced functional: code that evaluates rf(x) and rf.derivative() and chooses its next call from the answers returns the same result whether the tape was recorded with a checkpoint schedule or without.", "quantifier": "all adaptive clients (any number of calls, chosen in any way from the answers), all recorded programs, all schedules, all histories before", "why_tests_cant": "one wrong answer at any point changes all later calls; clients, programs and schedules are unbounded", "anchors": ["pyadjoint/reduced_functional.py: ReducedFunctional.__call__, ReducedFunctional.derivative", "pyadjoint/checkpointing.py: CheckpointManager.recompute, CheckpointManager.evaluate_adj", "pyadjoint/optimization/optimization.py: minimize_scipy_generic", "pyadjoint/tape.py: Tape.copy"]}
{"id": "C84", "title": "Adjoint sweeps driven by hand work with checkpointing", "statement": "The documented recipe `J.block_variable.adj_value = w; tape.evaluate_adj()` leaves the same adjoint values on a tape with a checkpoint schedule as on one without, and does not disturb derivatives computed later.", "quantifier": "all recorded programs, all schedules, all seeds, all histories of evaluations, derivatives, assignments of adjoint values, resets and sweeps", "why_tests_cant": "the sweep goes through an arbitrary schedule of recomputation and restoring, and its effect on later calls depends on the whole history", "anchors": ["pyadjoint/tape.py: Tape.evaluate_adj, Tape.reset_variables", "pyadjoint/checkpointing.py: CheckpointManager.evaluate_adj, CheckpointManager.process_operation", "docs/source/documentation/pyadjoint_docs.rst"]}
{"id": "C85", "title": "Tangents and Hessian actions are linear in the direction", "statement": "rf.hessian(a*d + b*e) = a*rf.hessian(d) + b*rf.hessian(e), and likewise for tangents, also where the Hessian is not the second derivative (C06); whether rf.hessian raises does not depend on the direction. Krylov solvers (Newton-CG, TAO, ROL) rely on it.", "quantifier": "all tapes of AdjFloat operations and all tapes of blocks whose tangent and Hessian methods are linear, all controls on the tape, all directions and coefficients, all states of the tape", "why_tests_cant": "all tapes, all directions, all leftovers of earlier computations", "anchors": ["pyadjoint/drivers.py: compute_hessian", "pyadjoint/block.py: Block.evaluate_hessian", "pyadjoint/adjfloat.py", "pyadjoint/reduced_functional.py: ReducedFunctional.hessian"]}
{"id": "C86", "title": "What a reduced functional says about a control does not depend on its other controls", "statement": "Two ReducedFunctionals of the same functional on one tape agree on the controls they share: listing the controls in another order, or adding a control that is given the value it already has (and direction 0), changes neither the value of the functional, nor the derivative with respect to a control, nor the Hessian action.", "quantifier": "all tapes, functionals, lists of controls, control values and directions", "why_tests_cant": "all tapes and all pairs of lists of controls", "anchors": ["pyadjoint/reduced_functional.py: ReducedFunctional.__call__, derivative, hessian", "pyadjoint/drivers.py: compute_gradient, compute_hessian", "pyadjoint/tape.py: Tape.marked_nodes"]}
{"id": "C87", "title": "Derivatives with respect to controls computed from one another", "statement": "A ReducedFunctional may list variables as controls that the program computes from other controls. rf.derivative(), the tangents of evaluate_tlm and rf.hessian() are then still the derivatives of rf, or the combination is rejected.", "quantifier": "all tapes, functionals, lists of controls (also computed from one another, also repeated), values and directions", "why_tests_cant": "all tapes and all choices of controls among their variables", "anchors": ["pyadjoint/reduced_functional.py: ReducedFunctional.__call__, derivative, hessian", "pyadjoint/block.py: Block.recompute, Block.evaluate_adj, Block.evaluate_tlm", "pyadjoint/block_variable.py: BlockVariable.add_tlm_output", "pyadjoint/tape.py: Tape.optimize_for_controls"]}
{"id": "C88", "title": "Programs in parts: chain rule, rules of calculus, later operations", "statement": "Functionals may be combined by further recorded operations: the derivative of J1+J2, J1-J2, J1*J2, J1/J2, f(J1) returned by compute_gradient is the combination of the derivatives by the rule of calculus. A program recorded in two parts (on one tape or two) may be differentiated in two stages, handing the derivative with respect to the intermediate values to the first part as adj_input. Recording further operations after J changes neither its value nor its derivative nor its Hessian action.", "quantifier": "all tapes, splits of the program, values, controls, adjoint inputs, directions and earlier derivative computations", "why_tests_cant": "all programs and all places to cut them", "anchors": ["pyadjoint/drivers.py: compute_gradient, compute_hessian", "pyadjoint/tape.py: Tape.evaluate_adj, Tape.reset_variables", "pyadjoint/adjfloat.py: AddBlock, SubBlock, MulBlock, DivBlock", "pyadjoint/control.py: Control.get_derivative"]}
{"id": "C89", "title": "Programs that change objects in place", "statement": "Overloaded objects may be mutable: an annotated operation may store its result in an existing object, possibly one of its inputs, and values may be changed inside stop_annotating(modifies=...). A ReducedFunctional of such a program returns what the program computes when it is run again with the versions of the objects the Controls were made of at the new values, and rf.derivative() is the derivative of that. A Control of a mutable object represents the value at the time of its creation. What the program does afterwards does not change what an existing ReducedFunctional computes.", "quantifier": "all programs over any number of objects with operations in place, announced changes and controls in any order; all choices of controls, of their values and of the functional", "why_tests_cant": "all interleavings of operations in place, controls and announced changes", "anchors": ["pyadjoint/control.py: Control.__init__, Control.data, Control.tape_value", "pyadjoint/overloaded_type.py: OverloadedType.block_variable, OverloadedType.create_block_variable, OverloadedType.clear_block_variable, OverloadedType._ad_will_add_as_dependency", "pyadjoint/tape.py: stop_annotating", "pyadjoint/block_variable.py: BlockVariable.save_output, BlockVariable.saved_output", "pyadjoint/reduced_functional.py: ReducedFunctional.__call__"]}
{"id": "C90", "title": "Mutable objects under checkpointing", "statement": "Enabling checkpointing does not change what a ReducedFunctional returns for programs that change objects in place or inside stop_annotating(modifies=...): rf(x) is the value of the functional in the recorded operations at the new control values, and rf.derivative() its derivative, although the objects the tape refers to have been overwritten since.", "quantifier": "all recordings with changes of objects at any point, all well-formed schedules, all histories of evaluations, derivatives and further changes of objects, all control values", "why_tests_cant": "all interleavings of changes with time steps, schedules and later uses of the tape", "anchors": ["pyadjoint/block_variable.py: BlockVariable.save_output, BlockVariable.saved_output", "pyadjoint/checkpointing.py: CheckpointManager.process_taping, CheckpointManager.process_operation", "pyadjoint/tape.py: stop_annotating, Tape.end_timestep, TimeStep.checkpoint", "pyadjoint/reduced_functional.py: ReducedFunctional.__call__, ReducedFunctional.derivative"]}
{"id": "C91", "title": "Sweeping by hand leaves the recorded program as it is", "statement": "A program that sets tlm_value, adj_value or hessian_value of some variables and calls tape.evaluate_tlm(), tape.evaluate_adj() and tape.evaluate_hessian(), as documented, gets the derivatives of the recorded operations, and the tape is the recorded program afterwards: it has the same operations, and values, derivatives and Hessian actions of every functional recorded before are what they would have been.", "quantifier": "all tapes of AdjFloat operations, all sequences of assignments of tangents, adjoints and Hessian values, sweeps of the three kinds, resets and switches of annotation, all functionals, controls and control values", "why_tests_cant": "all programs and all sequences of calls, with any number of sweeps", "anchors": ["pyadjoint/tape.py: Tape.evaluate_tlm, Tape.evaluate_hessian, Tape.evaluate_adj, Tape.reset_tlm_values, Tape.reset_hessian_values", "pyadjoint/adjfloat.py: PowBlock.evaluate_tlm, PowBlock.evaluate_hessian, annotate_operator", "pyadjoint/block.py: Block.evaluate_tlm, Block.evaluate_hessian", "docs/source/documentation/pyadjoint_docs.rst"]}
{"id": "C92", "title": "Unsuitable arguments are refused and a refusal leaves no trace", "statement": "Calling a reduced functional with the wrong number of control values raises ValueError, with a value whose class does not suit its control raises TypeError naming the first such value, and asking for a Hessian with the wrong number of directions raises. A refused request runs no callback, changes nothing, and later requests have the outcomes they would have had without it.", "quantifier": "all classes of values and controls, all arguments (single objects, lists, tuples), all callbacks, all tapes of blocks, all sequences of requests with refused ones anywhere among them", "why_tests_cant": "all class hierarchies, all positions of unsuitable values and all later requests", "anchors": ["pyadjoint/reduced_functional.py: ReducedFunctional.__call__, ReducedFunctional.hessian", "pyadjoint/drivers.py: compute_hessian", "pyadjoint/enlisting.py: Enlist"]}
