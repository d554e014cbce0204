{
 "claims": [
  {
   "property": "C01",
   "status": "proved",
   "theorems": [
    "Pyadjoint.Session.replay_fidelity",
    "Pyadjoint.Session.run_isSome_iff"
   ],
   "note": "For every program (object creation, literals, all AdjFloat operations, pause/continue, control creation, garbage collection, complete and interrupted evaluations, derivatives and Hessians, completed or raising) the value returned by the reduced functional is the source-level value of the program."
  },
  {
   "property": "C02",
   "status": "proved",
   "theorems": [
    "Pyadjoint.gradient_exact",
    "Pyadjoint.gradient_exact_adjfloat",
    "Pyadjoint.Session.program_gradient",
    "Pyadjoint.Session.derivative_after_recording",
    "Pyadjoint.dependent_controls_wrong_gradient",
    "Pyadjoint.duplicate_controls_wrong_gradient"
   ],
   "note": "gradient_exact is for arbitrary blocks with a correct adjoint component, gradient_exact_adjfloat instantiates it for every AdjFloat operation, program_gradient and derivative_after_recording state it for whole programs (including ones in which evaluations, derivatives or Hessians raised) without mentioning tapes; the two negations show that the independence and no-repetition hypotheses are needed."
  },
  {
   "property": "C03",
   "status": "proved",
   "theorems": [
    "Pyadjoint.gradient_history_independent",
    "Pyadjoint.gradient_after_crash"
   ],
   "note": "Arbitrary leftovers and arbitrary crash points (block and component); generic in values and blocks. Controls not on the tape need an equal leftover, see stale_gradient_off_tape (C43)."
  },
  {
   "property": "C04",
   "status": "proved",
   "theorems": [
    "Pyadjoint.adjoint_tlm_duality"
   ],
   "note": "Arbitrary blocks, arbitrary bilinear (additive in the adjoint argument) pairing."
  },
  {
   "property": "C05",
   "status": "proved",
   "theorems": [
    "Pyadjoint.tlm_exact",
    "Pyadjoint.min_missing_tangent",
    "Pyadjoint.Session.program_tangent"
   ],
   "note": "program_tangent: the same for whole programs that may also evaluate functionals and compute derivatives before; the program can go on afterwards."
  },
  {
   "property": "C06",
   "status": "partial",
   "theorems": [
    "Pyadjoint.hessian_exact_partial",
    "Pyadjoint.hessian_second_derivative_partial",
    "Pyadjoint.hessian_exact_safe",
    "Pyadjoint.hessian_returns_partial",
    "Pyadjoint.Session.program_hessian_partial",
    "Pyadjoint.exp_hessian_wrong",
    "Pyadjoint.log_hessian_wrong",
    "Pyadjoint.mul_hessian_wrong",
    "Pyadjoint.hessian_raises"
   ],
   "note": "The unrestricted claim is false of the code: exp, log and products have wrong second-order formulas and a quotient or power independent of the controls makes the call raise. Proved: exactness under the exact condition NoDefect on the relevant exp/log/* blocks, for all tapes; exactness for tapes without them; absence of exceptions; and the four refutations. program_hessian_partial states it for whole programs, which may contain evaluations, derivatives and Hessians that raised, without mentioning tapes."
  },
  {
   "property": "C07",
   "status": "proved",
   "theorems": [
    "Pyadjoint.pruned_gradient_eq_full",
    "Pyadjoint.marked_nodes_iff_reachable",
    "Pyadjoint.gradient_history_independent"
   ],
   "note": "Extra markings are covered by gradient_history_independent (arbitrary initial markings)."
  },
  {
   "property": "C08",
   "status": "partial",
   "theorems": [
    "Pyadjoint.optimize_preserves_value_partial",
    "Pyadjoint.optimize_preserves_derivative_partial",
    "Pyadjoint.consistent_after_evaluation",
    "Pyadjoint.Session.recorded_consistent",
    "Pyadjoint.Session.optimize_recorded_value",
    "Pyadjoint.optimize_changes_value",
    "Pyadjoint.optimize_stale_derivative"
   ],
   "note": "Proved for tapes whose stored values are consistent with the blocks (in particular straight after recording, or after any evaluation of a functional over the whole tape). False in general: optimize_changes_value and optimize_stale_derivative are concrete refutations (values overridden through another reduced functional; adjoint values left on a control whose blocks were removed)."
  },
  {
   "property": "C09",
   "status": "proved",
   "theorems": [
    "Pyadjoint.optimize_raises_iff"
   ],
   "note": ""
  },
  {
   "property": "C10",
   "status": "proved",
   "theorems": [
    "Pyadjoint.optimize_for_controls_exact",
    "Pyadjoint.optimize_for_functionals_exact",
    "Pyadjoint.optimize_for_controls_idempotent",
    "Pyadjoint.optimize_for_functionals_idempotent"
   ],
   "note": ""
  },
  {
   "property": "C11",
   "status": "proved",
   "theorems": [
    "Pyadjoint.Session.recorded_tape_wf"
   ],
   "note": "For every program including garbage collection of unreferenced block variables at any point."
  },
  {
   "property": "C12",
   "status": "proved",
   "theorems": [
    "Pyadjoint.Session.values_independent_of_annotation",
    "Pyadjoint.Session.paused_records_nothing",
    "Pyadjoint.Session.one_block_per_operation"
   ],
   "note": "stop_annotating itself is modelled separately for C13."
  },
  {
   "property": "C13",
   "status": "proved",
   "theorems": [
    "Pyadjoint.Ctx.stop_annotating_restores",
    "Pyadjoint.Ctx.stop_annotating_records_nothing",
    "Pyadjoint.Ctx.contexts_scoped"
   ],
   "note": "all programs of nested contexts, calls and exceptions"
  },
  {
   "property": "C14",
   "status": "partial",
   "theorems": [
    "Pyadjoint.Ctx.set_working_tape_restores_partial",
    "Pyadjoint.Ctx.contexts_scoped",
    "Pyadjoint.Ctx.set_working_tape_decorator_leaks"
   ],
   "note": "proved for with-blocks; false for the bare decorator form without a tape on first entry"
  },
  {
   "property": "C15",
   "status": "proved",
   "theorems": [
    "Pyadjoint.tapes_independent",
    "Pyadjoint.add_block_spec"
   ],
   "note": "Tapes without a checkpoint manager; with one, end_timestep appends timesteps through the same append_step."
  },
  {
   "property": "C16",
   "status": "partial",
   "theorems": [
    "Pyadjoint.timestepper_on_any_tape",
    "Pyadjoint.timestepper_partial",
    "Pyadjoint.timestepper_first_empty",
    "Pyadjoint.Stepper.timestepper_unrolled_partial",
    "Pyadjoint.Stepper.timestepper_collection_raises",
    "Pyadjoint.Stepper.progress_bar_not_transparent",
    "Pyadjoint.Stepper.progress_bar_transparent",
    "Pyadjoint.Stepper.timestepper_recording",
    "Pyadjoint.Stepper.timestepper_plain"
   ],
   "note": "Holds on any tape that already has a timestep and on a fresh tape if the first iteration records something. False otherwise (timestepper_first_empty): with nothing recorded in the first iteration, iteration 1's blocks end up in timestep 0. For iterators (and with a progress bar for every iterable) the loop is the program written out, also with checkpointing (timestepper_unrolled_partial, timestepper_recording). False for the documented use tape.timestepper(range(10)) with the default progress bar: it raises TypeError (timestepper_collection_raises)."
  },
  {
   "property": "C17",
   "status": "proved",
   "theorems": [
    "Pyadjoint.OSet.ordered_set_correct",
    "Pyadjoint.OSet.remove_spec",
    "Pyadjoint.OSet.union_spec",
    "Pyadjoint.OSet.difference_spec",
    "Pyadjoint.OSet.intersection_spec",
    "Pyadjoint.OSet.symmetricDifference_spec",
    "Pyadjoint.OSet.ofIterable_spec",
    "Pyadjoint.OSet.union_order",
    "Pyadjoint.OSet.symmetricDifference_order"
   ],
   "note": ""
  },
  {
   "property": "C18",
   "status": "proved",
   "theorems": [
    "Pyadjoint.enlist_delist",
    "Pyadjoint.delist_iff",
    "Pyadjoint.gradient_single_and_list",
    "Pyadjoint.derivative_single_and_list"
   ],
   "note": ""
  },
  {
   "property": "C19",
   "status": "partial",
   "theorems": [
    "Pyadjoint.derivative_components_partial",
    "Pyadjoint.derivative_components_increasing",
    "Pyadjoint.derivative_components_order",
    "Pyadjoint.derivative_components_repeated",
    "Pyadjoint.derivative_components_negative",
    "Pyadjoint.derivative_components_single",
    "Pyadjoint.Session.session_components",
    "Pyadjoint.derivative_components_exact"
   ],
   "note": "Holds for strictly increasing in-range component tuples and a list of controls. Refuted for unordered, repeated, negative components and for a single control (theorems with witnesses). derivative_components_exact says what the code returns for every tuple of indices."
  },
  {
   "property": "C20",
   "status": "partial",
   "theorems": [
    "Pyadjoint.value_scaled",
    "Pyadjoint.derivative_scaled",
    "Pyadjoint.hessian_scaled_partial",
    "Pyadjoint.hessian_scale_missing",
    "Pyadjoint.maximize_negates",
    "Pyadjoint.maximize_numpy_minimises",
    "Pyadjoint.maximize_numpy_witness",
    "Pyadjoint.maximize_leaves_scale"
   ],
   "note": "Value and gradient proved in general; Hessian only directly after the functional's own derivative (hessian_scale_missing refutes the rest); maximize proved for ReducedFunctional and refuted for ReducedFunctionalNumPy."
  },
  {
   "property": "C21",
   "status": "partial",
   "theorems": [
    "Pyadjoint.evaluation_undisturbed",
    "Pyadjoint.crashed_evaluation_undisturbed",
    "Pyadjoint.derivative_undisturbed",
    "Pyadjoint.hessian_undisturbed",
    "Pyadjoint.Session.call_adds_no_block",
    "Pyadjoint.Session.derivative_adds_no_block",
    "Pyadjoint.Session.derivative_adds_no_block_partial",
    "Pyadjoint.Session.derivative_annotates_zeros"
   ],
   "note": "Proved except that derivative() with derivative_components annotates one multiplication per omitted component while annotation is on (refuted by derivative_annotates_zeros). The Hessian sweep's statement is about calls that return."
  },
  {
   "property": "C22",
   "status": "proved",
   "theorems": [
    "Pyadjoint.restore_roundtrip",
    "Pyadjoint.restore_sets",
    "Pyadjoint.restore_idempotent",
    "Pyadjoint.restore_now",
    "Pyadjoint.restore_packages",
    "Pyadjoint.restore_without_controls",
    "Pyadjoint.restore_packages_fails"
   ],
   "note": "Any sequence of evaluations, gradients, crashes in either, updates and markings between saving and restoring, writing only to controls given when saving. restore_without_controls: if the controls are not given, J and the control end up inconsistent. Values are immutable in the model (no in-place mutation of a saved checkpoint)."
  },
  {
   "property": "C23",
   "status": "proved",
   "theorems": [
    "Pyadjoint.CTape.recorded_steps",
    "Pyadjoint.CTape.too_many_timesteps",
    "Pyadjoint.CTape.end_timestep_after_end",
    "Pyadjoint.CTape.adjoint_twice_raises",
    "Pyadjoint.CTape.derivative_twice_raises",
    "Pyadjoint.CTape.enable_on_used_tape",
    "Pyadjoint.CTape.well_formed_schedule_records"
   ],
   "note": "For every schedule (an arbitrary list of actions) and every recording: a successful recording has exactly the scheduled steps; ending too many time steps, ending one after the end of the recording, a second gradient without a recompute, and enabling checkpointing on a used tape raise the documented errors; a schedule that tiles the steps records without error."
  },
  {
   "property": "C24",
   "status": "proved",
   "theorems": [
    "Pyadjoint.checkpointable_state_live_in",
    "Pyadjoint.CTape.recorded_state_live_in"
   ],
   "note": "checkpointable_state_live_in: tapes without a checkpoint manager, timesteps ended by the user. recorded_state_live_in: tapes recorded under any well-formed schedule, before and after the recording is ended."
  },
  {
   "property": "C25",
   "status": "partial",
   "theorems": [
    "Pyadjoint.CTape.checkpointed_value_partial",
    "Pyadjoint.CTape.checkpointed_value_as_without_partial",
    "Pyadjoint.CTape.zero_functional_stale",
    "Pyadjoint.CTape.first_evaluation_stale",
    "Pyadjoint.CTape.program_value_partial",
    "Pyadjoint.CTape.program_prints_partial"
   ],
   "note": "Proved for every recording, every well-formed schedule and every history of evaluations and derivatives with the same controls, for controls that are inputs of the recorded program. Two hypotheses are necessary, shown by the two refutations: the functional was recorded with a truthy value, and the recording was ended before the first evaluation. The full statement is false for the code. program_value_partial and program_prints_partial put this together with the recorder: for every AdjFloat program, schedule and division into time steps, rf(x) is the value of the program as written, or what the program prints when run again with x."
  },
  {
   "property": "C26",
   "status": "partial",
   "theorems": [
    "Pyadjoint.CTape.recorded_gradient_partial",
    "Pyadjoint.CTape.cycles_gradient_partial",
    "Pyadjoint.CTape.stored_gradient_partial",
    "Pyadjoint.CTape.multistage_gradient_stale",
    "Pyadjoint.CTape.unused_control_gradient_stale",
    "Pyadjoint.CTape.single_memory_gradient_stale",
    "Pyadjoint.CTape.other_controls_gradient_stale",
    "Pyadjoint.CTape.checkpointed_gradient_exact_partial",
    "Pyadjoint.CTape.program_derivative_after_recording_partial",
    "Pyadjoint.CTape.checkpointed_program_gradient_partial",
    "Pyadjoint.CTape.affine_gradient_partial",
    "Pyadjoint.CTape.affine_gradient_exact_partial",
    "Pyadjoint.CTape.affine_program_gradient_partial"
   ],
   "note": "Proved for every recording and every well-formed schedule reversing each step once, directly after recording and after any number of evaluations at the recorded control values and derivatives of any functionals and controls. At new control values: proved, after any history of functionals of the same controls, for schedules that store what the adjoint of every step needs and load it before reversing the step (SingleDiskStorageSchedule), if every control is used in every step (stored_gradient_partial). False otherwise: four refutations (multistage; disk storage with a control not used in every step; single memory storage; a derivative with respect to other controls taken before). checkpointed_gradient_exact_partial states it without another tape: the derivative returned is the Fréchet derivative of the function the checkpointed AdjFloat tape computes. For whole programs, without mentioning tapes in the conclusion: program_derivative_after_recording_partial (at the recorded values) and checkpointed_program_gradient_partial (at new values). For programs affine in the controls (no adjoint reads a value that depends on them): at all values, for every well-formed schedule that reverses each step once, multistage included, and after any evaluations and derivatives (affine_gradient_partial; for AdjFloat tapes without another tape in the conclusion affine_gradient_exact_partial). affine_program_gradient_partial: the same for whole programs as written, for every division into time steps."
  },
  {
   "property": "C27",
   "status": "partial",
   "theorems": [
    "Pyadjoint.CTape.crash_truncates_schedule",
    "Pyadjoint.CTape.crash_keeps_schedule_partial",
    "Pyadjoint.CTape.crash_gradient_wrong"
   ],
   "note": "False for the first adjoint evaluation: at every crash point the recorded reverse schedule is cut off there, and a concrete tape then returns derivative 0 instead of 32 without raising. Proved for exceptions in later evaluations, for all schedules, histories and crash points."
  },
  {
   "property": "C28",
   "status": "proved",
   "theorems": [
    "Pyadjoint.flat_array_roundtrip",
    "Pyadjoint.flat_array_floats",
    "Pyadjoint.numpy_call",
    "Pyadjoint.numpy_get_after_call",
    "Pyadjoint.numpy_get_after_set",
    "Pyadjoint.numpy_derivative_floats",
    "Pyadjoint.numpy_gradient_exact",
    "Pyadjoint.numpy_derivative_ignores_point",
    "Pyadjoint.numpy_hessian_discards_adjoint"
   ],
   "note": "Layout for any control types whose array methods are inverse to each other, instantiated for AdjFloat."
  },
  {
   "property": "C29",
   "status": "partial",
   "theorems": [
    "Pyadjoint.serialise_bounds_layout_partial",
    "Pyadjoint.serialise_bounds_single",
    "Pyadjoint.integer_bounds_not_repeated",
    "Pyadjoint.too_few_bounds",
    "Pyadjoint.ipopt_bounds_partial",
    "Pyadjoint.ipopt_none_is_nan",
    "Pyadjoint.problem_bounds",
    "Pyadjoint.problem_bounds_iff",
    "Pyadjoint.serialise_bounds_arrays",
    "Pyadjoint.documented_bounds_raise",
    "Pyadjoint.documented_bounds_transposed"
   ],
   "note": "Layout proved for all sizes and bounds that fit. False of the code in three cases, each with a witness: integer bounds [0, 1] for one control with several entries are not repeated; fewer bounds than controls go unnoticed; None passes the checks of OptimizationProblem but becomes NaN for IPOPT. What an OptimizationProblem accepts is characterised exactly; arrays of bounds are laid out in full or refused. The form documented for several controls, one (lower, upper) pair per control, raises ValueError unless there are two controls, and is then silently transposed (documented_bounds_raise, documented_bounds_transposed)."
  },
  {
   "property": "C30",
   "status": "partial",
   "theorems": [
    "Pyadjoint.merged_actions",
    "Pyadjoint.merged_action_short",
    "Pyadjoint.merged_jacobian_action",
    "Pyadjoint.merged_parts",
    "Pyadjoint.canonicalise_idempotent",
    "Pyadjoint.canonicalise_single",
    "Pyadjoint.scipy_constraints",
    "Pyadjoint.scipy_jacobian_partial",
    "Pyadjoint.scipy_jacobian_mixed",
    "Pyadjoint.scipy_unknown",
    "Pyadjoint.ipopt_feasible_partial",
    "Pyadjoint.ipopt_ragged",
    "Pyadjoint.ipopt_unknown",
    "Pyadjoint.scipy_accepts"
   ],
   "note": "Merged constraints, canonicalise and partition proved. SciPy: false of the code; every Jacobian closure is that of the last constraint (scipy_constraints, witness scipy_jacobian_mixed), right for one constraint. IPOPT: the feasible set is right for constraints of one common length; for different lengths the code raises (ipopt_ragged). scipy_accepts: exactly which arguments the SciPy methods accept."
  },
  {
   "property": "C31",
   "status": "partial",
   "theorems": [
    "Pyadjoint.Rol.rol_sequence_partial",
    "Pyadjoint.Rol.gradient_allowed",
    "Pyadjoint.Rol.accept_after_temp",
    "Pyadjoint.Rol.accept_after_revert",
    "Pyadjoint.Rol.revert_first",
    "Pyadjoint.Rol.revert_without_initial"
   ],
   "note": "Proved for every sequence starting with Initial in which Accept follows Initial/Trial (the protocol the code's comments state). Outside of it the statement is false: Accept after Temp accepts the temporary point, Accept after Revert pairs the old value with the rejected tape, Revert without Initial raises or stores a stale tape (each proved with a witness)."
  },
  {
   "property": "C32",
   "status": "partial",
   "theorems": [
    "Pyadjoint.Moola.memo_transparent_partial",
    "Pyadjoint.Moola.memo_default_transparent",
    "Pyadjoint.Moola.memo_values",
    "Pyadjoint.Moola.tape_faithful",
    "Pyadjoint.Moola.moola_on_tape",
    "Pyadjoint.Moola.direct_after_failures",
    "Pyadjoint.Moola.memo_stale_derivative",
    "Pyadjoint.Moola.memo_corrupt_after_failure",
    "Pyadjoint.Moola.memo_index_error_after_failure",
    "Pyadjoint.Moola.memo_derivative_never_index"
   ],
   "note": "Proved for memoize <= 1 and, for any memoize, when derivatives follow an evaluation not answered from memory. False for memoize >= 2 (memo_stale_derivative: a call answered from memory leaves the tape elsewhere) and after failing evaluations (memo_corrupt_after_failure: a later call returns the value of another point). The memory of derivatives is never corrupted (memo_derivative_never_index)."
  },
  {
   "property": "C33",
   "status": "partial",
   "theorems": [
    "Pyadjoint.Opts.flatten_keeps",
    "Pyadjoint.Opts.flatten_sound",
    "Pyadjoint.Opts.flatten_covers",
    "Pyadjoint.Opts.flatten_nodup",
    "Pyadjoint.Opts.flatten_idempotent",
    "Pyadjoint.Opts.duplicate_option_overwrites",
    "Pyadjoint.Opts.inserted_visible",
    "Pyadjoint.Opts.inserted_exit",
    "Pyadjoint.Opts.inserted_restores_partial",
    "Pyadjoint.Opts.auto_restores",
    "Pyadjoint.Opts.prefix_precedence",
    "Pyadjoint.Opts.prefix_restores",
    "Pyadjoint.Opts.inserted_deletes_existing",
    "Pyadjoint.Opts.autoPrefix_separate",
    "Pyadjoint.Opts.auto_nested",
    "Pyadjoint.Opts.set_from_options_once",
    "Pyadjoint.Opts.default_parameter",
    "Pyadjoint.Opts.flatten_any_keys_iff",
    "Pyadjoint.Opts.flatten_any_keys"
   ],
   "note": "False for options set by the program before and also given as parameters: they are removed on exit (inserted_deletes_existing); the duplicate warning says the new value is ignored but it wins. Proved: no leakage and precedence otherwise. Keys that are not strings: accepted exactly where no dictionary with entries is below them (flatten_any_keys_iff), and then treated as their text (flatten_any_keys). A default never replaces a given parameter or an option of the database."
  },
  {
   "property": "C34",
   "status": "proved",
   "theorems": [
    "Pyadjoint.convergence_rates_log2",
    "Pyadjoint.taylor_test_verdict",
    "Pyadjoint.taylor_test_order",
    "Pyadjoint.taylor_test_bounds",
    "Pyadjoint.taylor_test_detects",
    "Pyadjoint.taylor_test_affine_raises",
    "Pyadjoint.taylor_test_quadratic",
    "Pyadjoint.taylor_test_second_order",
    "Pyadjoint.taylor_to_dict_leaves_m",
    "Pyadjoint.taylor_to_dict_residuals",
    "Pyadjoint.taylor_test_limit",
    "Pyadjoint.taylor_test_tends_to_two",
    "Pyadjoint.taylor_test_tends_to_one"
   ],
   "note": "In exact real arithmetic. taylor_test_order covers the orders 1, 2 and 3 of the statement for every object with the interface of a reduced functional; taylor_test_quadratic and taylor_test_second_order are for every recorded float program, with the derivative the test computes itself. For an affine functional with correct derivative the test divides by zero (taylor_test_affine_raises). For functionals that are not quadratic the verdict is a limit for small directions: taylor_test_tends_to_two and taylor_test_tends_to_one (recorded float programs), taylor_test_limit (any order, any object)."
  },
  {
   "property": "C35",
   "status": "partial",
   "theorems": [
    "Pyadjoint.index_adjoint_partial",
    "Pyadjoint.index_adjoint_iff",
    "Pyadjoint.slice_in_range",
    "Pyadjoint.slice_length",
    "Pyadjoint.nd_index_adjoint",
    "Pyadjoint.nd_index_lists",
    "Pyadjoint.read_all",
    "Pyadjoint.read_row",
    "Pyadjoint.repeated_index_wrong",
    "Pyadjoint.repeated_pair_wrong",
    "Pyadjoint.int_selects",
    "Pyadjoint.mask_selects",
    "Pyadjoint.list_selects",
    "Pyadjoint.slice_selects",
    "Pyadjoint.slice_selects_backwards",
    "Pyadjoint.index_arrays_adjoint_iff",
    "Pyadjoint.index_array_distinct",
    "Pyadjoint.mask_adjoint",
    "Pyadjoint.repeated_in_index_array_wrong",
    "Pyadjoint.full_mask_selects",
    "Pyadjoint.mask_wrong_shape",
    "Pyadjoint.index_array_selects",
    "Pyadjoint.outer_selects",
    "Pyadjoint.broadcast_mismatch",
    "Pyadjoint.arrayPositions_basic",
    "Pyadjoint.broadcast_shape"
   ],
   "note": "Arrays of any shape; integers, slices with any bounds and steps, ellipsis, newaxis, masks of any shape, index arrays of any shapes with broadcasting. The adjoint identity holds for every array and cotangent exactly if the index expression selects no position twice (index_adjoint_iff), which for index arrays means that they select pairwise different combinations of positions (index_arrays_adjoint_iff). That is so for all tuples of integers and slices (nd_index_adjoint), for masks (mask_adjoint), and for index arrays that are distinct on one axis (nd_index_lists, index_array_distinct). With repeated positions the code assigns instead of accumulating and the property is false (repeated_index_wrong, repeated_pair_wrong, repeated_in_index_array_wrong). Which entries are selected: full_mask_selects, index_array_selects, outer_selects (broadcasting), arrayPositions_basic; mask_wrong_shape and broadcast_mismatch are the errors."
  },
  {
   "property": "C36",
   "status": "partial",
   "theorems": [
    "Pyadjoint.Ph.placeholder_history",
    "Pyadjoint.Ph.placeholder_evaluation",
    "Pyadjoint.Ph.placeholder_gradient",
    "Pyadjoint.Ph.placeholder_stops_derivative",
    "Pyadjoint.Ph.placeholder_gradient_converged_partial",
    "Pyadjoint.Ph.ph_values",
    "Pyadjoint.Ph.ph_derivative",
    "Pyadjoint.Ph.self_link_diverges",
    "Pyadjoint.Ph.placeholder_control_ignored",
    "Pyadjoint.Ph.ph_control_derivative",
    "Pyadjoint.Ph.resolve_fresh",
    "Pyadjoint.Ph.resolve_linked",
    "Pyadjoint.Ph.placeholder_evaluation_read",
    "Pyadjoint.Ph.late_readAs",
    "Pyadjoint.Ph.late_history",
    "Pyadjoint.Ph.placeholder_tangent",
    "Pyadjoint.Ph.placeholder_hessian",
    "Pyadjoint.Ph.placeholder_gradient_read_partial",
    "Pyadjoint.Ph.placeholder_tangent_read_partial",
    "Pyadjoint.Ph.placeholder_hessian_read_partial",
    "Pyadjoint.Ph.late_derivative_wrong",
    "Pyadjoint.Ph.resolves_of_rank",
    "Pyadjoint.Ph.Resolves.spec"
   ],
   "note": "Proved for all tapes and all sequences of evaluations: with placeholders used before the block computing their target each evaluation is the ordinary one with the placeholder holding the target's previous value (placeholder_history); with placeholders used after it, the ordinary one with the target in their place (late_history). Adjoint, tangent and Hessian sweeps treat the placeholder as a source that holds its target's value. Since the sweeps read the placeholder after the evaluation, gradient, tangent and Hessian are derivatives of the value returned, with placeholders held fixed, only when every use read the value the target has at the end (placeholder_gradient_read_partial and its companions); ph_derivative is the counterexample otherwise, and late_derivative_wrong shows that no derivative flows through a placeholder even when its value does."
  },
  {
   "property": "C37",
   "status": "partial",
   "theorems": [
    "Pyadjoint.Ovl.overload_annotates_partial",
    "Pyadjoint.Ovl.overload_silent",
    "Pyadjoint.Ovl.overload_raises",
    "Pyadjoint.Ovl.run_quiet",
    "Pyadjoint.Ovl.continue_inside_records",
    "Pyadjoint.Ovl.block_keywords_reach_function",
    "Pyadjoint.Ovl.unregistered_output"
   ],
   "note": "Proved for arbitrary (nested, raising) functions that do not themselves call continue_annotation: exactly one block, plain outputs in order, nothing from inside, flag restored. False in three corners, each with a witness: a function that switches annotation on has its inner operations recorded; with annotation off the block class's own keywords reach the plain function; an output of an unregistered type raises when annotating."
  },
  {
   "property": "C38",
   "status": "partial",
   "theorems": [
    "Pyadjoint.Ctx.modifies_detaches",
    "Pyadjoint.Ctx.recorded_values_kept_partial",
    "Pyadjoint.Ctx.modified_output_changes",
    "Pyadjoint.Modifies.modifies_partial",
    "Pyadjoint.Modifies.modifies_nested_refused",
    "Pyadjoint.Modifies.modifies_array_raises",
    "Pyadjoint.Modifies.modifies_zero_nested"
   ],
   "note": "fresh block variable proved; the saved value of a recorded output whose object is modified changes. With the argument as Python sees it (None, one object, a list) and bodies that may raise: modifies_partial and modifies_nested_refused; a single array of several entries makes __enter__ raise whatever the body (modifies_array_raises), and the check for nesting misses objects that count as false (modifies_zero_nested)."
  },
  {
   "property": "C39",
   "status": "proved",
   "theorems": [
    "Pyadjoint.tags_partition"
   ],
   "note": ""
  },
  {
   "property": "C40",
   "status": "partial",
   "theorems": [
    "Pyadjoint.PTape.clear_tape_empty",
    "Pyadjoint.PTape.clear_tape_as_new_partial",
    "Pyadjoint.PTape.clear_tape_enable",
    "Pyadjoint.PTape.clear_tape_eager_persists",
    "Pyadjoint.PTape.clear_tape_then_record",
    "Pyadjoint.PTape.clear_tape_then_saves",
    "Pyadjoint.PTape.clear_tape_latest_persists",
    "Pyadjoint.PTape.clear_tape_flags_reached"
   ],
   "note": "Emptiness and reset adjoint values proved for all tapes; recording as on a new tape proved for all histories in which eager storing of outputs is off, and when checkpointing is enabled again; refuted when a schedule left _eagerly_checkpoint_outputs set. clear_tape_then_record: the blocks and time steps recorded after clearing are exactly the tape's; clear_tape_then_saves: which values are saved; clear_tape_latest_persists: latest_checkpoint is not reset, which matters for types that override the dependency hook."
  },
  {
   "property": "C41",
   "status": "partial",
   "theorems": [
    "Pyadjoint.RState.accumulation_refines_partial",
    "Pyadjoint.RState.hessian_accumulation_refines_partial",
    "Pyadjoint.RState.tangent_refines",
    "Pyadjoint.inplace_sharing_wrong",
    "Pyadjoint.inplace_seed_changed",
    "Pyadjoint.inplace_hessian_sharing_wrong",
    "Pyadjoint.inplace_direction_changed"
   ],
   "note": "Sweeps with objects and references. Adjoint and Hessian sweeps: for immutable derivative values, or blocks that return new objects, every sweep of every tape gives the values of the sweep over values and changes no foreign object. Tangent sweep: always, also in place and with objects handed on, if no control is the result of a block; no object that existed before is changed. False for in-place += together with blocks that hand on their input, as AddBlock does (inplace_sharing_wrong, inplace_hessian_sharing_wrong, inplace_seed_changed), and for a direction given to a control that is the result of a block (inplace_direction_changed)."
  },
  {
   "property": "C42",
   "status": "partial",
   "theorems": [
    "Pyadjoint.plain_numbers_partial",
    "Pyadjoint.plain_numbers_history",
    "Pyadjoint.plain_numbers_derivative_partial",
    "Pyadjoint.gradient_returned",
    "Pyadjoint.int_control_refused",
    "Pyadjoint.float_intermediate_control",
    "Pyadjoint.int_denominator",
    "Pyadjoint.int_numerator"
   ],
   "note": "False as stated: the value converted on reduced_functional.py:215 is discarded. J = x*x with the int 2 raises TypeError (int_control_refused); a float given to a control that is the result of an operator makes later evaluations of other functionals raise AttributeError (float_intermediate_control); J = a/x evaluates at an int but its derivative raises (int_denominator), and so does a quotient with an int numerator (int_numerator). Proved: floats are accepted for all other controls, ints where no operator takes them first and no min/max sees them; then the evaluation is that at the given numbers, for all histories of calls including failed ones. Whenever the gradient of a state with Python numbers is returned it is the gradient of the model over the reals (gradient_returned, no condition on types); after a call that returned it is returned and is the Frechet derivative if no int was given to a denominator, numerator over a varying denominator, or base (plain_numbers_derivative_partial)."
  },
  {
   "property": "C43",
   "status": "partial",
   "theorems": [
    "Pyadjoint.independent_control_zero_partial",
    "Pyadjoint.stale_gradient_off_tape"
   ],
   "note": "Proved for controls on the tape; false for controls off the tape (stale value), proved by witness."
  },
  {
   "property": "C44",
   "status": "partial",
   "theorems": [
    "Pyadjoint.tapes_independent",
    "Pyadjoint.other_tapes_undisturbed",
    "Pyadjoint.copy_same",
    "Pyadjoint.states_independent_partial",
    "Pyadjoint.copy_shares_state"
   ],
   "note": "Blocks and timesteps of a copy are independent, for all operation sequences. The checkpointable states are not: TimeStep.copy shares the set object (copy_shares_state); they are independent as long as no tape is copied."
  },
  {
   "property": "C45",
   "status": "proved",
   "theorems": [
    "Pyadjoint.gradient_linear_in_adj_input"
   ],
   "note": ""
  },
  {
   "property": "C46",
   "status": "proved",
   "theorems": [
    "Pyadjoint.min_max_value",
    "Pyadjoint.min_max_gradient",
    "Pyadjoint.select_locally"
   ],
   "note": "For all float programs with min and max blocks anywhere, at all points: the replayed value is that of Python's min/max, and the computed gradient is the exact gradient of the program in which each min/max is replaced by the operand selected at that point (the first operand at a tie); away from ties this branch program equals the program near the point."
  },
  {
   "property": "C47",
   "status": "partial",
   "theorems": [
    "Pyadjoint.hessian_symmetric_partial",
    "Pyadjoint.mul_hessian_asymmetric"
   ],
   "note": "False in general (products); proved for tapes of + - / ** neg min max and squares."
  },
  {
   "property": "C48",
   "status": "proved",
   "theorems": [
    "Pyadjoint.add_dependency",
    "Pyadjoint.add_dependency_saves",
    "Pyadjoint.duplicate_contributions",
    "Pyadjoint.square_gradient"
   ],
   "note": "For all sequences of add_dependency calls: the dependency list is the keep-first de-duplication requested; every occurrence contributes to the adjoint."
  },
  {
   "property": "C49",
   "status": "partial",
   "theorems": [
    "Pyadjoint.CTape.gc_frequency_irrelevant_partial",
    "Pyadjoint.CTape.zero_frequency_raises",
    "Pyadjoint.CTape.noninteger_frequency_rejected"
   ],
   "note": "Proved for every schedule, recording, use and non-zero frequency; frequency 0 raises ZeroDivisionError, proved as a refutation. Garbage collection itself is modelled as changing nothing reachable."
  },
  {
   "property": "C50",
   "status": "partial",
   "theorems": [
    "Pyadjoint.Graph.create_graph_raises_iff",
    "Pyadjoint.Graph.create_graph_exact",
    "Pyadjoint.Graph.create_graph_paths",
    "Pyadjoint.Graph.scopes_exactly_once",
    "Pyadjoint.Graph.scopes_where_created_partial",
    "Pyadjoint.Graph.nested_scope_loses_name",
    "Pyadjoint.Graph.raised_scope_loses_name",
    "Pyadjoint.Graph.tf_graph_exact_partial",
    "Pyadjoint.Graph.tf_second_graph_stale",
    "Pyadjoint.Graph.valid_name",
    "Pyadjoint.Graph.valid_name_id",
    "Pyadjoint.Graph.valid_name_empty_or_underscore"
   ],
   "note": "networkx export: exact nodes, edges, labels and paths for every tape; KeyError exactly for tapes with a block without dependencies and outputs. Scopes: every block exported exactly once whatever happened before; under the scope it was created in for programs without nested scopes and without scopes left by an exception, and false otherwise (nested_scope_loses_name, raised_scope_loses_name). TensorFlow graph exact at the first export; false at the second (tf_second_graph_stale)."
  },
  {
   "property": "C51",
   "status": "partial",
   "theorems": [
    "Pyadjoint.solve_adjoint_computes_nothing",
    "Pyadjoint.solve_adjoint_wrong"
   ],
   "note": "The property is false for the code: the seed is put on the wrong object, so the sweep does nothing; both theorems establish this."
  },
  {
   "property": "C52",
   "status": "partial",
   "theorems": [
    "Pyadjoint.Session.rerun_agrees_partial",
    "Pyadjoint.Session.reflected_division_not_recorded",
    "Pyadjoint.Session.reflected_power_not_recorded"
   ],
   "note": "rerun_agrees_partial assumes no literal / AdjFloat and no literal ** AdjFloat; the two negations show that the assumption is needed (AdjFloat has no __rtruediv__ and no __rpow__)."
  },
  {
   "property": "C53",
   "status": "proved",
   "theorems": [
    "Pyadjoint.hessian_scaled_by_last_derivative",
    "Pyadjoint.hessian_after_other_derivative",
    "Pyadjoint.hessian_scale_missing"
   ],
   "note": ""
  },
  {
   "property": "C54",
   "status": "proved",
   "theorems": [
    "Pyadjoint.evaluation_history_independent",
    "Pyadjoint.evaluation_after_crash"
   ],
   "note": ""
  },
  {
   "property": "C55",
   "status": "proved",
   "theorems": [
    "Pyadjoint.history_independent",
    "Pyadjoint.hessian_of_saved",
    "Pyadjoint.adj_of_saved",
    "Pyadjoint.history_independent_blocks"
   ],
   "note": "History: evaluations, crashed evaluations, derivatives of any functional, completed Hessian actions. Functional and controls on the tape. history_independent_blocks: the same for arbitrary user-defined blocks (history of completed evaluations, derivatives and Hessian actions). Derivatives or Hessians that raise are not part of the history (C03 has the crash form for gradients)."
  },
  {
   "property": "C56",
   "status": "proved",
   "theorems": [
    "Pyadjoint.tlm_exact_blocks",
    "Pyadjoint.hessian_eq_deriv_gradient_blocks",
    "Pyadjoint.hessian_exact_blocks",
    "Pyadjoint.none_for_zero_hessian_wrong"
   ],
   "note": "For every tape of blocks with right components that return a value (not None) for a dependency that varies. none_for_zero_hessian_wrong shows that this last condition cannot be dropped: a block returning None for a zero Hessian contribution makes the sweep skip every block before it."
  },
  {
   "property": "C57",
   "status": "proved",
   "theorems": [
    "Pyadjoint.Floating.floating_tape_wf",
    "Pyadjoint.Floating.floating_replay",
    "Pyadjoint.Floating.floating_use_blocks"
   ],
   "note": "For every configuration of views and every program; execution is given by an independent interpreter (Verif.Spec.Views)."
  },
  {
   "property": "C58",
   "status": "proved",
   "theorems": [
    "Pyadjoint.Registry.registry_last_wins",
    "Pyadjoint.Registry.create_overloaded",
    "Pyadjoint.Registry.subclass_not_overloaded"
   ],
   "note": "For every history of calls; a call that raises keeps the registrations made before the exception."
  },
  {
   "property": "C59",
   "status": "partial",
   "theorems": [
    "Pyadjoint.Tao.to_petsc_concat",
    "Pyadjoint.Tao.to_petsc_errors",
    "Pyadjoint.Tao.from_petsc_split",
    "Pyadjoint.Tao.petsc_round_trip",
    "Pyadjoint.Tao.to_petsc_copy_lost",
    "Pyadjoint.Tao.tao_bounds",
    "Pyadjoint.Tao.tao_objective_history",
    "Pyadjoint.Tao.tao_hessian_history",
    "Pyadjoint.Tao.tao_gradient_exact_partial",
    "Pyadjoint.Tao.tao_hessian_exact_partial",
    "Pyadjoint.Tao.tao_unused_control_fails",
    "Pyadjoint.Tao.tao_gradient_norm",
    "Pyadjoint.Tao.tao_gradient_norm_needs_derivative",
    "Pyadjoint.Tao.tao_solve",
    "Pyadjoint.Tao.tao_changed_object_wrong"
   ],
   "note": "Vectors are lists of numbers on one process. PETSc itself, and that sub-vectors obtained by getSubVector share storage with the vector, are trusted (to_petsc_copy_lost shows what happens if they do not). The successful callbacks are exact; tao_unused_control_fails shows that the gradient callback raises for a control that does not influence the functional. False for mutable control objects changed in place after their Control was made (tao_changed_object_wrong): TAOObjective reads control.control.block_variable, the variable the object has now, instead of control.block_variable, so TAO gets the derivative with respect to a later version (3x^6 instead of 9x^8), or a TypeError. tao_gradient_exact_partial and tao_hessian_exact_partial assume that this did not happen; the independence of earlier callbacks does not need that."
  },
  {
   "property": "C60",
   "status": "partial",
   "theorems": [
    "Pyadjoint.plain_numbers_derivative_partial",
    "Pyadjoint.tangent_returns",
    "Pyadjoint.plain_numbers_hessian_partial",
    "Pyadjoint.gradient_returned",
    "Pyadjoint.tangent_stored",
    "Pyadjoint.hessian_returned",
    "Pyadjoint.int_seed",
    "Pyadjoint.int_adj_input",
    "Pyadjoint.int_direction"
   ],
   "note": "False for ints: rf.derivative(adj_input=1) raises AttributeError for every functional (int_adj_input), compute_gradient with an int seed and rf.hessian with an int direction raise TypeError for J = x*x (int_seed, int_direction). Proved: floats and AdjFloats are accepted by the derivative, the tangent sweep and the Hessian and give the derivative at the numbers (plain_numbers_derivative_partial, tangent_returns, plain_numbers_hessian_partial); whatever the types, a sweep that returns has computed what the model over the reals computes (gradient_returned, tangent_stored, hessian_returned)."
  },
  {
   "property": "C61",
   "status": "partial",
   "theorems": [
    "Pyadjoint.gradient_returns",
    "Pyadjoint.tangent_returns",
    "Pyadjoint.hessian_returns_numbers",
    "Pyadjoint.plain_numbers_hessian_partial",
    "Pyadjoint.pow_zero_derivative",
    "Pyadjoint.pow_one_hessian",
    "Pyadjoint.hessian_raises"
   ],
   "note": "False at x = 0.0 for x**0.0 (derivative raises ZeroDivisionError: pow_zero_derivative) and for the Hessian of x**1.0 (pow_one_hessian), and for Hessians of tapes with a / or ** the controls do not affect (hessian_raises). Proved with domain conditions that leave these out: the derivative and the tangents are returned if only the operations that depend on a control are differentiable (gradient_returns, tangent_returns), the Hessian if moreover every / and ** depends on a control and is twice differentiable (hessian_returns_numbers)."
  },
  {
   "property": "C62",
   "status": "partial",
   "theorems": [
    "Pyadjoint.optimiser_run_partial",
    "Pyadjoint.ipopt_run_partial",
    "Pyadjoint.optimiser_stale_gradient",
    "Pyadjoint.derivative_after_minimize",
    "Pyadjoint.ipopt_leaves_controls",
    "Pyadjoint.minimize_unwraps"
   ],
   "note": "Proved for every adaptive optimiser that asks for gradients and Hessian actions only at the point it evaluated last, where the tape is smooth and the Hessian formulas are right (C06). False otherwise: the derivative callbacks ignore the point they are given (optimiser_stale_gradient). After minimize the controls hold the result but the rest of the tape is that of the last evaluation, so that rf.derivative() is wrong (derivative_after_minimize); IPOPT leaves the controls as well (ipopt_leaves_controls); a list of one control comes back bare (minimize_unwraps)."
  },
  {
   "property": "C63",
   "status": "proved",
   "theorems": [
    "Pyadjoint.failed_operations_harmless",
    "Pyadjoint.failed_evaluateTlm",
    "Pyadjoint.recordFailed_spec",
    "Pyadjoint.failed_operation_resets"
   ],
   "note": "For every AdjFloat tape with blocks left by failed operations, from every state with the same values. The blocks are on the tape nevertheless: they make the tape reset the adjoint values of their dependencies (failed_operation_resets)."
  },
  {
   "property": "C64",
   "status": "partial",
   "theorems": [
    "Pyadjoint.gradient_after_crashes",
    "Pyadjoint.hessian_after_crashes_partial",
    "Pyadjoint.hessian_exact_after_crashes_partial",
    "Pyadjoint.crash_changes_hessian"
   ],
   "note": "Values and gradients: proved for all histories. Hessians: false of the code (crash_changes_hessian: the markings left by a derivative with respect to another control change the Hessian of a product); proved when the computations that raised marked only values that depend on the present controls, and proved exact for all crashes when the operations have a right Hessian formula."
  },
  {
   "property": "C65",
   "status": "partial",
   "theorems": [
    "Pyadjoint.Rol.rol_vectors_partial",
    "Pyadjoint.Rol.rol_axpy_partial",
    "Pyadjoint.Rol.rol_float_vectors",
    "Pyadjoint.Rol.rol_float_raises",
    "Pyadjoint.Rol.rol_float_witness",
    "Pyadjoint.Rol.rol_bounds_partial",
    "Pyadjoint.Rol.rol_bounds_float_raises",
    "Pyadjoint.Rol.rol_constraint_adjoint_partial",
    "Pyadjoint.Rol.rol_constraint_hessian_partial",
    "Pyadjoint.Rol.rol_jacobian_ignores",
    "Pyadjoint.Rol.rol_adjoint_stale",
    "Pyadjoint.Rol.rol_constraint_two_controls_witness",
    "Pyadjoint.Rol.rol_constraints_typeError",
    "Pyadjoint.Rol.rol_dimension",
    "Pyadjoint.Rol.rol_bounds_iff"
   ],
   "note": "Proved for components of mutable types and, for constraints, for one control. False with AdjFloat controls (a clone is the vector itself, plus and scale do nothing, inner products raise TypeError) and for constraints with several controls (only the first component is passed and filled); both with witnesses."
  },
  {
   "property": "C66",
   "status": "partial",
   "theorems": [
    "Pyadjoint.CTape.checkpointed_hessian_zero",
    "Pyadjoint.CTape.checkpointed_hessian_partial",
    "Pyadjoint.CTape.checkpointed_hessian_raises",
    "Pyadjoint.CTape.checkpointed_hessian_silent",
    "Pyadjoint.CTape.checkpointed_tangent_partial",
    "Pyadjoint.CTape.checkpointed_float_tangent_partial",
    "Pyadjoint.CTape.checkpointed_tangent_stale",
    "Pyadjoint.CTape.affine_tangent_partial",
    "Pyadjoint.CTape.affine_program_tangent_partial"
   ],
   "note": "False of the code for Hessians: the reverse sweep deletes the adjoint values that compute_hessian needs. Proved: a Hessian that is returned for AdjFloat operations is always zero; at the recorded values it is the one without checkpointing or TypeError is raised, and it is raised whenever the true Hessian is not zero; blocks of the user that treat a missing adjoint as zero give a silent zero (witness). Tangents are right at the recorded values after any evaluations and derivatives there, and wrong after an evaluation at other values (witness). For programs affine in the controls tangents are right at every point, after any history and under every schedule, and are the directional derivatives of the program as written."
  },
  {
   "property": "C67",
   "status": "partial",
   "theorems": [
    "Pyadjoint.Cb.annotation_restored",
    "Pyadjoint.Cb.evaluation_records_nothing_partial",
    "Pyadjoint.Cb.watching_changes_nothing",
    "Pyadjoint.Cb.default_callbacks",
    "Pyadjoint.Cb.default_answers",
    "Pyadjoint.Cb.callbacks_history_independent",
    "Pyadjoint.Cb.callbacks_cannot_change_value",
    "Pyadjoint.Cb.callbacks_are_told",
    "Pyadjoint.Cb.derivative_callback_records",
    "Pyadjoint.Cb.derivative_callback_checkpoint"
   ],
   "note": "Proved for all callbacks, requests and tapes of blocks with the default sweeps. False of the code for recording: ReducedFunctional.derivative runs its callbacks annotated, every operation in them is added to the tape (derivative_callback_records). The functional value given to derivative and Hessian callbacks is unscaled, and None before the first evaluation (derivative_callback_checkpoint), the one given to eval_cb_post is scaled. Sweeps that raise on their own and checkpoint managers are in C64 and C27."
  },
  {
   "property": "C68",
   "status": "partial",
   "theorems": [
    "Pyadjoint.Arr.array_replay_partial",
    "Pyadjoint.Arr.array_gradient_exact_partial",
    "Pyadjoint.Arr.array_arithmetic_is_not_recorded",
    "Pyadjoint.Arr.array_assignment_is_not_recorded",
    "Pyadjoint.Arr.repeated_position_gradient_wrong",
    "Pyadjoint.Arr.scaled_array_functional_changes_control",
    "Pyadjoint.Arr.constant_array_functional_drifts"
   ],
   "note": "Proved after any evaluations and derivative computations, for programs that only read arrays and compute with the numbers read. False for programs with NumPy arithmetic on arrays, assignments to entries, or indices that repeat a position, and for a scaled functional that is an array the program does not compute (witnesses). Tangents and Hessians of reads are not implemented in the code."
  },
  {
   "property": "C69",
   "status": "proved",
   "theorems": [
    "Pyadjoint.CTape.storage_follows_schedule",
    "Pyadjoint.CTape.evaluation_working_memory",
    "Pyadjoint.CTape.single_memory_keeps",
    "Pyadjoint.CTape.reverse_frees_exactly"
   ],
   "note": "storage_follows_schedule: stored data of a step were written by a performed action and not deleted since. evaluation_working_memory: what is left in working memory after an evaluation. single_memory_keeps shows that the schedule that keeps everything in memory has to be excluded from the second part. reverse_frees_exactly: what a Reverse action removes from working memory, on every tape in every state."
  },
  {
   "property": "C70",
   "status": "proved",
   "theorems": [
    "Pyadjoint.several_tapes_independent",
    "Pyadjoint.derivative_mixes_tapes",
    "Pyadjoint.other_tape_changes_constant"
   ],
   "note": "Heap of shared block variables, any number of AdjFloat tapes. derivative_mixes_tapes and other_tape_changes_constant show that the two provisos are needed: a derivative without a new evaluation after a call on another tape is wrong (54 instead of 12 or 75), and an evaluation that writes a constant changes the functional."
  },
  {
   "property": "C71",
   "status": "partial",
   "theorems": [
    "Pyadjoint.CTape.optimised_value_partial",
    "Pyadjoint.CTape.optimised_gradient_partial",
    "Pyadjoint.CTape.optimised_steps",
    "Pyadjoint.CTape.optimised_gradient_stale",
    "Pyadjoint.retained_iff"
   ],
   "note": "Values after any history of evaluations, derivatives and optimisations are those of the recorded program (hypotheses as in C25: the recorded value of the functional is not falsy, taping has ended; recomputation of recorded values is faithful). Derivatives at the recorded control values are right. Derivatives at other values are false of the code: optimised_gradient_stale gives a program and a schedule whose derivative is right (5103) before the optimisation and wrong (3628) directly after it."
  },
  {
   "property": "C72",
   "status": "proved",
   "theorems": [
    "Pyadjoint.HTape.hooks_eval",
    "Pyadjoint.HTape.hooks_gradient",
    "Pyadjoint.HTape.hooks_hessian",
    "Pyadjoint.HTape.evaluation_calls",
    "Pyadjoint.HTape.gradient_calls",
    "Pyadjoint.HTape.hessian_calls",
    "Pyadjoint.HTape.calls_once"
   ],
   "note": "Blocks with all hooks and a record of the calls made. The value theorems relate them to the blocks of the other properties, for preparations that serve each component as if prepared for it alone."
  },
  {
   "property": "C73",
   "status": "partial",
   "theorems": [
    "Pyadjoint.minimize_hands_over_partial",
    "Pyadjoint.minimize_calls_iff",
    "Pyadjoint.unknown_method",
    "Pyadjoint.custom_hands_over",
    "Pyadjoint.minimize_again",
    "Pyadjoint.basinhopping_hands_over",
    "Pyadjoint.basinhopping_ignores_bounds",
    "Pyadjoint.basinhopping_needs_kwargs",
    "Pyadjoint.basinhopping_again_transposed",
    "Pyadjoint.basinhopping_again_refused",
    "Pyadjoint.options_leak",
    "Pyadjoint.ipopt_options",
    "Pyadjoint.ipopt_maximization_lost",
    "Pyadjoint.bounds_given_iff"
   ],
   "note": "What is handed over is proved exactly for all methods and keyword arguments. False of the code: the caller's options dictionary is changed (harmless for the same method, minimize_again, but SLSQP leaves iprint for later methods, options_leak); basinhopping ignores the keyword bounds, raises KeyError without minimizer_kwargs, and replaces the bounds in minimizer_kwargs, so that a second run has transposed bounds for two numbers as controls (basinhopping_again_transposed) and raises ValueError otherwise; obj_scaling_factor among the parameters turns a maximisation for IPOPT into a minimisation (ipopt_maximization_lost)."
  },
  {
   "property": "C74",
   "status": "partial",
   "theorems": [
    "Pyadjoint.Copying.copied_tape_behaves_partial",
    "Pyadjoint.Copying.unpickled_tape",
    "Pyadjoint.Copying.deepcopy_blocks",
    "Pyadjoint.Copying.deepcopy_timesteps",
    "Pyadjoint.Copying.deepcopy_timesteps_iff",
    "Pyadjoint.Copying.copy_of_deepcopy_doubles",
    "Pyadjoint.Copying.deepcopied_tape_gradient_doubled",
    "Pyadjoint.Copying.control_copy_raises",
    "Pyadjoint.Copying.numpy_copy_raises",
    "Pyadjoint.Copying.control_deepcopy_of_array",
    "Pyadjoint.Copying.control_never_deepcopied",
    "Pyadjoint.Copying.plain_copy",
    "Pyadjoint.Copying.forwarded_lookup",
    "Pyadjoint.Copying.bare_lookup_recurses",
    "Pyadjoint.Copying.record_timesteps"
   ],
   "note": "False of the code for controls, for ReducedFunctionalNumPy and for deep copies of tapes; these are the exact results. copied_tape_behaves_partial: a tape copied with its variables behaves like the original in every sequence of calls and does not touch it. unpickled_tape: pickling keeps blocks and timesteps. copy.deepcopy(tape) appends all blocks to the last timestep again (deepcopy_timesteps), for every non-empty tape (deepcopy_timesteps_iff), so that Tape.copy() of it has every block twice (copy_of_deepcopy_doubles) and gradients double (deepcopied_tape_gradient_doubled). No control can be copied or unpickled (control_copy_raises, control_never_deepcopied, control_deepcopy_of_array), nor a ReducedFunctionalNumPy (numpy_copy_raises). Python's copy protocol is part of the trusted reading of the code."
  },
  {
   "property": "C75",
   "status": "partial",
   "theorems": [
    "Pyadjoint.Own.callers_values",
    "Pyadjoint.Own.callers_values_partial",
    "Pyadjoint.Own.returned_array_is_the_tapes",
    "Pyadjoint.Own.scaling_changes_the_tape",
    "Pyadjoint.Own.scaling_changes_the_control"
   ],
   "note": "callers_values proves it without restriction for types that copy on restoring and for types whose *= makes a new object (AdjFloat). False for numpy_adjoint.ndarray, whose _ad_restore_at_checkpoint returns the checkpoint itself: changing the returned array changes later derivatives (returned_array_is_the_tapes), and a scale other than 1 does so without the caller changing anything (scaling_changes_the_tape, scaling_changes_the_control). callers_values_partial: for such types it holds for all sequences in which the caller changes only objects it made itself, with scale 1. Derivative values as objects are in Verif.Model.Aliasing; views of arrays are not modelled."
  },
  {
   "property": "C76",
   "status": "partial",
   "theorems": [
    "Pyadjoint.DWorld.caller_owns_derivatives_partial",
    "Pyadjoint.DWorld.intermediate_derivative_is_the_tapes",
    "Pyadjoint.DWorld.derivatives_of_a_sum_shared",
    "Pyadjoint.DWorld.derivatives_of_repeated_control_shared"
   ],
   "note": "For types whose values are changed in place and whose _ad_convert_type returns the value it was given (numpy_adjoint.ndarray): caller_owns_derivatives_partial proves it for all sequences if controls are distinct inputs of the tape and blocks return new objects for adjoint and Hessian components (they may hand on tangent values). False otherwise: a derivative with respect to an intermediate variable is the object the Hessian sweep reads (intermediate_derivative_is_the_tapes), a block that hands on its adjoint input makes derivatives share one object (derivatives_of_a_sum_shared), and so does a control given twice (derivatives_of_repeated_control_shared). The Riesz map of other types and compute_gradient called with the caller's own object as adj_value are not modelled here (for the latter see inplace_seed_changed, C41)."
  },
  {
   "property": "C77",
   "status": "partial",
   "theorems": [
    "Pyadjoint.Rol.rol_told",
    "Pyadjoint.Rol.told_at_gradient",
    "Pyadjoint.Rol.rol_hessian_partial",
    "Pyadjoint.Rol.check_gradient",
    "Pyadjoint.Rol.hessian_after_temp",
    "Pyadjoint.Rol.hessian_after_accept",
    "Pyadjoint.Rol.hessian_without_gradient"
   ],
   "note": "rol_told gives what every call tells, for all sequences in which Accept follows a trial and Revert an accepted point (for the others see C31): values and gradients are those of the current point; Hessian actions are what the second-order sweep makes of the values at the current point and the adjoint values of the last gradient. Hence (rol_hessian_partial) hessVec is the second derivative if the last gradient was asked for at the current point, also with rejected trials in between. It is not otherwise: after a gradient at a temporary point and Revert (hessian_after_temp), at a new point before the gradient there (hessian_after_accept), or before any gradient (hessian_without_gradient)."
  },
  {
   "property": "C78",
   "status": "partial",
   "theorems": [
    "Pyadjoint.Own.rol_vector_copied",
    "Pyadjoint.Own.rol_vector_partial",
    "Pyadjoint.Own.vector_changed_before_the_first_evaluation",
    "Pyadjoint.Own.two_vectors_of_one_tape"
   ],
   "note": "rol_vector_copied: for types that copy on restoring it holds without conditions on what ROL does. rol_vector_partial: for types that do not copy it holds from the first evaluation on, if the checkpoints of the controls are objects of their own; the first evaluation replaces them on the tape by copies. Before that a write to the vector is a write to the tape and changes derivatives (vector_changed_before_the_first_evaluation), and two solvers made of one functional share their vector (two_vectors_of_one_tape)."
  },
  {
   "property": "C79",
   "status": "partial",
   "theorems": [
    "Pyadjoint.CTape.disk_bracketed_partial",
    "Pyadjoint.CTape.disk_paused",
    "Pyadjoint.CTape.disk_bracketed_on",
    "Pyadjoint.CTape.evaluation_stores",
    "Pyadjoint.CTape.adjoint_stores",
    "Pyadjoint.CTape.on_until_the_first_disk_action",
    "Pyadjoint.CTape.disk_left_on",
    "Pyadjoint.CTape.read_after_reset"
   ],
   "note": "Holds from enabling checkpointing on for all schedules, programs and evaluations and at every point of them, up to the first exception, if the package keeps values in memory when checkpointing is enabled (disk_bracketed_partial, disk_paused) or the first action stores on disk (disk_bracketed_on); evaluation_stores and adjoint_stores say what is stored where. False if the package was writing to disk and the first actions are not on disk (on_until_the_first_disk_action) and after an exception while values are stored (disk_left_on). read_after_reset: an evaluation reads data stored before the package was reset."
  },
  {
   "property": "C80",
   "status": "partial",
   "theorems": [
    "Pyadjoint.Hand.gradient_by_hand_partial",
    "Pyadjoint.Hand.gradient_by_hand_fresh",
    "Pyadjoint.Hand.tangent_by_hand_partial",
    "Pyadjoint.Hand.last_block_by_hand",
    "Pyadjoint.Hand.seeds_add",
    "Pyadjoint.Hand.recipe_adds_leftovers",
    "Pyadjoint.Hand.recipes_accumulate"
   ],
   "note": "Proved for AdjFloat tapes for all histories if tape.reset_variables() (tape.reset_tlm_values()) comes first, or if no derivative was computed before. The documented recipes have no reset: in general they add what earlier sweeps left, propagated to the inputs (recipe_adds_leftovers, an identity for every state), so the second use is wrong (recipes_accumulate)."
  },
  {
   "property": "C81",
   "status": "partial",
   "theorems": [
    "Pyadjoint.Ctx.switches_last_decides_partial",
    "Pyadjoint.Ctx.pauses_are_not_counted"
   ],
   "note": "False of the code, which has a flag and no counter: the last call decides (switches_last_decides_partial), a single continue_annotation() undoes any number of pauses (pauses_are_not_counted). stop_annotating does nest (C13)."
  },
  {
   "property": "C82",
   "status": "partial",
   "theorems": [
    "Pyadjoint.CTape.copy_value_and_gradient",
    "Pyadjoint.CTape.value_after_copies_partial",
    "Pyadjoint.CTape.copy_derivative_stale"
   ],
   "note": "Evaluations on copies, and derivatives on a copy that follow an evaluation on it, are right for all programs, schedules and interleavings (copy_value_and_gradient); evaluations on the original stay right under the hypotheses of C25 (value_after_copies_partial). A derivative on the copy that does not follow an evaluation on the copy is wrong: checkpointing has cleared values and the copy has no manager to recompute them (copy_derivative_stale). Hypothesis that all functionals involved have the same controls, as in C25."
  },
  {
   "property": "C83",
   "status": "partial",
   "theorems": [
    "Pyadjoint.CTape.checkpointed_client_partial",
    "Pyadjoint.CTape.client_on_copy",
    "Pyadjoint.CTape.multistage_descent_wrong"
   ],
   "note": "Proved for schedules that store what every adjoint needs, controls that every time step uses, a functional recorded with a truthy value, and clients that ask for derivatives directly after evaluations (checkpointed_client_partial); on tape.copy() proved for every schedule (client_on_copy). False for the standard multistage schedule: gradient descent takes another first step (multistage_descent_wrong)."
  },
  {
   "property": "C84",
   "status": "partial",
   "theorems": [
    "Pyadjoint.CTape.by_hand_sweep_partial",
    "Pyadjoint.CTape.by_hand_recipe_partial",
    "Pyadjoint.CTape.derivative_after_by_hand_partial",
    "Pyadjoint.CTape.by_hand_twice",
    "Pyadjoint.CTape.by_hand_spoils_derivative",
    "Pyadjoint.CTape.by_hand_again_wrong",
    "Pyadjoint.CTape.by_hand_intermediate_lost"
   ],
   "note": "Proved for histories whose evaluations use the control values of the recording: what a sweep leaves is characterised exactly (by_hand_sweep_partial), the recipe after a reset agrees with the one without checkpointing on variables that no operation computes (by_hand_recipe_partial), and derivatives stay right (derivative_after_by_hand_partial). False otherwise: a first sweep by hand silently spoils later derivatives at other values (by_hand_spoils_derivative) and later sweeps by hand (by_hand_again_wrong); adjoint values of computed variables are lost (by_hand_intermediate_lost); a second sweep without an evaluation raises (by_hand_twice)."
  },
  {
   "property": "C85",
   "status": "proved",
   "theorems": [
    "Pyadjoint.rf_hessian_linear",
    "Pyadjoint.float_hessian_linear",
    "Pyadjoint.tangents_linear",
    "Pyadjoint.hessian_linear_in_direction"
   ],
   "note": "rf_hessian_linear: three calls in sequence; if the first returns so do the others. float_hessian_linear: from any three states that differ in tangent and Hessian values only; all raise or none. hessian_linear_in_direction: blocks of the user with linear methods."
  },
  {
   "property": "C86",
   "status": "partial",
   "theorems": [
    "Pyadjoint.evaluation_of_same_inputs",
    "Pyadjoint.derivative_control_by_control",
    "Pyadjoint.derivative_of_same_inputs",
    "Pyadjoint.hessian_of_permuted_controls",
    "Pyadjoint.hessian_of_same_inputs_partial",
    "Pyadjoint.further_control_changes_hessian"
   ],
   "note": "Values and derivatives: all tapes and lists of controls. Hessians: the order of the controls does not matter on any AdjFloat tape; further controls do not matter where the Hessian formulas are right (HessSafe), and do matter otherwise: further_control_changes_hessian, J = (x*c)**2 at c = 5 as (x*c)*(x*c): the Hessian with respect to x is 10x for the control x, and 50 if c is a control too."
  },
  {
   "property": "C87",
   "status": "partial",
   "theorems": [
    "Pyadjoint.derivative_of_any_controls_partial",
    "Pyadjoint.derivative_of_computed_controls_partial",
    "Pyadjoint.computed_control_wrong_derivative",
    "Pyadjoint.tangent_of_any_controls",
    "Pyadjoint.computed_control_wrong_second"
   ],
   "note": "False of the code: computed_control_wrong_derivative (y = x + x, J = y*y, controls x and y: rf(x, y) = y*y, the derivative returned is [4y, 2y] instead of [0, 2y]; only optimize_tape rejects it, C09). What is returned instead, for all tapes of correct blocks and all choices of controls: each component is the derivative of the reduced functional with that control alone, the other controls being left to the program (derivative_of_computed_controls_partial), and with operations corrected by constants where the values given to computed controls are not those computed (derivative_of_any_controls_partial). Tangents: the tangent of a variable is the sum over the controls of its directional derivatives with that control alone (tangent_of_any_controls), so tangents and Hessians of rf are wrong too (computed_control_wrong_second: in the same program, direction (a, b) gives tangent 2y(2a+b) instead of 2yb and Hessian [4(2a+b), 2(2a+b)] instead of [0, 2b])."
  },
  {
   "property": "C88",
   "status": "partial",
   "theorems": [
    "Pyadjoint.gradient_in_two_stages",
    "Pyadjoint.gradient_on_two_tapes_partial",
    "Pyadjoint.two_stages_stale",
    "Pyadjoint.gradient_of_last_operation",
    "Pyadjoint.binary_rule",
    "Pyadjoint.unary_rule",
    "Pyadjoint.calculus_rules",
    "Pyadjoint.value_before_later_operations",
    "Pyadjoint.gradient_before_later_operations",
    "Pyadjoint.hessian_before_later_operations",
    "Pyadjoint.derivatives_before_later_operations"
   ],
   "note": "Rules of calculus (calculus_rules, binary_rule, unary_rule; for user-defined blocks with additive adjoints gradient_of_last_operation), later operations (value, gradient, Hessian action) and differentiation in two stages from one state (gradient_in_two_stages) hold for all programs. Two stages one after the other on two tapes: proved when the controls occur on the first tape (gradient_on_two_tapes_partial); false otherwise (two_stages_stale): a control used only by the second part keeps the adjoint value left by it, since compute_gradient resets only variables on its own tape, and get_derivative reports it as derivative of the first part."
  },
  {
   "property": "C89",
   "status": "partial",
   "theorems": [
    "Pyadjoint.InPlace.in_place_replay",
    "Pyadjoint.InPlace.in_place_gradient",
    "Pyadjoint.InPlace.in_place_recording",
    "Pyadjoint.InPlace.in_place_wellFormed",
    "Pyadjoint.InPlace.control_data_partial",
    "Pyadjoint.InPlace.control_value_partial",
    "Pyadjoint.InPlace.control_data_missing",
    "Pyadjoint.InPlace.control_value_overwritten",
    "Pyadjoint.InPlace.unannounced_change_missed",
    "Pyadjoint.InPlace.in_place_tangent",
    "Pyadjoint.InPlace.in_place_hessian",
    "Pyadjoint.InPlace.in_place_later_partial",
    "Pyadjoint.InPlace.functional_follows_object",
    "Pyadjoint.InPlace.in_place_recorded_values"
   ],
   "note": "Values and derivatives of reduced functionals are proved for all such programs (in_place_replay, in_place_gradient), also tangents and Hessians (in_place_tangent, in_place_hessian). The value a Control represents: c.data() is the value at creation or None, c.tape_value() is it if that version was read by an operation or never overwritten (control_data_partial, control_value_partial); false in general (control_data_missing: the last line of the documentation's example gives None instead of 3.0; control_value_overwritten: tape_value() is the value the object was overwritten with). unannounced_change_missed shows that the announcement of changes is necessary. What is done after rf was made, changes of the control objects included, does not matter to rf(x) as long as the functional's own object is not written (in_place_later_partial); if it is, the existing rf computes the new version instead (functional_follows_object). in_place_recorded_values: called with the values the objects had when the controls were made, rf returns exactly the value the program computed, for any type of values, floating-point numbers included."
  },
  {
   "property": "C90",
   "status": "partial",
   "theorems": [
    "Pyadjoint.CTape.in_place_checkpointed_value_partial",
    "Pyadjoint.CTape.overwritten_forcing_value_wrong",
    "Pyadjoint.CTape.in_place_gradient_wrong",
    "Pyadjoint.CTape.recorded_result_overwritten",
    "Pyadjoint.CTape.in_place_stored_gradient_partial",
    "Pyadjoint.CTape.overwritten_forcing_stored_wrong"
   ],
   "note": "False in general. Values are proved for all well-formed schedules if whatever is changed is a control or the result of an operation, during recording and later (in_place_checkpointed_value_partial); derivatives for schedules that store what every adjoint needs, with controls used in every step, if whatever is changed is a control or depends on the controls (in_place_stored_gradient_partial). overwritten_forcing_value_wrong and overwritten_forcing_stored_wrong: a forcing set anew in each step inside stop_annotating(modifies=f) gives a wrong value and a wrong derivative at the recorded point. in_place_gradient_wrong: with operations in place only, under a multistage schedule the derivative after an evaluation at the recorded point is 128 instead of 32. Results are saved with the operation only under actions that store adjoint data (recorded_result_overwritten)."
  },
  {
   "property": "C91",
   "status": "partial",
   "theorems": [
    "Pyadjoint.HandRec.sweep_by_hand_tangents_partial",
    "Pyadjoint.HandRec.sweep_by_hand_records",
    "Pyadjoint.HandRec.sweeps_by_hand_keep_functionals_partial",
    "Pyadjoint.HandRec.sweeps_by_hand_grow",
    "Pyadjoint.HandRec.hessian_by_hand_values",
    "Pyadjoint.HandRec.hessian_by_hand_records",
    "Pyadjoint.HandRec.calls_by_hand_keep_functionals_partial",
    "Pyadjoint.HandRec.calls_by_hand_values"
   ],
   "note": "Tangents (sweep_by_hand_tangents_partial) and everything later computed by functionals recorded before (sweeps_by_hand_keep_functionals_partial) are proved. That the tape has the same operations is false: PowBlock.evaluate_tlm is not decorated with no_annotations and computes exponent_value - 1, which is recorded, once for every power whose base has a tangent (sweep_by_hand_records, an exact count), so that n sweeps over x**3 make the tape n operations longer (sweeps_by_hand_grow). Directions are Python floats, and there is no checkpointing. Hessian sweeps by hand record as well (two or four subtractions for each power with a Hessian value); their values are right, and calls of every kind by hand keep the functionals recorded before. Any sequence of assignments, sweeps and resets by hand gives, on the variables of the program, the values, tangents, adjoints and Hessian values of the same calls on the tape without what has been recorded since, and raises in the same cases (calls_by_hand_values)."
  },
  {
   "property": "C92",
   "status": "partial",
   "theorems": [
    "Pyadjoint.Cb.call_refused_iff",
    "Pyadjoint.Cb.refused_calls_can_be_left_out",
    "Pyadjoint.Cb.too_many_directions_partial",
    "Pyadjoint.Cb.too_few_directions",
    "Pyadjoint.missing_directions_are_zero",
    "Pyadjoint.few_directions_after_derivative_partial",
    "Pyadjoint.repeated_control_direction"
   ],
   "note": "Evaluations: proved in full, for all classes and callbacks (call_refused_iff is an equivalence for both exceptions, including the index in the message; refused_calls_can_be_left_out). Hessians: too many directions raise IndexError, but only after hessian_cb_pre has run and the tangents on the tape have been changed; later requests are not affected (too_many_directions_partial, for controls on the tape and callbacks that do not look at tangents and Hessian values). False for too few directions, which are accepted silently (too_few_directions). On all AdjFloat programs the missing ones then count as zero, if their controls are on the tape and not given twice (missing_directions_are_zero; few_directions_after_derivative_partial: after a derivative the call does return; repeated_control_direction shows that the last condition is needed). The checks use the classes of the controls' objects at the time of the call; numbers are accepted for AdjFloat controls only if the class is AdjFloat itself, not a subclass."
  }
 ]
}