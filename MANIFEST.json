{"claims": [
 {"property": "C01", "status": "proved", "theorems": ["Heyoka.Sym.sum_value", "Heyoka.Sym.prod_value", "Heyoka.Sym.neg_value", "Heyoka.Sym.add_value", "Heyoka.Sym.sub_value", "Heyoka.Sym.add_sub_neg_undefined", "Heyoka.Sym.mul_value", "Heyoka.Sym.div_value", "Heyoka.Sym.pow_value", "Heyoka.Sym.sqrt_value", "Heyoka.Sym.unary_value", "Heyoka.Sym.relu_value", "Heyoka.Sym.prod_zero_hides_undefined"], "note": "Exact arithmetic over the reals; NaN, infinities and negative zero are separate values. A numerical zero factor hides an undefined factor of a product (prod_zero_hides_undefined), as in the code."},
 {"property": "C02", "status": "proved", "theorems": ["Heyoka.Sym.diff_correct", "Heyoka.Sym.diff_not_occurring", "Heyoka.Sym.diffEx_throws", "Heyoka.Sym.dfun_gradient", "Heyoka.Sym.diff_of_constant_may_be_nan", "Heyoka.Sym.diff_regular", "Heyoka.Sym.diffs_correct", "Heyoka.Sym.diffs_partials", "Heyoka.Sym.partials_exist"], "note": "Exact real arithmetic; the points of differentiability are spelled out in DiffPt/Smooth (Expr/DiffSpec.lean). Derivatives of functions applied to non-differentiable numbers (e.g. sqrt(0) after a substitution) are NaN: proved as a separate finding. The cached traversal is C04. Derivatives of any order: at a regular point (Reg: every function occurring in the expression is differentiable there in its non-numeric arguments) repeated diff() yields the repeated partial derivatives, in any order of the variables. dfun is covered with an arbitrary smooth interpretation of the names (DFunc)."},
 {"property": "C03", "status": "proved", "theorems": ["Heyoka.Sym.subs_eval", "Heyoka.Sym.subs_eval_undefined", "Heyoka.Sym.subs_untouched", "Heyoka.Sym.rename_variables_eval", "Heyoka.Sym.subs_map_eq_recursion", "Heyoka.Sym.subs_map_lookup", "Heyoka.Sym.subs_map_eval"], "note": "For every heap of shared expressions, every map and every interpretation of the function symbols. Maps from expressions: the value is preserved if functions of equal names have the same meaning."},
 {"property": "C04", "status": "proved", "theorems": ["Heyoka.Sym.traversal_eq_recursion", "Heyoka.Sym.transform_nodes_eq_recursion", "Heyoka.Sym.diff_eq_recursion", "Heyoka.Sym.visit_leaves_exact", "Heyoka.Sym.test_any_exact", "Heyoka.Sym.get_n_nodes_exact"], "note": "The stack machines with caches for functions and shared argument lists, on every acyclic heap: they end, no assertion fails, the result is that of plain recursion (exceptions included)."},
 {"property": "C05", "status": "proved", "theorems": ["Heyoka.Sym.get_variables_exact", "Heyoka.Sym.get_params_exact", "Heyoka.Sym.get_param_size_exact", "Heyoka.Sym.is_time_dependent_exact", "Heyoka.Sym.queries_frame"], "note": "On every heap; get_param_size throws exactly if an index does not fit."},
 {"property": "C06", "status": "proved", "theorems": ["Heyoka.Sym.pass_value", "Heyoka.Sym.rewrite_passes_value", "Heyoka.Sym.rewrites_eval_value", "Heyoka.Sym.pow_to_explog_sound", "Heyoka.Sym.pow_to_explog_value", "Heyoka.Sym.rewrites_taylor_value", "Heyoka.Sym.pow_to_explog_undefined", "Heyoka.Sym.sum_split_bound", "Heyoka.Sym.prod_split_bound"], "note": "every pass on any shared graph, both pipelines; powers with non-numerical exponents need positive bases in the Taylor pipeline (counterexample otherwise)"},
 {"property": "C07", "status": "proved", "theorems": ["Heyoka.Sym.number_eq_equivalence", "Heyoka.Sym.number_lt_strict_total", "Heyoka.Sym.number_hash_of_eq", "Heyoka.Sym.number_eq_cases", "Heyoka.Sym.comparison_eq_recursion", "Heyoka.Sym.expression_eq_equivalence", "Heyoka.Sym.expression_lt_strict_weak", "Heyoka.Sym.expression_lt_congr", "Heyoka.Sym.expression_hash_of_eq", "Heyoka.Sym.expression_value_of_eq", "Heyoka.Sym.builtin_name_sound"], "note": "std::hash is assumed to respect == on non-NaN floating-point values. The comparison of functions looks at names and arguments only, so that user functions of the same name are equal."},
 {"property": "C08", "status": "proved", "theorems": ["Heyoka.Sym.function_decompose_value", "Heyoka.Sym.function_decompose_throws", "Heyoka.Sym.exists_share", "Heyoka.Sym.input_named_like_u_variable"], "note": "Decomposition, rewrites, renaming, CSE, sort and sincos combination; values over the reals, wherever the original expressions are defined. Decompositions with more than 2^32 elements are excluded (indices are 32-bit). input_named_like_u_variable: an input named like a u variable is shown renamed in the decomposition, so that 'the first elements are the inputs' needs a condition on the names; the values are not affected."},
 {"property": "C09", "status": "proved", "theorems": ["Heyoka.Sym.cse_sound", "Heyoka.Sym.sort_sound", "Heyoka.Sym.rename_growing_maps"], "note": "For the decomposition of functions, any field and interpretation in which the names determine the functions."},
 {"property": "C10", "status": "proved", "theorems": ["Heyoka.Sym.function_segments", "Heyoka.Sym.taylor_segments", "Heyoka.Sym.segments_any_order"], "note": "Segments of function decompositions and of Taylor decompositions: every element appears exactly once, in order, and depends only on elements of earlier segments; any interleaving of the elements of a segment gives the same tape."},
 {"property": "C11", "status": "proved", "theorems": ["Heyoka.Sym.compact_mode_same", "Heyoka.Sym.compiled_same", "Heyoka.Sym.mk_cfunc_compact", "Heyoka.Sym.compact_mode_differs_after_subs"], "note": "For expressions built with the public constructors the two modes give indistinguishable compiled functions (single and batch evaluation, all schedules). compact_mode_differs_after_subs is a counterexample for expressions obtained by subs(): the stale LLVM name of a power makes compact mode reuse the wrong code (a defect of the code, see DESIGN.md). Hypotheses: decompositions with at most 2^32 elements, one-to-one printing of the slopes of rectifiers."},
 {"property": "C12", "status": "proved", "theorems": ["Heyoka.Sym.arg_gen_indices", "Heyoka.Sym.arg_gen_numbers"], "note": "Generators of indices (constant, strided, repeated, table) with 32-bit arithmetic and of constants. Equal numbers (0.0 and -0.0, equal values of different types) may be exchanged for each other, as in the code."},
 {"property": "C13", "status": "proved", "theorems": ["Heyoka.Sym.mk_cfunc", "Heyoka.Sym.mk_cfunc_compact", "Heyoka.Sym.multi_eval_columns"], "note": "Default and compact mode, at the level of loads and stores; exact arithmetic; every interleaving of the stores of the calls."},
 {"property": "C14", "status": "proved", "theorems": ["Heyoka.Sym.multi_eval_throws", "Heyoka.Sym.single_eval_value", "Heyoka.Sym.multi_eval_columns"], "note": "Default and compact mode; precision checks of mppp::real not modelled. Out-of-bounds accesses and pointer arithmetic outside an array are the outcome ub of the model."},
 {"property": "C15", "status": "proved", "theorems": ["Heyoka.AD.diff_tensors_gradient", "Heyoka.AD.diff_tensors_derivative", "Heyoka.AD.diff_tensors_complete", "Heyoka.AD.diff_tensors_partials", "Heyoka.AD.diff_tensors_total", "Heyoka.AD.diff_tensors_first_order_total", "Heyoka.AD.diff_tensors_rejects"], "note": "Real arithmetic; expressions of the library functions including dfun (no user-defined functions). First order in both modes at the points where every function occurring in the expression is differentiable (Smooth). Every order: at regular points (Reg) the entry of a multiindex is the repeated partial derivative of the function, in any order of the variables (diff_tensors_partials). Success needs decompositions of at most 2^32 elements."},
 {"property": "C16", "status": "proved", "theorems": ["Heyoka.Dtens.comparison_spec", "Heyoka.Dtens.comparison_total", "Heyoka.Dtens.nouts_order", "Heyoka.Dtens.lookup_spec", "Heyoka.Dtens.lookup_dense", "Heyoka.Dtens.get_derivatives_spec", "Heyoka.Dtens.get_derivatives_component", "Heyoka.Dtens.gradient_spec", "Heyoka.Dtens.jacobian_spec", "Heyoka.Dtens.hessian_spec"], "note": "For every complete tensor (all derivatives up to an order, sorted). Indices whose total degree does not fit in 32 bits make the comparison throw."},
 {"property": "C17", "status": "proved", "theorems": ["Heyoka.Taylor.taylor_recurrence", "Heyoka.Taylor.taylor_recurrence_smooth", "Heyoka.Taylor.taylor_pow_at_zero_undefined"], "note": "For every function of the library with a Taylor recurrence (sum, prod, pow, sub, div, sum_sq, trigonometric, hyperbolic and inverse functions, erf, exp, log, sigmoid, relu, select, relational, logical, time, constants, kepE, kepF), every shape of arguments and every order, the default-mode recurrence returns the exact normalised derivative at regular points. Real arithmetic. taylor_pow_at_zero_undefined: at a zero base powers other than the square give NaN."},
 {"property": "C18", "status": "proved", "theorems": ["Heyoka.Taylor.jet_is_formal_solution", "Heyoka.Taylor.jet_is_taylor_series", "Heyoka.Taylor.formal_solution_unique", "Heyoka.Taylor.sys_size_bound", "Heyoka.Taylor.decompose_sys_throws"], "note": "Default mode. Over the reals; rewriting, renaming, decomposition of functions, CSE, sort, sincos combination, number replacement and the order-by-order jet are modelled. Hypotheses SysReg: functions defined and regular along the curves. Index width 32 bits is an explicit hypothesis, with a bound from the number of functions."},
 {"property": "C19", "status": "proved", "theorems": ["Heyoka.Taylor.compact_jet_eq_default", "Heyoka.Taylor.compact_jet_eq_default_system", "Heyoka.Taylor.compact_jet_is_taylor_series", "Heyoka.Taylor.compact_overflow_throws", "Heyoka.Taylor.compact_tape_index_is_signed"], "note": "For every well-formed decomposition, order, parameters, time, state and fair schedule. The number of derivatives in the tape is assumed to be at most 2^31: compact_tape_index_is_signed proves that between 2^31 and 2^32 the overflow check passes but the access is out of bounds. Arithmetic over the reals; code generation for CUDA/vector widths not modelled."},
 {"property": "C20", "status": "proved", "theorems": ["Heyoka.Dense.state_update_noncompact", "Heyoka.Dense.state_update_compact", "Heyoka.Dense.dense_output_eval", "Heyoka.Dense.write_tc_noncompact", "Heyoka.Dense.write_tc_compact", "Heyoka.Dense.horner_eq_ceval", "Heyoka.Dense.poly_zero", "Heyoka.Dense.update_d_output_abs", "Heyoka.Dense.update_d_output_rel"], "note": "Exact arithmetic; indices and strides of the tape and of the coefficient array are modelled, out-of-bounds access is an error outcome."},
 {"property": "C21", "status": "proved", "theorems": ["Heyoka.Timestep.timestep_within_limit", "Heyoka.Timestep.timestep_formula", "Heyoka.Timestep.norm_compact_correct", "Heyoka.Timestep.norm_default_correct", "Heyoka.Timestep.timestep_correct", "Heyoka.Timestep.norm_nan_dependent"], "note": "Real arithmetic with infinities and NaN; rounding, overflow and underflow are not modelled."},
 {"property": "C22", "status": "proved", "theorems": ["Heyoka.Integ.propagate_until_correct", "Heyoka.Integ.propagate_until_time_limit", "Heyoka.Integ.propagate_until_invalid", "Heyoka.Integ.propagate_until_not_ub", "Heyoka.Integ.propagate_until_terminates", "Heyoka.Integ.step_contract", "Heyoka.Integ.step_defined"], "note": "Exact arithmetic with infinities and NaN; arbitrary step function meeting StepOk, which step_contract proves for step_impl(). The loop is run with a bound on the iterations and the theorems hold for every bound."},
 {"property": "C23", "status": "proved", "theorems": ["Heyoka.Integ.propagate_for_correct"], "note": "Exact arithmetic (the double-length sum is not modelled here)."},
 {"property": "C24", "status": "proved", "theorems": ["Heyoka.Integ.propagate_grid_correct", "Heyoka.Integ.propagate_grid_samples", "Heyoka.Integ.propagate_grid_invalid", "Heyoka.Integ.propagate_grid_not_ub", "Heyoka.Integ.grid_accepted_iff", "Heyoka.Integ.grid_check_asymmetric", "Heyoka.Integ.step_lastH"], "note": "Scalar integrator, exact arithmetic; grid_check_asymmetric records that repeated points are treated differently in the two directions."},
 {"property": "C25", "status": "proved", "theorems": ["Heyoka.Integ.step_events", "Heyoka.Integ.outcome_codes", "Heyoka.Integ.step_events_defined"], "note": "Event detection, steppers, dense output and sort are parameters constrained by EnvOk."},
 {"property": "C26", "status": "proved", "theorems": ["Heyoka.Integ.cooldown_respected", "Heyoka.Integ.cooldown_set", "Heyoka.Integ.cooldown_cleared"], "note": "The detection window is the hypothesis DetectRespectsCd."},
 {"property": "C27", "status": "proved", "theorems": ["Heyoka.Events.events_sound", "Heyoka.Events.events_no_ub", "Heyoka.Events.detectFn_meets_step_assumptions"], "note": "Exact arithmetic over an ordered field; the bracketing root finder (Boost) is a parameter assumed to return only zeros in [lb, ub). Also discharges what the step theorems assume about event detection."},
 {"property": "C28", "status": "partial", "theorems": ["Heyoka.Events.events_complete_partial", "Heyoka.Events.events_independent", "Heyoka.Events.zero_at_start_reported_twice", "Heyoka.Events.zero_at_start_reported_three_times", "Heyoka.Events.zero_lost_after_cooldown"], "note": "Proved over the reals for polynomials without zeros at the dyadic points of the step, when the isolation completes without a logged failure. The full property is false: three theorems show zeros reported several times or lost when a zero falls on a bisection point."},
 {"property": "C29", "status": "proved", "theorems": ["Heyoka.Events.exclusion_sound", "Heyoka.Events.exclusion_total"], "note": "Interval Horner and Cargo-Shisha enclosures, both directions, exact arithmetic."},
 {"property": "C30", "status": "proved", "theorems": ["Heyoka.Dense.covers_unique", "Heyoka.Dense.continuous_output_correct", "Heyoka.Dense.continuous_output_errors", "Heyoka.Dense.continuous_output_batch_correct"], "note": "Both the scalar and the batch object, forward and backward; times are exact (hi/lo pairs are one number)."},
 {"property": "C31", "status": "proved", "theorems": ["Heyoka.Cache.mem_cache_consistent", "Heyoka.Cache.mem_insert_within_limit", "Heyoka.Cache.mem_size_le_limit", "Heyoka.Cache.mem_lookup_sound", "Heyoka.Cache.mem_queue_recency", "Heyoka.Cache.mem_insert_evicts_least_recent"], "note": "Includes allocation failures and overflow of the size."},
 {"property": "C32", "status": "proved", "theorems": ["Heyoka.Cache.disk_cache_consistent", "Heyoka.Cache.disk_insert_within_limit", "Heyoka.Cache.disk_insert_then_lookup", "Heyoka.Cache.cache_lookup_sound"], "note": "Assumes atomicity and isolation of SQLite transactions; power loss reverts to an earlier committed state."},
 {"property": "C33", "status": "proved", "theorems": ["Heyoka.Cache.deserialize_iff", "Heyoka.Cache.deserialize_serialize", "Heyoka.Cache.serialize_injective", "Heyoka.Cache.matchesBlob_serialize"], "note": ""},
 {"property": "C34", "status": "proved", "theorems": ["Heyoka.Cache.cache_transparent", "Heyoka.Cache.arrival_schedule_independent", "Heyoka.Cache.compFlag_injective"], "note": "The optimisation and code generation of a single module is an arbitrary function of environment, settings and bitcode."},
 {"property": "C35", "status": "proved", "theorems": ["Heyoka.EopSw.encloses_unique", "Heyoka.EopSw.locate_date_correct", "Heyoka.EopSw.locate_date_vec_eq_scalar", "Heyoka.EopSw.validated_dates_sorted"], "note": "Scalar and vector search; NaN dates included as a separate value."},
 {"property": "C36", "status": "proved", "theorems": ["Heyoka.EopSw.eop_linear", "Heyoka.EopSw.eop_exact_at_nodes", "Heyoka.EopSw.eop_continuous_pieces", "Heyoka.EopSw.eop_nan_outside", "Heyoka.EopSw.not_encloses_of_outside", "Heyoka.EopSw.eop_vec_eq_scalar", "Heyoka.EopSw.eop_angle_reduced"], "note": "Exact arithmetic."},
 {"property": "C37", "status": "proved", "theorems": ["Heyoka.EopSw.data_name_injective", "Heyoka.EopSw.func_name_injective", "Heyoka.EopSw.data_name_ne_func_name", "Heyoka.EopSw.requests_served_own_data"], "note": "Tables are assumed to be determined by (row count, timestamp, identifier); this hypothesis is explicit in requests_served_own_data."},
 {"property": "C38", "status": "proved", "theorems": ["Heyoka.Util.pairwiseReduce_eq_foldl", "Heyoka.Util.pairwiseSum_eq_sum", "Heyoka.Util.pairwiseProd_eq_prod"], "note": "Associative idealisation of the reduction operator."},
 {"property": "C39", "status": "proved", "theorems": ["Heyoka.Callback.callback_set_call", "Heyoka.Callback.callback_set_throws", "Heyoka.Callback.callback_set_ctor", "Heyoka.Callback.callback_set_at", "Heyoka.Callback.callback_set_pre_hook"], "note": "Sets of step callbacks: every callback is called once, in order, the result is the conjunction."},
 {"property": "C40", "status": "proved", "theorems": ["Heyoka.Callback.angle_reducer_batch", "Heyoka.Callback.angle_reducer_scalar_eq", "Heyoka.Callback.angle_reducer_idempotent", "Heyoka.Callback.angle_reducer_errors", "Heyoka.Callback.angle_reducer_ctor", "Heyoka.Callback.reduce_spec"], "note": "Exact arithmetic over an ordered field with floor; 2 pi is a positive parameter."},
 {"property": "C41", "status": "proved", "theorems": ["Heyoka.Ensemble.ensemble_schedule_independent", "Heyoka.Ensemble.ensemble_complete", "Heyoka.Ensemble.ensemble_splat"], "note": "Every interleaving of the steps of the iterations; generator and propagation are parameters."},
 {"property": "C42", "status": "proved", "theorems": ["Heyoka.Sym.validate_ode_sys_iff", "Heyoka.Sym.validate_ode_sys_throws"], "note": "Exact characterisation of the accepted systems."},
 {"property": "C43", "status": "proved", "theorems": ["Heyoka.Sym.variational_ics", "Heyoka.Sym.variational_ics_time", "Heyoka.Sym.init_sizes", "Heyoka.Sym.variational_ics_flow", "Heyoka.Sym.variational_ics_flow_time"], "note": "For every variational system with the shape produced by the constructor of var_ode_sys (hypothesis VSysOk, proved for the result of the constructor in var_ode_sys_shape), all batch sizes. The right-hand sides are evaluated by a compiled function in default mode; with the initial time among the arguments only the first order is supported and the code throws otherwise."},
 {"property": "C44", "status": "proved", "theorems": ["Heyoka.DFloat.knuth_exact", "Heyoka.DFloat.dekker_exact", "Heyoka.DFloat.normalise_exact", "Heyoka.DFloat.add_norm", "Heyoka.DFloat.add_exact_up_to", "Heyoka.DFloat.add_exact", "Heyoka.DFloat.add_error", "Heyoka.DFloat.sub_norm_error", "Heyoka.DFloat.accumulate_error", "Heyoka.DFloat.accumulate_exact", "Heyoka.DFloat.compare_val"], "note": "True rounding (nearest, ties to even, gradual underflow) in a binary format with at least 5 bits of precision; no overflow."},
 {"property": "C45", "status": "proved", "theorems": ["Heyoka.Sym.composite_name_structure", "Heyoka.Sym.composite_value"], "note": "Equal mangled names imply equal nested structure and equal kinds of the leaves; evaluating the merged function on the values of its leaves consumes all of them and gives the value of the nested function."},
 {"property": "C46", "status": "proved", "theorems": ["Heyoka.Taylor.mayRead_before", "Heyoka.Taylor.order_n_needs_only_lower_hidden", "Heyoka.Taylor.order_n_reads_only_computed", "Heyoka.Taylor.every_order_jet_defined", "Heyoka.Taylor.every_order_cjet_defined", "Heyoka.Taylor.user_jet_defined"], "note": "For every decomposition in which the visible arguments precede the element (hidden dependencies anywhere), both modes."},
 {"property": "C47", "status": "proved", "theorems": ["Heyoka.Mech.lagrangian_motion", "Heyoka.Mech.lagrangian_motion_posdef", "Heyoka.Mech.lagrangian_total", "Heyoka.Mech.lagrangian_rejects", "Heyoka.Mech.hamiltonian_motion", "Heyoka.Mech.hamiltonian_energy", "Heyoka.Mech.hamiltonian_total", "Heyoka.Mech.hamiltonian_rejects", "Heyoka.Mech.vanishing_pivot"], "note": "At points where the functions are regular (Reg for the Lagrangian: no condition on its derivatives or on the decompositions) and the leading blocks of the mass matrix are regular (always so for a positive definite kinetic energy). vanishing_pivot shows that the condition on the leading blocks cannot be dropped: the code pivots on structural zeros only."},
 {"property": "C48", "status": "proved", "theorems": ["Heyoka.Kepler.kepE_exists_unique", "Heyoka.Kepler.kepF_exists_unique", "Heyoka.Kepler.kepDE_exists_unique", "Heyoka.Kepler.kepE_result", "Heyoka.Kepler.kepE_invalid", "Heyoka.Kepler.kepF_result", "Heyoka.Kepler.kepF_invalid", "Heyoka.Kepler.kepDE_result", "Heyoka.Kepler.kepDE_invalid", "Heyoka.Kepler.kepE_circular", "Heyoka.Kepler.kepE_gradient"], "note": "Exact real arithmetic, any tolerance and iteration limit, any batch. Convergence within the iteration limit is not claimed: the code returns NaN otherwise and the model does too."},
 {"property": "C49", "status": "proved", "theorems": ["Heyoka.Sym.pow_eval_correct", "Heyoka.Sym.pow_ebs_eq"], "note": "exact arithmetic over the reals"},
 {"property": "C50", "status": "proved", "theorems": ["Heyoka.Sym.var_ode_sys_solution", "Heyoka.Sym.var_ode_sys_shape", "Heyoka.Sym.var_ode_sys_valid", "Heyoka.Sym.var_ode_sys_rejects", "Heyoka.Sym.var_ode_sys_total", "Heyoka.Sym.var_ode_sys_first_order_total", "Heyoka.Sym.variational_ics_flow", "Heyoka.Sym.variational_ics_flow_time", "Heyoka.Sym.var_ode_sys_captures_dfun"], "note": "Exact real arithmetic; right-hand sides of library functions without dfun (with a user's own dfun the result can be wrong: finding N, var_ode_sys_captures_dfun), regular (Reg) on the solution. An element of an explicit argument list equal to the time is the time (VTimeOk). Success needs decompositions of at most 2^32 elements (VarFits, explicit at the first order)."},
 {"property": "C51", "status": "proved", "theorems": ["Heyoka.Models.pendulum_motion", "Heyoka.Models.pendulum_energy", "Heyoka.Models.fixed_centres_checks", "Heyoka.Models.fixed_centres_motion", "Heyoka.Models.fixed_centres_energy_value", "Heyoka.Models.fixed_centres_energy", "Heyoka.Models.rotating_checks", "Heyoka.Models.rotating_motion", "Heyoka.Models.rotating_energy", "Heyoka.Models.mascon_checks", "Heyoka.Models.mascon_motion", "Heyoka.Models.mascon_energy", "Heyoka.Models.mascon_potential_value", "Heyoka.Models.cr3bp_checks", "Heyoka.Models.cr3bp_hamilton", "Heyoka.Models.cr3bp_motion", "Heyoka.Models.cr3bp_jacobi"], "note": "Exact real arithmetic; solutions which do not meet the centres; conservation for constant parameters on an open interval of times."},
 {"property": "C52", "status": "proved", "theorems": ["Heyoka.Models.nbody_checks", "Heyoka.Models.nbody_order", "Heyoka.Models.nbody_motion", "Heyoka.Models.nbody_energy_value", "Heyoka.Models.nbody_potential_value", "Heyoka.Models.nbody_energy", "Heyoka.Models.np1body_order", "Heyoka.Models.np1body_motion", "Heyoka.Models.np1body_relative", "Heyoka.Models.baryVel_momentum", "Heyoka.Models.np1body_energy_value", "Heyoka.Models.np1body_potential_value", "Heyoka.Models.np1body_energy"], "note": "Exact real arithmetic; no massive body meets another one (np1body: nor the body 0 any other one); np1body energy: the total mass is not zero."},
 {"property": "C53", "status": "proved", "theorems": ["Heyoka.Models.ffnn_value", "Heyoka.Models.ffnn_rejects"], "note": "Exact arithmetic; activation functions are functions on expressions whose effect on values is a hypothesis. Networks of 2^32 parameters or more are rejected."},
 {"property": "C54", "status": "proved", "theorems": ["Heyoka.Models.rsw_axes", "Heyoka.Models.state_to_rsw_value", "Heyoka.Models.state_to_rsw_inertial_value", "Heyoka.Models.state_from_rsw_value", "Heyoka.Models.state_from_rsw_inertial_value", "Heyoka.Models.rsw_roundtrip", "Heyoka.Models.rsw_inertial_roundtrip", "Heyoka.Models.rsw_isometry", "Heyoka.Models.state_to_rsw_velocity"], "note": "Exact real arithmetic; position and velocity of the reference linearly independent; the meaning of the velocity for references with acceleration parallel to the position."},
 {"property": "C55", "status": "proved", "theorems": ["Heyoka.Models.lagrange_prop_motion", "Heyoka.Models.kepler_unique", "Heyoka.Models.lagrange_prop_unique"], "note": "Exact real arithmetic; elliptic orbits with non-zero angular momentum (the code supports no other)."},
 {"property": "C56", "status": "proved", "theorems": ["Heyoka.Models.geo_checks", "Heyoka.Models.geodetic_iff", "Heyoka.Models.geo2cart_value", "Heyoka.Models.cart2geo_converges"], "note": "Exact real arithmetic; cart2geo: squared eccentricity below 1/3, points on or above the ellipsoid and not on the polar axis (where the code divides by zero)."},
 {"property": "C57", "status": "proved", "theorems": ["Heyoka.Integ.batch_step_lanes", "Heyoka.Integ.batch_step_checks", "Heyoka.Integ.zero_step", "Heyoka.Integ.batch_until_scalar", "Heyoka.Integ.batch_until_time_limit", "Heyoka.Integ.batch_until_invalid", "Heyoka.Integ.batch_for", "Heyoka.Integ.batch_step_defined", "Heyoka.Integ.batch_until_not_ub", "Heyoka.Integ.batch_until_max_steps", "Heyoka.Integ.batch_until_terminates", "Heyoka.Integ.batch_zero_step_fails", "Heyoka.Integ.batch_time_limit_early"], "note": "Refinement of the batch loops to the scalar model of C22. Hypotheses: event callbacks act on their own batch element, step callbacks observe, zero-length steps are harmless (shown necessary: finding O). Findings O and P are theorems with witnesses."},
 {"property": "C58", "status": "proved", "theorems": ["Heyoka.Integ.batch_grid_scalar", "Heyoka.Integ.batch_grid_accepted_iff", "Heyoka.Integ.batch_grid_columns", "Heyoka.Integ.batch_grid_invalid", "Heyoka.Integ.batch_grid_not_ub", "Heyoka.Integ.batch_grid_max_steps", "Heyoka.Integ.batch_grid_assert_fails", "Heyoka.Integ.batch_grid_event_lost"], "note": "Refinement of the batch grid loop to the scalar model of C24, under the hypotheses of C57. No undefined behaviour is proved for release builds; in debug builds one assertion is wrong (finding Q). Findings Q and R are theorems with witnesses."},
 {"property": "C59", "status": "proved", "theorems": ["Heyoka.EopSw.celestrak_parse", "Heyoka.EopSw.longTerm_parse", "Heyoka.EopSw.rapid_parse", "Heyoka.EopSw.sw_parse", "Heyoka.EopSw.sw_date", "Heyoka.EopSw.sw_date_malformed", "Heyoka.EopSw.reanchor_accepted", "Heyoka.EopSw.reanchor_rows", "Heyoka.EopSw.reanchor_valid"], "note": "std::from_chars for double and eraCal2jd are parameters, arithmetic is exact. sw_date covers all dates of the form yyyy-mm-dd; finding S (sw_date_malformed): some texts which are no dates are accepted. An empty line ends the data in all parsers."},
 {"property": "C60", "status": "proved", "theorems": ["Heyoka.Sh.sh_pot_accepted", "Heyoka.Sh.sh_acc_accepted", "Heyoka.Sh.sh_pot_value", "Heyoka.Sh.sh_acc_gradient", "Heyoka.Sh.sh_acc_partials", "Heyoka.Sh.sh_energy", "Heyoka.Sh.sh_potential_spherical", "Heyoka.Sh.sh_point_mass", "Heyoka.Sh.egm2008_spec"], "note": "exact arithmetic and exact square roots; the values of the EGM2008 table are a parameter"},
 {"property": "C61", "status": "proved", "theorems": ["Heyoka.Models.itrs_icrs_value", "Heyoka.Models.icrs_itrs_value", "Heyoka.Models.pn_rotation_iff", "Heyoka.Models.itrs_icrs_round_trip", "Heyoka.Models.icrs_itrs_round_trip", "Heyoka.Models.itrs_icrs_length", "Heyoka.Models.icrs_itrs_not_inverse", "Heyoka.Models.itrs_teme_value", "Heyoka.Models.teme_itrs_value", "Heyoka.Models.teme_inverse", "Heyoka.Models.fk5_round_trip", "Heyoka.Models.fk5_orientation", "Heyoka.Models.corrected_locator"], "note": "Exact arithmetic. The celestial pair is not an exact pair of inverses (finding T): the error of the round trip is bounded."},
 {"property": "C62", "status": "proved", "theorems": ["Heyoka.Theory.iau2006_value", "Heyoka.Theory.iau2006_threshold", "Heyoka.Theory.iau_truncation", "Heyoka.Theory.vsop_truncation", "Heyoka.Theory.vsop_elliptic_value", "Heyoka.Theory.vsop_elliptic_invalid", "Heyoka.Theory.elp_spherical_value", "Heyoka.Theory.elp_threshold", "Heyoka.Theory.elp_truncation", "Heyoka.Theory.delta_tdb_tt_value"], "note": "The tables are parameters of the model and the arithmetic is exact over the reals; the debug assertion about duplicate arguments is not modelled."},
 {"property": "C63", "status": "proved", "theorems": ["Heyoka.Theory.vsop_cartesian_value", "Heyoka.Theory.elements_exist", "Heyoka.Theory.vsop_cartesian_invalid", "Heyoka.Theory.vsop_icrf_value", "Heyoka.Theory.vsop_icrf_motion", "Heyoka.Theory.elp_cartesian_value", "Heyoka.Theory.elp_e2000_value", "Heyoka.Theory.laskarRot_eq", "Heyoka.Theory.elp_fk5_value", "Heyoka.Theory.elpFk5M_not_orth", "Heyoka.Theory.elpFk5M_orientation", "Heyoka.Theory.elp_cartesian_threshold"], "note": "Exact arithmetic over the reals; the tables are parameters. elements_exist shows that all the elements of ellipses meet the hypotheses of vsop_cartesian_value."},
 {"property": "C64", "status": "proved", "theorems": ["Heyoka.EoDyn.eo_dynamics_acc", "Heyoka.EoDyn.eo_dynamics_motion", "Heyoka.EoDyn.eo_dynamics_checks", "Heyoka.EoDyn.eo_dynamics_captures_tm", "Heyoka.EoDyn.eo_dynamics_constants"], "note": "Exact arithmetic over the reals. The functions which read the EOP and space weather data, the fraction of the day and the density are parameters with assumed values (structure Earth); with drag the expressions of the orientation of the Earth are assumed differentiable at the time considered (EopReg). The ballistic coefficient must not contain a variable named tm (finding V, eo_dynamics_captures_tm)."},
 {"property": "C65", "status": "proved", "theorems": ["Heyoka.Sym.ctor_rejects", "Heyoka.Sym.ctor_accepts", "Heyoka.Sym.ctor_pars_in_bounds", "Heyoka.Sym.ctor_variational", "Heyoka.Sym.ctor_variational_state", "Heyoka.Sym.ctor_variational_time", "Heyoka.Sym.ctor_scalar", "Heyoka.Sym.ctor_times"], "note": "Values are real numbers (the tolerance may be a special value), the logarithm in the order is exact. Code generation, compilation and the creation of the event data are a parameter (comp) which succeeds or throws. The precision checks for mppp::real are not modelled."},
 {"property": "C66", "status": "proved", "theorems": ["Heyoka.Cal.exists_calendar", "Heyoka.Cal.cal2jd_spec", "Heyoka.Cal.jd2cal_spec", "Heyoka.Cal.cal_round_trip", "Heyoka.Cal.dayfrac_value", "Heyoka.Cal.dayfrac_nonneg", "Heyoka.Cal.dayfrac_deriv", "Heyoka.Cal.dayfrac_out_of_range", "Heyoka.Cal.dayfrac_taylor", "Heyoka.Cal.dayfrac_taylor_num"], "note": "Exact arithmetic. The three iterations of eraTaiutc are not exact on the day of a leap second, hence the margin of 1e-17 days around a change of year. Years before 1973 (where UTC drifts against TAI) are covered by the theorems on the calendar and by the sign only."},
 {"property": "C67", "status": "proved", "theorems": ["Heyoka.EvCtor.tEvent_spec", "Heyoka.EvCtor.ntEvent_spec", "Heyoka.EvCtor.deduce_spec", "Heyoka.EvCtor.cooldown_covers", "Heyoka.EvCtor.startCooldown_spec"], "note": "Exact arithmetic with special values: an overflow of the quotient (the other way to a non-finite value) is treated by the code like the division by zero and does not occur in the model."},
 {"property": "C68", "status": "proved", "theorems": ["Heyoka.Models.nrl_rejects", "Heyoka.Models.jb_rejects", "Heyoka.Models.nrl_value", "Heyoka.Models.jb_value", "Heyoka.Models.nrl_physical", "Heyoka.Models.jb_physical", "Heyoka.Models.tn_longitude"], "note": "Exact real arithmetic; the tables of weights and the rounded constants 2 pi, 2 pi / 365.25, pi / 2 are arbitrary parameters. In floating point the density may underflow to zero."},
 {"property": "C69", "status": "proved", "theorems": ["Heyoka.DFloat.eftProduct_exact", "Heyoka.DFloat.dlFloor_exact", "Heyoka.DFloat.dlMul_error", "Heyoka.DFloat.dlDiv_error", "Heyoka.DFloat.dlMod_error", "Heyoka.DFloat.trigReduce_range", "Heyoka.DFloat.trigReduce_error"], "note": "No overflow; the absence of underflow is a hypothesis on the exact products and the quotient of the high parts. The fused multiply-add rounds once. The period of the reduction of angles is a parameter: the error of the stored approximation of 2 pi is not part of the bound."}
]}
