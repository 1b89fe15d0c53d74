{"id": "C01", "title": "Arithmetic on expressions preserves the mathematical value", "statement": "Building an expression with +, -, *, /, unary minus, sum() or prod() yields an expression whose value, at every assignment of the variables, parameters and time, equals the corresponding arithmetic on the operands' values, whatever constant folding, reordering of numbers or term dropping the library performs on the way.", "quantifier": "all expressions, all argument lists of any length, all assignments (exact arithmetic)", "why_tests_cant": "The simplification paths depend on the position, number and value of numeric operands; only finitely many shapes can be sampled.", "anchors": ["src/expression_ops.cpp: operator+,-,*,/", "src/math/sum.cpp: sum", "src/math/prod.cpp: prod", "src/math/pow.cpp: pow"]}
{"id": "C02", "title": "Symbolic differentiation is correct", "statement": "diff(e, x) (x a variable or a parameter) evaluates, at every point at which every elementary function occurring in e is differentiable, to the derivative of the value of e with respect to x at that point.", "quantifier": "all expressions over the elementary functions, all variables/parameters, all points in the domain", "why_tests_cant": "Correctness for arbitrary nesting and sharing needs induction over the expression; tests only compare a handful of formulas at a handful of points.", "anchors": ["src/expression_diff.cpp: diff_impl, diff", "src/math/*.cpp: gradient"]}
{"id": "C03", "title": "Substitution commutes with evaluation", "statement": "Evaluating subs(e, map) under an assignment gives the same value as evaluating e under the assignment in which every substituted variable takes the value of its replacement; variables not in the map are untouched; replacements are simultaneous. The same holds for rename_variables().", "quantifier": "all expressions, all substitution maps, all assignments", "why_tests_cant": "Maps with overlapping keys/values (swaps, shadowing) on arbitrarily deep shared DAGs cannot be enumerated.", "anchors": ["src/expression_basic.cpp: subs, rename_variables"]}
{"id": "C04", "title": "Shared-subexpression traversal is equivalent to plain recursion", "statement": "Every transformation and query that walks an expression with the iterative stack and the caches keyed on node identity and on shared argument lists returns exactly what naive recursion on the unfolded tree would return, and terminates, for every DAG with arbitrary sharing.", "quantifier": "all expression DAGs, all leaf/node transformers", "why_tests_cant": "The stack machine has an unbounded number of interleavings of cache hits and misses.", "anchors": ["src/detail/ex_traversal.cpp: ex_traverse_transform_nodes, ex_traverse_test_any, ex_traverse_visit_leaves"]}
{"id": "C05", "title": "Variable, parameter and time queries are exact", "statement": "get_variables, get_params, get_param_size and is_time_dependent report exactly the variables/parameters/time occurring in the expressions; in particular the value of an expression does not change when anything not reported is changed, and get_param_size is the smallest size covering every parameter index.", "quantifier": "all expressions (any depth, any sharing), all assignments", "why_tests_cant": "Frame properties quantify over all pairs of assignments.", "anchors": ["src/expression_basic.cpp: get_variables, get_params, get_param_size, is_time_dependent"]}
{"id": "C06", "title": "Pre-compilation rewrites preserve the value", "statement": "The rewrites applied to expressions before compilation or integration (sums to subtractions, splitting of long sums/products, sums of squares, products to divisions) do not change the value of the expression at any point at which it is defined.", "quantifier": "all expressions, all assignments, all split sizes >= 2", "why_tests_cant": "Rewrites fire on patterns at any depth and interact with each other.", "anchors": ["src/math/sum.cpp: sum_to_sub, sum_to_sum_sq", "src/math/prod.cpp: prod_to_div_llvm_eval, prod_to_div_taylor_diff", "include/heyoka/detail/udf_split.hpp", "src/expression_basic.cpp: split_sums_for_decompose, split_prods_for_decompose"]}
{"id": "C07", "title": "Equality, ordering and hashing of numbers and expressions are coherent", "statement": "== is an equivalence relation on numbers (NaN included) and expressions; equal objects have equal hashes; operator< on numbers and on expressions is a strict weak (for numbers: total) order whose equivalence is compatible with ==, so ordered and unordered containers behave.", "quantifier": "all pairs/triples of numbers and expressions, any mix of types", "why_tests_cant": "Relations on infinite domains; transitivity involves all triples.", "anchors": ["src/number.cpp: operator==, operator<, hash", "src/expression_basic.cpp: ex_less_than, hash", "src/func.cpp: operator==, operator<"]}
{"id": "C08", "title": "Function decomposition preserves the function", "statement": "For any vector function and any list of variables covering it, evaluating the decomposition in sequence and reading the outputs gives the value of the original expressions; every element refers only to earlier elements; the first elements are the input variables in the given order.", "quantifier": "all vector functions, all variable lists, all assignments", "why_tests_cant": "Decomposition composes decomposition, common subexpression elimination and sorting over arbitrary DAGs.", "anchors": ["src/expression_decompose.cpp: expression_decompose_impl", "src/expression_cfunc.cpp: function_decompose"]}
{"id": "C09", "title": "Common subexpression elimination and topological sorting are sound", "statement": "Removing repeated definitions and reordering the remaining ones never changes the value computed for any output, keeps every definition before its uses, keeps the input variables first, and the sort always succeeds on a well formed decomposition (no definition is lost or duplicated).", "quantifier": "all well-formed decompositions of any length", "why_tests_cant": "Index remapping bugs surface only for particular sharing/ordering patterns.", "anchors": ["src/expression_cfunc.cpp: function_decompose_cse, function_sort_dc", "src/taylor_01.cpp: taylor_decompose_cse, taylor_sort_dc"]}
{"id": "C10", "title": "Compact-mode segments are independent and complete", "statement": "Splitting a decomposition into segments never puts a definition and one of its dependencies in the same segment, loses or reorders nothing, hence the entries of a segment can be evaluated in any order or concurrently with the same result as sequential evaluation.", "quantifier": "all decompositions, all schedules of each segment", "why_tests_cant": "Quantifies over all permutations/interleavings of a segment.", "anchors": ["src/expression_cfunc.cpp: function_segment_dc, multi_cfunc_evaluate_segments", "src/taylor_02.cpp: taylor_segment_dc"]}
{"id": "C11", "title": "Compact mode computes the same function as default mode", "statement": "A compiled function created in compact mode (segmented, calls grouped by generated function name, arguments supplied by generators, nested functions merged) returns the same outputs as the one created in default mode, for every vector function built with the public constructors.", "quantifier": "all vector functions, all inputs", "why_tests_cant": "Name collisions of generated functions depend on global structure of the function.", "anchors": ["src/expression_cfunc.cpp: llvm_c_eval_func, llvm_c_eval_func_name_args, multi_cfunc_evaluate_segments", "src/func.cpp: make_copy_with_new_args", "src/math/pow.cpp: pow_impl", "src/math/prod.cpp: prod_impl"]}
{"id": "C12", "title": "Argument generators reproduce the argument table", "statement": "For every list of indices (or constants) passed to the compact-mode argument generators, the generated index function returns at every call position exactly the list element, whichever of the compressed representations (constant, strided, repeated strided, table) is chosen.", "quantifier": "all lists of 32-bit indices of any length, all positions", "why_tests_cant": "The detection of patterns has boundary cases at every length.", "anchors": ["src/detail/cm_utils.cpp: cm_make_arg_gen_vidx, is_consecutive_strided, cm_make_arg_gen_vc"]}
{"id": "C13", "title": "Batched and parallel evaluation of a compiled function is column-wise scalar evaluation", "statement": "The multi-evaluation call writes to column k of the output exactly the scalar evaluation of column k of inputs/parameters/time, for every number of columns, batch size and thread schedule, writes every output cell exactly once, and touches nothing else.", "quantifier": "all array sizes, all batch sizes >= 1, all interleavings of the worker tasks", "why_tests_cant": "Schedules and remainders are unbounded.", "anchors": ["src/cfunc_class.cpp: multi_eval, multi_eval_st, multi_eval_mt"]}
{"id": "C14", "title": "A compiled function rejects ill-shaped arguments and never reads out of bounds", "statement": "single_eval/multi_eval throw exactly when the shapes of outputs/inputs/parameters/time do not match the function; when they do not throw, every access of the compiled code lies inside the supplied arrays.", "quantifier": "all shapes, all functions", "why_tests_cant": "Bounds must hold for every index computed from every shape.", "anchors": ["src/cfunc_class.cpp: single_eval, multi_eval", "src/expression_cfunc.cpp: add_cfunc_nc_mode"]}
{"id": "C15", "title": "Forward and reverse mode derivatives agree with the true partial derivatives", "statement": "diff_tensors() yields, in both the forward and the reverse mode, first-order derivatives whose values are the true partial derivatives of the outputs with respect to the requested arguments; higher orders are derivatives of the lower orders.", "quantifier": "all vector functions, all argument lists, all points of the domain", "why_tests_cant": "Adjoint accumulation over arbitrary DAGs with fan-out needs an inductive argument.", "anchors": ["src/expression_diff.cpp: diff_tensors_forward_impl, diff_tensors_reverse_impl, diff_tensors_impl, diff_make_adj_dep"]}
{"id": "C16", "title": "Derivative tensors are strictly ordered and complete", "statement": "The comparison used for derivative indices is a strict total order equal to (total order, component, reverse lexicographic on dense orders); with it, iteration, index_of, get_derivatives, get_jacobian, get_gradient and get_hessian return exactly the derivatives of the requested order/component in that order.", "quantifier": "all sparse indices, all numbers of outputs/arguments/orders", "why_tests_cant": "Orders on infinite domains; contiguity of the ranges must hold for all dimensions.", "anchors": ["src/dtens.cpp: dtens_sv_idx_cmp_impl, get_derivatives, get_nouts, get_order", "src/expression_diff.cpp: sv_sanity_check"]}
{"id": "C17", "title": "Taylor recurrences of the elementary functions are exact", "statement": "For every supported function, the normalised derivatives produced by its recurrence from the normalised derivatives of its arguments are the coefficients of the formal power series of the composed function (it satisfies the defining differential/algebraic identity), at every order.", "quantifier": "all orders, all argument coefficient sequences with admissible order-0 term", "why_tests_cant": "Tests check fixed low orders and fixed values; recurrences have boundary terms at every order.", "anchors": ["src/math/*.cpp: taylor_diff", "src/detail/div.cpp", "src/detail/sub.cpp", "src/detail/sum_sq.cpp"]}
{"id": "C18", "title": "The Taylor jet is the formal solution of the ODE", "statement": "The normalised derivatives of the state variables written by a step are exactly the coefficients up to the order of the unique formal power series solution of the ODE system through the current state; events get the series of the event function along the solution.", "quantifier": "all decomposed ODE systems, all states, all orders", "why_tests_cant": "Order-by-order dependency over arbitrary decompositions requires induction on the order and position.", "anchors": ["src/taylor_02.cpp: taylor_compute_jet, taylor_compute_sv_diff, taylor_compute_jet_compact_mode", "src/taylor_01.cpp: taylor_decompose_sys"]}
{"id": "C19", "title": "Compact and default mode produce the same jets", "statement": "The jet computed by the compact mode (segments, drivers, last-order special handling, parallel workers) has the same entries as the default mode, within the bounds of the allocated tape, for every schedule.", "quantifier": "all decompositions, orders, schedules", "why_tests_cant": "Order/segment/driver boundaries and concurrent schedules are unbounded.", "anchors": ["src/taylor_02.cpp: taylor_compute_jet_multi, taylor_compute_jet_compact_mode", "src/taylor_01.cpp: heyoka_taylor_cm_par_segment"]}
{"id": "C20", "title": "State update and dense output evaluate the Taylor polynomial", "statement": "The state after a step of size h, update_d_output and the continuous output all evaluate the polynomial sum_k c_k h^k of the written coefficients; the Horner and the compensated summation variants agree in exact arithmetic, and at h = 0 return the state at the beginning of the step.", "quantifier": "all orders, dimensions, coefficients, h", "why_tests_cant": "For all orders and all layouts.", "anchors": ["src/taylor_00.cpp: taylor_run_multihorner, taylor_run_ceval, taylor_write_tc", "src/taylor_01.cpp: taylor_add_d_out_function"]}
{"id": "C21", "title": "The selected timestep respects the limit and the direction", "statement": "The step size returned by a step has absolute value at most |max_delta_t|, has the sign of max_delta_t, equals max_delta_t whenever the coefficient-based estimate allows it, and otherwise satisfies |h| = rhofac * min of the two radius estimates.", "quantifier": "all jets, orders, limits of either sign", "why_tests_cant": "Real-valued domain.", "anchors": ["src/taylor_00.cpp: taylor_determine_h"]}
{"id": "C22", "title": "propagate_until reaches exactly the final time and never oversteps", "statement": "propagate_until(t) returns time_limit only if the time is exactly t; when it returns with the time equal to t the outcome is time_limit unless the callback asked to stop or the state became non-finite. The time is monotone between the initial time and t and never passes t; no step is larger than max_delta_t; the callback is invoked exactly once after every successful step; the number of non-zero steps and the smallest and largest unclamped steps are as reported; max_steps is a hard bound on the number of iterations; the continuous output covers exactly the steps taken; invalid arguments throw.", "quantifier": "all steppers (any sequence of step sizes/outcomes), callbacks, limits, directions, numbers of iterations", "why_tests_cant": "The loop history is unbounded and driven by arbitrary step outcomes.", "anchors": ["src/taylor_adaptive.cpp: propagate_until_impl"]}
{"id": "C23", "title": "propagate_for(dt) is propagate_until(t + dt)", "statement": "propagate_for(dt) gives the same result and has the same effects as propagate_until to the sum of the current time and dt; when it returns time_limit the time has advanced by exactly dt; a non-finite dt throws.", "quantifier": "all states, all dt", "why_tests_cant": "For all histories.", "anchors": ["src/taylor_adaptive.cpp: propagate_for_impl"]}
{"id": "C24", "title": "propagate_grid samples the solution at exactly the requested times", "statement": "On success propagate_grid returns one state per grid point, in order, each obtained from the Taylor polynomial of a step whose time range contains the grid point; if interrupted it returns a prefix, and every returned sample is again taken inside a step range; invalid grids are rejected before anything is modified.", "quantifier": "all grids (any size, either direction), all steppers, callbacks and limits", "why_tests_cant": "The interaction between step boundaries and grid points has unboundedly many patterns.", "anchors": ["src/taylor_adaptive.cpp: propagate_grid_impl"]}
{"id": "C25", "title": "A step stops at the first terminal event and reports earlier events in order", "statement": "If a terminal event triggers in a step, the integration time is advanced exactly to the earliest detected terminal event, the callbacks of exactly the non-terminal events detected strictly before it run, once each, in chronological order, and the outcome identifies the event and whether it stops; without terminal events all detected non-terminal events run in order.", "quantifier": "all lists of detected events, any number, both directions", "why_tests_cant": "All multisets of event times.", "anchors": ["src/taylor_adaptive.cpp: step_impl"]}
{"id": "C26", "title": "Terminal event cooldown", "statement": "After a terminal event with cooldown c triggers, the event cannot be detected again until the integration has moved by at least c away from the trigger, in either direction, over any sequence of steps; afterwards it is detectable again.", "quantifier": "all sequences of steps, all cooldowns, all events", "why_tests_cant": "Histories of steps of both signs.", "anchors": ["src/taylor_adaptive.cpp: step_impl", "src/detail/event_detection.cpp: detect_events"]}
{"id": "C27", "title": "Event detection reports only zeros inside the step", "statement": "Every event reported in a step of size h is a zero of the event function's Taylor polynomial at a time in [0, h), outside the cooldown window, and with the requested direction of crossing.", "quantifier": "all polynomials, all step sizes of either sign, all cooldowns, all directions (exact arithmetic, correct bracketing root finder)", "why_tests_cant": "The bisection explores unboundedly many intervals.", "anchors": ["src/detail/event_detection.cpp: detect_events, bracketed_root_find, poly_rescale, poly_rescale_p2"]}
{"id": "C28", "title": "Event detection reports every zero inside the step exactly once", "statement": "Every time in [0, h) (outside the cooldown window) at which the event polynomial changes sign is reported, and no zero is reported twice.", "quantifier": "all polynomials with simple zeros, all step sizes, all cooldowns", "why_tests_cant": "Completeness over all polynomials needs Descartes' rule of signs, not samples.", "anchors": ["src/detail/event_detection.cpp: detect_events, llvm_add_poly_rtscc, add_poly_translator_1", "src/detail/llvm_helpers_ed.cpp: llvm_add_csc"]}
{"id": "C29", "title": "The fast exclusion check never discards an event", "statement": "If the fast exclusion check says that an event cannot trigger in a step, then the event polynomial has no zero in the step, for both the interval and the Cargo-Shisha enclosure and both directions.", "quantifier": "all polynomials, all step sizes of either sign", "why_tests_cant": "Enclosure property for all reals in an interval.", "anchors": ["src/detail/event_detection.cpp: llvm_add_fex_check", "src/detail/llvm_helpers_ed.cpp: llvm_penc_interval, llvm_penc_cargo_shisha"]}
{"id": "C30", "title": "Continuous output selects the step covering the requested time", "statement": "Calling a continuous output at time t uses the polynomial of the step whose time range contains t (the first/last step when t is outside the range), with the offset t minus the beginning of that step, for forward and backward integrations.", "quantifier": "all sequences of strictly monotone step times of length >= 2, all t", "why_tests_cant": "Binary search correctness for all sizes.", "anchors": ["src/continuous_output.cpp: add_c_out_function"]}
{"id": "C31", "title": "The in-memory compilation cache respects its limit and never returns wrong code", "statement": "Under any sequence of operations on the in-memory cache, its accounted size is the sum of the sizes of the stored items, the insertion of an absent item leaves the size within the limit, the least recently used items are evicted first and only as many as needed, and a lookup returns only a value inserted for exactly that key (bitcode list and compilation flag) since the last clear.", "quantifier": "all sequences of insert/lookup/set limit/clear", "why_tests_cant": "Histories are unbounded.", "anchors": ["src/llvm_state_cache.cpp: llvm_state_mem_cache_insert_impl, lookup, try_insert, set_memcache_limit"]}
{"id": "C32", "title": "The on-disk compilation cache is consistent under concurrency and crashes", "statement": "For any interleaving of transactions of any number of processes with possibly different environments, and any crash (loss of an uncommitted suffix), the recorded total size equals the sum of the stored entry sizes, insertions keep it within the limit, and a lookup returns only data inserted for the same bitcode, flag and environment, even in case of hash collisions.", "quantifier": "all interleavings, all crash points, all hash functions", "why_tests_cant": "Schedules and crash points cannot be enumerated.", "anchors": ["src/llvm_state_cache.cpp: disk_cache lookup/insert/set_limit/clear"]}
{"id": "C33", "title": "Cache serialisation round-trips", "statement": "The serialised form of a list of bitcode strings determines the list: deserialising returns the original, the in-place comparison accepts a blob written by the serialisation iff it was written for that list, decoding succeeds exactly on the serialised forms, and no read outside of the blob takes place for serialised forms.", "quantifier": "all lists of byte strings", "why_tests_cant": "Injectivity over all inputs.", "anchors": ["src/llvm_state_cache.cpp: serialize_vec_str, deserialize_vec_str, vec_str_matches_blob"]}
{"id": "C34", "title": "Using the caches is transparent", "statement": "Compiling the same code any number of times, through the memory cache, the disk cache or no cache, in any history including limit changes, clears, path changes and crashes, yields the same compiled object.", "quantifier": "all histories", "why_tests_cant": "Histories are unbounded.", "anchors": ["src/llvm_state_cache.cpp", "src/llvm_state.cpp: compile"]}
{"id": "C35", "title": "Date lookup in EOP/SW tables returns the enclosing interval", "statement": "For a sorted table, the lookup returns the index i with date[i] <= t < date[i+1], or the out-of-range marker if there is none (NaN included); the vectorised lookup gives the same answer in each lane as the scalar one and never reads outside of the table.", "quantifier": "all sorted tables of any size, all query values including NaN, all vector widths", "why_tests_cant": "Binary search with lanes finishing at different times.", "anchors": ["src/detail/llvm_helpers_algo.cpp: llvm_upper_bound", "src/detail/eop_sw_helpers.cpp: llvm_eop_sw_data_locate_date"]}
{"id": "C36", "title": "EOP/SW interpolation is exact at the nodes and linear between them", "statement": "The interpolated quantity equals the tabulated value at every tabulated date but the last, is the linear interpolant in between (hence continuous), its derivative is the slope, and NaN is returned outside the range.", "quantifier": "all tables, all dates", "why_tests_cant": "All reals.", "anchors": ["src/detail/eop_sw_helpers.cpp: llvm_get_eop_sw_func"]}
{"id": "C37", "title": "Different EOP/SW datasets never share generated code", "statement": "Two datasets whose (row count, timestamp, identifier) differ never produce the same generated global/function name, given the characters allowed in timestamp and identifier.", "quantifier": "all timestamps, identifiers, row counts accepted by the validation", "why_tests_cant": "Injectivity of a string encoding.", "anchors": ["src/detail/eop_sw_helpers.cpp: llvm_get_eop_sw_data, eop_sw_check_ts_id"]}
{"id": "C38", "title": "Pairwise reductions equal sequential ones", "statement": "The pairwise reduction used for sums and products computes, for every non-empty list, the same value as the left-to-right reduction for every associative operation.", "quantifier": "all lists, all associative operations", "why_tests_cant": "All lengths.", "anchors": ["src/detail/llvm_helpers_algo.cpp: pairwise_reduce"]}
{"id": "C39", "title": "Step callback sets run every callback in order and stop if any asks to", "statement": "Invoking a set of callbacks runs every member exactly once in order, even after one asked to stop, and returns true iff all returned true; constructing a set with an empty callback is rejected; out of range access is rejected.", "quantifier": "all lists of callbacks with arbitrary effects", "why_tests_cant": "All lengths and effects.", "anchors": ["src/step_callback.cpp: step_callback_set_impl::operator(), pre_hook, operator[]"]}
{"id": "C40", "title": "Angle reduction", "statement": "After each step the angle reducer replaces exactly the selected state variables by values in [0, 2pi) congruent modulo 2pi to the previous ones and leaves all others unchanged, in scalar and batch mode.", "quantifier": "all states, all selections, all batch sizes", "why_tests_cant": "Real-valued domain.", "anchors": ["src/callback/angle_reducer.cpp: operator(), pre_hook_impl"]}
{"id": "C41", "title": "Ensemble propagation is schedule independent", "statement": "The result at index i of an ensemble propagation is the result of propagating the integrator generated for index i alone, for every schedule of the iterations.", "quantifier": "all numbers of iterations, all schedules", "why_tests_cant": "Schedules.", "anchors": ["src/ensemble_propagate.cpp"]}
{"id": "C42", "title": "Validation of ODE systems accepts exactly the well-formed ones", "statement": "An ODE system is accepted iff it is non-empty, its left-hand sides are distinct variables not beginning with a double underscore, and right-hand sides and event functions only use those variables.", "quantifier": "all systems, all events", "why_tests_cant": "All inputs.", "anchors": ["src/detail/validate_ode_sys.cpp: validate_ode_sys_impl"]}
{"id": "C43", "title": "Initial conditions of the variational equations", "statement": "Automatically set up initial conditions make the derivative of state variable i with respect to the initial value of state variable j equal 1 if i = j and 0 otherwise, derivatives with respect to parameters and of order >= 2 zero, first-order derivatives with respect to the initial time minus the right-hand side, and leave the original state unchanged, in every batch lane.", "quantifier": "all dimensions, orders, argument lists, batch sizes", "why_tests_cant": "Index arithmetic for all dimensions.", "anchors": ["src/detail/setup_variational_ics.cpp"]}
{"id": "C44", "title": "Double-length time arithmetic", "statement": "Accumulating time with the double-length representation is exact whenever the elementary operations are exact, never loses the low part, and comparison of normalised values agrees with comparison of the represented numbers.", "quantifier": "all values", "why_tests_cant": "All values.", "anchors": ["include/heyoka/detail/dfloat.hpp"]}
{"id": "C45", "title": "Composite function names identify the nested structure", "statement": "The name generated for a merged nested function together with the argument kinds determines the nested structure and the order in which the leaf arguments are consumed, and evaluating the merged function on its leaf arguments equals evaluating the nested one.", "quantifier": "all nested functions", "why_tests_cant": "Injectivity of an encoding of trees.", "anchors": ["src/detail/composite_function.cpp"]}
{"id": "C46", "title": "Hidden dependencies never make the jet computation read uncomputed entries", "statement": "Whatever order is chosen for the decomposition by the sort and whatever the segmentation, the order-n recurrence of every function reads only normalised derivatives already computed, although hidden dependencies (e.g. the cosine for the sine) are not considered by the sort.", "quantifier": "all decompositions, all orders, all schedules", "why_tests_cant": "All topological orders.", "anchors": ["src/taylor_01.cpp: taylor_sort_dc", "src/taylor_02.cpp: taylor_segment_dc", "src/math/*.cpp: taylor_decompose"]}
{"id": "C47", "title": "Lagrange/Hamilton equations", "statement": "lagrangian() returns first-order equations for coordinates and velocities whose accelerations are, at every regular point of phase space, exactly the accelerations of the curves that satisfy the Euler-Lagrange equations with the dissipation term (including Lagrangians that depend on the time); hamiltonian() returns the canonical equations, so that the Hamiltonian changes only through its explicit dependence on the time. Inconsistent arguments (different numbers, duplicates, reserved names, other variables) are rejected with an exception.", "quantifier": "all Lagrangians, dissipation functions and Hamiltonians, any number of coordinates, all points and curves in phase space", "why_tests_cant": "A test can compare the equations for a few systems at a few points; the claim is about every function and every point, including mixed derivatives, time dependence and any shape of the mass matrix.", "anchors": ["src/lagrangian.cpp: lagrangian, build_linmat, solve_linmat, lagrangian_impl_sanity_checks", "src/hamiltonian.cpp: hamiltonian, hamiltonian_impl_sanity_checks"]}
{"id": "C48", "title": "Kepler equation argument reduction and solution bracket", "statement": "For every eccentricity in [0,1) and mean anomaly, Kepler's equation has a unique solution in the bracket used by the solver, so kepE is a well defined function with the derivatives its gradient states.", "quantifier": "all e in [0,1), all M", "why_tests_cant": "Real-valued domain.", "anchors": ["src/math/kepE.cpp", "src/detail/llvm_helpers_celmec.cpp"]}
{"id": "C49", "title": "Evaluation strategy of powers", "statement": "A power with a numerical exponent is evaluated by a strategy chosen from the exponent (repeated multiplication for small integers, square root and multiplications for small half-integers, reciprocals for negative exponents, the library function otherwise). Whatever the strategy, the result is the power, and it is undefined exactly where the power is undefined.", "quantifier": "all numerical exponents, all real bases", "why_tests_cant": "Unbounded set of bases and exponents, several code paths.", "anchors": ["src/math/pow.cpp: get_pow_eval_algo, pow_ebs, ex_is_integral, ex_is_odd_integral_half"]}
{"id": "C50", "title": "Variational equations describe the derivatives of the solution", "statement": "var_ode_sys adds to an ODE system one equation for every partial derivative, up to the requested order, of every state variable with respect to the selected arguments (initial values, parameters, initial time), and leaves the original equations unchanged. For every smooth family of solutions of the original system, the derivatives of the solution satisfy the added equations, and the automatic initial conditions of a variational integrator are the values of these derivatives at the initial time. The variables of the result are different from each other and the result is again a valid ODE system. Invalid orders, names and arguments are rejected.", "quantifier": "all ODE systems of library functions, all selections of arguments, all orders, all smooth families of solutions", "why_tests_cant": "Tests compare a few systems and orders with finite differences; the equations must be right for every system, every multiindex and every solution.", "anchors": ["src/var_ode_sys.cpp: var_ode_sys, transform_dfun_sargs, validate_var_args", "src/math/dfun.cpp: dfun_impl::gradient, make_dfun_name", "src/detail/setup_variational_ics.cpp", "src/expression_diff.cpp: diff_tensors"]}
{"id": "C51", "title": "Models of single bodies: equations of motion and first integrals", "statement": "The solutions of the systems built by model::pendulum, model::fixed_centres, model::rotating, model::mascon and model::cr3bp are exactly the motions which obey the intended law: the pendulum equation, Newtonian gravity of the given masses, centrifugal and Coriolis accelerations of the given angular velocity, the sum of the last two, and the gravity of two primaries in their rotating frame. The corresponding energies and the Jacobi constant are constant along every solution. Inconsistent arguments are rejected.", "quantifier": "all numbers of centres, all masses, positions and parameters (numbers, runtime parameters or expressions of the time), all solutions without collisions", "why_tests_cant": "Tests check the conservation of the energy on a few orbits with a tolerance; a wrong term can be compensated by a wrong energy, and the equations must be right for every configuration.", "anchors": ["src/model/pendulum.cpp", "src/model/fixed_centres.cpp", "src/model/rotating.cpp", "src/model/mascon.cpp", "src/model/cr3bp.cpp"]}
{"id": "C52", "title": "N-body problem: Newton's law for every pair of bodies", "statement": "The solutions of the system built by model::nbody are exactly the motions of N bodies in which every body is attracted by all the massive bodies according to Newton's law, whatever the types of the masses and of the gravitational constant (which select differently grouped formulas). model::np1body gives the equations of the same motion in coordinates relative to the first body. model::nbody_energy and model::np1body_energy (in the barycentric frame) are constant along the solutions. Less than two bodies, or more masses than bodies, are rejected.", "quantifier": "all numbers of bodies, massive and massless, all masses and gravitational constants, all solutions without collisions", "why_tests_cant": "Tests integrate a few systems; each pair must contribute exactly once to each of its two bodies for every N, and the grouping depends on the kind of expression of each mass.", "anchors": ["src/model/nbody.cpp: nbody_impl, nbody_potential_impl, nbody_energy_impl, np1body_impl, np1body_potential_impl, np1body_energy_impl"]}
{"id": "C53", "title": "Feed-forward neural networks: value of every output", "statement": "model::ffnn() returns one expression for each output neuron, whose value is that of the network: each neuron of a layer applies the activation function of its layer to the weighted sum of the previous layer plus its bias, with the weights (row by row, layer by layer) and then the biases taken from the flattened list of parameters, or from par[0], par[1], ... in the same order if no list is given. Inconsistent arguments (empty layers, missing or empty activation functions, a wrong number of parameters, sizes that do not fit 32 bits) are rejected with an exception.", "quantifier": "all numbers and sizes of layers, all inputs, activation functions, weights and biases", "why_tests_cant": "Tests fix a few small architectures; an error of an offset in the flattened parameters shows only for some shapes, and the 32-bit counters overflow only for networks too large to be built.", "anchors": ["src/model/ffnn.cpp: compute_layer, ffnn_impl", "include/heyoka/model/ffnn.hpp: ffnn_common_opts"]}
{"id": "C54", "title": "Transformations to and from the RSW frame", "statement": "model::state_to_rsw() and model::state_to_rsw_inertial() give the coordinates of a state relative to a reference state along the radial, along-track and cross-track axes, which are orthonormal and right-handed; state_from_rsw() and state_from_rsw_inertial() invert them exactly. The rotating version gives as velocity the time derivative of the coordinates when the reference moves under a central acceleration.", "quantifier": "all states and all reference states with linearly independent position and velocity; all motions of the reference with acceleration parallel to its position", "why_tests_cant": "Tests compare a few states with reference values; exact inversion and the meaning of the velocity are statements about all states and all motions.", "anchors": ["src/model/frame_transformations_rsw.cpp"]}
{"id": "C55", "title": "Lagrangian propagation is the Keplerian motion", "statement": "The expressions returned by model::lagrange_prop(), as functions of the elapsed time, are a solution of the two-body problem with the given initial position and velocity, and the only one.", "quantifier": "all initial states with negative energy and non-zero angular momentum, all positive gravitational parameters, all times", "why_tests_cant": "Tests compare the result with a numerical integration for a few orbits and times within a tolerance.", "anchors": ["src/model/lagrange_prop.cpp"]}
{"id": "C56", "title": "Geodetic coordinates", "statement": "model::geo2cart() gives the Cartesian coordinates of the point which lies at the given height along the outward normal of the ellipsoid whose latitude and longitude are the given ones. model::cart2geo() gives back the longitude exactly, and the latitude and the height with errors which tend to zero with the number of iterations; the error of the latitude after n iterations is at most q^n e/(1-e), with e the squared eccentricity and q = e/(1-2e). Eccentricities, radii and numbers of iterations without a meaning are rejected.", "quantifier": "all ellipsoids (for the convergence: squared eccentricity below 1/3), all points on or above the ellipsoid and off the polar axis, all numbers of iterations", "why_tests_cant": "Tests check a few points near the Earth; the error bound must hold at all latitudes and heights, in particular near the poles where the tangent of the latitude is unbounded.", "anchors": ["src/model/cart2geo.cpp: cart2geo_impl, geo2cart_impl, common_cart2geo_checks"]}
{"id": "C57", "title": "Batch mode is scalar integration, lane by lane", "statement": "A step of a batch integrator does to each batch element what a step of a scalar integrator does. When propagate_until()/propagate_for() of a batch integrator return, every element has the time, state, step count, step statistics and continuous output which propagate_until() of a scalar integrator with a suitable limit on the number of steps would have produced from the same initial condition, and the outcomes are determined by those of the scalar integrators: all elements reached their final times, the callback stopped, the step limit was reached, or an element hit a stopping terminal event or a non-finite state. The loop ends when all the scalar loops would have ended, never violates an assertion, and invalid arguments are rejected.", "quantifier": "all batch sizes, initial times, final times (forward and backward in the same batch), step limits, maximal timesteps, events acting on their own batch element, observing callbacks, numbers of iterations", "why_tests_cant": "Tests compare a few batches with scalar runs; elements which finish at different iterations, in different directions, with events in some of them, form unboundedly many schedules.", "anchors": ["src/taylor_adaptive_batch.cpp: step_impl, step, propagate_until_impl, propagate_for_impl"]}
{"id": "C58", "title": "Batch propagate_grid() samples every element like scalar propagate_grid()", "statement": "When propagate_grid() of a batch integrator returns, every element has the outcome determined by, and the time, state, step count and step statistics of, propagate_grid() of a scalar integrator on that element's column of the grid with a suitable limit on the number of steps, and the samples returned for the element are those of the scalar run, in the order of the grid, computed from the same steps. Invalid grids (empty, of the wrong size, not finite, not monotonic, not starting at the current time) are rejected before anything changes. There is no undefined behaviour, and the loop ends within max_steps iterations.", "quantifier": "all batch sizes, grids of any length in both directions, step limits, maximal timesteps, events acting on their own batch element, observing callbacks", "why_tests_cant": "The grids of the elements are independent of each other and of the steps, so each iteration can produce any number of samples for any subset of the elements, and elements finish at different iterations; tests exercise a handful of such schedules.", "anchors": ["src/taylor_adaptive_batch.cpp: propagate_grid_impl"]}
{"id": "C59", "title": "EOP and space weather files are read field by field, or rejected", "statement": "Parsing of the files behind the EOP and space weather datasets (IERS rapid, IERS long term, CelesTrak EOP, CelesTrak space weather) either returns exactly the values in the documented columns or fields, one row for each line up to the end of the data (Bulletin B preferred to Bulletin A, missing values end the data), or throws; it never reads beyond the end of a line. Re-anchoring of the CelesTrak space weather data succeeds exactly for gap-free daily tables of at least three rows; the resulting table has the rows of all days but the first, with values at midnight on the segments between the original samples at the times of the day of their measurement, and passes the validation of the dataset if the original values are finite and non-negative.", "quantifier": "all texts, well-formed or not; all readings of numbers and calendars; all tables", "why_tests_cant": "The parsers take files downloaded from the internet, so the text is arbitrary; tests parse a few excerpts and a few broken lines, and cannot show that no text leads to an out-of-bounds read or to a wrong value without an exception.", "anchors": ["src/eop_data_iers_rapid.cpp: parse_eop_data_iers_rapid", "src/eop_data_iers_long_term.cpp: parse_eop_data_iers_long_term", "src/eop_data_celestrak.cpp: parse_eop_data_celestrak", "src/sw_data_celestrak.cpp: parse_sw_data_celestrak, reanchor_sw_data_celestrak"]}
{"id": "C60", "title": "Spherical harmonics gravity: the potential is the normalised expansion and the acceleration is its gradient", "statement": "sh_gravity_pot() and sh_gravity_acc() accept exactly the lists of coefficients whose size is (N+1)(N+2)/2 for some degree N (and small enough for 32-bit indices) with a maximum degree at most N and a maximum order at most the degree (an order alone is refused); otherwise they throw. The potential then evaluates, at every position but the origin, to the expansion with fully normalised associated Legendre functions, with the coefficients of degree i and order j at position i(i+1)/2+j of the list. The acceleration consists of the partial derivatives of the potential, so that motion under it conserves energy. The same holds for EGM2008 up to degree 150 with the coefficients of its table.", "quantifier": "all degrees and orders, all coefficients (numbers or expressions), all positions but the origin, all gravitational parameters and reference radii, all optional arguments", "why_tests_cant": "The recursion builds expressions whose number grows with the degree; tests compare a few degrees at a few points with reference values up to a tolerance, and cannot show that the factors are right for every degree and order or that acceleration and potential agree everywhere.", "anchors": ["src/model/sh_gravity.cpp: sh_gravity_cs_getter_from_list, sh_gravity_resolve_n_m, sh_gravity_pot_impl, sh_gravity_acc_impl", "include/heyoka/model/sh_gravity.hpp: sh_gravity_pot, sh_gravity_acc", "src/model/egm2008.cpp: egm2008_pot_impl, egm2008_acc_impl"]}
{"id": "C61", "title": "Reference frame transformations are rotations with the stated axes, and the two directions undo each other", "statement": "rot_itrs_teme() and rot_teme_itrs() preserve lengths and are exact inverses of each other, in both orders, at every time and for all EOP data. rot_itrs_icrs() applies the IERS composition precession-nutation(X, Y) * R3(s) * R3(-ERA) * R3(-s') * R2(xp) * R1(yp) with the corrected coordinates of the celestial pole, and rot_icrs_itrs() applies the transposed matrix. Because the matrix of precession and nutation uses a truncated series, the celestial pair is not an exact pair of inverses: the round trip returns the vector up to a relative error of (X^2+Y^2)^3/8 + (X^2+Y^2)^4/64, and lengths are kept up to that factor. The transformations between FK5 and ICRS undo each other up to the rounding of the constants of their matrix.", "quantifier": "all vectors (given by any expressions), all values of time, of the EOP data and of the coordinates of the pole", "why_tests_cant": "Tests compare a few vectors at a few dates with reference values up to a tolerance; they cannot show that a sign or an axis is right for every angle, nor bound the error of a round trip for all poles.", "anchors": ["src/model/frame_transformations.cpp: rot_itrs_icrs_impl, rot_icrs_itrs_impl, rot_itrs_teme_impl, rot_teme_itrs_impl, rot_fk5j2000_icrs, rot_icrs_fk5j2000"]}
{"id": "C62", "title": "The analytical theories evaluate the truncated series of their tables", "statement": "iau2006() returns X, Y, s such that each coordinate is its polynomial plus the sum over the powers of time of its trigonometric series, with s = (third series) - XY/2; vsop2013_elliptic() returns the sum over the powers of time of its series; elp2000_spherical() returns distance, latitude and longitude: the series of the main problem (with the corrected amplitudes) plus all the series of perturbations times their powers of time, with the mean longitude added to the longitude. In each case a row of the tables contributes exactly when it passes the threshold, and dropping rows changes a series (in ELP2000, a series of perturbations in longitude or latitude) by no more than the number of dropped rows times the threshold. The complex products and powers through which the code computes sines and cosines (binary powers, tree of products, cache of the powers seen) never change the value. Non-finite or negative thresholds, and planets or variables out of range, are rejected. delta_tdb_tt() is the stated sum of sines.", "quantifier": "all tables of coefficients and of indices which fit 8 bits, all time expressions, all thresholds, all values of time", "why_tests_cant": "Tests compare a few dates and thresholds with reference values up to a tolerance; a wrong power of a cached complex exponential or a wrong threshold in a small term hides below the tolerance, and the result must hold for every time and every threshold.", "anchors": ["src/model/iau2006.cpp: iau2006_impl", "src/model/vsop2013.cpp: vsop2013_elliptic_impl", "src/model/elp2000.cpp: elp2000_spherical_impl", "src/detail/analytical_theories_helpers.cpp: horner_eval, ex_cinv, pairwise_cmul, ccpow", "src/model/time_conversions.cpp: delta_tdb_tt"]}
{"id": "C63", "title": "Cartesian planetary and lunar states are the states on the orbit with the computed elements, in rotated frames", "statement": "vsop2013_cartesian() returns the position and velocity on the ellipse whose elements vsop2013_elliptic() returns: with the eccentric anomaly solving Kepler's equation, the position is rotation(node, inclination, pericentre) applied to (a(cos E - e), a sqrt(1-e^2) sin E, 0), and the pair is the state of a motion under the gravitational attraction of the Sun and the planet. vsop2013_cartesian_icrf() applies a rotation to both and so preserves lengths and the motion. elp2000_cartesian() returns the point with the spherical coordinates of elp2000_spherical(); elp2000_cartesian_e2000() applies the rotation about the node of the ecliptic of date and preserves the distance, within ten thousand years of J2000; elp2000_cartesian_fk5() applies a constant matrix which keeps the squared distance up to a relative error of 3e-12 (it is not exactly a rotation). Invalid planets and thresholds are rejected.", "quantifier": "all tables of coefficients, all planets, all thresholds, all times at which the elements are those of an ellipse (0 < a, e < 1, inclination below 180 degrees)", "why_tests_cant": "Tests compare the states at a few dates with reference values up to a tolerance; they cannot show that position and velocity belong to the same orbit for all elements, nor that the frames differ by a rotation for all vectors and dates.", "anchors": ["src/model/vsop2013.cpp: vsop2013_cartesian_impl, vsop2013_cartesian_icrf_impl", "src/model/elp2000.cpp: elp2000_cartesian_impl, elp2000_cartesian_e2000_impl, elp2000_cartesian_fk5_impl"]}
{"id": "C64", "title": "The equations of eo_dynamics() are those of a satellite under the geopotential, the drag of a co-rotating atmosphere and the tides of the Sun and the Moon", "statement": "The system returned by model::eo_dynamics() is the motion of a satellite whose acceleration is the sum of: (1) that of a point mass if degree and order are zero, otherwise the exact gradient, in the celestial frame, of the EGM2008 geopotential at the coordinates the satellite has in the terrestrial frame at that time; (2) if a ballistic coefficient is given, -1/2 rho |u-w| Cb (u-w), where w is the velocity of the point at rest in the terrestrial frame at the position of the satellite (the time derivative of the transformation), and the density rho is taken at the geodetic longitude, at a latitude with a stated error bound, at the height belonging to the latitude of the last iteration but one, with F10.7 of the day before; (3) if both thresholds are given, for the Sun and the Moon the acceleration of the satellite minus that of the Earth, the Moon being at its ELP2000 position and the Sun such that the barycentre of Earth and Moon is at its VSOP2013 position. One third-body threshold without the other, invalid thresholds, and degrees and orders out of range are refused.", "quantifier": "all states and times covered by the data, all degrees and orders up to 150, all thresholds, all ballistic coefficients (expressions), all tables and all functions for Earth orientation, space weather and density", "why_tests_cant": "Tests integrate a few orbits or compare right hand sides at a few states; a wrong sign, frame, unit, day or a missing term of the indirect acceleration at other states, and the identity of the force with the gradient of the potential in the rotating frame, have to hold for all states and times.", "anchors": ["src/model/eo_dynamics.cpp: eo_dynamics_impl, eo_dynamics_make_drag_acc, eo_dynamics_make_3rd_body_acc", "include/heyoka/model/eo_dynamics.hpp: eo_dynamics", "src/model/frame_transformations.cpp: rot_icrs_itrs_impl, rot_itrs_icrs_impl"]}
{"id": "C65", "title": "The constructors of the integrators accept exactly the consistent arguments, and the integrator holds what was passed", "statement": "The construction of a taylor_adaptive or taylor_adaptive_batch object succeeds iff the system and the event functions are well-formed, the size of the state is the batch size times the number of equations (or, for a variational system, times the number of original equations; or the state is empty), there is one time per lane, the tolerance is missing, zero or finite and positive, the number of parameter values is zero or the batch size times the number of parameters in the equations and in the event functions, parallel mode comes with compact mode, and no size overflows; otherwise an exception is thrown, never undefined behaviour. The new integrator holds the state, times, parameters and tolerance passed, with zeros (and the machine epsilon) for what is missing; the order is the smallest one, not below 2, with exp(-2(order-1)) <= tolerance; every parameter occurring in the equations or in an event function is inside the array of parameter values, in all lanes; the state of a variational integrator is completed with the right initial conditions for these parameters and times. The scalar integrator is constructed like a batch integrator with one lane.", "quantifier": "all systems, variational systems, events, states, times, tolerances (special values included), parameters, batch sizes and flags", "why_tests_cant": "The checks interact (sizes, defaults, batch size, variational completion, parameters which occur only in an event): tests try a few invalid combinations, while an accepted inconsistent combination is an out-of-bounds access in compiled code.", "anchors": ["src/taylor_adaptive.cpp: taylor_adaptive::finalise_ctor_impl", "src/taylor_adaptive_batch.cpp: taylor_adaptive_batch::finalise_ctor_impl", "include/heyoka/taylor.hpp: taylor_adaptive_common_ops, finalise_ctor", "include/heyoka/detail/taylor_common.hpp: taylor_order_from_tol, tot_n_pars_in_ode_sys"]}
{"id": "C66", "title": "dayfrac() is the time elapsed since the beginning of the UTC calendar year", "statement": "For an instant tt (days of TT since J2000) in the UTC calendar year y, dayfrac(tt) is tt minus the TT instant of 1 January y, 00:00 UTC, with the leap seconds taken into account; its derivative inside a year is one, as its declared gradient says, its Taylor derivatives of all orders are those which the Taylor integrator computes, and it is never negative. The calendar routines below it follow the rules of the Gregorian calendar for every date in their range: conversion from a calendar date accepts exactly the existing dates and numbers them consecutively, conversion from a Julian date gives an existing date with a fraction of a day in [0, 1) adding up to the argument however it is split in two parts, and the two conversions are inverse.", "quantifier": "all instants from 1973 to the year 2000000 which are not within 1e-17 days of a change of year (dayfrac); all calendar dates, valid or not, and all Julian dates in either representation (calendar routines)", "why_tests_cant": "Calendar arithmetic fails on single days (century years, 29 February, the last day of a 400-year cycle, the day before a leap second, the seconds between the UTC and the TAI change of year); tests compare a few epochs.", "anchors": ["src/model/dayfrac.cpp: tt_to_dayfrac, dayfrac_impl::gradient", "src/detail/erfa/jd2cal.c: eraJd2cal", "src/detail/erfa/cal2jd.c: eraCal2jd", "src/detail/erfa/dat.c: eraDat", "src/detail/erfa/utctai.c: eraUtctai", "src/detail/erfa/taiutc.c: eraTaiutc", "src/detail/erfa/tttai.c: eraTttai", "src/detail/erfa/taitt.c: eraTaitt"]}
{"id": "C67", "title": "Events are constructed from valid arguments only, and the automatic cooldown is a nonnegative number which covers the uncertainty of the zero", "statement": "The construction of a terminal event succeeds iff the cooldown, if given, is finite and the direction, if given, is one of the three directions; of a non-terminal event iff the callback is not empty and the direction is one of the three directions; otherwise an exception is thrown. The new event holds what was passed, with a negative cooldown and any direction by default. When a terminal event triggers, its cooldown is the value passed if not negative, and otherwise ten times the error of the event function divided by its derivative at the zero (zero if the derivative is zero): always a nonnegative number. If the event function moves away from its zero with at least a tenth of the speed it had there, then a function within the error of it, such as its Taylor polynomial, has no zero further away than the automatic cooldown.", "quantifier": "all cooldowns (special floating-point values included), directions, callbacks, errors and derivatives; all event functions and approximations", "why_tests_cant": "The divisions by zero, zero divided by zero and infinite or not-a-number arguments are single values, and the absence of a second detection is about all event functions.", "anchors": ["src/t_event.cpp: t_event_impl::finalise_ctor", "src/nt_event.cpp: nt_event_impl::finalise_ctor", "include/heyoka/events.hpp: t_event_impl, nt_event_impl", "src/detail/event_detection.cpp: taylor_deduce_cooldown", "src/taylor_adaptive.cpp: taylor_adaptive::step_impl"]}
{"id": "C68", "title": "The thermospheric densities are positive sums of exponentials corrected by the networks, and decrease with the altitude", "statement": "nrlmsise00_tn() and jb08_tn() throw if there are not exactly three geodetic coordinates. Otherwise the value of the expression is the sum of four exponentials of the altitude, with the amplitudes, the rates and the reference altitudes of the global fit, corrected by the outputs of the neural network for the rescaled inputs (the corrections of the reference altitudes of nrlmsise00_tn() are five times larger). For all values of the inputs, also far from the range of the training, and for all weights the density is positive and strictly decreases with the altitude; it does not change after one turn of longitude.", "quantifier": "all expressions for the coordinates, the indices and the time; all values of them; all weights and biases", "why_tests_cant": "Tests compare the density with reference values at random points within the ranges of the training; positivity and monotonicity concern all inputs.", "anchors": ["src/model/nrlmsise00_tn.cpp: nrlmsise00_tn_impl, normalize_min_max, rho_approximation", "src/model/jb08_tn.cpp: jb08_tn_impl, normalize_min_max_jb08, rho_approximation_jb08", "include/heyoka/model/nrlmsise00_tn.hpp", "include/heyoka/model/jb08_tn.hpp"]}
{"id": "C69", "title": "Double-length products, quotients, floors and remainders are accurate to twice the precision", "statement": "The reduction of angles in the Kepler solvers and the interpolation of EOP data compute with pairs of floating-point numbers. For every format of at least 5 bits with rounding to nearest: the error of a product of two floating-point numbers is obtained exactly; the floor of a normalised pair is the exact floor, for scalars and vectors alike; a product has a relative error of at most 9 u^2 and a quotient of at most 18 u^2 (plus the smallest positive number), where u is the unit roundoff; a remainder differs from x - n y by at most 14 u^2 (|x| + |n y|) for an integer n which is the floor of x / y up to the error of the quotient. All the results are normalised. The reduction of an angle to one period always returns a number of the format between 0 and the largest number below the period, and it differs from the angle by a whole number of periods up to the rounding of the result and errors of the size above.", "quantifier": "all normalised pairs of numbers of all binary floating-point formats of at least 5 bits, without underflow of the exact products and of the quotient of the high parts, without overflow", "why_tests_cant": "Bounds of rounding errors concern all operands; random tests do not find the worst cases.", "anchors": ["src/detail/llvm_helpers_dl.cpp: llvm_eft_product, llvm_dl_mul, llvm_dl_div, llvm_dl_floor, llvm_dl_modulus", "src/detail/llvm_helpers_celmec.cpp: users of llvm_dl_modulus", "src/model/eop.cpp: interpolation", "src/detail/llvm_helpers_celmec.cpp: llvm_trig_arg_reduce, llvm_clamp"]}
