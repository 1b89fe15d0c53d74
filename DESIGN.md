# Formal model of heyoka: design

The Lean 4 project in `lean/` contains a model of parts of heyoka (source in `/repo`) and proofs
of the properties listed in `properties.jsonl`. `MANIFEST.json` maps properties to theorems.

## Conventions

* A *model* file (`Verif/<Area>/Model.lean` or similar) contains total, computable (where
  possible) functions transcribing C++ functions. Each definition cites file and lines.
* A *specification* is a separate definition written from the English property, not from the code.
* Theorems proving a property live in `Verif/Props/*.lean`; helper lemmas live elsewhere.
* C++ exceptions are modelled as `Except`/`Option` results; undefined behaviour (out-of-bounds
  reads, reads of uninitialised entries) is a distinct outcome (`none`/poison), never a default value.
* Floating-point arithmetic is idealised: arithmetic is over a field (ordered when comparisons
  are needed), usually the real numbers. Where the code reacts to NaN/infinity, the model
  carries an explicit non-finite value or oracle. This is the biggest simplification: rounding
  errors are out of scope everywhere except where stated.
* Generated LLVM code is modelled by the function that the generated code computes, i.e. the
  loop nest emitted by the C++ code generator is transcribed as a functional loop.

## Plan per property

| Id | What is modelled | How it is proved |
|----|------------------|------------------|
| C01 | expression AST, smart constructors (`sum`, `prod`, operators) | structural/list induction, evaluation in the reals |
| C02 | gradients of the elementary functions, chain rule driver; repeated application | `HasDerivAt` by induction on the expression; derivatives of regular expressions are regular (`Expr/Reg*`), regularity is open, mixed derivatives commute (`Expr/Partials`) |
| C03 | `subs` (string map), `rename_variables` | induction on the expression |
| C04 | the explicit-stack traversal over a heap of nodes with identity caches | simulation invariant; result equals recursion |
| C05 | leaf collection queries | induction; frame property |
| C06 | `sum_to_sub`, `udf_split`, `sum_to_sum_sq`, `prod_to_div` | induction |
| C07 | numbers as tagged values, expression comparison | case analysis and induction |
| C08 | `expression_decompose_impl`, `function_decompose` | invariant on the list of definitions |
| C09 | CSE pass, Kahn sort | invariants, permutation + topological order |
| C10 | `function_segment_dc`, segment evaluation in arbitrary order | invariants; permutation independence |
| C11 | generated name table (first body wins), grouped evaluation | refinement; negation witness where the code violates it |
| C12 | index generator selection | list/arith induction |
| C13 | memory as a function of addresses, block/remainder loops, interleavings | frame + permutation argument |
| C14 | argument checks, address arithmetic | case analysis, arithmetic |
| C15 | `diff_decompose`, the adjoints and dependencies, forward and reverse accumulation, the loop over the orders and `diff_tensors` (`AD/*`) | invariants of the passes over arbitrary curves (chain rule per node from C02), induction over the orders; hypotheses: functions of the library, regular points of the original expressions, sizes below 2^32 (`Fits`) |
| C16 | sparse index comparison | proof of order isomorphism with dense lexicographic order |
| C17 | every `taylor_diff()` recurrence in `src/math` (`Verif/Taylor/Model.lean`) | Taylor coefficients of real functions of time (`iteratedDeriv`), Leibniz rule, chain rule; node by node |
| C18 | `Verif/Taylor/{Decompose,Jet}`: rewriting, renaming, decomposition, CSE, sort, final passes of `taylor_decompose_sys`, then the jet order by order | curves for all `u` variables are built along the passes (`TSysOk`); induction on order and position; uniqueness follows from the computation |
| C19 | `Taylor/CModel.lean` (recurrences of the compact mode), `Taylor/CJet.lean` (segments, mangled function names, generated argument tables, drivers, sequential and parallel calls, tape with 32-bit indices; reads of unwritten cells and races are `ub`) | both jets are a reference table `refG`: `jet_ref` (default), `cjet_ref` (compact), the latter by an invariant of the tape over segments and orders; the user-level hypothesis is `UserExpr` (`Taylor/UserShape.lean`) |
| C20 | Horner, compensated evaluation, tc layout | induction on the order |
| C21 | `taylor_determine_h` | order arithmetic over the reals |
| C22, C23 | `propagate_until_impl` loop with an arbitrary stepper/callback oracle | loop invariants by induction on iterations |
| C24 | `propagate_grid_impl` | loop invariants |
| C25 | event part of `step_impl` | list sorting lemmas |
| C26 | cooldown update and detection window | invariant over step sequences |
| C27, C28 | bisection with Descartes' rule, root finder as a specified oracle | worklist invariant; Descartes' rule; negations where violated |
| C29 | interval Horner and Bernstein (Cargo-Shisha) enclosures | induction, Bernstein basis |
| C30 | `upper_bound` loop and index adjustment | loop invariant |
| C31-C34 | two-tier cache as a transition system | invariants over operation lists; crash = reverting to an earlier committed state |
| C35, C36 | scalar and vector binary search, linear interpolation | loop invariant per lane |
| C37 | name mangling on strings | injectivity of encoding |
| C38 | `pairwise_reduce` | induction |
| C39 | callback set as state monad fold | induction |
| C40 | reduction formula on arrays | floor arithmetic |
| C41 | parallel loop over disjoint cells | permutation independence |
| C42 | validation function | iff by case analysis |
| C43 | index computation of ICs | arithmetic + tensor ordering (C16) |
| C44 | dfloat operations over an exact field / with rounding axioms as hypotheses | algebra |
| C45 | composite name building and evaluation | induction on trees, decoder |
| C46 | the recurrences of C17/C19 with a reader that is `ub` for everything not computed | every recurrence succeeds if the cells of `MayRead` are defined (`elem_both`), and depends on nothing else (`taylorDiff_congr`) |
| C47 | checks, linear system built from the tensors of `diff_tensors()`, elimination with structural pivots, back-substitution, canonical equations; phase space and Fréchet derivatives as specification | entries of the tensors have the values of the partial derivatives; invariants of the elimination (values, solutions, triangular columns); Euler–Lagrange ⇔ linear system by the chain rule |
| C48 | Kepler equation over the reals, Newton/bisection loop with batches (`Kepler/*`) | monotonicity, intermediate value theorem, loop invariant (bracket) |
| C49 | `get_pow_eval_algo`, exponentiation by squaring, half-integral exponents (`Compact/Real`) | induction on the exponent |
| C50 | the constructor of `var_ode_sys` on top of `diff_tensors()` (`VarSys/Ctor`); families of solutions and their partial derivatives (`dpart`) as specification | `dfun`s interpreted as the derivatives of the solution; derivatives of the substituted right-hand sides (C15) are time derivatives of `dpart` by symmetry of partial derivatives; the flow at the initial time is a projection or a constant |
| C51 | the constructors of dynamical systems and of their energies (`Models/Simple`), on top of the expression constructors; gravity, inertial accelerations and motions as specification (`Models/Spec`) | evaluation of the right-hand sides: solutions of the system = motions under the law; the derivative of the energy along a solution vanishes |
| C52 | `nbody.cpp` with its loops over pairs and accumulators (`Models/NBody`); Newton's law and pair energies as specification (`Models/NBodySpec`, `Models/NBodyEnergy`) | invariant of the double loop: each accumulator holds the terms of the pairs already considered; third law and symmetrisation of double sums for the energies |
| C53 | `ffnn_common_opts()` and `ffnn_impl()` with checked 32-bit counters (`Models/Ffnn`); the recursive value of a neuron (`neuron`) as specification | induction over the layers, with the offsets of the weights and biases as invariants |
| C54 | the matrices and transformations of `frame_transformations_rsw.cpp` (`Models/Rsw`); axes, coordinates and rate of rotation defined with vector products as specification | evaluation of the expressions; orthonormality of the axes; derivative of the coordinates along a motion of the reference |
| C55 | `lagrange_prop.cpp` (`Models/Lagrange`), on top of `kepDE` (C48); Newton's equations (`KeplerMotion`) as specification | implicit differentiation of Kepler's equation; uniqueness from the local Lipschitz condition of the force |
| C56 | `cart2geo.cpp` (`Models/Geo`); points on the normals of an ellipsoid (`Geodetic`) as specification | the iteration is a contraction for the tangent of the latitude; a relative error of the tangent bounds the error of the latitude uniformly up to the poles |
| C57 | `taylor_adaptive_batch.cpp` (`Integ/Batch`): `step_impl`, `propagate_until_impl`, `propagate_for_impl`; the scalar model of C22 is the specification | refinement: each lane is either on its way, in lockstep with the scalar loop, or has finished with the scalar result and takes zero-length steps; induction on the iterations |
| C58 | `taylor_adaptive_batch.cpp` (`Integ/BatchGrid`): `propagate_grid_impl`; the scalar model of C24's `propagate_grid` is the specification | the inner sampling loop equals the scalar one in each lane (induction); then the same refinement as C57 with the samples and the remaining grid points of each lane in the invariant |
| C59 | `eop_data_iers_rapid.cpp`, `eop_data_iers_long_term.cpp`, `eop_data_celestrak.cpp`, `sw_data_celestrak.cpp` (`EopSw/Parse`): the four parsers and the re-anchoring, on texts as lists of characters; `from_chars` for `double` and `eraCal2jd` are parameters; columns out of bounds are undefined behaviour | texts are the joins of their lines and fields (split and join are inverse to each other); the loops return a table exactly if the lines are related to the rows by a specification with the fields and columns of the formats; re-anchoring by induction on the loop in place |
| C60 | `model/sh_gravity.cpp`, `model/sh_gravity.hpp`, `model/egm2008.cpp` (`Sh/Model`): integer square root, getter of the coefficients, resolution of degree and order, map of the recursion (an absent key is an exception, a key which is already there a failed assertion), potential and acceleration as expressions; the square roots of the numerical factors are exact; the table of EGM2008 is a parameter of 11473 rows (counted in `src/detail/egm2008.cpp`); the debug checks at the end of the recursion and the conversion of the keyword arguments are not modelled | Legendre functions are defined with the formula of Rodrigues; their recursions and the derivatives of the solid harmonics along curves are proved from it; the factors of the code are ratios of factors of normalisation; invariant of the map: the keys are the columns done so far and the values are the normalised solid harmonics |
| C61 | `model/frame_transformations.cpp` (`Models/Frames`): all the matrices and the composition of the rotations; the values of the EOP data, of the Earth rotation angle and of the theory of precession and nutation are arbitrary expressions (the EOP tables are covered by C35, C36 and C59); trigonometric functions and constants are exact | the values of the expressions are products of rotations about the axes; the Gram matrix of the matrix of precession and nutation is computed in closed form, which gives the bounds and the negation (finding T) |
| C62 | `model/iau2006.cpp`, `model/vsop2013.cpp` (elliptic variables), `model/elp2000.cpp` (spherical coordinates), `detail/analytical_theories_helpers.cpp`, `delta_tdb_tt()` of `model/time_conversions.cpp` (`Theory/Model`): complex products, the cache of powers (an absent key is a failed assertion), trees of products, thresholds, blocks of tables with their arguments and powers of time; the tables themselves are parameters (rows of any number, indices of 8 bits); arithmetic is exact; the debug assertion about duplicate arguments is not modelled | invariant of the cache: the value at the key (argument, n) is exp(i n argument); induction over the rows; the truncation bounds follow from the amplitude of the dropped terms |
| C63 | the Cartesian states of `model/vsop2013.cpp` and `model/elp2000.cpp` (`Theory/Cart`): change from equinoctial elements, table of gravitational parameters (an access out of its bounds is undefined behaviour), rotations between the frames; arithmetic is exact and the meaning of `kepF()` is the exact solution of its equation (C48) | evaluation of the expressions; derivatives along the orbit from those of the solution of Kepler's equation; identities between the equinoctial and the classical form; Gram matrices (finding U) |
| C64 | `model/eo_dynamics.cpp` and the public rotations of `model/frame_transformations.cpp` (`Models/EoDyn`), with the models of C51, C56, C60-C63 for the parts; the EOP and space weather functions, `dayfrac()` and `nrlmsise00_tn()` are parameters; the Jacobian of the drag is that of `diff()` (C02); arithmetic is exact | evaluation of the expressions; the velocity of the atmosphere from `diff_correct` and the substitution of variables; the gradient from the derivative of the potential along a coordinate line and the transposed matrix; algebra for the positions of Sun and Moon (finding V) |
| C65 | the constructors of `taylor_adaptive.cpp` and `taylor_adaptive_batch.cpp` with the parsing of their arguments (`Integ/Ctor`), on top of `validateOdeSys` (C42), `getParamSize` (C05), `icsVarpar` and `icsT0` (C43); code generation and compilation are a parameter | case analysis in the order of the code; the order as the least element of a set, from the ceiling; parameters of negated right-hand sides; composition with C43 |
| C66 | `model/dayfrac.cpp` and the ERFA routines `eraJd2cal`, `eraCal2jd`, `eraDat`, `eraUtctai`, `eraTaiutc`, `eraTttai`, `eraTaitt` (`Calendar/Model`) with their tables, in exact arithmetic; the rules of the Gregorian calendar and the list of leap seconds as specification (`Calendar/Spec`) | closed forms of the day numbers; integer arithmetic for the inverse; the difference of TAI and UTC grows by at most a second per day, so that the iterations contract |
| C67 | the constructors of `t_event.cpp` and `nt_event.cpp` and `taylor_deduce_cooldown()` (`Events/Ctor`), on real numbers with special values | case analysis; the bound on the zeros of an approximation from the triangle inequality |
| C68 | `model/nrlmsise00_tn.cpp` and `model/jb08_tn.cpp` with the wrappers in the headers (`Models/Thermo`), on the model of `ffnn()` (C53); weights, biases and rounded constants are parameters, the tables of the fits are exact decimals | values of the expressions by composition with `ffnn_value`; signs from `tanh > -1` and the signs of the fits |
| C69 | multiplication, division, floor and remainder of `detail/llvm_helpers_dl.cpp` (`DFloat/Mul`) and the reduction of angles of `detail/llvm_helpers_celmec.cpp` (`DFloat/Reduce`), on the floating-point formats of C44 | the error of a product is a multiple of the product of the last places; floors by monotonicity of rounding; error bounds by adding up the relative errors of the single operations |

Anything not reached is listed as such in `MANIFEST.json`.

## How the model is organised

| Directory | Code modelled |
|-----------|---------------|
| `Util` | outcomes of computations (`Res`: ok / exception / undefined behaviour), extended numbers with NaN and infinities (`XF`), interleavings of tasks (`Tasks`), pairwise reduction |
| `Expr` | numbers, expressions, smart constructors, heaps of shared function objects, the traversal machines with caches, queries, substitution, comparison and hashing, derivatives, rewriting passes |
| `Decomp` | decomposition of functions: stack machine, CSE, Kahn sort, sincos combination, names of the `u` variables |
| `CFunc`, `Compact` | compiled functions: memory, default mode, compact mode with segments, mangled names, generated functions and argument generators; the class `cfunc` |
| `Taylor` | Taylor recurrences in both modes, decomposition of ODE systems, the jet in both modes |
| `Timestep`, `Dense`, `Search` | timestep selection, Horner and compensated evaluation, continuous output |
| `Integ` | `step_impl`, `propagate_until/for/grid` of the scalar integrator |
| `Events` | fast exclusion, Descartes bisection, root finding, cooldowns |
| `AD`, `Dtens` | automatic differentiation, tensors of derivatives |
| `Mech`, `VarSys`, `OdeSys` | equations of motion, variational systems, validation |
| `Cache` | in-memory and on-disk compilation caches |
| `EopSw`, `Kepler`, `DFloat`, `Callback`, `Ensemble` | tables, Kepler's equation, double-length numbers, step callbacks, ensembles |

Specifications are kept apart from the model: evaluation of expressions in an interpretation of the function symbols
(`Expr.eval`; over the reals `Expr/Real.lean`, written from the mathematical meaning of the functions), Taylor coefficients as
`iteratedDeriv` of real functions (`Taylor/Spec.lean`), points of differentiability (`Expr/DiffSpec.lean`), iterated partial
derivatives (`Expr/Partials.lean`), Fréchet derivatives on the phase space (`Mech/Euler.lean`), the Euler–Lagrange equations
(`Props/Mech.lean`), rounding to nearest even (`DFloat/Round.lean`), ideal caches, and so on.

## Trusted base

* Lean's kernel, and the axioms `propext`, `Classical.choice`, `Quot.sound` (no others, for every theorem of the manifest;
  `#print axioms` on any of them shows a subset of these three). No axiom is added, nothing is left unproved, and no
  theorem is evaluated by compiled code.
* The definitions of Mathlib used in statements (real numbers, derivatives, polynomials, lists, permutations).
* The faithfulness of the transcription of the C++ code into the model: each definition cites file and lines.
* For each theorem, the hypotheses in its statement. The ones that stand for parts outside the model are listed below.

### Idealisations that hold throughout

* Arithmetic on numbers is exact (an ordered field, usually the reals), with explicit NaN/infinite values where the code looks
  at them (`XF`, `FVal`). Rounding is modelled only in `DFloat`.
* All the floating-point types of heyoka are one type of numbers in the Taylor/compiled-function models; types are tracked in
  `number` (C01, C07).
* LLVM (optimiser, JIT, vectorisation, SLEEF), the memory allocator, oneTBB's scheduler and SQLite are not modelled. The code
  emitted for the LLVM IR builder is represented by the loop nest it describes; TBB's scheduler by an arbitrary interleaving
  of the steps of the tasks; SQLite by atomic, isolated transactions, with power loss going back to an earlier commit.
* Loops whose termination is not evident have a fuel argument; the theorems hold for every amount of fuel, and termination
  theorems give an amount that suffices.
* 32-bit index arithmetic is modelled in decompositions, argument generators, tapes and tensors; sizes and addresses
  (`size_t`) are natural numbers.

### Modelled and not modelled, file by file

* `number.cpp`, `variable.cpp`, `param.cpp`, `func.cpp`, `func_args.cpp`: values, comparison, hashing as an abstract function,
  gradients, argument replacement. Not modelled: streaming, serialisation, type erasure.
* `expression_basic.cpp`, `expression_ops.cpp`, `detail/ex_traversal.cpp`: constructors, traversals, queries, `subs`,
  `rename_variables`, comparison. Not modelled: printing, `get_n_nodes` with overflow beyond the queries listed in C05.
* `math/*.cpp`: constructors (folding), gradients, Taylor recurrences, compact-mode functions of every function. Not modelled:
  the numerical kernels behind the elementary functions (SLEEF, libm). `dfun` has names, gradient and an arbitrary smooth meaning (`DFunc`, `Expr/DFunReal`).
* `expression_decompose.cpp`, `expression_cfunc.cpp`, `cfunc_class.cpp`, `detail/cm_utils.cpp`,
  `detail/composite_function.cpp`, `detail/sincos_combine.cpp`, `detail/sub|div|sum_sq.cpp`: all passes, both modes of code
  generation, checks and addressing of `cfunc`. Not modelled: precision checks of `mppp::real`, serialisation.
* `expression_diff.cpp`, `dtens.cpp`: `diff`, `diff_tensors`, tensors. Not modelled: AD through user functions.
* `taylor_00.cpp`, `taylor_01.cpp`, `taylor_02.cpp`: timestep, Horner, compensated summation, decomposition, both jets. Not
  modelled: `taylor_add_jet` wrappers, the driver selection by order/size.
* `taylor_adaptive.cpp`: `step_impl`, `propagate_until_impl`, `propagate_grid_impl`, dense output update, the constructor (C65;
  compilation and `mppp::real` precisions not modelled). `taylor_adaptive_batch.cpp`: constructor, initial conditions, dense output,
  `step_impl`, `propagate_until_impl`, `propagate_for_impl`, `propagate_grid_impl`. Not modelled: serialisation.
* `detail/event_detection.cpp`, `detail/llvm_helpers_ed.cpp`, `t_event.cpp`, `nt_event.cpp`: detection, isolation, cooldowns.
  The root refinement (`toms748`) is a parameter; the automatic cooldown deduction is a parameter of the steps and modelled by itself (C67).
* `continuous_output.cpp`, `step_callback.cpp`, `callback/angle_reducer.cpp`, `ensemble_propagate.cpp`: modelled, without
  serialisation and cloning.
* `llvm_state.cpp`, `llvm_state_cache.cpp`: the caches and the way compilation uses them; the compilation itself is a parameter.
* `eop_data.cpp`, `sw_data.cpp`, `detail/eop_sw_helpers.cpp`, `model/eop.cpp`: validation of the tables, code names, search and
  interpolation. `eop_data_iers_rapid.cpp`, `eop_data_iers_long_term.cpp`, `eop_data_celestrak.cpp`,
  `sw_data_celestrak.cpp`: the parsers and the re-anchoring. Not modelled: the download of the files, polar motion and other models using them.
* `lagrangian.cpp`, `hamiltonian.cpp`, `detail/validate_ode_sys.cpp`, `detail/setup_variational_ics.cpp`,
  `var_ode_sys.cpp`: modelled, without serialisation.
* `detail/llvm_helpers_celmec.cpp` (Kepler solvers), `detail/llvm_helpers_algo.cpp` (search, pairwise reduction),
  `detail/dfloat.hpp`, `detail/llvm_helpers_dl.cpp` (double-length arithmetic and comparison): modelled.
* `model/*.cpp` other than `dayfrac.cpp`, `eop.cpp`, `pendulum.cpp`, `fixed_centres.cpp`, `rotating.cpp`, `mascon.cpp`, `cr3bp.cpp`, `nbody.cpp`, `ffnn.cpp`, `frame_transformations_rsw.cpp`, `lagrange_prop.cpp`, `cart2geo.cpp`, `sh_gravity.cpp`, `egm2008.cpp`, `eo_dynamics.cpp`, `frame_transformations.cpp`, `iau2006.cpp`, `vsop2013.cpp`, `elp2000.cpp`, `time_conversions.cpp`, `nrlmsise00_tn.cpp`, `jb08_tn.cpp`; `logging.cpp`, `detail/http_download.cpp`, `detail/vector_math.cpp`, `gp.hpp`: not modelled.

### Hypotheses standing for things outside the model

| Name | Meaning | Discharged by |
|------|---------|---------------|
| `Represents`, `share` | the shared graph handed to a machine represents the expressions; `share` is any choice of graphs | every heap of C++ objects is one; `exists_share` |
| `HexOk`, `UserNames`, `Fn.lib` | the slopes of rectifiers are printed injectively and without separators; names of constants contain no separator | formatting of `%a` is outside the model |
| `Smooth`, `Reg`, `SysReg` | the functions occurring in an expression are differentiable (analytic for `SysReg`) at the point | written out per function in `DiffPt`; `Reg` is preserved by differentiation (`diff_regular`) |
| `UserExpr`, `SysShape` | numbers of arguments are right, indices of parameters fit in 32 bits | the C++ constructors |
| `Fits`, size hypotheses | decompositions have at most 2^32 elements | counting theorems bound them by the number of functions |
| `StepOk` | a step advances by the returned timestep, within the limit | `step_contract` from `EnvOk` |
| `ZeroOk`, `ZeroEnv` | a zero-length step from a finite state leaves the state finite and unchanged | `zero_step`; necessary (finding O) |
| `LocalEvs`, `Observer` | event callbacks act on their own batch element, step callbacks on none | examples in `Props/BatchDef` |
| `EnvOk` | steppers respect the limit, detected events lie in the step, sorting sorts | C21, C27 theorems |
| `DetectRespectsCd` | the detection window starts after the cooldown | `Props/Events` |
| root finder | returns zeros within its bracket, if at all | boost's `toms748` is outside the model |
| `VSysOk`, `Complete` | the variational system has the shape documented | `var_ode_sys_shape`; `diff_tensors_complete` for tensors |
| `Family`, `Flow` | a smooth family of solutions of the ODE system, with the values at the initial time selected by the arguments | examples beside the theorems |
| `LagReg`, `DisReg`, `HamReg` | the Lagrangian/dissipation/Hamiltonian is regular and smooth as a function on the phase space | examples beside the theorems |

## Findings

Proved about the model, with concrete witnesses (G and H were seen while reading and have no theorem of their own):

* **A** (C11, `compact_mode_differs_after_subs`): `subs()` and `replace_args` keep the LLVM name chosen when a function was
  constructed. After `subs(pow(x, y), {y: 2})` and `{y: 3}` in one function, compact mode generates one function for both
  powers, so that compact and default mode return different values. The same holds for products after substitution of -1.
* **B, C, D** (C28, `zero_at_start_reported_twice`, `zero_at_start_reported_three_times`, `zero_lost_after_cooldown`): zeros of
  event functions falling on bisection points are reported several times or lost.
* **E** (C24, `grid_check_asymmetric`): repeated grid points are accepted or rejected depending on the direction.
* **F** (C02, `diff_of_constant_may_be_nan`): the derivative of a function of numbers only may be NaN instead of 0.
* **G** (C07): functions are compared by name and arguments only, whatever their other data.
* **H** (C48): `kepE(0, M)` folds to `M`, the compiled function returns `M` reduced modulo 2π.
* **I** (C06, `pow_to_explog_undefined`): replacing powers by exp/log makes them undefined for negative bases.
* **J** (C08, `input_named_like_u_variable`): inputs called `u_n` appear under another name in the decomposition.
* **K** (C17, `taylor_pow_at_zero_undefined`): recurrences of powers other than the square divide by the order-zero coefficient
  and give NaN at a zero base.
* **L** (C19, `compact_tape_index_is_signed`): tape indices between 2^31 and 2^32 pass the overflow check but are
  sign-extended by LLVM.
* **M** (C47, `vanishing_pivot`): `lagrangian()` only avoids pivots that are structurally zero; the equations of motion can be
  undefined where the mass matrix is regular.
* **N** (C50, `var_ode_sys_captures_dfun`): `var_ode_sys` represents the state variables by `dfun`s of the variational arguments
  while differentiating. A `dfun` written by the user with the name of a state variable and the same arguments is replaced by
  the state variable. (`contains_dfun()` exists but is not called.)
* **O** (C57, `batch_zero_step_fails`): in batch mode an element which has reached its final time keeps taking steps of length zero
  until the others have finished. If the right-hand side is not finite at the final time (e.g. `sin(t)/t` at 0), the element ends
  in `err_nf_state` and stops the batch, whereas a scalar integrator returns `time_limit` with a finite state.
* **P** (C57, `batch_time_limit_early`): when a batch is interrupted by an event of one element, another element whose last
  timestep was clamped by `max_delta_t` reports `time_limit` although it has not reached its final time.
* **Q** (C58, `batch_grid_assert_fails`): batch `propagate_grid()` asserts that all the outcomes are `time_limit` when the grid has
  been covered. With `max_steps` equal to the number of steps needed (or a callback stopping at the last step) they are
  `step_limit` (`cb_stop`), so that a debug build aborts.
* **R** (C58, `batch_grid_event_lost`): batch `propagate_grid()` overwrites the outcome of a stopping terminal event with `step_limit`
  if the event triggers in the last step allowed by `max_steps`; scalar `propagate_grid()` and batch `propagate_until()` report the event.
* **S** (C59, `sw_date_malformed`): the parser of the dates of space weather files checks that there are two dashes, but not where they are:
  `-202-01x05` is accepted as a day of the year -202. The consecutive dates required afterwards make wrong tables unlikely.
* **T** (C61, `icrs_itrs_not_inverse`): `rot_icrs_itrs()` transposes the matrix of `rot_itrs_icrs()`, which is not exactly a rotation (series of
  the factor `a` truncated after the second term), so that the two are not exact inverses. The relative error is below 2e-13 up to a century from
  J2000 and grows with the sixth power of the displacement of the pole.
* **U** (C63, `elpFk5M_not_orth`): the constant matrix of `elp2000_cartesian_fk5()` is not exactly a rotation: its digits are rounded and the
  correction of the first axis is of first order only, so the squared distance changes by a relative amount of up to 3e-12 (`elp_fk5_value`).
  `elp2000_cartesian_e2000()` contains the square root of 1 - P^2 - Q^2 for polynomials P and Q in the time; it is real for ten thousand years on
  both sides of J2000 (`laskar_small`) and not a number for times far enough from it.
* **V** (C64, `eo_dynamics_captures_tm`): `eo_dynamics()` builds the drag with a variable named `tm` for the time and replaces it by the time in the
  whole expression at the end, the ballistic coefficient of the user included. A coefficient which depends on a variable of the user with the name
  `tm` is silently evaluated at the time instead. The threshold of IAU2006 is floored at 0.01 for the drag, so that a negative threshold, which is
  refused for the geopotential, is accepted for the drag of a satellite of a point mass (`eo_dynamics_acc` with degree zero).
* **W** (C66, `dayfrac_out_of_range`): the errors of the ERFA routines in `tt_to_dayfrac()` are only logged; the execution goes on with zeros for the
  results. A billion days after J2000 (a finite argument) `dayfrac()` returns the time since the year -4713, longer than any year.
* **X** (C68, `jb_value`): `jb08_tn()` passes the averaged index of each pair first (`f107a`, `f107`, `s107a`, ...), while the parameters of
  `jb08_tn_impl()` are named with the daily index first. Hence the average is rescaled with the wider range written for the daily index (60 to 266
  for F10.7) and conversely. The unit tests call the implementation with the same order as the wrapper, so that either the names or the ranges of the
  implementation are wrong; the weights of the network, which could settle the question, are not interpreted here. `jbInputs` states the order in use.

Seen while reading, without a theorem of their own: relu folding of a `float` yields a `double`; a debug assertion in
`get_order` of tensors is wrong for several outputs; variational ICs with the time among the arguments and order > 1 are
rejected only at the end of the constructor; a debug assertion of the reverse mode fails for outputs depending only on
functions without arguments; EOP datasets with the same row count, timestamp and identifier but different contents share
generated code; `ncalls_arr` in parallel compact mode is declared with a pointer element type but holds 32-bit integers; a cooldown of 0 with a root at 0 triggers again immediately; `-0.0` and `0.0` are merged by CSE and by the generators of
constants; scalar dense output with equal times is treated as backward; batch `propagate_grid()` accepts decreasing grids with repeated points, in all
elements but the first even at the second point (`batch_grid_accepted_iff`).

## Testing the theorems

`seeded/LOG.jsonl` lists edits of the model (wrong boundary, missing case, swapped arguments, ...), each tried in a scratch copy,
with the theorems that failed. Edits that survived led to tighter statements; these are recorded in the field `tightened`.
