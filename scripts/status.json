{
 "C20": {
  "note": "The balance holds for every exact discrete gradient; C20_split_counterexample shows that the default option split=True can produce a gradient that is not exact.",
  "status": "proved"
 },
 "C27": {
  "note": "Holds without split (C27_theta, C27_trapez) and for theta=0; C27_split and C27_trapez_split give the point really used with split=True, C27_split_counterexample refutes the documented one.",
  "status": "proved"
 },
 "C28": {
  "note": "Values preserved (C28_values) and flat dictionaries resolved (C28_resolved); chains are not resolved (C28_chain_counterexample, C28_order_counterexample).",
  "status": "proved"
 },
 "C29": {
  "note": "Update, histories, construction and whole simulations for every program (C29_update, C29_history, C29_construct, C29_run) and for the programs of numerical methods (C29_method), as long as the Python update does not raise. Numbers are exact; Matrix::inverse is assumed right on invertible matrices.",
  "status": "proved"
 },
 "C30": {
  "note": "What the user expects is false: coefficients without arguments are never updated (C30_stale, C30_stale_example). The property states the exact condition: when none of them contains the sample rate the object behaves as a Numeric built with the new rate (C30_as_new, C30_rate).",
  "status": "proved"
 },
 "C31": {
  "note": "True without dictionary (C31_default) and when the keys of the method come first in the dictionary (C31_user), which is necessary for distinct values (C31_order); C31_wrong shows exchanged values and an index out of bounds, C31_text that two dictionaries give a text which is not C++.",
  "status": "proved"
 },
 "C32": {
  "note": "Holds for rectangular sequences with the announced number of rows and a positive number of rows; the counterexamples show what happens otherwise.",
  "status": "proved"
 },
 "C33": {
  "note": "Partition for distinct names (C33_partition), dump/read (C33_dump, C33_history, C33_component); counterexamples for repeated names and unchecked component indices.",
  "status": "proved"
 },
 "C34": {
  "note": "Prefix of the complete run for every interruption point; the window stop also limits the run (C34_stop). HDF5 buffering is not modelled.",
  "status": "proved"
 },
 "C35": {
  "note": "Holds for windows inside the file (stored signals, time) and, for expressions, when the step divides the length; counterexamples for the remaining cases.",
  "status": "proved"
 },
 "C36": {
  "note": "Holds for integer assignments in every history; counterexamples for float values and for init_data.",
  "status": "proved"
 },
 "C37": {
  "note": "Unknown keys are rejected by the constructors, accepted keys override exactly, the defaults other than the shared load options are never modified; counterexamples for the load options, a shared method and Simulation.init.",
  "status": "proved"
 },
 "C38": {
  "note": "An argument that shares symbols with another key of inits (v, vl, vnl, dx, w) gets the value of the last one; C38_init requires disjoint symbols.",
  "status": "proved"
 },
 "C41": {
  "note": "Each phase ends (C41_init_ends, C41_iteration_ends), the analysis ends when the controls are given, and otherwise it ends or reaches a state that repeats; C41_ring_never_ends shows that the code does not end on a ring of resistors.",
  "status": "proved"
 },
 "C44": {
  "note": "Everything but the ratios of the connectors is the same at each call (C44_structure), all is the same when no ratio is inverted (C44_repeat), and the result has period two otherwise (C44_period); C44_counterexample shows that two calls can differ.",
  "status": "proved"
 },
 "C45": {
  "note": "Linear formulas for any number of components (C45_parallel_linear, C45_serial_linear, C45_storage_linear), increasing nonlinear laws, networks (C45_network_*) and energies (C45_storage_*). The solver and the integrator are assumed to return a right inverse and a primitive. Cluster detection is not modelled. Merged realizable storages need equal initial states (C45_storage_real_counterexample).",
  "status": "proved"
 },
 "C51": {
  "note": "Losslessness for every ratio in all control configurations (C51_lossless) with the exact relations produced (C51_gyrator, C51_transformer); the counterexamples show that the sign or the value of the ratio differs from the documented one in one configuration of each.",
  "status": "proved"
 },
 "C55": {
  "note": "Fails as documented: only the last cycle is kept, so the length is that of one cycle (C55_counterexample, C55_documented_length). Content, length, duration and amplitude proved for what the code does.",
  "status": "proved"
 },
 "C56": {
  "note": "Round trip within one quantisation step for samples in [-1,1], with normalization, and exact second round trip. Out of range samples raise (C56_out_of_range). Header and resampling not modelled.",
  "status": "proved"
 },
 "C57": {
  "note": "Proved for every program that does not change the coefficient of a shared connector (refinement to plain values). Fails for connector coefficients (C57_shared, C57_counterexample) and for load with different names (C57_load_extra, C57_load_missing).",
  "status": "proved"
 },
 "C61": {
  "note": "Proved for Fracintec, Fracintfc and Fracderec. Fracderfc violates its documentation: C61_derfc gives the law it really has (poles multiplied by (g mu)^4), C61_derfc_counterexample a solution of the equations of a core that violates the documented one.",
  "status": "proved"
 },
 "C62": {
  "note": "Proved for all graphs without self-loops and without hanging loops (NoHang), all enumeration orders. Outside: sp_split never ends (C62_hanging_loop) or raises (C62_floating_loop); labels that contain _out_ are lost (C62_out_label).",
  "status": "proved"
 },
 "C63": {
  "note": "Constitutive laws may depend on parameters and on the variable of the edge, not on states or gradients (StaticLaws); serial/parallel merges and Core.substitute are not part of the chain.",
  "status": "proved"
 },
 "C64": {
  "note": "The code violates the property with its default split=True (C64_counterexample): a nonlinear storage on a current source is classified linear. Proved without condition on options for quadratic energies (C64_quadratic), for every smooth energy with split=False (C64_nosplit), and for every option under the exact condition on the groups of states (C64_groups). The implicit equations are supposed solved exactly.",
  "status": "proved"
 },
 "C65": {
  "note": "For systems without observers. SplitOK (the equations classified linear are affine) is a hypothesis, derived from Method for circuits in C66_split_exact. With a step of several samples the last value of dtE('deltaH') is divided by the step (C65_step_counterexample).",
  "status": "proved"
 },
 "C66": {
  "note": "Contract on sympy (JacSound): the free symbols of an entry of the Jacobian contain the symbols on which it depends. Regular components: distinct names, twice differentiable energy that does not contain the increments, differentiable laws that do not contain them. In C22_jacobian differentiability is asked at the point only, since the discrete gradient is a Piecewise.",
  "status": "proved"
 },
 "C67": {
  "note": "Monotone components: energy without cross derivatives between distinct states and with a nonnegative second derivative, dissipative laws that depend on no other unknown and have a nonnegative derivative. Without the condition on cross derivatives the code violates the claim (C67_coupled_fails: a LinAlgError at each update of a lossless strictly convex system whose steps have one solution). Real arithmetic, no rounding.",
  "status": "proved"
 },
 "C68": {
  "note": "Same rule: same sample rate and the same theta or trapezoidal rule, or any rules with the same weight for quadratic energies. Exact solution of the equations of each step is a hypothesis (SolvedRun).",
  "status": "proved"
 },
 "C69": {
  "note": "Linear circuit: quadratic energy and dissipative laws whose derivative is constant in the own variable. The relative stopping criterion makes the bound eps relative to the scale of the first residual as in the code. Real arithmetic, no rounding.",
  "status": "proved"
 },
 "C70": {
  "note": "The second derivative of the energy with respect to each state is a constant k; the norm is the sum of k times squared differences of the states at the end of the steps. The slack of a step is 2/fs*(2*tol*sum of the differences of the laws), zero for a zero tolerance. For weights below 1/2 nothing is claimed. Systems without observers.",
  "status": "proved"
 },
 "C71": {
  "note": "The names 'inv'+parameter must be new (FreshInv); otherwise the code overwrites the parameter of that name (C71_collision). An expression that sympy simplifies to a symbol or a general number makes the call raise TypeError outside matrices and dictionaries (C71_raises). Contract on sympy: simplify keeps values and adds no symbol (SimpAt, SimpFree), arguments of a simplified expression do not simplify to numbers (SimpDeep, for C71_none_left only).",
  "status": "proved"
 },
 "C72": {
  "note": "The code violates the expected property: the memorised signals are delayed twice (C72_half_speed), and nonlinear states with linear dissipations are misordered (C72_misordered). Proved: what the programs compute otherwise (C72_interleaved, C72_python, C72_linear, C72_circuit), their acceptance (C72_typed, C72_stereo), the process (C72_process) and the expressions (C72_invmat). Hypotheses: no observers and no parameters (for the comparison with Python), at least one state and one output, the Python solver makes all its iterations (eps < 0), has nothing to solve, or ends with a residual of zero. Trusted: the semantics of the Faust constructions in Faust/Model.lean.",
  "status": "proved"
 },
 "C73": {
  "note": "C73_loop: any object and any layout; C73_method, C73_run: numerical methods, from the construction; C73_circuit: circuits of monotone components. Where the two simulations differ: C73_stop (load window), C73_float (initial values in single precision). Exact arithmetic; the members of the struct are contiguous doubles; the updates in Python must succeed (always true in C73_circuit).",
  "status": "proved"
 },
 "C74": {
  "note": "C74_step: any method with a structure that creates no power and laws that are nondecreasing functions of their own unknown; C74_circuit: circuits (the names of the inputs are no unknowns of the step), in terms of the equations of the circuit; C74_run: all the steps of a simulation. With the discrete gradient the energy must be quadratic. Not claimed: that the iterations converge to this solution.",
  "status": "proved"
 },
 "C75": {
  "note": "C75_exact: against the exact solution of C74; C75_runs: two simulations with other tolerances, numbers of iterations, starting points. Hypotheses: quadratic energy, laws with slopes bounded by L, solver converged at each step (always true for linear circuits, C69). Exact arithmetic.",
  "status": "proved"
 },
 "C76": {
  "note": "C76_beam: the network in any assembled graph; C76_power, C76_passive, C76_mobility, C76_reciprocal: consequences of the modal equations; C76_names, C76_collision: the labels (they collide with 12 contacts and 11 modes). Hypotheses: coefficients and dampings not zero (the code divides by them), contacts are not inner nodes of the beam.",
  "status": "proved"
 },
 "C77": {
  "note": "C77_shape, C77_mode: the function is a normalised clamped-free mode; C77_window: the weight; C77_projection, C77_point, C77_felt: the coefficients; C77_orthogonal; C77_clamped_end: coefficient 0 at the clamped end. For k*w = pi the code computes 0/0. Where the window leaves the beam the formula integrates the analytic continuation of the mode.",
  "status": "proved"
 },
 "C78": {
  "note": "C78_roots, C78_modes: all the modes; C78_waves, C78_frequency, C78_length: the functions; C78_cantilever: from the parameters to the equations. Exact arithmetic; roots that are exactly points of the grid are excluded (the code would then count them twice).",
  "status": "proved"
 },
 "C79": {
  "note": "C79_block: one block, any positions of the sliders, any object with the four functions used; C79_memory, C79_prepare, C79_smooth: what is kept between blocks; C79_stream, C79_method, C79_run, C79_circuit: sequences of blocks, methods, with prepareToPlay, circuits; C79_ports: the indices. Violated: C79_stuck (all blocks), C79_jump (witness): with two or more parameters all but the last one restart at each block; C79_channels: 1 input with 2 outputs does not compile, 2 inputs with 1 output leave the scaled input in the second channel, stereo effects fail on a mono bus; C79_name: parameters whose name begins with inputGain or outputGain are never set.",
  "status": "proved"
 },
 "C80": {
  "note": "C80_values: values of the symbols that agree with core.subs; C80_resolved: after substitution, any values; C80_parameters: core.p and core.subs; C80_defaults: default values; C80_names: simple names satisfy the hypotheses. Violated for other names: C80_capture_counterexample (keys are replaced one after the other), C80_shared_name_counterexample (two tuples of one name), C80_fixed_parameter_counterexample (a parameter which is also a named value has no effect), C80_twice_counterexample (a shared parameter is twice in core.p), C80_label_counterexample (state 'x'+label equal to label_key of another component); C80_misspelt_counterexample: unknown keyword arguments are accepted and ignored.",
  "status": "proved"
 },
 "C81": {
  "note": "C81_step: equations of a step for all options; C81_outputs: solutions for given inputs and outputs; C81_exact, C81_quadratic, C81_nosplit: passivity. Disagreement: with split=True the structure is evaluated twice, so the laws are taken at the end of the step and not in the middle (C81_split_counterexample). Passivity holds nevertheless.",
  "status": "proved"
 },
 "C82": {
  "note": "C82_pickup: laws of the coil in any graph; C82_induction: the voltage is the derivative of the flux; C82_observers: values of observers in an update; C82_motion: position and velocity given by Observerec. The parameter H0 of the pickup is documented as the constant force of the magnet but it is removed and has no effect: the force is an input that the user must give. The reaction of an observer is EPS*q and not zero as its comment says.",
  "status": "proved"
 },
 "C83": {
  "note": "C83_update, C83_ignored, C83_run: updates and runs with constants; C83_file, C83_balance: the data file and its power balance (ps misses the power of the constants, a disagreement with C65); C83_cpp_update, C83_cpp_construct, C83_cpp_step, C83_cpp_build, C83_cpp_loop, C83_cpp_run: the generated C++ code.",
  "status": "proved"
 },
 "C84": {
  "note": "C84_build: graph and core of a netlist; C84_equations: the method solves the equations described by the lines, and its outputs; C84_simulation: existence and convergence of the simulation, and what each update does; C84_energy: energy balance. Lines on which the code does not do what is documented are excluded by Works and shown in C84_default_counterexample, C84_capacitor_counterexample, C84_mfv_counterexample. That the graph can be analysed (Compiled.analysed) is a hypothesis.",
  "status": "proved"
 },
 "C85": {
  "note": "C85_idle: analysable graphs are unchanged; C85_equations, C85_simulation, C85_energy: netlists with merged storages, in terms of the components of the netlist (lift gives the state of each component from that of the merged one). The removal of edges from a series connection (several effort-controlled storages or dissipatives in series) is not modelled: it gives Err.unmodelled, which contradicts the hypothesis Built.prepared, so the theorems say nothing of these graphs. C85_reference_counterexample, C85_name_counterexample: disagreements.",
  "status": "proved"
 }
}