{"id": "C01", "title": "Index reordering is a true permutation", "statement": "myrange(N, i, j) returns every index of range(N) exactly once, with index i at position j (last position when j >= N), and every other index in its original relative order; so moving i to j and then j back to i restores the identity order.", "quantifier": "all N, all 0 <= i < N and all target positions j", "why_tests_cant": "a test samples a few (N,i,j); a duplicate or dropped index in one corner silently corrupts every structure matrix", "anchors": ["pyphs/misc/tools.py: myrange"]}
{"id": "C02", "title": "Moving a component does not change the system", "statement": "After move_storage, move_dissipative, move_port or move_connector, every pair of named variables keeps the same structure coefficient, each dissipation law stays attached to its variable, each output to its input, and the set of solutions b = M a, read by variable name, is unchanged. A history of moves of any length has the same property.", "quantifier": "all cores (any number of storages, dissipations, ports, connectors, any M), all in-range positions, all finite sequences of moves", "why_tests_cant": "needs all dimensions and all sequences of moves", "anchors": ["pyphs/core/structure/moves.py: move_stor, move_diss, move_port, move_connector, moveCoreMcolnrow, movesquarematrixcolnrow", "pyphs/core/core.py: Core.move_storage"]}
{"id": "C03", "title": "J and R decompose M", "statement": "For every core, J() is skew-symmetric, R() is symmetric, M = J - R, and this decomposition is unique. The power a.b of any vector a equals -a.R a; it is zero for every a exactly when M is skew-symmetric.", "quantifier": "all structure matrices, all flow/effort vectors", "why_tests_cant": "needs all matrices and all vectors", "anchors": ["pyphs/core/core.py: Core.J, Core.R, Core.M"]}
{"id": "C04", "title": "Block setters and getters obey the get/set laws", "statement": "After set_Mab(V) on a core whose M already has the right size, Mab() returns V and every disjoint block is unchanged. After set_Jxw (off-diagonal block), Jxw() returns V, Jwx() returns -V^T and R is unchanged; dually for set_R. On a diagonal block this holds when V is skew (resp. symmetric).", "quantifier": "all cores, all block names, all well-shaped values", "why_tests_cant": "needs all shapes, dimensions (including zero) and values", "anchors": ["pyphs/core/core.py: get_mat, set_mat, _struc_getset, Core.init_M", "pyphs/core/structure/dimensions.py", "pyphs/core/structure/indices.py"]}
{"id": "C05", "title": "Adding components keeps the structure already set", "statement": "add_storages, add_dissipations and add_ports append the new symbols at the end of their list, keep the previous symbols in order, and keep H as the sum of all added energies; what happens to M when dimensions change is explicit.", "quantifier": "all histories of add_* and set_* calls", "why_tests_cant": "depends on the whole history of calls", "anchors": ["pyphs/core/core.py: add_storages, add_dissipations, add_ports, set_mat, init_M"]}
{"id": "C06", "title": "Sum of cores is the disjoint union of the systems", "statement": "core1 + core2 has the concatenated variables, the total energy H1+H2, and its equations b = M a hold exactly when the equations of core1 hold on its variables and those of core2 on its own; the sum is skew-symmetric (dissipative) iff both are.", "quantifier": "all pairs of cores of any dimensions", "why_tests_cant": "needs all dimensions, including zero-size blocks", "anchors": ["pyphs/core/core.py: Core.__add__"]}
{"id": "C07", "title": "add_connector only relabels ports", "statement": "add_connector(i, alpha) moves the two selected ports to the connectors list, keeps the other ports in order, and the interconnection equations read by variable name are unchanged.", "quantifier": "all cores, all pairs of distinct valid port indices, all alpha", "why_tests_cant": "needs all port counts and index pairs, including the last port", "anchors": ["pyphs/core/core.py: add_connector", "pyphs/core/structure/connectors.py: port2connector"]}
{"id": "C08", "title": "connect() eliminates connectors exactly", "statement": "After connect(), an assignment of the remaining variables satisfies the new structure equations iff there are values of the connector variables satisfying the old structure equations together with every connector relation. No solution is lost or invented.", "quantifier": "all cores with any number of connectors for which the elimination matrix is invertible, all variable assignments", "why_tests_cant": "algebraic equivalence over all matrices and all sizes", "anchors": ["pyphs/core/core.py: connect"]}
{"id": "C09", "title": "connect() preserves conservation and passivity", "statement": "If the structure matrix is skew-symmetric (conservative) before connect(), it is skew-symmetric after; if its resistive part is positive semidefinite before, it is after.", "quantifier": "all cores, all connectors and gains", "why_tests_cant": "a sign error shows only for some topologies; needs all matrices", "anchors": ["pyphs/core/core.py: connect"]}
{"id": "C10", "title": "Connector sign convention", "statement": "The relation between two connected ports imposed by add_connector((i0, i1), alpha) followed by connect() is u[i0] = -alpha*y[i1], u[i1] = alpha*y[i0]. This is not the relation documented in add_connector (u[i0] = alpha*y[i1], u[i1] = -alpha*y[i0]), which a concrete core violates; the documented one is obtained by exchanging the two indices.", "quantifier": "all alpha and port values", "why_tests_cant": "documentation versus behaviour for all gains", "anchors": ["pyphs/core/core.py: add_connector, connect"]}
{"id": "C11", "title": "reduce_z() eliminates linear dissipation exactly", "statement": "After reduce_z() with homogeneous linear dissipative laws and no forced component, the remaining variables satisfy the reduced equations iff there are values of the eliminated dissipation variables satisfying the original equations and the original laws; the remaining dissipative variables keep their own laws; the call raises exactly when the elimination is impossible. With components forced to be nonlinear (force_wnl) it is otherwise: forcing some but not all of the linear ones always raises, forcing all of them is harmless if another dissipation exists, and gives another system if there is none.", "quantifier": "all cores, all numbers of linear dissipative components, all assignments", "why_tests_cant": "equivalence over all matrices and sizes", "anchors": ["pyphs/core/structure/R.py: reduce_z"]}
{"id": "C12", "title": "reduce_z() preserves the power balance and passivity", "statement": "The dissipated power of the eliminated components reappears as the power lost in the reduced structure: if the original structure was passive and the eliminated linear laws are passive, the reduced structure is passive.", "quantifier": "all cores and all passive linear laws", "why_tests_cant": "needs all matrices and vectors", "anchors": ["pyphs/core/structure/R.py: reduce_z"]}
{"id": "C13", "title": "Linear/nonlinear split classifies and orders correctly", "statement": "linear_nonlinear() reorders components only by permutation; afterwards the first dims.xl() states are exactly those whose Hessian column is free of state symbols, the rest those whose is not; relative order inside the linear group is kept; likewise for dissipations.", "quantifier": "all Hessian/Jacobian dependency patterns, all sizes", "why_tests_cant": "the in-place moving loop must be right for every pattern of columns", "anchors": ["pyphs/core/structure/splits.py: linear_nonlinear"]}
{"id": "C14", "title": "Monovariate/multivariate split is sound", "statement": "After monovar_multivar(), every state in the mono group has structurally zero cross derivatives with every other nonlinear state; reordering is a permutation.", "quantifier": "all symmetric dependency patterns of the Hessian, all sizes", "why_tests_cant": "the loop looks only at entries to the right of the diagonal while reordering; correctness needs all patterns", "anchors": ["pyphs/core/structure/splits.py: monovar_multivar"]}
{"id": "C15", "title": "Energy of the linear part is exact quadratic form", "statement": "When the energy is a sum of a quadratic-affine function of the linear states and a function of the nonlinear ones, the midpoint rule Q(x+dx/2)+bl computed by the method satisfies exactly grad.dx = H(x+dx) - H(x) on the linear part.", "quantifier": "all quadratic energies, states and increments", "why_tests_cant": "identity over all reals", "anchors": ["pyphs/core/structure/splits.py: linear_nonlinear", "pyphs/numerics/numerical_method/_method.py: build_gradient_evaluation"]}
{"id": "C16", "title": "Monovariate discrete gradient is exact", "statement": "The discrete gradient of a separable energy satisfies sum_i grad_i*dx_i = H(x+dx)-H(x) whenever every dx_i is 0, below minus the tolerance, or at least the tolerance; below the tolerance the value is the second-order Taylor expression, and at dx=0 it is the exact gradient.", "quantifier": "all differentiable separable energies, states, increments, dimensions", "why_tests_cant": "identity over all reals and all dimensions; boundary of the three-piece definition", "anchors": ["pyphs/numerics/numerical_method/_discrete_calculus.py: discrete_gradient_monovar"]}
{"id": "C17", "title": "Multivariate discrete gradient is exact", "statement": "The multivariate discrete gradient satisfies grad.dx = H(x+dx)-H(x) whenever dx = 0 or |dx|^2 reaches the squared tolerance; below it equals the midpoint gradient.", "quantifier": "all energies of any number of variables, states, increments", "why_tests_cant": "identity over all reals and all dimensions", "anchors": ["pyphs/numerics/numerical_method/_discrete_calculus.py: discrete_gradient_multivar, gradient_theta"]}
{"id": "C18", "title": "Theta and trapezoidal gradients", "statement": "gradient_theta is the gradient at x+theta*dx, gradient_trapez the mean of the end-point gradients; both are exact energy gradients for quadratic energies (theta=1/2), and neither is for general energies.", "quantifier": "all energies, states, increments; existence of a counterexample for the negative part", "why_tests_cant": "identity over all reals", "anchors": ["pyphs/numerics/numerical_method/_discrete_calculus.py: gradient_theta, gradient_trapez"]}
{"id": "C19", "title": "Continuous power balance", "statement": "For every core and every assignment satisfying b = M a, stored power + dissipated power + port power equals minus the power of R; with M skew the balance dtE + pd + ps = 0 is exact.", "quantifier": "all cores and all values of the variables", "why_tests_cant": "identity over all sizes", "anchors": ["pyphs/core/core.py: Core.a, Core.b, Core.pd, Core.M"]}
{"id": "C20", "title": "Discrete power balance at every time step", "statement": "If the implicit equations built by the method are solved exactly at a step, then (H(x+dx)-H(x))*fs + pd + ps = 0 for that step (M skew), and <= 0-type inequality with R >= 0. This holds whenever the gradient used is an exact discrete gradient of H; with split=True the criterion of the split (constant Jacobian of the implicit equations) can classify a storage as linear although its energy is not quadratic, and the balance then fails.", "quantifier": "all methods with exact discrete gradient, all steps", "why_tests_cant": "identity over all reals and sizes", "anchors": ["pyphs/numerics/numerical_method/_method.py: set_getters_tempF, set_getters_f, set_getters_v, build_gradient_evaluation"]}
{"id": "C21", "title": "Passivity over any simulated history", "statement": "Along any run of any length in which every step is solved exactly, the energy at step n equals the initial energy minus the total dissipated and port energy divided by fs; with passive laws and no input, the energy never increases.", "quantifier": "all run lengths, inputs, parameters and initial states", "why_tests_cant": "needs induction on the number of time steps", "anchors": ["pyphs/numerics/simulations/simulation.py: _process_py", "pyphs/numerics/numerical_core/_numerical_core.py: Numeric.update", "pyphs/numerics/numerical_method/_method.py: set_update_x"]}
{"id": "C22", "title": "Implicit/explicit splitting is exact", "statement": "Solving the reduced nonlinear equation and then evaluating the explicit linear update gives a solution of the full discrete equations, and every solution of the full equations is obtained so.", "quantifier": "all methods with invertible linear block, all arguments", "why_tests_cant": "algebraic equivalence over all sizes", "anchors": ["pyphs/numerics/numerical_method/_method.py: set_update_vl, set_update_vnl, set_getters_G, set_getters_tempF, explicit_implicit"]}
{"id": "C23", "title": "Newton iteration bound and exit condition", "statement": "The implicit solver performs at most maxit iterations and always stops; when it stops, either the residual is at most eps, or the last step is at most eps, or maxit iterations were done. If the residual is already at most eps, nothing is changed except the stored step length, which is set to 1.", "quantifier": "all functions, starting points, tolerances and maxit", "why_tests_cant": "depends on the run-time values at every iteration", "anchors": ["pyphs/numerics/numerical_core/_numerical_core.py: Numeric._iterexecs"]}
{"id": "C24", "title": "State update over histories", "statement": "After n calls of update, the state equals the initial state plus the sum of all increments computed at previous calls; setting inputs or parameters never modifies the state directly, and every argument is stored in its own slot.", "quantifier": "all sequences of updates, all dimensions", "why_tests_cant": "needs all histories", "anchors": ["pyphs/numerics/numerical_core/_numerical_core.py: Numeric.update, setarg_generator, getarg_generator", "pyphs/numerics/numerical_method/_method.py: set_update_x, args"]}
{"id": "C25", "title": "Functions are evaluated with the right arguments", "statement": "Each numerical function is called with exactly the values of the symbols it depends on, in the order in which it was compiled, so its value equals the symbolic expression evaluated at the current arguments.", "quantifier": "all expressions, argument lists and values", "why_tests_cant": "a permutation error shows up only for particular symbol subsets", "anchors": ["pyphs/misc/tools.py: find", "pyphs/numerics/numerical_method/_method.py: setfunc, setarg", "pyphs/numerics/numerical_core/_numerical_core.py: evalfunc_generator"]}
{"id": "C26", "title": "Update schedule covers its dependencies", "statement": "update_actions_deps lists every function used by the update actions and all their transitive dependencies, each once, each operation after the things it depends on.", "quantifier": "all action lists and all acyclic dependency relations", "why_tests_cant": "needs all dependency graphs", "anchors": ["pyphs/numerics/numerical_method/_method.py: update_actions_deps", "pyphs/misc/tools.py: get_strings, remove_duplicates"]}
{"id": "C27", "title": "Structure evaluated once at the documented point", "statement": "With the theta scheme, the structure matrix and dissipation laws are evaluated at x + theta*dx when split is False; with split=True the substitution is applied twice and the evaluation point is x + 2*theta*dx, so the documented point is missed unless theta = 0.", "quantifier": "all theta and both values of the split option", "why_tests_cant": "depends on construction path (split or not)", "anchors": ["pyphs/numerics/numerical_method/_method.py: Method.__init__, build_structure_evaluation"]}
{"id": "C28", "title": "Parameter substitution preserves meaning", "statement": "Substituting the recorded numerical values in the expressions of a core does not change their value at any point where the remaining symbols are assigned and the substituted symbols have the recorded values; a dictionary whose values mention other keys (a chain) is not resolved by one call, and the result can then depend on the order of the keys.", "quantifier": "all expressions, substitution dictionaries and assignments", "why_tests_cant": "needs all expressions and dictionaries", "anchors": ["pyphs/core/core.py: Core.substitute, subsexprs", "pyphs/core/tools/_substitutions.py"]}
{"id": "C29", "title": "Generated C++ update computes the same state as the Python update", "statement": "Executing the generated update (actions, iteration, stored intermediate values) yields the same argument values as Numeric.update for the same inputs, tolerance and maximal number of iterations, from the construction and over every history, as long as the Python update does not raise (Python raises for a singular matrix, the C++ code goes on).", "quantifier": "all action lists, functions, initial values and histories", "why_tests_cant": "refinement between two programs for all inputs", "anchors": ["pyphs/numerics/cpp/method2cpp.py", "pyphs/numerics/cpp/functions.py", "pyphs/numerics/numerical_core/_numerical_core.py"]}
{"id": "C30", "title": "Changing the sample rate of the generated C++ object takes effect everywhere but in coefficients without arguments", "statement": "The user expects that after set_sampleRate(fs') every function value used in the update is the one of the method at sample rate fs'. This holds exactly as long as no coefficient without arguments contains the sample rate: then the object behaves as one newly built with the rate fs', whatever happened before. A coefficient without arguments is never recomputed by set_sampleRate; a concrete method, with the sample rate in such a coefficient, keeps computing with the old rate.", "quantifier": "all methods", "why_tests_cant": "depends on which matrix entries contain run-time arguments", "anchors": ["pyphs/numerics/cpp/functions.py: _str_mat_func_update, _str_mat_func_init_data", "pyphs/numerics/cpp/method2cpp.py"]}
{"id": "C31", "title": "Generated C++ parameters are read at the right slot", "statement": "Without a user dictionary every parameter of the generated code points to its own value in the parameter table. With a user supplied dictionary every parameter does so when the keys of the method come first and in the same order; for distinct values this is also necessary: any other order silently exchanges values and a missing key gives an index out of bounds. With several dictionaries the table has one row for each, in the order of the keys of the first one, and the generated code reads the first row; a key that is missing in one of them is an error. With one dictionary the text of parameters.cpp is an initializer of the table, with two or more it is not C++.", "quantifier": "all parameter dictionaries and orders of keys", "why_tests_cant": "depends on dictionary order", "anchors": ["pyphs/numerics/cpp/method2cpp.py: append_parameters, _append_subs"]}
{"id": "C32", "title": "Chunked writing stores the input sequence", "statement": "Writing a sequence of at least one row into a dataset by chunks of any positive size leaves row i of the selected rows equal to element i of the sequence for all i, without touching other rows or columns, for every length, when the elements have the width of the selected columns and are as many as the selected rows; the result does not depend on the size of the chunks. Outside of these conditions: with no row selected the loop never ends, rows of another width are written shifted, and rows in excess are ignored or rejected depending on the length.", "quantifier": "all sequence lengths and chunk sizes", "why_tests_cant": "off-by-one at chunk boundaries needs all lengths", "anchors": ["pyphs/numerics/simulations/h5data/tools.py: set_dataset_from_iterable"]}
{"id": "C33", "title": "Data written during a simulation is read back unchanged", "statement": "When the names of the stored variables are distinct, the columns of the result file are partitioned between the variables; the vectors dumped at step i are what data['name'][i] returns, an index inside the dimension of a variable selects its component, dumping one step modifies no other row, and over any history of writings a read returns what was last written. A name given twice puts columns outside of the file, and an index outside of the dimension of a variable is not checked and reads another variable.", "quantifier": "all dimensions of the variables and all runs, including interrupted runs", "why_tests_cant": "needs all dimensions and interruption points", "anchors": ["pyphs/numerics/simulations/h5data/h5data.py: _dimsinit, h5dump_vecs, h5dump_seqs, __getitem__, _read_data"]}
{"id": "C34", "title": "Interrupted simulation keeps a valid prefix", "statement": "If the process stops after k steps, rows 0..k-1 are those of the complete run and the remaining rows of the outputs keep their initial fill value. If the user has set the reading window to end before the last sample, the complete run itself computes only the samples of the window, without error.", "quantifier": "all interruption points", "why_tests_cant": "all crash points", "anchors": ["pyphs/numerics/simulations/simulation.py: _process_py", "pyphs/numerics/simulations/h5data/h5data.py: h5dump_vecs"]}
{"id": "C35", "title": "Time slices select the documented samples", "statement": "data with slice options start/stop/step inside the file returns exactly the samples start, start+step, ... < stop, for the time vector, for stored signals, for stacked signals and for the powers; for computed expressions it does so if the step divides stop - start and the observers have no arguments, and otherwise raises ValueError (or returns a wrong number of samples for a constant expression). Beyond the end of the file the time vector is longer than the signals, and the index -1 selects nothing.", "quantifier": "all slice options and lengths", "why_tests_cant": "rounding (floor versus ceil) shows only for some lengths", "anchors": ["pyphs/numerics/simulations/h5data/h5data.py: _tslice, _tuple2slice, t, _expression, _hstack"]}
{"id": "C36", "title": "Start/stop accessors keep a valid window", "statement": "Any sequence of assignments to start, stop, tstart, tstop, step either raises or leaves 0 <= start < stop <= nt and step >= 1, provided that stop receives no float strictly between start and start + 1 (such a value is accepted and gives an empty window); integers and times in the range are accepted and read back. A setter that raises changes nothing, except tstart = None, which resets start. A new initialisation of the data keeps the old window, which is then valid exactly if the new file has enough rows.", "quantifier": "all histories of assignments", "why_tests_cant": "needs all histories", "anchors": ["pyphs/numerics/simulations/h5data/h5data.py: start, stop, tstart, tstop, step, _time2index, _index2time"]}
{"id": "C37", "title": "Configuration keys are validated", "statement": "The constructors of methods, numerical objects and simulations reject unknown configuration keys; accepted keys override the defaults and nothing else changes; a new simulation, its method and its numerical object have the same values; and no history of creations, assignments and initialisations modifies the shared defaults of numerics, methods, simulations and C++. Not so for the options of the readers ('load'), which all simulations share unless each is given its own: creating a simulation resets the windows of the others. A second simulation on the same method object changes the options of the first; Simulation.init accepts unknown keys and keeps a stale sample rate.", "quantifier": "all configuration dictionaries and histories of object creation", "why_tests_cant": "needs all dictionaries and histories", "anchors": ["pyphs/config.py", "pyphs/numerics/simulations/simulation.py: Simulation.__init__", "pyphs/numerics/numerical_core/_numerical_core.py: Numeric.__init__"]}
{"id": "C38", "title": "Initial values and shape check", "statement": "Numeric initialisation rejects a wrong shape (TypeError) and an unknown key (AttributeError), and otherwise sets exactly the given variables, others are zero. For keys that share symbols (v, vl, vnl with dx, w) nothing is claimed on the shared values.", "quantifier": "all shapes and inits", "why_tests_cant": "needs all dimensions", "anchors": ["pyphs/numerics/numerical_core/_numerical_core.py: Numeric.init"]}
{"id": "C39", "title": "Graph analysis keeps edges partitioned", "statement": "At every moment of the realizability analysis, effort-controlled, indeterminate and flux-controlled edges form an ordered partition of all edges, incidence and edge data stay aligned with each other, and edge order changes only by permutation.", "quantifier": "all graphs and all interleavings of analysis steps", "why_tests_cant": "invariant over all executions", "anchors": ["pyphs/graphs/analysis.py: set_edge_ec, set_edge_fc, set_node_dc, move_edge, move_node, link_connector"]}
{"id": "C40", "title": "Every non-reference node gets its own controlling flux edge", "statement": "When the analysis succeeds, each node other than the reference is imposed by exactly one flux-controlled edge and no edge imposes two nodes.", "quantifier": "all graphs for which the analysis succeeds", "why_tests_cant": "invariant over all executions", "anchors": ["pyphs/graphs/analysis.py: iterate_nodes, iterate_fc, set_node_dc, perform"]}
{"id": "C41", "title": "Realizability analysis terminates", "statement": "Each phase of perform_analysis ends (the construction, and the iteration from every reachable state); the analysis always ends, with a result or an error, when the control of every edge is given. In general it ends within an explicit number of turns or reaches a state that repeats for ever: a user expects that it always ends, but on a ring of four resistors it never does.", "quantifier": "all graphs", "why_tests_cant": "non-termination cannot be established by a test", "anchors": ["pyphs/graphs/analysis.py: perform, iteration, unlock"]}
{"id": "C42", "title": "Graph structure matrix encodes Kirchhoff's laws", "statement": "The structure matrix built from a graph is skew-symmetric, and an assignment of efforts and flows satisfies b = M a iff flows satisfy the balance at every non reference node and efforts derive from node potentials.", "quantifier": "all graphs with successful analysis, all assignments", "why_tests_cant": "equivalence over all incidence matrices", "anchors": ["pyphs/graphs/build.py: buildCore", "pyphs/graphs/analysis.py: perform"]}
{"id": "C43", "title": "Component order follows the edges", "statement": "In the core built from a graph, each row/column of M belongs to the edge whose label is at the same position in x, w, y, cy, and each dissipative law is the one of the selected control type.", "quantifier": "all graphs", "why_tests_cant": "needs all orders of edges", "anchors": ["pyphs/graphs/build.py: _setCore, _select_relations"]}
{"id": "C44", "title": "Repeating the analysis does not change the result", "statement": "Calling to_core any number of times on the same graph always succeeds again if it did once, with the same variables, laws, energy and structure; the whole result is the same when the analysis inverts no ratio of a connector. Otherwise the ratios alternate between two values with period two: a user expects that the second call gives the same system, but the ratio of an effort-controlled gyrator changes from 1/2 to 2.", "quantifier": "all graphs, all numbers of calls", "why_tests_cant": "depends on the call history", "anchors": ["pyphs/graphs/analysis.py: inverse_alpha, link_connector", "pyphs/graphs/graph.py: to_core"]}
{"id": "C45", "title": "Series and parallel merging preserve behaviour", "statement": "Replacing series (parallel) linear storages or dissipations, or dissipations with increasing nonlinear laws, by the single one computed by the code gives a component with the same port behaviour and the same total energy / dissipated power, also inside an arbitrary network. For storages that each keep their own state this requires that the states start equal.", "quantifier": "all numbers of merged components and parameter values", "why_tests_cant": "needs all numbers of components", "anchors": ["pyphs/graphs/subgraph.py", "pyphs/graphs/tools.py"]}
{"id": "C46", "title": "Netlist write/read round trip", "statement": "Writing a netlist to a file and reading it back gives the same lines (dictionary, component, label, nodes, arguments) for every netlist in the documented form, and comment lines and empty lines of files written by hand are ignored. Outside of this form the round trip fails: spaces in node names are lost, labels that spell a constant, a number or a keyword are misread or rejected, tuples of one element and colons in node names are not read back.", "quantifier": "all netlists with admissible identifiers", "why_tests_cant": "needs all strings", "anchors": ["pyphs/graphs/netlists.py: Netlist.read, write, netlist, line, print_netlist_line"]}
{"id": "C47", "title": "Netlist editing keeps the five columns aligned", "statement": "Any sequence of add_line, delline, setline, also those that raise half-way, keeps dictionaries, components, labels, nodes and arguments of equal length with item n describing one component; add_line then item lookup gives the line added; delline and setline change exactly the line n; net1 + net2 of two different netlists appends the lines of the second to the first, which is modified. net + net never ends, and a setline that raises can leave a mixture of the old and the new line.", "quantifier": "all histories of edits", "why_tests_cant": "needs all histories", "anchors": ["pyphs/graphs/netlists.py: add_line, delline, setline, __getitem__, __add__"]}
{"id": "C48", "title": "Linear dissipative components are passive and control-consistent", "statement": "For linear dissipative components, effort-controlled and flux-controlled laws are inverse functions of each other and dissipate nonnegative power for positive coefficients.", "quantifier": "all coefficients and variable values", "why_tests_cant": "needs all reals", "anchors": ["pyphs/dictionary/edges/dissipatives.py"]}
{"id": "C49", "title": "Nonlinear dissipative components are passive", "statement": "Diode, BJT, felt damper and potentiometer dissipate nonnegative power for admissible parameters, whatever their control, and the two laws of the diode junction are inverse functions. The triode does not: for all parameters there is a state in which it delivers power.", "quantifier": "all parameter and variable values", "why_tests_cant": "needs all reals", "anchors": ["pyphs/dictionary/electronics/_diode.py", "pyphs/dictionary/electronics/_bjt.py", "pyphs/dictionary/electronics/_potentiometer.py", "pyphs/dictionary/mechanics/_felt.py"]}
{"id": "C50", "title": "Storage components have lower-bounded energy with the documented force", "statement": "Each storage component's energy is nonnegative for admissible parameters and its derivative is the documented constitutive law (at all states, or below the saturation for the saturating ones), provided that the names of its parameters do not meet that of its state: a saturating spring labelled 'sat' has an energy that does not depend on its state. The default capacitance is a parameter without value.", "quantifier": "all parameter and state values", "why_tests_cant": "needs all reals", "anchors": ["pyphs/dictionary/edges/storages.py", "pyphs/dictionary/mechanics"]}
{"id": "C51", "title": "Gyrators and transformers are lossless", "statement": "For every ratio the connector relations produced for gyrators and transformers are power conserving, in all control configurations. A flux-controlled gyrator has the documented relations and an effort-controlled one those of the opposite ratio; a transformer has the documented ratio alpha or, if its first edge is flux-controlled, -1/alpha.", "quantifier": "all ratios and port values", "why_tests_cant": "needs all reals", "anchors": ["pyphs/dictionary/connectors", "pyphs/dictionary/edges/connectors.py"]}
{"id": "C52", "title": "Thermal components respect the first and second laws", "statement": "The thermal transfer exchanges no net power and produces nonnegative entropy.", "quantifier": "all positive temperatures and conductances", "why_tests_cant": "needs all reals", "anchors": ["pyphs/dictionary/thermics"]}
{"id": "C53", "title": "Piecewise-linear functions interpolate their data", "statement": "The function built from points with increasing abscissae that contain the origin passes through every data point, is linear between consecutive points, extends with the end slopes and is monotone when the data is. Without the origin in the data the given points are missed, and abscissae that do not increase are accepted and can give an active component. With accepted increasing data a dissipative component is passive; a storage component has a nonnegative energy on the range of the data (not always beyond it), and its integrated form is the integral of the interpolation.", "quantifier": "all data sets with increasing abscissae containing the origin, all arguments", "why_tests_cant": "needs all data sets and reals", "anchors": ["pyphs/dictionary/pwl/tools.py"]}
{"id": "C54", "title": "List utilities", "statement": "remove_duplicates keeps first occurrences in order; decimate(it, n) keeps exactly the elements at indices multiple of n; interleave alternates its inputs; get_strings flattens all strings in order.", "quantifier": "all lists", "why_tests_cant": "needs all lists", "anchors": ["pyphs/misc/tools.py: remove_duplicates, decimate, interleave, get_strings"]}
{"id": "C55", "title": "Signal generator length and cycles", "statement": "The signal generator returns ndeb + cycle + nend samples, with the requested content, duration and amplitude, whatever the number of cycles: only the last cycle is kept, so the expected length ndeb + ncycles*cycle + nend is right exactly for one cycle (or empty cycles). With a bounded waveform and bounded noises the signal is bounded. A number of cycles below one raises, and so does a ratio above 1 (shown on an example).", "quantifier": "all durations and cycle counts", "why_tests_cant": "needs all durations", "anchors": ["pyphs/misc/signals/synthesis/synthesis_array.py: signalgenerator"]}
{"id": "C56", "title": "WAV write/read round trip", "statement": "Samples in [-1, 1] written with wavwrite (without fade) and read with wavread differ by less than one quantisation step and are not larger; with normalize=True any signal that is not empty is written and read back up to its scale with the precision of the scale; writing what was read gives the same bytes; with a fade that fits, the first and the last sample are silent. A sample out of range raises.", "quantifier": "all signals", "why_tests_cant": "needs all reals", "anchors": ["pyphs/misc/signals/waves.py: wavread, wavwrite"]}
{"id": "C57", "title": "Copy and save/load are independent and faithful", "statement": "A copied core, and a core saved and loaded, have the same content as the original, and later modifications of either do not affect the other, over every program of creations, changes, copies, sums, saves and loads that changes no coefficient of a connector shared by two cores. Such a coefficient is shared with the copy, so a change of it (as made by building a graph again) reaches the other core. Loading a file into a core with other names of expressions loses an expression or raises half-way.", "quantifier": "all cores and all later histories of modification", "why_tests_cant": "aliasing needs all histories", "anchors": ["pyphs/core/core.py: __copy__, save, load"]}
{"id": "C58", "title": "Output function gives the outputs of the structure equations", "statement": "For a core without pending connectors, the output function returns exactly the port outputs y given by the last block row of the structure equations at the current gradient, dissipation law and input values. With pending connectors the contribution of the connector inputs cu is missing from the result.", "quantifier": "all well-formed cores, all values of states, dissipation variables, inputs and connector inputs", "why_tests_cant": "Block offsets in M differ for every set of dimensions; tests compare a few fixed cores and none of them has a nonzero connector block.", "anchors": ["pyphs/core/structure/output.py: output_function"]}
{"id": "C59", "title": "A completed update leaves consistent values", "statement": "After every update that returns, the linear part of the implicit equations holds exactly at the stored values, the stored residual is the norm of the nonlinear equations at the stored values, and the stored gradient, dissipation and output are the values of their functions at the stored arguments. When the residual is at most eps, the defect of the power balance of the step is at most eps*(sum|dxH| + sum|z|).", "quantifier": "all methods, states, inputs, tolerances and iteration bounds", "why_tests_cant": "the order of the actions must be right for every model and every number of Newton iterations", "anchors": ["pyphs/numerics/numerical_method/_method.py: set_update_vl, set_update_vnl, set_execactions", "pyphs/numerics/numerical_core/_numerical_core.py: Numeric.update, _execs, _iterexecs"]}
{"id": "C60", "title": "Prescribed controls are respected", "statement": "When the analysis of a graph succeeds, every edge whose component prescribes a control ('e' or 'f') ends with exactly this control: a storage or port declared effort-controlled is in the list of effort-controlled edges and not in the other, and conversely.", "quantifier": "all graphs (nodes, edges in any order, any connectors without prescribed control), all successful analyses", "why_tests_cant": "The analysis moves edges between three lists many times, and the order of the moves depends on the graph; tests only check that a few cores are built.", "anchors": ["pyphs/graphs/analysis.py: GraphAnalysis.__init__ (55-79), set_edge_ec, set_edge_fc, perform"]}
{"id": "C61", "title": "Fractional integrators and derivators realise their diffusive representation", "statement": "In every graph that gives a core, and for every solution of the equations of this core, the network added by Fracintec (Fracintfc) has f = g*sum(mu_n*q_n) with dq_n/dt = e - xi_n*q_n (roles of e and f exchanged), and the one added by Fracderec has f = g*sum(mu_n*dq_n/dt) with the same filters, where mu and xi are the kept weights and poles; the flow that enters one terminal leaves by the other. Consequently their transfer functions are g*sum(mu/(s+xi)) and g*sum(mu*s/(s+xi)), and they are passive. Fracderfc does not realise its documented filters: each pole xi is replaced by (g*mu)**4*xi.", "quantifier": "all gains, numbers of poles, weights and poles, all surrounding graphs, all solutions", "why_tests_cant": "Tests build the components with 20 poles and check the numbers of nodes and edges; the relation between the ports holds or fails for the equations of every assembled core.", "anchors": ["pyphs/dictionary/fraccalc/fractional_integrators.py: Fracintec, Fracintfc, fractionalIntegratorWeights", "pyphs/dictionary/fraccalc/fractional_derivators.py: Fracderec, Fracderfc, fractionalDifferenciatorWeights"]}
{"id": "C62", "title": "Graphs are split and assembled without loss", "statement": "When no loop of components hangs at a single node other than the datum (every loop is connected with the datum without passing by any one given node), sp_split ends after at most as many passes as there are edges; the tree it makes contains each component exactly once, between its original nodes; each of its subgraphs is a parallel connection of at least two edges between its terminals, or a chain of at least two edges through different nodes, with one port from the datum at each terminal other than the datum; in the remaining graph no node other than the datum has two neighbours and no pair is left with several edges. sp_assemble applied to such a tree gives the components back, so that the analysis sees the graph of the user.", "quantifier": "all graphs without self-loops, all orders in which networkx enumerates nodes, neighbours and edges, different at each pass; all labels of components that do not contain '_out_' and are not 'parallelN' or 'serialN'", "why_tests_cant": "The only test splits one circuit and counts levels of the tree. Loss or duplication of an edge depends on the order of dictionaries and on the shape of the graph, and no test can show that the loop ends for every graph.", "anchors": ["pyphs/graphs/tools.py: serial_next, serial_edges, parallel_edges, getedges", "pyphs/graphs/graph.py: _split_serial, _split_parallel, sp_split, sp_assemble, remove_edges_from_list, perform_analysis"]}
{"id": "C63", "title": "A simulation solves the equations of the circuit", "statement": "For every circuit that to_core accepts, Method(core) exists, and values of its symbols solve its implicit equations at a step exactly when there are efforts and flows of all edges which satisfy the laws of Kirchhoff, the laws of gyrators and transformers, the flow (or effort) of every storage equal to sample rate times increment of its state and the other variable equal to the discrete gradient of the energy, the constitutive law of every dissipation, and the input of every port; the controls are those prescribed by the components, and the outputs computed by the method are the missing variables of the ports.", "quantifier": "all graphs of storages, dissipations, ports and connectors, all constitutive laws, all method configurations (gradient, theta, split, sample rate), all answers of sympy within its contract, all steps", "why_tests_cant": "Tests run a few netlists through and check that no exception is raised; the property relates the text of the circuit with the equations after seven transformations (analysis, incidence matrices, connectors, controls, gradient evaluation, splits, reordering), each of which may permute or drop a row.", "anchors": ["pyphs/graphs/graph.py: Graph.to_core (205-300)", "pyphs/numerics/numerical_method/_method.py: Method.__init__ (58-161), 270-283, 757-780", "pyphs/core/structure/splits.py: 66-70", "pyphs/config.py: 185-192"]}
{"id": "C64", "title": "A simulated passive circuit creates no energy", "statement": "Along a simulation of a circuit whose dissipative laws are passive, the energy at any later step is at most the energy at an earlier step plus the energy received by the ports in between. It holds whatever the options for energies quadratic in each state with the discrete gradient, the trapezoidal rule or the midpoint rule; with the discrete gradient for every smooth energy when split=False; and for every option under an exact condition on the groups of states made by the split. With the default split=True it is false in general: a nonlinear storage on a current source is classified as linear, and energy is created.", "quantifier": "all circuits, all smooth energies, all passive laws, all lengths of simulation, all inputs, all sample rates; split in {True, False}", "why_tests_cant": "Tests compare energy and power for one or two simulations with a numeric tolerance; a violation appears only for particular combinations of a nonlinear storage, a source and the default split option.", "anchors": ["pyphs/graphs/graph.py: Graph.to_core", "pyphs/numerics/numerical_method/_method.py: Method", "pyphs/numerics/numerical_method/_discrete_calculus.py: discrete_gradient", "pyphs/core/structure/splits.py: monovariate_split"]}
{"id": "C65", "title": "Power balance and energy read in the data file of a simulation", "statement": "The data file of a simulation holds, row by row, the values at the end of each update of the numerical object. For every selection of samples whose step divides its length, the signals dtE, pd and ps read in the file sum to zero up to the tolerance of the solver at every sample where the solver converged. With constant parameters the option 'deltaH' of dtE is the increase of the stored energy divided by the sampling period, and equals the option 'DxhDtx' when the gradient is exact. For passive laws the energies read in the file grow by at most the energy received by the ports, up to the tolerance.", "quantifier": "all methods, all inputs and parameters, all lengths of simulation, all initial states, all selections of samples, all tolerances", "why_tests_cant": "Tests plot the power balance of a few simulations; an error in the layout of the rows, in the order of the updates and writes or in the time selection appears only for particular dimensions, selections or parameters.", "anchors": ["pyphs/numerics/simulations/simulation.py: Simulation._process_py", "pyphs/numerics/simulations/h5data/h5data.py: H5Data.dtE, H5Data.pd, H5Data.ps, H5Data.E", "pyphs/numerics/numerical_core/_numerical_core.py: Numeric.update"]}
{"id": "C66", "title": "The linear/nonlinear splitting of the implicit equations of a circuit is exact", "statement": "For a circuit of regular components, the unknowns that Method classifies as linear (their column of the Jacobian of the implicit equations contains no unknown) enter every equation of the linear and of the nonlinear block affinely with coefficients that contain no unknown, whatever the options, although the gradient is rebuilt after the classification. Hence, when an update of the simulation of the circuit returns with nothing left to iterate or with a zero residual, the stored values satisfy Kirchhoff's laws and the laws of all components; and for passive components with quadratic energies the energies read in the data file grow by at most the energy received by the ports, up to the tolerance of the solver, exactly if nothing is iterated.", "quantifier": "all circuits of regular components, all options of Method, all orders of components, all inputs, states, parameters and lengths of simulation", "why_tests_cant": "Tests run a few example circuits and compare plots; whether the classification made on one gradient remains right for the gradient that is rebuilt afterwards depends on the circuit and the options.", "anchors": ["pyphs/numerics/numerical_method/_method.py: Method.__init__, Method.explicit_implicit", "pyphs/core/structure/splits.py: linear_nonlinear", "pyphs/numerics/numerical_core/_numerical_core.py: Numeric.update", "pyphs/numerics/simulations/h5data/h5data.py: H5Data.E, H5Data.ps"]}
{"id": "C67", "title": "The update of a circuit of monotone components never fails", "statement": "For a circuit whose storages have a convex energy without coupling between distinct states and whose dissipative laws are nondecreasing functions of their own variable, every call of Numeric.update returns, from any state and for any inputs and parameters of the right lengths, whatever the option split: no singular Jacobian is met in the linear block nor in any of the iterations. Hence every simulation runs to its end, and if its updates converged the energies read in the data file are passive. For linear and nonlinear states coupled by the energy the property is false: a lossless strictly convex system, each step of which has exactly one solution, raises at every update.", "quantifier": "all circuits of monotone components, all theta in [0,1] and trapezoidal rules, the discrete gradient for quadratic energies, all sample rates, all states, inputs, parameters, all numbers of iterations", "why_tests_cant": "Tests run a handful of circuits from the zero state; a singular matrix appears only at particular values of the state, of the inputs or of the sample rate, possibly in the middle of the iterations.", "anchors": ["pyphs/numerics/numerical_method/_method.py: Method", "pyphs/numerics/numerical_core/_numerical_core.py: Numeric.update", "pyphs/numerics/tools/_operation.py"]}
{"id": "C68", "title": "The results of a simulation do not depend on the splitting", "statement": "For monotone components the equations of a step have at most one solution for given states, inputs and parameters. Two methods built on the same circuit with the same rule but with different options split (or other orders of the variables) solve the same equations and have the same outputs; hence two simulations from the same values with the same inputs, whose updates solve their equations exactly, have the same values of all symbols and the same outputs at every step.", "quantifier": "all circuits of monotone components, all pairs of options with the same rule, all sample rates, inputs, parameters and lengths of simulation, all sympy oracles", "why_tests_cant": "Tests compare at most two runs of one circuit numerically; a dependency of the results on the reordering of the variables needs a particular circuit and is hidden by tolerances.", "anchors": ["pyphs/numerics/numerical_method/_method.py: Method.__init__, Method.explicit_implicit", "pyphs/core/structure/splits.py: linear_nonlinear", "pyphs/numerics/numerical_core/_numerical_core.py: Numeric.update"]}
{"id": "C69", "title": "Linear circuits are solved exactly in at most one iteration", "statement": "For a circuit of monotone components with a quadratic energy and affine dissipative laws, every update of the simulation returns after at most one iteration with a residual not above the tolerance, from any state, whatever the option split: the step of the solver is an exact Newton step on the Schur complement of the linear block. Hence the hypotheses of convergence of the other properties hold by themselves: the energies read in the data file are passive, and with a zero tolerance two methods with different options split give the same values at every step.", "quantifier": "all linear circuits of monotone components, all options of Method with a nonnegative weight, all sample rates, tolerances in [0,1), maximal numbers of iterations at least 1, states, inputs, parameters and lengths of simulation", "why_tests_cant": "Tests look at the results of a few linear circuits at one sample rate; a wrong sign or a missing term in one block of the iteration still converges there, only more slowly.", "anchors": ["pyphs/numerics/numerical_method/_method.py: Method.init_funcs, set_getarg, execactions", "pyphs/numerics/numerical_core/_numerical_core.py: Numeric.update", "pyphs/numerics/simulations/simulation.py: Simulation.process"]}
{"id": "C70", "title": "Simulations never amplify a difference between two states", "statement": "Take two simulations of one circuit of monotone components with a quadratic energy, with the same inputs and parameters but from different states. With the discrete gradient, the trapezoidal or midpoint rule, or a theta rule with theta at least 1/2, the distance between their states in the norm of the energy never increases from a step to the next one, up to the tolerance of the solver, at any sample rate and for any splitting. For linear circuits nothing has to be supposed on the convergence of the solver.", "quantifier": "all circuits of monotone components with quadratic energy (nonlinear monotone dissipative laws allowed), all pairs of initial states, all inputs, parameters, sample rates, options with weight at least 1/2, all lengths of simulation", "why_tests_cant": "Stability is a statement about all pairs of trajectories, all lengths and all sample rates; a test sees one trajectory of a few samples.", "anchors": ["pyphs/numerics/numerical_method/_method.py: Method", "pyphs/numerics/numerical_method/_discrete_calculus.py", "pyphs/numerics/numerical_core/_numerical_core.py: Numeric.update"]}
{"id": "C71", "title": "Replacing the inverses of parameters keeps the meaning of a core", "statement": "Core.subsinverse replaces negative powers of the parameters recorded in core.subs by positive powers of new symbols 'inv...' that it adds to core.subs. If these names are new, then for values of the symbols that agree with the new dictionary the old one is respected and every expression of the core (energy, laws, structure, gradient, observers) has the value it had before, also when the call raises in the middle; values that agree with the old dictionary can be completed to the new one; no negative power of a parameter is left in a converted expression; the recursion ends. If a parameter is already called 'inv...' it is overwritten and values change.", "quantifier": "all expressions, dictionaries of numbers or expressions, orders of attributes, all simplifiers that keep values", "why_tests_cant": "The test only calls the method on one example; a changed value needs a particular combination of names or of nested powers, and equality of values has to hold for all values of the variables.", "anchors": ["pyphs/core/tools/_subsinverse.py: subsinverse_scalar, subsinverse_core", "pyphs/core/core.py: Core.subsinverse"]}
{"id": "C72", "title": "What the generated Faust effects compute: two interleaved simulations of the method", "statement": "For every method with states and outputs the block diagram written by write_faust_fx is accepted by Faust, with the inputs and outputs of the method; the stereo process around it is accepted exactly if one or two inputs are signals and one or two outputs are selected, and it scales, mixes and fills in the constant inputs as documented. The expressions of MethodInvMat solve the linear equations and make a Newton step. If the method has no nonlinear states or no linear dissipations, samples 0, 2, 4, ... of the program are exactly the selected outputs of the Python simulation of inputs 0, 2, 4, ... from the given initial values, and samples 1, 3, 5, ... are those of a second simulation started from zero: the expected equality at every sample is false (an integrator of 1 outputs 0, 0, 1, 1, 2, ...). With nonlinear states and linear dissipations the first sample is already wrong.", "quantifier": "all dimensions, expressions, initial values, input signals, numbers of iterations, all sample indices; all circuits of monotone components", "why_tests_cant": "The tests only write the files: the programs are not compiled, and their behaviour is a relation between signals of any length.", "anchors": ["pyphs/misc/faust/_faust.py: faust_vector, multirecursive, write_faust_fx", "pyphs/misc/faust/faustfx.template", "pyphs/misc/faust/_method_invmat.py: MethodInvMat.__init__"]}
{"id": "C73", "title": "Simulations in C++ write the same data files as simulations in Python", "statement": "The program simu.cpp, which reads each row of the data file into a struct, sets the inputs and the parameters, updates the object and writes the row back, fills every column of the file with exactly the values that the Python simulation stores, for the same method, initial values and sequences; so every later read of the file gives the same result in the two cases. It holds if the load window ends at the last sample and if the initial values are single-precision numbers: the Python simulation ignores the samples after 'imax' while the C++ one computes them, and the generated code converts initial values with float(...).", "quantifier": "all methods (dimensions, expressions), all initial values, contents of memory before the construction, input and parameter sequences, numbers of samples; all circuits of monotone components", "why_tests_cant": "The C++ code is neither compiled nor run by the tests that compare data, and the equality is about files of any length.", "anchors": ["pyphs/numerics/cpp/simu2cpp.py: main_path, _str_vectors, _str_updateInputs, _str_updateResults", "pyphs/templates/cpp/simu_main.template", "pyphs/numerics/simulations/simulation.py: Simulation._process_py, _process_cpp", "pyphs/numerics/cpp/arguments.py: _str_args_init_data"]}
{"id": "C74", "title": "The equations of each step have exactly one solution", "statement": "For a circuit of monotone components (an energy that is a sum of convex functions of one state each, dissipative laws that are nondecreasing functions of their own variable), whatever the states, inputs, values of the parameters, sample rate, splitting and rule of discretization, there is exactly one choice of the increments of the states and of the variables of the dissipative components for which the implicit equations of the step hold; efforts and flows of storages, dissipative components and ports are then determined. So from any state and for any sequences of inputs and parameters the equations of a whole simulation have one solution and only one: what the iterative solver approximates exists and is unambiguous.", "quantifier": "all circuits of monotone components that the analysis accepts, all values of the symbols, all sample rates > 0, all rules (discrete gradient: quadratic energies), all numbers of steps and all sequences", "why_tests_cant": "Tests run the solver on a few circuits for a few samples; the existence of a solution for all states and inputs is a statement on unbounded sets of reals.", "anchors": ["pyphs/numerics/numerical_method/_discrete_calculus.py", "pyphs/numerics/numerical_method/_method.py: Method.build_numericalCore", "pyphs/numerics/numerical_core/_numerical_core.py: Numeric.update"]}
{"id": "C75", "title": "Errors left by the solver accumulate at most linearly", "statement": "For a circuit of monotone components with a quadratic energy and dissipative laws of bounded slope, simulated with the discrete gradient, the trapezoidal rule or a theta rule with 1/2 <= theta, the distance (in the norm of the energy) between the state computed after i steps, when the solver converged at each step, and the state of the exact solution of the same equations is at most the initial distance plus i * eps * K, where eps is the option 'eps' of the solver and K = 2 theta / fs * sum sqrt(k) + sqrt(sum L / (2 fs)) depends on the stiffnesses k, the slopes L and the sample rate only. The same bound, with the sum of the two tolerances, holds between two simulations that differ by the options of the solver.", "quantifier": "all circuits of that class, all numbers of steps, all inputs and parameters, all tolerances eps >= 0 and numbers of iterations", "why_tests_cant": "A bound on the error after an arbitrary number of steps, uniform in inputs and states, cannot be observed on sample runs; the exact solution is not computable by a test.", "anchors": ["pyphs/numerics/numerical_method/_method.py: set_execactions, set_update_vl, set_update_vnl", "pyphs/numerics/numerical_core/_numerical_core.py: Numeric.update", "pyphs/numerics/numerical_method/_discrete_calculus.py", "pyphs/config.py: simulations (eps, maxit)"]}
{"id": "C76", "title": "The cantilever component computes the modal equations of a beam", "statement": "A cantilever beam with any number of modes and any number of contacts, placed in any graph from which a core is built, computes the modal equations: each mode is a mass with a stiffness Kb*k^4 and a damping, driven by the forces at the contacts weighted by the projection coefficients, and the velocity at each contact is the sum of the modal velocities weighted by the same coefficients; the flow that enters the beam at a node is the sum of the forces of the contacts at that node. Hence the power received at the contacts is the variation of the modal energy plus the dissipated power, the beam is passive when the dampings are not negative, in harmonic regime the contacts are related by the modal mobilities sum w_n w_n' s/(m s^2 + a s + k), and these are reciprocal. The labels of the edges are distinct for at most ten contacts or at most ten modes.", "quantifier": "all labels, lists of contacts, lists of wave numbers and of dampings, coefficients that are not zero, all graphs around the beam, all solutions of the equations of the core", "why_tests_cant": "The repository only builds the component with its default parameters; the equations for all numbers of modes and contacts in all surroundings cannot be enumerated.", "anchors": ["pyphs/dictionary/beams/_cantilever.py: Cantilever.__init__", "pyphs/dictionary/mechanics/_mass.py", "pyphs/dictionary/mechanics/_damper.py", "pyphs/dictionary/mechanics/_stiffness.py", "pyphs/dictionary/transformers/_transformer.py"]}
{"id": "C77", "title": "The coefficients of a contact are projections on the modes of a clamped-free beam", "statement": "The long formula of omega_cosine is the mean, under a cosine window of the width of the contact centered at its position (a nonnegative weight with integral 1), of the function modeShape, which solves the equation of bending phi'''' = k^4 phi with a clamped end (no displacement, no slope) and no shear at the free end, has norm 1 on [0, L], and also has no moment at the free end if and only if 1 + cosh(kL)cos(kL) = 0, i.e. it is then a normalised mode of the cantilever. Modes of different wave numbers are orthogonal. For a width of 0 the coefficient is the value of the mode at the point.", "quantifier": "all wave numbers k > 0, lengths L > 0, positions, widths w >= 0 with k*w different from pi", "why_tests_cant": "Equality of a closed formula with an integral, for all real parameters; a test compares floats at a few points.", "anchors": ["pyphs/dictionary/beams/_cantilever.py: omega_cosine"]}
{"id": "C78", "title": "The search of wave numbers misses no mode, and the length fits the requested frequency", "statement": "The positive solutions of 1 + cosh(x)cos(x) = 0 are one in each interval (i pi + pi/3, i pi + 2 pi/3), and k is the wave number of a mode of the clamped-free beam of length L if and only if k L is one of them. The search of sign changes of waveNumbers returns exactly N numbers, the i-th lower than the i-th wave number of the beam by less than one step of the grid: no mode is missed, none is found twice and the order is that of the frequencies. beamLength returns the length with the requested fundamental frequency up to one step of its grid, and fails for beams of 10 m or more. Together with C76 and C77: from the parameters of the component (radius, modulus, density, frequency, number of modes, dampings, contacts) to its equations.", "quantifier": "all numbers of modes N >= 1, lengths L > 0, frequencies, rigidities and masses > 0 (in exact arithmetic, when none of the roots is exactly a point of the grid), all graphs around the component", "why_tests_cant": "That a scan on a grid finds every root requires a bound on the distance between roots for all of them; tests only look at a few numbers of modes.", "anchors": ["pyphs/dictionary/beams/_cantilever.py: waveNumbers, beamLength, Cantilever.__init__"]}
{"id": "C79", "title": "The audio effect of a method plays the simulation of the method", "statement": "The C++ text that method2jucefx generates for an audio plugin (prepareToPlay and processBlock) feeds the generated object, sample by sample, with the channels of the host multiplied by the input gains 10^g and with the values of the parameters, and writes in the channels the outputs of the method multiplied by the output gains; the inputs that are not connected keep their value; gains and parameters go linearly from their last values to the positions of the sliders during a block. So with sliders that do not move, the output of the plugin is that of the Python simulation at the sample rate given to prepareToPlay, from the initial values of the method, whatever was played before and however the host cuts the signal in blocks. Moving a gain, or a single parameter, makes no jump. With two parameters or more this last claim fails: every parameter but the last one restarts in each block from its value at prepareToPlay.", "quantifier": "all methods, all choices of one or two inputs, of at most as many outputs and of parameters, all sequences of blocks, all positions of the sliders, all sample rates if no coefficient without arguments contains it", "why_tests_cant": "The generated text is not compiled by the tests, and the claim is about all signals, all lengths of blocks and all methods.", "anchors": ["pyphs/misc/juce/_fx.py: method2jucefx, applygain, applyparameter, processBlock, prepareToPlay, audioParametersFloats", "pyphs/numerics/cpp/arguments.py: set of one element", "pyphs/numerics/cpp/functions.py: get of one element"]}
{"id": "C80", "title": "Values given to the parameters of components reach their equations, and only them", "statement": "A component is created with arguments that are numbers, tuples (name, value), names or expressions. After the cores of the components are added and core.substitute(selfall=True) is done, the energy of the system is the sum of the energies of its components, and its dissipation functions and connector coefficients are those of the components, each with the values of its own arguments: the number, the number of the tuple, or the value of the parameter of that name. Arguments that are not given have their default value. The parameters core.p are exactly the arguments given by their names, none of them is fixed by core.subs, and no symbol of a value is left in the equations. This holds if the labels are distinct and the names are simple (no underscore, not ending with 'coeff', one value per name). Other choices of names mix up values silently.", "quantifier": "all lists of components (linear, nonlinear, connectors) with any equations, all arguments, all values of the variables and of the remaining symbols", "why_tests_cant": "The values pass through three renamings and two merges of dictionaries; whether two of them collide depends on all the labels, keys and names of the system at once.", "anchors": ["pyphs/dictionary/tools.py: form, mappars, parametersDefault", "pyphs/dictionary/edges/dissipatives.py, edges/storages.py, edges/connectors.py", "pyphs/dictionary/mechanics/_felt.py", "pyphs/core/core.py: __add__, add_parameters", "pyphs/graphs/graph.py: _build_from_netlist, __add__", "pyphs/core/tools/_substitutions.py: substitute_core"]}
{"id": "C81", "title": "Circuits whose dissipation depends on the state", "statement": "For a circuit whose dissipative laws depend on the states of its storages (for example a state-dependent resistance, or a felt), the method built by Method and solved by the simulation consists of the laws of Kirchhoff, the constitutive equations of the storages and ports and of each dissipative edge, where the states in a law are replaced by x + theta*dx without splitting; by x + 2*theta*dx with splitting; and, for the trapezoidal rule, the law is replaced by the mean of its values at x and x + dx (without splitting) or the mean 1/4, 1/2, 1/4 of its values at x, x + dx and x + 2 dx (with splitting). If the laws never provide power at any state, no run produces energy, whatever the options are (provided the gradient of the method is exact: quadratic energies with any gradient, or any smooth energy with the discrete gradient and without splitting).", "quantifier": "all circuits with a unique realization, all laws depending on all variables but the gradient (for the passivity, depending on any variable), all options of the method, all steps and all histories of inputs", "why_tests_cant": "The order in which the symbols are replaced and the number of times a law is evaluated depend on the options; the values agree at equilibrium and for constant laws, so samples with constant laws show nothing.", "anchors": ["pyphs/numerics/numerical_method/_method.py: Method.__init__, build_structure_evaluation", "pyphs/dictionary/mechanics/_felt.py"]}
{"id": "C82", "title": "The pickup is a coil in which the motion of the mass induces a voltage", "statement": "A Pickup inside any graph imposes the laws of a coil with Ncoil turns on a magnetic core of capacity Ccoil: the magnetomotive force Ncoil*I of the coil is that of the flux of the core, and the voltage is Ncoil times the rate of this flux less the flux rate h*f(q, dtq) brought by the magnet of force h. These laws hold for every value of the coupling f, including f = 0 (mass at rest) where the ratio 1/f of the gyrator of the code does not exist. The observer of the pickup sees the velocity of every component connected between the reference and the mass, and its only reaction on it is the force EPS*q; the electrical power is stored in the core or exchanged with the magnet. With a constant magnet, along any motion, the voltage is the time derivative of the flux Ncoil**2*Ccoil*I - Ncoil*h*Phi(q), where f is the derivative of Phi(q(t)). In a simulation, the position given to f is the state at the beginning of the step and the velocity is the backward difference of this state (that of the previous step); in general, observers are computed in each update with the new states, inputs and parameters and with the increments and dissipative variables of the previous update.", "quantifier": "all graphs around the pickup, all labels, values of the parameters, couplings and solutions of the core; all differentiable motions; all methods, states, inputs and parameters for the observers", "why_tests_cant": "The signs of two gyrators whose documented relations are both reversed by the analysis cancel only because both are effort-controlled, which depends on the graph; the singular ratio at rest is invisible to samples in motion.", "anchors": ["pyphs/dictionary/transducers/_pickup.py", "pyphs/dictionary/edges/observers.py: Observerec", "pyphs/dictionary/magnetics/_source.py, magnetics/_capacitor.py", "pyphs/numerics/numerical_method/_method.py: set_update_observers, set_execactions", "pyphs/graphs/analysis.py"]}
{"id": "C83", "title": "Constant sources act as inputs held at their value, in Python and in C++, but the source power of the data file misses them", "statement": "A Port with a parameter const (more generally, an input or a parameter that has a value in subs) acts exactly as if its value were given as input at every step: every update succeeds if and only if the update of the method without this value does, and all states, efforts, dissipative variables and outputs are the same. What the user gives for a constant has no effect. The object of the generated C++ code, from its construction, and the Python object write the same data file. The columns u and p of this file hold what was given, not the constants; hence the power ps read in the file misses the power of the constants: the sum of dtE, pd and ps is, up to the tolerance of the solver, minus the power (c - u)*y of the constants, and not zero.", "quantifier": "all methods, values of constants, histories of inputs, numbers of steps, initial states and memory contents", "why_tests_cant": "The constants are replaced in every compiled function but their slots remain in the arguments; equality of two simulations for all inputs, and that no operation reads the stale slots, are not visible on samples.", "anchors": ["pyphs/dictionary/edges/port.py", "pyphs/numerics/tools/_lambdify.py", "pyphs/numerics/numerical_core/_numerical_core.py: evalfunc_generator, update", "pyphs/numerics/simulations/h5data/h5data.py: init_data, ps, pd", "pyphs/numerics/cpp/arguments.py", "pyphs/numerics/cpp/method2cpp.py"]}
{"id": "C84", "title": "A netlist of linear components is simulated as documented, from its lines to the values of each step", "statement": "The lines of a netlist with resistors, capacitors, inductors, masses, stiffnesses, dampers, magnetic elements, sources, gyrators and transformers describe branches between nodes and laws (documentation of the classes: argument, default, meaning of the parameter, reference node). For every such netlist whose values are positive and whose names are distinct, and whose lines the code accepts: the graph and its core are built; the energy of the core is the sum of the energies of the components; the method solves exactly Kirchhoff's laws and the laws of the components, and its outputs are the efforts of the flux sources and the fluxes of the effort sources; for all inputs and all initial states the simulation runs, each step converges, moves the states by their increments, reads the inputs and solves these equations; and with the default gradient the stored energy changes by exactly what the resistances dissipate and the sources exchange. Defaults of some classes are not the documented ones.", "quantifier": "all netlists of these components (any number of lines, any graph that pyphs can analyse), all orders of edges and nodes in networkx, all values of parameters, all sampling rates, all inputs and initial states, all numbers of steps", "why_tests_cant": "The chain goes through the parser, the dictionaries, the substitution of parameters, the graph analysis, the connection of connectors, the splitting of the method and the solver; each test runs one netlist with one set of values, and compares with a stored result of pyphs itself.", "anchors": ["pyphs/graphs/graph.py: _build_from_netlist, __add__", "pyphs/graphs/netlists.py", "pyphs/dictionary/electronics", "pyphs/dictionary/mechanics", "pyphs/dictionary/mechanics_dual", "pyphs/dictionary/magnetics", "pyphs/dictionary/connectors", "pyphs/dictionary/edges", "pyphs/dictionary/tools.py", "pyphs/graphs/analysis/build.py", "pyphs/core/core.py: connect", "pyphs/numerics/numerical_method/_method.py", "pyphs/numerics/numerical_core/_numerical_core.py"]}
{"id": "C85", "title": "Storages in parallel are merged into one, and the netlist is still simulated as documented", "statement": "Before its analysis a graph is split into parallel and serial parts, the components of a part which cannot be realized together (several capacitors in parallel) are replaced by one, and the parts are put back. A graph whose analysis succeeds as it is comes back unchanged, up to the order of edges. For every netlist of linear components with positive values, distinct names that can be put one after the other without ambiguity, and no part that hangs from a single node: if the merged graph is analysed, each merged component stands for the components of its group, and the method, the simulation and the energy balance are those of the components of the netlist as documented: charge of each capacitor of the group obtained from the merged state, same energy, same Kirchhoff laws, same inputs and outputs. Components between the reference and a node without another neighbour are not merged and the analysis fails; a merged name may be the name of another component.", "quantifier": "all netlists of the components of C84, all orders of enumeration of networkx at each pass, all orientations, all numbers of merged components, all values, inputs, initial states, sampling rates and numbers of steps", "why_tests_cant": "The merging rewrites edges, states and energy in place, at every level of nested parts, in an order which depends on networkx; a test of one circuit checks that no exception is raised, or compares with one stored result.", "anchors": ["pyphs/graphs/graph.py: perform_analysis, sp_split, sp_merge_arc, sp_assemble, remove_edges_from_list", "pyphs/graphs/subgraph.py: merge_arc_storages, merge_arc_dissipatives, nonrealizable_storages, nonrealizable_dissipatives, SubGraphParallel", "pyphs/graphs/tools.py: parallel_edges, serial_edges"]}
{"id": "C86", "title": "A netlist with diodes, potentiometers, cubic and saturating springs or saturating capacitors is simulated as documented", "statement": "The lines of a netlist may also describe diodes (Shockley's law, series resistance, minimal conductance), potentiometers, cubic and saturating springs (mechanics and mechanics_dual) and saturating magnetic capacitors, besides the linear components of C84. For every such netlist whose laws are physical and whose names are distinct: the graph and its core are built, with the inner nodes of the diodes; the energy of the core is the sum of the documented energies; the method solves exactly Kirchhoff's laws and the documented laws, with the documented rule for the gradient of each nonlinear energy (discrete gradient with its expansion near zero, theta-scheme, trapezoidal rule), and gives the efforts and fluxes of the sources as outputs; each update of a simulation moves the states by their increments, reads the inputs and solves these equations; the dissipative components always receive power, and with the discrete gradient the stored energy changes by exactly what they receive and what the sources exchange. If the laws increase, the solution of a step is unique; if moreover they are smooth on the whole line and the analysis computes the diodes from their voltages, each step has exactly one solution, for every state and every input. The documented laws are physical for positive parameters: the forces derive from the energies. Labels and parameter names that meet the keys of a nonlinear component change its law silently.", "quantifier": "all netlists of these components (any number of lines, any graph that pyphs can analyse), all orders of edges and nodes in networkx, all values of parameters, all rules for the gradient, all sampling rates, all inputs and states in the domains of the laws, all numbers of steps", "why_tests_cant": "The chain goes through the parser, the dictionaries, the substitution of the keys in nonlinear expressions, the choice of the controls by the analysis (which of the two laws of a diode is used), the partition into mono- and multivariate states and the discrete gradient; tests run a few netlists with fixed values and check that no exception is raised.", "anchors": ["pyphs/dictionary/electronics/_diode.py", "pyphs/dictionary/electronics/_potentiometer.py", "pyphs/dictionary/mechanics/_springcubic.py", "pyphs/dictionary/mechanics/_springsat.py", "pyphs/dictionary/mechanics_dual/_springcubic.py", "pyphs/dictionary/mechanics_dual/_springsat.py", "pyphs/dictionary/magnetics/_capacitorsat.py", "pyphs/dictionary/edges/dissipatives.py: DissipativeNonLinear", "pyphs/dictionary/edges/storages.py: StorageNonLinear", "pyphs/dictionary/tools.py: mappars", "pyphs/graphs/graph.py: _build_from_netlist", "pyphs/core/maths/_discrete_calculus.py", "pyphs/numerics/numerical_method/_method.py"]}
{"id": "C87", "title": "The low-pass filter has gain one at frequency zero and no delay", "statement": "For every cutoff frequency in (0, 1/2) and every relative transition band in (0, 1), lowpass(s, fc, tbw) succeeds on every signal that is not empty: the sum by which it divides its coefficients is at least one. The coefficients are those of the documented windowed cardinal sine; their number 2m+1 is odd, at least 4/(tbw fc) and less than that plus 2; they are symmetric and their sum is one. If the signal has at least 2m+1 samples, the result has the length of the signal and its sample i is the mean of the samples around i weighted by the coefficients (the signal being extended by zeros). Hence, m samples away from the ends, constants and ramps are unchanged, and a sinusoid keeps its frequency and phase and is multiplied by a gain which only depends on its frequency, with gain one at zero. The filter is linear, ends included. A signal shorter than the filter gives a longer result of 2m+1 samples, moved by m - (len(s)-1)//2; an empty one is refused.", "quantifier": "all signals of real numbers of any length, all cutoff frequencies in (0, 1/2), all transition bands in (0, 1), all frequencies, phases and amplitudes", "why_tests_cant": "The normalisation divides by a sum of terms of both signs over thousands of coefficients, for a continuum of parameters: that it never vanishes is the inequality of Fejér and Jackson. Tests try a few signals, longer than the filter.", "anchors": ["pyphs/misc/signals/processing.py:9-47"]}
{"id": "C88", "title": "The measured transfer function is the ratio of the amplitudes, at the frequencies within the limits", "statement": "transferFunction(sigin, sigout, fs, nfft, filtering, limits, noverlap) on two signals of the same length: the frequencies are the multiples k fs / L (L = min(nfft, length) is the length of the segments) from zero to half the sampling rate which are within the limits (all of them by default), in increasing order, with one value for each; it raises only if the lower limit is above all of them. For segments of at least two samples the value at bin k is the square root of the ratio of the energies of both signals at this bin (sum over the segments, one every L - overlap samples, of the squared modulus of the Fourier coefficient of the segment without its mean, weighted by the window of Hann); it is nan or inf where the energy of the first is zero. Constants added to the signals change nothing. If both signals are sinusoids with a whole number of periods k in a segment, with 0 < k and 2k + 1 < L, the value at their frequency is exactly the ratio of the amplitudes of the second and of the first, for every overlap and all phases. If the second signal is c times the first, with or without low-pass filter, every value is |c|, except where the spectrum of the first signal vanishes, where it is nan. Empty signals raise.", "quantifier": "all pairs of real signals of any common length, all sampling rates, lengths of segments, overlaps, limits, cutoff frequencies, amplitudes and phases", "why_tests_cant": "The value at a bin is a ratio of averages of windowed Fourier transforms; a test compares it with a tolerance on one signal. The exact ratio for all phases and overlaps, and the selection of the bins at both limits, need a proof.", "anchors": ["pyphs/misc/signals/analysis.py:126-184"]}
{"id": "C89", "title": "The signal generator computes the documented waveforms", "statement": "For documented durations and at least one cycle, signalgenerator returns ndeb samples of background noise, the waveform of the last cycle multiplied by the ramp and the envelope, plus noise and offset, the inactive part of the cycle and nend samples of noise, where sample i of the waveform is 0 ('zero'), A ('const' and 'step'), A sin(2 pi f0 i/fs) + A1 sin(2 pi f1 i/fs) ('sin', without the second term if f1 is None), A cos(2 pi f0 i/fs) ('cos', whatever f1 and A1), or a value of the random generator ('noise'). For 'sweep' with at least two samples per cycle and the default phase it is A sin(phase(i/fs)), where the phase is zero at time zero and its derivative is 2 pi times the documented frequency: for each of the four methods this frequency is f0 at the first sample, f1 at the last, and increases in between if f0 < f1. A sweep of one sample fails. The amplitude, documented as peak to peak, is half of that.", "quantifier": "all durations, sampling rates, ratios, ramps, offsets, numbers of cycles, amplitudes, positive frequencies, methods, and values of the random generators", "why_tests_cant": "Tests check that each kind of signal can be generated. The frequency of a sweep is a derivative, for a continuum of times and frequencies, with the end of the sweep at the last sample whatever the rounding of durations.", "anchors": ["pyphs/misc/signals/synthesis/synthesis_array.py:40-187", "pyphs/misc/signals/synthesis/synthesis_array.py:306-355"]}
{"id": "C90", "title": "The tables of parameters of the documentation are grids from which the cells can be read back", "statement": "rstTable(header, content), used for the parameters of all components of the dictionary, with cells given as texts: it raises exactly when a line of the content has not as many cells as the header. Otherwise the table has 2 m + 3 lines (m lines of content), all of the same length; the separators are at the same positions in all lines, '+' in the lines of delimiters and '|' in the others; between two separators there is the delimiter ('=' under the header, '-' elsewhere) or one space, the cell and spaces; the width of a column is the length of its longest cell. Two tables with the same text have the same header and the same content if no cell ends with a space (cells may contain separators and line breaks); spaces at the end of a cell are lost.", "quantifier": "all headers, all contents, cells of any length", "why_tests_cant": "The alignment depends on the lengths of all the cells of all the columns; a test compares a few tables with texts. That no other content gives the same table needs a proof.", "anchors": ["pyphs/misc/rst/tools.py:100-149", "pyphs/dictionary/tools.py:15-21"]}
{"id": "C91", "title": "The netlist line in the documentation of a component is read as this component with its defaults", "statement": "The netlist line that componentDoc writes for a component with parameters is the line Netlist.write writes for it, and Netlist.read gives back the dictionary, the component in lower case, the label, the nodes and all the parameters with their default values, in order (names of parameters distinct, entries without the separators of netlists). This holds for the 35 components of the dictionary whose defaults are numbers, identifiers, constants or tuples of numbers; for these the name in the line has no upper case letter, the graph builds the class of the documented component from the name of the line (with any case), and the documented module exports it. These 35 components and four others are all the classes the modules export, each once. For the capacitor and the inductor of electronics, whose defaults are the texts '1e-9' and '1e-3', the line is read with the numbers. componentDoc raises for a component without parameters.", "quantifier": "all metadata with entries without separators; all formats of numbers that read back what they print", "why_tests_cant": "The documented line is text for a human; no test reads it back. It depends on the printing of values, on the lower case of the names and on the parser of netlists together.", "anchors": ["pyphs/dictionary/tools.py:36-43", "pyphs/dictionary/tools.py:80", "pyphs/dictionary/tools.py:106-163", "pyphs/graphs/graph.py:386-396", "pyphs/graphs/netlists.py:105-146"]}
