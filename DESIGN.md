# Formal model of pyphs in Lean 4

## 1. Approach

The python code in `/repo` is read as text and modelled function by function in
Lean 4 (`/verif/lean/Verif`). The model is made of small, total, computable functions over
`List`, `Nat`, `Int`, `ℚ`, strings and finite matrices; an exception raised by
the code is a value (`Except`/`Option`), a loop is structural recursion or an explicit
fuel-indexed iteration with a theorem about every fuel. Real analysis (gradients,
energies) is over `ℝ` with Mathlib's derivative.

Each area has
* `Verif/<Area>/Model.lean`: the model, every definition cites file and lines;
* `Verif/<Area>/Lemmas.lean`: helper lemmas (where needed);
* `Verif/<Area>/Props.lean`: independent specification predicates, the property
  theorems (named after the property, `C02_...`), and `example`s with concrete cases.

## 2. Plan per property (written before the proofs)

| id | model | proof plan |
|----|-------|------------|
| C01 | `myrange` on lists of ℕ | position/permutation by list lemmas |
| C02 | numeric core snapshot: symbol lists + matrix with shape; `move_*` as in moves.py | coefficient-by-name relation; induction over lists of moves |
| C03 | `J`, `R` on shaped matrices over a field | algebra, quadratic form |
| C04 | `get_mat`/`set_mat` on index ranges | entry-wise case analysis |
| C05 | history of `add_*`/`set_*` as operations on the core | induction on operation list |
| C06 | `__add__` as block stacking | sums over index ranges |
| C07 | `add_connector` = two `port2connector` | name-indexed coefficient relation |
| C08, C09, C10 | `connect` formula with inverse as a hypothesis/`Option` | linear elimination, both directions; quadratic form; the documented sign is refuted by a theorem |
| C11, C12 | `reduce_z` formula | same elimination lemma; affine laws / forced list: counterexamples |
| C13, C14 | the two in-place loops over boolean dependency patterns | loop invariants |
| C15–C18 | discrete gradients as real functions | sums of telescoping differences, midpoint identities |
| C19–C21 | `F(v)=0` equations over matrices; run = list of steps | matrix identity, induction on steps |
| C22 | `G`, `jac`, Schur complement update | linear algebra equivalence |
| C23, C24 | interpreter of action lists on argument vector, `_iterexecs` loop | induction on maxit, on number of updates |
| C25 | `find` + evaluation by indices | list induction |
| C26 | `update_actions_deps` recursion | invariant of depth-first search |
| C27 | `build_structure_evaluation` applied once or twice, symbolic substitution | negative theorem for split, positive for no split |
| C28 | deep embedding of expressions, `subs` | substitution lemma; counterexample for chains |
| C29–C31 | model of generated C++ object (stored fields) | simulation relation with the python interpreter; counterexamples |
| C32–C36 | dataset as finite map of rows; state machine of accessors | induction on rows / operations |
| C37, C38 | dictionaries as association lists | direct |
| C39–C44 | graph analysis state machine over integer matrices | invariants over all steps; Kirchhoff equivalence by linear algebra; non-termination witness |
| C45 | merges as sums | algebra by induction on the number of merged components |
| C46, C47 | strings as `List Char`; printer and parser | parser-after-printer lemma; induction on edits |
| C48–C52 | constitutive laws as real functions | real analysis |
| C53 | Chua form | induction on data |
| C54 | list functions | induction |
| C55, C56 | sample lists, rounding to integer | arithmetic |
| C57 | heap model with references for the aliasing question | invariants |
| C60 | the same state machine | invariant: no edge with a prescribed control is ever indeterminate again |
| C61 | constructors as lists of parts in an arbitrary graph | Kirchhoff (C42), controls (C40, C60), connectors (C51), then algebra per pole |
| C62 | graphs as lists of edges, subgraphs as trees, enumeration orders as oracles | chains are simple paths of nodes with two neighbours; invariant of both passes (multiset of leaves, one edge per pair); the number of edges decreases; negative theorems for hanging loops |
| C63 | composition of the Graph, Core, Scheme and Sym models; sympy's zero tests and free symbols as oracles | each stage is a permutation that preserves the solutions; specification `StepEqs` written on edges, efforts and flows |
| C64 | the same | exact gradient (C20, or quadratic energies) and Tellegen through C63, induction on steps; negative theorem for `split=True` |
| C65 | `simulation.py` `_process_py`, `h5data.py` `dtE`, `pd`, `ps`, `E` | file content by C24, C33, C34, C59; readers by C35; balance by C59, induction on samples for the energy |
| C66 | composition of C63, C59 and C65 | residuals as sums over components (`rowRes`), affine dependence stable under the reordering and the change of gradient made by `explicit_implicit`, then C59 and C65 |
| C67 | the same numerical object, `inv` returns `none` for a singular matrix | monotone laws make both Jacobians nonsingular (skew-symmetric part vanishes in the quadratic form); every command returns, induction on the loop |
| C68 | the same, two methods on one circuit | monotonicity gives uniqueness; C63 gives the same equations for all the options; induction on steps |
| C69 | the same numerical object | the residual is affine in the unknowns, one iteration cancels it; the loop ends after it; composition with C67 and C68 |
| C70 | the same, two trajectories | skew-symmetry cancels the exchanges between the differences, monotone laws only lose; induction on steps |
| C71 | the recursion of `subsinverse_scalar` on expression trees, the dictionary threaded through all expressions | invariant: the dictionary is the old one with inverses added; induction on the recursion |
| C72 | a small language of Faust block diagrams, executed sample by sample; the generator as functions to diagrams | values of diagrams without memory by list lemmas; invariant for each nested recursion (values of two samples); comparison with the interpreter of Python actions, induction on samples |
| C73 | the struct as a sequence of numbers with offsets, `main` as a loop on rows; the object through `set`, `update`, `vector` | offsets of members = columns of the layout; one row of the loop = one dump of Python; induction on rows with the relation of C29 |
| C74 | `D v = M f(v) + b` with `M` dissipative, `f` monotone (`Numeric/Monotone.lean`) | regularized equation by contraction (resolvents of the laws, found by the intermediate value theorem), bounds that do not depend on the regularization, compactness; uniqueness is C68 |
| C75 | two approximate solutions of the equations | the inequality of C70 with what the dissipations remove: `g'^2 <= g^2 + a (g + g') + b^2`, hence `g' <= g + a + b`; induction on steps |
| C76 | modal equations `Modal` (`Beam/Spec.lean`) | the dual sides of the transformers are effort controlled because of the masses; Kirchhoff's law at the nodes of the modes and of the chains; sums of the potentials along the chains |
| C77 | `Mode`, `window`, `project` (`Beam/Modes.lean`): differential equation, boundary conditions, integrals | explicit primitives, product to sum formulas; orthogonality by the concomitant of two solutions |
| C78 | `root`, `Mode` | `cosh(x)cos(t)` is strictly decreasing on [pi/3, pi], intermediate values; number of roots below a point of the grid; clamped solutions by the concomitant |
| C79 | `ramp`, `specU`, `specP`, `specOut` (`Juce/Spec.lean`); `Record.Run` (C65) for the simulation in Python | simulation relation between the object and the method in which inputs and parameters are set one by one (`Sim`, `Ready`); induction over samples, then over blocks; C29 and C30 for the object |
| C80 | `Obj.value`, `atArgs`, `Comp.energy`, `Comp.laws`, `Comp.ratio` (`Params/Spec.lean`): the equations of each component with the values of its arguments | closed form of `mappars` by induction; sorted sequential replacement of the keys; the merged dictionary agrees with every record; C28 for `substitute` |
| C81 | `seen` (`Circuit/Dynamic.lean`): a law as a function of the states, evaluated where the options say; `StepEqs` of C64 | the core built with any laws is the core built with constant laws up to the laws (`mapLaws`), so C63/C64 apply; commutation of the replacement of states with permutations |
| C82 | `Coil`, `flux` (`Pickup/Spec.lean`): the laws of Hopkinson and Faraday for a coil; `seenEnv` (`Pickup/Observe.lean`) | C42 (laws of Kirchhoff), C51/C60 (both gyrators are effort-controlled since two edges from the reference to a node are not both flux-controlled); derivative of the flux; frame lemmas of C24 for the observers |
| C83 | `constIn` (`Const/Props.lean`): given values, except for the constants; `missing` (`Const/File.lean`): the power `(c - u) y` | `Const/Mask.lean`: a program with constants in its functions, on any arguments, does what the program without them does on arguments that hold them, by induction on operations, commands and iterations; the same for the C++ object (`Const/Cpp.lean`); then C24, C29, C59, C65, C73 |
| C84 | `System/Spec.lean`: branches, devices, documented meaning of a line (`device`), Kirchhoff's laws by nodes of the netlist, laws of the devices, `Step`, stored energy; no graph, core or method | `System/Rows.lean`: a line gives the part of its device; `Build`: its expressions have the values meant (C80); `Assemble`, `Circuit`: the graph is a `CircuitOK` and a linear circuit; `Equations`: its equations are those of the netlist; `Power`: Tellegen's theorem for the spec; then C63, C66, C69 |
| C85 | `System/Spec.lean` (C84) for the netlist; `lift` (`Arc/Lift.lean`): state of each component of a group from the merged one | `Arc/Idle.lean`: Kirchhoff's laws forbid two flux-controlled storages in parallel in an analysable graph; `Bank`: a bank of linear storages is one storage; `Names`, `Plan`: each merging replaces a group of devices by the merged device; `Merged`: induction on the tree of subgraphs with C62; `Lift`: the steps of the merged netlist are those of the netlist; then C84 |
| C86 | `Nonlin/Spec.lean`: components, documented laws and energies (`meaning`), rules for the gradient, `Step`, `InDomain`; no graph, core or method | `Nonlin/Rows.lean`, `RowsNl`: a line gives the part of its components, its expressions have the values meant (C80); `Build`: graph and core; `Generic`: C63 and C84 with any laws that can be inverted; `Gradient`: the gradients of an energy which is a sum of functions of one state; `Equations`, `Power`: Tellegen; `Unique`: Tellegen on the difference of two solutions; `Exists`: C74 with the laws chosen by the analysis only |
| C87 | the documented coefficients written with sine and cosine, sums over integers around a sample, existence of a gain `G` with `G 0 = 1` | `Signals/LowpassProps.lean`: inequality of Fejér and Jackson by induction (at a minimum the derivative vanishes and the last term is nonnegative), summation by parts with the decreasing window, sums of odd sequences vanish |
| C88 | bins `k fs / L` filtered by the limits; energies of the bins written out (`energy`); amplitudes `A`, `B` of sinusoids; `|c|` | `Signals/TransferProps.lean`: positions of the limits in an increasing list; sums of roots of unity, window of Hann as three exponentials, so the transform of a sinusoid at its bin is `A L / 4` times a phase; C87 for the filter |
| C89 | `documented`: the formula of each kind; `frequency`: the four documented laws | `Signals/WaveProps.lean`: derivatives of the four phases; C55 for the assembly |
| C90 | positions of the separators as sums of widths; widths as maxima of the lengths of the cells | `Doc/TableProps.lean`: the text as lines framed by separators; the widths are read in the first line of delimiters, split at `+`; the lines and the cells are then read by position |
| C91 | the described row is given by the metadata directly; reading is the parser of C46 | `Doc/LineProps.lean`: the line equals the printed row of the netlist (C46); the conditions on the dictionary are decided by a boolean check proved sound |

## 3. Trusted base

* Lean 4.33.0 kernel, Mathlib as installed. Axioms: `propext`, `Classical.choice`, `Quot.sound` only.
* The correspondence between the model and the python text (by reading, cited line by line).
* Not modelled: sympy's simplifier, lambdify/theano code generation, floating-point rounding,
  h5py file format, networkx internals, plots, latex, juce export; the Faust and C++ compilers (the semantics of the Faust
  block diagrams used is part of the model, section 4).

## 4. What is modelled, area by area

### Tools (`misc/tools.py`)
All list functions: `myrange`, `decimate`, `remove_duplicates`, `get_strings`, `ordering`,
`find`, `interleave`. Floats are not modelled.

### Mat
Matrices are a number of rows, of columns, and a total function on indices; every statement
restricts the indices to the shape. `inv` returns `none` when the determinant is zero (sympy
raises), the determinant is the Leibniz expansion proved equal to the existence of an inverse.

### Core (`core/core.py`, `core/structure/`)
Symbols are strings, a core is the lists `x w u y cu cy`, `connectors`, the dimension
counters `xl wl`, and the structure matrix over a commutative ring/field (entries are values,
i.e. the matrix evaluated at a point; sympy expressions are handled in *Sym*).

### Scheme (`numerics/numerical_method`, `core/maths`, `core/structure/splits.py`)
Expressions are functions `Env ℝ → ℝ`; `pdiff` is Mathlib's `deriv` along a symbol. Sympy's
`diff` is trusted to be the derivative. The classification of variables as linear uses an
arbitrary dependency pattern (the free symbols of the Jacobian), so that the theorems hold
whatever sympy's simplifier makes of it.

### Sym (`core/tools/_substitutions.py`, `Core.substitute`, `build_structure_evaluation`)
Deep embedding: constants, symbols, unary and binary operators, interpreted by an arbitrary
`Interp`. `subs` is modelled as the sequential replacement in the order of the sorted keys;
sympy's automatic simplification is represented by *equality of values*, never by equality of
trees, except in the counterexamples where no simplification applies.

`Sym/Inverse.lean` models `Core.subsinverse` with `sympy.simplify` as an oracle. The dictionary is modified in place,
also by calls that raise; expressions of matrices and dictionaries ignore `TypeError`.

### Numeric (`numerics/numerical_core`, `numerics/tools`)
* `Interp`: the interpreter of actions on the argument vector. Numpy broadcasting is reduced
  to the cases used (scalar with array, equal lengths, matrix with vector/matrix). NaN is not
  modelled: the comparison `res > eps` is that of a linear order.
* `Lambdify`: a lambdified function is the expression evaluated with its arguments bound by
  position; that `sympy.lambdify` does this is trusted.
* `Program`: the table of operations and functions that `Method.__init__` installs, with the
  order of the actions.
* `Deps`: `update_actions_deps` with fuel; recursion without end is shown as failure for every fuel.

### Netlist (`graphs/netlists.py`)
Text is a list of characters. `NumFmt` (printing and reading of floats) is a parameter with the
hypothesis `FmtOK`, shown to hold for the integers. `literalEval` covers the literals a netlist
can contain (quoted strings, numbers, tuples, the constants, bare words raise). Not modelled:
`\r` as a line end, escapes in strings, file encoding. `Edit` covers `add_line`,
`delline`, `setline` (the place of an exception is an arbitrary oracle), `line` and `__add__`
(on a heap, since the right operand may be the left one).

### Compo (`dictionary/`)
Components are records of edges, state, energy, laws and parameters. Their expressions are
terms of `Sym.Expr` over the reals, built by the same operations as in the code, and `mappars`
(names, defaults, substitution) is modelled with them; the theorems speak of the values of the
terms after that substitution. `NamesOK` is the condition that parameter names do not meet the
names of the variables. `Real` stands for the floats. Covered: resistors, dampers, capacitors,
inductors, masses, stiffnesses (and duals), diode, BJT, triode, potentiometer, cubic and saturating
springs, saturating capacitor, felt, thermal capacitor and transfer, piecewise linear components
(`Pwl`: `pwl_func` over any ordered field, the assertions of the two components). Not covered:
fractional components, beams, pickups, the dual felt.

### Graph (`graphs/analysis.py`, `graphs/build.py`)
`Model` is the analysis of the controls as a machine on the record `St` (nodes, edges, the two
matrices `G` = Gamma and `L` = Lambda as lists of columns, the lists of effort-controlled,
indeterminate and flux-controlled edges, the indeterminate nodes). The nested `while` loops take
fuel: a result `.error .fuel` for every fuel means that the loop does not end. Exceptions of
`list.index` and of indexing are values. The order of the edges delivered by networkx and of the
nodes is the order of the given lists, which are arbitrary. `Steps` gives the abstract moves on three
segments of columns; `Run` and `Unlock` show that each function of the analysis is a sequence
of these moves. `Build` is the construction of the structure matrix and the reordering of
the core; `numpy.linalg.inv` is the exact inverse over a field.

`Graph/Build.lean` models `buildCore`, `_select_relations` and `_setCore` (`build.py:11-106`) and the
construction of `Gamma_ec`, `Gamma_fc`, `iGamma_fc` (`analysis.py`). `Graph/Kirchhoff.lean` states the two Kirchhoff laws on
the incidence of the graph and proves their equivalence with the structure equation of the built
core (C42). `Graph/Order.lean` gives the order of the components of the core (C43),
`Graph/Erase.lean` proves that the analysis does not look at the ratios of the connectors, and
`Graph/Repeat.lean` follows repeated calls on the same edge dictionaries (C44). `callCore` starts
from the graph after the series/parallel treatment, which is modelled on its own.

`Graph/Link.lean` follows the links of connectors through the analysis and `Graph/Connectors.lean`
gives the relations of gyrators and transformers in the built core, for both controls (C51).
`Graph/Merge.lean` models the four merging functions of `subgraph.py:26-86` on laws of one variable.
`sympy.solve(...)[0]` is a function `solve` assumed only to return a right inverse, and
`sympy.integrate` a function assumed to return a primitive. `MergeProps` compares the merged law
with the behaviour of the cluster, `MergeNet` does the same inside an arbitrary network (parallel
edges, or a path through nodes that carry no other edge, with edges in both directions), and
`MergeStorage` treats the energies over the reals with strictly convex energies (C45). The detection
of clusters is in *Split*. Not modelled: the removal of the merged edges, laws that depend on several
variables.

### Split (`graphs/tools.py`, `sp_split`, `sp_assemble`)
A graph is the list of its edges: components, `_out_` ports, and subgraphs with their own list. The
orders in which networkx enumerates nodes, neighbours and edges are a `View`, an arbitrary function of
which only the content is assumed (`View.Lawful`), and which may differ at each pass. Degrees are those
of `nx.Graph(graph)` (a self-loop counts two). `remove_edges_from([(u, v, None)])` removes the last edge
and is silent when there is none. Not modelled: cores and analysis objects of the subgraphs, nodes
without edges, the merging between the two steps (C45).

### Circuit (`Graph.to_core` followed by `Method.__init__`)

End-to-end composition: analysis (C40, C60), structure (C42), connectors (C51), choice of the
constitutive law by control, gradient rule and structure evaluation (`build_structure_evaluation`),
both splits, `explicit_implicit` and reset. The answers of sympy (`is_zero` tests, free symbols of the Jacobian,
invertibility) are an oracle `Sympy` whose contract `Sympy.OK` only says that reordered lists are
permutations and that reported facts are true. Laws are functions of an environment
and are supposed not to read states or gradients (`StaticLaws`); the structure is a constant matrix. Not
part of the chain: `merge_all`, `Core.substitute`, prescribed `dxH`, resistors created by
`SubGraph` merges. The implicit equations are supposed solved exactly (the Newton loop is C23 and C59).
`Circuit/Spec.lean` states what a circuit is without any definition of the code.
For C66 the contract `JacSound` says that the free symbols reported for an entry of the Jacobian of the
implicit equations contain every symbol on which its derivative depends, for the cores of the given system
only. `Regular` and `RegularCircuit` are the differentiability and naming conditions on the components.
The derivative of a `Piecewise` gradient at its breakpoints is not used: only derivatives with respect to the
unknowns classified as linear are.

For C67 and C68 components are monotone (`MonotoneCircuit`): the energy has no cross derivative between distinct
states and is convex in each of them, a dissipative law contains no other unknown and is nondecreasing. `SameRule`
compares the options of two methods: same sample rate, and same rule or, for quadratic energies, same weight of the
increment in the gradient (1/2 for the discrete gradient, the trapezoidal rule and the midpoint rule).

C74 and C75 add nothing to the model: they are about the equations (`Solved`, `StepEqs`) and the updates of C59, C63.
`ExactRun` (`Circuit/Exact.lean`) states what an exact solution of the equations of a simulation is without the program.

Beams (`Verif/Beam`): `Model.lean` is the network of `Cantilever.__init__` with arbitrary wave numbers, dampings and
coefficients; `Omega.lean` is `omega_cosine` verbatim and `Waves.lean` is `waveNumbers` and `beamLength`, both on exact
reals (numpy's `linspace`, `sign`, `diff`, `nonzero` by their definitions); `Cantilever.lean` composes them. Not
modelled: default values, the check of the names of the parameters, rounding of floats.

Audio effects (`Verif/Juce`): `Model.lean` is the text generated by `misc/juce/_fx.py` for `processBlock` and
`prepareToPlay`, by what it computes; `AudioBuffer::applyGain` and `applyGainRamp` of JUCE by their documentation, sliders
constant during a block (in the plugin another thread may move them), samples in a field instead of floats. The object is
any structure with `set_u`, `set_p`, `update`, `y`; `Method.lean` shows that the code generated for a method is one, with the
accessors of one element of `arguments.py` and `functions.py`. Not modelled: the editor, the parameter layout (ranges and
steps of the sliders), copying of the JUCE project. The free symbols of the generated functions (`Free` in
`Cpp/EquivMethod.lean`) are given for each coefficient, as the generator decides for each coefficient whether it is
constant.

Parameters of components (`Verif/Params`): `Model.lean` is `form`, `mappars`, `parametersDefault`, the constructors of linear
and nonlinear edges and connectors (with the equations of a component as any expressions over variables and keys) and the
part of `Core.__add__` that merges `subs`, `p`, `H`, `z` and the connector coefficients. Expressions and substitution are
those of `Sym/Model.lean`. Not modelled: type checks of `form`, edges and nodes, `Port` with a constant input. The
conditions on names are `NamesOK` and `NamesFree`; `Simple` (`Names.lean`) is a sufficient choice, and covers the diodes,
which share the name `gmin`.

Laws that depend on the states (`Verif/Circuit/Dynamic*.lean`): the laws of the dissipative edges are any functions of the
environment; for the equations they may not depend on the symbols of the gradient (those are replaced as well by the
method), for the passivity they may. The states are not named like the increments (`StateNames`) and the dissipative
variables are not states (`DissNames`).

Pickup and observers (`Verif/Pickup`): `Model.lean` is the list of edges of `Pickup.__init__` and the function `f`. The ratio
of the first gyrator is `f⁻¹` and the coefficient of its connector in the core is `(f⁻¹)⁻¹`, which is `f` in Lean also for
`f = 0`; this is what sympy does with `(f**-1)**-1` before any number is substituted. The pickup is described at one value
of the coupling; in a motion (`C82_induction`) there is one core for each time. Not modelled: the substitution of
`label + 'f'` by an expression that contains observers (C28 and C80 are about substitutions), and the evaluation of a
matrix that contains observers inside the method (in `Numeric`, `M` is any function of the arguments, observers included).

Constants (`Verif/Const`): `Num.constProg` is the `Numeric` of a method with values in `subs` for some inputs or parameters:
the functions are those of the method after substitution, the slots of the arguments remain. In C++ the model of C29 is used
unchanged: the pointers and the mutators of the arguments that are keys of `subs` are those of `Gen.env` and `Src.store`.
Values in `subs` for states or other unknowns are excluded (`ConstOK.up`).

Netlists to simulations (`Verif/System`): `buildParts` is `_build_from_netlist` for the classes with linear laws; the names of classes,
keys, defaults, `inv_coeff` and controls are copied in the table `classOf`. The symbolic parameters are replaced by their values
(C28, C80) before the graph is analysed; the laws of a dissipative edge are functions named after its label. `Compiled` collects what
pyphs builds; the orders of nodes and edges are arbitrary. Excluded: constant sources (C83), nonlinear and fractional components, the other
dictionaries, arguments that are not literals.

For C69 the dissipative laws are affine in their own variable (`LinearLaws`). For C70 the energy has constant second
derivatives; nonlinear monotone dissipative laws are allowed.

### Nonlin (`dictionary/` with nonlinear components, from the netlist to the simulation)
`Nonlin/Model.lean`: `Diode`, `Potentiometer`, `Springcubic`, `Springsat` (mechanics, mechanics_dual), `Capacitorsat`
(magnetics), on top of `DissipativeNonLinear` and `StorageNonLinear`; the other lines and the rest of the chain are those of
`System/Model.lean`. The expressions are those of `Compo/Model.lean`, the substitution of keys the one of
`Params/Model.lean`. The powers of sympy are real powers, `log` and `cos` those of Mathlib (value `0` for `log` outside of its
domain: the theorems are about values inside of the domains, `InDomain`). The derivatives of the laws are those of
sympy (trusted). Not modelled: transistors, triodes, felts, piecewise linear components in a netlist (C49, C50 are about their
expressions).

### Arc (`Graph.perform_analysis` before the analysis)

`Arc/Model.lean`: `merge_arc_storages`, `merge_arc_dissipatives` for parallel subgraphs, `sp_merge_arc`, and
`prepare`, which is `sp_split`, `sp_merge_arc`, `sp_assemble`. The tree of subgraphs is that of Split. Gradients and laws
are functions of one variable, as in Graph (`nonrealStor`, `nonrealDiss`). `sympy.solve` is any solver that solves linear
equations with a positive slope; `sympy.integrate` gives the primitive that is zero at zero. The orders of
`networkx` are arbitrary (`Views`). Not modelled: removal of edges in a series connection (`Err.unmodelled`),
`read_realizability_from_analysis`, `merge_all=True`.

### Frac (`dictionary/fraccalc/`)
The four constructors as functions from weights to lists of parts (linear dissipation, linear storage,
transformer), with the node names and labels of the code. The weights found by `scipy.optimize.minimize`
and the poles of `np.logspace` are arbitrary lists; the selection of the positive weights and their
conversion to coefficients are modelled. The parts are placed in an arbitrary graph whose other edges do
not touch the nodes made by the constructor. Solutions are those of the core built by the model of
`graphs/`; the laws of dissipations follow the control found by the analysis, the gradient of a linear
storage is `value*x`.

### Numeric initial values (`numerical_core.py:69-108`)
`Numeric/Init.lean` models `Numeric.init` after the argument array is filled with zeros (C38). A value
is accepted when its shape is `(n,)`; keys of `inits` are distinct since it is a dictionary.

### H5 (`numerics/simulations/h5data/`, `simulation.py`)
* `Slice`: python slices with positive or negative bounds on a sequence of known length, and
  `numpy.arange` on integers.
* `Chunk`: `set_dataset_from_iterable` (C32). A dataset is a list of rows; the iterable is a list
  read from left to right, `next` past its end is the exception value.
* `Data`: `_dimsinit`, `h5dump_vecs`, `h5dump_seqs`, `_read_data`, the loop of `_process_py` with an
  interruption after any number of steps (C33, C34). The update of the core is a function of
  the state and of the row of inputs; its correctness is C23-C24, C59.
* `Read`: `t`, `_hstack`, `_expression`, observers, `E`, `pd`, `ps`, `dtE` with option 'DtE' (C35).
* `Window`: the accessors `start`, `stop`, `tstart`, `tstop`, `step` and `init_data` (C36). Times are
  rationals, the rounding of floats is not modelled.
Not modelled: HDF5 itself (a dataset is a total array, buffering and locking are ignored), the C++
process, plots, wav export. (`dtE` with 'deltaH': see Record.)

### Record (`Simulation._process_py` on `Numeric.update`, readers of powers)

The Numeric area (C24, C59) composed with the H5 area (C33-C35): the machine of the loop is `Numeric.update`
and the attributes that `dump_vals` writes. `layout` has the default names of `config.py:206`. Added: `dtE` with
the option 'deltaH'. `Evaluates` is the contract of `Evaluation` (C25): the evaluation object of an
expression holds positions in the arguments and a function with the value of the expression. An update that
raises ends the simulation; the theorems are about runs in which all updates return (`Run`), and
`linear_run` shows that for systems without implicit equations these exist for all inputs. Not
modelled: observers in the arguments of the readers of energy and powers (`o = []`), `vslice`, decimation.

### Sim (`config.py`, `Simulation.__init__`, `Method.__init__`, `Numeric.__init__`)
Dictionaries live on a heap, so that sharing is visible: `dict.copy()` copies one level. `World`
holds the shared defaults and every object created; `run` is an arbitrary history of creations,
assignments of windows and calls of `init` (C37).

### Cpp (`numerics/cpp/`)
* `Gen`: what the generator reads in a method (`Src`: arguments, expressions with their free symbols,
  operations, `subs`, `update_actions_deps()`) and the files it writes, seen through what the generated
  member functions do to the members of the object (`Obj`: `args`, `sampleRate`, one member per name).
  A text that does not compile is `none`. Not modelled: the C++ compiler, `double` rounding (the numbers
  are those of an ordered field), the text of expressions (`sympy.ccode`). `Matrix::inverse` is an
  unknown function that is right on invertible matrices (`GenOK`).
* The Python side is `Numeric.Prog` of the area Numeric. `Rel` relates the two states: equal arguments,
  equal stored values except for the names `T` that Python evaluates without storing, right
  coefficients without arguments. Hypotheses: `Src.WF` (distinct symbols, none of them a parameter),
  shapes (`ActOK`, decidable for a given method; `mSrc_actions` proves it for every method of the area
  Scheme), `PairOK` (lengths of the initial values).
* C29: `C29_update`, `C29_history`, `C29_construct`, `C29_run` for all programs, `C29_method` for the
  programs of numerical methods. C30: `C30_as_new`, `C30_rate`, `C30_stale`. C31: `Params.lean`, the
  text of parameters.cpp is a list of tokens read by a small reader of C++ initializers (the spec).

* C73 (`Simu.lean`): `simu.cpp`. All the members of the struct are arrays of `double` (`CONFIG_CPP['float']`), so the
  struct is a contiguous sequence of numbers, which is what the reads and writes of rows rely on. Reads and writes out of
  bounds are `none`. Trusted: the HDF5 library reads and writes the selected row. Not modelled: messages and progress bar.

### Faust (`misc/faust/`)
`Faust/Model.lean` defines block diagrams (`_`, `!`, functions, `,`, `:`, `<:`, `:>`, `~`, `prefix`), their numbers of
inputs and outputs, the conditions of the Faust compiler on connections, and their execution sample by sample, as in
the Faust documentation: this semantics is trusted. The generator is modelled as functions to diagrams: the text is read
with the priorities of Faust; characters, names (and their collisions), `ccode` and sliders are not modelled.
`Faust/InvMat.lean` models `MethodInvMat` with exact inverses of matrices of expressions. `Faust/Python*.lean` compares
with the interpreter of `Numeric`: the Faust program makes `nIt` iterations, Python stops at a tolerance, so the
comparison takes `eps < 0` (all the iterations are made), no nonlinear unknowns, or a residual that ends at zero.

### Signals (`misc/signals/`)
* `generate`: `signalgenerator` (`synthesis_array.py`), with the waveform and the noises as given
  functions; `int(q)` is truncation; numpy arrays of negative length raise. Not modelled: the file
  `synthesis_generator.py`, which is not imported.
* `Wave.signal`: the same with the waveforms over the real numbers; `scipy.signal.chirp` as in its source: trusted.
* `wavwrite`/`wavread` (`waves.py`) on lists of samples and lists of byte pairs: fades, normalization,
  16 bit frames (`struct.pack('<h', int(v))`). Not modelled: the RIFF header, resampling, rounding of
  `float`.
* `lowpass` (`processing.py`) over the real numbers, with `numpy.sinc` and `numpy.convolve(..., 'same')` (the shorter sequence
  second, middle of the full convolution) as in the documentation and source of numpy: trusted. Values `nan` are `Err.nan`.
* `transferFunction` (`analysis.py`), with `scipy.signal.welch` written as in the source of scipy for the arguments of the call
  (`Signals/Transfer.lean`): trusted. Values `nan` and `inf` are `none`. Not modelled: spectra of lengths one and more, which
  numpy broadcasts; negative overlaps.

### Copy (`Core.__copy__`, `save`, `load`, `__add__`)
* Attributes of cores are immutable values or references to cells of a heap (lists, dictionaries, sets
  of names, matrices, lists of references to connector dictionaries). A `World` is a heap, the cores of
  the program and the files on disk; an `Op` is an action of a program (creation, elementary change of
  a core, copy, sum, save, load). The order in which Python enumerates a set is an argument.
* Spec (`Spec.lean`): the same actions on plain values. `all_refines` proves that the two agree as long
  as the coefficient of a *shared* connector is not changed (`SafeAll`); `inv_reachable` shows that the
  invariant used holds in every reachable world.
* Simplified: `geteval` of a callable attribute, attributes that are in none of the three sets of names,
  the folders and the pickle format (a file holds the value), the lists `u` and `y` of a connector
  (never changed in place), an expression named `label`. A change that raises does nothing, except
  `load`, which keeps what it has loaded before the exception.

## 5. Disagreements between the code and what is documented or expected

Where the code violates what a user expects, the property (in `properties.jsonl`) first says
what is expected or documented, then exactly what holds and how the code departs from it; the
departure is proved by a witness or a general theorem. The statements of C10, C11, C29-C38, C41,
C44-C47, C49-C51, C53, C55-C57, C61 and C64 were first written as the bare expectation and were
restated so after the proofs had shown it false or conditional; the first versions are in the
history of the file. No theorem was weakened on that occasion.

Every item is a theorem unless it is marked (text).

* C02: a move with an index out of range corrupts the lists or raises late.
* C04: `set_mat` resets the structure when dimensions have changed; overlapping blocks and
  `set_J` on diagonal blocks are not a set/get pair.
* C10: the sign documented for connectors is the opposite of that used.
* C11: with a forced list, `reduce_z` raises or yields a wrong core for laws that are not linear.
* C14: the mono/multi split needs a symmetric pattern.
* C15: linear part with a coupling to the nonlinear part: gradient is not that of the energy.
* C16: the guard `|dx| > tol` is asymmetric at `dx = -tol`.
* C18: theta and trapezoidal schemes are not exact for non-quadratic energies.
* C19: `pd` raises with pending connectors.
* C20: with `split=True`, a storage with non-quadratic energy can be classified linear and the
  power balance is then false.
* C23: the stored step length is set to 1 even when nothing has to be done.
* C25: an argument that has also an entry in `subs` is frozen at the recorded value.
* C27: with `split=True`, the structure is evaluated at `x + 2*theta*dx`; gradient symbols are shifted.
* C28: chains in `subs` are not resolved, the result depends on names; the caller's dictionary
  is modified.
* C29: Python raises `LinAlgError` for a singular matrix, C++ goes on; the theorems say what happens as
  long as Python does not raise. (text) The initial values of `vl`, `vnl` are overwritten with the zeros
  of `dx` and `w`, that method2cpp adds after them to the dictionary of the caller; an argument which is
  also in `subs` is not written by the mutators; a scalar function with a free symbol raises `TypeError`
  (`method.args` without call, functions.py).
* C30: `set_sampleRate` does not update the coefficients that contain no argument (`C30_stale`), for
  instance `fs*I - ...` in the Jacobian of the linear part: the object goes on with the old rate
  (`C30_stale_example`). It also sets all arguments to their initial values. The property holds when no
  coefficient without arguments contains the sample rate (`C30_rate`).
* C31: the pointers follow the order of `method.subs` and the table that of the dictionary of the user:
  another order exchanges the values, a missing key is an index out of bounds (`C31_wrong`,
  `C31_order`); with two dictionaries or more the text of parameters.cpp is not C++ (`C31_text`).
  (text) `indexParameters` is constant, so only the first row could ever be used; without
  parameters no table is written.
* C32: with a chunk of zero rows the loop never ends (`C32_empty_never_ends`); rows of another width
  are written shifted without error (`C32_width_counterexample`); elements in excess are ignored or
  raise, depending on the length (`C32_length_counterexample`).
* C33: a name given twice in `dnames` puts columns outside the file (`C33_repeat_counterexample`); the
  index of a component is not checked and reads other variables (`C33_component_counterexample`).
* C34: a window with `stop < nt` also limits the simulation: later rows keep their fill
  value and nothing is reported (`C34_stop`).
* C35: with a step that does not divide `stop - start`, the expected length is rounded down, so that
  energies and dissipated powers raise and constant expressions miss a sample
  (`C35_step_counterexample`); observers with arguments give generators instead of samples
  (`C35_observers_counterexample`); with `stop > nt` the time vector is longer than the signals
  (`C35_clip_counterexample`); the index -1 selects nothing (`C35_negative_counterexample`).
  (text) `vslice` of `_hstack` selects rows; the last value of `dtE('deltaH')` is divided by `step`.
* C36: a float `stop` between `start` and `start + 1` is accepted and the window is empty
  (`C36_float_counterexample`); `init_data` keeps the old window (`C36_init_counterexample`).
  (text) `tstart = None` changes `start`, then raises.
* C37: the dictionary of `load` options is shared by all simulations: a new simulation resets the
  windows of the others (`C37_load_counterexample`); a second simulation on the same method object
  with other options changes the method of the first (`C37_method_counterexample`);
  `Simulation.init(config)` accepts unknown keys, ignores simulation options and keeps a stale
  sample rate (`C37_init_counterexample`).
  (text) `juce/_fx.py` changes the global `CONFIG_CPP`; `config['float']` of a simulation is not read.
* C41: the analysis of a ring of resistors never ends (`C41_ring_never_ends`): on the first pass
  the unlock test reduces to `e != 0`, and an entry that is already zero is zeroed again.
  (text) `unlock` with no indeterminate edge raises `IndexError`.
* C44: `inverse_alpha` overwrites the ratio in the edge dictionary shared with the graph, so a second
  call of `to_core` gives the inverse ratio for an effort-controlled gyrator (`C44_counterexample`:
  1/2 then 2); the period is two (`C44_period`).
* C51: every connector conserves power, but an effort-controlled gyrator gets the documented relations
  with the opposite sign of the ratio (`C51_gyrator_counterexample`), and a transformer whose first
  edge is flux-controlled gets the ratio -1/alpha instead of alpha
  (`C51_transformer_counterexample`).
* C45: the merge of realizable storages replaces several states by one; it is right only when the
  states start equal (`C45_storage_real_counterexample`). In text only: `solve(...)[0]` keeps the
  first solution, so a law that is not injective (`w**2`) loses its other branches; the gradient of
  an energy that couples several states is treated as a function of one state; (text) the message of the `ValueError` of `_select_relations` is never formatted.
* C46: spaces in node names are lost; labels `None`, `True`, numbers and python keywords are
  misread or raise; one-element tuples and `:` in node names do not survive.
* C47: `net + net` never ends, `+` changes its left operand, a `setline` that raises half way
  leaves a mixture of the two lines.
* C48: a resistance named like the variable of its resistor gives a wrong law.
* C49: the triode can deliver power (`C49_triode_active`).
* C50: the default capacitance is the text `'1e-9'`, hence a parameter without value; the energy
  of a saturating spring labelled `sat` does not depend on its state.
* C52: the sign documented for the entropy flows of the thermal transfer is the opposite of the
  one used (`C52_documented_sign`: the documented one violates the second law).
* C53: without the origin in the data the given points are missed; abscissae that do not increase
  are accepted and give an active component; the energy can be negative beyond the data.
  (text) The component reads the option `integ`, its documentation calls it `integrate`.
* C55: `signalgenerator` keeps only its last cycle, so the length is that of one cycle whatever
  `ncycles` (`C55_documented_length`, `C55_counterexample`); `ncycles <= 0` raises
  `UnboundLocalError` (`C55_no_cycle`); a cycle ratio above 1 raises (`C55_ratio_raises`).
  (text) The ramp divides by zero when `ncycles*nsig = 1`; the documented default of `which` is
  `'zero'`, the real one is `'sin'`; an array is returned, not a generator.
* C56: a sample out of range raises `struct.error` and the signal is lost (`C56_out_of_range`).
  (text) Fades longer than half the signal are ignored in silence; `wavread` ignores its arguments
  `fs` and `normalize`; `normalize=1` (integer) is ignored.
* C57: a copy shares the dictionaries of its connectors with the original (`C57_shared`); building a
  graph again (`graphs/build.py:98`) changes the ratios of the cores returned before
  (`C57_counterexample`). `load` reads the names of the target, so an added expression is lost while
  its name is kept, and the loaded core can no longer be copied (`C57_load_extra`); if the target has
  one more expression, `load` raises with a part of the content loaded (`C57_load_missing`).
  (text) `Core.substitute` does not replace symbols in the coefficients of connectors although it
  removes them from `subs`; `Basic.copy` of sympy raises `TypeError`, not `AttributeError`, on a
  symbol, so a core whose energy is a single symbol cannot be copied; `_netlist` is not copied.
* C61: `Fracderfc` gives its transformers the ratio `Rn` where `1/Rn` is needed: pole `xi` becomes
  `(g*mu)**4 * xi` (`C61_derfc`, `C61_derfc_counterexample`). (text) It also passes `inv_coef`, a
  keyword that `DissipativeLinear` does not read (harmless since the default is the same).
* C62: a loop of three components or more that hangs at a node other than the datum becomes a
  self-loop, which `_split_parallel` copies into a new subgraph at each pass without removing it, and
  `sp_split` (hence `to_core`) never ends (`C62_hanging_loop`); a loop without connection to the datum,
  such as a floating secondary circuit of a transformer, raises `ValueError` (`C62_floating_loop`);
  a component whose label contains `_out_` is removed from the graph without notice (`C62_out_label`).
* C64: with the default `split=True`, a capacitor with a nonlinear energy driven by a source of current is
  classified linear because the Jacobian of its implicit equation has no unknown, its gradient is then
  evaluated as if the energy were quadratic, and the energy increases while no power is received although every
  equation is solved (`C64_counterexample`).
* C65: with a selection by steps of several samples, the last value of `dtE` with the option 'deltaH' is the
  power of the last sample divided by the step (`C65_step_counterexample`).
* C67: linear and nonlinear states coupled by the energy (`H = a**2/2 + a*b + b**2 + b**4/4`, lossless) are put in
  different blocks, the block of the linear unknowns is singular, and every update raises although each step has
  exactly one solution (`C67_coupled_fails`).
* C71: a parameter already called `invC` is overwritten by `Core.subsinverse` when `C` has a negative power somewhere
  (`C71_collision`); an expression that simplifies to a symbol raises `TypeError` (`C71_raises`).
* C72: in `multirecursive` (`_faust.py:121-124`) the feedback `~ prefix(c, _)` delays by two samples: one for `~`, one for
  `prefix`. The program runs two independent simulations, one on the even and one on the odd samples, both with the time
  step of one sample: it runs at half speed (`C72_half_speed`).
* C72: `iterationL` and `iterationNL` take the linear unknowns `(dxl, wl)` as the first ones of `(dxl, dxnl, wl, wnl)`:
  wrong if there are nonlinear states and linear dissipations (`C72_misordered`).
* C72: the process is accepted only for one or two signals and one or two outputs (`C72_stereo`); the default is all the
  inputs and outputs. Initial values of observers are taken from those of the inputs (`initials`), observers are never
  updated. Without states the diagram feeds the outputs back as dissipative variables (not covered by the theorems).
* C73: the C++ simulation ignores the window `load` (`imin`, `imax`, `decim`): it computes all the samples, Python those
  before `imax` (`C73_stop`). The initial values are written `float(...)` in the constructor: they are rounded to single
  precision although all the members are `double` (`C73_float`).
* C76: transformers are named `label + 'T' + str(n) + str(i)`, so with 12 contacts and 11 modes contact 1, mode 10 and
  contact 11, mode 0 have the same name (`C76_collision`).
* C76, C77: a point contact at the clamped end (or at a node of a mode) has coefficient 0 and the core divides by it
  (`C77_clamped_end`); a contact of width `pi/k` gives 0/0; a window that leaves the beam (as the contact 1 of the default
  parameters does not, but `z = 1`, `w > 0` does) integrates the formula of the mode outside of the beam.
* C76: the description of the component says that `w#` is the position and `z#` the width; the code uses `z#` as the
  position and `w#` as the width.
* C78: `beamLength` raises an `IndexError` for beams of 10 m or more.
* C79: the loop "Save parameters values" of `processBlock` (lines 410-415) uses the variable `previous` left by an earlier
  loop, so only the member of the last parameter is updated: with two or more parameters the others restart in each block
  from their value at `prepareToPlay` (`C79_stuck`, `C79_jump`).
* C79: one input with two outputs uses `rightData`, which is not declared (`C79_channels`); two inputs with one output
  leave the scaled second input in the second channel; a mono effect on a stereo bus leaves the second channel unchanged; a
  stereo effect on a mono bus reads a channel that does not exist.
* C79: parameters whose names begin with `inputGain` or `outputGain` have a slider that is never applied (`C79_name`);
  names that differ by the case of the first letter give twice the same member (the text does not compile).
* C79: more than two inputs or outputs `raise NotImplemented(...)`, which is a `TypeError`; the argument `subs` and the
  variable `const_u` are not used; `CONFIG_CPP['float']` is changed for all later generations.
* C80: `expr.subs(dicpars)` replaces the keys one after the other in the order of their names, so an argument whose
  name is a later key takes the value of that key (`C80_capture_counterexample`); two tuples with one name and two values
  both get the last value (`C80_shared_name_counterexample`); a parameter given by its name has no effect if another
  component uses the name for a value (`C80_fixed_parameter_counterexample`); a parameter used by two components is twice
  in `core.p` (`C80_twice_counterexample`), and then twice in the arguments of the numerical functions; automatic names
  can be names of states (`C80_label_counterexample`); unknown keyword arguments are ignored
  (`C80_misspelt_counterexample`).
* C81: with `split=True` the method evaluates the structure (laws and matrix) once when it is split and once more after,
  so a law which depends on the state is evaluated at `x + 2 theta dx`, that is at the end of the step for
  `theta = 1/2` (the default `theta = 0` is not concerned), and not at the middle as with `split=False` (`C81_split_counterexample`).
* C82 (text): `Pickup` removes its parameter `H0` (`parameters.pop('H0')`), so that the constant force of the magnet has
  no effect; the magnet is an input port. `Observerec` is documented with a zero reaction, it is `EPS * q`. The velocity of
  an observer is late by one step (`C82_motion`).
* C83: with a constant source, `data.ps` is computed from the given inputs (zeros by default) and misses the power of the
  source, so that the power balance of the data does not hold (`C83_balance`, and the example of `Const/Examples.lean` where
  it is wrong by `c ** 2 / 4`).
* C84: electronics.Resistor, electronics.Inductor, electronics.Source, mechanics_dual.Stiffness and mechanics_dual.Source raise
  `KeyError` without their argument although their documentation has a default (`C84_default_counterexample`); the default of
  electronics.Capacitor is the string `'1e-9'`, which becomes a parameter of that name without value
  (`C84_capacitor_counterexample`); the type `mfv` documented for magnetics.Source is rejected (`C84_mfv_counterexample`).
* C85: two capacitors in parallel with a source of current, between the reference and a node without another neighbour, are
  not merged, since `parallel_edges` groups edges at nodes with at least two neighbours, and the analysis fails on a matrix
  that is not square (`C85_reference_counterexample`). The merged component of `C2` and `C1` is called `C2C1`, even if there
  is already such a component, and the core then has twice the same state (`C85_name_counterexample`).
* C86: the state of a cubic spring called `ref` is `xref`, a key of the spring, and is replaced by the parameter: the energy
  is a constant (`C86_label_counterexample`, same with `sat` and `springsat`). A parameter named after another key takes the
  value of this key, as in C80 (`C86_names_counterexample`).
* C87: a signal shorter than the filter gives a longer result (`C87_short`), although the result is documented as the low-pass
  version of the signal.
* C89: `A` is documented as the peak to peak amplitude, it is the amplitude (`C89_peak_counterexample`); `f1` and `A1` have no
  effect on the cosine.
* C58: the output function misses the contribution of `cu`.
* (text) `Core.freesymbols` is always empty; `reduce_z` drops the constant of an affine law;
  after `explicit_implicit` the cached `dims._xnl_mono` is stale.
