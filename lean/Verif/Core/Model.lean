/-
Model of the port-Hamiltonian core structure of pyphs
(/repo/pyphs/core/core.py and /repo/pyphs/core/structure/*.py).

The structure matrix is a matrix over an arbitrary field `K`: either the field of numbers
(the structure at one given point of the arguments) or a field of symbolic rational
expressions. Energies and dissipation laws are functions of an environment that assigns a
value to every symbol.
-/
import Verif.Mat.Model

namespace Pyphs

/-- Assignment of a value to every symbol. -/
abbrev Env (K : Type) := String → K

/-- One entry of `core.connectors`: the dictionary `{'u': [u0, u1], 'y': [y0, y1],
'alpha': alpha}` built in pyphs/core/core.py:790-792. -/
structure Conn (K : Type) where
  u0 : String
  u1 : String
  y0 : String
  y1 : String
  alpha : K

/-- pyphs/core/core.py:56-165 `Core.__init__`: the attributes used by the structure
functions. Symbols are strings (sympy symbols with the same assumptions are equal iff their
names are). `H` and `z` are functions of the environment; `dxH` is `core._dxH` (line 104),
`xl`, `wl` are `core.dims._xl/_wl`. Not modelled: labels, observers, parameters `p`,
`subs` (see the symbolic model), `Q`, `bl`. -/
structure Core (K : Type) where
  x : List String
  w : List String
  u : List String
  y : List String
  cu : List String
  cy : List String
  H : Env K → K
  z : List (Env K → K)
  dxH : Option (List (Env K → K))
  M : Mat K
  connectors : List (Conn K)
  xl : ℕ
  wl : ℕ
  Zl : Mat K
  forceWnl : List String

namespace Core

variable {K : Type}

/-- pyphs/core/core.py:653-670 `Core.labels`. -/
def labels (c : Core K) : List String := c.x ++ c.w ++ c.y ++ c.cy

/-- Names of the blocks of the structure matrices, pyphs/core/core.py:153. -/
inductive Blk | x | w | y | cy | xl | xnl | wl | wnl
  deriving DecidableEq, Repr

/-- pyphs/core/structure/dimensions.py: the dimensions accessors. -/
def dim (c : Core K) : Blk → ℕ
  | .x => c.x.length
  | .w => c.w.length
  | .y => c.y.length
  | .cy => c.cy.length
  | .xl => c.xl
  | .xnl => c.x.length - c.xl
  | .wl => c.wl
  | .wnl => c.w.length - c.wl

/-- pyphs/core/structure/dimensions.py:47-51 `tot`. -/
def tot (c : Core K) : ℕ := c.x.length + c.w.length + c.y.length + c.cy.length

/-- pyphs/core/structure/indices.py:17-48: first index of a block (`y` and `cy` are the ones
of the second tuple of names, line 20, which overwrites the first). -/
def deb (c : Core K) : Blk → ℕ
  | .x => 0
  | .w => c.x.length
  | .xl => 0
  | .xnl => c.xl
  | .wl => c.xl + (c.x.length - c.xl)
  | .wnl => c.xl + (c.x.length - c.xl) + c.wl
  | .y => c.xl + (c.x.length - c.xl) + c.wl + (c.w.length - c.wl)
  | .cy => c.xl + (c.x.length - c.xl) + c.wl + (c.w.length - c.wl) + c.y.length

/-- pyphs/core/structure/indices.py:45: end of a block. -/
def fin (c : Core K) (b : Blk) : ℕ := c.deb b + c.dim b

/-- Reordering of a python list by a list of indices `[l[el] for el in new_indices]`
(pyphs/core/structure/moves.py:96); `none` is `IndexError`. -/
def reorder {α : Type*} (new : List ℕ) (l : List α) : Option (List α) :=
  new.mapM (fun k => l[k]?)

section field
variable [Field K] [DecidableEq K]

/-! ### moves.py -/

/-- pyphs/core/structure/moves.py:12-47 `movesquarematrixcolnrow`. -/
def moveSquare (M : Mat K) (indi indf : ℕ) : Option (Mat K) := do
  let new ← myrange M.r indi indf
  M.select new new

/-- pyphs/core/structure/moves.py:67-80 `moveCoreMcolnrow`: nothing is done when `M` is
zero. -/
def moveCoreM (c : Core K) (indi indf : ℕ) : Option (Core K) :=
  if c.M.IsZero then some c
  else do
    let M ← moveSquare c.M indi indf
    return { c with M := M }

/-- pyphs/core/structure/moves.py:83-99 `move_stor` (`Core.move_storage`). -/
def moveStor (c : Core K) (indi indf : ℕ) : Option (Core K) := do
  let new ← myrange c.x.length indi indf
  let x ← reorder new c.x
  let dxH ← (match c.dxH with
    | none => some none
    | some d => (reorder new d).map some)
  moveCoreM { c with x := x, dxH := dxH } indi indf

/-- pyphs/core/structure/moves.py:102-123 `move_diss` (`Core.move_dissipative`). -/
def moveDiss (c : Core K) (indi indf : ℕ) : Option (Core K) := do
  let new ← myrange c.w.length indi indf
  let w ← reorder new c.w
  let z ← reorder new c.z
  let c' ← moveCoreM { c with w := w, z := z } (c.x.length + indi) (c.x.length + indf)
  if ¬ c.Zl.IsZero ∧ indi < c.wl ∧ indf < c.wl then do
    let Zl ← moveSquare c.Zl indi indf
    return { c' with Zl := Zl }
  else if ¬ c.Zl.IsZero then
    return { c' with Zl := c.Zl.slice 0 0 0 0 }
  else return c'

/-- pyphs/core/structure/moves.py:126-142 `move_port`. -/
def movePort (c : Core K) (indi indf : ℕ) : Option (Core K) := do
  let new ← myrange c.y.length indi indf
  let u ← reorder new c.u
  let y ← reorder new c.y
  moveCoreM { c with u := u, y := y } (c.x.length + c.w.length + indi)
    (c.x.length + c.w.length + indf)

/-- pyphs/core/structure/moves.py:145-161 `move_connector`. -/
def moveConn (c : Core K) (indi indf : ℕ) : Option (Core K) := do
  let new ← myrange c.cy.length indi indf
  let cu ← reorder new c.cu
  let cy ← reorder new c.cy
  moveCoreM { c with cu := cu, cy := cy } (c.x.length + c.w.length + c.y.length + indi)
    (c.x.length + c.w.length + c.y.length + indf)

/-! ### structure matrices -/

/-- pyphs/core/core.py:614-629 `Core.J`: `(M - M.T)/2.`. -/
def J (c : Core K) : Mat K := (c.M.sub c.M.tr).smul (1 / 2)

/-- pyphs/core/core.py:631-647 `Core.R`: `-(M + M.T)/2.`. -/
def R (c : Core K) : Mat K := (c.M.add c.M.tr).neg.smul (1 / 2)

/-- The three structure matrices with block accessors, pyphs/core/core.py:1190. -/
inductive Part | M | J | R
  deriving DecidableEq, Repr

/-- The matrix named by a part. -/
def part (c : Core K) : Part → Mat K
  | .M => c.M
  | .J => c.J
  | .R => c.R

/-- pyphs/core/core.py:1231-1249 `_build_get_mat`: the accessor `core.Mab()`. -/
def getMat (c : Core K) (p : Part) (a b : Blk) : Mat K :=
  (c.part p).slice (c.deb a) (c.fin a) (c.deb b) (c.fin b)

/-- pyphs/core/core.py:604-612 `init_M`. -/
def initM (c : Core K) : Core K := { c with M := Mat.zeros c.tot c.tot }

/-- pyphs/core/core.py:1251-1303 `_build_set_mat`: the mutator `core.set_Mab(mat)`.
`none` models the shape error of the block assignment (line 1277) for a value of the wrong
shape. -/
def setMat (c0 : Core K) (p : Part) (a b : Blk) (V : Mat K) : Option (Core K) :=
  -- lines 1258-1259: reinitialisation when the size of M is not the total dimension
  let c := if c0.M.r ≠ c0.tot then c0.initM else c0
  if V.r = c.dim a ∧ V.c = c.dim b then
    let Mab : Mat K := match p with
      | .J => V.sub (c.getMat .R a b)
      | .R => (c.getMat .J a b).sub V
      | .M => V
    let Mba : Mat K := match p with
      | .J => V.tr.neg.sub (c.getMat .R b a)
      | .R => (c.getMat .J b a).sub V.tr
      | .M => c.getMat .M b a
    let M1 := c.M.setBlock (c.deb a) (c.fin a) (c.deb b) (c.fin b) Mab
    let M2 := if a ≠ b then M1.setBlock (c.deb b) (c.fin b) (c.deb a) (c.fin a) Mba else M1
    some { c with M := M2 }
  else none

/-! ### adding components -/

/-- pyphs/core/core.py:852-881 `add_storages` (list argument). -/
def addStorages (c : Core K) (x : List String) (H : Env K → K) : Core K :=
  { c with x := c.x ++ x, H := fun e => c.H e + H e }

/-- pyphs/core/core.py:883-916 `add_dissipations` (list arguments); `none` is the
`TypeError` of line 914. -/
def addDissipations (c : Core K) (w : List String) (z : List (Env K → K)) : Option (Core K) :=
  if w.length = z.length then some { c with w := c.w ++ w, z := c.z ++ z } else none

/-- pyphs/core/core.py:918-950 `add_ports` (list arguments). -/
def addPorts (c : Core K) (u y : List String) : Option (Core K) :=
  if u.length = y.length then some { c with u := c.u ++ u, y := c.y ++ y } else none

/-! ### sum of cores -/

/-- pyphs/core/core.py:56-165: a new empty core. -/
def empty : Core K :=
  { x := [], w := [], u := [], y := [], cu := [], cy := [], H := fun _ => 0, z := [],
    dxH := none, M := Mat.zeros 0 0, connectors := [], xl := 0, wl := 0, Zl := Mat.zeros 0 0,
    forceWnl := [] }

/-- `core.dims.names`, pyphs/core/structure/dimensions.py:25. -/
def dimNames : List Blk := [.x, .w, .y, .cy]

/-- All ordered pairs of block names, in the order of the two nested loops
pyphs/core/core.py:325-326. -/
def dimPairs : List (Blk × Blk) := dimNames.flatMap fun a => dimNames.map fun b => (a, b)

/-- pyphs/core/core.py:308-365 `__add__`. The second loop (lines 358-363) writes every block
with its own value and is kept. -/
def addCores (c1 c2 : Core K) : Option (Core K) := do
  -- lines 317-323
  let c : Core K := { (empty : Core K) with
    x := c1.x ++ c2.x, w := c1.w ++ c2.w, u := c1.u ++ c2.u, y := c1.y ++ c2.y,
    cu := c1.cu ++ c2.cu, cy := c1.cy ++ c2.cy }
  -- lines 325-332
  let c ← dimPairs.foldlM (fun (c : Core K) ab =>
    let Mij := Mat.diag (c1.getMat .M ab.1 ab.2) (c2.getMat .M ab.1 ab.2)
    if 0 < Mij.r ∧ 0 < Mij.c then c.setMat .M ab.1 ab.2 Mij else some c) c
  -- lines 349-356
  let c := { c with H := fun e => c1.H e + c2.H e, z := c1.z ++ c2.z,
                    connectors := c1.connectors ++ c2.connectors,
                    forceWnl := c1.forceWnl ++ c2.forceWnl }
  -- lines 358-363
  dimPairs.foldlM (fun (c : Core K) ab =>
    let Mij := c.getMat .M ab.1 ab.2
    if 0 < Mij.r ∧ 0 < Mij.c then c.setMat .M ab.1 ab.2 Mij else some c) c

/-! ### connectors -/

/-- pyphs/core/structure/connectors.py:12-45 `port2connector`. `list.remove` removes the first
occurrence of the symbol (line 45). -/
def port2connector (c : Core K) (i : ℕ) : Option (Core K) := do
  let c' ← c.moveCoreM (c.x.length + c.w.length + i) c.tot
  let ui ← c'.u[i]?
  let yi ← c'.y[i]?
  return { c' with cu := c'.cu ++ [ui], cy := c'.cy ++ [yi],
                   u := c'.u.erase ui, y := c'.y.erase yi }

/-- pyphs/core/core.py:749-798 `add_connector((i0, i1), alpha)`. `none` models the failed
assertions. The two ports are converted in decreasing order of index (lines 794-798). -/
def addConnector (c : Core K) (i0 i1 : ℕ) (alpha : K) : Option (Core K) := do
  if i0 = i1 then none
  else if ¬ (i0 < c.y.length ∧ i1 < c.y.length) then none
  else
    let u0 ← c.u[i0]?
    let u1 ← c.u[i1]?
    let y0 ← c.y[i0]?
    let y1 ← c.y[i1]?
    let c := { c with connectors := c.connectors ++ [(⟨u0, u1, y0, y1, alpha⟩ : Conn K)] }
    let c ← c.port2connector (max i0 i1)
    c.port2connector (min i0 i1)

/-- The loop of `connect`, pyphs/core/core.py:811-816: the connector number `i` is moved to
positions `2*i` and `2*i+1`. `none` is the `ValueError` of `list.index`. -/
def sortConnectors : ℕ → List (Conn K) → Core K → Option (Core K)
  | _, [], c => some c
  | i, k :: ks, c => do
    if k.y0 ∉ c.cy then none
    else
      let c ← c.moveConn (c.cy.idxOf k.y0) (2 * i)
      if k.y1 ∉ c.cy then none
      else
        let c ← c.moveConn (c.cy.idxOf k.y1) (2 * i + 1)
        sortConnectors (i + 1) ks c

/-- pyphs/core/core.py:818-821 `Mswitch`: block diagonal of `alpha * [[0, -1], [1, 0]]`. -/
def mswitch : List (Conn K) → Mat K
  | [] => Mat.zeros 0 0
  | k :: ks => Mat.diag
      ⟨2, 2, fun i j => if i = 0 ∧ j = 1 then -k.alpha else if i = 1 ∧ j = 0 then k.alpha else 0⟩
      (mswitch ks)

/-- pyphs/core/core.py:800-846 `connect`. `none` models every exception: unknown symbol,
incompatible shapes in line 828 (number of connectors), singular matrix. -/
def connect (c0 : Core K) : Option (Core K) := do
  let c ← sortConnectors 0 c0.connectors c0
  let S := mswitch c0.connectors
  let nxwy := c.x.length + c.w.length + c.y.length
  let G := c.M.slice 0 nxwy nxwy c.M.c
  let O := c.M.slice nxwy c.M.r 0 nxwy
  let Mcc := c.getMat .M .cy .cy
  if Mcc.c ≠ S.r ∨ c.cy.length ≠ S.c then none
  else
    let N := (Mat.eye c.cy.length).sub (Mcc.mul S)
    let iN ← N.inv
    let Mc := ((G.mul S).mul iN).mul O
    return { c with M := (c.M.slice 0 nxwy 0 nxwy).add Mc, cy := [], cu := [],
                    connectors := [] }

/-! ### reduction of linear dissipations -/

/-- The loop of `reduce_z` over forced components, pyphs/core/structure/R.py:49-54. -/
def forceLoop : ℕ → ℕ → Core K → Option (Core K)
  | 0, _, c => some c
  | n + 1, i, c => do
    let wi ← c.w[i]?
    if wi ∈ c.forceWnl then do
      let c ← c.moveDiss i c.wl
      forceLoop n i c
    else forceLoop n (i + 1) c

/-- pyphs/core/structure/R.py:46-58: treatment of `force_wnl`. When `force_wnl` has more
elements than there are linear components python goes on with a negative dimension; this
case is modelled as an error. -/
def forceNonlinear (c : Core K) : Option (Core K) := do
  let n := c.forceWnl.length
  if n = 0 then return c
  else
    let c ← forceLoop c.wl 0 c
    if c.wl < n then none
    else return { c with wl := c.wl - n, Zl := c.Zl.slice 0 (c.Zl.r - n) 0 (c.Zl.c - n) }

/-- Names of the blocks kept by `reduce_z`, pyphs/core/structure/R.py:76. -/
def keptBlocks : List Blk := [.xl, .xnl, .wnl, .y, .cy]

/-- `hstack` of the blocks `Mab` for `b` in a list (left to right). -/
def hstackRow (c : Core K) (a : Blk) : List Blk → Mat K
  | [] => ⟨c.dim a, 0, fun _ _ => 0⟩
  | b :: bs => (c.getMat .M a b).hcat (hstackRow c a bs)

/-- `vstack` of the blocks `Mab` for `a` in a list (top to bottom). -/
def vstackCol (c : Core K) (b : Blk) : List Blk → Mat K
  | [] => ⟨0, c.dim b, fun _ _ => 0⟩
  | a :: as => (c.getMat .M a b).vcat (vstackCol c b as)

/-- pyphs/core/structure/R.py:76-85 `Mnl`. -/
def stackAll (c : Core K) (bs : List Blk) : List Blk → Mat K
  | [] => ⟨0, (hstackRow c .x bs).c, fun _ _ => 0⟩
  | a :: as => (hstackRow c a bs).vcat (stackAll c bs as)

/-- pyphs/core/structure/R.py:59-93: elimination of the `wl` first dissipations. -/
def eliminateLinear (c : Core K) : Option (Core K) := do
  let Mww := c.getMat .M .wl .wl
  -- line 60: the product and the difference raise an error on incompatible shapes
  if Mww.c ≠ c.Zl.r ∨ Mww.r ≠ c.wl ∨ c.Zl.c ≠ c.wl then none
  else
    let iDl := (Mat.eye c.wl).sub (Mww.mul c.Zl)
    let Dl ← iDl.inv
    let Mwlnl := c.hstackRow .wl keptBlocks
    let Mnlwl := c.vstackCol .wl keptBlocks
    let Mnl := c.stackAll keptBlocks keptBlocks
    return { c with M := (((Mnlwl.mul c.Zl).mul Dl).mul Mwlnl).add Mnl,
                    w := c.w.drop c.wl, z := c.z.drop c.wl, wl := 0 }

/-- pyphs/core/structure/R.py:14-93 `reduce_z`, from line 45 on: the result of the first
step `core.linear_nonlinear()` (line 44) is the argument. -/
def reduceZ (c : Core K) : Option (Core K) := do
  let c ← c.forceNonlinear
  c.eliminateLinear

/-! ### output and power -/

/-- pyphs/core/structure/output.py:13-51 `output_function`, evaluated: the list of outputs for
given gradient, dissipation and input values. -/
def output (c : Core K) (dxH z u : ℕ → K) : List K :=
  (List.range c.y.length).map fun i =>
    (c.getMat .M .y .x).mv dxH i + (c.getMat .M .y .w).mv z i + (c.getMat .M .y .y).mv u i

/-- pyphs/core/core.py:388-389 `Core.a`, evaluated: gradient, dissipation laws, inputs
(connectors are left out, as in the code). -/
def aVals (g z u : List K) : List K := g ++ z ++ u

/-- pyphs/core/core.py:391-397 `Core.pd`, evaluated for values `w`, `z` of the dissipations,
`g` of the gradient and `u` of the inputs. `none` is the `IndexError` of
pyphs/core/maths/_matrices.py:38-40 when the length of `a` is not the size of `R`. -/
def pd (c : Core K) (w z g u : List K) : Option K :=
  let a := aVals g z u
  if a.length ≠ c.R.c then none
  else some ((List.zipWith (· * ·) w z).sum +
    ∑ i ∈ Finset.range a.length, a.getD i 0 * c.R.mv (fun j => a.getD j 0) i)

end field
end Core
end Pyphs
