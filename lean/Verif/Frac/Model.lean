/-
Model of the fractional integrators and derivators (pyphs/dictionary/fraccalc).

The weights `Mu` are the result of `scipy.optimize.minimize` and the poles `Xi` those of
`np.logspace`: they are arbitrary lists here.
-/
import Verif.Graph.Controls

namespace Pyphs
namespace Frac
open Graph

/-- The components put in the graph by the constructors: `DissipativeLinear`
(edges/dissipatives.py:41-61), `StorageLinear` with `inv_coeff=False` (edges/storages.py:23-46) and
`Transformer` (edges/connectors.py:15-53). -/
inductive Part (K : Type)
  | diss (label n1 n2 : String) (coeff : K) (inv : Bool)
  | stor (label n1 n2 : String) (value : K) (ctrl : Ctrl)
  | trans (label a1 a2 b1 b2 : String) (alpha : K)
  deriving DecidableEq

variable {K : Type}

/-- First edge of a transformer (edges/connectors.py:36-41, 50). -/
def edgeA (label a1 a2 : String) (alpha : K) : Edge K :=
  ⟨a1, a2, "y" ++ label ++ "1", .connector, .unknown, some ("y" ++ label ++ "2"), .transformer,
    some alpha, "", ""⟩

/-- Second edge of a transformer (edges/connectors.py:42-47, 50). -/
def edgeB (label b1 b2 : String) : Edge K :=
  ⟨b1, b2, "y" ++ label ++ "2", .connector, .unknown, some ("y" ++ label ++ "1"), .transformer,
    none, "", ""⟩

/-- Edge of a linear dissipative component (edges/dissipatives.py:54-60). -/
def edgeD (label n1 n2 : String) : Edge K :=
  ⟨n1, n2, "w" ++ label, .dissipative, .unknown, none, .gyrator, none, "e" ++ label, "f" ++ label⟩

/-- Edge of a linear storage (edges/storages.py:36-41). -/
def edgeS (label n1 n2 : String) (ctrl : Ctrl) : Edge K :=
  ⟨n1, n2, "x" ++ label, .storage, ctrl, none, .gyrator, none, "", ""⟩

/-- The edges of a component. -/
def Part.edges : Part K → List (Edge K)
  | .diss label n1 n2 _ _ => [edgeD label n1 n2]
  | .stor label n1 n2 _ ctrl => [edgeS label n1 n2 ctrl]
  | .trans label a1 a2 b1 b2 alpha => [edgeA label a1 a2 alpha, edgeB label b1 b2]

/-- `Graph.__iadd__`: the edges of all components. -/
def edgesOf (ps : List (Part K)) : List (Edge K) := ps.flatMap Part.edges

section weights
variable [Field K] [LT K] [DecidableLT K]

/-- The pairs of a weight and a pole that are kept (`if Mu[n] > 0`). -/
def kept (mu xi : List K) : List (K × K) := (mu.zip xi).filter fun c => 0 < c.1

/-- fractional_integrators.py:205-213: `diagR`, `diagQ`. -/
def intWeights (p : K) (mu xi : List K) : List (K × K) :=
  (kept mu xi).map fun c =>
    let pn := (p * c.1)⁻¹
    (pn * c.2, pn⁻¹)

/-- fractional_derivators.py:220-228: `diagR`, `diagQ`. -/
def derWeights (p : K) (mu xi : List K) : List (K × K) :=
  (kept mu xi).map fun c => (p * c.1, p * c.1 * c.2)

end weights

section constructors
variable [Field K]

/-- Element `n` of the two lists of weights. -/
def at' (ws : List (K × K)) (n : ℕ) : K × K := ws.getD n (0, 0)

/-- fractional_integrators.py:40-58, turn `n` of the loop of `Fracintec`. -/
def intecCell (label N1 N2 : String) (ws : List (K × K)) (n : ℕ) : List (Part K) :=
  let Ncomp := "iN_" ++ label ++ n.repr
  [.diss ("R_" ++ label ++ n.repr) Ncomp N2 (at' ws n).1 false,
   .stor (label ++ n.repr) N1 Ncomp (at' ws n).2 .e]

/-- fractional_integrators.py:23-58 `Fracintec`. -/
def intec (label N1 N2 : String) (ws : List (K × K)) : List (Part K) :=
  (List.range ws.length).flatMap (intecCell label N1 N2 ws)

/-- Node `n` of the chain of `Fracintfc` (fractional_integrators.py:104-109, 125). -/
def intfcNode (label N1 N2 : String) (len : ℕ) : ℕ → String
  | 0 => N1
  | n + 1 => if n < len - 1 then "iN_" ++ label ++ n.repr ++ "to" ++ (n + 1).repr else N2

/-- fractional_integrators.py:105-125, turn `n` of the loop of `Fracintfc`. -/
def intfcCell (label N1 N2 : String) (ws : List (K × K)) (n : ℕ) : List (Part K) :=
  let N := intfcNode label N1 N2 ws.length n
  let Ncomp := intfcNode label N1 N2 ws.length (n + 1)
  [.diss (label ++ "R" ++ n.repr) N Ncomp (at' ws n).1 true,
   .stor (label ++ "Q" ++ n.repr) N Ncomp (at' ws n).2 .f]

/-- fractional_integrators.py:89-125 `Fracintfc`. -/
def intfc (label N1 N2 : String) (ws : List (K × K)) : List (Part K) :=
  (List.range ws.length).flatMap (intfcCell label N1 N2 ws)

/-- fractional_derivators.py:45-68, turn `n` of the loop of `Fracderec`. -/
def derecCell (label Ndeb Nend : String) (ws : List (K × K)) (n : ℕ) : List (Part K) :=
  let N1 := "N" ++ label ++ n.repr ++ "_1"
  let N2 := "N" ++ label ++ n.repr ++ "_2"
  [.diss (label ++ "R" ++ n.repr) N1 Ndeb (at' ws n).1 true,
   .stor (label ++ "Q" ++ n.repr) N2 datum (at' ws n).2 .f,
   .trans (label ++ "alpha" ++ n.repr) N1 Nend N2 datum (at' ws n).1⁻¹]

/-- fractional_derivators.py:29-68 `Fracderec`. -/
def derec (label Ndeb Nend : String) (ws : List (K × K)) : List (Part K) :=
  (List.range ws.length).flatMap (derecCell label Ndeb Nend ws)

/-- Node `n` of the chain of `Fracderfc` (fractional_derivators.py:113-118, 138). -/
def derfcNode (label N1 N2 : String) (len : ℕ) : ℕ → String
  | 0 => N1
  | n + 1 => if n < len - 1 then "N" ++ label ++ n.repr ++ "_1" else N2

/-- fractional_derivators.py:114-138, turn `n` of the loop of `Fracderfc`. The keyword `inv_coef` of
the resistance is not the one read by `DissipativeLinear`; without it, `inv_coeff` is false. -/
def derfcCell (label Ndeb Nend : String) (ws : List (K × K)) (n : ℕ) : List (Part K) :=
  let N1 := derfcNode label Ndeb Nend ws.length n
  let N2 := derfcNode label Ndeb Nend ws.length (n + 1)
  let N3 := "N" ++ label ++ n.repr ++ "_2"
  [.diss (label ++ "R" ++ n.repr) N2 N1 (at' ws n).1 false,
   .stor (label ++ "Q" ++ n.repr) N3 datum (at' ws n).2 .e,
   .trans (label ++ "alpha" ++ n.repr) N1 N2 N3 datum (at' ws n).1]

/-- fractional_derivators.py:98-138 `Fracderfc`. -/
def derfc (label Ndeb Nend : String) (ws : List (K × K)) : List (Part K) :=
  (List.range ws.length).flatMap (derfcCell label Ndeb Nend ws)

end constructors

end Frac
end Pyphs
