/-
Model of the construction of a core from an analysed graph (pyphs/graphs/build.py and the end of
`GraphAnalysis.perform`).
-/
import Verif.Graph.Model
import Mathlib.Data.Int.Cast.Defs

namespace Pyphs
namespace Graph
open Core (reorder)

variable {K : Type} [Field K] [DecidableEq K]

/-- `self.Gamma` as a matrix of scalars: rows are nodes, columns are edges. -/
def gammaMat (st : St K) : Mat K :=
  ⟨st.nodes.length, st.edges.length, fun n e => ((st.G.getD e []).getD n 0 : ℤ)⟩

/-- analysis.py:230: `Gamma[1:, :len(ec_edges)]` -/
def gammaEc (st : St K) : Mat K := (gammaMat st).slice 1 st.nodes.length 0 st.ec.length

/-- analysis.py:231: `Gamma[1:, len(ec_edges):]` -/
def gammaFc (st : St K) : Mat K := (gammaMat st).slice 1 st.nodes.length st.ec.length st.edges.length

/-- analysis.py:228-233: `none` is the `ValueError` raised when the matrix is not square or
singular. `numpy.linalg.inv` is modelled as the exact inverse. -/
def iGammaFc (st : St K) : Option (Mat K) := (gammaFc st).inv

/-- analysis.py:81-123: positions of the edges of a type. -/
def positions (st : St K) (t : EType) : List ℕ :=
  (List.range st.edges.length).filter fun e => (st.edges[e]?.map (·.type)) = some t

/-- build.py:27-28 -/
def allEdges (st : St K) : List ℕ :=
  positions st .storage ++ positions st .dissipative ++ positions st .port ++ positions st .connector

/-- build.py:14-29: the structure matrix. -/
def structureMatrix (st : St K) : Option (Mat K) := do
  let nec := st.ec.length
  let nfc := st.fc.length
  let ig ← iGammaFc st
  let gamma := ig.mul (gammaEc st)
  let J := ((Mat.zeros nec nec).hcat gamma.tr).vcat (gamma.neg.hcat (Mat.zeros nfc nfc))
  J.select (allEdges st) (allEdges st)

/-- Label of the edge at a position. -/
def labelAt (st : St K) (e : ℕ) : Option String := st.edges[e]?.map (·.label)

/-- build.py:63-67, 71-75, 80-84: positions of the labels of some edges in a list of the core;
`none` is `ValueError`. -/
def newIndices (st : St K) (es : List ℕ) (l : List String) : Option (List ℕ) :=
  es.mapM fun e => do
    let a ← labelAt st e
    if a ∈ l then some (l.idxOf a) else none

/-- build.py:89-97: the ratios of the connectors are those of the edges. -/
def setAlphas (st : St K) : List ℕ → List (Conn K) → Option (List (Conn K))
  | [], cs => some cs
  | e :: es, cs => do
    let d ← st.edges[e]?
    let i ← cs.findIdx? fun c => c.y0 = d.label ∨ c.y1 = d.label
    match d.alpha with
    | none => setAlphas st es cs
    | some a => setAlphas st es (cs.modify i fun c => { c with alpha := a })

/-- build.py:35-58: `law` gives the function named by `z['e_ctrl']` or `z['f_ctrl']`. -/
def selectRelations (law : String → Env K → K) (st : St K) (w : List String) :
    List ℕ → List (Env K → K) → Option (List (Env K → K))
  | [], z => some z
  | e :: es, z => do
    let d ← st.edges[e]?
    let i ← if d.label ∈ w then some (w.idxOf d.label) else none
    if e ∈ st.ec then selectRelations law st w es (z.set i (law d.ze))
    else if e ∈ st.fc then selectRelations law st w es (z.set i (law d.zf))
    else none

/-- build.py:61-106 -/
def setCore (law : String → Env K → K) (st : St K) (J : Mat K) (c : Core K) : Option (Core K) := do
  let ix ← newIndices st (positions st .storage) c.x
  let x ← reorder ix c.x
  let iw ← newIndices st (positions st .dissipative) c.w
  let w ← reorder iw c.w
  let z ← reorder iw c.z
  let iy ← newIndices st (positions st .port) c.y
  let y ← reorder iy c.y
  let u ← reorder iy c.u
  let ic ← newIndices st (positions st .connector) c.cy
  let conns ← setAlphas st (positions st .connector) c.connectors
  let cy ← reorder ic c.cy
  let cu ← reorder ic c.cu
  let z ← selectRelations law st w (positions st .dissipative) z
  return { c with x := x, w := w, z := z, y := y, u := u, cy := cy, cu := cu,
                  connectors := conns, M := J }

/-- build.py:11-32 -/
def buildCore (law : String → Env K → K) (st : St K) (c : Core K) : Option (Core K) := do
  let J ← structureMatrix st
  setCore law st J c

end Graph
end Pyphs
