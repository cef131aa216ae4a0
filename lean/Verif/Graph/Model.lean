/-
Model of the realizability analysis of graphs (pyphs/graphs/analysis.py).
-/
import Verif.Core.Model

namespace Pyphs
namespace Graph
open Core (reorder)

/-- Values of the edge data `ctrl`; `unknown` is `'?'` or any other value. -/
inductive Ctrl | e | f | unknown
deriving DecidableEq, Repr

/-- Values of the edge data `type`. -/
inductive EType | storage | dissipative | port | connector
deriving DecidableEq, Repr

/-- Values of the edge data `connector_type`. -/
inductive CType | gyrator | transformer
deriving DecidableEq, Repr

/-- An edge with its data. `link` and `ctype` are read for connectors only; `alpha` is `None`
on the second edge of a connector; `ze`, `zf` name the two laws of a dissipative edge. -/
structure Edge (K : Type) where
  tail : String
  head : String
  label : String
  type : EType
  ctrl : Ctrl
  link : Option String
  ctype : CType
  alpha : Option K
  ze : String
  zf : String
deriving DecidableEq

/-- config.py:113 -/
def datum : String := "#"

/-- The exceptions raised by the analysis. `fuel` is not an exception: it is the result of a
loop that has not ended within the given number of turns. -/
inductive Err | assertion | value | index | undefinedPotential | canNotUnlock | notInvertible | fuel
deriving DecidableEq, Repr

/-- Attributes of `GraphAnalysis`. The matrices are lists of columns: the column at position `e`
belongs to the edge at position `e`, its entries are in the order of `nodes`. -/
structure St (K : Type) where
  nodes : List String
  edges : List (Edge K)
  G : List (List ℤ)
  L : List (List ℕ)
  ec : List ℕ
  ic : List ℕ
  fc : List ℕ
  icn : List ℕ
deriving DecidableEq

variable {K : Type}

/-- `get_edges_data(key).index(v)`, analysis.py:285-290: position of the first edge with the
given datum; `ValueError` if there is none. -/
def indexOf {α : Type} [DecidableEq α] (v : α) (l : List α) : Except Err ℕ :=
  if v ∈ l then .ok (l.idxOf v) else .error .value

/-- `self.Lambda[:, e].sum()` -/
def colSum (L : List (List ℕ)) (e : ℕ) : ℕ := (L.getD e []).sum

/-- `self.Lambda[n, :]` -/
def row (L : List (List ℕ)) (n : ℕ) : List ℕ := L.map fun c => c.getD n 0

/-- `self.Lambda[:, e] = 0` -/
def zeroCol (L : List (List ℕ)) (e : ℕ) : List (List ℕ) := L.modify e fun c => c.map fun _ => 0

/-- `self.Lambda[n, :] = 0` -/
def zeroRow (L : List (List ℕ)) (n : ℕ) : List (List ℕ) := L.map fun c => c.set n 0

/-- `self.Lambda[n, e] = v` -/
def setEntry (L : List (List ℕ)) (n e v : ℕ) : List (List ℕ) := L.modify e fun c => c.set n v

/-- analysis.py:314-326 -/
def moveEdge (st : St K) (i f : ℕ) : Except Err (St K) :=
  match myrange st.edges.length i f with
  | none => .error .index
  | some new =>
    match reorder new st.G, reorder new st.L, reorder new st.edges with
    | some G, some L, some es => .ok { st with G := G, L := L, edges := es }
    | _, _, _ => .error .index

/-- analysis.py:334-352: the part of `set_edge_ec` that does not concern connectors. `l[a:-b]`
is `l[a:len(l)-b]`. -/
def moveEc (st : St K) (e : ℕ) : Except Err (St K) := do
  let st ← moveEdge st e 0
  let nec := st.ec.length
  let nfc := st.fc.length
  let ne := st.edges.length
  let ind := List.range ne
  .ok { st with
    ec := ind.take (nec + 1)
    ic := if nfc > 0 then slice ind (nec + 1) (ne - nfc) else ind.drop (nec + 1)
    fc := if nfc > 0 then ind.drop (ne - nfc) else []
    L := zeroCol st.L 0 }

/-- analysis.py:364-377: the part of `set_edge_fc` that does not concern connectors. -/
def moveFc (st : St K) (e : ℕ) : Except Err (St K) := do
  let st ← moveEdge st e (st.edges.length - 1)
  let nec := st.ec.length
  let nfc := st.fc.length
  let ne := st.edges.length
  let ind := List.range ne
  .ok { st with
    ec := ind.take nec
    ic := slice ind nec (ne - (nfc + 1))
    fc := ind.drop (ne - (nfc + 1)) }

section inv
variable [Inv K]

/-- analysis.py:487-493; the dictionary of the edge is that of the graph. -/
def inverseAlpha (st : St K) (e : ℕ) : St K :=
  { st with edges := st.edges.modify e fun d => { d with alpha := d.alpha.map (·⁻¹) } }

/-- analysis.py:328-383 `set_edge_ec` (`isE = true`) and `set_edge_fc`, with `link_connector`
(422-485). The recursion is bounded by the number of indeterminate edges; `fuel` is a bound. -/
def setEdge : ℕ → Bool → St K → ℕ → Except Err (St K)
  | 0, _, _, _ => .error .fuel
  | k + 1, isE, st, e =>
    match st.edges[e]? with
    | none => .error .index
    | some d => do
      let st ← if isE then moveEc st e else moveFc st e
      let newE ← indexOf d.label (st.edges.map (·.label))
      match st.edges[newE]? with
      | none => .error .index
      | some d =>
        if d.type = .connector then do
          let linkE ← indexOf (some d.label) (st.edges.map (·.link))
          let gyr := d.ctype = .gyrator
          let st := if isE && gyr then inverseAlpha st newE else st
          let target := if gyr then isE else !isE
          if linkE ∈ (if target then st.fc else st.ec) then .error .assertion
          else if linkE ∈ st.ic then setEdge k target st linkE
          else .ok st
        else .ok st

/-- analysis.py:385-406 -/
def setNodeDc (st : St K) (n e : ℕ) : Except Err (St K) :=
  let st := { st with
    L := setEntry (zeroRow (zeroCol st.L e) n) n e 1
    icn := if n ∈ st.icn then st.icn.erase n else st.icn }
  if e ∈ st.ic then setEdge (st.edges.length + 1) false st e else .ok st

/-- analysis.py:133-142, body of the loop of `iterate_fc`. -/
def stepFc (st : St K) (e : ℕ) : Except Err (St K) :=
  if colSum st.L e = 0 then .error .assertion
  else if colSum st.L e = 1 then
    let n := (st.L.getD e []).idxOf 1
    if n ∈ st.icn then setNodeDc st n e else .ok st
  else .ok st

/-- analysis.py:125-142. The loop runs over the list object bound to `fc_edges` when it starts. -/
def iterateFc (st : St K) : Except Err (St K) := st.fc.foldlM stepFc st

/-- analysis.py:144-160 -/
def iterateIc : ℕ → ℕ → St K → Except Err (St K)
  | 0, _, _ => .error .fuel
  | k + 1, i, st =>
    match st.ic[i]? with
    | none => .ok st
    | some e =>
      if colSum st.L e = 0 then do
        let st ← setEdge (st.edges.length + 1) true st e
        iterateIc k i st
      else iterateIc k (i + 1) st

/-- analysis.py:168-183, body of the loop of `iterate_nodes`. -/
def stepNode (st : St K) (n : ℕ) : Except Err (St K) :=
  if (row st.L n).sum = 0 then .error .undefinedPotential
  else if (row st.L n).sum = 1 then
    let e := (row st.L n).idxOf 1
    if e ∈ st.ec then .error .assertion
    else if n ∈ st.icn then setNodeDc st n e
    else .ok st
  else .ok st

/-- analysis.py:162-183. The loop runs by position over a list from which elements are removed. -/
def iterateNodes : ℕ → ℕ → St K → Except Err (St K)
  | 0, _, _ => .error .fuel
  | k + 1, i, st =>
    match st.icn[i]? with
    | none => .ok st
    | some n => do
      let st ← stepNode st n
      iterateNodes k (i + 1) st

/-- analysis.py:496-500, for integer entries: `M1 - M2 < EPS` everywhere. -/
def isequal (A B : List (List ℕ)) : Bool :=
  (List.zipWith (fun a b => (List.zipWith (fun x y => decide (x ≤ y)) a b).all id) A B).all id

/-- One turn of the loop of `iteration`, analysis.py:203-213. -/
def pass (st : St K) : Except Err (St K) := do
  let st ← iterateNodes (st.icn.length + 1) 0 st
  let st ← iterateFc st
  iterateIc (st.ic.length + 1) 0 st

/-- analysis.py:185-213, with `Lambda_temp`; the first value is a matrix of ones. -/
def iterationLoop : ℕ → List (List ℕ) → St K → Except Err (St K × List (List ℕ))
  | 0, _, _ => .error .fuel
  | k + 1, temp, st =>
    if isequal temp st.L then .ok (st, temp)
    else do
      let st' ← pass st
      iterationLoop k st.L st'

/-- analysis.py:185-213 -/
def iteration (fuel : ℕ) (st : St K) : Except Err (St K × List (List ℕ)) :=
  iterationLoop fuel (st.L.map fun c => c.map fun _ => 1) st

/-- The search loops of `unlock`, analysis.py:255-260 and 270-276: first position where the row
has a one or the column satisfies the test. `none`: `IndexError`. -/
def search (stop : ℕ → Bool) (r : List ℕ) (bound : ℕ) : ℕ → ℕ → Option ℕ
  | 0, e => some e
  | k + 1, e =>
    match r[e]? with
    | none => none
    | some v => if v ≠ 1 ∧ stop e = false ∧ e < bound then search stop r bound k (e + 1) else some e

/-- analysis.py:250-264: the first pass of `unlock`. The test of line 261 is `e != 0`, because
`len(ic) and not type` is `False`. -/
def unlockIc (st : St K) : Except Err (Option (List (List ℕ))) :=
  let nec := st.ec.length
  let rec go : List ℕ → Except Err (Option (List (List ℕ)))
    | [] => .ok none
    | n :: ns =>
      let r := st.ic.map fun e => (st.L.getD e []).getD n 0
      if r.sum > 1 then
        match search (fun e => colSum st.L (nec + e) = 1) r st.ic.length (r.length + 1) 0 with
        | none => .error .index
        | some e => if e ≠ 0 then .ok (some (setEntry st.L n (nec + e) 0)) else go ns
      else go ns
  go (List.range st.nodes.length)

/-- analysis.py:265-280: the second pass. -/
def unlockFc (st : St K) : Except Err (Option (List (List ℕ))) :=
  let nec := st.ec.length
  match st.ic with
  | [] => .error .index
  | i0 :: _ =>
    let rec go : List ℕ → Except Err (Option (List (List ℕ)))
      | [] => .ok none
      | n :: ns =>
        let r := (row st.L n).drop i0
        if r.sum > 1 then
          match search (fun e => decide (2 ≤ colSum st.L (nec + e))) r (st.ic ++ st.fc).length
              (r.length + 1) 0 with
          | none => .error .index
          | some e =>
            if e ≠ (st.ic ++ st.fc).length then .ok (some (setEntry st.L n (nec + e) 0)) else go ns
        else go ns
    go (List.range st.nodes.length)

/-- analysis.py:242-283 -/
def unlock (st : St K) : Except Err (St K) := do
  match ← unlockIc st with
  | some L => .ok { st with L := L }
  | none =>
    match ← unlockFc st with
    | some L => .ok { st with L := L }
    | none => .error .canNotUnlock

/-- analysis.py:219-225: the loop of `perform`. -/
def performLoop : ℕ → St K → Except Err (St K)
  | 0, _ => .error .fuel
  | k + 1, st =>
    if st.ic.length + st.icn.length > 0 then do
      let (st, temp) ← iteration k st
      if isequal temp st.L && decide (st.ic.length + st.icn.length > 0) then do
        let st ← unlock st
        performLoop k st
      else performLoop k st
    else .ok st

/-! ### Initialisation -/

/-- Column of `-incidence_matrix(graph, oriented=True)`: a self loop has a null column. -/
def incidence (nodes : List String) (d : Edge K) : List ℤ :=
  nodes.map fun n =>
    if d.tail = d.head then 0 else if n = d.tail then 1 else if n = d.head then -1 else 0

/-- analysis.py:299-312: the loop that renumbers `ic_nodes`. -/
def renumber (icn : List ℕ) : List (ℕ × ℕ) → Except Err (List ℕ)
  | [] => .ok icn
  | (o, n) :: l =>
    if o ∈ icn then renumber (icn.set (icn.idxOf o) n) l else .error .value

/-- analysis.py:299-312 -/
def moveNode (st : St K) (i f : ℕ) : Except Err (St K) :=
  match myrange st.nodes.length i f with
  | none => .error .index
  | some new =>
    match reorder new st.nodes, st.G.mapM (reorder new), st.L.mapM (reorder new) with
    | some nodes, some G, some L => do
      let icn ← renumber st.icn ((List.range st.nodes.length).zip new)
      .ok { st with nodes := nodes, G := G, L := L, icn := icn }
    | _, _, _ => .error .index

/-- analysis.py:19-50 -/
def start (nodes : List String) (edges : List (Edge K)) : Except Err (St K) :=
  let G := edges.map (incidence nodes)
  let st : St K := ⟨nodes, edges, G, G.map fun c => c.map Int.natAbs, [], List.range edges.length,
    [], List.range nodes.length⟩
  if datum ∈ nodes then do
    let st ← moveNode st (nodes.idxOf datum) 0
    let st := { st with L := zeroRow st.L 0 }
    let i ← indexOf datum st.nodes
    let _ ← indexOf i st.icn
    .ok { st with icn := st.icn.erase i }
  else .ok st

/-- analysis.py:55-79 -/
def initLoop : ℕ → ℕ → St K → Except Err (St K)
  | 0, _, _ => .error .fuel
  | k + 1, i, st =>
    match st.ic[i]? with
    | none => .ok st
    | some e =>
      match st.edges[e]? with
      | none => .error .index
      | some d =>
        match d.ctrl with
        | .e => do
          let st ← setEdge (st.edges.length + 1) true st e
          initLoop k i st
        | .f =>
          if colSum st.L e = 1 then
            let n := (st.L.getD e []).idxOf 1
            if n ∈ st.icn then do
              let st ← setNodeDc st n e
              initLoop k i st
            else initLoop k i st
          else do
            let st ← setEdge (st.edges.length + 1) false st e
            initLoop k i st
        | .unknown => initLoop k (i + 1) st

/-- analysis.py:19-79 `GraphAnalysis.__init__`. -/
def init (fuel : ℕ) (nodes : List String) (edges : List (Edge K)) : Except Err (St K) := do
  let st ← start nodes edges
  initLoop fuel 0 st

/-- `_build_analysis` and `perform` without the inversion: the partition of the edges. -/
def analyse (fuel : ℕ) (nodes : List String) (edges : List (Edge K)) : Except Err (St K) := do
  let st ← init fuel nodes edges
  performLoop fuel st

end inv
end Graph
end Pyphs
