/-
Merging of anti-realizable components before the analysis of a graph: `sp_split`, `sp_merge_arc` and
`sp_assemble` in `Graph.perform_analysis` (pyphs/graphs/graph.py:150-158).

The tree of subgraphs is that of `Verif.Split.Model`; the other data of an edge are an edge of
`Verif.Graph.Model`. All the subgraphs of a graph have its core (graph.py:426, 474), so that the core and
the laws of the dissipative edges go from one subgraph to the next one.

Simplifications. The gradient of the energy with respect to the state of a storage edge, and the law of a
dissipative edge, are functions of this variable alone, the others being put to zero (same limit as in
`Verif.Graph.Merge`). Subgraphs are visited in the order of the lists of edges, each one before those it
contains (`sp_subgraphs` visits them in the order of `networkx`; only the order of `core.x`, `core.w` depends
on it). The orientation of an edge is that of the edge, not the one found at its label: labels are distinct.
Not modelled (`Err.unmodelled`): the removal of edges from a series connection, which contracts nodes with
`networkx.contracted_nodes` (subgraph.py:638-707).
-/
import Verif.Split.Flow
import Verif.Graph.Merge
import Verif.Graph.Build
import Mathlib.Analysis.Calculus.Deriv.Basic

namespace Pyphs
namespace Arc
open Graph
open Verif.Split (Name View spSplit spAssemble removeByLabel isPar)

/-- The tree of subgraphs. -/
abbrev Tr := Verif.Split.Edge (Edge ℝ)

/-- The edge of a component. -/
def wrap (d : Edge ℝ) : Tr := .comp d.tail.toList d.head.toList d.label.toList d

/-- The edges of the components in a list. -/
def datas (g : List Tr) : List (Edge ℝ) := g.filterMap fun
  | .comp _ _ _ d => some d
  | _ => none

/-- Exceptions: `ValueError`, `IndexError` (no solution), `KeyError`. `split`: no return of `sp_split` or
`sp_assemble`, or an exception in them. -/
inductive Err | value | index | key | unmodelled | split
deriving DecidableEq, Repr

/-- The core of the graph, and the laws of its dissipative edges. -/
structure Shared where
  core : Core ℝ
  law : String → Env ℝ → ℝ

/-- `sympy.solve` and `sympy.integrate`. -/
structure Sympy where
  solve : Solver ℝ
  integ : (ℝ → ℝ) → ℝ → ℝ

/-- subgraph.py:123-137: `fc_storages`, `ec_storages` -/
def isStorage (c : Ctrl) : Tr → Bool
  | .comp _ _ _ d => decide (d.type = .storage ∧ d.ctrl = c)
  | _ => false

/-- subgraph.py:139-153: `fc_dissipatives`, `ec_dissipatives` -/
def isDissipative (c : Ctrl) : Tr → Bool
  | .comp _ _ _ d => decide (d.type = .dissipative ∧ d.ctrl = c)
  | _ => false

/-- subgraph.py:452-457, 527, 575: `anti_realizability` of a subgraph, from the class of the subgraph, which is
in its label. -/
def anti (l : Name) : Ctrl := if isPar l then .f else .e

/-- subgraph.py:535-565: orientation of an edge of a parallel subgraph with terminals `(t, h)`. -/
def orientation (t h : Name) (e : Tr) : Except Err (Option Bool) :=
  if e.tail = t ∧ e.head = h then .ok (some true)
  else if e.head = t ∧ e.tail = h then .ok (some false)
  else if "_out_".toList <:+: e.label then .ok none
  else .error .value

/-- `'x' + ''.join(str(xn)[1:] for xn in x)` (subgraph.py:30, 53, 65) -/
def mergedName (pre : String) (ls : List String) : String :=
  pre ++ String.ofList (ls.flatMap fun l => l.toList.drop 1)

/-- `gradient(self.core.H, x)` for one state. -/
noncomputable def slope (H : Env ℝ → ℝ) (x : String) (v : ℝ) : ℝ :=
  deriv (fun t => H (Function.update 0 x t)) v

/-- The law of a dissipative edge as a function of its variable. -/
def zlaw (law : String → Env ℝ → ℝ) (c : Ctrl) (d : Edge ℝ) (v : ℝ) : ℝ :=
  law (if c = .f then d.zf else d.ze) (Function.update 0 d.label v)

/-- A new edge, and the edges that it replaces. -/
structure Plan where
  new : Tr
  olds : List Tr

/-- `new_edge` (subgraph.py:529-533) and `remove_edges_from_list` (graph.py:653-681). -/
def Plan.apply (p : Plan) (g : List Tr) : Except Err (List Tr) :=
  match p.olds.foldlM (fun cur e => removeByLabel e cur) (g ++ [p.new]) with
  | some g' => .ok g'
  | none => .error .key

/-- `for xn in l: core.x.remove(xn)`; `none`: `ValueError` -/
def removeAll (l : List String) (xs : List String) : Option (List String) :=
  l.foldlM (fun cur x => if x ∈ cur then some (cur.erase x) else none) xs

/-- subgraph.py:286-289: `for wn in l: i = core.w.index(wn); core.w.pop(i); core.z.pop(i)` -/
def popAll (l : List String) (c : Core ℝ) : Option (Core ℝ) :=
  l.foldlM (fun cur wn =>
    if wn ∈ cur.w ∧ cur.w.idxOf wn < cur.z.length then
      some { cur with w := cur.w.eraseIdx (cur.w.idxOf wn), z := cur.z.eraseIdx (cur.w.idxOf wn) }
    else none) c

/-- The nodes of the new component: those of the first edge, in the order of its orientation
(subgraph.py:231-235, 270-274). -/
def newNodes (os : List (Option Bool)) (es : List Tr) : Name × Name :=
  match es, os with
  | e :: _, some true :: _ => (e.tail, e.head)
  | e :: _, _ => (e.head, e.tail)
  | [], _ => ([], [])

/-- `-f.subs(v, -v)` when the orientation is -1 (subgraph.py:238-240, 278-280) -/
noncomputable def oriented (os : List (Option Bool)) (fs : List (ℝ → ℝ)) : List (ℝ → ℝ) :=
  List.zipWith (fun o f => orient (decide (o ≠ some false)) f) os fs

/-- subgraph.py:227-264 `merge_arc_storages`, for a parallel subgraph. -/
noncomputable def planStorages (sy : Sympy) (v : View (Edge ℝ)) (c : Ctrl) (t h : Name) (sub : List Tr)
    (s : Shared) : Except Err (Option Plan × Shared) :=
  let es := (v.edges sub).filter (isStorage c)
  if es.length ≤ 1 then .ok (none, s) else do
    let _ ← sub.mapM (orientation t h)
    let os ← es.mapM (orientation t h)
    let nodes := newNodes os es
    let x := (datas es).map (·.label)
    let dxH := x.map (slope s.core.H)
    let X := mergedName "x" x
    match nonrealStor sy.solve sy.integ (oriented os dxH) with
    | none => .error .index
    | some (newH, _) =>
      match removeAll x s.core.x with
      | none => .error .value
      | some xs =>
        .ok (some ⟨.comp nodes.1 nodes.2 X.toList
            ⟨String.ofList nodes.1, String.ofList nodes.2, X, .storage, c, none, .gyrator, none, "", ""⟩, es⟩,
          { s with core := { s.core with
              x := xs ++ [X]
              H := fun e => s.core.H e - (List.zipWith (fun f xn => sy.integ f (e xn)) dxH x).sum +
                newH (e X) } })

/-- subgraph.py:266-301 `merge_arc_dissipatives`, for a parallel subgraph. The law of the new edge is named
after its label. -/
noncomputable def planDissipatives (sy : Sympy) (v : View (Edge ℝ)) (c : Ctrl) (t h : Name) (sub : List Tr)
    (s : Shared) : Except Err (Option Plan × Shared) :=
  let es := (v.edges sub).filter (isDissipative c)
  if es.length ≤ 1 then .ok (none, s) else do
    let _ ← sub.mapM (orientation t h)
    let os ← es.mapM (orientation t h)
    let nodes := newNodes os es
    let w := (datas es).map (·.label)
    let z := (datas es).map (zlaw s.law c)
    let W := mergedName "w" w
    let n := "merged:" ++ W
    match nonrealDiss sy.solve (oriented os z) with
    | none => .error .index
    | some Z =>
      match popAll w s.core with
      | none => .error .value
      | some core =>
        .ok (some ⟨.comp nodes.1 nodes.2 W.toList
            ⟨String.ofList nodes.1, String.ofList nodes.2, W, .dissipative, c, none, .gyrator, none, n, n⟩, es⟩,
          { core := { core with w := core.w ++ [W], z := core.z ++ [fun e => Z (e W)] }
            law := Function.update s.law n fun e => Z (e W) })

/-- The changes of a list of edges. -/
def applyAll (ps : List Plan) (g : List Tr) : Except Err (List Tr) := ps.foldlM (fun g p => p.apply g) g

/-- subgraph.py:444-446 `merge_arc`: the changes of the edges of the subgraph, and the core. -/
noncomputable def mergeArc (sy : Sympy) (v : View (Edge ℝ)) (t h l : Name) (sub : List Tr) (s : Shared) :
    Except Err (List Plan × Shared) :=
  let c := anti l
  if isPar l then do
    let (p1, s1) ← planStorages sy v c t h sub s
    let sub1 ← applyAll p1.toList sub
    let (p2, s2) ← planDissipatives sy v c t h sub1 s1
    .ok (p1.toList ++ p2.toList, s2)
  else if ((v.edges sub).filter (isStorage c)).length ≤ 1 ∧
      ((v.edges sub).filter (isDissipative c)).length ≤ 1 then .ok ([], s)
  else .error .unmodelled

mutual
/-- graph.py:544-553 `sp_merge_arc`, below an edge: the subgraph, then those that it contains. Their edges are
changed in place: the changes of the subgraph do not concern the edges of subgraphs, and conversely. -/
noncomputable def mergeEdge (sy : Sympy) (v : View (Edge ℝ)) : Tr → Shared → Except Err (Tr × Shared)
  | .graph t h l sub, s => do
    let (ps, s1) ← mergeArc sy v t h l sub s
    let (sub2, s2) ← mergeEdges sy v sub s1
    let sub3 ← applyAll ps sub2
    .ok (.graph t h l sub3, s2)
  | .comp t h l d, s => .ok (.comp t h l d, s)
  | .out t h l, s => .ok (.out t h l, s)
/-- loop over the edges of a graph -/
noncomputable def mergeEdges (sy : Sympy) (v : View (Edge ℝ)) :
    List Tr → Shared → Except Err (List Tr × Shared)
  | [], s => .ok ([], s)
  | e :: es, s => do
    let (e', s1) ← mergeEdge sy v e s
    let (es', s2) ← mergeEdges sy v es s1
    .ok (e' :: es', s2)
end

/-- The orders of enumeration of `networkx` during the splitting, the merging and the assembling. -/
structure Views where
  vp : ℕ → View (Edge ℝ)
  vs : ℕ → View (Edge ℝ)
  vm : View (Edge ℝ)
  va : View (Edge ℝ)

/-- What is assumed of them. -/
structure Views.Lawful (V : Views) : Prop where
  vp : ∀ k, (V.vp k).Lawful
  vs : ∀ k, (V.vs k).Lawful
  vm : V.vm.Lawful
  va : V.va.Lawful

/-- graph.py:153-155: what `perform_analysis` does before the analysis; the counters of subgraphs start from
zero. The result is the list of the edges seen by the analysis, the core and the laws. -/
noncomputable def prepare (sy : Sympy) (V : Views) (fuel : ℕ) (edges : List (Edge ℝ)) (s : Shared) :
    Except Err (List (Edge ℝ) × Shared) :=
  match spSplit V.vp V.vs fuel 0 ⟨edges.map wrap, 0, 0⟩ with
  | none => .error .split
  | some st => do
    let (g, s') ← mergeEdges sy V.vm st.edges s
    match spAssemble V.va g with
    | none => .error .split
    | some g' => .ok (datas g', s')

end Arc
end Pyphs
