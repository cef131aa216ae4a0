import Mathlib.Data.List.Basic
import Mathlib.Data.List.Infix

/-!
# Series/parallel splitting of graphs

Model of the functions which `Graph.perform_analysis` applies to every graph before its analysis
(`graphs/graph.py:150-155`):

* `getedges`, `parallel_edges`, `serial_next`, `serial_edges` (`graphs/tools.py:12-165`),
* `_split_parallel`, `_split_serial`, `sp_split` (`graphs/graph.py:405-488, 518-529`),
* `sp_assemble`, `remove_edges_from_list` (`graphs/graph.py:490-516, 655-685`).

A graph is the list of its edges in the order of their insertion.  An edge is a component, one of
the `'_out_'` ports which are added to subgraphs, or a subgraph; other data of the edges are the
payload `C`.  `networkx` enumerates nodes, neighbours and edges in orders that depend on the
history of its dictionaries: these orders are given by a `View`, about which nothing is assumed but
that it enumerates what is in the graph (`View.Lawful`).

Not modelled: the cores and the analysis objects attached to the subgraphs, which neither function
reads, and nodes without edges, which are removed by `remove_orphan_nodes`.
-/

namespace Verif.Split

/-- Labels of nodes and edges. -/
abbrev Name := List Char

/-- `config.py:113` -/
def datum : Name := ['#']

/-- Edges `(N1, N2, data)` of `Graph` objects. `comp`: any edge of a component, with its label;
`out`: port `'label_out_node'` of a subgraph (`graph.py:431-434, 473-476`); `graph`: edge of type
`'graph'` with its subgraph. -/
inductive Edge (C : Type) where
  | comp (t h : Name) (label : Name) (c : C)
  | out (t h : Name) (label : Name)
  | graph (t h : Name) (label : Name) (sub : List (Edge C))

namespace Edge
variable {C : Type}

def tail : Edge C → Name
  | .comp t _ _ _ => t
  | .out t _ _ => t
  | .graph t _ _ _ => t

def head : Edge C → Name
  | .comp _ h _ _ => h
  | .out _ h _ => h
  | .graph _ h _ _ => h

def label : Edge C → Name
  | .comp _ _ l _ => l
  | .out _ _ l => l
  | .graph _ _ l _ => l

/-- `e[-1]['type'] == 'graph'` -/
def isGraph : Edge C → Bool
  | .graph .. => true
  | _ => false

/-- the edge goes from `u` to `v`, i.e. it is in `self[u][v]` -/
def at' (u v : Name) (e : Edge C) : Bool := e.tail = u && e.head = v

end Edge

open Edge

variable {C : Type}

/-- The orders in which `networkx` enumerates the nodes of a graph, the neighbours of a node in the
simple undirected graph `nx.Graph(graph)`, and the edges. -/
structure View (C : Type) where
  nodes : List (Edge C) → List Name
  nbrs : List (Edge C) → Name → List Name
  edges : List (Edge C) → List (Edge C)

/-- `x` and `y` are joined by an edge, in one or the other direction. -/
def Adj (g : List (Edge C)) (x y : Name) : Prop :=
  ∃ e ∈ g, (e.tail = x ∧ e.head = y) ∨ (e.tail = y ∧ e.head = x)

/-- What is assumed of the enumerations. -/
structure View.Lawful (v : View C) : Prop where
  nodes_nodup : ∀ g, (v.nodes g).Nodup
  mem_nodes : ∀ g n, n ∈ v.nodes g ↔ ∃ m, Adj g n m
  nbrs_nodup : ∀ g n, (v.nbrs g n).Nodup
  mem_nbrs : ∀ g n m, m ∈ v.nbrs g n ↔ Adj g n m
  edges_perm : ∀ g, (v.edges g).Perm g

/-- `s.issuperset(set(e[:2]))` for `s = set((a, b))` (tools.py:146-149) -/
def between (a b : Name) (e : Edge C) : Bool :=
  (e.tail = a || e.tail = b) && (e.head = a || e.head = b)

/-- tools.py:127-150 -/
def getedges (v : View C) (g : List (Edge C)) (a b : Name) : List (Edge C) :=
  (v.edges g).filter (between a b)

/-- `g.degree(n)` in the simple undirected graph: a loop counts twice. -/
def degree (v : View C) (g : List (Edge C)) (n : Name) : ℕ :=
  (v.nbrs g n).length + if n ∈ v.nbrs g n then 1 else 0

/-- tools.py:97-124 -/
def parallelEdges (v : View C) (g : List (Edge C)) : List (List (Edge C)) :=
  (v.nodes g).flatMap fun n =>
    if 1 < degree v g n ∧ n ≠ datum then
      ((v.nbrs g n).map fun m => getedges v g n m).filter fun es => 1 < es.length
    else []

/-- tools.py:12-54: the loop, on the reversed list of the nodes of the chain. `none`: no end within
the fuel, or an exception (`IndexError`). -/
def walk (v : View C) (g : List (Edge C)) (start : Name) : ℕ → List Name → Option (List Name)
  | 0, _ => none
  | k + 1, last :: prev :: rest =>
    if degree v g last = 2 ∧ last ≠ datum then
      if start = last then some (last :: prev :: rest)
      else match (v.nbrs g last).erase prev with
        | [] => none
        | x :: _ => walk v g start k (x :: last :: prev :: rest)
    else some (last :: prev :: rest)
  | _ + 1, _ => none

/-- tools.py:12-54: `serial_next(graph, n1, n2)`, reversed. -/
def serialNext (v : View C) (g : List (Edge C)) (n1 n2 : Name) : Option (List Name) :=
  walk v g n1 ((v.nodes g).length + 2) [n2, n1]

/-- tools.py:80-106: the nodes of the serial connection through `node`; `none`: exception (there are
not two neighbours to unpack). -/
def chain (v : View C) (g : List (Edge C)) (node : Name) : Option (List Name) :=
  match v.nbrs g node with
  | [n1, n2] =>
    (serialNext v g node n1).bind fun r1 =>
    (serialNext v g node n2).bind fun r2 =>
    some (r1.dropLast ++
      (if r2.head? = some datum ∧ r1.head? = some datum then r2.tail else r2).reverse)
  | _ => none

/-- An element of the result of `serial_edges`. -/
structure Cluster (C : Type) where
  edges : List (Edge C)
  first : Name
  last : Name

/-- tools.py:108-111: the first edge found for each pair of successive nodes -/
def pairEdges (v : View C) (g : List (Edge C)) : List Name → Option (List (Edge C))
  | a :: b :: s =>
    (getedges v g a b).head?.bind fun e => (pairEdges v g (b :: s)).bind fun es => some (e :: es)
  | _ => some []

/-- tools.py:76-113: loop over the nodes, `seen` is `serial_nodes`. -/
def serialGo (v : View C) (g : List (Edge C)) : List Name → List Name → Option (List (Cluster C))
  | [], _ => some []
  | n :: ns, seen =>
    if n ∉ seen ∧ degree v g n = 2 ∧ n ≠ datum then
      (chain v g n).bind fun s =>
      (pairEdges v g s).bind fun es =>
      (serialGo v g ns (seen ++ s)).bind fun cs =>
      s.head?.bind fun a => s.getLast?.bind fun b =>
      some (⟨es, a, b⟩ :: cs)
    else serialGo v g ns seen

/-- tools.py:57-113 -/
def serialEdges (v : View C) (g : List (Edge C)) : Option (List (Cluster C)) :=
  serialGo v g (v.nodes g) []

/-- The edges of the graph and the counters of its subgraphs (graph.py:30-33). -/
structure State (C : Type) where
  edges : List (Edge C)
  idpar : ℕ
  idser : ℕ

/-- `'parallel{0}'.format(n)` -/
def parLabel (n : ℕ) : Name := "parallel".toList ++ (toString n).toList

/-- `'serial{0}'.format(n)` -/
def serLabel (n : ℕ) : Name := "serial".toList ++ (toString n).toList

/-- `label + '_out_' + node` -/
def outLabel (l n : Name) : Name := l ++ "_out_".toList ++ n

/-- graph.py:430-434, 472-476: ports of the subgraph at its terminals -/
def outs (l n1 n2 : Name) : List (Edge C) :=
  ([n1, n2].filter fun n => n ≠ datum).map fun n => .out datum n (outLabel l n)

/-- graph.py:455-484: treatment of one cluster of parallel edges. `none`: `KeyError`/`IndexError`. -/
def replacePar (st : State C) (es : List (Edge C)) : Option (State C) :=
  match es with
  | [] => none
  | e :: _ =>
    if st.edges.any (at' e.tail e.head) then
      let l := parLabel (st.idpar + 1)
      some { st with
        edges := ((st.edges.filter fun x => !at' e.tail e.head x).filter
            fun x => !at' e.head e.tail x) ++
          [.graph e.tail e.head l (es ++ outs l e.tail e.head)]
        idpar := st.idpar + 1 }
    else none

/-- graph.py:444-488 -/
def splitParallel (v : View C) (st : State C) : Option (State C × Bool) :=
  let pe := parallelEdges v st.edges
  (pe.foldlM replacePar st).map fun st' => (st', !pe.isEmpty)

/-- `remove_edges_from([(u, v, None)])`: `popitem` of the last edge from `u` to `v`, if any -/
def popEdge (u w : Name) (g : List (Edge C)) : List (Edge C) :=
  (g.reverse.eraseP (at' u w)).reverse

/-- graph.py:416-418: the removal is done as many times as there are edges in the cluster. -/
def removeCluster (es g : List (Edge C)) : List (Edge C) :=
  es.foldl (fun g _ => es.foldl (fun g e => popEdge e.tail e.head g) g) g

/-- graph.py:415-440: treatment of one cluster of serial edges. -/
def replaceSer (st : State C) (c : Cluster C) : State C :=
  let l := serLabel (st.idser + 1)
  { st with
    edges := removeCluster c.edges st.edges ++
      [.graph c.first c.last l (c.edges ++ outs l c.first c.last)]
    idser := st.idser + 1 }

/-- graph.py:405-442 -/
def splitSerial (v : View C) (st : State C) : Option (State C × Bool) :=
  (serialEdges v st.edges).map fun se => (se.foldl replaceSer st, !se.isEmpty)

/-- graph.py:523-529: the body of the loop of `sp_split`, with `change`. -/
def pass (vp vs : View C) (st : State C) : Option (State C × Bool) :=
  (splitParallel vp st).bind fun (st1, cp) =>
  (splitSerial vs st1).bind fun (st2, cs) =>
  some (st2, cs || cp)

/-- graph.py:518-529: `sp_split`, where the `k`th pass reads the graph with the enumerations
`vp k` and `vs k`. `none`: no return within the fuel, or an exception. -/
def spSplit (vp vs : ℕ → View C) : ℕ → ℕ → State C → Option (State C)
  | 0, _, _ => none
  | fuel + 1, k, st =>
    (pass (vp k) (vs k) st).bind fun (st', change) =>
    if change then spSplit vp vs fuel (k + 1) st' else some st'

mutual
/-- graph.py:495-503: `assemble_subgraph` for the subgraph of an edge: what is added to the graph -/
def inner : Edge C → List (Edge C)
  | .graph _ _ _ sub => sub ++ inners sub
  | .comp .. => []
  | .out .. => []
/-- loop over the edges -/
def inners : List (Edge C) → List (Edge C)
  | [] => []
  | e :: es => inner e ++ inners es
end

/-- `remove_edges_from_list([e])` (graph.py:655-685): the first edge between the same nodes with the
same label, the last edge between these nodes if no label matches; `none`: `KeyError`. -/
def removeByLabel (e : Edge C) (g : List (Edge C)) : Option (List (Edge C)) :=
  if g.any (at' e.tail e.head) then
    if g.any (fun x => at' e.tail e.head x && x.label = e.label) then
      some (g.eraseP fun x => at' e.tail e.head x && x.label = e.label)
    else some (popEdge e.tail e.head g)
  else none

/-- `'_out_' in str(elabel) or etype == 'graph'` (graph.py:513) -/
def dropped (e : Edge C) : Bool := decide ("_out_".toList <:+: e.label) || e.isGraph

/-- graph.py:490-516: `sp_assemble`; the loop that removes edges is over a list made with the
enumeration `v` of the edges. -/
def spAssemble (v : View C) (g : List (Edge C)) : Option (List (Edge C)) :=
  let g' := g ++ inners g
  ((v.edges g').filter dropped).foldlM (fun cur e => removeByLabel e cur) g'

end Verif.Split
