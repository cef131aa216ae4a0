/-
From the lines of a netlist to the graph and the core of a system: `Graph._build_from_netlist`
(/repo/pyphs/graphs/graph.py:381-396), `Graph.__add__` (695-703), the classes of the dictionaries
electronics, mechanics, mechanics_dual, magnetics and connectors that have linear laws, and the
edges they are made of (/repo/pyphs/dictionary/edges).

The lines are those read in a file (Verif/Netlist/Model.lean). The parameters are treated as in
Verif/Params/Model.lean; they are replaced by their values when the core is built, while pyphs
replaces them later (C28, C80: the values of the expressions are the same). The laws of a dissipative
edge are named after its label, see `law`.

Left out: the argument `const` of sources (see Verif/Const), arguments and nodes that are not literals
of the netlist model, and all the other classes: these give `unmodelled`.
-/
import Verif.Netlist.Model
import Verif.Params.Model
import Verif.Graph.Model
import Verif.Core.Model

namespace Pyphs
namespace System
open Core Graph Params
open Netlist (Row Lit Elem Str)

/-- Exceptions. `unmodelled` is not an exception of python: the input is outside the model. -/
inductive Err | key | index | value | type | assertion | attribute | unbound | unmodelled
  | netlist (e : Netlist.Err)
  deriving DecidableEq

/-- A python string. -/
def txt (s : Str) : String := String.ofList s

variable {F K : Type} [Field K]

/-- A class of the dictionary: where its parameter comes from and how it initialises its edge. -/
inductive Class (K : Type) where
  /-- edges/storages.py `StorageLinear`: name and default of the parameter, `inv_coeff`, `ctrl`; the edge
  of the mechanical mass starts at the datum -/
  | storage (key : String) (dflt : Option (Obj K)) (inv : Bool) (ctrl : Ctrl) (ground : Bool)
  /-- edges/dissipatives.py `DissipativeLinear` -/
  | dissipative (key : String) (dflt : Option (Obj K)) (inv : Bool)
  /-- edges/port.py `Port`: default type and controls of the types -/
  | source (dflt : Option String) (types : List (String × Ctrl))
  /-- edges/connectors.py `Connector` -/
  | connector (ctype : CType)

/-- The classes, by dictionary and name. `none`: not modelled. -/
def classOf : String → String → Option (Class K)
  -- electronics/_resistor.py:19-23, _capacitor.py:38-46, 55, _inductor.py:20-26, _source.py:19-28
  | "electronics", "Resistor" => some (.dissipative "R" none false)
  | "electronics", "Capacitor" => some (.storage "C" (some (.str "1e-9")) true .f false)
  | "electronics", "Inductor" => some (.storage "L" none true .e false)
  | "electronics", "Source" => some (.source none [("voltage", .f), ("current", .e)])
  -- mechanics/_mass.py:20-29, _stiffness.py:19-29, _damper.py:18-25, _source.py:16-26
  | "mechanics", "Mass" => some (.storage "M" (some (.num (1 / 100))) true .f true)
  | "mechanics", "Stiffness" => some (.storage "K" (some (.num 1000)) false .e false)
  | "mechanics", "Damper" => some (.dissipative "A" (some (.num 1)) true)
  | "mechanics", "Source" => some (.source (some "force") [("force", .e), ("velocity", .f)])
  -- mechanics_dual/_mass.py:20-29, _stiffness.py:19-25, _damper.py:19-26, _source.py:19-27
  | "mechanics_dual", "Mass" => some (.storage "M" (some (.num (1 / 100))) true .e false)
  | "mechanics_dual", "Stiffness" => some (.storage "K" none false .f false)
  | "mechanics_dual", "Damper" => some (.dissipative "A" (some (.num 1)) false)
  | "mechanics_dual", "Source" => some (.source none [("force", .f), ("velocity", .e)])
  -- magnetics/_capacitor.py:22-30, _resistor.py:20-26, _source.py:20-30
  | "magnetics", "Capacitor" => some (.storage "C" (some (.num (1 / 1000000000))) true .f false)
  | "magnetics", "Resistor" => some (.dissipative "R" (some (.num (1 / 1000))) false)
  | "magnetics", "Source" => some (.source (some "mmf") [("mmf", .f), ("fluxvar", .e)])
  -- connectors/_gyrator.py:20-23, _transformer.py:18-21
  | "connectors", "Gyrator" => some (.connector .gyrator)
  | "connectors", "Transformer" => some (.connector .transformer)
  | _, _ => none

/-- dictionary/tools.py:172-218 `form`: the types of arguments; the errors of tuples. -/
def toObj (val : F → K) : Lit F → Except Err (Obj K)
  | .elem (.str s) => .ok (.str (txt s))
  | .elem (.num f) => .ok (.num (val f))
  | .bool b => .ok (.num (if b then 1 else 0))
  | .none => .error .type
  | .tuple (.str s :: .num f :: _) => .ok (.tuple (txt s) (.num (val f)))
  | .tuple [] => .error .index
  | .tuple [.str _] => .error .index
  | .tuple _ => .error .type

/-- The value of a parameter: the argument, or the default if the class has one. -/
def argument (val : F → K) (args : List (Str × Lit F)) (key : String) (dflt : Option (Obj K)) :
    Except Err (Obj K) :=
  match args.lookup key.toList with
  | some l => toObj val l
  | none => match dflt with
    | some o => .ok o
    | none => .error .key

/-- The same with `None` replaced by zero: electronics/_resistor.py:19-22, mechanics/_damper.py:20-23. -/
def coefficient (val : F → K) (args : List (Str × Lit F)) (key : String) (dflt : Option (Obj K)) :
    Except Err (Obj K) :=
  match args.lookup key.toList with
  | some .none => .ok (.num 0)
  | _ => argument val args key dflt

/-- The control of a source: the type in lower case must be one of those of the class. -/
def sourceCtrl (args : List (Str × Lit F)) (dflt : Option String) (types : List (String × Ctrl)) :
    Except Err Ctrl :=
  match args.lookup "type".toList, dflt with
  | none, none => .error .key
  | none, some d => match types.lookup d with
    | some c => .ok c
    | none => .error .assertion
  | some (.elem (.str s)), _ => match types.lookup (txt (s.map Char.toLower)) with
    | some c => .ok c
    | none => .error .assertion
  | some _, _ => .error .attribute

/-- The names of the nodes. -/
def nodesOf : Lit F → Except Err (List String)
  | .tuple l => l.mapM fun
    | .str s => .ok (txt s)
    | .num _ => .error .unmodelled
  | _ => .error .unmodelled

/-- The graph of a component, with one edge, or two linked ones. -/
inductive Part (K : Type) where
  | storage (label tail head : String) (value : Obj K) (inv : Bool) (ctrl : Ctrl)
  | dissipative (label tail head : String) (coeff : Obj K) (inv : Bool)
  | port (label tail head : String) (ctrl : Ctrl)
  | connector (label n1 n2 n3 n4 : String) (kwargs : Sym.Dict (Obj K)) (ctype : CType)

/-- `self.metadata['parameters']` of the connectors, connectors/_gyrator.py:33. -/
def ratioDefault : List (String × Obj K) := [("alpha", .num 1)]

/-- The arguments of a connector: connectors/_gyrator.py:20-23 (the key `connector_type` is taken out by
edges/connectors.py:19). -/
def connArgs (val : F → K) (args : List (Str × Lit F)) : Except Err (Sym.Dict (Obj K)) := do
  let kw ← (args.filter fun p => p.1 ≠ "connector_type".toList).mapM fun p => do
    let o ← toObj val p.2
    return (txt p.1, o)
  return withDefaults ratioDefault kw

/-- The initialisation of a class. -/
def Class.init (val : F → K) (label : String) (nodes : List String) (args : List (Str × Lit F)) :
    Class K → Except Err (Part K)
  | .storage key dflt inv ctrl ground => do
    let o ← argument val args key dflt
    -- mechanics/_mass.py:29 and edges/storages.py:39
    match ground, nodes with
    | true, a :: _ => return .storage label datum a o inv ctrl
    | false, a :: b :: _ => return .storage label a b o inv ctrl
    | _, _ => .error .index
  | .dissipative key dflt inv => do
    let o ← coefficient val args key dflt
    -- edges/dissipatives.py:60
    match nodes with
    | a :: b :: _ => return .dissipative label a b o inv
    | _ => .error .index
  | .source dflt types => do
    let c ← sourceCtrl args dflt types
    -- edges/port.py:47-52, 68
    match args.lookup "const".toList, nodes with
    | none, [b] => return .port label datum b c
    | none, [a, b] => return .port label a b c
    | some .none, [b] => return .port label datum b c
    | some .none, [a, b] => return .port label a b c
    | none, _ => .error .unbound
    | some .none, _ => .error .unbound
    | some _, _ => .error .unmodelled
  | .connector ctype => do
    let kw ← connArgs val args
    -- edges/connectors.py:50
    match nodes with
    | [a, b, c, d] => return .connector label a b c d kw ctype
    | _ => .error .value

/-- graph.py:388-395: one line. The keywords `label` and `nodes` would be given twice. -/
def rowPart (val : F → K) (r : Row F) : Except Err (Part K) :=
  match r.comp.map Char.toLower with
  | [] => .error .index
  | h :: t =>
    match classOf (txt r.dict) (txt (h.toUpper :: t)) with
    | none => .error .unmodelled
    | some k =>
      if ∃ p ∈ r.args, p.1 ∈ ["self".toList, "label".toList, "nodes".toList] then .error .type
      else do
        let nodes ← nodesOf r.nodes
        k.init val (txt r.label) nodes r.args

/-! ### The system -/

/-- The component of Verif/Params/Model.lean. -/
def Part.comp : Part K → List (Comp K)
  | .storage l _ _ o inv _ => [.stoLinear l o inv]
  | .dissipative l _ _ o inv => [.dissLinear l o inv]
  | .port .. => []
  | .connector l _ _ _ _ kw _ => [.connector l kw]

/-- The edges of a component with ratio `a`: edges/storages.py:35-40, edges/dissipatives.py:55-61,
edges/port.py:61-66, edges/connectors.py:38-53. -/
def Part.edges (a : K) : Part K → List (Edge K)
  | .storage l t h _ _ ctrl => [⟨t, h, "x" ++ l, .storage, ctrl, none, .gyrator, none, "", ""⟩]
  | .dissipative l t h _ _ => [⟨t, h, "w" ++ l, .dissipative, .unknown, none, .gyrator, none,
      "e:w" ++ l, "f:w" ++ l⟩]
  | .port l t h ctrl => [⟨t, h, "y" ++ l, .port, ctrl, none, .gyrator, none, "", ""⟩]
  | .connector l n1 n2 n3 n4 _ ctype =>
    [⟨n1, n2, "y" ++ (l ++ "1"), .connector, .unknown, some ("y" ++ (l ++ "2")), ctype, some a, "", ""⟩,
      ⟨n3, n4, "y" ++ (l ++ "2"), .connector, .unknown, some ("y" ++ (l ++ "1")), ctype, none, "", ""⟩]

/-- The core of a component, without its energy: edges/storages.py:34, edges/dissipatives.py:54,
edges/port.py:57, edges/connectors.py:34-36. -/
def Part.core [DecidableEq K] (law : String → Env K → K) (a : K) : Part K → Option (Core K)
  | .storage l .. => some (empty.addStorages ["x" ++ l] fun _ => 0)
  | .dissipative l .. => empty.addDissipations ["w" ++ l] [law ("f:w" ++ l)]
  | .port l .. => empty.addPorts ["u" ++ l] ["y" ++ l]
  | .connector l .. =>
    (empty.addPorts ["u" ++ (l ++ "1"), "u" ++ (l ++ "2")]
      ["y" ++ (l ++ "1"), "y" ++ (l ++ "2")]).bind fun c => c.addConnector 0 1 a

/-- The expressions of the system with the values of the parameters: energy, dissipation functions
(flux-controlled, effort-controlled), ratios of the connectors. -/
def resolved (I : Sym.Interp K) (ps : List (Part K)) (e : Env K) : List (List K) :=
  ((coreOf (ps.flatMap Part.comp)).toS.substitute [] true false).1.attrs.map fun a =>
    a.map (Sym.Expr.eval I e)

def energy (I : Sym.Interp K) (ps : List (Part K)) (e : Env K) : K :=
  ((resolved I ps e).getD 0 []).getD 0 0

def ratios (I : Sym.Interp K) (ps : List (Part K)) : List K :=
  (resolved I ps fun _ => 0).getD 3 []

/-- The labels of the dissipative components. -/
def dissLabels : List (Part K) → List String
  | [] => []
  | .dissipative l .. :: ps => l :: dissLabels ps
  | _ :: ps => dissLabels ps

/-- The laws of the dissipative edges, by name. -/
def law (I : Sym.Interp K) (ps : List (Part K)) (s : String) (e : Env K) : K :=
  (((dissLabels ps).map fun l => "f:w" ++ l).zip ((resolved I ps e).getD 1 []) ++
    ((dissLabels ps).map fun l => "e:w" ++ l).zip ((resolved I ps e).getD 2 [])).lookup s |>.getD 0

/-- The connectors take the ratios in order. -/
def withRatios : List (Part K) → List K → List (Part K × K)
  | [], _ => []
  | p :: ps, as =>
    match p with
    | .connector .. => (p, as.headD 0) :: withRatios ps as.tail
    | _ => (p, 0) :: withRatios ps as

/-- The edges of the graph, in the order of the netlist. -/
def graphEdges (I : Sym.Interp K) (ps : List (Part K)) : List (Edge K) :=
  (withRatios ps (ratios I ps)).flatMap fun q => q.1.edges q.2

/-- The core of the graph: graph.py:701, one sum for each component. -/
def graphCore [DecidableEq K] (I : Sym.Interp K) (ps : List (Part K)) : Option (Core K) :=
  ((withRatios ps (ratios I ps)).foldlM (fun (c : Core K) (q : Part K × K) =>
    (q.1.core (law I ps) q.2).bind fun c' => addCores c c') empty).map
    fun c => { c with H := energy I ps }

/-- graph.py:381-396 `_build_from_netlist`: the components of the lines, in order. -/
def buildParts (val : F → K) (rows : List (Row F)) : Except Err (List (Part K)) :=
  rows.mapM (rowPart val)

/-- The components of a netlist file (netlists.py:105-143, graph.py:69-96). -/
def ofText (fmt : Netlist.NumFmt F) (val : F → K) (text : Str) : Except Err (List (Part K)) :=
  match Netlist.read fmt text with
  | .error e => .error (.netlist e)
  | .ok rows => buildParts val rows

end System
end Pyphs
