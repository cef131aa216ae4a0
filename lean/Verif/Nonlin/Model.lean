/-
From the lines of a netlist to the graph and the core of a system with nonlinear components:
/repo/pyphs/dictionary/electronics/_diode.py, _potentiometer.py, mechanics/_springcubic.py,
_springsat.py, mechanics_dual/_springcubic.py, _springsat.py, magnetics/_capacitorsat.py, and the classes
`DissipativeNonLinear` (edges/dissipatives.py:71-133) and `StorageNonLinear` (edges/storages.py:55-100) they
are made of. The other lines are treated as in Verif/System/Model.lean, from which the rest is taken too.

The expressions are those of Verif/Compo/Model.lean.
-/
import Verif.System.Model
import Verif.Compo.Model

namespace Pyphs
namespace Nonlin
open Core Graph Params
open _root_.Pyphs.System (txt toObj nodesOf rowPart)
open Compo (E s k hsat GMIN)
open Netlist (Row Lit Elem Str)

variable {F : Type}

/-- A dissipative edge: name, ends, effort-controlled and flux-controlled laws. -/
structure DEdge where
  id : String
  tail : String
  head : String
  ze : E
  zf : E

/-- The graph of a component. -/
inductive NPart where
  | linear (p : System.Part ℝ)
  /-- edges/storages.py:86-100 -/
  | storage (label tail head : String) (kwargs : Sym.Dict (Obj ℝ)) (H : E) (ctrl : Ctrl)
  /-- edges/dissipatives.py:106-133 -/
  | dissipative (label : String) (kwargs : Sym.Dict (Obj ℝ)) (edges : List DEdge)

/-- The nonlinear classes. -/
inductive Class where
  | diode | potentiometer
  | springcubic (ctrl : Ctrl) | springsat (ctrl : Ctrl) | capacitorsat

def classOf : String → String → Option Class
  | "electronics", "Diode" => some .diode
  | "electronics", "Potentiometer" => some .potentiometer
  | "mechanics", "Springcubic" => some (.springcubic .e)
  | "mechanics_dual", "Springcubic" => some (.springcubic .f)
  | "mechanics", "Springsat" => some (.springsat .e)
  | "mechanics_dual", "Springsat" => some (.springsat .f)
  | "magnetics", "Capacitorsat" => some .capacitorsat
  | _, _ => none

/-- `self.metadata['parameters']`: _diode.py:90-93, _potentiometer.py:64-66, _springcubic.py:56-58,
_springsat.py:72-74, _capacitorsat.py:66-68. -/
noncomputable def Class.defaults : Class → List (String × Obj ℝ)
  | .diode => [("Is", .num 2e-9), ("mu", .num 1.7), ("R", .num 0.5), ("v0", .num 26e-3)]
  | .potentiometer => [("R", .num 1e5), ("A", .str "alpha"), ("E", .num 1)]
  | .springcubic _ => [("F1", .num 10), ("F3", .num 10), ("xref", .num 1e-2)]
  | .springsat _ => [("K0", .num 1e3), ("Ksat", .num 1e3), ("xsat", .num 1e-2)]
  | .capacitorsat => [("C0", .num 1e3), ("Csat", .num 1e3), ("phisat", .num 1e-1)]

/-- The names of the other arguments of the constructors of edges and of `mappars`. -/
def Class.reserved : Class → List String
  | .diode => ["edges", "w", "z", "graph"]
  | .potentiometer => ["edges", "w", "z", "graph"]
  | _ => ["edges", "x", "H", "graph"]

/-- The number of nodes that the constructor unpacks. -/
def Class.arity : Class → ℕ
  | .potentiometer => 3
  | _ => 2

/-- The graph, for the values `kw` of the parameters. -/
noncomputable def Class.build (label : String) (nodes : List String) (kw : Sym.Dict (Obj ℝ)) :
    Class → Except System.Err NPart
  -- _diode.py:26-79; line 25 adds the parameter `gmin`
  | .diode => match nodes with
    | [N1, N2] =>
      let w0 := "w" ++ label
      let w1 := "w" ++ (label ++ "_R")
      let w2 := "w" ++ (label ++ "_gmin")
      let iN2 := N2 ++ label
      .ok (.dissipative label (kw.update [("gmin", .tuple "gmin" (.num GMIN))])
        [⟨label, N1, iN2, s "Is" * (.op1 "exp" (s w0 / (s "mu" * s "v0")) - k 1),
            s "mu" * s "v0" * .op1 "log" (s w0 / s "Is" + k 1)⟩,
         ⟨label ++ "_R", iN2, N2, s w1 / s "R", s "R" * s w1⟩,
         ⟨label ++ "_gmin", N1, iN2, s w2 * s "gmin", s w2 / s "gmin"⟩])
    | _ => .error .value
  -- _potentiometer.py:22-56
  | .potentiometer => match nodes with
    | [N1, N2, N3] =>
      let w1 := "w" ++ (label ++ "1")
      let w2 := "w" ++ (label ++ "2")
      let R1 := k 1 + s "R" * s "A" ^ s "E"
      let R2 := k 1 + s "R" * (k 1 - s "A" ^ s "E")
      .ok (.dissipative label kw
        [⟨label ++ "1", N1, N2, s w1 / R1, R1 * s w1⟩, ⟨label ++ "2", N2, N3, s w2 / R2, R2 * s w2⟩])
    | _ => .error .value
  -- _springcubic.py:23-43
  | .springcubic ctrl => match nodes with
    | [N1, N2] =>
      let x := "x" ++ label
      .ok (.storage label N1 N2 kw
        (s "F1" * s x ^ k 2 / (k 2 * s "xref") + s "F3" * s x ^ k 4 / (k 4 * s "xref" ^ k 3)) ctrl)
    | _ => .error .value
  -- _springsat.py:24-51
  | .springsat ctrl => match nodes with
    | [N1, N2] =>
      let x := "x" ++ label
      .ok (.storage label N1 N2 kw (s "K0" * (s x ^ k 2 / k 2 - s "Ksat" * hsat x "xsat")) ctrl)
    | _ => .error .value
  -- _capacitorsat.py:22-46
  | .capacitorsat => match nodes with
    | [N1, N2] =>
      let x := "x" ++ label
      .ok (.storage label N1 N2 kw ((s x ^ k 2 / k 2 - s "Csat" * hsat x "phisat") / s "C0") .f)
    | _ => .error .value

/-- The keyword arguments. -/
noncomputable def kwargsOf (val : F → ℝ) (args : List (Str × Lit F)) : Except System.Err (Sym.Dict (Obj ℝ)) :=
  args.mapM fun p => do
    let o ← toObj val p.2
    return (txt p.1, o)

/-- The initialisation of a nonlinear class. The unpacking of `nodes` is a `ValueError` if their number is
wrong. The last line of each constructor passes the parameters as keywords, which must not be those of its
other arguments. -/
noncomputable def Class.init (val : F → ℝ) (label : String) (nodes : List String)
    (args : List (Str × Lit F)) (c : Class) : Except System.Err NPart :=
  if nodes.length ≠ c.arity then .error .value
  else if ∃ p ∈ args, txt p.1 ∈ c.reserved then .error .type
  else do
    let kw ← kwargsOf val args
    c.build label nodes (withDefaults c.defaults kw)

/-- graph.py:388-395: one line. -/
noncomputable def nrowPart (val : F → ℝ) (r : Row F) : Except System.Err NPart :=
  match r.comp.map Char.toLower with
  | [] => .error .index
  | h :: t =>
    match classOf (txt r.dict) (txt (h.toUpper :: t)) with
    | none => (rowPart val r).map .linear
    | some k =>
      if ∃ p ∈ r.args, p.1 ∈ ["self".toList, "label".toList, "nodes".toList] then .error .type
      else do
        let nodes ← nodesOf r.nodes
        k.init val (txt r.label) nodes r.args

/-! ### The system -/

/-- The component of Verif/Params/Model.lean. -/
def NPart.comp : NPart → List (Comp ℝ)
  | .linear p => p.comp
  | .storage l _ _ kw H _ => [.nonLinear l kw H []]
  | .dissipative l kw es => [.nonLinear l kw (.const 0) (es.map fun d => (d.zf, d.ze))]

/-- The edges of a component with ratio `a`: edges/storages.py:100, edges/dissipatives.py:133. -/
def NPart.edges (a : ℝ) : NPart → List (Edge ℝ)
  | .linear p => p.edges a
  | .storage l t h _ _ ctrl => [⟨t, h, "x" ++ l, .storage, ctrl, none, .gyrator, none, "", ""⟩]
  | .dissipative _ _ es => es.map fun d =>
      ⟨d.tail, d.head, "w" ++ d.id, .dissipative, .unknown, none, .gyrator, none, "e:w" ++ d.id,
        "f:w" ++ d.id⟩

/-- The core of a component, without its energy: edges/storages.py:98, edges/dissipatives.py:131. -/
noncomputable def NPart.core (law : String → Env ℝ → ℝ) (a : ℝ) : NPart → Option (Core ℝ)
  | .linear p => p.core law a
  | .storage l .. => some (empty.addStorages ["x" ++ l] fun _ => 0)
  | .dissipative _ _ es =>
    empty.addDissipations (es.map fun d => "w" ++ d.id) (es.map fun d => law ("f:w" ++ d.id))

/-- The expressions of the system with the values of the parameters. -/
noncomputable def resolved (I : Sym.Interp ℝ) (ps : List NPart) (e : Env ℝ) : List (List ℝ) :=
  ((coreOf (ps.flatMap NPart.comp)).toS.substitute [] true false).1.attrs.map fun a =>
    a.map (Sym.Expr.eval I e)

noncomputable def energy (I : Sym.Interp ℝ) (ps : List NPart) (e : Env ℝ) : ℝ :=
  ((resolved I ps e).getD 0 []).getD 0 0

noncomputable def ratios (I : Sym.Interp ℝ) (ps : List NPart) : List ℝ :=
  (resolved I ps fun _ => 0).getD 3 []

/-- The names of the dissipative edges. -/
def NPart.dissLabels : NPart → List String
  | .linear (.dissipative l ..) => [l]
  | .dissipative _ _ es => es.map (·.id)
  | _ => []

/-- The laws of the dissipative edges, by name. -/
noncomputable def law (I : Sym.Interp ℝ) (ps : List NPart) (s : String) (e : Env ℝ) : ℝ :=
  (((ps.flatMap NPart.dissLabels).map fun l => "f:w" ++ l).zip ((resolved I ps e).getD 1 []) ++
    ((ps.flatMap NPart.dissLabels).map fun l => "e:w" ++ l).zip ((resolved I ps e).getD 2 [])).lookup s
    |>.getD 0

/-- The connectors take the ratios in order. -/
def withRatios : List NPart → List ℝ → List (NPart × ℝ)
  | [], _ => []
  | p :: ps, as =>
    match p with
    | .linear (.connector ..) => (p, as.headD 0) :: withRatios ps as.tail
    | _ => (p, 0) :: withRatios ps as

/-- The edges of the graph, in the order of the netlist. -/
noncomputable def graphEdges (I : Sym.Interp ℝ) (ps : List NPart) : List (Edge ℝ) :=
  (withRatios ps (ratios I ps)).flatMap fun q => q.1.edges q.2

/-- The core of the graph: graph.py:701, one sum for each component. -/
noncomputable def graphCore (I : Sym.Interp ℝ) (ps : List NPart) : Option (Core ℝ) :=
  ((withRatios ps (ratios I ps)).foldlM (fun (c : Core ℝ) (q : NPart × ℝ) =>
    (q.1.core (law I ps) q.2).bind fun c' => addCores c c') empty).map
    fun c => { c with H := energy I ps }

/-- graph.py:381-396 `_build_from_netlist`: the components of the lines, in order. -/
noncomputable def buildParts (val : F → ℝ) (rows : List (Row F)) : Except System.Err (List NPart) :=
  rows.mapM (nrowPart val)

/-- The components of a netlist file (netlists.py:105-143, graph.py:69-96). -/
noncomputable def ofText (fmt : Netlist.NumFmt F) (val : F → ℝ) (text : Str) : Except System.Err (List NPart) :=
  match Netlist.read fmt text with
  | .error e => .error (.netlist e)
  | .ok rows => buildParts val rows

end Nonlin
end Pyphs
