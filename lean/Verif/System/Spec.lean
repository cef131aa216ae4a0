/-
What the lines of a netlist mean, after the documentation of the components (the field `metadata` of
the classes of the dictionary), and the equations of the system they describe. Nothing here refers to
graphs, cores or numerical methods.
-/
import Verif.Netlist.Model
import Mathlib.Data.Real.Basic

namespace Pyphs
namespace System
open Netlist (Row Lit Elem Str)

/-- A branch between two nodes; its effort is counted positive from `tail` to `head`. -/
structure Branch where
  id : String
  tail : String
  head : String

/-- The components. The effort is the voltage, the velocity (mechanics), the force (mechanics_dual) or the
magnetomotive force; the flux is the current, the force, the velocity or the variation of magnetic
flux. -/
inductive Device
  /-- the flux is the variation of the state, the effort is `k` times the state -/
  | fluxStorage (b : Branch) (k : ℝ)
  /-- the effort is the variation of the state, the flux is `k` times the state -/
  | effortStorage (b : Branch) (k : ℝ)
  /-- the effort is `r` times the flux -/
  | resistance (b : Branch) (r : ℝ)
  | effortSource (b : Branch)
  | fluxSource (b : Branch)
  | gyrator (a b : Branch) (α : ℝ)
  | transformer (a b : Branch) (α : ℝ)

namespace Device

def branches : Device → List Branch
  | fluxStorage b _ => [b]
  | effortStorage b _ => [b]
  | resistance b _ => [b]
  | effortSource b => [b]
  | fluxSource b => [b]
  | gyrator a b _ => [a, b]
  | transformer a b _ => [a, b]

/-- The energy stored at the state `x`. -/
noncomputable def energy (x : String → ℝ) : Device → ℝ
  | fluxStorage b k => k * x b.id ^ 2 / 2
  | effortStorage b k => k * x b.id ^ 2 / 2
  | _ => 0

/-- The physical values. -/
def Positive : Device → Prop
  | fluxStorage _ k => 0 < k
  | effortStorage _ k => 0 < k
  | resistance _ r => 0 < r
  | gyrator _ _ α => α ≠ 0
  | transformer _ _ α => α ≠ 0
  | _ => True

end Device

/-! ### The documented meaning of a line -/

/-- A python string. -/
def name (s : Str) : String := String.ofList s

/-- The nodes of a line. -/
def nodeNames {F : Type} (r : Row F) : Option (List String) :=
  match r.nodes with
  | .tuple l => l.mapM fun
    | .str s => some (name s)
    | .num _ => none
  | _ => none

/-- A parameter given by a number or by a pair (name, number): value, and name if any. -/
def given {F : Type} (val : F → ℝ) (r : Row F) (key : String) : Option (Option String × ℝ) :=
  match r.args.lookup key.toList with
  | some (.elem (.num f)) => some (none, val f)
  | some (.tuple [.str s, .num f]) => some (some (name s), val f)
  | _ => none

/-- The value of a parameter: the given one, or the documented default when there is no argument. -/
def value {F : Type} (val : F → ℝ) (r : Row F) (key : String) (dflt : ℝ) : Option ℝ :=
  match r.args.lookup key.toList with
  | none => some dflt
  | some _ => (given val r key).map (·.2)

/-- The type of a source, in lower case, or its documented default. -/
def sourceType {F : Type} (r : Row F) (dflt : String) : Option String :=
  match r.args.lookup "type".toList with
  | none => some dflt
  | some (.elem (.str s)) => some (name (s.map Char.toLower))
  | some _ => none

/-- The key of the parameter of a class and its documented default. -/
noncomputable def parameter : String → String → Option (String × ℝ)
  | "electronics", "resistor" => some ("R", 1000)
  | "electronics", "capacitor" => some ("C", 1 / 1000000000)
  | "electronics", "inductor" => some ("L", 1 / 1000)
  | "mechanics", "mass" => some ("M", 1 / 100)
  | "mechanics", "stiffness" => some ("K", 1000)
  | "mechanics", "damper" => some ("A", 1)
  | "mechanics_dual", "mass" => some ("M", 1 / 100)
  | "mechanics_dual", "stiffness" => some ("K", 1000)
  | "mechanics_dual", "damper" => some ("A", 1)
  | "magnetics", "capacitor" => some ("C", 1 / 1000000000)
  | "magnetics", "resistor" => some ("R", 1 / 1000)
  | "connectors", "gyrator" => some ("alpha", 1)
  | "connectors", "transformer" => some ("alpha", 1)
  | _, _ => none

/-- The law of a component with one branch and one parameter. -/
noncomputable def oneLaw : String → String → Option (Branch → ℝ → Device)
  | "electronics", "resistor" => some fun b R => .resistance b R
  | "electronics", "capacitor" => some fun b C => .fluxStorage b C⁻¹
  | "electronics", "inductor" => some fun b L => .effortStorage b L⁻¹
  | "mechanics", "mass" => some fun b M => .fluxStorage b M⁻¹
  | "mechanics", "stiffness" => some fun b K => .effortStorage b K
  | "mechanics", "damper" => some fun b A => .resistance b A⁻¹
  | "mechanics_dual", "mass" => some fun b M => .effortStorage b M⁻¹
  | "mechanics_dual", "stiffness" => some fun b K => .fluxStorage b K
  | "mechanics_dual", "damper" => some fun b A => .resistance b A
  | "magnetics", "capacitor" => some fun b C => .fluxStorage b C⁻¹
  | "magnetics", "resistor" => some fun b R => .resistance b R
  | _, _ => none

/-- The law of a connector. -/
def twoLaw : String → String → Option (Branch → Branch → ℝ → Device)
  | "connectors", "gyrator" => some .gyrator
  | "connectors", "transformer" => some .transformer
  | _, _ => none

/-- The sources: default type, and whether a type imposes the effort or the flux. The magnetic source of
flux variation is called `mfv` in the documentation and `fluxvar` in the code. -/
def sourceLaw : String → Option (String × (String → Option (Branch → Device)))
  | "electronics" => some ("voltage", fun
      | "voltage" => some .effortSource
      | "current" => some .fluxSource
      | _ => none)
  | "mechanics" => some ("force", fun
      | "force" => some .fluxSource
      | "velocity" => some .effortSource
      | _ => none)
  | "mechanics_dual" => some ("force", fun
      | "force" => some .effortSource
      | "velocity" => some .fluxSource
      | _ => none)
  | "magnetics" => some ("mmf", fun
      | "mmf" => some .effortSource
      | "mfv" => some .fluxSource
      | "fluxvar" => some .fluxSource
      | _ => none)
  | _ => none

/-- The dictionary and the component of a line; capitals do not matter in the latter. -/
def dictName {F : Type} (r : Row F) : String := name r.dict
def compName {F : Type} (r : Row F) : String := name (r.comp.map Char.toLower)

/-- The reference node. -/
def ground : String := "#"

/-- The branch of a component with one branch. A mass is connected to one point, and a source can be
connected to one node: the other end is the reference. -/
def branchOf {F : Type} (r : Row F) : Option Branch :=
  let l := name r.label
  match dictName r, compName r, nodeNames r with
  | "mechanics", "mass", some [p] => some ⟨l, ground, p⟩
  | "mechanics", "mass", _ => none
  | _, "source", some [n] => some ⟨l, ground, n⟩
  | _, _, some [n1, n2] => some ⟨l, n1, n2⟩
  | _, _, _ => none

/-- The component described by a line. -/
noncomputable def device {F : Type} (val : F → ℝ) (r : Row F) : Option Device :=
  let l := name r.label
  if compName r = "source" then do
    let (d, f) ← sourceLaw (dictName r)
    let t ← sourceType r d
    let g ← f t
    let b ← branchOf r
    return g b
  else do
    let (key, d) ← parameter (dictName r) (compName r)
    let v ← value val r key d
    match twoLaw (dictName r) (compName r) with
    | some g =>
      match nodeNames r with
      | some [n1, n2, n3, n4] => some (g ⟨l ++ "1", n1, n2⟩ ⟨l ++ "2", n3, n4⟩ v)
      | _ => none
    | none => do
      let g ← oneLaw (dictName r) (compName r)
      let b ← branchOf r
      return g b v

/-- The name and the value of a parameter. Without name, it is called `auto`. -/
noncomputable def symbolOf {F : Type} (val : F → ℝ) (r : Row F) (key : String) (dflt : ℝ)
    (auto : String) : String × ℝ :=
  match given val r key with
  | some (some s, v) => (s, v)
  | some (none, v) => (auto, v)
  | none => (auto, dflt)

/-- The parameter of a line, if it has one; without name, it is called after the label. -/
noncomputable def paramOf {F : Type} (val : F → ℝ) (r : Row F) : List (String × ℝ) :=
  if compName r = "source" then [] else
  match parameter (dictName r) (compName r) with
  | none => []
  | some (key, d) => [symbolOf val r key d (if dictName r = "connectors" then name r.label ++ "_alpha"
      else name r.label ++ "coeff")]

/-! ### The equations of a system -/

/-- Kirchhoff: the fluxes of the branches are balanced at every node but the reference. -/
def FluxBalance (bs : List Branch) (F : String → ℝ) : Prop :=
  ∀ n, n ≠ ground →
    (bs.map fun b => (if b.tail = n then F b.id else 0) - (if b.head = n then F b.id else 0)).sum = 0

/-- Kirchhoff: the efforts derive from potentials. -/
def Potentials (bs : List Branch) (E : String → ℝ) : Prop :=
  ∃ p : String → ℝ, ∀ b ∈ bs, E b.id = p b.tail - p b.head

/-- The law of a component at one time step of duration `1/fs`, for states `x`, increments `dx` and
inputs `u`; the gradient of the energy is evaluated at `x + ϑ dx`. The control `ec` tells whether the
effort of a branch is computed from the other branches (otherwise its flux is). The laws of a connector
are the documented ones for one control of its first branch; for the other one, they are reversed
(C51). -/
def Device.Law (ec : String → Prop) (fs ϑ : ℝ) (x dx u E F : String → ℝ) : Device → Prop
  | .fluxStorage b k => F b.id = fs * dx b.id ∧ E b.id = k * (x b.id + ϑ * dx b.id)
  | .effortStorage b k => E b.id = fs * dx b.id ∧ F b.id = k * (x b.id + ϑ * dx b.id)
  | .resistance b r => E b.id = r * F b.id
  | .effortSource b => E b.id = u b.id
  | .fluxSource b => F b.id = u b.id
  | .gyrator a b α =>
    (¬ ec a.id → E a.id = -α * F b.id ∧ E b.id = α * F a.id) ∧
    (ec a.id → E a.id = α * F b.id ∧ E b.id = -α * F a.id)
  | .transformer a b α =>
    (ec a.id → F a.id = -α * F b.id ∧ E b.id = α * E a.id) ∧
    (¬ ec a.id → F a.id = α⁻¹ * F b.id ∧ E b.id = -α⁻¹ * E a.id)

/-- The equations of a system of components. -/
structure Equations (ds : List Device) (ec : String → Prop) (fs ϑ : ℝ) (x dx u E F : String → ℝ) :
    Prop where
  flux : FluxBalance (ds.flatMap Device.branches) F
  effort : Potentials (ds.flatMap Device.branches) E
  laws : ∀ d ∈ ds, d.Law ec fs ϑ x dx u E F

/-- One step of a simulation: the values `e` of the symbols satisfy the equations of the system for the
efforts `E` and the fluxes `F`. The state, its increment and the input of a branch are named after it; the
variable of a resistance is its effort or its flux. -/
structure Step (ds : List Device) (ec : String → Prop) (fs ϑ : ℝ) (e E F : String → ℝ) : Prop where
  eqs : Equations ds ec fs ϑ (fun i => e ("x" ++ i)) (fun i => e ("dx" ++ i)) (fun i => e ("u" ++ i)) E F
  diss : ∀ b r, .resistance b r ∈ ds →
    (ec b.id → e ("w" ++ b.id) = E b.id) ∧ (¬ ec b.id → e ("w" ++ b.id) = F b.id)

/-- The energy stored in a system. -/
noncomputable def stored (ds : List Device) (x : String → ℝ) : ℝ := (ds.map (Device.energy x)).sum

/-! ### Netlists that are accepted -/

/-- The symbols of the system. -/
def symbolsOf (ds : List Device) : List String :=
  ds.flatMap fun d => d.branches.flatMap fun b =>
    ["x" ++ b.id, "dx" ++ b.id, "w" ++ b.id, "u" ++ b.id, "y" ++ b.id]

/-- Lines on which the code does what is documented: the parameter is given for the classes whose
documented default is not used by the code (see the counterexamples of C84), the documented name of the
magnetic source of flux variation is not used; no constant value of a source; for a connector, no other
argument than its ratio. The names of the arguments of python functions are not keys. -/
structure Works {F : Type} (r : Row F) : Prop where
  keys : ∀ p ∈ r.args, p.1 ≠ "self".toList ∧ p.1 ≠ "label".toList ∧ p.1 ≠ "nodes".toList
  const : r.args.lookup "const".toList = none
  ratio : dictName r = "connectors" → ∀ p ∈ r.args, p.1 = "alpha".toList
  nodup : (r.args.map (·.1)).Nodup
  given : (dictName r, compName r) ∈ [("electronics", "resistor"), ("electronics", "capacitor"),
      ("electronics", "inductor"), ("mechanics_dual", "stiffness")] →
    ∀ k d, parameter (dictName r) (compName r) = some (k, d) → r.args.lookup k.toList ≠ none
  typed : compName r = "source" → (dictName r = "electronics" ∨ dictName r = "mechanics_dual") →
    r.args.lookup "type".toList ≠ none
  mfv : ¬ (dictName r = "magnetics" ∧ compName r = "source" ∧ sourceType r "mmf" = some "mfv")

/-- A netlist: the lines `rows` describe the components `ds`, with positive values; the names are
distinct; a parameter has one value, and it is not a variable. -/
structure NetOK {F : Type} (val : F → ℝ) (rows : List (Row F)) (ds : List Device) : Prop where
  means : List.Forall₂ (fun r d => device val r = some d) rows ds
  works : ∀ r ∈ rows, Works r
  positive : ∀ d ∈ ds, d.Positive
  ids : ((ds.flatMap Device.branches).map (·.id)).Nodup
  values : ∀ p ∈ rows.flatMap (paramOf val), ∀ q ∈ rows.flatMap (paramOf val), p.1 = q.1 → p.2 = q.2
  names : ∀ p ∈ rows.flatMap (paramOf val), p.1 ∉ symbolsOf ds
  ground : ∃ b ∈ ds.flatMap Device.branches, b.tail = System.ground ∨ b.head = System.ground

end System
end Pyphs
