/-
What the lines of a netlist mean when some components are nonlinear, after the documentation of the
components: diode, potentiometer, cubic and saturating springs, saturating magnetic capacitor, besides the
linear components of Verif/System/Spec.lean. Nothing here refers to graphs, cores or methods.
-/
import Verif.System.Spec
import Verif.Circuit.QuadForm
import Mathlib.Analysis.SpecialFunctions.Trigonometric.Basic
import Mathlib.Analysis.SpecialFunctions.Pow.Real
import Mathlib.Analysis.SpecialFunctions.Log.Basic

namespace Pyphs
namespace Nonlin
open _root_.Pyphs.System Scheme Circuit
open Netlist (Row Lit Elem Str)

/-- The components of a system. -/
inductive Component
  | linear (d : Device)
  /-- the flux is the variation of the state, the effort is the force `f`, derivative of the energy `h`
  when the state is in `dom` -/
  | fluxStorage (b : Branch) (h f : ℝ → ℝ) (dom : Set ℝ)
  /-- the effort is the variation of the state, the flux is the force -/
  | effortStorage (b : Branch) (h f : ℝ → ℝ) (dom : Set ℝ)
  /-- the flux is `g` of the effort -/
  | conductor (b : Branch) (g : ℝ → ℝ)

namespace Component

def branches : Component → List Branch
  | linear d => d.branches
  | fluxStorage b .. => [b]
  | effortStorage b .. => [b]
  | conductor b _ => [b]

/-- The energy stored at the state `x`. -/
noncomputable def energy (x : String → ℝ) : Component → ℝ
  | linear d => d.energy x
  | fluxStorage b h _ _ => h (x b.id)
  | effortStorage b h _ _ => h (x b.id)
  | conductor .. => 0

/-- Physical components: positive values, forces that derive from the energies, increasing laws. -/
def Physical : Component → Prop
  | linear d => d.Positive
  | fluxStorage _ h f dom => IsOpen dom ∧ ∀ x ∈ dom, HasDerivAt h (f x) x
  | effortStorage _ h f dom => IsOpen dom ∧ ∀ x ∈ dom, HasDerivAt h (f x) x
  | conductor _ g => StrictMono g ∧ g 0 = 0

end Component

/-! ### The documented laws -/

/-- mechanics.springcubic: the energy and the force. -/
noncomputable def cubicEnergy (F1 F3 q x : ℝ) : ℝ := F1 * x ^ 2 / (2 * q) + F3 * x ^ 4 / (4 * q ^ 3)
noncomputable def cubicForce (F1 F3 q x : ℝ) : ℝ := F1 * x / q + F3 * x ^ 3 / q ^ 3

/-- mechanics.springsat: the saturating part of the energy and of the force. -/
noncomputable def satPart (q x : ℝ) : ℝ :=
  -(8 * q / (Real.pi * (4 - Real.pi))) *
    (Real.pi ^ 2 * x ^ 2 / (8 * q ^ 2) + Real.log (Real.cos (Real.pi * x / (2 * q))))
noncomputable def satSlope (q x : ℝ) : ℝ :=
  4 / (4 - Real.pi) * (Real.tan (Real.pi * x / (2 * q)) - Real.pi * x / (2 * q))

noncomputable def satEnergy (k c q x : ℝ) : ℝ := k * (x ^ 2 / 2 + c * satPart q x)
noncomputable def satForce (k c q x : ℝ) : ℝ := k * (x + c * satSlope q x)

/-- electronics.diode: Shockley's law. -/
noncomputable def shockley (Is mu v0 v : ℝ) : ℝ := Is * (Real.exp (v / (mu * v0)) - 1)

/-- The documented parameters of a class and their defaults, if numeric. -/
noncomputable def parameters : String → String → Option (List (String × Option ℝ))
  | "electronics", "diode" =>
    some [("Is", some 2e-9), ("mu", some 1.7), ("R", some 0.5), ("v0", some 26e-3)]
  | "electronics", "potentiometer" => some [("R", some 1e5), ("A", none), ("E", some 1)]
  | "mechanics", "springcubic" => some [("F1", some 10), ("F3", some 10), ("xref", some 1e-2)]
  | "mechanics_dual", "springcubic" => some [("F1", some 10), ("F3", some 10), ("xref", some 1e-2)]
  | "mechanics", "springsat" => some [("K0", some 1e3), ("Ksat", some 1e3), ("xsat", some 1e-2)]
  | "mechanics_dual", "springsat" => some [("K0", some 1e3), ("Ksat", some 1e3), ("xsat", some 1e-2)]
  | "magnetics", "capacitorsat" => some [("C0", some 1e3), ("Csat", some 1e3), ("phisat", some 1e-1)]
  | _, _ => none

/-- The components of a class, for its label, its nodes and the values of its parameters. A diode is a
junction in series with a resistance; the minimal conductance `1e-12` is in parallel with the junction. -/
noncomputable def meaning : String → String → String → List String → List ℝ → Option (List Component)
  | "electronics", "diode", l, [n1, n2], [Is, mu, R, v0] =>
    some [.conductor ⟨l, n1, n2 ++ l⟩ (shockley Is mu v0),
      .linear (.resistance ⟨l ++ "_R", n2 ++ l, n2⟩ R),
      .linear (.resistance ⟨l ++ "_gmin", n1, n2 ++ l⟩ 1e12)]
  | "electronics", "potentiometer", l, [n1, n2, n3], [R, A, E] =>
    some [.linear (.resistance ⟨l ++ "1", n1, n2⟩ (1 + R * A ^ E)),
      .linear (.resistance ⟨l ++ "2", n2, n3⟩ (1 + R * (1 - A ^ E)))]
  | "mechanics", "springcubic", l, [n1, n2], [F1, F3, q] =>
    some [.effortStorage ⟨l, n1, n2⟩ (cubicEnergy F1 F3 q) (cubicForce F1 F3 q) Set.univ]
  | "mechanics_dual", "springcubic", l, [n1, n2], [F1, F3, q] =>
    some [.fluxStorage ⟨l, n1, n2⟩ (cubicEnergy F1 F3 q) (cubicForce F1 F3 q) Set.univ]
  | "mechanics", "springsat", l, [n1, n2], [k, c, q] =>
    some [.effortStorage ⟨l, n1, n2⟩ (satEnergy k c q) (satForce k c q) (Set.Ioo (-q) q)]
  | "mechanics_dual", "springsat", l, [n1, n2], [k, c, q] =>
    some [.fluxStorage ⟨l, n1, n2⟩ (satEnergy k c q) (satForce k c q) (Set.Ioo (-q) q)]
  | "magnetics", "capacitorsat", l, [n1, n2], [C, c, q] =>
    some [.fluxStorage ⟨l, n1, n2⟩ (satEnergy C⁻¹ c q) (satForce C⁻¹ c q) (Set.Ioo (-q) q)]
  | _, _, _, _, _ => none

/-- The value of a parameter: the given one, or the documented default. -/
noncomputable def valueOf {F : Type} (val : F → ℝ) (r : Row F) (p : String × Option ℝ) : Option ℝ :=
  match r.args.lookup p.1.toList with
  | none => p.2
  | some _ => (given val r p.1).map (·.2)

/-- The components described by a line. -/
noncomputable def components {F : Type} (val : F → ℝ) (r : Row F) : Option (List Component) :=
  match parameters (dictName r) (compName r) with
  | none => (device val r).map fun d => [.linear d]
  | some ps => do
    let vs ← ps.mapM (valueOf val r)
    let ns ← nodeNames r
    meaning (dictName r) (compName r) (name r.label) ns vs

/-- The names and the values of the parameters of a line. -/
noncomputable def paramsOf {F : Type} (val : F → ℝ) (r : Row F) : List (String × ℝ) :=
  match parameters (dictName r) (compName r) with
  | none => paramOf val r
  | some ps => (ps.map fun p => symbolOf val r p.1 (p.2.getD 0) (name r.label ++ "_" ++ p.1)) ++
      if compName r = "diode" then [("gmin", 1e-12)] else []

/-! ### The equations of a system -/

/-- The rule that replaces the gradient of the energy, with its parameters. -/
structure Rule where
  kind : Grad
  θ : ℝ
  eps : ℝ

/-- The value of the gradient at one time step, from the state `x` and its increment `dx`: the discrete
gradient (replaced by an expansion for small increments), the force at a point of the step, or the mean of
the forces at its ends. -/
noncomputable def Rule.slope (o : Rule) (h f : ℝ → ℝ) (x dx : ℝ) : ℝ :=
  match o.kind with
  | .discret => if -o.eps ≤ dx ∧ dx < o.eps then f x + deriv f x * dx / 2 else (h (x + dx) - h x) / dx
  | .theta => f (x + o.θ * dx)
  | .trapez => (f x + f (x + dx)) / 2

/-- The states at which the rule uses the force are in the domain of the law. -/
def Rule.Inside (o : Rule) (dom : Set ℝ) (x dx : ℝ) : Prop :=
  match o.kind with
  | .discret => -o.eps ≤ dx → dx < o.eps → x ∈ dom
  | .theta => x + o.θ * dx ∈ dom
  | .trapez => x ∈ dom ∧ x + dx ∈ dom

/-- The law of a component at one time step of duration `1/fs`. -/
def Component.Law (ec : String → Prop) (fs : ℝ) (o : Rule) (x dx u E F : String → ℝ) : Component → Prop
  | .linear d => d.Law ec fs (weight o.kind o.θ) x dx u E F
  | .fluxStorage b h f _ => F b.id = fs * dx b.id ∧ E b.id = o.slope h f (x b.id) (dx b.id)
  | .effortStorage b h f _ => E b.id = fs * dx b.id ∧ F b.id = o.slope h f (x b.id) (dx b.id)
  | .conductor b g => F b.id = g (E b.id)

/-- The branches of the dissipative components. -/
def Component.dissipative : Component → List Branch
  | .linear (.resistance b _) => [b]
  | .conductor b _ => [b]
  | _ => []

/-- One step of a simulation: the values `e` of the symbols satisfy the equations of the system for the
efforts `E` and the fluxes `F`. The variable of a dissipative component is its effort or its flux. -/
structure Step (cs : List Component) (ec : String → Prop) (fs : ℝ) (o : Rule) (e E F : String → ℝ) :
    Prop where
  flux : FluxBalance (cs.flatMap Component.branches) F
  effort : Potentials (cs.flatMap Component.branches) E
  laws : ∀ c ∈ cs, c.Law ec fs o (fun i => e ("x" ++ i)) (fun i => e ("dx" ++ i)) (fun i => e ("u" ++ i)) E F
  diss : ∀ c ∈ cs, ∀ b ∈ c.dissipative,
    (ec b.id → e ("w" ++ b.id) = E b.id) ∧ (¬ ec b.id → e ("w" ++ b.id) = F b.id)

/-- The values of the symbols are in the domains of the laws: the states used by the rule, and the fluxes
of the conductors which are computed from their fluxes. -/
structure InDomain (cs : List Component) (ec : String → Prop) (o : Rule) (e : String → ℝ) : Prop where
  storages : ∀ b h f dom, (.fluxStorage b h f dom ∈ cs ∨ .effortStorage b h f dom ∈ cs) →
    o.Inside dom (e ("x" ++ b.id)) (e ("dx" ++ b.id))
  conductors : ∀ b g, .conductor b g ∈ cs → ¬ ec b.id → e ("w" ++ b.id) ∈ Set.range g

/-- The energy stored in a system. -/
noncomputable def stored (cs : List Component) (x : String → ℝ) : ℝ :=
  (cs.map (Component.energy x)).sum

/-! ### Netlists that are accepted -/

/-- The symbols of the system. -/
def symbolsOf (cs : List Component) : List String :=
  cs.flatMap fun c => c.branches.flatMap fun b =>
    ["x" ++ b.id, "dx" ++ b.id, "w" ++ b.id, "u" ++ b.id, "y" ++ b.id]

/-- Lines of nonlinear components: the arguments are the documented parameters; the name given to a
parameter is not the key of another one, and the state is not called after a key (see the counterexamples of
C86); the position of a potentiometer is not negative. -/
structure WorksNl {F : Type} (val : F → ℝ) (r : Row F) (ps : List (String × Option ℝ)) : Prop where
  keys : ∀ p ∈ r.args, p.1 ∈ ps.map fun q => q.1.toList
  nodup : (r.args.map (·.1)).Nodup
  names : ∀ p ∈ ps, ∀ s v, given val r p.1 = some (some s, v) →
    s = p.1 ∨ s ∉ "gmin" :: ps.map (·.1)
  state : "x" ++ name r.label ∉ ps.map (·.1)
  wiper : compName r = "potentiometer" → ∀ v, valueOf val r ("A", none) = some v → 0 ≤ v

/-- A netlist: the lines `rows` describe the components `cs`, line by line, with physical laws; the names
are distinct; a parameter has one value, and it is not a variable. -/
structure NetOK {F : Type} (val : F → ℝ) (rows : List (Row F)) (cs : List (List Component)) : Prop where
  means : List.Forall₂ (fun r l => components val r = some l) rows cs
  works : ∀ r ∈ rows, parameters (dictName r) (compName r) = none → Works r
  worksNl : ∀ r ∈ rows, ∀ ps, parameters (dictName r) (compName r) = some ps → WorksNl val r ps
  physical : ∀ c ∈ cs.flatten, c.Physical
  ids : ((cs.flatten.flatMap Component.branches).map (·.id)).Nodup
  values : ∀ p ∈ rows.flatMap (paramsOf val), ∀ q ∈ rows.flatMap (paramsOf val), p.1 = q.1 → p.2 = q.2
  names : ∀ p ∈ rows.flatMap (paramsOf val), p.1 ∉ symbolsOf cs.flatten
  ground : ∃ b ∈ cs.flatten.flatMap Component.branches, b.tail = System.ground ∨ b.head = System.ground

end Nonlin
end Pyphs
