/-
The edges of the graph of a netlist and its core, component by component.
-/
import Verif.System.Build

namespace Pyphs
namespace System
open Core Graph Params

/-- The edges of a component. -/
def devEdges : Device → List (Edge ℝ)
  | .fluxStorage b _ => [⟨b.tail, b.head, "x" ++ b.id, .storage, .f, none, .gyrator, none, "", ""⟩]
  | .effortStorage b _ => [⟨b.tail, b.head, "x" ++ b.id, .storage, .e, none, .gyrator, none, "", ""⟩]
  | .resistance b _ => [⟨b.tail, b.head, "w" ++ b.id, .dissipative, .unknown, none, .gyrator, none,
      "e:w" ++ b.id, "f:w" ++ b.id⟩]
  | .effortSource b => [⟨b.tail, b.head, "y" ++ b.id, .port, .f, none, .gyrator, none, "", ""⟩]
  | .fluxSource b => [⟨b.tail, b.head, "y" ++ b.id, .port, .e, none, .gyrator, none, "", ""⟩]
  | .gyrator a b α =>
    [⟨a.tail, a.head, "y" ++ a.id, .connector, .unknown, some ("y" ++ b.id), .gyrator, some α, "", ""⟩,
      ⟨b.tail, b.head, "y" ++ b.id, .connector, .unknown, some ("y" ++ a.id), .gyrator, none, "", ""⟩]
  | .transformer a b α =>
    [⟨a.tail, a.head, "y" ++ a.id, .connector, .unknown, some ("y" ++ b.id), .transformer, some α, "",
      ""⟩,
      ⟨b.tail, b.head, "y" ++ b.id, .connector, .unknown, some ("y" ++ a.id), .transformer, none, "",
      ""⟩]

def devX : Device → List String
  | .fluxStorage b _ => ["x" ++ b.id]
  | .effortStorage b _ => ["x" ++ b.id]
  | _ => []

def devW : Device → List String
  | .resistance b _ => ["w" ++ b.id]
  | _ => []

def devPorts : Device → List Branch
  | .effortSource b => [b]
  | .fluxSource b => [b]
  | _ => []

def devConns : Device → List (Branch × Branch × ℝ)
  | .gyrator a b α => [(a, b, α)]
  | .transformer a b α => [(a, b, α)]
  | _ => []

/-- The variables declared by components in a core. -/
structure Declares (c : Core ℝ) (ds : List Device) : Prop where
  M : c.M.r = 0 ∧ c.M.c = 0
  dxH : c.dxH = none
  xl : c.xl = 0
  wl : c.wl = 0
  u : c.u = (ds.flatMap devPorts).map fun b => "u" ++ b.id
  y : c.y = (ds.flatMap devPorts).map fun b => "y" ++ b.id
  cu : c.cu = (ds.flatMap devConns).flatMap fun q => ["u" ++ q.2.1.id, "u" ++ q.1.id]
  cy : c.cy = (ds.flatMap devConns).flatMap fun q => ["y" ++ q.2.1.id, "y" ++ q.1.id]
  connectors : c.connectors = (ds.flatMap devConns).map fun q =>
    ⟨"u" ++ q.1.id, "u" ++ q.2.1.id, "y" ++ q.1.id, "y" ++ q.2.1.id, q.2.2⟩
  x : c.x = ds.flatMap devX
  w : c.w = ds.flatMap devW
  z : c.z.length = c.w.length

theorem Declares.nil : Declares (empty : Core ℝ) [] :=
  ⟨⟨rfl, rfl⟩, rfl, rfl, rfl, rfl, rfl, rfl, rfl, rfl, rfl, rfl, rfl⟩

theorem isZero_of {A : Mat ℝ} (h : A.r = 0) : A.IsZero := by
  intro i hi
  omega

theorem fold_skip {α β : Type} (l : List α) (f : β → α → Option β) (b : β) (h : ∀ a ∈ l, f b a = some b) :
    l.foldlM f b = some b := by
  induction l with
  | nil => rfl
  | cons a l ih =>
    rw [List.foldlM_cons, h a List.mem_cons_self]
    exact ih fun a ha => h a (List.mem_cons_of_mem _ ha)

/-- The sum of cores without structure. -/
theorem addCores_flat {c1 c2 : Core ℝ} (h1 : c1.M.r = 0 ∧ c1.M.c = 0) (h2 : c2.M.r = 0 ∧ c2.M.c = 0) :
    addCores c1 c2 = some { (empty : Core ℝ) with
      x := c1.x ++ c2.x, w := c1.w ++ c2.w, u := c1.u ++ c2.u, y := c1.y ++ c2.y,
      cu := c1.cu ++ c2.cu, cy := c1.cy ++ c2.cy, H := fun e => c1.H e + c2.H e, z := c1.z ++ c2.z,
      connectors := c1.connectors ++ c2.connectors, forceWnl := c1.forceWnl ++ c2.forceWnl } := by
  unfold addCores
  dsimp only
  rw [fold_skip]
  · dsimp only [Option.bind_eq_bind, Option.bind_some]
    rw [fold_skip]
    intro ab _
    rw [if_neg]
    simp [getMat, part, Mat.slice, empty, Mat.zeros]
  · intro ab _
    rw [if_neg]
    simp [getMat, part, Mat.slice, Mat.diag, h1.1, h2.1]

theorem declares_add {c1 c2 : Core ℝ} {l1 l2 : List Device} (h1 : Declares c1 l1) (h2 : Declares c2 l2) :
    ∃ c, addCores c1 c2 = some c ∧ Declares c (l1 ++ l2) := by
  refine ⟨_, addCores_flat h1.M h2.M, ⟨rfl, rfl⟩, rfl, rfl, rfl, ?_, ?_, ?_, ?_, ?_, ?_, ?_, ?_⟩
  · show c1.u ++ c2.u = _
    rw [h1.u, h2.u, List.flatMap_append, List.map_append]
  · show c1.y ++ c2.y = _
    rw [h1.y, h2.y, List.flatMap_append, List.map_append]
  · show c1.cu ++ c2.cu = _
    rw [h1.cu, h2.cu, List.flatMap_append, List.flatMap_append]
  · show c1.cy ++ c2.cy = _
    rw [h1.cy, h2.cy, List.flatMap_append, List.flatMap_append]
  · show c1.connectors ++ c2.connectors = _
    rw [h1.connectors, h2.connectors, List.flatMap_append, List.map_append]
  · show c1.x ++ c2.x = _
    rw [h1.x, h2.x, List.flatMap_append]
  · show c1.w ++ c2.w = _
    rw [h1.w, h2.w, List.flatMap_append]
  · show (c1.z ++ c2.z).length = (c1.w ++ c2.w).length
    rw [List.length_append, List.length_append, h1.z, h2.z]

theorem label_ne (s l : String) : s ++ (l ++ "1") ≠ s ++ (l ++ "2") := fun h => by
  have := pre_inj l (pre_inj s h)
  exact absurd this (by decide)

theorem connector_core (l : String) (a : ℝ) :
    ∃ c, ((empty : Core ℝ).addPorts ["u" ++ (l ++ "1"), "u" ++ (l ++ "2")]
      ["y" ++ (l ++ "1"), "y" ++ (l ++ "2")]).bind (fun c => c.addConnector 0 1 a) = some c ∧
      c = { (empty : Core ℝ) with
        cu := ["u" ++ (l ++ "2"), "u" ++ (l ++ "1")], cy := ["y" ++ (l ++ "2"), "y" ++ (l ++ "1")],
        connectors := [⟨"u" ++ (l ++ "1"), "u" ++ (l ++ "2"), "y" ++ (l ++ "1"), "y" ++ (l ++ "2"), a⟩] } := by
  have hz : (Mat.zeros 0 0 : Mat ℝ).IsZero := isZero_of rfl
  refine ⟨_, ?_, rfl⟩
  have hu := label_ne "u" l
  have hy := label_ne "y" l
  simp [addPorts, addConnector, port2connector, moveCoreM, empty, hz, hu, hy, List.erase_cons]

theorem declares_part {p : Part ℝ} {d : Device} (h : Rel p d) (lw : String → Env ℝ → ℝ) {a : ℝ}
    (ha : ∀ α ∈ (ratiosOf [d]), a = α) : ∃ c, p.core lw a = some c ∧ Declares c [d] := by
  cases h with
  | fluxStorage inv hv => exact ⟨_, rfl, ⟨rfl, rfl⟩, rfl, rfl, rfl, rfl, rfl, rfl, rfl, rfl, rfl, rfl, rfl⟩
  | effortStorage inv hv => exact ⟨_, rfl, ⟨rfl, rfl⟩, rfl, rfl, rfl, rfl, rfl, rfl, rfl, rfl, rfl, rfl, rfl⟩
  | resistance inv hv => exact ⟨_, rfl, ⟨rfl, rfl⟩, rfl, rfl, rfl, rfl, rfl, rfl, rfl, rfl, rfl, rfl, rfl⟩
  | effortSource => exact ⟨_, rfl, ⟨rfl, rfl⟩, rfl, rfl, rfl, rfl, rfl, rfl, rfl, rfl, rfl, rfl, rfl⟩
  | fluxSource => exact ⟨_, rfl, ⟨rfl, rfl⟩, rfl, rfl, rfl, rfl, rfl, rfl, rfl, rfl, rfl, rfl, rfl⟩
  | @gyrator l n1 n2 n3 n4 o v hv =>
    obtain rfl : a = v := ha v (by simp [ratiosOf])
    obtain ⟨c, hc, rfl⟩ := connector_core l a
    exact ⟨_, hc, ⟨rfl, rfl⟩, rfl, rfl, rfl, rfl, rfl, rfl, rfl, rfl, rfl, rfl, rfl⟩
  | @transformer l n1 n2 n3 n4 o v hv =>
    obtain rfl : a = v := ha v (by simp [ratiosOf])
    obtain ⟨c, hc, rfl⟩ := connector_core l a
    exact ⟨_, hc, ⟨rfl, rfl⟩, rfl, rfl, rfl, rfl, rfl, rfl, rfl, rfl, rfl, rfl, rfl⟩

theorem edges_part {p : Part ℝ} {d : Device} (h : Rel p d) {a : ℝ}
    (ha : ∀ α ∈ (ratiosOf [d]), a = α) : p.edges a = devEdges d := by
  cases h with
  | @gyrator l n1 n2 n3 n4 o v hv =>
    obtain rfl : a = v := ha v (by simp [ratiosOf])
    rfl
  | @transformer l n1 n2 n3 n4 o v hv =>
    obtain rfl : a = v := ha v (by simp [ratiosOf])
    rfl
  | _ => rfl

/-- The components take the ratios of the connectors in order. -/
theorem withRatios_cons {p : Part ℝ} {d : Device} (h : Rel p d) (ps : List (Part ℝ)) (ds : List Device) :
    ∃ a, (∀ α ∈ (ratiosOf [d]), a = α) ∧
      withRatios (p :: ps) (ratiosOf (d :: ds)) = (p, a) :: withRatios ps (ratiosOf ds) := by
  cases h with
  | gyrator hv => exact ⟨_, fun α hα => (List.mem_singleton.1 hα).symm, rfl⟩
  | transformer hv => exact ⟨_, fun α hα => (List.mem_singleton.1 hα).symm, rfl⟩
  | _ => exact ⟨0, fun α hα => (List.not_mem_nil hα).elim, rfl⟩

theorem graphEdges_eq {I : Sym.Interp ℝ} {ps : List (Part ℝ)} {ds : List Device}
    (h : List.Forall₂ Rel ps ds) (hr : ratios I ps = ratiosOf ds) :
    graphEdges I ps = ds.flatMap devEdges := by
  unfold graphEdges
  rw [hr]
  clear hr
  induction h with
  | nil => rfl
  | @cons p d ps ds h _ ih =>
    obtain ⟨a, h1, h2⟩ := withRatios_cons h ps ds
    rw [h2, List.flatMap_cons, ih, List.flatMap_cons, edges_part h h1]

theorem foldlM_some {α β : Type} {f : β → α → Option β} {a : α} {l : List α} {b b' : β} (h : f b a = some b') :
    (a :: l).foldlM f b = l.foldlM f b' := by
  rw [List.foldlM_cons, h]; rfl

theorem fold_cores {ps : List (Part ℝ)} {ds : List Device} (h : List.Forall₂ Rel ps ds)
    (lw : String → Env ℝ → ℝ) (c0 : Core ℝ) (l0 : List Device) (h0 : Declares c0 l0) :
    ∃ c, ((withRatios ps (ratiosOf ds)).foldlM (fun (c : Core ℝ) (q : Part ℝ × ℝ) =>
      (q.1.core lw q.2).bind fun c' => addCores c c') c0) = some c ∧ Declares c (l0 ++ ds) := by
  induction h generalizing c0 l0 with
  | nil => exact ⟨c0, rfl, by rw [List.append_nil]; exact h0⟩
  | @cons p d ps ds h _ ih =>
    obtain ⟨a, h1, h2⟩ := withRatios_cons h ps ds
    obtain ⟨c1, q1, q2⟩ := declares_part h lw h1
    obtain ⟨c2, q3, q4⟩ := declares_add h0 q2
    obtain ⟨c, q5, q6⟩ := ih c2 (l0 ++ [d]) q4
    refine ⟨c, ?_, by rw [List.append_assoc] at q6; exact q6⟩
    rw [h2]
    refine (foldlM_some ?_).trans q5
    dsimp only
    rw [q1, Option.bind_some, q3]

theorem graphCore_eq {I : Sym.Interp ℝ} {ps : List (Part ℝ)} {ds : List Device}
    (h : List.Forall₂ Rel ps ds) (hr : ratios I ps = ratiosOf ds) :
    ∃ c, graphCore I ps = some c ∧ Declares c ds ∧ c.H = energy I ps := by
  unfold graphCore
  rw [hr]
  obtain ⟨c, h1, h2⟩ := fold_cores h (law I ps) empty [] Declares.nil
  rw [h1]
  exact ⟨_, rfl, ⟨h2.M, h2.dxH, h2.xl, h2.wl, h2.u, h2.y, h2.cu, h2.cy, h2.connectors, h2.x, h2.w, h2.z⟩, rfl⟩

end System
end Pyphs
