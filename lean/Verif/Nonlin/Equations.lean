/-
The equations of the graph of a netlist with nonlinear components are those of the netlist.
-/
import Verif.Nonlin.Generic
import Verif.Nonlin.Gradient

namespace Pyphs
namespace Nonlin
open Scheme Core Graph Params Circuit
open _root_.Pyphs.System (Branch Device Distinct devEdges devX Declares Agree CtrlOK FluxBalance Potentials
  labelOf dn_x pre_inj)

variable {cs : List Component}

/-! ### The energy as a sum of functions of one state -/

/-- The states of a component, with the energy as a function of the state. -/
noncomputable def stors : Component → List (String × (ℝ → ℝ))
  | .linear (.fluxStorage b k) => [("x" ++ b.id, fun t => k * t ^ 2 / 2)]
  | .linear (.effortStorage b k) => [("x" ++ b.id, fun t => k * t ^ 2 / 2)]
  | .fluxStorage b h _ _ => [("x" ++ b.id, h)]
  | .effortStorage b h _ _ => [("x" ++ b.id, h)]
  | _ => []

theorem stors_keys (cs : List Component) :
    (cs.flatMap stors).map (·.1) = (cs.map Component.shadow).flatMap devX := by
  rw [List.map_flatMap, List.flatMap_map]
  refine List.flatMap_congr fun c _ => ?_
  cases c with
  | linear d => cases d <;> rfl
  | _ => rfl

theorem stors_energy (cs : List Component) (e : Env ℝ) :
    stored cs (fun i => e ("x" ++ i)) = ((cs.flatMap stors).map fun p => p.2 (e p.1)).sum := by
  unfold stored
  induction cs with
  | nil => rfl
  | cons c cs ih =>
    rw [List.map_cons, List.sum_cons, ih, List.flatMap_cons, List.map_append, List.sum_append]
    congr 1
    cases c with
    | linear d => cases d <;> simp [stors, Component.energy, Device.energy]
    | _ => simp [stors, Component.energy]

theorem sum_update {S : List (String × (ℝ → ℝ))} (hn : (S.map (·.1)).Nodup) {p : String × (ℝ → ℝ)}
    (hp : p ∈ S) (e : Env ℝ) (t : ℝ) :
    (S.map fun q => q.2 (Function.update e p.1 t q.1)).sum =
      (S.map fun q => q.2 (e q.1)).sum + p.2 t - p.2 (e p.1) := by
  induction S with
  | nil => cases hp
  | cons q S ih =>
    rw [List.map_cons, List.nodup_cons] at hn
    simp only [List.map_cons, List.sum_cons]
    rcases List.mem_cons.1 hp with rfl | hp
    · have : (S.map fun q => q.2 (Function.update e p.1 t q.1)) = S.map fun q => q.2 (e q.1) := by
        refine List.map_congr_left fun q hq => ?_
        rw [Function.update_of_ne]
        intro hh
        exact hn.1 (hh ▸ List.mem_map_of_mem (f := (·.1)) hq)
      rw [this, Function.update_self]
      ring
    · rw [ih hn.2 hp, Function.update_of_ne]
      · ring
      · intro hh
        exact hn.1 (hh ▸ List.mem_map_of_mem (f := (·.1)) hp)

/-- The energy of the state named `s`. -/
noncomputable def energyAt (cs : List Component) (s : String) : ℝ → ℝ :=
  ((cs.flatMap stors).lookup s).getD 0

theorem lookup_mem {α : Type} {S : List (String × α)} (hn : (S.map (·.1)).Nodup) {p : String × α}
    (hp : p ∈ S) : S.lookup p.1 = some p.2 := by
  induction S with
  | nil => cases hp
  | cons q S ih =>
    rw [List.map_cons, List.nodup_cons] at hn
    obtain ⟨a, b⟩ := q
    rw [List.lookup_cons]
    rcases List.mem_cons.1 hp with rfl | hp
    · simp
    · have : p.1 ≠ a := fun hh => hn.1 (hh ▸ List.mem_map_of_mem (f := (·.1)) hp)
      rw [beq_false_of_ne this]
      exact ih hn.2 hp

theorem energyAt_eq (hd : Distinct (cs.map Component.shadow)) {p : String × (ℝ → ℝ)}
    (hp : p ∈ cs.flatMap stors) : energyAt cs p.1 = p.2 := by
  unfold energyAt
  rw [lookup_mem (by rw [stors_keys]; exact hd.devX) hp]
  rfl

theorem energy_sep (hd : Distinct (cs.map Component.shadow)) {H : Sc}
    (hH : H = fun e => stored cs fun i => e ("x" ++ i)) {s : String}
    (hs : s ∈ (cs.map Component.shadow).flatMap devX) : SepAt H s (energyAt cs s) := by
  rw [← stors_keys] at hs
  obtain ⟨p, hp, rfl⟩ := List.mem_map.1 hs
  rw [energyAt_eq hd hp]
  intro e t
  rw [hH]
  dsimp only
  rw [stors_energy, stors_energy, sum_update (by rw [stors_keys]; exact hd.devX) hp]

/-- The states of the nonlinear storages are treated one by one: what the discrete gradient needs. -/
def Fits (cs : List Component) (o : Rule) (g : Groups) : Prop :=
  o.kind = .discret → ∀ b h f dom, (.fluxStorage b h f dom ∈ cs ∨ .effortStorage b h f dom ∈ cs) →
    "x" ++ b.id ∈ g.mono

/-- The gradient of the energy of the components. -/
theorem grad_slope (hd : Distinct (cs.map Component.shadow)) {m : Meth} {o : Rule} (ho : 0 < o.eps)
    (hx : m.g.x.Perm ((cs.map Component.shadow).flatMap devX))
    (hH : m.H = fun e => stored cs fun i => e ("x" ++ i))
    (hdx : m.dxH = buildGradient m.H m.g o.kind o.θ o.eps) (hf : Fits cs o m.g)
    {p : String × (ℝ → ℝ)} (hp : p ∈ cs.flatMap stors) (e : Env ℝ) :
    gradOf m p.1 e = o.slope p.2 (deriv p.2) (e p.1) (e (dn p.1)) := by
  have hnd : m.g.x.Nodup := hx.nodup_iff.2 hd.devX
  have hm : p.1 ∈ m.g.x := by
    rw [hx.mem_iff, ← stors_keys]
    exact List.mem_map_of_mem hp
  unfold gradOf
  rw [hdx, sep_gradient hnd ho (hh := energyAt cs) (fun x hxm => energy_sep hd hH (hx.mem_iff.1 hxm)),
    getD_map_idx hm, energyAt_eq hd hp]
  intro hk x hxm
  have hxx : x ∈ m.g.x := by
    unfold Groups.x
    rcases List.mem_append.1 hxm with h | h <;> simp [h]
  have hnm : x ∉ m.g.mono := by
    intro hmono
    have hnd' := hnd
    unfold Groups.x at hnd'
    obtain ⟨h1, -, h3⟩ := List.nodup_append.1 hnd'
    rcases List.mem_append.1 hxm with h | h
    · exact (List.nodup_append.1 h1).2.2 x h x hmono rfl
    · exact h3 x (List.mem_append_right _ hmono) x h rfl
  have := hx.mem_iff.1 hxx
  rw [← stors_keys] at this
  obtain ⟨q, hq, rfl⟩ := List.mem_map.1 this
  rw [energyAt_eq hd hq]
  obtain ⟨c, hc, hqc⟩ := List.mem_flatMap.1 hq
  cases c with
  | linear d =>
    cases d <;> simp only [stors, List.mem_cons, List.not_mem_nil, or_false] at hqc
    · exact ⟨_, by rw [hqc]⟩
    · exact ⟨_, by rw [hqc]⟩
  | fluxStorage b h f dom =>
    simp only [stors, List.mem_cons, List.not_mem_nil, or_false] at hqc
    subst hqc
    exact absurd (hf hk b h f dom (.inl hc)) hnm
  | effortStorage b h f dom =>
    simp only [stors, List.mem_cons, List.not_mem_nil, or_false] at hqc
    subst hqc
    exact absurd (hf hk b h f dom (.inr hc)) hnm
  | conductor b g => cases hqc

/-! ### The equations -/

/-- What the values given to the equations are, for the components `cs`. -/
structure Values (cs : List Component) (ec : String → Prop) (o : Rule) (e G ze zf : String → ℝ) : Prop where
  linear : ∀ b k, (.linear (.fluxStorage b k) ∈ cs ∨ .linear (.effortStorage b k) ∈ cs) →
    G b.id = k * (e ("x" ++ b.id) + weight o.kind o.θ * e ("dx" ++ b.id))
  storage : ∀ b h f dom, (.fluxStorage b h f dom ∈ cs ∨ .effortStorage b h f dom ∈ cs) →
    G b.id = o.slope h f (e ("x" ++ b.id)) (e ("dx" ++ b.id))
  resistance : ∀ b r, .linear (.resistance b r) ∈ cs → r ≠ 0 ∧
    zf b.id = r * e ("w" ++ b.id) ∧ ze b.id = r⁻¹ * e ("w" ++ b.id)
  conductor : ∀ b g, .conductor b g ∈ cs → ∃ gi, Function.LeftInverse gi g ∧
    zf b.id = gi (e ("w" ++ b.id)) ∧ ze b.id = g (e ("w" ++ b.id)) ∧
    (¬ ec b.id → e ("w" ++ b.id) ∈ Set.range g)

theorem shadow_flat (cs : List Component) :
    (cs.map Component.shadow).flatMap Device.branches = cs.flatMap Component.branches := by
  rw [List.flatMap_map]
  exact List.flatMap_congr fun c _ => shadow_branches c

theorem law_iff {ec : String → Prop} {fs : ℝ} {o : Rule} {e G ze zf E F : String → ℝ}
    (hv : Values cs ec o e G ze zf) {c : Component} (hc : c ∈ cs) :
    GLaw ec fs e G ze zf E F c.shadow ↔
      c.Law ec fs o (fun i => e ("x" ++ i)) (fun i => e ("dx" ++ i)) (fun i => e ("u" ++ i)) E F ∧
      ∀ b ∈ c.dissipative,
        (ec b.id → e ("w" ++ b.id) = E b.id) ∧ (¬ ec b.id → e ("w" ++ b.id) = F b.id) := by
  cases c with
  | linear d =>
    cases d with
    | fluxStorage b k =>
      simp only [Component.shadow, GLaw, Component.Law, Device.Law, Component.dissipative, List.not_mem_nil,
        false_implies, implies_true, and_true]
      rw [hv.linear b k (.inl hc)]
    | effortStorage b k =>
      simp only [Component.shadow, GLaw, Component.Law, Device.Law, Component.dissipative, List.not_mem_nil,
        false_implies, implies_true, and_true]
      rw [hv.linear b k (.inr hc)]
    | resistance b r =>
      obtain ⟨h0, h1, h2⟩ := hv.resistance b r hc
      simp only [Component.shadow, GLaw, Component.Law, Device.Law, Component.dissipative, List.mem_singleton,
        forall_eq]
      rw [h1, h2]
      by_cases hec : ec b.id
      · simp only [hec, true_implies, not_true_eq_false, false_implies, and_true]
        constructor
        · rintro ⟨a1, a2⟩
          refine ⟨?_, a1⟩
          rw [a2, a1]; field_simp
        · rintro ⟨a1, a2⟩
          refine ⟨a2, ?_⟩
          rw [a2, a1]; field_simp
      · simp only [hec, not_false_eq_true, true_implies, false_implies, true_and]
        constructor
        · rintro ⟨a1, a2⟩
          exact ⟨by rw [a2, a1], a1⟩
        · rintro ⟨a1, a2⟩
          exact ⟨a2, by rw [a1, a2]⟩
    | _ =>
      simp only [Component.shadow, GLaw, Component.Law, Device.Law, Component.dissipative, List.not_mem_nil,
        false_implies, implies_true, and_true]
  | fluxStorage b h f dom =>
    simp only [Component.shadow, GLaw, Component.Law, Component.dissipative, List.not_mem_nil,
      false_implies, implies_true, and_true]
    rw [hv.storage b h f dom (.inl hc)]
  | effortStorage b h f dom =>
    simp only [Component.shadow, GLaw, Component.Law, Component.dissipative, List.not_mem_nil,
      false_implies, implies_true, and_true]
    rw [hv.storage b h f dom (.inr hc)]
  | conductor b g =>
    obtain ⟨gi, hgi, h1, h2, h3⟩ := hv.conductor b g hc
    simp only [Component.shadow, GLaw, Component.Law, Component.dissipative, List.mem_singleton, forall_eq]
    rw [h1, h2]
    by_cases hec : ec b.id
    · simp only [hec, true_implies, not_true_eq_false, false_implies, and_true]
      constructor
      · rintro ⟨a1, a2⟩
        exact ⟨by rw [a2, a1], a1⟩
      · rintro ⟨a1, a2⟩
        exact ⟨a2, by rw [a1, a2]⟩
    · obtain ⟨v, hv⟩ := h3 hec
      simp only [hec, not_false_eq_true, true_implies, false_implies, true_and]
      constructor
      · rintro ⟨a1, a2⟩
        refine ⟨?_, a1⟩
        rw [a2, ← a1, ← hv, hgi]
      · rintro ⟨a1, a2⟩
        refine ⟨a2, ?_⟩
        rw [a2, a1, hgi]

/-- The equations with the values of the graph are those of the components. -/
theorem step_iff {ec : String → Prop} {fs : ℝ} {o : Rule} {e G ze zf E F : String → ℝ}
    (hv : Values cs ec o e G ze zf) :
    GStep (cs.map Component.shadow) ec fs e G ze zf E F ↔ Step cs ec fs o e E F := by
  constructor
  · intro h
    refine ⟨?_, ?_, fun c hc => ?_, fun c hc => ?_⟩
    · rw [← shadow_flat]; exact h.flux
    · rw [← shadow_flat]; exact h.effort
    · exact ((law_iff hv hc).1 (h.laws _ (List.mem_map_of_mem hc))).1
    · exact ((law_iff hv hc).1 (h.laws _ (List.mem_map_of_mem hc))).2
  · intro h
    refine ⟨?_, ?_, fun d hd => ?_⟩
    · rw [shadow_flat]; exact h.flux
    · rw [shadow_flat]; exact h.effort
    · obtain ⟨c, hc, rfl⟩ := List.mem_map.1 hd
      exact (law_iff hv hc).2 ⟨h.laws c hc, h.diss c hc⟩

end Nonlin
end Pyphs
