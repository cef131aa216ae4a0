/-
The energy of the components, from their laws alone; the documented laws are physical.
-/
import Verif.Nonlin.Gradient
import Verif.System.Power
import Mathlib.Analysis.SpecialFunctions.Trigonometric.Deriv
import Mathlib.Analysis.SpecialFunctions.Log.Deriv
import Mathlib.Analysis.Real.Pi.Bounds

namespace Pyphs
namespace Nonlin
open Scheme Circuit
open _root_.Pyphs.System (Branch Device tellegen)

variable {cs : List Component}

/-- The sources of a system. -/
def sources (cs : List Component) : List Branch := cs.flatMap fun
  | .linear (.effortSource b) => [b]
  | .linear (.fluxSource b) => [b]
  | _ => []

/-- The branches of the storages. -/
def Component.storing : Component → List Branch
  | .linear (.fluxStorage b _) => [b]
  | .linear (.effortStorage b _) => [b]
  | .fluxStorage b .. => [b]
  | .effortStorage b .. => [b]
  | _ => []

/-- The power received by the dissipative components. -/
noncomputable def dissipated (cs : List Component) (E F : String → ℝ) : ℝ :=
  ((cs.flatMap Component.dissipative).map fun b => E b.id * F b.id).sum

/-- The rule is exact for the increment `dx` of a nonlinear storage. -/
def Rule.Exact (o : Rule) (dx : ℝ) : Prop := o.kind = .discret ∧ (dx = 0 ∨ dx < -o.eps ∨ o.eps ≤ dx)

/-- The rule is exact for all the increments of a step. -/
def ExactStep (cs : List Component) (o : Rule) (e : String → ℝ) : Prop :=
  (o.kind = .theta → o.θ = 1 / 2) ∧
  ∀ b h f dom, (.fluxStorage b h f dom ∈ cs ∨ .effortStorage b h f dom ∈ cs) → o.Exact (e ("dx" ++ b.id))

theorem slope_exact {o : Rule} {dx : ℝ} (ho : o.Exact dx) (h f : ℝ → ℝ) (x : ℝ) :
    o.slope h f x dx * dx = h (x + dx) - h x := by
  obtain ⟨hk, ho⟩ := ho
  rcases eq_or_ne dx 0 with rfl | h0
  · simp
  · have : ¬ (-o.eps ≤ dx ∧ dx < o.eps) := by
      rintro ⟨h1, h2⟩
      rcases ho with ho | ho | ho
      · exact h0 ho
      · exact absurd h1 (not_le.2 ho)
      · exact absurd h2 (not_lt.2 ho)
    unfold Rule.slope
    rw [hk]
    dsimp only
    rw [if_neg this, div_mul_cancel₀ _ h0]

theorem weight_half {o : Rule} (h : o.kind = .theta → o.θ = 1 / 2) : weight o.kind o.θ = 1 / 2 := by
  unfold weight
  split_ifs with hk
  · exact h hk
  · rfl

/-- The balance of power of one step. -/
theorem step_power {ec : String → Prop} {fs : ℝ} {o : Rule} {e E F : String → ℝ} (h : Step cs ec fs o e E F)
    (hx : ExactStep cs o e) :
    fs * (stored cs (fun i => e ("x" ++ i) + e ("dx" ++ i)) - stored cs fun i => e ("x" ++ i)) +
      dissipated cs E F + ((sources cs).map fun b => E b.id * F b.id).sum = 0 := by
  rw [← tellegen h.flux h.effort]
  have hl := h.laws
  obtain ⟨h1, h2⟩ := hx
  have hw := weight_half h1
  clear h h1
  unfold stored dissipated sources
  induction cs with
  | nil => simp
  | cons c cs ih =>
    have ih' := ih (fun c' hc' => hl c' (List.mem_cons_of_mem _ hc'))
      (fun b h f dom hb => h2 b h f dom (hb.imp (List.mem_cons_of_mem _) (List.mem_cons_of_mem _)))
    have l := hl c List.mem_cons_self
    simp only [List.map_cons, List.sum_cons, List.flatMap_cons, List.map_append, List.sum_append]
    rw [← ih']
    cases c with
    | linear d =>
      simp only [Component.Law, hw] at l
      cases d with
      | fluxStorage b k =>
        obtain ⟨l1, l2⟩ := l
        simp only [Component.energy, Device.energy, Component.branches, Device.branches, Component.dissipative,
          List.map_cons, List.map_nil, List.sum_cons, List.sum_nil, l1, l2]
        ring
      | effortStorage b k =>
        obtain ⟨l1, l2⟩ := l
        simp only [Component.energy, Device.energy, Component.branches, Device.branches, Component.dissipative,
          List.map_cons, List.map_nil, List.sum_cons, List.sum_nil, l1, l2]
        ring
      | gyrator a b α =>
        simp only [Component.energy, Device.energy, Component.branches, Device.branches, Component.dissipative,
          List.map_cons, List.map_nil, List.sum_cons, List.sum_nil]
        by_cases hh : ec a.id
        · obtain ⟨l1, l2⟩ := l.2 hh
          rw [l1, l2]; ring
        · obtain ⟨l1, l2⟩ := l.1 hh
          rw [l1, l2]; ring
      | transformer a b α =>
        simp only [Component.energy, Device.energy, Component.branches, Device.branches, Component.dissipative,
          List.map_cons, List.map_nil, List.sum_cons, List.sum_nil]
        by_cases hh : ec a.id
        · obtain ⟨l1, l2⟩ := l.1 hh
          rw [l1, l2]; ring
        · obtain ⟨l1, l2⟩ := l.2 hh
          rw [l1, l2]; ring
      | _ =>
        simp only [Component.energy, Device.energy, Component.branches, Device.branches, Component.dissipative,
          List.map_cons, List.map_nil, List.sum_cons, List.sum_nil]
        ring
    | fluxStorage b h f dom =>
      obtain ⟨l1, l2⟩ := l
      have := slope_exact (h2 b h f dom (.inl List.mem_cons_self)) h f (e ("x" ++ b.id))
      simp only [Component.energy, Component.branches, Component.dissipative, List.map_cons, List.map_nil,
        List.sum_cons, List.sum_nil, l1, l2]
      linear_combination fs * (-this)
    | effortStorage b h f dom =>
      obtain ⟨l1, l2⟩ := l
      have := slope_exact (h2 b h f dom (.inr List.mem_cons_self)) h f (e ("x" ++ b.id))
      simp only [Component.energy, Component.branches, Component.dissipative, List.map_cons, List.map_nil,
        List.sum_cons, List.sum_nil, l1, l2]
      linear_combination fs * (-this)
    | conductor b g =>
      simp only [Component.energy, Component.branches, Component.dissipative, List.map_cons, List.map_nil,
        List.sum_cons, List.sum_nil]
      ring

/-- The dissipative components receive power. -/
theorem step_passive {ec : String → Prop} {fs : ℝ} {o : Rule} {e E F : String → ℝ}
    (hp : ∀ c ∈ cs, c.Physical) (h : Step cs ec fs o e E F) : 0 ≤ dissipated cs E F := by
  unfold dissipated
  refine List.sum_nonneg fun t ht => ?_
  obtain ⟨b, hb, rfl⟩ := List.mem_map.1 ht
  obtain ⟨c, hc, hb⟩ := List.mem_flatMap.1 hb
  have l := h.laws c hc
  have p := hp c hc
  cases c with
  | linear d =>
    cases d <;> simp only [Component.dissipative, List.not_mem_nil, List.mem_singleton] at hb
    case resistance b' r =>
      subst hb
      have l1 : E b.id = r * F b.id := l
      have p1 : 0 < r := p
      rw [l1]
      have := mul_nonneg p1.le (mul_self_nonneg (F b.id))
      linarith
  | conductor b' g =>
    simp only [Component.dissipative, List.mem_singleton] at hb
    subst hb
    have l1 : F b.id = g (E b.id) := l
    obtain ⟨p1, p2⟩ := p
    rw [l1]
    rcases le_total 0 (E b.id) with h0 | h0
    · exact mul_nonneg h0 (by rw [← p2]; exact p1.monotone h0)
    · exact mul_nonneg_of_nonpos_of_nonpos h0 (by rw [← p2]; exact p1.monotone h0)
  | fluxStorage => cases hb
  | effortStorage => cases hb

/-! ### The documented laws -/

theorem cubic_deriv (F1 F3 q x : ℝ) : HasDerivAt (cubicEnergy F1 F3 q) (cubicForce F1 F3 q x) x := by
  have h1 : HasDerivAt (fun x : ℝ => F1 * x ^ 2 / (2 * q) + F3 * x ^ 4 / (4 * q ^ 3))
      (F1 * ((2 : ℕ) * x ^ (2 - 1)) / (2 * q) + F3 * ((4 : ℕ) * x ^ (4 - 1)) / (4 * q ^ 3)) x :=
    (((hasDerivAt_pow 2 x).const_mul F1).div_const _).add (((hasDerivAt_pow 4 x).const_mul F3).div_const _)
  have h2 : F1 * ((2 : ℕ) * x ^ (2 - 1)) / (2 * q) + F3 * ((4 : ℕ) * x ^ (4 - 1)) / (4 * q ^ 3) =
      cubicForce F1 F3 q x := by
    unfold cubicForce
    push_cast
    rw [show F1 * (2 * x ^ (2 - 1)) = 2 * (F1 * x) by ring, mul_div_mul_left _ _ two_ne_zero,
      show F3 * (4 * x ^ (4 - 1)) = 4 * (F3 * x ^ 3) by ring, mul_div_mul_left _ _ four_ne_zero]
  rw [h2] at h1
  exact h1

theorem satPart_deriv {q x : ℝ} (hx : x ∈ Set.Ioo (-q) q) : HasDerivAt (satPart q) (satSlope q x) x := by
  have hq : 0 < q := by have := hx.1; have := hx.2; linarith
  have hpi := Real.pi_pos
  have h4 : (4 : ℝ) - Real.pi ≠ 0 := by have := Real.pi_lt_d2; intro hh; linarith
  have hc : Real.cos (Real.pi * x / (2 * q)) ≠ 0 := by
    refine (Real.cos_pos_of_mem_Ioo ⟨?_, ?_⟩).ne'
    · rw [lt_div_iff₀ (by positivity)]
      nlinarith [hx.1]
    · rw [div_lt_iff₀ (by positivity)]
      nlinarith [hx.2]
  have d1 : HasDerivAt (fun x : ℝ => Real.pi * x / (2 * q)) (Real.pi * 1 / (2 * q)) x :=
    ((hasDerivAt_id x).const_mul Real.pi).div_const _
  have d2 := (d1.cos).log hc
  have d3 : HasDerivAt (fun x : ℝ => Real.pi ^ 2 * x ^ 2 / (8 * q ^ 2))
      (Real.pi ^ 2 * ((2 : ℕ) * x ^ (2 - 1)) / (8 * q ^ 2)) x :=
    ((hasDerivAt_pow 2 x).const_mul _).div_const _
  have d4 := (d3.add d2).const_mul (-(8 * q / (Real.pi * (4 - Real.pi))))
  refine d4.congr_deriv ?_
  unfold satSlope
  rw [Real.tan_eq_sin_div_cos]
  push_cast
  field_simp
  ring

theorem sat_deriv (k c : ℝ) {q x : ℝ} (hx : x ∈ Set.Ioo (-q) q) :
    HasDerivAt (satEnergy k c q) (satForce k c q x) x := by
  have h1 : HasDerivAt (fun x : ℝ => k * (x ^ 2 / 2 + c * satPart q x))
      (k * ((2 : ℕ) * x ^ (2 - 1) / 2 + c * satSlope q x)) x :=
    (((hasDerivAt_pow 2 x).div_const 2).add ((satPart_deriv hx).const_mul c)).const_mul k
  have h2 : k * ((2 : ℕ) * x ^ (2 - 1) / 2 + c * satSlope q x) = satForce k c q x := by
    unfold satForce
    push_cast
    ring
  rw [h2] at h1
  exact h1

theorem shockley_mono {Is mu v0 : ℝ} (h1 : 0 < Is) (h2 : 0 < mu) (h3 : 0 < v0) :
    StrictMono (shockley Is mu v0) ∧ shockley Is mu v0 0 = 0 := by
  refine ⟨fun a b hab => ?_, by simp [shockley]⟩
  unfold shockley
  have := Real.exp_lt_exp.2 (div_lt_div_of_pos_right hab (mul_pos h2 h3))
  exact mul_lt_mul_of_pos_left (by linarith) h1

/-- Conditions on the parameters of the nonlinear components. -/
def Sound (comp : String) (vs : List ℝ) : Prop :=
  match comp, vs with
  | "diode", [Is, mu, R, v0] => 0 < Is ∧ 0 < mu ∧ 0 < R ∧ 0 < v0
  | "potentiometer", [R, A, E] => 0 ≤ R ∧ 0 ≤ A ∧ A ≤ 1 ∧ 0 ≤ E
  | _, _ => True

/-- The documented laws are physical: the forces of the springs and of the saturating capacitor derive from
their energies (inside the saturation), Shockley's law is increasing, the resistances are positive. -/
theorem laws_physical {dict comp l : String} {ns : List String} {vs : List ℝ} {cs : List Component}
    (hm : meaning dict comp l ns vs = some cs) (hv : Sound comp vs) : ∀ c ∈ cs, c.Physical := by
  unfold meaning at hm
  split at hm
  · obtain rfl := Option.some.inj hm
    obtain ⟨h1, h2, h3, h4⟩ := hv
    intro c hc
    simp only [List.mem_cons, List.not_mem_nil, or_false] at hc
    rcases hc with rfl | rfl | rfl
    · exact shockley_mono h1 h2 h4
    · exact h3
    · show (0 : ℝ) < 1e12
      norm_num
  · obtain rfl := Option.some.inj hm
    obtain ⟨h1, h2, h3, h4⟩ := hv
    rename_i R A E
    have a0 := Real.rpow_nonneg h2 E
    have a1 := Real.rpow_le_one h2 h3 h4
    intro c hc
    simp only [List.mem_cons, List.not_mem_nil, or_false] at hc
    rcases hc with rfl | rfl
    · show 0 < 1 + R * A ^ E
      have := mul_nonneg h1 a0
      linarith
    · show 0 < 1 + R * (1 - A ^ E)
      have := mul_nonneg h1 (sub_nonneg.2 a1)
      linarith
  · obtain rfl := Option.some.inj hm
    intro c hc
    obtain rfl := List.mem_singleton.1 hc
    exact ⟨isOpen_univ, fun x _ => cubic_deriv _ _ _ x⟩
  · obtain rfl := Option.some.inj hm
    intro c hc
    obtain rfl := List.mem_singleton.1 hc
    exact ⟨isOpen_univ, fun x _ => cubic_deriv _ _ _ x⟩
  · obtain rfl := Option.some.inj hm
    intro c hc
    obtain rfl := List.mem_singleton.1 hc
    exact ⟨isOpen_Ioo, fun x hx => sat_deriv _ _ hx⟩
  · obtain rfl := Option.some.inj hm
    intro c hc
    obtain rfl := List.mem_singleton.1 hc
    exact ⟨isOpen_Ioo, fun x hx => sat_deriv _ _ hx⟩
  · obtain rfl := Option.some.inj hm
    intro c hc
    obtain rfl := List.mem_singleton.1 hc
    exact ⟨isOpen_Ioo, fun x hx => sat_deriv _ _ hx⟩
  · cases hm

end Nonlin
end Pyphs
