/-
C50: storage components.
-/
import Verif.Compo.DissExamples
import Mathlib.Analysis.SpecialFunctions.Pow.Deriv
import Mathlib.Analysis.SpecialFunctions.Trigonometric.ArctanDeriv
import Mathlib.Analysis.SpecialFunctions.Trigonometric.Bounds
import Mathlib.Analysis.Calculus.Deriv.MeanValue
import Mathlib.Analysis.Real.Pi.Bounds

namespace Pyphs
namespace Compo
open Sym Function

/-! ### Specification -/

/-- The energy of a component with one state, as a function of the state. -/
noncomputable def Comp.energy (c : Comp) (ρ : String → ℝ) (x : String) (v : ℝ) : ℝ :=
  val (update ρ x v) c.H

/-- The law of a storage: the derivative of the energy. In an edge with `ctrl = 'f'` the state
is the integral of the flux and the law gives the effort; with `ctrl = 'e'` the state is the
integral of the effort and the law gives the flux. -/
def Comp.HasLaw (c : Comp) (ρ : String → ℝ) (x : String) (D : Set ℝ) (law : ℝ → ℝ) : Prop :=
  ∀ v ∈ D, HasDerivAt (c.energy ρ x) (law v) v

/-- The component is one storage edge with the given state and control. -/
def Comp.IsStorage (c : Comp) (n1 n2 x : String) (ctrl : Ctrl) : Prop :=
  c.xs = [x] ∧ c.edges.map (fun b => (b.n1, b.n2, b.label, b.type, b.ctrl)) =
    [(n1, n2, x, .storage, ctrl)]

/-! ### Linear storages -/

theorem storage_energy {label n1 n2 : String} {a : Arg} {inv : Bool} {ctrl : Ctrl}
    {ρ : String → ℝ} (hn : a.Avoids ("x" ++ label))
    (ha : Agrees ρ (storageLinear label n1 n2 a inv ctrl).subs) (v : ℝ) :
    (storageLinear label n1 n2 a inv ctrl).energy ρ ("x" ++ label) v =
      (if inv then (a.value ρ)⁻¹ else a.value ρ) * v ^ 2 / 2 := by
  have hne := coeff_ne (pre := "x") rfl a hn
  have hv : ρ (form (label ++ "coeff") a).symb = a.value ρ := coeff_value ha
  cases inv <;>
    simp [Comp.energy, storageLinear, update_of_ne hne, hv, Real.rpow_neg_one]

theorem storage_law {label n1 n2 : String} {a : Arg} {inv : Bool} {ctrl : Ctrl}
    {ρ : String → ℝ} (hn : a.Avoids ("x" ++ label))
    (ha : Agrees ρ (storageLinear label n1 n2 a inv ctrl).subs) :
    (storageLinear label n1 n2 a inv ctrl).HasLaw ρ ("x" ++ label) Set.univ
      (fun v => if inv then v / a.value ρ else a.value ρ * v) := by
  intro v _
  have e : (storageLinear label n1 n2 a inv ctrl).energy ρ ("x" ++ label) =
      fun v => (if inv then (a.value ρ)⁻¹ else a.value ρ) * v ^ 2 / 2 :=
    funext (storage_energy hn ha)
  rw [e]
  have h := (((hasDerivAt_id v).pow 2).const_mul
    (if inv then (a.value ρ)⁻¹ else a.value ρ)).div_const 2
  refine h.congr_deriv ?_
  cases inv
  · simp; ring
  · simp; rw [div_eq_mul_inv]; ring

/-- **C50**, capacitor: state `q`, effort `q / C`. -/
theorem C50_capacitor (label n1 n2 : String) (C : Arg) (ρ : String → ℝ)
    (hn : C.Avoids ("x" ++ label)) (ha : Agrees ρ (capacitor label n1 n2 (some C)).subs) :
    (capacitor label n1 n2 (some C)).IsStorage n1 n2 ("x" ++ label) .f ∧
    (capacitor label n1 n2 (some C)).HasLaw ρ ("x" ++ label) Set.univ (fun q => q / C.value ρ) :=
  ⟨⟨rfl, rfl⟩, by simpa [capacitor] using storage_law (inv := true) hn ha⟩

/-- **C50**, inductor: state `phi`, flux `phi / L`. -/
theorem C50_inductor (label n1 n2 : String) (L : Arg) (ρ : String → ℝ)
    (hn : L.Avoids ("x" ++ label)) (ha : Agrees ρ (inductor label n1 n2 L).subs) :
    (inductor label n1 n2 L).IsStorage n1 n2 ("x" ++ label) .e ∧
    (inductor label n1 n2 L).HasLaw ρ ("x" ++ label) Set.univ (fun p => p / L.value ρ) :=
  ⟨⟨rfl, rfl⟩, by simpa [inductor] using storage_law (inv := true) hn ha⟩

/-- **C50**, mass: edge from the datum, effort (velocity) `p / M` with `dp/dt` the flux. -/
theorem C50_mass (label n : String) (M : Arg) (ρ : String → ℝ)
    (hn : M.Avoids ("x" ++ label)) (ha : Agrees ρ (mass label n M).subs) :
    (mass label n M).IsStorage datum n ("x" ++ label) .f ∧
    (mass label n M).HasLaw ρ ("x" ++ label) Set.univ (fun p => p / M.value ρ) :=
  ⟨⟨rfl, rfl⟩, by simpa [mass] using storage_law (inv := true) hn ha⟩

/-- **C50**, stiffness: flux (force) `K q` with `dq/dt` the effort. -/
theorem C50_stiffness (label n1 n2 : String) (K : Arg) (ρ : String → ℝ)
    (hn : K.Avoids ("x" ++ label)) (ha : Agrees ρ (stiffness label n1 n2 K).subs) :
    (stiffness label n1 n2 K).IsStorage n1 n2 ("x" ++ label) .e ∧
    (stiffness label n1 n2 K).HasLaw ρ ("x" ++ label) Set.univ (fun q => K.value ρ * q) :=
  ⟨⟨rfl, rfl⟩, by simpa [stiffness] using storage_law (inv := false) hn ha⟩

/-- **C50**, dual mass: flux (velocity) `p / M` with `dp/dt` the effort. -/
theorem C50_massDual (label n1 n2 : String) (M : Arg) (ρ : String → ℝ)
    (hn : M.Avoids ("x" ++ label)) (ha : Agrees ρ (massDual label n1 n2 M).subs) :
    (massDual label n1 n2 M).IsStorage n1 n2 ("x" ++ label) .e ∧
    (massDual label n1 n2 M).HasLaw ρ ("x" ++ label) Set.univ (fun p => p / M.value ρ) :=
  ⟨⟨rfl, rfl⟩, by simpa [massDual] using storage_law (inv := true) hn ha⟩

/-- **C50**, dual stiffness: effort (force) `K q` with `dq/dt` the flux. -/
theorem C50_stiffnessDual (label n1 n2 : String) (K : Arg) (ρ : String → ℝ)
    (hn : K.Avoids ("x" ++ label)) (ha : Agrees ρ (stiffnessDual label n1 n2 K).subs) :
    (stiffnessDual label n1 n2 K).IsStorage n1 n2 ("x" ++ label) .f ∧
    (stiffnessDual label n1 n2 K).HasLaw ρ ("x" ++ label) Set.univ (fun q => K.value ρ * q) :=
  ⟨⟨rfl, rfl⟩, by simpa [stiffnessDual] using storage_law (inv := false) hn ha⟩

/-- **C50**, magnetic capacitor: effort `phi / C` with `dphi/dt` the flux. -/
theorem C50_magCapacitor (label n1 n2 : String) (C : Arg) (ρ : String → ℝ)
    (hn : C.Avoids ("x" ++ label)) (ha : Agrees ρ (magCapacitor label n1 n2 C).subs) :
    (magCapacitor label n1 n2 C).IsStorage n1 n2 ("x" ++ label) .f ∧
    (magCapacitor label n1 n2 C).HasLaw ρ ("x" ++ label) Set.univ (fun q => q / C.value ρ) :=
  ⟨⟨rfl, rfl⟩, by simpa [magCapacitor] using storage_law (inv := true) hn ha⟩

/-- **C50**, energy of the linear storages. -/
theorem C50_linear_energy (label n1 n2 : String) (a : Arg) (inv : Bool) (ctrl : Ctrl)
    (ρ : String → ℝ) (hn : a.Avoids ("x" ++ label))
    (ha : Agrees ρ (storageLinear label n1 n2 a inv ctrl).subs) (hc : 0 < a.value ρ) (v : ℝ) :
    0 ≤ (storageLinear label n1 n2 a inv ctrl).energy ρ ("x" ++ label) v ∧
    ((storageLinear label n1 n2 a inv ctrl).energy ρ ("x" ++ label) v = 0 ↔ v = 0) := by
  rw [storage_energy hn ha]
  have hp : 0 < if inv then (a.value ρ)⁻¹ else a.value ρ := by
    cases inv
    · simpa using hc
    · simpa using hc
  constructor
  · positivity
  · constructor
    · intro h
      by_contra hv
      have : 0 < v ^ 2 := by positivity
      have : 0 < (if inv then (a.value ρ)⁻¹ else a.value ρ) * v ^ 2 / 2 := by positivity
      linarith
    · rintro rfl; simp

/-- The hypotheses can be met: a capacitor of 1 nF. -/
example : (Arg.num 1e-9).Avoids ("x" ++ "C1") ∧
    Agrees (fun _ => 1e-9) (capacitor "C1" "A" "B" (some (.num 1e-9))).subs ∧
    (0 : ℝ) < (Arg.num 1e-9).value (fun _ => 1e-9) := by
  refine ⟨trivial, ?_, by norm_num [Arg.value]⟩
  intro p hp
  simp only [capacitor, Option.getD_some, storageLinear, form, List.mem_singleton] at hp
  subst hp
  rfl

/-- The default capacitance is the string `'1e-9'`: the capacitor has no value, but a free
parameter of that name. -/
theorem C50_default_capacitance (label n1 n2 : String) :
    (capacitor label n1 n2 none).subs = [] ∧ (capacitor label n1 n2 none).p = ["1e-9"] :=
  ⟨rfl, rfl⟩

/-! ### Nonlinear storages -/

theorem energy_eq {label : String} {edges : List Edge} {x : String} {H : E} {kw : Dict Arg}
    {vars : List String} (hn : NamesOK label kw vars) (hi : Indep label kw x) {ρ : String → ℝ}
    (ha : Agrees ρ (storageNonLinear label edges x H kw).subs) (v : ℝ) :
    (storageNonLinear label edges x H kw).energy ρ x v = val (penv kw (update ρ x v)) H :=
  val_mappars hn (Agrees.update hi ha v) H

/-- **C50**, cubic spring. -/
theorem C50_springcubic (label n1 n2 : String) (ctrl : Ctrl) (kw : Dict Arg) (ρ : String → ℝ)
    (hn : NamesOK label (cubicDefaults.update kw) ["x" ++ label])
    (hi : Indep label (cubicDefaults.update kw) ("x" ++ label))
    (ha : Agrees ρ (springcubic label n1 n2 ctrl kw).subs)
    (F1 F3 xref : ℝ) (h1 : penv (cubicDefaults.update kw) ρ "F1" = F1)
    (h3 : penv (cubicDefaults.update kw) ρ "F3" = F3)
    (hr : penv (cubicDefaults.update kw) ρ "xref" = xref) (hx : 0 < xref) :
    (springcubic label n1 n2 ctrl kw).IsStorage n1 n2 ("x" ++ label) ctrl ∧
    (springcubic label n1 n2 ctrl kw).HasLaw ρ ("x" ++ label) Set.univ
      (fun q => F1 * (q / xref) + F3 * (q ^ 3 / xref ^ 3)) ∧
    (0 ≤ F1 → 0 ≤ F3 → ∀ v, 0 ≤ (springcubic label n1 n2 ctrl kw).energy ρ ("x" ++ label) v) := by
  have hk : ∀ y ∈ ["F1", "F3", "xref"], y ∈ Dict.keys (cubicDefaults.update kw) := by
    intro y hy
    refine mem_keys_of_default ?_
    fin_cases hy <;> simp [cubicDefaults, Dict.keys]
  have e : (springcubic label n1 n2 ctrl kw).energy ρ ("x" ++ label) =
      fun v => F1 * v ^ 2 / (2 * xref) + F3 * v ^ 4 / (4 * xref ^ 3) := by
    funext v
    have p0 := penv_var (hn.vars _ (by simp : "x" ++ label ∈ _)) (update ρ ("x" ++ label) v)
    have p1 := penv_indep (ρ := ρ) hi v (hk "F1" (by simp))
    have p2 := penv_indep (ρ := ρ) hi v (hk "F3" (by simp))
    have p3 := penv_indep (ρ := ρ) hi v (hk "xref" (by simp))
    refine (energy_eq hn hi ha v).trans ?_
    simp only [val_add, val_mul, val_div, val_pow, val_sym, val_const, p0, p1, p2, p3, update_self,
      h1, h3, hr, Real.rpow_ofNat]
  refine ⟨⟨rfl, rfl⟩, ?_, ?_⟩
  · intro v _
    rw [e]
    have d2 := (((hasDerivAt_id v).pow 2).const_mul F1).div_const (2 * xref)
    have d4 := (((hasDerivAt_id v).pow 4).const_mul F3).div_const (4 * xref ^ 3)
    refine (d2.add d4).congr_deriv ?_
    simp
    field_simp
  · intro p1 p3 v
    rw [e]
    positivity

/-! Saturating storages -/

theorem log_cos_deriv {t : ℝ} (h : Real.cos t ≠ 0) :
    HasDerivAt (fun t => Real.log (Real.cos t) + t ^ 2 / 2) (t - Real.tan t) t := by
  have h1 := (Real.hasDerivAt_cos t).log h
  have h2 := ((hasDerivAt_id t).pow 2).div_const 2
  refine (h1.add h2).congr_deriv ?_
  simp [Real.tan_eq_sin_div_cos]
  ring

theorem log_cos_le {t : ℝ} (h : |t| < Real.pi / 2) : Real.log (Real.cos t) + t ^ 2 / 2 ≤ 0 := by
  wlog h0 : 0 ≤ t generalizing t
  · have := this (t := -t) (by rwa [abs_neg]) (by linarith)
    simpa using this
  rw [abs_of_nonneg h0] at h
  have hanti : AntitoneOn (fun t => Real.log (Real.cos t) + t ^ 2 / 2) (Set.Ico 0 (Real.pi / 2)) := by
    have hcos : ∀ u ∈ Set.Ico (0 : ℝ) (Real.pi / 2), Real.cos u ≠ 0 := fun u hu =>
      (Real.cos_pos_of_mem_Ioo ⟨by linarith [hu.1, Real.pi_pos], hu.2⟩).ne'
    refine antitoneOn_of_deriv_nonpos (convex_Ico _ _) ?_ ?_ ?_
    · exact fun u hu => (log_cos_deriv (hcos u hu)).continuousAt.continuousWithinAt
    · intro u hu
      rw [interior_Ico] at hu
      exact (log_cos_deriv (hcos u ⟨hu.1.le, hu.2⟩)).differentiableAt.differentiableWithinAt
    · intro u hu
      rw [interior_Ico] at hu
      rw [(log_cos_deriv (hcos u ⟨hu.1.le, hu.2⟩)).deriv]
      linarith [Real.le_tan hu.1.le hu.2]
  have := hanti ⟨le_refl _, by positivity⟩ ⟨h0, h⟩ h0
  simpa using this

/-- Value of the saturating part of the energy. -/
noncomputable def satEnergy (xs v : ℝ) : ℝ :=
  8 * xs / (Real.pi * (4 - Real.pi)) *
    (Real.log (Real.cos (Real.pi * v / (2 * xs))) + (Real.pi * v / (2 * xs)) ^ 2 / 2)

theorem pi_lt_four : Real.pi < 4 := by linarith [Real.pi_lt_d2]

theorem sat_arg {xs v : ℝ} (hx : 0 < xs) (hv : |v| < xs) :
    |Real.pi * v / (2 * xs)| < Real.pi / 2 := by
  rw [abs_div, abs_mul, abs_of_pos Real.pi_pos, abs_of_pos (by linarith : 0 < 2 * xs),
    div_lt_div_iff₀ (by linarith) (by norm_num)]
  nlinarith [Real.pi_pos]

theorem satEnergy_nonpos {xs v : ℝ} (hx : 0 < xs) (hv : |v| < xs) : satEnergy xs v ≤ 0 := by
  have h4 := pi_lt_four
  refine mul_nonpos_of_nonneg_of_nonpos ?_ (log_cos_le (sat_arg hx hv))
  have : 0 < 4 - Real.pi := by linarith
  have := Real.pi_pos
  positivity

theorem satEnergy_deriv {xs v : ℝ} (hx : 0 < xs) (hv : |v| < xs) :
    HasDerivAt (satEnergy xs) (-(4 / (4 - Real.pi) *
      (Real.tan (Real.pi * v / (2 * xs)) - Real.pi * v / (2 * xs)))) v := by
  have ha := abs_lt.1 (sat_arg hx hv)
  have hc : Real.cos (Real.pi * v / (2 * xs)) ≠ 0 :=
    (Real.cos_pos_of_mem_Ioo ⟨by linarith [ha.1], ha.2⟩).ne'
  have hl : HasDerivAt (fun v => Real.pi * v / (2 * xs)) (Real.pi / (2 * xs)) v := by
    have := ((hasDerivAt_id v).const_mul Real.pi).div_const (2 * xs)
    simpa using this
  have h := ((log_cos_deriv hc).comp v hl).const_mul (8 * xs / (Real.pi * (4 - Real.pi)))
  refine h.congr_deriv ?_
  have h4 : 4 - Real.pi ≠ 0 := by linarith [pi_lt_four]
  have hpi := Real.pi_pos.ne'
  generalize Real.tan (Real.pi * v / (2 * xs)) = T
  field_simp
  ring

theorem val_hsat (ρ : String → ℝ) (x y : String) : val ρ (hsat x y) = satEnergy (ρ y) (ρ x) := by
  simp [hsat, satEnergy]

/-- **C50**, saturating spring, for elongations below the saturation: documented force and
nonnegative energy. -/
theorem C50_springsat (label n1 n2 : String) (ctrl : Ctrl) (kw : Dict Arg) (ρ : String → ℝ)
    (hn : NamesOK label (satDefaults.update kw) ["x" ++ label])
    (hi : Indep label (satDefaults.update kw) ("x" ++ label))
    (ha : Agrees ρ (springsat label n1 n2 ctrl kw).subs)
    (K0 Ks xs : ℝ) (h0 : penv (satDefaults.update kw) ρ "K0" = K0)
    (hs : penv (satDefaults.update kw) ρ "Ksat" = Ks)
    (hr : penv (satDefaults.update kw) ρ "xsat" = xs) (hx : 0 < xs) :
    (springsat label n1 n2 ctrl kw).IsStorage n1 n2 ("x" ++ label) ctrl ∧
    (springsat label n1 n2 ctrl kw).HasLaw ρ ("x" ++ label) {v | |v| < xs}
      (fun q => K0 * (q + Ks * (4 / (4 - Real.pi) *
        (Real.tan (Real.pi * q / (2 * xs)) - Real.pi * q / (2 * xs))))) ∧
    (0 ≤ K0 → 0 ≤ Ks → ∀ v, |v| < xs →
      0 ≤ (springsat label n1 n2 ctrl kw).energy ρ ("x" ++ label) v) := by
  have hk : ∀ y ∈ ["K0", "Ksat", "xsat"], y ∈ Dict.keys (satDefaults.update kw) := by
    intro y hy
    refine mem_keys_of_default ?_
    fin_cases hy <;> simp [satDefaults, Dict.keys]
  have e : (springsat label n1 n2 ctrl kw).energy ρ ("x" ++ label) =
      fun v => K0 * (v ^ 2 / 2 - Ks * satEnergy xs v) := by
    funext v
    have p0 := penv_var (hn.vars _ (by simp : "x" ++ label ∈ _)) (update ρ ("x" ++ label) v)
    have p1 := penv_indep (ρ := ρ) hi v (hk "K0" (by simp))
    have p2 := penv_indep (ρ := ρ) hi v (hk "Ksat" (by simp))
    have p3 := penv_indep (ρ := ρ) hi v (hk "xsat" (by simp))
    refine (energy_eq hn hi ha v).trans ?_
    simp only [val_mul, val_div, val_pow, val_sub, val_sym, val_const, val_hsat, p0, p1, p2, p3,
      update_self, h0, hs, hr, Real.rpow_ofNat]
  refine ⟨⟨rfl, rfl⟩, ?_, ?_⟩
  · intro v hv
    rw [e]
    have d2 := ((hasDerivAt_id v).pow 2).div_const 2
    have ds := (satEnergy_deriv hx hv).const_mul Ks
    refine ((d2.sub ds).const_mul K0).congr_deriv ?_
    simp
  · intro p0 ps v hv
    rw [e]
    have h1 := satEnergy_nonpos hx hv
    have h2 := mul_nonneg ps (neg_nonneg.2 h1)
    have h3 : 0 ≤ v ^ 2 / 2 := by positivity
    exact mul_nonneg p0 (by linarith)

/-- **C50**, saturating magnetic capacitor. -/
theorem C50_capacitorsat (label n1 n2 : String) (kw : Dict Arg) (ρ : String → ℝ)
    (hn : NamesOK label (capsatDefaults.update kw) ["x" ++ label])
    (hi : Indep label (capsatDefaults.update kw) ("x" ++ label))
    (ha : Agrees ρ (capacitorsat label n1 n2 kw).subs)
    (C0 Cs xs : ℝ) (h0 : penv (capsatDefaults.update kw) ρ "C0" = C0)
    (hs : penv (capsatDefaults.update kw) ρ "Csat" = Cs)
    (hr : penv (capsatDefaults.update kw) ρ "phisat" = xs) (hx : 0 < xs) :
    (capacitorsat label n1 n2 kw).IsStorage n1 n2 ("x" ++ label) .f ∧
    (capacitorsat label n1 n2 kw).HasLaw ρ ("x" ++ label) {v | |v| < xs}
      (fun q => 1 / C0 * (q + Cs * (4 / (4 - Real.pi) *
        (Real.tan (Real.pi * q / (2 * xs)) - Real.pi * q / (2 * xs))))) ∧
    (0 < C0 → 0 ≤ Cs → ∀ v, |v| < xs →
      0 ≤ (capacitorsat label n1 n2 kw).energy ρ ("x" ++ label) v) := by
  have hk : ∀ y ∈ ["C0", "Csat", "phisat"], y ∈ Dict.keys (capsatDefaults.update kw) := by
    intro y hy
    refine mem_keys_of_default ?_
    fin_cases hy <;> simp [capsatDefaults, Dict.keys]
  have e : (capacitorsat label n1 n2 kw).energy ρ ("x" ++ label) =
      fun v => (v ^ 2 / 2 - Cs * satEnergy xs v) / C0 := by
    funext v
    have p0 := penv_var (hn.vars _ (by simp : "x" ++ label ∈ _)) (update ρ ("x" ++ label) v)
    have p1 := penv_indep (ρ := ρ) hi v (hk "C0" (by simp))
    have p2 := penv_indep (ρ := ρ) hi v (hk "Csat" (by simp))
    have p3 := penv_indep (ρ := ρ) hi v (hk "phisat" (by simp))
    refine (energy_eq hn hi ha v).trans ?_
    simp only [val_mul, val_div, val_pow, val_sub, val_sym, val_const, val_hsat, p0, p1, p2, p3,
      update_self, h0, hs, hr, Real.rpow_ofNat]
  refine ⟨⟨rfl, rfl⟩, ?_, ?_⟩
  · intro v hv
    rw [e]
    have d2 := ((hasDerivAt_id v).pow 2).div_const 2
    have ds := (satEnergy_deriv hx hv).const_mul Cs
    refine ((d2.sub ds).div_const C0).congr_deriv ?_
    simp
    ring
  · intro p0 ps v hv
    rw [e]
    have h1 := satEnergy_nonpos hx hv
    have h2 := mul_nonneg ps (neg_nonneg.2 h1)
    have h3 : 0 ≤ v ^ 2 / 2 := by positivity
    exact div_nonneg (by linarith) p0.le

/-- **C50**, thermal capacitor: the temperature is `T0 exp(sigma / C)`. -/
theorem C50_thermCapacitor (label : String) (kw : Dict Arg) (ρ : String → ℝ) (c : Comp)
    (hc : thermCapacitor label label kw = some c)
    (hn : NamesOK label (thermDefaults.update kw) ["x" ++ label])
    (hi : Indep label (thermDefaults.update kw) ("x" ++ label)) (ha : Agrees ρ c.subs)
    (C T0 : ℝ) (h1 : penv (thermDefaults.update kw) ρ "C" = C)
    (h2 : penv (thermDefaults.update kw) ρ "T0" = T0) (hC : 0 < C) :
    c.IsStorage datum label ("x" ++ label) .f ∧
    c.HasLaw ρ ("x" ++ label) Set.univ (fun σ => T0 * Real.exp (σ / C)) ∧
    (∀ v, c.energy ρ ("x" ++ label) v = C * (T0 * Real.exp (v / C))) ∧
    (0 ≤ T0 → ∀ v, 0 ≤ c.energy ρ ("x" ++ label) v) := by
  simp only [thermCapacitor, ne_eq, not_true_eq_false, if_false, Option.some.injEq] at hc
  subst hc
  have hk : ∀ y ∈ ["C", "T0"], y ∈ Dict.keys (thermDefaults.update kw) := by
    intro y hy
    refine mem_keys_of_default ?_
    fin_cases hy <;> simp [thermDefaults, Dict.keys]
  have e : ∀ v, _ = _ := fun v => energy_eq (v := v) hn hi ha
  have e' : ∀ v, val (penv (thermDefaults.update kw) (update ρ ("x" ++ label) v))
      (s "C" * s "T0" * .op1 "exp" (s ("x" ++ label) / s "C")) = C * T0 * Real.exp (v / C) := by
    intro v
    have p0 := penv_var (hn.vars _ (by simp : "x" ++ label ∈ _)) (update ρ ("x" ++ label) v)
    have p1 := penv_indep (ρ := ρ) hi v (hk "C" (by simp))
    have p2 := penv_indep (ρ := ρ) hi v (hk "T0" (by simp))
    simp only [val_mul, val_div, val_exp, val_sym, p0, p1, p2, update_self, h1, h2]
  refine ⟨⟨rfl, rfl⟩, ?_, ?_, ?_⟩
  · intro v _
    have h := (((hasDerivAt_id v).div_const C).exp).const_mul (C * T0)
    refine (HasDerivAt.congr_of_eventuallyEq h (Filter.Eventually.of_forall fun v => ?_)).congr_deriv ?_
    · rw [e v, e' v]; rfl
    · simp; field_simp
  · intro v
    rw [e v, e' v]; ring
  · intro p v
    rw [e v, e' v]; positivity

/-- **C50**, felt: documented elastic force `F c^B` with `c = max(q, 0) / L`, at every
elongation (including zero). -/
theorem C50_felt (label n1 n2 : String) (kw : Dict Arg) (ρ : String → ℝ)
    (hn : NamesOK label (feltDefaults.update kw) ["q" ++ label, "dtq" ++ label])
    (hi : Indep label (feltDefaults.update kw) ("q" ++ label))
    (ha : Agrees ρ (felt label n1 n2 kw).subs)
    (L F B : ℝ) (h1 : penv (feltDefaults.update kw) ρ "L" = L)
    (h2 : penv (feltDefaults.update kw) ρ "F" = F)
    (h3 : penv (feltDefaults.update kw) ρ "B" = B) (hL : 0 < L) (hB : 0 < B) :
    (felt label n1 n2 kw).xs = ["q" ++ label] ∧
    (felt label n1 n2 kw).HasLaw ρ ("q" ++ label) Set.univ (fun q => F * (max q 0 / L) ^ B) ∧
    (0 ≤ F → ∀ v, 0 ≤ (felt label n1 n2 kw).energy ρ ("q" ++ label) v) := by
  have hk : ∀ y ∈ ["L", "F", "B"], y ∈ Dict.keys (feltDefaults.update kw) := by
    intro y hy
    refine mem_keys_of_default ?_
    fin_cases hy <;> simp [feltDefaults, Dict.keys]
  have e : (felt label n1 n2 kw).energy ρ ("q" ++ label) =
      fun v => if v ≤ 0 then 0 else L * F / (B + 1) * (v / L) ^ (B + 1) := by
    funext v
    have p0 := penv_var (hn.vars _ (by simp : "q" ++ label ∈ _)) (update ρ ("q" ++ label) v)
    have p1 := penv_indep (ρ := ρ) hi v (hk "L" (by simp))
    have p2 := penv_indep (ρ := ρ) hi v (hk "F" (by simp))
    have p3 := penv_indep (ρ := ρ) hi v (hk "B" (by simp))
    refine (val_mappars hn (Agrees.update hi ha v) _).trans ?_
    simp only [val_pos, val_mul, val_div, val_pow, val_add, val_sym, val_const, p0, p1, p2, p3,
      update_self, h1, h2, h3]
  have hB1 : B + 1 ≠ 0 := by linarith
  refine ⟨rfl, ?_, ?_⟩
  · intro v _
    rw [e]
    beta_reduce
    have hright : ∀ u : ℝ, 0 ≤ u → HasDerivAt (fun v => L * F / (B + 1) * (v / L) ^ (B + 1))
        (F * (max u 0 / L) ^ B) u := by
      intro u hu
      have hr := (Real.hasDerivAt_rpow_const (x := u / L) (p := B + 1) (.inr (by linarith))).comp u
        ((hasDerivAt_id u).div_const L)
      refine (hr.const_mul (L * F / (B + 1))).congr_deriv ?_
      rw [max_eq_left hu, add_sub_cancel_right]
      field_simp
    have hR : HasDerivWithinAt (fun v => if v ≤ 0 then 0 else L * F / (B + 1) * (v / L) ^ (B + 1))
        (F * (max v 0 / L) ^ B) (Set.Ici 0) v ∨ v < 0 := by
      rcases lt_or_ge v 0 with h | h
      · exact .inr h
      · left
        refine (hright v h).hasDerivWithinAt.congr (fun u hu => ?_) ?_
        · rcases eq_or_lt_of_le (Set.mem_Ici.1 hu) with rfl | hu
          · simp [Real.zero_rpow hB1]
          · simp [not_le.2 hu]
        · rcases eq_or_lt_of_le h with rfl | hu
          · simp [Real.zero_rpow hB1]
          · simp [not_le.2 hu]
    rcases lt_trichotomy v 0 with h | h | h
    · rw [max_eq_right h.le, zero_div, Real.zero_rpow hB.ne', mul_zero]
      refine (hasDerivAt_const v (0 : ℝ)).congr_of_eventuallyEq ?_
      filter_upwards [Iio_mem_nhds h] with u hu
      simp [(Set.mem_Iio.1 hu).le]
    · subst h
      rcases hR with hR | hR
      · have hLft : HasDerivWithinAt
            (fun v => if v ≤ 0 then 0 else L * F / (B + 1) * (v / L) ^ (B + 1))
            (F * (max 0 0 / L) ^ B) (Set.Iic 0) 0 := by
          rw [max_self, zero_div, Real.zero_rpow hB.ne', mul_zero]
          refine (hasDerivWithinAt_const (0 : ℝ) _ (0 : ℝ)).congr (fun u hu => ?_) (by simp)
          simp [Set.mem_Iic.1 hu]
        have := hLft.union hR
        rw [Set.Iic_union_Ici] at this
        exact hasDerivWithinAt_univ.1 this
      · exact absurd hR (lt_irrefl _)
    · refine (hright v h.le).congr_of_eventuallyEq ?_
      filter_upwards [Ioi_mem_nhds h] with u hu
      simp [not_le.2 (Set.mem_Ioi.1 hu)]
  · intro hF v
    rw [e]
    beta_reduce
    split
    · exact le_refl _
    · rename_i h
      have hv := not_le.1 h
      positivity

/-! ### Examples and clashes of names -/

/-- The hypotheses of `C50_springsat` hold for the default parameters. -/
example : ∃ ρ : String → ℝ,
    NamesOK "K" (satDefaults.update []) ["x" ++ "K"] ∧
    Indep "K" (satDefaults.update []) ("x" ++ "K") ∧
    Agrees ρ (springsat "K" "A" "B" .e []).subs ∧
    penv (satDefaults.update []) ρ "xsat" = 1e-2 := by
  have e : satDefaults.update [] = satDefaults := rfl
  refine ⟨agreeing _ fun _ => 0, ?_, ?_, agreeing_agrees (mappars_nodup _ _) _, ?_⟩
  · rw [e]
    refine NamesOK.of_simple (by simp [Dict.keys, satDefaults]) (by simp [satDefaults])
      (by simp [Dict.keys, satDefaults]) ?_
    simp [Dict.keys, satDefaults]
  · rw [e]; simp [Indep, symbOf, form, satDefaults]
  · rw [e]; simp [penv_cons, Arg.value, satDefaults]

/-- The hypotheses of `C50_felt` hold for the default parameters. -/
example : ∃ ρ : String → ℝ,
    NamesOK "h" (feltDefaults.update []) ["q" ++ "h", "dtq" ++ "h"] ∧
    Indep "h" (feltDefaults.update []) ("q" ++ "h") ∧
    Agrees ρ (felt "h" "A" "B" []).subs ∧
    penv (feltDefaults.update []) ρ "L" = 1e-2 ∧ penv (feltDefaults.update []) ρ "B" = 2.5 := by
  have e : feltDefaults.update [] = feltDefaults := rfl
  refine ⟨agreeing _ fun _ => 0, ?_, ?_, agreeing_agrees (mappars_nodup _ _) _, ?_⟩
  · rw [e]
    refine NamesOK.of_simple (by simp [Dict.keys, feltDefaults]) (by simp [feltDefaults])
      (by simp [Dict.keys, feltDefaults]) ?_
    simp [Dict.keys, feltDefaults]
  · rw [e]; simp [Indep, symbOf, form, feltDefaults]
  · rw [e]; simp [penv_cons, Arg.value, feltDefaults]

/-- **C50** (negative): the state of a saturating spring labelled `sat` has the name `xsat` of
a parameter and is replaced by it: the energy does not depend on the state. -/
theorem C50_label_clash (n1 n2 : String) (ctrl : Ctrl) (ρ : String → ℝ) (v v' : ℝ) :
    (springsat "sat" n1 n2 ctrl []).xs = ["xsat"] ∧
    (springsat "sat" n1 n2 ctrl []).energy ρ "xsat" v =
      (springsat "sat" n1 n2 ctrl []).energy ρ "xsat" v' := by
  refine ⟨rfl, ?_⟩
  have e : (mappars "sat" (satDefaults.update [])).dicpars =
      [("K0", s "sat_K0"), ("Ksat", s "sat_Ksat"), ("xsat", s "sat_xsat")] := by
    simp [mappars, satDefaults, Dict.update, Dict.set, Dict.keys, form]
  unfold Comp.energy val
  refine Expr.eval_congr realI _ fun t ht => ?_
  have : t ≠ "xsat" := by
    rintro rfl
    have ht' : "xsat" ∈ (Expr.subsDict (mappars "sat" (satDefaults.update [])).dicpars _).free := ht
    rw [e] at ht'
    rcases Expr.mem_free_subsDict ht' with h | h
    · simp at h
    · simp [Expr.free] at h
  rw [update_of_ne this, update_of_ne this]

end Compo
end Pyphs
