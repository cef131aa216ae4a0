/-
C52: thermal transfer.
-/
import Verif.Compo.StorProps

namespace Pyphs
namespace Compo
open Sym Function

/-- The variables of a transfer between the nodes `N1` and `N2`: the efforts of its two edges
and the temperatures of the nodes. -/
def transferVars (label N1 N2 : String) : List String :=
  ["w" ++ label ++ "_0", "w" ++ label ++ "_1", "gx" ++ N1, "gx" ++ N2]

/-- The two fluxes of the transfer, in the order of the edges, for the values `ρ` of the
symbols. -/
noncomputable def fluxes (c : Comp) (ρ : String → ℝ) : List ℝ := c.edges.map fun b => val ρ b.ze

/-- **C52**: both edges go from the datum to the thermal nodes and are effort controlled; the
fluxes leaving the nodes carry no net power; the entropy produced in the nodes is nonnegative,
and zero only at equal temperatures. -/
theorem C52_transfer (label N1 N2 : String) (kw : Dict Arg) (ρ : String → ℝ)
    (hn : NamesOK label kw (transferVars label N1 N2))
    (ha : Agrees ρ (transfer label N1 N2 kw).subs)
    (R : ℝ) (hR : penv kw ρ "R" = R) (hp : 0 < R) (T1 T2 : ℝ) (h1 : 0 < T1) (h2 : 0 < T2)
    (e1 : ρ ("w" ++ label ++ "_0") = T1) (e2 : ρ ("w" ++ label ++ "_1") = T2)
    (g1 : ρ ("gx" ++ N1) = T1) (g2 : ρ ("gx" ++ N2) = T2) :
    (transfer label N1 N2 kw).edges.map (fun b => (b.n1, b.n2, b.label, b.type, b.ctrl)) =
      [(datum, N1, "w" ++ label ++ "_0", .dissipative, .e),
       (datum, N2, "w" ++ label ++ "_1", .dissipative, .e)] ∧
    ∃ z1 z2, fluxes (transfer label N1 N2 kw) ρ = [z1, z2] ∧
      T1 * z1 + T2 * z2 = 0 ∧ T1 * z1 = R * (T1 - T2) ∧
      0 ≤ -z1 + -z2 ∧ (-z1 + -z2 = 0 ↔ T1 = T2) := by
  have v1 := penv_var (hn.vars ("w" ++ label ++ "_0") (by simp [transferVars])) ρ
  have v2 := penv_var (hn.vars ("w" ++ label ++ "_1") (by simp [transferVars])) ρ
  have v3 := penv_var (hn.vars ("gx" ++ N1) (by simp [transferVars])) ρ
  have v4 := penv_var (hn.vars ("gx" ++ N2) (by simp [transferVars])) ρ
  refine ⟨by simp [transfer, dissipativeNonLinear], R * (T1 - T2) / T1, R * (T2 - T1) / T2, ?_, ?_, ?_, ?_⟩
  · have q : ∀ t, val ρ (t.subsDict (mappars label kw).dicpars) = val (penv kw ρ) t :=
      fun t => val_mappars hn ha t
    simp only [fluxes, transfer, dissipativeNonLinear, List.map_cons, List.map_nil, q,
      val_mul, val_div, val_sub, val_sym, v1, v2, v3, v4, e1, e2, g1, g2, hR]
  · field_simp; ring
  · field_simp
  · have e : -(R * (T1 - T2) / T1) + -(R * (T2 - T1) / T2) = R * (T1 - T2) ^ 2 / (T1 * T2) := by
      field_simp; ring
    rw [e]
    refine ⟨by positivity, ?_⟩
    constructor
    · intro h
      have : R * (T1 - T2) ^ 2 = 0 := by
        rcases div_eq_zero_iff.1 h with h | h
        · exact h
        · exact absurd h (by positivity)
      have : (T1 - T2) ^ 2 = 0 := by
        rcases mul_eq_zero.1 this with h | h
        · exact absurd h hp.ne'
        · exact h
      have := pow_eq_zero_iff (two_ne_zero) |>.1 this
      linarith
    · rintro rfl; simp

/-- The hypotheses can be met. -/
example : ∃ ρ : String → ℝ,
    NamesOK "trans" [("R", .num 1000)] (transferVars "trans" "T1" "T2") ∧
    Agrees ρ (transfer "trans" "T1" "T2" [("R", .num 1000)]).subs ∧
    penv [("R", .num 1000)] ρ "R" = 1000 ∧
    ρ ("w" ++ "trans" ++ "_0") = 300 ∧ ρ ("w" ++ "trans" ++ "_1") = 280 ∧
    ρ ("gx" ++ "T1") = 300 ∧ ρ ("gx" ++ "T2") = 280 := by
  refine ⟨agreeing (mappars "trans" [("R", .num 1000)]).subs fun y =>
    if y = "wtrans_0" ∨ y = "gxT1" then 300 else 280, ?_, agreeing_agrees (mappars_nodup _ _) _, ?_⟩
  · refine NamesOK.of_simple (by simp [Dict.keys]) (by simp) (by simp [Dict.keys]) ?_
    simp [Dict.keys, transferVars]
  · simp [penv_cons, Arg.value, agreeing, mappars, Dict.set, Dict.update, Dict.keys, form,
      List.lookup]

/-- **C52**, along every trajectory: two thermal capacities at the nodes (law of
`C50_thermCapacitor`: temperature `T_i = T0_i exp(sigma_i / C_i)`, energy `C_i T_i`) linked by a
transfer, so that the flux `d sigma_i / dt` entering the capacity `i` is the opposite of the
flux of the edge `i`. The total energy is constant and the total entropy nondecreasing. -/
theorem C52_trajectory (label N1 N2 : String) (kw : Dict Arg) (ρ : ℝ → String → ℝ)
    (hn : NamesOK label kw (transferVars label N1 N2))
    (ha : ∀ t, 0 ≤ t → Agrees (ρ t) (transfer label N1 N2 kw).subs)
    (R : ℝ) (hR : ∀ t, 0 ≤ t → penv kw (ρ t) "R" = R) (hp : 0 < R)
    (C1 C2 A1 A2 : ℝ) (hC1 : 0 < C1) (hC2 : 0 < C2) (hA1 : 0 < A1) (hA2 : 0 < A2)
    (σ1 σ2 z1 z2 : ℝ → ℝ)
    (hw1 : ∀ t, 0 ≤ t → ρ t ("w" ++ label ++ "_0") = A1 * Real.exp (σ1 t / C1))
    (hw2 : ∀ t, 0 ≤ t → ρ t ("w" ++ label ++ "_1") = A2 * Real.exp (σ2 t / C2))
    (hg1 : ∀ t, 0 ≤ t → ρ t ("gx" ++ N1) = A1 * Real.exp (σ1 t / C1))
    (hg2 : ∀ t, 0 ≤ t → ρ t ("gx" ++ N2) = A2 * Real.exp (σ2 t / C2))
    (hz : ∀ t, 0 ≤ t → fluxes (transfer label N1 N2 kw) (ρ t) = [z1 t, z2 t])
    (d1 : ∀ t, 0 ≤ t → HasDerivAt σ1 (-(z1 t)) t) (d2 : ∀ t, 0 ≤ t → HasDerivAt σ2 (-(z2 t)) t) :
    (∀ s t, 0 ≤ s → s ≤ t →
      C1 * (A1 * Real.exp (σ1 t / C1)) + C2 * (A2 * Real.exp (σ2 t / C2)) =
      C1 * (A1 * Real.exp (σ1 s / C1)) + C2 * (A2 * Real.exp (σ2 s / C2))) ∧
    ∀ s t, 0 ≤ s → s ≤ t → σ1 s + σ2 s ≤ σ1 t + σ2 t := by
  have key := fun t (h : 0 ≤ t) => C52_transfer label N1 N2 kw (ρ t) hn (ha t h) R (hR t h) hp _ _
    (by positivity) (by positivity) (hw1 t h) (hw2 t h) (hg1 t h) (hg2 t h)
  have key' : ∀ t, 0 ≤ t →
      A1 * Real.exp (σ1 t / C1) * z1 t + A2 * Real.exp (σ2 t / C2) * z2 t = 0 ∧
      0 ≤ -(z1 t) + -(z2 t) := by
    intro t h
    obtain ⟨_, y1, y2, hy, k1, _, k3, _⟩ := key t h
    rw [hz t h] at hy
    simp only [List.cons.injEq, and_true] at hy
    rw [hy.1, hy.2]
    exact ⟨k1, k3⟩
  constructor
  · have hd : ∀ t, 0 ≤ t → HasDerivAt (fun t => C1 * (A1 * Real.exp (σ1 t / C1)) +
        C2 * (A2 * Real.exp (σ2 t / C2))) 0 t := by
      intro t h
      have a := ((((d1 t h).div_const C1).exp).const_mul A1).const_mul C1
      have b := ((((d2 t h).div_const C2).exp).const_mul A2).const_mul C2
      refine (a.add b).congr_deriv ?_
      have := (key' t h).1
      field_simp
      linarith
    intro s t hs hst
    refine constant_of_has_deriv_right_zero (a := s) (b := t)
      (f := fun t => C1 * (A1 * Real.exp (σ1 t / C1)) + C2 * (A2 * Real.exp (σ2 t / C2))) ?_ ?_ t
      ⟨hst, le_refl _⟩
    · exact fun u hu => (hd u (hs.trans hu.1)).continuousAt.continuousWithinAt
    · exact fun u hu => (hd u (hs.trans hu.1)).hasDerivWithinAt
  · have hm : MonotoneOn (fun t => σ1 t + σ2 t) (Set.Ici 0) := by
      have hd : ∀ t, 0 ≤ t → HasDerivAt (fun t => σ1 t + σ2 t) (-(z1 t) + -(z2 t)) t :=
        fun t h => (d1 t h).add (d2 t h)
      refine monotoneOn_of_deriv_nonneg (convex_Ici 0)
        (fun u hu => (hd u hu).continuousAt.continuousWithinAt)
        (fun u hu => (hd u (interior_subset hu)).differentiableAt.differentiableWithinAt)
        fun u hu => ?_
      rw [(hd u (interior_subset hu)).deriv]
      exact (key' u (interior_subset hu)).2
    exact fun s t hs hst => hm hs (hs.trans hst) hst

/-- The hypotheses of `C52_trajectory` can be met by a trajectory that is not at rest: the
temperatures `3 + exp(-2t)` and `3 - exp(-2t)`. -/
example : ∃ (ρ : ℝ → String → ℝ) (σ1 σ2 z1 z2 : ℝ → ℝ),
    (∀ t, Agrees (ρ t) (transfer "trans" "T1" "T2" [("R", .num 1)]).subs) ∧
    (∀ t, penv [("R", .num 1)] (ρ t) "R" = 1) ∧
    (∀ t, 0 ≤ t → ρ t ("w" ++ "trans" ++ "_0") = 1 * Real.exp (σ1 t / 1)) ∧
    (∀ t, 0 ≤ t → ρ t ("w" ++ "trans" ++ "_1") = 1 * Real.exp (σ2 t / 1)) ∧
    (∀ t, 0 ≤ t → ρ t ("gx" ++ "T1") = 1 * Real.exp (σ1 t / 1)) ∧
    (∀ t, 0 ≤ t → ρ t ("gx" ++ "T2") = 1 * Real.exp (σ2 t / 1)) ∧
    (∀ t, fluxes (transfer "trans" "T1" "T2" [("R", .num 1)]) (ρ t) = [z1 t, z2 t]) ∧
    (∀ t, 0 ≤ t → HasDerivAt σ1 (-(z1 t)) t) ∧ (∀ t, 0 ≤ t → HasDerivAt σ2 (-(z2 t)) t) := by
  have hA := fun ρ => agreeing_agrees (mappars_nodup "trans" [("R", .num 1)]) ρ
  have hn : NamesOK "trans" [("R", .num 1)] (transferVars "trans" "T1" "T2") := by
    refine NamesOK.of_simple (by simp [Dict.keys]) (by simp) (by simp [Dict.keys]) ?_
    simp [Dict.keys, transferVars]
  have q1 : ∀ t : ℝ, 0 < 3 + Real.exp (-2 * t) := fun t => by positivity
  have q2 : ∀ t : ℝ, 0 ≤ t → 0 < 3 - Real.exp (-2 * t) := fun t h => by
    have : Real.exp (-2 * t) ≤ 1 := Real.exp_le_one_iff.2 (by linarith)
    linarith
  have de : ∀ t : ℝ, HasDerivAt (fun t : ℝ => Real.exp (-2 * t)) (Real.exp (-2 * t) * -2) t := by
    intro t
    have := ((hasDerivAt_id t).const_mul (-2)).exp
    simpa using this
  refine ⟨fun t => agreeing (mappars "trans" [("R", .num 1)]).subs fun y =>
      if y = "wtrans_0" ∨ y = "gxT1" then 3 + Real.exp (-2 * t) else 3 - Real.exp (-2 * t),
    fun t => Real.log (3 + Real.exp (-2 * t)), fun t => Real.log (3 - Real.exp (-2 * t)),
    fun t => 1 * ((3 + Real.exp (-2 * t)) - (3 - Real.exp (-2 * t))) / (3 + Real.exp (-2 * t)),
    fun t => 1 * ((3 - Real.exp (-2 * t)) - (3 + Real.exp (-2 * t))) / (3 - Real.exp (-2 * t)),
    fun _ => hA _, ?_, ?_, ?_, ?_, ?_, ?_, ?_, ?_⟩
  · intro t; simp [penv_cons, Arg.value]
  · intro t _
    rw [div_one, one_mul, Real.exp_log (q1 t)]
    simp [agreeing, mappars, Dict.set, Dict.update, Dict.keys, form, List.lookup]
  · intro t ht
    rw [div_one, one_mul, Real.exp_log (q2 t ht)]
    simp [agreeing, mappars, Dict.set, Dict.update, Dict.keys, form, List.lookup]
  · intro t _
    rw [div_one, one_mul, Real.exp_log (q1 t)]
    simp [agreeing, mappars, Dict.set, Dict.update, Dict.keys, form, List.lookup]
  · intro t ht
    rw [div_one, one_mul, Real.exp_log (q2 t ht)]
    simp [agreeing, mappars, Dict.set, Dict.update, Dict.keys, form, List.lookup]
  · intro t
    have q := fun a => val_mappars hn (hA fun y =>
      if y = "wtrans_0" ∨ y = "gxT1" then 3 + Real.exp (-2 * t) else 3 - Real.exp (-2 * t)) a
    simp only [fluxes, transfer, dissipativeNonLinear, List.map_cons, List.map_nil, q,
      val_mul, val_div, val_sub, val_sym]
    simp [penv_cons, penv, agreeing, mappars, Dict.set, Dict.update, Dict.keys, form, List.lookup,
      Arg.value]
  · intro t _
    refine (((de t).const_add 3).log (q1 t).ne').congr_deriv ?_
    ring
  · intro t ht
    refine (((de t).const_sub 3).log (q2 t ht).ne').congr_deriv ?_
    ring

/-- The documentation gives `d sigma_i / dt = z_i`. With that sign the total entropy decreases
whenever the temperatures differ. -/
theorem C52_documented_sign (label N1 N2 : String) (kw : Dict Arg) (ρ : String → ℝ)
    (hn : NamesOK label kw (transferVars label N1 N2))
    (ha : Agrees ρ (transfer label N1 N2 kw).subs)
    (R : ℝ) (hR : penv kw ρ "R" = R) (hp : 0 < R) (T1 T2 : ℝ) (h1 : 0 < T1) (h2 : 0 < T2)
    (e1 : ρ ("w" ++ label ++ "_0") = T1) (e2 : ρ ("w" ++ label ++ "_1") = T2)
    (g1 : ρ ("gx" ++ N1) = T1) (g2 : ρ ("gx" ++ N2) = T2) (hne : T1 ≠ T2) :
    (fluxes (transfer label N1 N2 kw) ρ).sum < 0 := by
  obtain ⟨_, z1, z2, hz, _, _, h3, h4⟩ := C52_transfer label N1 N2 kw ρ hn ha R hR hp T1 T2 h1 h2
    e1 e2 g1 g2
  rw [hz]
  have : -z1 + -z2 ≠ 0 := fun h => hne (h4.1 h)
  have : 0 < -z1 + -z2 := lt_of_le_of_ne h3 (Ne.symm this)
  simp only [List.sum_cons, List.sum_nil, add_zero]
  linarith

end Compo
end Pyphs
