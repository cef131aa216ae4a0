/-
C49: instances of the theorems on dissipative components, and the triode.
-/
import Verif.Compo.DissProps
import Mathlib.Analysis.SpecialFunctions.Trigonometric.DerivHyp
import Mathlib.Topology.Order.OrderClosed

namespace Pyphs
namespace Compo
open Sym Function

/-! ### There are values that agree with the substitutions of any component -/

theorem nodup_set {d : Dict ℝ} {x : String} {v : ℝ} (h : (Dict.keys d).Nodup) :
    (Dict.keys (d.set x v)).Nodup := by
  unfold Dict.set
  split
  · have : Dict.keys (d.map fun p => if p.1 = x then (x, v) else p) = Dict.keys d := by
      unfold Dict.keys
      rw [List.map_map]
      refine List.map_congr_left fun p _ => ?_
      by_cases hp : p.1 = x
      · simp [hp]
      · simp [hp]
    rw [this]; exact h
  · rename_i hk
    simp only [Dict.keys, List.map_append, List.map_cons, List.map_nil]
    exact List.Nodup.append h (by simp) (by
      rw [List.disjoint_singleton]; exact hk)

theorem nodup_update {d d' : Dict ℝ} (h : (Dict.keys d).Nodup) :
    (Dict.keys (d.update d')).Nodup := by
  unfold Dict.update
  induction d' generalizing d with
  | nil => exact h
  | cons a d' ih => exact ih (nodup_set h)

theorem mappars_nodup (label : String) (kw : Dict Arg) :
    (Dict.keys (mappars label kw).subs).Nodup := by
  rw [mappars_eq]
  induction kw using List.reverseRecOn with
  | nil => simp [Dict.keys]
  | append_singleton kw a ih =>
    rw [List.foldl_append]
    exact nodup_update ih

theorem penv_cons (x : String) (a : Arg) (kw : Dict Arg) (ρ : String → ℝ) (y : String) :
    penv ((x, a) :: kw) ρ y = if y = x then a.value ρ else penv kw ρ y := by
  unfold penv
  rw [List.lookup_cons]
  by_cases h : y = x
  · subst h; simp
  · have : (y == x) = false := by simpa using h
    simp [this, h]

/-- Values that agree with a dictionary, those of the other symbols being given by `ρ`. -/
noncomputable def agreeing (d : Dict ℝ) (ρ : String → ℝ) : String → ℝ := fun x =>
  (d.lookup x).getD (ρ x)

theorem agreeing_agrees {d : Dict ℝ} (h : (Dict.keys d).Nodup) (ρ : String → ℝ) :
    Agrees (agreeing d ρ) d := by
  intro p hp
  unfold agreeing
  induction d with
  | nil => simp at hp
  | cons q d ih =>
    have hn := List.nodup_cons.1 (by simpa [Dict.keys] using h : (q.1 :: Dict.keys d).Nodup)
    rw [List.lookup_cons]
    rcases List.mem_cons.1 hp with rfl | hp
    · simp
    · have h1 : (p.1 == q.1) = false := by
        simpa using fun h0 : p.1 = q.1 => hn.1 (h0 ▸ List.mem_map_of_mem hp)
      rw [h1]
      exact ih hn.2 hp

/-- The hypotheses of `C49_diode` and `C49_diode_inverse` hold for a diode with the default
parameters. -/
example : ∃ ρ : String → ℝ,
    NamesOK "D1" (diodePars []) (diodeVars "D1") ∧ Indep "D1" (diodePars []) ("w" ++ "D1") ∧
    Agrees ρ (diode "D1" "A" "B" []).subs ∧
    0 < penv (diodePars []) ρ "Is" ∧ 0 < penv (diodePars []) ρ "mu" ∧
    0 < penv (diodePars []) ρ "v0" ∧ 0 < penv (diodePars []) ρ "R" := by
  have e : diodePars [] = [("Is", .num 2e-9), ("mu", .num 1.7), ("R", .num 0.5),
      ("v0", .num 26e-3), ("gmin", .named "gmin" GMIN)] := by
    simp [diodePars, diodeDefaults, Dict.update, Dict.set, Dict.keys]
  refine ⟨agreeing _ fun _ => 0, ?_, ?_, agreeing_agrees (mappars_nodup _ _) _, ?_⟩
  · rw [e]
    refine NamesOK.of_simple (by simp [Dict.keys]) (by simp) (by simp [Dict.keys]) ?_
    simp [diodeVars, Dict.keys]
  · rw [e]
    simp [Indep, symbOf, form]
  · rw [e]
    (simp [penv_cons, Arg.value] <;> norm_num)

/-- The hypotheses of `C49_bjt` hold for a transistor with the default parameters. -/
example : ∃ ρ : String → ℝ,
    NamesOK "Q" (bjtDefaults.update []) (bjtVars "Q") ∧
    Agrees ρ (bjt "Q" "B" "C" "E" []).subs ∧
    ∀ x ∈ ["Is", "mu", "Vt", "betaF", "betaR", "Rb", "Rc", "Re"],
      0 < penv (bjtDefaults.update []) ρ x := by
  have e : bjtDefaults.update [] = bjtDefaults := rfl
  refine ⟨agreeing _ fun _ => 0, ?_, agreeing_agrees (mappars_nodup _ _) _, ?_⟩
  · rw [e]
    refine NamesOK.of_simple (by simp [Dict.keys, bjtDefaults]) (by simp [bjtDefaults])
      (by simp [Dict.keys, bjtDefaults]) ?_
    simp [bjtVars, Dict.keys, bjtDefaults]
  · rw [e]
    intro x hx
    fin_cases hx <;> (simp [penv_cons, Arg.value, bjtDefaults] <;> norm_num)

/-- The hypotheses of `C49_potentiometer` hold for a position `alpha = 1/2`. -/
example : ∃ ρ : String → ℝ,
    NamesOK "P" (potDefaults.update []) ["w" ++ "P" ++ "1", "w" ++ "P" ++ "2"] ∧
    Agrees ρ (potentiometer "P" "A" "B" "C" []).subs ∧
    0 ≤ penv (potDefaults.update []) ρ "R" ∧ penv (potDefaults.update []) ρ "A" = 1 / 2 ∧
    0 ≤ penv (potDefaults.update []) ρ "E" := by
  have e : potDefaults.update [] = potDefaults := rfl
  refine ⟨agreeing (potentiometer "P" "A" "B" "C" []).subs fun _ => 1 / 2, ?_,
    agreeing_agrees (mappars_nodup _ _) _, ?_⟩
  · rw [e]
    refine NamesOK.of_simple (by simp [Dict.keys, potDefaults]) (by simp [potDefaults, Dict.keys])
      (by simp [Dict.keys, potDefaults]) ?_
    simp [Dict.keys, potDefaults]
  · rw [e]
    have h : (potentiometer "P" "A" "B" "C" []).subs = [("P_R", 1e5), ("P_E", 1)] := by
      simp [potentiometer, dissipativeNonLinear, mappars, e, potDefaults, form, Dict.update,
        Dict.set, Dict.keys]
    rw [h]
    (simp [penv_cons, List.lookup_cons, Arg.value, potDefaults, agreeing] <;> norm_num)

/-- The hypotheses of `C49_felt` hold for the default parameters. -/
example : ∃ ρ : String → ℝ,
    NamesOK "h" (feltDefaults.update []) ["q" ++ "h", "dtq" ++ "h"] ∧
    Agrees ρ (felt "h" "A" "B" []).subs ∧ 0 < penv (feltDefaults.update []) ρ "L" ∧
    0 ≤ penv (feltDefaults.update []) ρ "A" ∧ 1 < penv (feltDefaults.update []) ρ "B" := by
  have e : feltDefaults.update [] = feltDefaults := rfl
  refine ⟨agreeing _ fun _ => 0, ?_, agreeing_agrees (mappars_nodup _ _) _, ?_⟩
  · rw [e]
    refine NamesOK.of_simple (by simp [Dict.keys, feltDefaults]) (by simp [feltDefaults])
      (by simp [Dict.keys, feltDefaults]) ?_
    simp [Dict.keys, feltDefaults]
  · rw [e]
    (simp [penv_cons, Arg.value, feltDefaults] <;> norm_num)

/-! ### The triode is not passive -/

theorem continuous_tanh : Continuous Real.tanh := by
  have : Real.tanh = fun x => Real.sinh x / Real.cosh x := funext Real.tanh_eq_sinh_div_cosh
  rw [this]
  exact Real.continuous_sinh.div Real.continuous_cosh fun x => (Real.cosh_pos x).ne'

/-- **C49** (negative): whatever the parameters, a triode with plate at the potential of the
cathode and a slightly negative grid delivers power: the current of the grid is positive for
every grid voltage. -/
theorem C49_triode_active (label Nk Np Ng : String) (kw : Dict Arg) (ρ : String → ℝ)
    (hn : NamesOK label (triodeDefaults.update kw) ["w" ++ label ++ "pk", "w" ++ label ++ "gk"])
    (hi : Indep label (triodeDefaults.update kw) ("w" ++ label ++ "pk"))
    (hi' : Indep label (triodeDefaults.update kw) ("w" ++ label ++ "gk"))
    (ha : Agrees ρ (triode label Nk Np Ng kw).subs)
    (hx : penv (triodeDefaults.update kw) ρ "Ex" ≠ 0)
    (hR : 0 < penv (triodeDefaults.update kw) ρ "Rgk") :
    ∃ v < 0, powerE (update (update ρ ("w" ++ label ++ "pk") 0) ("w" ++ label ++ "gk") v)
      (triode label Nk Np Ng kw).edges < 0 := by
  set P := triodeDefaults.update kw with hP
  have hk : ∀ x ∈ ["Ex", "Va", "Rgk", "Kg", "Kp"], x ∈ Dict.keys P := by
    intro x hx
    refine mem_keys_of_default ?_
    fin_cases hx <;> simp [triodeDefaults, Dict.keys]
  have hne : "w" ++ label ++ "pk" ≠ "w" ++ label ++ "gk" := by
    intro h0
    have := congrArg String.toList h0
    simp [String.toList_append] at this
  set F : ℝ → ℝ := fun v => (1 + Real.tanh ((v - penv P ρ "Va") / GMIN)) / 2 / penv P ρ "Rgk" +
    v * GMIN with hF
  have hcont : Continuous F := by
    refine Continuous.add ?_ (continuous_id.mul continuous_const)
    refine Continuous.div_const (Continuous.div_const (Continuous.add continuous_const ?_) _) _
    exact continuous_tanh.comp ((continuous_id.sub continuous_const).div_const _)
  have h0 : 0 < F 0 := by
    have := Real.neg_one_lt_tanh ((0 - penv P ρ "Va") / GMIN)
    simp only [hF, zero_mul, add_zero]
    exact div_pos (by linarith) hR
  obtain ⟨δ, hδ, hball⟩ := Metric.isOpen_iff.1 (isOpen_lt continuous_const hcont : IsOpen {v | 0 < F v})
    0 h0
  have hpos : 0 < F (-(δ / 2)) := hball (by
    rw [Metric.mem_ball, Real.dist_eq]
    rw [sub_zero, abs_neg, abs_of_pos (by linarith)]
    linarith)
  refine ⟨-(δ / 2), by linarith, ?_⟩
  set v := -(δ / 2) with hv
  set ρ' := update (update ρ ("w" ++ label ++ "pk") 0) ("w" ++ label ++ "gk") v with hρ'
  have ha' : Agrees ρ' (mappars label P).subs := Agrees.update hi' (Agrees.update hi ha 0) v
  have hval : ∀ t : E, val ρ' (t.subsDict (mappars label P).dicpars) = val (penv P ρ') t :=
    val_mappars hn ha'
  have hpk : ρ' ("w" ++ label ++ "pk") = 0 := by simp [hρ', hne]
  have hgk : ρ' ("w" ++ label ++ "gk") = v := by simp [hρ']
  have e0 := penv_var (hn.vars _ (by simp : "w" ++ label ++ "pk" ∈ _)) ρ'
  have e1 := penv_var (hn.vars _ (by simp : "w" ++ label ++ "gk" ∈ _)) ρ'
  have pp : ∀ x ∈ Dict.keys P, penv P ρ' x = penv P ρ x := fun x hx => by
    rw [hρ', penv_indep hi' v hx, penv_indep hi 0 hx]
  have hE := pp "Ex" (hk _ (by simp))
  have hV := pp "Va" (hk _ (by simp))
  have hG := pp "Rgk" (hk _ (by simp))
  simp only [powerE, triode, dissipativeNonLinear, List.map_cons, List.map_nil, List.sum_cons,
    List.sum_nil, hpk, hgk, ← hP, zero_mul, zero_add, add_zero, hval]
  simp only [tsign, val_add, val_mul, val_div, val_sub, val_const, val_sym, val_tanh, e0, e1, hpk, hgk,
    hV, hG, zero_add]
  have : v * F v < 0 := mul_neg_of_neg_of_pos (by linarith) hpos
  simpa [hF] using this

/-- The hypotheses of `C49_triode_active` hold for the default parameters. -/
example : ∃ ρ : String → ℝ,
    NamesOK "T" (triodeDefaults.update []) ["w" ++ "T" ++ "pk", "w" ++ "T" ++ "gk"] ∧
    Indep "T" (triodeDefaults.update []) ("w" ++ "T" ++ "pk") ∧
    Indep "T" (triodeDefaults.update []) ("w" ++ "T" ++ "gk") ∧
    Agrees ρ (triode "T" "K" "P" "G" []).subs ∧
    penv (triodeDefaults.update []) ρ "Ex" ≠ 0 ∧ 0 < penv (triodeDefaults.update []) ρ "Rgk" := by
  have e : triodeDefaults.update [] = triodeDefaults := rfl
  refine ⟨agreeing _ fun _ => 0, ?_, ?_, ?_, agreeing_agrees (mappars_nodup _ _) _, ?_⟩
  · rw [e]
    refine NamesOK.of_simple (by simp [Dict.keys, triodeDefaults]) (by simp [triodeDefaults])
      (by simp [Dict.keys, triodeDefaults]) ?_
    simp [Dict.keys, triodeDefaults]
  · rw [e]; simp [Indep, symbOf, form, triodeDefaults]
  · rw [e]; simp [Indep, symbOf, form, triodeDefaults]
  · rw [e]
    (simp [penv_cons, Arg.value, triodeDefaults] <;> norm_num)

end Compo
end Pyphs
