/-
Properties C19 (continuous power balance), C58 (output function).
-/
import Verif.Core.ReduceProps
import Mathlib.Analysis.Calculus.FDeriv.Comp
import Mathlib.Analysis.Calculus.FDeriv.Pi
import Mathlib.Analysis.Calculus.Deriv.Basic
import Mathlib.Analysis.Calculus.Deriv.Comp
import Mathlib.Analysis.Calculus.Deriv.Pi
import Mathlib.Analysis.Calculus.FDeriv.Mul

namespace Pyphs
namespace Core
open Finset Mat

variable {K : Type} [Field K] [DecidableEq K]

/-! ### Specification -/

/-- Scalar product of two lists of values. -/
def ldot (a b : List K) : K := (List.zipWith (· * ·) a b).sum

/-- `b = M a` for lists of values. -/
def Solves (M : Mat K) (b a : List K) : Prop :=
  b.length = M.r ∧ a.length = M.c ∧ ∀ i < M.r, b.getD i 0 = M.mv (fun j => a.getD j 0) i

theorem ldot_eq (a b : List K) (h : a.length = b.length) :
    ldot a b = ∑ i ∈ range a.length, a.getD i 0 * b.getD i 0 := by
  induction a generalizing b with
  | nil => simp [ldot]
  | cons x a ih =>
    cases b with
    | nil => simp at h
    | cons y b =>
      have := ih b (by simpa using h)
      unfold ldot at this
      rw [List.length_cons, sum_range_succ']
      simp only [ldot, List.zipWith_cons_cons, List.sum_cons, this, List.getD_cons_succ,
        List.getD_cons_zero]
      ring

theorem ldot_append (a b a' b' : List K) (h : a.length = b.length) :
    ldot (a ++ a') (b ++ b') = ldot a b + ldot a' b' := by
  unfold ldot
  rw [List.zipWith_append h, List.sum_append]

/-! ### C19 -/

/-- **C19**: for any values satisfying the structure equations `b = M a`, with
`b = (dtx, w, y)` and `a = (dxH, z, u)`, the stored power `dxH·dtx`, the dissipated power
returned by `pd` and the port power `u·y` sum to zero. -/
theorem C19_balance (h2 : (2 : K) ≠ 0) (c : Core K) (hc : WF c) (dtx w y g z u : List K)
    (hg : g.length = dtx.length) (hz : z.length = w.length) (hu : u.length = y.length)
    (hs : Solves c.M (dtx ++ w ++ y) (g ++ z ++ u)) :
    ∃ p, c.pd w z g u = some p ∧ ldot g dtx + p + ldot u y = 0 := by
  obtain ⟨h1, h3, h4⟩ := hs
  have hsq : c.M.r = c.M.c := hc.Mr.trans hc.Mc.symm
  have hRc : c.R.c = c.M.c := rfl
  have hRr : c.R.r = c.M.r := rfl
  refine ⟨_, by unfold pd aVals; rw [if_neg (by rw [hRc]; simpa using h3)], ?_⟩
  have hq : c.M.quad (fun j => (g ++ z ++ u).getD j 0) =
      - c.R.quad (fun j => (g ++ z ++ u).getD j 0) :=
    C03_power h2 c hsq (fun j => (g ++ z ++ u).getD j 0)
  have e1 : c.M.quad (fun j => (g ++ z ++ u).getD j 0) =
      ldot (g ++ z ++ u) (dtx ++ w ++ y) := by
    rw [ldot_eq _ _ (by rw [h1, h3, hsq])]
    unfold quad dot
    rw [h3, ← hsq]
    exact sum_congr rfl fun i hi => by rw [h4 i (mem_range.1 hi)]
  rw [ldot_append _ _ _ _ (by simp [hg, hz]), ldot_append _ _ _ _ hg] at e1
  have e2 : c.R.quad (fun j => (g ++ z ++ u).getD j 0) =
      ∑ i ∈ range (g ++ z ++ u).length, (g ++ z ++ u).getD i 0 *
        c.R.mv (fun j => (g ++ z ++ u).getD j 0) i := by
    unfold quad dot
    rw [h3, hRr, hsq]
  rw [← e2]
  have e3 : (List.zipWith (· * ·) w z).sum = ldot z w := by
    unfold ldot
    rw [List.zipWith_comm]
    congr 2
    funext a b
    exact mul_comm _ _
  rw [e3]
  rw [e1] at hq
  linear_combination hq

/-- **C19**: with values of the lengths of the lists of the core, `pd` raises exactly when the
core has connectors that are not yet connected. -/
theorem C19_pd_error (c : Core K) (hc : WF c) (w z g u : List K) (hg : g.length = c.x.length)
    (hz : z.length = c.w.length) (hu : u.length = c.y.length) :
    c.pd w z g u = none ↔ c.cy ≠ [] := by
  have hRc : c.R.c = c.tot := hc.Mc
  unfold pd
  simp only [hRc, aVals, List.length_append, hg, hz, hu, tot]
  split_ifs with h
  · simp only [true_iff]
    intro h0; rw [h0] at h; simp at h
  · simp only [reduceCtorEq, false_iff, not_not]
    exact List.length_eq_zero_iff.1 (by omega)

/-- **C19**: the dissipated power is nonnegative as soon as the laws are passive (`z·w ≥ 0`)
and the structure is passive. -/
theorem C19_dissipated_nonneg {K : Type} [Field K] [LinearOrder K] [IsStrictOrderedRing K]
    (c : Core K) (hM : c.M.Passive) (w z g u : List K) (p : K) (h : c.pd w z g u = some p)
    (hzw : 0 ≤ ldot w z) : 0 ≤ p := by
  unfold pd at h
  dsimp only at h
  split_ifs at h with hl
  simp only [Option.some.injEq] at h
  subst h
  have hRc : c.R.c = c.M.c := rfl
  have h1 := hM.2 (fun j => (aVals g z u).getD j 0)
  have hq : c.M.quad (fun j => (aVals g z u).getD j 0) =
      - c.R.quad (fun j => (aVals g z u).getD j 0) :=
    C03_power two_ne_zero c hM.1 _
  push Not at hl
  have e2 : c.R.quad (fun j => (aVals g z u).getD j 0) =
      ∑ i ∈ range (aVals g z u).length, (aVals g z u).getD i 0 *
        c.R.mv (fun j => (aVals g z u).getD j 0) i := by
    unfold quad dot
    rw [hl, hRc, ← hM.1]
    rfl
  rw [← e2]
  unfold ldot at hzw
  linarith

/-- Environment `e` in which the states named `xs` have the values `v`. -/
def setVals (e : Env ℝ) (xs : List String) (v : Fin xs.length → ℝ) : Env ℝ :=
  fun p => if h : p ∈ xs then v ⟨xs.idxOf p, List.idxOf_lt_length_of_mem h⟩ else e p

open Classical in
/-- **C19**, along trajectories: for a core over the reals without pending connectors, if the
state follows `dx/dt = (M a)_x` with `a = (∇H(x), z, u)`, the energy satisfies
`dE/dt = - pd - u·y`. -/
theorem C19_energy_derivative (c : Core ℝ) (hc : WF c) (e : Env ℝ)
    (X : ℝ → Fin c.x.length → ℝ) (t : ℝ) (X' : Fin c.x.length → ℝ)
    (hX : HasDerivAt X X' t)
    (D : (Fin c.x.length → ℝ) →L[ℝ] ℝ)
    (hD : HasFDerivAt (fun v => c.H (setVals e c.x v)) D (X t))
    (w y z u : List ℝ) (hz : z.length = w.length) (hu : u.length = y.length)
    (hs : Solves c.M (List.ofFn X' ++ w ++ y)
      (List.ofFn (fun i => D (Pi.single i 1)) ++ z ++ u)) :
    ∃ p, c.pd w z (List.ofFn (fun i => D (Pi.single i 1))) u = some p ∧
      HasDerivAt (fun s => c.H (setVals e c.x (X s))) (- p - ldot u y) t := by
  obtain ⟨p, hp, hb⟩ := C19_balance two_ne_zero c hc (List.ofFn X') w y _ z u (by simp) hz hu hs
  refine ⟨p, hp, ?_⟩
  have h1 : HasDerivAt (fun s => c.H (setVals e c.x (X s))) (D X') t := by
    have := hD.comp_hasDerivAt t hX
    exact this
  have h2 : D X' = ldot (List.ofFn (fun i => D (Pi.single i 1))) (List.ofFn X') := by
    have e1 : X' = ∑ i, X' i • (Pi.single i (1 : ℝ) : Fin c.x.length → ℝ) := by
      funext j
      simp [Finset.sum_apply, Pi.single_apply]
    rw [ldot_eq _ _ (by simp)]
    conv_lhs => rw [e1]
    rw [map_sum, List.length_ofFn, ← Fin.sum_univ_eq_sum_range
      (fun i => (List.ofFn (fun i => D (Pi.single i 1))).getD i 0 * (List.ofFn X').getD i 0)]
    refine sum_congr rfl fun i _ => ?_
    rw [map_smul, smul_eq_mul, mul_comm]
    simp [List.getD_eq_getElem?_getD, List.getElem?_ofFn]
  rw [show - p - ldot u y = D X' by rw [h2]; linarith]
  exact h1

/-- Hypotheses are met: a mass with a damper driven by a port. -/
example : ∃ dtx w y g z u : List ℚ, g.length = dtx.length ∧ z.length = w.length ∧
    u.length = y.length ∧ Solves exForce.M (dtx ++ w ++ y) (g ++ z ++ u) ∧ ldot g dtx ≠ 0 :=
  ⟨[-46], [23], [-230], [3], [46], [4], rfl, rfl, rfl,
    ⟨rfl, rfl, by decide +kernel⟩, by decide +kernel⟩

/-! ### C58: outputs -/

/-- **C58**: `output()` returns the values of the outputs: in a core without pending
connectors, the list returned is the one which satisfies the output rows of the structure
equations. -/
theorem C58_output (c : Core K) (hc : WF c) (hcy : c.cy = []) (g z u : List K)
    (hg : g.length = c.x.length) (hz : z.length = c.w.length) (hu : u.length = c.y.length)
    (dtx w y : List K) (hx : dtx.length = c.x.length) (hw : w.length = c.w.length)
    (hs : Solves c.M (dtx ++ w ++ y) (g ++ z ++ u)) :
    c.output (fun i => g.getD i 0) (fun i => z.getD i 0) (fun i => u.getD i 0) = y := by
  obtain ⟨h1, h3, h4⟩ := hs
  have hy : y.length = c.y.length := by
    simp only [List.length_append, hc.Mr, tot, hcy, List.length_nil] at h1
    omega
  have ht : c.tot = c.x.length + c.w.length + c.y.length := by simp [tot, hcy]
  have hgm := fun b => getMat_shape c hc.Mr hc.Mc hc.xl hc.wl .M .y b
  have hdy : c.deb .y = c.x.length + c.w.length := by
    simp only [deb]; have := hc.xl; have := hc.wl; omega
  unfold output
  refine List.ext_getElem (by simp [hy]) fun i hi hi' => ?_
  simp only [List.getElem_map, List.getElem_range]
  have := h4 (c.x.length + c.w.length + i) (by rw [hc.Mr, ht]; omega)
  have ey : (dtx ++ w ++ y).getD (c.x.length + c.w.length + i) 0 = y[i] := by
    rw [List.getD_eq_getElem?_getD, List.getElem?_append_right (by simp; omega)]
    simp only [List.length_append, hx, hw, Nat.add_sub_cancel_left, List.getElem?_eq_getElem hi',
      Option.getD_some]
  rw [ey] at this
  rw [this]
  unfold mv
  rw [hc.Mc, ht, sum_range_add, sum_range_add]
  simp only [(hgm _).2, dim, getMat_e, hdy]
  have gx : ∀ j < c.x.length, (g ++ z ++ u).getD j 0 = g.getD j 0 := fun j hj => by
    simp only [List.getD_eq_getElem?_getD]
    rw [List.getElem?_append_left (by simp; omega), List.getElem?_append_left (by omega)]
  have gz : ∀ j < c.w.length, (g ++ z ++ u).getD (c.x.length + j) 0 = z.getD j 0 := fun j hj => by
    simp only [List.getD_eq_getElem?_getD]
    rw [List.getElem?_append_left (by simp; omega), List.getElem?_append_right (by omega)]
    rw [hg, Nat.add_sub_cancel_left]
  have gu : ∀ j < c.y.length, (g ++ z ++ u).getD (c.x.length + c.w.length + j) 0 = u.getD j 0 :=
    fun j hj => by
    simp only [List.getD_eq_getElem?_getD]
    rw [List.getElem?_append_right (by simp; omega)]
    simp only [List.length_append, hg, hz, Nat.add_sub_cancel_left]
  congr 1
  · congr 1
    · exact sum_congr rfl fun j hj => by
        rw [gx j (mem_range.1 hj)]; simp only [deb, Nat.zero_add]
    · exact sum_congr rfl fun j hj => by rw [gz j (mem_range.1 hj)]; simp only [deb]
  · exact sum_congr rfl fun j hj => by rw [gu j (mem_range.1 hj)]

/-- **C58**, disagreement with the docstring (output.py:15-19): the contribution `Mycy·cu` of
the pending connectors is missing from the returned expression. -/
theorem C58_connector_counterexample : ∃ c : Core ℚ, WF c ∧ ∃ β α : Env ℚ,
    StructEq c.labels c.M β α ∧ c.output (fun _ => 0) (fun _ => 0) (fun i => α (c.y.getD i "")) ≠
      c.y.map β := by
  refine ⟨{ (Core.empty : Core ℚ) with
    u := ["u"], y := ["y"], cu := ["cu"], cy := ["cy"]
    M := ⟨2, 2, fun i j => if i = 0 ∧ j = 1 then 1 else if i = 1 ∧ j = 0 then -1 else 0⟩ },
    ⟨rfl, rfl, rfl, rfl, rfl, by simp [Core.empty], by simp [Core.empty], by simp [Core.empty],
      by decide⟩, fun p => if p = "y" then 1 else 0, fun p => if p = "cy" then 1 else 0, ?_, ?_⟩
  · unfold StructEq; decide +kernel
  · decide +kernel

end Core
end Pyphs
