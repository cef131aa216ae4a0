/-
Equations `D v = M f(v) + b` with a structure `M` that creates no power and nondecreasing laws `f` have a
solution.
-/
import Mathlib.Analysis.InnerProductSpace.PiL2
import Mathlib.Topology.MetricSpace.Contracting
import Mathlib.Topology.Order.IntermediateValue
import Mathlib.Topology.MetricSpace.Sequences

namespace Pyphs
namespace Numeric
open Finset Filter Topology

/-- A scalar equation. -/
theorem scalar_root {f : ℝ → ℝ} (hf : Continuous f) (hm : Monotone f) {α β : ℝ} (hα : 0 < α)
    (hβ : 0 < β) (s : ℝ) : ∃ v, α * f v + β * v = s := by
  have hc : Continuous fun v => α * f v + β * v := by fun_prop
  have : Function.Surjective fun v => α * f v + β * v := by
    refine hc.surjective ?_ ?_
    · refine tendsto_atTop_mono' _ (f₁ := fun v => α * f 0 + β * v) ?_ ?_
      · filter_upwards [eventually_ge_atTop 0] with v hv
        have := mul_le_mul_of_nonneg_left (hm hv) hα.le
        linarith
      · exact tendsto_atTop_add_const_left _ _ (tendsto_id.const_mul_atTop hβ)
    · refine tendsto_atBot_mono' (β := ℝ) _ (?_ : ∀ᶠ v in atBot, α * f v + β * v ≤ α * f 0 + β * v) ?_
      · filter_upwards [eventually_le_atBot 0] with v hv
        have := mul_le_mul_of_nonneg_left (hm hv) hα.le
        linarith
      · exact tendsto_atBot_add_const_left _ _ (tendsto_id.const_mul_atBot hβ)
  exact this s

variable {n : ℕ} {M : Fin n → Fin n → ℝ} {D : Fin n → ℝ} {f : Fin n → ℝ → ℝ}

/-- With a regularization `μ`. -/
theorem solution_reg (hM : ∀ a : Fin n → ℝ, ∑ i, a i * ∑ j, M i j * a j ≤ 0) (hD : ∀ i, 0 < D i)
    (hf : ∀ i, Continuous (f i)) (hm : ∀ i, Monotone (f i)) (b : Fin n → ℝ) {μ : ℝ} (hμ : 0 < μ) :
    ∃ v : Fin n → ℝ, ∀ i, D i * v i + μ * f i (v i) = ∑ j, M i j * f j (v j) + b i := by
  set K : ℝ := ∑ i, ∑ j, M i j ^ 2 with hK
  have hK0 : 0 ≤ K := sum_nonneg fun i _ => sum_nonneg fun j _ => sq_nonneg _
  set l : ℝ := μ / (K + 1) with hl
  have hl0 : 0 < l := div_pos hμ (by linarith)
  have hlK : l * (K + 1) = μ := by rw [hl]; field_simp
  have ha : 0 < 1 + l * μ := by positivity
  choose R hR using fun i s => scalar_root (hf i) (hm i) ha (mul_pos hl0 (hD i)) s
  -- the resolvent brings points closer
  have hres : ∀ i s t, (1 + l * μ) ^ 2 * (f i (R i s) - f i (R i t)) ^ 2 ≤ (s - t) ^ 2 := by
    intro i s t
    have e1 := hR i s
    have e2 := hR i t
    have hp : 0 ≤ (f i (R i s) - f i (R i t)) * (R i s - R i t) := by
      rcases le_total (R i s) (R i t) with q | q
      · exact mul_nonneg_of_nonpos_of_nonpos (by linarith [hm i q]) (by linarith)
      · exact mul_nonneg (by linarith [hm i q]) (by linarith)
    have hst : s - t = (1 + l * μ) * (f i (R i s) - f i (R i t)) + l * D i * (R i s - R i t) := by
      linarith
    rw [hst]
    have h2 : 0 ≤ (1 + l * μ) * (l * D i) * ((f i (R i s) - f i (R i t)) * (R i s - R i t)) :=
      mul_nonneg (mul_nonneg ha.le (mul_pos hl0 (hD i)).le) hp
    nlinarith [sq_nonneg (l * D i * (R i s - R i t))]
  set T : EuclideanSpace ℝ (Fin n) → EuclideanSpace ℝ (Fin n) := fun a =>
    WithLp.toLp 2 fun i => f i (R i (a i + l * (∑ j, M i j * a j + b i))) with hT
  set q : ℝ := (1 + l ^ 2 * K) / (1 + l * μ) ^ 2 with hq
  have hq0 : 0 ≤ q := by positivity
  have hq1 : q < 1 := by
    rw [hq, div_lt_one (by positivity)]
    have h1 : l ^ 2 * K ≤ l * μ := by
      rw [← hlK]; nlinarith
    have h2 : 0 < l * μ := mul_pos hl0 hμ
    nlinarith
  have hstep : ∀ a a' : EuclideanSpace ℝ (Fin n),
      ∑ i, (T a i - T a' i) ^ 2 ≤ q * ∑ i, (a i - a' i) ^ 2 := by
    intro a a'
    rw [hq, div_mul_eq_mul_div, le_div_iff₀ (by positivity), mul_comm, mul_sum]
    set d : Fin n → ℝ := fun i => a i - a' i with hd
    have h1 : ∀ i, (1 + l * μ) ^ 2 * (T a i - T a' i) ^ 2 ≤ (d i + l * ∑ j, M i j * d j) ^ 2 := by
      intro i
      refine (hres i _ _).trans (le_of_eq ?_)
      have : ∑ j, M i j * d j = ∑ j, M i j * a j - ∑ j, M i j * a' j := by
        rw [← sum_sub_distrib]; exact sum_congr rfl fun j _ => by rw [hd]; ring
      rw [this, hd]; ring
    have h2 : ∑ i, (∑ j, M i j * d j) ^ 2 ≤ K * ∑ i, d i ^ 2 := by
      rw [hK, sum_mul]
      exact sum_le_sum fun i _ => sum_mul_sq_le_sq_mul_sq _ _ _
    have h3 := hM d
    calc ∑ i, (1 + l * μ) ^ 2 * (T a i - T a' i) ^ 2 ≤ ∑ i, (d i + l * ∑ j, M i j * d j) ^ 2 :=
          sum_le_sum fun i _ => h1 i
      _ = ∑ i, d i ^ 2 + 2 * l * ∑ i, d i * ∑ j, M i j * d j + l ^ 2 * ∑ i, (∑ j, M i j * d j) ^ 2 := by
          rw [mul_sum, mul_sum, ← sum_add_distrib, ← sum_add_distrib]
          exact sum_congr rfl fun i _ => by ring
      _ ≤ (1 + l ^ 2 * K) * ∑ i, d i ^ 2 := by
          have := mul_le_mul_of_nonneg_left h2 (sq_nonneg l)
          nlinarith
  have hcon : ContractingWith (Real.toNNReal (Real.sqrt q)) T := by
    refine ⟨?_, LipschitzWith.of_dist_le_mul fun a a' => ?_⟩
    · rw [← NNReal.coe_lt_coe, Real.coe_toNNReal _ (Real.sqrt_nonneg _), NNReal.coe_one]
      rw [Real.sqrt_lt' one_pos]; simpa using hq1
    · rw [Real.coe_toNNReal _ (Real.sqrt_nonneg _)]
      rw [EuclideanSpace.dist_eq, EuclideanSpace.dist_eq, ← Real.sqrt_mul hq0]
      refine Real.sqrt_le_sqrt ?_
      simp only [Real.dist_eq, sq_abs]
      exact hstep a a'
  have hfix := hcon.fixedPoint_isFixedPt
  set a := ContractingWith.fixedPoint T hcon with hadef
  have hai : ∀ i, a i = f i (R i (a i + l * (∑ j, M i j * a j + b i))) := fun i => by
    have := congrArg (fun z : EuclideanSpace ℝ (Fin n) => z i) hfix
    exact this.symm
  refine ⟨fun i => R i (a i + l * (∑ j, M i j * a j + b i)), fun i => ?_⟩
  have e := hR i (a i + l * (∑ j, M i j * a j + b i))
  simp only [← hai] at e ⊢
  refine mul_left_cancel₀ hl0.ne' ?_
  linarith

/-- A law that vanishes at `0`, times the distance to some point, is bounded below. -/
theorem mono_lower {g : ℝ → ℝ} (hm : Monotone g) (h0 : g 0 = 0) (c v : ℝ) :
    -(|g c| * |c|) ≤ g v * (v - c) := by
  have hb : 0 ≤ |g c| * |c| := by positivity
  rcases le_total 0 c with hc | hc
  · have gc : 0 ≤ g c := h0 ▸ hm hc
    rw [abs_of_nonneg hc, abs_of_nonneg gc] at *
    rcases le_total v 0 with hv | hv
    · have : g v ≤ 0 := h0 ▸ hm hv
      nlinarith
    · have gv : 0 ≤ g v := h0 ▸ hm hv
      rcases le_total v c with hvc | hvc
      · have := hm hvc
        nlinarith
      · nlinarith
  · have gc : g c ≤ 0 := h0 ▸ hm hc
    rw [abs_of_nonpos hc, abs_of_nonpos gc] at *
    rcases le_total 0 v with hv | hv
    · have : 0 ≤ g v := h0 ▸ hm hv
      nlinarith
    · have gv : g v ≤ 0 := h0 ▸ hm hv
      rcases le_total c v with hvc | hvc
      · have := hm hvc
        nlinarith
      · nlinarith

/-- Existence, for laws that vanish at `0`. -/
theorem solution_zero (hM : ∀ a : Fin n → ℝ, ∑ i, a i * ∑ j, M i j * a j ≤ 0) (hD : ∀ i, 0 < D i)
    (hf : ∀ i, Continuous (f i)) (hm : ∀ i, Monotone (f i)) (h0 : ∀ i, f i 0 = 0) (b : Fin n → ℝ) :
    ∃ v : Fin n → ℝ, ∀ i, D i * v i = ∑ j, M i j * f j (v j) + b i := by
  have hμ : ∀ k : ℕ, (0 : ℝ) < 1 / ((k : ℝ) + 1) := fun k => by positivity
  choose v hv using fun k : ℕ => solution_reg hM hD hf hm b (hμ k)
  set c : Fin n → ℝ := fun i => b i / D i with hc
  set B : ℝ := ∑ i, D i * (|f i (c i)| * |c i|) with hB
  have hBi : ∀ i, 0 ≤ D i * (|f i (c i)| * |c i|) := fun i => mul_nonneg (hD i).le (by positivity)
  -- the laws are bounded
  have hbd : ∀ k i, |f i (v k i)| ≤ B / D i + |f i (c i + 1)| + |f i (c i - 1)| := by
    intro k i
    have hlow : ∀ j, -(D j * (|f j (c j)| * |c j|)) ≤ f j (v k j) * (D j * v k j - b j) := fun j => by
      have h1 := mul_le_mul_of_nonneg_left (mono_lower (hm j) (h0 j) (c j) (v k j)) (hD j).le
      have h2 : D j * (f j (v k j) * (v k j - c j)) = f j (v k j) * (D j * v k j - b j) := by
        rw [hc]; have := (hD j).ne'; field_simp
      linarith
    have hsum : ∑ j, f j (v k j) * (D j * v k j - b j) ≤ 0 := by
      have e : ∀ j, f j (v k j) * (D j * v k j - b j) = f j (v k j) * ∑ p, M j p * f p (v k p) -
          1 / ((k : ℝ) + 1) * f j (v k j) ^ 2 := fun j => by
        have := hv k j
        rw [show D j * v k j - b j = ∑ p, M j p * f p (v k p) - 1 / ((k : ℝ) + 1) * f j (v k j) by
          linarith]
        ring
      rw [sum_congr rfl fun j _ => e j, sum_sub_distrib]
      have h1 := hM fun j => f j (v k j)
      have h2 : 0 ≤ ∑ j, 1 / ((k : ℝ) + 1) * f j (v k j) ^ 2 :=
        sum_nonneg fun j _ => mul_nonneg (hμ k).le (sq_nonneg _)
      linarith
    have hup : f i (v k i) * (D i * v k i - b i) ≤ B := by
      have h1 : ∑ j ∈ univ.erase i, f j (v k j) * (D j * v k j - b j) ≥
          ∑ j ∈ univ.erase i, -(D j * (|f j (c j)| * |c j|)) := sum_le_sum fun j _ => hlow j
      rw [sum_neg_distrib] at h1
      have h2 := add_sum_erase univ (fun j => f j (v k j) * (D j * v k j - b j)) (mem_univ i)
      have h3 := add_sum_erase univ (fun j => D j * (|f j (c j)| * |c j|)) (mem_univ i)
      have h4 := hBi i
      linarith
    have hlo : -B ≤ f i (v k i) * (D i * v k i - b i) :=
      (neg_le_neg (single_le_sum (f := fun j => D j * (|f j (c j)| * |c j|)) (fun j _ => hBi j)
        (mem_univ i))).trans (hlow i)
    have hB0 : 0 ≤ B := sum_nonneg fun j _ => hBi j
    have hbi : b i = D i * c i := by rw [hc]; have := (hD i).ne'; field_simp
    by_cases hfar : 1 ≤ |v k i - c i|
    · have h1 : |f i (v k i)| * |v k i - c i| * D i ≤ B := by
        rw [← abs_mul, show |f i (v k i) * (v k i - c i)| * D i = |f i (v k i) * (v k i - c i) * D i| by
          rw [abs_mul _ (D i), abs_of_pos (hD i)]]
        refine abs_le.2 ⟨?_, ?_⟩
        · have : f i (v k i) * (D i * v k i - b i) = f i (v k i) * (v k i - c i) * D i := by rw [hbi]; ring
          linarith
        · have : f i (v k i) * (D i * v k i - b i) = f i (v k i) * (v k i - c i) * D i := by rw [hbi]; ring
          linarith
      have h2 : |f i (v k i)| ≤ B / D i := by
        rw [le_div_iff₀ (hD i)]
        refine le_trans (mul_le_mul_of_nonneg_right ?_ (hD i).le) h1
        exact le_mul_of_one_le_right (abs_nonneg _) hfar
      have := abs_nonneg (f i (c i + 1))
      have := abs_nonneg (f i (c i - 1))
      linarith
    · push Not at hfar
      obtain ⟨h1, h2⟩ := abs_lt.1 hfar
      have q1 := hm i (show v k i ≤ c i + 1 by linarith)
      have q2 := hm i (show c i - 1 ≤ v k i by linarith)
      have q3 : 0 ≤ B / D i := div_nonneg hB0 (hD i).le
      have q4 := le_abs_self (f i (c i + 1))
      have q5 := neg_abs_le (f i (c i - 1))
      have q6 := abs_nonneg (f i (c i + 1))
      have q7 := abs_nonneg (f i (c i - 1))
      refine abs_le.2 ⟨by linarith, by linarith⟩
  set A : Fin n → ℝ := fun i => B / D i + |f i (c i + 1)| + |f i (c i - 1)| with hA
  set V : Fin n → ℝ := fun i => (∑ j, |M i j| * A j + |b i| + A i) / D i with hV
  have hvb : ∀ k i, |v k i| ≤ V i := by
    intro k i
    rw [hV, le_div_iff₀ (hD i)]
    have e := hv k i
    have h1 : |∑ j, M i j * f j (v k j)| ≤ ∑ j, |M i j| * A j :=
      (abs_sum_le_sum_abs _ _).trans (sum_le_sum fun j _ => by
        rw [abs_mul]; exact mul_le_mul_of_nonneg_left (hbd k j) (abs_nonneg _))
    have h2 : |1 / ((k : ℝ) + 1) * f i (v k i)| ≤ A i := by
      rw [abs_mul, abs_of_pos (hμ k)]
      have : 1 / ((k : ℝ) + 1) ≤ 1 := by
        rw [div_le_one (by positivity)]
        have : (0 : ℝ) ≤ k := Nat.cast_nonneg k
        linarith
      refine le_trans ?_ (hbd k i)
      exact mul_le_of_le_one_left (abs_nonneg _) this
    have h3 : |v k i| * D i = |∑ j, M i j * f j (v k j) + b i - 1 / ((k : ℝ) + 1) * f i (v k i)| := by
      rw [show |v k i| * D i = |v k i * D i| by rw [abs_mul _ (D i), abs_of_pos (hD i)]]
      congr 1; linarith
    rw [h3]
    refine (abs_sub _ _).trans (add_le_add ((abs_add_le _ _).trans (add_le_add h1 (le_refl _))) h2)
  have hin : ∀ k, v k ∈ Set.pi Set.univ fun i => Set.Icc (-V i) (V i) := fun k i _ => abs_le.1 (hvb k i)
  obtain ⟨w, -, φ, hφ, hw⟩ := (isCompact_univ_pi fun i => isCompact_Icc).tendsto_subseq hin
  refine ⟨w, fun i => ?_⟩
  have hwi : ∀ j, Tendsto (fun k => v (φ k) j) atTop (𝓝 (w j)) := fun j => (tendsto_pi_nhds.1 hw) j
  have hfi : ∀ j, Tendsto (fun k => f j (v (φ k) j)) atTop (𝓝 (f j (w j))) := fun j =>
    ((hf j).tendsto _).comp (hwi j)
  have h1 : Tendsto (fun k => D i * v (φ k) i + 1 / (((φ k : ℕ) : ℝ) + 1) * f i (v (φ k) i)) atTop
      (𝓝 (D i * w i + 0 * f i (w i))) :=
    ((hwi i).const_mul _).add
      ((tendsto_one_div_add_atTop_nhds_zero_nat.comp hφ.tendsto_atTop).mul (hfi i))
  have h2 : Tendsto (fun k => ∑ j, M i j * f j (v (φ k) j) + b i) atTop
      (𝓝 (∑ j, M i j * f j (w j) + b i)) :=
    (tendsto_finset_sum _ fun j _ => (hfi j).const_mul _).add_const _
  have h3 := tendsto_nhds_unique h1 (h2.congr fun k => (hv (φ k) i).symm)
  linarith

/-- Existence of a solution. -/
theorem solution_exists (hM : ∀ a : Fin n → ℝ, ∑ i, a i * ∑ j, M i j * a j ≤ 0) (hD : ∀ i, 0 < D i)
    (hf : ∀ i, Continuous (f i)) (hm : ∀ i, Monotone (f i)) (b : Fin n → ℝ) :
    ∃ v : Fin n → ℝ, ∀ i, D i * v i = ∑ j, M i j * f j (v j) + b i := by
  obtain ⟨v, hv⟩ := solution_zero (f := fun i t => f i t - f i 0) hM hD
    (fun i => (hf i).sub continuous_const) (fun i s t hst => sub_le_sub_right (hm i hst) _)
    (fun i => sub_self _) fun i => ∑ j, M i j * f j 0 + b i
  refine ⟨v, fun i => ?_⟩
  rw [hv i, ← add_assoc, ← sum_add_distrib]
  congr 1
  exact sum_congr rfl fun j _ => by ring

end Numeric
end Pyphs
