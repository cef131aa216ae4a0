/-
C78: the modes of the beam are exactly those of the wave numbers `root i / L`.
-/
import Verif.Beam.C77
import Verif.Beam.C78Examples
import Mathlib.Analysis.Calculus.MeanValue

namespace Pyphs
namespace Beam
open Real

/-- Two solutions of the bending equation: the concomitant is constant. -/
theorem concomitant {k : ℝ} {φ φ1 φ2 φ3 ψ ψ1 ψ2 ψ3 : ℝ → ℝ} (b : Bending k φ φ1 φ2 φ3)
    (b' : Bending k ψ ψ1 ψ2 ψ3) (x y : ℝ) :
    φ3 x * ψ x - φ2 x * ψ1 x + φ1 x * ψ2 x - φ x * ψ3 x =
      φ3 y * ψ y - φ2 y * ψ1 y + φ1 y * ψ2 y - φ y * ψ3 y := by
  have hd : ∀ x, HasDerivAt (fun x => φ3 x * ψ x - φ2 x * ψ1 x + φ1 x * ψ2 x - φ x * ψ3 x) 0 x := by
    intro x
    have := ((((b.d3 x).mul (b'.d0 x)).sub ((b.d2 x).mul (b'.d1 x))).add
      ((b.d1 x).mul (b'.d2 x))).sub ((b.d0 x).mul (b'.d3 x))
    refine this.congr_deriv ?_
    ring
  exact is_const_of_deriv_eq_zero (fun x => (hd x).differentiableAt) (fun x => (hd x).deriv) x y

/-- A clamped solution is a combination of two functions. -/
theorem clamped_form {k : ℝ} (hk : 0 < k) {φ φ1 φ2 φ3 : ℝ → ℝ} (b : Bending k φ φ1 φ2 φ3)
    (c : Clamped φ φ1) :
    φ = bend k (-(φ2 0 / (2 * k ^ 2))) (-(φ3 0 / (2 * k ^ 3))) (φ2 0 / (2 * k ^ 2)) (φ3 0 / (2 * k ^ 3)) := by
  funext x
  have hb := bend_bending k 0 (-1) 0 1
  have hs : Bending k (fun y => bend k 0 (-1) 0 1 (y - x)) _ _ _ :=
    ⟨fun y => (hb.d0 (y - x)).comp_sub_const y x, fun y => (hb.d1 (y - x)).comp_sub_const y x,
      fun y => (hb.d2 (y - x)).comp_sub_const y x, fun y => (hb.d3 (y - x)).comp_sub_const y x⟩
  have h := concomitant b hs x 0
  obtain ⟨c1, c2⟩ := c
  rw [c1, c2] at h
  simp [bend] at h ⊢
  field_simp
  linarith

/-- C78. `k` is the wave number of a mode of the clamped-free beam of length `L` if and only if it is one
of the numbers that `C78_waves` is about. -/
theorem C78_modes {L k : ℝ} (hk : 0 < k) (hL : 0 < L) : (∃ φ, Mode L k φ) ↔ ∃ i, k = root i / L := by
  have key : (∃ i, k = root i / L) ↔ chi (k * L) = 0 := by
    rw [C78_roots (by positivity)]
    refine exists_congr fun i => ?_
    rw [eq_div_iff hL.ne']
  rw [key]
  constructor
  · rintro ⟨φ, ⟨φ1, φ2, φ3, b, c, f⟩, u⟩
    have e := clamped_form hk b c
    set q := φ2 0 / (2 * k ^ 2)
    set p := φ3 0 / (2 * k ^ 3)
    have hb := bend_bending k (-q) (-p) q p
    have u1 : ∀ x, φ1 x = _ := fun x => (b.d0 x).unique (e ▸ hb.d0 x)
    have e1 : φ1 = _ := funext u1
    have u2 : ∀ x, φ2 x = _ := fun x => (b.d1 x).unique (e1 ▸ hb.d1 x)
    have e2 : φ2 = _ := funext u2
    have u3 : ∀ x, φ3 x = _ := fun x => (b.d2 x).unique (e2 ▸ hb.d2 x)
    obtain ⟨f2, f3⟩ := f
    rw [u2] at f2
    rw [u3] at f3
    have hc := cosh_sq (k * L)
    have hs := sin_sq_add_cos_sq (k * L)
    simp only [bend] at f2 f3
    have g2 : q * (cosh (k * L) + cos (k * L)) + p * (sinh (k * L) + sin (k * L)) = 0 := by
      have : k ^ 2 * (q * (cosh (k * L) + cos (k * L)) + p * (sinh (k * L) + sin (k * L))) = 0 := by
        linear_combination f2
      exact (mul_eq_zero.1 this).resolve_left (by positivity)
    have g3 : q * (sinh (k * L) - sin (k * L)) + p * (cosh (k * L) + cos (k * L)) = 0 := by
      have : k ^ 3 * (q * (sinh (k * L) - sin (k * L)) + p * (cosh (k * L) + cos (k * L))) = 0 := by
        linear_combination f3
      exact (mul_eq_zero.1 this).resolve_left (by positivity)
    have dq : q * (2 * chi (k * L)) = 0 := by
      unfold chi
      linear_combination (cosh (k * L) + cos (k * L)) * g2 - (sinh (k * L) + sin (k * L)) * g3 -
        q * hc - q * hs
    have dp : p * (2 * chi (k * L)) = 0 := by
      unfold chi
      linear_combination (cosh (k * L) + cos (k * L)) * g3 - (sinh (k * L) - sin (k * L)) * g2 -
        p * hc - p * hs
    by_contra hne
    have hq : q = 0 := (mul_eq_zero.1 dq).resolve_right (by simpa using hne)
    have hp : p = 0 := (mul_eq_zero.1 dp).resolve_right (by simpa using hne)
    rw [e, hq, hp] at u
    simp [bend] at u
  · intro h
    exact ⟨_, C77_mode hk hL h⟩

/-- Instances of C77: the modes of the beam of length `L` exist, are normalised and orthogonal, and
the coefficients of a contact are their projections. -/
theorem C77_instance {L : ℝ} (hL : 0 < L) (i j : ℕ) (hij : i ≠ j) :
    Mode L (root i / L) (modeShape L (root i / L)) ∧
    ∫ x in (0 : ℝ)..L, modeShape L (root i / L) x * modeShape L (root j / L) x = 0 := by
  have m : ∀ i, Mode L (root i / L) (modeShape L (root i / L)) := fun i =>
    C77_mode (div_pos (root_pos i) hL) hL (by
      rw [div_mul_cancel₀ _ hL.ne']
      exact root_zero i)
  refine ⟨m i, C77_orthogonal (m i) (m j) (div_pos (root_pos i) hL).le (div_pos (root_pos j) hL).le ?_⟩
  intro h
  exact hij (root_mono.injective ((div_left_inj' hL.ne').1 h))

/-- The contact of the default parameters: width 1.5 cm (here on a beam of length 1, first mode). -/
example (z : ℝ) : omegaCosine z 0.015 1 (root 0) = project z 0.015 (modeShape 1 (root 0)) := by
  have h := root_zero_near
  have hp := pi_gt_three
  exact C77_projection (root_pos 0) one_pos (by norm_num) (by intro e; linarith [h.2])

/-- Instance of `C78_length`: the first root is half way between two points of the grid. -/
theorem length_instance : ∃ f0 L, 0 < f0 ∧ firstWave f0 1 1 ≤ 1000000 ∧
    (∀ j < 10000000, ((j : ℕ) : ℝ) * (firstWave f0 1 1 * (10 / 9999999)) ≠ root 0) ∧
    beamLength f0 1 1 = some L ∧ 4 < L ∧ L < 5 := by
  have hr := root_pos 0
  have hn := root_zero_near
  have hp := pi_pos
  set k0 := root 0 * 9999999 / (10 * 4500000.5) with hk0
  have hpos : 0 < k0 := by positivity
  have hfw : firstWave (k0 ^ 2 / (2 * π)) 1 1 = k0 := by
    unfold firstWave
    rw [mul_div_cancel₀ _ (by positivity), mul_one, div_one, ← pow_mul, ← rpow_natCast,
      ← rpow_mul hpos.le]
    norm_num
  have hle : firstWave (k0 ^ 2 / (2 * π)) 1 1 ≤ 1000000 := by rw [hfw, hk0]; norm_num; linarith
  have hno : ∀ j < 10000000,
      ((j : ℕ) : ℝ) * (firstWave (k0 ^ 2 / (2 * π)) 1 1 * (10 / 9999999)) ≠ root 0 := by
      intro j _ e
      rw [hfw, hk0] at e
      have e1 : (j : ℝ) * (root 0 * 9999999 / (10 * 4500000.5) * (10 / 9999999)) =
        root 0 * (2 * j / 9000001) := by norm_num; ring
      rw [e1] at e
      have e2 : (2 * j / 9000001 : ℝ) = 1 := by
        have : root 0 * (2 * j / 9000001 - 1) = 0 := by linarith
        have := (mul_eq_zero.1 this).resolve_left hr.ne'
        linarith
      rw [div_eq_one_iff_eq (by norm_num)] at e2
      have e3 : 2 * j = 9000001 := by exact_mod_cast e2
      omega
  obtain ⟨Ls, h0, h1, h2, -⟩ := C78_length (f0 := k0 ^ 2 / (2 * π)) (Kb := 1) (Mb := 1) (by positivity)
    one_pos one_pos hle hno
  have hLs : Ls = 10 * 4500000.5 / 9999999 := by
    unfold frequency at h1
    have hq : 0 < root 0 / Ls := by positivity
    have e : √((root 0 / Ls) ^ 4 * 1 / 1) = (root 0 / Ls) ^ 2 := by
      rw [mul_one, div_one, show (root 0 / Ls) ^ 4 = ((root 0 / Ls) ^ 2) ^ 2 by ring, sqrt_sq (by positivity)]
    rw [e, div_left_inj' (by positivity)] at h1
    have h3 := (pow_left_inj₀ hq.le hpos.le (by norm_num : (2 : ℕ) ≠ 0)).1 h1
    rw [hk0] at h3
    field_simp at h3
    norm_num at h3 ⊢
    linarith
  obtain ⟨L, a, b, c⟩ := h2 (by rw [hLs]; norm_num)
  refine ⟨_, L, by positivity, hle, hno, a, ?_, ?_⟩
  · rw [hLs] at c
    norm_num at c
    linarith
  · rw [hLs] at b
    norm_num at b
    linarith

end Beam
end Pyphs
