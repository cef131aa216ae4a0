/-
Quadratic energies: every rule of the numerical method is exact.
-/
import Verif.Scheme.BalanceProps

namespace Pyphs
namespace Circuit
open Scheme Core

/-- The energy of storages with constant coefficients: smooth, constant second derivatives, no term
that couples two states. -/
structure QuadEnergy (H : Sc) (xs : List String) : Prop where
  smooth : Smooth2 H xs
  const : ConstHess H xs
  cross : ∀ i ∈ xs, ∀ j ∈ xs, i ≠ j → ∀ e, pdiff (pdiff H i) j e = 0

theorem QuadEnergy.mono {H : Sc} {xs ys : List String} (h : QuadEnergy H xs)
    (hy : ∀ y ∈ ys, y ∈ xs) : QuadEnergy H ys where
  smooth := ⟨fun i hi => h.smooth.d1 i (hy i hi), fun i hi j hj => h.smooth.d2 i (hy i hi) j (hy j hj)⟩
  const := fun i hi j hj k hk => h.const i (hy i hi) j (hy j hj) k (hy k hk)
  cross := fun i hi j hj => h.cross i (hy i hi) j (hy j hj)

/-- One quadratic coordinate: the second-order expansion is exact. -/
theorem quad_coord {H : Sc} {x : String} (h : QuadEnergy H [x]) (e : Env ℝ) (d : ℝ) :
    H (Function.update e x (e x + d)) - H e =
      (pdiff H x e + 1 / 2 * pdiff (pdiff H x) x e * d) * d := by
  have := quad_moved h.smooth h.const e (fun _ => d) [x] (fun _ hh => hh) (by simp)
  have e1 : moved e (fun _ => d) [x] = Function.update e x (e x + d) := by
    funext s
    by_cases hs : s = x
    · subst hs; simp [moved]
    · simp [moved, hs]
  rw [e1] at this
  rw [this]
  simp only [List.map_cons, List.map_nil, List.sum_cons, List.sum_nil]
  ring

theorem quad_mono_exact {H : Sc} {xs : List String} (h : QuadEnergy H xs) (hnd : xs.Nodup)
    (tol : ℝ) (e : Env ℝ) : gdot (gradMono H xs tol) xs e = H (next e xs) - H e := by
  rw [next_eq, sep_moved (C16_separable_of_cross H xs h.smooth h.cross) e (incr e) xs
    (fun _ h => h) hnd]
  unfold gradMono
  rw [gdot_map]
  refine sum_map_congr fun x hx => ?_
  dsimp only
  rw [subs_single]
  have hq := quad_coord (h.mono (ys := [x]) (by simpa using hx)) e (e (dn x))
  simp only [incr]
  by_cases h0 : e (dn x) = 0
  · rw [h0]; simp
  · split_ifs
    · exact div_mul_cancel₀ _ h0
    · rw [hq]; norm_num
    · exact div_mul_cancel₀ _ h0

theorem quad_multi_exact {H : Sc} {xs : List String} (h : QuadEnergy H xs) (hnd : xs.Nodup)
    (tol : ℝ) (e : Env ℝ) : gdot (gradMulti H xs tol) xs e = H (next e xs) - H e := by
  by_cases hd : tol ^ 2 ≤ (xs.map fun x => e (dn x) ^ 2).sum
  · exact C17_exact H xs tol e (Or.inr hd)
  · have hm := C18_midpoint_exact H xs hnd h.smooth h.const e
    rw [← hm]
    have hl : (gradMulti H xs tol).length = xs.length := gradMulti_length H xs tol
    have hl' : (gradTheta H xs (1 / 2)).length = xs.length := by simp [gradTheta, gradient]
    rw [gdot_sum _ _ _ hl, gdot_sum _ _ _ hl']
    refine Finset.sum_congr rfl fun i hi => ?_
    have hi' := Finset.mem_range.1 hi
    congr 1
    have c1 := C17_midpoint H xs tol e (not_le.1 hd) i hi'
    have c2 : comp (gradTheta H xs (1 / 2)) i e =
        pdiff H xs[i] (fun s => if s ∈ xs then e s + e (dn s) / 2 else e s) := by
      unfold gradTheta gradient
      rw [List.map_map, comp_map _ _ hi', Function.comp_apply, subs_shift]
      refine congrArg _ ?_
      funext s; unfold moved incr
      split_ifs <;> ring
    exact c1.trans c2.symm

/-- Whatever the groups of states, the tolerance and the increments, the gradient of a quadratic
energy is exact, with the discrete gradient, the trapezoidal rule, and the midpoint rule. -/
theorem quad_gradient_exact {H : Sc} {g : Groups} (h : QuadEnergy H g.x) (hnd : g.x.Nodup)
    (kind : Grad) (θ tol : ℝ) (hθ : kind = .theta → θ = 1 / 2) (e : Env ℝ) :
    gdot (buildGradient H g kind θ tol) g.x e = H (next e g.x) - H e := by
  cases kind with
  | theta =>
    rw [hθ rfl]
    exact C18_midpoint_exact H g.x hnd h.smooth h.const e
  | trapez => exact C18_trapez_exact H g.x hnd h.smooth h.const e
  | discret =>
    have hx1 : ∀ i ∈ g.xl, i ∈ g.x := fun i h => by simp [Groups.x, h]
    have hx2 : ∀ i ∈ g.mono, i ∈ g.x := fun i h => by simp [Groups.x, h]
    have hx3 : ∀ i ∈ g.multi, i ∈ g.x := fun i h => by simp [Groups.x, h]
    have hnd2 : (g.xl ++ (g.mono ++ g.multi)).Nodup := by
      have := hnd; unfold Groups.x at this; rwa [List.append_assoc] at this
    have n1 := (List.nodup_append.1 hnd2).1
    have n23 := (List.nodup_append.1 hnd2).2.1
    have d1 : ∀ i ∈ g.xl, i ∉ g.mono ++ g.multi := fun i hi hj =>
      (List.nodup_append.1 hnd2).2.2 i hi i hj rfl
    have n2 := (List.nodup_append.1 n23).1
    have n3 := (List.nodup_append.1 n23).2.1
    have d2 : ∀ i ∈ g.mono, i ∉ g.multi := fun i hi hj =>
      (List.nodup_append.1 n23).2.2 i hi i hj rfl
    have E1 := C15_linear_exact H g n1 (h.mono hx1).smooth (h.mono hx1).const e
    have E2 := quad_mono_exact (h.mono hx2) n2 tol e
    have E3 := quad_multi_exact (h.mono hx3) n3 tol e
    have hb : buildGradient H g .discret θ tol =
        gradLin H g ++ (gradMono H g.mono tol ++ gradMulti H g.multi tol) := by
      simp [buildGradient]
    have hxx : g.x = g.xl ++ (g.mono ++ g.multi) := by simp [Groups.x]
    have hx23 : ∀ j ∈ g.mono ++ g.multi, j ∈ g.x := fun j hj => by
      rw [hxx]; exact List.mem_append_right _ hj
    have C1 := cross_moved (H := H) (xs := g.xl) (ys := g.mono ++ g.multi)
      (fun i hi => h.smooth.d1 i (hx1 i hi))
      (fun i hi j hj => h.smooth.d2 i (hx1 i hi) j (hx23 j hj))
      (fun i hi j hj => h.cross i (hx1 i hi) j (hx23 j hj) (fun hh => d1 i hi (hh ▸ hj)))
      d1 n1 n23 e (incr e)
    have C2 := cross_moved (H := H) (xs := g.mono) (ys := g.multi)
      (fun i hi => h.smooth.d1 i (hx2 i hi))
      (fun i hi j hj => h.smooth.d2 i (hx2 i hi) j (hx3 j hj))
      (fun i hi j hj => h.cross i (hx2 i hi) j (hx3 j hj) (fun hh => d2 i hi (hh ▸ hj)))
      d2 n2 n3 e (incr e)
    rw [hb, hxx, gdot_append _ _ _ _ (gradLin_length H g), gdot_append _ _ _ _
      (gradMono_length H g.mono tol), E1, E2, E3]
    simp only [next_eq]
    rw [← moved_append _ _ _ _ d1] at C1
    rw [← moved_append _ _ _ _ d2] at C2
    linarith

end Circuit
end Pyphs
