/-
The gradients of quadratic energies.
-/
import Verif.Circuit.Quad

namespace Pyphs
namespace Circuit
open Scheme Core

/-- Weight of the increment in the gradient of a quadratic energy. -/
noncomputable def weight (kind : Grad) (θ : ℝ) : ℝ := if kind = .theta then θ else 1 / 2

/-- The derivative of a quadratic energy, at a point between the beginning and the end of the step. -/
noncomputable def gradQuad (H : Sc) (τ : ℝ) (x : String) : Sc := fun e =>
  pdiff H x e + τ * (pdiff (pdiff H x) x e * e (dn x))

theorem sum_single {l : List String} (hnd : l.Nodup) {x : String} (hx : x ∈ l) (f : String → ℝ)
    (h0 : ∀ y ∈ l, y ≠ x → f y = 0) : (l.map f).sum = f x := by
  induction l with
  | nil => cases hx
  | cons a l ih =>
    have hn := List.nodup_cons.1 hnd
    rw [List.map_cons, List.sum_cons]
    by_cases hax : x = a
    · subst hax
      have : (l.map f).sum = 0 := by
        refine List.sum_eq_zero fun v hv => ?_
        obtain ⟨y, hy, rfl⟩ := List.mem_map.1 hv
        exact h0 y (by simp [hy]) fun hh => hn.1 (hh ▸ hy)
      rw [this, add_zero]
    · have hx' : x ∈ l := by
        rcases List.mem_cons.1 hx with h | h
        · exact absurd h hax
        · exact h
      rw [ih hn.2 hx' fun y hy => h0 y (by simp [hy]), h0 a (by simp) (Ne.symm hax), zero_add]

theorem quad_pdiff_moved {H : Sc} {xs : List String} (h : QuadEnergy H xs) (hnd : xs.Nodup)
    {x : String} (hx : x ∈ xs) (e : Env ℝ) (D : String → ℝ) :
    pdiff H x (moved e D xs) = pdiff H x e + pdiff (pdiff H x) x e * D x := by
  rw [pdiff_moved h.smooth h.const hx e D xs (fun _ hh => hh) hnd,
    sum_single hnd hx _ fun y hy hne => by rw [h.cross x hx y hy (Ne.symm hne), zero_mul]]

theorem quad_theta {H : Sc} {xs : List String} (h : QuadEnergy H xs) (hnd : xs.Nodup) (θ : ℝ) :
    gradTheta H xs θ = xs.map (gradQuad H θ) := by
  unfold gradTheta gradient
  rw [List.map_map]
  refine List.map_congr_left fun x hx => funext fun e => ?_
  rw [Function.comp_apply, subs_shift, quad_pdiff_moved h hnd hx]
  unfold gradQuad incr
  ring

theorem quad_trapez {H : Sc} {xs : List String} (h : QuadEnergy H xs) (hnd : xs.Nodup) :
    gradTrapez H xs = xs.map (gradQuad H (1 / 2)) := by
  unfold gradTrapez gradient
  rw [List.map_map]
  refine List.map_congr_left fun x hx => funext fun e => ?_
  rw [Function.comp_apply, subs_shift, quad_pdiff_moved h hnd hx]
  unfold gradQuad incr
  norm_num
  ring

theorem quad_mono {H : Sc} {xs : List String} (h : QuadEnergy H xs) {tol : ℝ}
    (htol : 0 < tol) : gradMono H xs tol = xs.map (gradQuad H (1 / 2)) := by
  unfold gradMono
  refine List.map_congr_left fun x hx => funext fun e => ?_
  dsimp only
  rw [subs_single]
  have hq := quad_coord (h.mono (ys := [x]) (by simpa using hx)) e (e (dn x))
  have key : ¬ (-tol ≤ e (dn x) ∧ e (dn x) < tol) →
      (H (Function.update e x (e x + e (dn x))) - H e) / e (dn x) = gradQuad H (1 / 2) x e := by
    intro hc
    have h0 : e (dn x) ≠ 0 := fun h0 => hc (by rw [h0]; constructor <;> linarith)
    rw [hq, mul_div_cancel_right₀ _ h0]
    unfold gradQuad; ring
  split_ifs with h1 h2
  · exact key fun hh => absurd h1 (not_lt.2 hh.1)
  · unfold gradQuad; norm_num; ring
  · exact key fun hh => h2 hh.2

theorem quad_multi {H : Sc} {xs : List String} (h : QuadEnergy H xs) (hnd : xs.Nodup) (tol : ℝ) :
    gradMulti H xs tol = xs.map (gradQuad H (1 / 2)) := by
  have hm : ∀ e, ((xs.map fun x => gradQuad H (1 / 2) x e * e (dn x)).sum) = H (next e xs) - H e := by
    intro e
    have := C18_midpoint_exact H xs hnd h.smooth h.const e
    rw [quad_theta h hnd, gdot_map] at this
    exact this
  unfold gradMulti
  have h5 : (0.5 : ℝ) = 1 / 2 := by norm_num
  rw [h5, quad_theta h hnd]
  dsimp only
  rw [zip_map_self, List.map_map]
  refine List.map_congr_left fun x hx => funext fun e => ?_
  simp only [Function.comp_apply, List.map_map]
  have hs : subs (shift xs 1) H e = H (next e xs) := by
    rw [subs_shift, next_eq, moved_congr (D' := incr e) fun x _ => by ring]
  have hn : (List.map ((fun p : Sc × String => p.1 e * e (dn p.2)) ∘ fun x => (gradQuad H (1 / 2) x, x)) xs).sum =
      H (next e xs) - H e := hm e
  rw [hs, hn, sub_self, zero_div]
  simp

/-- The gradient of a quadratic energy, for any rule and any groups of states. -/
theorem quad_gradient {H : Sc} {g : Groups} (h : QuadEnergy H g.x) (hnd : g.x.Nodup) (kind : Grad)
    (θ : ℝ) {tol : ℝ} (htol : 0 < tol) :
    buildGradient H g kind θ tol = g.x.map (gradQuad H (weight kind θ)) := by
  cases kind with
  | theta => exact quad_theta h hnd θ
  | trapez => exact quad_trapez h hnd
  | discret =>
    have hx1 : ∀ i ∈ g.xl, i ∈ g.x := fun i h => by simp [Groups.x, h]
    have hx2 : ∀ i ∈ g.mono, i ∈ g.x := fun i h => by simp [Groups.x, h]
    have hx3 : ∀ i ∈ g.multi, i ∈ g.x := fun i h => by simp [Groups.x, h]
    have hnd' := hnd
    unfold Groups.x at hnd'
    have n1 := (List.nodup_append.1 (List.nodup_append.1 hnd').1).1
    have n3 := (List.nodup_append.1 hnd').2.1
    have hl : gradLin H g = g.xl.map (gradQuad H (1 / 2)) := by
      rw [gradLin_eq]
      refine List.map_congr_left fun x hx => funext fun e => ?_
      rw [sum_single n1 hx _ fun y hy hne => by
        rw [h.cross x (hx1 x hx) y (hx1 y hy) (Ne.symm hne), zero_mul]]
      rfl
    show gradLin H g ++ gradMono H g.mono tol ++ gradMulti H g.multi tol = _
    rw [hl, quad_mono (h.mono hx2) htol, quad_multi (h.mono hx3) n3, Groups.x, List.map_append,
      List.map_append]
    rfl

end Circuit
end Pyphs
