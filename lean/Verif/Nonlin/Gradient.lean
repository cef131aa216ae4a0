/-
The gradients of energies which are sums of functions of one state.
-/
import Verif.Nonlin.Spec
import Verif.Circuit.Unique
import Verif.System.Equations

namespace Pyphs
namespace Nonlin
open Scheme Core Circuit

/-- As a function of `x`, the energy is `h` up to a constant. -/
def SepAt (H : Sc) (x : String) (h : ℝ → ℝ) : Prop :=
  ∀ e t, H (Function.update e x t) = H e + h t - h (e x)

theorem SepAt.pdiff {H : Sc} {x : String} {h : ℝ → ℝ} (hs : SepAt H x h) :
    Scheme.pdiff H x = fun e => deriv h (e x) := by
  funext e
  unfold Scheme.pdiff
  have : (fun t => H (Function.update e x t)) = fun t => (H e + h t) - h (e x) := funext fun t => hs e t
  rw [this, deriv_sub_const, deriv_const_add]

theorem SepAt.pdiff2 {H : Sc} {x : String} {h : ℝ → ℝ} (hs : SepAt H x h) (y : String) (e : Env ℝ) :
    Scheme.pdiff (Scheme.pdiff H x) y e = if y = x then deriv (deriv h) (e x) else 0 := by
  rw [hs.pdiff]
  unfold Scheme.pdiff
  split_ifs with hy
  · subst hy
    simp only [Function.update_self]
  · simp only [Function.update_of_ne (Ne.symm hy), deriv_const]

theorem quad_deriv (k : ℝ) : deriv (fun t : ℝ => k * t ^ 2 / 2) = fun t => k * t := by
  funext t
  have : HasDerivAt (fun t : ℝ => k * t ^ 2 / 2) (k * ((2 : ℕ) * t ^ (2 - 1)) / 2) t :=
    ((hasDerivAt_pow 2 t).const_mul k).div_const 2
  rw [this.deriv]
  push_cast
  ring

theorem quad_deriv2 (k t : ℝ) : deriv (deriv fun t : ℝ => k * t ^ 2 / 2) t = k := by
  rw [quad_deriv]
  simp

theorem quad_of_sep {H : Sc} {xs : List String}
    (h : ∀ x ∈ xs, ∃ k : ℝ, SepAt H x fun t => k * t ^ 2 / 2) : QuadEnergy H xs where
  smooth := by
    refine ⟨fun i hi e => ?_, fun i hi j _ e => ?_⟩
    · obtain ⟨k, hk⟩ := h i hi
      have : (fun t => H (Function.update e i t)) = fun t => (H e + k * t ^ 2 / 2) - k * e i ^ 2 / 2 :=
        funext fun t => hk e t
      rw [this]
      fun_prop
    · obtain ⟨k, hk⟩ := h i hi
      rw [hk.pdiff, quad_deriv]
      by_cases hij : j = i
      · subst hij; simp only [Function.update_self]; fun_prop
      · simp only [Function.update_of_ne (Ne.symm hij)]; fun_prop
  const := by
    intro i hi j _ l _ e t
    obtain ⟨k, hk⟩ := h i hi
    rw [hk.pdiff2, hk.pdiff2, quad_deriv2, quad_deriv2]
  cross := by
    intro i hi j _ hij e
    obtain ⟨k, hk⟩ := h i hi
    rw [hk.pdiff2, if_neg (Ne.symm hij)]

theorem weight_discret (θ : ℝ) : weight .discret θ = 1 / 2 := if_neg (by decide)

theorem weight_trapez (θ : ℝ) : weight .trapez θ = 1 / 2 := if_neg (by decide)

/-- The slope of a quadratic energy. -/
theorem slope_quad {o : Rule} (ho : 0 < o.eps) (k x dx : ℝ) :
    o.slope (fun t => k * t ^ 2 / 2) (fun t => k * t) x dx = k * (x + weight o.kind o.θ * dx) := by
  obtain ⟨kind, θ, eps⟩ := o
  dsimp only at ho
  cases kind with
  | theta => simp [Rule.slope, weight]
  | trapez => simp only [Rule.slope, weight_trapez]; ring
  | discret =>
    have h1 : deriv (fun t : ℝ => k * t) x = k := by
      simp
    simp only [Rule.slope, weight_discret, h1]
    split_ifs with hc
    · ring
    · have h0 : dx ≠ 0 := by
        rintro rfl
        exact hc ⟨by linarith, ho⟩
      field_simp
      ring

theorem dn_ne_self (x : String) : dn x ≠ x := by
  intro h
  have := congrArg String.length h
  unfold dn at this
  rw [String.length_append] at this
  simp at this

/-- The gradient of a sum of functions of one state, when the group of states that are treated together, and
the group of states that are treated as linear, have quadratic energies. -/
theorem sep_gradient {H : Sc} {g : Groups} (hnd : g.x.Nodup) {o : Rule} (ho : 0 < o.eps) {hh : String → ℝ → ℝ}
    (hs : ∀ x ∈ g.x, SepAt H x (hh x))
    (hq : o.kind = .discret → ∀ x ∈ g.xl ++ g.multi, ∃ k : ℝ, hh x = fun t => k * t ^ 2 / 2) :
    buildGradient H g o.kind o.θ o.eps =
      g.x.map fun x e => o.slope (hh x) (deriv (hh x)) (e x) (e (dn x)) := by
  obtain ⟨kind, θ, eps⟩ := o
  dsimp only at ho hq ⊢
  have hmv : ∀ x ∈ g.x, ∀ e D, Scheme.pdiff H x (moved e D g.x) = deriv (hh x) (e x + D x) := by
    intro x hx e D
    rw [(hs x hx).pdiff]
    simp [moved, hx]
  cases kind with
  | theta =>
    simp only [buildGradient, gradTheta, gradient, List.map_map]
    refine List.map_congr_left fun x hx => funext fun e => ?_
    rw [Function.comp_apply, subs_shift, hmv x hx]
    rfl
  | trapez =>
    simp only [buildGradient, gradTrapez, gradient, List.map_map]
    refine List.map_congr_left fun x hx => funext fun e => ?_
    rw [Function.comp_apply, subs_shift, hmv x hx, (hs x hx).pdiff]
    simp only [Rule.slope, incr, one_mul]
    norm_num
    ring
  | discret =>
    have hx1 : ∀ i ∈ g.xl, i ∈ g.x := fun i h => by simp [Groups.x, h]
    have hx2 : ∀ i ∈ g.mono, i ∈ g.x := fun i h => by simp [Groups.x, h]
    have hx3 : ∀ i ∈ g.multi, i ∈ g.x := fun i h => by simp [Groups.x, h]
    have hnd' := hnd
    unfold Groups.x at hnd'
    have n1 := (List.nodup_append.1 (List.nodup_append.1 hnd').1).1
    have n3 := (List.nodup_append.1 hnd').2.1
    have ql : QuadEnergy H g.xl := quad_of_sep fun x hx => by
      obtain ⟨k, hk⟩ := hq rfl x (List.mem_append_left _ hx)
      exact ⟨k, hk ▸ hs x (hx1 x hx)⟩
    have qm : QuadEnergy H g.multi := quad_of_sep fun x hx => by
      obtain ⟨k, hk⟩ := hq rfl x (List.mem_append_right _ hx)
      exact ⟨k, hk ▸ hs x (hx3 x hx)⟩
    have hslope : ∀ x ∈ g.xl ++ g.multi, gradQuad H (1 / 2) x =
        fun e => (Rule.mk .discret θ eps).slope (hh x) (deriv (hh x)) (e x) (e (dn x)) := by
      intro x hx
      funext e
      obtain ⟨k, hk⟩ := hq rfl x hx
      have hx' : x ∈ g.x := by
        rcases List.mem_append.1 hx with h | h
        · exact hx1 x h
        · exact hx3 x h
      have hsx := hs x hx'
      rw [hk] at hsx
      rw [hk]
      unfold gradQuad
      rw [hsx.pdiff2, if_pos rfl, quad_deriv2, hsx.pdiff, quad_deriv]
      rw [slope_quad (o := ⟨.discret, θ, eps⟩) ho]
      simp only [weight_discret]
      ring
    have hl : gradLin H g = g.xl.map (gradQuad H (1 / 2)) := by
      rw [gradLin_eq]
      refine List.map_congr_left fun x hx => funext fun e => ?_
      rw [sum_single n1 hx _ fun y hy hne => by
        rw [ql.cross x hx y hy (Ne.symm hne), zero_mul]]
      rfl
    have hm : gradMono H g.mono eps = g.mono.map fun x e =>
        (Rule.mk .discret θ eps).slope (hh x) (deriv (hh x)) (e x) (e (dn x)) := by
      unfold gradMono
      refine List.map_congr_left fun x hx => funext fun e => ?_
      have hsx := hs x (hx2 x hx)
      dsimp only
      rw [subs_single, hsx, hsx.pdiff2, if_pos rfl, hsx.pdiff]
      simp only [Rule.slope]
      have h5 : (0.5 : ℝ) = 1 / 2 := by norm_num
      rw [h5]
      by_cases c1 : e (dn x) < -eps
      · rw [if_pos c1, if_neg fun hc => absurd c1 (not_lt.2 hc.1)]
        ring
      · rw [if_neg c1]
        by_cases c2 : e (dn x) < eps
        · rw [if_pos c2, if_pos ⟨not_lt.1 c1, c2⟩]
          ring
        · rw [if_neg c2, if_neg fun hc => c2 hc.2]
          ring
    show gradLin H g ++ gradMono H g.mono eps ++ gradMulti H g.multi eps = _
    rw [hl, hm, quad_multi qm n3, Groups.x, List.map_append, List.map_append]
    congr 1
    · congr 1
      exact List.map_congr_left fun x hx => hslope x (List.mem_append_left _ hx)
    · exact List.map_congr_left fun x hx => hslope x (List.mem_append_right _ hx)

/-- The slope is the same for a force which is the derivative of the energy where the rule uses it. -/
theorem slope_inside {o : Rule} {h f : ℝ → ℝ} {dom : Set ℝ} (hd : IsOpen dom)
    (hf : ∀ x ∈ dom, HasDerivAt h (f x) x) {x dx : ℝ} (hi : o.Inside dom x dx) :
    o.slope h (deriv h) x dx = o.slope h f x dx := by
  obtain ⟨kind, θ, eps⟩ := o
  cases kind with
  | theta => exact (hf _ hi).deriv
  | trapez =>
    show (_ + _) / 2 = (_ + _) / 2
    rw [(hf _ hi.1).deriv, (hf _ hi.2).deriv]
  | discret =>
    simp only [Rule.slope]
    split_ifs with hc
    · have hx : x ∈ dom := hi hc.1 hc.2
      have he : deriv h =ᶠ[nhds x] f :=
        Filter.eventually_of_mem (hd.mem_nhds hx) fun y hy => (hf y hy).deriv
      rw [(hf x hx).deriv, he.deriv_eq]
    · rfl

end Nonlin
end Pyphs
