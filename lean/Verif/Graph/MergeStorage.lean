import Verif.Graph.MergeProps
import Mathlib.Analysis.Calculus.Deriv.Inverse
import Mathlib.Analysis.Calculus.Deriv.MeanValue
import Mathlib.Analysis.Calculus.MeanValue
import Mathlib.Topology.Order.MonotoneContinuity

/-!
# C45: storages

The energies are functions of one real variable, given by their derivatives `dxH`.
-/

namespace Pyphs
namespace Graph

/-- Contract of `sympy.integrate` on the functions of a list. -/
def Integrates (integ : (ℝ → ℝ) → ℝ → ℝ) (dxH : List (ℝ → ℝ)) : Prop :=
  ∀ f ∈ dxH, ∀ x, HasDerivAt (integ f) (f x) x

/-- A strictly convex energy: its derivative `f` has a positive derivative. -/
def Convex' (f : ℝ → ℝ) : Prop := ∀ x, ∃ s > 0, HasDerivAt f s x

theorem Convex'.strictMono {f : ℝ → ℝ} (h : Convex' f) : StrictMono f := by
  refine strictMono_of_deriv_pos fun x => ?_
  obtain ⟨s, hs, hd⟩ := h x
  rw [hd.deriv]; exact hs

/-- The inverse of such a function. -/
theorem Convex'.inverse {f g : ℝ → ℝ} (h : Convex' f) (hg : ∀ y, f (g y) = y) : Convex' g := by
  have hm := strictMono_inverse h.strictMono hg
  have hgf : ∀ x, g (f x) = x := fun x => h.strictMono.injective (hg _)
  have hc : Continuous g := hm.monotone.continuous_of_surjective fun x => ⟨f x, hgf x⟩
  intro y
  obtain ⟨s, hs, hd⟩ := h (g y)
  exact ⟨s⁻¹, inv_pos.2 hs, HasDerivAt.of_local_left_inverse hc.continuousAt hd hs.ne'
    (Filter.Eventually.of_forall hg)⟩

theorem hasDerivAt_total {fs : List (ℝ → ℝ)} (h : ∀ f ∈ fs, ∀ x, ∃ s, HasDerivAt f s x) (x : ℝ) :
    ∃ s, HasDerivAt (total fs) s x := by
  induction fs with
  | nil => exact ⟨0, hasDerivAt_const x 0⟩
  | cons f fs ih =>
    obtain ⟨s, hs⟩ := h f (by simp) x
    obtain ⟨t, ht⟩ := ih fun f hf => h f (by simp [hf])
    refine ⟨s + t, (hs.add ht).congr_of_eventuallyEq (Filter.Eventually.of_forall fun v => ?_)⟩
    simp [total]

theorem Convex'.total {fs : List (ℝ → ℝ)} (hne : fs ≠ []) (h : ∀ f ∈ fs, Convex' f) :
    Convex' (total fs) := by
  intro x
  induction fs with
  | nil => exact absurd rfl hne
  | cons f fs ih =>
    obtain ⟨s, hs, hd⟩ := h f (by simp) x
    by_cases hn : fs = []
    · subst hn
      refine ⟨s, hs, hd.congr_of_eventuallyEq (Filter.Eventually.of_forall fun v => ?_)⟩
      simp [Graph.total]
    · obtain ⟨t, ht, hd'⟩ := ih hn fun f hf => h f (by simp [hf])
      refine ⟨s + t, by linarith,
        (hd.add hd').congr_of_eventuallyEq (Filter.Eventually.of_forall fun v => ?_)⟩
      simp [Graph.total]

/-- Derivative of the sum of energies at states given by functions `g n (q X)`. -/
theorem deriv_energies {integ : (ℝ → ℝ) → ℝ → ℝ} {q : ℝ → ℝ} {qs X : ℝ}
    (hq : HasDerivAt q qs X) : ∀ {dxH gs : List (ℝ → ℝ)}, Integrates integ dxH →
    List.Forall₂ (fun f g => ∀ y, f (g y) = y) dxH gs →
    (∀ g ∈ gs, ∀ y, ∃ s, HasDerivAt g s y) → ∃ t, HasDerivAt (total gs) t (q X) ∧
    HasDerivAt (fun X => (List.zipWith (fun dh idh => integ dh (idh (q X))) dxH gs).sum)
      (q X * (t * qs)) X := by
  intro dxH gs hi hr hg
  induction hr with
  | nil => exact ⟨0, hasDerivAt_const _ 0, by simpa using hasDerivAt_const X (0:ℝ)⟩
  | @cons f g dxH gs hfg _ ih =>
    obtain ⟨t, ht, hd⟩ := ih (fun f hf => hi f (by simp [hf])) fun g h => hg g (by simp [h])
    obtain ⟨s, hs⟩ := hg g (by simp) (q X)
    refine ⟨s + t, ?_, ?_⟩
    · refine (hs.add ht).congr_of_eventuallyEq (Filter.Eventually.of_forall fun v => ?_)
      simp [total]
    · have h1 : HasDerivAt (fun X => integ f (g (q X))) (f (g (q X)) * (s * qs)) X :=
        (hi f (by simp) (g (q X))).comp X (hs.comp X hq)
      rw [hfg] at h1
      have := h1.add hd
      have e : q X * ((s + t) * qs) = q X * (s * qs) + q X * (t * qs) := by ring
      rw [e]
      refine this.congr_of_eventuallyEq (Filter.Eventually.of_forall fun v => ?_)
      simp

/-- C45. Storages with a common effort variable (same gradient, states add), strictly convex
energies. For the merged energy `newH` and every merged state `X`:
* states of the components with a common gradient `Y` and the sum `X` exist and are unique;
* the gradient of `newH` at `X` is that common gradient;
* `newH X` is the sum of the energies of the components at these states. -/
theorem C45_storage_nonreal {solve : Solver ℝ} (hs : solve.Sound) {integ : (ℝ → ℝ) → ℝ → ℝ}
    {dxH : List (ℝ → ℝ)} (hi : Integrates integ dxH) (hc : ∀ f ∈ dxH, Convex' f)
    {newH iQ : ℝ → ℝ} (h : nonrealStor solve integ dxH = some (newH, iQ)) (X : ℝ) :
    ∃ xs Y, xs.sum = X ∧ List.Forall₂ (fun f x => f x = Y) dxH xs ∧
      HasDerivAt newH Y X ∧ newH X = (List.zipWith integ dxH xs).sum ∧
      ∀ xs' Y', xs'.sum = X → List.Forall₂ (fun f x => f x = Y') dxH xs' → xs' = xs ∧ Y' = Y := by
  obtain ⟨gs, h1, h'⟩ := Option.bind_eq_some_iff.1 h
  clear h
  obtain ⟨iQ', h2, h''⟩ := Option.bind_eq_some_iff.1 h'
  clear h'
  obtain ⟨h3, h4⟩ := Prod.mk.inj (Option.some.inj h'')
  clear h''
  subst h4
  subst h3
  have hr := right_inverses hs h1
  have hQ := hs _ _ h2
  have hgc : ∀ g ∈ gs, Convex' g := by
    clear h1 h2 hQ hi
    induction hr with
    | nil => simp
    | @cons f g dxH gs hfg _ ih =>
      intro x hx
      rcases List.mem_cons.1 hx with rfl | hx
      · exact (hc f (by simp)).inverse hfg
      · exact ih (fun f hf => hc f (by simp [hf])) x hx
  have hne : gs ≠ [] := by
    rintro rfl
    have := hQ 1
    simp [total] at this
  have hT := Convex'.total hne hgc
  obtain ⟨qs, hqs, hq⟩ := hT.inverse hQ X
  obtain ⟨t, ht, hd⟩ := deriv_energies hq hi hr fun g hg y => by
    obtain ⟨s, _, hs⟩ := hgc g hg y; exact ⟨s, hs⟩
  have htq : t * qs = 1 := by
    have h5 : HasDerivAt (fun X => total gs (iQ' X)) (t * qs) X := ht.comp X hq
    have h6 : HasDerivAt (fun X => total gs (iQ' X)) 1 X :=
      (hasDerivAt_id X).congr_of_eventuallyEq (Filter.Eventually.of_forall hQ)
    exact h5.unique h6
  rw [htq, mul_one] at hd
  refine ⟨gs.map (fun g : ℝ → ℝ => g (iQ' X)), iQ' X, hQ X, ?_, hd, ?_, ?_⟩
  · rw [List.forall₂_map_right_iff]
    exact hr.imp fun f g h => h _
  · rw [List.zipWith_map_right]
  · intro xs' Y' hsum hcom
    have e : xs' = gs.map fun g => g Y' := by
      clear h1 h2 hQ hi hsum hT hd htq hne hgc ht hq hqs
      induction hr generalizing xs' with
      | nil => cases hcom; rfl
      | @cons f g dxH gs hfg _ ih =>
        cases hcom with
        | cons hx hcom =>
          rw [List.map_cons, ← ih (fun f hf => hc f (by simp [hf])) _ hcom]
          congr 1
          exact (hc f (by simp)).strictMono.injective (by rw [hx, hfg])
    have hY : Y' = iQ' X := by
      refine hT.strictMono.injective ?_
      rw [hQ, ← hsum, e]; rfl
    exact ⟨by rw [e, hY], hY⟩

/-- C45. Linear storages (`dxH = x / C`) with a common gradient: the merged energy is that of the
sum of the coefficients `C`. -/
theorem C45_storage_linear {solve : Solver ℝ} (hs : solve.Sound) {integ : (ℝ → ℝ) → ℝ → ℝ}
    {ks : List ℝ} (hi : ∀ k x, integ (fun v => k * v) x = k * x ^ 2 / 2) {newH iQ : ℝ → ℝ}
    (h : nonrealStor solve integ (ks.map fun k v => k * v) = some (newH, iQ)) (X : ℝ) :
    newH X = X ^ 2 / (2 * (ks.map (·⁻¹)).sum) := by
  obtain ⟨gs, h1, h'⟩ := Option.bind_eq_some_iff.1 h
  clear h
  obtain ⟨iQ', h2, h''⟩ := Option.bind_eq_some_iff.1 h'
  clear h'
  obtain ⟨h4, h4'⟩ := Prod.mk.inj (Option.some.inj h'')
  clear h'' h4'
  subst h4
  obtain ⟨h3, rfl⟩ := linear_mapM hs h1
  rw [linear_total] at h2
  obtain ⟨h5, rfl⟩ := linear_solve hs h2
  show (List.zipWith _ _ _).sum = _
  have key : ∀ (Y : ℝ), (List.zipWith (fun dh (idh : ℝ → ℝ) => integ dh (idh Y))
      (ks.map fun k v => k * v) ((ks.map (·⁻¹)).map fun r v => r * v)).sum =
      (ks.map (·⁻¹)).sum * Y ^ 2 / 2 := by
    intro Y
    clear h1 h2 h5
    induction ks with
    | nil => simp
    | cons k ks ih =>
      rw [List.map_cons, List.map_cons, List.map_cons, List.zipWith_cons_cons, List.sum_cons,
        List.sum_cons, ih fun r hr => h3 r (by simp [hr]), hi]
      have := h3 k (by simp)
      field_simp
  rw [key]
  field_simp

/-- C45. Realizable storages: components with the same state derivative `v` and the same initial
state keep the same state `X`, and the gradient of the merged energy at `X` is the sum of their
gradients; the merged energy is the sum of the energies. -/
theorem C45_storage_real {integ : (ℝ → ℝ) → ℝ → ℝ} {dxH : List (ℝ → ℝ)}
    (hi : Integrates integ dxH) {v : ℝ → ℝ} {X : ℝ → ℝ} (hX : ∀ t, HasDerivAt X (v t) t)
    {xs : List (ℝ → ℝ)} (hx : ∀ x ∈ xs, ∀ t, HasDerivAt x (v t) t)
    (hlen : dxH.length = xs.length) (h0 : ∀ x ∈ xs, x 0 = X 0) (t : ℝ) :
    HasDerivAt (realStor integ dxH) (List.zipWith (fun f x => f (x t)) dxH xs).sum (X t) ∧
    realStor integ dxH (X t) = (List.zipWith (fun f x => integ f (x t)) dxH xs).sum := by
  have hsame : ∀ x ∈ xs, x t = X t := by
    intro x hm
    have h1 : ∀ t, HasDerivAt (fun t => x t - X t) 0 t := by
      intro t
      have := (hx x hm t).sub (hX t)
      rwa [sub_self] at this
    have h2 := is_const_of_deriv_eq_zero (fun t => (h1 t).differentiableAt)
      (fun t => (h1 t).deriv) t 0
    simp only [h0 x hm, sub_self] at h2
    linarith
  have hz : ∀ G : (ℝ → ℝ) → ℝ → ℝ, (List.zipWith (fun f x => G f (x t)) dxH xs).sum =
      (dxH.map fun f => G f (X t)).sum := by
    intro G
    clear hi h0 hx
    induction dxH generalizing xs with
    | nil => simp
    | cons f dxH ih =>
      cases xs with
      | nil => simp at hlen
      | cons x xs =>
        rw [List.zipWith_cons_cons, List.sum_cons, List.map_cons, List.sum_cons,
          ih (by simpa using hlen) fun x hx => hsame x (by simp [hx]), hsame x (by simp)]
  rw [hz (fun f x => f x), hz (fun f x => integ f x)]
  refine ⟨?_, rfl⟩
  clear hz hlen
  unfold realStor
  induction dxH with
  | nil => simpa using hasDerivAt_const (X t) (0:ℝ)
  | cons f dxH ih =>
    have h1 := hi f (by simp) (X t)
    have h2 := ih fun f hf => hi f (by simp [hf])
    refine (h1.add h2).congr_of_eventuallyEq (Filter.Eventually.of_forall fun u => ?_)
    simp

/-- C45 fails without the hypothesis on the initial states: two unit storages driven by the same
(zero) derivative from the states 1 and -1; the energy is 1, that of the merged component from the
sum or the mean of the states is 0. -/
theorem C45_storage_real_counterexample : ∃ (integ : (ℝ → ℝ) → ℝ → ℝ) (dxH xs : List (ℝ → ℝ)),
    Integrates integ dxH ∧ (∀ x ∈ xs, ∀ t, HasDerivAt x 0 t) ∧ dxH.length = xs.length ∧
    ∀ t, (List.zipWith (fun f x => integ f (x t)) dxH xs).sum = 1 ∧
      realStor integ dxH (xs.map fun x => x t).sum = 0 := by
  refine ⟨fun f x => x ^ 2 / 2, [fun x => x, fun x => x], [fun _ => 1, fun _ => -1], ?_, ?_, rfl,
    fun t => ?_⟩
  · intro f hf x
    have : f = fun x => x := by simpa using hf
    subst this
    have h := ((hasDerivAt_id x).pow 2).div_const 2
    simpa using h
  · intro x hx t
    have : x = (fun _ => 1) ∨ x = fun _ => -1 := by simpa using hx
    rcases this with rfl | rfl
    · exact hasDerivAt_const t 1
    · exact hasDerivAt_const t (-1)
  · norm_num [realStor]

/-- Orientation of a storage: the energy of the reversed component. -/
theorem orient_energy {H f : ℝ → ℝ} (h : ∀ x, HasDerivAt H (f x) x) (x : ℝ) :
    HasDerivAt (fun x => H (-x)) (orient false f x) x := by
  have := (h (-x)).comp x (hasDerivAt_neg x)
  simpa [orient, Function.comp_def] using this

/-- A solver that inverts every surjective function. -/
noncomputable def anySolve : Solver ℝ := by
  classical exact fun f => if h : Function.Surjective f then some (Function.surjInv h) else none

theorem anySolve_sound : anySolve.Sound := by
  intro f g h y
  unfold anySolve at h
  split at h
  · rename_i hf
    cases h
    exact Function.surjInv_eq hf y
  · simp at h

theorem anySolve_linear {k : ℝ} (h : k ≠ 0) :
    anySolve (fun v => k * v) = some fun y => k⁻¹ * y := by
  have hs : Function.Surjective fun v : ℝ => k * v := fun y => ⟨k⁻¹ * y, mul_inv_cancel_left₀ h y⟩
  have : anySolve (fun v => k * v) = some (Function.surjInv hs) := by
    unfold anySolve; rw [dif_pos hs]
  rw [this]
  exact congrArg some (linear_solve anySolve_sound this).2

/-- Hypotheses of `C45_storage_nonreal` hold for linear storages. -/
theorem convex_linear {k : ℝ} (h : 0 < k) : Convex' fun x => k * x := fun x => ⟨k, h, by
  simpa using (hasDerivAt_id x).const_mul k⟩

/-- Capacitors of 1/3 and 1/2 in parallel: the merged energy is that of the capacitor 5/6. -/
example (X : ℝ) : ∃ newH iQ, nonrealStor anySolve (fun f x => f 1 * x ^ 2 / 2)
    ([3, 2].map fun (k : ℝ) v => k * v) = some (newH, iQ) ∧ newH X = X ^ 2 / (2 * (5 / 6)) ∧
    HasDerivAt newH (X / (5 / 6)) X := by
  have h3 : anySolve (fun v => 3 * v) = some fun y => 3⁻¹ * y := anySolve_linear (by norm_num)
  have h2 : anySolve (fun v => 2 * v) = some fun y => 2⁻¹ * y := anySolve_linear (by norm_num)
  have hne : (nonrealStor anySolve (fun f x => f 1 * x ^ 2 / 2)
      ([3, 2].map fun (k : ℝ) v => k * v)).isSome := by
    unfold nonrealStor
    rw [List.map_cons, List.map_cons, List.map_nil, List.mapM_cons, List.mapM_cons, List.mapM_nil,
      h3, h2]
    have h5 : anySolve (total ([3⁻¹, 2⁻¹].map fun (r : ℝ) v => r * v)) =
        some fun y => (5 / 6)⁻¹ * y := by
      rw [linear_total, ← anySolve_linear (by norm_num)]
      norm_num
    show ((anySolve (total ([3⁻¹, 2⁻¹].map fun (r : ℝ) v => r * v))).bind _).isSome = _
    rw [h5]
    rfl
  obtain ⟨⟨newH, iQ⟩, h⟩ := Option.isSome_iff_exists.1 hne
  have hi : ∀ (k x : ℝ), (fun f x => f 1 * x ^ 2 / 2 : (ℝ → ℝ) → ℝ → ℝ) (fun v => k * v) x =
      k * x ^ 2 / 2 := by intro k x; simp
  have hlin := C45_storage_linear anySolve_sound hi h
  refine ⟨newH, iQ, h, ?_, ?_⟩
  · rw [hlin]; norm_num
  · obtain ⟨xs, Y, h4, h5, h6, -, -⟩ := C45_storage_nonreal anySolve_sound (by
      intro f hf x
      obtain ⟨k, hk, rfl⟩ := List.mem_map.1 hf
      have := (((hasDerivAt_id x).pow 2).const_mul k).div_const 2
      refine (this.congr_of_eventuallyEq (Filter.Eventually.of_forall fun y => ?_)).congr_deriv ?_
      · simp
      · simp; ring) (by
      intro f hf
      obtain ⟨k, hk, rfl⟩ := List.mem_map.1 hf
      refine convex_linear ?_
      simp only [List.mem_cons, List.not_mem_nil, or_false] at hk
      rcases hk with rfl | rfl <;> norm_num) h X
    cases h5 with
    | cons e1 h5 => cases h5 with
      | cons e2 h5 =>
        cases h5
        simp only [List.sum_cons, List.sum_nil] at h4
        have : Y = X / (5 / 6) := by linarith
        rw [← this]; exact h6

end Graph
end Pyphs
