import Verif.Scheme.Lemmas
import Mathlib.Algebra.Order.BigOperators.Group.List
import Mathlib.Algebra.BigOperators.Group.List.Basic

namespace Pyphs
namespace Scheme

/-- The power `sum_i grad_i * dx_i` (specification). -/
def gdot (gs : List Sc) (xs : List String) (e : Env ℝ) : ℝ :=
  ((gs.zip xs).map fun p => p.1 e * e (dn p.2)).sum

/-- The point `x + dx` for the states of `xs` (specification). -/
def next (e : Env ℝ) (xs : List String) : Env ℝ :=
  fun s => if s ∈ xs then e s + e (dn s) else e s

theorem next_eq (e : Env ℝ) (xs : List String) : next e xs = moved e (incr e) xs := rfl

/-- Component `i` of a vector of expressions. -/
def comp (gs : List Sc) (i : ℕ) : Sc := gs.getD i fun _ => 0

theorem comp_map (xs : List String) (F : String → Sc) {i : ℕ} (hi : i < xs.length) :
    comp (xs.map F) i = F xs[i] := by
  simp [comp, List.getD_eq_getElem?_getD, hi]

theorem zip_map_self (xs : List String) (G : String → Sc) :
    (xs.map G).zip xs = xs.map fun x => (G x, x) := by
  induction xs with
  | nil => rfl
  | cons a xs ih => rw [List.map_cons, List.zip_cons_cons, ih, List.map_cons]

theorem gdot_map (xs : List String) (F : String → Sc) (e : Env ℝ) :
    gdot (xs.map F) xs e = (xs.map fun x => F x e * e (dn x)).sum := by
  unfold gdot
  congr 1
  rw [List.zip_map_left]
  induction xs with
  | nil => rfl
  | cons a xs ih => simp [ih]

theorem gdot_append (gs gs' : List Sc) (xs xs' : List String) (h : gs.length = xs.length)
    (e : Env ℝ) : gdot (gs ++ gs') (xs ++ xs') e = gdot gs xs e + gdot gs' xs' e := by
  unfold gdot
  rw [List.zip_append h, List.map_append, List.sum_append]

theorem sum_range_getD (xs : List String) (f : String → ℝ) :
    ∑ j ∈ Finset.range xs.length, f (xs.getD j "") = (xs.map f).sum := by
  induction xs using List.reverseRecOn with
  | nil => simp
  | append_singleton l a ih =>
    rw [List.length_append, List.length_singleton, Finset.sum_range_succ, List.map_append,
      List.sum_append, ← ih]
    congr 1
    · refine Finset.sum_congr rfl fun j hj => ?_
      have := Finset.mem_range.1 hj
      simp [List.getD_eq_getElem?_getD, List.getElem?_append_left this]
    · simp

theorem matvec_hessian (H : Sc) (xs : List String) (F : String → Sc) :
    matvec (hessian H xs) (xs.map F) =
      xs.map fun i e => (xs.map fun j => pdiff (pdiff H i) j e * F j e).sum := by
  apply List.ext_getElem
  · simp [matvec, hessian, jacobian, gradient]
  · intro i h1 h2
    have hi : i < xs.length := by simpa using h2
    simp only [matvec, hessian, jacobian, gradient, List.getElem_map, List.getElem_range,
      List.length_map]
    funext e
    rw [← sum_range_getD]
    refine Finset.sum_congr rfl fun j hj => ?_
    have hj' := Finset.mem_range.1 hj
    simp [List.getD_eq_getElem?_getD, hi, hj']

/-- The gradient of the linear part, component by component. -/
theorem gradLin_eq (H : Sc) (g : Groups) : gradLin H g =
    g.xl.map fun i e => pdiff H i e +
      1 / 2 * (g.xl.map fun j => pdiff (pdiff H i) j e * e (dn j)).sum := by
  unfold gradLin blVec Qmat
  rw [matvec_hessian, matvec_hessian, gradient]
  apply List.ext_getElem
  · simp
  · intro i h1 h2
    simp only [List.getElem_map, List.getElem_zip]
    funext e
    have : ∀ i : String, (g.xl.map fun j => pdiff (pdiff H i) j e * (e j + 0.5 * e (dn j))).sum =
        (g.xl.map fun j => pdiff (pdiff H i) j e * symb j e).sum +
        1 / 2 * (g.xl.map fun j => pdiff (pdiff H i) j e * e (dn j)).sum := by
      intro i
      rw [← sum_map_mul_left, ← sum_map_add]
      refine sum_map_congr fun j _ => ?_
      simp only [symb]; norm_num; ring
    rw [this]; ring

/-- **C15**: if the second derivatives of the energy with respect to the linear states do
not depend on the linear states (the criterion of `linear_nonlinear`), the expression
`Q.(xl + dxl/2) + bl` is an exact gradient of the energy over the increment of the linear
states, whatever the values of the other symbols. -/
theorem C15_linear_exact (H : Sc) (g : Groups) (hnd : g.xl.Nodup) (hs : Smooth2 H g.xl)
    (hc : ConstHess H g.xl) (e : Env ℝ) :
    gdot (gradLin H g) g.xl e = H (next e g.xl) - H e := by
  rw [gradLin_eq, gdot_map, next_eq, quad_moved hs hc e (incr e) g.xl (fun _ h => h) hnd]
  have : (g.xl.map fun x => (pdiff H x e + 1 / 2 *
      (g.xl.map fun j => pdiff (pdiff H x) j e * e (dn j)).sum) * e (dn x)).sum =
      (g.xl.map fun i => pdiff H i e * incr e i).sum + 1 / 2 *
      (g.xl.map fun i => (g.xl.map fun j => pdiff (pdiff H i) j e * incr e j).sum * incr e i).sum := by
    rw [← sum_map_mul_left, ← sum_map_add]
    refine sum_map_congr fun j _ => ?_
    simp only [incr]; ring
  rw [this]; ring

/-- **C15**, form of the energy: it equals `1/2 xᵀQx + xᵀb` up to terms independent of the
linear states, with the `Q` and `bl` of the code: moving the linear states from `e` to any
other values changes the energy by the change of that quadratic form. -/
theorem C15_quadratic_form (H : Sc) (g : Groups) (hnd : g.xl.Nodup) (hs : Smooth2 H g.xl)
    (hc : ConstHess H g.xl) (e : Env ℝ) (D : String → ℝ) :
    H (moved e D g.xl) - H e =
      (g.xl.map fun i => (pdiff H i e - (g.xl.map fun j => pdiff (pdiff H i) j e * e j).sum) * D i).sum
      + 1 / 2 * (g.xl.map fun i => (g.xl.map fun j =>
          pdiff (pdiff H i) j e * ((e i + D i) * (e j + D j) - e i * e j)).sum).sum := by
  rw [quad_moved hs hc e D g.xl (fun _ h => h) hnd]
  have hswap : (g.xl.map fun i => (g.xl.map fun j => pdiff (pdiff H i) j e * (e i * D j)).sum).sum =
      (g.xl.map fun i => (g.xl.map fun j => pdiff (pdiff H i) j e * (e j * D i)).sum).sum := by
    simp only [← sum_range_getD]
    rw [Finset.sum_comm]
    refine Finset.sum_congr rfl fun i hi => Finset.sum_congr rfl fun j hj => ?_
    have hmem : ∀ k < g.xl.length, g.xl.getD k "" ∈ g.xl := fun k hk => by
      rw [List.getD_eq_getElem?_getD, List.getElem?_eq_getElem hk, Option.getD_some]
      exact List.getElem_mem hk
    rw [constHess_symm hs hc (hmem j (Finset.mem_range.1 hj)) (hmem i (Finset.mem_range.1 hi))]
  have e1 : (g.xl.map fun i => (g.xl.map fun j =>
      pdiff (pdiff H i) j e * ((e i + D i) * (e j + D j) - e i * e j)).sum).sum =
      (g.xl.map fun i => (g.xl.map fun j => pdiff (pdiff H i) j e * D j).sum * D i).sum +
      ((g.xl.map fun i => (g.xl.map fun j => pdiff (pdiff H i) j e * (e i * D j)).sum).sum +
       (g.xl.map fun i => (g.xl.map fun j => pdiff (pdiff H i) j e * (e j * D i)).sum).sum) := by
    rw [← sum_map_add, ← sum_map_add]
    refine sum_map_congr fun i _ => ?_
    rw [← sum_map_mul_right, ← sum_map_add, ← sum_map_add]
    refine sum_map_congr fun j _ => ?_
    ring
  have e2 : (g.xl.map fun i =>
      (pdiff H i e - (g.xl.map fun j => pdiff (pdiff H i) j e * e j).sum) * D i).sum =
      (g.xl.map fun i => pdiff H i e * D i).sum -
      (g.xl.map fun i => (g.xl.map fun j => pdiff (pdiff H i) j e * (e j * D i)).sum).sum := by
    rw [eq_sub_iff_add_eq, ← sum_map_add]
    refine sum_map_congr fun i _ => ?_
    have : (g.xl.map fun j => pdiff (pdiff H i) j e * (e j * D i)).sum =
        (g.xl.map fun j => pdiff (pdiff H i) j e * e j).sum * D i := by
      rw [← sum_map_mul_right]
      exact sum_map_congr fun j _ => by ring
    rw [this]; ring
  rw [e1, e2, hswap]; ring

/-! ### Monovariate discrete gradient -/

/-- The energy is separable with respect to the states of `xs`: the increment due to one
state does not depend on the others (specification). -/
def SeparableE (H : Sc) (xs : List String) : Prop :=
  ∀ i ∈ xs, ∀ j ∈ xs, i ≠ j → ∀ e t s,
    H (Function.update (Function.update e j s) i t) - H (Function.update e j s) =
      H (Function.update e i t) - H e

/-- An increment allowed by the tolerance: zero, or large enough for the difference quotient. -/
def StepOK (tol d : ℝ) : Prop := d = 0 ∨ d < -tol ∨ tol ≤ d

theorem mono_term (H : Sc) (x : String) (tol : ℝ) (htol : 0 < tol) (e : Env ℝ)
    (hd : StepOK tol (e (dn x))) :
    ((gradMono H [x] tol).getD 0 fun _ => 0) e * e (dn x) =
      H (Function.update e x (e x + e (dn x))) - H e := by
  simp only [gradMono, List.map_cons, List.map_nil, List.getD_cons_zero, subs_single]
  by_cases h0 : e (dn x) = 0
  · rw [h0]; simp
  · have : ¬ (¬ e (dn x) < -tol ∧ e (dn x) < tol) := by
      rintro ⟨h1, h2⟩
      rcases hd with h | h | h
      · exact h0 h
      · exact h1 h
      · exact absurd h2 (not_lt.2 h)
    split_ifs with h1 h2
    · exact div_mul_cancel₀ _ h0
    · exact absurd ⟨h1, h2⟩ this
    · exact div_mul_cancel₀ _ h0

theorem sep_moved {H : Sc} {xs : List String} (hsep : SeparableE H xs) (e : Env ℝ)
    (D : String → ℝ) (ys : List String) (hys : ∀ y ∈ ys, y ∈ xs) (hnd : ys.Nodup) :
    H (moved e D ys) - H e = (ys.map fun x => H (Function.update e x (e x + D x)) - H e).sum := by
  induction ys with
  | nil => simp [moved_nil]
  | cons y ys ih =>
    have hy := hys y (by simp)
    have hys' : ∀ z ∈ ys, z ∈ xs := fun z hz => hys z (List.mem_cons_of_mem _ hz)
    have hnd' := (List.nodup_cons.1 hnd)
    rw [List.map_cons, List.sum_cons, ← ih hys' hnd'.2, moved_cons _ _ hnd'.1]
    have key : ∀ zs : List String, (∀ z ∈ zs, z ∈ xs) → zs.Nodup → y ∉ zs → ∀ t,
        H (Function.update (moved e D zs) y t) - H (moved e D zs) =
          H (Function.update e y t) - H e := by
      intro zs
      induction zs with
      | nil => intro _ _ _ t; rw [moved_nil]
      | cons z zs ihz =>
        intro h1 h2 h3 t
        have h2' := List.nodup_cons.1 h2
        have hyz : y ≠ z := fun h => h3 (by simp [h])
        rw [moved_cons _ _ h2'.1, hsep y hy z (h1 z (by simp)) hyz,
          ihz (fun w hw => h1 w (List.mem_cons_of_mem _ hw)) h2'.2
            (fun h => h3 (List.mem_cons_of_mem _ h))]
    have hyy : moved e D ys y = e y := by simp [moved, hnd'.1]
    rw [hyy]
    have := key ys hys' hnd'.2 hnd'.1 (e y + D y)
    linarith

/-- **C16**: for an energy separable in the states of the list, the monovariate discrete
gradient satisfies `sum_i grad_i*dx_i = H(x+dx) - H(x)` when every increment is zero or
outside of `[-tol, tol)`. -/
theorem C16_exact (H : Sc) (xs : List String) (tol : ℝ) (htol : 0 < tol) (hnd : xs.Nodup)
    (hsep : SeparableE H xs) (e : Env ℝ) (hd : ∀ x ∈ xs, StepOK tol (e (dn x))) :
    gdot (gradMono H xs tol) xs e = H (next e xs) - H e := by
  rw [next_eq, sep_moved hsep e (incr e) xs (fun _ h => h) hnd]
  unfold gradMono
  rw [gdot_map]
  refine sum_map_congr fun x hx => ?_
  exact mono_term H x tol htol e (hd x hx)

/-- **C16**: inside the tolerance the value is the second-order expansion. -/
theorem C16_taylor (H : Sc) (xs : List String) (tol : ℝ) (e : Env ℝ) (i : ℕ) (hi : i < xs.length)
    (hd : -tol ≤ e (dn xs[i]) ∧ e (dn xs[i]) < tol) :
    comp (gradMono H xs tol) i e =
      pdiff H xs[i] e + 1 / 2 * pdiff (pdiff H xs[i]) xs[i] e * e (dn xs[i]) := by
  unfold gradMono
  rw [comp_map _ _ hi]
  dsimp only
  rw [if_neg (not_lt.2 hd.1), if_pos hd.2]
  norm_num

/-- **C16**: for a zero increment it is the derivative of the energy. -/
theorem C16_gradient_at_zero (H : Sc) (xs : List String) (tol : ℝ) (htol : 0 < tol) (e : Env ℝ)
    (i : ℕ) (hi : i < xs.length) (hd : e (dn xs[i]) = 0) :
    comp (gradMono H xs tol) i e = pdiff H xs[i] e := by
  rw [C16_taylor H xs tol e i hi (by rw [hd]; constructor <;> linarith), hd]; ring

/-- A zero cross derivative: the increment due to one variable does not depend on the
other. -/
theorem cross_indep {H : Sc} {i j : String} (hij : i ≠ j) (h1 : CDiff H i)
    (h2 : CDiff (pdiff H i) j) (h0 : ∀ e, pdiff (pdiff H i) j e = 0) (e : Env ℝ) (t s : ℝ) :
    H (Function.update (Function.update e j s) i t) - H (Function.update e j s) =
      H (Function.update e i t) - H e := by
  -- the derivative with respect to `i` does not depend on `j`
  have h1' : Indep (pdiff H i) j := indep_of_pdiff_zero h2 h0
  set f : ℝ → ℝ := fun t => H (Function.update (Function.update e j s) i t) -
    H (Function.update e i t) with hf
  have hdf : Differentiable ℝ f := (h1 _).sub (h1 _)
  have h0 : ∀ t, deriv f t = 0 := by
    intro t
    have a1 := (h1 (Function.update e j s) t).hasDerivAt
    have a2 := (h1 e t).hasDerivAt
    have := (a1.sub a2).deriv
    rw [← pdiff_update, ← pdiff_update, Function.update_comm (Ne.symm hij), h1', sub_self] at this
    exact this
  have := is_const_of_deriv_eq_zero hdf h0 t (e i)
  simp only [hf] at this
  have e1 : Function.update (Function.update e j s) i (e i) = Function.update e j s := by
    funext k
    by_cases hk : k = i
    · subst hk; simp [Function.update_of_ne hij]
    · simp [Function.update_of_ne hk]
  rw [e1, Function.update_eq_self] at this
  linarith

/-- Zero cross derivatives, as found by `monovar_multivar` (C14), give a separable
energy. -/
theorem C16_separable_of_cross (H : Sc) (xs : List String) (hs : Smooth2 H xs)
    (hx : ∀ i ∈ xs, ∀ j ∈ xs, i ≠ j → ∀ e, pdiff (pdiff H i) j e = 0) : SeparableE H xs :=
  fun i hi j hj hij e t s => cross_indep hij (hs.d1 i hi) (hs.d2 i hi j hj) (hx i hi j hj hij) e t s

/-! ### Multivariate discrete gradient -/

theorem sq_sum_eq_zero {xs : List String} {f : String → ℝ}
    (h : (xs.map fun x => f x ^ 2).sum = 0) : ∀ x ∈ xs, f x = 0 := by
  induction xs with
  | nil => simp
  | cons a xs ih =>
    have hnn : 0 ≤ (xs.map fun x => f x ^ 2).sum :=
      List.sum_nonneg (by simp only [List.mem_map]; rintro _ ⟨x, _, rfl⟩; positivity)
    rw [List.map_cons, List.sum_cons] at h
    have ha : f a ^ 2 = 0 := by nlinarith [sq_nonneg (f a)]
    intro x hx
    rcases List.mem_cons.1 hx with rfl | hx
    · exact pow_eq_zero_iff (two_ne_zero) |>.1 ha
    · exact ih (by linarith) x hx

/-- **C17**: the multivariate discrete gradient satisfies `grad.dx = H(x+dx) - H(x)` for any
energy (no separability, no smoothness) when `dx = 0` or `|dx|² >= tol²`. -/
theorem C17_exact (H : Sc) (xs : List String) (tol : ℝ) (e : Env ℝ)
    (hd : (∀ x ∈ xs, e (dn x) = 0) ∨ tol ^ 2 ≤ (xs.map fun x => e (dn x) ^ 2).sum) :
    gdot (gradMulti H xs tol) xs e = H (next e xs) - H e := by
  set n2 := (xs.map fun x => e (dn x) ^ 2).sum with hn2
  set G : String → Sc := fun x => subs (shift xs 0.5) (pdiff H x) with hG
  have hg : gradTheta H xs 0.5 = xs.map G := by simp [gradTheta, gradient, hG]
  have hzip := zip_map_self xs G
  have hnext : subs (shift xs 1) H e = H (next e xs) := by
    rw [subs_shift, next_eq]
    exact congrArg H (moved_congr fun x _ => by ring)
  by_cases h0 : ∀ x ∈ xs, e (dn x) = 0
  · have e1 : next e xs = e := by
      funext s; unfold next; split_ifs with hs
      · rw [h0 s hs, add_zero]
      · rfl
    rw [e1, sub_self]
    unfold gradMulti
    dsimp only
    rw [hg, hzip, List.map_map, gdot_map]
    rw [show (xs.map fun x => _) = xs.map fun _ => (0 : ℝ) from
      List.map_congr_left fun x hx => by rw [h0 x hx, mul_zero]]
    simp
  · have hge : tol ^ 2 ≤ n2 := hd.resolve_left h0
    have hne : n2 ≠ 0 := fun h => h0 (sq_sum_eq_zero h)
    have hnn : 0 ≤ n2 :=
      List.sum_nonneg (by simp only [List.mem_map]; rintro _ ⟨x, _, rfl⟩; positivity)
    set S := (xs.map fun x => G x e * e (dn x)).sum with hS
    unfold gradMulti
    dsimp only
    rw [hg, hzip, List.map_map, gdot_map]
    have hcond : ¬ n2 < -tol ^ 2 := by nlinarith [sq_nonneg tol]
    have hcond2 : ¬ n2 < tol ^ 2 := not_lt.2 hge
    simp only [Function.comp_apply, ← hn2, if_neg hcond, if_neg hcond2, hnext, List.map_map]
    have : (xs.map fun x => (G x e + (H (next e xs) - H e - S) / n2 * e (dn x)) * e (dn x)).sum =
        S + (H (next e xs) - H e - S) / n2 * n2 := by
      rw [hS, hn2, ← sum_map_mul_left, ← sum_map_add]
      exact sum_map_congr fun x _ => by ring
    have e2 : (List.map ((fun p : Sc × String => p.1 e * e (dn p.2)) ∘ fun x => (G x, x)) xs).sum
        = S := rfl
    rw [e2, this, div_mul_cancel₀ _ hne]; ring

/-- **C17**: below the tolerance it is the gradient at the midpoint `x + dx/2`. -/
theorem C17_midpoint (H : Sc) (xs : List String) (tol : ℝ) (e : Env ℝ)
    (hd : (xs.map fun x => e (dn x) ^ 2).sum < tol ^ 2) (i : ℕ) (hi : i < xs.length) :
    comp (gradMulti H xs tol) i e =
      pdiff H xs[i] (fun s => if s ∈ xs then e s + e (dn s) / 2 else e s) := by
  have hnn : 0 ≤ (xs.map fun x => e (dn x) ^ 2).sum :=
    List.sum_nonneg (by simp only [List.mem_map]; rintro _ ⟨x, _, rfl⟩; positivity)
  have hcond : ¬ (xs.map fun x => e (dn x) ^ 2).sum < -tol ^ 2 := by nlinarith [sq_nonneg tol]
  unfold gradMulti gradTheta gradient
  dsimp only
  rw [List.map_map, zip_map_self, List.map_map, comp_map _ _ hi]
  simp only [Function.comp_apply, if_neg hcond, if_pos hd, subs_shift, zero_mul, add_zero]
  refine congrArg _ ?_
  funext s; unfold moved incr
  split_ifs
  · norm_num; ring
  · rfl

/-! ### Theta and trapezoidal gradients -/

/-- **C18**: component `i` of `gradient_theta` is the derivative of the energy evaluated at
`x + theta*dx`. -/
theorem C18_theta (H : Sc) (xs : List String) (θ : ℝ) (e : Env ℝ) (i : ℕ) (hi : i < xs.length) :
    comp (gradTheta H xs θ) i e =
      pdiff H xs[i] (fun s => if s ∈ xs then e s + θ * e (dn s) else e s) := by
  unfold gradTheta gradient
  rw [List.map_map, comp_map _ _ hi, Function.comp_apply, subs_shift]
  rfl

/-- **C18**: component `i` of `gradient_trapez` is the mean of the derivatives at `x` and at
`x + dx`. -/
theorem C18_trapez (H : Sc) (xs : List String) (e : Env ℝ) (i : ℕ) (hi : i < xs.length) :
    comp (gradTrapez H xs) i e =
      (pdiff H xs[i] e + pdiff H xs[i] (next e xs)) / 2 := by
  unfold gradTrapez gradient
  rw [List.map_map, comp_map _ _ hi, Function.comp_apply, subs_shift, next_eq]
  rw [moved_congr (D' := incr e) fun x _ => by ring]
  norm_num; ring

/-- **C18**: the midpoint rule is exact for energies with constant Hessian. -/
theorem C18_midpoint_exact (H : Sc) (xs : List String) (hnd : xs.Nodup) (hs : Smooth2 H xs)
    (hc : ConstHess H xs) (e : Env ℝ) :
    gdot (gradTheta H xs (1 / 2)) xs e = H (next e xs) - H e := by
  rw [gradTheta, gradient, List.map_map, gdot_map, next_eq,
    quad_moved hs hc e (incr e) xs (fun _ h => h) hnd]
  rw [← sum_map_mul_left, add_assoc, ← sum_map_add, add_sub_cancel_left]
  refine sum_map_congr fun i hi => ?_
  rw [Function.comp_apply, subs_shift, pdiff_moved hs hc hi e _ xs (fun _ h => h) hnd]
  have : (xs.map fun j => pdiff (pdiff H i) j e * (1 / 2 * incr e j)).sum =
      1 / 2 * (xs.map fun j => pdiff (pdiff H i) j e * incr e j).sum := by
    rw [← sum_map_mul_left]; exact sum_map_congr fun j _ => by ring
  rw [this]; simp only [incr]; ring

/-- **C18**: so is the trapezoidal rule. -/
theorem C18_trapez_exact (H : Sc) (xs : List String) (hnd : xs.Nodup) (hs : Smooth2 H xs)
    (hc : ConstHess H xs) (e : Env ℝ) :
    gdot (gradTrapez H xs) xs e = H (next e xs) - H e := by
  rw [gradTrapez, gradient, List.map_map, gdot_map, next_eq,
    quad_moved hs hc e (incr e) xs (fun _ h => h) hnd]
  rw [← sum_map_mul_left, add_assoc, ← sum_map_add, add_sub_cancel_left]
  refine sum_map_congr fun i hi => ?_
  rw [Function.comp_apply, subs_shift, pdiff_moved hs hc hi e _ xs (fun _ h => h) hnd]
  have : (xs.map fun j => pdiff (pdiff H i) j e * (1 * incr e j)).sum =
      (xs.map fun j => pdiff (pdiff H i) j e * incr e j).sum := by
    exact sum_map_congr fun j _ => by ring
  rw [this]; simp only [incr]; norm_num; ring

/-! ### The gradient of the whole method -/

/-- All cross derivatives between two groups of states are zero. -/
def CrossZero (H : Sc) (xs ys : List String) : Prop :=
  ∀ i ∈ xs, ∀ j ∈ ys, ∀ e, pdiff (pdiff H i) j e = 0

theorem cross_moved {H : Sc} {xs ys : List String} (hd1 : ∀ i ∈ xs, CDiff H i)
    (hd2 : ∀ i ∈ xs, ∀ j ∈ ys, CDiff (pdiff H i) j) (hx : CrossZero H xs ys)
    (hdis : ∀ i ∈ xs, i ∉ ys) (hnx : xs.Nodup) (hny : ys.Nodup) (e : Env ℝ) (D : String → ℝ) :
    H (moved (moved e D ys) D xs) - H (moved e D ys) = H (moved e D xs) - H e := by
  -- one variable of `xs`, all of `ys`
  have key : ∀ i ∈ xs, ∀ (zs : List String), (∀ z ∈ zs, z ∈ ys) → zs.Nodup → ∀ (e : Env ℝ) (t : ℝ),
      H (Function.update (moved e D zs) i t) - H (moved e D zs) =
        H (Function.update e i t) - H e := by
    intro i hi zs
    induction zs with
    | nil => intro _ _ e t; rw [moved_nil]
    | cons z zs ih =>
      intro hz hnd e t
      have hnd' := List.nodup_cons.1 hnd
      have hzy := hz z (by simp)
      have hiz : i ≠ z := fun h => hdis i hi (h ▸ hzy)
      rw [moved_cons _ _ hnd'.1, cross_indep hiz (hd1 i hi) (hd2 i hi z hzy) (hx i hi z hzy),
        ih (fun w hw => hz w (List.mem_cons_of_mem _ hw)) hnd'.2]
  have main : ∀ zs : List String, (∀ z ∈ zs, z ∈ xs) → zs.Nodup →
      H (moved (moved e D ys) D zs) - H (moved e D ys) = H (moved e D zs) - H e := by
    intro zs
    induction zs with
    | nil => intro _ _; rw [moved_nil, moved_nil]; ring
    | cons z zs ih =>
      intro hz hnd
      have hnd' := List.nodup_cons.1 hnd
      have hzx := hz z (by simp)
      have ih' := ih (fun w hw => hz w (List.mem_cons_of_mem _ hw)) hnd'.2
      rw [moved_cons _ _ hnd'.1, moved_cons _ _ hnd'.1]
      have hcomm : moved (moved e D ys) D zs = moved (moved e D zs) D ys := by
        funext s
        unfold moved
        by_cases h1 : s ∈ zs
        · have := hdis s (hz s (List.mem_cons_of_mem _ h1))
          simp [h1, this]
        · simp [h1]
      have hval : moved (moved e D zs) D ys z = moved e D zs z := by
        have := hdis z hzx
        simp [moved, this]
      have k := key z hzx ys (fun _ h => h) hny (moved e D zs) (moved e D zs z + D z)
      rw [hcomm] at ih' ⊢
      rw [hval]
      linarith
  exact main xs (fun _ h => h) hnx

/-- Conditions on the groups of states under which the discrete gradient is exact: distinct
names, smooth energy, constant Hessian on the linear group, zero cross derivatives inside the
monovariate group and between groups. -/
structure GroupsOK (H : Sc) (g : Groups) : Prop where
  nodup : g.x.Nodup
  smooth : Smooth2 H g.x
  lin : ConstHess H g.xl
  sep : ∀ i ∈ g.mono, ∀ j ∈ g.mono, i ≠ j → ∀ e, pdiff (pdiff H i) j e = 0
  cross1 : CrossZero H g.xl (g.mono ++ g.multi)
  cross2 : CrossZero H g.mono g.multi

theorem gradLin_length (H : Sc) (g : Groups) : (gradLin H g).length = g.xl.length := by
  rw [gradLin_eq]; simp

theorem gradMono_length (H : Sc) (xs : List String) (tol : ℝ) :
    (gradMono H xs tol).length = xs.length := by simp [gradMono]

theorem gradMulti_length (H : Sc) (xs : List String) (tol : ℝ) :
    (gradMulti H xs tol).length = xs.length := by simp [gradMulti, gradTheta, gradient]

/-- The three parts of the discrete gradient together: `grad.dx = H(x+dx) - H(x)`. -/
theorem C20_gradient_exact (H : Sc) (g : Groups) (hg : GroupsOK H g) (θ tol : ℝ) (htol : 0 < tol)
    (e : Env ℝ) (hmono : ∀ x ∈ g.mono, StepOK tol (e (dn x)))
    (hmulti : (∀ x ∈ g.multi, e (dn x) = 0) ∨
      tol ^ 2 ≤ (g.multi.map fun x => e (dn x) ^ 2).sum) :
    gdot (buildGradient H g .discret θ tol) g.x e = H (next e g.x) - H e := by
  obtain ⟨hnd, hs, hl, hsep, hc1, hc2⟩ := hg
  have hx1 : ∀ i ∈ g.xl, i ∈ g.x := fun i h => by simp [Groups.x, h]
  have hx2 : ∀ i ∈ g.mono, i ∈ g.x := fun i h => by simp [Groups.x, h]
  have hx3 : ∀ i ∈ g.multi, i ∈ g.x := fun i h => by simp [Groups.x, h]
  have hnd2 : (g.xl ++ (g.mono ++ g.multi)).Nodup := by
    have := hnd; unfold Groups.x at this; rwa [List.append_assoc] at this
  have n1 := (List.nodup_append.1 hnd2).1
  have n23 := (List.nodup_append.1 hnd2).2.1
  have d1 : ∀ i ∈ g.xl, i ∉ g.mono ++ g.multi := fun i hi hj =>
    (List.nodup_append.1 hnd2).2.2 i hi i hj rfl
  have n2 := (List.nodup_append.1 n23).1
  have n3 := (List.nodup_append.1 n23).2.1
  have d2 : ∀ i ∈ g.mono, i ∉ g.multi := fun i hi hj =>
    (List.nodup_append.1 n23).2.2 i hi i hj rfl
  have s1 : Smooth2 H g.xl := ⟨fun i hi => hs.d1 i (hx1 i hi),
    fun i hi j hj => hs.d2 i (hx1 i hi) j (hx1 j hj)⟩
  have s2 : Smooth2 H g.mono := ⟨fun i hi => hs.d1 i (hx2 i hi),
    fun i hi j hj => hs.d2 i (hx2 i hi) j (hx2 j hj)⟩
  have E1 := C15_linear_exact H g n1 s1 hl e
  have E2 := C16_exact H g.mono tol htol n2 (C16_separable_of_cross H g.mono s2 hsep) e hmono
  have E3 := C17_exact H g.multi tol e hmulti
  have hb : buildGradient H g .discret θ tol =
      gradLin H g ++ (gradMono H g.mono tol ++ gradMulti H g.multi tol) := by
    simp [buildGradient]
  have hxx : g.x = g.xl ++ (g.mono ++ g.multi) := by simp [Groups.x]
  rw [hb, hxx, gdot_append _ _ _ _ (gradLin_length H g), gdot_append _ _ _ _
    (gradMono_length H g.mono tol), E1, E2, E3]
  simp only [next_eq]
  have C1 := cross_moved (H := H) (xs := g.xl) (ys := g.mono ++ g.multi)
    (fun i hi => hs.d1 i (hx1 i hi))
    (fun i hi j hj => hs.d2 i (hx1 i hi) j (by
      rcases List.mem_append.1 hj with h | h
      · exact hx2 j h
      · exact hx3 j h)) hc1 d1 n1 n23 e (incr e)
  have C2 := cross_moved (H := H) (xs := g.mono) (ys := g.multi)
    (fun i hi => hs.d1 i (hx2 i hi))
    (fun i hi j hj => hs.d2 i (hx2 i hi) j (hx3 j hj)) hc2 d2 n2 n3 e (incr e)
  rw [← moved_append _ _ _ _ d1] at C1
  rw [← moved_append _ _ _ _ d2] at C2
  linarith

end Scheme
end Pyphs
