import Verif.Scheme.Model
import Mathlib.Analysis.Calculus.MeanValue
import Mathlib.Analysis.Calculus.Deriv.Add
import Mathlib.Analysis.Calculus.Deriv.Mul
import Mathlib.Analysis.Calculus.Deriv.Pow
import Mathlib.Tactic.Linarith
import Mathlib.Tactic.LinearCombination
import Mathlib.Tactic.FieldSimp
import Mathlib.Tactic.Ring

namespace Pyphs
namespace Scheme

/-! ### Specification vocabulary -/

/-- The values of the symbols after every state of `xs` has been moved by `D`. -/
def moved (e : Env ℝ) (D : String → ℝ) (xs : List String) : Env ℝ :=
  fun s => if s ∈ xs then e s + D s else e s

/-- The increments stored in the environment. -/
def incr (e : Env ℝ) : String → ℝ := fun s => e (dn s)

/-- `f` is differentiable with respect to the symbol `x`, everywhere. -/
def CDiff (f : Sc) (x : String) : Prop := ∀ e, Differentiable ℝ fun t => f (Function.update e x t)

/-- `f` does not depend on the symbol `x`. -/
def Indep (f : Sc) (x : String) : Prop := ∀ e t, f (Function.update e x t) = f e

/-! ### Substitution -/

theorem lookup_map {α : Type} (xs : List String) (g : String → α) (s : String) :
    (xs.map fun x => (x, g x)).lookup s = if s ∈ xs then some (g s) else none := by
  induction xs with
  | nil => simp
  | cons a xs ih =>
    rw [List.map_cons, List.lookup_cons]
    by_cases h : s = a
    · subst h; simp
    · simp [h, ih, beq_eq_false_iff_ne.2 h]

theorem subs_shift (xs : List String) (θ : ℝ) (f : Sc) (e : Env ℝ) :
    subs (shift xs θ) f e = f (moved e (fun s => θ * incr e s) xs) := by
  unfold subs shift
  congr 1
  funext s
  rw [lookup_map xs (fun x => fun e : Env ℝ => e x + θ * e (dn x)) s]
  unfold moved incr
  split_ifs with h
  · simp
  · simp

theorem subs_single (x : String) (g : Sc) (f : Sc) (e : Env ℝ) :
    subs [(x, g)] f e = f (Function.update e x (g e)) := by
  unfold subs
  congr 1
  funext s
  by_cases h : s = x
  · subst h; simp
  · simp [List.lookup_cons, beq_eq_false_iff_ne.2 h, Function.update_of_ne h]

theorem moved_nil (e : Env ℝ) (D : String → ℝ) : moved e D [] = e := by
  funext s; simp [moved]

theorem moved_cons (e : Env ℝ) (D : String → ℝ) {y : String} {ys : List String} (h : y ∉ ys) :
    moved e D (y :: ys) = Function.update (moved e D ys) y (moved e D ys y + D y) := by
  funext s
  by_cases hs : s = y
  · subst hs; simp [moved, h]
  · simp [moved, hs]

theorem moved_append (e : Env ℝ) (D : String → ℝ) (xs ys : List String)
    (h : ∀ x ∈ xs, x ∉ ys) : moved e D (xs ++ ys) = moved (moved e D ys) D xs := by
  funext s
  unfold moved
  by_cases h1 : s ∈ xs
  · simp [h1, h s h1]
  · simp [h1]

theorem moved_congr {e : Env ℝ} {D D' : String → ℝ} {xs : List String}
    (h : ∀ x ∈ xs, D x = D' x) : moved e D xs = moved e D' xs := by
  funext s; unfold moved; split_ifs with hs
  · rw [h s hs]
  · rfl

/-! ### Coordinate calculus -/

theorem pdiff_update (f : Sc) (x : String) (e : Env ℝ) (t : ℝ) :
    pdiff f x (Function.update e x t) = deriv (fun t => f (Function.update e x t)) t := by
  unfold pdiff
  simp

/-- A function whose derivative with respect to `x` is constant along `x` is affine. -/
theorem affine_coord {f : Sc} {x : String} (hd : CDiff f x) (hc : Indep (pdiff f x) x)
    (e : Env ℝ) (t : ℝ) : f (Function.update e x t) = f e + pdiff f x e * (t - e x) := by
  have key : ∀ s, deriv (fun t => f (Function.update e x t) - pdiff f x e * t) s = 0 := by
    intro s
    have h1 : deriv (fun t => f (Function.update e x t)) s = pdiff f x e := by
      rw [← pdiff_update, hc]
    have h2 : HasDerivAt (fun t => f (Function.update e x t)) (pdiff f x e) s := by
      rw [← h1]; exact (hd e s).hasDerivAt
    have h3 := h2.sub ((hasDerivAt_id s).const_mul (pdiff f x e))
    have := h3.deriv
    simp only [mul_one, sub_self, id] at this
    exact this
  have hdiff : Differentiable ℝ (fun t => f (Function.update e x t) - pdiff f x e * t) :=
    (hd e).sub (differentiable_id.const_mul _)
  have := is_const_of_deriv_eq_zero hdiff key t (e x)
  simp only [Function.update_eq_self] at this
  linarith

/-- A function whose second derivative with respect to `x` is constant along `x` is
quadratic. -/
theorem quad_coord {f : Sc} {x : String} (hd : CDiff f x) (hd2 : CDiff (pdiff f x) x)
    (hc : Indep (pdiff (pdiff f x) x) x) (e : Env ℝ) (t : ℝ) :
    f (Function.update e x t) = f e + pdiff f x e * (t - e x) +
      1 / 2 * pdiff (pdiff f x) x e * (t - e x) ^ 2 := by
  set c := pdiff (pdiff f x) x e
  set a := pdiff f x e
  have key : ∀ s, deriv (fun t => f (Function.update e x t) -
      (a * (t - e x) + 1 / 2 * c * (t - e x) ^ 2)) s = 0 := by
    intro s
    have h1 : deriv (fun t => f (Function.update e x t)) s = a + c * (s - e x) := by
      rw [← pdiff_update, affine_coord hd2 hc]
    have h2 : HasDerivAt (fun t => f (Function.update e x t)) (a + c * (s - e x)) s := by
      rw [← h1]; exact (hd e s).hasDerivAt
    have h4 : HasDerivAt (fun t : ℝ => t - e x) 1 s := (hasDerivAt_id s).sub_const _
    have h3 := h2.sub ((h4.const_mul a).add ((h4.pow 2).const_mul (1 / 2 * c)))
    have h5 := h3.deriv
    have h6 : a + c * (s - e x) - (a * 1 + 1 / 2 * c * ((2 : ℕ) * (s - e x) ^ (2 - 1) * 1)) = 0 := by
      norm_num; ring
    rw [h6] at h5
    exact h5
  have h4 : Differentiable ℝ (fun t : ℝ => t - e x) := differentiable_id.sub_const _
  have hdiff : Differentiable ℝ (fun t => f (Function.update e x t) -
      (a * (t - e x) + 1 / 2 * c * (t - e x) ^ 2)) :=
    (hd e).sub ((h4.const_mul a).add ((h4.pow 2).const_mul _))
  have := is_const_of_deriv_eq_zero hdiff key t (e x)
  simp only [Function.update_eq_self] at this
  linarith

/-- A function with zero derivative with respect to `x` does not depend on `x`. -/
theorem indep_of_pdiff_zero {f : Sc} {x : String} (hd : CDiff f x) (h0 : ∀ e, pdiff f x e = 0) :
    Indep f x := by
  intro e t
  rw [affine_coord hd (fun e t => by rw [h0, h0]), h0]; ring

theorem Indep.moved {f : Sc} (ys : List String) (h : ∀ y ∈ ys, Indep f y) (e : Env ℝ)
    (D : String → ℝ) (hnd : ys.Nodup) : f (moved e D ys) = f e := by
  induction ys with
  | nil => rw [moved_nil]
  | cons y ys ih =>
    rw [moved_cons _ _ (List.nodup_cons.1 hnd).1, h y (by simp),
      ih (fun z hz => h z (List.mem_cons_of_mem _ hz)) (List.nodup_cons.1 hnd).2]

/-! ### Quadratic energies -/

/-- Coordinate-wise smoothness needed below: `H` and its first derivatives are
differentiable with respect to each variable of `xs`. -/
structure Smooth2 (H : Sc) (xs : List String) : Prop where
  d1 : ∀ i ∈ xs, CDiff H i
  d2 : ∀ i ∈ xs, ∀ j ∈ xs, CDiff (pdiff H i) j

/-- The second derivatives with respect to the variables of `xs` do not depend on the
variables of `xs`. -/
def ConstHess (H : Sc) (xs : List String) : Prop :=
  ∀ i ∈ xs, ∀ j ∈ xs, ∀ k ∈ xs, Indep (pdiff (pdiff H i) j) k

theorem pdiff_update_ne {H : Sc} {xs : List String} (hs : Smooth2 H xs) (hc : ConstHess H xs)
    {i j : String} (hi : i ∈ xs) (hj : j ∈ xs) (e : Env ℝ) (t : ℝ) :
    pdiff H i (Function.update e j t) = pdiff H i e + pdiff (pdiff H i) j e * (t - e j) :=
  affine_coord (hs.d2 i hi j hj) (hc i hi j hj j hj) e t

/-- Symmetry of the constant second derivatives. -/
theorem constHess_symm {H : Sc} {xs : List String} (hs : Smooth2 H xs) (hc : ConstHess H xs)
    {i j : String} (hi : i ∈ xs) (hj : j ∈ xs) (e : Env ℝ) :
    pdiff (pdiff H i) j e = pdiff (pdiff H j) i e := by
  by_cases hij : i = j
  · subst hij; rfl
  have q := fun (a : String) (ha : a ∈ xs) (e : Env ℝ) (t : ℝ) =>
    quad_coord (hs.d1 a ha) (hs.d2 a ha a ha) (hc a ha a ha a ha) e t
  have hcomm : Function.update (Function.update e i (e i + 1)) j (e j + 1) =
      Function.update (Function.update e j (e j + 1)) i (e i + 1) := Function.update_comm hij _ _ _
  have h1 := q j hj (Function.update e i (e i + 1)) (e j + 1)
  have h2 := q i hi e (e i + 1)
  have h3 := q i hi (Function.update e j (e j + 1)) (e i + 1)
  have h4 := q j hj e (e j + 1)
  rw [pdiff_update_ne hs hc hj hi, Function.update_of_ne (Ne.symm hij),
    hc j hj j hj i hi] at h1
  rw [pdiff_update_ne hs hc hi hj, Function.update_of_ne hij, hc i hi i hi j hj] at h3
  rw [hcomm, h3, h4, h2] at h1
  linarith

/-- Gradient of an energy with constant Hessian at a moved point. -/
theorem pdiff_moved {H : Sc} {xs : List String} (hs : Smooth2 H xs) (hc : ConstHess H xs)
    {i : String} (hi : i ∈ xs) (e : Env ℝ) (D : String → ℝ) (ys : List String)
    (hys : ∀ y ∈ ys, y ∈ xs) (hnd : ys.Nodup) :
    pdiff H i (moved e D ys) = pdiff H i e + (ys.map fun j => pdiff (pdiff H i) j e * D j).sum := by
  induction ys with
  | nil => simp [moved_nil]
  | cons y ys ih =>
    have hy := hys y (by simp)
    have hys' : ∀ z ∈ ys, z ∈ xs := fun z hz => hys z (List.mem_cons_of_mem _ hz)
    have hnd' := (List.nodup_cons.1 hnd)
    rw [moved_cons _ _ hnd'.1, pdiff_update_ne hs hc hi hy, ih hys' hnd'.2, List.map_cons,
      List.sum_cons, Indep.moved ys (fun z hz => hc i hi y hy z (hys' z hz)) e D hnd'.2]
    ring

theorem sum_map_add (l : List String) (f g : String → ℝ) :
    (l.map fun j => f j + g j).sum = (l.map f).sum + (l.map g).sum := by
  induction l with
  | nil => simp
  | cons a l ih => simp only [List.map_cons, List.sum_cons, ih]; ring

theorem sum_map_mul_left (l : List String) (c : ℝ) (g : String → ℝ) :
    (l.map fun j => c * g j).sum = c * (l.map g).sum := by
  induction l with
  | nil => simp
  | cons a l ih => simp only [List.map_cons, List.sum_cons, ih]; ring

theorem sum_map_mul_right (l : List String) (c : ℝ) (g : String → ℝ) :
    (l.map fun j => g j * c).sum = (l.map g).sum * c := by
  induction l with
  | nil => simp
  | cons a l ih => simp only [List.map_cons, List.sum_cons, ih]; ring

theorem sum_map_congr {l : List String} {f g : String → ℝ} (h : ∀ a ∈ l, f a = g a) :
    (l.map f).sum = (l.map g).sum := by
  rw [List.map_congr_left h]

/-- Value of an energy with constant Hessian at a moved point. -/
theorem quad_moved {H : Sc} {xs : List String} (hs : Smooth2 H xs) (hc : ConstHess H xs)
    (e : Env ℝ) (D : String → ℝ) (ys : List String) (hys : ∀ y ∈ ys, y ∈ xs) (hnd : ys.Nodup) :
    H (moved e D ys) = H e + (ys.map fun i => pdiff H i e * D i).sum +
      1 / 2 * (ys.map fun i => (ys.map fun j => pdiff (pdiff H i) j e * D j).sum * D i).sum := by
  induction ys with
  | nil => simp [moved_nil]
  | cons y ys ih =>
    have hy := hys y (by simp)
    have hys' : ∀ z ∈ ys, z ∈ xs := fun z hz => hys z (List.mem_cons_of_mem _ hz)
    have hnd' := (List.nodup_cons.1 hnd)
    rw [moved_cons _ _ hnd'.1, quad_coord (hs.d1 y hy) (hs.d2 y hy y hy) (hc y hy y hy y hy),
      ih hys' hnd'.2, pdiff_moved hs hc hy e D ys hys' hnd'.2,
      Indep.moved ys (fun z hz => hc y hy y hy z (hys' z hz)) e D hnd'.2]
    simp only [List.map_cons, List.sum_cons]
    have e1 : (ys.map fun i => (pdiff (pdiff H i) y e * D y +
        (ys.map fun j => pdiff (pdiff H i) j e * D j).sum) * D i).sum =
        D y * (ys.map fun j => pdiff (pdiff H y) j e * D j).sum +
        (ys.map fun i => (ys.map fun j => pdiff (pdiff H i) j e * D j).sum * D i).sum := by
      rw [← sum_map_mul_left, ← sum_map_add]
      refine sum_map_congr fun i hi => ?_
      rw [constHess_symm hs hc (hys' i hi) hy]
      ring
    rw [e1]
    ring

end Scheme
end Pyphs
