import Verif.Scheme.GradProps

namespace Pyphs
namespace Scheme

/-! ### Examples meeting the hypotheses, and energies for which the identities fail -/

theorem dn_a : dn "a" = "da" := by decide
theorem dn_b : dn "b" = "db" := by decide
theorem dn_c : dn "c" = "dc" := by decide
theorem dn_f : dn "f" = "df" := by decide

/-- A quadratic, a separable and a coupled part. -/
def exH : Sc := fun e => e "a" ^ 2 + e "b" ^ 4 + e "c" ^ 2 * e "f"

/-- The groups of states of `exH`. -/
def exG : Groups := ⟨["a"], ["b"], ["c", "f"]⟩

theorem pd_a : pdiff exH "a" = fun e => 2 * e "a" := by
  funext e; simp [pdiff, exH, Function.update]
theorem pd_b : pdiff exH "b" = fun e => 4 * e "b" ^ 3 := by
  funext e; simp [pdiff, exH, Function.update]
theorem pd_c : pdiff exH "c" = fun e => 2 * e "c" * e "f" := by
  funext e; simp [pdiff, exH, Function.update]
theorem pd_f : pdiff exH "f" = fun e => e "c" ^ 2 := by
  funext e; simp [pdiff, exH, Function.update]

theorem exH_ok : GroupsOK exH exG where
  nodup := by decide
  smooth := by
    constructor
    · intro i hi e
      simp only [exG, Groups.x, List.cons_append, List.nil_append, List.mem_cons,
        List.not_mem_nil, or_false] at hi
      rcases hi with rfl | rfl | rfl | rfl <;> simp [exH, Function.update] <;> fun_prop
    · intro i hi j hj e
      simp only [exG, Groups.x, List.cons_append, List.nil_append, List.mem_cons,
        List.not_mem_nil, or_false] at hi hj
      rcases hi with rfl | rfl | rfl | rfl <;> rcases hj with rfl | rfl | rfl | rfl <;>
        simp only [pd_a, pd_b, pd_c, pd_f] <;> simp [Function.update] <;> fun_prop
  lin := by
    intro i hi j hj k hk e t
    simp only [exG, List.mem_cons, List.not_mem_nil, or_false] at hi hj hk
    subst hi hj hk
    rw [pd_a]; simp [pdiff]
  sep := by
    intro i hi j hj hij
    simp only [exG, List.mem_cons, List.not_mem_nil, or_false] at hi hj
    exact absurd (hi.trans hj.symm) hij
  cross1 := by
    intro i hi j hj e
    simp only [exG, List.cons_append, List.nil_append, List.mem_cons, List.not_mem_nil,
      or_false] at hi hj
    subst hi
    rcases hj with rfl | rfl | rfl <;> rw [pd_a] <;> simp [pdiff, Function.update]
  cross2 := by
    intro i hi j hj e
    simp only [exG, List.mem_cons, List.not_mem_nil, or_false] at hi hj
    subst hi
    rcases hj with rfl | rfl <;> rw [pd_b] <;> simp [pdiff, Function.update]

/-- States 1, 2, 3, 4 and increments 1, 0, 1, -1. -/
def exE : Env ℝ := fun s =>
  if s = "a" then 1 else if s = "b" then 2 else if s = "c" then 3 else if s = "f" then 4
  else if s = "da" then 1 else if s = "db" then 0 else if s = "dc" then 1
  else if s = "df" then -1 else 0

example : gdot (buildGradient exH exG .discret 0 (1 / 8)) exG.x exE =
    exH (next exE exG.x) - exH exE :=
  C20_gradient_exact exH exG exH_ok 0 (1 / 8) (by norm_num) exE
    (by intro x hx
        simp only [exG, List.mem_cons, List.not_mem_nil, or_false] at hx
        subst hx
        left; rw [dn_b]; simp [exE])
    (by right; simp only [exG, List.map_cons, List.map_nil, dn_c, dn_f]; simp [exE]; norm_num)

/-- The energy coupling a linear and a nonlinear state. -/
def crossH : Sc := fun e => e "a" * e "b" + e "b" ^ 4

/-- **C15**, the limit of the method: for `H = a*b + b⁴` the column of the Hessian of `a` is
free of states and that of `b` is not, so that the code takes `a` as linear and `b` as
nonlinear monovariate; the resulting gradient is not exact (the term `da*db` is missing). -/
theorem C15_coupling_counterexample :
    (∀ e, pdiff (pdiff crossH "a") "a" e = 0 ∧ pdiff (pdiff crossH "b") "a" e = 1 ∧
      pdiff (pdiff crossH "b") "b" e = 12 * e "b" ^ 2) ∧
    ∀ tol : ℝ, 0 < tol → tol ≤ 1 → ∃ e : Env ℝ, StepOK tol (e (dn "b")) ∧
      gdot (buildGradient crossH ⟨["a"], ["b"], []⟩ .discret 0 tol) ["a", "b"] e ≠
        crossH (next e ["a", "b"]) - crossH e := by
  have ha : pdiff crossH "a" = fun e => e "b" := by
    funext e; simp [pdiff, crossH, Function.update]
  have hb : pdiff crossH "b" = fun e => e "a" + 4 * e "b" ^ 3 := by
    funext e; simp [pdiff, crossH, Function.update]
    rw [deriv_fun_add (by fun_prop) (by fun_prop)]
    simp
  refine ⟨fun e => ⟨by rw [ha]; simp [pdiff, Function.update],
      by rw [hb]; simp [pdiff, Function.update], ?_⟩,
    fun tol h0 h1 => ⟨fun s => if s = "da" then 1 else if s = "db" then 1 else 0, ?_, ?_⟩⟩
  · rw [hb]; simp [pdiff, Function.update]; ring
  · right; right; rw [dn_b]; simpa using h1
  · have hl : gradLin crossH ⟨["a"], ["b"], []⟩ = [fun e => e "b"] := by
      rw [gradLin_eq]
      simp only [List.map_cons, List.map_nil, ha]
      congr 1; funext e; simp [pdiff, Function.update]
    simp only [buildGradient, hl, gradMono, gradMulti, gradTheta, gradient, List.map_cons,
      List.map_nil, List.zip_nil_left, List.append_nil, List.cons_append, List.nil_append, gdot,
      List.zip_cons_cons, List.zip_nil_right, List.sum_cons, List.sum_nil, dn_a, dn_b, subs_single]
    have h2 : ¬ ((1 : ℝ) < -tol) := by linarith
    have h3 : ¬ ((1 : ℝ) < tol) := by linarith
    simp [next, crossH, dn_a, dn_b, Function.update, h2, h3]

/-- A cubic and a quartic energy. -/
def cubH : Sc := fun e => e "a" ^ 3
/-- See `cubH`. -/
def quartH : Sc := fun e => e "a" ^ 4

/-- **C16**: the interval of the expansion is not symmetric; at `dx = -tol` the identity
fails although `|dx| >= tol`. -/
theorem C16_boundary_counterexample (tol : ℝ) (h : 0 < tol) :
    SeparableE cubH ["a"] ∧ ∃ e : Env ℝ, |e (dn "a")| = tol ∧
      gdot (gradMono cubH ["a"] tol) ["a"] e ≠ cubH (next e ["a"]) - cubH e := by
  have h1 : pdiff cubH "a" = fun e => 3 * e "a" ^ 2 := by
    funext e; simp [pdiff, cubH, Function.update]
  refine ⟨fun i hi j hj hij => ?_, fun s => if s = "da" then -tol else 0, ?_, ?_⟩
  · simp only [List.mem_cons, List.not_mem_nil, or_false] at hi hj
    exact absurd (hi.trans hj.symm) hij
  · rw [dn_a]; simp [abs_of_pos h]
  · simp only [gradMono, List.map_cons, List.map_nil, gdot, List.zip_cons_cons, List.zip_nil_right,
      List.sum_cons, List.sum_nil, dn_a, subs_single, h1]
    have h2 : -tol < tol := by linarith
    simp [next, cubH, dn_a, Function.update, h2, pdiff]
    intro h3
    have : tol ^ 3 = 0 := by linear_combination h3
    exact h.ne' (by simpa using this)

/-- **C18**: for a quartic energy neither the midpoint nor the trapezoidal gradient is
exact. -/
theorem C18_not_exact : ∃ e : Env ℝ,
    gdot (gradTheta quartH ["a"] (1 / 2)) ["a"] e ≠ quartH (next e ["a"]) - quartH e ∧
    gdot (gradTrapez quartH ["a"]) ["a"] e ≠ quartH (next e ["a"]) - quartH e := by
  have h1 : pdiff quartH "a" = fun e => 4 * e "a" ^ 3 := by
    funext e; simp [pdiff, quartH, Function.update]
  refine ⟨fun s => if s = "da" then 1 else 0, ?_, ?_⟩
  · simp only [gradTheta, gradient, gdot, List.map_cons, List.map_nil, List.zip_cons_cons,
      List.zip_nil_right, List.sum_cons, List.sum_nil, dn_a, h1, subs_shift]
    simp [next, quartH, dn_a, moved, incr]; norm_num
  · simp only [gradTrapez, gradient, gdot, List.map_cons, List.map_nil, List.zip_cons_cons,
      List.zip_nil_right, List.sum_cons, List.sum_nil, dn_a, h1, subs_shift]
    simp [next, quartH, dn_a, moved, incr]; norm_num

/-- **C18**: for `theta ≠ 1/2` the theta gradient is not exact even for a quadratic
energy. -/
theorem C18_theta_not_exact (θ : ℝ) (hθ : θ ≠ 1 / 2) : ∃ e : Env ℝ,
    gdot (gradTheta (fun e => e "a" ^ 2) ["a"] θ) ["a"] e ≠
      (next e ["a"] "a") ^ 2 - (e "a") ^ 2 := by
  have h1 : pdiff (fun e : Env ℝ => e "a" ^ 2) "a" = fun e => 2 * e "a" := by
    funext e; simp [pdiff, Function.update]
  refine ⟨fun s => if s = "da" then 1 else 0, ?_⟩
  simp only [gradTheta, gradient, gdot, List.map_cons, List.map_nil, List.zip_cons_cons,
      List.zip_nil_right, List.sum_cons, List.sum_nil, dn_a, h1, subs_shift]
  simp [next, dn_a, moved, incr]
  intro h; apply hθ; linarith

/-- Example for C18: a quadratic energy with coupled states. -/
example (e : Env ℝ) : gdot (gradTrapez (fun e => e "a" * e "b" + e "a" ^ 2) ["a", "b"]) ["a", "b"] e
    = ((e "a" + e "da") * (e "b" + e "db") + (e "a" + e "da") ^ 2) - (e "a" * e "b" + e "a" ^ 2) := by
  have ha : pdiff (fun e : Env ℝ => e "a" * e "b" + e "a" ^ 2) "a" = fun e => e "b" + 2 * e "a" := by
    funext e; simp [pdiff, Function.update]
  have hb : pdiff (fun e : Env ℝ => e "a" * e "b" + e "a" ^ 2) "b" = fun e => e "a" := by
    funext e; simp [pdiff, Function.update]
  have hs : Smooth2 (fun e : Env ℝ => e "a" * e "b" + e "a" ^ 2) ["a", "b"] := by
    constructor
    · intro i hi e
      simp only [List.mem_cons, List.not_mem_nil, or_false] at hi
      rcases hi with rfl | rfl <;> simp [Function.update] <;> fun_prop
    · intro i hi j hj e
      simp only [List.mem_cons, List.not_mem_nil, or_false] at hi hj
      rcases hi with rfl | rfl <;> rcases hj with rfl | rfl <;> simp only [ha, hb] <;>
        simp [Function.update] <;> fun_prop
  have hc : ConstHess (fun e : Env ℝ => e "a" * e "b" + e "a" ^ 2) ["a", "b"] := by
    intro i hi j hj k hk e t
    simp only [List.mem_cons, List.not_mem_nil, or_false] at hi hj hk
    rcases hi with rfl | rfl <;> rcases hj with rfl | rfl <;> rcases hk with rfl | rfl <;>
      simp only [ha, hb] <;> simp [pdiff, Function.update]
  rw [C18_trapez_exact _ _ (by decide) hs hc]
  simp [next, dn_a, dn_b]

end Scheme
end Pyphs
