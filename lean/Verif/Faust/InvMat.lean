/-
Model of /repo/pyphs/misc/faust/_method_invmat.py: the expressions of the updates of the unknowns that are
given to the Faust generator. The value of the inverse of a matrix of expressions (`inverse_LU`, `inv`) is
the inverse of the matrix of the values; `simplify` keeps the values.
-/
import Verif.Numeric.Newton
import Verif.Faust.Props

namespace Pyphs
namespace Faust
open Scheme Mat Numeric

/-- Lines 48-50: `ijactempFll`. -/
noncomputable def iJll (m : Meth) (e : Env ℝ) : Mat ℝ := ((m.J .l .l e).inv).getD (Mat.zeros 0 0)

/-- Lines 52-55: component `i` of `ud_vl = -ijactempFll.Gl`. -/
noncomputable def udVlE (m : Meth) (i : ℕ) : Sc := fun e => (iJll m e).neg.mv (fun j => m.G .l j e) i

/-- Lines 57-61: component `i` of `Fnl = Gnl - (jactempFnll*ijactempFll).Gl`. -/
noncomputable def redF (m : Meth) (i : ℕ) : Sc := fun e =>
  m.G .nl i e - ((m.J .nl .l e).mul (iJll m e)).mv (fun j => m.G .l j e) i

/-- Lines 63-66: `jacFnlnl = jacGnlnl - jactempFnll*ijactempFll*jacGlnl`. -/
noncomputable def redJ (m : Meth) (e : Env ℝ) : Mat ℝ :=
  (m.JG .nl .nl e).sub (((m.J .nl .l e).mul (iJll m e)).mul (m.JG .l .nl e))

/-- Lines 68-80: component `i` of `ud_vnl = vnl - ijacFnlnl.Fnl`. -/
noncomputable def udVnlE (m : Meth) (i : ℕ) : Sc := fun e =>
  svals (m.v .nl) e i - (((redJ m e).inv).getD (Mat.zeros 0 0)).mv (fun j => redF m j e) i

/-- The list `ud_vl`. -/
noncomputable def udVlList (m : Meth) : List Sc := (List.range (m.v .l).length).map (udVlE m)

/-- The list `ud_vnl`. -/
noncomputable def udVnlList (m : Meth) : List Sc := (List.range (m.v .nl).length).map (udVnlE m)

/-- **Specification** of the updates: `udvl` solves the linear equations for the linear unknowns; `udvnl`
moves the nonlinear unknowns by the solution `ψ` of the linearised equations (for some change `φ` of the
linear unknowns). -/
structure Solves (m : Meth) (udvl udvnl : List Sc) : Prop where
  vl : udvl.length = (m.v .l).length
  vnl : udvnl.length = (m.v .nl).length
  lin : ∀ e, ∀ i < (m.v .l).length, (m.J .l .l e).mv (vals udvl e) i = - m.G .l i e
  newton : ∀ e, ∃ φ : ℕ → ℝ,
    (∀ i < (m.v .l).length, (m.J .l .l e).mv φ i +
      (m.JG .l .nl e).mv (fun j => vals udvnl e j - svals (m.v .nl) e j) i = - m.G .l i e) ∧
    ∀ i < (m.v .nl).length, (m.J .nl .l e).mv φ i +
      (m.JG .nl .nl e).mv (fun j => vals udvnl e j - svals (m.v .nl) e j) i = - m.G .nl i e

theorem vals_range {k : ℕ} {f : ℕ → Sc} {e : Env ℝ} {i : ℕ} (h : i < k) :
    vals ((List.range k).map f) e i = f i e := by
  simp [vals, List.getD_eq_getElem?_getD, h]

/-- **C72**: the expressions of `MethodInvMat` satisfy the specification, when the Jacobian of the equations is
nonsingular. -/
theorem C72_invmat {m : Meth} (hN : Nonsing m) : Solves m (udVlList m) (udVnlList m) := by
  have hJ : ∀ e, IsInv (m.J .l .l e) (iJll m e) := by
    intro e
    obtain ⟨B, hB⟩ := inv_of_kernel (A := m.J .l .l e) (k := (m.v .l).length) rfl rfl (hN.lin e)
    unfold iJll
    rw [hB]
    exact inv_isInv hB
  have hl : ∀ e (ψ : ℕ → ℝ), ∀ i < (m.v .l).length, (m.J .l .l e).mv ((iJll m e).mv ψ) i = ψ i :=
    fun e ψ i hi => (hJ e).mv_left ψ hi
  refine ⟨by simp [udVlList], by simp [udVnlList], fun e i hi => ?_, fun e => ?_⟩
  · rw [mv_congr (w := (iJll m e).mv fun j => - m.G .l j e) (fun j hj => ?_) i, hl e _ i hi]
    have hj' : j < (m.v .l).length := hj
    rw [udVlList, vals_range hj', udVlE, mv_neg_mat, mv_neg]
  · have hr : ∀ (ψ : ℕ → ℝ) i, (redJ m e).mv ψ i = (m.JG .nl .nl e).mv ψ i -
        (m.J .nl .l e).mv ((iJll m e).mv ((m.JG .l .nl e).mv ψ)) i := by
      intro ψ i
      have hc : (m.JG .nl .nl e).c = (((m.J .nl .l e).mul (iJll m e)).mul (m.JG .l .nl e)).c := rfl
      rw [redJ, mv_sub_mat _ _ hc, mv_mul, mv_mul]
    obtain ⟨B, hB⟩ := inv_of_kernel (A := redJ m e) (k := (m.v .nl).length) rfl rfl fun ψ h => by
      refine hN.all e (fun j => - (iJll m e).mv ((m.JG .l .nl e).mv ψ) j) ψ (fun i hi => ?_) fun i hi => ?_
      · rw [mv_neg, hl e _ i hi]; ring
      · rw [mv_neg]
        have := h i hi
        rw [hr] at this
        linarith
    have hI := inv_isInv hB
    set F : ℕ → ℝ := fun j => redF m j e with hF
    set ψ : ℕ → ℝ := fun j => vals (udVnlList m) e j - svals (m.v .nl) e j with hψ
    have hψ' : ∀ j < (m.v .nl).length, ψ j = - B.mv F j := by
      intro j hj
      rw [hψ]
      simp only
      rw [udVnlList, vals_range hj, udVnlE, hB]
      simp only [Option.getD_some]
      ring
    have key : ∀ i < (m.v .nl).length, (redJ m e).mv ψ i = - F i := by
      intro i hi
      rw [mv_congr (w := fun j => - B.mv F j) (fun j hj => hψ' j hj) i, mv_neg, hI.mv_left F hi]
    refine ⟨fun j => (iJll m e).mv (fun k => - m.G .l k e) j - (iJll m e).mv ((m.JG .l .nl e).mv ψ) j,
      fun i hi => ?_, fun i hi => ?_⟩
    · rw [mv_sub, hl e _ i hi, hl e _ i hi]; ring
    · have h1 := key i hi
      rw [hr] at h1
      have h2 : F i = m.G .nl i e - (m.J .nl .l e).mv ((iJll m e).mv fun j => m.G .l j e) i := by
        rw [hF]; simp only; rw [redF, mv_mul]
      rw [mv_sub]
      have h3 : (m.J .nl .l e).mv ((iJll m e).mv fun k => - m.G .l k e) i =
          - (m.J .nl .l e).mv ((iJll m e).mv fun k => m.G .l k e) i := by
        rw [← mv_neg]
        exact mv_congr (fun j _ => mv_neg _ _ _) i
      linarith

end Faust
end Pyphs
