/-
Property C67: a nonlinear system to which it applies, and a passive system with a convex energy whose
update always fails.
-/
import Verif.Numeric.NonsingProps

namespace Pyphs
namespace Numeric
open Scheme Mat Finset

/-! ### A quadratic storage and a cubic dissipation -/

theorem exSp_diag : DiagSys exSp := by
  have hx : exSp.g.x = ["a"] := rfl
  have hw : exSp.w = ["w"] := rfl
  have hsz : sz exSp = 2 := rfl
  have hdn : dn "a" = "da" := by decide
  have v0 : vn exSp 0 = "da" := by unfold vn; rw [hx]; simp [hdn]
  have v1 : vn exSp 1 = "w" := by unfold vn; rw [hx, hw]; simp
  have f0 : fn exSp 0 = fun e => e "a" + 1 / 2 * e "da" := rfl
  have f1 : fn exSp 1 = fun e => e "w" ^ 3 := rfl
  refine ⟨fun _ _ _ _ _ _ => rfl, ?_, ?_, ?_, ?_⟩
  · intro e a
    rw [hsz]
    simp only [sum_range_succ, sum_range_zero]
    simp [exSp]
    linarith
  · intro j hj k hk hkj e t
    rw [exSp_v] at hk
    simp only [List.mem_cons, List.not_mem_nil, or_false] at hk
    rw [hsz] at hj
    interval_cases j
    · rw [v0] at hkj
      obtain rfl : k = "w" := hk.resolve_left hkj
      simp [f0, Function.update]
    · rw [v1] at hkj
      obtain rfl : k = "da" := hk.resolve_right hkj
      simp [f1, Function.update]
  · intro j hj e
    rw [hsz] at hj
    interval_cases j
    · rw [v0, f0]; simp [Function.update]; fun_prop
    · rw [v1, f1]; simp [Function.update]
  · intro j hj e
    rw [hsz] at hj
    interval_cases j
    · rw [v0, f0]
      simp [pdiff, Function.update]
    · rw [v1, f1]
      simp [pdiff, Function.update]
      positivity

theorem exSp_monotone : MonotoneSys exSp :=
  exSp_diag.monotone exSp_wf exSp_ok (show (0 : ℝ) < 1 from one_pos) fun _ _ => by simp [exSp]

/-- The updates of this system never fail, however many iterations are made. -/
example (b : Env ℝ) (k : ℕ) (st : St Nm ℝ) (hl : st.args.length = 3) :
    ∃ st', ({ exN b with maxit := k } : Num).update (some []) (some []) st = some st' :=
  C67_update (n := { exN b with maxit := k }) ⟨(exN_wf b).1, (exN_wf b).2⟩ exSp_ok
    (C67_nonsing exSp_wf exSp_ok exSp_monotone (show (0 : ℝ) < 1 from one_pos)) rfl rfl rfl
    (by rw [hl]; rfl)

/-! ### Linear and nonlinear states that are coupled by the energy -/

/-- If an update returns, the Jacobian of the linear part has an inverse. -/
theorem update_lin {n : Num} (h0 : 0 < n.l) {u p : Option (List ℝ)} {st st' : St Nm ℝ}
    (hu : n.update u p st = some st') :
    ∃ e iJ, ∀ (ψ : ℕ → ℝ), ∀ i < n.l, (n.m.J .l .l e).mv (Mat.mv iJ ψ) i = ψ i := by
  obtain ⟨s1, s2, h1, h2, h3⟩ := update_split hu
  obtain ⟨s3, s4, s5, e3, e4, e5, e6⟩ := actions_split h3
  have epre : n.pre' = [⟨.o, .ud_o⟩] ++ ((if 0 < n.l then [c1 .jactempFll, c1 .ijactempFll, c1 .Gl]
      else []) ++ (if 0 < n.nl then (if 0 < n.l then [c1 .jactempFnll] else []) ++
        [c1 .Gnl, c1 .Fnl, c1 .res_Fnl] else [])) := by
    unfold Num.pre' Num.pre; split_ifs <;> rfl
  rw [epre, execs_append] at e4
  obtain ⟨a0, b0, e4⟩ := Option.bind_eq_some_iff.1 e4
  rw [if_pos h0] at e4
  obtain ⟨a1, iJ, q1, q2, q3⟩ := pre_lin h0 e4
  exact ⟨_, iJ, fun ψ i hi => q2.inv ψ i hi⟩

/-- Two states coupled by the energy `a^2/2 + a b + b^2 + b^4/4` and by the structure; midpoint. -/
noncomputable def cplH : Sc := fun e => e "a" ^ 2 / 2 + e "a" * e "b" + e "b" ^ 2 + e "b" ^ 4 / 4

noncomputable def cpl : Meth where
  g := ⟨["a"], ["b"], []⟩
  w := []
  u := []
  y := []
  wl := 0
  H := cplH
  z := []
  dxH := buildGradient cplH ⟨["a"], ["b"], []⟩ .theta (1 / 2) 0
  M := fun _ => ⟨2, 2, fun i j => if i = 0 ∧ j = 1 then 2 else if i = 1 ∧ j = 0 then -2 else 0⟩
  fs := 1

theorem cplH_a : pdiff cplH "a" = fun e => e "a" + e "b" := by
  funext e
  have : (fun t => cplH (Function.update e "a" t)) =
      fun t => t ^ 2 / 2 + t * e "b" + e "b" ^ 2 + e "b" ^ 4 / 4 := by
    funext t; simp [cplH, Function.update]
  unfold pdiff
  rw [this]
  have h := ((((hasDerivAt_id (e "a")).pow 2).div_const 2).add
    ((hasDerivAt_id (e "a")).mul_const (e "b"))).add_const (e "b" ^ 2) |>.add_const (e "b" ^ 4 / 4)
  refine Eq.trans (HasDerivAt.deriv h) ?_
  simp

theorem cplH_b : pdiff cplH "b" = fun e => e "a" + 2 * e "b" + e "b" ^ 3 := by
  funext e
  have : (fun t => cplH (Function.update e "b" t)) =
      fun t => e "a" ^ 2 / 2 + e "a" * t + t ^ 2 + t ^ 4 / 4 := by
    funext t; simp [cplH, Function.update]
  unfold pdiff
  rw [this]
  have h := ((((hasDerivAt_id (e "b")).const_mul (e "a")).const_add (e "a" ^ 2 / 2)).add
    ((hasDerivAt_id (e "b")).pow 2)).add (((hasDerivAt_id (e "b")).pow 4).div_const 4)
  refine Eq.trans (HasDerivAt.deriv h) ?_
  simp

theorem cpl_dxH : cpl.dxH = [fun e => e "a" + 1 / 2 * e "da" + (e "b" + 1 / 2 * e "db"),
    fun e => e "a" + 1 / 2 * e "da" + 2 * (e "b" + 1 / 2 * e "db") + (e "b" + 1 / 2 * e "db") ^ 3] := by
  have ha : dn "a" = "da" := by decide
  have hb : dn "b" = "db" := by decide
  show buildGradient cplH ⟨["a"], ["b"], []⟩ .theta (1 / 2) 0 = _
  simp only [buildGradient, gradTheta, gradient, Groups.x, List.append_nil, List.singleton_append,
    List.map_cons, List.map_nil, cplH_a, cplH_b]
  refine List.cons_eq_cons.2 ⟨?_, List.cons_eq_cons.2 ⟨?_, rfl⟩⟩ <;>
  · funext e; rw [subs_shift]; simp [moved, incr, ha, hb]

theorem cpl_wf : MethWF cpl :=
  ⟨fun _ => rfl, fun _ => rfl, rfl, rfl, by rw [cpl_dxH]; rfl, le_refl _, by decide⟩

theorem cpl_vl : cpl.v .l = ["da"] := by decide
theorem cpl_vnl : cpl.v .nl = ["db"] := by decide
theorem cpl_v : cpl.v .all = ["da", "db"] := by decide

theorem cpl_res0 (e : Env ℝ) : cpl.res 0 e = e "da" - 2 * (e "a" + 1 / 2 * e "da" +
    2 * (e "b" + 1 / 2 * e "db") + (e "b" + 1 / 2 * e "db") ^ 3) := by
  have hx : cpl.g.x = ["a", "b"] := rfl
  have hfs : cpl.fs = 1 := rfl
  have ha : dn "a" = "da" := by decide
  unfold Meth.res
  rw [hx, hfs, cpl_dxH, show cpl.w = [] from rfl, show cpl.y = [] from rfl]
  simp [vals, ha, sum_range_succ, cpl]

theorem cpl_res1 (e : Env ℝ) : cpl.res 1 e = e "db" + 2 * (e "a" + 1 / 2 * e "da" +
    (e "b" + 1 / 2 * e "db")) := by
  have hx : cpl.g.x = ["a", "b"] := rfl
  have hfs : cpl.fs = 1 := rfl
  have hb : dn "b" = "db" := by decide
  unfold Meth.res
  rw [hx, hfs, cpl_dxH, show cpl.w = [] from rfl, show cpl.y = [] from rfl]
  simp [vals, hb, sum_range_succ, cpl]

theorem cpl_Fl : cpl.F .l 0 = fun e => -2 * (e "a" + 2 * (e "b" + 1 / 2 * e "db") +
    (e "b" + 1 / 2 * e "db") ^ 3) := by
  funext e
  rw [F_eq_res cpl_wf e .l (by rw [cpl_vl]; simp)]
  have : cpl.row .l 0 e = 0 := rfl
  rw [this, cpl_res0]; ring

theorem cpl_Fnl : cpl.F .nl 0 = fun e => e "db" + 2 * (e "a" + 1 / 2 * e "da" +
    (e "b" + 1 / 2 * e "db")) := by
  funext e
  rw [F_eq_res cpl_wf e .nl (by rw [cpl_vnl]; simp)]
  have : cpl.row .nl 0 e = 1 := rfl
  rw [this, cpl_res1]

theorem cpl_ok : SplitOK cpl := by
  refine ⟨by decide, ?_, ?_⟩
  · intro a ha i hi y hy e
    rw [cpl_vl] at hy
    obtain rfl : y = "da" := by simpa using hy
    cases a with
    | all => exact absurd rfl ha
    | l =>
      rw [cpl_vl] at hi
      obtain rfl : i = 0 := by simpa using hi
      rw [cpl_Fl]
      simp [Function.update]
    | nl =>
      rw [cpl_vnl] at hi
      obtain rfl : i = 0 := by simpa using hi
      rw [cpl_Fnl]
      simp [Function.update]; fun_prop
  · intro a ha i hi y hy k _ e t
    rw [cpl_vl] at hy
    obtain rfl : y = "da" := by simpa using hy
    cases a with
    | all => exact absurd rfl ha
    | l =>
      rw [cpl_vl] at hi
      obtain rfl : i = 0 := by simpa using hi
      rw [cpl_Fl]
      simp [pdiff, Function.update]
    | nl =>
      rw [cpl_vnl] at hi
      obtain rfl : i = 0 := by simpa using hi
      rw [cpl_Fnl]
      simp [pdiff, Function.update]

/-- The equations of a step have a single solution: the residuals and the unknowns. -/
theorem cpl_unique {e e' : Env ℝ} (h : ∀ s, s ≠ "da" → s ≠ "db" → e s = e' s)
    (h0 : cpl.res 0 e = 0 ∧ cpl.res 1 e = 0) (h1 : cpl.res 0 e' = 0 ∧ cpl.res 1 e' = 0) : e = e' := by
  have ha := h "a" (by decide) (by decide)
  have hb := h "b" (by decide) (by decide)
  rw [cpl_res0, cpl_res1] at h0 h1
  rw [← ha, ← hb] at h1
  set B := e "b" + 1 / 2 * e "db" with hB
  set C := e "b" + 1 / 2 * e' "db" with hC
  have h2 : 2 * B + B ^ 3 = 2 * C + C ^ 3 := by linarith [h0.1, h1.1]
  have h3 : B = C := by
    have : (B - C) * (2 + (B ^ 2 + B * C + C ^ 2)) = 0 := by ring_nf; linarith
    rcases mul_eq_zero.1 this with h | h
    · linarith
    · nlinarith [sq_nonneg (B + C), sq_nonneg B, sq_nonneg C]
  have h4 : e "db" = e' "db" := by linarith
  have h5 : e "da" = e' "da" := by linarith [h0.2, h1.2]
  funext s
  by_cases h6 : s = "da"
  · rw [h6, h5]
  · by_cases h7 : s = "db"
    · rw [h7, h4]
    · exact h s h6 h7

theorem cpl_solvable (e : Env ℝ) : ∃ e', (∀ s, s ≠ "da" → s ≠ "db" → e s = e' s) ∧
    cpl.res 0 e' = 0 ∧ cpl.res 1 e' = 0 := by
  -- `a + 2 B + B^3 = 0` for the midpoint `B`
  obtain ⟨B, hB⟩ : ∃ B : ℝ, e "a" + 2 * B + B ^ 3 = 0 := by
    have hc : Continuous fun B : ℝ => e "a" + 2 * B + B ^ 3 := by fun_prop
    have h1 : e "a" + 2 * (-|e "a"|) + (-|e "a"|) ^ 3 ≤ 0 := by
      have := le_abs_self (e "a")
      have h2 := abs_nonneg (e "a")
      have h3 : 0 ≤ |e "a"| ^ 3 := by positivity
      nlinarith
    have h2 : 0 ≤ e "a" + 2 * |e "a"| + |e "a"| ^ 3 := by
      have := neg_abs_le (e "a")
      have h2 := abs_nonneg (e "a")
      have h3 : 0 ≤ |e "a"| ^ 3 := by positivity
      nlinarith
    have := intermediate_value_univ (-|e "a"|) (|e "a"|) hc ⟨h1, h2⟩
    obtain ⟨B, hB⟩ := this
    exact ⟨B, hB⟩
  set y := 2 * (B - e "b") with hy
  set x := -y - 2 * (e "a" + B) with hx
  refine ⟨Function.update (Function.update e "da" x) "db" y, ?_, ?_, ?_⟩
  · intro s h1 h2
    rw [Function.update_of_ne h2, Function.update_of_ne h1]
  · rw [cpl_res0]
    simp [Function.update]
    have : e "b" + 2⁻¹ * y = B := by rw [hy]; ring
    rw [this]
    linarith
  · rw [cpl_res1]
    simp [Function.update]
    have : e "b" + 2⁻¹ * y = B := by rw [hy]; ring
    rw [this, hx]
    ring

/-- **C67**, negation. The updates of a lossless system with a strictly convex energy, whose linear and
nonlinear states are coupled by the energy, always fail: the Jacobian of the linear part is singular,
although the equations of a step have exactly one solution. -/
theorem C67_coupled_fails : ∃ m : Meth, MethWF m ∧ SplitOK m ∧ 0 < m.fs ∧ (∀ e, (m.M e).IsSkew) ∧
    m.dxH = buildGradient m.H m.g .theta (1 / 2) 0 ∧
    (∀ e (v : String → ℝ), (∃ x ∈ m.g.x, v x ≠ 0) →
      0 < (m.g.x.map fun x => (m.g.x.map fun y => v x * pdiff (pdiff m.H x) y e * v y).sum).sum) ∧
    (∀ e : Env ℝ, ∃! e', (∀ s ∉ m.v .all, e s = e' s) ∧
      ∀ i < (m.v .all).length, m.F .all i e' = 0) ∧
    ∀ n : Num, n.m = m → ∀ (u p : Option (List ℝ)) (st : St Nm ℝ), n.update u p st = none := by
  have hv : ∀ s, s ∉ cpl.v .all ↔ s ≠ "da" ∧ s ≠ "db" := fun s => by rw [cpl_v]; simp
  have hF : ∀ e', (∀ i < (cpl.v .all).length, cpl.F .all i e' = 0) ↔
      cpl.res 0 e' = 0 ∧ cpl.res 1 e' = 0 := fun e' => by
    have h0 := F_eq_res cpl_wf e' .all (i := 0) (by rw [cpl_v]; simp)
    have h1 := F_eq_res cpl_wf e' .all (i := 1) (by rw [cpl_v]; simp)
    have r0 : cpl.row .all 0 e' = 0 := rfl
    have r1 : cpl.row .all 1 e' = 1 := rfl
    rw [r0] at h0
    rw [r1] at h1
    rw [← h0, ← h1, cpl_v]
    constructor
    · intro h; exact ⟨h 0 (by simp), h 1 (by simp)⟩
    · rintro ⟨q0, q1⟩ i hi
      simp only [List.length_cons, List.length_nil] at hi
      interval_cases i
      · exact q0
      · exact q1
  refine ⟨cpl, cpl_wf, cpl_ok, show (0 : ℝ) < 1 from one_pos, fun e => ?_, rfl, ?_, ?_, ?_⟩
  · refine ⟨rfl, fun i hi j hj => ?_⟩
    have hr : (cpl.M e).r = 2 := rfl
    have hc : (cpl.M e).c = 2 := rfl
    rw [hr] at hi
    first | rw [hr] at hj | rw [hc] at hj
    interval_cases i <;> interval_cases j <;> simp [cpl]
  · intro e v hv
    have haa : pdiff (pdiff cplH "a") "a" e = 1 := by rw [cplH_a]; simp [pdiff, Function.update]
    have hab : pdiff (pdiff cplH "a") "b" e = 1 := by rw [cplH_a]; simp [pdiff, Function.update]
    have hba : pdiff (pdiff cplH "b") "a" e = 1 := by rw [cplH_b]; simp [pdiff, Function.update]
    have hbb : pdiff (pdiff cplH "b") "b" e = 2 + 3 * e "b" ^ 2 := by
      rw [cplH_b]
      have h := (((hasDerivAt_id (e "b")).const_mul 2).const_add (e "a")).add
        ((hasDerivAt_id (e "b")).pow 3)
      have : (fun t => (fun e : Env ℝ => e "a" + 2 * e "b" + e "b" ^ 3) (Function.update e "b" t)) =
          fun t => e "a" + 2 * t + t ^ 3 := by funext t; simp [Function.update]
      unfold pdiff
      rw [this]
      refine Eq.trans (HasDerivAt.deriv h) ?_
      simp
    show 0 < (List.map (fun x => (List.map (fun y => v x * pdiff (pdiff cplH x) y e * v y)
      ["a", "b"]).sum) ["a", "b"]).sum
    simp only [List.map_cons, List.map_nil, List.sum_cons, List.sum_nil, haa, hab, hba, hbb]
    obtain ⟨x, hx, hx0⟩ := hv
    have hx' : x = "a" ∨ x = "b" := by
      have : x ∈ ["a", "b"] := hx
      simpa using this
    have hsq : v "a" * 1 * v "a" + (v "a" * 1 * v "b" + 0) +
        (v "b" * 1 * v "a" + (v "b" * (2 + 3 * e "b" ^ 2) * v "b" + 0) + 0) =
        (v "a" + v "b") ^ 2 + v "b" ^ 2 + 3 * (e "b" * v "b") ^ 2 := by ring
    rw [hsq]
    by_cases hb : v "b" = 0
    · rcases hx' with rfl | rfl
      · have : 0 < (v "a" + v "b") ^ 2 := by rw [hb, add_zero]; positivity
        positivity
      · exact absurd hb hx0
    · positivity
  · intro e
    obtain ⟨e', h1, h2⟩ := cpl_solvable e
    refine ⟨e', ⟨fun s hs => h1 s ((hv s).1 hs).1 ((hv s).1 hs).2, (hF e').2 h2⟩, ?_⟩
    rintro e'' ⟨h3, h4⟩
    refine cpl_unique (fun s q1 q2 => ?_) ((hF e'').1 h4) h2
    rw [← h3 s ((hv s).2 ⟨q1, q2⟩), h1 s q1 q2]
  · intro n hm u p st
    rcases hu : n.update u p st with _ | st'
    · rfl
    · exfalso
      have hl : n.l = 1 := by unfold Num.l; rw [hm, cpl_vl]; rfl
      obtain ⟨e, iJ, h⟩ := update_lin (by omega) hu
      have h1 := h (fun _ => 1) 0 (by omega)
      rw [hm] at h1
      have hJ : (cpl.J .l .l e).e 0 0 = 0 := by
        show pdiff (cpl.F .l 0) "da" e = 0
        rw [cpl_Fl]
        simp [pdiff, Function.update]
      have hc : (cpl.J .l .l e).c = 1 := rfl
      unfold Mat.mv at h1
      rw [hc] at h1
      simp [hJ] at h1

end Numeric
end Pyphs
