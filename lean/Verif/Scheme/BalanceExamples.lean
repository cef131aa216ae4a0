/-
Examples for C20 and C21, and the disagreement found for the option `split`.
-/
import Verif.Scheme.BalanceProps
import Verif.Core.Split

namespace Pyphs
namespace Scheme
open Finset Mat Core

/-- A method with linear, monovariate and multivariate storages, a cubic dissipation and a
port that drives all the states. -/
noncomputable def exM : Meth where
  g := exG
  w := ["w"]
  u := ["u"]
  y := ["y"]
  wl := 0
  H := exH
  z := [fun e => e "w" ^ 3]
  dxH := buildGradient exH exG .discret 0 (1 / 8)
  M := fun _ => ⟨6, 6, fun i j =>
    if j = 5 then ([1, 0, 1, -1, 1] : List ℝ).getD i 0
    else if i = 5 then - ([1, 0, 1, -1, 1] : List ℝ).getD j 0 else 0⟩
  fs := 1

theorem exM_wf : MethWF exM where
  Mr := fun _ => rfl
  Mc := fun _ => rfl
  uy := rfl
  wz := rfl
  gx := by
    simp only [exM, buildGradient, List.length_append, gradLin_length, gradMono_length,
      gradMulti_length]
    rfl
  wl := by simp [exM]
  nodup := by decide

/-- The states and increments of `exE`, input 1. -/
def exE2 : Env ℝ := fun s => if s = "u" then 1 else if s = "w" then 1 else exE s

theorem exM_solved : exM.Solved exE2 := by
  intro i hi
  have hv : (exM.v .all).length = 5 := rfl
  rw [F_eq_res exM_wf _ _ hi, row_all]
  rw [hv] at hi
  have hx : exM.g.x = ["a", "b", "c", "f"] := rfl
  have hw : exM.w = ["w"] := rfl
  have hy : exM.y = ["y"] := rfl
  have hu : exM.u = ["u"] := rfl
  unfold Meth.res
  rw [hx, hw, hy, hu]
  have hM : ∀ i j, (exM.M exE2).e i j = if j = 5 then ([1, 0, 1, -1, 1] : List ℝ).getD i 0
    else if i = 5 then - ([1, 0, 1, -1, 1] : List ℝ).getD j 0 else 0 := fun _ _ => rfl
  have hfs : exM.fs = 1 := rfl
  interval_cases i <;>
    simp [hM, hfs, sum_range_succ, svals, dn_a, dn_b, dn_c, dn_f, exE2, exE]

theorem exM_grad : exM.ExactGrad (1 / 8) := ⟨by norm_num, exH_ok, 0, rfl⟩

theorem exM_steps : exM.StepsOK (1 / 8) exE2 := by
  constructor
  · intro x hx
    have : x = "b" := by simpa [exM, exG] using hx
    subst this
    left; rw [dn_b]; simp [exE2, exE]
  · right
    simp only [exM, exG, List.map_cons, List.map_nil, dn_c, dn_f]; simp [exE2, exE]; norm_num

/-- The hypotheses of C20 are met, and the balance is not trivial: the energy varies. -/
example : exH (next exE2 exG.x) - exH exE2 = 15 ∧
    ∃ p, exM.pdVal exE2 = some p ∧ (exM.H (next exE2 exM.g.x) - exM.H exE2) * exM.fs + p +
      exM.psVal exE2 = 0 := by
  refine ⟨?_, C20_balance exM exM_wf _ exM_grad _ exM_solved exM_steps⟩
  simp [next, exH, exG, Groups.x, exE2, exE, dn_a, dn_b, dn_c, dn_f]; norm_num

/-- A quadratic storage with a resistive structure: `x(n+1) = x(n)/3`. -/
noncomputable def exLin : Meth where
  g := ⟨["a"], [], []⟩
  w := []
  u := []
  y := []
  wl := 0
  H := fun e => e "a" ^ 2 / 2
  z := []
  dxH := buildGradient (fun e => e "a" ^ 2 / 2) ⟨["a"], [], []⟩ .discret 0 1
  M := fun _ => ⟨1, 1, fun _ _ => -1⟩
  fs := 1

/-- The run of `exLin`. -/
noncomputable def exRun (n : ℕ) : Env ℝ := fun s =>
  if s = "a" then (1 / 3) ^ n else if s = "da" then -(2 / 3) * (1 / 3) ^ n else 0

theorem exLin_d : pdiff (fun e => e "a" ^ 2 / 2) "a" = fun e => e "a" := by
  funext e; simp [pdiff, Function.update]

theorem exLin_dd : pdiff (fun e => e "a") "a" = fun _ => 1 := by
  funext e; simp [pdiff, Function.update]

theorem exLin_grad : exLin.ExactGrad 1 := by
  refine ⟨by norm_num, ⟨by simp [exLin, Groups.x], ⟨?_, ?_⟩, ?_, ?_, ?_, ?_⟩, 0, rfl⟩
  · intro i hi e
    have : i = "a" := by simpa [exLin, Groups.x] using hi
    subst this; simp [exLin, Function.update]
  · intro i hi j hj e
    have : i = "a" := by simpa [exLin, Groups.x] using hi
    subst this
    have : j = "a" := by simpa [exLin, Groups.x] using hj
    subst this
    simp only [exLin, exLin_d]; simp [Function.update]
  · intro i hi j hj k hk e t
    have : i = "a" := by simpa [exLin] using hi
    subst this
    have : j = "a" := by simpa [exLin] using hj
    subst this
    simp only [exLin, exLin_d, exLin_dd]
  · intro i hi; simp [exLin] at hi
  · intro i _ j hj; simp [exLin] at hj
  · intro i hi; simp [exLin] at hi

theorem exLin_wf : MethWF exLin := by
  refine ⟨fun _ => rfl, fun _ => rfl, rfl, rfl, ?_, by simp [exLin], by decide⟩
  simp only [exLin, buildGradient, List.length_append, gradLin_length, gradMono_length,
      gradMulti_length]
  rfl

theorem exLin_dxH (e : Env ℝ) : vals exLin.dxH e 0 = e "a" + 1 / 2 * e "da" := by
  simp only [exLin, buildGradient, gradLin_eq, gradMono, gradMulti, gradTheta, gradient,
    List.map_cons, List.map_nil, vals, exLin_d, exLin_dd, dn_a]
  simp

/-- The hypotheses of C21 are met. -/
example : Antitone fun n => exLin.H (exRun n) := by
  refine C21_no_input exLin exLin_wf 1 exLin_grad (by simp [exLin]) [] ?_ exRun ?_ ?_ ?_ ?_ ?_ ?_
  · refine ⟨by simp, fun e e' h => ?_⟩
    have := h "a" (by simp [exLin, Groups.x])
    simp [exLin, this]
  · refine ⟨fun n s hs => ?_, by simp⟩
    have : s = "a" := by simpa [exLin, Groups.x] using hs
    subst this
    rw [dn_a]; simp [exRun]; ring
  · intro n i hi
    have hv : (exLin.v .all).length = 1 := rfl
    rw [F_eq_res exLin_wf _ _ hi, row_all]
    rw [hv] at hi
    have hx : exLin.g.x = ["a"] := rfl
    have hw : exLin.w = [] := rfl
    have hy : exLin.y = [] := rfl
    have hM : ∀ i j, (exLin.M (exRun n)).e i j = -1 := fun _ _ => rfl
    have hfs : exLin.fs = 1 := rfl
    unfold Meth.res
    rw [hx, hw, hy, hfs]
    have : i = 0 := by omega
    subst this
    simp only [List.length_cons, List.length_nil, range_zero, sum_empty, zero_add, hM,
      sum_range_one, exLin_dxH]
    simp [dn_a, exRun]; ring
  · intro n; simp [Meth.StepsOK, exLin]
  · intro n
    refine ⟨rfl, fun v => ?_⟩
    simp only [exLin, quad, dot, mv, sum_range_one]
    nlinarith [sq_nonneg (v 0)]
  · intro n; simp [exLin, ldot]
  · intro n s hs; simp [exLin] at hs

/-- A quartic storage driven by a port, before the implicit/explicit split. -/
noncomputable def splitM (g : Groups) : Meth where
  g := g
  w := []
  u := ["u"]
  y := ["y"]
  wl := 0
  H := quartH
  z := []
  dxH := buildGradient quartH g .discret 0 1
  M := fun _ => ⟨2, 2, fun i j => if i = 0 ∧ j = 1 then 1 else if i = 1 ∧ j = 0 then -1 else 0⟩
  fs := 1

theorem quart_d : pdiff quartH "a" = fun e => 4 * e "a" ^ 3 := by
  funext e; simp [pdiff, quartH, Function.update]

theorem quart_dd : pdiff (fun e => 4 * e "a" ^ 3) "a" = fun e => 12 * e "a" ^ 2 := by
  funext e; simp [pdiff, Function.update]; ring

theorem splitM_wf {g : Groups} (h : g.x = ["a"]) : MethWF (splitM g) := by
  refine ⟨fun _ => by simp [splitM, h], fun _ => by simp [splitM, h], rfl, rfl, ?_, by simp [splitM],
    by simp only [splitM, h]; decide⟩
  have : g.x.length = g.xl.length + g.mono.length + g.multi.length := by simp [Groups.x, Nat.add_assoc]
  simp only [splitM, buildGradient, List.length_append, gradLin_length, gradMono_length,
    gradMulti_length, this]

open Classical in
/-- **C20**, disagreement (_method.py:144-158, default option `split`): a quartic storage
directly driven by a port is monovariate, and its gradient exact, until `explicit_implicit`
looks at the Jacobian of the implicit equations. It contains no unknown, since the gradient
does not enter the equation of the state, so the storage is moved to the linear ones; the
gradient is then built again, as for a quadratic energy, and the power balance of the steps
is lost. -/
theorem C20_split_counterexample :
    -- before the split
    (splitM ⟨[], ["a"], []⟩).ExactGrad 1 ∧
    -- the Jacobian has one entry, `fs`, ...
    ((splitM ⟨[], ["a"], []⟩).v .all = ["da"] ∧
      ∀ e, ((splitM ⟨[], ["a"], []⟩).J .all .all e).r = 1 ∧
        ((splitM ⟨[], ["a"], []⟩).J .all .all e).c = 1 ∧
        ((splitM ⟨[], ["a"], []⟩).J .all .all e).e 0 0 = 1) ∧
    -- ... so that the storage is taken as linear
    (∀ e, ∃ c, linearNonlinear ((splitM ⟨[], ["a"], []⟩).core e) false ⟨1, 1, fun _ _ => ["F_s"]⟩
      ["da"] ⟨1, 0, fun _ _ => []⟩ ["da"] (fun _ _ => Mat.zeros 0 0) = some c ∧
      c.xl = 1 ∧ c.x = ["a"]) ∧
    -- and the balance is broken for a solved step
    ∃ e p, (splitM ⟨["a"], [], []⟩).Solved e ∧ (splitM ⟨["a"], [], []⟩).pdVal e = some p ∧
      (quartH (next e ["a"]) - quartH e) * (splitM ⟨["a"], [], []⟩).fs + p +
        (splitM ⟨["a"], [], []⟩).psVal e ≠ 0 := by
  have w1 := splitM_wf (g := ⟨[], ["a"], []⟩) rfl
  have w2 := splitM_wf (g := ⟨["a"], [], []⟩) rfl
  have hM : ∀ g e i j, ((splitM g).M e).e i j =
    if i = 0 ∧ j = 1 then 1 else if i = 1 ∧ j = 0 then -1 else 0 := fun _ _ _ _ => rfl
  have hres : ∀ g e, g.x = ["a"] → (splitM g).res 0 e = e "da" - e "u" := by
    intro g e hg
    have hx : (splitM g).g.x = ["a"] := hg
    have hw : (splitM g).w = [] := rfl
    have hy : (splitM g).y = ["y"] := rfl
    have hu : (splitM g).u = ["u"] := rfl
    have hfs : (splitM g).fs = 1 := rfl
    unfold Meth.res
    rw [hx, hw, hy, hfs]
    simp [hM, dn_a, svals, hu]
  refine ⟨⟨by norm_num, ⟨by simp [splitM, Groups.x], ⟨?_, ?_⟩, ?_, ?_, ?_, ?_⟩, 0, rfl⟩,
    ⟨by simp [Meth.v, splitM, Sfx.pick, Groups.x, dn_a], ?_⟩, ?_, ?_⟩
  · intro i hi e
    have : i = "a" := by simpa [splitM, Groups.x] using hi
    subst this; simp [splitM, quartH, Function.update]
  · intro i hi j hj e
    have : i = "a" := by simpa [splitM, Groups.x] using hi
    subst this
    have : j = "a" := by simpa [splitM, Groups.x] using hj
    subst this
    simp only [splitM, quart_d]; simp [Function.update]
  · intro i hi; simp [splitM] at hi
  · intro i hi j hj hij
    simp only [splitM, List.mem_cons, List.not_mem_nil, or_false] at hi hj
    exact absurd (hi.trans hj.symm) hij
  · intro i hi; simp [splitM] at hi
  · intro i _ j hj; simp [splitM] at hj
  · intro e
    refine ⟨rfl, rfl, ?_⟩
    have hv : (splitM ⟨[], ["a"], []⟩).v .all = ["da"] := by
      simp [Meth.v, splitM, Sfx.pick, Groups.x, dn_a]
    simp only [Meth.J, hv, List.getD_cons_zero]
    have : (splitM ⟨[], ["a"], []⟩).F .all 0 = fun e => e "da" - e "u" := by
      funext e
      rw [F_eq_res w1 _ _ (by rw [hv]; simp), row_all, hres _ _ rfl]
    rw [this]
    simp [pdiff, Function.update]
  · intro e
    refine ⟨_, rfl, rfl, rfl⟩
  · refine ⟨fun s => if s = "da" then 1 else if s = "u" then 1 else 0, ?_⟩
    set e : Env ℝ := fun s => if s = "da" then 1 else if s = "u" then 1 else 0 with he
    have hs : (splitM ⟨["a"], [], []⟩).Solved e := by
      intro i hi
      rw [F_eq_res w2 _ _ hi, row_all]
      have : i = 0 := by
        have hv : ((splitM ⟨["a"], [], []⟩).v .all).length = 1 := rfl
        omega
      subst this
      rw [hres _ _ rfl]; simp [he]
    obtain ⟨p, hp, hb⟩ := C20_defect _ w2 e
    refine ⟨p, hs, hp, ?_⟩
    have hx : (splitM ⟨["a"], [], []⟩).g.x = ["a"] := rfl
    have hw : (splitM ⟨["a"], [], []⟩).w = [] := rfl
    rw [hw] at hb
    simp only [hx, List.length_cons, List.length_nil, zero_add, sum_range_one, range_zero,
      sum_empty, add_zero] at hb
    rw [hs 0 (by simp [Meth.v, hx, hw, Sfx.pick]), zero_mul] at hb
    have hg : gdot (splitM ⟨["a"], [], []⟩).dxH ["a"] e = 0 := by
      have : (splitM ⟨["a"], [], []⟩).dxH = [fun e => 4 * e "a" ^ 3 + 1/2 * (12 * e "a" ^ 2 * e "da")] := by
        simp only [splitM, buildGradient, gradLin_eq, gradMono, gradMulti, gradTheta, gradient,
          List.map_cons, List.map_nil, quart_d, quart_dd, dn_a]
        simp
      rw [this]
      simp [gdot, he]
    rw [hg] at hb
    have : (quartH (next e ["a"]) - quartH e) = 1 := by
      simp [quartH, next, dn_a, he]
    rw [this]
    have hfs : (splitM ⟨["a"], [], []⟩).fs = 1 := rfl
    rw [hfs] at hb ⊢
    intro h0
    linarith

end Scheme
end Pyphs
