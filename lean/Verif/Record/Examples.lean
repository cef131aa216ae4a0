/-
Updates of linear systems always return, and an example for C65: a capacitor, a resistor and a port.
-/
import Verif.Record.Power
import Verif.Numeric.StepExamples
import Verif.Circuit.Quad

namespace Pyphs
namespace Record
open Scheme Numeric H5 Mat Finset

/-- The update of a system without implicit equations to iterate returns, from any state, if the matrix
of its linear equations has an inverse. -/
theorem linear_runs {n : Num} (hn : n.WF) (hl : 0 < n.l) (hnl : n.nl = 0)
    (hinv : ∀ e, ∃ B, (n.m.J .l .l e).inv = some B) (hobs : n.obs.length = n.o.length)
    {u p : List ℝ} (hu : u.length = n.m.u.length) (hp : p.length = n.p.length) {st : St Nm ℝ}
    (hst : st.args.length = n.all.length) : ∃ st', n.update (some u) (some p) st = some st' := by
  obtain ⟨s1, e1, l1, _⟩ := set_fwd hn hst (k := .u) (w := u) rfl (Numeric.sub_u n) hu
  obtain ⟨s2, e2, l2, _⟩ := set_fwd hn l1 (k := .p) (w := p) rfl (Numeric.sub_p n) hp
  have gx := get_arg (base := n.base) (laidOut n) hn.nodup l2 (n := Nm.x) rfl (Numeric.sub_x n)
  have gdx := get_arg (base := n.base) (laidOut n) hn.nodup l2 (n := Nm.dx) rfl (Numeric.sub_dx n)
  obtain ⟨wx, hwx, hwl⟩ : ∃ wx : List ℝ, n.prog.eval s2 .ud_x = some (.v wx) ∧
      wx.length = n.m.g.x.length := by
    refine ⟨List.zipWith (· + ·) (n.m.g.x.map (n.E s2)) ((n.m.g.x.map dn).map (n.E s2)), ?_, by simp⟩
    show n.prog.evalOp s2 (.add (.ref .x) (.ref .dx)) = _
    simp only [Prog.evalOp, gx, gdx, Option.bind_eq_bind, Option.bind_some, NV.pointwise]
    rw [if_pos (by simp)]
    rfl
  obtain ⟨s3, e3, l3, _⟩ := set_fwd hn l2 (k := .x) (w := wx) rfl (Numeric.sub_x n) hwl
  have h3 : n.prog.exec s2 ⟨.x, .ud_x⟩ = some s3 := by
    unfold Prog.exec
    simp only [hwx]
    exact e3
  obtain ⟨s4, e4, l4, _⟩ := set_fwd hn l3 (k := .o) (w := n.obs.map fun f => f (n.env s3.args)) rfl
    (Numeric.sub_o n) (by simpa using hobs)
  have h4 : n.prog.exec s3 ⟨.o, .ud_o⟩ = some s4 := by
    unfold Prog.exec
    have : n.prog.eval s3 .ud_o = some (.v (n.obs.map fun f => f (n.env s3.args))) := rfl
    simp only [this]
    exact e4
  obtain ⟨B, hB⟩ := hinv (n.env s4.args)
  have hI := inv_isInv hB
  set s5 : St Nm ℝ := ⟨s4.args, Function.update s4.vals .jactempFll
    (some (.m (n.m.J .l .l (n.env s4.args))))⟩ with hs5
  have h5 : n.prog.exec s4 (c1 .jactempFll) = some s5 := exec_func (n := n)
    (f := fun a => .m (n.m.J .l .l (n.env a))) rfl rfl rfl
  set s6 : St Nm ℝ := ⟨s5.args, Function.update s5.vals .ijactempFll (some (.m B))⟩ with hs6
  have h6 : n.prog.exec s5 (c1 .ijactempFll) = some s6 := by
    refine exec_op_fwd (n := n) rfl rfl ?_
    have g : n.prog.get s5 .jactempFll = some (.m (n.m.J .l .l (n.env s4.args))) := by
      rw [get_val rfl]; rfl
    simp only [Prog.evalOp, g, Option.bind_eq_bind, Option.bind_some, NV.inv, hB, Option.map_some]
  set s7 : St Nm ℝ := ⟨s6.args, Function.update s6.vals .Gl
    (some (.v (vlist n.l fun i => n.m.G .l i (n.env s6.args))))⟩ with hs7
  have h7 : n.prog.exec s6 (c1 .Gl) = some s7 := exec_func (n := n)
    (f := fun a => .v (vlist n.l fun i => n.m.G .l i (n.env a))) rfl rfl rfl
  have hpre : n.prog.execs s2 n.pre = some s7 := by
    have : n.pre = [⟨.x, .ud_x⟩, ⟨.o, .ud_o⟩, c1 .jactempFll, c1 .ijactempFll, c1 .Gl] := by
      unfold Num.pre
      rw [if_pos hl, if_neg (by omega)]
      rfl
    rw [this]
    simp only [execs_cons, h3, h4, h5, h6, h7, Option.bind_some]
    rfl
  have hBr : B.r = n.l := hI.2.1
  have hBc : B.c = n.l := hI.2.2.1
  obtain ⟨s13, e13, l13, _⟩ := set_fwd hn (st := s7) (k := .vl) l4 rfl
    (w := vlist n.l (B.mv fun j => -1 * n.m.G .l j (n.env s6.args))) (sub_v n .l)
    (by unfold vlist Num.l; simp)
  have h13 : n.prog.exec s7 ⟨.vl, .ud_vl⟩ = some s13 := by
    have g3 : n.prog.get s7 .ijactempFll = some (.m B) := by
      rw [get_val rfl]; rfl
    have g4 : n.prog.get s7 .Gl = some (.v (vlist n.l fun i => n.m.G .l i (n.env s6.args))) := by
      rw [get_val rfl]; rfl
    have hv : n.prog.eval s7 .ud_vl =
        some (.v (vlist n.l (B.mv fun j => -1 * n.m.G .l j (n.env s6.args)))) := by
      show n.prog.evalOp s7 (.dot (.ref .ijactempFll) (.dot (.num (-1)) (.ref .Gl))) = _
      simp only [Prog.evalOp, g3, g4, Option.bind_eq_bind, Option.bind_some]
      rw [dot_neg B n.l _ hBr hBc]
    unfold Prog.exec
    simp only [hv]
    exact e13
  have hpost : ∃ st', n.prog.execs s7 n.post = some st' := by
    have : n.post = [⟨.vl, .ud_vl⟩, c1 .dxH, c1 .z, c1 .y] := by
      unfold Num.post
      rw [if_pos hl]
      rfl
    rw [this, execs_cons, h13, Option.bind_some, execs_cons, exec_func (n := n) rfl rfl rfl,
      Option.bind_some, execs_cons, exec_func (n := n) rfl rfl rfl, Option.bind_some, execs_cons,
      exec_func (n := n) rfl rfl rfl, Option.bind_some]
    exact ⟨_, rfl⟩
  obtain ⟨st', hpost⟩ := hpost
  refine ⟨st', ?_⟩
  unfold Num.update Prog.update
  refine Option.bind_eq_some_iff.2 ⟨s1, e1, Option.bind_eq_some_iff.2 ⟨s2, e2, ?_⟩⟩
  have ha : n.actions = [.exec n.pre, .exec n.post] := by
    unfold Num.actions
    rw [if_neg (by omega)]
    rfl
  rw [ha]
  have a1 : n.prog.action n.eps n.maxit s2 (.exec n.pre) = some s7 := hpre
  have a3 : n.prog.action n.eps n.maxit s7 (.exec n.post) = some st' := hpost
  rw [List.foldlM_cons, a1]
  show ([Action.exec n.post].foldlM (n.prog.action n.eps n.maxit) s7) = some st'
  rw [List.foldlM_cons, a3]
  rfl

/-- The simulation of such a system exists, for any inputs and parameters. -/
theorem linear_run {n : Num} (hn : n.WF) (hl : 0 < n.l) (hnl : n.nl = 0)
    (hinv : ∀ e, ∃ B, (n.m.J .l .l e).inv = some B) (hobs : n.obs.length = n.o.length) {nt : ℕ}
    {sequ seqp : List (List ℝ)} (lu : sequ.length = nt) (lp : seqp.length = nt)
    (du : ∀ r ∈ sequ, r.length = n.m.u.length) (dp : ∀ r ∈ seqp, r.length = n.p.length)
    {s0 : St Nm ℝ} (h0 : s0.args.length = n.all.length) :
    ∃ st, st 0 = s0 ∧ Run n nt sequ seqp st := by
  let st : ℕ → St Nm ℝ := fun i => Nat.rec s0
    (fun i s => (n.update (some (sequ.getD i [])) (some (seqp.getD i [])) s).getD s) i
  have key : ∀ i ≤ nt, (st i).args.length = n.all.length ∧ ∀ j < i,
      n.update (some (sequ.getD j [])) (some (seqp.getD j [])) (st j) = some (st (j + 1)) := by
    intro i
    induction i with
    | zero => intro _; exact ⟨h0, fun j hj => absurd hj (by omega)⟩
    | succ i ih =>
      intro hi
      obtain ⟨a1, a2⟩ := ih (by omega)
      have hu := getD_len lu du (show i < nt by omega)
      have hp := getD_len lp dp (show i < nt by omega)
      obtain ⟨s', hs'⟩ := linear_runs hn hl hnl hinv hobs hu hp a1
      have e : st (i + 1) = s' := by
        show (n.update _ _ (st i)).getD (st i) = s'
        rw [hs']; rfl
      refine ⟨?_, fun j hj => ?_⟩
      · rw [e]; exact (C24_step hn a1 hu hp hs').1
      · rcases Nat.lt_succ_iff_lt_or_eq.1 hj with hj | rfl
        · exact a2 j hj
        · rw [e]; exact hs'
  exact ⟨st, rfl, lu, lp, du, dp, h0, fun i hi => (key nt (le_refl _)).2 i hi⟩

/-- Every expression has an evaluation object. -/
theorem evaluates (n : Num) (f : Sc) :
    Evaluates n (.scalar (List.range n.all.length) fun a => f (n.env a)) f := by
  refine .intro (fun k hk => List.mem_range.1 hk) fun a ha => ?_
  congr 2
  apply List.ext_getElem
  · simp [ha]
  · intro i h1 h2
    simp [List.getD_eq_getElem?_getD, h2]

/-! ### Capacitor, resistor, port -/

/-- Capacitor of energy `a^2 / 2`, resistor of law `2 w`, port; sample rate 1 Hz. -/
noncomputable def rc : Meth where
  g := ⟨["a"], [], []⟩
  w := ["w"]
  u := ["v"]
  y := ["y"]
  wl := 1
  H := fun e => e "a" ^ 2 / 2
  z := [fun e => 2 * e "w"]
  dxH := [fun e => e "a" + 1 / 2 * e "da"]
  M := fun _ => ⟨3, 3, fun i j => if i = 0 ∧ j ≠ 0 then -1 else if i ≠ 0 ∧ j = 0 then 1 else 0⟩
  fs := 1

noncomputable def rcN (b : Env ℝ) : Num where
  m := rc
  p := []
  o := []
  obs := []
  base := b
  eps := 0
  maxit := 0

theorem rc_wf : MethWF rc :=
  ⟨fun _ => rfl, fun _ => rfl, rfl, rfl, rfl, by simp [rc], by decide⟩

theorem rc_vl : rc.v .l = ["da", "w"] := by decide
theorem rc_vnl : rc.v .nl = [] := by decide
theorem rc_v : rc.v .all = ["da", "w"] := by decide

theorem rcN_all (b : Env ℝ) : (rcN b).all = ["a", "da", "w", "v"] := rfl
theorem rcN_wf (b : Env ℝ) : (rcN b).WF := ⟨by rw [rcN_all b]; decide, rfl⟩

theorem rc_res (r : ℕ) (e : Env ℝ) : rc.res r e =
    (if r = 0 then e "da" else e (["w"].getD (r - 1) "")) -
    ((rc.M e).e r 0 * (e "a" + 1 / 2 * e "da") + (rc.M e).e r 1 * (2 * e "w")) -
    (rc.M e).e r 2 * e "v" := by
  have hx : rc.g.x = ["a"] := rfl
  have hw : rc.w = ["w"] := rfl
  have hy : rc.y = ["y"] := rfl
  have hu : rc.u = ["v"] := rfl
  have hfs : rc.fs = 1 := rfl
  have hz : rc.z = [fun e => 2 * e "w"] := rfl
  have hd : rc.dxH = [fun e => e "a" + 1 / 2 * e "da"] := rfl
  unfold Meth.res
  rw [hx, hw, hy, hfs, hz, hd, hu]
  have hdn : dn "a" = "da" := by decide
  by_cases h : r = 0
  · subst h; simp [vals, svals, hdn]
  · simp [vals, svals, h]

theorem rc_F0 : rc.F .l 0 = fun e => e "da" + 2 * e "w" + e "v" := by
  funext e
  rw [F_eq_res rc_wf e .l (by rw [rc_vl]; simp), rc_res]
  have : rc.row .l 0 e = 0 := rfl
  rw [this]; simp [rc]

theorem rc_F1 : rc.F .l 1 = fun e => e "w" - (e "a" + 1 / 2 * e "da") := by
  funext e
  rw [F_eq_res rc_wf e .l (by rw [rc_vl]; simp), rc_res]
  have : rc.row .l 1 e = 1 := rfl
  rw [this]; simp [rc]

theorem rc_ok : SplitOK rc := by
  refine ⟨by decide, ?_, ?_⟩
  · intro a ha i hi y hy e
    rw [rc_vl] at hy
    cases a with
    | all => exact absurd rfl ha
    | nl => rw [rc_vnl] at hi; exact absurd hi (by simp)
    | l =>
      rw [rc_vl] at hi
      have hi : i < 2 := hi
      have hy : y = "da" ∨ y = "w" := by simpa using hy
      obtain rfl | rfl : i = 0 ∨ i = 1 := by omega
      · rw [rc_F0]
        rcases hy with rfl | rfl <;> (simp [Function.update]; try fun_prop)
      · rw [rc_F1]
        rcases hy with rfl | rfl <;> (simp [Function.update]; try fun_prop)
  · intro a ha i hi y hy k _ e t
    rw [rc_vl] at hy
    cases a with
    | all => exact absurd rfl ha
    | nl => rw [rc_vnl] at hi; exact absurd hi (by simp)
    | l =>
      rw [rc_vl] at hi
      have hi : i < 2 := hi
      have hy : y = "da" ∨ y = "w" := by simpa using hy
      obtain rfl | rfl : i = 0 ∨ i = 1 := by omega
      · rw [rc_F0]
        rcases hy with rfl | rfl <;> simp [pdiff, Function.update]
      · rw [rc_F1]
        rcases hy with rfl | rfl <;> simp [pdiff, Function.update]

theorem rc_inv (e : Env ℝ) : ∃ B, (rc.J .l .l e).inv = some B := by
  rw [← Option.isSome_iff_exists, ← Option.ne_none_iff_isSome, Ne, inv_eq_none_iff]
  intro h
  refine h ⟨2, 2, fun i j => if i = j then 1 / 2 else if i = 0 then -1 else 1 / 4⟩ ?_
  have hr : (rc.J .l .l e).r = 2 := rfl
  have e00 : (rc.J .l .l e).e 0 0 = 1 := by
    show pdiff (rc.F .l 0) "da" e = 1
    rw [rc_F0]; simp [pdiff, Function.update]
  have e01 : (rc.J .l .l e).e 0 1 = 2 := by
    show pdiff (rc.F .l 0) "w" e = 2
    rw [rc_F0]; simp [pdiff, Function.update]
  have e10 : (rc.J .l .l e).e 1 0 = -1 / 2 := by
    show pdiff (rc.F .l 1) "da" e = -1 / 2
    rw [rc_F1]; simp [pdiff, Function.update]; norm_num
  have e11 : (rc.J .l .l e).e 1 1 = 1 := by
    show pdiff (rc.F .l 1) "w" e = 1
    rw [rc_F1]; simp [pdiff, Function.update]
  refine ⟨rfl, rfl, rfl, ?_, ?_⟩ <;>
  · intro i hi j hj
    rw [hr] at hi hj
    rw [hr]
    have hi' : i = 0 ∨ i = 1 := by omega
    have hj' : j = 0 ∨ j = 1 := by omega
    rcases hi' with rfl | rfl <;> rcases hj' with rfl | rfl <;>
      simp [sum_range_succ, e00, e01, e10, e11] <;> norm_num

theorem rcN_l (b : Env ℝ) : (rcN b).l = 2 := rfl
theorem rcN_nl (b : Env ℝ) : (rcN b).nl = 0 := rfl

theorem rc_exact (e : Env ℝ) : gdot rc.dxH rc.g.x e = rc.H (next e rc.g.x) - rc.H e := by
  have hx : rc.g.x = ["a"] := rfl
  have hd : rc.dxH = [fun e => e "a" + 1 / 2 * e "da"] := rfl
  have hH : rc.H = fun e => e "a" ^ 2 / 2 := rfl
  have hdn : dn "a" = "da" := by decide
  rw [hx, hd, hH]
  simp [gdot, Scheme.next, hdn]
  ring

theorem rc_passive (e : Env ℝ) : (rc.M e).Passive := by
  refine ⟨rfl, fun a => le_of_eq ?_⟩
  have : (rc.M e) = ⟨3, 3, fun i j => if i = 0 ∧ j ≠ 0 then -1 else if i ≠ 0 ∧ j = 0 then 1 else 0⟩ := rfl
  rw [this]
  simp [Mat.quad, Mat.mv, Mat.dot, sum_range_succ]
  ring

theorem rc_energy (b : Env ℝ) : EnergyReads (rcN b) := by
  intro e e' h _ _
  show e "a" ^ 2 / 2 = e' "a" ^ 2 / 2
  rw [h "a" (by show "a" ∈ rc.g.x; rw [show rc.g.x = ["a"] from rfl]; simp)]

/-- Any simulation of the circuit, for any inputs, of any length and from any state: the hypotheses of
`C65_file`, `C65_balance`, `C65_deltaH` and `C65_passive` hold together, and the energies of the file grow
by at most the energy received by the port. -/
example (b : Env ℝ) (v : List ℝ) (s0 : St Nm ℝ) (h0 : s0.args.length = 4) (hv : 0 < v.length) :
    ∃ ds dn sN, initFile (layout (rcN b)) v.length (v.map fun a => [a])
        (List.replicate v.length []) = .ok ds ∧
      process (layout (rcN b)) ⟨0, v.length, 1⟩ (machine (rcN b)) v.length s0 ds = .ok (sN, dn) ∧
      ∃ En S : ℕ → ℝ, readExpr (layout (rcN b)) ⟨0, v.length, 1⟩ dn (.vector [] [])
          (.scalar (List.range 4) fun a => rc.H ((rcN b).env a)) .none =
          .ok (.rows ((samples 0 v.length 1).map fun i => [En i])) ∧
        readPs (layout (rcN b)) ⟨0, v.length, 1⟩ dn .none = .ok ((samples 0 v.length 1).map S) ∧
        ∀ k N, k + N < v.length → En (k + N) ≤ En k - ∑ i ∈ range N, S (k + i) := by
  have h0' : s0.args.length = (rcN b).all.length := by rw [h0, rcN_all b]; rfl
  obtain ⟨st, e0, hr⟩ := linear_run (n := rcN b) (rcN_wf b) (by rw [rcN_l]; omega) (rcN_nl b) rc_inv
    rfl (nt := v.length) (sequ := v.map fun a => [a]) (seqp := List.replicate v.length [])
    (by simp) (by simp)
    (by intro r hr; obtain ⟨a, -, rfl⟩ := List.mem_map.1 hr; rfl)
    (by intro r hr; rw [List.eq_of_mem_replicate hr]; rfl) h0'
  obtain ⟨ds, dn', a1, a2, a3⟩ := C65_passive (n := rcN b) (rcN_wf b) rc_wf rc_ok rfl (le_refl _)
    (rc_energy b) (show (0 : ℝ) < 1 from one_pos) hr
    (by
      intro i hi
      rw [List.getD_eq_getElem?_getD, List.getD_eq_getElem?_getD, List.getElem?_replicate,
        List.getElem?_replicate, if_pos hi, if_pos (by omega)])
    (w := ⟨0, v.length, 1⟩) rfl (le_refl _) (evaluates (rcN b) rc.H) (fun i _ => Or.inl (rcN_nl b))
    (fun i _ => rc_exact _) (fun i _ => rc_passive _)
    (by
      intro i _
      generalize (rcN b).E (st (i + 1)) = e
      show 0 ≤ Core.ldot (["w"].map e) (evs [fun e => 2 * e "w"] e)
      simp [Core.ldot, evs]
      nlinarith [sq_nonneg (e "w")])
  rw [e0] at a2
  refine ⟨ds, dn', st v.length, a1, a2, ?_⟩
  obtain ⟨En, S, b1, b2, b3⟩ := a3 ⟨0, v.length, 1⟩ .none 0 v.length
    ⟨by exact ⟨rfl, rfl, rfl⟩, Nat.zero_le _, le_refl _, le_refl _⟩ hv
  refine ⟨En, S, b1, b2, fun k N hk => ?_⟩
  have h := b3 k N (Nat.zero_le _) hk
  have hs : ∀ e, slack (rcN b) e = 0 := fun e => by
    unfold slack
    rw [show (rcN b).tol = 0 from if_pos rfl, zero_mul]
  simp only [hs, zero_sub, sum_neg_distrib] at h
  rw [show (rcN b).m.fs = 1 from rfl, div_one] at h
  linarith

end Record
end Pyphs
