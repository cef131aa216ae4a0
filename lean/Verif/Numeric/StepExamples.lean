/-
An example for C24 and C59: a call of `update` that returns.
-/
import Verif.Numeric.StepProps

namespace Pyphs
namespace Numeric
open Scheme Mat

theorem exec_op_fwd {n : Num} {st : St Nm ℝ} {k : Nm} {o : Op Nm ℝ} {val : NV ℝ}
    (h : n.syms k = none) (ho : n.op k = some o) (hv : n.prog.evalOp st o = some val) :
    n.prog.exec st (c1 k) = some { st with vals := Function.update st.vals k (some val) } := by
  have h1 : n.prog.argInds k = none := by rw [laidOut n k, h]; rfl
  have h2 : n.prog.op k = some o := ho
  unfold Prog.exec Prog.eval c1
  simp [h2, hv, Prog.set, h1]

theorem set_fwd {n : Num} (h : n.WF) {st : St Nm ℝ} (hl : st.args.length = n.all.length) {k : Nm}
    {l : List String} (hs : n.syms k = some l) (hsub : l.Sublist n.all) {w : List ℝ}
    (hw : w.length = l.length) :
    ∃ st', n.prog.set st k (.v w) = some st' ∧ st'.args.length = n.all.length ∧
      st'.vals = st.vals := by
  obtain ⟨st', h1, _⟩ := set_arg_v (base := n.base) (laidOut n) h.nodup hl hs hsub hw
  obtain ⟨h2, h3, _⟩ := set_arg (base := n.base) (laidOut n) hl hs h1
  exact ⟨st', h1, h3, h2⟩

/-- The example of C22, with no iteration allowed. -/
noncomputable def exN (b : Env ℝ) : Num where
  m := exSp
  p := []
  o := []
  obs := []
  base := b
  eps := 1 / 1000
  maxit := 0

theorem exN_all (b : Env ℝ) : (exN b).all = ["a", "da", "w"] := rfl
theorem exN_wf (b : Env ℝ) : (exN b).WF := ⟨by rw [exN_all b]; decide, rfl⟩
theorem exN_l (b : Env ℝ) : (exN b).l = 1 := rfl
theorem exN_nl (b : Env ℝ) : (exN b).nl = 1 := rfl

theorem exN_inv (e : Env ℝ) : ∃ B, (exSp.J .l .l e).inv = some B := by
  rw [← Option.isSome_iff_exists, ← Option.ne_none_iff_isSome, Ne, inv_eq_none_iff]
  intro h
  refine h ⟨1, 1, fun _ _ => 1⟩ ?_
  have hJ : (exSp.J .l .l e).e 0 0 = 1 := by
    show pdiff (exSp.F .l 0) "da" e = 1
    rw [exSp_F1]
    simp [pdiff, Function.update]
  have hr : (exSp.J .l .l e).r = 1 := rfl
  refine ⟨rfl, rfl, rfl, ?_, ?_⟩ <;>
  · intro i hi j hj
    rw [hr] at hi hj
    obtain rfl : i = 0 := by omega
    obtain rfl : j = 0 := by omega
    rw [hr]; simp [hJ]

/-- The update of the example returns from any state. -/
theorem exN_runs (b : Env ℝ) (st : St Nm ℝ) (hl : st.args.length = 3) : ∃ st', (exN b).update none none st = some st' := by
  have hl0 : st.args.length = (exN b).all.length := by rw [hl, exN_all b]; rfl
  obtain ⟨s1, e1, l1, _⟩ := set_fwd (exN_wf b) hl0 (k := .u) (w := []) rfl (sub_u (exN b)) rfl
  obtain ⟨s2, e2, l2, _⟩ := set_fwd (exN_wf b) l1 (k := .p) (w := []) rfl (sub_p (exN b)) rfl
  -- `x`
  have gx := get_arg (base := (exN b).base) (laidOut (exN b)) (exN_wf b).nodup l2 (n := Nm.x) rfl (sub_x (exN b))
  have gdx := get_arg (base := (exN b).base) (laidOut (exN b)) (exN_wf b).nodup l2 (n := Nm.dx) rfl (sub_dx (exN b))
  obtain ⟨s3, e3, l3, _⟩ := set_fwd (exN_wf b) l2 (k := .x)
    (w := [(exN b).E s2 "a" + (exN b).E s2 "da"]) rfl (sub_x (exN b)) rfl
  have h3 : (exN b).prog.exec s2 ⟨.x, .ud_x⟩ = some s3 := by
    have hv : (exN b).prog.eval s2 .ud_x = some (.v [(exN b).E s2 "a" + (exN b).E s2 "da"]) := by
      show (exN b).prog.evalOp s2 (.add (.ref .x) (.ref .dx)) = _
      simp only [Prog.evalOp, gx, gdx, Option.bind_eq_bind, Option.bind_some, NV.pointwise]
      rfl
    unfold Prog.exec
    simp only [hv]
    exact e3
  -- `o`
  obtain ⟨s4, e4, l4, _⟩ := set_fwd (exN_wf b) l3 (k := .o) (w := []) rfl (sub_o (exN b)) rfl
  have h4 : (exN b).prog.exec s3 ⟨.o, .ud_o⟩ = some s4 := e4
  -- linear part
  obtain ⟨B, hB⟩ := exN_inv ((exN b).env s4.args)
  have hI := inv_isInv hB
  have hBr : B.r = 1 := hI.2.1
  have hBc : B.c = 1 := hI.2.2.1
  set s5 : St Nm ℝ := ⟨s4.args, Function.update s4.vals .jactempFll
    (some (.m (exSp.J .l .l ((exN b).env s4.args))))⟩ with hs5
  have h5 : (exN b).prog.exec s4 (c1 .jactempFll) = some s5 := exec_func (n := (exN b))
    (f := fun a => .m (exSp.J .l .l ((exN b).env a))) rfl rfl rfl
  set s6 : St Nm ℝ := ⟨s5.args, Function.update s5.vals .ijactempFll (some (.m B))⟩ with hs6
  have h6 : (exN b).prog.exec s5 (c1 .ijactempFll) = some s6 := by
    refine exec_op_fwd (n := (exN b)) rfl rfl ?_
    have g : (exN b).prog.get s5 .jactempFll = some (.m (exSp.J .l .l ((exN b).env s4.args))) := by
      rw [get_val rfl]; rfl
    simp only [Prog.evalOp, g, Option.bind_eq_bind, Option.bind_some, NV.inv, hB, Option.map_some]
  set s7 : St Nm ℝ := ⟨s6.args, Function.update s6.vals .Gl
    (some (.v (vlist 1 fun i => exSp.G .l i ((exN b).env s6.args))))⟩ with hs7
  have h7 : (exN b).prog.exec s6 (c1 .Gl) = some s7 := exec_func (n := (exN b))
    (f := fun a => .v (vlist 1 fun i => exSp.G .l i ((exN b).env a))) rfl rfl rfl
  set s8 : St Nm ℝ := ⟨s7.args, Function.update s7.vals .jactempFnll
    (some (.m (exSp.J .nl .l ((exN b).env s7.args))))⟩ with hs8
  have h8 : (exN b).prog.exec s7 (c1 .jactempFnll) = some s8 := exec_func (n := (exN b))
    (f := fun a => .m (exSp.J .nl .l ((exN b).env a))) rfl rfl rfl
  set s9 : St Nm ℝ := ⟨s8.args, Function.update s8.vals .Gnl
    (some (.v (vlist 1 fun i => exSp.G .nl i ((exN b).env s8.args))))⟩ with hs9
  have h9 : (exN b).prog.exec s8 (c1 .Gnl) = some s9 := exec_func (n := (exN b))
    (f := fun a => .v (vlist 1 fun i => exSp.G .nl i ((exN b).env a))) rfl rfl rfl
  have g1 : (exN b).prog.get s9 .Gnl = some (.v (vlist 1 fun i => exSp.G .nl i ((exN b).env s8.args))) := by
    rw [get_val rfl]; rfl
  have g2 : (exN b).prog.get s9 .jactempFnll = some (.m (exSp.J .nl .l ((exN b).env s7.args))) := by
    rw [get_val rfl]; rfl
  have g3 : (exN b).prog.get s9 .ijactempFll = some (.m B) := by
    rw [get_val rfl]; rfl
  have g4 : (exN b).prog.get s9 .Gl = some (.v (vlist 1 fun i => exSp.G .l i ((exN b).env s6.args))) := by
    rw [get_val rfl]; rfl
  have hF : ∃ f : List ℝ, (exN b).prog.evalOp s9 (.add (.ref .Gnl) (.dot (.ref .jactempFnll)
        (.dot (.ref .ijactempFll) (.dot (.num (-1)) (.ref .Gl))))) = some (.v f) := by
    simp only [Prog.evalOp, g1, g2, g3, g4, Option.bind_eq_bind, Option.bind_some]
    rw [dot_neg B 1 _ hBr hBc]
    exact ⟨_, rfl⟩
  obtain ⟨f, hF⟩ := hF
  set s10 : St Nm ℝ := ⟨s9.args, Function.update s9.vals .Fnl (some (.v f))⟩ with hs10
  have h10 : (exN b).prog.exec s9 (c1 .Fnl) = some s10 := exec_op_fwd (n := (exN b)) rfl rfl hF
  set s11 : St Nm ℝ := ⟨s10.args, Function.update s10.vals .res_Fnl
    (some (.s ((exN b).prog.norm f)))⟩ with hs11
  have h11 : (exN b).prog.exec s10 (c1 .res_Fnl) = some s11 := by
    refine exec_op_fwd (n := (exN b)) rfl rfl ?_
    have g : (exN b).prog.get s10 .Fnl = some (.v f) := by rw [get_val rfl]; rfl
    simp only [Prog.evalOp, g, Option.bind_eq_bind, Option.bind_some]
  have hpre : (exN b).prog.execs s2 (exN b).pre = some s11 := by
    show (exN b).prog.execs s2 [⟨.x, .ud_x⟩, ⟨.o, .ud_o⟩, c1 .jactempFll, c1 .ijactempFll, c1 .Gl,
      c1 .jactempFnll, c1 .Gnl, c1 .Fnl, c1 .res_Fnl] = _
    simp only [execs_cons, h3, h4, h5, h6, h7, h8, h9, h10, h11, Option.bind_some]
    rfl
  -- no iteration
  set s12 : St Nm ℝ := ⟨s11.args, Function.update s11.vals .step_Fnl (some (.s 1))⟩ with hs12
  have h12 : (exN b).prog.action (exN b).eps (exN b).maxit s11 (.iter (exN b).imp .res_Fnl .step_Fnl) = some s12 := by
    have hset : (exN b).prog.set s11 .step_Fnl (.s 1) = some s12 := rfl
    have g1 : (exN b).prog.get s12 .res_Fnl = some (.s ((exN b).prog.norm f)) := by rw [get_val rfl]; rfl
    have g2 : (exN b).prog.get s12 .step_Fnl = some (.s 1) := by rw [get_val rfl]; rfl
    have hm : (exN b).maxit = 0 := rfl
    have hc : (exN b).prog.cond (exN b).eps (exN b).maxit .res_Fnl .step_Fnl s12 0 = some false := by
      unfold Prog.cond
      simp only [g1, g2, hm]
      split_ifs <;> simp
    simp only [Prog.action, Prog.iterexecs, hset, Prog.loop, hc]
  -- end
  obtain ⟨s13, e13, l13, _⟩ := set_fwd (exN_wf b) (st := s12) (k := .vl) l4 rfl
    (w := vlist 1 (B.mv fun j => -1 * exSp.G .l j ((exN b).env s6.args))) (sub_v (exN b) .l) rfl
  have h13 : (exN b).prog.exec s12 ⟨.vl, .ud_vl⟩ = some s13 := by
    have g3 : (exN b).prog.get s12 .ijactempFll = some (.m B) := by
      rw [get_val rfl]; rfl
    have g4 : (exN b).prog.get s12 .Gl = some (.v (vlist 1 fun i => exSp.G .l i ((exN b).env s6.args))) := by
      rw [get_val rfl]; rfl
    have hv : (exN b).prog.eval s12 .ud_vl =
        some (.v (vlist 1 (B.mv fun j => -1 * exSp.G .l j ((exN b).env s6.args)))) := by
      show (exN b).prog.evalOp s12 (.dot (.ref .ijactempFll) (.dot (.num (-1)) (.ref .Gl))) = _
      simp only [Prog.evalOp, g3, g4, Option.bind_eq_bind, Option.bind_some]
      rw [dot_neg B 1 _ hBr hBc]
    unfold Prog.exec
    simp only [hv]
    exact e13
  have hpost : ∃ st', (exN b).prog.execs s12 (exN b).post = some st' := by
    show ∃ st', (exN b).prog.execs s12 [⟨.vl, .ud_vl⟩, c1 .dxH, c1 .z, c1 .y] = some st'
    rw [execs_cons, h13, Option.bind_some, execs_cons, exec_func (n := (exN b)) rfl rfl rfl,
      Option.bind_some, execs_cons, exec_func (n := (exN b)) rfl rfl rfl, Option.bind_some, execs_cons,
      exec_func (n := (exN b)) rfl rfl rfl, Option.bind_some]
    exact ⟨_, rfl⟩
  obtain ⟨st', hpost⟩ := hpost
  refine ⟨st', ?_⟩
  unfold Num.update Prog.update
  refine Option.bind_eq_some_iff.2 ⟨s1, e1, Option.bind_eq_some_iff.2 ⟨s2, e2, ?_⟩⟩
  show [Action.exec (exN b).pre, .iter (exN b).imp .res_Fnl .step_Fnl, .exec (exN b).post].foldlM
    ((exN b).prog.action (exN b).eps (exN b).maxit) s2 = some st'
  have a1 : (exN b).prog.action (exN b).eps (exN b).maxit s2 (.exec (exN b).pre) = some s11 := hpre
  have a3 : (exN b).prog.action (exN b).eps (exN b).maxit s12 (.exec (exN b).post) = some st' := hpost
  rw [List.foldlM_cons, a1]
  show ([.iter (exN b).imp .res_Fnl .step_Fnl, .exec (exN b).post].foldlM
    ((exN b).prog.action (exN b).eps (exN b).maxit) s11) = some st'
  rw [List.foldlM_cons, h12]
  show ([.exec (exN b).post].foldlM ((exN b).prog.action (exN b).eps (exN b).maxit) s12) = some st'
  rw [List.foldlM_cons, a3]
  rfl

/-- The hypotheses of C24 and C59 hold together. -/
example (b : Env ℝ) (st : St Nm ℝ) (hl : st.args.length = 3) :
    ∃ st', (exN b).update none none st = some st' ∧ (exN b).WF ∧ MethWF (exN b).m ∧ SplitOK (exN b).m ∧
      (exN b).E st' "a" = (exN b).E st "a" + (exN b).E st "da" ∧
      (exN b).E st' "da" + (exN b).E st' "w" ^ 3 = 0 := by
  obtain ⟨st', h⟩ := exN_runs b st hl
  have hl0 : st.args.length = (exN b).all.length := by rw [hl, exN_all b]; rfl
  refine ⟨st', h, exN_wf b, exSp_wf, exSp_ok, ?_, ?_⟩
  · have h' : (exN b).update (some []) (some []) st = some st' := h
    exact (C24_step (exN_wf b) hl0 rfl rfl h').2.1 "a" (List.mem_singleton.2 rfl)
  · have := (C59_consistent (exN_wf b) exSp_wf exSp_ok hl0 h).1 0 Nat.zero_lt_one
    rw [← this]
    show _ = exSp.F .l 0 ((exN b).E st')
    rw [exSp_F1]

end Numeric
end Pyphs
