/-
Property C67: a call of `update` never fails, if the Jacobians of the discrete equations are
nonsingular.
-/
import Verif.Numeric.StepExamples

namespace Pyphs
namespace Mat

/-- A square matrix with a trivial kernel has an inverse. -/
theorem inv_of_kernel {A : Mat ℝ} {k : ℕ} (hr : A.r = k) (hc : A.c = k)
    (h : ∀ v : ℕ → ℝ, (∀ i < k, A.mv v i = 0) → ∀ i < k, v i = 0) : ∃ B, A.inv = some B := by
  have hd : detN A.r A.e ≠ 0 := by
    rw [detN_eq, hr]
    intro h0
    obtain ⟨v, hv, h1⟩ := Matrix.exists_mulVec_eq_zero_iff.2 h0
    apply hv
    funext i
    have := h (fun j => if hj : j < k then v ⟨j, hj⟩ else 0) (fun i hi => by
      have h2 := congrFun h1 ⟨i, hi⟩
      unfold mv
      rw [hc, Finset.sum_range]
      simpa [Matrix.mulVec, dotProduct, toM] using h2) i i.2
    simpa using this
  unfold inv
  rw [if_neg (by rw [hr, hc]; simp), if_neg hd]
  exact ⟨_, rfl⟩

end Mat

namespace Numeric
open Scheme Mat

/-- The Jacobian of the discrete equations is nonsingular for the unknowns `vl`, and for all the
unknowns. -/
structure Nonsing (m : Meth) : Prop where
  lin : ∀ (e : Env ℝ) (φ : ℕ → ℝ), (∀ i < (m.v .l).length, (m.J .l .l e).mv φ i = 0) →
    ∀ i < (m.v .l).length, φ i = 0
  all : ∀ (e : Env ℝ) (φ ψ : ℕ → ℝ),
    (∀ i < (m.v .l).length, (m.J .l .l e).mv φ i + (m.JG .l .nl e).mv ψ i = 0) →
    (∀ i < (m.v .nl).length, (m.J .nl .l e).mv φ i + (m.JG .nl .nl e).mv ψ i = 0) →
    ∀ i < (m.v .nl).length, ψ i = 0

theorem dot_mm {A B : Mat ℝ} (h : A.c = B.r) : NV.dot (.m A) (.m B) = some (.m (A.mul B)) := by
  simp only [NV.dot]; rw [if_pos h]

theorem add_mm {A B : Mat ℝ} (h : A.r = B.r ∧ A.c = B.c) : NV.pointwise (· + ·) (.m A) (.m B) =
    some (.m ⟨A.r, A.c, fun i j => A.e i j + B.e i j⟩) := by
  simp only [NV.pointwise]; rw [if_pos h]

theorem dot_sm (c : ℝ) (B : Mat ℝ) : NV.dot (.s c) (.m B) =
    some (.m ⟨B.r, B.c, fun i j => c * B.e i j⟩) := rfl

/-- The commands `Gnl, Fnl, res_Fnl` do not fail. -/
theorem res_fwd {n : Num} {st : St Nm ℝ} {iJ A : Mat ℝ}
    (hlin : 0 < n.l → LinOK n (n.E st) st iJ) (hcpl : 0 < n.l → CplOK n (n.E st) st A) :
    ∃ s1 f, s1.args = st.args ∧ s1.vals .Fnl = some (.v f) ∧ f.length = n.nl ∧
      s1.vals .save_Fnl = st.vals .save_Fnl ∧
      n.prog.execs st [c1 .Gnl, c1 .Fnl, c1 .res_Fnl] = some s1 := by
  set s0 : St Nm ℝ := ⟨st.args, Function.update st.vals .Gnl
    (some (.v (vlist n.nl fun i => n.m.G .nl i (n.env st.args))))⟩ with hs0
  have h0 : n.prog.exec st (c1 .Gnl) = some s0 := exec_func (n := n)
    (f := fun a => .v (vlist n.nl fun i => n.m.G .nl i (n.env a))) rfl rfl rfl
  have key : ∃ f : List ℝ, f.length = n.nl ∧ n.prog.exec s0 (c1 .Fnl) =
      some { s0 with vals := Function.update s0.vals .Fnl (some (.v f)) } := by
    have g1 : n.prog.get s0 .Gnl = some (.v (vlist n.nl fun i => n.m.G .nl i (n.E st))) := by
      rw [get_val rfl]; rfl
    by_cases hl : 0 < n.l
    · have L := hlin hl
      have C := hcpl hl
      have g2 : n.prog.get s0 .jactempFnll = some (.m A) := by
        rw [get_val rfl]; exact C.a
      have g3 : n.prog.get s0 .ijactempFll = some (.m iJ) := by
        rw [get_val rfl]; exact L.ij
      have g4 : n.prog.get s0 .Gl = some (.v (vlist n.l fun i => n.m.G .l i (n.E st))) := by
        rw [get_val rfl]; exact L.G
      have d := dot_neg iJ n.l (fun i => n.m.G .l i (n.E st)) L.r L.c
      refine ⟨?w, ?len, exec_op_fwd (n := n) (k := .Fnl) rfl (if_pos hl) ?ev⟩
      case ev =>
        simp only [Prog.evalOp, g1, g2, g3, g4, Option.bind_eq_bind, Option.bind_some]
        rw [d]
        simp only [Option.bind_some, NV.dot]
        rw [if_pos (by rw [vlist_length, C.c]), Option.bind_some]
        simp only [NV.pointwise]
        rw [if_pos (by simp [vlist, C.r])]
      case len => simp [vlist, C.r]
    · refine ⟨vlist n.nl fun i => n.m.G .nl i (n.E st), vlist_length _ _,
        exec_op_fwd (n := n) (k := .Fnl) rfl (if_neg hl) ?_⟩
      simp only [Prog.evalOp, g1]
  obtain ⟨f, hf, h1⟩ := key
  set s1 : St Nm ℝ := { s0 with vals := Function.update s0.vals .Fnl (some (.v f)) } with hs1
  have g5 : n.prog.get s1 .Fnl = some (.v f) := by rw [get_val rfl]; rfl
  have h2 : n.prog.exec s1 (c1 .res_Fnl) =
      some { s1 with vals := Function.update s1.vals .res_Fnl (some (.s (n.prog.norm f))) } :=
    exec_op_fwd (n := n) rfl rfl (by
      simp only [Prog.evalOp, g5, Option.bind_eq_bind, Option.bind_some])
  refine ⟨{ s1 with vals := Function.update s1.vals .res_Fnl (some (.s (n.prog.norm f))) }, f, rfl,
    rfl, hf, rfl, ?_⟩
  rw [execs_cons, h0, Option.bind_some, execs_cons, h1, Option.bind_some, execs_cons, h2,
    Option.bind_some]
  rfl

/-- The matrix of the iterations has an inverse. -/
theorem jacFnl_inv {n : Num} (hN : Nonsing n.m) {e : Env ℝ} {K iJ A : Mat ℝ}
    (hi : ∀ ψ : ℕ → ℝ, ∀ i < n.l, (n.m.J .l .l e).mv (iJ.mv ψ) i = ψ i)
    (hA : ∀ ψ : ℕ → ℝ, ∀ i < n.nl, A.mv ψ i = (n.m.J .nl .l e).mv ψ i)
    (hr : K.r = n.nl) (hc : K.c = n.nl)
    (hK : ∀ (ψ : ℕ → ℝ), ∀ i < n.nl, K.mv ψ i = (n.m.JG .nl .nl e).mv ψ i +
      A.mv (iJ.mv fun j => -1 * (n.m.JG .l .nl e).mv ψ j) i) : ∃ B, K.inv = some B := by
  refine inv_of_kernel hr hc fun ψ h => ?_
  refine hN.all e (iJ.mv fun j => -1 * (n.m.JG .l .nl e).mv ψ j) ψ (fun i hi' => ?_) fun i hi' => ?_
  · rw [hi _ i hi']; ring
  · rw [← hA _ i hi', add_comm, ← hK ψ i hi', h i hi']

/-- One iteration does not fail, its step is a number, and it is an iteration of the method of Newton for
the reduced equations: the unknowns `vnl` are moved by the opposite of the product of the inverse of the
reduced Jacobian with the reduced residual. -/
theorem imp_newton {n : Num} (hn : n.WF) (hs : SplitOK n.m) (hN : Nonsing n.m) {st : St Nm ℝ}
    {iJ A : Mat ℝ} {f : List ℝ} (hi : Inv n st iJ A f) :
    ∃ st' t K B, n.prog.execs st n.imp = some st' ∧ st'.vals .step_Fnl = some (.s t) ∧
      (∀ (ψ : ℕ → ℝ), ∀ i < n.nl, Mat.mv K ψ i = (n.m.JG .nl .nl (n.E st)).mv ψ i +
        (n.m.J .nl .l (n.E st)).mv (iJ.mv fun j => -1 * (n.m.JG .l .nl (n.E st)).mv ψ j) i) ∧
      (∀ (ψ : ℕ → ℝ), ∀ i < n.nl, Mat.mv K (Mat.mv B ψ) i = ψ i) ∧
      (∀ j < n.nl, n.E st' ((n.m.v .nl).getD j "") =
        n.E st ((n.m.v .nl).getD j "") - Mat.mv B (fun j => f.getD j 0) j) ∧
      ∀ s, s ∉ n.m.v .nl → n.E st' s = n.E st s := by
  have e : n.imp = [c1 .save_Fnl] ++ ((if 0 < n.l then [c1 .jacGlnl] else []) ++
      ([c1 .jacGnlnl] ++ ([c1 .jacFnl] ++ ([c1 .ijacFnl] ++ ([⟨.vnl, .ud_vnl⟩] ++
      ((if 0 < n.l then [c1 .Gl] else []) ++
      ([c1 .Gnl, c1 .Fnl, c1 .res_Fnl] ++ [c1 .step_Fnl]))))))) := by
    unfold Num.imp; split_ifs <;> rfl
  -- `save_Fnl`
  have g0 : n.prog.get st .Fnl = some (.v f) := by rw [get_val rfl]; exact hi.res.F
  set s1 : St Nm ℝ := { st with vals := Function.update st.vals .save_Fnl (some (.v f)) } with hs1
  have h1 : n.prog.execs st [c1 .save_Fnl] = some s1 := by
    rw [execs_cons, exec_op_fwd (n := n) (val := .v f) rfl rfl (by simp only [Prog.evalOp, g0])]; rfl
  -- `jacGlnl`
  obtain ⟨s2, h2, a2, v2, j2⟩ : ∃ s2 : St Nm ℝ,
      n.prog.execs s1 (if 0 < n.l then [c1 .jacGlnl] else []) = some s2 ∧ s2.args = st.args ∧
      (∀ k, k ≠ .jacGlnl → s2.vals k = s1.vals k) ∧
      (0 < n.l → s2.vals .jacGlnl = some (.m (n.m.JG .l .nl (n.E st)))) := by
    by_cases hl : 0 < n.l
    · rw [if_pos hl]
      refine ⟨_, by rw [execs_cons, exec_func (n := n) rfl rfl rfl]; rfl, ?_, ?_, fun _ => ?_⟩
      · rfl
      · intro k hk; exact Function.update_of_ne hk _ _
      · rfl
    · rw [if_neg hl]
      exact ⟨s1, rfl, rfl, fun _ _ => rfl, fun h => absurd h hl⟩
  -- `jacGnlnl`
  set s3 : St Nm ℝ := ⟨s2.args, Function.update s2.vals .jacGnlnl
    (some (.m (n.m.JG .nl .nl (n.env s2.args))))⟩ with hs3
  have h3 : n.prog.execs s2 [c1 .jacGnlnl] = some s3 := by
    rw [execs_cons, exec_func (n := n) rfl rfl rfl]; rfl
  have gG : n.prog.get s3 .jacGnlnl = some (.m (n.m.JG .nl .nl (n.E st))) := by
    rw [get_val rfl]
    show some (NV.m (n.m.JG .nl .nl (n.env s2.args))) = _
    rw [a2]; rfl
  -- `jacFnl`
  obtain ⟨K, hK, hKr, hKc, hKe, hKm⟩ : ∃ K : Mat ℝ, n.prog.exec s3 (c1 .jacFnl) =
      some { s3 with vals := Function.update s3.vals .jacFnl (some (.m K)) } ∧ K.r = n.nl ∧
      K.c = n.nl ∧ (∃ B, K.inv = some B) ∧
      ∀ (ψ : ℕ → ℝ), ∀ i < n.nl, Mat.mv K ψ i = (n.m.JG .nl .nl (n.E st)).mv ψ i +
        (n.m.J .nl .l (n.E st)).mv (iJ.mv fun j => -1 * (n.m.JG .l .nl (n.E st)).mv ψ j) i := by
    by_cases hl : 0 < n.l
    · have L := hi.lin hl
      have C := hi.cpl hl
      have g2 : n.prog.get s3 .jactempFnll = some (.m A) := by
        rw [get_val rfl]
        show s2.vals .jactempFnll = _
        rw [v2 _ (by simp)]; exact C.a
      have g3 : n.prog.get s3 .ijactempFll = some (.m iJ) := by
        rw [get_val rfl]
        show s2.vals .ijactempFll = _
        rw [v2 _ (by simp)]; exact L.ij
      have g4 : n.prog.get s3 .jacGlnl = some (.m (n.m.JG .l .nl (n.E st))) := by
        rw [get_val rfl]; exact j2 hl
      refine ⟨?K, exec_op_fwd (n := n) (k := .jacFnl) rfl (if_pos hl) ?ev, ?rest⟩
      case ev =>
        simp only [Prog.evalOp, gG, g2, g3, g4, Option.bind_eq_bind, Option.bind_some]
        rw [dot_sm, Option.bind_some, dot_mm (by rw [L.c]; rfl), Option.bind_some,
          dot_mm (by rw [C.c]; exact L.r.symm), Option.bind_some]
        rw [add_mm (by exact ⟨C.r.symm, rfl⟩)]
      case rest =>
        suffices hq : ∀ ψ : ℕ → ℝ, ∀ i < n.nl, Mat.mv ⟨n.nl, n.nl, _⟩ ψ i =
            (n.m.JG .nl .nl (n.E st)).mv ψ i +
            A.mv (iJ.mv fun j => -1 * (n.m.JG .l .nl (n.E st)).mv ψ j) i from
          ⟨rfl, rfl, jacFnl_inv hN L.inv (fun ψ i hi => C.eq ψ i hi) rfl rfl hq,
            fun ψ i hi' => (hq ψ i hi').trans (by rw [C.eq _ i hi'])⟩
        intro ψ i _
        have e1 : (A.mul (iJ.mul ⟨(n.m.JG .l .nl (n.E st)).r, (n.m.JG .l .nl (n.E st)).c,
            fun i j => -1 * (n.m.JG .l .nl (n.E st)).e i j⟩)).mv ψ i =
            A.mv (iJ.mv fun j => -1 * (n.m.JG .l .nl (n.E st)).mv ψ j) i := by
          rw [mv_mul]
          refine mv_congr (fun j _ => ?_) i
          rw [mv_mul]
          refine mv_congr (fun j _ => ?_) _
          simp only [mv, Finset.mul_sum, mul_assoc]
        rw [← e1]
        simp only [mv]
        show (∑ j ∈ Finset.range n.nl, _) = (∑ j ∈ Finset.range n.nl, _) +
          ∑ j ∈ Finset.range n.nl, _
        rw [← Finset.sum_add_distrib]
        exact Finset.sum_congr rfl fun j _ => by ring
    · refine ⟨n.m.JG .nl .nl (n.E st), exec_op_fwd (n := n) (k := .jacFnl) rfl (if_neg hl) (by
        simp only [Prog.evalOp, gG]), rfl, rfl, ?_⟩
      have hl0 : (n.m.v .l).length = 0 := by
        have : n.l = 0 := by omega
        exact this
      refine ⟨?_, fun ψ i _ => by rw [mv_zero_cols (n.m.J .nl .l (n.E st)) hl0, add_zero]⟩
      refine inv_of_kernel (k := n.nl) rfl rfl fun ψ h => ?_
      refine hN.all (n.E st) (fun _ => 0) ψ (fun i hi' => by omega) fun i hi' => ?_
      rw [h i hi', mv_zero_cols _ hl0, add_zero]
  set s4 : St Nm ℝ := { s3 with vals := Function.update s3.vals .jacFnl (some (.m K)) } with hs4
  have h4 : n.prog.execs s3 [c1 .jacFnl] = some s4 := by rw [execs_cons, hK]; rfl
  -- `ijacFnl`
  obtain ⟨B, hB⟩ := hKe
  have hI := inv_isInv hB
  have g5 : n.prog.get s4 .jacFnl = some (.m K) := by rw [get_val rfl]; rfl
  set s5 : St Nm ℝ := { s4 with vals := Function.update s4.vals .ijacFnl (some (.m B)) } with hs5
  have h5 : n.prog.execs s4 [c1 .ijacFnl] = some s5 := by
    rw [execs_cons, exec_op_fwd (n := n) (val := .m B) rfl rfl (by
      simp only [Prog.evalOp, g5, Option.bind_eq_bind, Option.bind_some, NV.inv, hB,
        Option.map_some])]
    rfl
  have l5 : s5.args.length = n.all.length := by
    show s2.args.length = _
    rw [a2]; exact hi.len
  -- `vnl`
  have gv := get_arg (base := n.base) (laidOut n) hn.nodup l5 (n := Nm.vnl) rfl (sub_v n .nl)
  have gF : n.prog.get s5 .Fnl = some (.v f) := by
    rw [get_val rfl]
    show s2.vals .Fnl = _
    rw [v2 _ (by simp)]
    exact hi.res.F
  have gB : n.prog.get s5 .ijacFnl = some (.m B) := by rw [get_val rfl]; rfl
  have hBr : B.r = n.nl := hI.2.1.trans hKr
  have hBc : B.c = n.nl := hI.2.2.1.trans hKr
  obtain ⟨wv, hwv, lwv, vwv⟩ : ∃ wv : List ℝ, n.prog.eval s5 .ud_vnl = some (.v wv) ∧
      wv.length = (n.m.v .nl).length ∧ ∀ j < n.nl, wv.getD j 0 =
        n.E st ((n.m.v .nl).getD j "") - B.mv (fun j => f.getD j 0) j := by
    refine ⟨?w, ?ev, ?len, ?val⟩
    case ev =>
      show n.prog.evalOp s5 (.add (.ref .vnl) (.prod (.num (-1)) (.dot (.ref .ijacFnl)
        (.ref .Fnl)))) = _
      simp only [Prog.evalOp, gv, gF, gB, Option.bind_eq_bind, Option.bind_some, NV.dot]
      rw [if_pos (by rw [hBc, hi.res.len]), Option.bind_some]
      simp only [NV.pointwise, Option.bind_some]
      rw [if_pos (by simp [hBr, Num.nl])]
    case len => simp [hBr, Num.nl]
    case val =>
      intro j hj
      have hj' : j < (n.m.v .nl).length := hj
      have hE5 : envOf n.all n.base s5.args = n.E st := by
        show n.env s2.args = _
        rw [a2]; rfl
      simp [List.getD_eq_getElem?_getD, hBr, hj, hj', hE5]
      ring
  obtain ⟨s6, e6, g6⟩ := set_arg_v (base := n.base) (laidOut n) hn.nodup l5 (n := Nm.vnl) rfl
    (sub_v n .nl) lwv
  obtain ⟨v6, l6, _⟩ := set_arg (base := n.base) (laidOut n) l5 (n := Nm.vnl) rfl e6
  have w6 : ∀ j < n.nl, n.E s6 ((n.m.v .nl).getD j "") =
      n.E st ((n.m.v .nl).getD j "") - B.mv (fun j => f.getD j 0) j := by
    intro j hj
    have hj' : j < (n.m.v .nl).length := hj
    rw [← vwv j hj, ← g6]
    simp [List.getD_eq_getElem?_getD, hj', Num.E, Num.env]
  have h6 : n.prog.execs s5 [⟨.vnl, .ud_vnl⟩] = some s6 := by
    rw [execs_cons]
    unfold Prog.exec
    simp only [hwv]
    show (n.prog.set s5 .vnl (.v wv)).bind _ = _
    rw [e6]; rfl
  have he : ∀ s, s ∉ n.m.v .nl → n.E s6 s = n.E st s := by
    intro s hs
    rw [(execs_frame l5 h6).2 s (by intro c hc l hl; simp at hc; subst hc; cases hl; exact hs)]
    show n.env s2.args s = _
    rw [a2]; rfl
  -- `Gl`
  obtain ⟨s7, h7, b1, b2, b3, b4⟩ : ∃ s7 : St Nm ℝ,
      n.prog.execs s6 (if 0 < n.l then [c1 .Gl] else []) = some s7 ∧ s7.args = s6.args ∧
      (0 < n.l → LinOK n (n.E s7) s7 iJ) ∧ (0 < n.l → CplOK n (n.E s7) s7 A) ∧
      s7.vals .save_Fnl = some (.v f) := by
    by_cases hl : 0 < n.l
    · rw [if_pos hl]
      refine ⟨_, by rw [execs_cons, exec_func (n := n) rfl rfl rfl]; rfl, ?_, fun _ => ?_,
        fun _ => ?_, ?_⟩
      · rfl
      · refine (hi.lin hl).move hs he ?_ rfl
        show s6.vals .ijactempFll = _
        rw [v6]
        show s2.vals .ijactempFll = _
        rw [v2 _ (by simp)]
        rfl
      · refine (hi.cpl hl).move hs he ?_
        show s6.vals .jactempFnll = _
        rw [v6]
        show s2.vals .jactempFnll = _
        rw [v2 _ (by simp)]
        rfl
      · show s6.vals .save_Fnl = _
        rw [v6]
        show s2.vals .save_Fnl = _
        rw [v2 _ (by simp)]
        rfl
    · rw [if_neg hl]
      refine ⟨s6, rfl, rfl, fun h => absurd h hl, fun h => absurd h hl, ?_⟩
      rw [v6]
      show s2.vals .save_Fnl = _
      rw [v2 _ (by simp)]
      rfl
  obtain ⟨s8, f', c0, c2, c3, c4, h8⟩ := res_fwd b2 b3
  have gF' : n.prog.get s8 .Fnl = some (.v f') := by rw [get_val rfl]; exact c2
  have gS : n.prog.get s8 .save_Fnl = some (.v f) := by rw [get_val rfl, c4]; exact b4
  obtain ⟨t, ht⟩ : ∃ t, n.prog.evalOp s8 (.norm (.add (.ref .Fnl)
      (.prod (.num (-1)) (.ref .save_Fnl)))) = some (.s t) := by
    refine ⟨?t, ?ev⟩
    case ev =>
      simp only [Prog.evalOp, gF', gS, Option.bind_eq_bind, Option.bind_some, NV.pointwise]
      rw [if_pos (by simp [c3, hi.res.len]), Option.bind_some]
  have h9 : n.prog.exec s8 (c1 .step_Fnl) =
      some { s8 with vals := Function.update s8.vals .step_Fnl (some (.s t)) } :=
    exec_op_fwd (n := n) rfl rfl ht
  have hE8 : n.E { s8 with vals := Function.update s8.vals .step_Fnl (some (.s t)) } = n.E s6 := by
    show n.env s8.args = n.env s6.args
    rw [c0, b1]
  refine ⟨{ s8 with vals := Function.update s8.vals .step_Fnl (some (.s t)) }, t, K, B, ?_, rfl, hKm,
    fun ψ i hi' => hI.mv_left ψ (by rw [hKr]; exact hi'), fun j hj => by rw [hE8]; exact w6 j hj,
    fun s hs => by rw [hE8]; exact he s hs⟩
  rw [e, execs_append, h1, Option.bind_some, execs_append, h2, Option.bind_some, execs_append, h3,
    Option.bind_some, execs_append, h4, Option.bind_some, execs_append, h5, Option.bind_some,
    execs_append, h6, Option.bind_some, execs_append, h7, Option.bind_some, execs_append, h8,
    Option.bind_some, execs_cons, h9]
  rfl

theorem imp_fwd {n : Num} (hn : n.WF) (hs : SplitOK n.m) (hN : Nonsing n.m) {st : St Nm ℝ}
    {iJ A : Mat ℝ} {f : List ℝ} (hi : Inv n st iJ A f) :
    ∃ st' t, n.prog.execs st n.imp = some st' ∧ st'.vals .step_Fnl = some (.s t) := by
  obtain ⟨st', t, _, _, h1, h2, -⟩ := imp_newton hn hs hN hi
  exact ⟨st', t, h1, h2⟩

/-- The loop ends without exception, when its commands do not fail. -/
theorem loop_fwd {N K : Type} [Field K] [LinearOrder K] [DecidableEq N] {P : Prog N K} {eps : K}
    {maxit : ℕ} {cmds : List (Cmd N)} {res step : N} (I : St N K → Prop)
    (hI : ∀ st, I st → ∃ r t, P.get st res = some (.s r) ∧ P.get st step = some (.s t))
    (hc : ∀ st, I st → ∃ st', P.execs st cmds = some st' ∧ I st') :
    ∀ (fuel it : ℕ) (st : St N K), I st → it + fuel = maxit + 1 → it ≤ maxit →
      ∃ st' k, P.loop eps maxit cmds res step fuel it st = .ok (st', k) := by
  intro fuel
  induction fuel with
  | zero => intro it st _ h1 h2; omega
  | succ fuel ih =>
    intro it st h0 h1 h2
    obtain ⟨r, t, hr, ht⟩ := hI st h0
    unfold Prog.loop Prog.cond
    simp only [hr, ht]
    split_ifs with h
    · cases hb : (decide (t > eps) && decide (it < maxit)) with
      | false => exact ⟨_, _, rfl⟩
      | true =>
        simp only [Bool.and_eq_true, decide_eq_true_eq] at hb
        obtain ⟨st', e1, e2⟩ := hc st h0
        simp only [e1]
        exact ih (it + 1) st' e2 (by omega) (by omega)
    · exact ⟨_, _, rfl⟩

/-- The iterations do not fail. -/
theorem iter_fwd {n : Num} (hn : n.WF) (hs : SplitOK n.m) (hN : Nonsing n.m) {st : St Nm ℝ}
    {iJ A : Mat ℝ} {f : List ℝ} (hi : Inv n st iJ A f) :
    ∃ st', n.prog.action n.eps n.maxit st (.iter n.imp .res_Fnl .step_Fnl) = some st' := by
  set s0 : St Nm ℝ := { st with vals := Function.update st.vals .step_Fnl (some (.s 1)) } with hs0
  have h0 : n.prog.set st .step_Fnl (.s 1) = some s0 := rfl
  have i0 : Inv n s0 iJ A f :=
    ⟨hi.len, fun hl => ⟨(hi.lin hl).ij, (hi.lin hl).r, (hi.lin hl).c, (hi.lin hl).inv,
      (hi.lin hl).G⟩, fun hl => ⟨(hi.cpl hl).a, (hi.cpl hl).r, (hi.cpl hl).c, (hi.cpl hl).eq⟩,
      ⟨hi.res.F, hi.res.len, hi.res.eq, hi.res.res⟩⟩
  obtain ⟨st', k, h⟩ := loop_fwd (P := n.prog) (eps := n.eps) (maxit := n.maxit) (cmds := n.imp)
    (res := .res_Fnl) (step := .step_Fnl)
    (fun s => (∃ f, Inv n s iJ A f) ∧ ∃ t, s.vals .step_Fnl = some (.s t))
    (fun s ⟨⟨f, hf⟩, t, ht⟩ => ⟨_, t, by rw [get_val rfl]; exact hf.res.res, by
      rw [get_val rfl]; exact ht⟩)
    (fun s ⟨⟨f, hf⟩, t, ht⟩ => by
      obtain ⟨s', t', e1, e2⟩ := imp_fwd hn hs hN hf
      exact ⟨s', e1, imp_inv hs hf e1, t', e2⟩)
    (n.maxit + 1) 0 s0 ⟨⟨f, i0⟩, 1, rfl⟩ (by omega) (by omega)
  refine ⟨st', ?_⟩
  simp only [Prog.action, Prog.iterexecs, h0, h]

/-- **C67**: from any state, for any inputs and parameters of the right lengths, a call of `update`
returns: no singular matrix is met, whatever the number of iterations that are made. -/
theorem C67_update {n : Num} (hn : n.WF) (hs : SplitOK n.m) (hN : Nonsing n.m)
    (hobs : n.obs.length = n.o.length) {u p : List ℝ} (hu : u.length = n.m.u.length)
    (hp : p.length = n.p.length) {st : St Nm ℝ} (hst : st.args.length = n.all.length) :
    ∃ st', n.update (some u) (some p) st = some st' := by
  obtain ⟨s1, e1, l1, _⟩ := set_fwd hn hst (k := .u) (w := u) rfl (Numeric.sub_u n) hu
  obtain ⟨s2, e2, l2, _⟩ := set_fwd hn l1 (k := .p) (w := p) rfl (Numeric.sub_p n) hp
  have gx := get_arg (base := n.base) (laidOut n) hn.nodup l2 (n := Nm.x) rfl (Numeric.sub_x n)
  have gdx := get_arg (base := n.base) (laidOut n) hn.nodup l2 (n := Nm.dx) rfl (Numeric.sub_dx n)
  obtain ⟨wx, hwx, hwl⟩ : ∃ wx : List ℝ, n.prog.eval s2 .ud_x = some (.v wx) ∧
      wx.length = n.m.g.x.length := by
    refine ⟨List.zipWith (· + ·) (n.m.g.x.map (n.E s2)) ((n.m.g.x.map dn).map (n.E s2)), ?_, by simp⟩
    show n.prog.evalOp s2 (.add (.ref .x) (.ref .dx)) = _
    simp only [Prog.evalOp, gx, gdx, Option.bind_eq_bind, Option.bind_some, NV.pointwise]
    rw [if_pos (by simp)]
    rfl
  obtain ⟨s3, e3, l3, _⟩ := set_fwd hn l2 (k := .x) (w := wx) rfl (Numeric.sub_x n) hwl
  have h3 : n.prog.exec s2 ⟨.x, .ud_x⟩ = some s3 := by
    unfold Prog.exec
    simp only [hwx]
    exact e3
  obtain ⟨s4, e4, l4, _⟩ := set_fwd hn l3 (k := .o) (w := n.obs.map fun f => f (n.env s3.args)) rfl
    (Numeric.sub_o n) (by simpa using hobs)
  have h4 : n.prog.exec s3 ⟨.o, .ud_o⟩ = some s4 := by
    unfold Prog.exec
    have : n.prog.eval s3 .ud_o = some (.v (n.obs.map fun f => f (n.env s3.args))) := rfl
    simp only [this]
    exact e4
  have epre : n.pre = [⟨.x, .ud_x⟩, ⟨.o, .ud_o⟩] ++
      ((if 0 < n.l then [c1 .jactempFll, c1 .ijactempFll, c1 .Gl] else []) ++
      (if 0 < n.nl then (if 0 < n.l then [c1 .jactempFnll] else []) ++
        [c1 .Gnl, c1 .Fnl, c1 .res_Fnl] else [])) := by
    unfold Num.pre; rw [List.append_assoc]
  have h4' : n.prog.execs s2 [⟨.x, .ud_x⟩, ⟨.o, .ud_o⟩] = some s4 := by
    rw [execs_cons, h3, Option.bind_some, execs_cons, h4]; rfl
  -- linear part
  obtain ⟨s5, iJ, h5, a5, L5⟩ : ∃ s5 iJ,
      n.prog.execs s4 (if 0 < n.l then [c1 .jactempFll, c1 .ijactempFll, c1 .Gl] else []) = some s5 ∧
      s5.args = s4.args ∧ (0 < n.l → LinOK n (n.E s5) s5 iJ) := by
    by_cases hl : 0 < n.l
    · rw [if_pos hl]
      obtain ⟨B, hB⟩ := inv_of_kernel (A := n.m.J .l .l (n.env s4.args)) (k := n.l) rfl rfl
        fun v hv => hN.lin _ v hv
      set q : St Nm ℝ := ⟨s4.args, Function.update s4.vals .jactempFll
        (some (.m (n.m.J .l .l (n.env s4.args))))⟩ with hq
      have k1 : n.prog.exec s4 (c1 .jactempFll) = some q := exec_func (n := n)
        (f := fun a => .m (n.m.J .l .l (n.env a))) rfl rfl rfl
      set q2 : St Nm ℝ := ⟨q.args, Function.update q.vals .ijactempFll (some (.m B))⟩ with hq2
      have k2 : n.prog.exec q (c1 .ijactempFll) = some q2 := by
        refine exec_op_fwd (n := n) rfl rfl ?_
        have g : n.prog.get q .jactempFll = some (.m (n.m.J .l .l (n.env s4.args))) := by
          rw [get_val rfl]; rfl
        simp only [Prog.evalOp, g, Option.bind_eq_bind, Option.bind_some, NV.inv, hB,
          Option.map_some]
      obtain ⟨s5, h5⟩ : ∃ s5, n.prog.execs s4 [c1 .jactempFll, c1 .ijactempFll, c1 .Gl] = some s5 :=
        ⟨_, by rw [execs_cons, k1, Option.bind_some, execs_cons, k2, Option.bind_some, execs_cons,
          exec_func (n := n) rfl rfl rfl, Option.bind_some]; rfl⟩
      obtain ⟨s5', iJ, d1, d2, d3⟩ := pre_lin (rest := []) hl h5
      simp only [Prog.execs, List.foldlM_nil, Option.pure_def, Option.some.injEq] at d3
      subst d3
      refine ⟨s5', iJ, h5, d1, fun _ => ?_⟩
      have : n.E s5' = n.E s4 := by unfold Num.E; rw [d1]
      rw [this]; exact d2
    · rw [if_neg hl]
      exact ⟨s4, Mat.zeros 0 0, rfl, rfl, fun h => absurd h hl⟩
  have l5 : s5.args.length = n.all.length := by rw [a5]; exact l4
  -- nonlinear part
  obtain ⟨s6, s7, h6, h7, l7, L7⟩ : ∃ s6 s7 : St Nm ℝ, n.prog.execs s5 (if 0 < n.nl then
      (if 0 < n.l then [c1 .jactempFnll] else []) ++ [c1 .Gnl, c1 .Fnl, c1 .res_Fnl] else []) =
        some s6 ∧
      (if 0 < n.nl then [Action.iter n.imp .res_Fnl .step_Fnl] else []).foldlM
        (n.prog.action n.eps n.maxit) s6 = some s7 ∧ s7.args.length = n.all.length ∧
      (0 < n.l → LinOK n (n.E s7) s7 iJ) := by
    by_cases hnl : 0 < n.nl
    · rw [if_pos hnl, if_pos hnl]
      obtain ⟨a, A, ha, aa, La, Ca⟩ : ∃ (a : St Nm ℝ) (A : Mat ℝ),
          n.prog.execs s5 (if 0 < n.l then [c1 .jactempFnll] else []) = some a ∧
          a.args = s5.args ∧ (0 < n.l → LinOK n (n.E a) a iJ) ∧
          (0 < n.l → CplOK n (n.E a) a A) := by
        by_cases hl : 0 < n.l
        · rw [if_pos hl]
          refine ⟨⟨s5.args, Function.update s5.vals .jactempFnll
            (some (.m (n.m.J .nl .l (n.env s5.args))))⟩, n.m.J .nl .l (n.env s5.args), by
            rw [execs_cons, exec_func (n := n) rfl rfl rfl]; rfl, rfl, fun _ => ?_, fun _ => ?_⟩
          · have L := L5 hl
            exact ⟨L.ij, L.r, L.c, L.inv, L.G⟩
          · exact ⟨rfl, rfl, rfl, fun _ _ _ => rfl⟩
        · rw [if_neg hl]
          exact ⟨s5, Mat.zeros 0 0, rfl, rfl, fun h => absurd h hl, fun h => absurd h hl⟩
      obtain ⟨s6, f, b1, _, _, _, b5⟩ := res_fwd La Ca
      obtain ⟨s6', f', d1, d2, d3, d4⟩ := res_cmds (rest := []) La Ca b5
      simp only [Prog.execs, List.foldlM_nil, Option.pure_def, Option.some.injEq] at d4
      subst d4
      have hE : n.E s6' = n.E a := by unfold Num.E; rw [d1]
      have i6 : Inv n s6' iJ A f' := by
        refine ⟨by rw [d1, aa]; exact l5, fun hl => ?_, fun hl => ?_, ?_⟩
        · have L := La hl
          rw [hE]
          exact ⟨(d3 _ (by simp) (by simp) (by simp)).trans L.ij, L.r, L.c, L.inv,
            (d3 _ (by simp) (by simp) (by simp)).trans L.G⟩
        · have C := Ca hl
          rw [hE]
          exact ⟨(d3 _ (by simp) (by simp) (by simp)).trans C.a, C.r, C.c, C.eq⟩
        · rw [hE]; exact d2
      obtain ⟨s7, h7⟩ := iter_fwd hn hs hN i6
      obtain ⟨f7, k7, i7, _⟩ := iter_inv hs i6 h7
      refine ⟨s6', s7, ?_, ?_, i7.len, i7.lin⟩
      · rw [execs_append, ha, Option.bind_some]; exact b5
      · rw [List.foldlM_cons, h7]; rfl
    · rw [if_neg hnl, if_neg hnl]
      exact ⟨s5, s5, rfl, rfl, l5, L5⟩
  -- end
  obtain ⟨st', hpost⟩ : ∃ st', n.prog.execs s7 n.post = some st' := by
    have efin : ∀ s : St Nm ℝ, ∃ st', n.prog.execs s [c1 .dxH, c1 .z, c1 .y] = some st' := fun s => by
      rw [execs_cons, exec_func (n := n) rfl rfl rfl,
        Option.bind_some, execs_cons, exec_func (n := n) rfl rfl rfl, Option.bind_some, execs_cons,
        exec_func (n := n) rfl rfl rfl, Option.bind_some]
      exact ⟨_, rfl⟩
    unfold Num.post
    by_cases hl : 0 < n.l
    · rw [if_pos hl]
      have L := L7 hl
      obtain ⟨s8, e8, _, _⟩ := set_fwd hn (st := s7) (k := .vl) l7 rfl
        (w := vlist n.l (iJ.mv fun j => -1 * n.m.G .l j (n.E s7))) (sub_v n .l)
        (by unfold vlist Num.l; simp)
      have h8 : n.prog.exec s7 ⟨.vl, .ud_vl⟩ = some s8 := by
        have g3 : n.prog.get s7 .ijactempFll = some (.m iJ) := by
          rw [get_val rfl]; exact L.ij
        have g4 : n.prog.get s7 .Gl = some (.v (vlist n.l fun i => n.m.G .l i (n.E s7))) := by
          rw [get_val rfl]; exact L.G
        have hv : n.prog.eval s7 .ud_vl =
            some (.v (vlist n.l (iJ.mv fun j => -1 * n.m.G .l j (n.E s7)))) := by
          show n.prog.evalOp s7 (.dot (.ref .ijactempFll) (.dot (.num (-1)) (.ref .Gl))) = _
          simp only [Prog.evalOp, g3, g4, Option.bind_eq_bind, Option.bind_some]
          rw [dot_neg iJ n.l _ L.r L.c]
        unfold Prog.exec
        simp only [hv]
        exact e8
      obtain ⟨st', h9⟩ := efin s8
      refine ⟨st', ?_⟩
      rw [List.singleton_append, execs_cons, h8, Option.bind_some, h9]
    · rw [if_neg hl, List.nil_append]
      exact efin s7
  refine ⟨st', ?_⟩
  unfold Num.update Prog.update
  refine Option.bind_eq_some_iff.2 ⟨s1, e1, Option.bind_eq_some_iff.2 ⟨s2, e2, ?_⟩⟩
  have hp1 : n.prog.execs s2 n.pre = some s6 := by
    rw [epre, execs_append, h4', Option.bind_some, execs_append, h5, Option.bind_some, h6]
  unfold Num.actions
  rw [List.append_assoc, List.singleton_append, List.foldlM_cons]
  have a1 : n.prog.action n.eps n.maxit s2 (.exec n.pre) = some s6 := hp1
  have a3 : n.prog.action n.eps n.maxit s7 (.exec n.post) = some st' := hpost
  rw [a1]
  show (List.foldlM (n.prog.action n.eps n.maxit) s6 ((if 0 < n.nl then
    [Action.iter n.imp .res_Fnl .step_Fnl] else []) ++ [Action.exec n.post])) = _
  rw [List.foldlM_append, h7]
  show (List.foldlM (n.prog.action n.eps n.maxit) s7 [Action.exec n.post]) = _
  rw [List.foldlM_cons, a3]
  rfl

end Numeric
end Pyphs
