/-
Property C59: a completed call of `update` leaves consistent values.
-/
import Verif.Numeric.HistoryProps
import Verif.Scheme.SplitExact
import Verif.Scheme.BalanceProps

namespace Pyphs
namespace Numeric
open Scheme Mat

theorem vlist_length (k : ℕ) (f : ℕ → ℝ) : (vlist k f).length = k := by simp [vlist]

theorem vlist_getD {k : ℕ} {f : ℕ → ℝ} {i : ℕ} (h : i < k) : (vlist k f).getD i 0 = f i := by
  simp [vlist, List.getD_eq_getElem?_getD, h]

/-- Computed values that are not arguments. -/
theorem get_val {n : Num} {st : St Nm ℝ} {k : Nm} (h : n.syms k = none) :
    n.prog.get st k = st.vals k := by
  have : n.prog.argInds k = none := by rw [laidOut n k, h]; rfl
  unfold Prog.get; rw [this]

/-- A command that evaluates a function. -/
theorem exec_func {n : Num} {st : St Nm ℝ} {k : Nm} {f : List ℝ → NV ℝ} (h : n.syms k = none)
    (ho : n.op k = none) (hf : n.func k = some f) :
    n.prog.exec st (c1 k) = some { st with vals := Function.update st.vals k (some (f st.args)) } := by
  have h1 : n.prog.argInds k = none := by rw [laidOut n k, h]; rfl
  have h2 : n.prog.op k = none := ho
  have h3 : n.prog.func k = some f := hf
  unfold Prog.exec Prog.eval c1
  simp [h2, h3, Prog.set, h1]

/-- A command that evaluates an operation. -/
theorem exec_op {n : Num} {st st' : St Nm ℝ} {k : Nm} {o : Op Nm ℝ} (h : n.syms k = none)
    (ho : n.op k = some o) (hx : n.prog.exec st (c1 k) = some st') :
    ∃ val, n.prog.evalOp st o = some val ∧
      st' = { st with vals := Function.update st.vals k (some val) } := by
  have h1 : n.prog.argInds k = none := by rw [laidOut n k, h]; rfl
  have h2 : n.prog.op k = some o := ho
  unfold Prog.exec Prog.eval c1 at hx
  simp only [h2] at hx
  obtain ⟨val, hv, hx⟩ := Option.bind_eq_some_iff.1 hx
  simp only [Prog.set, h1, Option.some.injEq] at hx
  exact ⟨val, hv, hx.symm⟩

/-- `dot(iJ, dot(-1, g))` for vectors and matrices. -/
theorem dot_neg (iJ : Mat ℝ) (k : ℕ) (g : ℕ → ℝ) (hr : iJ.r = k) (hc : iJ.c = k) :
    ((NV.dot (.s (-1)) (.v (vlist k g))).bind fun t => NV.dot (.m iJ) t) =
      some (.v (vlist k (iJ.mv fun j => -1 * g j))) := by
  simp only [NV.dot, NV.pointwise, Option.bind_some]
  rw [if_pos (by simp [vlist, hc])]
  rw [hr]
  unfold vlist
  congr 2
  refine List.map_congr_left fun i _ => mv_congr (fun j hj => ?_) i
  rw [hc] at hj
  simp [List.getD_eq_getElem?_getD, hj]

/-- The computed values of the linear part agree with the values `e` of the symbols. -/
structure LinOK (n : Num) (e : Env ℝ) (st : St Nm ℝ) (iJ : Mat ℝ) : Prop where
  ij : st.vals .ijactempFll = some (.m iJ)
  r : iJ.r = n.l
  c : iJ.c = n.l
  inv : ∀ ψ : ℕ → ℝ, ∀ i < n.l, (n.m.J .l .l e).mv (iJ.mv ψ) i = ψ i
  G : st.vals .Gl = some (.v (vlist n.l fun i => n.m.G .l i e))

/-- The stored coupling matrix agrees with the values `e` of the symbols. -/
structure CplOK (n : Num) (e : Env ℝ) (st : St Nm ℝ) (A : Mat ℝ) : Prop where
  a : st.vals .jactempFnll = some (.m A)
  r : A.r = n.nl
  c : A.c = n.l
  eq : ∀ ψ : ℕ → ℝ, ∀ i < n.nl, A.mv ψ i = (n.m.J .nl .l e).mv ψ i

/-- The stored reduced residual is that of the equations at the values `e` of the symbols with
`vl` given by `φ`. -/
structure ResOK (n : Num) (e : Env ℝ) (st : St Nm ℝ) (φ : ℕ → ℝ) (f : List ℝ) : Prop where
  F : st.vals .Fnl = some (.v f)
  len : f.length = n.nl
  eq : ∀ i < n.nl, f.getD i 0 = n.m.G .nl i e + (n.m.J .nl .l e).mv φ i
  res : st.vals .res_Fnl = some (.s (n.prog.norm f))

/-- Changing the values of unknowns does not change the linear Jacobians. -/
theorem J_congr {n : Num} (hs : SplitOK n.m) {a : Sfx} (ha : a ≠ .all) {e e' : Env ℝ}
    (h : ∀ s, s ∉ n.m.v .nl → e' s = e s) {i j : ℕ} (hi : i < (n.m.v a).length) (hj : j < n.l) :
    (n.m.J a .l e').e i j = (n.m.J a .l e).e i j := by
  have hm : e' = moved e (fun s => e' s - e s) (n.m.v .nl) := by
    funext s; unfold moved
    split_ifs with hh
    · ring
    · exact h s hh
  have hnd : (n.m.v .nl).Nodup := (List.nodup_append.1 ((v_perm n.m).nodup_iff.1 hs.nodup)).2.1
  show pdiff _ _ e' = pdiff _ _ e
  rw [hm]
  exact Indep.moved _ (fun k hk => hs.free a ha i hi _ (getD_mem hj) k (mem_nl n.m hk)) _ _ hnd

theorem LinOK.move {n : Num} (hs : SplitOK n.m) {e e' : Env ℝ} {st st' : St Nm ℝ} {iJ : Mat ℝ}
    (h : LinOK n e st iJ) (he : ∀ s, s ∉ n.m.v .nl → e' s = e s)
    (hv : st'.vals .ijactempFll = st.vals .ijactempFll)
    (hG : st'.vals .Gl = some (.v (vlist n.l fun i => n.m.G .l i e'))) : LinOK n e' st' iJ where
  ij := by rw [hv, h.ij]
  r := h.r
  c := h.c
  inv := fun ψ i hi => by
    rw [← h.inv ψ i hi]
    refine Finset.sum_congr rfl fun j hj => ?_
    rw [J_congr hs (by simp) he hi (Finset.mem_range.1 hj)]
  G := hG

theorem CplOK.move {n : Num} (hs : SplitOK n.m) {e e' : Env ℝ} {st st' : St Nm ℝ} {A : Mat ℝ}
    (h : CplOK n e st A) (he : ∀ s, s ∉ n.m.v .nl → e' s = e s)
    (hv : st'.vals .jactempFnll = st.vals .jactempFnll) : CplOK n e' st' A where
  a := by rw [hv, h.a]
  r := h.r
  c := h.c
  eq := fun ψ i hi => by
    rw [h.eq ψ i hi]
    refine Finset.sum_congr rfl fun j hj => ?_
    rw [J_congr hs (by simp) he hi (Finset.mem_range.1 hj)]

/-- The commands `Gnl, Fnl, res_Fnl` establish `ResOK`. -/
theorem res_cmds {n : Num} {st st' : St Nm ℝ} {iJ A : Mat ℝ} {rest : List (Cmd Nm)}
    (hlin : 0 < n.l → LinOK n (n.E st) st iJ) (hcpl : 0 < n.l → CplOK n (n.E st) st A)
    (h : n.prog.execs st (c1 .Gnl :: c1 .Fnl :: c1 .res_Fnl :: rest) = some st') :
    ∃ s1 f, s1.args = st.args ∧
      ResOK n (n.E st) s1 (iJ.mv fun j => -1 * n.m.G .l j (n.E st)) f ∧
      (∀ k, k ≠ .Gnl → k ≠ .Fnl → k ≠ .res_Fnl → s1.vals k = st.vals k) ∧
      n.prog.execs s1 rest = some st' := by
  rw [execs_cons, exec_func (n := n) rfl rfl rfl, Option.bind_some, execs_cons] at h
  obtain ⟨s1, h1, h⟩ := Option.bind_eq_some_iff.1 h
  rw [execs_cons] at h
  obtain ⟨s2, h2, h⟩ := Option.bind_eq_some_iff.1 h
  set s0 : St Nm ℝ := ⟨st.args, Function.update st.vals .Gnl
    (some (.v (vlist n.nl fun i => n.m.G .nl i (n.env st.args))))⟩ with hs0
  have key : ∃ f : List ℝ, s1 = { s0 with vals := Function.update s0.vals .Fnl (some (.v f)) } ∧
      f.length = n.nl ∧ ∀ i < n.nl, f.getD i 0 = n.m.G .nl i (n.E st) +
        (n.m.J .nl .l (n.E st)).mv (iJ.mv fun j => -1 * n.m.G .l j (n.E st)) i := by
    by_cases hl : 0 < n.l
    · obtain ⟨val, hv, rfl⟩ := exec_op (n := n) (k := .Fnl) rfl (if_pos hl) h1
      have L := hlin hl
      have C := hcpl hl
      have g1 : n.prog.get s0 .Gnl = some (.v (vlist n.nl fun i => n.m.G .nl i (n.E st))) := by
        rw [get_val rfl]; rfl
      have g2 : n.prog.get s0 .jactempFnll = some (.m A) := by
        rw [get_val rfl]; exact C.a
      have g3 : n.prog.get s0 .ijactempFll = some (.m iJ) := by
        rw [get_val rfl]; exact L.ij
      have g4 : n.prog.get s0 .Gl = some (.v (vlist n.l fun i => n.m.G .l i (n.E st))) := by
        rw [get_val rfl]; exact L.G
      have d := dot_neg iJ n.l (fun i => n.m.G .l i (n.E st)) L.r L.c
      simp only [Prog.evalOp, g1, g2, g3, g4, Option.bind_eq_bind, Option.bind_some] at hv
      rw [d] at hv
      simp only [Option.bind_some, NV.dot] at hv
      rw [if_pos (by rw [vlist_length, C.c]), Option.bind_some] at hv
      simp only [NV.pointwise] at hv
      rw [if_pos (by simp [vlist, C.r])] at hv
      simp only [Option.some.injEq] at hv
      refine ⟨_, by rw [← hv], ?_, ?_⟩
      · simp [vlist, C.r]
      · intro i hi
        have hz : (List.zipWith (· + ·) (vlist n.nl fun i => n.m.G .nl i (n.E st))
            (List.map (A.mv fun j => (vlist n.l (iJ.mv fun j => -1 * n.m.G .l j (n.E st))).getD j 0)
              (List.range A.r))).getD i 0 = n.m.G .nl i (n.E st) +
            A.mv (fun j => (vlist n.l (iJ.mv fun j => -1 * n.m.G .l j (n.E st))).getD j 0) i := by
          simp [vlist, List.getD_eq_getElem?_getD, List.getElem?_zipWith, hi, C.r]
        rw [hz, ← C.eq _ i hi]
        congr 1
        exact mv_congr (fun j hj => vlist_getD (by rw [C.c] at hj; exact hj)) i
    · obtain ⟨val, hv, rfl⟩ := exec_op (n := n) (k := .Fnl) rfl (if_neg hl) h1
      have g1 : n.prog.get s0 .Gnl = some (.v (vlist n.nl fun i => n.m.G .nl i (n.E st))) := by
        rw [get_val rfl]; rfl
      simp only [Prog.evalOp, g1, Option.some.injEq] at hv
      refine ⟨_, by rw [← hv], vlist_length _ _, fun i hi => ?_⟩
      rw [vlist_getD hi, mv_zero_cols _ (by show n.l = 0; omega), add_zero]
  obtain ⟨f, rfl, hf1, hf2⟩ := key
  obtain ⟨val, hv, rfl⟩ := exec_op (n := n) (k := .res_Fnl) rfl rfl h2
  have g5 : n.prog.get { s0 with vals := Function.update s0.vals .Fnl (some (.v f)) } .Fnl =
      some (.v f) := by rw [get_val rfl]; rfl
  simp only [Prog.evalOp, g5, Option.bind_eq_bind, Option.bind_some, Option.some.injEq] at hv
  refine ⟨_, f, ?_, ?_, ?_, h⟩
  · rfl
  · exact ⟨rfl, hf1, hf2, by rw [← hv]; rfl⟩
  · intro k h1 h2 h3
    show Function.update _ _ _ _ = _
    rw [Function.update_of_ne h3]
    show Function.update _ _ _ _ = _
    rw [Function.update_of_ne h2]
    show Function.update _ _ _ _ = _
    rw [Function.update_of_ne h1]

/-- Invariant of the iterations. -/
structure Inv (n : Num) (st : St Nm ℝ) (iJ A : Mat ℝ) (f : List ℝ) : Prop where
  len : st.args.length = n.all.length
  lin : 0 < n.l → LinOK n (n.E st) st iJ
  cpl : 0 < n.l → CplOK n (n.E st) st A
  res : ResOK n (n.E st) st (iJ.mv fun j => -1 * n.m.G .l j (n.E st)) f

/-- `preimplicit` establishes the linear part of the invariant. -/
theorem pre_lin {n : Num} {st st' : St Nm ℝ} {rest : List (Cmd Nm)} (hl : 0 < n.l)
    (h : n.prog.execs st ([c1 .jactempFll, c1 .ijactempFll, c1 .Gl] ++ rest) = some st') :
    ∃ s1 iJ, s1.args = st.args ∧ LinOK n (n.E st) s1 iJ ∧ n.prog.execs s1 rest = some st' := by
  simp only [List.cons_append, List.nil_append] at h
  rw [execs_cons, exec_func (n := n) rfl rfl rfl, Option.bind_some, execs_cons] at h
  obtain ⟨s1, h1, h⟩ := Option.bind_eq_some_iff.1 h
  obtain ⟨val, hv, rfl⟩ := exec_op (n := n) (k := .ijactempFll) rfl rfl h1
  rw [execs_cons, exec_func (n := n) rfl rfl rfl, Option.bind_some] at h
  have g : n.prog.get ⟨st.args, Function.update st.vals .jactempFll
      (some (.m (n.m.J .l .l (n.env st.args))))⟩ .jactempFll =
      some (.m (n.m.J .l .l (n.env st.args))) := by rw [get_val rfl]; rfl
  simp only [Prog.evalOp, g, Option.bind_eq_bind, Option.bind_some, NV.inv] at hv
  obtain ⟨iJ, hiJ, rfl⟩ := Option.map_eq_some_iff.1 hv
  have hI := inv_isInv hiJ
  refine ⟨_, iJ, ?_, ?_, h⟩
  · rfl
  · exact ⟨rfl, hI.2.1, hI.2.2.1, fun ψ i hi => hI.mv_left ψ hi, rfl⟩

/-- One iteration preserves the invariant. -/
theorem imp_inv {n : Num} (hs : SplitOK n.m) {st st' : St Nm ℝ} {iJ A : Mat ℝ} {f : List ℝ}
    (hi : Inv n st iJ A f) (h : n.prog.execs st n.imp = some st') : ∃ f', Inv n st' iJ A f' := by
  -- commands before the update of `vnl`
  have hpre : ∃ s1, s1.args = st.args ∧ s1.vals .ijactempFll = st.vals .ijactempFll ∧
      s1.vals .jactempFnll = st.vals .jactempFnll ∧
      n.prog.execs s1 ([⟨.vnl, .ud_vnl⟩] ++ ((if 0 < n.l then [c1 .Gl] else []) ++
        [c1 .Gnl, c1 .Fnl, c1 .res_Fnl, c1 .step_Fnl])) = some st' := by
    have e : n.imp = c1 .save_Fnl :: ((if 0 < n.l then [c1 .jacGlnl] else []) ++
        (c1 .jacGnlnl :: c1 .jacFnl :: c1 .ijacFnl :: ([⟨.vnl, .ud_vnl⟩] ++
        ((if 0 < n.l then [c1 .Gl] else []) ++
        [c1 .Gnl, c1 .Fnl, c1 .res_Fnl, c1 .step_Fnl])))) := by
      unfold Num.imp; split_ifs <;> rfl
    rw [e, execs_cons] at h
    obtain ⟨a1, h1, h⟩ := Option.bind_eq_some_iff.1 h
    obtain ⟨v1, _, rfl⟩ := exec_op (n := n) (k := .save_Fnl) rfl rfl h1
    have hmid : ∃ s1 : St Nm ℝ, s1.args = st.args ∧ s1.vals .ijactempFll = st.vals .ijactempFll ∧
        s1.vals .jactempFnll = st.vals .jactempFnll ∧
        n.prog.execs s1 (c1 .jacGnlnl :: c1 .jacFnl :: c1 .ijacFnl :: ([⟨.vnl, .ud_vnl⟩] ++
          ((if 0 < n.l then [c1 .Gl] else []) ++
          [c1 .Gnl, c1 .Fnl, c1 .res_Fnl, c1 .step_Fnl]))) = some st' := by
      by_cases hl : 0 < n.l
      · rw [show (if 0 < n.l then [c1 Nm.jacGlnl] else []) = [c1 Nm.jacGlnl] from if_pos hl,
          List.singleton_append, execs_cons, exec_func (n := n) rfl rfl rfl,
          Option.bind_some] at h
        refine ⟨_, ?_, ?_, ?_, h⟩ <;> rfl
      · rw [show (if 0 < n.l then [c1 Nm.jacGlnl] else []) = [] from if_neg hl,
          List.nil_append] at h
        refine ⟨_, ?_, ?_, ?_, h⟩ <;> rfl
    clear h
    obtain ⟨s1, m1, m2, m3, h⟩ := hmid
    rw [execs_cons, exec_func (n := n) rfl rfl rfl, Option.bind_some, execs_cons] at h
    obtain ⟨a2, h2, h⟩ := Option.bind_eq_some_iff.1 h
    have ho : ∃ o, n.op .jacFnl = some o := by
      show ∃ o, (if 0 < n.l then _ else _) = some o
      split_ifs <;> exact ⟨_, rfl⟩
    obtain ⟨o, ho⟩ := ho
    obtain ⟨v2, _, rfl⟩ := exec_op (n := n) (k := .jacFnl) rfl ho h2
    rw [execs_cons] at h
    obtain ⟨a3, h3, h⟩ := Option.bind_eq_some_iff.1 h
    obtain ⟨v3, _, rfl⟩ := exec_op (n := n) (k := .ijacFnl) rfl rfl h3
    exact ⟨_, by exact m1, by exact m2, by exact m3, h⟩
  obtain ⟨s1, m1, m2, m3, h⟩ := hpre
  -- update of `vnl`
  rw [execs_append] at h
  obtain ⟨s2, h2, h⟩ := Option.bind_eq_some_iff.1 h
  have l1 : s1.args.length = n.all.length := by rw [m1]; exact hi.len
  obtain ⟨l2, f2⟩ := execs_frame l1 h2
  have v2 : s2.vals = s1.vals := by
    rw [execs_cons] at h2
    obtain ⟨q, h2', hq⟩ := Option.bind_eq_some_iff.1 h2
    simp only [Prog.execs, List.foldlM_nil, Option.pure_def, Option.some.injEq] at hq
    subst hq
    obtain ⟨v, _, h2'⟩ := Option.bind_eq_some_iff.1 h2'
    exact (set_arg (base := n.base) (laidOut n) l1 (n := Nm.vnl) rfl h2').1
  have he : ∀ s, s ∉ n.m.v .nl → n.E s2 s = n.E st s := by
    intro s hs
    rw [f2 s (by intro c hc l hl; simp at hc; subst hc; cases hl; exact hs)]
    unfold Num.E; rw [m1]
  -- evaluation of the functions
  have hG : ∃ s3 : St Nm ℝ, s3.args = s2.args ∧ (0 < n.l → LinOK n (n.E s3) s3 iJ) ∧
      (0 < n.l → CplOK n (n.E s3) s3 A) ∧
      n.prog.execs s3 [c1 .Gnl, c1 .Fnl, c1 .res_Fnl, c1 .step_Fnl] = some st' := by
    by_cases hl : 0 < n.l
    · rw [if_pos hl, List.singleton_append, execs_cons, exec_func (n := n) rfl rfl rfl,
        Option.bind_some] at h
      refine ⟨_, ?_, fun _ => ?_, fun _ => ?_, h⟩
      · rfl
      · refine (hi.lin hl).move hs he ?_ rfl
        show s2.vals .ijactempFll = _
        rw [v2, m2]
      · refine (hi.cpl hl).move hs he ?_
        show s2.vals .jactempFnll = _
        rw [v2, m3]
    · rw [if_neg hl, List.nil_append] at h
      exact ⟨s2, rfl, fun h0 => absurd h0 hl, fun h0 => absurd h0 hl, h⟩
  obtain ⟨s3, b1, b2, b3, h⟩ := hG
  obtain ⟨s4, f', d1, d2, d3, h⟩ := res_cmds b2 b3 h
  rw [execs_cons] at h
  obtain ⟨s5, h5, h⟩ := Option.bind_eq_some_iff.1 h
  simp only [Prog.execs, List.foldlM_nil, Option.pure_def, Option.some.injEq] at h
  subst h
  obtain ⟨v5, _, rfl⟩ := exec_op (n := n) (k := .step_Fnl) rfl rfl h5
  have hE : n.E { s4 with vals := Function.update s4.vals .step_Fnl (some v5) } = n.E s3 := by
    show n.env s4.args = n.env s3.args
    rw [d1]
  refine ⟨f', ?_, ?_, ?_, ?_⟩
  · show s4.args.length = _
    rw [d1, b1]; exact l2
  · intro hl
    have L := b2 hl
    rw [hE]
    exact ⟨(d3 _ (by simp) (by simp) (by simp)).trans L.ij, L.r, L.c, L.inv,
      (d3 _ (by simp) (by simp) (by simp)).trans L.G⟩
  · intro hl
    have C := b3 hl
    rw [hE]
    exact ⟨(d3 _ (by simp) (by simp) (by simp)).trans C.a, C.r, C.c, C.eq⟩
  · rw [hE]
    exact ⟨d2.F, d2.len, d2.eq, d2.res⟩

/-- The iterations preserve the invariant, and stop as C23 says. -/
theorem iter_inv {n : Num} (hs : SplitOK n.m) {st st' : St Nm ℝ} {iJ A : Mat ℝ} {f : List ℝ}
    (hi : Inv n st iJ A f)
    (h : n.prog.action n.eps n.maxit st (.iter n.imp .res_Fnl .step_Fnl) = some st') :
    ∃ f' k, Inv n st' iJ A f' ∧ k ≤ n.maxit ∧
      (n.prog.norm f' ≤ n.eps ∨ (∃ t, st'.vals .step_Fnl = some (.s t) ∧ t ≤ n.eps) ∨
        k = n.maxit) := by
  unfold Prog.action at h
  cases hr : n.prog.iterexecs n.eps n.maxit n.imp .res_Fnl .step_Fnl (n.maxit + 1) st with
  | err => simp [hr] at h
  | fuel => simp [hr] at h
  | ok q =>
    obtain ⟨s2, k⟩ := q
    simp only [hr, Option.some.injEq] at h
    subst h
    obtain ⟨hk, tr, h0, hn, hst, hx⟩ := C23_exit hr
    have i0 : Inv n (tr 0) iJ A f := by
      have : n.prog.argInds .step_Fnl = none := rfl
      simp only [Prog.set, this, Option.some.injEq] at h0
      rw [← h0]
      exact ⟨hi.len, fun hl => ⟨(hi.lin hl).ij, (hi.lin hl).r, (hi.lin hl).c, (hi.lin hl).inv,
        (hi.lin hl).G⟩, fun hl => ⟨(hi.cpl hl).a, (hi.cpl hl).r, (hi.cpl hl).c, (hi.cpl hl).eq⟩,
        ⟨hi.res.F, hi.res.len, hi.res.eq, hi.res.res⟩⟩
    have key : ∀ j ≤ k, ∃ f', Inv n (tr j) iJ A f' := by
      intro j hj
      induction j with
      | zero => exact ⟨f, i0⟩
      | succ j ih =>
        obtain ⟨f1, i1⟩ := ih (by omega)
        exact imp_inv hs i1 (hst j (by omega)).1
    obtain ⟨f', hf'⟩ := key k le_rfl
    rw [hn] at hf'
    refine ⟨f', k, hf', hk, ?_⟩
    rw [get_val rfl, get_val rfl] at hx
    rcases hx with ⟨r, h1, h2⟩ | hx
    · left
      rw [hf'.res.res] at h1
      simp only [Option.some.injEq, NV.s.injEq] at h1
      rw [h1]; exact h2
    · exact .inr hx

/-- **C59**: when a call of `update` returns, let `e` be the values of all the symbols that are
stored then. The linear equations hold exactly at `e`; the residual of the nonlinear equations at
`e` is exactly the stored vector `Fnl`, whose norm is the stored residual; the stored `dxH`, `z`,
`y` are the values of their expressions at `e`; and either the norm of the residual is at most
the tolerance, or the last step was, or `maxit` iterations were made. -/
theorem C59_consistent {n : Num} (hn : n.WF) (hw : MethWF n.m) (hs : SplitOK n.m)
    {u p : Option (List ℝ)} {st st' : St Nm ℝ} (hl : st.args.length = n.all.length)
    (hu : n.update u p st = some st') :
    (∀ i < n.l, n.m.F .l i (n.E st') = 0) ∧
    (0 < n.nl → ∃ f k, st'.vals .Fnl = some (.v f) ∧ f.length = n.nl ∧
      (∀ i < n.nl, n.m.F .nl i (n.E st') = f.getD i 0) ∧
      st'.vals .res_Fnl = some (.s (n.prog.norm f)) ∧ k ≤ n.maxit ∧
      (n.prog.norm f ≤ n.eps ∨ (∃ t, st'.vals .step_Fnl = some (.s t) ∧ t ≤ n.eps) ∨
        k = n.maxit)) ∧
    st'.vals .dxH = some (.v (n.m.dxH.map fun g => g (n.E st'))) ∧
    st'.vals .z = some (.v (n.m.z.map fun g => g (n.E st'))) ∧
    st'.vals .y = some (.v (n.m.out (n.E st'))) := by
  obtain ⟨s1, s2, h1, h2, h3⟩ := update_split hu
  obtain ⟨s3, s4, s5, e3, e4, e5, e6⟩ := actions_split h3
  obtain ⟨l1, _⟩ := set_frame hl h1
  obtain ⟨l2, _⟩ := set_frame l1 h2
  have e3' : n.prog.execs s2 [⟨.x, .ud_x⟩] = some s3 := by rw [execs_cons, e3]; rfl
  obtain ⟨l3, _⟩ := execs_frame l2 e3'
  -- `preimplicit`
  have epre : n.pre' = [⟨.o, .ud_o⟩] ++ ((if 0 < n.l then [c1 .jactempFll, c1 .ijactempFll, c1 .Gl]
      else []) ++ (if 0 < n.nl then (if 0 < n.l then [c1 .jactempFnll] else []) ++
        [c1 .Gnl, c1 .Fnl, c1 .res_Fnl] else [])) := by
    unfold Num.pre' Num.pre; split_ifs <;> rfl
  rw [epre, execs_append] at e4
  obtain ⟨a0, b0, e4⟩ := Option.bind_eq_some_iff.1 e4
  obtain ⟨la0, _⟩ := execs_frame l3 b0
  have hlin : ∃ a1 iJ, a1.args = a0.args ∧ (0 < n.l → LinOK n (n.E a1) a1 iJ) ∧
      n.prog.execs a1 (if 0 < n.nl then (if 0 < n.l then [c1 .jactempFnll] else []) ++
        [c1 .Gnl, c1 .Fnl, c1 .res_Fnl] else []) = some s4 := by
    by_cases hl : 0 < n.l
    · rw [if_pos hl] at e4
      obtain ⟨a1, iJ, q1, q2, q3⟩ := pre_lin hl e4
      refine ⟨a1, iJ, q1, fun _ => ?_, q3⟩
      have : n.E a1 = n.E a0 := by unfold Num.E; rw [q1]
      rw [this]; exact q2
    · rw [if_neg hl, List.nil_append] at e4
      exact ⟨a0, Mat.zeros 0 0, rfl, fun h => absurd h hl, e4⟩
  obtain ⟨a1, iJ, q1, q2, e4⟩ := hlin
  have la1 : a1.args.length = n.all.length := by rw [q1]; exact la0
  -- after the iterations
  have hmid : s5.args.length = n.all.length ∧ (0 < n.l → LinOK n (n.E s5) s5 iJ) ∧
      (0 < n.nl → ∃ f k, ResOK n (n.E s5) s5 (iJ.mv fun j => -1 * n.m.G .l j (n.E s5)) f ∧
        k ≤ n.maxit ∧
        (n.prog.norm f ≤ n.eps ∨ (∃ t, s5.vals .step_Fnl = some (.s t) ∧ t ≤ n.eps) ∨
        k = n.maxit)) := by
    rcases e5 with ⟨h0, rfl⟩ | ⟨h0, e5⟩
    · rw [if_neg (by omega)] at e4
      simp only [Prog.execs, List.foldlM_nil, Option.pure_def, Option.some.injEq] at e4
      subst e4
      exact ⟨la1, q2, fun h => by omega⟩
    · rw [if_pos h0] at e4
      have hc : ∃ a2 A, a2.args = a1.args ∧ (0 < n.l → LinOK n (n.E a2) a2 iJ) ∧
          (0 < n.l → CplOK n (n.E a2) a2 A) ∧
          n.prog.execs a2 [c1 .Gnl, c1 .Fnl, c1 .res_Fnl] = some s4 := by
        by_cases hl : 0 < n.l
        · rw [if_pos hl, List.singleton_append, execs_cons, exec_func (n := n) rfl rfl rfl,
            Option.bind_some] at e4
          refine ⟨_, n.m.J .nl .l (n.env a1.args), ?_, fun _ => ?_, fun _ => ?_, e4⟩
          · rfl
          · have L := q2 hl
            exact ⟨L.ij, L.r, L.c, L.inv, L.G⟩
          · exact ⟨rfl, rfl, rfl, fun ψ i hi => rfl⟩
        · rw [if_neg hl, List.nil_append] at e4
          exact ⟨a1, Mat.zeros 0 0, rfl, q2, fun h => absurd h hl, e4⟩
      obtain ⟨a2, A, r1, r2, r3, e4⟩ := hc
      obtain ⟨a3, f, t1, t2, t3, e4⟩ := res_cmds r2 r3 e4
      simp only [Prog.execs, List.foldlM_nil, Option.pure_def, Option.some.injEq] at e4
      subst e4
      have hE : n.E a3 = n.E a2 := by unfold Num.E; rw [t1]
      have hI : Inv n a3 iJ A f := by
        refine ⟨by rw [t1, r1]; exact la1, fun hl => ?_, fun hl => ?_, ?_⟩
        · have L := r2 hl
          rw [hE]
          exact ⟨(t3 _ (by simp) (by simp) (by simp)).trans L.ij, L.r, L.c, L.inv,
            (t3 _ (by simp) (by simp) (by simp)).trans L.G⟩
        · have C := r3 hl
          rw [hE]
          exact ⟨(t3 _ (by simp) (by simp) (by simp)).trans C.a, C.r, C.c, C.eq⟩
        · rw [hE]; exact t2
      obtain ⟨f', k, i1, i2, i3⟩ := iter_inv hs hI e5
      exact ⟨i1.len, i1.lin, fun _ => ⟨f', k, i1.res, i2, i3⟩⟩
  obtain ⟨l5, m1, m2⟩ := hmid
  -- `postimplicit`
  set φ : ℕ → ℝ := iJ.mv fun j => -1 * n.m.G .l j (n.E s5) with hφ
  have hpost : ∃ s6 : St Nm ℝ, s6.vals = s5.vals ∧
      ((0 < n.l → n.E s6 = n.m.setL (n.E s5) φ) ∧ (n.l = 0 → n.E s6 = n.E s5)) ∧
      n.prog.execs s6 [c1 .dxH, c1 .z, c1 .y] = some st' := by
    unfold Num.post at e6
    by_cases hl : 0 < n.l
    · rw [if_pos hl, execs_append] at e6
      obtain ⟨s6, b6, e6⟩ := Option.bind_eq_some_iff.1 e6
      obtain ⟨l6, f6⟩ := execs_frame l5 b6
      rw [execs_cons] at b6
      obtain ⟨q, b7, hq⟩ := Option.bind_eq_some_iff.1 b6
      simp only [Prog.execs, List.foldlM_nil, Option.pure_def, Option.some.injEq] at hq
      subst hq
      obtain ⟨v, bv, b7⟩ := Option.bind_eq_some_iff.1 b7
      have L := m1 hl
      have g3 : n.prog.get s5 .ijactempFll = some (.m iJ) := by
        rw [get_val rfl]; exact L.ij
      have g4 : n.prog.get s5 .Gl = some (.v (vlist n.l fun i => n.m.G .l i (n.E s5))) := by
        rw [get_val rfl]; exact L.G
      have bv' : n.prog.evalOp s5 (.dot (.ref .ijactempFll) (.dot (.num (-1)) (.ref .Gl))) = some v :=
        bv
      simp only [Prog.evalOp, g3, g4, Option.bind_eq_bind, Option.bind_some] at bv'
      rw [dot_neg iJ n.l _ L.r L.c] at bv'
      simp only [Option.some.injEq] at bv'
      subst bv'
      obtain ⟨st6, w1, w2⟩ := set_arg_v (base := n.base) (laidOut n) hn.nodup l5 (n := Nm.vl) rfl
        (sub_v n .l) (w := vlist n.l φ) (vlist_length _ _)
      have b6' : n.prog.set s5 .vl (.v (vlist n.l φ)) = some q := b7
      rw [w1] at b6'
      simp only [Option.some.injEq] at b6'
      subst b6'
      refine ⟨_, (set_arg (base := n.base) (laidOut n) l5 (n := Nm.vl) rfl w1).1,
        ⟨fun _ => ?_, fun h => by omega⟩, e6⟩
      funext s
      unfold Meth.setL
      split_ifs with hsv
      · have hidx := List.idxOf_lt_length_of_mem hsv
        have := congrArg (fun l : List ℝ => l.getD ((n.m.v .l).idxOf s) 0) w2
        simp only [vlist_getD (k := n.l) (f := φ) hidx] at this
        rw [← this]
        simp [List.getD_eq_getElem?_getD, hidx, Num.E, Num.env]
      · exact f6 s (by intro c hc l hl; simp at hc; subst hc; cases hl; exact hsv)
    · rw [if_neg hl, List.nil_append] at e6
      exact ⟨s5, rfl, ⟨fun h => absurd h hl, fun _ => rfl⟩, e6⟩
  obtain ⟨s6, v6, ⟨ha, hb⟩, e6⟩ := hpost
  rw [execs_cons, exec_func (n := n) rfl rfl rfl, Option.bind_some, execs_cons,
    exec_func (n := n) rfl rfl rfl, Option.bind_some, execs_cons,
    exec_func (n := n) rfl rfl rfl, Option.bind_some] at e6
  simp only [Prog.execs, List.foldlM_nil, Option.pure_def, Option.some.injEq] at e6
  have hE : n.E st' = n.E s6 := by rw [← e6]; rfl
  have hvals : ∀ k, k ≠ .dxH → k ≠ .z → k ≠ .y → st'.vals k = s5.vals k := by
    intro k h1 h2 h3
    rw [← e6, ← v6]
    show Function.update _ _ _ _ = _
    rw [Function.update_of_ne h3]
    show Function.update _ _ _ _ = _
    rw [Function.update_of_ne h2]
    show Function.update _ _ _ _ = _
    rw [Function.update_of_ne h1]
  refine ⟨?_, ?_, ?_, ?_, ?_⟩
  · intro i hi
    have hl : 0 < n.l := by omega
    rw [hE, ha hl, F_setL hs (by simp) hi, hφ, (m1 hl).inv _ i hi]; ring
  · intro h0
    obtain ⟨f, k, r1, r2, r3⟩ := m2 h0
    refine ⟨f, k, by rw [hvals _ (by simp) (by simp) (by simp)]; exact r1.F, r1.len, ?_,
      by rw [hvals _ (by simp) (by simp) (by simp)]; exact r1.res, r2, ?_⟩
    · intro i hi
      rw [r1.eq i hi, hE]
      by_cases hl : 0 < n.l
      · rw [ha hl, F_setL hs (by simp) hi]
      · rw [hb (by omega), F_self hs (by simp) hi, mv_zero_cols _ (by show n.l = 0; omega),
          mv_zero_cols _ (by show n.l = 0; omega)]
    · rw [hvals _ (by simp) (by simp) (by simp)]; exact r3
  · rw [hE, ← e6]; rfl
  · rw [hE, ← e6]; rfl
  · rw [hE, ← e6]; rfl

/-- Each equation is one of the linear or one of the nonlinear equations. -/
theorem rows {m : Meth} (hw : MethWF m) (e : Env ℝ) {i : ℕ} (hi : i < (m.v .all).length) :
    (∃ j < (m.v .l).length, m.F .all i e = m.F .l j e) ∨
    (∃ j < (m.v .nl).length, m.F .all i e = m.F .nl j e) := by
  have hx := xl_le m
  have hwl := hw.wl
  have L0 : (m.v .all).length = m.g.x.length + m.w.length := v_length hw e .all
  have L1 : (m.v .l).length = m.g.xl.length + m.wl := v_length hw e .l
  have L2 : (m.v .nl).length = (m.g.x.length - m.g.xl.length) + (m.w.length - m.wl) :=
    v_length hw e .nl
  have r0 : ∀ i, m.row .all i e = i := fun i => by
    show (if i < m.g.x.length then 0 + i else m.g.x.length + (i - m.g.x.length)) = i
    split_ifs <;> omega
  have r1 : ∀ i, m.row .l i e = if i < m.g.xl.length then 0 + i
    else m.g.xl.length + (m.g.x.length - m.g.xl.length) + (i - m.g.xl.length) := fun i => rfl
  have r2 : ∀ i, m.row .nl i e = if i < m.g.x.length - m.g.xl.length then m.g.xl.length + i
    else m.g.xl.length + (m.g.x.length - m.g.xl.length) + m.wl +
      (i - (m.g.x.length - m.g.xl.length)) := fun i => rfl
  rw [F_eq_res hw e .all hi, r0]
  rw [L0] at hi
  have key1 : ∀ j < (m.v .l).length, m.row .l j e = i →
      ∃ j < (m.v .l).length, m.res i e = m.F .l j e := fun j hj hr =>
    ⟨j, hj, by rw [F_eq_res hw e .l hj, hr]⟩
  have key2 : ∀ j < (m.v .nl).length, m.row .nl j e = i →
      ∃ j < (m.v .nl).length, m.res i e = m.F .nl j e := fun j hj hr =>
    ⟨j, hj, by rw [F_eq_res hw e .nl hj, hr]⟩
  by_cases c1 : i < m.g.xl.length
  · exact .inl (key1 i (by omega) (by rw [r1, if_pos c1]; omega))
  by_cases c2 : i < m.g.x.length
  · exact .inr (key2 (i - m.g.xl.length) (by omega) (by rw [r2, if_pos (by omega)]; omega))
  by_cases c3 : i < m.g.x.length + m.wl
  · exact .inl (key1 (m.g.xl.length + (i - m.g.x.length)) (by omega)
      (by rw [r1, if_neg (by omega)]; omega))
  · exact .inr (key2 (m.g.x.length - m.g.xl.length + (i - (m.g.x.length + m.wl))) (by omega)
      (by rw [r2, if_neg (by omega)]; omega))

/-- A component is at most the norm. -/
theorem abs_le_norm (n : Num) (f : List ℝ) (i : ℕ) : |f.getD i 0| ≤ n.prog.norm f := by
  show _ ≤ Real.sqrt _
  apply Real.le_sqrt_of_sq_le
  rw [sq_abs]
  have hz : f.zipWith (· * ·) f = f.map fun t => t * t := by
    induction f with
    | nil => rfl
    | cons a f ih => simp [ih]
  rw [hz]
  have hpos : ∀ t ∈ f.map fun t => t * t, (0 : ℝ) ≤ t := by
    intro t ht
    obtain ⟨s, _, rfl⟩ := List.mem_map.1 ht
    exact mul_self_nonneg s
  by_cases h : i < f.length
  · have hm : f.getD i 0 ^ 2 ∈ f.map fun t => t * t := by
      rw [List.getD_eq_getElem?_getD, List.getElem?_eq_getElem h]
      exact List.mem_map.2 ⟨f[i], List.getElem_mem h, by simp [sq]⟩
    exact List.single_le_sum hpos _ hm
  · rw [List.getD_eq_getElem?_getD, List.getElem?_eq_none (by omega)]
    simpa using List.sum_nonneg hpos

/-- The tolerance on the residual: that of the solver, zero if there is nothing to iterate. -/
noncomputable def Num.tol (n : Num) : ℝ := if n.nl = 0 then 0 else n.eps

/-- **C59**, power balance of a computed step: if the solver of a call of `update` stopped because
the residual is at most the tolerance, then the defect in the discrete power balance, computed with the
stored values, is at most the tolerance times the sum of the absolute values of the stored efforts and
flows `dxH`, `z`. If there is no nonlinear unknown, the power balance is exact. -/
theorem C59_balance {n : Num} (hn : n.WF) (hw : MethWF n.m) (hs : SplitOK n.m)
    {u p : Option (List ℝ)} {st st' : St Nm ℝ} (hl : st.args.length = n.all.length)
    (hu : n.update u p st = some st') (heps : 0 ≤ n.eps)
    (hc : n.nl = 0 ∨ ∃ r, st'.vals .res_Fnl = some (.s r) ∧ r ≤ n.eps) :
    ∃ pd, n.m.pdVal (n.E st') = some pd ∧
      |n.m.fs * gdot n.m.dxH n.m.g.x (n.E st') + pd + n.m.psVal (n.E st')| ≤
        n.tol * (∑ i ∈ Finset.range n.m.g.x.length, |vals n.m.dxH (n.E st') i| +
          ∑ i ∈ Finset.range n.m.w.length, |vals n.m.z (n.E st') i|) := by
  obtain ⟨h1, h2, _⟩ := C59_consistent hn hw hs hl hu
  obtain ⟨pd, hpd, hdef⟩ := C20_defect n.m hw (n.E st')
  refine ⟨pd, hpd, ?_⟩
  have hF : ∀ i < (n.m.v .all).length, |n.m.F .all i (n.E st')| ≤ n.tol := by
    intro i hi
    rcases rows hw (n.E st') hi with ⟨j, hj, e⟩ | ⟨j, hj, e⟩
    · rw [e, h1 j hj, abs_zero]
      unfold Num.tol
      split_ifs
      · exact le_refl _
      · exact heps
    · have h0 : 0 < n.nl := lt_of_le_of_lt (Nat.zero_le _) hj
      have ht : n.tol = n.eps := if_neg (by omega)
      rw [ht]
      obtain ⟨f, k, _, _, hf, hr, _, _⟩ := h2 h0
      rw [e, hf j hj]
      refine (abs_le_norm n f j).trans ?_
      rcases hc with hc | ⟨r, hr1, hr2⟩
      · omega
      · rw [hr] at hr1
        simp only [Option.some.injEq, NV.s.injEq] at hr1
        rw [hr1]; exact hr2
  have hvl : (n.m.v .all).length = n.m.g.x.length + n.m.w.length := v_length hw (n.E st') .all
  rw [hdef, mul_add, Finset.mul_sum, Finset.mul_sum]
  refine (abs_add_le _ _).trans (add_le_add ?_ ?_)
  · refine (Finset.abs_sum_le_sum_abs _ _).trans (Finset.sum_le_sum fun i hi => ?_)
    rw [abs_mul]
    exact mul_le_mul_of_nonneg_right (hF i (by have := Finset.mem_range.1 hi; omega)) (abs_nonneg _)
  · refine (Finset.abs_sum_le_sum_abs _ _).trans (Finset.sum_le_sum fun i hi => ?_)
    rw [abs_mul]
    exact mul_le_mul_of_nonneg_right (hF _ (by have := Finset.mem_range.1 hi; omega)) (abs_nonneg _)

end Numeric
end Pyphs
