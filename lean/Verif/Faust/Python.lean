/-
Property C72: the generated Faust programs compute the simulations of Python, every second sample.
-/
import Verif.Faust.InvMat

namespace Pyphs
namespace Faust
open Scheme Mat Numeric

/-- The commands before the iterations establish the invariant of the iterations. -/
theorem pre_inv {n : Num} {s3 s4 : St Nm ℝ} (l3 : s3.args.length = n.all.length)
    (e4 : n.prog.execs s3 n.pre' = some s4) (h0 : 0 < n.nl) : ∃ iJ A f, Numeric.Inv n s4 iJ A f := by
  have epre : n.pre' = [⟨.o, .ud_o⟩] ++ ((if 0 < n.l then [c1 .jactempFll, c1 .ijactempFll, c1 .Gl]
      else []) ++ (if 0 < n.nl then (if 0 < n.l then [c1 .jactempFnll] else []) ++
        [c1 .Gnl, c1 .Fnl, c1 .res_Fnl] else [])) := by
    unfold Num.pre' Num.pre; split_ifs <;> rfl
  rw [epre, execs_append] at e4
  obtain ⟨a0, b0, e4⟩ := Option.bind_eq_some_iff.1 e4
  obtain ⟨la0, _⟩ := execs_frame l3 b0
  have hlin : ∃ a1 iJ, a1.args = a0.args ∧ (0 < n.l → LinOK n (n.E a1) a1 iJ) ∧
      n.prog.execs a1 (if 0 < n.nl then (if 0 < n.l then [c1 .jactempFnll] else []) ++
        [c1 .Gnl, c1 .Fnl, c1 .res_Fnl] else []) = some s4 := by
    by_cases hl : 0 < n.l
    · rw [if_pos hl] at e4
      obtain ⟨a1, iJ, q1, q2, q3⟩ := pre_lin hl e4
      refine ⟨a1, iJ, q1, fun _ => ?_, q3⟩
      have : n.E a1 = n.E a0 := by unfold Num.E; rw [q1]
      rw [this]; exact q2
    · rw [if_neg hl, List.nil_append] at e4
      exact ⟨a0, Mat.zeros 0 0, rfl, fun h => absurd h hl, e4⟩
  obtain ⟨a1, iJ, q1, q2, e4⟩ := hlin
  have la1 : a1.args.length = n.all.length := by rw [q1]; exact la0
  rw [if_pos h0] at e4
  have hc : ∃ a2 A, a2.args = a1.args ∧ (0 < n.l → LinOK n (n.E a2) a2 iJ) ∧
      (0 < n.l → CplOK n (n.E a2) a2 A) ∧
      n.prog.execs a2 [c1 .Gnl, c1 .Fnl, c1 .res_Fnl] = some s4 := by
    by_cases hl : 0 < n.l
    · rw [if_pos hl, List.singleton_append, execs_cons, exec_func (n := n) rfl rfl rfl,
        Option.bind_some] at e4
      refine ⟨_, n.m.J .nl .l (n.env a1.args), ?_, fun _ => ?_, fun _ => ?_, e4⟩
      · rfl
      · have L := q2 hl
        exact ⟨L.ij, L.r, L.c, L.inv, L.G⟩
      · exact ⟨rfl, rfl, rfl, fun ψ i hi => rfl⟩
    · rw [if_neg hl, List.nil_append] at e4
      exact ⟨a1, Mat.zeros 0 0, rfl, q2, fun h => absurd h hl, e4⟩
  obtain ⟨a2, A, r1, r2, r3, e4⟩ := hc
  obtain ⟨a3, f, t1, t2, t3, e4⟩ := res_cmds r2 r3 e4
  simp only [Prog.execs, List.foldlM_nil, Option.pure_def, Option.some.injEq] at e4
  subst e4
  have hE : n.E a3 = n.E a2 := by unfold Num.E; rw [t1]
  refine ⟨iJ, A, f, by rw [t1, r1]; exact la1, fun hl => ?_, fun hl => ?_, ?_⟩
  · have L := r2 hl
    rw [hE]
    exact ⟨(t3 _ (by simp) (by simp) (by simp)).trans L.ij, L.r, L.c, L.inv,
      (t3 _ (by simp) (by simp) (by simp)).trans L.G⟩
  · have C := r3 hl
    rw [hE]
    exact ⟨(t3 _ (by simp) (by simp) (by simp)).trans C.a, C.r, C.c, C.eq⟩
  · rw [hE]; exact t2

/-- The step is a norm. -/
theorem imp_step {n : Num} {st st' : St Nm ℝ} (h : n.prog.execs st n.imp = some st') :
    ∃ l, st'.vals .step_Fnl = some (.s (n.prog.norm l)) := by
  have e : n.imp = ([c1 .save_Fnl] ++ (if 0 < n.l then [c1 .jacGlnl] else []) ++
      [c1 .jacGnlnl, c1 .jacFnl, c1 .ijacFnl, ⟨.vnl, .ud_vnl⟩] ++
      (if 0 < n.l then [c1 .Gl] else []) ++ [c1 .Gnl, c1 .Fnl, c1 .res_Fnl]) ++ [c1 .step_Fnl] := by
    unfold Num.imp; simp only [List.append_assoc]; rfl
  rw [e, execs_append] at h
  obtain ⟨s1, -, h⟩ := Option.bind_eq_some_iff.1 h
  rw [execs_cons] at h
  obtain ⟨s2, h1, h⟩ := Option.bind_eq_some_iff.1 h
  simp only [Prog.execs, List.foldlM_nil, Option.pure_def, Option.some.injEq] at h
  subst h
  obtain ⟨val, hv, rfl⟩ := exec_op (n := n) (k := .step_Fnl) rfl rfl h1
  rw [Prog.evalOp] at hv
  obtain ⟨w, -, hv⟩ := Option.bind_eq_some_iff.1 hv
  cases w with
  | s c => simp at hv
  | m c => simp at hv
  | v l =>
    simp only [Option.some.injEq] at hv
    subst hv
    exact ⟨l, rfl⟩

/-- With a negative tolerance, `maxit` iterations are made. -/
theorem iter_all {n : Num} (hs : SplitOK n.m) (he : n.eps < 0) {st st' : St Nm ℝ} {iJ A : Mat ℝ}
    {f : List ℝ} (hi : Numeric.Inv n st iJ A f)
    (h : n.prog.action n.eps n.maxit st (.iter n.imp .res_Fnl .step_Fnl) = some st') :
    ∃ tr : ℕ → St Nm ℝ, n.E (tr 0) = n.E st ∧ tr n.maxit = st' ∧
      ∀ j < n.maxit, (∃ f, Numeric.Inv n (tr j) iJ A f) ∧
        n.prog.execs (tr j) n.imp = some (tr (j + 1)) := by
  unfold Prog.action at h
  cases hr : n.prog.iterexecs n.eps n.maxit n.imp .res_Fnl .step_Fnl (n.maxit + 1) st with
  | err => simp [hr] at h
  | fuel => simp [hr] at h
  | ok q =>
    obtain ⟨s2, k⟩ := q
    simp only [hr, Option.some.injEq] at h
    subst h
    obtain ⟨hk, tr, h0, hn, hst, hx⟩ := C23_exit hr
    have hset : n.prog.argInds .step_Fnl = none := rfl
    simp only [Prog.set, hset, Option.some.injEq] at h0
    have i0 : Numeric.Inv n (tr 0) iJ A f := by
      rw [← h0]
      exact ⟨hi.len, fun hl => ⟨(hi.lin hl).ij, (hi.lin hl).r, (hi.lin hl).c, (hi.lin hl).inv,
        (hi.lin hl).G⟩, fun hl => ⟨(hi.cpl hl).a, (hi.cpl hl).r, (hi.cpl hl).c, (hi.cpl hl).eq⟩,
        ⟨hi.res.F, hi.res.len, hi.res.eq, hi.res.res⟩⟩
    have key : ∀ j ≤ k, ∃ f', Numeric.Inv n (tr j) iJ A f' := by
      intro j hj
      induction j with
      | zero => exact ⟨f, i0⟩
      | succ j ih =>
        obtain ⟨f1, i1⟩ := ih (by omega)
        exact imp_inv hs i1 (hst j (by omega)).1
    have hkm : k = n.maxit := by
      obtain ⟨f', hf'⟩ := key k le_rfl
      rw [hn] at hf'
      rcases hx with ⟨r, h1, h2⟩ | ⟨t, h1, h2⟩ | h1
      · rw [get_val rfl, hf'.res.res] at h1
        simp only [Option.some.injEq, NV.s.injEq] at h1
        have := norm_nonneg n f'
        linarith
      · exfalso
        rw [get_val rfl] at h1
        rcases Nat.eq_zero_or_pos k with h0' | hpos
        · subst h0'
          rw [← hn, ← h0] at h1
          simp only [Function.update_self, Option.some.injEq, NV.s.injEq] at h1
          linarith
        · obtain ⟨l, hl⟩ := imp_step (hst (k - 1) (by omega)).1
          rw [show k - 1 + 1 = k by omega, hn] at hl
          rw [hl] at h1
          simp only [Option.some.injEq, NV.s.injEq] at h1
          have := norm_nonneg n l
          linarith
      · exact h1
    subst hkm
    refine ⟨tr, by rw [← h0]; rfl, hn, fun j hj => ⟨key j (by omega), (hst j hj).1⟩⟩

/-- One iteration of Python sets the nonlinear unknowns to the values of `udvnl`. -/
theorem imp_udvnl {n : Num} (hn : n.WF) (hs : SplitOK n.m) (hN : Nonsing n.m) {udvl udvnl : List Sc}
    (hS : Solves n.m udvl udvnl) {st st' : St Nm ℝ} {iJ A : Mat ℝ} {f : List ℝ}
    (hi : Numeric.Inv n st iJ A f) (h : n.prog.execs st n.imp = some st') :
    (∀ j < n.nl, n.E st' ((n.m.v .nl).getD j "") = vals udvnl (n.E st) j) ∧
      ∀ s, s ∉ n.m.v .nl → n.E st' s = n.E st s := by
  obtain ⟨s', t, K, B, h1, -, hK, hB, hv, ho⟩ := imp_newton hn hs hN hi
  obtain rfl : st' = s' := Option.some.inj (h.symm.trans h1)
  refine ⟨fun j hj => ?_, ho⟩
  set e := n.E st with he
  set g : ℕ → ℝ := fun j => f.getD j 0 with hg
  obtain ⟨φ, p1, p2⟩ := hS.newton e
  set ψ : ℕ → ℝ := fun j => vals udvnl e j - svals (n.m.v .nl) e j with hψ
  set δ : ℕ → ℝ := fun j => - B.mv g j with hδ
  -- the linear unknowns that the iteration of Python uses implicitly
  set χ : ℕ → ℝ := fun k => iJ.mv (fun j => -1 * n.m.G .l j e) k +
    iJ.mv (fun j => -1 * (n.m.JG .l .nl e).mv δ j) k with hχ
  have hl : ∀ (v : ℕ → ℝ), ∀ i < n.l, (n.m.J .l .l e).mv (iJ.mv v) i = v i := fun v i hi' =>
    (hi.lin (by omega)).inv v i hi'
  have key := hN.all e (fun j => χ j - φ j) (fun j => δ j - ψ j) (fun i hi' => ?_) (fun i hi' => ?_) j hj
  · rw [hv j hj]
    have : δ j - ψ j = 0 := key
    rw [hδ, hψ] at this
    simp only [svals] at this
    linarith
  · rw [mv_sub, mv_sub, hχ, mv_add, hl _ i hi', hl _ i hi']
    have := p1 i hi'
    linarith
  · rw [mv_sub, mv_sub, hχ, mv_add]
    have q1 := p2 i hi'
    have q2 := hi.res.eq i hi'
    have q3 := hK δ i hi'
    have q4 : K.mv δ i = - g i := by rw [hδ, mv_neg, hB g i hi']
    have q5 : g i = f.getD i 0 := rfl
    linarith

/-- When the residual is zero, `udvnl` keeps the nonlinear unknowns. -/
theorem fixed_udvnl {n : Num} (hN : Nonsing n.m) {udvl udvnl : List Sc}
    (hS : Solves n.m udvl udvnl) {st : St Nm ℝ} {iJ A : Mat ℝ} {f : List ℝ}
    (hi : Numeric.Inv n st iJ A f) (hf : ∀ i, f.getD i 0 = 0) :
    ∀ j < n.nl, n.E st ((n.m.v .nl).getD j "") = vals udvnl (n.E st) j := by
  intro j hj
  set e := n.E st with he
  obtain ⟨φ, p1, p2⟩ := hS.newton e
  set ψ : ℕ → ℝ := fun j => vals udvnl e j - svals (n.m.v .nl) e j with hψ
  set χ : ℕ → ℝ := fun k => iJ.mv (fun j => -1 * n.m.G .l j e) k with hχ
  have hl : ∀ (v : ℕ → ℝ), ∀ i < n.l, (n.m.J .l .l e).mv (iJ.mv v) i = v i := fun v i hi' =>
    (hi.lin (by omega)).inv v i hi'
  have key := hN.all e (fun j => φ j - χ j) ψ (fun i hi' => ?_) (fun i hi' => ?_) j hj
  · have : vals udvnl e j - svals (n.m.v .nl) e j = 0 := key
    simp only [svals] at this
    linarith
  · rw [mv_sub, hχ, hl _ i hi']
    have := p1 i hi'
    linarith
  · rw [mv_sub, hχ]
    have q1 := p2 i hi'
    have q2 := hi.res.eq i hi'
    have q3 := hf i
    linarith

/-- The residual is not changed by the last commands. -/
theorem post_res {n : Num} {s5 st' : St Nm ℝ} (l5 : s5.args.length = n.all.length)
    (e6 : n.prog.execs s5 n.post = some st') : st'.vals .res_Fnl = s5.vals .res_Fnl := by
  have hpost : ∃ s6 : St Nm ℝ, s6.vals = s5.vals ∧
      n.prog.execs s6 [c1 .dxH, c1 .z, c1 .y] = some st' := by
    unfold Num.post at e6
    by_cases hl : 0 < n.l
    · rw [if_pos hl, execs_append] at e6
      obtain ⟨s6, b6, e6⟩ := Option.bind_eq_some_iff.1 e6
      rw [execs_cons] at b6
      obtain ⟨q, b7, hq⟩ := Option.bind_eq_some_iff.1 b6
      simp only [Prog.execs, List.foldlM_nil, Option.pure_def, Option.some.injEq] at hq
      subst hq
      obtain ⟨v, bv, b7⟩ := Option.bind_eq_some_iff.1 b7
      exact ⟨_, (set_arg (base := n.base) (laidOut n) l5 (n := Nm.vl) rfl b7).1, e6⟩
    · rw [if_neg hl, List.nil_append] at e6
      exact ⟨s5, rfl, e6⟩
  obtain ⟨s6, v6, e6⟩ := hpost
  rw [execs_cons, exec_func (n := n) rfl rfl rfl, Option.bind_some, execs_cons,
    exec_func (n := n) rfl rfl rfl, Option.bind_some, execs_cons,
    exec_func (n := n) rfl rfl rfl, Option.bind_some] at e6
  simp only [Prog.execs, List.foldlM_nil, Option.pure_def, Option.some.injEq] at e6
  rw [← e6, ← v6]
  rfl

/-- An update whose iterations have ended with the residual zero, or with a negative tolerance, sets the
nonlinear unknowns to the result of `maxit` applications of `udvnl`. -/
theorem iter_values {n : Num} (hn : n.WF) (hs : SplitOK n.m) (hN : Nonsing n.m) {udvl udvnl : List Sc}
    (hS : Solves n.m udvl udvnl) {st st' : St Nm ℝ} {iJ A : Mat ℝ} {f : List ℝ}
    (hi : Numeric.Inv n st iJ A f) (he : n.eps < 0 ∨ st'.vals .res_Fnl = some (.s 0))
    (h : n.prog.action n.eps n.maxit st (.iter n.imp .res_Fnl .step_Fnl) = some st') :
    ∃ E0 : ℕ → Env ℝ, E0 0 = n.E st ∧ E0 n.maxit = n.E st' ∧
      (∀ j < n.maxit, (∀ i < n.nl, E0 (j + 1) ((n.m.v .nl).getD i "") = vals udvnl (E0 j) i) ∧
        ∀ s, s ∉ n.m.v .nl → E0 (j + 1) s = E0 j s) ∧ ∀ j, ∀ s, s ∉ n.all → E0 j s = n.base s := by
  by_cases hneg : n.eps < 0
  · obtain ⟨tr, t0, t1, t2⟩ := iter_all hs hneg hi h
    refine ⟨fun j => n.E (tr j), t0, by simp only [t1], fun j hj => ?_, fun j s hsn => envOf_not_mem hsn⟩
    obtain ⟨⟨f', hf'⟩, hx⟩ := t2 j hj
    exact imp_udvnl hn hs hN hS hf' hx
  · have hz := he.resolve_left hneg
    unfold Prog.action at h
    cases hr : n.prog.iterexecs n.eps n.maxit n.imp .res_Fnl .step_Fnl (n.maxit + 1) st with
    | err => simp [hr] at h
    | fuel => simp [hr] at h
    | ok q =>
      obtain ⟨s2, k⟩ := q
      simp only [hr, Option.some.injEq] at h
      subst h
      obtain ⟨hk, tr, h0, hend, hst, -⟩ := C23_exit hr
      have hset : n.prog.argInds .step_Fnl = none := rfl
      simp only [Prog.set, hset, Option.some.injEq] at h0
      have i0 : Numeric.Inv n (tr 0) iJ A f := by
        rw [← h0]
        exact ⟨hi.len, fun hl => ⟨(hi.lin hl).ij, (hi.lin hl).r, (hi.lin hl).c, (hi.lin hl).inv,
          (hi.lin hl).G⟩, fun hl => ⟨(hi.cpl hl).a, (hi.cpl hl).r, (hi.cpl hl).c, (hi.cpl hl).eq⟩,
          ⟨hi.res.F, hi.res.len, hi.res.eq, hi.res.res⟩⟩
      have key : ∀ j ≤ k, ∃ f', Numeric.Inv n (tr j) iJ A f' := by
        intro j hj
        induction j with
        | zero => exact ⟨f, i0⟩
        | succ j ih =>
          obtain ⟨f1, i1⟩ := ih (by omega)
          exact imp_inv hs i1 (hst j (by omega)).1
      obtain ⟨fk, ik⟩ := key k le_rfl
      have hf0 : ∀ i, fk.getD i 0 = 0 := by
        intro i
        have h1 := ik.res.res
        rw [hend, hz] at h1
        simp only [Option.some.injEq, NV.s.injEq] at h1
        have := abs_le_norm n fk i
        rw [← h1] at this
        exact abs_eq_zero.1 (le_antisymm this (abs_nonneg _))
      refine ⟨fun j => n.E (tr (min j k)), ?_, ?_, fun j hj => ?_, fun j s hsn => envOf_not_mem hsn⟩
      · simp only [Nat.zero_min]; rw [← h0]; rfl
      · simp only [Nat.min_eq_right hk]; rw [hend]
      · by_cases hjk : j < k
        · obtain ⟨f', hf'⟩ := key j (by omega)
          simp only [Nat.min_eq_left (Nat.le_of_lt hjk), Nat.min_eq_left (Nat.succ_le_of_lt hjk)]
          exact imp_udvnl hn hs hN hS hf' (hst j hjk).1
        · simp only [Nat.min_eq_right (show k ≤ j by omega), Nat.min_eq_right (show k ≤ j + 1 by omega)]
          exact ⟨fun i hi' => fixed_udvnl hN hS ik hf0 i hi', fun _ _ => trivial⟩

/-- The parts of a call of `update` without parameters and observers. -/
theorem update_parts {n : Num} (hn : n.WF) (hw : MethWF n.m) (hs : SplitOK n.m) (hN : Nonsing n.m)
    {udvl udvnl : List Sc} (hS : Solves n.m udvl udvnl) (hp : n.p = []) (ho : n.o = [])
    {u : List ℝ} (hu : u.length = n.m.u.length) {st st' : St Nm ℝ}
    (hnl : n.nl = 0 ∨ n.eps < 0 ∨ st'.vals .res_Fnl = some (.s 0)) (hl : st.args.length = n.all.length) (hup : n.update (some u) (some []) st = some st') :
    ∃ E0 : ℕ → Env ℝ, (∀ s ∈ n.m.g.x, E0 0 s = n.E st s + n.E st (dn s)) ∧ n.m.u.map (E0 0) = u ∧
      (∀ s, s ∉ n.m.g.x → s ∉ n.m.u → E0 0 s = n.E st s) ∧
      (∀ j < (if n.nl = 0 then 0 else n.maxit),
        (∀ i < n.nl, E0 (j + 1) ((n.m.v .nl).getD i "") = vals udvnl (E0 j) i) ∧
        ∀ s, s ∉ n.m.v .nl → E0 (j + 1) s = E0 j s) ∧
      (∀ j, ∀ s, s ∉ n.all → E0 j s = n.base s) ∧
      (∀ i < n.l, n.E st' ((n.m.v .l).getD i "") =
        vals udvl (E0 (if n.nl = 0 then 0 else n.maxit)) i) ∧
      (∀ s, s ∉ n.m.v .l → n.E st' s = E0 (if n.nl = 0 then 0 else n.maxit) s) ∧
      st'.vals .y = some (.v (n.m.out (n.E st'))) ∧ st'.args.length = n.all.length := by
  obtain ⟨hF, -, -, -, hy⟩ := C59_consistent hn hw hs hl hup
  obtain ⟨L', -, -, -⟩ := C24_step hn hl hu (by rw [hp]; rfl) hup
  obtain ⟨s1, s2, h1, h2, h3⟩ := update_split hup
  obtain ⟨s3, s4, s5, e3, e4, e5, e6⟩ := actions_split h3
  simp only [Option.getD_some] at h1 h2
  obtain ⟨l1, f1⟩ := set_frame hl h1
  obtain ⟨l2, f2⟩ := set_frame l1 h2
  have e3' : n.prog.execs s2 [⟨.x, .ud_x⟩] = some s3 := by rw [execs_cons, e3]; rfl
  obtain ⟨l3, f3⟩ := execs_frame l2 e3'
  obtain ⟨l4, f4⟩ := execs_frame l3 e4
  have f4' : ∀ s, n.E s4 s = n.E s3 s := fun s => f4 s (pre'_frame (by rw [ho]; simp))
  have f12 : ∀ s, s ∉ n.m.u → n.E s2 s = n.E st s := fun s a => by
    rw [f2 s (fun l hl => by cases hl; rw [hp]; simp), f1 s (fun l hl => by cases hl; exact a)]
  have nodx : ∀ s, s ∉ n.m.g.x → n.E s3 s = n.E s2 s := fun s hs =>
    f3 s (by intro c hc l hl; simp at hc; subst hc; cases hl; exact hs)
  have gu : n.m.u.map (n.E s1) = u := by
    obtain ⟨q, hq1, hq2⟩ := set_arg_v (base := n.base) (laidOut n) hn.nodup hl (n := Nm.u) rfl
      (Numeric.sub_u n) hu
    rw [h1] at hq1
    simp only [Option.some.injEq] at hq1
    subst hq1; exact hq2
  -- values before the iterations
  have x4 : ∀ s ∈ n.m.g.x, n.E s4 s = n.E st s + n.E st (dn s) := by
    intro s hsx
    have d1 := (disjoint_all hn (k := s)).1 hsx
    have d2 := (disjoint_all hn (k := dn s)).2.1 (List.mem_map_of_mem hsx)
    rw [f4', exec_x hn l2 e3 s hsx, f12 s d1.2.2.1, f12 _ d2.2.1]
  have u4 : n.m.u.map (n.E s4) = u := by
    rw [← gu]
    refine List.map_congr_left fun s hsu => ?_
    have hx : s ∉ n.m.g.x := fun hx => ((disjoint_all hn).1 hx).2.2.1 hsu
    rw [f4', nodx s hx, f2 s (fun l hl => by cases hl; rw [hp]; simp)]
  have o4 : ∀ s, s ∉ n.m.g.x → s ∉ n.m.u → n.E s4 s = n.E st s := fun s a b => by
    rw [f4', nodx s a, f12 s b]
  have l5 : s5.args.length = n.all.length := by
    rcases e5 with ⟨_, rfl⟩ | ⟨_, e5⟩
    · exact l4
    · exact (action_frame l4 e5).1
  -- the iterations
  have hit : ∃ E0 : ℕ → Env ℝ, E0 0 = n.E s4 ∧ E0 (if n.nl = 0 then 0 else n.maxit) = n.E s5 ∧
      (∀ j < (if n.nl = 0 then 0 else n.maxit),
        (∀ i < n.nl, E0 (j + 1) ((n.m.v .nl).getD i "") = vals udvnl (E0 j) i) ∧
        ∀ s, s ∉ n.m.v .nl → E0 (j + 1) s = E0 j s) ∧ ∀ j, ∀ s, s ∉ n.all → E0 j s = n.base s := by
    rcases e5 with ⟨h0, rfl⟩ | ⟨h0, e5⟩
    · refine ⟨fun _ => n.E s5, rfl, rfl, fun j hj => ?_, fun j s hsn => envOf_not_mem hsn⟩
      rw [if_pos h0] at hj; omega
    · obtain ⟨iJ, A, f, hI⟩ := pre_inv l3 e4 h0
      obtain ⟨E0, t0, t1, t2, t3⟩ := iter_values hn hs hN hS hI (by
        rw [← post_res l5 e6]; exact hnl.resolve_left (by omega)) e5
      rw [if_neg (by omega)]
      exact ⟨E0, t0, t1, t2, t3⟩
  obtain ⟨E0, z0, zk, zs, zb⟩ := hit
  obtain ⟨-, f6⟩ := execs_frame l5 e6
  have fo : ∀ s, s ∉ n.m.v .l → n.E st' s = n.E s5 s := fun s hsv => f6 s (post_frame hsv)
  refine ⟨E0, by rw [z0]; exact x4, by rw [z0]; exact u4, by rw [z0]; exact o4, zs, zb, ?_, ?_, hy, L'⟩
  · rw [zk]
    set φ : ℕ → ℝ := svals (n.m.v .l) (n.E st') with hφ
    have hE : n.E st' = n.m.setL (n.E s5) φ := by
      funext s
      unfold Meth.setL
      split_ifs with hsv
      · rw [hφ, svals, List.getD_eq_getElem?_getD, List.getElem?_eq_getElem
          (List.idxOf_lt_length_of_mem hsv), Option.getD_some, List.getElem_idxOf]
      · exact fo s hsv
    have h0 : ∀ i < n.l, (n.m.J .l .l (n.E s5)).mv φ i = - n.m.G .l i (n.E s5) := by
      intro i hi
      have := hF i hi
      rw [hE, F_setL hs (by simp) hi] at this
      linarith
    intro i hi
    have := hN.lin (n.E s5) (fun j => φ j - vals udvl (n.E s5) j) (fun k hk => by
      rw [mv_sub, h0 k hk, hS.lin _ k hk]; ring) i hi
    have h2 : φ i = n.E st' ((n.m.v .l).getD i "") := rfl
    rw [← h2]
    linarith
  · rw [zk]; exact fo

end Faust
end Pyphs
