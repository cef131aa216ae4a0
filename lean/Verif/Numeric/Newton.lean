/-
Property C69: the iterations solve affine equations exactly, in at most one iteration.
-/
import Verif.Numeric.Unique

namespace Pyphs
namespace Numeric
open Scheme Mat Finset

/-- The equations are affine in the unknowns that are iterated. -/
structure AffineSys (m : Meth) : Prop where
  diff : ∀ a, a ≠ .all → ∀ i < (m.v a).length, ∀ y ∈ m.v .nl, CDiff (m.F a i) y
  free : ∀ a, a ≠ .all → ∀ i < (m.v a).length, ∀ y ∈ m.v .nl, ∀ k ∈ m.v .nl,
    Indep (pdiff (m.F a i) y) k

theorem pdiff_G {m : Meth} (h : SplitOK m) {a : Sfx} (ha : a ≠ .all) {i : ℕ}
    (hi : i < (m.v a).length) {s : String} (hs : s ∈ m.v .nl) (e : Env ℝ) :
    pdiff (m.G a i) s e = pdiff (m.F a i) s e := by
  unfold pdiff
  rw [funext fun t => G_update h ha hi hs e t]
  exact deriv_sub_const _

/-- The functions `G` after a move of the iterated unknowns. -/
theorem G_move {n : Num} (hs : SplitOK n.m) (hA : AffineSys n.m) {a : Sfx} (ha : a ≠ .all) {i : ℕ}
    (hi : i < (n.m.v a).length) {e e' : Env ℝ} (h : ∀ s, s ∉ n.m.v .nl → e' s = e s) {δ : ℕ → ℝ}
    (hδ : ∀ j < n.nl, e' ((n.m.v .nl).getD j "") = e ((n.m.v .nl).getD j "") + δ j) :
    n.m.G a i e' = n.m.G a i e + (n.m.JG a .nl e).mv δ i := by
  have hnd : (n.m.v .nl).Nodup := (List.nodup_append.1 ((v_perm n.m).nodup_iff.1 hs.nodup)).2.1
  have hm : e' = moved e (fun s => e' s - e s) (n.m.v .nl) := by
    funext s; unfold moved
    split_ifs with hh
    · ring
    · exact h s hh
  have hF : n.m.F a i e' = n.m.F a i e + (n.m.JG a .nl e).mv δ i := by
    rw [hm, affine_moved hnd (hA.diff a ha i hi) (fun y hy k hk => hA.free a ha i hi y hy k hk),
      list_sum_range]
    congr 1
    show _ = ∑ j ∈ range (n.m.v .nl).length, pdiff (n.m.G a i) ((n.m.v .nl).getD j "") e * δ j
    refine sum_congr rfl fun j hj => ?_
    have hj' : j < n.nl := mem_range.1 hj
    rw [pdiff_G hs ha hi (getD_mem hj'), hδ j hj']
    ring
  show n.m.F a i e' - _ = n.m.F a i e - _ + _
  rw [hF]
  have : (n.m.J a .l e').mv (svals (n.m.v .l) e') i = (n.m.J a .l e).mv (svals (n.m.v .l) e) i := by
    refine sum_congr rfl fun j hj => ?_
    have hj' : j < n.l := mem_range.1 hj
    rw [J_congr hs ha h hi hj']
    congr 1
    unfold svals
    exact h _ fun hh => hs.ne hh (getD_mem hj')
  rw [this]
  ring

theorem row_lt {m : Meth} (hw : MethWF m) {a : Sfx} (ha : a ≠ .all) {i : ℕ} (hi : i < (m.v a).length)
    (e : Env ℝ) : m.row a i e < sz m := by
  cases a with
  | all => exact absurd rfl ha
  | l => exact row_l_lt hw hi e
  | nl => exact row_nl_lt hw hi e

theorem row_const {m : Meth} {a : Sfx} (ha : a ≠ .all) (i : ℕ) (e e' : Env ℝ) :
    m.row a i e = m.row a i e' := by
  cases a with
  | all => exact absurd rfl ha
  | l => rw [row_l, row_l]
  | nl => rw [row_nl, row_nl]

theorem mem_vn {m : Meth} {k : String} (h : k ∈ m.v .all) : ∃ c < sz m, k = vn m c := by
  obtain ⟨c, hc, rfl⟩ := List.mem_iff_getElem.1 h
  refine ⟨c, by rw [← v_all_length]; exact hc, ?_⟩
  rw [← v_all_getD, List.getD_eq_getElem?_getD, List.getElem?_eq_getElem hc, Option.getD_some]

/-- A system whose laws are affine functions of their own unknown has affine equations. -/
theorem affine_of_diag {m : Meth} (hw : MethWF m) (hs : SplitOK m) (d : DiagSys m) (hfs : 0 < m.fs)
    (inp : ∀ k ∈ m.v .all, k ∉ m.u)
    (hlin : ∀ j < sz m, Indep (pdiff (fn m j) (vn m j)) (vn m j)) : AffineSys m := by
  have hm := d.monotone hw hs hfs inp
  have hF : ∀ a, a ≠ .all → ∀ i < (m.v a).length, m.F a i = m.res (m.row a i fun _ => 0) :=
    fun a ha i hi => funext fun e => by rw [F_eq_res hw e a hi, row_const ha i e fun _ => 0]
  refine ⟨fun a ha i hi y hy => ?_, fun a ha i hi y hy k hk e t => ?_⟩
  · obtain ⟨c, hc, rfl⟩ := mem_vn (mem_nl m hy)
    rw [hF a ha i hi]
    exact res_cdiff hw hs hm (row_lt hw ha hi _) hc
  · obtain ⟨c, hc, rfl⟩ := mem_vn (mem_nl m hy)
    rw [hF a ha i hi, res_pdiff hw hs hm (row_lt hw ha hi _) hc, res_pdiff hw hs hm (row_lt hw ha hi _) hc]
    congr 1
    refine sum_congr rfl fun j hj => ?_
    have hj' := mem_range.1 hj
    rw [d.Mfree k (mem_nl m hk)]
    congr 1
    by_cases hjc : j = c
    · subst hjc
      by_cases hkc : k = vn m j
      · rw [hkc]; exact hlin j hj' e t
      · unfold pdiff
        rw [Function.update_of_ne (Ne.symm hkc)]
        congr 1
        funext s
        rw [Function.update_comm hkc]
        exact d.own j hj' k (mem_nl m hk) hkc _ _
    · have := d.own j hj' (vn m c) (vn_mem hc) fun h => hjc (vn_inj hs hj' hc h.symm)
      rw [pdiff_indep this, pdiff_indep this]

/-- One iteration cancels the residual of affine equations. -/
theorem imp_affine {n : Num} (hn : n.WF) (hs : SplitOK n.m) (hN : Nonsing n.m) (hA : AffineSys n.m)
    {st st' : St Nm ℝ} {iJ A : Mat ℝ} {f : List ℝ} (hi : Inv n st iJ A f)
    (h : n.prog.execs st n.imp = some st') :
    ∃ f', Inv n st' iJ A f' ∧ ∀ i < n.nl, f'.getD i 0 = 0 := by
  obtain ⟨s', t, K, B, h1, -, hK, hB, hv, ho⟩ := imp_newton hn hs hN hi
  obtain rfl : st' = s' := Option.some.inj (h.symm.trans h1)
  obtain ⟨f', hi'⟩ := imp_inv hs hi h
  refine ⟨f', hi', fun i hil => ?_⟩
  set e := n.E st with he
  set e' := n.E st' with he'
  set g : ℕ → ℝ := fun j => f.getD j 0 with hg
  set δ : ℕ → ℝ := fun j => -B.mv g j with hδ
  have mv' : ∀ j < n.nl, e' ((n.m.v .nl).getD j "") = e ((n.m.v .nl).getD j "") + δ j := fun j hj => by
    rw [hv j hj, sub_eq_add_neg]
  have hJ : ∀ ψ : ℕ → ℝ, (n.m.J .nl .l e').mv ψ i = (n.m.J .nl .l e).mv ψ i := fun ψ => by
    refine sum_congr rfl fun j hj => ?_
    rw [J_congr hs (by simp) ho hil (mem_range.1 hj)]
  rw [hi'.res.eq i hil, G_move hs hA (by simp) hil ho mv', hJ]
  have hl : (n.m.J .nl .l e).mv (iJ.mv fun j => -1 * n.m.G .l j e') i =
      (n.m.J .nl .l e).mv (iJ.mv fun j => -1 * n.m.G .l j e) i +
      (n.m.J .nl .l e).mv (iJ.mv fun j => -1 * (n.m.JG .l .nl e).mv δ j) i := by
    rw [← mv_add]
    refine mv_congr (fun k hk => ?_) i
    rw [← mv_add]
    have hk0 : 0 < n.l := lt_of_le_of_lt (Nat.zero_le _) hk
    refine mv_congr (fun j hj => ?_) k
    rw [(hi.lin hk0).c] at hj
    rw [G_move hs hA (by simp) hj ho mv']
    ring
  have hf := hi.res.eq i hil
  have hk := hK δ i hil
  have hd : K.mv δ i = -g i := by
    rw [hδ, mv_neg, hB g i hil]
  have hgi : g i = f.getD i 0 := rfl
  rw [hl]
  linarith

theorem norm_nonneg (n : Num) (f : List ℝ) : 0 ≤ n.prog.norm f := Real.sqrt_nonneg _

theorem norm_zero (n : Num) {f : List ℝ} (h : ∀ i < f.length, f.getD i 0 = 0) : n.prog.norm f = 0 := by
  show Real.sqrt _ = 0
  have : f.zipWith (· * ·) f = f.map fun _ => 0 := by
    refine List.ext_getElem (by simp) fun i h1 h2 => ?_
    have hi : i < f.length := by simpa using h2
    have := h i hi
    rw [List.getD_eq_getElem?_getD, List.getElem?_eq_getElem hi, Option.getD_some] at this
    simp [this]
  rw [this]
  simp

/-- The iterations reach the tolerance, in at most one iteration. -/
theorem iter_affine {n : Num} (hn : n.WF) (hs : SplitOK n.m) (hN : Nonsing n.m) (hA : AffineSys n.m)
    (he0 : 0 ≤ n.eps) (he1 : n.eps < 1) (hmax : 1 ≤ n.maxit)
    {st st' : St Nm ℝ} {iJ A : Mat ℝ} {f : List ℝ} (hi : Inv n st iJ A f)
    (h : n.prog.action n.eps n.maxit st (.iter n.imp .res_Fnl .step_Fnl) = some st') :
    ∃ r k, st'.vals .res_Fnl = some (.s r) ∧ 0 ≤ r ∧ r ≤ n.eps ∧ k ≤ 1 ∧
      n.prog.iterexecs n.eps n.maxit n.imp .res_Fnl .step_Fnl (n.maxit + 1) st = .ok (st', k) := by
  unfold Prog.action at h
  cases hr : n.prog.iterexecs n.eps n.maxit n.imp .res_Fnl .step_Fnl (n.maxit + 1) st with
  | err => simp [hr] at h
  | fuel => simp [hr] at h
  | ok q =>
    obtain ⟨s2, k⟩ := q
    simp only [hr, Option.some.injEq] at h
    subst h
    obtain ⟨hk, tr, h0, hn', hst, hx⟩ := C23_exit hr
    have hset : n.prog.argInds .step_Fnl = none := rfl
    simp only [Prog.set, hset, Option.some.injEq] at h0
    have i0 : Inv n (tr 0) iJ A f := by
      rw [← h0]
      exact ⟨hi.len, fun hl => ⟨(hi.lin hl).ij, (hi.lin hl).r, (hi.lin hl).c, (hi.lin hl).inv,
        (hi.lin hl).G⟩, fun hl => ⟨(hi.cpl hl).a, (hi.cpl hl).r, (hi.cpl hl).c, (hi.cpl hl).eq⟩,
        ⟨hi.res.F, hi.res.len, hi.res.eq, hi.res.res⟩⟩
    rcases Nat.eq_zero_or_pos k with rfl | hpos
    · rw [hn'] at h0 i0
      refine ⟨_, 0, i0.res.res, norm_nonneg n f, ?_, by omega, rfl⟩
      rcases hx with ⟨r, h1, h2⟩ | ⟨t, h1, h2⟩ | h1
      · rw [get_val rfl, i0.res.res] at h1
        simp only [Option.some.injEq, NV.s.injEq] at h1
        rw [h1]; exact h2
      · rw [get_val rfl, ← h0] at h1
        simp only [Function.update_self, Option.some.injEq, NV.s.injEq] at h1
        linarith
      · omega
    · obtain ⟨f1, i1, z1⟩ := imp_affine hn hs hN hA i0 (hst 0 hpos).1
      have hn1 : n.prog.norm f1 = 0 := norm_zero n fun i hi => z1 i (by rw [← i1.res.len]; exact hi)
      have hk1 : k = 1 := by
        by_contra hne
        obtain ⟨r, q1, q2⟩ := (hst 1 (by omega)).2.1
        rw [get_val rfl, i1.res.res, hn1] at q1
        simp only [Option.some.injEq, NV.s.injEq] at q1
        linarith
      subst hk1
      rw [hn'] at i1
      exact ⟨_, 1, i1.res.res, norm_nonneg n f1, by rw [hn1]; exact he0, le_refl _, rfl⟩

/-- The state before the iterations of a call of `update`. -/
theorem before_iter {n : Num} {u p : Option (List ℝ)} {st st' : St Nm ℝ}
    (hl : st.args.length = n.all.length) (hu : n.update u p st = some st') (hnl : 0 < n.nl) :
    ∃ s4 s5 iJ A f, Inv n s4 iJ A f ∧
      n.prog.action n.eps n.maxit s4 (.iter n.imp .res_Fnl .step_Fnl) = some s5 ∧
      st'.vals .res_Fnl = s5.vals .res_Fnl := by
  obtain ⟨s1, s2, h1, h2, h3⟩ := update_split hu
  obtain ⟨s3, s4, s5, e3, e4, e5, e6⟩ := actions_split h3
  obtain ⟨l1, _⟩ := set_frame hl h1
  obtain ⟨l2, _⟩ := set_frame l1 h2
  have e3' : n.prog.execs s2 [⟨.x, .ud_x⟩] = some s3 := by rw [execs_cons, e3]; rfl
  obtain ⟨l3, _⟩ := execs_frame l2 e3'
  have epre : n.pre' = [⟨.o, .ud_o⟩] ++ ((if 0 < n.l then [c1 .jactempFll, c1 .ijactempFll, c1 .Gl]
      else []) ++ (if 0 < n.nl then (if 0 < n.l then [c1 .jactempFnll] else []) ++
        [c1 .Gnl, c1 .Fnl, c1 .res_Fnl] else [])) := by
    unfold Num.pre' Num.pre; split_ifs <;> rfl
  rw [epre, execs_append] at e4
  obtain ⟨a0, b0, e4⟩ := Option.bind_eq_some_iff.1 e4
  obtain ⟨la0, _⟩ := execs_frame l3 b0
  have hlin : ∃ a1 iJ, a1.args = a0.args ∧ (0 < n.l → LinOK n (n.E a1) a1 iJ) ∧
      n.prog.execs a1 (if 0 < n.nl then (if 0 < n.l then [c1 .jactempFnll] else []) ++
        [c1 .Gnl, c1 .Fnl, c1 .res_Fnl] else []) = some s4 := by
    by_cases hl : 0 < n.l
    · rw [if_pos hl] at e4
      obtain ⟨a1, iJ, q1, q2, q3⟩ := pre_lin hl e4
      refine ⟨a1, iJ, q1, fun _ => ?_, q3⟩
      have : n.E a1 = n.E a0 := by unfold Num.E; rw [q1]
      rw [this]; exact q2
    · rw [if_neg hl, List.nil_append] at e4
      exact ⟨a0, Mat.zeros 0 0, rfl, fun h => absurd h hl, e4⟩
  obtain ⟨a1, iJ, q1, q2, e4⟩ := hlin
  have la1 : a1.args.length = n.all.length := by rw [q1]; exact la0
  rcases e5 with ⟨h0, rfl⟩ | ⟨h0, e5⟩
  · omega
  rw [if_pos h0] at e4
  have hc : ∃ a2 A, a2.args = a1.args ∧ (0 < n.l → LinOK n (n.E a2) a2 iJ) ∧
      (0 < n.l → CplOK n (n.E a2) a2 A) ∧
      n.prog.execs a2 [c1 .Gnl, c1 .Fnl, c1 .res_Fnl] = some s4 := by
    by_cases hl : 0 < n.l
    · rw [if_pos hl, List.singleton_append, execs_cons, exec_func (n := n) rfl rfl rfl,
        Option.bind_some] at e4
      refine ⟨_, n.m.J .nl .l (n.env a1.args), ?_, fun _ => ?_, fun _ => ?_, e4⟩
      · rfl
      · have L := q2 hl
        exact ⟨L.ij, L.r, L.c, L.inv, L.G⟩
      · exact ⟨rfl, rfl, rfl, fun ψ i hi => rfl⟩
    · rw [if_neg hl, List.nil_append] at e4
      exact ⟨a1, Mat.zeros 0 0, rfl, q2, fun h => absurd h hl, e4⟩
  obtain ⟨a2, A, r1, r2, r3, e4⟩ := hc
  obtain ⟨a3, f, t1, t2, t3, e4⟩ := res_cmds r2 r3 e4
  simp only [Prog.execs, List.foldlM_nil, Option.pure_def, Option.some.injEq] at e4
  subst e4
  have hE : n.E a3 = n.E a2 := by unfold Num.E; rw [t1]
  have hI : Inv n a3 iJ A f := by
    refine ⟨by rw [t1, r1]; exact la1, fun hl => ?_, fun hl => ?_, ?_⟩
    · have L := r2 hl
      rw [hE]
      exact ⟨(t3 _ (by simp) (by simp) (by simp)).trans L.ij, L.r, L.c, L.inv,
        (t3 _ (by simp) (by simp) (by simp)).trans L.G⟩
    · have C := r3 hl
      rw [hE]
      exact ⟨(t3 _ (by simp) (by simp) (by simp)).trans C.a, C.r, C.c, C.eq⟩
    · rw [hE]; exact t2
  refine ⟨a3, s5, iJ, A, f, hI, e5, ?_⟩
  -- `postimplicit`
  have hpost : ∃ s6 : St Nm ℝ, s6.vals = s5.vals ∧
      n.prog.execs s6 [c1 .dxH, c1 .z, c1 .y] = some st' := by
    unfold Num.post at e6
    by_cases hl : 0 < n.l
    · rw [if_pos hl, execs_append] at e6
      obtain ⟨s6, b6, e6⟩ := Option.bind_eq_some_iff.1 e6
      rw [execs_cons] at b6
      obtain ⟨q, b7, hq⟩ := Option.bind_eq_some_iff.1 b6
      simp only [Prog.execs, List.foldlM_nil, Option.pure_def, Option.some.injEq] at hq
      subst hq
      obtain ⟨v, bv, b7⟩ := Option.bind_eq_some_iff.1 b7
      have i5 := (action_frame hI.len e5).1
      exact ⟨_, (set_arg (base := n.base) (laidOut n) i5 (n := Nm.vl) rfl b7).1, e6⟩
    · rw [if_neg hl, List.nil_append] at e6
      exact ⟨s5, rfl, e6⟩
  obtain ⟨s6, v6, e6⟩ := hpost
  rw [execs_cons, exec_func (n := n) rfl rfl rfl, Option.bind_some, execs_cons,
    exec_func (n := n) rfl rfl rfl, Option.bind_some, execs_cons,
    exec_func (n := n) rfl rfl rfl, Option.bind_some] at e6
  simp only [Prog.execs, List.foldlM_nil, Option.pure_def, Option.some.injEq] at e6
  rw [← e6, ← v6]
  rfl

/-- **C69**: when the equations are affine in the iterated unknowns and their Jacobian is nonsingular, every
call of `update` converges: the residual that it returns is at most the tolerance. It is exactly zero for
the tolerance zero. -/
theorem C69_converges {n : Num} (hn : n.WF) (hs : SplitOK n.m) (hN : Nonsing n.m) (hA : AffineSys n.m)
    (he0 : 0 ≤ n.eps) (he1 : n.eps < 1) (hmax : 1 ≤ n.maxit) {u p : Option (List ℝ)} {st st' : St Nm ℝ}
    (hl : st.args.length = n.all.length) (hu : n.update u p st = some st') :
    n.nl = 0 ∨ ∃ r, st'.vals .res_Fnl = some (.s r) ∧ 0 ≤ r ∧ r ≤ n.eps := by
  rcases Nat.eq_zero_or_pos n.nl with h0 | h0
  · exact .inl h0
  · obtain ⟨s4, s5, iJ, A, f, hI, ha, hv⟩ := before_iter hl hu h0
    obtain ⟨r, k, h1, h2, h3, -⟩ := iter_affine hn hs hN hA he0 he1 hmax hI ha
    exact .inr ⟨r, by rw [hv, h1], h2, h3⟩

end Numeric
end Pyphs
