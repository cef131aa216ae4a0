/-
Values of the process `iteration`.
-/
import Verif.Faust.Lemmas

namespace Pyphs
namespace Faust
open D
variable {K : Type} [AddCommMonoid K]

/-- Values of the arguments of a method. -/
structure Args (K : Type) where
  dx : List K
  w : List K
  x : List K
  o : List K
  u : List K

/-- The arguments in the order of the generated functions, _faust.py:187. -/
def Args.flat (a : Args K) : List K := a.dx ++ (a.w ++ (a.x ++ (a.o ++ a.u)))

/-- The lists have the lengths of the method. -/
structure Args.Fit (a : Args K) (d : Dims) : Prop where
  dx : a.dx.length = d.x
  w : a.w.length = d.w
  x : a.x.length = d.x
  o : a.o.length = d.o
  u : a.u.length = d.u

/-- Set the linear unknowns `vl = (dxl, wl)`. -/
def Args.setL (d : Dims) (a : Args K) (r : List K) : Args K :=
  { a with dx := r.take d.xl ++ a.dx.drop d.xl, w := r.drop d.xl ++ a.w.drop d.wl }

/-- Set the nonlinear unknowns `vnl = (dxnl, wnl)`. -/
def Args.setNL (d : Dims) (a : Args K) (r : List K) : Args K :=
  { a with dx := a.dx.take d.xl ++ r.take d.xnl, w := a.w.take d.wl ++ r.drop d.xnl }

/-- Values of functions of the arguments. -/
def Args.ap (a : Args K) (fs : List (List K → K)) : List K := fs.map fun f => f a.flat

/-- `n` nonlinear iterations. -/
def Args.newton (d : Dims) (udvnl : List (List K → K)) : ℕ → Args K → Args K
  | 0, a => a
  | n + 1, a => Args.newton d udvnl n (a.setNL d (a.ap udvnl))

/-- What an iteration has to compute: `nIt` updates of the nonlinear unknowns, then the update of the linear
unknowns. -/
def Args.solve (d : Dims) (nIt : ℕ) (udvl udvnl : List (List K → K)) (a : Args K) : Args K :=
  let b := if 0 < d.vnl then Args.newton d udvnl nIt a else a
  if 0 < d.vl then b.setL d (b.ap udvl) else b

/-- The memorised values after a sample: `x` is increased by `dx`. -/
def Args.memo (a : Args K) : List K := a.dx ++ (a.w ++ (a.dx.zipWith (· + ·) a.x ++ a.o))

theorem Args.Fit.setL {d : Dims} {a : Args K} (h : a.Fit d) {r : List K} (hr : r.length = d.vl) :
    (a.setL d r).Fit d where
  dx := by
    simp only [Args.setL, List.length_append, List.length_take, List.length_drop, h.dx, hr, Dims.x,
      Dims.vl]; omega
  w := by
    simp only [Args.setL, List.length_append, List.length_drop, h.w, hr, Dims.w, Dims.vl]; omega
  x := h.x
  o := h.o
  u := h.u

theorem Args.Fit.setNL {d : Dims} {a : Args K} (h : a.Fit d) {r : List K} (hr : r.length = d.vnl) :
    (a.setNL d r).Fit d where
  dx := by
    simp only [Args.setNL, List.length_append, List.length_take, h.dx, hr, Dims.x, Dims.vnl]; omega
  w := by
    simp only [Args.setNL, List.length_append, List.length_take, List.length_drop, h.w, hr, Dims.w,
      Dims.vnl]; omega
  x := h.x
  o := h.o
  u := h.u

theorem Args.Fit.flat {d : Dims} {a : Args K} (h : a.Fit d) : a.flat.length = d.all := by
  simp [Args.flat, h.dx, h.w, h.x, h.o, h.u, Dims.all]

theorem Args.length_ap (a : Args K) (fs : List (List K → K)) : (a.ap fs).length = fs.length := by
  simp [Args.ap]

namespace Dims
variable (d : Dims)

theorem args_ins : (d.args : D K).ins = d.all := by simp [args, D.ins, all]
theorem args_outs : (d.args : D K).outs = d.all := by simp [args, D.outs, all]
theorem c_ins : (d.c : D K).ins = d.x + (d.o + d.u) := by simp [c, D.ins]
theorem c_outs : (d.c : D K).outs = d.x + (d.o + d.u) := by simp [c, D.outs]
theorem cT_ins : (d.cT : D K).ins = d.x + (d.o + d.u) := by simp [cT, D.ins]
theorem cT_outs : (d.cT : D K).outs = 0 := by simp [cT, D.outs]

theorem args_pure : (d.args : D K).Pure := by simp [args, D.Pure]
theorem c_pure : (d.c : D K).Pure := by simp [c, D.Pure]
theorem cT_pure : (d.cT : D K).Pure := by simp [cT, D.Pure]
theorem args_ok : (d.args : D K).ok := by simp [args, D.ok]
theorem c_ok : (d.c : D K).ok := by simp [c, D.ok]
theorem cT_ok : (d.cT : D K).ok := by simp [cT, D.ok]

theorem ev_seq (a b : D K) (i : List K) : (D.seq a b).ev i = b.ev (a.ev i) := rfl
theorem ev_split (a b : D K) (i : List K) :
    (D.split a b).ev i = b.ev (copies (b.ins / a.outs) (a.ev i)) := rfl
theorem ev_merge (a b : D K) (i : List K) : (D.merge a b).ev i = b.ev (sums b.ins (a.ev i)) := rfl

/-- Parallel pass-through diagrams are the identity. -/
theorem ev_par_id {a b : D K} (ha : ∀ i : List K, i.length = a.ins → a.ev i = i)
    (hb : ∀ i : List K, i.length = b.ins → b.ev i = i) (i : List K) (hi : i.length = (D.par a b).ins) :
    (D.par a b).ev i = i := by
  simp only [D.ins] at hi
  simp only [D.ev]
  rw [ha _ (by simp [hi]), hb _ (by simp [hi]), List.take_append_drop]

/-- Parallel terminating diagrams have no outputs. -/
theorem ev_par_nil {a b : D K} (ha : ∀ i : List K, i.length = a.ins → a.ev i = [])
    (hb : ∀ i : List K, i.length = b.ins → b.ev i = []) (i : List K) (hi : i.length = (D.par a b).ins) :
    (D.par a b).ev i = [] := by
  simp only [D.ins] at hi
  simp only [D.ev]
  rw [ha _ (by simp [hi]), hb _ (by simp [hi]), List.append_nil]

theorem pass_id (n : ℕ) : ∀ i : List K, i.length = (pass n : D K).ins → (pass n).ev i = i :=
  fun _ h => ev_pass n (by simpa using h)
theorem term_nil (n : ℕ) : ∀ i : List K, i.length = (term n : D K).ins → (term n).ev i = [] :=
  fun _ h => ev_term n (by simpa using h)

theorem args_id : ∀ i : List K, i.length = (d.args : D K).ins → d.args.ev i = i :=
  ev_par_id (pass_id _) (ev_par_id (pass_id _) (ev_par_id (pass_id _) (ev_par_id (pass_id _) (pass_id _))))
theorem c_id : ∀ i : List K, i.length = (d.c : D K).ins → d.c.ev i = i :=
  ev_par_id (pass_id _) (ev_par_id (pass_id _) (pass_id _))
theorem cT_nil : ∀ i : List K, i.length = (d.cT : D K).ins → d.cT.ev i = [] :=
  ev_par_nil (term_nil _) (ev_par_nil (term_nil _) (term_nil _))

/-- Values of a vector of functions. -/
theorem ev_fns (n : ℕ) (i : List K) (hi : i.length = n) : ∀ (k : ℕ) (fs : List (List K → K)),
    fs.length = k → (pars (fs.map (.fn n))).ev (copies k i) = fs.map fun f => f i
  | 0, fs, h => by
    rw [List.eq_nil_of_length_eq_zero h]; rfl
  | k + 1, [], h => by simp at h
  | k + 1, f :: fs, h => by
    have hk : fs.length = k := by simpa using h
    have : copies (k + 1) i = i ++ copies k i := by simp [copies, List.replicate_succ]
    rw [this, List.map_cons, ev_pars_cons (by simpa [D.ins] using hi)
      (by simp [ins_pars, copies, D.ins, hi, hk, Function.comp_def]), ev_fns n i hi k fs hk]
    rfl

theorem vector_ev (h0 : 0 < d.all) (fs : List (List K → K)) {i : List K} (hi : i.length = d.all)  :
    (d.vector fs).ev i = fs.map fun f => f i := by
  unfold vector
  split_ifs with h
  · rw [List.eq_nil_of_length_eq_zero h]; rfl
  · simp only [D.ev]
    rw [args_id _ _ (by rw [args_ins, hi]), args_outs, ins_pars]
    have : ((fs.map (D.fn d.all)).map D.ins).sum = fs.length * d.all := by
      simp [D.ins, Function.comp_def]
    rw [this, Nat.mul_div_cancel _ h0, ev_fns d.all i hi _ fs rfl]

theorem vector_ins (fs : List (List K → K)) (h : 0 < fs.length) : (d.vector fs).ins = d.all := by
  unfold vector; rw [if_neg (by omega)]; exact d.args_ins
theorem vector_outs (fs : List (List K → K)) : (d.vector fs).outs = fs.length := by
  unfold vector
  split_ifs with h
  · simp [D.outs, h]
  · simp [D.outs, outs_pars, Function.comp_def]
theorem vector_pure (fs : List (List K → K)) : (d.vector fs).Pure := by
  unfold vector
  split_ifs
  · trivial
  · exact ⟨d.args_pure, pars_pure _ fun e he => by
      obtain ⟨f, -, rfl⟩ := List.mem_map.1 he; trivial⟩
theorem vector_ok (h0 : 0 < d.all) (fs : List (List K → K)) : (d.vector fs).ok := by
  unfold vector
  split_ifs with h
  · trivial
  · refine ⟨d.args_ok, ok_pars _ fun e he => ?_, ?_, ?_⟩
    · obtain ⟨f, -, rfl⟩ := List.mem_map.1 he; trivial
    · rw [args_outs]; exact h0
    · rw [args_outs, ins_pars]
      simp [D.ins, Function.comp_def]

/-- The order of the unknowns after `vlvnl2v`. -/
def recombine (d : Dims) (l n : List K) : List K :=
  l.take d.xl ++ (n.take d.xnl ++ (l.drop d.xl ++ n.drop d.xnl))

theorem length_recombine {l n : List K} (hl : l.length = d.vl) (hn : n.length = d.vnl) :
    (d.recombine l n).length = d.v := by
  simp only [recombine, List.length_append, List.length_take, List.length_drop, hl, hn, v, vl, vnl, x, w]
  omega

theorem vl_vnl : d.vl + d.vnl = d.v := by simp only [vl, vnl, v, x, w]; omega

theorem vlvnl2v_ins : (d.vlvnl2v : D K).ins = d.v := by
  simp only [vlvnl2v, D.ins, ins_pass]; exact d.vl_vnl
theorem vlvnl2v_outs : (d.vlvnl2v : D K).outs = d.v := by
  simp only [vlvnl2v, D.outs, outs_pass, outs_term, v, x, w]; omega

theorem vlvnl2v_pure : (d.vlvnl2v : D K).Pure := by simp [vlvnl2v, D.Pure]

theorem vlvnl2v_in4 : D.ins (.par (.par (pass d.xl) (.par (term d.wl) (term d.vnl)))
    (.par (.par (term d.vl) (.par (pass d.xnl) (term d.wnl)))
    (.par (.par (term d.xl) (.par (pass d.wl) (term d.vnl)))
      (.par (term d.vl) (.par (term d.xnl) (pass d.wnl))))) : D K) = 4 * d.v := by
  simp only [D.ins, ins_pass, ins_term, vl, vnl, v, x, w]; omega

theorem vlvnl2v_ok (h : 0 < d.v) : (d.vlvnl2v : D K).ok := by
  unfold vlvnl2v
  refine ⟨by simp [D.ok], by simp [D.ok], ?_, ?_⟩
  · simp only [D.outs, outs_pass, d.vl_vnl]; exact h
  · rw [vlvnl2v_in4]
    simp only [D.outs, outs_pass, d.vl_vnl]
    exact Dvd.intro_left 4 rfl

theorem vlvnl2v_ev {l n : List K} (h : 0 < d.v) (hl : l.length = d.vl) (hn : n.length = d.vnl) :
    (d.vlvnl2v).ev (l ++ n) = d.recombine l n := by
  have hln : (l ++ n).length = d.v := by rw [List.length_append, hl, hn, d.vl_vnl]
  unfold vlvnl2v
  rw [D.ev, vlvnl2v_in4]
  simp only [D.outs, outs_pass]
  rw [ev_par (by simp [hl]), ev_pass _ hl, ev_pass _ hn, d.vl_vnl, Nat.mul_div_cancel _ h, copies_four]
  have el : l = l.take d.xl ++ l.drop d.xl := (List.take_append_drop _ _).symm
  have en : n = n.take d.xnl ++ n.drop d.xnl := (List.take_append_drop _ _).symm
  have l1 : (l.take d.xl).length = d.xl := by simp [hl, vl]
  have l2 : (l.drop d.xl).length = d.wl := by simp [hl, vl]
  have n1 : (n.take d.xnl).length = d.xnl := by simp [hn, vnl]
  have n2 : (n.drop d.xnl).length = d.wnl := by simp [hn, vnl]
  have p1 : (D.par (pass d.xl) (.par (term d.wl) (term d.vnl))).ev (l ++ n) = l.take d.xl := by
    conv_lhs => rw [el, List.append_assoc]
    rw [ev_par (by simp [l1]), ev_par (by simp [l2]), ev_pass _ l1, ev_term _ l2, ev_term _ hn]; simp
  have p2 : (D.par (term d.vl) (.par (pass d.xnl) (term d.wnl))).ev (l ++ n) = n.take d.xnl := by
    conv_lhs => rw [en]
    rw [ev_par (by simp [hl]), ev_par (by simp [n1]), ev_term _ hl, ev_pass _ n1, ev_term _ n2]; simp
  have p3 : (D.par (term d.xl) (.par (pass d.wl) (term d.vnl))).ev (l ++ n) = l.drop d.xl := by
    conv_lhs => rw [el, List.append_assoc]
    rw [ev_par (by simp [l1]), ev_par (by simp [l2]), ev_term _ l1, ev_pass _ l2, ev_term _ hn]; simp
  have p4 : (D.par (term d.vl) (.par (term d.xnl) (pass d.wnl))).ev (l ++ n) = n.drop d.xnl := by
    conv_lhs => rw [en]
    rw [ev_par (by simp [hl]), ev_par (by simp [n1]), ev_term _ hl, ev_term _ n1, ev_pass _ n2]; simp
  have q : ∀ m, m = d.v → (l ++ n).length = m := fun m hm => by rw [hln, hm]
  rw [ev_par (q _ (by simp only [D.ins, ins_pass, ins_term, vl, vnl, v, x, w]; omega)),
    ev_par (q _ (by simp only [D.ins, ins_pass, ins_term, vl, vnl, v, x, w]; omega)),
    ev_par (q _ (by simp only [D.ins, ins_pass, ins_term, vl, vnl, v, x, w]; omega)), p1, p2, p3, p4]
  rfl

variable {d}

theorem all_eq : d.all = d.v + (d.x + (d.o + d.u)) := by simp only [all, v]; omega

/-- Values of `iterationL`, whatever the dimensions. -/
theorem iterationL_ev {udvl : List (List K → K)} (hf : udvl.length = d.vl) (h0 : 0 < d.vl) {v c : List K}
    (hv : v.length = d.v) (hc : c.length = d.x + (d.o + d.u)) :
    (d.iterationL udvl).ev (v ++ c) =
      d.recombine (udvl.map fun f => f (v ++ c)) (v.drop d.vl) ++ c := by
  have hv0 : 0 < d.v := by rw [← d.vl_vnl]; omega
  have ha0 : 0 < d.all := by rw [all_eq]; omega
  have hA : (v ++ c).length = d.all := by rw [List.length_append, hv, hc, all_eq]
  have hvl : (v.take d.vl).length = d.vl := by rw [List.length_take, hv, ← d.vl_vnl]; omega
  have hvnl : (v.drop d.vl).length = d.vnl := by rw [List.length_drop, hv, ← d.vl_vnl]; omega
  have hr : (udvl.map fun f => f (v ++ c)).length = d.vl := by simp [hf]
  unfold iterationL
  rw [ev_seq, ev_seq, ev_split, args_id d (v ++ c) (by rw [args_ins, hA]), args_outs]
  have hin : D.ins (.par (d.vector udvl) (.par (term d.vl) (.par (pass d.vnl) d.c))) = 2 * d.all := by
    simp only [D.ins, ins_pass, ins_term, vector_ins _ _ (by omega : 0 < udvl.length), c_ins, all_eq,
      ← d.vl_vnl]; omega
  have e1 : D.ev (.par (d.vector udvl) (.par (term d.vl) (.par (pass d.vnl) d.c)))
      (copies (2 * d.all / d.all) (v ++ c)) = (udvl.map fun f => f (v ++ c)) ++ (v.drop d.vl ++ c) := by
    rw [Nat.mul_div_cancel _ ha0, copies_two, ev_par (by rw [vector_ins _ _ (by omega), hA]),
      vector_ev _ ha0 _ hA]
    congr 1
    conv_lhs => rw [← List.take_append_drop d.vl v, List.append_assoc]
    rw [ev_par (by simp [hvl]), ev_par (by simp [hvnl]), ev_term _ hvl, ev_pass _ hvnl,
      c_id _ _ (by rw [c_ins, hc])]
    rfl
  rw [hin, e1]
  have e2 : D.ev (.par d.vlvnl2v d.c) ((udvl.map fun f => f (v ++ c)) ++ (v.drop d.vl ++ c)) =
      d.recombine (udvl.map fun f => f (v ++ c)) (v.drop d.vl) ++ c := by
    rw [← List.append_assoc, ev_par (by rw [vlvnl2v_ins, List.length_append, hr, hvnl, d.vl_vnl]),
      vlvnl2v_ev _ hv0 hr hvnl, c_id _ _ (by rw [c_ins, hc])]
  rw [e2]
  refine args_id _ _ ?_
  rw [args_ins, all_eq, List.length_append, hc, length_recombine d hr hvnl]

/-- Values of `iterationNL`, whatever the dimensions. -/
theorem iterationNL_ev {udvnl : List (List K → K)} (hf : udvnl.length = d.vnl) (h0 : 0 < d.vnl)
    {v c : List K} (hv : v.length = d.v) (hc : c.length = d.x + (d.o + d.u)) :
    (d.iterationNL udvnl).ev (v ++ c) =
      d.recombine (v.take d.vl) (udvnl.map fun f => f (v ++ c)) ++ c := by
  have hv0 : 0 < d.v := by rw [← d.vl_vnl]; omega
  have ha0 : 0 < d.all := by rw [all_eq]; omega
  have hA : (v ++ c).length = d.all := by rw [List.length_append, hv, hc, all_eq]
  have hvl : (v.take d.vl).length = d.vl := by rw [List.length_take, hv, ← d.vl_vnl]; omega
  have hvnl : (v.drop d.vl).length = d.vnl := by rw [List.length_drop, hv, ← d.vl_vnl]; omega
  have hr : (udvnl.map fun f => f (v ++ c)).length = d.vnl := by simp [hf]
  unfold iterationNL
  rw [ev_seq, ev_seq, ev_split, args_id d (v ++ c) (by rw [args_ins, hA]), args_outs]
  have hin : D.ins (.par (.par (pass d.vl) (.par (term d.vnl) d.cT))
      (.par (d.vector udvnl) (.par (term d.v) d.c))) = 3 * d.all := by
    simp only [D.ins, ins_pass, ins_term, vector_ins _ _ (by omega : 0 < udvnl.length), c_ins, cT_ins,
      all_eq, ← d.vl_vnl]; omega
  have e1 : D.ev (.par (.par (pass d.vl) (.par (term d.vnl) d.cT))
      (.par (d.vector udvnl) (.par (term d.v) d.c)))
      (copies (3 * d.all / d.all) (v ++ c)) = v.take d.vl ++ ((udvnl.map fun f => f (v ++ c)) ++ c) := by
    rw [Nat.mul_div_cancel _ ha0, copies_three, ev_par (by
      rw [hA]; simp only [D.ins, ins_pass, ins_term, cT_ins, all_eq, ← d.vl_vnl]; omega),
      ev_par (a := d.vector udvnl) (by rw [vector_ins _ _ (by omega), hA]), vector_ev _ ha0 _ hA]
    congr 1
    · conv_lhs => rw [← List.take_append_drop d.vl v, List.append_assoc]
      rw [ev_par (by simp [hvl]), ev_par (by simp [hvnl]), ev_pass _ hvl, ev_term _ hvnl,
        cT_nil _ _ (by rw [cT_ins, hc])]
      simp
    · congr 1
      rw [ev_par (by simp [hv]), ev_term _ hv, c_id _ _ (by rw [c_ins, hc])]
      rfl
  rw [hin, e1]
  have e2 : D.ev (.par d.vlvnl2v d.c) (v.take d.vl ++ ((udvnl.map fun f => f (v ++ c)) ++ c)) =
      d.recombine (v.take d.vl) (udvnl.map fun f => f (v ++ c)) ++ c := by
    rw [← List.append_assoc, ev_par (by rw [vlvnl2v_ins, List.length_append, hr, hvl, d.vl_vnl]),
      vlvnl2v_ev _ hv0 hvl hr, c_id _ _ (by rw [c_ins, hc])]
  rw [e2]
  refine args_id _ _ ?_
  rw [args_ins, all_eq, List.length_append, hc, length_recombine d hvl hr]

/-- Values of `udx`. -/
theorem udx_ev {a : Args K} (h : a.Fit d) (h0 : 0 < d.x) : d.udx.ev a.flat = a.memo := by
  have ha0 : 0 < d.all := by simp only [all]; omega
  unfold udx
  rw [D.ev, args_id _ _ (by rw [args_ins, h.flat]), args_outs]
  have hin : D.ins (.par (.par (pass d.x) (.par (pass d.w) d.cT))
    (.par (.merge (.par (pass d.x) (.par (term d.w) (.par (pass d.x) (.par (term d.o) (term d.u)))))
        (pass d.x))
      (.par (term d.x) (.par (term d.w) (.par (term d.x) (.par (pass d.o) (term d.u)))))) : D K) =
      3 * d.all := by
    simp only [D.ins, ins_pass, ins_term, cT_ins, all]; omega
  rw [hin, Nat.mul_div_cancel _ ha0, copies_three, ev_par (by
    rw [h.flat]; simp only [D.ins, ins_pass, ins_term, cT_ins, all]), ev_par (by
    rw [h.flat]; simp only [D.ins, ins_pass, ins_term, all])]
  unfold Args.memo
  have e1 : (D.par (pass d.x) (.par (pass d.w) d.cT)).ev a.flat = a.dx ++ a.w := by
    unfold Args.flat
    rw [ev_par (by simp [h.dx]), ev_par (by simp [h.w]), ev_pass _ h.dx, ev_pass _ h.w,
      cT_nil _ _ (by rw [cT_ins]; simp [h.x, h.o, h.u])]
    simp
  have e2 : (D.par (term d.x) (.par (term d.w) (.par (term d.x) (.par (pass d.o) (term d.u))))).ev a.flat =
      a.o := by
    unfold Args.flat
    rw [ev_par (by simp [h.dx]), ev_par (by simp [h.w]), ev_par (by simp [h.x]), ev_par (by simp [h.o]),
      ev_term _ h.dx, ev_term _ h.w, ev_term _ h.x, ev_pass _ h.o, ev_term _ h.u]
    simp
  have e3 : (D.par (pass d.x) (.par (term d.w) (.par (pass d.x) (.par (term d.o) (term d.u))))).ev a.flat =
      a.dx ++ a.x := by
    unfold Args.flat
    rw [ev_par (by simp [h.dx]), ev_par (by simp [h.w]), ev_par (by simp [h.x]), ev_par (by simp [h.o]),
      ev_pass _ h.dx, ev_term _ h.w, ev_pass _ h.x, ev_term _ h.o, ev_term _ h.u]
    simp
  have e4 : sums d.x (a.dx ++ a.x) = a.dx.zipWith (· + ·) a.x := by
    unfold sums
    rw [List.length_append, h.dx, h.x, show (d.x + d.x) / d.x = 2 by
      rw [← Nat.two_mul, Nat.mul_div_cancel _ h0]]
    refine List.ext_getElem (by simp [h.dx, h.x]) fun i h1 h2 => ?_
    have hi : i < d.x := by simpa using h1
    have hdx := h.dx
    have hx := h.x
    simp only [List.getElem_map, List.getElem_range, List.getElem_zipWith, Finset.sum_range_succ,
      Finset.sum_range_zero, zero_add, Nat.zero_mul, Nat.one_mul, add_zero]
    rw [List.getD_eq_getElem?_getD, List.getD_eq_getElem?_getD, List.getElem?_append_left (by omega),
      List.getElem?_append_right (by omega), h.dx, Nat.add_sub_cancel,
      List.getElem?_eq_getElem (by omega), List.getElem?_eq_getElem (by omega)]
    rfl
  rw [e1, e2, ev_merge, e3, ins_pass, e4, ev_pass _ (by simp [h.dx, h.x])]
  simp

end Dims
end Faust
end Pyphs
