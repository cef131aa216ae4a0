/-
Property C72: the generated Faust programs compute the simulations of Python, every second sample.
-/
import Verif.Faust.Python

namespace Pyphs
namespace Faust
open Scheme Mat Numeric

/-- Numbers of elements of the lists of a method without observers. -/
def dimsOf (m : Meth) : Dims where
  xl := m.g.xl.length
  xnl := m.g.x.length - m.g.xl.length
  wl := m.wl
  wnl := m.w.length - m.wl
  o := 0
  u := m.u.length

/-- Names of the arguments of the generated functions, _faust.py:38-43, 187, without observers. -/
def fnames (m : Meth) : List String := m.g.x.map dn ++ (m.w ++ (m.g.x ++ m.u))

/-- The values of the arguments for given values of the symbols. -/
def argsOf (m : Meth) (e : Env ℝ) : Args ℝ :=
  ⟨(m.g.x.map dn).map e, m.w.map e, m.g.x.map e, [], m.u.map e⟩

/-- _faust.py:24-35 `faust_expr`: the function with the value of an expression for given values of the
arguments. -/
def fexpr (n : Num) (f : Sc) : List ℝ → ℝ := fun l => f (envOf (fnames n.m) n.base l)

/-- The functions of a list of expressions. -/
def fexprs (n : Num) (fs : List Sc) : List (List ℝ → ℝ) := fs.map (fexpr n)

/-- The generated functions have the values of the expressions. -/
theorem fenv {n : Num} (hn : n.WF) (hp : n.p = []) (ho : n.o = []) {e : Env ℝ}
    (hb : ∀ s, s ∉ n.all → e s = n.base s) :
    envOf (fnames n.m) n.base (argsOf n.m e).flat = e := by
  have hflat : (argsOf n.m e).flat = (fnames n.m).map e := by
    simp [argsOf, fnames, Args.flat]
  have hmem : ∀ s, s ∈ fnames n.m ↔ s ∈ n.all := by
    intro s
    simp only [fnames, Num.all, hp, ho, List.append_nil, List.mem_append]
    tauto
  funext s
  by_cases h : s ∈ fnames n.m
  · rw [envOf_mem h (by rw [hflat]; simp), hflat, List.getD_eq_getElem?_getD, List.getElem?_map,
      List.getElem?_eq_getElem (List.idxOf_lt_length_of_mem h)]
    simp
  · rw [envOf_not_mem h, hb s fun h' => h ((hmem s).2 h')]

theorem ap_fexprs {n : Num} (hn : n.WF) (hp : n.p = []) (ho : n.o = []) {e : Env ℝ}
    (hb : ∀ s, s ∉ n.all → e s = n.base s) (fs : List Sc) :
    (argsOf n.m e).ap (fexprs n fs) = fs.map fun f => f e := by
  simp only [Args.ap, fexprs, List.map_map]
  refine List.map_congr_left fun f _ => ?_
  simp only [Function.comp_apply, fexpr]
  rw [fenv hn hp ho hb]

theorem argsOf_fit {m : Meth} (hw : MethWF m) (e : Env ℝ) : (argsOf m e).Fit (dimsOf m) := by
  have h1 := xl_le m
  have h2 := hw.wl
  refine ⟨?_, ?_, ?_, ?_, ?_⟩ <;> simp only [argsOf, dimsOf, Dims.x, Dims.w, List.length_map] <;>
    first | omega | rfl

/-- A list of values from its components. -/
theorem map_eq_vals {V : List String} {e e' : Env ℝ} {fs : List Sc} (hl : fs.length = V.length)
    (h : ∀ i < V.length, e' (V.getD i "") = vals fs e i) : (fs.map fun f => f e) = V.map e' := by
  refine List.ext_getElem (by simp [hl]) fun i h1 h2 => ?_
  have hi : i < V.length := by simpa using h2
  have := h i hi
  rw [List.getD_eq_getElem?_getD, List.getElem?_eq_getElem hi, vals, List.getD_eq_getElem?_getD,
    List.getElem?_eq_getElem (by omega)] at this
  simpa using this.symm

/-- Set the nonlinear unknowns. -/
theorem argsOf_setNL {n : Num} (hn : n.WF) (hw : MethWF n.m) (hs : SplitOK n.m) {e e' : Env ℝ}
    (ho : ∀ s, s ∉ n.m.v .nl → e' s = e s) :
    (argsOf n.m e).setNL (dimsOf n.m) ((n.m.v .nl).map e') = argsOf n.m e' := by
  have hnd := hs.nodup
  have hx := xl_le n.m
  have hwl := hw.wl
  have hout : ∀ s, s ∉ n.m.g.x.map dn → s ∉ n.m.w → e' s = e s := fun s a b =>
    ho s fun h => (mem_v h).elim a b
  have hvl : ∀ s ∈ n.m.v .l, e' s = e s := fun s h => ho s fun h' => hs.ne h' h
  have e1 : (n.m.v .nl).map e' = ((n.m.g.x.drop n.m.g.xl.length).map dn).map e' ++
      (n.m.w.drop n.m.wl).map e' := by
    simp [Meth.v, Sfx.pick]
  have L : (((n.m.g.x.drop n.m.g.xl.length).map dn).map e').length = (dimsOf n.m).xnl := by
    simp [dimsOf]
  unfold Args.setNL argsOf
  simp only [Args.mk.injEq]
  refine ⟨?_, ?_, ?_, trivial, ?_⟩
  · rw [e1, ← L, List.take_left]
    show ((n.m.g.x.map dn).map e).take n.m.g.xl.length ++ _ = _
    conv_rhs => rw [← List.take_append_drop n.m.g.xl.length n.m.g.x]
    rw [List.map_append, List.map_append, ← List.map_take, ← List.map_take]
    congr 1
    refine List.map_congr_left fun s h => (hvl s ?_).symm
    exact List.mem_append_left _ h
  · rw [e1, ← L, List.drop_left]
    show (n.m.w.map e).take n.m.wl ++ _ = _
    conv_rhs => rw [← List.take_append_drop n.m.wl n.m.w]
    rw [List.map_append, ← List.map_take]
    congr 1
    refine List.map_congr_left fun s h => (hvl s ?_).symm
    exact List.mem_append_right _ h
  · refine List.map_congr_left fun s h => (hout s ?_ ?_).symm
    · exact ((disjoint_all hn).1 h).1
    · exact ((disjoint_all hn).1 h).2.1
  · refine List.map_congr_left fun s h => (hout s ?_ ?_).symm
    · exact fun h' => ((disjoint_all hn).2.1 h').2.1 h
    · exact fun h' => ((disjoint_all hn).2.2.1 h').1 h

/-- Set the linear unknowns. -/
theorem argsOf_setL {n : Num} (hn : n.WF) (hw : MethWF n.m) (hs : SplitOK n.m) {e e' : Env ℝ}
    (ho : ∀ s, s ∉ n.m.v .l → e' s = e s) :
    (argsOf n.m e).setL (dimsOf n.m) ((n.m.v .l).map e') = argsOf n.m e' := by
  have hx := xl_le n.m
  have hwl := hw.wl
  have hout : ∀ s, s ∉ n.m.g.x.map dn → s ∉ n.m.w → e' s = e s := fun s a b =>
    ho s fun h => (mem_v h).elim a b
  have hvl : ∀ s ∈ n.m.v .nl, e' s = e s := fun s h => ho s (hs.ne h)
  have e1 : (n.m.v .l).map e' = ((n.m.g.x.take n.m.g.xl.length).map dn).map e' ++
      (n.m.w.take n.m.wl).map e' := by
    simp [Meth.v, Sfx.pick]
  have L : (((n.m.g.x.take n.m.g.xl.length).map dn).map e').length = (dimsOf n.m).xl := by
    simp only [List.length_map, List.length_take, dimsOf]; omega
  unfold Args.setL argsOf
  simp only [Args.mk.injEq]
  refine ⟨?_, ?_, ?_, trivial, ?_⟩
  · rw [e1, ← L, List.take_left]
    rw [L]
    show _ ++ ((n.m.g.x.map dn).map e).drop n.m.g.xl.length = _
    conv_rhs => rw [← List.take_append_drop n.m.g.xl.length n.m.g.x]
    rw [List.map_append, List.map_append, ← List.map_drop, ← List.map_drop]
    congr 1
    refine List.map_congr_left fun s h => (hvl s ?_).symm
    exact List.mem_append_left _ h
  · rw [e1, ← L, List.drop_left]
    show _ ++ (n.m.w.map e).drop n.m.wl = _
    conv_rhs => rw [← List.take_append_drop n.m.wl n.m.w]
    rw [List.map_append, ← List.map_drop]
    congr 1
    refine List.map_congr_left fun s h => (hvl s ?_).symm
    exact List.mem_append_right _ h
  · refine List.map_congr_left fun s h => (hout s ?_ ?_).symm
    · exact ((disjoint_all hn).1 h).1
    · exact ((disjoint_all hn).1 h).2.1
  · refine List.map_congr_left fun s h => (hout s ?_ ?_).symm
    · exact fun h' => ((disjoint_all hn).2.1 h').2.1 h
    · exact fun h' => ((disjoint_all hn).2.2.1 h').1 h

/-- Hypotheses on a method: no parameters and no observers, well-formed, nonsingular. -/
structure FaustOK (n : Num) (udvl udvnl : List Sc) : Prop where
  wf : n.WF
  meth : MethWF n.m
  split : SplitOK n.m
  nons : Nonsing n.m
  solves : Solves n.m udvl udvnl
  p : n.p = []
  o : n.o = []

/-- The nonlinear solver of Python has nothing to solve, makes all its iterations, or has found the solution. -/
def Ended (n : Num) (st : St Nm ℝ) : Prop :=
  n.nl = 0 ∨ n.eps < 0 ∨ st.vals .res_Fnl = some (.s 0)

theorem dims_vl {m : Meth} (hw : MethWF m) : (m.v .l).length = (dimsOf m).vl := by
  have hx := xl_le m
  have hwl := hw.wl
  simp only [Meth.v, Sfx.pick, List.length_append, List.length_map, List.length_take, dimsOf, Dims.vl]
  omega

theorem dims_vnl {m : Meth} : (m.v .nl).length = (dimsOf m).vnl := by
  simp only [Meth.v, Sfx.pick, List.length_append, List.length_map, List.length_drop, dimsOf, Dims.vnl]

/-- The state and inputs at the start of a call of `update`. -/
def nextArgs (a : Args ℝ) (u : List ℝ) : Args ℝ := ⟨a.dx, a.w, a.dx.zipWith (· + ·) a.x, a.o, u⟩

/-- One call of `update` of Python computes what an iteration of the Faust program has to compute. -/
theorem update_solve {n : Num} {udvl udvnl : List Sc} (h : FaustOK n udvl udvnl) {u : List ℝ}
    (hu : u.length = n.m.u.length) {st st' : St Nm ℝ} (hl : st.args.length = n.all.length)
    (hup : n.update (some u) (some []) st = some st') (he : Ended n st') :
    argsOf n.m (n.E st') = Args.solve (dimsOf n.m) n.maxit (fexprs n udvl) (fexprs n udvnl)
      (nextArgs (argsOf n.m (n.E st)) u) ∧
    st'.vals .y = some (.v (n.m.out (n.E st'))) ∧ st'.args.length = n.all.length := by
  obtain ⟨E0, x0, u0, o0, hs, hb, hvl, hfo, hy, hl'⟩ := update_parts h.wf h.meth h.split h.nons h.solves h.p
    h.o hu he hl hup
  refine ⟨?_, hy, hl'⟩
  have a0 : argsOf n.m (E0 0) = nextArgs (argsOf n.m (n.E st)) u := by
    unfold argsOf nextArgs
    simp only [Args.mk.injEq]
    refine ⟨?_, ?_, ?_, trivial, u0⟩
    · refine List.map_congr_left fun s hsm => o0 s ?_ ?_
      · exact fun hx => ((disjoint_all h.wf).1 hx).1 hsm
      · exact ((disjoint_all h.wf).2.1 hsm).2.1
    · refine List.map_congr_left fun s hsm => o0 s ?_ ?_
      · exact fun hx => ((disjoint_all h.wf).1 hx).2.1 hsm
      · exact ((disjoint_all h.wf).2.2.1 hsm).1
    · rw [List.map_map, map_zip_self]
      refine List.map_congr_left fun s hsm => ?_
      rw [x0 s hsm, Function.comp_apply, add_comm]
  set k := (if n.nl = 0 then 0 else n.maxit) with hk
  have hnl : n.nl = (dimsOf n.m).vnl := dims_vnl
  have hlv : n.l = (dimsOf n.m).vl := dims_vl h.meth
  -- the iterations
  have step : ∀ j < k, argsOf n.m (E0 (j + 1)) = (argsOf n.m (E0 j)).setNL (dimsOf n.m)
      ((argsOf n.m (E0 j)).ap (fexprs n udvnl)) := by
    intro j hj
    obtain ⟨s1, s2⟩ := hs j hj
    rw [ap_fexprs h.wf h.p h.o (hb j), map_eq_vals h.solves.vnl s1, argsOf_setNL h.wf h.meth h.split s2]
  have newt : ∀ j i, i + j ≤ k → argsOf n.m (E0 (i + j)) =
      Args.newton (dimsOf n.m) (fexprs n udvnl) j (argsOf n.m (E0 i)) := by
    intro j
    induction j with
    | zero => intro i _; rfl
    | succ j ih =>
      intro i hi
      rw [show i + (j + 1) = i + 1 + j by omega, ih (i + 1) (by omega), step i (by omega)]
      rfl
  have hb' : argsOf n.m (E0 k) = if 0 < (dimsOf n.m).vnl then
      Args.newton (dimsOf n.m) (fexprs n udvnl) n.maxit (argsOf n.m (E0 0)) else argsOf n.m (E0 0) := by
    by_cases h0 : n.nl = 0
    · rw [if_neg (by omega)]
      have : k = 0 := by rw [hk, if_pos h0]
      rw [this]
    · rw [if_pos (by omega)]
      have : k = n.maxit := by rw [hk, if_neg h0]
      rw [← this]
      have := newt k 0 (by omega)
      rwa [Nat.zero_add] at this
  unfold Args.solve
  rw [← a0, ← hb']
  simp only
  have hlast : argsOf n.m (n.E st') = (argsOf n.m (E0 k)).setL (dimsOf n.m)
      ((argsOf n.m (E0 k)).ap (fexprs n udvl)) := by
    rw [ap_fexprs h.wf h.p h.o (hb k), map_eq_vals h.solves.vl hvl, argsOf_setL h.wf h.meth h.split hfo]
  split_ifs with h1
  · exact hlast
  · have hv : n.m.v .l = [] := List.eq_nil_of_length_eq_zero (by
      rw [dims_vl h.meth]; omega)
    have : n.E st' = E0 k := funext fun s => hfo s (by rw [hv]; simp)
    rw [this]

/-- The specified simulation is that of Python. -/
theorem sim_python {n : Num} {udvl udvnl : List Sc} (h : FaustOK n udvl udvnl) {us : ℕ → List ℝ}
    (hu : ∀ t, (us t).length = n.m.u.length) {st : ℕ → St Nm ℝ} (hl : (st 0).args.length = n.all.length)
    (hup : ∀ t, n.update (some (us t)) (some []) (st t) = some (st (t + 1)))
    (he : ∀ t, Ended n (st (t + 1))) {a : Args ℝ}
    (ha : ∀ u, nextArgs (argsOf n.m (n.E (st 0))) u = { a with u := u }) (t : ℕ) :
    sim (Args.solve (dimsOf n.m) n.maxit (fexprs n udvl) (fexprs n udvnl)) a us t =
      argsOf n.m (n.E (st (t + 1))) ∧
    (st (t + 1)).vals .y = some (.v (n.m.out (n.E (st (t + 1))))) ∧
    (st (t + 1)).args.length = n.all.length := by
  induction t with
  | zero =>
    obtain ⟨h1, h2, h3⟩ := update_solve h (hu 0) hl (hup 0) (he 0)
    refine ⟨?_, h2, h3⟩
    rw [h1, ha]
    rfl
  | succ t ih =>
    obtain ⟨i1, -, i3⟩ := ih
    obtain ⟨h1, h2, h3⟩ := update_solve h (hu (t + 1)) i3 (hup (t + 1)) (he (t + 1))
    refine ⟨?_, h2, h3⟩
    rw [h1, ← i1]
    rfl

/-- _faust.py:169-175, 277: the expressions of the selected outputs. -/
noncomputable def outExprs (m : Meth) (iout : List ℕ) : List Sc := iout.map fun i e => (m.out e).getD i 0

/-- Outputs of the method that are selected, at the end of a call of `update`. -/
noncomputable def pyOut (st : St Nm ℝ) (iout : List ℕ) : Option (List ℝ) :=
  match st.vals .y with
  | some (.v l) => some (iout.map fun i => l.getD i 0)
  | _ => none

/-- Initial values that are equal to the state of a `Numeric` of Python before its first call of `update`
(which adds the increment to the state). -/
def startArgs (m : Meth) (e : Env ℝ) : Args ℝ :=
  ⟨(m.g.x.map dn).map e, m.w.map e, m.g.x.map fun s => e (dn s) + e s, [], []⟩

/-- **C72**: when there are no nonlinear states or no linear dissipations, for every input signal, the even
samples of the generated Faust program are exactly the outputs of the Python simulation of the even samples
of the inputs, started with the same initial values; its odd samples are those of the Python simulation of
the odd samples of the inputs, started from zero. The initial values of the inputs are not used. (The solver of Python makes all its iterations, or ends with the
residual zero.) -/
theorem C72_python {n : Num} {udvl udvnl : List Sc} (h : FaustOK n udvl udvnl)
    (hd : (dimsOf n.m).xnl = 0 ∨ (dimsOf n.m).wl = 0) (hx : 0 < n.m.g.x.length) {iout : List ℕ}
    (hi : 0 < iout.length) {us : ℕ → List ℝ} (hu : ∀ t, (us t).length = n.m.u.length)
    {st zt : ℕ → St Nm ℝ} (hl : (st 0).args.length = n.all.length)
    (hup : ∀ t, n.update (some (us (2 * t))) (some []) (st t) = some (st (t + 1)))
    (he : ∀ t, Ended n (st (t + 1)))
    (hz : (zt 0).args = List.replicate n.all.length 0)
    (hzp : ∀ t, n.update (some (us (2 * t + 1))) (some []) (zt t) = some (zt (t + 1)))
    (hze : ∀ t, Ended n (zt (t + 1))) (u0 : List ℝ) (t : ℕ) :
    let a := startArgs n.m (n.E (st 0))
    let prog := (dimsOf n.m).recursion n.maxit (fexprs n udvl) (fexprs n udvnl)
      (fexprs n (outExprs n.m iout)) ((dimsOf n.m).initials a.dx a.w a.x u0)
    pyOut (st (t + 1)) iout = some (prog.out us (2 * t)) ∧
    pyOut (zt (t + 1)) iout = some (prog.out us (2 * t + 1)) := by
  intro a prog
  have hxl := xl_le n.m
  have hwl := h.meth.wl
  have dx' : (dimsOf n.m).x = n.m.g.x.length := by simp only [dimsOf, Dims.x]; omega
  have dw' : (dimsOf n.m).w = n.m.w.length := by simp only [dimsOf, Dims.w]; omega
  have hin : (dimsOf n.m).initials a.dx a.w a.x u0 = a.dx ++ (a.w ++ (a.x ++ a.o)) := by
    have e1 : a.dx.length = (dimsOf n.m).x := by simp [a, startArgs, dx']
    have e2 : a.w.length = (dimsOf n.m).w := by simp [a, startArgs, dw']
    have e3 : a.x.length = (dimsOf n.m).x := by simp [a, startArgs, dx']
    have e4 : (dimsOf n.m).nin = (a.dx ++ (a.w ++ a.x)).length := by
      simp only [Dims.nin, List.length_append, e1, e2, e3, show (dimsOf n.m).o = 0 from rfl]; omega
    unfold Dims.initials
    rw [show a.dx ++ (a.w ++ (a.x ++ u0)) = (a.dx ++ (a.w ++ a.x)) ++ u0 by simp, e4,
      List.take_left', show a.o = [] from rfl]
    · simp
    · rfl
  simp only [prog, hin]
  have hF : Fits (dimsOf n.m) (fexprs n udvl) (fexprs n udvnl) (fexprs n (outExprs n.m iout)) := by
    refine ⟨?_, ?_, by rw [dx']; exact hx, ?_⟩
    · rw [fexprs, List.length_map, h.solves.vl, dims_vl h.meth]
    · rw [fexprs, List.length_map, h.solves.vnl, dims_vnl]
    · simpa [fexprs, outExprs] using hi
  obtain ⟨r1, r2⟩ := C72_interleaved (n := n.maxit) hd hF (a := a) (by simp [a, startArgs, dx'])
    (by simp [a, startArgs, dw']) (by simp [a, startArgs, dx']) (by simp [a, startArgs, dimsOf])
    (us := us) (fun t => by rw [hu t]; rfl) t
  have base : ∀ s : St Nm ℝ, ∀ k, k ∉ n.all → n.E s k = n.base k := fun s k hk => envOf_not_mem hk
  have fin : ∀ (s : St Nm ℝ), s.vals .y = some (.v (n.m.out (n.E s))) →
      pyOut s iout = some ((argsOf n.m (n.E s)).ap (fexprs n (outExprs n.m iout))) := by
    intro s hsy
    rw [ap_fexprs h.wf h.p h.o (base s), pyOut, hsy]
    simp [outExprs]
  have hz0 : ∀ s ∈ n.all, n.E (zt 0) s = 0 := by
    intro s hsa
    rw [Num.E, Num.env, hz, envOf_mem hsa (by simp), List.getD_eq_getElem?_getD,
      List.getElem?_eq_getElem (by simpa using List.idxOf_lt_length_of_mem hsa)]
    simp
  obtain ⟨s1, s2, -⟩ := sim_python h (us := fun k => us (2 * k)) (fun t => hu _) hl hup he (a := a) (fun u => by
    simp only [nextArgs, argsOf, a, startArgs, List.map_map, map_zip_self]
    rfl) t
  obtain ⟨z1, z2, -⟩ := sim_python h (us := fun k => us (2 * k + 1)) (fun t => hu _) (by simp [hz]) hzp hze
    (a := .zero (dimsOf n.m)) (fun u => by
      have e1 : (n.m.g.x.map dn).map (n.E (zt 0)) = List.replicate n.m.g.x.length 0 := by
        rw [List.eq_replicate_iff]
        refine ⟨by simp, fun b hb => ?_⟩
        obtain ⟨s, hs1, rfl⟩ := List.mem_map.1 hb
        exact hz0 s ((Numeric.sub_dx n).subset hs1)
      have e2 : n.m.w.map (n.E (zt 0)) = List.replicate n.m.w.length 0 := by
        rw [List.eq_replicate_iff]
        refine ⟨by simp, fun b hb => ?_⟩
        obtain ⟨s, hs1, rfl⟩ := List.mem_map.1 hb
        refine hz0 s ?_
        simp [Num.all, hs1]
      have e3 : n.m.g.x.map (n.E (zt 0)) = List.replicate n.m.g.x.length 0 := by
        rw [List.eq_replicate_iff]
        refine ⟨by simp, fun b hb => ?_⟩
        obtain ⟨s, hs1, rfl⟩ := List.mem_map.1 hb
        exact hz0 s ((Numeric.sub_x n).subset hs1)
      have d0 : (dimsOf n.m).o = 0 := rfl
      simp only [nextArgs, argsOf, Args.zero, e1, e2, e3, dx', dw', d0, List.zipWith_replicate]
      simp) t
  refine ⟨?_, ?_⟩
  · rw [fin _ s2, ← s1]
    exact congrArg some r1.symm
  · rw [fin _ z2, ← z1]
    exact congrArg some r2.symm

end Faust
end Pyphs
