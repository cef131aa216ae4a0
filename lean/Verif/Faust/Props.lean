/-
Property C72: the generated Faust programs.
-/
import Verif.Faust.Iter
import Mathlib.Algebra.Field.Rat
import Mathlib.Tactic.NormNum

namespace Pyphs
namespace Faust
open D
variable {K : Type} [AddCommMonoid K]

/-- The lists of expressions have the lengths of the method; there are states and outputs. -/
structure Fits (d : Dims) (udvl udvnl y : List (List K → K)) : Prop where
  vl : udvl.length = d.vl
  vnl : udvnl.length = d.vnl
  x : 0 < d.x
  y : 0 < y.length

theorem Args.flat_eq (a : Args K) : a.flat = (a.dx ++ a.w) ++ (a.x ++ (a.o ++ a.u)) := by
  simp [Args.flat]

/-- `vnl` is where `iterationL` takes it when `xnl` or `wl` is empty. -/
theorem recombine_L {d : Dims} {a : Args K} (h : a.Fit d) (hd : d.xnl = 0 ∨ d.wl = 0) {r : List K} :
    d.recombine r ((a.dx ++ a.w).drop d.vl) = (a.setL d r).dx ++ (a.setL d r).w := by
  have hdx := h.dx
  have hw := h.w
  simp only [Dims.x, Dims.w] at hdx hw
  unfold Dims.recombine Args.setL
  rcases hd with h0 | h0
  · have e1 : a.dx.drop d.xl = [] := List.drop_eq_nil_of_le (by omega)
    have e2 : (a.dx ++ a.w).drop d.vl = a.w.drop d.wl := by
      rw [List.drop_append, Dims.vl, List.drop_eq_nil_of_le (by omega)]
      simp only [List.nil_append]
      congr 1; omega
    rw [e2, h0]
    simp only [e1]
    simp
  · have e2 : (a.dx ++ a.w).drop d.vl = a.dx.drop d.xl ++ a.w := by
      rw [Dims.vl, h0, add_zero, List.drop_append_of_le_length (by omega)]
    have e3 : (a.dx.drop d.xl).length = d.xnl := by rw [List.length_drop]; omega
    rw [e2, h0, ← e3, List.take_left, List.drop_left]
    simp

/-- `vl` is where `iterationNL` takes it when `xnl` or `wl` is empty. -/
theorem recombine_NL {d : Dims} {a : Args K} (h : a.Fit d) (hd : d.xnl = 0 ∨ d.wl = 0) {r : List K} :
    d.recombine ((a.dx ++ a.w).take d.vl) r = (a.setNL d r).dx ++ (a.setNL d r).w := by
  have hdx := h.dx
  have hw := h.w
  simp only [Dims.x, Dims.w] at hdx hw
  unfold Dims.recombine Args.setNL
  rcases hd with h0 | h0
  · have e1 : a.dx.take d.xl = a.dx := List.take_of_length_le (by omega)
    have e2 : (a.dx ++ a.w).take d.vl = a.dx ++ a.w.take d.wl := by
      rw [List.take_append, Dims.vl, List.take_of_length_le (by omega)]
      congr 2; omega
    have e3 : a.dx.length = d.xl := by omega
    rw [e2, h0, ← e3, List.take_left, List.drop_left]
    simp
  · have e2 : (a.dx ++ a.w).take d.vl = a.dx.take d.xl := by
      rw [Dims.vl, h0, add_zero, List.take_append_of_le_length (by omega)]
    rw [e2, h0, List.take_take, List.drop_eq_nil_of_le (by simp)]
    simp

theorem iterationL_fit {d : Dims} {a : Args K} (h : a.Fit d) (hd : d.xnl = 0 ∨ d.wl = 0)
    {udvl : List (List K → K)} (hf : udvl.length = d.vl) (h0 : 0 < d.vl) :
    (d.iterationL udvl).ev a.flat = (a.setL d (a.ap udvl)).flat := by
  conv_lhs => rw [a.flat_eq]
  rw [Dims.iterationL_ev hf h0 (by simp [h.dx, h.w, Dims.v]) (by simp [h.x, h.o, h.u]), recombine_L h hd,
    Args.flat_eq (a.setL _ _), ← a.flat_eq]
  rfl

theorem iterationNL_fit {d : Dims} {a : Args K} (h : a.Fit d) (hd : d.xnl = 0 ∨ d.wl = 0)
    {udvnl : List (List K → K)} (hf : udvnl.length = d.vnl) (h0 : 0 < d.vnl) :
    (d.iterationNL udvnl).ev a.flat = (a.setNL d (a.ap udvnl)).flat := by
  conv_lhs => rw [a.flat_eq]
  rw [Dims.iterationNL_ev hf h0 (by simp [h.dx, h.w, Dims.v]) (by simp [h.x, h.o, h.u]), recombine_NL h hd,
    Args.flat_eq (a.setNL _ _), ← a.flat_eq]
  rfl

theorem Args.Fit.newton {d : Dims} {udvnl : List (List K → K)} (hf : udvnl.length = d.vnl) :
    ∀ (n : ℕ) {a : Args K}, a.Fit d → (Args.newton d udvnl n a).Fit d
  | 0, _, h => h
  | n + 1, a, h => Args.Fit.newton hf n (h.setNL (by rw [Args.length_ap, hf]))

theorem Args.Fit.solve {d : Dims} {udvl udvnl : List (List K → K)} (hl : udvl.length = d.vl)
    (hf : udvnl.length = d.vnl) (n : ℕ) {a : Args K} (h : a.Fit d) : (a.solve d n udvl udvnl).Fit d := by
  unfold Args.solve
  have hb : (if 0 < d.vnl then Args.newton d udvnl n a else a).Fit d := by
    split_ifs
    · exact h.newton hf n
    · exact h
  simp only
  split_ifs with h1 h2
  · exact (h.newton hf n).setL (by rw [Args.length_ap, hl])
  · exact h.setL (by rw [Args.length_ap, hl])
  · exact h.newton hf n
  · exact h

theorem newton_ev {d : Dims} (hd : d.xnl = 0 ∨ d.wl = 0) {udvnl : List (List K → K)}
    (hf : udvnl.length = d.vnl) (h0 : 0 < d.vnl) (last : D K) : ∀ (n : ℕ) {a : Args K}, a.Fit d →
    ((List.replicate n (d.iterationNL udvnl)).foldr D.seq last).ev a.flat =
      last.ev (Args.newton d udvnl n a).flat
  | 0, a, _ => rfl
  | n + 1, a, h => by
    rw [List.replicate_succ, List.foldr_cons, Dims.ev_seq, iterationNL_fit h hd hf h0]
    exact newton_ev hd hf h0 last n (h.setNL (by rw [Args.length_ap, hf]))

theorem solve_ev {d : Dims} (hd : d.xnl = 0 ∨ d.wl = 0) {udvl udvnl : List (List K → K)}
    (hl : udvl.length = d.vl) (hf : udvnl.length = d.vnl) (n : ℕ) {a : Args K} (h : a.Fit d) :
    (d.solve n udvl udvnl).ev a.flat = (a.solve d n udvl udvnl).flat := by
  have key : ∀ b : Args K, b.Fit d → (if 0 < d.vl then d.iterationL udvl else d.args).ev b.flat =
      (if 0 < d.vl then b.setL d (b.ap udvl) else b).flat := by
    intro b hb
    split_ifs with h1
    · exact iterationL_fit hb hd hl h1
    · exact Dims.args_id _ _ (by rw [Dims.args_ins, hb.flat])
  unfold Dims.solve Args.solve
  simp only
  by_cases h2 : 0 < d.vnl
  · rw [if_pos h2, if_pos h2, newton_ev hd hf h2 _ n h, key _ (h.newton hf n)]
  · rw [if_neg h2, if_neg h2, key a h]

/-- The connections of a diagram are accepted and it has the given numbers of inputs and outputs. -/
structure Typed (s : D K) (i o : ℕ) : Prop where
  ok : s.ok
  ins : s.ins = i
  outs : s.outs = o

theorem args_typed (d : Dims) : Typed (d.args : D K) d.all d.all := ⟨d.args_ok, d.args_ins, d.args_outs⟩

theorem iterationL_typed {d : Dims} {udvl : List (List K → K)} (hf : udvl.length = d.vl) (h0 : 0 < d.vl) :
    Typed (d.iterationL udvl) d.all d.all := by
  have hv0 : 0 < d.v := by rw [← d.vl_vnl]; omega
  have ha0 : 0 < d.all := by rw [Dims.all_eq]; omega
  have hin : D.ins (.par (d.vector udvl) (.par (term d.vl) (.par (pass d.vnl) d.c))) = 2 * d.all := by
    simp only [D.ins, ins_pass, ins_term, Dims.vector_ins _ _ (by omega : 0 < udvl.length), Dims.c_ins,
      Dims.all_eq, ← d.vl_vnl]; omega
  refine ⟨?_, d.args_ins, d.args_outs⟩
  refine ⟨⟨⟨d.args_ok, ⟨d.vector_ok ha0 _, by simp [D.ok, d.c_ok]⟩, ?_, ?_⟩, ⟨d.vlvnl2v_ok hv0, d.c_ok⟩, ?_⟩,
    d.args_ok, ?_⟩
  · rw [d.args_outs]; exact ha0
  · rw [d.args_outs, hin]; exact Dvd.intro_left 2 rfl
  · simp only [D.outs, D.ins, outs_pass, outs_term, d.vector_outs, d.c_outs, d.c_ins, d.vlvnl2v_ins, hf,
      ← d.vl_vnl]; omega
  · simp only [D.outs, d.vlvnl2v_outs, d.c_outs, d.args_ins, Dims.all_eq]

theorem iterationNL_typed {d : Dims} {udvnl : List (List K → K)} (hf : udvnl.length = d.vnl)
    (h0 : 0 < d.vnl) : Typed (d.iterationNL udvnl) d.all d.all := by
  have hv0 : 0 < d.v := by rw [← d.vl_vnl]; omega
  have ha0 : 0 < d.all := by rw [Dims.all_eq]; omega
  have hin : D.ins (.par (.par (pass d.vl) (.par (term d.vnl) d.cT))
      (.par (d.vector udvnl) (.par (term d.v) d.c))) = 3 * d.all := by
    simp only [D.ins, ins_pass, ins_term, Dims.vector_ins _ _ (by omega : 0 < udvnl.length), Dims.c_ins,
      Dims.cT_ins, Dims.all_eq, ← d.vl_vnl]; omega
  refine ⟨?_, d.args_ins, d.args_outs⟩
  refine ⟨⟨⟨d.args_ok, ⟨by simp [D.ok, d.cT_ok], d.vector_ok ha0 _, by simp [D.ok, d.c_ok]⟩, ?_, ?_⟩,
    ⟨d.vlvnl2v_ok hv0, d.c_ok⟩, ?_⟩, d.args_ok, ?_⟩
  · rw [d.args_outs]; exact ha0
  · rw [d.args_outs, hin]; exact Dvd.intro_left 3 rfl
  · simp only [D.outs, D.ins, outs_pass, outs_term, d.vector_outs, d.c_outs, d.cT_outs, d.c_ins,
      d.vlvnl2v_ins, hf, ← d.vl_vnl]; omega
  · simp only [D.outs, d.vlvnl2v_outs, d.c_outs, d.args_ins, Dims.all_eq]

theorem solve_typed {d : Dims} (n : ℕ) {udvl udvnl : List (List K → K)}
    (hl : udvl.length = d.vl) (hf : udvnl.length = d.vnl) :
    Typed (d.solve n udvl udvnl) d.all d.all := by
  have h1 : Typed (if 0 < d.vl then d.iterationL udvl else d.args) d.all d.all := by
    split_ifs with h
    · exact iterationL_typed hl h
    · exact args_typed d
  unfold Dims.solve
  simp only
  by_cases h2 : 0 < d.vnl
  · rw [if_pos h2]
    induction n with
    | zero => exact h1
    | succ n ih =>
      rw [List.replicate_succ, List.foldr_cons]
      have h3 := iterationNL_typed hf h2
      exact ⟨⟨h3.ok, ih.ok, by rw [h3.outs, ih.ins]⟩, h3.ins, ih.outs⟩
  · rw [if_neg h2]; exact h1

theorem udx_typed {d : Dims} (h0 : 0 < d.x) : Typed (d.udx : D K) d.all d.nin := by
  have ha0 : 0 < d.all := by simp only [Dims.all]; omega
  have hin : D.ins (.par (.par (pass d.x) (.par (pass d.w) d.cT))
    (.par (.merge (.par (pass d.x) (.par (term d.w) (.par (pass d.x) (.par (term d.o) (term d.u)))))
        (pass d.x))
      (.par (term d.x) (.par (term d.w) (.par (term d.x) (.par (pass d.o) (term d.u)))))) : D K) =
      3 * d.all := by
    simp only [D.ins, ins_pass, ins_term, Dims.cT_ins, Dims.all]; omega
  refine ⟨⟨d.args_ok, ⟨by simp [D.ok, d.cT_ok], ⟨by simp [D.ok], by simp, ?_, ?_⟩, by simp [D.ok]⟩, ?_, ?_⟩,
    d.args_ins, ?_⟩
  · rw [ins_pass]; exact h0
  · simp [D.outs]
  · rw [d.args_outs]; exact ha0
  · rw [d.args_outs, hin]; exact Dvd.intro_left 3 rfl
  · simp only [Dims.udx, D.outs, outs_pass, outs_term, d.cT_outs, Dims.nin]; omega

theorem iteration_typed {d : Dims} (n : ℕ) {udvl udvnl y : List (List K → K)} (hF : Fits d udvl udvnl y) :
    Typed (d.iteration n udvl udvnl y) d.all (d.nin + y.length) := by
  have ha0 : 0 < d.all := by have := hF.x; simp only [Dims.all]; omega
  have hs := solve_typed n hF.vl hF.vnl
  unfold Dims.iteration
  rw [if_pos hF.x]
  have hu := udx_typed (K := K) hF.x
  refine ⟨⟨hs.ok, ⟨hu.ok, d.vector_ok ha0 _⟩, ?_, ?_⟩, hs.ins, ?_⟩
  · rw [hs.outs]; exact ha0
  · simp only [D.ins]
    rw [hs.outs, hu.ins, d.vector_ins _ hF.y]
    exact ⟨2, by omega⟩
  · simp only [D.outs]
    rw [hu.outs, d.vector_outs]

theorem recursive_typed (ny : ℕ) : ∀ (inits : List K) (s : D K) (i : ℕ),
    Typed s (inits.length + i) (inits.length + ny) → Typed (Dims.recursive ny inits s) i ny
  | [], s, i, h => by simpa [Dims.recursive] using h
  | c :: rest, s, i, h => by
    refine recursive_typed ny rest _ i ?_
    have e1 : (c :: rest).length = rest.length + 1 := rfl
    refine ⟨⟨⟨h.ok, trivial, ?_, ?_⟩, tail_ok _, ?_, ?_⟩, ?_, ?_⟩
    · rw [h.outs, e1]; simp only [D.ins]; omega
    · rw [h.ins, e1]; simp only [D.outs]; omega
    · simp only [D.outs, h.outs, e1]; omega
    · simp only [D.outs, h.outs, e1, tail_ins]
      rw [show rest.length + 1 + ny = rest.length + ny + 1 by omega]
    · simp only [D.ins, D.outs, h.ins, e1]; omega
    · simp only [D.outs, tail_outs]

theorem vector_pure' {d : Dims} (fs : List (List K → K)) : (d.vector fs).Pure := d.vector_pure fs

theorem iteration_pure (d : Dims) (n : ℕ) (udvl udvnl y : List (List K → K)) :
    (d.iteration n udvl udvnl y).Pure := by
  have hL : (d.iterationL udvl).Pure := by
    simp [Dims.iterationL, D.Pure, d.args_pure, d.vector_pure, d.c_pure, d.vlvnl2v_pure]
  have hN : (d.iterationNL udvnl).Pure := by
    simp [Dims.iterationNL, D.Pure, d.args_pure, d.vector_pure, d.c_pure, d.cT_pure, d.vlvnl2v_pure]
  have h1 : (if 0 < d.vl then d.iterationL udvl else d.args).Pure := by
    split_ifs
    · exact hL
    · exact d.args_pure
  have h2 : (d.solve n udvl udvnl).Pure := by
    unfold Dims.solve
    simp only
    by_cases h : 0 < d.vnl
    · rw [if_pos h]
      induction n with
      | zero => exact h1
      | succ n ih =>
        rw [List.replicate_succ, List.foldr_cons]
        exact ⟨hN, ih⟩
    · rw [if_neg h]; exact h1
  have h3 : (d.udx : D K).Pure := by
    simp [Dims.udx, D.Pure, d.args_pure, d.cT_pure]
  refine ⟨h2, ?_⟩
  split_ifs
  · exact ⟨h3, d.vector_pure y⟩
  · exact d.vector_pure y

/-- One sample of `iteration`. -/
theorem iteration_ev {d : Dims} (hd : d.xnl = 0 ∨ d.wl = 0) {n : ℕ} {udvl udvnl y : List (List K → K)}
    (hF : Fits d udvl udvnl y) {a : Args K} (h : a.Fit d) :
    (d.iteration n udvl udvnl y).ev a.flat =
      (a.solve d n udvl udvnl).memo ++ (a.solve d n udvl udvnl).ap y := by
  have ha0 : 0 < d.all := by have := hF.x; simp only [Dims.all]; omega
  have hs := solve_typed n hF.vl hF.vnl
  have hu := udx_typed (K := K) hF.x
  have hb := h.solve hF.vl hF.vnl n
  unfold Dims.iteration
  rw [if_pos hF.x, Dims.ev_split, solve_ev hd hF.vl hF.vnl n h, hs.outs]
  have : (D.par d.udx (d.vector y)).ins = 2 * d.all := by
    simp only [D.ins, hu.ins, d.vector_ins _ hF.y]; omega
  rw [this, Nat.mul_div_cancel _ ha0, copies_two, ev_par (by rw [hu.ins, hb.flat]),
    Dims.udx_ev hb hF.x, d.vector_ev ha0 _ hb.flat]
  rfl

/-- Lengths of the outputs of diagrams. -/
theorem iteration_length {d : Dims} {n : ℕ} {udvl udvnl y : List (List K → K)} (hd : d.xnl = 0 ∨ d.wl = 0)
    (hF : Fits d udvl udvnl y) (l : List K) (hl : l.length = d.all) :
    ((d.iteration n udvl udvnl y).ev l).length = d.nin + y.length := by
  set a : Args K := ⟨l.take d.x, (l.drop d.x).take d.w, ((l.drop d.x).drop d.w).take d.x,
    (((l.drop d.x).drop d.w).drop d.x).take d.o, (((l.drop d.x).drop d.w).drop d.x).drop d.o⟩ with ha
  have hfl : a.flat = l := by simp [ha, Args.flat]
  have hfit : a.Fit d := by
    simp only [Dims.all] at hl
    refine ⟨?_, ?_, ?_, ?_, ?_⟩ <;>
      simp only [ha, List.length_take, List.length_drop, hl] <;> omega
  rw [← hfl, iteration_ev hd hF hfit]
  have hb := hfit.solve hF.vl hF.vnl n
  simp only [Args.memo, List.length_append, List.length_zipWith, hb.dx, hb.w, hb.x, hb.o, Args.length_ap,
    Dims.nin]
  omega

/-- **Specification.** The simulation that is to be computed, with one update per sample: `sim t` are the
values of the arguments at the end of sample `t`. At the start of a sample, the increment of the state at the
previous sample is added to the state. -/
def sim (solve : Args K → Args K) (a₀ : Args K) (us : ℕ → List K) : ℕ → Args K
  | 0 => solve { a₀ with u := us 0 }
  | t + 1 =>
    let b := sim solve a₀ us t
    solve ⟨b.dx, b.w, b.dx.zipWith (· + ·) b.x, b.o, us (t + 1)⟩

/-- Arguments with the value zero. -/
def Args.zero (d : Dims) : Args K :=
  ⟨List.replicate d.x 0, List.replicate d.w 0, List.replicate d.x 0, List.replicate d.o 0, []⟩

/-- The memorised values in nested recursions come back after two samples. -/
theorem two_delays {Φ : List K → List K} {nin nout k : ℕ} {s : D K} {p₀ : List K}
    {R : Mem K → List K → List K → Prop} (hS : Sim Φ nin nout k s p₀ R) {us : ℕ → List K}
    (hu : ∀ t, (us t).length = nin - k) :
    ∃ P : ℕ → List K, P 0 = p₀ ∧ P 1 = List.replicate k 0 ∧
      (∀ t, P (t + 2) = (Φ (P t ++ us t)).take k) ∧ ∀ t, s.out us t = (Φ (P t ++ us t)).drop k := by
  set Q : ℕ → List K × List K := fun t => Nat.rec (p₀, List.replicate k 0)
    (fun t pq => (pq.2, (Φ (pq.1 ++ us t)).take k)) t with hQ
  have hR : ∀ t, R (s.mem us t) (Q t).1 (Q t).2 := by
    intro t
    induction t with
    | zero => exact hS.start
    | succ t ih => exact hS.next _ _ _ _ ih (hu t)
  exact ⟨fun t => (Q t).1, rfl, rfl, fun t => rfl, fun t => hS.out _ _ _ _ (hR t) (hu t)⟩

/-- Every second sample of the memorised values is a simulation. -/
theorem half {d : Dims} (hd : d.xnl = 0 ∨ d.wl = 0) {n : ℕ} {udvl udvnl y : List (List K → K)}
    (hF : Fits d udvl udvnl y) {us : ℕ → List K} (hu : ∀ t, (us t).length = d.u) {P : ℕ → List K}
    (h2 : ∀ t, P (t + 2) = ((d.iteration n udvl udvnl y).ev (P t ++ us t)).take d.nin) (i : ℕ)
    {a : Args K} (ha : ∀ u : List K, u.length = d.u → ({ a with u := u } : Args K).Fit d)
    (h0 : P i = a.dx ++ (a.w ++ (a.x ++ a.o))) (t : ℕ) :
    (sim (Args.solve d n udvl udvnl) a (fun k => us (2 * k + i)) t).Fit d ∧
    (d.iteration n udvl udvnl y).ev (P (2 * t + i) ++ us (2 * t + i)) =
      (sim (Args.solve d n udvl udvnl) a (fun k => us (2 * k + i)) t).memo ++
      (sim (Args.solve d n udvl udvnl) a (fun k => us (2 * k + i)) t).ap y := by
  induction t with
  | zero =>
    have hf := ha (us i) (hu i)
    refine ⟨?_, ?_⟩
    · simp only [sim, Nat.mul_zero, Nat.zero_add]
      exact hf.solve hF.vl hF.vnl n
    · simp only [sim, Nat.mul_zero, Nat.zero_add]
      rw [h0, ← iteration_ev hd hF hf]
      simp [Args.flat]
  | succ t ih =>
    obtain ⟨hf, ih⟩ := ih
    set b := sim (Args.solve d n udvl udvnl) a (fun k => us (2 * k + i)) t with hb
    have hm : b.memo.length = d.nin := by
      simp only [Args.memo, List.length_append, List.length_zipWith, hf.dx, hf.w, hf.x, hf.o, Dims.nin]
      omega
    have hP : P (2 * (t + 1) + i) = b.memo := by
      rw [show 2 * (t + 1) + i = 2 * t + i + 2 by omega, h2, ih, ← hm, List.take_left]
    set c : Args K := ⟨b.dx, b.w, b.dx.zipWith (· + ·) b.x, b.o, us (2 * (t + 1) + i)⟩ with hc
    have hcf : c.Fit d := ⟨hf.dx, hf.w, by simp [hc, hf.dx, hf.x], hf.o, hu _⟩
    have hs : sim (Args.solve d n udvl udvnl) a (fun k => us (2 * k + i)) (t + 1) =
        c.solve d n udvl udvnl := rfl
    rw [hs]
    refine ⟨hcf.solve hF.vl hF.vnl n, ?_⟩
    rw [← iteration_ev hd hF hcf, hP]
    congr 1
    simp [Args.flat, Args.memo, hc]

variable {d : Dims} {n : ℕ} {udvl udvnl y : List (List K → K)}

/-- **C72**: for a method with states and outputs, the connections of the generated diagram `recursion` are
accepted by Faust; it has the inputs and outputs of the method. -/
theorem C72_typed (hF : Fits d udvl udvnl y) (inits : List K) (hi : inits.length = d.nin) :
    (d.recursion n udvl udvnl y inits).ok ∧ (d.recursion n udvl udvnl y inits).ins = d.u ∧
      (d.recursion n udvl udvnl y inits).outs = y.length := by
  have h := iteration_typed n hF
  have := recursive_typed y.length inits (d.iteration n udvl udvnl y) d.u
    ⟨h.ok, by rw [h.ins, hi]; simp only [Dims.all, Dims.nin]; omega, by rw [h.outs, hi]⟩
  exact ⟨this.ok, this.ins, this.outs⟩

/-- **C72**: when there are no nonlinear states or no linear dissipations, the samples with even indices of
the generated program are the simulation of the samples with even indices of its inputs, from the initial
values; the samples with odd indices are the simulation of the samples with odd indices, from zero. -/
theorem C72_interleaved (hd : d.xnl = 0 ∨ d.wl = 0) (hF : Fits d udvl udvnl y) {a : Args K}
    (hdx : a.dx.length = d.x) (hw : a.w.length = d.w) (hx : a.x.length = d.x) (ho : a.o.length = d.o)
    {us : ℕ → List K} (hu : ∀ t, (us t).length = d.u) (t : ℕ) :
    (d.recursion n udvl udvnl y (a.dx ++ (a.w ++ (a.x ++ a.o)))).out us (2 * t) =
      (sim (Args.solve d n udvl udvnl) a (fun k => us (2 * k)) t).ap y ∧
    (d.recursion n udvl udvnl y (a.dx ++ (a.w ++ (a.x ++ a.o)))).out us (2 * t + 1) =
      (sim (Args.solve d n udvl udvnl) (.zero d) (fun k => us (2 * k + 1)) t).ap y := by
  set inits := a.dx ++ (a.w ++ (a.x ++ a.o)) with hinits
  have hi : inits.length = d.nin := by
    simp only [hinits, List.length_append, hdx, hw, hx, ho, Dims.nin]; omega
  have hall : d.all = d.nin + d.u := by simp only [Dims.all, Dims.nin]; omega
  have h := iteration_typed n hF
  have hs := sim_pure (iteration_pure d n udvl udvnl y)
  rw [h.ins, h.outs] at hs
  obtain ⟨R, hR⟩ := sim_recursive (ny := y.length) (iteration_length hd hF) inits 0 _ _ _ hs
    (by omega) (by omega)
  rw [List.nil_append, Nat.zero_add, hi] at hR
  obtain ⟨P, p0, p1, p2, p3⟩ := two_delays hR (us := us) (fun t => by rw [hu t]; omega)
  have fa : ∀ u : List K, u.length = d.u → ({ a with u := u } : Args K).Fit d := fun u hu =>
    ⟨hdx, hw, hx, ho, hu⟩
  have fz : ∀ u : List K, u.length = d.u → ({ Args.zero d with u := u } : Args K).Fit d := fun u hu =>
    ⟨by simp [Args.zero], by simp [Args.zero], by simp [Args.zero], by simp [Args.zero], hu⟩
  have hp1 : P 1 = (Args.zero d : Args K).dx ++ ((Args.zero d : Args K).w ++ ((Args.zero d : Args K).x ++
      (Args.zero d : Args K).o)) := by
    rw [p1]
    simp only [Args.zero, List.replicate_append_replicate, Dims.nin]
    congr 1; omega
  have key : ∀ (b : Args K), b.Fit d → ∀ l : List K, (b.memo ++ l).drop d.nin = l := by
    intro b hb l
    have : b.memo.length = d.nin := by
      simp only [Args.memo, List.length_append, List.length_zipWith, hb.dx, hb.w, hb.x, hb.o, Dims.nin]
      omega
    rw [← this, List.drop_left]
  obtain ⟨f1, e1⟩ := half hd hF hu p2 0 fa p0 t
  obtain ⟨f2, e2⟩ := half hd hF hu p2 1 fz hp1 t
  refine ⟨?_, ?_⟩
  · show (Dims.recursive y.length inits (d.iteration n udvl udvnl y)).out us (2 * t) = _
    rw [p3]
    have := key _ f1 ((sim (Args.solve d n udvl udvnl) a (fun k => us (2 * k + 0)) t).ap y)
    rw [← e1] at this
    exact this
  · show (Dims.recursive y.length inits (d.iteration n udvl udvnl y)).out us (2 * t + 1) = _
    rw [p3, e2, key _ f2]

end Faust
end Pyphs
