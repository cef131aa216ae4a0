/-
Property C72, circuits: the Faust programs of circuits, examples, and the defects of the programs.
-/
import Verif.Faust.PythonProps
import Verif.Faust.Process
import Verif.Circuit.TotalExamples
import Verif.Circuit.LinearExamples

namespace Pyphs
namespace Faust
open Scheme Mat Numeric Circuit Graph

/-- Calls of `update` of Python never fail: there is a simulation for every sequence of inputs. -/
theorem python_runs {n : Num} {udvl udvnl : List Sc} (h : FaustOK n udvl udvnl) (hobs : n.obs = [])
    {us : ℕ → List ℝ} (hu : ∀ t, (us t).length = n.m.u.length) {s0 : St Nm ℝ}
    (hl : s0.args.length = n.all.length) :
    ∃ st : ℕ → St Nm ℝ, st 0 = s0 ∧ (∀ t, n.update (some (us t)) (some []) (st t) = some (st (t + 1))) ∧
      ∀ t, (st t).args.length = n.all.length := by
  let st : ℕ → St Nm ℝ := fun i => Nat.rec s0 (fun i s => (n.update (some (us i)) (some []) s).getD s) i
  have key : ∀ i, (st i).args.length = n.all.length ∧
      n.update (some (us i)) (some []) (st i) = some (st (i + 1)) := by
    have one : ∀ i, (st i).args.length = n.all.length →
        n.update (some (us i)) (some []) (st i) = some (st (i + 1)) := by
      intro i a1
      obtain ⟨s', hs'⟩ := C67_update h.wf h.split h.nons (by rw [hobs, h.o]; rfl) (hu i) (p := [])
        (by rw [h.p]; rfl) a1
      have e : st (i + 1) = s' := by
        show (n.update _ _ (st i)).getD (st i) = s'
        rw [hs']; rfl
      rw [e]; exact hs'
    intro i
    induction i with
    | zero => exact ⟨hl, one 0 hl⟩
    | succ i ih =>
      have := (C24_step h.wf ih.1 (hu i) (by rw [h.p]; rfl) ih.2).1
      exact ⟨this, one _ this⟩
  exact ⟨st, rfl, fun t => (key t).2, fun t => (key t).1⟩

/-- **C72**, circuits. The Faust program that is written for a circuit of monotone components (an energy that is
a sum of convex functions of one state each, laws that are nondecreasing functions of their own variable)
computes the simulations of Python, every second sample, if the method has no nonlinear states or no linear
dissipations: these simulations exist for all input signals and all initial values. -/
theorem C72_circuit {law : String → Env ℝ → ℝ} {fuel : ℕ} {nodes : List String}
    {edges : List (Edge ℝ)} {c c2 : Core ℝ} (h : CircuitOK nodes edges c)
    (hstat : StaticLaws law edges) (hreg : RegularCircuit law edges c.H)
    (hmon : MonotoneCircuit law edges c.H)
    (hc : toCore law fuel nodes edges c = some c2)
    (s : Sympy) (hs : s.OK) (o : Config) (hj : JacSound s o c2) (hfs : 0 < o.fs)
    (hθ : o.kind = .theta → 0 ≤ o.θ)
    (hk : o.kind ≠ .discret ∨
      (QuadEnergy c.H ((ofType .storage edges).map (·.label)) ∧ 0 < o.epsdg)) :
    ∃ m, toMethod s o c2 = some m ∧
      ∀ (n : Num), n.m = m → n.WF → n.p = [] → n.o = [] → n.obs = [] → (n.nl = 0 ∨ n.eps < 0) →
      ((dimsOf m).xnl = 0 ∨ (dimsOf m).wl = 0) → 0 < m.g.x.length →
      ∀ (iout : List ℕ), 0 < iout.length → ∀ (us : ℕ → List ℝ), (∀ t, (us t).length = m.u.length) →
      ∀ (u0 : List ℝ) (s0 z0 : St Nm ℝ), s0.args.length = n.all.length → z0.args = List.replicate n.all.length 0 →
      ∃ st zt : ℕ → St Nm ℝ, st 0 = s0 ∧ zt 0 = z0 ∧
        (∀ t, n.update (some (us (2 * t))) (some []) (st t) = some (st (t + 1))) ∧
        (∀ t, n.update (some (us (2 * t + 1))) (some []) (zt t) = some (zt (t + 1))) ∧
        let a := startArgs m (n.E s0)
        let prog := (dimsOf m).recursion n.maxit (fexprs n (udVlList m)) (fexprs n (udVnlList m))
          (fexprs n (outExprs m iout)) ((dimsOf m).initials a.dx a.w a.x u0)
        ∀ t, pyOut (st (t + 1)) iout = some (prog.out us (2 * t)) ∧
          pyOut (zt (t + 1)) iout = some (prog.out us (2 * t + 1)) := by
  obtain ⟨m, h1, h2, h3, h4, h5⟩ := diag_of h hstat hreg hmon hc s hs o hj hθ hk
  refine ⟨m, h1, fun n hm hn hp ho hobs hnl hd hx iout hi us hu u0 s0 z0 l0 lz => ?_⟩
  subst hm
  have hfs' : 0 < n.m.fs := by rw [h4]; exact hfs
  have hN : Nonsing n.m := C67_nonsing h2 h3 (h5.monotone h2 h3 hfs' (inputs_free hn)) hfs'
  have hF : FaustOK n (udVlList n.m) (udVnlList n.m) := ⟨hn, h2, h3, hN, C72_invmat hN, hp, ho⟩
  obtain ⟨st, e1, r1, -⟩ := python_runs hF hobs (us := fun t => us (2 * t)) (fun t => hu _) l0
  obtain ⟨zt, e2, r2, -⟩ := python_runs hF hobs (us := fun t => us (2 * t + 1)) (fun t => hu _) (s0 := z0)
    (by rw [lz]; simp)
  refine ⟨st, zt, e1, e2, r1, r2, fun t => ?_⟩
  have := C72_python hF hd hx hi hu (by rw [e1]; exact l0) r1 (fun _ => hnl.imp_right .inl)
    (by rw [e2]; exact lz) r2 (fun _ => hnl.imp_right .inl) u0 t
  rwa [e1] at this

/-- **C72**, linear circuits. The same for the usual tolerance: every call of `update` of Python, with the tolerance
zero, ends with the solution, and the program with its fixed number of iterations has the same samples. -/
theorem C72_linear {law : String → Env ℝ → ℝ} {fuel : ℕ} {nodes : List String}
    {edges : List (Edge ℝ)} {c c2 : Core ℝ} (h : CircuitOK nodes edges c)
    (hstat : StaticLaws law edges) (hreg : RegularCircuit law edges c.H)
    (hmon : MonotoneCircuit law edges c.H) (hlin : LinearLaws law edges)
    (hquad : QuadEnergy c.H ((ofType .storage edges).map (·.label)))
    (hc : toCore law fuel nodes edges c = some c2)
    (s : Sympy) (hs : s.OK) (o : Config) (hj : JacSound s o c2) (hfs : 0 < o.fs)
    (hθ : o.kind = .theta → 0 ≤ o.θ) (htol : 0 < o.epsdg) :
    ∃ m, toMethod s o c2 = some m ∧
      ∀ (n : Num), n.m = m → n.WF → n.p = [] → n.o = [] → n.obs = [] → n.eps = 0 → 1 ≤ n.maxit →
      ((dimsOf m).xnl = 0 ∨ (dimsOf m).wl = 0) → 0 < m.g.x.length →
      ∀ (iout : List ℕ), 0 < iout.length → ∀ (us : ℕ → List ℝ), (∀ t, (us t).length = m.u.length) →
      ∀ (u0 : List ℝ) (s0 z0 : St Nm ℝ), s0.args.length = n.all.length → z0.args = List.replicate n.all.length 0 →
      ∃ st zt : ℕ → St Nm ℝ, st 0 = s0 ∧ zt 0 = z0 ∧
        (∀ t, n.update (some (us (2 * t))) (some []) (st t) = some (st (t + 1))) ∧
        (∀ t, n.update (some (us (2 * t + 1))) (some []) (zt t) = some (zt (t + 1))) ∧
        let a := startArgs m (n.E s0)
        let prog := (dimsOf m).recursion n.maxit (fexprs n (udVlList m)) (fexprs n (udVnlList m))
          (fexprs n (outExprs m iout)) ((dimsOf m).initials a.dx a.w a.x u0)
        ∀ t, pyOut (st (t + 1)) iout = some (prog.out us (2 * t)) ∧
          pyOut (zt (t + 1)) iout = some (prog.out us (2 * t + 1)) := by
  obtain ⟨m, h1, h2, h3, h4, h5, h6⟩ :=
    linear_of h hstat hreg hmon hlin hquad hc s hs o hj hfs hθ htol
  refine ⟨m, h1, fun n hm hn hp ho hobs heps hmax hd hx iout hi us hu u0 s0 z0 l0 lz => ?_⟩
  subst hm
  have hfs' : 0 < n.m.fs := by rw [h4]; exact hfs
  have hN : Nonsing n.m := C67_nonsing h2 h3 (h5.monotone h2 h3 hfs' (inputs_free hn)) hfs'
  have hF : FaustOK n (udVlList n.m) (udVnlList n.m) := ⟨hn, h2, h3, hN, C72_invmat hN, hp, ho⟩
  obtain ⟨st, e1, r1, q1⟩ := python_runs hF hobs (us := fun t => us (2 * t)) (fun t => hu _) l0
  obtain ⟨zt, e2, r2, q2⟩ := python_runs hF hobs (us := fun t => us (2 * t + 1)) (fun t => hu _) (s0 := z0)
    (by rw [lz]; simp)
  have key : ∀ {u : List ℝ} {a b : St Nm ℝ}, a.args.length = n.all.length →
      n.update (some u) (some []) a = some b → Ended n b := by
    intro u a b ha hab
    refine (C69_converges hn h3 hN (h6 (inputs_free hn)) (le_of_eq heps.symm) (by rw [heps]; norm_num) hmax
      ha hab).imp id fun ⟨r, g1, g2, g3⟩ => .inr ?_
    rw [g1, le_antisymm (by rw [← heps]; exact g3) g2]
  refine ⟨st, zt, e1, e2, r1, r2, fun t => ?_⟩
  have := C72_python hF hd hx hi hu (by rw [e1]; exact l0) r1 (fun t => key (q1 t) (r1 t))
    (by rw [e2]; exact lz) r2 (fun t => key (q2 t) (r2 t)) u0 t
  rwa [e1] at this

/-! ### Examples -/

/-- The circuit of a source, a gyrator, a resistor and a capacitor. -/
example (o : Config) (hfs : 0 < o.fs) (ht : 0 < o.epsdg) (hθ : o.kind = .theta → 0 ≤ o.θ) :=
  fun c2 (h : toCore gLaw 30 gNodes gEdges (gCore linH) = some c2) =>
    C72_circuit (gOK linH) gStatic (gRegular linH_indep linH_quad.smooth)
      (gMonotone linH_convex) h iSympy iSympy_ok o (gJacSound ht h) hfs hθ
      (.inr ⟨by rw [gStor]; exact linH_quad, ht⟩)

example (o : Config) (hfs : 0 < o.fs) (ht : 0 < o.epsdg) (hθ : o.kind = .theta → 0 ≤ o.θ) :=
  fun c2 (h : toCore gLaw 30 gNodes gEdges (gCore linH) = some c2) =>
    C72_linear (gOK linH) gStatic (gRegular linH_indep linH_quad.smooth)
      (gMonotone linH_convex) gLinear (by rw [gStor]; exact linH_quad) h iSympy iSympy_ok o (gJacSound ht h)
      hfs hθ ht

/-- A quadratic storage and a cubic dissipation, solved with any number of Newton iterations. -/
theorem exSp_faust (b : Env ℝ) (k : ℕ) :
    FaustOK ({ exN b with maxit := k, eps := -1 } : Num) (udVlList exSp) (udVnlList exSp) := by
  have hN := C67_nonsing exSp_wf exSp_ok exSp_monotone (show (0 : ℝ) < 1 from one_pos)
  exact ⟨⟨(exN_wf b).1, (exN_wf b).2⟩, exSp_wf, exSp_ok, hN, C72_invmat hN, rfl, rfl⟩

example (b : Env ℝ) (k : ℕ) : (dimsOf ({ exN b with maxit := k, eps := -1 } : Num).m).xnl = 0 ∧
    0 < ({ exN b with maxit := k, eps := -1 } : Num).m.g.x.length := ⟨rfl, Nat.one_pos⟩

/-- One linear state, its increment is the input, it is the output; an integrator. -/
def inte : Dims := ⟨1, 0, 0, 0, 0, 1⟩

theorem inte_fits : Fits (K := ℚ) inte [fun l => l.getD 2 0] [] [fun l => l.getD 1 0] := by
  constructor <;> decide

/-- The generated process of the integrator is accepted. -/
example : (inte.process (1 : ℚ) 1 [none] 10 [fun l => l.getD 2 0] [] [fun l => l.getD 1 0] [0, 0]).ok :=
  (C72_stereo inte_fits rfl rfl 1 1).2 ⟨.inl rfl, .inl rfl⟩

/-- **C72**, negation. The samples of the generated program are not those of the simulation (with one update
per sample): the output of an integrator of a constant input is `0, 0, 1, 1, 2, 2, ...` instead of
`0, 1, 2, 3, ...`. -/
theorem C72_half_speed : ∃ (d : Dims) (udvl udvnl y : List (List ℚ → ℚ)) (us : ℕ → List ℚ),
    (d.xnl = 0 ∨ d.wl = 0) ∧ Fits d udvl udvnl y ∧ (∀ t, (us t).length = d.u) ∧
    (∀ n t, (sim (Args.solve d n udvl udvnl) (.zero d) us t).ap y = [(t : ℚ)]) ∧
    ∀ n t, (d.recursion n udvl udvnl y (List.replicate d.nin 0)).out us t = [((t / 2 : ℕ) : ℚ)] := by
  have key : ∀ n t, sim (Args.solve inte n [fun l : List ℚ => l.getD 2 0] []) (.zero inte) (fun _ => [1]) t =
      ⟨[1], [], [(t : ℚ)], [], [1]⟩ := by
    intro n t
    induction t with
    | zero => rfl
    | succ t ih =>
      rw [sim]
      simp only [ih]
      show (⟨[1], [], [1 + (t : ℚ)], [], [1]⟩ : Args ℚ) = _
      push_cast
      rw [add_comm]
  refine ⟨inte, [fun l => l.getD 2 0], [], [fun l => l.getD 1 0], fun _ => [1], .inl rfl, inte_fits,
    fun _ => rfl, fun n t => by rw [key]; rfl, fun n t => ?_⟩
  have h := fun k => C72_interleaved (n := n) (.inl rfl) inte_fits (a := (.zero inte : Args ℚ)) rfl rfl rfl rfl
    (us := fun _ => [1]) (fun _ => rfl) k
  have e : (List.replicate inte.nin 0 : List ℚ) = (Args.zero inte : Args ℚ).dx ++ ((Args.zero inte).w ++
    ((Args.zero inte).x ++ (Args.zero inte).o)) := rfl
  rw [e]
  rcases Nat.even_or_odd' t with ⟨k, rfl | rfl⟩
  · rw [(h k).1, key, Nat.mul_div_cancel_left _ (by omega)]
    rfl
  · rw [(h k).2, key, show (2 * k + 1) / 2 = k by omega]
    rfl

/-- **C72**, negation. With nonlinear states and linear dissipations, the first sample already differs: the
program takes the linear unknowns `(dxl, wl)` among `(dxl, dxnl, wl, wnl)` by their number. -/
theorem C72_misordered : ∃ (d : Dims) (udvl udvnl y : List (List ℚ → ℚ)) (us : ℕ → List ℚ),
    Fits d udvl udvnl y ∧ (∀ t, (us t).length = d.u) ∧ 0 < d.xnl ∧ 0 < d.wl ∧
    (sim (Args.solve d 1 udvl udvnl) (.zero d) us 0).ap y = [1] ∧
    (d.recursion 1 udvl udvnl y (List.replicate d.nin 0)).out us 0 = [0] := by
  refine ⟨⟨0, 1, 1, 0, 0, 1⟩, [fun l => l.getD 3 0], [fun l => l.getD 3 0], [fun l => l.getD 0 0],
    fun _ => [1], ?_, fun _ => rfl, by decide, by decide, ?_, ?_⟩
  · constructor <;> decide
  · decide +kernel
  · decide +kernel

end Faust
end Pyphs
