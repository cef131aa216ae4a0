/-
Property C81: dissipation laws that depend on the states.
-/
import Verif.Circuit.Dynamic

namespace Pyphs
namespace Circuit
open Scheme Core Graph Finset

/-- The states of a circuit. -/
def statesOf (edges : List (Edge ℝ)) : List String := (ofType .storage edges).map (·.label)

/-- The laws of the dissipative edges may depend on all symbols but those of the gradient. -/
def StateLaws (law : String → Env ℝ → ℝ) (edges : List (Edge ℝ)) : Prop :=
  ∀ d ∈ edges, d.type = .dissipative →
    NoGrad (statesOf edges) (law d.ze) ∧ NoGrad (statesOf edges) (law d.zf)

theorem seen_laws {law : String → Env ℝ → ℝ} {edges : List (Edge ℝ)} (hl : StateLaws law edges)
    (hn : StateNames (statesOf edges)) {o : Config} {ev : Sc → Sc} {xs : List String} {d : List Sc}
    (hx : xs.Perm (statesOf edges))
    (h0 : o.split = false → ev = evalLaw o.kind o.θ xs d)
    (h1 : o.split = true → ∃ xs' d', xs'.Perm (statesOf edges) ∧
      ev = fun z => evalLaw o.kind o.θ xs d (evalLaw o.kind o.θ xs' d' z)) (e : Env ℝ) :
    ∀ a ∈ edges, a.type = .dissipative →
      ev (law a.ze) e = seen o (statesOf edges) (law a.ze) e ∧
      ev (law a.zf) e = seen o (statesOf edges) (law a.zf) e := fun a ha ht =>
  ⟨congrFun (eval_seen hn (hl a ha ht).1 hx h0 h1) e,
    congrFun (eval_seen hn (hl a ha ht).2 hx h0 h1) e⟩

/-- C81. The equations of a step of a circuit whose dissipation laws depend on its states. The
method exists for all options, it has the energy of the circuit, and its equations are those of the
circuit with each law evaluated as `seen` says: at the states `x + θ δx` without splitting, at
`x + 2 θ δx` with it; for the trapezoidal rule, by means of the values at `x`, `x + δx` (and
`x + 2 δx` with splitting). -/
theorem C81_step {law : String → Env ℝ → ℝ} {fuel : ℕ} {nodes : List String}
    {edges : List (Edge ℝ)} {c c2 : Core ℝ} (h : CircuitOK nodes edges c)
    (hl : StateLaws law edges) (hn : StateNames (statesOf edges))
    (hc : toCore law fuel nodes edges c = some c2) (s : Sympy) (hs : s.OK) (o : Config) :
    ∃ m ec, toMethod s o c2 = some m ∧ MethWF m ∧ m.H = c.H ∧ m.fs = o.fs ∧
      m.g.x.Perm (statesOf edges) ∧
      m.dxH = buildGradient m.H m.g o.kind o.θ o.epsdg ∧
      (∀ d ∈ edges, (d.ctrl = .e → ec d.label) ∧ (d.ctrl = .f → ¬ ec d.label)) ∧
      ∀ e, m.Solved e ↔ ∃ E F,
        StepEqs (fun s => seen o (statesOf edges) (law s)) nodes edges c m ec e E F := by
  obtain ⟨m, ec, ev, h1, h2, h3, h4, h5, h6, h7, h8, -, xs, d, h10, h11, h12⟩ :=
    dyn_facts h hc s hs o
  refine ⟨m, ec, h1, h2, h3, h4, h5, h6, h7, fun e => (h8 e).trans ?_⟩
  have hsl := seen_laws hl hn h10 h11 h12 e
  exact ⟨fun ⟨E, F, q⟩ => ⟨E, F, q.congr hsl⟩,
    fun ⟨E, F, q⟩ => ⟨E, F, q.congr fun a ha ht => ⟨(hsl a ha ht).1.symm, (hsl a ha ht).2.symm⟩⟩⟩

/-- C81. Efforts and flows that satisfy these equations for given inputs solve the implicit equations
of the method, and the outputs of the method are those of the ports. -/
theorem C81_outputs {law : String → Env ℝ → ℝ} {fuel : ℕ} {nodes : List String}
    {edges : List (Edge ℝ)} {c c2 : Core ℝ} (h : CircuitOK nodes edges c)
    (hl : StateLaws law edges) (hn : StateNames (statesOf edges))
    (hc : toCore law fuel nodes edges c = some c2) (s : Sympy) (hs : s.OK) (o : Config) :
    ∃ m ec, toMethod s o c2 = some m ∧
      (∀ d ∈ edges, (d.ctrl = .e → ec d.label) ∧ (d.ctrl = .f → ¬ ec d.label)) ∧
      ∀ e E F, InputEqs (fun s => seen o (statesOf edges) (law s)) nodes edges c m ec e E F →
        m.Solved e ∧
        ∀ d ∈ edges, d.type = .port → (ec d.label → outOf m d.label e = E d.label) ∧
          (¬ ec d.label → outOf m d.label e = F d.label) := by
  obtain ⟨m, ec, ev, h1, -, -, -, -, -, h7, h8, h9, xs, d, h10, h11, h12⟩ := dyn_facts h hc s hs o
  refine ⟨m, ec, h1, h7, fun e E F hq => ?_⟩
  have hsl := seen_laws hl hn h10 h11 h12 e
  have hst := (h9 e).2 E F (hq.congr fun a ha ht => ⟨(hsl a ha ht).1.symm, (hsl a ha ht).2.symm⟩)
  refine ⟨(h8 e).2 ⟨E, F, hst⟩, fun d hd ht => ?_⟩
  exact ⟨fun hh => ((hst.port d hd ht).1 hh).1, fun hh => ((hst.port d hd ht).2 hh).1⟩

/-- C81. Passivity over any number of steps, for laws that depend on the states (or on the gradient) in
any way but never provide power: if the gradient of the method is exact along the run, the energy
increases at most by the energy received through the ports. -/
theorem C81_exact {law : String → Env ℝ → ℝ} {fuel : ℕ} {nodes : List String}
    {edges : List (Edge ℝ)} {c c2 : Core ℝ} (h : CircuitOK nodes edges c)
    (hn : DissNames edges) (hpas : PassiveLaws law edges)
    (hc : toCore law fuel nodes edges c = some c2)
    (s : Sympy) (hs : s.OK) (o : Config) (hfs : 0 < o.fs) :
    ∃ m, toMethod s o c2 = some m ∧ ∀ ps X, CircuitRun edges ps X → EnergyIn c.H edges ps →
      (∀ n, m.Solved (X n)) → (∀ n, Exact m (X n)) → ∀ k N,
      c.H (X (k + N)) ≤ c.H (X k) + (∑ n ∈ range N, received m c edges (X (k + n))) / o.fs := by
  obtain ⟨m, ec, ev, h1, -, h3, h4, h5, -, -, h8, h9, xs, d, h10, h11, h12⟩ := dyn_facts h hc s hs o
  have hev := ev_passive h.labels hn hpas h10 h11 h12
  refine ⟨m, h1, fun ps X hr hH hsol hex k N => ?_⟩
  induction N with
  | zero => simp
  | succ N ih =>
    obtain ⟨E, F, hq⟩ := (h8 (X (k + N))).1 (hsol _)
    have b := (h9 _).1 E F hq
    have d := diss_nonneg hev hq
    rw [port_power hq] at b
    have he := hex (k + N)
    unfold Exact at he
    rw [he, h3, ← energy_next hr hH h5, h4] at b
    rw [sum_range_succ, add_div, ← Nat.add_assoc]
    have : c.H (X (k + N + 1)) - c.H (X (k + N)) ≤ received m c edges (X (k + N)) / o.fs := by
      rw [le_div_iff₀ hfs]; linarith
    linarith

/-- C81. The same for an energy quadratic in each state, for all options. -/
theorem C81_quadratic {law : String → Env ℝ → ℝ} {fuel : ℕ} {nodes : List String}
    {edges : List (Edge ℝ)} {c c2 : Core ℝ} (h : CircuitOK nodes edges c)
    (hn : DissNames edges) (hpas : PassiveLaws law edges)
    (hquad : QuadEnergy c.H (statesOf edges))
    (hc : toCore law fuel nodes edges c = some c2)
    (s : Sympy) (hs : s.OK) (o : Config) (hfs : 0 < o.fs) (hθ : o.kind = .theta → o.θ = 1 / 2) :
    ∃ m, toMethod s o c2 = some m ∧ ∀ ps X, CircuitRun edges ps X → EnergyIn c.H edges ps →
      (∀ n, m.Solved (X n)) → ∀ k N,
      c.H (X (k + N)) ≤ c.H (X k) + (∑ n ∈ range N, received m c edges (X (k + n))) / o.fs := by
  obtain ⟨m, ec, ev, h1, h2, h3, -, h5, h6, -⟩ := dyn_facts h hc s hs o
  obtain ⟨m', h1', h⟩ := C81_exact h hn hpas hc s hs o hfs
  obtain rfl := Option.some.inj (h1.symm.trans h1')
  refine ⟨m, h1, fun ps X hr hH hsol => h ps X hr hH hsol fun n => ?_⟩
  unfold Exact
  have hnd := (List.nodup_append.1 (List.nodup_append.1 h2.nodup).1).1
  rw [h6, h3]
  exact quad_gradient_exact (hquad.mono fun y hy => h5.mem_iff.1 hy) hnd _ _ _ hθ _

/-- C81. The same with the discrete gradient and without splitting, for any smooth energy. -/
theorem C81_nosplit {law : String → Env ℝ → ℝ} {fuel : ℕ} {nodes : List String}
    {edges : List (Edge ℝ)} {c c2 : Core ℝ} (h : CircuitOK nodes edges c)
    (hn : DissNames edges) (hpas : PassiveLaws law edges)
    (hsm : Smooth2 c.H (statesOf edges))
    (hc : toCore law fuel nodes edges c = some c2)
    (s : Sympy) (hs : s.OK) (hnz : NzSound s) (o : Config) (hfs : 0 < o.fs)
    (hsp : o.split = false) (hk : o.kind = .discret) (htol : 0 < o.epsdg) :
    ∃ m, toMethod s o c2 = some m ∧ ∀ ps X, CircuitRun edges ps X → EnergyIn c.H edges ps →
      (∀ n, m.Solved (X n)) → (∀ n, m.StepsOK o.epsdg (X n)) → ∀ k N,
      c.H (X (k + N)) ≤ c.H (X k) + (∑ n ∈ range N, received m c edges (X (k + n))) / o.fs := by
  obtain ⟨m, ec, ev, h1, h2, h3, -, h5, h6, -⟩ := dyn_facts h hc s hs o
  obtain ⟨m', h1', hh⟩ := C81_exact h hn hpas hc s hs o hfs
  obtain rfl := Option.some.inj (h1.symm.trans h1')
  have hnd := (List.nodup_append.1 (List.nodup_append.1 h2.nodup).1).1
  obtain ⟨-, -, hwf, -, hH2, -⟩ := C63_core h hc two_ne_zero
  obtain ⟨g1, g2⟩ := nosplit_groups hs hnz hsp hwf h1
  rw [hH2] at g2
  have hg : GroupsOK c.H m.g := by
    refine ⟨hnd, ?_, ?_, ?_, ?_, ?_⟩
    · exact ⟨fun i hi => hsm.d1 i (h5.mem_iff.1 hi),
        fun i hi j hj => hsm.d2 i (h5.mem_iff.1 hi) j (h5.mem_iff.1 hj)⟩
    · rw [g1]; intro i hi; cases hi
    · exact fun i hi j hj => g2 i hi j (List.mem_append_left _ hj)
    · rw [g1]; intro i hi; cases hi
    · intro i hi j hj e
      refine g2 i hi j (List.mem_append_right _ hj) ?_ e
      rintro rfl
      have : (m.g.mono ++ m.g.multi).Nodup := by
        have := hnd; unfold Groups.x at this
        rw [g1, List.nil_append] at this; exact this
      exact (List.nodup_append.1 this).2.2 i hi i hj rfl
  refine ⟨m, h1, fun ps X hr hH hsol hst => hh ps X hr hH hsol fun n => ?_⟩
  unfold Exact
  rw [h6, h3, hk]
  exact C20_gradient_exact c.H m.g hg o.θ o.epsdg htol _ (hst n).1 (hst n).2

end Circuit
end Pyphs
