/-
Property C64: the simulated energy of a circuit, from the graph to any number of steps.
-/
import Verif.Circuit.Props
import Verif.Circuit.Quad

namespace Pyphs
namespace Circuit
open Scheme Core Graph Finset

/-! ### Vocabulary -/

/-- The laws of the dissipative edges never provide power, under both controls. -/
def PassiveLaws (law : String → Env ℝ → ℝ) (edges : List (Edge ℝ)) : Prop :=
  ∀ d ∈ edges, d.type = .dissipative → ∀ e : Env ℝ,
    0 ≤ e d.label * law d.ze e ∧ 0 ≤ e d.label * law d.zf e

/-- A simulation: `X n` are the values of the symbols when the equations of step `n` have been
solved. The states are updated by their increments, the symbols of `ps` are constant. -/
structure CircuitRun (edges : List (Edge ℝ)) (ps : List String) (X : ℕ → Env ℝ) : Prop where
  x : ∀ n, ∀ d ∈ edges, d.type = .storage →
    X (n + 1) d.label = X n d.label + X n (dn d.label)
  p : ∀ n, ∀ s ∈ ps, X (n + 1) s = X n s

/-- The energy depends on the states of the storages and on the parameters `ps` only. -/
structure EnergyIn (H : Sc) (edges : List (Edge ℝ)) (ps : List String) : Prop where
  apart : ∀ s ∈ ps, ∀ d ∈ edges, d.type = .storage → s ≠ d.label
  only : ∀ e e' : Env ℝ, (∀ d ∈ edges, d.type = .storage → e d.label = e' d.label) →
    (∀ s ∈ ps, e s = e' s) → H e = H e'

/-- Power received from the outside through the ports. -/
noncomputable def received (m : Meth) (c : Core ℝ) (edges : List (Edge ℝ)) (e : Env ℝ) : ℝ :=
  - ((ofType .port edges).map fun d => outOf m d.label e * e (inputOf c d.label)).sum

/-- The gradient of the method is exact for the increments of a step. -/
def Exact (m : Meth) (e : Env ℝ) : Prop := gdot m.dxH m.g.x e = m.H (next e m.g.x) - m.H e

/-! ### One step and many -/

theorem diss_nonneg {law : String → Env ℝ → ℝ} {nodes : List String} {edges : List (Edge ℝ)}
    {c : Core ℝ} {m : Meth} {ec : String → Prop} {e : Env ℝ} {E F : String → ℝ}
    (hp : PassiveLaws law edges) (h : StepEqs law nodes edges c m ec e E F) :
    0 ≤ power .dissipative edges E F := by
  refine List.sum_nonneg fun v hv => ?_
  obtain ⟨d, hd, rfl⟩ := List.mem_map.1 hv
  obtain ⟨h1, h2⟩ := mem_ofType.1 hd
  by_cases hh : ec d.label
  · obtain ⟨a1, a2⟩ := (h.diss d h1 h2).1 hh
    rw [a1, a2]; exact (hp d h1 h2 e).1
  · obtain ⟨a1, a2⟩ := (h.diss d h1 h2).2 hh
    rw [a1, a2, mul_comm]; exact (hp d h1 h2 e).2

theorem port_power {law : String → Env ℝ → ℝ} {nodes : List String} {edges : List (Edge ℝ)}
    {c : Core ℝ} {m : Meth} {ec : String → Prop} {e : Env ℝ} {E F : String → ℝ}
    (h : StepEqs law nodes edges c m ec e E F) :
    power .port edges E F = - received m c edges e := by
  unfold power received
  rw [neg_neg]
  refine congrArg _ (List.map_congr_left fun d hd => ?_)
  obtain ⟨h1, h2⟩ := mem_ofType.1 hd
  obtain ⟨s1, s2⟩ := h.port d h1 h2
  by_cases hh : ec d.label
  · rw [(s1 hh).1, (s1 hh).2]
  · rw [(s2 hh).1, (s2 hh).2, mul_comm]

theorem energy_next {edges : List (Edge ℝ)} {ps : List String} {X : ℕ → Env ℝ} {H : Sc}
    (hr : CircuitRun edges ps X) (hH : EnergyIn H edges ps) {xs : List String}
    (hx : xs.Perm ((ofType .storage edges).map (·.label))) (n : ℕ) :
    H (X (n + 1)) = H (next (X n) xs) := by
  refine hH.only _ _ (fun d hd ht => ?_) fun s hs => ?_
  · have : d.label ∈ xs := hx.mem_iff.2
      (List.mem_map_of_mem (f := fun d : Edge ℝ => d.label) (mem_ofType.2 ⟨hd, ht⟩))
    rw [hr.x n d hd ht]
    simp [Scheme.next, this]
  · have : s ∉ xs := fun hh => by
      obtain ⟨d, hd, rfl⟩ := List.mem_map.1 (hx.mem_iff.1 hh)
      obtain ⟨a1, a2⟩ := mem_ofType.1 hd
      exact hH.apart _ hs d a1 a2 rfl
    rw [hr.p n s hs]
    simp [Scheme.next, this]

/-- C64, one step. If the gradient is exact for the increments of the step, the variation of the
energy, the power of the dissipative edges and the power of the ports of any solution of the
equations of the circuit sum to zero. -/
theorem C64_balance {law : String → Env ℝ → ℝ} {fuel : ℕ} {nodes : List String}
    {edges : List (Edge ℝ)} {c c2 : Core ℝ} (h : CircuitOK nodes edges c)
    (hstat : StaticLaws law edges) (hc : toCore law fuel nodes edges c = some c2)
    (s : Sympy) (hs : s.OK) (o : Config) :
    ∃ m ec, toMethod s o c2 = some m ∧
      (∀ e, m.Solved e ↔ ∃ E F, StepEqs law nodes edges c m ec e E F) ∧
      ∀ e E F, StepEqs law nodes edges c m ec e E F → Exact m e →
        (c.H (next e ((ofType .storage edges).map (·.label))) - c.H e) * o.fs +
          power .dissipative edges E F + power .port edges E F = 0 := by
  obtain ⟨m, ec, h1, -, h3, h4, h5, -, -, -, h8, h9⟩ := step_facts h hstat hc s hs o
  refine ⟨m, ec, h1, h8, fun e E F hq hex => ?_⟩
  have := (h9 e).1 E F hq
  have hn : next e m.g.x = next e ((ofType .storage edges).map (·.label)) := by
    funext s
    simp only [Scheme.next, h5.mem_iff]
  unfold Exact at hex
  rw [hex, h3, h4, hn] at this
  linarith

/-- C64, any number of steps, for a method whose gradient is exact along the run. -/
theorem C64_exact {law : String → Env ℝ → ℝ} {fuel : ℕ} {nodes : List String}
    {edges : List (Edge ℝ)} {c c2 : Core ℝ} (h : CircuitOK nodes edges c)
    (hstat : StaticLaws law edges) (hpas : PassiveLaws law edges)
    (hc : toCore law fuel nodes edges c = some c2)
    (s : Sympy) (hs : s.OK) (o : Config) (hfs : 0 < o.fs) :
    ∃ m, toMethod s o c2 = some m ∧ ∀ ps X, CircuitRun edges ps X → EnergyIn c.H edges ps →
      (∀ n, m.Solved (X n)) → (∀ n, Exact m (X n)) → ∀ k N,
      c.H (X (k + N)) ≤ c.H (X k) + (∑ n ∈ range N, received m c edges (X (k + n))) / o.fs := by
  obtain ⟨m, ec, h1, -, h3, h4, h5, -, -, -, h8, h9⟩ := step_facts h hstat hc s hs o
  refine ⟨m, h1, fun ps X hr hH hsol hex k N => ?_⟩
  induction N with
  | zero => simp
  | succ N ih =>
    obtain ⟨E, F, hq⟩ := (h8 (X (k + N))).1 (hsol _)
    have b := (h9 _).1 E F hq
    have d := diss_nonneg hpas hq
    rw [port_power hq] at b
    have he := hex (k + N)
    unfold Exact at he
    rw [he, h3, ← energy_next hr hH h5, h4] at b
    rw [sum_range_succ, add_div, ← Nat.add_assoc]
    have : c.H (X (k + N + 1)) - c.H (X (k + N)) ≤ received m c edges (X (k + N)) / o.fs := by
      rw [le_div_iff₀ hfs]; linarith
    linarith

/-- C64. Passivity, for a circuit whose energy is quadratic in each state: whatever the options
of splitting, the answers of sympy, the tolerance, the increments and the rule (discrete
gradient, trapezoidal, midpoint), the energy at any later step of a simulation is at most the energy at an
earlier step plus the energy received by the ports in between. -/
theorem C64_quadratic {law : String → Env ℝ → ℝ} {fuel : ℕ} {nodes : List String}
    {edges : List (Edge ℝ)} {c c2 : Core ℝ} (h : CircuitOK nodes edges c)
    (hstat : StaticLaws law edges) (hpas : PassiveLaws law edges)
    (hquad : QuadEnergy c.H ((ofType .storage edges).map (·.label)))
    (hc : toCore law fuel nodes edges c = some c2)
    (s : Sympy) (hs : s.OK) (o : Config) (hfs : 0 < o.fs) (hθ : o.kind = .theta → o.θ = 1 / 2) :
    ∃ m, toMethod s o c2 = some m ∧ ∀ ps X, CircuitRun edges ps X → EnergyIn c.H edges ps →
      (∀ n, m.Solved (X n)) → ∀ k N,
      c.H (X (k + N)) ≤ c.H (X k) + (∑ n ∈ range N, received m c edges (X (k + n))) / o.fs := by
  obtain ⟨m, ec, h1, h2, h3, -, h5, h6, -⟩ := step_facts h hstat hc s hs o
  obtain ⟨m', h1', h⟩ := C64_exact h hstat hpas hc s hs o hfs
  obtain rfl := Option.some.inj (h1.symm.trans h1')
  refine ⟨m, h1, fun ps X hr hH hsol => h ps X hr hH hsol fun n => ?_⟩
  unfold Exact
  have hnd := (List.nodup_append.1 (List.nodup_append.1 h2.nodup).1).1
  rw [h6, h3]
  exact quad_gradient_exact (hquad.mono fun y hy => h5.mem_iff.1 hy) hnd _ _ _ hθ _

/-- The entries of the Hessian reported as the sympy zero vanish. -/
def NzSound (s : Sympy) : Prop :=
  ∀ c : Core ℝ, ∀ i < c.x.length - c.xl, ∀ j < c.x.length - c.xl, i ≠ j →
    (s.nz c).e i j = false → ∀ e,
      pdiff (pdiff c.H (c.x.getD (c.xl + i) "")) (c.x.getD (c.xl + j) "") e = 0

theorem pick_mem {α : Type} [Inhabited α] {π : List ℕ} {l : List α} {a : α} (h : a ∈ pick π l) :
    ∃ k ∈ π, l[k]? = some a := by
  unfold pick at h
  simpa using List.mem_filterMap.1 h

/-- Without splitting the groups of states are those which the discrete gradient needs. -/
theorem nosplit_groups {s : Sympy} (hs : s.OK) (hnz : NzSound s) {o : Config}
    (hsp : o.split = false) {c : Core ℝ} (hc : WF c) {m : Meth}
    (hm : toMethod s o c = some m) :
    m.g.xl = [] ∧ ∀ i ∈ m.g.mono, ∀ j ∈ m.g.mono ++ m.g.multi, i ≠ j →
      ∀ e, pdiff (pdiff c.H i) j e = 0 := by
  have hwf : WF (reset c) := ⟨hc.Mr, hc.Mc, hc.uy, hc.cucy, hc.wz, hc.dxH,
    Nat.zero_le _, Nat.zero_le _, hc.nodup⟩
  have hz : ZlOK (reset c) := Or.inr ⟨by simp [reset, Mat.slice], by simp [reset, Mat.slice]⟩
  obtain ⟨n1, n2, n3⟩ := hs.nz (reset c)
  obtain ⟨c', e2, -, hxl, hx⟩ := C14_monovar_multivar (reset c) hwf hz (s.nz (reset c)) n1 n2 n3
  unfold toMethod at hm
  rw [show firstSplit s o (reset c) = some (reset c) by simp [firstSplit, hsp], Option.bind_some,
    e2, Option.bind_some] at hm
  simp only [lastSplit, hsp, Bool.false_eq_true, if_false, Option.map_some, Option.some.injEq] at hm
  have x0 : (reset c).xl = 0 := rfl
  have xx : (reset c).x = c.x := rfl
  have xH : (reset c).H = c.H := rfl
  rw [x0] at hxl hx
  simp only [x0, xx, List.take_zero, List.drop_zero, List.nil_append, Nat.sub_zero] at hx hm
  set N := c.x.length with hN
  set nz := s.nz (reset c) with hnzd
  subst hm
  have gx : c'.x = pick ((List.range N).filter fun k => decide (Separable N nz k)) c.x ++
      pick ((List.range N).filter fun k => decide (¬ Separable N nz k)) c.x := by
    rw [hx]; unfold stable pick; rw [List.filterMap_append]
  have hlen : (pick ((List.range N).filter fun k => decide (Separable N nz k)) c.x).length =
      count N (Separable N nz) := by
    rw [pick_length, count, List.countP_eq_length_filter]
    intro a ha
    simpa using (List.mem_filter.1 ha).1
  have gm : (groups c' (count N (Separable N nz))).mono =
      pick ((List.range N).filter fun k => decide (Separable N nz k)) c.x := by
    show (c'.x.drop c'.xl).take _ = _
    rw [hxl, List.drop_zero, gx, ← hlen, List.take_left]
  have gs : (groups c' (count N (Separable N nz))).mono ++
      (groups c' (count N (Separable N nz))).multi = c'.x := by
    show (c'.x.drop c'.xl).take _ ++ (c'.x.drop c'.xl).drop _ = _
    rw [hxl, List.drop_zero, List.take_append_drop]
  refine ⟨?_, ?_⟩
  · show c'.x.take c'.xl = []
    rw [hxl, List.take_zero]
  intro i hi j hj hij e
  have hi' : i ∈ pick ((List.range N).filter fun k => decide (Separable N nz k)) c.x := by
    rw [← gm]; exact hi
  have hj' : j ∈ c'.x := by rw [← gs]; exact hj
  obtain ⟨a, ha, ha2⟩ := pick_mem hi'
  obtain ⟨ha3, ha4⟩ := List.mem_filter.1 ha
  obtain ⟨b, hb, hb2⟩ := pick_mem (by rw [hx] at hj'; exact hj')
  have hbN : b < N := by
    by_contra hh
    rw [List.getElem?_eq_none (by omega)] at hb2
    cases hb2
  have hab : a ≠ b := by rintro rfl; exact hij (Option.some.inj (ha2.symm.trans hb2))
  have haN : a < N := by simpa using ha3
  have := hnz (reset c) a haN b hbN hab (of_decide_eq_true ha4 b hbN hab.symm) e
  rw [x0, xx, xH, Nat.zero_add, Nat.zero_add, List.getD_eq_getElem?_getD, ha2,
    List.getD_eq_getElem?_getD, hb2] at this
  exact this

/-- C64. Passivity with the discrete gradient, for any energy and any options, when the groups of states
made by the method are those which the discrete gradient needs (`GroupsOK`) and the increments are
out of the intervals in which the code expands the quotients. -/
theorem C64_groups {law : String → Env ℝ → ℝ} {fuel : ℕ} {nodes : List String}
    {edges : List (Edge ℝ)} {c c2 : Core ℝ} (h : CircuitOK nodes edges c)
    (hstat : StaticLaws law edges) (hpas : PassiveLaws law edges)
    (hc : toCore law fuel nodes edges c = some c2)
    (s : Sympy) (hs : s.OK) (o : Config) (hfs : 0 < o.fs) (hk : o.kind = .discret)
    (htol : 0 < o.epsdg) :
    ∃ m, toMethod s o c2 = some m ∧ (GroupsOK c.H m.g → ∀ ps X, CircuitRun edges ps X →
      EnergyIn c.H edges ps →
      (∀ n, m.Solved (X n)) → (∀ n, m.StepsOK o.epsdg (X n)) → ∀ k N,
      c.H (X (k + N)) ≤ c.H (X k) + (∑ n ∈ range N, received m c edges (X (k + n))) / o.fs) := by
  obtain ⟨m, ec, h1, h2, h3, -, h5, h6, -⟩ := step_facts h hstat hc s hs o
  obtain ⟨m', h1', hh⟩ := C64_exact h hstat hpas hc s hs o hfs
  obtain rfl := Option.some.inj (h1.symm.trans h1')
  refine ⟨m, h1, fun hg ps X hr hH hsol hst => hh ps X hr hH hsol fun n => ?_⟩
  unfold Exact
  rw [h6, h3, hk]
  exact C20_gradient_exact c.H m.g hg o.θ o.epsdg htol _ (hst n).1 (hst n).2

/-- C64. Passivity with the discrete gradient and without splitting (`split=False`), for any smooth
energy: the increments must be out of the intervals in which the code expands the quotients. -/
theorem C64_nosplit {law : String → Env ℝ → ℝ} {fuel : ℕ} {nodes : List String}
    {edges : List (Edge ℝ)} {c c2 : Core ℝ} (h : CircuitOK nodes edges c)
    (hstat : StaticLaws law edges) (hpas : PassiveLaws law edges)
    (hsm : Smooth2 c.H ((ofType .storage edges).map (·.label)))
    (hc : toCore law fuel nodes edges c = some c2)
    (s : Sympy) (hs : s.OK) (hnz : NzSound s) (o : Config) (hfs : 0 < o.fs)
    (hsp : o.split = false) (hk : o.kind = .discret) (htol : 0 < o.epsdg) :
    ∃ m, toMethod s o c2 = some m ∧ ∀ ps X, CircuitRun edges ps X → EnergyIn c.H edges ps →
      (∀ n, m.Solved (X n)) → (∀ n, m.StepsOK o.epsdg (X n)) → ∀ k N,
      c.H (X (k + N)) ≤ c.H (X k) + (∑ n ∈ range N, received m c edges (X (k + n))) / o.fs := by
  obtain ⟨m, ec, h1, h2, h3, -, h5, h6, -⟩ := step_facts h hstat hc s hs o
  obtain ⟨m', h1', hh⟩ := C64_groups h hstat hpas hc s hs o hfs hk htol
  obtain rfl := Option.some.inj (h1.symm.trans h1')
  have hready := ready_of h hstat hc
  have hnd := (List.nodup_append.1 (List.nodup_append.1 h2.nodup).1).1
  obtain ⟨g1, g2⟩ := nosplit_groups hs hnz hsp hready.wf h1
  have hH2 : c2.H = c.H := by obtain ⟨-, -, -, -, hH, -⟩ := C63_core h hc two_ne_zero; exact hH
  rw [hH2] at g2
  refine ⟨m, h1, hh ⟨hnd, ?_, ?_, ?_, ?_, ?_⟩⟩
  · exact ⟨fun i hi => hsm.d1 i (h5.mem_iff.1 hi),
      fun i hi j hj => hsm.d2 i (h5.mem_iff.1 hi) j (h5.mem_iff.1 hj)⟩
  · rw [g1]; intro i hi; cases hi
  · exact fun i hi j hj => g2 i hi j (List.mem_append_left _ hj)
  · rw [g1]; intro i hi; cases hi
  · intro i hi j hj e
    refine g2 i hi j (List.mem_append_right _ hj) ?_ e
    rintro rfl
    have : (m.g.mono ++ m.g.multi).Nodup := by
      have := hnd; unfold Groups.x at this
      rw [g1, List.nil_append] at this; exact this
    exact (List.nodup_append.1 this).2.2 i hi i hj rfl

end Circuit
end Pyphs
