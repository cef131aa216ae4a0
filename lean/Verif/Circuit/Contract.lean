/-
Property C70, circuits: simulations never amplify a difference between two states.
-/
import Verif.Circuit.Linear
import Verif.Numeric.Contract

namespace Pyphs
namespace Circuit
open Scheme Graph Numeric Record

/-- Distance between the states at the end of the steps stored in two environments, in the norm given by the
stiffnesses `k` of the storages. -/
def gap (k : String → ℝ) (xs : List String) (e e' : Env ℝ) : ℝ :=
  (xs.map fun x => k x * (e x + e (dn x) - (e' x + e' (dn x))) ^ 2).sum

/-- What the tolerance of the solver may add to the distance in one step. -/
noncomputable def gapSlack (n : Num) (e e' : Env ℝ) : ℝ :=
  2 / n.m.fs * ((n.tol + n.tol) * ∑ j ∈ Finset.range (sz n.m), |fn n.m j e - fn n.m j e'|)

/-- Squared distance between the states at the beginning of two steps. -/
def gapIn (k : String → ℝ) (xs : List String) (e e' : Env ℝ) : ℝ :=
  (xs.map fun x => k x * (e x - e' x) ^ 2).sum

/-- Two (approximate) solutions of a step of a circuit, from different states. -/
theorem gap_env {law : String → Env ℝ → ℝ} {fuel : ℕ} {nodes : List String}
    {edges : List (Edge ℝ)} {c c2 : Core ℝ} (h : CircuitOK nodes edges c)
    (hstat : StaticLaws law edges) (hreg : RegularCircuit law edges c.H)
    (hmon : MonotoneCircuit law edges c.H)
    (hquad : QuadEnergy c.H ((ofType .storage edges).map (·.label)))
    (hc : toCore law fuel nodes edges c = some c2)
    (s : Sympy) (hs : s.OK) (o : Config) (hj : JacSound s o c2) (hfs : 0 < o.fs)
    (hw : 1 / 2 ≤ weight o.kind o.θ) (htol : 0 < o.epsdg) (k : String → ℝ)
    (hk : ∀ d ∈ edges, d.type = .storage → ∀ e, pdiff (pdiff c.H d.label) d.label e = k d.label) :
    ∃ m, toMethod s o c2 = some m ∧ MethWF m ∧ SplitOK m ∧ DiagSys m ∧ m.fs = o.fs ∧
      m.g.x.Perm ((ofType .storage edges).map (·.label)) ∧
      ∀ (e e' : Env ℝ) (ρ ρ' : ℝ), (∀ q ∈ m.v .all, q ∉ m.u) → (∀ q ∈ m.u, q ∉ m.g.x) →
        (∀ q, q ∉ m.g.x → q ∉ m.v .all → e q = e' q) →
        (∀ r < sz m, |m.res r e| ≤ ρ) → (∀ r < sz m, |m.res r e'| ≤ ρ') →
        gap k ((ofType .storage edges).map (·.label)) e e' ≤
          gapIn k ((ofType .storage edges).map (·.label)) e e' +
          2 / m.fs * ((ρ + ρ') * ∑ j ∈ Finset.range (sz m), |fn m j e - fn m j e'| -
            ∑ j ∈ Finset.range m.w.length,
              (e (vn m (m.g.x.length + j)) - e' (vn m (m.g.x.length + j))) *
                (fn m (m.g.x.length + j) e - fn m (m.g.x.length + j) e')) ∧
        (∀ j < m.g.x.length, 0 ≤ k (m.g.x.getD j "") ∧ fn m j e - fn m j e' = k (m.g.x.getD j "") *
          (e (m.g.x.getD j "") - e' (m.g.x.getD j "") +
            weight o.kind o.θ * (e (dn (m.g.x.getD j "")) - e' (dn (m.g.x.getD j ""))))) ∧
        ∀ j < sz m, m.g.x.length ≤ j →
          0 ≤ (e (vn m j) - e' (vn m j)) * (fn m j e - fn m j e') ∧
          fn m j e' = fn m j (Function.update e (vn m j) (e' (vn m j))) := by
  have hθ : o.kind = .theta → 0 ≤ o.θ := fun e => by
    unfold weight at hw; rw [if_pos e] at hw; linarith
  obtain ⟨m, h1, hmw, hsp, hmf, hdiag⟩ := diag_of h hstat hreg hmon hc s hs o hj hθ (.inr ⟨hquad, htol⟩)
  obtain ⟨m', ec, h1', h2, h3, h4, h5, h6, ⟨M, h7, h8, h9, -⟩, -⟩ := step_facts h hstat hc s hs o
  obtain rfl : m = m' := Option.some.inj (h1.symm.trans h1')
  obtain ⟨r1, r2, r3, r4⟩ := rows_of h hstat hreg hquad hc s hs o htol h1
  refine ⟨m, h1, hmw, hsp, hdiag, hmf, h5, fun e e' ρ ρ' hin hux hoff z1 z2 => ?_⟩
  have hfs' : 0 < m.fs := by rw [hmf]; exact hfs
  have hnd : m.g.x.Nodup := h5.nodup_iff.2
    (List.nodup_append.1 (List.nodup_append.1 hreg.nodup).1).1
  have hv : m.v .all = m.g.x.map dn ++ m.w := by simp [Meth.v, Sfx.pick]
  have hidp : ∀ d ∈ edges, d.type = .storage → ∀ q ∈ m.v .all, Indep c.H q := fun d q1 q2 q hq => by
    rw [hv] at hq
    rcases List.mem_append.1 hq with hq | hq
    · obtain ⟨y, hy, rfl⟩ := List.mem_map.1 hq
      obtain ⟨r, t1, t2, rfl⟩ := r1 y hy
      exact hreg.Hx.1 r t1 t2
    · obtain ⟨r, t1, t2, rfl⟩ := r2 q hq
      exact hreg.Hx.2 r t1 t2
  have hgrad : ∀ j < m.g.x.length, 0 ≤ k (m.g.x.getD j "") ∧ fn m j e - fn m j e' = k (m.g.x.getD j "") *
      (e (m.g.x.getD j "") - e' (m.g.x.getD j "") +
        weight o.kind o.θ * (e (dn (m.g.x.getD j "")) - e' (dn (m.g.x.getD j "")))) := by
    intro j hj
    refine ⟨?_, ?_⟩
    · obtain ⟨d, q1, q2, q3⟩ := r1 _ (Scheme.getD_mem hj)
      rw [← q3, ← hk d q1 q2 e]
      exact hmon.convex d q1 q2 e
    · have hrow := (r3 j hj).2
      rw [hrow]
      obtain ⟨d, q1, q2, q3⟩ := r1 _ (Scheme.getD_mem hj)
      have hx := Scheme.getD_mem hj
      rw [← q3] at hx ⊢
      unfold gradQuad
      rw [hk d q1 q2, hk d q1 q2]
      -- the gradients at the two states
      have hg1 : pdiff c.H d.label e = pdiff c.H d.label (moved e' (fun q => e q - e' q) m.g.x) := by
        refine eq_of_free (V := m.v .all) (fun q hq => ?_) fun q hq => indep_pdiff (hidp d q1 q2 q hq)
        unfold moved
        split_ifs with hh
        · ring
        · exact hoff q hh hq
      rw [hg1, quad_pdiff_moved (hquad.mono fun y hy => h5.mem_iff.1 hy) hnd hx, hk d q1 q2]
      ring
  have hdis : ∀ j < sz m, m.g.x.length ≤ j →
      0 ≤ (e (vn m j) - e' (vn m j)) * (fn m j e - fn m j e') ∧
      fn m j e' = fn m j (Function.update e (vn m j) (e' (vn m j))) := by
    intro j hj hjx
    obtain ⟨d, q1, q2, q3, q4⟩ := r4 j hj hjx
    have hf : fn m j e' = fn m j (Function.update e (vn m j) (e' (vn m j))) := by
      refine (eq_of_free (V := m.g.x ++ (m.v .all).filter (· ≠ vn m j)) (f := fn m j)
        (fun q hq => ?_) fun q hq e t => ?_).symm
      · by_cases hs' : q = vn m j
        · rw [hs', Function.update_self]
        · rw [Function.update_of_ne hs']
          refine hoff q (fun hh => hq (List.mem_append_left _ hh)) fun hh =>
            hq (List.mem_append_right _ (List.mem_filter.2 ⟨hh, by simpa using hs'⟩))
      · rcases List.mem_append.1 hq with hq | hq
        · have hq' := h5.mem_iff.1 hq
          have hst' : ∀ f, Static ((ofType .storage edges).map (·.label)) f →
              f (Function.update e q t) = f e := fun f hf => hf _ _ fun r hr1 _ => by
            rw [Function.update_of_ne]
            intro hh
            exact hr1 (hh ▸ hq')
          rcases q4 with q4 | q4
          · rw [q4]; exact hst' _ (hstat d q1 q2).1
          · rw [q4]; exact hst' _ (hstat d q1 q2).2
        · obtain ⟨t1, t2⟩ := List.mem_filter.1 hq
          exact hdiag.own j hj q t1 (by simpa using t2) e t
    refine ⟨?_, hf⟩
    have hself : fn m j e = fn m j (Function.update e (vn m j) (e (vn m j))) := by
      rw [Function.update_eq_self]
    have hm := mono_of_pdiff (hdiag.diff j hj) (hdiag.mono j hj) e
    rw [hf, hself]
    rcases le_total (e (vn m j)) (e' (vn m j)) with hle | hle
    · have := hm hle
      simp only at this
      exact mul_nonneg_of_nonpos_of_nonpos (by linarith) (by linarith)
    · have := hm hle
      simp only at this
      exact mul_nonneg (by linarith) (by linarith)
  refine ⟨?_, hgrad, hdis⟩
  have hstp := gap_step hmw hdiag hfs' hin (e := e) (e' := e') (fun i j => by rw [h8, h8])
    (fun q hq => hoff q (hux q hq) fun hh => hin q hh hq)
    (h := fun i => if i < m.g.x.length then k (m.g.x.getD i "") else 0) hw
    (fun j => by
      split_ifs with hj
      · exact (hgrad j hj).1
      · exact le_refl _)
    (fun j hj => by rw [if_pos hj, (r3 j hj).1]; exact (hgrad j hj).2) z1 z2
  have hg1 : gap k ((ofType .storage edges).map (·.label)) e e' =
      ∑ i ∈ Finset.range m.g.x.length, (if i < m.g.x.length then k (m.g.x.getD i "") else 0) *
        (e (m.g.x.getD i "") + e (vn m i) - (e' (m.g.x.getD i "") + e' (vn m i))) ^ 2 := by
    unfold gap
    rw [← (h5.map _).sum_eq, list_sum_range]
    refine Finset.sum_congr rfl fun i hi => ?_
    rw [(r3 i (Finset.mem_range.1 hi)).1, if_pos (Finset.mem_range.1 hi)]
  have hg2 : gapIn k ((ofType .storage edges).map (·.label)) e e' =
      ∑ i ∈ Finset.range m.g.x.length, (if i < m.g.x.length then k (m.g.x.getD i "") else 0) *
        (e (m.g.x.getD i "") - e' (m.g.x.getD i "")) ^ 2 := by
    unfold gapIn
    rw [← (h5.map _).sum_eq, list_sum_range]
    refine Finset.sum_congr rfl fun i hi => ?_
    rw [if_pos (Finset.mem_range.1 hi)]
  rw [hg1, hg2]
  exact hstp

/-- The state at the beginning of a step is the one at the end of the step before. -/
theorem gapIn_eq {k : String → ℝ} {xs : List String} {a a' e e' : Env ℝ}
    (h : ∀ x ∈ xs, e x = a x + a (dn x)) (h' : ∀ x ∈ xs, e' x = a' x + a' (dn x)) :
    gapIn k xs e e' = gap k xs a a' := by
  unfold gapIn gap
  congr 1
  exact List.map_congr_left fun x hx => by rw [h x hx, h' x hx]

/-- Two updates with the same inputs and parameters store the same values of all the symbols but states and
unknowns. -/
theorem off_eq {n n' : Num} (hm : n'.m = n.m) (hp : n'.p = n.p) (hb : n'.base = n.base) (ho : n.o = [])
    (ho' : n'.o = []) {e e' : St Nm ℝ} (hu : n.m.u.map (n.E e) = n.m.u.map (n'.E e'))
    (hpp : n.p.map (n.E e) = n.p.map (n'.E e')) {q : String} (h1 : q ∉ n.m.g.x) (h2 : q ∉ n.m.v .all) :
    n.E e q = n'.E e' q := by
  have hv : n.m.v .all = n.m.g.x.map dn ++ n.m.w := by simp [Meth.v, Sfx.pick]
  by_cases hqa : q ∈ n.all
  · have hqa' := hqa
    simp only [Num.all, List.mem_append, ho, List.not_mem_nil, or_false] at hqa'
    rw [hv, List.mem_append, not_or] at h2
    rcases hqa' with (((hh | hh) | hh) | hh) | hh
    · exact absurd hh h1
    · exact absurd hh h2.1
    · exact absurd hh h2.2
    · exact List.map_inj_left.1 hu q hh
    · exact List.map_inj_left.1 hpp q hh
  · have hqa' : q ∉ n'.all := by
      unfold Num.all at hqa ⊢
      rw [hm, hp, ho', ← ho]; exact hqa
    rw [E_base hqa, E_base hqa', hb]

theorem inputs_not_states {n : Num} (hn : n.WF) : ∀ q ∈ n.m.u, q ∉ n.m.g.x := by
  intro q hq hx
  have h := hn.nodup
  simp only [Num.all, List.append_assoc, List.nodup_append, List.mem_append] at h
  exact h.2.2 q hx q (.inr (.inr (.inl hq))) rfl

/-- **C70**, circuits. Two simulations of a circuit of monotone components with a quadratic energy, with the
same inputs and parameters, from different states: with the discrete gradient, the trapezoidal rule or
a theta rule with `1/2 ≤ θ`, their distance in the norm of the energy never increases, up to the
tolerance of the solver, whatever the sample rate and the splitting. -/
theorem C70_circuit {law : String → Env ℝ → ℝ} {fuel : ℕ} {nodes : List String}
    {edges : List (Edge ℝ)} {c c2 : Core ℝ} (h : CircuitOK nodes edges c)
    (hstat : StaticLaws law edges) (hreg : RegularCircuit law edges c.H)
    (hmon : MonotoneCircuit law edges c.H)
    (hquad : QuadEnergy c.H ((ofType .storage edges).map (·.label)))
    (hc : toCore law fuel nodes edges c = some c2)
    (s : Sympy) (hs : s.OK) (o : Config) (hj : JacSound s o c2) (hfs : 0 < o.fs)
    (hw : 1 / 2 ≤ weight o.kind o.θ) (htol : 0 < o.epsdg) (k : String → ℝ)
    (hk : ∀ d ∈ edges, d.type = .storage → ∀ e, pdiff (pdiff c.H d.label) d.label e = k d.label) :
    ∃ m, toMethod s o c2 = some m ∧
      ∀ (n : Num), n.m = m → n.WF → n.o = [] → 0 ≤ n.eps →
      ∀ (nt : ℕ) (sequ seqp : List (List ℝ)) (st st' : ℕ → St Nm ℝ),
        Run n nt sequ seqp st → Run n nt sequ seqp st' →
        (∀ i < nt, Converged n (st (i + 1))) → (∀ i < nt, Converged n (st' (i + 1))) →
        ∀ i N, i + N ≤ nt →
          gap k ((ofType .storage edges).map (·.label)) (n.E (st (i + N))) (n.E (st' (i + N))) ≤
            gap k ((ofType .storage edges).map (·.label)) (n.E (st i)) (n.E (st' i)) +
              ∑ q ∈ Finset.range N, gapSlack n (n.E (st (i + q + 1))) (n.E (st' (i + q + 1))) := by
  obtain ⟨m, h1, hmw, hsp, hdiag, hmf, h5, hgap⟩ :=
    gap_env h hstat hreg hmon hquad hc s hs o hj hfs hw htol k hk
  refine ⟨m, h1, fun n hm hn ho heps nt sequ seqp st st' hr hr' hcv hcv' => ?_⟩
  subst hm
  have hfs' : 0 < n.m.fs := by rw [hmf]; exact hfs
  have hstep : ∀ i < nt, gap k ((ofType .storage edges).map (·.label)) (n.E (st (i + 1)))
      (n.E (st' (i + 1))) ≤ gap k ((ofType .storage edges).map (·.label)) (n.E (st i)) (n.E (st' i)) +
        gapSlack n (n.E (st (i + 1))) (n.E (st' (i + 1))) := by
    intro i hi
    have l1 := hr.facts hn i (by omega)
    have l1' := hr'.facts hn i (by omega)
    have u1 := getD_len hr.lu hr.du hi
    have p1 := getD_len hr.lp hr.dp hi
    obtain ⟨a1, a2, a3, a4⟩ := C24_step hn l1 u1 p1 (hr.step i hi)
    obtain ⟨b1, b2, b3, b4⟩ := C24_step hn l1' u1 p1 (hr'.step i hi)
    obtain ⟨q1, -, q2⟩ := hgap _ _ _ _ (inputs_free hn) (inputs_not_states hn)
      (fun q => off_eq rfl rfl rfl ho ho (a3.trans b3.symm) (a4.trans b4.symm))
      (res_le_tol hn hmw hsp l1 (hr.step i hi) heps (hcv i hi))
      (res_le_tol hn hmw hsp l1' (hr'.step i hi) heps (hcv' i hi))
    rw [gapIn_eq (fun x hx => a2 x (h5.mem_iff.2 hx)) fun x hx => b2 x (h5.mem_iff.2 hx)] at q1
    refine q1.trans (add_le_add (le_refl _) (mul_le_mul_of_nonneg_left (sub_le_self _ ?_) (by positivity)))
    exact Finset.sum_nonneg fun j hj => (q2 _ (by have := Finset.mem_range.1 hj; unfold sz; omega)
      (by omega)).1
  intro i N
  induction N with
  | zero => intro _; simp
  | succ N ih =>
    intro hN
    rw [Finset.sum_range_succ]
    have q1 := hstep (i + N) (by omega)
    have q2 := ih (by omega)
    rw [show i + (N + 1) = i + N + 1 from rfl]
    linarith

/-- **C70**, linear circuits: the same without any hypothesis on the solver. -/
theorem C70_linear {law : String → Env ℝ → ℝ} {fuel : ℕ} {nodes : List String}
    {edges : List (Edge ℝ)} {c c2 : Core ℝ} (h : CircuitOK nodes edges c)
    (hstat : StaticLaws law edges) (hreg : RegularCircuit law edges c.H)
    (hmon : MonotoneCircuit law edges c.H) (hlin : LinearLaws law edges)
    (hquad : QuadEnergy c.H ((ofType .storage edges).map (·.label)))
    (hc : toCore law fuel nodes edges c = some c2)
    (s : Sympy) (hs : s.OK) (o : Config) (hj : JacSound s o c2) (hfs : 0 < o.fs)
    (hw : 1 / 2 ≤ weight o.kind o.θ) (htol : 0 < o.epsdg) (k : String → ℝ)
    (hk : ∀ d ∈ edges, d.type = .storage → ∀ e, pdiff (pdiff c.H d.label) d.label e = k d.label) :
    ∃ m, toMethod s o c2 = some m ∧
      ∀ (n : Num), n.m = m → n.WF → n.o = [] → n.obs = [] → 0 ≤ n.eps → n.eps < 1 → 1 ≤ n.maxit →
      ∀ (nt : ℕ) (sequ seqp : List (List ℝ)) (st st' : ℕ → St Nm ℝ),
        Run n nt sequ seqp st → Run n nt sequ seqp st' →
        ∀ i N, i + N ≤ nt →
          gap k ((ofType .storage edges).map (·.label)) (n.E (st (i + N))) (n.E (st' (i + N))) ≤
            gap k ((ofType .storage edges).map (·.label)) (n.E (st i)) (n.E (st' i)) +
              ∑ q ∈ Finset.range N, gapSlack n (n.E (st (i + q + 1))) (n.E (st' (i + q + 1))) := by
  have hθ : o.kind = .theta → 0 ≤ o.θ := fun e => by
    unfold weight at hw; rw [if_pos e] at hw; linarith
  obtain ⟨m, h1, h2⟩ := C69_linear h hstat hreg hmon hlin hquad hc s hs o hj hfs hθ htol
  obtain ⟨m', h1', h2'⟩ := C70_circuit h hstat hreg hmon hquad hc s hs o hj hfs hw htol k hk
  obtain rfl : m = m' := Option.some.inj (h1.symm.trans h1')
  refine ⟨m, h1, fun n hm hn ho hob he0 he1 hx nt sequ seqp st st' hr hr' => ?_⟩
  have key : ∀ st, Run n nt sequ seqp st → ∀ i < nt, Converged n (st (i + 1)) := fun st hr =>
    ((h2 n hm hn (by rw [ho, hob]; rfl) he0 he1 hx nt sequ seqp (st 0) hr.lu hr.lp
      (hm ▸ hr.du) hr.dp hr.init).2 st hr).1
  exact h2' n hm hn ho he0 nt sequ seqp st st' hr hr' (key st hr) (key st' hr')

end Circuit
end Pyphs
