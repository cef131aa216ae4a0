/-
Property C75: the errors left by the solver accumulate at most linearly.
-/
import Verif.Circuit.Exact

namespace Pyphs
namespace Circuit
open Scheme Graph Numeric Record

/-- Distance between the states at the end of the steps stored in two environments: the square root of twice
the energy of their difference. -/
noncomputable def stateDist (k : String → ℝ) (xs : List String) (e e' : Env ℝ) : ℝ := Real.sqrt (gap k xs e e')

/-- What a residual of 1 adds, at most, to the distance in one step: `k` are the stiffnesses of the
storages `xs`, `L` bounds the slopes of the laws of the dissipative components `ws`. -/
noncomputable def rate (k L : String → ℝ) (xs ws : List String) (τ fs : ℝ) : ℝ :=
  2 * τ / fs * (xs.map fun x => Real.sqrt (k x)).sum + Real.sqrt ((ws.map L).sum / (2 * fs))

/-- Slopes of the laws are bounded. -/
def SlopeBound (law : String → Env ℝ → ℝ) (edges : List (Edge ℝ)) (L : String → ℝ) : Prop :=
  ∀ d ∈ edges, d.type = .dissipative → ∀ f, f = law d.ze ∨ f = law d.zf →
    ∀ e, pdiff f d.label e ≤ L d.label

/-- One step, as a scalar inequality. -/
theorem sqrt_step {g g' a b : ℝ} (hg : 0 ≤ g) (hg' : 0 ≤ g') (ha : 0 ≤ a) (hb : 0 ≤ b)
    (h : g' ^ 2 ≤ g ^ 2 + a * (g + g') + b ^ 2) : g' ≤ g + a + b := by
  by_contra hc
  push Not at hc
  have h1 : b < g' := by linarith
  have h2 : b * b ≤ b * (g + g') := mul_le_mul_of_nonneg_left (by linarith) hb
  have h3 : 0 < (g' - g - a - b) * (g + g') := mul_pos (by linarith) (by linarith)
  nlinarith

/-- Functions of slope between `0` and `L`. -/
theorem slope_sq {f : Sc} {q : String} (hd : CDiff f q) (h0 : ∀ e, 0 ≤ pdiff f q e) {L : ℝ}
    (hL : ∀ e, pdiff f q e ≤ L) (e : Env ℝ) (s t : ℝ) :
    (f (Function.update e q s) - f (Function.update e q t)) ^ 2 ≤
      L * ((s - t) * (f (Function.update e q s) - f (Function.update e q t))) := by
  have hm := mono_of_pdiff hd h0 e
  have hlip : ∀ s t, t ≤ s → f (Function.update e q s) - f (Function.update e q t) ≤ L * (s - t) := by
    intro s t hst
    have hm2 : Monotone fun t => L * t - f (Function.update e q t) := by
      refine monotone_of_deriv_nonneg (fun t => (differentiableAt_id.const_mul L).sub (hd e t)) fun t => ?_
      have h1 : HasDerivAt (fun t => L * t - f (Function.update e q t))
          (L * 1 - deriv (fun t => f (Function.update e q t)) t) t :=
        ((hasDerivAt_id t).const_mul L).sub (hd e t).hasDerivAt
      rw [h1.deriv]
      have := hL (Function.update e q t)
      rw [pdiff_update] at this
      linarith
    have := hm2 hst
    simp only at this
    linarith
  rcases le_total s t with hst | hst
  · have h1 := hm hst
    have h2 := hlip t s hst
    simp only at h1
    nlinarith
  · have h1 := hm hst
    have h2 := hlip s t hst
    simp only at h1
    nlinarith

/-- The part of the slack due to a dissipative component. -/
theorem diss_part {ρ L a va : ℝ} (hρ : 0 ≤ ρ) (hva : 0 ≤ va) (h : a ^ 2 ≤ L * va) (hL : 0 ≤ L) :
    ρ * |a| - va ≤ ρ ^ 2 * L / 4 := by
  have hs := sq_abs a
  have ha := abs_nonneg a
  rcases hL.eq_or_lt with rfl | hL
  · have : |a| = 0 := by nlinarith
    rw [this]; nlinarith
  · have h1 : L * (ρ * |a| - va) ≤ L * (ρ ^ 2 * L / 4) := by nlinarith [sq_nonneg (|a| - ρ * L / 2)]
    exact le_of_mul_le_mul_left h1 hL

/-- The part of the slack due to a storage. -/
theorem stor_part {k x dx τ g g' : ℝ} (hk : 0 ≤ k) (hτ : 1 / 2 ≤ τ) (hg : 0 ≤ g) (hg' : 0 ≤ g')
    (h : k * x ^ 2 ≤ g ^ 2) (h' : k * (x + dx) ^ 2 ≤ g' ^ 2) :
    |k * (x + τ * dx)| ≤ τ * Real.sqrt k * (g + g') := by
  have hs : Real.sqrt k * Real.sqrt k = k := Real.mul_self_sqrt hk
  have hs0 := Real.sqrt_nonneg k
  set r := Real.sqrt k with hr
  have e1 : |r * x| ≤ g := abs_le_of_sq_le_sq (by nlinarith) hg
  have e2 : |r * (x + dx)| ≤ g' := abs_le_of_sq_le_sq (by nlinarith) hg'
  have e3 : k * (x + τ * dx) = r * ((1 - τ) * (r * x) + τ * (r * (x + dx))) := by rw [← hs]; ring
  rw [e3, abs_mul, abs_of_nonneg hs0, mul_comm τ r, mul_assoc]
  refine mul_le_mul_of_nonneg_left ((abs_add_le _ _).trans ?_) hs0
  rw [abs_mul (1 - τ), abs_mul τ, abs_of_nonneg (show 0 ≤ τ by linarith)]
  have e4 : |1 - τ| ≤ τ := abs_le.2 ⟨by linarith, by linarith⟩
  have := mul_le_mul e4 e1 (abs_nonneg _) (by linarith)
  have := mul_le_mul_of_nonneg_left e2 (show 0 ≤ τ by linarith)
  linarith

/-- A term of a sum of nonnegative terms. -/
theorem le_list_sum {l : List String} {f : String → ℝ} (h : ∀ x ∈ l, 0 ≤ f x) {x : String} (hx : x ∈ l) :
    f x ≤ (l.map f).sum := by
  induction l with
  | nil => cases hx
  | cons y l ih =>
    rw [List.map_cons, List.sum_cons]
    have h0 : 0 ≤ (l.map f).sum := List.sum_nonneg fun z hz => by
      obtain ⟨q, hq, rfl⟩ := List.mem_map.1 hz
      exact h q (by simp [hq])
    rcases List.mem_cons.1 hx with rfl | hx
    · linarith
    · have := ih (fun z hz => h z (by simp [hz])) hx
      have := h y (by simp)
      linarith

/-- A sequence of values of the symbols that solves the equations of a simulation up to residuals `ρ`. -/
structure Approx (n : Num) (nt : ℕ) (sequ seqp : List (List ℝ)) (ρ : ℝ) (ε : ℕ → Env ℝ) : Prop where
  state : ∀ i < nt, ∀ x ∈ n.m.g.x, ε (i + 1) x = ε i x + ε i (dn x)
  inputs : ∀ i < nt, n.m.u.map (ε (i + 1)) = sequ.getD i []
  params : ∀ i < nt, n.p.map (ε (i + 1)) = seqp.getD i []
  others : ∀ i < nt, ∀ q ∉ n.all, ε (i + 1) q = n.base q
  res : ∀ i < nt, ∀ r < sz n.m, |n.m.res r (ε (i + 1))| ≤ ρ

theorem ExactRun.approx {n : Num} (hw : MethWF n.m) {nt : ℕ} {sequ seqp : List (List ℝ)} {ε : ℕ → Env ℝ}
    (h : ExactRun n nt sequ seqp ε) : Approx n nt sequ seqp 0 ε :=
  ⟨h.state, h.inputs, h.params, h.others, fun i hi r hr => by
    rw [(solved_res hw _).1 (h.solved i hi) r hr, abs_zero]⟩

theorem run_approx {n : Num} (hn : n.WF) (hw : MethWF n.m) (hs : SplitOK n.m) (heps : 0 ≤ n.eps)
    {nt : ℕ} {sequ seqp : List (List ℝ)} {st : ℕ → St Nm ℝ} (hr : Run n nt sequ seqp st)
    (hcv : ∀ i < nt, Converged n (st (i + 1))) :
    Approx n nt sequ seqp n.tol fun i => n.E (st i) := by
  have key : ∀ i (hi : i < nt), _ := fun i hi => C24_step hn (hr.facts hn i (by omega))
    (getD_len hr.lu hr.du hi) (getD_len hr.lp hr.dp hi) (hr.step i hi)
  exact ⟨fun i hi => (key i hi).2.1, fun i hi => (key i hi).2.2.1, fun i hi => (key i hi).2.2.2,
    fun i hi q hq => E_base hq, fun i hi => res_le_tol hn hw hs (hr.facts hn i (by omega)) (hr.step i hi) heps
      (hcv i hi)⟩

/-- Two approximate solutions. -/
theorem approx_dist {law : String → Env ℝ → ℝ} {fuel : ℕ} {nodes : List String}
    {edges : List (Edge ℝ)} {c c2 : Core ℝ} (h : CircuitOK nodes edges c)
    (hstat : StaticLaws law edges) (hreg : RegularCircuit law edges c.H)
    (hmon : MonotoneCircuit law edges c.H)
    (hquad : QuadEnergy c.H ((ofType .storage edges).map (·.label)))
    (hc : toCore law fuel nodes edges c = some c2)
    (s : Sympy) (hs : s.OK) (o : Config) (hj : JacSound s o c2) (hfs : 0 < o.fs)
    (hw : 1 / 2 ≤ weight o.kind o.θ) (htol : 0 < o.epsdg) (k L : String → ℝ)
    (hk : ∀ d ∈ edges, d.type = .storage → ∀ e, pdiff (pdiff c.H d.label) d.label e = k d.label)
    (hL : SlopeBound law edges L) :
    ∃ m, toMethod s o c2 = some m ∧ MethWF m ∧ SplitOK m ∧
      ∀ (n : Num), n.m = m → n.WF → n.o = [] →
      ∀ (nt : ℕ) (sequ seqp : List (List ℝ)) (ρ ρ' : ℝ) (ε ε' : ℕ → Env ℝ), 0 ≤ ρ → 0 ≤ ρ' →
        Approx n nt sequ seqp ρ ε → Approx n nt sequ seqp ρ' ε' →
        ∀ i ≤ nt, stateDist k ((ofType .storage edges).map (·.label)) (ε i) (ε' i) ≤
          stateDist k ((ofType .storage edges).map (·.label)) (ε 0) (ε' 0) +
            i * ((ρ + ρ') * rate k L ((ofType .storage edges).map (·.label))
              ((ofType .dissipative edges).map (·.label)) (weight o.kind o.θ) o.fs) := by
  obtain ⟨m, h1, hmw, hsp, hdiag, hmf, h5, hgap⟩ :=
    gap_env h hstat hreg hmon hquad hc s hs o hj hfs hw htol k hk
  obtain ⟨m', ec, h1', -, -, -, -, -, ⟨M, -, -, h9, -⟩, -⟩ := step_facts h hstat hc s hs o
  obtain rfl : m = m' := Option.some.inj (h1.symm.trans h1')
  obtain ⟨r1, r2, r3, r4⟩ := rows_of h hstat hreg hquad hc s hs o htol h1
  refine ⟨m, h1, hmw, hsp, fun n hm hn ho nt sequ seqp ρ ρ' ε ε' hρ hρ' ha ha' => ?_⟩
  subst hm
  set xs := (ofType .storage edges).map (·.label) with hxs
  set ws := (ofType .dissipative edges).map (·.label) with hws
  set τ := weight o.kind o.θ with hτ
  have hv : n.m.v .all = n.m.g.x.map dn ++ n.m.w := by simp [Meth.v, Sfx.pick]
  have hk0 : ∀ x ∈ xs, 0 ≤ k x := fun x hx => by
    obtain ⟨d, q1, q2, q3⟩ := mem_labels_of hx
    rw [← q3, ← hk d q1 q2 (fun _ => 0)]
    exact hmon.convex d q1 q2 _
  have hL0 : ∀ w ∈ ws, 0 ≤ L w := fun w hw' => by
    obtain ⟨d, q1, q2, q3⟩ := mem_labels_of hw'
    rw [← q3]
    exact (hmon.mono d q1 q2 _ (.inl rfl) fun _ => 0).trans (hL d q1 q2 _ (.inl rfl) _)
  have hg0 : ∀ e e' : Env ℝ, 0 ≤ gap k xs e e' := fun e e' => List.sum_nonneg fun z hz => by
    obtain ⟨x, hx, rfl⟩ := List.mem_map.1 hz
    exact mul_nonneg (hk0 x hx) (sq_nonneg _)
  have hLs : 0 ≤ (ws.map L).sum := List.sum_nonneg fun z hz => by
    obtain ⟨x, hx, rfl⟩ := List.mem_map.1 hz
    exact hL0 x hx
  have hks : 0 ≤ (xs.map fun x => Real.sqrt (k x)).sum := List.sum_nonneg fun z hz => by
    obtain ⟨x, hx, rfl⟩ := List.mem_map.1 hz
    exact Real.sqrt_nonneg _
  have hstep : ∀ i < nt, stateDist k xs (ε (i + 1)) (ε' (i + 1)) ≤ stateDist k xs (ε i) (ε' i) +
      (ρ + ρ') * rate k L xs ws τ o.fs := by
    intro i hi
    have hoff : ∀ q, q ∉ n.m.g.x → q ∉ n.m.v .all → ε (i + 1) q = ε' (i + 1) q := by
      intro q hq1 hq2
      by_cases hqa : q ∈ n.all
      · simp only [Num.all, List.mem_append, ho, List.not_mem_nil, or_false] at hqa
        rw [hv, List.mem_append, not_or] at hq2
        rcases hqa with (((hh | hh) | hh) | hh) | hh
        · exact absurd hh hq1
        · exact absurd hh hq2.1
        · exact absurd hh hq2.2
        · exact List.map_inj_left.1 ((ha.inputs i hi).trans (ha'.inputs i hi).symm) q hh
        · exact List.map_inj_left.1 ((ha.params i hi).trans (ha'.params i hi).symm) q hh
      · rw [ha.others i hi q hqa, ha'.others i hi q hqa]
    obtain ⟨p1, p2, p3⟩ := hgap (ε (i + 1)) (ε' (i + 1)) ρ ρ' (inputs_free hn) (inputs_not_states hn) hoff
      (ha.res i hi) (ha'.res i hi)
    have hin := gapIn_eq (k := k) (xs := xs) (fun x hx => ha.state i hi x (h5.mem_iff.2 hx))
      fun x hx => ha'.state i hi x (h5.mem_iff.2 hx)
    set e := ε (i + 1) with he
    set e' := ε' (i + 1) with he'
    set g := stateDist k xs (ε i) (ε' i) with hg
    set g' := stateDist k xs e e' with hg'
    have gn : 0 ≤ g := Real.sqrt_nonneg _
    have gn' : 0 ≤ g' := Real.sqrt_nonneg _
    have gs : g ^ 2 = gap k xs (ε i) (ε' i) := Real.sq_sqrt (hg0 _ _)
    have gs' : g' ^ 2 = gap k xs e e' := Real.sq_sqrt (hg0 _ _)
    -- storages
    have hstor : ∑ j ∈ Finset.range n.m.g.x.length, |fn n.m j e - fn n.m j e'| ≤
        τ * (xs.map fun x => Real.sqrt (k x)).sum * (g + g') := by
      have : (xs.map fun x => Real.sqrt (k x)).sum =
          ∑ j ∈ Finset.range n.m.g.x.length, Real.sqrt (k (n.m.g.x.getD j "")) := by
        rw [← (h5.map _).sum_eq, Scheme.list_sum_range]
      rw [this, Finset.mul_sum, Finset.sum_mul]
      refine Finset.sum_le_sum fun j hj => ?_
      have hj' := Finset.mem_range.1 hj
      have hx : n.m.g.x.getD j "" ∈ xs := h5.mem_iff.1 (Scheme.getD_mem hj')
      rw [(p2 j hj').2]
      refine stor_part (hk0 _ hx) hw gn gn' ?_ ?_
      · rw [gs, ← hin]
        exact le_list_sum (f := fun x => k x * (e x - e' x) ^ 2)
          (fun x hx => mul_nonneg (hk0 x hx) (sq_nonneg _)) hx
      · rw [gs']
        have := le_list_sum (f := fun x => k x * (e x + e (dn x) - (e' x + e' (dn x))) ^ 2)
          (fun x hx => mul_nonneg (hk0 x hx) (sq_nonneg _)) hx
        refine le_trans (le_of_eq ?_) this
        ring
    -- dissipative components
    have hdiss : ∑ j ∈ Finset.range n.m.w.length, ((ρ + ρ') * |fn n.m (n.m.g.x.length + j) e -
          fn n.m (n.m.g.x.length + j) e'| -
          (e (vn n.m (n.m.g.x.length + j)) - e' (vn n.m (n.m.g.x.length + j))) *
            (fn n.m (n.m.g.x.length + j) e - fn n.m (n.m.g.x.length + j) e')) ≤
        (ρ + ρ') ^ 2 * (ws.map L).sum / 4 := by
      have : (ws.map L).sum = ∑ j ∈ Finset.range n.m.w.length, L (n.m.w.getD j "") := by
        rw [← (h9.map _).sum_eq, Scheme.list_sum_range]
      rw [this, Finset.mul_sum, Finset.sum_div]
      refine Finset.sum_le_sum fun j hj => ?_
      have hj' := Finset.mem_range.1 hj
      have hjs : n.m.g.x.length + j < sz n.m := by unfold sz; omega
      obtain ⟨a1, a2⟩ := p3 (n.m.g.x.length + j) hjs (by omega)
      obtain ⟨d, q1, q2, q3, q4⟩ := r4 (n.m.g.x.length + j) hjs (by omega)
      have hwj : n.m.w.getD j "" = d.label := by
        rw [← q3]; unfold vn; rw [if_neg (by omega)]; congr 1; omega
      refine diss_part (by linarith) a1 ?_ (by rw [hwj]; exact hL0 _ (List.mem_map_of_mem
        (f := fun d : Edge ℝ => d.label) (mem_ofType.2 ⟨q1, q2⟩)))
      rw [hwj, a2]
      have hself : fn n.m (n.m.g.x.length + j) e = fn n.m (n.m.g.x.length + j)
          (Function.update e (vn n.m (n.m.g.x.length + j)) (e (vn n.m (n.m.g.x.length + j)))) := by
        rw [Function.update_eq_self]
      rw [hself]
      refine slope_sq (hdiag.diff _ hjs) (hdiag.mono _ hjs) ?_ e _ _
      rw [q3]
      exact fun e => hL d q1 q2 _ q4 e
    have hsum : (ρ + ρ') * ∑ j ∈ Finset.range (sz n.m), |fn n.m j e - fn n.m j e'| -
        ∑ j ∈ Finset.range n.m.w.length,
          (e (vn n.m (n.m.g.x.length + j)) - e' (vn n.m (n.m.g.x.length + j))) *
            (fn n.m (n.m.g.x.length + j) e - fn n.m (n.m.g.x.length + j) e') ≤
        (ρ + ρ') * (τ * (xs.map fun x => Real.sqrt (k x)).sum * (g + g')) +
          (ρ + ρ') ^ 2 * (ws.map L).sum / 4 := by
      unfold sz
      rw [Finset.sum_range_add, mul_add]
      have q1 := mul_le_mul_of_nonneg_left hstor (show 0 ≤ ρ + ρ' by linarith)
      rw [Finset.sum_sub_distrib, ← Finset.mul_sum] at hdiss
      linarith
    have hfs2 : (0 : ℝ) < 2 * o.fs := by linarith
    have hmul := mul_le_mul_of_nonneg_left hsum (show 0 ≤ 2 / n.m.fs by rw [hmf]; positivity)
    rw [hin, ← gs, ← gs'] at p1
    have hfin : g' ^ 2 ≤ g ^ 2 + ((ρ + ρ') * (2 * τ / o.fs * (xs.map fun x => Real.sqrt (k x)).sum)) * (g + g') +
        ((ρ + ρ') * Real.sqrt ((ws.map L).sum / (2 * o.fs))) ^ 2 := by
      rw [mul_pow, Real.sq_sqrt (div_nonneg hLs hfs2.le)]
      refine (p1.trans (add_le_add (le_refl _) hmul)).trans (le_of_eq ?_)
      rw [hmf]
      field_simp
      ring
    have := sqrt_step gn gn' (by
      refine mul_nonneg (by linarith) (mul_nonneg (div_nonneg (by linarith) hfs.le) hks))
      (mul_nonneg (by linarith) (Real.sqrt_nonneg _)) hfin
    unfold rate
    linarith
  intro i
  induction i with
  | zero => intro _; simp
  | succ i ih =>
    intro hi
    have q1 := hstep i (by omega)
    have q2 := ih (by omega)
    push_cast
    linarith

/-- **C75**. The simulation and the exact solution of its equations. The distance between the state computed
after `i` steps and the state of the exact solution (C74) is at most the distance at the beginning
plus `i` times the tolerance of the solver times a constant that depends on the components, the
sample rate and the rule only. -/
theorem C75_exact {law : String → Env ℝ → ℝ} {fuel : ℕ} {nodes : List String}
    {edges : List (Edge ℝ)} {c c2 : Core ℝ} (h : CircuitOK nodes edges c)
    (hstat : StaticLaws law edges) (hreg : RegularCircuit law edges c.H)
    (hmon : MonotoneCircuit law edges c.H)
    (hquad : QuadEnergy c.H ((ofType .storage edges).map (·.label)))
    (hc : toCore law fuel nodes edges c = some c2)
    (s : Sympy) (hs : s.OK) (o : Config) (hj : JacSound s o c2) (hfs : 0 < o.fs)
    (hw : 1 / 2 ≤ weight o.kind o.θ) (htol : 0 < o.epsdg) (k L : String → ℝ)
    (hk : ∀ d ∈ edges, d.type = .storage → ∀ e, pdiff (pdiff c.H d.label) d.label e = k d.label)
    (hL : SlopeBound law edges L) :
    ∃ m, toMethod s o c2 = some m ∧
      ∀ (n : Num), n.m = m → n.WF → n.o = [] → 0 ≤ n.eps →
      ∀ (nt : ℕ) (sequ seqp : List (List ℝ)) (st : ℕ → St Nm ℝ) (ε : ℕ → Env ℝ),
        Run n nt sequ seqp st → (∀ i < nt, Converged n (st (i + 1))) →
        ExactRun n nt sequ seqp ε →
        ∀ i ≤ nt, stateDist k ((ofType .storage edges).map (·.label)) (n.E (st i)) (ε i) ≤
          stateDist k ((ofType .storage edges).map (·.label)) (n.E (st 0)) (ε 0) +
            i * (n.eps * rate k L ((ofType .storage edges).map (·.label))
              ((ofType .dissipative edges).map (·.label)) (weight o.kind o.θ) o.fs) := by
  obtain ⟨m, h1, hmw, hsp, hd⟩ :=
    approx_dist h hstat hreg hmon hquad hc s hs o hj hfs hw htol k L hk hL
  refine ⟨m, h1, fun n hm hn ho heps nt sequ seqp st ε hr hcv hex i hi => ?_⟩
  subst hm
  have ht : n.tol ≤ n.eps := by
    unfold Num.tol; split_ifs
    · exact heps
    · exact le_refl _
  have ha := run_approx hn hmw hsp heps hr hcv
  have := hd n rfl hn ho nt sequ seqp n.eps 0 (fun i => n.E (st i)) ε heps (le_refl _)
    ⟨ha.state, ha.inputs, ha.params, ha.others, fun i hi r hr => (ha.res i hi r hr).trans ht⟩
    (hex.approx hmw) i hi
  simp only [add_zero] at this
  exact this

/-- **C75**, two simulations that differ by the tolerance, the number of iterations and the starting point of
the solver: their distance grows at most linearly too. -/
theorem C75_runs {law : String → Env ℝ → ℝ} {fuel : ℕ} {nodes : List String}
    {edges : List (Edge ℝ)} {c c2 : Core ℝ} (h : CircuitOK nodes edges c)
    (hstat : StaticLaws law edges) (hreg : RegularCircuit law edges c.H)
    (hmon : MonotoneCircuit law edges c.H)
    (hquad : QuadEnergy c.H ((ofType .storage edges).map (·.label)))
    (hc : toCore law fuel nodes edges c = some c2)
    (s : Sympy) (hs : s.OK) (o : Config) (hj : JacSound s o c2) (hfs : 0 < o.fs)
    (hw : 1 / 2 ≤ weight o.kind o.θ) (htol : 0 < o.epsdg) (k L : String → ℝ)
    (hk : ∀ d ∈ edges, d.type = .storage → ∀ e, pdiff (pdiff c.H d.label) d.label e = k d.label)
    (hL : SlopeBound law edges L) :
    ∃ m, toMethod s o c2 = some m ∧
      ∀ (n n' : Num), n.m = m → n.WF → n.o = [] → n' = { n with eps := n'.eps, maxit := n'.maxit } →
        0 ≤ n.eps → 0 ≤ n'.eps →
      ∀ (nt : ℕ) (sequ seqp : List (List ℝ)) (st st' : ℕ → St Nm ℝ),
        Run n nt sequ seqp st → (∀ i < nt, Converged n (st (i + 1))) →
        Run n' nt sequ seqp st' → (∀ i < nt, Converged n' (st' (i + 1))) →
        ∀ i ≤ nt, stateDist k ((ofType .storage edges).map (·.label)) (n.E (st i)) (n'.E (st' i)) ≤
          stateDist k ((ofType .storage edges).map (·.label)) (n.E (st 0)) (n'.E (st' 0)) +
            i * ((n.eps + n'.eps) * rate k L ((ofType .storage edges).map (·.label))
              ((ofType .dissipative edges).map (·.label)) (weight o.kind o.θ) o.fs) := by
  obtain ⟨m, h1, hmw, hsp, hd⟩ :=
    approx_dist h hstat hreg hmon hquad hc s hs o hj hfs hw htol k L hk hL
  refine ⟨m, h1, fun n n' hm hn ho hn' heps heps' nt sequ seqp st st' hr hcv hr' hcv' i hi => ?_⟩
  subst hm
  have ht : ∀ q : Num, 0 ≤ q.eps → q.tol ≤ q.eps := fun q hq => by
    unfold Num.tol; split_ifs
    · exact hq
    · exact le_refl _
  have ha := run_approx hn hmw hsp heps hr hcv
  have hm' : n'.m = n.m := by rw [hn']
  have hall : n'.all = n.all := by rw [hn']; rfl
  have hp' : n'.p = n.p := by rw [hn']
  have ha' := run_approx (n := n') ⟨by rw [hall]; exact hn.nodup, by rw [hm']; exact hn.uy⟩
    (by rw [hm']; exact hmw) (by rw [hm']; exact hsp) heps' hr' hcv'
  have a1 := ha'.state
  have a2 := ha'.inputs
  have a3 := ha'.params
  have a4 := ha'.others
  have a5 := ha'.res
  rw [hm'] at a1 a2 a5
  rw [hp'] at a3
  rw [hall, show n'.base = n.base by rw [hn']] at a4
  exact hd n rfl hn ho nt sequ seqp n.eps n'.eps (fun i => n.E (st i)) (fun i => n'.E (st' i)) heps heps'
    ⟨ha.state, ha.inputs, ha.params, ha.others, fun i hi r hr => (ha.res i hi r hr).trans (ht n heps)⟩
    ⟨a1, a2, a3, a4, fun i hi r hr => (a5 i hi r hr).trans (ht n' heps')⟩ i hi

end Circuit
end Pyphs
