/-
Property C69, circuits: linear circuits are simulated exactly, whatever the options.
-/
import Verif.Circuit.Unique
import Verif.Numeric.Newton

namespace Pyphs
namespace Circuit
open Scheme Graph Numeric Record H5

/-- The laws of the dissipative components are affine functions of their own variable. -/
def LinearLaws (law : String → Env ℝ → ℝ) (edges : List (Edge ℝ)) : Prop :=
  ∀ d ∈ edges, d.type = .dissipative → ∀ f, f = law d.ze ∨ f = law d.zf →
    Indep (pdiff f d.label) d.label

/-- The laws of the rows of the method of a circuit with a quadratic energy. -/
theorem rows_of {law : String → Env ℝ → ℝ} {fuel : ℕ} {nodes : List String}
    {edges : List (Edge ℝ)} {c c2 : Core ℝ} (h : CircuitOK nodes edges c)
    (hstat : StaticLaws law edges) (hreg : RegularCircuit law edges c.H)
    (hquad : QuadEnergy c.H ((ofType .storage edges).map (·.label)))
    (hc : toCore law fuel nodes edges c = some c2)
    (s : Sympy) (hs : s.OK) (o : Config) (htol : 0 < o.epsdg) {m : Meth}
    (hm : toMethod s o c2 = some m) :
    (∀ x ∈ m.g.x, ∃ d ∈ edges, d.type = .storage ∧ d.label = x) ∧
    (∀ w ∈ m.w, ∃ d ∈ edges, d.type = .dissipative ∧ d.label = w) ∧
    (∀ j < m.g.x.length, vn m j = dn (m.g.x.getD j "") ∧
      fn m j = gradQuad c.H (weight o.kind o.θ) (m.g.x.getD j "")) ∧
    ∀ j < sz m, m.g.x.length ≤ j → ∃ d ∈ edges, d.type = .dissipative ∧ vn m j = d.label ∧
      (fn m j = law d.ze ∨ fn m j = law d.zf) := by
  classical
  obtain ⟨m', ec, h1', h2, h3, h4, h5, h6, ⟨M, h7, h8, h9, -⟩, -⟩ := step_facts h hstat hc s hs o
  obtain rfl : m = m' := Option.some.inj (hm.symm.trans h1')
  obtain ⟨ec', -, -, -, -, -, -, hw, -⟩ := C63_core h hc two_ne_zero
  have hlaws := (method_laws hs (ready_of h hstat hc) hm).trans hw
  have hnd : m.g.x.Nodup := h5.nodup_iff.2
    (List.nodup_append.1 (List.nodup_append.1 hreg.nodup).1).1
  refine ⟨fun x hx => mem_labels_of (h5.mem_iff.1 hx), fun x hx => mem_labels_of (h9.mem_iff.1 hx),
    fun j hjx => ?_, fun j hj hjx => ?_⟩
  · unfold vn fn
    rw [if_pos hjx, if_pos hjx]
    refine ⟨rfl, ?_⟩
    rw [h6, h3, quad_gradient (hquad.mono fun y hy => h5.mem_iff.1 hy) hnd _ _ htol,
      List.getD_eq_getElem?_getD, List.getD_eq_getElem?_getD]
    simp [hjx]
  · unfold sz at hj
    unfold vn fn
    rw [if_neg (by omega), if_neg (by omega)]
    have hjw : j - m.g.x.length < m.w.length := by omega
    have hjz : j - m.g.x.length < m.z.length := by rw [← h2.wz]; exact hjw
    have hp : (m.w[j - m.g.x.length], m.z[j - m.g.x.length]) ∈ m.w.zip m.z := by
      rw [List.mem_iff_getElem]
      exact ⟨j - m.g.x.length, by simp; omega, by simp⟩
    obtain ⟨d, hd, he⟩ := List.mem_map.1 (hlaws.mem_iff.1 hp)
    obtain ⟨q1, q2⟩ := mem_ofType.1 hd
    rw [Prod.mk.injEq] at he
    refine ⟨d, q1, q2, ?_, ?_⟩
    · rw [List.getD_eq_getElem?_getD, List.getElem?_eq_getElem hjw, Option.getD_some, ← he.1]
    · rw [List.getD_eq_getElem?_getD, List.getElem?_eq_getElem hjz, Option.getD_some, ← he.2]
      split_ifs
      · exact .inl rfl
      · exact .inr rfl

/-- The equations of a linear circuit are affine. -/
theorem linear_of {law : String → Env ℝ → ℝ} {fuel : ℕ} {nodes : List String}
    {edges : List (Edge ℝ)} {c c2 : Core ℝ} (h : CircuitOK nodes edges c)
    (hstat : StaticLaws law edges) (hreg : RegularCircuit law edges c.H)
    (hmon : MonotoneCircuit law edges c.H) (hlin : LinearLaws law edges)
    (hquad : QuadEnergy c.H ((ofType .storage edges).map (·.label)))
    (hc : toCore law fuel nodes edges c = some c2)
    (s : Sympy) (hs : s.OK) (o : Config) (hj : JacSound s o c2) (hfs : 0 < o.fs)
    (hθ : o.kind = .theta → 0 ≤ o.θ) (htol : 0 < o.epsdg) :
    ∃ m, toMethod s o c2 = some m ∧ MethWF m ∧ SplitOK m ∧ m.fs = o.fs ∧ DiagSys m ∧
      ((∀ k ∈ m.v .all, k ∉ m.u) → AffineSys m) := by
  obtain ⟨m, h1, hmw, hsp, hmf, hdiag⟩ := diag_of h hstat hreg hmon hc s hs o hj hθ (.inr ⟨hquad, htol⟩)
  obtain ⟨r1, -, r3, r4⟩ := rows_of h hstat hreg hquad hc s hs o htol h1
  refine ⟨m, h1, hmw, hsp, hmf, hdiag, fun inp => ?_⟩
  refine affine_of_diag hmw hsp hdiag (by rw [hmf]; exact hfs) inp fun j hj => ?_
  by_cases hjx : j < m.g.x.length
  · obtain ⟨hv, hg⟩ := r3 j hjx
    rw [hv, hg]
    obtain ⟨d, q1, q2, q3⟩ := r1 _ (Scheme.getD_mem hjx)
    rw [← q3]
    set x := d.label
    have i1 : Indep (pdiff c.H x) (dn x) := indep_pdiff (hreg.Hx.1 d q1 q2)
    have i2 : Indep (pdiff (pdiff c.H x) x) (dn x) := indep_pdiff i1
    have hp : pdiff (gradQuad c.H (weight o.kind o.θ) x) (dn x) =
        fun e => weight o.kind o.θ * pdiff (pdiff c.H x) x e := by
      funext e
      unfold gradQuad
      show deriv (fun t => pdiff c.H x (Function.update e (dn x) t) + weight o.kind o.θ *
        (pdiff (pdiff c.H x) x (Function.update e (dn x) t) * Function.update e (dn x) t (dn x))) _ = _
      simp only [i1 e, i2 e, Function.update_self]
      have q := ((((hasDerivAt_id (e (dn x))).const_mul (pdiff (pdiff c.H x) x e)).const_mul
        (weight o.kind o.θ)).const_add (pdiff c.H x e)).deriv
      simp only [id, mul_one] at q
      exact q
    rw [hp]
    intro e t
    show weight o.kind o.θ * pdiff (pdiff c.H x) x _ = _
    rw [i2]
  · obtain ⟨d, q1, q2, q3, q4⟩ := r4 j hj (by omega)
    rw [q3]
    exact hlin d q1 q2 _ q4

/-- **C69**, linear circuits. A circuit of linear monotone components can be simulated from any state, for
any inputs and parameters, and every update of every simulation converges, whatever the splitting; with
the tolerance zero it solves its equations exactly. -/
theorem C69_linear {law : String → Env ℝ → ℝ} {fuel : ℕ} {nodes : List String}
    {edges : List (Edge ℝ)} {c c2 : Core ℝ} (h : CircuitOK nodes edges c)
    (hstat : StaticLaws law edges) (hreg : RegularCircuit law edges c.H)
    (hmon : MonotoneCircuit law edges c.H) (hlin : LinearLaws law edges)
    (hquad : QuadEnergy c.H ((ofType .storage edges).map (·.label)))
    (hc : toCore law fuel nodes edges c = some c2)
    (s : Sympy) (hs : s.OK) (o : Config) (hj : JacSound s o c2) (hfs : 0 < o.fs)
    (hθ : o.kind = .theta → 0 ≤ o.θ) (htol : 0 < o.epsdg) :
    ∃ m, toMethod s o c2 = some m ∧
      ∀ (n : Num), n.m = m → n.WF → n.obs.length = n.o.length → 0 ≤ n.eps → n.eps < 1 → 1 ≤ n.maxit →
      ∀ (nt : ℕ) (sequ seqp : List (List ℝ)) (s0 : St Nm ℝ),
        sequ.length = nt → seqp.length = nt →
        (∀ r ∈ sequ, r.length = m.u.length) → (∀ r ∈ seqp, r.length = n.p.length) →
        s0.args.length = n.all.length →
        (∃ st, st 0 = s0 ∧ Run n nt sequ seqp st) ∧
        ∀ st, Run n nt sequ seqp st → (∀ i < nt, Converged n (st (i + 1))) ∧
          (n.eps = 0 → SolvedRun n nt st) := by
  obtain ⟨m, h1, h2, h3, h4, h5, h6⟩ :=
    linear_of h hstat hreg hmon hlin hquad hc s hs o hj hfs hθ htol
  refine ⟨m, h1, fun n hm hn ho he0 he1 hmax nt sequ seqp s0 lu lp du dp l0 => ?_⟩
  subst hm
  have hfs' : 0 < n.m.fs := by rw [h4]; exact hfs
  have hN := C67_nonsing h2 h3 (h5.monotone h2 h3 hfs' (inputs_free hn)) hfs'
  refine ⟨C67_run hn h3 hN ho lu lp du dp l0, fun st hr => ?_⟩
  have key : ∀ i < nt, n.nl = 0 ∨ ∃ r, (st (i + 1)).vals .res_Fnl = some (.s r) ∧ 0 ≤ r ∧ r ≤ n.eps :=
    fun i hi => C69_converges hn h3 hN (h6 (inputs_free hn)) he0 he1 hmax (hr.facts hn i (by omega))
      (hr.step i hi)
  refine ⟨fun i hi => (key i hi).imp id fun ⟨r, q1, _, q3⟩ => ⟨r, q1, q3⟩, fun hz i hi => ?_⟩
  refine (key i hi).imp id fun ⟨r, q1, q2, q3⟩ => ?_
  rw [q1, le_antisymm (by rw [← hz]; exact q3) q2]

/-- **C69**, energy. The data recorded in the simulation of a passive linear circuit are passive, whatever the
options of the splitting: C66 without any hypothesis on the solver. -/
theorem C69_passive {law : String → Env ℝ → ℝ} {fuel : ℕ} {nodes : List String}
    {edges : List (Edge ℝ)} {c c2 : Core ℝ} (h : CircuitOK nodes edges c)
    (hstat : StaticLaws law edges) (hreg : RegularCircuit law edges c.H)
    (hmon : MonotoneCircuit law edges c.H) (hlin : LinearLaws law edges) (hpas : PassiveLaws law edges)
    (hquad : QuadEnergy c.H ((ofType .storage edges).map (·.label)))
    (hc : toCore law fuel nodes edges c = some c2)
    (s : Sympy) (hs : s.OK) (o : Config) (hj : JacSound s o c2) (hfs : 0 < o.fs)
    (hθ : o.kind = .theta → o.θ = 1 / 2) (htol : 0 < o.epsdg) :
    ∃ m, toMethod s o c2 = some m ∧
      ∀ (n : Num), n.m = m → n.WF → n.o = [] → n.obs = [] → 0 ≤ n.eps → n.eps < 1 → 1 ≤ n.maxit →
        EnergyReads n →
      ∀ (nt : ℕ) (sequ : List (List ℝ)) (p : List ℝ) (s0 : St Nm ℝ),
        sequ.length = nt → (∀ r ∈ sequ, r.length = m.u.length) → p.length = n.p.length →
        s0.args.length = n.all.length →
      ∃ st, st 0 = s0 ∧ Run n nt sequ (List.replicate nt p) st ∧
      ∀ (w : Window), w.stop = nt → 1 ≤ w.step → ∀ (ev : Eval ℝ), Evaluates n ev c.H →
      ∃ ds dn, initFile (layout n) nt sequ (List.replicate nt p) = .ok ds ∧
        process (layout n) w (machine n) nt s0 ds = .ok (st nt, dn) ∧
        ∀ (w' : Window) (t : TSel) (a b : ℕ), Selects w' t nt a b 1 → a < b →
        ∃ En S : ℕ → ℝ, readExpr (layout n) w' dn (.vector [] []) ev t =
            .ok (.rows ((samples a b 1).map fun i => [En i])) ∧
          readPs (layout n) w' dn t = .ok ((samples a b 1).map S) ∧
          ∀ k N, a ≤ k → k + N < b →
            En (k + N) ≤ En k + (∑ i ∈ Finset.range N,
              (slack n (n.E (st (k + i + 1))) - S (k + i))) / o.fs := by
  obtain ⟨m, h1, h2⟩ := C69_linear h hstat hreg hmon hlin hquad hc s hs o hj hfs
    (fun e => by rw [hθ e]; norm_num) htol
  obtain ⟨m', h1', h2'⟩ := C67_passive h hstat hreg hmon hpas hquad hc s hs o hj hfs hθ htol
  obtain rfl : m = m' := Option.some.inj (h1.symm.trans h1')
  refine ⟨m, h1, fun n hm hn ho hobs he0 he1 hmax hE nt sequ p s0 lu du lp l0 => ?_⟩
  obtain ⟨st, e0, hr, hp⟩ := h2' n hm hn ho hobs he0 hE nt sequ p s0 lu du lp l0
  have q := (h2 n hm hn (by rw [ho, hobs]; rfl) he0 he1 hmax nt sequ (List.replicate nt p) s0 lu (by simp)
    du (fun r hr => by rw [List.eq_of_mem_replicate hr]; exact lp) l0).2 st hr
  exact ⟨st, e0, hr, hp q.1⟩

/-- **C69**, options. Two numerical objects built on the same linear circuit, with the same rule and any
splittings (for instance `split=True`, where nothing is iterated, and `split=False`, where all the unknowns
are iterated) and the tolerance zero, compute the same values of all the symbols and the same outputs at
every step. -/
theorem C69_same {law : String → Env ℝ → ℝ} {fuel : ℕ} {nodes : List String}
    {edges : List (Edge ℝ)} {c c2 : Core ℝ} (h : CircuitOK nodes edges c)
    (hstat : StaticLaws law edges) (hreg : RegularCircuit law edges c.H)
    (hmon : MonotoneCircuit law edges c.H) (hlin : LinearLaws law edges)
    (hquad : QuadEnergy c.H ((ofType .storage edges).map (·.label)))
    (hc : toCore law fuel nodes edges c = some c2)
    (s s' : Sympy) (hs : s.OK) (hs' : s'.OK) (o o' : Config)
    (hr : SameRule c.H ((ofType .storage edges).map (·.label)) o o')
    (hj : JacSound s o c2) (hj' : JacSound s' o' c2) (hfs : 0 < o.fs)
    (hθ : o.kind = .theta → 0 ≤ o.θ) (hθ' : o'.kind = .theta → 0 ≤ o'.θ)
    (htol : 0 < o.epsdg) (htol' : 0 < o'.epsdg) :
    ∃ m m', toMethod s o c2 = some m ∧ toMethod s' o' c2 = some m' ∧
      ∀ (n n' : Num), n.m = m → n'.m = m' → n.WF → n'.WF → n.p = n'.p → n.o = [] → n'.o = [] →
        n.obs = [] → n'.obs = [] → n.base = n'.base → n.eps = 0 → n'.eps = 0 → 1 ≤ n.maxit →
        1 ≤ n'.maxit →
      ∀ (nt : ℕ) (U : ℕ → String → ℝ) (P : ℕ → List ℝ) (s0 s0' : St Nm ℝ),
        (∀ i, (P i).length = n.p.length) → s0.args.length = n.all.length →
        s0'.args.length = n'.all.length → n.E s0 = n'.E s0' →
        ∃ st st', st 0 = s0 ∧ st' 0 = s0' ∧
          Run n nt ((List.range nt).map fun i => m.u.map (U i)) ((List.range nt).map P) st ∧
          Run n' nt ((List.range nt).map fun i => m'.u.map (U i)) ((List.range nt).map P) st' ∧
          ∀ i ≤ nt, n.E (st i) = n'.E (st' i) ∧
            (0 < i → ∀ l ∈ m.y, outOf m l (n.E (st i)) = outOf m' l (n'.E (st' i))) := by
  obtain ⟨m, h1, h2⟩ := C69_linear h hstat hreg hmon hlin hquad hc s hs o hj hfs hθ htol
  obtain ⟨m', h1', h2'⟩ := C69_linear h hstat hreg hmon hlin hquad hc s' hs' o' hj'
    (by rw [← hr.1]; exact hfs) hθ' htol'
  obtain ⟨m1, m1', q1, q1', hq⟩ := C68_simulation h hstat hreg hmon hc s s' hs hs' o o' hr hj hj' hfs hθ
  obtain rfl : m = m1 := Option.some.inj (h1.symm.trans q1)
  obtain rfl : m' = m1' := Option.some.inj (h1'.symm.trans q1')
  refine ⟨m, m', h1, h1', fun n n' hm hm' hn hn' hp ho ho' hob hob' hb he he' hx hx' nt U P s0 s0' lP l0 l0'
    h0 => ?_⟩
  have lens : ∀ (l : List String), ∀ r ∈ (List.range nt).map fun i => l.map (U i), r.length = l.length := by
    intro l r hr
    obtain ⟨i, -, rfl⟩ := List.mem_map.1 hr
    simp
  have lensP : ∀ r ∈ (List.range nt).map P, r.length = n.p.length := by
    intro r hr
    obtain ⟨i, -, rfl⟩ := List.mem_map.1 hr
    exact lP i
  obtain ⟨⟨st, e0, hr1⟩, hs1⟩ := h2 n hm hn (by rw [ho, hob]; rfl) he.ge (by rw [he]; exact one_pos) hx nt
    ((List.range nt).map fun i => m.u.map (U i)) ((List.range nt).map P) s0
    (by simp) (by simp) (lens m.u) lensP l0
  obtain ⟨⟨st', e0', hr1'⟩, hs1'⟩ := h2' n' hm' hn' (by rw [ho', hob']; rfl) he'.ge
    (by rw [he']; exact one_pos) hx' nt
    ((List.range nt).map fun i => m'.u.map (U i)) ((List.range nt).map P) s0' (by simp) (by simp) (lens m'.u)
    (fun r hr => by rw [← hp]; exact lensP r hr) l0'
  refine ⟨st, st', e0, e0', hr1, hr1', ?_⟩
  exact hq n n' hm hm' hn hn' hp ho ho' hb nt U P st st' hr1 hr1' ((hs1 st hr1).2 he)
    ((hs1' st' hr1').2 he') (by rw [e0, e0']; exact h0)

end Circuit
end Pyphs
