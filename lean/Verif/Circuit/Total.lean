/-
Property C67, circuits: the simulation of a circuit of monotone components never fails.
-/
import Verif.Circuit.Run
import Verif.Circuit.QuadForm
import Verif.Numeric.NonsingProps

namespace Pyphs
namespace Circuit
open Scheme Graph Numeric Record

/-- Convex energies that are sums over the components; laws `Z` of dissipative components that are
nondecreasing functions of their own variable. -/
structure MonotoneFor (Z : Edge ℝ → Sc → Prop) (edges : List (Edge ℝ)) (H : Sc) : Prop where
  cross : ∀ d ∈ edges, d.type = .storage → ∀ r ∈ edges, r.type = .storage → r.label ≠ d.label →
    Indep (pdiff H d.label) r.label
  convex : ∀ d ∈ edges, d.type = .storage → ∀ e, 0 ≤ pdiff (pdiff H d.label) d.label e
  own : ∀ d ∈ edges, d.type = .dissipative → ∀ f, Z d f →
    ∀ r ∈ edges, r.type = .dissipative → r.label ≠ d.label → Indep f r.label
  mono : ∀ d ∈ edges, d.type = .dissipative → ∀ f, Z d f → ∀ e, 0 ≤ pdiff f d.label e

/-- The same, for both laws of each dissipative component. -/
abbrev MonotoneCircuit (law : String → Env ℝ → ℝ) (edges : List (Edge ℝ)) (H : Sc) : Prop :=
  MonotoneFor (fun d f => f = law d.ze ∨ f = law d.zf) edges H

/-- Symbol `dn s` in a shifted expression. -/
theorem subs_shift_dn {f : Sc} {xs : List String} {θ : ℝ} {s : String} (hi : Indep f (dn s))
    (hs : s ∈ xs) (hx : dn s ∉ xs) (e : Env ℝ) (t : ℝ) :
    subs (shift xs θ) f (Function.update e (dn s) t) =
      f (Function.update (moved e (fun s => θ * incr e s) xs) s (e s + θ * t)) := by
  have hne : s ≠ dn s := fun hh => hx (hh ▸ hs)
  rw [Scheme.subs_shift]
  rw [← hi (Function.update (moved e (fun s => θ * incr e s) xs) s (e s + θ * t)) t]
  congr 1
  funext r
  by_cases h1 : r = dn s
  · subst h1
    simp [moved, hx]
  · rw [Function.update_of_ne h1]
    by_cases h2 : r = s
    · subst h2
      simp [moved, hs, incr, Function.update_of_ne hne]
    · rw [Function.update_of_ne h2]
      have h3 : dn r ≠ dn s := fun hh => h2 (dn_inj hh)
      simp [moved, incr, Function.update_of_ne h1, Function.update_of_ne h3]

/-- A component of the gradient: a nondecreasing function of its own increment. -/
structure OwnIncr (V : List String) (x : String) (G : Sc) : Prop where
  own : ∀ k ∈ V, k ≠ dn x → Indep G k
  diff : CDiff G (dn x)
  mono : ∀ e, 0 ≤ pdiff G (dn x) e

/-- A shifted derivative. -/
theorem OwnIncr.shift {f : Sc} {xs ws : List String} {θ : ℝ} (hθ : 0 ≤ θ) {x : String} (hx : x ∈ xs)
    (hf : ∀ k ∈ xs.map dn ++ ws, Indep f k) (hnd : (xs ++ xs.map dn ++ ws).Nodup)
    (hc : ∀ y ∈ xs, y ≠ x → Indep f y) (hd : CDiff f x) (hm : ∀ e, 0 ≤ pdiff f x e) :
    OwnIncr (xs.map dn ++ ws) x (subs (Scheme.shift xs θ) f) := by
  rw [List.append_assoc] at hnd
  have hdis := (List.nodup_append.1 hnd).2.2
  have hdn : ∀ y ∈ xs, dn y ∉ xs := fun y hy hh =>
    hdis _ hh _ (List.mem_append_left _ (List.mem_map_of_mem hy)) rfl
  have hid : ∀ y ∈ xs, Indep f (dn y) := fun y hy =>
    hf _ (List.mem_append_left _ (List.mem_map_of_mem hy))
  refine ⟨fun k hk hkx => ?_, ?_, fun e => ?_⟩
  · rcases List.mem_append.1 hk with h | h
    · obtain ⟨y, hy, rfl⟩ := List.mem_map.1 h
      intro e t
      rw [subs_shift_dn (hid y hy) hy (hdn y hy), hc y hy (fun hh => hkx (hh ▸ rfl)),
        Scheme.subs_shift]
    · refine indep_subs_shift (hf _ hk) (fun hh => hdis _ hh _ hk rfl) fun hh => ?_
      exact (List.nodup_append.1 (List.nodup_append.1 hnd).2.1).2.2 _ hh _ h rfl
  · exact cdiff_subs_shift hd (hid x hx) hx (hdn x hx)
  · unfold pdiff
    simp only [subs_shift_dn (hid x hx) hx (hdn x hx)]
    have h1 : HasDerivAt (fun t : ℝ => e x + θ * t) θ (e (dn x)) := by
      simpa using ((hasDerivAt_id (e (dn x))).const_mul θ).const_add (e x)
    have h2 := ((hd (moved e (fun s => θ * incr e s) xs)) (e x + θ * e (dn x))).hasDerivAt
    have h3 := (h2.comp (e (dn x)) h1).deriv
    have h4 : deriv (fun t => f (Function.update (moved e (fun s => θ * incr e s) xs) x t))
        (e x + θ * e (dn x)) = pdiff f x (Function.update (moved e (fun s => θ * incr e s) xs) x
          (e x + θ * e (dn x))) := (pdiff_update _ _ _ _).symm
    show 0 ≤ deriv ((fun t => f (Function.update (moved e (fun s => θ * incr e s) xs) x t)) ∘
      fun t => e x + θ * t) (e (dn x))
    rw [h3, h4]
    exact mul_nonneg (hm _) hθ

theorem OwnIncr.of_indep {V : List String} {x : String} {G : Sc} (h : ∀ k ∈ V, Indep G k)
    (hx : dn x ∈ V) : OwnIncr V x G :=
  ⟨fun k hk _ => h k hk, CDiff.of_indep (h _ hx), fun e => le_of_eq (pdiff_indep (h _ hx) e).symm⟩

theorem OwnIncr.add {V : List String} {x : String} {G K : Sc} (h : OwnIncr V x G)
    (h' : OwnIncr V x K) : OwnIncr V x fun e => G e + K e where
  own := fun k hk hx e t => by
    show G _ + K _ = _
    rw [h.own k hk hx, h'.own k hk hx]
  diff := CDiff.add' h.diff h'.diff
  mono := fun e => by
    have : pdiff (fun e => G e + K e) (dn x) e = pdiff G (dn x) e + pdiff K (dn x) e :=
      deriv_fun_add (h.diff e _) (h'.diff e _)
    rw [this]; exact add_nonneg (h.mono e) (h'.mono e)

theorem OwnIncr.cmul {V : List String} {x : String} {G : Sc} {c : ℝ} (hc : 0 ≤ c)
    (h : OwnIncr V x G) : OwnIncr V x fun e => c * G e where
  own := fun k hk hx e t => by
    show c * G _ = _
    rw [h.own k hk hx]
  diff := CDiff.cmul' c h.diff
  mono := fun e => by
    have : pdiff (fun e => c * G e) (dn x) e = c * pdiff G (dn x) e :=
      deriv_const_mul _ (h.diff e _)
    rw [this]; exact mul_nonneg hc (h.mono e)

theorem OwnIncr.quad {H : Sc} {V : List String} {x : String} {τ : ℝ} (hτ : 0 ≤ τ)
    (hH : ∀ k ∈ V, Indep H k) (hx : dn x ∈ V) (hm : ∀ e, 0 ≤ pdiff (pdiff H x) x e) :
    OwnIncr V x (gradQuad H τ x) := by
  have h1 : ∀ k ∈ V, Indep (pdiff H x) k := fun k hk => indep_pdiff (hH k hk)
  have h2 : ∀ k ∈ V, Indep (pdiff (pdiff H x) x) k := fun k hk => indep_pdiff (h1 k hk)
  refine OwnIncr.add (.of_indep h1 hx) (OwnIncr.cmul hτ ⟨fun k hk hk' e t => ?_, fun e => ?_,
    fun e => ?_⟩)
  · show pdiff (pdiff H x) x _ * Function.update e k t (dn x) = _
    rw [h2 k hk, Function.update_of_ne (Ne.symm hk')]
  · simp only [h2 _ hx e, Function.update_self]
    exact differentiable_id.const_mul _
  · show 0 ≤ deriv (fun t => pdiff (pdiff H x) x (Function.update e (dn x) t) *
      Function.update e (dn x) t (dn x)) (e (dn x))
    simp only [h2 _ hx e, Function.update_self]
    have h3 := ((hasDerivAt_id (e (dn x))).const_mul (pdiff (pdiff H x) x e)).deriv
    simp only [mul_one, id] at h3
    rw [h3]; exact hm e

/-- The gradients of convex separable energies: the theta and trapezoidal rules for all of them, all
rules for quadratic ones. -/
theorem gradient_own {H : Sc} {g : Groups} {ws : List String} {kind : Grad} {θ tol : ℝ}
    (hnd : (g.x ++ g.x.map dn ++ ws).Nodup) (hH : ∀ k ∈ g.x.map dn ++ ws, Indep H k)
    (hd : ∀ x ∈ g.x, CDiff (pdiff H x) x)
    (hc : ∀ x ∈ g.x, ∀ y ∈ g.x, y ≠ x → Indep (pdiff H x) y)
    (hm : ∀ x ∈ g.x, ∀ e, 0 ≤ pdiff (pdiff H x) x e)
    (hθ : kind = .theta → 0 ≤ θ)
    (hk : kind ≠ .discret ∨ (QuadEnergy H g.x ∧ 0 < tol)) :
    ∃ G : String → Sc, buildGradient H g kind θ tol = g.x.map G ∧
      ∀ x ∈ g.x, OwnIncr (g.x.map dn ++ ws) x (G x) := by
  have hV : ∀ x ∈ g.x, dn x ∈ g.x.map dn ++ ws := fun x hx =>
    List.mem_append_left _ (List.mem_map_of_mem hx)
  have hsh : ∀ τ : ℝ, 0 ≤ τ → ∀ x ∈ g.x,
      OwnIncr (g.x.map dn ++ ws) x (subs (Scheme.shift g.x τ) (pdiff H x)) := fun τ hτ x hx =>
    OwnIncr.shift hτ hx (fun k hk => indep_pdiff (hH k hk)) hnd (hc x hx) (hd x hx) (hm x hx)
  cases hk' : kind with
  | theta =>
    refine ⟨fun x => subs (Scheme.shift g.x θ) (pdiff H x), ?_, hsh θ (hθ hk')⟩
    simp only [buildGradient, gradTheta, gradient, List.map_map]
    rfl
  | trapez =>
    refine ⟨fun x e => 0.5 * (pdiff H x e + subs (Scheme.shift g.x 1) (pdiff H x) e), ?_, fun x hx => ?_⟩
    · simp only [buildGradient, gradTrapez, gradient, List.map_map]
      rfl
    · exact OwnIncr.cmul (by norm_num) (OwnIncr.add
        (.of_indep (fun k hk => indep_pdiff (hH k hk)) (hV x hx)) (hsh 1 zero_le_one x hx))
  | discret =>
    rcases hk with h | ⟨hq, ht⟩
    · exact absurd hk' h
    · have hx0 : g.x.Nodup := (List.nodup_append.1 (List.nodup_append.1 hnd).1).1
      refine ⟨gradQuad H (weight .discret θ), quad_gradient hq hx0 _ _ ht, fun x hx => ?_⟩
      refine OwnIncr.quad ?_ hH (hV x hx) (hm x hx)
      unfold weight
      rw [if_neg (by decide)]
      norm_num

/-- The laws of the method of a circuit are monotone if the components are, for the laws of the core. -/
theorem diag_for {law : String → Env ℝ → ℝ} {Z : Edge ℝ → Sc → Prop} {fuel : ℕ} {nodes : List String}
    {edges : List (Edge ℝ)} {c c2 : Core ℝ} (h : CircuitOK nodes edges c)
    (hstat : StaticLaws law edges) (hreg : RegularFor Z edges c.H)
    (hmon : MonotoneFor Z edges c.H)
    (hc : toCore law fuel nodes edges c = some c2)
    (hz : ∀ p ∈ c2.w.zip c2.z, ∃ d ∈ edges, d.type = .dissipative ∧ d.label = p.1 ∧ Z d p.2)
    (s : Sympy) (hs : s.OK) (o : Config) (hj : o.split = true → JacSound s o c2)
    (hθ : o.kind = .theta → 0 ≤ o.θ)
    (hk : o.kind ≠ .discret ∨
      (QuadEnergy c.H ((ofType .storage edges).map (·.label)) ∧ 0 < o.epsdg)) :
    ∃ m, toMethod s o c2 = some m ∧ MethWF m ∧ SplitOK m ∧ m.fs = o.fs ∧ DiagSys m := by
  classical
  obtain ⟨m, ec, h1, h2, h3, h4, h5, h6, ⟨M, h7, h8, h9, -⟩, -⟩ := step_facts h hstat hc s hs o
  have hrd := ready_of h hstat hc
  have hsp := (split_exact s hs o c2 hrd (regular_for h hreg hc hz) hj h1).2
  have hlaws := method_laws hs hrd h1
  refine ⟨m, h1, h2, hsp, h4, ?_⟩
  have hst : ∀ x ∈ m.g.x, ∃ d ∈ edges, d.type = .storage ∧ d.label = x := fun x hx =>
    mem_labels_of (h5.mem_iff.1 hx)
  have hdi : ∀ w ∈ m.w, ∃ d ∈ edges, d.type = .dissipative ∧ d.label = w := fun x hx =>
    mem_labels_of (h9.mem_iff.1 hx)
  have hv : m.v .all = m.g.x.map dn ++ m.w := by simp [Meth.v, Sfx.pick]
  have hnd : (m.g.x ++ m.g.x.map dn ++ m.w).Nodup :=
    (List.Perm.nodup_iff ((h5.append (h5.map dn)).append h9)).2 hreg.nodup
  have hH : ∀ k ∈ m.g.x.map dn ++ m.w, Indep c.H k := fun k hk => by
    rcases List.mem_append.1 hk with hk | hk
    · obtain ⟨x, hx, rfl⟩ := List.mem_map.1 hk
      obtain ⟨d, q1, q2, rfl⟩ := hst x hx
      exact hreg.Hx.1 d q1 q2
    · obtain ⟨d, q1, q2, rfl⟩ := hdi k hk
      exact hreg.Hx.2 d q1 q2
  obtain ⟨G, hG, hOwn⟩ := gradient_own (H := c.H) (g := m.g) (ws := m.w) (kind := o.kind) (θ := o.θ)
    (tol := o.epsdg) hnd hH
    (fun x hx => by
      obtain ⟨d, q1, q2, rfl⟩ := hst x hx
      exact hreg.H2 d q1 q2 d q1 q2)
    (fun x hx y hy hxy => by
      obtain ⟨d, q1, q2, rfl⟩ := hst x hx
      obtain ⟨d', q1', q2', rfl⟩ := hst y hy
      exact hmon.cross d q1 q2 d' q1' q2' hxy)
    (fun x hx => by
      obtain ⟨d, q1, q2, rfl⟩ := hst x hx
      exact hmon.convex d q1 q2) hθ
    (hk.imp id fun hq => ⟨hq.1.mono fun y hy => h5.mem_iff.1 hy, hq.2⟩)
  -- rows of states and of dissipative variables
  have hrow : ∀ j < sz m, (∃ x ∈ m.g.x, vn m j = dn x ∧ fn m j = G x) ∨
      ∃ p ∈ m.w.zip m.z, vn m j = p.1 ∧ fn m j = p.2 := by
    intro j hj
    unfold sz at hj
    unfold vn fn
    by_cases hjx : j < m.g.x.length
    · left
      refine ⟨m.g.x.getD j "", Scheme.getD_mem hjx, by rw [if_pos hjx], ?_⟩
      rw [if_pos hjx, h6, h3, hG, List.getD_eq_getElem?_getD, List.getD_eq_getElem?_getD]
      simp [hjx]
    · right
      have hjw : j - m.g.x.length < m.w.length := by omega
      have hjz : j - m.g.x.length < m.z.length := by rw [← h2.wz]; exact hjw
      refine ⟨(m.w[j - m.g.x.length], m.z[j - m.g.x.length]), ?_, ?_, ?_⟩
      · rw [List.mem_iff_getElem]
        exact ⟨j - m.g.x.length, by simp; omega, by simp⟩
      · rw [if_neg hjx, List.getD_eq_getElem?_getD, List.getElem?_eq_getElem hjw]; rfl
      · rw [if_neg hjx, List.getD_eq_getElem?_getD, List.getElem?_eq_getElem hjz]; rfl
  have hlaw : ∀ p ∈ m.w.zip m.z, ∃ d ∈ edges, d.type = .dissipative ∧ d.label = p.1 ∧ Z d p.2 :=
    fun p hp => hz p (hlaws.mem_iff.1 hp)
  refine ⟨fun k _ e t i j => by rw [h8, h8], ?_, ?_, ?_, ?_⟩
  · intro e a
    have hp := (skew_passive h7).2 fun i => if i < sz m then a i else 0
    rw [h8 e]
    refine le_trans (le_of_eq ?_) hp
    have hr : M.r = sz m + m.y.length := by rw [← h8 e, h2.Mr e, sz]
    have hcc : M.c = sz m + m.y.length := by rw [← h8 e, h2.Mc e, sz]
    have hin : ∀ f : ℕ → ℝ, ∑ j ∈ Finset.range (sz m + m.y.length), f j * (if j < sz m then a j else 0) =
        ∑ j ∈ Finset.range (sz m), f j * a j := fun f => by
      rw [Finset.sum_range_add, Finset.sum_congr rfl fun j hj => by
        rw [if_pos (Finset.mem_range.1 hj)], Finset.sum_eq_zero (s := Finset.range m.y.length)
          fun j _ => by rw [if_neg (by omega), mul_zero], add_zero]
    unfold Mat.quad Mat.dot Mat.mv
    rw [hr, hcc]
    simp only [hin]
    rw [Finset.sum_congr rfl fun i _ => mul_comm _ _]
    conv_rhs => rw [Finset.sum_congr rfl fun i _ => mul_comm _ _]
    rw [hin]
  · intro j hj k hk hkj
    rw [hv] at hk
    rcases hrow j hj with ⟨x, hx, e1, e2⟩ | ⟨p, hp, e1, e2⟩
    · rw [e2]; exact (hOwn x hx).own k hk (e1 ▸ hkj)
    · rw [e2]
      obtain ⟨d, q1, q2, q3, q4⟩ := hlaw p hp
      rcases List.mem_append.1 hk with hk | hk
      · obtain ⟨y, hy, rfl⟩ := List.mem_map.1 hk
        obtain ⟨r, r1, r2, rfl⟩ := hst y hy
        exact (hreg.laws d q1 q2 _ q4).1 r r1 r2
      · obtain ⟨r, r1, r2, rfl⟩ := hdi k hk
        refine hmon.own d q1 q2 _ q4 r r1 r2 ?_
        rw [q3, ← e1]; exact hkj
  · intro j hj
    rcases hrow j hj with ⟨x, hx, e1, e2⟩ | ⟨p, hp, e1, e2⟩
    · rw [e1, e2]; exact (hOwn x hx).diff
    · obtain ⟨d, q1, q2, q3, q4⟩ := hlaw p hp
      rw [e1, e2, ← q3]
      exact (hreg.laws d q1 q2 _ q4).2 d q1 q2
  · intro j hj
    rcases hrow j hj with ⟨x, hx, e1, e2⟩ | ⟨p, hp, e1, e2⟩
    · rw [e1, e2]; exact (hOwn x hx).mono
    · obtain ⟨d, q1, q2, q3, q4⟩ := hlaw p hp
      rw [e1, e2, ← q3]
      exact hmon.mono d q1 q2 _ q4

/-- The laws of the method of a circuit of monotone components are monotone. -/
theorem diag_of {law : String → Env ℝ → ℝ} {fuel : ℕ} {nodes : List String}
    {edges : List (Edge ℝ)} {c c2 : Core ℝ} (h : CircuitOK nodes edges c)
    (hstat : StaticLaws law edges) (hreg : RegularCircuit law edges c.H)
    (hmon : MonotoneCircuit law edges c.H)
    (hc : toCore law fuel nodes edges c = some c2)
    (s : Sympy) (hs : s.OK) (o : Config) (hj : JacSound s o c2)
    (hθ : o.kind = .theta → 0 ≤ o.θ)
    (hk : o.kind ≠ .discret ∨
      (QuadEnergy c.H ((ofType .storage edges).map (·.label)) ∧ 0 < o.epsdg)) :
    ∃ m, toMethod s o c2 = some m ∧ MethWF m ∧ SplitOK m ∧ m.fs = o.fs ∧ DiagSys m :=
  diag_for h hstat hreg hmon hc (chosen_of h hc) s hs o (fun _ => hj) hθ hk

end Circuit

namespace Record
open Numeric Scheme

/-- **C67**, whole simulations. A simulation of a nonsingular system exists, from any state, for any
sequences of inputs and parameters. -/
theorem C67_run {n : Num} (hn : n.WF) (hs : SplitOK n.m) (hN : Nonsing n.m)
    (hobs : n.obs.length = n.o.length) {nt : ℕ} {sequ seqp : List (List ℝ)}
    (lu : sequ.length = nt) (lp : seqp.length = nt)
    (du : ∀ r ∈ sequ, r.length = n.m.u.length) (dp : ∀ r ∈ seqp, r.length = n.p.length)
    {s0 : St Nm ℝ} (h0 : s0.args.length = n.all.length) :
    ∃ st, st 0 = s0 ∧ Run n nt sequ seqp st := by
  let st : ℕ → St Nm ℝ := fun i => Nat.rec s0
    (fun i s => (n.update (some (sequ.getD i [])) (some (seqp.getD i [])) s).getD s) i
  have key : ∀ i ≤ nt, (st i).args.length = n.all.length ∧ ∀ j < i,
      n.update (some (sequ.getD j [])) (some (seqp.getD j [])) (st j) = some (st (j + 1)) := by
    intro i
    induction i with
    | zero => intro _; exact ⟨h0, fun j hj => absurd hj (by omega)⟩
    | succ i ih =>
      intro hi
      obtain ⟨a1, a2⟩ := ih (by omega)
      have hu := getD_len lu du (show i < nt by omega)
      have hp := getD_len lp dp (show i < nt by omega)
      obtain ⟨s', hs'⟩ := C67_update hn hs hN hobs hu hp a1
      have e : st (i + 1) = s' := by
        show (n.update _ _ (st i)).getD (st i) = s'
        rw [hs']; rfl
      refine ⟨?_, fun j hj => ?_⟩
      · rw [e]; exact (C24_step hn a1 hu hp hs').1
      · rcases Nat.lt_succ_iff_lt_or_eq.1 hj with hj | rfl
        · exact a2 j hj
        · rw [e]; exact hs'
  exact ⟨st, rfl, lu, lp, du, dp, h0, fun i hi => (key nt (le_refl _)).2 i hi⟩

end Record

namespace Circuit
open Scheme Graph Numeric Record H5

theorem inputs_free {n : Num} (hn : n.WF) : ∀ k ∈ n.m.v .all, k ∉ n.m.u := by
  intro k hk hu
  have hv : n.m.v .all = n.m.g.x.map dn ++ n.m.w := by simp [Meth.v, Sfx.pick]
  rw [hv] at hk
  have h := hn.nodup
  simp only [Num.all, List.append_assoc, List.nodup_append, List.mem_append] at h
  rcases List.mem_append.1 hk with hk | hk
  · exact h.2.1.2.2 k hk k (.inr (.inl hu)) rfl
  · exact h.2.1.2.1.2.2 k hk k (.inl hu) rfl

/-- **C67**, circuits. A circuit of monotone components (an energy that is a sum of convex functions of
one state each, laws that are nondecreasing functions of their own variable) can always be simulated:
whatever the splitting found, from any state, for any inputs and parameters, no update fails. -/
theorem C67_circuit {law : String → Env ℝ → ℝ} {fuel : ℕ} {nodes : List String}
    {edges : List (Edge ℝ)} {c c2 : Core ℝ} (h : CircuitOK nodes edges c)
    (hstat : StaticLaws law edges) (hreg : RegularCircuit law edges c.H)
    (hmon : MonotoneCircuit law edges c.H)
    (hc : toCore law fuel nodes edges c = some c2)
    (s : Sympy) (hs : s.OK) (o : Config) (hj : JacSound s o c2) (hfs : 0 < o.fs)
    (hθ : o.kind = .theta → 0 ≤ o.θ)
    (hk : o.kind ≠ .discret ∨
      (QuadEnergy c.H ((ofType .storage edges).map (·.label)) ∧ 0 < o.epsdg)) :
    ∃ m, toMethod s o c2 = some m ∧
      ∀ (n : Num), n.m = m → n.WF → n.obs.length = n.o.length →
      ∀ (nt : ℕ) (sequ seqp : List (List ℝ)) (s0 : St Nm ℝ),
        sequ.length = nt → seqp.length = nt →
        (∀ r ∈ sequ, r.length = m.u.length) → (∀ r ∈ seqp, r.length = n.p.length) →
        s0.args.length = n.all.length →
        ∃ st, st 0 = s0 ∧ Run n nt sequ seqp st := by
  obtain ⟨m, h1, h2, h3, h4, h5⟩ := diag_of h hstat hreg hmon hc s hs o hj hθ hk
  refine ⟨m, h1, fun n hm hn ho nt sequ seqp s0 lu lp du dp l0 => ?_⟩
  subst hm
  have hfs' : 0 < n.m.fs := by rw [h4]; exact hfs
  exact C67_run hn h3 (C67_nonsing h2 h3 (h5.monotone h2 h3 hfs' (inputs_free hn)) hfs') ho lu lp du dp l0

/-- **C67**, with C66. A passive circuit of monotone components with a quadratic energy has a simulation
from any state for any inputs, it is recorded, and the data read in the file are passive. -/
theorem C67_passive {law : String → Env ℝ → ℝ} {fuel : ℕ} {nodes : List String}
    {edges : List (Edge ℝ)} {c c2 : Core ℝ} (h : CircuitOK nodes edges c)
    (hstat : StaticLaws law edges) (hreg : RegularCircuit law edges c.H)
    (hmon : MonotoneCircuit law edges c.H) (hpas : PassiveLaws law edges)
    (hquad : QuadEnergy c.H ((ofType .storage edges).map (·.label)))
    (hc : toCore law fuel nodes edges c = some c2)
    (s : Sympy) (hs : s.OK) (o : Config) (hj : JacSound s o c2) (hfs : 0 < o.fs)
    (hθ : o.kind = .theta → o.θ = 1 / 2) (htol : 0 < o.epsdg) :
    ∃ m, toMethod s o c2 = some m ∧
      ∀ (n : Num), n.m = m → n.WF → n.o = [] → n.obs = [] → 0 ≤ n.eps → EnergyReads n →
      ∀ (nt : ℕ) (sequ : List (List ℝ)) (p : List ℝ) (s0 : St Nm ℝ),
        sequ.length = nt → (∀ r ∈ sequ, r.length = m.u.length) → p.length = n.p.length →
        s0.args.length = n.all.length →
      ∃ st, st 0 = s0 ∧ Run n nt sequ (List.replicate nt p) st ∧
      ((∀ i < nt, Converged n (st (i + 1))) →
      ∀ (w : Window), w.stop = nt → 1 ≤ w.step → ∀ (ev : Eval ℝ), Evaluates n ev c.H →
      ∃ ds dn, initFile (layout n) nt sequ (List.replicate nt p) = .ok ds ∧
        process (layout n) w (machine n) nt s0 ds = .ok (st nt, dn) ∧
        ∀ (w' : Window) (t : TSel) (a b : ℕ), Selects w' t nt a b 1 → a < b →
        ∃ En S : ℕ → ℝ, readExpr (layout n) w' dn (.vector [] []) ev t =
            .ok (.rows ((samples a b 1).map fun i => [En i])) ∧
          readPs (layout n) w' dn t = .ok ((samples a b 1).map S) ∧
          ∀ k N, a ≤ k → k + N < b →
            En (k + N) ≤ En k + (∑ i ∈ Finset.range N,
              (slack n (n.E (st (k + i + 1))) - S (k + i))) / o.fs) := by
  obtain ⟨m, h1, h2⟩ := C67_circuit h hstat hreg hmon hc s hs o hj hfs
    (fun e => by rw [hθ e]; norm_num) (.inr ⟨hquad, htol⟩)
  obtain ⟨m', h1', h2'⟩ := C66_passive h hstat hreg hpas hquad hc s hs o hj hfs hθ
  obtain rfl : m = m' := Option.some.inj (h1.symm.trans h1')
  refine ⟨m, h1, fun n hm hn ho hobs heps hE nt sequ p s0 lu du lp l0 => ?_⟩
  obtain ⟨st, e0, hr⟩ := h2 n hm hn (by rw [ho, hobs]; rfl) nt sequ (List.replicate nt p) s0 lu (by simp)
    du (fun r hr => by rw [List.eq_of_mem_replicate hr]; exact lp) l0
  refine ⟨st, e0, hr, fun hcv w hst hw ev he => ?_⟩
  rw [← e0]
  refine h2' n hm hn ho heps hE nt sequ _ st hr (fun i hi => ?_) hcv w hst hw ev he
  simp [List.getD_eq_getElem?_getD, List.getElem?_replicate, hi, show i < nt by omega]

end Circuit
end Pyphs
