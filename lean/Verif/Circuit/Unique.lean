/-
Property C68, circuits: the results of a simulation do not depend on the splitting.
-/
import Verif.Circuit.Total
import Verif.Numeric.Unique

namespace Pyphs
namespace Circuit
open Scheme Graph Numeric Record

/-- Two sets of options with the same sample rate and the same rule: the same theta or trapezoidal rule,
or any rules with the same weight of the increment if the energy is quadratic in each state. The option
`split` is free. -/
def SameRule (H : Sc) (xs : List String) (o o' : Config) : Prop :=
  o.fs = o'.fs ∧ ((o.kind = o'.kind ∧ o.kind ≠ .discret ∧ (o.kind = .theta → o.θ = o'.θ)) ∨
    (QuadEnergy H xs ∧ 0 < o.epsdg ∧ 0 < o'.epsdg ∧ weight o.kind o.θ = weight o'.kind o'.θ))

theorem SameRule.symm {H : Sc} {xs : List String} {o o' : Config} (h : SameRule H xs o o') :
    SameRule H xs o' o := by
  refine ⟨h.1.symm, ?_⟩
  rcases h.2 with ⟨q1, q2, q3⟩ | ⟨q1, q2, q3, q4⟩
  · exact .inl ⟨q1.symm, q1 ▸ q2, fun k => (q3 (q1.trans k)).symm⟩
  · exact .inr ⟨q1, q3, q2, q4.symm⟩

theorem moved_mem {e : Env ℝ} {D : String → ℝ} {xs ys : List String} (h : ∀ s, s ∈ xs ↔ s ∈ ys) :
    moved e D xs = moved e D ys := by
  funext s
  unfold moved
  simp only [h s]

theorem getD_map_idx {xs : List String} {l : String} (h : l ∈ xs) (G : String → Sc) :
    (xs.map G).getD (xs.idxOf l) (fun _ => 0) = G l := by
  have hi := List.idxOf_lt_length_of_mem h
  rw [List.getD_eq_getElem?_getD, List.getElem?_map, List.getElem?_idxOf h]
  rfl

/-- The component of the gradient of a state depends on the rule only, not on the groups or the order of
the states. -/
theorem gradOf_rule {H : Sc} {m m' : Meth} {o o' : Config} {xs : List String}
    (hr : SameRule H xs o o') (hx : m.g.x.Perm xs) (hx' : m'.g.x.Perm xs) (hnd : xs.Nodup)
    (hd : m.dxH = buildGradient H m.g o.kind o.θ o.epsdg)
    (hd' : m'.dxH = buildGradient H m'.g o'.kind o'.θ o'.epsdg) {l : String} (hl : l ∈ xs) (e : Env ℝ) :
    gradOf m l e = gradOf m' l e := by
  have hm : ∀ s, s ∈ m.g.x ↔ s ∈ m'.g.x := fun s => hx.mem_iff.trans hx'.mem_iff.symm
  unfold gradOf
  rw [hd, hd']
  rcases hr.2 with ⟨h1, h2, h3⟩ | ⟨h1, h2, h3, h4⟩
  · cases hk : o.kind with
    | discret => exact absurd hk h2
    | theta =>
      rw [← h1, hk, ← h3 hk]
      simp only [buildGradient, gradTheta, gradient, List.map_map]
      rw [getD_map_idx (hx.mem_iff.2 hl), getD_map_idx (hx'.mem_iff.2 hl)]
      simp only [Function.comp_apply, subs_shift, moved_mem hm]
    | trapez =>
      rw [← h1, hk]
      simp only [buildGradient, gradTrapez, gradient, List.map_map]
      rw [getD_map_idx (hx.mem_iff.2 hl), getD_map_idx (hx'.mem_iff.2 hl)]
      simp only [Function.comp_apply, subs_shift, moved_mem hm]
  · rw [quad_gradient (h1.mono fun y hy => hx.mem_iff.1 hy) (hx.nodup_iff.2 hnd) _ _ h2,
      quad_gradient (h1.mono fun y hy => hx'.mem_iff.1 hy) (hx'.nodup_iff.2 hnd) _ _ h3,
      getD_map_idx (hx.mem_iff.2 hl), getD_map_idx (hx'.mem_iff.2 hl), h4]

/-- **C68**, equations. Whatever the splittings made by two methods built on the same circuit with the same
rule, they solve the same equations and have the same outputs. -/
theorem C68_options {law : String → Env ℝ → ℝ} {fuel : ℕ} {nodes : List String}
    {edges : List (Edge ℝ)} {c c2 : Core ℝ} (h : CircuitOK nodes edges c)
    (hstat : StaticLaws law edges) (hc : toCore law fuel nodes edges c = some c2)
    (s s' : Sympy) (hs : s.OK) (hs' : s'.OK) (o o' : Config)
    (hr : SameRule c.H ((ofType .storage edges).map (·.label)) o o') :
    ∃ m m', toMethod s o c2 = some m ∧ toMethod s' o' c2 = some m' ∧
      m.g.x.Perm m'.g.x ∧ m.w.Perm m'.w ∧ (m.y.zip m.u).Perm (m'.y.zip m'.u) ∧
      ∀ e, (m.Solved e ↔ m'.Solved e) ∧
        (m.Solved e → ∀ l ∈ m.y, outOf m l e = outOf m' l e) := by
  obtain ⟨ec, -, hall⟩ := step_facts_all h hstat hc
  obtain ⟨m, h1, h2, h3, h4, h5, h6, ⟨M, h7, h8, h9, h10⟩, h11, h12⟩ := hall s hs o
  obtain ⟨m', h1', h2', h3', h4', h5', h6', ⟨M', h7', h8', h9', h10'⟩, h11', h12'⟩ := hall s' hs' o'
  have hnd : ((ofType .storage edges).map (·.label)).Nodup :=
    h5.nodup_iff.1 (List.nodup_append.1 (List.nodup_append.1 h2.nodup).1).1
  rw [h3] at h6
  rw [h3'] at h6'
  have hg : ∀ d ∈ edges, d.type = .storage → ∀ e, gradOf m d.label e = gradOf m' d.label e :=
    fun d hd ht e => gradOf_rule hr h5 h5' hnd h6 h6'
      (List.mem_map_of_mem (f := fun d : Edge ℝ => d.label) (mem_ofType.2 ⟨hd, ht⟩)) e
  have hf : m.fs = m'.fs := by rw [h4, h4']; exact hr.1
  have key : ∀ (e : Env ℝ) (E F : String → ℝ), StepEqs law nodes edges c m ec e E F ↔
      StepEqs law nodes edges c m' ec e E F := by
    intro e E F
    constructor
    · intro q
      refine (h12' e).2 E F ⟨q.net, fun d hd ht => ?_, q.diss, fun d hd ht => ?_⟩
      · rw [← hf, ← hg d hd ht]; exact q.stor d hd ht
      · exact ⟨fun hh => ((q.port d hd ht).1 hh).2.symm, fun hh => ((q.port d hd ht).2 hh).2.symm⟩
    · intro q
      refine (h12 e).2 E F ⟨q.net, fun d hd ht => ?_, q.diss, fun d hd ht => ?_⟩
      · rw [hf, hg d hd ht]; exact q.stor d hd ht
      · exact ⟨fun hh => ((q.port d hd ht).1 hh).2.symm, fun hh => ((q.port d hd ht).2 hh).2.symm⟩
  refine ⟨m, m', h1, h1', h5.trans h5'.symm, h9.trans h9'.symm, h10.trans h10'.symm, fun e => ⟨?_, ?_⟩⟩
  · rw [h11, h11']
    exact exists_congr fun E => exists_congr fun F => key e E F
  · intro hsol l hl
    obtain ⟨E, F, q⟩ := (h11 e).1 hsol
    have q' := (key e E F).1 q
    have hyp := zip_fst_perm h2.uy.symm h10
    obtain ⟨d, hd, rfl⟩ := List.mem_map.1 (hyp.mem_iff.1 hl)
    obtain ⟨d1, d2⟩ := mem_ofType.1 hd
    by_cases hec : ec d.label
    · exact (((q.port d d1 d2).1 hec).1).trans ((q'.port d d1 d2).1 hec).1.symm
    · exact (((q.port d d1 d2).2 hec).1).trans ((q'.port d d1 d2).2 hec).1.symm

/-- A simulation whose updates solve the equations exactly. -/
def SolvedRun (n : Num) (nt : ℕ) (st : ℕ → St Nm ℝ) : Prop :=
  ∀ i < nt, n.nl = 0 ∨ (st (i + 1)).vals .res_Fnl = some (.s 0)

theorem E_base {n : Num} {st : St Nm ℝ} {s : String} (hs : s ∉ n.all) : n.E st s = n.base s :=
  envOf_not_mem hs

/-- **C68**, simulations. Two simulations of a circuit of monotone components, made with the same rule but
with any splittings (option `split` on or off, other criteria of sympy, hence other orders of the
variables), from the same values of the symbols, with the same inputs and parameters: if their updates
solve their equations exactly, they have the same values of all the symbols and the same outputs at
every step. -/
theorem C68_simulation {law : String → Env ℝ → ℝ} {fuel : ℕ} {nodes : List String}
    {edges : List (Edge ℝ)} {c c2 : Core ℝ} (h : CircuitOK nodes edges c)
    (hstat : StaticLaws law edges) (hreg : RegularCircuit law edges c.H)
    (hmon : MonotoneCircuit law edges c.H)
    (hc : toCore law fuel nodes edges c = some c2)
    (s s' : Sympy) (hs : s.OK) (hs' : s'.OK) (o o' : Config)
    (hr : SameRule c.H ((ofType .storage edges).map (·.label)) o o')
    (hj : JacSound s o c2) (hj' : JacSound s' o' c2) (hfs : 0 < o.fs)
    (hθ : o.kind = .theta → 0 ≤ o.θ) :
    ∃ m m', toMethod s o c2 = some m ∧ toMethod s' o' c2 = some m' ∧
      ∀ (n n' : Num), n.m = m → n'.m = m' → n.WF → n'.WF → n.p = n'.p → n.o = [] → n'.o = [] →
        n.base = n'.base →
      ∀ (nt : ℕ) (U : ℕ → String → ℝ) (P : ℕ → List ℝ) (st st' : ℕ → St Nm ℝ),
        Run n nt ((List.range nt).map fun i => m.u.map (U i)) ((List.range nt).map P) st →
        Run n' nt ((List.range nt).map fun i => m'.u.map (U i)) ((List.range nt).map P) st' →
        SolvedRun n nt st → SolvedRun n' nt st' → n.E (st 0) = n'.E (st' 0) →
        ∀ i ≤ nt, n.E (st i) = n'.E (st' i) ∧
          (0 < i → ∀ l ∈ m.y, outOf m l (n.E (st i)) = outOf m' l (n'.E (st' i))) := by
  obtain ⟨m, m', h1, h1', hx, hw, hyu, hsol⟩ := C68_options h hstat hc s s' hs hs' o o' hr
  have hk : o.kind ≠ .discret ∨
      (QuadEnergy c.H ((ofType .storage edges).map (·.label)) ∧ 0 < o.epsdg) :=
    hr.2.imp (fun q => q.2.1) fun q => ⟨q.1, q.2.1⟩
  have hrd := ready_of h hstat hc
  have hrg := regular_of h hreg hc
  obtain ⟨m1, q1, hmw, hsp, hmf, hdiag⟩ := diag_of h hstat hreg hmon hc s hs o hj hθ hk
  obtain rfl : m = m1 := Option.some.inj (h1.symm.trans q1)
  have hsp' := (C66_split_exact s' hs' o' c2 hrd hrg hj' h1').2
  obtain ⟨m2, -, q2, hmw', -⟩ := step_facts h hstat hc s' hs' o'
  obtain rfl : m' = m2 := Option.some.inj (h1'.symm.trans q2)
  refine ⟨m, m', h1, h1', fun n n' hn hn' hwf hwf' hp ho ho' hb nt U P st st' hrun hrun' hex hex' h0 => ?_⟩
  subst hn hn'
  have hu : ∀ k, k ∈ n.m.u ↔ k ∈ n'.m.u := fun k => by
    have := hyu.map Prod.snd
    rw [List.map_snd_zip hmw.uy.le, List.map_snd_zip hmw'.uy.le] at this
    exact this.mem_iff
  have hall : ∀ k, k ∈ n.all ↔ k ∈ n'.all := fun k => by
    simp only [Num.all, List.mem_append, hx.mem_iff, (hx.map dn).mem_iff, hw.mem_iff, hu, hp, ho, ho']
  have hv : ∀ k, k ∈ n.m.v .all ↔ k ∈ n'.m.v .all := fun k => by
    simp only [Meth.v, Sfx.pick, List.mem_append, (hx.map dn).mem_iff, hw.mem_iff]
  have hfs' : 0 < n.m.fs := by rw [hmf]; exact hfs
  have key : ∀ i ≤ nt, n.E (st i) = n'.E (st' i) := by
    intro i
    induction i with
    | zero => intro _; exact h0
    | succ i ih =>
      intro hi
      have hi' : i < nt := hi
      have he := ih (by omega)
      have l1 := hrun.facts hwf i (by omega)
      have l1' := hrun'.facts hwf' i (by omega)
      have u1 := getD_len hrun.lu hrun.du hi'
      have u1' := getD_len hrun'.lu hrun'.du hi'
      have p1 := getD_len hrun.lp hrun.dp hi'
      have p1' := getD_len hrun'.lp hrun'.dp hi'
      obtain ⟨a1, a2, a3, a4⟩ := C24_step hwf l1 u1 p1 (hrun.step i hi')
      obtain ⟨b1, b2, b3, b4⟩ := C24_step hwf' l1' u1' p1' (hrun'.step i hi')
      have g : ∀ {α : Type} (f : ℕ → α) (d : α), ((List.range nt).map f).getD i d = f i := by
        intro α f d
        simp [List.getD_eq_getElem?_getD, hi']
      rw [g] at a3 a4 b3 b4
      have s1 := solved_of_update hwf hmw hsp l1 (hrun.step i hi') (hex i hi')
      have s2 := (hsol _).1.2 (solved_of_update hwf' hmw' hsp' l1' (hrun'.step i hi') (hex' i hi'))
      refine C68_unique hmw hdiag hfs' (inputs_free hwf) (fun k hk => ?_) s1 s2
      by_cases hka : k ∈ n.all
      · have hka' := hka
        simp only [Num.all, List.mem_append, ho, List.not_mem_nil, or_false] at hka'
        have hk1 : k ∉ n.m.g.x.map dn ∧ k ∉ n.m.w := by
          simpa [Meth.v, Sfx.pick, not_or] using hk
        rcases hka' with (((hh | hh) | hh) | hh) | hh
        · rw [a2 k hh, b2 k (hx.mem_iff.1 hh), he]
        · exact absurd hh hk1.1
        · exact absurd hh hk1.2
        · rw [List.map_inj_left.1 a3 k hh, List.map_inj_left.1 b3 k ((hu k).1 hh)]
        · rw [hp] at a4 hh
          exact List.map_inj_left.1 (a4.trans b4.symm) k hh
      · rw [E_base hka, E_base (fun hh => hka ((hall k).2 hh)), hb]
  intro i hi
  refine ⟨key i hi, fun hpos l hl => ?_⟩
  obtain ⟨j, rfl⟩ : ∃ j, i = j + 1 := ⟨i - 1, by omega⟩
  rw [← key _ hi]
  exact (hsol _).2 (solved_of_update hwf hmw hsp (hrun.facts hwf j (by omega)) (hrun.step j (by omega))
    (hex j (by omega))) l hl

end Circuit
end Pyphs
