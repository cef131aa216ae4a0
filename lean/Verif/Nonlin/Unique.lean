/-
C86: the equations of a step have one solution at most.
-/
import Verif.Nonlin.Props

namespace Pyphs
namespace Nonlin
open Scheme Core Graph Params Circuit Numeric
open _root_.Pyphs.System (Branch Device FluxBalance Potentials tellegen dn_x devX)
open Netlist (Row)

variable {V : Type} {val : V → ℝ} {rows : List (Row V)} {css : List (List Component)} {cs : List Component}

/-- The slope given by the rule increases with the increment, for the storages: `θ` is positive, and the laws
of the nonlinear storages increase where the rule uses them. -/
def Grows (cs : List Component) (o : Rule) (e : String → ℝ) : Prop :=
  (o.kind = .theta → 0 < o.θ) ∧
  ∀ b h f dom, (.fluxStorage b h f dom ∈ cs ∨ .effortStorage b h f dom ∈ cs) →
    StrictMonoOn (o.slope h f (e ("x" ++ b.id))) {dx | o.Inside dom (e ("x" ++ b.id)) dx}

theorem flux_sub {bs : List Branch} {F F' : String → ℝ} (h : FluxBalance bs F) (h' : FluxBalance bs F') :
    FluxBalance bs fun i => F i - F' i := by
  intro n hn
  have : ∀ b : Branch, (if b.tail = n then F b.id - F' b.id else 0) - (if b.head = n then F b.id - F' b.id else 0) =
      ((if b.tail = n then F b.id else 0) - (if b.head = n then F b.id else 0)) -
      ((if b.tail = n then F' b.id else 0) - (if b.head = n then F' b.id else 0)) := by
    intro b
    split_ifs <;> ring
  simp only [this]
  have key : ∀ (l : List Branch) (a b : Branch → ℝ),
      (l.map fun c => a c - b c).sum = (l.map a).sum - (l.map b).sum := by
    intro l a b
    induction l with
    | nil => simp
    | cons c l ih => simp only [List.map_cons, List.sum_cons, ih]; ring
  rw [key, h n hn, h' n hn, sub_zero]

theorem effort_sub {bs : List Branch} {E E' : String → ℝ} (h : Potentials bs E) (h' : Potentials bs E') :
    Potentials bs fun i => E i - E' i := by
  obtain ⟨p, hp⟩ := h
  obtain ⟨p', hp'⟩ := h'
  exact ⟨fun n => p n - p' n, fun b hb => by dsimp only; rw [hp b hb, hp' b hb]; ring⟩

/-- The product of the differences of two solutions on the branches of a component. -/
noncomputable def gap (E E' F F' : String → ℝ) (c : Component) : ℝ :=
  (c.branches.map fun b => (E b.id - E' b.id) * (F b.id - F' b.id)).sum

theorem mono_gap {S : Set ℝ} {φ : ℝ → ℝ} (h : StrictMonoOn φ S) {a b : ℝ} (ha : a ∈ S) (hb : b ∈ S) :
    0 ≤ (a - b) * (φ a - φ b) ∧ ((a - b) * (φ a - φ b) = 0 → a = b) := by
  rcases lt_trichotomy a b with hab | rfl | hab
  · have := mul_pos_of_neg_of_neg (sub_neg.2 hab) (sub_neg.2 (h ha hb hab))
    exact ⟨this.le, fun h0 => absurd h0 this.ne'⟩
  · simp
  · have := mul_pos (sub_pos.2 hab) (sub_pos.2 (h hb ha hab))
    exact ⟨this.le, fun h0 => absurd h0 this.ne'⟩

theorem line_gap {k : ℝ} (hk : 0 < k) (x a b : ℝ) {w : ℝ} (hw : 0 < w) :
    0 ≤ (a - b) * (k * (x + w * a) - k * (x + w * b)) ∧
      ((a - b) * (k * (x + w * a) - k * (x + w * b)) = 0 → a = b) :=
  mono_gap (S := Set.univ) (φ := fun t => k * (x + w * t))
    (fun s _ t _ hst => mul_lt_mul_of_pos_left (by nlinarith) hk) trivial trivial

theorem res_gap {r : ℝ} (hr : 0 < r) (a b : ℝ) :
    0 ≤ (r * a - r * b) * (a - b) ∧ ((r * a - r * b) * (a - b) = 0 → a = b) := by
  have h := mono_gap (S := Set.univ) (φ := fun t => r * t)
    (fun s _ t _ hst => mul_lt_mul_of_pos_left hst hr) (a := a) (b := b) trivial trivial
  rw [mul_comm (a - b)] at h
  exact h

theorem comp_gap {ec : String → Prop} {fs : ℝ} (hfs : 0 < fs) {o : Rule} {e e' E E' F F' : String → ℝ}
    (hp : ∀ c ∈ cs, c.Physical) (hst : Step cs ec fs o e E F) (hst' : Step cs ec fs o e' E' F')
    (hx : ∀ c ∈ cs, ∀ b ∈ c.storing, e' ("x" ++ b.id) = e ("x" ++ b.id))
    (hu : ∀ b ∈ sources cs, e' ("u" ++ b.id) = e ("u" ++ b.id))
    (hd : InDomain cs ec o e) (hd' : InDomain cs ec o e') (hg : Grows cs o e) {c : Component} (hc : c ∈ cs) :
    0 ≤ gap E E' F F' c ∧ (gap E E' F F' c = 0 →
      (∀ b ∈ c.storing, e' ("dx" ++ b.id) = e ("dx" ++ b.id)) ∧
      ∀ b ∈ c.dissipative, E' b.id = E b.id ∧ F' b.id = F b.id) := by
  have l := hst.laws c hc
  have l' := hst'.laws c hc
  have p := hp c hc
  have x0 := hx c hc
  have hw : 0 < weight o.kind o.θ := by
    unfold weight
    split_ifs with hk
    · exact hg.1 hk
    · norm_num
  have one : ∀ b : Branch, ([b].map fun b => (E b.id - E' b.id) * (F b.id - F' b.id)).sum =
      (E b.id - E' b.id) * (F b.id - F' b.id) := fun b => by simp
  have stor : ∀ {a a' s s' : ℝ},
      0 ≤ (a - a') * (s - s') ∧ ((a - a') * (s - s') = 0 → a = a') →
      0 ≤ (fs * a - fs * a') * (s - s') ∧ ((fs * a - fs * a') * (s - s') = 0 → a = a') := by
    intro a a' s s' h
    rw [← mul_sub, mul_assoc]
    refine ⟨mul_nonneg hfs.le h.1, fun h0 => h.2 ?_⟩
    exact (mul_eq_zero.1 h0).resolve_left hfs.ne'
  unfold gap
  cases c with
  | linear d =>
    cases d with
    | fluxStorage b k =>
      have e0 := x0 b List.mem_cons_self
      have p1 : 0 < k := p
      obtain ⟨l1, l2⟩ := l
      obtain ⟨m1, m2⟩ := l'
      dsimp only at l1 l2 m1 m2
      rw [e0] at m2
      have := stor (line_gap p1 (e ("x" ++ b.id)) (e ("dx" ++ b.id)) (e' ("dx" ++ b.id)) hw)
      simp only [Component.branches, Device.branches, one]
      rw [l1, l2, m1, m2, mul_comm]
      refine ⟨this.1, fun h0 => ⟨fun b' hb' => ?_, fun b' hb' => nomatch hb'⟩⟩
      obtain rfl := List.mem_singleton.1 hb'
      exact (this.2 h0).symm
    | effortStorage b k =>
      have e0 := x0 b List.mem_cons_self
      have p1 : 0 < k := p
      obtain ⟨l1, l2⟩ := l
      obtain ⟨m1, m2⟩ := l'
      dsimp only at l1 l2 m1 m2
      rw [e0] at m2
      have := stor (line_gap p1 (e ("x" ++ b.id)) (e ("dx" ++ b.id)) (e' ("dx" ++ b.id)) hw)
      simp only [Component.branches, Device.branches, one]
      rw [l1, l2, m1, m2]
      refine ⟨this.1, fun h0 => ⟨fun b' hb' => ?_, fun b' hb' => nomatch hb'⟩⟩
      obtain rfl := List.mem_singleton.1 hb'
      exact (this.2 h0).symm
    | resistance b r =>
      have l1 : E b.id = r * F b.id := l
      have m1 : E' b.id = r * F' b.id := l'
      have := res_gap (show 0 < r from p) (F b.id) (F' b.id)
      simp only [Component.branches, Device.branches, one]
      rw [l1, m1]
      refine ⟨this.1, fun h0 => ⟨fun b' hb' => (nomatch hb'), fun b' hb' => ?_⟩⟩
      obtain rfl := List.mem_singleton.1 hb'
      rw [l1, m1, this.2 h0]
      exact ⟨rfl, rfl⟩
    | effortSource b =>
      have l1 : E b.id = e ("u" ++ b.id) := l
      have m1 : E' b.id = e' ("u" ++ b.id) := l'
      have := hu b (List.mem_flatMap.2 ⟨_, hc, List.mem_cons_self⟩)
      simp only [Component.branches, Device.branches, one]
      rw [l1, m1, this]
      exact ⟨by simp, fun _ => ⟨fun b' hb' => (nomatch hb'), fun b' hb' => nomatch hb'⟩⟩
    | fluxSource b =>
      have l1 : F b.id = e ("u" ++ b.id) := l
      have m1 : F' b.id = e' ("u" ++ b.id) := l'
      have := hu b (List.mem_flatMap.2 ⟨_, hc, List.mem_cons_self⟩)
      simp only [Component.branches, Device.branches, one]
      rw [l1, m1, this]
      exact ⟨by simp, fun _ => ⟨fun b' hb' => (nomatch hb'), fun b' hb' => nomatch hb'⟩⟩
    | gyrator a b α =>
      have h0 : ([a, b].map fun b => (E b.id - E' b.id) * (F b.id - F' b.id)).sum = 0 := by
        simp only [List.map_cons, List.map_nil, List.sum_cons, List.sum_nil]
        by_cases hh : ec a.id
        · obtain ⟨l1, l2⟩ := l.2 hh
          obtain ⟨m1, m2⟩ := l'.2 hh
          rw [l1, l2, m1, m2]; ring
        · obtain ⟨l1, l2⟩ := l.1 hh
          obtain ⟨m1, m2⟩ := l'.1 hh
          rw [l1, l2, m1, m2]; ring
      simp only [Component.branches, Device.branches, h0]
      exact ⟨le_refl _, fun _ => ⟨fun b' hb' => (nomatch hb'), fun b' hb' => nomatch hb'⟩⟩
    | transformer a b α =>
      have h0 : ([a, b].map fun b => (E b.id - E' b.id) * (F b.id - F' b.id)).sum = 0 := by
        simp only [List.map_cons, List.map_nil, List.sum_cons, List.sum_nil]
        by_cases hh : ec a.id
        · obtain ⟨l1, l2⟩ := l.1 hh
          obtain ⟨m1, m2⟩ := l'.1 hh
          rw [l1, l2, m1, m2]; ring
        · obtain ⟨l1, l2⟩ := l.2 hh
          obtain ⟨m1, m2⟩ := l'.2 hh
          rw [l1, l2, m1, m2]; ring
      simp only [Component.branches, Device.branches, h0]
      exact ⟨le_refl _, fun _ => ⟨fun b' hb' => (nomatch hb'), fun b' hb' => nomatch hb'⟩⟩
  | fluxStorage b h f dom =>
    have e0 := x0 b List.mem_cons_self
    obtain ⟨l1, l2⟩ := l
    obtain ⟨m1, m2⟩ := l'
    dsimp only at l1 l2 m1 m2
    rw [e0] at m2
    have i1 := hd.storages b h f dom (.inl hc)
    have i2 := hd'.storages b h f dom (.inl hc)
    rw [e0] at i2
    have := stor (mono_gap (hg.2 b h f dom (.inl hc)) i1 i2)
    simp only [Component.branches, one]
    rw [l1, l2, m1, m2, mul_comm]
    refine ⟨this.1, fun h0 => ⟨fun b' hb' => ?_, fun b' hb' => nomatch hb'⟩⟩
    obtain rfl := List.mem_singleton.1 hb'
    exact (this.2 h0).symm
  | effortStorage b h f dom =>
    have e0 := x0 b List.mem_cons_self
    obtain ⟨l1, l2⟩ := l
    obtain ⟨m1, m2⟩ := l'
    dsimp only at l1 l2 m1 m2
    rw [e0] at m2
    have i1 := hd.storages b h f dom (.inr hc)
    have i2 := hd'.storages b h f dom (.inr hc)
    rw [e0] at i2
    have := stor (mono_gap (hg.2 b h f dom (.inr hc)) i1 i2)
    simp only [Component.branches, one]
    rw [l1, l2, m1, m2]
    refine ⟨this.1, fun h0 => ⟨fun b' hb' => ?_, fun b' hb' => nomatch hb'⟩⟩
    obtain rfl := List.mem_singleton.1 hb'
    exact (this.2 h0).symm
  | conductor b g =>
    have l1 : F b.id = g (E b.id) := l
    have m1 : F' b.id = g (E' b.id) := l'
    have := mono_gap (S := Set.univ) (p.1.strictMonoOn _) (a := E b.id) (b := E' b.id) trivial trivial
    simp only [Component.branches, one]
    rw [l1, m1]
    refine ⟨this.1, fun h0 => ⟨fun b' hb' => (nomatch hb'), fun b' hb' => ?_⟩⟩
    obtain rfl := List.mem_singleton.1 hb'
    rw [l1, m1, this.2 h0]
    exact ⟨rfl, rfl⟩

theorem gap_sum (E E' F F' : String → ℝ) : ((cs.flatMap Component.branches).map fun b =>
    (E b.id - E' b.id) * (F b.id - F' b.id)).sum = (cs.map (gap E E' F F')).sum := by
  induction cs with
  | nil => rfl
  | cons c cs ih =>
    rw [List.flatMap_cons, List.map_append, List.sum_append, ih, List.map_cons, List.sum_cons]
    rfl

theorem sum_zero {α : Type} {l : List α} {f : α → ℝ} (h : ∀ a ∈ l, 0 ≤ f a) (h0 : (l.map f).sum = 0) :
    ∀ a ∈ l, f a = 0 := by
  induction l with
  | nil => intro a ha; cases ha
  | cons b l ih =>
    rw [List.map_cons, List.sum_cons] at h0
    have h1 := h b List.mem_cons_self
    have h2 : 0 ≤ (l.map f).sum := List.sum_nonneg fun t ht => by
      obtain ⟨a, ha, rfl⟩ := List.mem_map.1 ht
      exact h a (List.mem_cons_of_mem _ ha)
    intro a ha
    rcases List.mem_cons.1 ha with rfl | ha
    · linarith
    · exact ih (fun a ha => h a (List.mem_cons_of_mem _ ha)) (by linarith) a ha

/-- **C86**, uniqueness. Two solutions of the equations of one step, for the same states and the same inputs and
in the domains of the laws, have the same increments and the same dissipative variables, if the slopes increase
with the increments. -/
theorem C86_unique {I : Sym.Interp ℝ} {ps : List NPart} {nodes : List String}
    {edges : List (Edge ℝ)} {c c2 : Core ℝ} {fuel : ℕ} (hc : Compiled I val rows ps nodes edges c fuel c2)
    (h : NetOK val rows css) (hI : ArithNl I) : ∃ ec, Controls css.flatten ec ∧
    ∀ (s : Sympy) (_ : s.OK) (o : Config), 0 < o.fs → 0 < o.epsdg →
    ∃ m, toMethod s o c2 = some m ∧ (Fits css.flatten (ruleOf o) m.g →
      ∀ e e', m.Solved e → m.Solved e' → InDomain css.flatten ec (ruleOf o) e →
        InDomain css.flatten ec (ruleOf o) e' → Grows css.flatten (ruleOf o) e →
        (∀ x ∈ m.g.x, e' x = e x) → (∀ u ∈ m.u, e' u = e u) →
        (∀ x ∈ m.g.x, e' (dn x) = e (dn x)) ∧ ∀ w ∈ m.w, e' w = e w) := by
  obtain ⟨L, hf⟩ := hc.facts h hI
  obtain ⟨ec, h1, -, h2⟩ := method_facts hf hc.analysed
  refine ⟨ec, h1, fun s hs o hfs ht => ?_⟩
  obtain ⟨m, k1, -, -, -, kn, kd, k3⟩ := h2 s hs o ht
  refine ⟨m, k1, fun hfit e e' he he' hd hd' hg hx hu => ?_⟩
  obtain ⟨E, F, hst⟩ := (k3 hfit e hd).1.1 he
  obtain ⟨E', F', hst'⟩ := (k3 hfit e' hd').1.1 he'
  have hx' : ∀ c ∈ css.flatten, ∀ b ∈ c.storing, e' ("x" ++ b.id) = e ("x" ++ b.id) := fun c hc b hb =>
    hx _ (kn.x.mem_iff.2 (storing_x hc hb))
  have hu' : ∀ b ∈ sources css.flatten, e' ("u" ++ b.id) = e ("u" ++ b.id) := fun b hb => by
    refine hu _ (kn.u.mem_iff.2 (List.mem_map.2 ⟨b, List.mem_flatMap.2 ?_, rfl⟩))
    rcases mem_sources hb with hb | hb <;> exact ⟨_, List.mem_map.2 ⟨_, hb, rfl⟩, List.mem_cons_self⟩
  have hcg := fun c hc => comp_gap hfs hf.physical hst hst' hx' hu' hd hd' hg (c := c) hc
  have h0 := tellegen (flux_sub hst.flux hst'.flux) (effort_sub hst.effort hst'.effort)
  rw [gap_sum] at h0
  have hz := sum_zero (fun c hc => (hcg c hc).1) h0
  refine ⟨fun x hxm => ?_, fun w hwm => ?_⟩
  · have := kn.x.mem_iff.1 hxm
    rw [← stors_keys] at this
    obtain ⟨p, hp, rfl⟩ := List.mem_map.1 this
    obtain ⟨a, ha, hp⟩ := List.mem_flatMap.1 hp
    have hb : ∃ b ∈ a.storing, p.1 = "x" ++ b.id := by
      cases a with
      | linear d =>
        cases d <;> simp only [stors, List.mem_cons, List.not_mem_nil, or_false] at hp
        · exact ⟨_, List.mem_cons_self, by rw [hp]⟩
        · exact ⟨_, List.mem_cons_self, by rw [hp]⟩
      | fluxStorage =>
        simp only [stors, List.mem_cons, List.not_mem_nil, or_false] at hp
        exact ⟨_, List.mem_cons_self, by rw [hp]⟩
      | effortStorage =>
        simp only [stors, List.mem_cons, List.not_mem_nil, or_false] at hp
        exact ⟨_, List.mem_cons_self, by rw [hp]⟩
      | conductor => cases hp
    obtain ⟨b, hb, hpb⟩ := hb
    rw [hpb, dn_x]
    exact ((hcg a ha).2 (hz a ha)).1 b hb
  · obtain ⟨b, hb, rfl⟩ := kd w hwm
    obtain ⟨a, ha, hb⟩ := List.mem_flatMap.1 hb
    obtain ⟨e1, e2⟩ := ((hcg a ha).2 (hz a ha)).2 b hb
    have d1 := hst.diss a ha b hb
    have d2 := hst'.diss a ha b hb
    by_cases hec : ec b.id
    · rw [d1.1 hec, d2.1 hec, e1]
    · rw [d1.2 hec, d2.2 hec, e2]

end Nonlin
end Pyphs
