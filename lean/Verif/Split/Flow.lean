import Verif.Split.Main
import Mathlib.Data.Real.Basic
import Mathlib.Algebra.BigOperators.Group.List.Basic
import Mathlib.Algebra.BigOperators.Ring.List
import Mathlib.Tactic.Ring
import Mathlib.Tactic.LinearCombination
import Mathlib.Tactic.Linarith

/-!
# Flows in trees of series and parallel connections

A flow gives a value to each component. If it is balanced at every node but the datum, then the parts of a
series connection in the tree made by `sp_split` carry the same flow.
-/

namespace Verif.Split

open Edge

variable {C : Type}

/-- Incidence of a branch at a node. -/
noncomputable def inc (t h n : Name) : ℝ := (if t = n then 1 else 0) - (if h = n then 1 else 0)

/-- What a component takes from a node. -/
noncomputable def leafNet (F : C → ℝ) (n : Name) : Edge C → ℝ
  | .comp t h _ c => F c * inc t h n
  | _ => 0

/-- What the components of an edge take from a node. -/
noncomputable def net (F : C → ℝ) (e : Edge C) (n : Name) : ℝ := ((leavesOf e).map (leafNet F n)).sum

/-- The flow is balanced at every node but the datum. -/
def Balanced (F : C → ℝ) (g : List (Edge C)) : Prop :=
  ∀ n, n ≠ datum → ((leaves g).map (leafNet F n)).sum = 0

theorem leaves_net (F : C → ℝ) (g : List (Edge C)) (n : Name) :
    ((leaves g).map (leafNet F n)).sum = (g.map fun e => net F e n).sum := by
  induction g with
  | nil => simp [leaves]
  | cons e g ih => simp [leaves, ih, net]

theorem Balanced.perm {F : C → ℝ} {g g' : List (Edge C)} (h : Balanced F g)
    (hp : (leaves g').Perm (leaves g)) : Balanced F g' := fun n hn => by
  rw [(hp.map _).sum_eq]; exact h n hn

/-- The edge carries the flow `i` from its tail to its head. -/
def Through (F : C → ℝ) (e : Edge C) (i : ℝ) : Prop := ∀ n, net F e n = i * inc e.tail e.head n

theorem inc_swap (t h n : Name) : inc t h n = - inc h t n := by unfold inc; ring

theorem Through.joins {F : C → ℝ} {e : Edge C} {i : ℝ} (h : Through F e i) {a b : Name}
    (hj : Joins a b e) : ∃ j, ∀ n, net F e n = j * inc a b n := by
  rcases hj with ⟨h1, h2⟩ | ⟨h1, h2⟩
  · exact ⟨i, fun n => by rw [h n, h1, h2]⟩
  · exact ⟨-i, fun n => by rw [h n, h1, h2, inc_swap]; ring⟩

theorem net_graph (F : C → ℝ) (t h l l' a b : Name) (es : List (Edge C)) (n : Name) :
    net F (.graph t h l (es ++ outs l' a b)) n = (es.map fun e => net F e n).sum := by
  unfold net
  rw [leavesOf, leaves_append, leaves_outs, List.append_nil]
  exact leaves_net F es n

/-- Sum over edges of which at most those of two places matter. -/
theorem sum_two {g : List (Edge C)} {f : Edge C → ℝ} {e1 e2 : Edge C} {p q : Edge C → Bool}
    (hp : g.filter p = [e1]) (hq : g.filter q = [e2]) (hd : ∀ x ∈ g, p x = true → q x = false)
    (h0 : ∀ x ∈ g, p x = false → q x = false → f x = 0) : (g.map f).sum = f e1 + f e2 := by
  have key : ∀ l : List (Edge C), (∀ x ∈ l, p x = true → q x = false) →
      (∀ x ∈ l, p x = false → q x = false → f x = 0) →
      (l.map f).sum = ((l.filter p).map f).sum + ((l.filter q).map f).sum := by
    intro l
    induction l with
    | nil => intro _ _; simp
    | cons x l ih =>
      intro h1 h2
      rw [List.map_cons, List.sum_cons, ih (fun y hy => h1 y (by simp [hy]))
        fun y hy => h2 y (by simp [hy])]
      have h3 := h1 x (by simp)
      have h4 := h2 x (by simp)
      cases hpx : p x <;> cases hqx : q x <;> simp_all <;> ring
  rw [key g hd h0, hp, hq]
  simp

section chain
variable {v : View C} (hv : v.Lawful) {g : List (Edge C)} (hl : LoopFree g) (hs : Single g)
include hl hs

/-- At a node inside a chain, the flow goes from one edge to the next one. -/
theorem flow_mid {F : C → ℝ} (hb : Balanced F g) (ht : ∀ e ∈ g, ∃ i, Through F e i)
    {s : List Name} (hp : Path g s) {l1 l2 : List Name} {a y b : Name}
    (hsy : s = l1 ++ a :: y :: b :: l2) {e1 e2 : Edge C} (he1 : e1 ∈ g) (he2 : e2 ∈ g)
    (hj1 : Joins a y e1) (hj2 : Joins y b e2) : net F e1 y + net F e2 y = 0 := by
  obtain ⟨hy, hab, hm⟩ := hp.mid _ _ _ _ _ hsy
  have hmid : Mid g y := ⟨hy, a, b, hab, hm⟩
  have f1 : g.filter (between y a) = [e1] := by
    obtain ⟨x, hx⟩ := List.length_eq_one_iff.1 (hmid.single hl hs ((hm a).2 (Or.inl rfl)))
    rw [hx]
    have : e1 ∈ g.filter (between y a) := List.mem_filter.2 ⟨he1, (between_iff (hl e1 he1)).2 hj1.symm⟩
    rw [hx] at this
    rw [List.mem_singleton.1 this]
  have f2 : g.filter (between y b) = [e2] := by
    obtain ⟨x, hx⟩ := List.length_eq_one_iff.1 (hmid.single hl hs ((hm b).2 (Or.inr rfl)))
    rw [hx]
    have : e2 ∈ g.filter (between y b) := List.mem_filter.2 ⟨he2, (between_iff (hl e2 he2)).2 hj2⟩
    rw [hx] at this
    rw [List.mem_singleton.1 this]
  have h0 := hb y hy
  rw [leaves_net, sum_two f1 f2 ?_ ?_] at h0
  · exact h0
  · intro x hx h1
    by_contra hc
    rw [Bool.not_eq_false] at hc
    have i1 := (between_iff (hl x hx)).1 h1
    have i2 := (between_iff (hl x hx)).1 hc
    rcases i1 with ⟨i1, i1'⟩ | ⟨i1, i1'⟩ <;> rcases i2 with ⟨i2, i2'⟩ | ⟨i2, i2'⟩
    · exact hab (i1'.symm.trans i2')
    · exact hl x hx (i1.trans i2'.symm)
    · exact hl x hx (i2.trans i1'.symm)
    · exact hab (i1.symm.trans i2)
  · intro x hx h1 h2
    obtain ⟨i, hi⟩ := ht x hx
    rw [hi y]
    have hn : x.tail ≠ y ∧ x.head ≠ y := by
      constructor
      · intro hty
        rcases (hm x.head).1 ⟨x, hx, Or.inl ⟨hty, rfl⟩⟩ with h3 | h3
        · rw [(between_iff (hl x hx)).2 (Or.inl ⟨hty, h3⟩)] at h1; cases h1
        · rw [(between_iff (hl x hx)).2 (Or.inl ⟨hty, h3⟩)] at h2; cases h2
      · intro hhy
        rcases (hm x.tail).1 ⟨x, hx, Or.inr ⟨rfl, hhy⟩⟩ with h3 | h3
        · rw [(between_iff (hl x hx)).2 (Or.inr ⟨h3, hhy⟩)] at h1; cases h1
        · rw [(between_iff (hl x hx)).2 (Or.inr ⟨h3, hhy⟩)] at h2; cases h2
    simp [inc, hn.1, hn.2]

/-- All the edges of a chain carry the same flow. -/
theorem flow_chain {F : C → ℝ} (hb : Balanced F g) (ht : ∀ e ∈ g, ∃ i, Through F e i)
    {s : List Name} (hnd : s.Nodup) (hp : Path g s) : ∀ (r : List Name) (l : List Name) (a b : Name)
    (e : Edge C) (es : List (Edge C)) (i : ℝ), s = l ++ a :: b :: r → Along (a :: b :: r) (e :: es) →
    (∀ x ∈ e :: es, x ∈ g) → (∀ n, net F e n = i * inc a b n) →
    (∀ x ∈ e :: es, ∃ p q, Joins p q x ∧ ∀ n, net F x n = i * inc p q n) ∧
      ∀ z, (a :: b :: r).getLast? = some z → ∀ n, ((e :: es).map fun x => net F x n).sum = i * inc a z n := by
  intro r
  induction r with
  | nil =>
    intro l a b e es i hsl ha hg hi
    obtain ⟨h1, h2⟩ := ha
    cases es with
    | cons => exact absurd h2 (by simp [Along])
    | nil =>
      refine ⟨fun x hx => ?_, fun z hz n => ?_⟩
      · rw [List.mem_singleton.1 hx]; exact ⟨a, b, h1, hi⟩
      · have hz' : b = z := by simpa using hz
        subst hz'
        simpa using hi n
  | cons c r ih =>
    intro l a b e es i hsl ha hg hi
    obtain ⟨h1, h2⟩ := ha
    cases es with
    | nil => exact absurd h2 (by simp [Along])
    | cons e' es =>
      have h3 : Joins b c e' := h2.1
      obtain ⟨k, hk⟩ := ht e' (hg e' (by simp))
      obtain ⟨j, hj⟩ := hk.joins h3
      have hm := flow_mid hl hs hb ht hp hsl (hg e (by simp)) (hg e' (by simp)) h1 h3
      have hne : a ≠ b ∧ b ≠ c := by
        rw [hsl] at hnd
        have := (List.nodup_append.1 hnd).2.1
        simp only [List.nodup_cons, List.mem_cons, not_or] at this
        exact ⟨this.1.1, this.2.1.1⟩
      have hij : j = i := by
        rw [hi, hj] at hm
        simp only [inc, hne.1, hne.2.symm, if_true, if_false] at hm
        linarith
      subst hij
      obtain ⟨i1, i2⟩ := ih (l ++ [a]) b c e' es j (by rw [hsl]; simp) h2
        (fun x hx => hg x (by simp at hx ⊢; tauto)) hj
      refine ⟨fun x hx => ?_, fun z hz n => ?_⟩
      · rcases List.mem_cons.1 hx with rfl | hx
        · exact ⟨a, b, h1, hi⟩
        · exact i1 x hx
      · rw [List.getLast?_cons_cons] at hz
        rw [List.map_cons, List.sum_cons, i2 z hz n, hi]
        unfold inc
        ring

end chain

/-! ### The tree -/

/-- Label of a parallel connection. -/
def isPar (l : Name) : Bool := "parallel".toList.isPrefixOf l

theorem isPar_par (n : ℕ) : isPar (parLabel n) = true := by
  unfold isPar parLabel
  rw [List.isPrefixOf_iff_prefix]
  exact List.prefix_append _ _

theorem isPar_ser (n : ℕ) : isPar (serLabel n) = false := by
  unfold isPar serLabel
  simp [List.isPrefixOf]

mutual
/-- In every series connection of the tree, the components carry the same flow, up to orientation. -/
def SerEq (Φ : (C → ℝ) → Prop) : Edge C → Prop
  | .graph _ _ l sub => (isPar l = false → ∀ F, Φ F → ∀ t1 h1 l1 c1 t2 h2 l2 c2,
      .comp t1 h1 l1 c1 ∈ sub → .comp t2 h2 l2 c2 ∈ sub → F c1 ^ 2 = F c2 ^ 2) ∧ SerEqs Φ sub
  | .comp .. => True
  | .out .. => True
def SerEqs (Φ : (C → ℝ) → Prop) : List (Edge C) → Prop
  | [] => True
  | e :: es => SerEq Φ e ∧ SerEqs Φ es
end

theorem serEqs_iff {Φ : (C → ℝ) → Prop} {g : List (Edge C)} : SerEqs Φ g ↔ ∀ e ∈ g, SerEq Φ e := by
  induction g with
  | nil => simp [SerEqs]
  | cons e g ih => simp [SerEqs, ih]

theorem serEq_outs {Φ : (C → ℝ) → Prop} (l a b : Name) : ∀ e ∈ outs l a b, SerEq Φ (e : Edge C) := by
  intro e he
  simp only [outs, List.mem_map] at he
  obtain ⟨n, -, rfl⟩ := he
  simp [SerEq]

theorem outs_comp {l a b t h l' : Name} {c : C} : Edge.comp t h l' c ∉ outs l a b := by
  intro he
  simp only [outs, List.mem_map] at he
  obtain ⟨n, -, he⟩ := he
  cases he

/-- The invariant of the splitting. -/
def Flows (Φ : (C → ℝ) → Prop) (e : Edge C) : Prop := (∀ F, Φ F → ∃ i, Through F e i) ∧ SerEq Φ e

theorem flows_comp (Φ : (C → ℝ) → Prop) (t h l : Name) (c : C) : Flows Φ (.comp t h l c) :=
  ⟨fun F _ => ⟨F c, fun n => by simp [net, leavesOf, leafNet, tail, head]⟩, by simp [SerEq]⟩

theorem flows_closed (Φ : (C → ℝ) → Prop) : Closed (Flows Φ) := by
  intro t h n es _ hes hj
  refine ⟨fun F hF => ?_, ?_⟩
  · have key : ∀ l : List (Edge C), (∀ e ∈ l, Flows Φ e) → (∀ e ∈ l, Joins t h e) →
        ∃ i, ∀ m, (l.map fun e => net F e m).sum = i * inc t h m := by
      intro l
      induction l with
      | nil => intro _ _; exact ⟨0, fun m => by simp⟩
      | cons e l ih =>
        intro h1 h2
        obtain ⟨i, hi⟩ := ih (fun x hx => h1 x (by simp [hx])) fun x hx => h2 x (by simp [hx])
        obtain ⟨k, hk⟩ := (h1 e (by simp)).1 F hF
        obtain ⟨j, hj⟩ := hk.joins (h2 e (by simp))
        exact ⟨j + i, fun m => by rw [List.map_cons, List.sum_cons, hi, hj]; ring⟩
    obtain ⟨i, hi⟩ := key es hes hj
    exact ⟨i, fun m => by rw [net_graph]; exact hi m⟩
  · rw [SerEq]
    refine ⟨fun hp => ?_, ?_⟩
    · rw [isPar_par] at hp; cases hp
    · rw [serEqs_iff]
      intro e he
      rcases List.mem_append.1 he with he | he
      · exact (hes e he).2
      · exact serEq_outs _ _ _ e he

/-- The value of a flow in a component between two nodes. -/
theorem comp_flow {F : C → ℝ} {t h l : Name} {c : C} {p q : Name} {i : ℝ} (hth : t ≠ h)
    (hj : Joins p q (Edge.comp t h l c)) (hn : ∀ n, net F (.comp t h l c) n = i * inc p q n) :
    F c ^ 2 = i ^ 2 := by
  have h1 := hn t
  simp only [net, leavesOf, leafNet, List.map_cons, List.map_nil, List.sum_cons, List.sum_nil, add_zero,
    inc, if_true, hth.symm, if_false] at h1
  rcases hj with ⟨h2, h3⟩ | ⟨h2, h3⟩ <;> simp only [tail, head] at h2 h3 <;> subst h2 h3
  · simp only [if_true, hth.symm, if_false] at h1
    rw [show F c = i by linarith]
  · simp only [if_true, hth.symm, if_false] at h1
    rw [show F c = -i by linarith]
    ring

theorem flows_news {Φ : (C → ℝ) → Prop} {v : View C} (hv : v.Lawful) {g : List (Edge C)} (hl : LoopFree g)
    (hs : Single g) (hb : ∀ F, Φ F → Balanced F g) (hg : ∀ e ∈ g, Flows Φ e) :
    ∀ (T : List (Info C)) (k : ℕ), (∀ i ∈ T, i.Ok v g) →
    (∀ i ∈ T, Good g i.node i.s) → ∀ x ∈ news k T, Flows Φ x := by
  intro T
  induction T with
  | nil => intro k _ _ x hx; cases hx
  | cons i T ih =>
    intro k hok hgood x hx
    rw [news] at hx
    rcases List.mem_cons.1 hx with rfl | hx
    · have h1 := hok i (by simp)
      have h2 := hgood i (by simp)
      have hmem : ∀ e ∈ i.c.edges, e ∈ g := fun e he => by
        obtain ⟨l1, a, b, l2, -, heg, -⟩ := (pairEdges_mem hv h1.edges).1 e he
        exact heg
      have hal : Along i.s i.c.edges := by
        refine pairEdges_along hv hl ?_ h1.edges
        intro h
        have := h2.three
        rw [h] at this
        simp at this
      have key : ∀ F, Φ F → ∃ j, (∀ x ∈ i.c.edges, ∃ p q, Joins p q x ∧ ∀ n, net F x n = j * inc p q n) ∧
          ∀ n, (i.c.edges.map fun x => net F x n).sum = j * inc i.c.first i.c.last n := by
        intro F hF
        have hfst := h1.first
        have hlst := h1.last
        have h3 := h2.three
        have hnd := h2.nodup
        have hp := h2.path
        generalize i.s = s at *
        generalize i.c.edges = es at *
        match s, es with
        | a :: b :: r, e :: es =>
          obtain ⟨k', hk⟩ := (hg e (hmem e (by simp))).1 F hF
          obtain ⟨j, hj⟩ := hk.joins hal.1
          obtain ⟨i1, i2⟩ := flow_chain hl hs (hb F hF) (fun e he => (hg e he).1 F hF) hnd hp r [] a b e es j
            rfl hal hmem hj
          refine ⟨j, i1, ?_⟩
          have hf : a = i.c.first := by simpa using hfst
          rw [← hf]
          exact i2 _ hlst
        | a :: b :: r, [] => exact absurd hal (by simp [Along])
        | [a], _ => simp at h3
        | [], _ => simp at h3
      refine ⟨fun F hF => ?_, ?_⟩
      · obtain ⟨j, -, hj⟩ := key F hF
        exact ⟨j, fun n => by rw [net_graph]; exact hj n⟩
      · rw [SerEq]
        refine ⟨fun _ F hF t1 e1 l1 c1 t2 e2 l2 c2 m1 m2 => ?_, ?_⟩
        · obtain ⟨j, hj, -⟩ := key F hF
          replace m1 := (List.mem_append.1 m1).resolve_right outs_comp
          replace m2 := (List.mem_append.1 m2).resolve_right outs_comp
          obtain ⟨p1, q1, j1, n1⟩ := hj _ m1
          obtain ⟨p2, q2, j2, n2⟩ := hj _ m2
          rw [comp_flow (hl _ (hmem _ m1)) j1 n1, comp_flow (hl _ (hmem _ m2)) j2 n2]
        · rw [serEqs_iff]
          intro e he
          rcases List.mem_append.1 he with he | he
          · exact (hg e (hmem e he)).2
          · exact serEq_outs _ _ _ e he
    · exact ih (k + 1) (fun j hj => hok j (by simp [hj])) (fun j hj => hgood j (by simp [hj])) x hx

theorem spSplit_flows {Φ : (C → ℝ) → Prop} {vp vs : ℕ → View C} (hvp : ∀ k, (vp k).Lawful)
    (hvs : ∀ k, (vs k).Lawful) : ∀ (fuel k : ℕ) (st st' : State C), LoopFree st.edges → NoHang st.edges →
    (∀ e ∈ st.edges, SP e) → (∀ F, Φ F → Balanced F st.edges) → (∀ e ∈ st.edges, Flows Φ e) →
    spSplit vp vs fuel k st = some st' → ∀ e ∈ st'.edges, Flows Φ e := by
  intro fuel
  induction fuel with
  | zero => intro k st st' _ _ _ _ _ h; cases h
  | succ fuel ih =>
    intro k st st' hl hn hsp hb hf h
    obtain ⟨st2, c, hpass, hl2, hn2, hsp2, hlv2, -, -⟩ := pass_spec (hvp k) (hvs k) hl hn hsp
    have hf2 : ∀ e ∈ st2.edges, Flows Φ e := by
      obtain ⟨st1, c1, h1, hlv1, hadj1, hl1, hs1, -, -⟩ := splitParallel_spec (hvp k) hl
      have hn1 := hn.congr hadj1
      have hf1 := splitParallel_of (flows_closed Φ) (hvp k) hl hf h1
      obtain ⟨T, h2, -, hT | ⟨⟨A, s, hA⟩, -⟩⟩ := splitSerial_spec (hvs k) hl1 hs1
      · unfold pass at hpass
        rw [h1] at hpass
        simp only [Option.bind_some] at hpass
        rw [h2] at hpass
        simp only [Option.bind_some, Option.some.injEq, Prod.mk.injEq] at hpass
        rw [← hpass.1, clusters_fold (hvs k) hl1 hs1 hT]
        intro x hx
        rcases List.mem_append.1 hx with hx | hx
        · exact hf1 x (List.mem_filter.1 hx).1
        · exact flows_news (hvs k) hl1 hs1 (fun F hF => (hb F hF).perm hlv1) hf1 T _ hT.ok hT.good x hx
      · exact absurd hA (hn1.not_closing A s)
    unfold spSplit at h
    rw [hpass] at h
    simp only [Option.bind_some] at h
    cases c with
    | true => exact ih (k + 1) st2 st' hl2 hn2 hsp2 (fun F hF => (hb F hF).perm hlv2) hf2 (by simpa using h)
    | false =>
      obtain rfl : st2 = st' := by simpa using h
      exact hf2

end Verif.Split
