import Verif.Split.Assemble
import Mathlib.Data.List.Dedup

/-!
# C62: graphs are split and assembled without loss

`Graph.perform_analysis` splits every graph into a tree of series and parallel connections
(`sp_split`) and assembles it again (`sp_assemble`).

* `C62_split`: without loops that hang at a node (`NoHang`), whatever the orders in which `networkx`
  enumerates nodes and edges, the splitting ends after at most as many passes as there are edges;
  the tree has the components of the graph, each one once and between its nodes; its subgraphs are
  series or parallel connections; nothing is left to split.
* `C62_assemble`: assembling a tree gives its components.
* `C62_roundtrip`: splitting and assembling give the graph.
* `C62_hanging_loop`, `C62_floating_loop`: without `NoHang`, the splitting may never end, or fail.
* `C62_out_label`: components whose label contains `_out_` are removed from every graph.
-/

namespace Verif.Split

open Edge

variable {C : Type}

/-- The edge is a component. -/
def IsComp (e : Edge C) : Prop := ∃ t h l c, e = .comp t h l c

theorem IsComp.sp {e : Edge C} (h : IsComp e) : SP e := by
  obtain ⟨t, h, l, c, rfl⟩ := h
  exact SP.comp t h l c

theorem leaves_comps {g : List (Edge C)} (h : ∀ e ∈ g, IsComp e) : leaves g = g := by
  induction g with
  | nil => rfl
  | cons e g ih =>
    obtain ⟨t, h', l, c, rfl⟩ := h e (by simp)
    rw [leaves, leavesOf, ih fun x hx => h x (by simp [hx])]
    rfl

theorem C62_split {vp vs : ℕ → View C} (hvp : ∀ k, (vp k).Lawful) (hvs : ∀ k, (vs k).Lawful)
    (g : List (Edge C)) (hc : ∀ e ∈ g, IsComp e) (hl : LoopFree g) (hn : NoHang g)
    (idpar idser fuel : ℕ) (hf : g.length < fuel) :
    ∃ st', spSplit vp vs fuel 0 ⟨g, idpar, idser⟩ = some st' ∧ (leaves st'.edges).Perm g ∧
      (∀ e ∈ st'.edges, SP e) ∧ Reduced st'.edges := by
  obtain ⟨st', h1, h2, h3, h4⟩ := spSplit_spec hvp hvs fuel 0 ⟨g, idpar, idser⟩ hf hl hn
    fun e he => (hc e he).sp
  exact ⟨st', h1, by rwa [leaves_comps hc] at h2, h4, h3⟩

theorem C62_assemble {v : View C} (hv : v.Lawful) (g : List (Edge C)) (hg : ∀ e ∈ g, SP e)
    (hf : ∀ x ∈ leaves g, Free x.label) :
    ∃ g', spAssemble v g = some g' ∧ g'.Perm (leaves g) :=
  spAssemble_spec hv hg hf

theorem C62_roundtrip {vp vs : ℕ → View C} (hvp : ∀ k, (vp k).Lawful)
    (hvs : ∀ k, (vs k).Lawful) {v : View C} (hv : v.Lawful) (g : List (Edge C))
    (hc : ∀ e ∈ g, IsComp e) (hl : LoopFree g) (hn : NoHang g) (hlab : ∀ e ∈ g, Free e.label)
    (idpar idser fuel : ℕ) (hf : g.length < fuel) :
    ∃ st' g', spSplit vp vs fuel 0 ⟨g, idpar, idser⟩ = some st' ∧
      spAssemble v st'.edges = some g' ∧ g'.Perm g := by
  obtain ⟨st', h1, h2, h3, -⟩ := C62_split hvp hvs g hc hl hn idpar idser fuel hf
  obtain ⟨g', h4, h5⟩ := C62_assemble hv st'.edges h3 fun x hx => hlab x (h2.subset hx)
  exact ⟨st', g', h1, h4, h5.trans h2⟩

/-- The edge of a port. -/
def isOut : Edge C → Bool
  | .out .. => true
  | _ => false

/-- **Specification**: a subgraph has one port, from the datum, at each of its two terminals that is not the
datum. -/
def ports (l t h : Name) : List (Edge C) :=
  (if t = datum then [] else [.out datum t (l ++ "_out_".toList ++ t)]) ++
    (if h = datum then [] else [.out datum h (l ++ "_out_".toList ++ h)])

/-- **C62**, ports: all the subgraphs, at every level, of the tree made by `sp_split` have these ports and no
other one. -/
theorem C62_ports {vp vs : ℕ → View C} (hvp : ∀ k, (vp k).Lawful) (hvs : ∀ k, (vs k).Lawful)
    (g : List (Edge C)) (hc : ∀ e ∈ g, IsComp e) (hl : LoopFree g) (hn : NoHang g)
    (idpar idser fuel : ℕ) (hf : g.length < fuel) :
    ∃ st', spSplit vp vs fuel 0 ⟨g, idpar, idser⟩ = some st' ∧
      ∀ e ∈ st'.edges, ∀ t h l es, .graph t h l es ∈ e :: inner e → es.filter isOut = ports l t h := by
  obtain ⟨st', h1, -, h3, -⟩ := C62_split hvp hvs g hc hl hn idpar idser fuel hf
  refine ⟨st', h1, fun e he => ?_⟩
  have hs := h3 e he
  clear he h3 h1
  have hout : ∀ l t h : Name, (outs l t h : List (Edge C)).filter isOut = ports l t h := by
    intro l t h
    by_cases h1 : t = datum <;> by_cases h2 : h = datum <;>
      simp [outs, ports, h1, h2, outLabel, isOut]
  have hsp : ∀ x : Edge C, SP x → isOut x = false := fun x hx => by cases hx <;> rfl
  have hinn : ∀ l t h : Name, ∀ x ∈ (outs l t h : List (Edge C)), inner x = [] ∧
      ∀ a b c d, x ≠ .graph a b c d := by
    intro l t h x hx
    simp only [outs, List.mem_map] at hx
    obtain ⟨n, _, rfl⟩ := hx
    exact ⟨rfl, fun _ _ _ _ => by simp⟩
  have sub : ∀ (t h l : Name) (es : List (Edge C)), (∀ e ∈ es, SP e) →
      (∀ e ∈ es, ∀ t h l fs, .graph t h l fs ∈ e :: inner e → fs.filter isOut = ports l t h) →
      ∀ t' h' l' fs, .graph t' h' l' fs ∈
          Edge.graph t h l (es ++ outs l t h) :: inner (.graph t h l (es ++ outs l t h)) →
        fs.filter isOut = ports l' t' h' := by
    intro t h l es hes ih t' h' l' fs hm
    rcases List.mem_cons.1 hm with hm | hm
    · injection hm with e1 e2 e3 e4
      subst e1 e2 e3 e4
      rw [List.filter_append, hout, List.filter_eq_nil_iff.2, List.nil_append]
      intro x hx
      rw [hsp x (hes x hx)]; simp
    · rw [inner, inners_eq] at hm
      rcases List.mem_append.1 hm with hm | hm
      · rcases List.mem_append.1 hm with hm | hm
        · exact ih _ hm _ _ _ _ (List.mem_cons_self ..)
        · exact absurd rfl ((hinn _ _ _ _ hm).2 _ _ _ _)
      · obtain ⟨x, hx, hm⟩ := List.mem_flatMap.1 hm
        rcases List.mem_append.1 hx with hx | hx
        · exact ih x hx _ _ _ _ (List.mem_cons_of_mem _ hm)
        · rw [(hinn _ _ _ _ hx).1] at hm; simp at hm
  induction hs with
  | comp t h l c =>
    intro t' h' l' fs hm
    simp [inner] at hm
  | par t h n es _ he _ ih => exact sub t h _ es he ih
  | ser t h n es s _ _ _ _ he _ ih => exact sub t h _ es he ih

theorem inners_comps {g : List (Edge C)} (h : ∀ e ∈ g, IsComp e) : inners g = [] := by
  rw [inners_eq, List.flatMap_eq_nil_iff]
  intro e he
  obtain ⟨t, h', l, c, rfl⟩ := h e he
  rfl

/-- Of a graph of components, `sp_assemble` keeps those whose label does not contain `_out_`. -/
theorem C62_out_label {v : View C} (hv : v.Lawful) (g : List (Edge C))
    (hc : ∀ e ∈ g, IsComp e) :
    spAssemble v g = some (g.filter fun e => !decide ("_out_".toList <:+: e.label)) := by
  have hi := inners_comps hc
  have hd : ∀ e ∈ g, dropped e = decide ("_out_".toList <:+: e.label) := by
    intro e he
    obtain ⟨t, h', l, c, rfl⟩ := hc e he
    simp [dropped, isGraph]
  rw [spAssemble_eq hv]
  · rw [hi, List.append_nil]
    congr 1
    refine List.filter_congr fun e he => ?_
    rw [hd e he]
  · rw [hi, List.append_nil]
    intro x hx hxd e he hed hk
    have h3 : x.label = e.label := congrArg (fun k => k.2.2) hk
    rw [hd x hx, h3, ← hd e he, hed] at hxd
    cases hxd

/-! ## The enumerations of `networkx` -/

def ends (e : Edge C) : List Name := [e.tail, e.head]

/-- nodes and neighbours in the order of their insertion -/
def firsts (l : List Name) : List Name := l.reverse.dedup.reverse

def other (n : Name) (e : Edge C) : Option Name :=
  if e.tail = n then some e.head else if e.head = n then some e.tail else none

/-- An enumeration for graphs to which the datum was added first: the datum before the other nodes,
and the edges which leave it before the other edges. -/
def pyView : View C where
  nodes g := let l := firsts (g.flatMap ends); l.filter (· = datum) ++ l.filter (fun n => !(n = datum))
  nbrs g n := firsts (g.filterMap (other n))
  edges g := g.filter (fun e => e.tail = datum) ++ g.filter (fun e => !(e.tail = datum))

theorem mem_firsts (l : List Name) (n : Name) : n ∈ firsts l ↔ n ∈ l := by
  simp [firsts]

theorem nodup_firsts (l : List Name) : (firsts l).Nodup :=
  List.nodup_reverse.2 (List.nodup_dedup _)

theorem pyView_lawful : (pyView : View C).Lawful where
  nodes_nodup g := (List.filter_append_perm _ _).nodup_iff.2 (nodup_firsts _)
  mem_nodes g n := by
    have := (List.filter_append_perm (· = datum) (firsts (g.flatMap ends))).mem_iff (a := n)
    refine Iff.trans (by simpa [pyView] using this) ?_
    rw [mem_firsts, List.mem_flatMap]
    constructor
    · rintro ⟨e, he, h⟩
      simp only [ends, List.mem_cons, List.not_mem_nil, or_false] at h
      rcases h with rfl | rfl
      · exact ⟨e.head, e, he, Or.inl ⟨rfl, rfl⟩⟩
      · exact ⟨e.tail, e, he, Or.inr ⟨rfl, rfl⟩⟩
    · rintro ⟨m, e, he, ⟨h, -⟩ | ⟨-, h⟩⟩
      · exact ⟨e, he, by simp [ends, h]⟩
      · exact ⟨e, he, by simp [ends, h]⟩
  nbrs_nodup g n := nodup_firsts _
  mem_nbrs g n m := by
    show m ∈ firsts _ ↔ _
    rw [mem_firsts, List.mem_filterMap]
    constructor
    · rintro ⟨e, he, h⟩
      unfold other at h
      split at h
      · exact ⟨e, he, Or.inl ⟨‹_›, Option.some.inj h⟩⟩
      · split at h
        · exact ⟨e, he, Or.inr ⟨Option.some.inj h, ‹_›⟩⟩
        · cases h
    · rintro ⟨e, he, ⟨h1, h2⟩ | ⟨h1, h2⟩⟩
      · exact ⟨e, he, by simp [other, h1, h2]⟩
      · refine ⟨e, he, ?_⟩
        unfold other
        split
        · rename_i h3
          rw [h2, ← h1, h3]
        · rw [h1]
  edges_perm g := List.filter_append_perm _ _

/-! ## Graphs that are not split -/

def nA : Name := ['A']
def nB : Name := ['B']
def nD : Name := ['D']

/-- A source and three components in a loop which hangs at the node `A`. -/
def hanging : List (Edge Unit) :=
  [.comp datum nA ['u'] (), .comp nA nB ['r'] (), .comp nB nD ['l'] (), .comp nD nA ['c'] ()]

theorem pass_hanging : ∃ l s p q, pass pyView pyView (⟨hanging, 0, 0⟩ : State Unit) =
    some (⟨[.comp datum nA ['u'] (), .graph nA nA l s], p, q⟩, true) :=
  ⟨_, _, _, _, rfl⟩

theorem pass_first (l : Name) (s : List (Edge Unit)) (p q : ℕ) : ∃ l' s' p' q',
    pass pyView pyView (⟨[.comp datum nA ['u'] (), .graph nA nA l s], p, q⟩ : State Unit) =
      some (⟨[.graph nA nA l s, .graph datum nA l' s'], p', q'⟩, true) :=
  ⟨_, _, _, _, rfl⟩

theorem pass_next (l m : Name) (s r : List (Edge Unit)) (p q : ℕ) : ∃ m' r' p' q',
    pass pyView pyView (⟨[.graph nA nA l s, .graph datum nA m r], p, q⟩ : State Unit) =
      some (⟨[.graph nA nA l s, .graph datum nA m' r'], p', q'⟩, true) :=
  ⟨_, _, _, _, rfl⟩

theorem spSplit_next : ∀ (fuel k : ℕ) (l m : Name) (s r : List (Edge Unit)) (p q : ℕ),
    spSplit (fun _ => pyView) (fun _ => pyView) fuel k
      (⟨[.graph nA nA l s, .graph datum nA m r], p, q⟩ : State Unit) = none := by
  intro fuel
  induction fuel with
  | zero => intros; rfl
  | succ fuel ih =>
    intro k l m s r p q
    obtain ⟨m', r', p', q', h⟩ := pass_next l m s r p q
    rw [spSplit, h]
    exact ih _ _ _ _ _ _ _

/-- The splitting of a graph with a loop that hangs at a node never ends. -/
theorem C62_hanging_loop : (∀ e ∈ hanging, IsComp e) ∧ LoopFree hanging ∧ ∀ fuel,
    spSplit (fun _ => pyView) (fun _ => pyView) fuel 0 (⟨hanging, 0, 0⟩ : State Unit) = none := by
  refine ⟨?_, ?_, ?_⟩
  · intro e he
    simp only [hanging, List.mem_cons, List.not_mem_nil, or_false] at he
    rcases he with rfl | rfl | rfl | rfl <;> exact ⟨_, _, _, _, rfl⟩
  · intro e he
    simp only [hanging, List.mem_cons, List.not_mem_nil, or_false] at he
    rcases he with rfl | rfl | rfl | rfl <;> simp [tail, head, nA, nB, nD, datum]
  · intro fuel
    match fuel with
    | 0 => rfl
    | 1 => rfl
    | fuel + 2 =>
      obtain ⟨l, s, p, q, h⟩ := pass_hanging
      obtain ⟨l', s', p', q', h'⟩ := pass_first l s p q
      rw [spSplit, h]
      simp only [Option.bind_some, if_true]
      rw [spSplit, h']
      exact spSplit_next _ _ _ _ _ _ _ _

/-- A source, a resistor, and three components in a loop without connection to the datum. -/
def floating : List (Edge Unit) :=
  [.comp datum nA ['u'] (), .comp nB nD ['r'] (), .comp nD ['E'] ['l'] (),
    .comp ['E'] nB ['c'] ()]

/-- The splitting of a graph with a loop without connection to the datum fails: in the second pass
the neighbours of a node are not two. -/
theorem C62_floating_loop : (∀ e ∈ floating, IsComp e) ∧ LoopFree floating ∧
    ∃ st, pass pyView pyView (⟨floating, 0, 0⟩ : State Unit) = some (st, true) ∧
      pass pyView pyView st = none := by
  refine ⟨?_, ?_, ?_⟩
  · intro e he
    simp only [floating, List.mem_cons, List.not_mem_nil, or_false] at he
    rcases he with rfl | rfl | rfl | rfl <;> exact ⟨_, _, _, _, rfl⟩
  · intro e he
    simp only [floating, List.mem_cons, List.not_mem_nil, or_false] at he
    rcases he with rfl | rfl | rfl | rfl <;> simp [tail, head, nA, nB, nD, datum]
  · exact ⟨_, rfl, rfl⟩

/-! ## Examples -/

/-- A source, a chain `A - B - D` and two components in parallel between `D` and the datum. -/
def ladder : List (Edge Unit) :=
  [.comp datum nA ['u'] (), .comp nA nB ['r'] (), .comp nB nD ['l'] (), .comp nD datum ['c'] (),
    .comp datum nD ['g'] ()]

theorem ladder_comps : ∀ e ∈ ladder, IsComp e := by
  intro e he
  simp only [ladder, List.mem_cons, List.not_mem_nil, or_false] at he
  rcases he with rfl | rfl | rfl | rfl | rfl <;> exact ⟨_, _, _, _, rfl⟩

theorem ladder_loopFree : LoopFree ladder := by
  intro e he
  simp only [ladder, List.mem_cons, List.not_mem_nil, or_false] at he
  rcases he with rfl | rfl | rfl | rfl | rfl <;> simp [tail, head, nA, nB, nD, datum]

theorem ladder_adj {x y : Name} (h : Adj ladder x y) :
    (x = datum ∧ y = nA) ∨ (x = nA ∧ y = datum) ∨ (x = nA ∧ y = nB) ∨ (x = nB ∧ y = nA) ∨
    (x = nB ∧ y = nD) ∨ (x = nD ∧ y = nB) ∨ (x = nD ∧ y = datum) ∨ (x = datum ∧ y = nD) := by
  obtain ⟨e, he, h⟩ := h
  simp only [ladder, List.mem_cons, List.not_mem_nil, or_false] at he
  rcases he with rfl | rfl | rfl | rfl | rfl <;> simp only [tail, head] at h <;>
    rcases h with ⟨rfl, rfl⟩ | ⟨rfl, rfl⟩ <;> simp

theorem ladder_noHang : NoHang ladder := by
  have a1 : Adj ladder nA datum := ⟨.comp datum nA ['u'] (), by simp [ladder], Or.inr ⟨rfl, rfl⟩⟩
  have a2 : Adj ladder nB nA := ⟨.comp nA nB ['r'] (), by simp [ladder], Or.inr ⟨rfl, rfl⟩⟩
  have a3 : Adj ladder nB nD := ⟨.comp nB nD ['l'] (), by simp [ladder], Or.inl ⟨rfl, rfl⟩⟩
  have a4 : Adj ladder nD datum := ⟨.comp nD datum ['c'] (), by simp [ladder], Or.inl ⟨rfl, rfl⟩⟩
  have hAB : nA ≠ nB := by decide
  have hAD : nA ≠ nD := by decide
  have hBD : nB ≠ nD := by decide
  intro A hA U hU hUU
  -- a node of `U` other than `A`
  obtain ⟨b, hb, hbA⟩ : ∃ b, U b ∧ b ≠ A := by
    obtain ⟨u, hu⟩ := hU
    obtain ⟨a, b, hab, ha, hb, -⟩ := hUU u hu
    by_cases h : a = A
    · exact ⟨b, hb, fun h' => hab (h.trans h'.symm)⟩
    · exact ⟨a, ha, h⟩
  refine ⟨b, hb, hbA, ?_⟩
  obtain ⟨m, -, -, -, -, hm, -⟩ := hUU b hb
  have hbn : b = datum ∨ b = nA ∨ b = nB ∨ b = nD := by
    rcases ladder_adj hm with h | h | h | h | h | h | h | h <;> simp [h.1]
  rcases hbn with rfl | rfl | rfl | rfl
  · exact Relation.ReflTransGen.refl
  · exact Relation.ReflTransGen.single ⟨a1, hbA, hA.symm⟩
  · by_cases h : nA = A
    · have hD : nD ≠ A := fun h' => hAD (h.trans h'.symm)
      exact (Relation.ReflTransGen.single ⟨a3, hbA, hD⟩).tail ⟨a4, hD, hA.symm⟩
    · exact (Relation.ReflTransGen.single ⟨a2, hbA, h⟩).tail ⟨a1, h, hA.symm⟩
  · exact Relation.ReflTransGen.single ⟨a4, hbA, hA.symm⟩

theorem parLabel_length (n : ℕ) : 8 ≤ (parLabel n).length := by
  unfold parLabel
  rw [List.length_append]
  exact Nat.le_add_right 8 _

theorem serLabel_length (n : ℕ) : 6 ≤ (serLabel n).length := by
  unfold serLabel
  rw [List.length_append]
  exact Nat.le_add_right 6 _

theorem free_single (c : Char) : Free [c] := by
  refine ⟨fun h => ?_, fun n => ⟨fun h => ?_, fun h => ?_⟩⟩
  · have := h.length_le
    simp at this
  · have := parLabel_length n
    rw [← h, List.length_singleton] at this
    omega
  · have := serLabel_length n
    rw [← h, List.length_singleton] at this
    omega

theorem ladder_free : ∀ e ∈ ladder, Free e.label := by
  intro e he
  simp only [ladder, List.mem_cons, List.not_mem_nil, or_false] at he
  rcases he with rfl | rfl | rfl | rfl | rfl <;> exact free_single _

example : ∃ st' g', spSplit (fun _ => pyView) (fun _ => pyView) 6 0
      (⟨ladder, 0, 0⟩ : State Unit) = some st' ∧
      spAssemble pyView st'.edges = some g' ∧ g'.Perm ladder :=
  C62_roundtrip (fun _ => pyView_lawful) (fun _ => pyView_lawful) pyView_lawful ladder
    ladder_comps ladder_loopFree ladder_noHang ladder_free 0 0 6 (by decide)

/-- The first pass on `ladder` finds a parallel connection and then a chain. -/
example : ∃ l m s r, pass pyView pyView (⟨ladder, 0, 0⟩ : State Unit) =
    some (⟨[.graph datum nD l s, .graph datum nD m r], 1, 1⟩, true) :=
  ⟨_, _, _, _, rfl⟩

/-- A port with the label `u_out_1` is lost. -/
example : spAssemble pyView [(.comp datum nA "u_out_1".toList () : Edge Unit)] = some [] := by
  rw [C62_out_label pyView_lawful _ (by
    intro e he
    rw [List.mem_singleton.1 he]
    exact ⟨_, _, _, _, rfl⟩)]
  rfl

end Verif.Split
