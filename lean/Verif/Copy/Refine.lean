/-
Cores that share no object behave like plain values.
-/
import Verif.Copy.Lemmas

namespace Pyphs
namespace Copy

variable {α : Type}

/-- No object is an attribute of two cores, or two attributes of a core. (The dictionaries of connectors
can be shared.) -/
structure Inv (w : World α) : Prop where
  valid : ∀ (i : ℕ) (o : Obj α), w.objs[i]? = some o → Valid w.heap o.attrs
  inj : ∀ (i j : ℕ) (o o' : Obj α) (n m : Name) (p : ℕ), w.objs[i]? = some o → w.objs[j]? = some o' → o.attrs n = some (.ref p) →
    o'.attrs m = some (.ref p) → i = j ∧ n = m

/-- The connector `k` of attribute `n` of core `i` is not a connector of another core, nor twice one of
this core. -/
def Excl (w : World α) (i : ℕ) (n : Name) (k : ℕ) : Prop :=
  ∀ (o : Obj α) (p : ℕ) (qs : List ℕ) (q : ℕ), w.objs[i]? = some o → o.attrs n = some (.ref p) → w.heap[p]? = some (.conns qs) →
    qs[k]? = some q → ∀ (j : ℕ) (o' : Obj α) (m : Name) (p' : ℕ) (qs' : List ℕ) (k' : ℕ), w.objs[j]? = some o' → o'.attrs m = some (.ref p') →
    w.heap[p']? = some (.conns qs') → qs'[k']? = some q → j = i ∧ m = n ∧ k' = k

/-- The only condition on a program: the coefficient of a connector that is shared is not changed. -/
def Op.Safe (w : World α) : Op α → Prop
  | .step i s => ∀ o : Obj α, w.objs[i]? = some o → ∀ n k a,
      s o.label (view w.heap o.attrs) = .setAlpha n k a → Excl w i n k
  | .copy _ ord => ∀ l, (ord l).Perm l
  | _ => True

def SafeAll (none' zero : α) (w : World α) : List (Op α) → Prop
  | [] => True
  | op :: ops => op.Safe w ∧ SafeAll none' zero (op.run none' zero w) ops

theorem abs_get (w : World α) (i : ℕ) : w.abs.cores[i]? =
    (w.objs[i]?).map fun o => ⟨o.label, view w.heap o.attrs⟩ := by
  simp [World.abs]

theorem empty_valid (h : Heap α) : Valid h fun _ => none := fun n p e => by cases e

theorem Inv.append {w : World α} (x : Inv w) {h : Heap α} {t : Attrs α}
    (e : Ext w.heap h (fun _ => none) t) (l : String) :
    Inv { w with heap := h, objs := w.objs ++ [⟨l, t⟩] } ∧
      World.abs { w with heap := h, objs := w.objs ++ [⟨l, t⟩] } =
        { w.abs with cores := w.abs.cores ++ [⟨l, view h t⟩] } := by
  have key : ∀ i o, (w.objs ++ [⟨l, t⟩])[i]? = some o → w.objs[i]? = some o ∨
      (i = w.objs.length ∧ o = ⟨l, t⟩) := by
    intro i o hi
    rcases Nat.lt_or_ge i w.objs.length with hlt | hge
    · left
      rwa [List.getElem?_append_left hlt] at hi
    · right
      rw [List.getElem?_append_right hge] at hi
      have h0 : i - w.objs.length = 0 := by
        have := (List.getElem?_eq_some_iff.1 hi).1
        simp at this
        omega
      rw [h0] at hi
      refine ⟨by omega, ?_⟩
      simpa using hi.symm
  have fr : ∀ n p, t n = some (.ref p) → w.heap.length ≤ p := fun n p hp => by
    rcases e.fresh n p hp with h1 | h1
    · cases h1
    · exact h1
  refine ⟨⟨fun i o hi => ?_, fun i j o o' n m p hi hj hn hm => ?_⟩, ?_⟩
  · rcases key i o hi with h1 | ⟨-, rfl⟩
    · exact (x.valid i o h1).mono e.pre
    · exact e.valid
  · rcases key i o hi with h1 | ⟨r1, rfl⟩ <;> rcases key j o' hj with h2 | ⟨r2, rfl⟩
    · exact x.inj i j o o' n m p h1 h2 hn hm
    · have a := (x.valid i o h1 n p hn).lt
      have b := fr m p hm
      omega
    · have a := (x.valid j o' h2 m p hm).lt
      have b := fr n p hn
      omega
    · exact ⟨by omega, e.inj n m p (fr n p hn) hn hm⟩
  · simp only [World.abs, List.map_append, List.map_cons, List.map_nil]
    congr 2
    refine List.map_congr_left fun o ho => ?_
    obtain ⟨i, hi⟩ := List.mem_iff_getElem?.1 ho
    rw [view_mono e.pre (x.valid i o hi)]

theorem Inv.set {w : World α} (x : Inv w) {i : ℕ} {o : Obj α} (ho : w.objs[i]? = some o) {h : Heap α}
    {t : Attrs α} (e : Ext w.heap h o.attrs t) (l : String) :
    Inv { w with heap := h, objs := w.objs.set i ⟨l, t⟩ } ∧
      World.abs { w with heap := h, objs := w.objs.set i ⟨l, t⟩ } =
        { w.abs with cores := w.abs.cores.set i ⟨l, view h t⟩ } := by
  have hil := (List.getElem?_eq_some_iff.1 ho).1
  have key : ∀ j o', (w.objs.set i ⟨l, t⟩)[j]? = some o' → (j ≠ i ∧ w.objs[j]? = some o') ∨
      (j = i ∧ o' = ⟨l, t⟩) := by
    intro j o' hj
    rw [List.getElem?_set] at hj
    by_cases hij : i = j
    · right
      rw [if_pos hij, if_pos hil] at hj
      exact ⟨hij.symm, (Option.some.inj hj).symm⟩
    · left
      rw [if_neg hij] at hj
      exact ⟨fun h => hij h.symm, hj⟩
  have other : ∀ j o' n m p, j ≠ i → w.objs[j]? = some o' → o'.attrs m = some (.ref p) →
      t n = some (.ref p) → False := by
    intro j o' n m p hne hj hm hn
    rcases e.fresh n p hn with h1 | h1
    · exact hne (x.inj j i o' o m n p hj ho hm h1).1
    · have := (x.valid j o' hj m p hm).lt
      omega
  refine ⟨⟨fun j o' hj => ?_, fun j k o1 o2 n m p hj hk hn hm => ?_⟩, ?_⟩
  · rcases key j o' hj with ⟨-, h1⟩ | ⟨-, rfl⟩
    · exact (x.valid j o' h1).mono e.pre
    · exact e.valid
  · rcases key j o1 hj with ⟨n1, h1⟩ | ⟨r1, rfl⟩ <;> rcases key k o2 hk with ⟨n2, h2⟩ | ⟨r2, rfl⟩
    · exact x.inj j k o1 o2 n m p h1 h2 hn hm
    · exact (other j o1 m n p n1 h1 hn hm).elim
    · exact (other k o2 n m p n2 h2 hm hn).elim
    · refine ⟨by omega, ?_⟩
      rcases e.fresh n p hn with h1 | h1
      · rcases e.fresh m p hm with h2 | h2
        · exact (x.inj i i o o n m p ho ho h1 h2).2
        · have := (x.valid i o ho n p h1).lt
          omega
      · exact e.inj n m p h1 hn hm
  · simp only [World.abs]
    congr 1
    refine List.ext_getElem? fun j => ?_
    rw [List.getElem?_map, List.getElem?_set, List.getElem?_set, List.getElem?_map, List.length_map]
    by_cases hij : i = j
    · rw [if_pos hij, if_pos hij, if_pos hil, if_pos hil]; rfl
    · rw [if_neg hij, if_neg hij]
      cases hj : w.objs[j]? with
      | none => rfl
      | some o' =>
        show some (ACore.mk o'.label (view h o'.attrs)) = some ⟨o'.label, view w.heap o'.attrs⟩
        rw [view_mono e.pre (x.valid j o' hj)]

/-- A change in place of the object of one attribute. -/
theorem Inv.inplace {w : World α} (x : Inv w) {i : ℕ} {o : Obj α} (ho : w.objs[i]? = some o) {n : Name}
    {p : ℕ} (hp : o.attrs n = some (.ref p)) {h : Heap α} {y : Tree α} (g : Good h p)
    (hy : read h (.ref p) = some y)
    (fr : ∀ (j : ℕ) (o' : Obj α) (m : Name) (p' : ℕ), w.objs[j]? = some o' → o'.attrs m = some (.ref p') → p' ≠ p →
      Good h p' ∧ read h (.ref p') = read w.heap (.ref p')) :
    Inv { w with heap := h, objs := w.objs.set i o } ∧
      World.abs { w with heap := h, objs := w.objs.set i o } =
        { w.abs with cores := w.abs.cores.set i ⟨o.label, put (view w.heap o.attrs) n y⟩ } := by
  have hil := (List.getElem?_eq_some_iff.1 ho).1
  have hset : w.objs.set i o = w.objs := by
    refine List.ext_getElem? fun j => ?_
    rw [List.getElem?_set]
    by_cases hij : i = j
    · rw [if_pos hij, if_pos hil, ← hij, ho]
    · rw [if_neg hij]
  rw [hset]
  refine ⟨⟨fun j o' hj m p' hm => ?_, x.inj⟩, ?_⟩
  · by_cases hpp : p' = p
    · rw [hpp]; exact g
    · exact (fr j o' m p' hj hm hpp).1
  · simp only [World.abs]
    congr 1
    refine List.ext_getElem? fun j => ?_
    rw [List.getElem?_map, List.getElem?_set, List.getElem?_map, List.length_map]
    have vw : ∀ o' m, w.objs[j]? = some o' → (∀ q, o'.attrs m = some (.ref q) → q ≠ p) →
        view h o'.attrs m = view w.heap o'.attrs m := by
      intro o' m hj hq
      unfold view
      cases hm : o'.attrs m with
      | none => rfl
      | some v =>
        cases v with
        | atom a => rfl
        | ref q => exact (fr j o' m q hj hm (hq q hm)).2
    by_cases hij : i = j
    · subst hij
      rw [if_pos rfl, if_pos hil, ho]
      show some (ACore.mk o.label (view h o.attrs)) = some _
      congr 2
      funext m
      unfold put
      by_cases hmn : m = n
      · rw [if_pos hmn, hmn]
        simp only [view, hp]
        exact hy
      · rw [if_neg hmn]
        refine vw o m ho fun q hq hqp => hmn ?_
        rw [hqp] at hq
        exact (x.inj i i o o m n p ho ho hq hp).2
    · rw [if_neg hij]
      cases hj : w.objs[j]? with
      | none => rfl
      | some o' =>
        show some (ACore.mk o'.label (view h o'.attrs)) = some ⟨o'.label, view w.heap o'.attrs⟩
        congr 2
        funext m
        refine vw o' m hj fun q hq hqp => hij ?_
        rw [hqp] at hq
        exact (x.inj j i o' o m n p hj ho hq hp).1.symm

/-- Replacing an object by one of the same kind does not change what is read elsewhere. -/
theorem frame_set {h : Heap α} {p : ℕ} {c c' : Cell α} (hp : h[p]? = some c) (hc : ∀ x, c ≠ .conn x)
    {p' : ℕ} (g : Good h p') (hne : p' ≠ p) :
    Good (h.set p c') p' ∧ read (h.set p c') (.ref p') = read h (.ref p') := by
  have get : ∀ q, q ≠ p → (h.set p c')[q]? = h[q]? := fun q hq => by
    rw [List.getElem?_set, if_neg fun e => hq e.symm]
  have getc : ∀ (q : ℕ) (x : Conn α), h[q]? = some (.conn x) → (h.set p c')[q]? = some (.conn x) := by
    intro q x hq
    rw [get q ?_, hq]
    rintro rfl
    rw [hp] at hq
    exact hc x (Option.some.inj hq)
  rcases g with ⟨d, e⟩ | ⟨qs, e, hq⟩
  · exact ⟨.inl ⟨d, by rw [get _ hne, e]⟩, by simp only [read, get _ hne, e]⟩
  · refine ⟨.inr ⟨qs, by rw [get _ hne, e], fun q hm => ?_⟩, ?_⟩
    · obtain ⟨x, hx⟩ := hq q hm
      exact ⟨x, getc q x hx⟩
    · rw [read_conns (by rw [get _ hne, e]), read_conns e, mapM_congr (g := conn? h) fun q hm => ?_]
      obtain ⟨x, hx⟩ := hq q hm
      rw [conn?_some hx, conn?_some (getc q x hx)]

theorem set_self {w : World α} {i : ℕ} {o : Obj α} (ho : w.objs[i]? = some o) :
    ({ w with heap := w.heap, objs := w.objs.set i o } : World α) = w := by
  have hil := (List.getElem?_eq_some_iff.1 ho).1
  have hset : w.objs.set i o = w.objs := by
    refine List.ext_getElem? fun j => ?_
    rw [List.getElem?_set]
    by_cases hij : i = j
    · rw [if_pos hij, if_pos hil, ← hij, ho]
    · rw [if_neg hij]
  rw [hset]

theorem abs_set_self {w : World α} {i : ℕ} {o : Obj α} (ho : w.objs[i]? = some o) :
    ({ w.abs with cores := w.abs.cores.set i ⟨o.label, view w.heap o.attrs⟩ } : AWorld α) = w.abs := by
  have h1 : w.abs.cores[i]? = some ⟨o.label, view w.heap o.attrs⟩ := by rw [abs_get, ho]; rfl
  have hil := (List.getElem?_eq_some_iff.1 h1).1
  have hset : w.abs.cores.set i ⟨o.label, view w.heap o.attrs⟩ = w.abs.cores := by
    refine List.ext_getElem? fun j => ?_
    rw [List.getElem?_set]
    by_cases hij : i = j
    · rw [if_pos hij, if_pos hil, ← hij, h1]
    · rw [if_neg hij]
  rw [hset]

theorem view_ref {h : Heap α} {t : Attrs α} {n : Name} {p : ℕ} (e : t n = some (.ref p)) :
    view h t n = read h (.ref p) := by
  simp only [view, e]; rfl

theorem view_atom {h : Heap α} {t : Attrs α} {n : Name} {a : α} (e : t n = some (.atom a)) :
    view h t n = some (.atom a) := by
  simp only [view, e]; rfl

/-- One change of one core. -/
theorem prim_refines {w : World α} (x : Inv w) {i : ℕ} {o : Obj α} (ho : w.objs[i]? = some o) (c : Prim α)
    (hs : ∀ n k a, c = .setAlpha n k a → Excl w i n k) :
    Inv { w with heap := (c.run w.heap o).1, objs := w.objs.set i (c.run w.heap o).2 } ∧
      World.abs { w with heap := (c.run w.heap o).1, objs := w.objs.set i (c.run w.heap o).2 } =
        { w.abs with cores := w.abs.cores.set i (c.spec ⟨o.label, view w.heap o.attrs⟩) } := by
  have hv := x.valid i o ho
  have triv : ∀ {c : Prim α}, c.run w.heap o = (w.heap, o) →
      c.spec ⟨o.label, view w.heap o.attrs⟩ = ⟨o.label, view w.heap o.attrs⟩ →
      Inv { w with heap := (c.run w.heap o).1, objs := w.objs.set i (c.run w.heap o).2 } ∧
      World.abs { w with heap := (c.run w.heap o).1, objs := w.objs.set i (c.run w.heap o).2 } =
        { w.abs with cores := w.abs.cores.set i (c.spec ⟨o.label, view w.heap o.attrs⟩) } := by
    intro c h1 h2
    rw [h1, h2, set_self ho, abs_set_self ho]
    exact ⟨x, rfl⟩
  cases c with
  | bindAtom n a =>
    have e := (Ext.refl hv).put (List.prefix_rfl) (v := .atom a) (fun p h => by cases h) n
    obtain ⟨h1, h2⟩ := x.set ho e o.label
    refine ⟨h1, h2.trans ?_⟩
    rw [view_put hv List.prefix_rfl (x := .atom a) rfl]
    rfl
  | bind n d =>
    obtain ⟨a1, a2, a3⟩ := alloc_spec w.heap (.data d)
    obtain ⟨h1, h2⟩ := x.set ho ((Ext.refl hv).put a1 a2 n) o.label
    refine ⟨h1, h2.trans ?_⟩
    rw [view_put hv a1 a3]
    rfl
  | clear n =>
    obtain ⟨a1, a2, a3⟩ := alloc_spec w.heap (.conns [])
    obtain ⟨h1, h2⟩ := x.set ho ((Ext.refl hv).put a1 a2 n) o.label
    refine ⟨h1, h2.trans ?_⟩
    rw [view_put hv a1 a3]
    rfl
  | label s =>
    obtain ⟨h1, h2⟩ := x.set ho (Ext.refl hv) s
    exact ⟨h1, h2⟩
  | inplace n f =>
    cases hn : o.attrs n with
    | none => 
      refine triv (by simp only [Prim.run, hn]) ?_
      have : view w.heap o.attrs n = none := (view_none hv).2 hn
      simp only [Prim.spec, this]
    | some v =>
      cases v with
      | atom a => exact triv (by simp only [Prim.run, hn]) (by simp only [Prim.spec, view_atom hn])
      | ref p =>
        rcases hv n p hn with ⟨d, e⟩ | ⟨qs, e, hq⟩
        · have hr : (Prim.inplace n f).run w.heap o = (w.heap.set p (.data (f d)), o) := by
            simp only [Prim.run, hn, e]
          have hsp : (Prim.inplace n f).spec ⟨o.label, view w.heap o.attrs⟩ =
              ⟨o.label, put (view w.heap o.attrs) n (.data (f d))⟩ := by
            have : view w.heap o.attrs n = some (.data d) := by
              rw [view_ref hn]; simp only [read, e]
            simp only [Prim.spec, this]
          rw [hr, hsp]
          have hl := (List.getElem?_eq_some_iff.1 e).1
          have hg : (w.heap.set p (.data (f d)))[p]? = some (.data (f d)) := by
            rw [List.getElem?_set, if_pos rfl, if_pos hl]
          refine x.inplace ho hn (.inl ⟨_, hg⟩) (by simp only [read, hg]) fun j o' m p' hj hm hne => ?_
          exact frame_set e (fun c h => by cases h) (x.valid j o' hj m p' hm) hne
        · refine triv (by simp only [Prim.run, hn, e]) ?_
          obtain ⟨cs, hcs⟩ := conns_read hq
          have : view w.heap o.attrs n = some (.conns cs) := by
            rw [view_ref hn, read_conns e, hcs]; rfl
          simp only [Prim.spec, this]
  | addConn n y =>
    cases hn : o.attrs n with
    | none => 
      refine triv (by simp only [Prim.run, hn]) ?_
      have : view w.heap o.attrs n = none := (view_none hv).2 hn
      simp only [Prim.spec, this]
    | some v =>
      cases v with
      | atom a => exact triv (by simp only [Prim.run, hn]) (by simp only [Prim.spec, view_atom hn])
      | ref p =>
        rcases hv n p hn with ⟨d, e⟩ | ⟨qs, e, hq⟩
        · refine triv (by simp only [Prim.run, hn, e]) ?_
          have : view w.heap o.attrs n = some (.data d) := by
            rw [view_ref hn]; simp only [read, e]
          simp only [Prim.spec, this]
        · obtain ⟨cs, hcs⟩ := conns_read hq
          have hvn : view w.heap o.attrs n = some (.conns cs) := by
            rw [view_ref hn, read_conns e, hcs]; rfl
          set h1 : Heap α := w.heap ++ [Cell.conn y] with hh1
          have hpre : w.heap <+: h1 := List.prefix_append _ _
          have e1 : h1[p]? = some (.conns qs) := prefix_get hpre e
          have hl := (List.getElem?_eq_some_iff.1 e1).1
          have hr : (Prim.addConn n y).run w.heap o =
              (h1.set p (.conns (qs ++ [w.heap.length])), o) := by
            simp only [Prim.run, hn, e, hh1]
          have hsp : (Prim.addConn n y).spec ⟨o.label, view w.heap o.attrs⟩ =
              ⟨o.label, put (view w.heap o.attrs) n (.conns (cs ++ [y]))⟩ := by
            simp only [Prim.spec, hvn]
          rw [hr, hsp]
          set h2 := h1.set p (.conns (qs ++ [w.heap.length])) with hh2
          have hg : h2[p]? = some (.conns (qs ++ [w.heap.length])) := by
            rw [hh2, List.getElem?_set, if_pos rfl, if_pos hl]
          have hy1 : h1[w.heap.length]? = some (.conn y) := by simp [hh1]
          have getc : ∀ (q : ℕ) (z : Conn α), h1[q]? = some (.conn z) → h2[q]? = some (.conn z) := by
            intro q z hz
            rw [hh2, List.getElem?_set, if_neg ?_, hz]
            rintro rfl
            rw [e1] at hz
            cases hz
          have hq2 : ∀ q ∈ qs ++ [w.heap.length], ∃ c, h2[q]? = some (.conn c) := by
            intro q hm
            rcases List.mem_append.1 hm with hm | hm
            · obtain ⟨c, hc⟩ := hq q hm
              exact ⟨c, getc q c (prefix_get hpre hc)⟩
            · rw [List.mem_singleton.1 hm]
              exact ⟨y, getc _ _ hy1⟩
          refine x.inplace ho hn (.inr ⟨_, hg, hq2⟩) ?_ fun j o' m p' hj hm hne => ?_
          · rw [read_conns hg]
            have : (qs ++ [w.heap.length]).mapM (conn? h2) = some (cs ++ [y]) := by
              rw [mapM_iff]
              refine List.rel_append ?_ (.cons (conn?_some (getc _ _ hy1)) .nil)
              refine (mapM_iff.1 hcs).imp fun q c hc => ?_
              exact conn?_some (getc _ _ (prefix_get hpre (conn?_iff.1 hc)))
            rw [this]; rfl
          · have g0 := x.valid j o' hj m p' hm
            obtain ⟨f1, f2⟩ := frame_set (c' := .conns (qs ++ [w.heap.length])) e1
              (fun c h => by cases h) (g0.mono hpre) hne
            exact ⟨f1, f2.trans (read_mono hpre fun q hq => by cases hq; exact g0)⟩
  | setAlpha n k a =>
    cases hn : o.attrs n with
    | none => 
      refine triv (by simp only [Prim.run, hn]) ?_
      have : view w.heap o.attrs n = none := (view_none hv).2 hn
      simp only [Prim.spec, this]
    | some v =>
      cases v with
      | atom a => exact triv (by simp only [Prim.run, hn]) (by simp only [Prim.spec, view_atom hn])
      | ref p =>
        rcases hv n p hn with ⟨d, e⟩ | ⟨qs, e, hq⟩
        · refine triv (by simp only [Prim.run, hn, e]) ?_
          have : view w.heap o.attrs n = some (.data d) := by
            rw [view_ref hn]; simp only [read, e]
          simp only [Prim.spec, this]
        · obtain ⟨cs, hcs⟩ := conns_read hq
          have hvn : view w.heap o.attrs n = some (.conns cs) := by
            rw [view_ref hn, read_conns e, hcs]; rfl
          have hfa := mapM_iff.1 hcs
          cases hk : qs[k]? with
          | none =>
            refine triv (by simp only [Prim.run, hn, e, hk]) ?_
            simp only [Prim.spec, hvn]
            have hlen : cs.length ≤ k := by
              rw [← hfa.length_eq]
              exact List.getElem?_eq_none_iff.1 hk
            have hm : (cs.modify k fun z => { z with alpha := a }) = cs := by
              refine List.ext_getElem? fun l => ?_
              rw [List.getElem?_modify]
              by_cases hl : l < cs.length
              · have hkl : k ≠ l := by omega
                simp [hkl]
              · rw [List.getElem?_eq_none (by omega)]
                simp
            rw [hm]
            congr 1
            funext m
            unfold put
            by_cases hmn : m = n
            · rw [if_pos hmn, hmn, hvn]
            · rw [if_neg hmn]
          | some q =>
            obtain ⟨c, hc⟩ := hq q (List.mem_of_getElem? hk)
            have hr : (Prim.setAlpha n k a).run w.heap o =
                (w.heap.set q (.conn { c with alpha := a }), o) := by
              simp only [Prim.run, hn, e, hk, hc]
            have hsp : (Prim.setAlpha n k a).spec ⟨o.label, view w.heap o.attrs⟩ =
                ⟨o.label, put (view w.heap o.attrs) n
                  (.conns (cs.modify k fun z => { z with alpha := a }))⟩ := by
              simp only [Prim.spec, hvn]
            rw [hr, hsp]
            set h1 := w.heap.set q (.conn { c with alpha := a }) with hh1
            have hex := hs n k a rfl o p qs q ho hn e hk
            have hl := (List.getElem?_eq_some_iff.1 hc).1
            have getq : h1[q]? = some (.conn { c with alpha := a }) := by
              rw [hh1, List.getElem?_set, if_pos rfl, if_pos hl]
            have get : ∀ q', q' ≠ q → h1[q']? = w.heap[q']? := fun q' hne => by
              rw [hh1, List.getElem?_set, if_neg fun e => hne e.symm]
            have hpq : p ≠ q := by
              rintro rfl
              rw [e] at hc
              cases hc
            have hq1 : ∀ {qs : List ℕ}, (∀ q ∈ qs, ∃ c, w.heap[q]? = some (.conn c)) →
                ∀ q' ∈ qs, ∃ c, h1[q']? = some (.conn c) := by
              intro qs hq q' hm
              by_cases hqq : q' = q
              · exact ⟨_, hqq ▸ getq⟩
              · rw [get q' hqq]; exact hq q' hm
            refine x.inplace ho hn (.inr ⟨qs, by rw [get _ hpq, e], hq1 hq⟩) ?_
              fun j o' m p' hj hm hne => ?_
            · rw [read_conns (by rw [get _ hpq, e])]
              have : qs.mapM (conn? h1) = some (cs.modify k fun z => { z with alpha := a }) := by
                rw [mapM_iff, List.forall₂_iff_get]
                refine ⟨by rw [List.length_modify, hfa.length_eq], fun l l1 l2 => ?_⟩
                have l3 : l < cs.length := by rwa [List.length_modify] at l2
                have h0 : conn? w.heap qs[l] = some cs[l] := (List.forall₂_iff_get.1 hfa).2 l l1 l3
                rw [List.get_eq_getElem, List.get_eq_getElem, List.getElem_modify]
                by_cases hkl : k = l
                · rw [if_pos hkl]
                  have hql : qs[l] = q := by
                    have h9 := hk
                    rw [hkl, List.getElem?_eq_getElem l1] at h9
                    exact Option.some.inj h9
                  rw [hql] at h0 ⊢
                  rw [conn?_some hc] at h0
                  rw [conn?_some getq, ← Option.some.inj h0]
                · rw [if_neg hkl]
                  have hql : qs[l] ≠ q := by
                    intro h9
                    have h8 : qs[l]? = some q := by rw [List.getElem?_eq_getElem l1, h9]
                    exact hkl (hex i o n p qs l ho hn e h8).2.2.symm
                  rw [conn?_iff, get _ hql, ← conn?_iff, h0]
              rw [this]; rfl
            · rcases x.valid j o' hj m p' hm with ⟨d, hd⟩ | ⟨qs', hd, hq'⟩
              · have hpq' : p' ≠ q := by
                  rintro rfl
                  rw [hd] at hc
                  cases hc
                exact ⟨.inl ⟨d, by rw [get _ hpq', hd]⟩, by simp only [read, get _ hpq', hd]⟩
              · have hpq' : p' ≠ q := by
                  rintro rfl
                  rw [hd] at hc
                  cases hc
                refine ⟨.inr ⟨qs', by rw [get _ hpq', hd], hq1 hq'⟩, ?_⟩
                rw [read_conns (by rw [get _ hpq', hd]), read_conns hd,
                  mapM_congr (g := conn? w.heap) fun q' hm' => ?_]
                have hqq : q' ≠ q := by
                  rintro rfl
                  obtain ⟨k', hk'⟩ := List.mem_iff_getElem?.1 hm'
                  obtain ⟨h7, h8, -⟩ := hex j o' m p' qs' k' hj hm hd hk'
                  subst h7 h8
                  rw [ho] at hj
                  cases hj
                  rw [hn] at hm
                  cases hm
                  exact hne rfl
                simp only [conn?, get _ hqq]

/-- One action. -/
theorem op_refines (none' zero : α) {w : World α} (x : Inv w) (op : Op α) (hs : op.Safe w) :
    Inv (op.run none' zero w) ∧ (op.run none' zero w).abs = op.spec none' zero w.abs := by
  have hnew := fill_spec (defaults none' zero) (Ext.refl (empty_valid w.heap))
  have hempty : view w.heap (fun _ => none) = fun _ => none := by funext n; rfl
  cases op with
  | new label =>
    obtain ⟨h1, h2⟩ := x.append hnew.1 (label.getD "phs")
    refine ⟨h1, h2.trans ?_⟩
    rw [hnew.2, hempty]
    rfl
  | step i s =>
    cases ho : w.objs[i]? with
    | none =>
      simp only [Op.run, Op.spec, abs_get, ho]
      exact ⟨x, rfl⟩
    | some o =>
      simp only [Op.run, Op.spec, abs_get, ho]
      exact prim_refines x ho _ (hs o ho)
  | copy i ord =>
    cases ho : w.objs[i]? with
    | none =>
      simp only [Op.run, Op.spec, abs_get, ho]
      exact ⟨x, rfl⟩
    | some o =>
      have hv := x.valid i o ho
      simp only [Op.run, Op.spec, abs_get, ho, Option.map_some]
      cases hu : nameUnion (view w.heap o.attrs) with
      | none => exact ⟨x, rfl⟩
      | some ns =>
        have hmem : ∀ n, n ∈ ord ns ↔ n ∈ ns := fun n => (hs ns).mem_iff
        rcases copyInto_spec hv (ord ns) hnew.1 with ⟨⟨n, hn, hn2⟩, hc⟩ | ⟨hn, c, hc, hE, hw⟩
        · simp only [hc]
          refine ⟨x, ?_⟩
          rw [if_neg]
          intro hall
          rw [List.all_eq_true] at hall
          have := hall n ((hmem n).1 hn)
          rw [(view_none hv).2 hn2] at this
          cases this
        · simp only [hc]
          obtain ⟨h1, h2⟩ := x.append hE o.label
          refine ⟨h1, h2.trans ?_⟩
          rw [if_pos, hw, hnew.2, hempty]
          · simp only [hmem]
          · rw [List.all_eq_true]
            intro n hm
            cases hvn : view w.heap o.attrs n with
            | none => exact absurd ((view_none hv).1 hvn) (hn n ((hmem n).2 hm))
            | some y => rfl
  | add i j F =>
    cases ho : w.objs[i]? with
    | none =>
      simp only [Op.run, Op.spec, abs_get, ho]
      exact ⟨x, rfl⟩
    | some o₁ =>
      cases ho2 : w.objs[j]? with
      | none =>
        simp only [Op.run, Op.spec, abs_get, ho, ho2]
        exact ⟨x, rfl⟩
      | some o₂ =>
        have key : ∀ {i : ℕ} {o : Obj α}, w.objs[i]? = some o →
            (connRefs w.heap o.attrs = none ∧ ∀ cs, view w.heap o.attrs (.own "connectors") ≠ some (.conns cs)) ∨
            ∃ qs cs, connRefs w.heap o.attrs = some qs ∧
              view w.heap o.attrs (.own "connectors") = some (.conns cs) ∧
              qs.mapM (conn? w.heap) = some cs := by
          intro i o ho
          have hv := x.valid i o ho
          unfold connRefs
          cases hn : o.attrs (.own "connectors") with
          | none =>
            left
            refine ⟨rfl, fun cs h => ?_⟩
            rw [(view_none hv).2 hn] at h
            cases h
          | some v =>
            cases v with
            | atom a =>
              left
              refine ⟨rfl, fun cs h => ?_⟩
              rw [view_atom hn] at h
              cases h
            | ref p =>
              rcases hv _ p hn with ⟨d, e⟩ | ⟨qs, e, hq⟩
              · left
                simp only [e]
                refine ⟨trivial, fun cs h => ?_⟩
                rw [view_ref hn] at h
                simp only [read, e] at h
                cases h
              · right
                obtain ⟨cs, hcs⟩ := conns_read hq
                simp only [e]
                exact ⟨qs, cs, rfl, by rw [view_ref hn, read_conns e, hcs]; rfl, hcs⟩
        simp only [Op.run, Op.spec, abs_get, ho, ho2, Option.map_some]
        rcases key ho with ⟨k1, k2⟩ | ⟨q1, c1, k1, k2, k3⟩
        · simp only [k1]
          refine ⟨x, ?_⟩
          split
          · rename_i h9 _
            exact absurd h9 (k2 _)
          · rfl
        · rcases key ho2 with ⟨l1, l2⟩ | ⟨q2, c2, l1, l2, l3⟩
          · simp only [k1, l1]
            refine ⟨x, ?_⟩
            split
            · rename_i h9
              exact absurd h9 (l2 _)
            · rfl
          · simp only [k1, l1, k2, l2]
            set L := defaults none' zero ++ F (view w.heap o₁.attrs) (view w.heap o₂.attrs) with hL
            have hf := fill_spec L (Ext.refl (empty_valid w.heap))
            set r := fill w.heap (fun _ => none) L with hr
            have hpre : r.1 <+: r.1 ++ [Cell.conns (q1 ++ q2)] := List.prefix_append _ _
            have hpre0 : w.heap <+: r.1 ++ [Cell.conns (q1 ++ q2)] := hf.1.pre.trans hpre
            have hlast : (r.1 ++ [Cell.conns (q1 ++ q2)])[r.1.length]? = some (.conns (q1 ++ q2)) := by simp
            have hm : (q1 ++ q2).mapM (conn? (r.1 ++ [Cell.conns (q1 ++ q2)])) = some (c1 ++ c2) := by
              rw [mapM_iff]
              refine List.rel_append ((mapM_iff.1 k3).imp fun q c h => ?_)
                ((mapM_iff.1 l3).imp fun q c h => ?_)
              · exact conn?_some (prefix_get hpre0 (conn?_iff.1 h))
              · exact conn?_some (prefix_get hpre0 (conn?_iff.1 h))
            have hg : Good (r.1 ++ [Cell.conns (q1 ++ q2)]) r.1.length := by
              refine .inr ⟨_, hlast, fun q hq => ?_⟩
              obtain ⟨k, hk⟩ := List.mem_iff_getElem.1 hq
              obtain ⟨hk, rfl⟩ := hk
              have := (List.forall₂_iff_get.1 (mapM_iff.1 hm))
              have hk2 : k < (c1 ++ c2).length := this.1 ▸ hk
              exact ⟨_, conn?_iff.1 (this.2 k hk hk2)⟩
            have hE := hf.1.put hpre (v := .ref r.1.length)
              (fun p hp => by cases hp; exact ⟨Nat.le_refl _, hg⟩) (.own "connectors")
            obtain ⟨h1, h2⟩ := x.append hE o₁.label
            refine ⟨h1, h2.trans ?_⟩
            rw [view_put hf.1.valid hpre (x := .conns (c1 ++ c2)) (by rw [read_conns hlast, hm]; rfl),
              hf.2, hempty]
  | save i label ord =>
    cases ho : w.objs[i]? with
    | none =>
      simp only [Op.run, Op.spec, abs_get, ho]
      exact ⟨x, rfl⟩
    | some o =>
      simp only [Op.run, Op.spec, abs_get, ho, Option.map_some]
      cases hu : nameUnion (view w.heap o.attrs) with
      | none => exact ⟨x, rfl⟩
      | some ns =>
        simp only
        cases hc : collect (view w.heap o.attrs) (fun _ => none) (ord ns) with
        | none => exact ⟨x, rfl⟩
        | some e => exact ⟨⟨x.valid, x.inj⟩, rfl⟩
  | load i label ord =>
    cases ho : w.objs[i]? with
    | none =>
      simp only [Op.run, Op.spec, abs_get, ho]
      exact ⟨x, rfl⟩
    | some o =>
      have hv := x.valid i o ho
      simp only [Op.run, Op.spec, abs_get, ho, Option.map_some]
      have hd0 : w.abs.disk = w.disk := rfl
      rw [hd0]
      cases hd : w.disk (label.getD o.label) with
      | none => exact ⟨x, rfl⟩
      | some d =>
        simp only
        cases hu : nameUnion (view w.heap o.attrs) with
        | none => exact x.set ho (Ext.refl hv) d.label
        | some ns =>
          obtain ⟨h1, h2⟩ := loadInto_spec d.entries (ord ns) (Ext.refl hv)
          obtain ⟨h3, h4⟩ := x.set ho h1 d.label
          refine ⟨h3, h4.trans ?_⟩
          rw [h2]
          rfl

theorem all_refines (none' zero : α) : ∀ (ops : List (Op α)) {w : World α}, Inv w →
    SafeAll none' zero w ops → Inv (runAll none' zero w ops) ∧
      (runAll none' zero w ops).abs = specAll none' zero w.abs ops
  | [], w, x, _ => ⟨x, rfl⟩
  | op :: ops, w, x, hs => by
    obtain ⟨h1, h2⟩ := op_refines none' zero x op hs.1
    obtain ⟨h3, h4⟩ := all_refines none' zero ops h1 hs.2
    refine ⟨h3, ?_⟩
    show (runAll none' zero (op.run none' zero w) ops).abs = specAll none' zero (op.spec none' zero w.abs) ops
    rw [h4, h2]

end Copy
end Pyphs
