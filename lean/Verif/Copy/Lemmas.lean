/-
Cells, references and the loops of the model of copies.
-/
import Verif.Copy.Spec
import Mathlib.Data.List.Forall2

namespace Pyphs
namespace Copy

variable {α : Type}

theorem mapM_iff {β γ : Type} {f : β → Option γ} : ∀ {l : List β} {r : List γ},
    l.mapM f = some r ↔ List.Forall₂ (fun a b => f a = some b) l r
  | [], r => by cases r <;> simp
  | a :: l, r => by
    rw [List.mapM_cons]
    cases hf : f a with
    | none =>
      constructor
      · intro h; cases h
      · intro h
        cases h with
        | cons h1 _ => rw [hf] at h1; cases h1
    | some b =>
      cases hl : l.mapM f with
      | none =>
        constructor
        · intro h; cases h
        · intro h
          cases h with
          | cons h1 h2 =>
            rw [← mapM_iff, hl] at h2
            cases h2
      | some bs =>
        constructor
        · intro h
          have h' : some (b :: bs) = some r := h
          cases h'
          exact .cons hf (mapM_iff.1 hl)
        · intro h
          cases h with
          | cons h1 h2 =>
            rw [← mapM_iff, hl] at h2
            rw [hf] at h1
            cases h1
            cases h2
            rfl

theorem mapM_congr {β γ : Type} {f g : β → Option γ} : ∀ {l : List β}, (∀ a ∈ l, f a = g a) →
    l.mapM f = l.mapM g
  | [], _ => by simp
  | a :: l, h => by
    rw [List.mapM_cons, List.mapM_cons, h a List.mem_cons_self,
      mapM_congr fun b hb => h b (List.mem_cons_of_mem _ hb)]

/-- The address of an object whose references are right. -/
def Good (h : Heap α) (p : ℕ) : Prop :=
  (∃ d, h[p]? = some (.data d)) ∨
    ∃ qs, h[p]? = some (.conns qs) ∧ ∀ q ∈ qs, ∃ c, h[q]? = some (.conn c)

def Valid (h : Heap α) (t : Attrs α) : Prop := ∀ n p, t n = some (.ref p) → Good h p

theorem prefix_get {h h' : Heap α} (hp : h <+: h') {p : ℕ} {c : Cell α} (e : h[p]? = some c) :
    h'[p]? = some c := by
  obtain ⟨l, rfl⟩ := hp
  rw [List.getElem?_append_left (by
    rw [List.getElem?_eq_some_iff] at e
    exact e.1)]
  exact e

theorem Good.lt {h : Heap α} {p : ℕ} (g : Good h p) : p < h.length := by
  rcases g with ⟨d, e⟩ | ⟨qs, e, -⟩ <;> exact (List.getElem?_eq_some_iff.1 e).1

theorem Good.mono {h h' : Heap α} (hp : h <+: h') {p : ℕ} (g : Good h p) : Good h' p := by
  rcases g with ⟨d, e⟩ | ⟨qs, e, hq⟩
  · exact .inl ⟨d, prefix_get hp e⟩
  · refine .inr ⟨qs, prefix_get hp e, fun q hm => ?_⟩
    obtain ⟨c, hc⟩ := hq q hm
    exact ⟨c, prefix_get hp hc⟩

theorem Valid.mono {h h' : Heap α} (hp : h <+: h') {t : Attrs α} (g : Valid h t) : Valid h' t :=
  fun n p e => (g n p e).mono hp

theorem conn?_some {h : Heap α} {q : ℕ} {c : Conn α} (e : h[q]? = some (.conn c)) : conn? h q = some c := by
  simp only [conn?, e]

theorem conn?_iff {h : Heap α} {q : ℕ} {c : Conn α} : conn? h q = some c ↔ h[q]? = some (.conn c) := by
  unfold conn?
  split
  · rename_i c' e
    rw [e]
    constructor
    · intro h; cases h; rfl
    · intro h; cases h; rfl
  · rename_i e
    constructor
    · intro h; cases h
    · intro h; exact absurd h (e c)

theorem read_mono {h h' : Heap α} (hp : h <+: h') {v : Val α} (g : ∀ p, v = .ref p → Good h p) :
    read h' v = read h v := by
  cases v with
  | atom a => rfl
  | ref p =>
    rcases g p rfl with ⟨d, e⟩ | ⟨qs, e, hq⟩
    · simp only [read, e, prefix_get hp e]
    · simp only [read, e, prefix_get hp e]
      rw [mapM_congr (g := conn? h) fun q hm => ?_]
      obtain ⟨c, hc⟩ := hq q hm
      rw [conn?_some hc, conn?_some (prefix_get hp hc)]

theorem view_mono {h h' : Heap α} (hp : h <+: h') {t : Attrs α} (g : Valid h t) :
    view h' t = view h t := by
  funext n
  unfold view
  cases e : t n with
  | none => rfl
  | some v => exact read_mono hp fun p hv => g n p (by rw [e, hv])

theorem read_conns {h : Heap α} {p : ℕ} {qs : List ℕ} (e : h[p]? = some (.conns qs)) :
    read h (.ref p) = (qs.mapM (conn? h)).map .conns := by
  simp only [read, e]

theorem conns_read {h : Heap α} {qs : List ℕ} (hq : ∀ q ∈ qs, ∃ c, h[q]? = some (.conn c)) :
    ∃ cs, qs.mapM (conn? h) = some cs := by
  induction qs with
  | nil => exact ⟨[], by simp⟩
  | cons q qs ih =>
    obtain ⟨c, hc⟩ := hq q List.mem_cons_self
    obtain ⟨cs, hcs⟩ := ih fun q' hm => hq q' (List.mem_cons_of_mem _ hm)
    exact ⟨c :: cs, by rw [List.mapM_cons, conn?_some hc, hcs]; rfl⟩

theorem Good.read {h : Heap α} {p : ℕ} (g : Good h p) : ∃ x, read h (.ref p) = some x := by
  rcases g with ⟨d, e⟩ | ⟨qs, e, hq⟩
  · exact ⟨.data d, by simp only [Copy.read, e]⟩
  · obtain ⟨cs, hcs⟩ := conns_read hq
    exact ⟨.conns cs, by rw [read_conns e, hcs]; rfl⟩

/-- An attribute exists exactly when it can be read. -/
theorem view_none {h : Heap α} {t : Attrs α} (g : Valid h t) {n : Name} : view h t n = none ↔ t n = none := by
  unfold view
  cases e : t n with
  | none => simp
  | some v =>
    constructor
    · intro h1
      cases v with
      | atom a => cases h1
      | ref p =>
        obtain ⟨x, hx⟩ := (g n p e).read
        have : Copy.read h (.ref p) = none := h1
        rw [hx] at this
        cases this
    · intro h1; cases h1

/-! ### New objects -/

theorem alloc_spec (h : Heap α) (x : Tree α) : h <+: (alloc h x).1 ∧
    (∀ p, (alloc h x).2 = .ref p → h.length ≤ p ∧ Good (alloc h x).1 p) ∧
    read (alloc h x).1 (alloc h x).2 = some x := by
  cases x with
  | atom a => exact ⟨List.prefix_rfl, fun p e => (by cases e), rfl⟩
  | data d =>
    have e : (h ++ [Cell.data d])[h.length]? = some (.data d) := by simp
    refine ⟨List.prefix_append _ _, fun p hp => ?_, ?_⟩
    · cases hp
      exact ⟨Nat.le_refl _, .inl ⟨d, e⟩⟩
    · show read (h ++ [Cell.data d]) (.ref h.length) = _
      simp only [read, e]
  | conns cs =>
    set h' : Heap α := h ++ cs.map .conn ++ [.conns (List.range' h.length cs.length)] with hh
    have e : h'[h.length + cs.length]? = some (.conns (List.range' h.length cs.length)) := by
      have hl : (h ++ cs.map Cell.conn).length = h.length + cs.length := by simp
      rw [hh, ← hl, List.getElem?_append_right (Nat.le_refl _)]
      simp
    have hget : ∀ i c, cs[i]? = some c → h'[h.length + i]? = some (.conn c) := by
      intro i c hc
      have hi := (List.getElem?_eq_some_iff.1 hc).1
      rw [hh, List.append_assoc, List.getElem?_append_right (by omega),
        List.getElem?_append_left (by simp; omega)]
      simp [hc]
    have hrd : (List.range' h.length cs.length).mapM (conn? h') = some cs := by
      rw [mapM_iff, List.forall₂_iff_get]
      refine ⟨by simp, fun i h1 h2 => ?_⟩
      rw [conn?_iff]
      simpa using hget i cs[i] (List.getElem?_eq_getElem h2)
    refine ⟨?_, fun p hp => ?_, ?_⟩
    · exact (List.prefix_append _ _).trans (List.prefix_append _ _)
    · cases hp
      refine ⟨by omega, .inr ⟨_, e, fun q hq => ?_⟩⟩
      obtain ⟨i, hi, rfl⟩ := List.mem_range'.1 hq
      refine ⟨cs[i], ?_⟩
      have := hget i cs[i] (List.getElem?_eq_getElem hi)
      rw [Nat.one_mul]
      exact this
    · show read h' (.ref (h.length + cs.length)) = _
      rw [read_conns e, hrd]
      rfl

theorem copyVal_spec {h : Heap α} {v : Val α} (g : ∀ p, v = .ref p → Good h p) : h <+: (copyVal h v).1 ∧
    (∀ p, (copyVal h v).2 = .ref p → h.length ≤ p ∧ Good (copyVal h v).1 p) ∧
    read (copyVal h v).1 (copyVal h v).2 = read h v := by
  cases v with
  | atom a => exact ⟨List.prefix_rfl, fun p e => (by cases e), rfl⟩
  | ref p =>
    have key : ∀ c, h[p]? = some c → copyVal h (.ref p) = (h ++ [c], .ref h.length) := by
      intro c hc
      simp only [copyVal, hc]
    have e : ∀ c : Cell α, (h ++ [c])[h.length]? = some c := fun c => by simp
    rcases g p rfl with ⟨d, hd⟩ | ⟨qs, hd, hq⟩
    · rw [key _ hd]
      refine ⟨List.prefix_append _ _, fun p hp => ?_, ?_⟩
      · cases hp
        exact ⟨Nat.le_refl _, .inl ⟨d, e _⟩⟩
      · show read (h ++ [Cell.data d]) (.ref h.length) = _
        simp only [read, e, hd]
    · rw [key _ hd]
      have hq' : ∀ q ∈ qs, ∃ c, (h ++ [Cell.conns qs])[q]? = some (.conn c) := fun q hm => by
        obtain ⟨c, hc⟩ := hq q hm
        exact ⟨c, prefix_get (List.prefix_append _ _) hc⟩
      refine ⟨List.prefix_append _ _, fun p hp => ?_, ?_⟩
      · cases hp
        exact ⟨Nat.le_refl _, .inr ⟨qs, e _, hq'⟩⟩
      · show read (h ++ [Cell.conns qs]) (.ref h.length) = _
        rw [read_conns (e _), read_conns hd, mapM_congr (g := conn? h) fun q hm => ?_]
        obtain ⟨c, hc⟩ := hq q hm
        rw [conn?_some hc, conn?_some (prefix_get (List.prefix_append _ _) hc)]

/-! ### Attributes that are set to new objects -/

/-- `t` comes from `t₀` by setting attributes to objects that are not in the heap `h₀`, each its own. -/
structure Ext (h₀ h : Heap α) (t₀ t : Attrs α) : Prop where
  pre : h₀ <+: h
  valid : Valid h t
  fresh : ∀ n p, t n = some (.ref p) → t₀ n = some (.ref p) ∨ h₀.length ≤ p
  inj : ∀ n m p, h₀.length ≤ p → t n = some (.ref p) → t m = some (.ref p) → n = m

theorem Ext.refl {h : Heap α} {t : Attrs α} (g : Valid h t) : Ext h h t t :=
  ⟨List.prefix_rfl, g, fun _ _ e => .inl e, fun n _ p hp e => by
    have := (g n p e).lt
    omega⟩

theorem Ext.put {h₀ h h' : Heap α} {t₀ t : Attrs α} (x : Ext h₀ h t₀ t) (hp : h <+: h') {v : Val α}
    (hv : ∀ p, v = .ref p → h.length ≤ p ∧ Good h' p) (n : Name) : Ext h₀ h' t₀ (put t n v) := by
  have hl := x.pre.length_le
  refine ⟨x.pre.trans hp, fun m p e => ?_, fun m p e => ?_, fun m m' p hle e e' => ?_⟩
  · unfold Copy.put at e
    split at e
    · exact (hv p (Option.some.inj e)).2
    · exact (x.valid m p e).mono hp
  · unfold Copy.put at e
    split at e
    · have := (hv p (Option.some.inj e)).1
      right; omega
    · exact x.fresh m p e
  · unfold Copy.put at e e'
    split at e <;> split at e'
    · rename_i h1 h2; rw [h1, h2]
    · have h1 := (hv p (Option.some.inj e)).1
      have h2 := (x.valid m' p e').lt
      omega
    · have h1 := (hv p (Option.some.inj e')).1
      have h2 := (x.valid m p e).lt
      omega
    · exact x.inj m m' p hle e e'

theorem view_put {h h' : Heap α} {t : Attrs α} (g : Valid h t) (hp : h <+: h') {v : Val α} {x : Tree α}
    (hx : read h' v = some x) (n : Name) : view h' (put t n v) = put (view h t) n x := by
  funext m
  unfold put
  by_cases hm : m = n
  · simp only [view, hm, if_true]
    exact hx
  · have := congrFun (view_mono hp g) m
    simp only [view, hm, if_false] at this ⊢
    exact this

theorem fill_spec (l : List (Name × Tree α)) : ∀ {h₀ h : Heap α} {t₀ t : Attrs α}, Ext h₀ h t₀ t →
    Ext h₀ (fill h t l).1 t₀ (fill h t l).2 ∧
      view (fill h t l).1 (fill h t l).2 = assign (view h t) l := by
  induction l with
  | nil => intro h₀ h t₀ t x; exact ⟨x, rfl⟩
  | cons e l ih =>
    intro h₀ h t₀ t x
    obtain ⟨n, y⟩ := e
    obtain ⟨h1, h2, h3⟩ := alloc_spec h y
    obtain ⟨i1, i2⟩ := ih (x.put h1 h2 n)
    refine ⟨i1, ?_⟩
    show view (fill _ _ l).1 (fill _ _ l).2 = _
    rw [i2, view_put x.valid h1 h3]
    rfl

theorem copyInto_spec {h₀ : Heap α} {src : Attrs α} (gs : Valid h₀ src) (ns : List Name) :
    ∀ {h : Heap α} {t₀ t : Attrs α}, Ext h₀ h t₀ t →
    ((∃ n ∈ ns, src n = none) ∧ copyInto h src t ns = none) ∨
    ((∀ n ∈ ns, src n ≠ none) ∧ ∃ c, copyInto h src t ns = some c ∧ Ext h₀ c.1 t₀ c.2 ∧
      view c.1 c.2 = fun n => if n ∈ ns then view h₀ src n else view h t n) := by
  induction ns with
  | nil =>
    intro h t₀ t x
    right
    exact ⟨fun n hn => (by cases hn), (h, t), rfl, x, by funext n; simp⟩
  | cons n ns ih =>
    intro h t₀ t x
    cases e : src n with
    | none =>
      left
      exact ⟨⟨n, List.mem_cons_self, e⟩, by simp only [copyInto, e]⟩
    | some v =>
      have gv : ∀ p, v = .ref p → Good h p := fun p hv => ((gs n p (by rw [e, hv]))).mono x.pre
      have gv0 : ∀ p, v = .ref p → Good h₀ p := fun p hv => gs n p (by rw [e, hv])
      obtain ⟨h1, h2, h3⟩ := copyVal_spec gv
      have hc : copyInto h src t (n :: ns) =
          copyInto (copyVal h v).1 src (put t n (copyVal h v).2) ns := by
        simp only [copyInto, e]
      have hsn : view h₀ src n = read h₀ v := by simp only [view, e]; rfl
      have hrd : ∃ y, read h₀ v = some y := by
        cases v with
        | atom a => exact ⟨_, rfl⟩
        | ref p => exact (gv0 p rfl).read
      obtain ⟨y, hy⟩ := hrd
      have hy' : read (copyVal h v).1 (copyVal h v).2 = some y := by
        rw [h3, read_mono x.pre gv0, hy]
      rcases ih (x.put h1 h2 n) with ⟨⟨m, hm, hm2⟩, i2⟩ | ⟨i1, c, i2, i3, i4⟩
      · left
        exact ⟨⟨m, List.mem_cons_of_mem _ hm, hm2⟩, by rw [hc, i2]⟩
      · right
        refine ⟨?_, c, by rw [hc, i2], i3, ?_⟩
        · intro m hm
          rcases List.mem_cons.1 hm with rfl | hm
          · rw [e]; exact fun h => by cases h
          · exact i1 m hm
        · rw [i4]
          funext m
          rw [view_put x.valid h1 hy']
          by_cases hm : m ∈ ns
          · rw [if_pos hm, if_pos (List.mem_cons_of_mem _ hm)]
          · rw [if_neg hm]
            unfold put
            by_cases hmn : m = n
            · rw [if_pos hmn, hmn, if_pos List.mem_cons_self, hsn, hy]
            · rw [if_neg hmn, if_neg (by simp [hmn, hm])]

theorem loadInto_spec (e : String → Option (Tree α)) (ns : List Name) :
    ∀ {h₀ h : Heap α} {t₀ t : Attrs α}, Ext h₀ h t₀ t →
    Ext h₀ (loadInto h t e ns).1 t₀ (loadInto h t e ns).2 ∧
      view (loadInto h t e ns).1 (loadInto h t e ns).2 = assign (view h t)
        ((ns.map fun n => (n, e n.key)).takeWhile (·.2.isSome)
          |>.filterMap fun e => e.2.map fun x => (e.1, x)) := by
  induction ns with
  | nil => intro h₀ h t₀ t x; exact ⟨x, rfl⟩
  | cons n ns ih =>
    intro h₀ h t₀ t x
    cases hk : e n.key with
    | none =>
      have : loadInto h t e (n :: ns) = (h, t) := by simp only [loadInto, hk]
      rw [this]
      refine ⟨x, ?_⟩
      simp [hk, assign]
    | some y =>
      have : loadInto h t e (n :: ns) = loadInto (alloc h y).1 (put t n (alloc h y).2) e ns := by
        simp only [loadInto, hk]
      rw [this]
      obtain ⟨h1, h2, h3⟩ := alloc_spec h y
      obtain ⟨i1, i2⟩ := ih (x.put h1 h2 n)
      refine ⟨i1, ?_⟩
      rw [i2, view_put x.valid h1 h3]
      simp [hk, assign]

end Copy
end Pyphs
