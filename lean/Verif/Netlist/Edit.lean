/-
Model of the editing functions of netlists (/repo/pyphs/graphs/netlists.py:77-103, 173-212)
and property C47.
-/
import Verif.Netlist.Model
import Mathlib.Data.List.InsertIdx
import Mathlib.Data.List.TakeDrop
import Mathlib.Logic.Function.Basic
import Mathlib.Data.Int.Notation

namespace Pyphs
namespace Netlist

/-- The five attributes of a netlist; `V` are python values, `A` the dictionaries of arguments.
The attributes of a new netlist are tuples and become lists when a line is added or read;
operations on the empty tuple and on the empty list both raise, so that the difference is not
modelled. -/
structure Cols (V A : Type) where
  dictionaries : List V
  components : List V
  labels : List V
  nodes : List V
  arguments : List A
  deriving DecidableEq

/-- An item: the dictionary given to `add_line` and `setline`, returned by `__getitem__`. -/
structure Entry (V A : Type) where
  dictionary : V
  component : V
  label : V
  nodes : V
  arguments : A

variable {V A : Type}

/-- Position of a python index in a list of length `n`; `none` is `IndexError`. -/
def pyIdx (n : ℕ) (i : ℤ) : Option ℕ :=
  if 0 ≤ i then (if i.toNat < n then some i.toNat else none)
  else (if (-i).toNat ≤ n then some (n - (-i).toNat) else none)

/-- `l[i]`. -/
def pyGet {α : Type} (l : List α) (i : ℤ) : Option α := (pyIdx l.length i).bind fun k => l[k]?

/-- `l.pop(i)`, the list after the call. -/
def pyPop {α : Type} (l : List α) (i : ℤ) : Option (List α) := (pyIdx l.length i).map l.eraseIdx

/-- `l[i] = v`. -/
def pySet {α : Type} (l : List α) (i : ℤ) (v : α) : Option (List α) :=
  (pyIdx l.length i).map fun k => l.set k v

/-- netlists.py:77-83 `__getitem__`. -/
def Cols.get (c : Cols V A) (n : ℤ) : Option (Entry V A) := do
  let dictionary ← pyGet c.dictionaries n
  let component ← pyGet c.components n
  let label ← pyGet c.labels n
  let nodes ← pyGet c.nodes n
  let arguments ← pyGet c.arguments n
  return ⟨dictionary, component, label, nodes, arguments⟩

/-- netlists.py:98-103 `add_line`. -/
def Cols.addLine (c : Cols V A) (d : Entry V A) : Cols V A :=
  ⟨c.dictionaries ++ [d.dictionary], c.components ++ [d.component], c.labels ++ [d.label],
    c.nodes ++ [d.nodes], c.arguments ++ [d.arguments]⟩

/-- Outcome of a statement sequence: the state reached, and whether an exception was raised. -/
structure Out (S : Type) where
  state : S
  raised : Bool

/-- Statement `x = f(x)` that may raise, followed by others. -/
def Out.step {S : Type} (o : Out S) (f : S → Option S) : Out S :=
  if o.raised then o
  else match f o.state with
    | some s => ⟨s, false⟩
    | none => ⟨o.state, true⟩

/-- netlists.py:173-181 `delline`. -/
def Cols.delLine (c : Cols V A) (n : ℤ) : Out (Cols V A) :=
  (((((Out.mk c false).step fun c => (pyPop c.dictionaries n).map fun l => { c with dictionaries := l }
    ).step fun c => (pyPop c.components n).map fun l => { c with components := l }
    ).step fun c => (pyPop c.labels n).map fun l => { c with labels := l }
    ).step fun c => (pyPop c.nodes n).map fun l => { c with nodes := l }
    ).step fun c => (pyPop c.arguments n).map fun l => { c with arguments := l }

/-- `try: value = ast.literal_eval(value) except ...: pass`; `caught` tells which exceptions are
caught. `none` is an exception that is not caught. -/
def tryLiteral (le : V → Except Err V) (caught : Err → Bool) (v : V) : Option V :=
  match le v with
  | .ok v' => some v'
  | .error e => if caught e then some v else none

/-- `except ValueError`. -/
def caughtValue (e : Err) : Bool := e == .valueError

/-- `except (ValueError, SyntaxError)`. -/
def caughtBoth (e : Err) : Bool := e == .valueError || e == .syntaxError

/-- netlists.py:183-212 `setline`; `le` is `ast.literal_eval`. -/
def Cols.setLine (le : V → Except Err V) (c : Cols V A) (n : ℤ) (d : Entry V A) : Out (Cols V A) :=
  (((((Out.mk c false).step fun c => do
      let v ← tryLiteral le caughtValue d.dictionary
      let l ← pySet c.dictionaries n v
      return { c with dictionaries := l }
    ).step fun c => do
      let v ← tryLiteral le caughtValue d.component
      let l ← pySet c.components n v
      return { c with components := l }
    ).step fun c => do
      let v ← tryLiteral le caughtBoth d.label
      let l ← pySet c.labels n v
      return { c with labels := l }
    ).step fun c => (pySet c.nodes n d.nodes).map fun l => { c with nodes := l }
    ).step fun c => (pySet c.arguments n d.arguments).map fun l => { c with arguments := l }

/-- netlists.py:85-89 `__add__`. Netlists are objects of a heap; `net1` and `net2` are
addresses. The `for` loop asks `net2` for items `k = 0, 1, ...` until `IndexError`, and adds them
to `net1`, which is returned. `none`: the loop has not ended with this fuel. -/
def plusLoop (net1 net2 : ℕ) : ℕ → ℕ → (ℕ → Cols V A) → Option (ℕ → Cols V A)
  | 0, _, _ => none
  | fuel + 1, k, heap =>
    match (heap net2).get k with
    | none => some heap
    | some d => plusLoop net1 net2 fuel (k + 1)
        (Function.update heap net1 ((heap net1).addLine d))

/-! ### C47 -/

/-- The five columns have the same length (specification). -/
structure Aligned (c : Cols V A) : Prop where
  components : c.components.length = c.dictionaries.length
  labels : c.labels.length = c.dictionaries.length
  nodes : c.nodes.length = c.dictionaries.length
  arguments : c.arguments.length = c.dictionaries.length

/-- The netlist as a list of lines (specification). -/
def Rows (c : Cols V A) (l : List (Entry V A)) : Prop :=
  c.dictionaries = l.map (·.dictionary) ∧ c.components = l.map (·.component) ∧
  c.labels = l.map (·.label) ∧ c.nodes = l.map (·.nodes) ∧ c.arguments = l.map (·.arguments)

/-- An edition. -/
inductive Edit (V A : Type) where
  | add (d : Entry V A)
  | del (n : ℤ)
  | set (n : ℤ) (d : Entry V A)

/-- The state after an edition, whether or not it raises. -/
def Edit.run (le : V → Except Err V) (c : Cols V A) : Edit V A → Cols V A
  | add d => c.addLine d
  | del n => (c.delLine n).state
  | set n d => (c.setLine le n d).state

theorem pyIdx_lt {n : ℕ} {i : ℤ} {k : ℕ} (h : pyIdx n i = some k) : k < n := by
  unfold pyIdx at h
  split_ifs at h with h1 h2 h3
  · cases h; exact h2
  · cases h; omega

theorem pySet_length {α : Type} {l l' : List α} {i : ℤ} {v : α} (h : pySet l i v = some l') :
    l'.length = l.length := by
  unfold pySet at h
  obtain ⟨k, _, rfl⟩ := Option.map_eq_some_iff.1 h
  simp

theorem step_raised {S : Type} (s : S) (f : S → Option S) : (Out.mk s true).step f = ⟨s, true⟩ := rfl

theorem step_some {S : Type} {s s' : S} {f : S → Option S} (h : f s = some s') :
    (Out.mk s false).step f = ⟨s', false⟩ := by
  simp [Out.step, h]

theorem step_none {S : Type} {s : S} {f : S → Option S} (h : f s = none) :
    (Out.mk s false).step f = ⟨s, true⟩ := by
  simp [Out.step, h]

/-- An invariant of every statement holds at the end. -/
theorem step_inv {S : Type} (P : S → Prop) {o : Out S} (ho : P o.state) {f : S → Option S}
    (hf : ∀ s s', P s → f s = some s' → P s') : P (o.step f).state := by
  unfold Out.step
  split_ifs with h
  · exact ho
  · split
    · rename_i s hs; exact hf _ _ ho hs
    · exact ho

theorem rows_aligned {c : Cols V A} (h : Aligned c) : ∃ l, Rows c l := by
  obtain ⟨d, co, la, no, ar⟩ := c
  obtain ⟨h1, h2, h3, h4⟩ := h
  dsimp only at h1 h2 h3 h4
  induction d generalizing co la no ar with
  | nil =>
    simp only [List.length_nil, List.length_eq_zero_iff] at h1 h2 h3 h4
    subst h1 h2 h3 h4
    exact ⟨[], rfl, rfl, rfl, rfl, rfl⟩
  | cons d ds ih =>
    cases co with
    | nil => simp at h1
    | cons co cos =>
    cases la with
    | nil => simp at h2
    | cons la las =>
    cases no with
    | nil => simp at h3
    | cons no nos =>
    cases ar with
    | nil => simp at h4
    | cons ar ars =>
      obtain ⟨l, e1, e2, e3, e4, e5⟩ := ih cos las nos ars (by simpa using h1) (by simpa using h2)
        (by simpa using h3) (by simpa using h4)
      dsimp only at e1 e2 e3 e4 e5
      exact ⟨⟨d, co, la, no, ar⟩ :: l, by simp [e1], by simp [e2], by simp [e3], by simp [e4],
        by simp [e5]⟩

theorem Rows.aligned {c : Cols V A} {l : List (Entry V A)} (h : Rows c l) : Aligned c := by
  obtain ⟨h1, h2, h3, h4, h5⟩ := h
  constructor <;> simp [h1, h2, h3, h4, h5]

theorem Rows.unique {c : Cols V A} {l l' : List (Entry V A)} (h : Rows c l) (h' : Rows c l') :
    l = l' := by
  have hlen : l.length = l'.length := by
    have := h.1.symm.trans h'.1
    simpa using congrArg List.length this
  refine List.ext_getElem hlen fun i hi hi' => ?_
  have key : ∀ {β : Type} {f : Entry V A → β} {m : List β}, m = l.map f → m = l'.map f →
      f l[i] = f l'[i] := by
    intro β f m e e'
    have : l.map f = l'.map f := e ▸ e'
    have := congrArg (fun z => z[i]?) this
    simpa [hi, hi'] using this
  have k1 := key h.1 h'.1
  have k2 := key h.2.1 h'.2.1
  have k3 := key h.2.2.1 h'.2.2.1
  have k4 := key h.2.2.2.1 h'.2.2.2.1
  have k5 := key h.2.2.2.2 h'.2.2.2.2
  rcases hx : l[i] with ⟨a, b, c, d, e⟩
  rcases hy : l'[i] with ⟨a', b', c', d', e'⟩
  rw [hx, hy] at k1 k2 k3 k4 k5
  dsimp only at k1 k2 k3 k4 k5
  subst k1 k2 k3 k4 k5
  rfl

/-- **C47**: `add_line` adds the line at the end. -/
theorem C47_add {c : Cols V A} {l : List (Entry V A)} (h : Rows c l) (d : Entry V A) :
    Rows (c.addLine d) (l ++ [d]) := by
  obtain ⟨h1, h2, h3, h4, h5⟩ := h
  exact ⟨by simp [Cols.addLine, h1], by simp [Cols.addLine, h2], by simp [Cols.addLine, h3],
    by simp [Cols.addLine, h4], by simp [Cols.addLine, h5]⟩

theorem pyGet_map {α β : Type} (f : α → β) (l : List α) (n : ℤ) :
    pyGet (l.map f) n = (pyGet l n).map f := by
  unfold pyGet
  rw [List.length_map]
  cases pyIdx l.length n with
  | none => rfl
  | some k => simp

/-- Item `n` is line `n`; outside the range, an exception. -/
theorem get_rows {c : Cols V A} {l : List (Entry V A)} (h : Rows c l) (n : ℤ) :
    c.get n = pyGet l n := by
  obtain ⟨h1, h2, h3, h4, h5⟩ := h
  unfold Cols.get
  rw [h1, h2, h3, h4, h5]
  simp only [pyGet_map]
  cases pyGet l n <;> rfl

theorem pyPop_map {α β : Type} (f : α → β) {l : List α} {n : ℤ} {k : ℕ}
    (h : pyIdx l.length n = some k) : pyPop (l.map f) n = some ((l.eraseIdx k).map f) := by
  unfold pyPop
  rw [List.length_map, h]
  simp [List.eraseIdx_map]

theorem pySet_map {α β : Type} (f : α → β) {l : List α} {n : ℤ} {k : ℕ}
    (h : pyIdx l.length n = some k) (v : β) :
    pySet (l.map f) n v = some ((l.map f).set k v) := by
  unfold pySet
  rw [List.length_map, h]
  rfl

/-- `delline` removes exactly line `n`; for an index out of range it raises and nothing
is changed. -/
theorem del_rows {c : Cols V A} {l : List (Entry V A)} (h : Rows c l) (n : ℤ) :
    (∀ k, pyIdx l.length n = some k →
      (c.delLine n).raised = false ∧ Rows (c.delLine n).state (l.eraseIdx k)) ∧
    (pyIdx l.length n = none → c.delLine n = ⟨c, true⟩) := by
  obtain ⟨h1, h2, h3, h4, h5⟩ := h
  constructor
  · intro k hk
    unfold Cols.delLine
    rw [step_some (s' := { c with dictionaries := (l.eraseIdx k).map (·.dictionary) })
        (by simp [h1, pyPop_map _ hk]),
      step_some (s' := { c with
        dictionaries := (l.eraseIdx k).map (·.dictionary)
        components := (l.eraseIdx k).map (·.component) }) (by simp [h2, pyPop_map _ hk]),
      step_some (s' := { c with
        dictionaries := (l.eraseIdx k).map (·.dictionary)
        components := (l.eraseIdx k).map (·.component)
        labels := (l.eraseIdx k).map (·.label) }) (by simp [h3, pyPop_map _ hk]),
      step_some (s' := { c with
        dictionaries := (l.eraseIdx k).map (·.dictionary)
        components := (l.eraseIdx k).map (·.component)
        labels := (l.eraseIdx k).map (·.label)
        nodes := (l.eraseIdx k).map (·.nodes) }) (by simp [h4, pyPop_map _ hk]),
      step_some (s' := ⟨(l.eraseIdx k).map (·.dictionary), (l.eraseIdx k).map (·.component),
        (l.eraseIdx k).map (·.label), (l.eraseIdx k).map (·.nodes),
        (l.eraseIdx k).map (·.arguments)⟩) (by simp [h5, pyPop_map _ hk])]
    exact ⟨rfl, rfl, rfl, rfl, rfl, rfl⟩
  · intro hk
    unfold Cols.delLine
    rw [step_none (by
      have : pyPop c.dictionaries n = none := by
        unfold pyPop; rw [h1, List.length_map, hk]; rfl
      rw [this]; rfl)]
    rfl

/-- When the three literals can be evaluated, `setline` replaces exactly line `n`. The
dictionary, component and label stored are the values of the literals they spell, if any. -/
theorem set_rows (le : V → Except Err V) {c : Cols V A} {l : List (Entry V A)} (h : Rows c l) (n : ℤ)
    (d : Entry V A) {k : ℕ} (hk : pyIdx l.length n = some k) {v1 v2 v3 : V}
    (e1 : tryLiteral le caughtValue d.dictionary = some v1)
    (e2 : tryLiteral le caughtValue d.component = some v2)
    (e3 : tryLiteral le caughtBoth d.label = some v3) :
    (c.setLine le n d).raised = false ∧
      Rows (c.setLine le n d).state (l.set k ⟨v1, v2, v3, d.nodes, d.arguments⟩) := by
  obtain ⟨h1, h2, h3, h4, h5⟩ := h
  unfold Cols.setLine
  rw [step_some (s' := { c with dictionaries := (l.map (·.dictionary)).set k v1 })
      (by simp [e1, h1, pySet_map _ hk]),
    step_some (s' := { c with
      dictionaries := (l.map (·.dictionary)).set k v1
      components := (l.map (·.component)).set k v2 }) (by simp [e2, h2, pySet_map _ hk]),
    step_some (s' := { c with
      dictionaries := (l.map (·.dictionary)).set k v1
      components := (l.map (·.component)).set k v2
      labels := (l.map (·.label)).set k v3 }) (by simp [e3, h3, pySet_map _ hk]),
    step_some (s' := { c with
      dictionaries := (l.map (·.dictionary)).set k v1
      components := (l.map (·.component)).set k v2
      labels := (l.map (·.label)).set k v3
      nodes := (l.map (·.nodes)).set k d.nodes }) (by simp [h4, pySet_map _ hk]),
    step_some (s' := ⟨(l.map (·.dictionary)).set k v1, (l.map (·.component)).set k v2,
      (l.map (·.label)).set k v3, (l.map (·.nodes)).set k d.nodes,
      (l.map (·.arguments)).set k d.arguments⟩) (by simp [h5, pySet_map _ hk])]
  refine ⟨rfl, ?_, ?_, ?_, ?_, ?_⟩ <;> simp [List.map_set]

/-- What the index `n` of python designates in a list of `N` lines: line `n`, or line `N + n` for a
negative index. -/
def IsLine (N : ℕ) (n : ℤ) (k : ℕ) : Prop := k < N ∧ (n = k ∨ n = (k : ℤ) - N)

theorem pyIdx_some {N : ℕ} {n : ℤ} {k : ℕ} : pyIdx N n = some k ↔ IsLine N n k := by
  unfold pyIdx IsLine
  split_ifs with h1 h2 h3
  · simp only [Option.some.injEq]; omega
  · simp only [reduceCtorEq, false_iff]; omega
  · simp only [Option.some.injEq]; omega
  · simp only [reduceCtorEq, false_iff]; omega

theorem pyIdx_none {N : ℕ} {n : ℤ} : pyIdx N n = none ↔ ∀ k, ¬ IsLine N n k := by
  rw [Option.eq_none_iff_forall_ne_some]
  exact forall_congr' fun k => not_congr pyIdx_some

/-- **C47**: item `n` is line `n`, counted from the end for a negative index; outside the range, an
exception. -/
theorem C47_get {c : Cols V A} {l : List (Entry V A)} (h : Rows c l) (n : ℤ) :
    (∀ k d, IsLine l.length n k → l[k]? = some d → c.get n = some d) ∧
    ((∀ k, ¬ IsLine l.length n k) → c.get n = none) := by
  rw [get_rows h n]
  unfold pyGet
  refine ⟨fun k d hk hd => ?_, fun hk => ?_⟩
  · rw [pyIdx_some.2 hk]; exact hd
  · rw [pyIdx_none.2 hk]; rfl

/-- **C47**: `delline` removes exactly line `n`; for an index out of range it raises and nothing
is changed. -/
theorem C47_del {c : Cols V A} {l : List (Entry V A)} (h : Rows c l) (n : ℤ) :
    (∀ k, IsLine l.length n k →
      (c.delLine n).raised = false ∧ Rows (c.delLine n).state (l.eraseIdx k)) ∧
    ((∀ k, ¬ IsLine l.length n k) → c.delLine n = ⟨c, true⟩) :=
  ⟨fun k hk => (del_rows h n).1 k (pyIdx_some.2 hk), fun hk => (del_rows h n).2 (pyIdx_none.2 hk)⟩

/-- **C47**: when the three literals can be evaluated, `setline` replaces exactly line `n`. The
dictionary, component and label stored are the values of the literals they spell, if any. -/
theorem C47_set (le : V → Except Err V) {c : Cols V A} {l : List (Entry V A)} (h : Rows c l) (n : ℤ)
    (d : Entry V A) {k : ℕ} (hk : IsLine l.length n k) {v1 v2 v3 : V}
    (e1 : tryLiteral le caughtValue d.dictionary = some v1)
    (e2 : tryLiteral le caughtValue d.component = some v2)
    (e3 : tryLiteral le caughtBoth d.label = some v3) :
    (c.setLine le n d).raised = false ∧
      Rows (c.setLine le n d).state (l.set k ⟨v1, v2, v3, d.nodes, d.arguments⟩) :=
  set_rows le h n d (pyIdx_some.2 hk) e1 e2 e3

example : IsLine 3 (-1) 2 ∧ IsLine 3 0 0 ∧ ∀ k, ¬ IsLine 3 (-4) k := by
  refine ⟨⟨by omega, by omega⟩, ⟨by omega, by omega⟩, fun k h => ?_⟩
  obtain ⟨h1, h2⟩ := h
  omega

/-- **C47**: the columns stay aligned over any history of editions, including those that raise
half-way. -/
theorem C47_aligned (le : V → Except Err V) (ops : List (Edit V A)) {c : Cols V A} (h : Aligned c) :
    Aligned (ops.foldl (Edit.run le) c) := by
  induction ops generalizing c with
  | nil => exact h
  | cons op ops ih =>
    refine ih ?_
    cases op with
    | add d =>
      obtain ⟨l, hl⟩ := rows_aligned h
      exact (C47_add hl d).aligned
    | del n =>
      obtain ⟨l, hl⟩ := rows_aligned h
      cases hk : pyIdx l.length n with
      | none =>
        show Aligned (c.delLine n).state
        rw [(del_rows hl n).2 hk]; exact h
      | some k => exact ((del_rows hl n).1 k hk).2.aligned
    | set n d =>
      show Aligned (c.setLine le n d).state
      unfold Cols.setLine
      refine step_inv Aligned (step_inv Aligned (step_inv Aligned (step_inv Aligned
        (step_inv Aligned h ?_) ?_) ?_) ?_) ?_
      · intro s s' hs e
        simp only [Option.bind_eq_bind, Option.bind_eq_some_iff] at e
        obtain ⟨v, _, m, hm, e⟩ := e
        cases e
        have := pySet_length hm
        exact ⟨by simp [this, hs.components], by simp [this, hs.labels], by simp [this, hs.nodes],
          by simp [this, hs.arguments]⟩
      · intro s s' hs e
        simp only [Option.bind_eq_bind, Option.bind_eq_some_iff] at e
        obtain ⟨v, _, m, hm, e⟩ := e
        cases e
        exact ⟨(pySet_length hm).trans hs.components, hs.labels, hs.nodes, hs.arguments⟩
      · intro s s' hs e
        simp only [Option.bind_eq_bind, Option.bind_eq_some_iff] at e
        obtain ⟨v, _, m, hm, e⟩ := e
        cases e
        exact ⟨hs.components, (pySet_length hm).trans hs.labels, hs.nodes, hs.arguments⟩
      · intro s s' hs e
        obtain ⟨m, hm, rfl⟩ := Option.map_eq_some_iff.1 e
        exact ⟨hs.components, hs.labels, (pySet_length hm).trans hs.nodes, hs.arguments⟩
      · intro s s' hs e
        obtain ⟨m, hm, rfl⟩ := Option.map_eq_some_iff.1 e
        exact ⟨hs.components, hs.labels, hs.nodes, (pySet_length hm).trans hs.arguments⟩

theorem pyGet_nat {α : Type} (l : List α) (k : ℕ) : pyGet l (k : ℤ) = l[k]? := by
  unfold pyGet pyIdx
  rw [if_pos (by omega)]
  by_cases h : k < l.length
  · rw [if_pos (by simpa using h)]; simp
  · rw [if_neg (by simpa using h)]
    simp [List.getElem?_eq_none (by omega : l.length ≤ k)]

/-- **C47**: `net1 + net2` for two distinct netlists adds the lines of the second after those of
the first. The object returned is the first netlist, which is modified; the second is not. -/
theorem C47_plus {net1 net2 : ℕ} (hne : net1 ≠ net2) (heap : ℕ → Cols V A)
    {l1 l2 : List (Entry V A)} (h1 : Rows (heap net1) l1) (h2 : Rows (heap net2) l2) :
    ∃ heap', plusLoop net1 net2 (l2.length + 1) 0 heap = some heap' ∧
      Rows (heap' net1) (l1 ++ l2) ∧ ∀ a, a ≠ net1 → heap' a = heap a := by
  have key : ∀ n k (hp : ℕ → Cols V A), l2.length = n + k → Rows (hp net1) (l1 ++ l2.take k) →
      (∀ a, a ≠ net1 → hp a = heap a) →
      ∃ heap', plusLoop net1 net2 (n + 1) k hp = some heap' ∧
      Rows (heap' net1) (l1 ++ l2) ∧ ∀ a, a ≠ net1 → heap' a = heap a := by
    intro n
    induction n with
    | zero =>
      intro k hp hk hr hf
      refine ⟨hp, ?_, ?_, hf⟩
      · simp only [plusLoop]
        rw [hf net2 (Ne.symm hne), get_rows h2, pyGet_nat, List.getElem?_eq_none (by omega)]
      · rwa [List.take_of_length_le (by omega)] at hr
    | succ n ih =>
      intro k hp hk hr hf
      have hlt : k < l2.length := by omega
      have e : (hp net2).get k = some l2[k] := by
        rw [hf net2 (Ne.symm hne), get_rows h2, pyGet_nat, List.getElem?_eq_getElem hlt]
      rw [plusLoop, e]
      refine ih (k + 1) _ (by omega) ?_ ?_
      · rw [Function.update_self]
        have := C47_add hr l2[k]
        rwa [List.append_assoc, List.take_concat_get' _ _ hlt] at this
      · intro a ha
        rw [Function.update_of_ne ha]; exact hf a ha
  exact key l2.length 0 heap (by simp) (by simpa using h1) (fun _ _ => rfl)

/-- **C47**, disagreement: `net + net` never ends when the netlist is not empty. -/
theorem C47_plus_self (net : ℕ) (heap : ℕ → Cols V A) {l : List (Entry V A)}
    (h : Rows (heap net) l) (h0 : l ≠ []) (fuel : ℕ) : plusLoop net net fuel 0 heap = none := by
  have key : ∀ fuel k (hp : ℕ → Cols V A) (m : List (Entry V A)), Rows (hp net) m → k < m.length →
      plusLoop net net fuel k hp = none := by
    intro fuel
    induction fuel with
    | zero => intros; rfl
    | succ n ih =>
      intro k hp m hm hk
      have e : (hp net).get k = some m[k] := by
        rw [get_rows hm, pyGet_nat, List.getElem?_eq_getElem hk]
      rw [plusLoop, e]
      refine ih (k + 1) _ (m ++ [m[k]]) ?_ (by simp; omega)
      rw [Function.update_self]
      exact C47_add hm _
  exact key fuel 0 heap l h (List.length_pos_of_ne_nil h0)

/-- **C47**, disagreement: when the component is not a literal that can be parsed (here the
empty text), `setline` raises after it has replaced the dictionary, and the line is a mixture of
the old and the new one. -/
theorem C47_set_mixture :
    let le : Str → Except Err Str := fun s => if s = [] then .error .syntaxError else .error .valueError
    let c : Cols Str Unit := ⟨[['a']], [['b']], [['c']], [['d']], [()]⟩
    let o := c.setLine le 0 ⟨['x'], [], ['y'], ['z'], ()⟩
    o.raised = true ∧ o.state = ⟨[['x']], [['b']], [['c']], [['d']], [()]⟩ := by
  decide +kernel

example : Rows (V := ℕ) (A := ℕ) ⟨[1, 2], [3, 4], [5, 6], [7, 8], [9, 10]⟩
    [⟨1, 3, 5, 7, 9⟩, ⟨2, 4, 6, 8, 10⟩] := ⟨rfl, rfl, rfl, rfl, rfl⟩

example : ((Cols.mk [1, 2] [3, 4] [5, 6] [7, 8] [9, 10] : Cols ℕ ℕ).delLine (-2)).state.labels = [6] := by
  decide

end Netlist
end Pyphs
