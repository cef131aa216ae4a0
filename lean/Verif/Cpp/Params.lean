/-
C31: the parameters of the generated code (/repo/pyphs/numerics/cpp/method2cpp.py:251-271 and
312-366). Dictionaries are lists of keys and values in insertion order. The text of parameters.cpp is
a list of tokens without its comments; the text of a number is one token.
-/
import Mathlib.Data.List.Basic
import Mathlib.Data.List.Nodup
import Mathlib.Data.Int.Notation

namespace Pyphs
namespace Cpp

abbrev Dict (K : Type) := List (String × K)

namespace Dict
variable {K : Type}

def keys (d : Dict K) : List String := d.map Prod.fst

def vals (d : Dict K) : List K := d.map Prod.snd

end Dict

variable {K : Type}

/-- method2cpp.py:268-271: `const double * name = & subs[indexParameters][i];`. -/
def pointers (fs : String) (msubs : Dict K) : List (String × ℕ) :=
  msubs.keys.zipIdx.filter fun p => decide (p.1 ≠ fs)

/-- Exceptions of `_append_subs`. -/
inductive PErr
  | index
  | key (k : String)
  deriving DecidableEq, Repr

/-- `s[k]`. -/
def getKey (s : Dict K) (k : String) : Except PErr K :=
  match s.lookup k with
  | some v => .ok v
  | none => .error (.key k)

/-- method2cpp.py:321-364: the values written in parameters.cpp, one row for each dictionary and one
column for each key of the first one. -/
def table : List (Dict K) → Except PErr (List (List K))
  | [] => .error .index
  | d :: L => (d :: L).mapM fun s => d.keys.mapM (getKey s)

/-- The value that the generated code reads for a parameter: `indexParameters` is the constant 0.
`none`: no such pointer, no table, or an index out of bounds. -/
def param (fs : String) (msubs : Dict K) (L : List (Dict K)) (s : String) : Option K :=
  match (pointers fs msubs).lookup s, table L with
  | some i, .ok (row :: _) => row[i]?
  | _, _ => none

/-- Tokens of parameters.cpp. -/
inductive Tok (K : Type)
  | op | cl | comma | semi
  | num (v : K)

/-- method2cpp.py:349-366: the text that defines the array, from `{` on. `files['cpp'][:-2]` takes away
the last comma. -/
def tableText (rows : List (List K)) : List (Tok K) :=
  rows.foldl (fun out row =>
    ((out ++ [Tok.op]) ++ row.flatMap fun v => [Tok.num v, .comma]).dropLast ++
      [.cl, .comma, .cl, .semi]) [Tok.op]

/-! ### Specification: initializers of C++ arrays -/

/-- States of a reader of `{ {1, 2}, {3, 4}, };`. -/
inductive PS (K : Type)
  | start
  | rows (acc : List (List K))
  | num (acc : List (List K)) (cur : List K)
  | sep (acc : List (List K)) (cur : List K)
  | after (acc : List (List K))
  | done (acc : List (List K))
  | fin (acc : List (List K))

def PS.step : PS K → Tok K → Option (PS K)
  | .start, .op => some (.rows [])
  | .rows acc, .op => some (.num acc [])
  | .rows acc, .cl => some (.done acc)
  | .num acc cur, .num v => some (.sep acc (cur ++ [v]))
  | .num acc cur, .cl => some (.after (acc ++ [cur]))
  | .sep acc cur, .comma => some (.num acc cur)
  | .sep acc cur, .cl => some (.after (acc ++ [cur]))
  | .after acc, .comma => some (.rows acc)
  | .after acc, .cl => some (.done acc)
  | .done acc, .semi => some (.fin acc)
  | _, _ => none

/-- The rows of an initializer; `none` if the text is not one. -/
def readTable (ts : List (Tok K)) : Option (List (List K)) :=
  match ts.foldlM PS.step .start with
  | some (.fin acc) => some acc
  | _ => none

/-! ### Values of the parameters -/

theorem mapM_lookup {s : Dict K} : ∀ {l : List String} {vs : List K},
    l.map (fun k => s.lookup k) = vs.map some → l.mapM (getKey s) = .ok vs := by
  intro l
  induction l with
  | nil =>
    intro vs h
    have : vs = [] := by simpa using h.symm
    subst this; rfl
  | cons k l ih =>
    intro vs h
    cases vs with
    | nil => simp at h
    | cons v vs =>
      obtain ⟨h1, h2⟩ := List.cons.inj (show s.lookup k :: l.map _ = some v :: vs.map some from h)
      have hk : getKey s k = .ok v := by unfold getKey; rw [h1]
      rw [List.mapM_cons, hk, ih h2]
      rfl

theorem lookup_key {d : Dict K} (hd : d.keys.Nodup) {i : ℕ} (hi : i < d.length) :
    d.lookup (d[i].1) = some d[i].2 := by
  induction d generalizing i with
  | nil => simp at hi
  | cons p d ih =>
    obtain ⟨hp, hd⟩ := List.nodup_cons.1 (show (p.1 :: d.map Prod.fst).Nodup from hd)
    cases i with
    | zero =>
      obtain ⟨k, v⟩ := p
      simp
    | succ i =>
      have hi' : i < d.length := by simpa using hi
      have hne : ((p :: d)[i + 1].1 == p.1) = false := by
        simp only [List.getElem_cons_succ, beq_eq_false_iff_ne]
        intro h
        exact hp (h ▸ List.mem_map.2 ⟨d[i], List.getElem_mem hi', rfl⟩)
      rw [List.lookup_cons, hne]
      exact ih hd hi'

theorem map_lookup {d : Dict K} (hd : d.keys.Nodup) : d.keys.map (fun k => d.lookup k) = d.vals.map some := by
  apply List.ext_getElem
  · simp [Dict.keys, Dict.vals]
  · intro i h1 h2
    simp only [Dict.keys, Dict.vals, List.length_map, List.getElem_map] at h1 ⊢
    exact lookup_key hd h1

/-- The table of one dictionary has its values, in order. -/
theorem table_single {d : Dict K} (hd : d.keys.Nodup) : table [d] = .ok [d.vals] := by
  have h : d.keys.mapM (getKey d) = .ok d.vals := mapM_lookup (map_lookup hd)
  show [d].mapM (fun s => d.keys.mapM (getKey s)) = _
  rw [List.mapM_cons, h]
  rfl

theorem pointers_lookup {fs s : String} (h : s ≠ fs) : ∀ (l : List String) (n : ℕ),
    ((l.zipIdx n).filter fun p => decide (p.1 ≠ fs)).lookup s =
      if s ∈ l then some (n + l.idxOf s) else none := by
  intro l
  induction l with
  | nil => intro n; rfl
  | cons k l ih =>
    intro n
    rw [List.zipIdx_cons, List.filter_cons]
    by_cases hk : s = k
    · subst hk
      simp [h]
    · have hk1 : (s == k) = false := by simpa using hk
      have hk2 : (k == s) = false := by simpa using (Ne.symm hk)
      by_cases hf : k = fs
      · subst hf
        simp only [ne_eq, not_true_eq_false, decide_false, Bool.false_eq_true, if_false]
        change (List.filter (fun p => decide (p.1 ≠ k)) (l.zipIdx (n + 1))).lookup s = _
        rw [ih (n + 1)]
        simp only [List.mem_cons, hk, false_or, List.idxOf_cons, hk2]
        split_ifs
        · simp [Nat.add_comm, Nat.add_left_comm]
        · rfl
      · simp only [ne_eq, hf, not_false_eq_true, decide_true, if_true, List.lookup_cons, hk1]
        change (List.filter (fun p => decide (p.1 ≠ fs)) (l.zipIdx (n + 1))).lookup s = _
        rw [ih (n + 1)]
        simp only [List.mem_cons, hk, false_or, List.idxOf_cons, hk2]
        split_ifs
        · simp [Nat.add_comm, Nat.add_left_comm]
        · rfl

/-- What is read for a parameter, with one dictionary: the value whose position in the dictionary is
the position of the parameter in `method.subs`. -/
theorem param_single {fs s : String} {msubs d : Dict K} (hd : d.keys.Nodup) (h : s ≠ fs) :
    param fs msubs [d] s = if s ∈ msubs.keys then d.vals[msubs.keys.idxOf s]? else none := by
  unfold param pointers
  rw [table_single hd, pointers_lookup h]
  by_cases hs : s ∈ msubs.keys
  · rw [if_pos hs, if_pos hs]; simp
  · rw [if_neg hs, if_neg hs]

/-- **C31** (no dictionary given): every parameter of the generated code has its value. -/
theorem C31_default {fs s : String} {msubs : Dict K} (hm : msubs.keys.Nodup) (hs : s ∈ msubs.keys)
    (h : s ≠ fs) : param fs msubs [msubs] s = msubs.lookup s := by
  rw [param_single hm h, if_pos hs]
  have hi : msubs.keys.idxOf s < msubs.length := by
    have := List.idxOf_lt_length_of_mem hs
    simpa [Dict.keys] using this
  have hk : msubs[msubs.keys.idxOf s].1 = s := by
    have h1 : msubs.keys[msubs.keys.idxOf s]'(List.idxOf_lt_length_of_mem hs) = s :=
      List.getElem_idxOf _
    have h2 : msubs.keys[msubs.keys.idxOf s]'(List.idxOf_lt_length_of_mem hs) =
        msubs[msubs.keys.idxOf s].1 := List.getElem_map _
    rw [← h2, h1]
  have := lookup_key hm hi
  rw [hk] at this
  rw [this]
  simp [Dict.vals, List.getElem?_eq_getElem hi]

/-- **C31** (dictionary of the user): the values are right when the keys of the method come first, in
the same order. -/
theorem C31_user {fs s : String} {msubs d : Dict K} (hd : d.keys.Nodup)
    (hp : msubs.keys <+: d.keys) (hs : s ∈ msubs.keys) (h : s ≠ fs) :
    param fs msubs [d] s = d.lookup s ∧ (d.lookup s).isSome := by
  obtain ⟨t, ht⟩ := hp
  have hsd : s ∈ d.keys := by rw [← ht]; exact List.mem_append_left _ hs
  have hidx : msubs.keys.idxOf s = d.keys.idxOf s := by
    rw [← ht, List.idxOf_append_of_mem hs]
  have e : param fs msubs [d] s = param fs d [d] s := by
    rw [param_single hd h, param_single hd h, if_pos hs, if_pos hsd, hidx]
  rw [e, C31_default hd hsd h]
  refine ⟨rfl, ?_⟩
  rw [← C31_default hd hsd h, param_single hd h, if_pos hsd]
  have := List.idxOf_lt_length_of_mem hsd
  simp only [Dict.keys, List.length_map] at this
  simp [Dict.vals, Dict.keys, this]

/-- **C31** (wrong values): conversely, with a dictionary of distinct values, all the parameters are right
only if the keys of the method come first, in the same order. -/
theorem C31_order {fs : String} {msubs d : Dict K} (hm : msubs.keys.Nodup) (hd : d.keys.Nodup)
    (hv : d.vals.Nodup) (hf : fs ∉ msubs.keys)
    (h : ∀ s ∈ msubs.keys, ∃ v, param fs msubs [d] s = some v ∧ d.lookup s = some v) :
    msubs.keys <+: d.keys := by
  have key : ∀ i (hi : i < msubs.keys.length), ∃ hi' : i < d.keys.length,
      d.keys[i] = msubs.keys[i] := by
    intro i hi
    obtain ⟨v, h1, h2⟩ := h msubs.keys[i] (List.getElem_mem hi)
    have hne : msubs.keys[i] ≠ fs := fun e => hf (e ▸ List.getElem_mem hi)
    rw [param_single hd hne, if_pos (List.getElem_mem hi), hm.idxOf_getElem] at h1
    obtain ⟨hi1, hv1⟩ := List.getElem?_eq_some_iff.1 h1
    have hi2 : i < d.length := by simpa [Dict.vals] using hi1
    refine ⟨by simpa [Dict.keys] using hi2, ?_⟩
    -- position of the key in `d`
    have hmem : msubs.keys[i] ∈ d.keys := by
      by_contra hc
      have : d.lookup msubs.keys[i] = none := by
        rw [List.lookup_eq_none_iff]
        intro p hp
        simp only [bne_iff_ne, ne_eq]
        rintro e
        exact hc (e ▸ List.mem_map.2 ⟨p, hp, rfl⟩)
      rw [this] at h2; simp at h2
    obtain ⟨j, hj, hjk⟩ := List.getElem_of_mem hmem
    have hj2 : j < d.length := by simpa [Dict.keys] using hj
    have hjk' : d[j].1 = msubs.keys[i] := by simpa [Dict.keys] using hjk
    have h3 := lookup_key hd hj2
    rw [hjk', h2] at h3
    have h4 : d.vals[i] = d.vals[j]'(by simpa [Dict.vals] using hj2) := by
      rw [hv1]; simpa [Dict.vals] using Option.some.inj h3
    have hij : i = j := (List.Nodup.getElem_inj_iff hv).1 h4
    subst hij
    exact hjk
  rw [List.prefix_iff_eq_take]
  apply List.ext_getElem
  · rw [List.length_take]
    rcases Nat.lt_or_ge d.keys.length msubs.keys.length with hlt | hge
    · obtain ⟨h', -⟩ := key d.keys.length hlt
      exact absurd h' (Nat.lt_irrefl _)
    · rw [Nat.min_eq_left hge]
  · intro i h1 h2
    obtain ⟨h', e⟩ := key i h1
    rw [List.getElem_take]
    exact e.symm

/-- **C31** fails as stated: a dictionary with the same keys in another order exchanges the values, and a
dictionary with one key less gives an index out of bounds. -/
theorem C31_wrong :
    let msubs : Dict ℤ := [("R", 1), ("C", 2)]
    param "F_S" msubs [[("C", 20), ("R", 10)]] "R" = some 20 ∧
    param "F_S" msubs [[("R", 10)]] "C" = none := by
  decide

/-- The hypotheses of C31_user: a dictionary with a further key. -/
example : param "F_S" [("R", (1 : ℤ)), ("C", 2)] [[("R", 10), ("C", 20), ("L", 30)]] "C" = some 20 := by
  decide

/-! ### Several dictionaries -/

theorem mapM_ok_iff {s : Dict K} : ∀ {l : List String} {vs : List K},
    l.mapM (getKey s) = .ok vs ↔ l.map (fun k => s.lookup k) = vs.map some := by
  intro l
  refine fun {vs} => ⟨fun h => ?_, mapM_lookup⟩
  induction l generalizing vs with
  | nil => cases h; rfl
  | cons k l ih =>
    rw [List.mapM_cons] at h
    cases hk : s.lookup k with
    | none => rw [getKey, hk] at h; cases h
    | some v =>
      rw [getKey, hk] at h
      cases hl : l.mapM (getKey s) with
      | error e => rw [hl] at h; cases h
      | ok ws =>
        rw [hl] at h
        cases h
        rw [List.map_cons, List.map_cons, hk, ih hl]

/-- **C31**, rows of the table: one for each dictionary, with its values in the order of the keys of the first
one. There is no table exactly when a dictionary misses a key of the first one. -/
theorem C31_rows (d : Dict K) (L : List (Dict K)) :
    (∀ rows, table (d :: L) = .ok rows ↔
      List.Forall₂ (fun s row => d.keys.map (fun k => s.lookup k) = row.map some) (d :: L) rows) ∧
    ((∃ err, table (d :: L) = .error err) ↔ ∃ s ∈ d :: L, ∃ k ∈ d.keys, s.lookup k = none) := by
  have h1 : ∀ (M : List (Dict K)) rows, M.mapM (fun s => d.keys.mapM (getKey s)) = .ok rows ↔
      List.Forall₂ (fun s row => d.keys.map (fun k => s.lookup k) = row.map some) M rows := by
    intro M
    induction M with
    | nil =>
      intro rows
      constructor
      · intro h; cases h; exact .nil
      · intro h; cases h; rfl
    | cons s M ih =>
      intro rows
      rw [List.mapM_cons]
      constructor
      · intro h
        cases hs : d.keys.mapM (getKey s) with
        | error e => rw [hs] at h; cases h
        | ok row =>
          cases hM : M.mapM (fun s => d.keys.mapM (getKey s)) with
          | error e => rw [hs, hM] at h; cases h
          | ok rs =>
            rw [hs, hM] at h
            cases h
            exact .cons (mapM_ok_iff.1 hs) ((ih _).1 hM)
      · intro h
        cases h with
        | cons a b => rw [mapM_ok_iff.2 a, (ih _).2 b]; rfl
  refine ⟨h1 (d :: L), ?_⟩
  constructor
  · rintro ⟨err, he⟩
    by_contra hc
    push Not at hc
    have : ∃ rows, List.Forall₂ (fun (s : Dict K) (row : List K) =>
        d.keys.map (fun k => s.lookup k) = row.map some) (d :: L) rows := by
      refine ⟨(d :: L).map fun s => d.keys.filterMap fun k => s.lookup k, ?_⟩
      rw [List.forall₂_map_right_iff, List.forall₂_same]
      intro s hs
      have hk := hc s hs
      generalize d.keys = ks at hk ⊢
      induction ks with
      | nil => rfl
      | cons k ks ih =>
        obtain ⟨v, hv⟩ := Option.ne_none_iff_exists'.1 (hk k List.mem_cons_self)
        rw [List.map_cons, List.filterMap_cons_some (f := fun k => s.lookup k) hv, List.map_cons, hv,
          ih fun k hk' => hk k (List.mem_cons_of_mem _ hk')]
    obtain ⟨rows, hr⟩ := this
    cases he.symm.trans ((h1 (d :: L) rows).2 hr)
  · rintro ⟨s, hs, k, hk, hn⟩
    cases ht : table (d :: L) with
    | error err => exact ⟨err, rfl⟩
    | ok rows =>
      exfalso
      have hr := (h1 (d :: L) rows).1 ht
      have : ∀ {M : List (Dict K)} {rows : List (List K)}, List.Forall₂ (fun (s : Dict K) (row : List K) =>
          d.keys.map (fun k => s.lookup k) = row.map some) M rows → s ∉ M := by
        intro M rows h
        induction h with
        | nil => simp
        | @cons s' row M rows h _ ih =>
          intro hm
          rcases List.mem_cons.1 hm with rfl | hm
          · have h0 : none ∈ row.map some := by
              rw [← h]; exact List.mem_map.2 ⟨k, hk, hn⟩
            obtain ⟨v, -, hv⟩ := List.mem_map.1 h0
            cases hv
          · exact ih hm
      exact this hr hs

/-- **C31**, several dictionaries: the generated code reads the values of the first one. -/
theorem C31_first (fs : String) (msubs d : Dict K) (L : List (Dict K)) (s : String)
    (h : ∀ s ∈ L, ∀ k ∈ d.keys, s.lookup k ≠ none) :
    param fs msubs (d :: L) s = param fs msubs [d] s := by
  by_cases hd : ∀ k ∈ d.keys, d.lookup k ≠ none
  · have ok : ∀ M : List (Dict K), (∀ s ∈ M, ∀ k ∈ d.keys, s.lookup k ≠ none) → ∃ row rows,
        table (d :: M) = .ok (row :: rows) ∧ d.keys.map (fun k => d.lookup k) = row.map some := by
      intro M hM
      cases ht : table (d :: M) with
      | error err =>
        obtain ⟨s, hs, k, hk, hn⟩ := (C31_rows d M).2.1 ⟨err, ht⟩
        rcases List.mem_cons.1 hs with rfl | hs
        · exact absurd hn (hd k hk)
        · exact absurd hn (hM s hs k hk)
      | ok rows =>
        cases ((C31_rows d M).1 rows).1 ht with
        | cons a b => exact ⟨_, _, rfl, a⟩
    obtain ⟨r1, R1, e1, q1⟩ := ok L h
    obtain ⟨r2, R2, e2, q2⟩ := ok [] fun s hs => (nomatch hs)
    have : r1 = r2 := (List.map_injective_iff.2 fun _ _ h => Option.some.inj h) (q1.symm.trans q2)
    unfold param
    rw [e1, e2, this]
    cases (pointers fs msubs).lookup s <;> rfl
  · push Not at hd
    obtain ⟨k, hk, hn⟩ := hd
    obtain ⟨e1, h1⟩ := (C31_rows d L).2.2 ⟨d, List.mem_cons_self, k, hk, hn⟩
    obtain ⟨e2, h2⟩ := (C31_rows d []).2.2 ⟨d, List.mem_cons_self, k, hk, hn⟩
    unfold param
    rw [h1, h2]
    cases (pointers fs msubs).lookup s <;> rfl

/-- Two dictionaries, the second one in another order. -/
example : table [[("R", (1 : ℤ)), ("C", 2)], [("C", 20), ("R", 10)]] = .ok [[1, 2], [10, 20]] ∧
    param "F_S" [("R", (1 : ℤ)), ("C", 2)] [[("R", 1), ("C", 2)], [("C", 20), ("R", 10)]] "C" = some 2 ∧
    table [[("R", (1 : ℤ)), ("C", 2)], [("C", 20)]] = .error (.key "R") := by
  decide

/-! ### Text of the table -/

theorem row_toks {row : List K} (h : row ≠ []) (out : List (Tok K)) :
    ((out ++ [Tok.op]) ++ row.flatMap fun v => [Tok.num v, .comma]).dropLast =
      out ++ [Tok.op] ++ (row.flatMap fun v => [Tok.num v, .comma]).dropLast := by
  rw [List.dropLast_append_of_ne_nil]
  cases row with
  | nil => exact absurd rfl h
  | cons v row => simp

theorem read_row (acc : List (List K)) : ∀ (row cur : List K), row ≠ [] →
    ((row.flatMap fun v => [Tok.num v, .comma]).dropLast).foldlM PS.step (.num acc cur) =
      some (.sep acc (cur ++ row)) := by
  intro row
  induction row with
  | nil => intro _ h; exact absurd rfl h
  | cons v row ih =>
    intro cur _
    cases row with
    | nil => rfl
    | cons w row =>
      have e : (((v :: w :: row).flatMap fun v => [Tok.num v, Tok.comma]).dropLast) =
          Tok.num v :: Tok.comma ::
            ((w :: row).flatMap fun v => [Tok.num v, Tok.comma]).dropLast := by
        rw [List.flatMap_cons]
        show (Tok.num v :: Tok.comma :: _).dropLast = _
        rw [List.dropLast_cons_of_ne_nil (by simp), List.dropLast_cons_of_ne_nil (by simp)]
        rfl
      rw [e, List.foldlM_cons]
      show (Tok.comma :: _).foldlM PS.step (PS.sep acc (cur ++ [v])) = _
      rw [List.foldlM_cons]
      show List.foldlM PS.step (PS.num acc (cur ++ [v])) _ = _
      rw [ih (cur ++ [v]) (by simp)]
      simp

theorem foldl_prefix (rows : List (List K)) (hr : ∀ row ∈ rows, row ≠ []) : ∀ out : List (Tok K),
    ∃ t, rows.foldl (fun out row =>
      ((out ++ [Tok.op]) ++ row.flatMap fun v => [Tok.num v, .comma]).dropLast ++
        [.cl, .comma, .cl, .semi]) out = out ++ t ∧ (rows ≠ [] → ∃ t', t = .op :: t') := by
  induction rows with
  | nil => intro out; exact ⟨[], by simp, fun h => absurd rfl h⟩
  | cons row rows ih =>
    intro out
    rw [List.foldl_cons, row_toks (hr row (by simp))]
    obtain ⟨t, ht, -⟩ := ih (fun r h => hr r (by simp [h])) (out ++ [.op] ++
      (row.flatMap fun v => [Tok.num v, .comma]).dropLast ++ [.cl, .comma, .cl, .semi])
    rw [ht]
    exact ⟨.op :: ((row.flatMap fun v => [Tok.num v, .comma]).dropLast ++
      [.cl, .comma, .cl, .semi] ++ t), by simp, fun _ => ⟨_, rfl⟩⟩

/-- **C31** (text): with at least one parameter, parameters.cpp is an initializer of the table exactly
when there is one dictionary; with two or more it is not C++. -/
theorem C31_text {rows : List (List K)} (h0 : rows ≠ []) (hr : ∀ row ∈ rows, row ≠ []) :
    readTable (tableText rows) = if rows.length = 1 then some rows else none := by
  cases rows with
  | nil => exact absurd rfl h0
  | cons row rows =>
    have hrow := hr row (by simp)
    unfold tableText readTable
    rw [List.foldl_cons, row_toks hrow]
    obtain ⟨t, ht, hop⟩ := foldl_prefix rows (fun r h => hr r (by simp [h])) ([.op] ++ [.op] ++
      (row.flatMap fun v => [Tok.num v, .comma]).dropLast ++ [.cl, .comma, .cl, .semi])
    rw [ht]
    have h1 : ([.op] ++ [.op] ++ (row.flatMap fun v => [Tok.num v, .comma]).dropLast ++
        [.cl, .comma, .cl, .semi] : List (Tok K)).foldlM PS.step .start = some (.fin [row]) := by
      rw [List.foldlM_append, List.foldlM_append]
      show (((row.flatMap fun v => [Tok.num v, .comma]).dropLast).foldlM PS.step (.num [] [])).bind _
        = _
      rw [read_row [] row [] hrow]
      rfl
    rw [List.foldlM_append, h1]
    show (match t.foldlM PS.step (PS.fin [row]) with
      | some (.fin acc) => some acc
      | _ => none) = _
    cases rows with
    | nil =>
      have : t = [] := by simpa using ht.symm
      subst this
      rfl
    | cons r rows =>
      obtain ⟨t', rfl⟩ := hop (by simp)
      have : (Tok.op :: t').foldlM PS.step (PS.fin [row]) = none := rfl
      rw [this]
      simp

example : (table [[("R", (1 : ℤ)), ("C", 2)], [("C", 20), ("R", 10)]] : Except PErr _) =
      .ok [[1, 2], [10, 20]] ∧
    readTable (tableText [[(1 : ℤ), 2]]) = some [[1, 2]] ∧
    readTable (tableText [[(1 : ℤ), 2], [10, 20]]) = none := by
  refine ⟨by rfl, by decide, by decide⟩

end Cpp
end Pyphs
