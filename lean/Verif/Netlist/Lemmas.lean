/-
Lemmas on the python string functions and on literals.
-/
import Verif.Netlist.Model
import Mathlib.Tactic.Linarith

namespace Pyphs
namespace Netlist
variable {F : Type}

theorem takeWhile_append_stop {p : Char → Bool} {a b : Str} {c : Char} (ha : ∀ x ∈ a, p x = true)
    (hc : p c = false) : (a ++ c :: b).takeWhile p = a ∧ (a ++ c :: b).dropWhile p = c :: b := by
  induction a with
  | nil => simp [hc]
  | cons x a ih =>
    have h := ih (fun y hy => ha y (by simp [hy]))
    have hx := ha x (by simp)
    simp [hx, h.1, h.2]

theorem takeWhile_all {p : Char → Bool} {a : Str} (ha : ∀ x ∈ a, p x = true) :
    a.takeWhile p = a ∧ a.dropWhile p = [] := by
  induction a with
  | nil => simp
  | cons x a ih =>
    have h := ih (fun y hy => ha y (by simp [hy]))
    have hx := ha x (by simp)
    simp [hx, h.1, h.2]

theorem partition_eq {c : Char} {a b : Str} (h : c ∉ a) : partition c (a ++ c :: b) = (a, b) := by
  have := takeWhile_append_stop (p := (· ≠ c)) (a := a) (b := b) (c := c)
    (fun x hx => by simp; rintro rfl; exact h hx) (by simp)
  unfold partition
  rw [this.1, this.2]; rfl

theorem splitWsLoop_run {a : Str} (h : ∀ c ∈ a, isSpace c = false) (cur s : Str) :
    splitWsLoop cur (a ++ s) = splitWsLoop (a.reverse ++ cur) s := by
  induction a generalizing cur with
  | nil => rfl
  | cons c a ih =>
    have hc := h c (by simp)
    simp only [List.cons_append, splitWsLoop, hc]
    rw [if_neg (by simp), ih (fun x hx => h x (by simp [hx]))]
    simp

theorem splitWs_cons {a s : Str} (ha : a ≠ []) (h : ∀ c ∈ a, isSpace c = false) :
    splitWs (a ++ ' ' :: s) = a :: splitWs s := by
  unfold splitWs
  rw [splitWsLoop_run h]
  simp only [splitWsLoop]
  rw [if_pos (by decide), if_neg (by simpa using ha)]
  simp

theorem splitWsLoop_flatten (cur s : Str) (h : ∀ c ∈ cur, isSpace c = false) :
    (splitWsLoop cur s).flatten = cur.reverse ++ s.filter (fun c => !isSpace c) := by
  induction s generalizing cur with
  | nil => unfold splitWsLoop; split_ifs with h0 <;> simp [h0]
  | cons c s ih =>
    unfold splitWsLoop
    by_cases hc : isSpace c = true
    · rw [if_pos hc]
      split_ifs with h0
      · rw [ih _ (by simp)]; simp [h0, hc]
      · rw [List.flatten_cons, ih _ (by simp)]; simp [hc]
    · rw [if_neg hc, ih _ (by
        intro x hx
        rcases List.mem_cons.1 hx with rfl | hx
        · simpa using hc
        · exact h x hx)]
      simp [hc]

theorem splitWs_flatten (s : Str) : (splitWs s).flatten = s.filter (fun c => !isSpace c) := by
  rw [splitWs, splitWsLoop_flatten _ _ (by simp)]; rfl

theorem readlinesLoop_run {a : Str} (h : '\n' ∉ a) (cur s : Str) :
    readlinesLoop cur (a ++ s) = readlinesLoop (a.reverse ++ cur) s := by
  induction a generalizing cur with
  | nil => rfl
  | cons c a ih =>
    have hc : c ≠ '\n' := by rintro rfl; simp at h
    simp only [List.cons_append, readlinesLoop, hc, if_false]
    rw [ih (by simp at h; exact h.2)]
    simp

theorem readlines_line {a : Str} (h : '\n' ∉ a) (s : Str) :
    readlines (a ++ '\n' :: s) = (a ++ ['\n']) :: readlines s := by
  unfold readlines
  rw [readlinesLoop_run h]
  simp [readlinesLoop]

theorem readlines_last {a : Str} (h : '\n' ∉ a) (h0 : a ≠ []) : readlines a = [a] := by
  unfold readlines
  have := readlinesLoop_run h [] []
  rw [List.append_nil] at this
  rw [this]
  simp [readlinesLoop, h0]

/-- Elements joined by single commas. -/
def joinC : List Str → Str
  | [] => []
  | [a] => a
  | a :: l => a ++ [','] ++ joinC l

theorem splitOn_head {c : Char} {a : Str} (h : c ∉ a) : splitOn c a = [a] := by
  induction a with
  | nil => rfl
  | cons x a ih =>
    have hx : x ≠ c := by rintro rfl; simp at h
    simp only [splitOn, hx, if_false]
    rw [ih (by simp at h; exact h.2)]

theorem splitOn_ne_nil (c : Char) (s : Str) : splitOn c s ≠ [] := by
  cases s with
  | nil => simp [splitOn]
  | cons a s =>
    unfold splitOn
    split_ifs
    · simp
    · split <;> simp

theorem splitOn_cons {c : Char} {a s : Str} (h : c ∉ a) :
    splitOn c (a ++ c :: s) = a :: splitOn c s := by
  induction a with
  | nil => simp [splitOn]
  | cons x a ih =>
    have hx : x ≠ c := by rintro rfl; simp at h
    simp only [List.cons_append, splitOn, hx, if_false]
    rw [ih (by simp at h; exact h.2)]

theorem splitOn_joinC {l : List Str} (h0 : l ≠ []) (h : ∀ a ∈ l, ',' ∉ a) :
    splitOn ',' (joinC l) = l := by
  induction l with
  | nil => exact absurd rfl h0
  | cons a l ih =>
    cases l with
    | nil => exact splitOn_head (h a (by simp))
    | cons b l =>
      show splitOn ',' (a ++ [','] ++ joinC (b :: l)) = _
      rw [List.append_assoc, List.cons_append, List.nil_append, splitOn_cons (h a (by simp)),
        ih (by simp) (fun x hx => h x (by simp [hx]))]

/-! ### Literals -/

/-- What is used of python's numbers: printing then reading gives the number; the text is made
of digits, signs, point and exponent letter, and begins with a digit or a minus sign. -/
structure FmtOK (fmt : NumFmt F) : Prop where
  read_show : ∀ f, fmt.read (fmt.show_ f) = some f
  chars : ∀ f, ∀ c ∈ fmt.show_ f, c.isDigit ∨ c = '-' ∨ c = '+' ∨ c = '.' ∨ c = 'e'
  head : ∀ f, ∃ c s, fmt.show_ f = c :: s ∧ (c.isDigit ∨ c = '-')

/-- A string printed by `repr` without escape sequence. -/
def Quotable (s : Str) : Prop := '\\' ∉ s ∧ ('\'' ∉ s ∨ '"' ∉ s)

/-- A string or a number that can be printed without escape sequence. -/
def Elem.Quot : Elem F → Prop
  | .str s => Quotable s
  | .num _ => True

theorem digit_not {c d : Char} (h : c.isDigit ∨ c = '-' ∨ c = '+' ∨ c = '.' ∨ c = 'e')
    (hd : d.isDigit = false ∧ d ≠ '-' ∧ d ≠ '+' ∧ d ≠ '.' ∧ d ≠ 'e') : c ≠ d := by
  rintro rfl
  rcases h with h | h | h | h | h
  · rw [hd.1] at h; simp at h
  · exact hd.2.1 h
  · exact hd.2.2.1 h
  · exact hd.2.2.2.1 h
  · exact hd.2.2.2.2 h

theorem show_not_mem {fmt : NumFmt F} (h : FmtOK fmt) (f : F) {d : Char}
    (hd : d.isDigit = false ∧ d ≠ '-' ∧ d ≠ '+' ∧ d ≠ '.' ∧ d ≠ 'e') : d ∉ fmt.show_ f :=
  fun hm => digit_not (h.chars f d hm) hd rfl

theorem parseElem_str (fmt : NumFmt F) {s : Str} (h : Quotable s) (rest : Str) :
    parseElem fmt (reprStr s ++ rest) = .ok (.str s, rest) := by
  obtain ⟨h1, h2⟩ := h
  unfold reprStr
  split_ifs with h3
  · have := takeWhile_append_stop (p := (· ≠ '"')) (a := s) (b := rest) (c := '"')
      (fun x hx => by simp; rintro rfl; exact h3.2 hx) (by simp)
    simp only [List.append_assoc, List.cons_append, List.nil_append, parseElem]
    rw [if_pos (by simp), this.1, this.2, if_neg h1]
  · have h4 : '\'' ∉ s := by
      rcases h2 with h2 | h2
      · exact h2
      · intro h5; exact h3 ⟨h5, h2⟩
    have := takeWhile_append_stop (p := (· ≠ '\'')) (a := s) (b := rest) (c := '\'')
      (fun x hx => by simp; rintro rfl; exact h4 hx) (by simp)
    simp only [List.append_assoc, List.cons_append, List.nil_append, parseElem]
    rw [if_pos (by simp), this.1, this.2, if_neg h1]

theorem parseElem_num {fmt : NumFmt F} (h : FmtOK fmt) (f : F) (rest : Str)
    (hr : rest = [] ∨ ∃ c t, rest = c :: t ∧ (c = ',' ∨ c = ')')) :
    parseElem fmt (fmt.show_ f ++ rest) = .ok (.num f, rest) := by
  obtain ⟨c, s, hs, hc⟩ := h.head f
  have hc' : c.isDigit ∨ c = '-' ∨ c = '+' ∨ c = '.' ∨ c = 'e' := by tauto
  have hall : ∀ x ∈ fmt.show_ f, (decide (x ≠ ',' ∧ x ≠ ')')) = true := fun x hx => by
    have := h.chars f x hx
    simpa using ⟨digit_not this (by decide), digit_not this (by decide)⟩
  have hq : ¬ (c = '\'' ∨ c = '"') := by
    rintro (h5 | h5)
    · exact digit_not hc' (by decide) h5
    · exact digit_not hc' (by decide) h5
  have htw : (fmt.show_ f ++ rest).takeWhile (fun a => decide (a ≠ ',' ∧ a ≠ ')')) = fmt.show_ f ∧
      (fmt.show_ f ++ rest).dropWhile (fun a => decide (a ≠ ',' ∧ a ≠ ')')) = rest := by
    rcases hr with rfl | ⟨d, t, rfl, hd⟩
    · rw [List.append_nil]; exact takeWhile_all hall
    · exact takeWhile_append_stop hall (by rcases hd with rfl | rfl <;> simp)
  have e : fmt.show_ f ++ rest = c :: (s ++ rest) := by rw [hs]; rfl
  rw [e] at htw ⊢
  simp only [parseElem]
  rw [if_neg hq, htw.1, htw.2, h.read_show]

theorem parseElem_repr {fmt : NumFmt F} (h : FmtOK fmt) {e : Elem F} (he : e.Quot) (rest : Str)
    (hr : rest = [] ∨ ∃ c t, rest = c :: t ∧ (c = ',' ∨ c = ')')) :
    parseElem fmt (e.repr fmt ++ rest) = .ok (e, rest) := by
  cases e with
  | str s => exact parseElem_str fmt he rest
  | num f => exact parseElem_num h f rest hr

theorem evalElem_repr {fmt : NumFmt F} (h : FmtOK fmt) {e : Elem F} (he : e.Quot) :
    evalElem fmt (e.repr fmt) = .ok e := by
  have := parseElem_repr h he [] (Or.inl rfl)
  rw [List.append_nil] at this
  unfold evalElem
  rw [this]

theorem repr_ne_nil {fmt : NumFmt F} (h : FmtOK fmt) (e : Elem F) : e.repr fmt ≠ [] := by
  cases e with
  | str s => show reprStr s ≠ []; unfold reprStr; split_ifs <;> simp
  | num f => obtain ⟨c, s, hs, _⟩ := h.head f; simp [Elem.repr, hs]

theorem repr_not_mem {fmt : NumFmt F} (h : FmtOK fmt) (e : Elem F) {d : Char}
    (hs : ∀ s, e = .str s → d ∉ s) (hq : d ≠ '\'' ∧ d ≠ '"')
    (hd : d.isDigit = false ∧ d ≠ '-' ∧ d ≠ '+' ∧ d ≠ '.' ∧ d ≠ 'e') : d ∉ e.repr fmt := by
  cases e with
  | str s =>
    show d ∉ reprStr s
    unfold reprStr
    split_ifs <;> simp [hs s rfl, hq.1, hq.2]
  | num f => exact show_not_mem h f hd

/-- Two elements or more. -/
theorem parseElems_eq {fmt : NumFmt F} (h : FmtOK fmt) (l : List (Elem F)) (h2 : l ≠ [])
    (hl : ∀ e ∈ l, e.Quot) (n : ℕ) (hn : l.length ≤ n) :
    ∃ b, parseElems fmt n (joinC (l.map (Elem.repr fmt)) ++ [')']) = .ok (l, b, []) ∧
      (2 ≤ l.length → b = true) := by
  induction l generalizing n with
  | nil => exact absurd rfl h2
  | cons e l ih =>
    obtain ⟨m, rfl⟩ : ∃ m, n = m + 1 := ⟨n - 1, by simp at hn; omega⟩
    cases l with
    | nil =>
      refine ⟨false, ?_, by simp⟩
      simp only [List.map_cons, List.map_nil, joinC, parseElems]
      rw [parseElem_repr h (hl e (by simp)) _ (Or.inr ⟨_, _, rfl, Or.inr rfl⟩)]
      rfl
    | cons e' l =>
      obtain ⟨b, hb, _⟩ := ih (by simp) (fun x hx => hl x (by simp [hx])) m (by
        simp only [List.length_cons] at hn ⊢; omega)
      refine ⟨true, ?_, fun _ => rfl⟩
      set R := joinC ((e' :: l).map (Elem.repr fmt)) ++ [')'] with hR
      have e1 : joinC ((e :: e' :: l).map (Elem.repr fmt)) ++ [')'] = e.repr fmt ++ ',' :: R := by
        simp [joinC, hR]
      rw [e1]
      simp only [parseElems]
      rw [parseElem_repr h (hl e (by simp)) _ (Or.inr ⟨_, _, rfl, Or.inl rfl⟩)]
      have hne : R ≠ [')'] := by
        intro h0
        have : joinC ((e' :: l).map (Elem.repr fmt)) = [] := by
          have := congrArg List.length h0
          rw [hR] at this
          simp only [List.length_append, List.length_cons, List.length_nil] at this
          exact List.length_eq_zero_iff.1 (by omega)
        have h3 := repr_ne_nil h e'
        cases l with
        | nil => exact h3 (by simpa [joinC] using this)
        | cons e'' l => simp [joinC] at this
      show (match (',' :: R : Str) with
        | ')' :: rest => (Except.ok ([e], false, rest) : Except Err (List (Elem F) × Bool × Str))
        | [',', ')'] => .ok ([e], true, [])
        | ',' :: rest => do
          let (l, _, rest) ← parseElems fmt m rest
          return (e :: l, true, rest)
        | _ => .error .unmodelled) = _
      split
      · rename_i h9; simp at h9
      · rename_i h9; simp at h9; exact absurd h9 hne
      · rename_i h9 h8
        simp only [List.cons.injEq, true_and] at h8
        subst h8
        rw [hb]; rfl
      · rename_i h9; exact absurd rfl (h9 R)

theorem parseElems_single {fmt : NumFmt F} (h : FmtOK fmt) {e : Elem F} (he : e.Quot) (n : ℕ)
    (hn : 1 ≤ n) : parseElems fmt n (e.repr fmt ++ [',', ')']) = .ok ([e], true, []) := by
  obtain ⟨m, rfl⟩ : ∃ m, n = m + 1 := ⟨n - 1, by omega⟩
  simp only [parseElems]
  rw [parseElem_repr h he _ (Or.inr ⟨_, _, rfl, Or.inl rfl⟩)]
  rfl

theorem filter_eq_self {a : Str} {p : Char → Bool} (h : ∀ c ∈ a, p c = true) : a.filter p = a :=
  List.filter_eq_self.2 h

theorem filter_joinComma (p : Char → Bool) (hp : p ' ' = false) (hc : p ',' = true) (l : List Str)
    (h : ∀ a ∈ l, ∀ c ∈ a, p c = true) : (joinComma l).filter p = joinC l := by
  induction l with
  | nil => rfl
  | cons a l ih =>
    cases l with
    | nil => exact filter_eq_self (h a (by simp))
    | cons b l =>
      show (a ++ [',', ' '] ++ joinComma (b :: l)).filter p = a ++ [','] ++ joinC (b :: l)
      rw [List.filter_append, List.filter_append, ih (fun x hx => h x (by simp [hx])),
        filter_eq_self (h a (by simp))]
      simp [hp, hc]

/-- Text of a tuple without the blanks. -/
def tupleText (fmt : NumFmt F) : List (Elem F) → Str
  | [a] => '(' :: (a.repr fmt ++ [',', ')'])
  | l => '(' :: (joinC (l.map (Elem.repr fmt)) ++ [')'])

theorem filter_tuple (fmt : NumFmt F) (p : Char → Bool) (hp : p ' ' = false) (hc : p ',' = true)
    (h1 : p '(' = true) (h2 : p ')' = true) (l : List (Elem F))
    (h : ∀ e ∈ l, ∀ c ∈ e.repr fmt, p c = true) :
    ((Lit.tuple l).str fmt).filter p = tupleText fmt l := by
  match l with
  | [] => simp [Lit.str, tupleText, joinComma, joinC, h1, h2]
  | [a] =>
    simp only [Lit.str, tupleText, List.filter_append, filter_eq_self (h a (by simp))]
    simp [h1, h2, hc]
  | a :: b :: l =>
    simp only [Lit.str, tupleText, List.filter_append]
    rw [filter_joinComma p hp hc _ (by
      intro x hx
      obtain ⟨e, he, rfl⟩ := List.mem_map.1 hx
      exact h e he)]
    simp [h1, h2]

theorem length_joinC (l : List Str) (h : ∀ a ∈ l, a ≠ []) : l.length ≤ (joinC l).length + 1 := by
  induction l with
  | nil => simp
  | cons a l ih =>
    cases l with
    | nil => simp
    | cons b l =>
      have := ih (fun x hx => h x (by simp [hx]))
      simp only [joinC, List.length_append, List.length_cons, List.length_nil] at this ⊢
      omega

/-- Reading the text of a tuple gives the tuple. -/
theorem literalEval_tuple {fmt : NumFmt F} (h : FmtOK fmt) (l : List (Elem F))
    (hl : ∀ e ∈ l, e.Quot) : literalEval fmt (tupleText fmt l) = .ok (.tuple l) := by
  match l with
  | [] => simp [tupleText, joinC, literalEval]
  | [a] =>
    have h1 := parseElems_single h (hl a (by simp)) ((a.repr fmt ++ [',', ')']).length + 1) (by simp)
    simp only [tupleText, literalEval]
    rw [if_neg, h1]
    intro h0
    have := congrArg List.length h0
    simp at this
  | a :: b :: l =>
    have hlen := length_joinC ((a :: b :: l).map (Elem.repr fmt)) (by
      intro x hx
      obtain ⟨e, _, rfl⟩ := List.mem_map.1 hx
      exact repr_ne_nil h e)
    obtain ⟨c, h1, h2⟩ := parseElems_eq h (a :: b :: l) (by simp) hl
      ((joinC ((a :: b :: l).map (Elem.repr fmt)) ++ [')']).length + 1) (by
        simp only [List.length_map, List.length_append, List.length_cons, List.length_nil] at hlen ⊢
        omega)
    simp only [tupleText, literalEval]
    rw [if_neg, h1]
    intro h0
    have := congrArg List.length h0
    simp [joinC] at this
    omega

end Netlist
end Pyphs
