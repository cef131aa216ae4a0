/-
Property C46: writing a netlist and reading it back.
-/
import Verif.Netlist.Lemmas

namespace Pyphs
namespace Netlist
variable {F : Type}

/-! ### Admissible netlists (specification) -/

/-- No character of the text is in a given set. -/
def Free (bad : Char → Prop) (s : Str) : Prop := ∀ c ∈ s, ¬ bad c

/-- Characters that may not occur in the first three fields and in the names of nodes. -/
def BadInfo (c : Char) : Prop := isSpace c = true ∨ c = ':'

/-- Characters that may not occur in names and values of parameters. -/
def BadPar (c : Char) : Prop := c = ' ' ∨ c = '=' ∨ c = ';' ∨ c = '\n' ∨ c = '\r'

/-- An identifier that is not a python keyword or constant. -/
structure Ident (s : Str) : Prop where
  chars : ∀ c ∈ s, isIdChar c = true
  head : ∃ c t, s = c :: t ∧ c.isDigit = false
  const : s ≠ "None".toList ∧ s ≠ "True".toList ∧ s ≠ "False".toList
  keyword : s ∉ keywords

/-- Admissible value of a parameter: a number, an identifier, a tuple of two or more labels and
numbers, or a constant. -/
def ValOK : Lit F → Prop
  | .elem (.num _) => True
  | .elem (.str s) => Ident s
  | .tuple l => 2 ≤ l.length ∧ ∀ e ∈ l, e.Quot ∧ ∀ s, e = .str s → Free BadPar s ∧ ',' ∉ s
  | .none => True
  | .bool _ => True

/-- Admissible line. -/
structure RowOK (r : Row F) : Prop where
  dict : Free BadInfo r.dict ∧ '.' ∉ r.dict ∧ r.dict.head? ≠ some '#'
  comp : Free BadInfo r.comp
  label : Free BadInfo r.label ∧ r.label ≠ []
  nodes : ∃ l, r.nodes = .tuple l ∧ ∀ e ∈ l, e.Quot ∧ ∀ s, e = .str s → Free BadInfo s
  keys : (r.args.map (·.1)).Nodup
  key : ∀ p ∈ r.args, Free BadPar p.1
  val : ∀ p ∈ r.args, ValOK p.2

/-! ### Lemmas -/

theorem isSpace_space : isSpace ' ' = true := by decide
theorem isSpace_newline : isSpace '\n' = true := by decide

theorem repr_bad {fmt : NumFmt F} (h : FmtOK fmt) (e : Elem F) {bad : Char → Prop}
    (hs : ∀ s, e = .str s → Free bad s)
    (hb : ∀ d, bad d → d ≠ '\'' ∧ d ≠ '"' ∧
      (d.isDigit = false ∧ d ≠ '-' ∧ d ≠ '+' ∧ d ≠ '.' ∧ d ≠ 'e')) :
    Free bad (e.repr fmt) := fun c hc hbc =>
  repr_not_mem h e (fun s hs' hm => hs s hs' c hm hbc) ⟨(hb c hbc).1, (hb c hbc).2.1⟩ (hb c hbc).2.2
    hc

theorem badInfo_hb (d : Char) (h : BadInfo d) : d ≠ '\'' ∧ d ≠ '"' ∧
    (d.isDigit = false ∧ d ≠ '-' ∧ d ≠ '+' ∧ d ≠ '.' ∧ d ≠ 'e') := by
  rcases h with h | rfl
  · refine ⟨?_, ?_, ?_, ?_, ?_, ?_, ?_⟩
    · rintro rfl; revert h; decide
    · rintro rfl; revert h; decide
    · by_contra h1
      have h2 : d.isDigit = true := by simpa using h1
      have h3 : 48 ≤ d.toNat ∧ d.toNat ≤ 57 := by
        unfold Char.isDigit at h2
        simp only [ge_iff_le, Bool.and_eq_true, decide_eq_true_eq] at h2
        exact ⟨h2.1, h2.2⟩
      unfold isSpace at h
      simp only [Bool.or_eq_true, decide_eq_true_eq, Bool.and_eq_true] at h
      rcases h with (h | h) | h
      · subst h; revert h3; decide
      · omega
      · omega
    all_goals rintro rfl; revert h; decide
  · decide

theorem badPar_hb (d : Char) (h : BadPar d) : d ≠ '\'' ∧ d ≠ '"' ∧
    (d.isDigit = false ∧ d ≠ '-' ∧ d ≠ '+' ∧ d ≠ '.' ∧ d ≠ 'e') := by
  rcases h with rfl | rfl | rfl | rfl | rfl <;> decide

/-! #### Parameters -/

/-- Text of a value after the spaces have been removed. -/
def valText (fmt : NumFmt F) : Lit F → Str
  | .tuple l => tupleText fmt l
  | v => v.str fmt

theorem filter_val {fmt : NumFmt F} (h : FmtOK fmt) {v : Lit F} (hv : ValOK v) :
    (v.str fmt).filter (· ≠ ' ') = valText fmt v := by
  cases v with
  | elem e =>
    refine filter_eq_self fun c hc => ?_
    cases e with
    | num f => simpa using digit_not (h.chars f c hc) (by decide)
    | str s =>
      have : isIdChar c = true := hv.chars c hc
      simp only [ne_eq, decide_not, Bool.not_eq_eq_eq_not, Bool.not_true, decide_eq_false_iff_not]
      rintro rfl
      revert this; decide
  | tuple l =>
    refine filter_tuple fmt _ (by simp) (by simp) (by simp) (by simp) l fun e he c hc => ?_
    have := repr_bad h e (fun s hs => ((hv.2 e he).2 s hs).1) badPar_hb c hc
    simp only [ne_eq, decide_not, Bool.not_eq_eq_eq_not, Bool.not_true, decide_eq_false_iff_not]
    rintro rfl
    exact this (Or.inl rfl)
  | none => rfl
  | bool b => cases b <;> rfl

theorem joinComma_mem {c : Char} {l : List Str} (h : c ∈ joinComma l) :
    c = ',' ∨ c = ' ' ∨ ∃ a ∈ l, c ∈ a := by
  induction l with
  | nil => simp [joinComma] at h
  | cons a l ih =>
    cases l with
    | nil => exact Or.inr (Or.inr ⟨a, by simp, h⟩)
    | cons b l =>
      simp only [joinComma, List.mem_append, List.mem_cons, List.not_mem_nil, or_false] at h
      rcases h with (h | h | h) | h
      · exact Or.inr (Or.inr ⟨a, by simp, h⟩)
      · exact Or.inl h
      · exact Or.inr (Or.inl h)
      · rcases ih h with h | h | ⟨x, hx, h⟩
        · exact Or.inl h
        · exact Or.inr (Or.inl h)
        · exact Or.inr (Or.inr ⟨x, by simp [hx], h⟩)

theorem tuple_str_mem {fmt : NumFmt F} {l : List (Elem F)} {c : Char}
    (h : c ∈ (Lit.tuple l).str fmt) :
    c = '(' ∨ c = ')' ∨ c = ',' ∨ c = ' ' ∨ ∃ e ∈ l, c ∈ e.repr fmt := by
  match l with
  | [] => simp [Lit.str, joinComma] at h; tauto
  | [a] => simp [Lit.str] at h; simp; tauto
  | a :: b :: l =>
    simp only [Lit.str, List.mem_append, List.mem_singleton] at h
    rcases h with (h | h) | h
    · exact Or.inl h
    · rcases joinComma_mem h with h | h | ⟨x, hx, h⟩
      · tauto
      · tauto
      · obtain ⟨e, he, rfl⟩ := List.mem_map.1 hx
        exact Or.inr (Or.inr (Or.inr (Or.inr ⟨e, he, h⟩)))
    · exact Or.inr (Or.inl h)

theorem idChar_not {c d : Char} (h : isIdChar c = true) (hd : isIdChar d = false) : c ≠ d := by
  rintro rfl; rw [hd] at h; simp at h

/-- Separators do not occur in the text of a value. -/
theorem val_not_mem {fmt : NumFmt F} (h : FmtOK fmt) {v : Lit F} (hv : ValOK v) {d : Char}
    (hd : BadPar d) (hd' : d ≠ ' ') : d ∉ v.str fmt := by
  intro hm
  have hid : isIdChar d = false := by rcases hd with rfl | rfl | rfl | rfl | rfl <;> decide
  cases v with
  | elem e =>
    cases e with
    | num f => exact show_not_mem h f (badPar_hb d hd).2.2 hm
    | str s => exact idChar_not (hv.chars d hm) hid rfl
  | tuple l =>
    rcases tuple_str_mem hm with rfl | rfl | rfl | rfl | ⟨e, he, h1⟩
    · revert hd; unfold BadPar; decide
    · revert hd; unfold BadPar; decide
    · revert hd; unfold BadPar; decide
    · exact hd' rfl
    · exact repr_bad h e (fun s hs => ((hv.2 e he).2 s hs).1) badPar_hb d h1 hd
  | none => simp only [Lit.str, List.mem_cons, List.not_mem_nil, or_false] at hm
            rcases hm with rfl | rfl | rfl | rfl <;> revert hid <;> decide
  | bool b =>
    cases b
    · simp only [Lit.str, List.mem_cons, List.not_mem_nil, or_false] at hm
      rcases hm with rfl | rfl | rfl | rfl | rfl <;> revert hid <;> decide
    · simp only [Lit.str, List.mem_cons, List.not_mem_nil, or_false] at hm
      rcases hm with rfl | rfl | rfl | rfl <;> revert hid <;> decide

theorem mapM_evalElem {fmt : NumFmt F} (h : FmtOK fmt) (l : List (Elem F)) (hl : ∀ e ∈ l, e.Quot) :
    (l.map (Elem.repr fmt)).mapM (evalElem fmt) = .ok l := by
  induction l with
  | nil => rfl
  | cons e l ih =>
    rw [List.map_cons, List.mapM_cons, evalElem_repr h (hl e (by simp)),
      ih fun x hx => hl x (by simp [hx])]
    rfl

theorem readValue_eq {fmt : NumFmt F} (h : FmtOK fmt) {v : Lit F} (hv : ValOK v) :
    readValue fmt (valText fmt v) = .ok v := by
  cases v with
  | elem e =>
    cases e with
    | num f =>
      show readValue fmt (fmt.show_ f) = _
      obtain ⟨c, s, hs, hc⟩ := h.head f
      have hc' : c.isDigit ∨ c = '-' ∨ c = '+' ∨ c = '.' ∨ c = 'e' := by tauto
      have h1 : c ≠ '(' := digit_not hc' (by decide)
      have h2 : c ≠ '\'' := digit_not hc' (by decide)
      have h3 : c ≠ '"' := digit_not hc' (by decide)
      have hr := h.read_show f
      rw [hs] at hr
      have hl : literalEval fmt (c :: s) = .ok (.elem (.num f)) := by
        unfold literalEval
        split
        · rename_i h0; simp at h0
        · rename_i h0; simp at h0; exact absurd h0.1 h1
        · rename_i c' s' _ h0
          simp only [List.cons.injEq] at h0
          obtain ⟨rfl, rfl⟩ := h0
          rw [if_neg (by tauto), if_pos (by tauto), hr]
      rw [hs]
      unfold readValue
      split
      · rename_i h0; simp at h0; exact absurd h0.1 h1
      · rw [hl]
    | str s =>
      show readValue fmt s = _
      obtain ⟨hch, ⟨c, t, rfl, hd⟩, hco, hk⟩ := (show Ident s from hv)
      have hc := hch c (by simp)
      have h1 : c ≠ '(' := idChar_not hc (by decide)
      have hl : literalEval fmt (c :: t) = .error .valueError := by
        unfold literalEval
        split
        · rename_i h0; simp at h0
        · rename_i h0; simp at h0; exact absurd h0.1 h1
        · rename_i c' s' _ h0
          simp only [List.cons.injEq] at h0
          obtain ⟨rfl, rfl⟩ := h0
          rw [if_neg (by
              rintro (h0 | h0)
              · exact idChar_not hc (by decide) h0
              · exact idChar_not hc (by decide) h0),
            if_neg (by
              rintro (h0 | h0 | h0 | h0)
              · rw [hd] at h0; simp at h0
              · exact idChar_not hc (by decide) h0
              · exact idChar_not hc (by decide) h0
              · exact idChar_not hc (by decide) h0),
            if_pos (List.all_eq_true.2 hch), if_neg (show _ ≠ ['N', 'o', 'n', 'e'] from hco.1),
            if_neg (show _ ≠ ['T', 'r', 'u', 'e'] from hco.2.1),
            if_neg (show _ ≠ ['F', 'a', 'l', 's', 'e'] from hco.2.2), if_neg hk]
      unfold readValue
      split
      · rename_i h0; simp at h0; exact absurd h0.1 h1
      · rw [hl]
  | tuple l =>
    obtain ⟨h2, hl⟩ := hv
    match l, h2 with
    | a :: b :: l, _ =>
      show readValue fmt ('(' :: (joinC ((a :: b :: l).map (Elem.repr fmt)) ++ [')'])) = _
      simp only [readValue, List.dropLast_concat]
      rw [splitOn_joinC (by simp) (by
        intro x hx
        obtain ⟨e, he, rfl⟩ := List.mem_map.1 hx
        exact repr_not_mem h e (fun s hs => ((hl e he).2 s hs).2) (by decide) (by decide)),
        mapM_evalElem h _ (fun e he => (hl e he).1)]
      rfl
  | none => simp [valText, Lit.str, readValue, literalEval, isIdChar]
  | bool b => cases b <;> simp [valText, Lit.str, readValue, literalEval, isIdChar]

theorem setArg_new {d : List (Str × Lit F)} {k : Str} (v : Lit F) (h : k ∉ d.map (·.1)) :
    setArg d k v = d ++ [(k, v)] := if_neg h

theorem readArgs_eq {fmt : NumFmt F} (h : FmtOK fmt) (l : List (Str × Lit F)) (rest : Str)
    (d : List (Str × Lit F)) (hn : ((d ++ l).map (·.1)).Nodup)
    (hk : ∀ p ∈ l, Free BadPar p.1) (hv : ∀ p ∈ l, ValOK p.2) :
    readArgs fmt l.length (printArgs fmt l ++ rest) d = .ok (d ++ l) := by
  induction l generalizing d with
  | nil => simp [readArgs]
  | cons p l ih =>
    have hk1 := hk p (by simp)
    have hv1 := hv p (by simp)
    have e : printArgs fmt (p :: l) ++ rest =
        ([' '] ++ p.1 ++ ['='] ++ p.2.str fmt) ++ ';' :: (printArgs fmt l ++ rest) := by
      simp [printArgs]
    have h1 : ';' ∉ [' '] ++ p.1 ++ ['='] ++ p.2.str fmt := by
      simp only [List.mem_append, List.mem_singleton, not_or]
      refine ⟨⟨⟨by decide, fun hm => hk1 _ hm (by unfold BadPar; tauto)⟩, by decide⟩, ?_⟩
      exact val_not_mem h hv1 (by unfold BadPar; tauto) (by decide)
    have h2 : ([' '] ++ p.1 ++ ['='] ++ p.2.str fmt).filter (· ≠ ' ') =
        p.1 ++ '=' :: valText fmt p.2 := by
      rw [List.filter_append, List.filter_append, List.filter_append, filter_val h hv1,
        filter_eq_self (a := p.1) (fun c hc => by
          simp only [ne_eq, decide_not, Bool.not_eq_eq_eq_not, Bool.not_true,
            decide_eq_false_iff_not]
          rintro rfl
          exact hk1 _ hc (Or.inl rfl))]
      simp
    have h3 : '=' ∉ p.1 := fun hm => hk1 _ hm (by unfold BadPar; tauto)
    rw [e, List.length_cons]
    simp only [readArgs]
    rw [partition_eq h1]
    dsimp only
    rw [h2, partition_eq h3]
    dsimp only
    rw [readValue_eq h hv1]
    have h4 : p.1 ∉ d.map (·.1) := by
      rw [List.map_append, List.map_cons] at hn
      have := (List.nodup_append.1 hn).2.2
      intro hm
      exact this _ hm p.1 (by simp) rfl
    show readArgs fmt l.length (printArgs fmt l ++ rest) (setArg d p.1 p.2) = _
    rw [setArg_new _ h4, ih _ (by simpa using hn) (fun q hq => hk q (by simp [hq]))
      (fun q hq => hv q (by simp [hq]))]
    simp

theorem count_append_eq (s : Str) : List.count '=' ('=' :: s) = List.count '=' s + 1 := by simp

theorem count_args {fmt : NumFmt F} (h : FmtOK fmt) (l : List (Str × Lit F))
    (hk : ∀ p ∈ l, Free BadPar p.1) (hv : ∀ p ∈ l, ValOK p.2) :
    (printArgs fmt l).count '=' = l.length := by
  induction l with
  | nil => rfl
  | cons p l ih =>
    have h1 : List.count '=' p.1 = 0 :=
      List.count_eq_zero.2 fun hm => hk p (by simp) _ hm (by unfold BadPar; tauto)
    have h2 : List.count '=' (p.2.str fmt) = 0 :=
      List.count_eq_zero.2 (val_not_mem h (hv p (by simp)) (by unfold BadPar; tauto) (by decide))
    simp only [printArgs, List.count_append, h1, h2,
      ih (fun q hq => hk q (by simp [hq])) fun q hq => hv q (by simp [hq]), List.length_cons]
    simp
    omega

/-! #### Lines -/

/-- A line without its end of line character. -/
def lineText (fmt : NumFmt F) (r : Row F) : Str :=
  (r.dict ++ ['.'] ++ r.comp ++ [' '] ++ r.label ++ [' '] ++ r.nodes.str fmt) ++ ':' ::
    printArgs fmt r.args

theorem printLine_eq (fmt : NumFmt F) (r : Row F) : printLine fmt r = lineText fmt r ++ ['\n'] := by
  simp [printLine, lineText]

theorem nodes_colon {fmt : NumFmt F} (h : FmtOK fmt) {l : List (Elem F)}
    (hl : ∀ e ∈ l, e.Quot ∧ ∀ s, e = .str s → Free BadInfo s) : ':' ∉ (Lit.tuple l).str fmt := by
  intro hm
  rcases tuple_str_mem hm with h1 | h1 | h1 | h1 | ⟨e, he, h1⟩
  · revert h1; decide
  · revert h1; decide
  · revert h1; decide
  · revert h1; decide
  · exact repr_bad h e (hl e he).2 badInfo_hb ':' h1 (Or.inr rfl)

theorem readLine_eq {fmt : NumFmt F} (h : FmtOK fmt) {r : Row F} (hr : RowOK r) (tail : Str)
    (ht : tail = [] ∨ tail = ['\n']) : readLine fmt (lineText fmt r ++ tail) = .ok (some r) := by
  obtain ⟨l, hl, hln⟩ := hr.nodes
  have hd := hr.dict
  set infos := r.dict ++ ['.'] ++ r.comp ++ [' '] ++ r.label ++ [' '] ++ r.nodes.str fmt with hi
  have e : lineText fmt r ++ tail = infos ++ ':' :: (printArgs fmt r.args ++ tail) := by
    simp [lineText, hi]
  have hcol : ':' ∉ infos := by
    rw [hi, hl]
    simp only [List.mem_append, List.mem_singleton, not_or]
    exact ⟨⟨⟨⟨⟨⟨fun hm => hd.1 _ hm (Or.inr rfl), by decide⟩, fun hm => hr.comp _ hm (Or.inr rfl)⟩,
      by decide⟩, fun hm => hr.label.1 _ hm (Or.inr rfl)⟩, by decide⟩, nodes_colon h hln⟩
  have hhead : (infos ++ ':' :: (printArgs fmt r.args ++ tail)).head? ≠ some '#' := by
    rw [hi]
    cases hdc : r.dict with
    | nil => simp
    | cons c s => have := hd.2.2; rw [hdc] at this; simpa using this
  have hlen : (infos ++ ':' :: (printArgs fmt r.args ++ tail)).length ≠ 1 := by
    simp [hi]; omega
  have hsp : splitWs infos = (r.dict ++ ['.'] ++ r.comp) :: r.label :: splitWs (r.nodes.str fmt) := by
    have e1 : infos = (r.dict ++ ['.'] ++ r.comp) ++ ' ' :: (r.label ++ ' ' :: r.nodes.str fmt) := by
      simp [hi]
    rw [e1, splitWs_cons (by simp) (by
      intro c hc
      simp only [List.mem_append, List.mem_singleton] at hc
      by_contra h0
      have h0 : isSpace c = true := by simpa using h0
      rcases hc with (hc | rfl) | hc
      · exact hd.1 _ hc (Or.inl h0)
      · revert h0; decide
      · exact hr.comp _ hc (Or.inl h0)),
      splitWs_cons hr.label.2 (by
        intro c hc
        by_contra h0
        exact hr.label.1 _ hc (Or.inl (by simpa using h0)))]
  have hno : (splitWs (r.nodes.str fmt)).flatten = tupleText fmt l := by
    rw [splitWs_flatten, hl]
    refine filter_tuple fmt _ (by decide) (by decide) (by decide) (by decide) l fun e he c hc => ?_
    by_contra h0
    exact repr_bad h e (hln e he).2 badInfo_hb c hc (Or.inl (by simpa using h0))
  rw [e]
  unfold readLine
  rw [if_neg hhead, if_neg hlen, partition_eq hcol]
  dsimp only
  rw [hsp]
  dsimp only
  rw [hno, literalEval_tuple h l fun e he => (hln e he).1]
  have hp : partition '.' (r.dict ++ ['.'] ++ r.comp) = (r.dict, r.comp) := by
    rw [List.append_assoc]; exact partition_eq hd.2.1
  have hcnt : (printArgs fmt r.args ++ tail).count '=' = r.args.length := by
    rw [List.count_append, count_args h _ hr.key hr.val]
    rcases ht with rfl | rfl <;> simp
  rw [hp, hcnt]
  have := readArgs_eq h r.args tail [] (by simpa using hr.keys) hr.key hr.val
  rw [List.nil_append] at this
  show (do
    let args ← readArgs fmt r.args.length (printArgs fmt r.args ++ tail) []
    return some (Row.mk r.dict r.comp r.label (Lit.tuple l) args) : Except Err _) = _
  rw [this, ← hl]
  rfl

theorem lineText_newline {fmt : NumFmt F} (h : FmtOK fmt) {r : Row F} (hr : RowOK r) :
    '\n' ∉ lineText fmt r := by
  obtain ⟨l, hl, hln⟩ := hr.nodes
  unfold lineText
  rw [hl]
  simp only [List.mem_append, List.mem_singleton, List.mem_cons, not_or]
  refine ⟨⟨⟨⟨⟨⟨⟨fun hm => hr.dict.1 _ hm (Or.inl isSpace_newline), by decide⟩,
    fun hm => hr.comp _ hm (Or.inl isSpace_newline)⟩,
    by decide⟩, fun hm => hr.label.1 _ hm (Or.inl isSpace_newline)⟩, by decide⟩, ?_⟩, by decide, ?_⟩
  · intro hm
    rcases tuple_str_mem hm with h1 | h1 | h1 | h1 | ⟨e, he, h1⟩
    · revert h1; decide
    · revert h1; decide
    · revert h1; decide
    · revert h1; decide
    · exact repr_bad h e (hln e he).2 badInfo_hb _ h1 (Or.inl isSpace_newline)
  · have hk := hr.key
    have hv := hr.val
    generalize r.args = args at hk hv
    induction args with
    | nil => simp [printArgs]
    | cons p l ih =>
      simp only [printArgs, List.mem_append, List.mem_singleton, not_or]
      exact ⟨⟨⟨⟨⟨by decide, fun hm => hk p (by simp) _ hm (by unfold BadPar; tauto)⟩, by decide⟩,
        val_not_mem h (hv p (by simp)) (by unfold BadPar; tauto) (by decide)⟩, by decide⟩,
        ih (fun q hq => hk q (by simp [hq])) fun q hq => hv q (by simp [hq])⟩

/-! ### C46 -/

/-- Text of a file: comment lines, empty lines and lines of a netlist, each with an end of line
character. -/
inductive Item (F : Type) where
  | row (r : Row F)
  | comment (s : Str)
  | empty

/-- The line of an item (without the end of line character). -/
def Item.text (fmt : NumFmt F) : Item F → Str
  | row r => lineText fmt r
  | comment s => '#' :: s
  | empty => []

/-- The netlist line of an item. -/
def Item.row? : Item F → Option (Row F)
  | row r => some r
  | _ => none

/-- **C46**: reading the file that was written gives the same lines. -/
theorem C46_roundtrip {fmt : NumFmt F} (h : FmtOK fmt) (l : List (Row F)) (hl : ∀ r ∈ l, RowOK r) :
    read fmt (write fmt l) = .ok l := by
  have key : ∀ l : List (Row F), (∀ r ∈ l, RowOK r) → l ≠ [] →
      (readlines (write fmt l)).mapM (readLine fmt) = .ok (l.map some) := by
    intro l
    induction l with
    | nil => intro _ h0; exact absurd rfl h0
    | cons r l ih =>
      intro hl _
      have hr := hl r (by simp)
      have hnl := lineText_newline h hr
      cases l with
      | nil =>
        have e : write fmt [r] = lineText fmt r := by
          simp [write, printLine_eq]
        have h1 := readLine_eq h hr [] (Or.inl rfl)
        rw [List.append_nil] at h1
        rw [e, readlines_last hnl (by simp [lineText]), List.mapM_cons, h1]
        rfl
      | cons r' l =>
        have e : write fmt (r :: r' :: l) = lineText fmt r ++ '\n' :: write fmt (r' :: l) := by
          have hne : (r' :: l).flatMap (printLine fmt) ≠ [] := by
            simp [printLine]
          show (printLine fmt r ++ (r' :: l).flatMap (printLine fmt)).dropLast = _
          rw [List.dropLast_append_of_ne_nil hne, printLine_eq]
          simp [write]
        rw [e, readlines_line hnl, List.mapM_cons, readLine_eq h hr _ (Or.inr rfl),
          ih (fun x hx => hl x (by simp [hx])) (by simp)]
        rfl
  unfold read
  by_cases h0 : l = []
  · subst h0; rfl
  · rw [key l hl h0]
    show Except.ok ((l.map some).filterMap id) = _
    simp

/-- **C46**, files written by hand: comment lines and empty lines are ignored. -/
theorem C46_comments {fmt : NumFmt F} (h : FmtOK fmt) (l : List (Item F))
    (hl : ∀ r, .row r ∈ l → RowOK r) (hc : ∀ s, .comment s ∈ l → '\n' ∉ s) :
    read fmt (l.flatMap fun i => i.text fmt ++ ['\n']) = .ok (l.filterMap Item.row?) := by
  have key : (readlines (l.flatMap fun i => i.text fmt ++ ['\n'])).mapM (readLine fmt) =
      .ok (l.map Item.row?) := by
    induction l with
    | nil => rfl
    | cons i l ih =>
      have ih' := ih (fun r hr => hl r (by simp [hr])) (fun s hs => hc s (by simp [hs]))
      have hnl : '\n' ∉ i.text fmt := by
        cases i with
        | row r => exact lineText_newline h (hl r (by simp))
        | comment s => simpa [Item.text] using hc s (by simp)
        | empty => simp [Item.text]
      have h1 : readLine fmt (i.text fmt ++ ['\n']) = .ok i.row? := by
        cases i with
        | row r => exact readLine_eq h (hl r (by simp)) _ (Or.inr rfl)
        | comment s => simp [readLine, Item.text, Item.row?]
        | empty => simp [readLine, Item.text, Item.row?]
      rw [List.flatMap_cons, List.append_assoc]
      show (readlines (i.text fmt ++ '\n' :: (l.flatMap fun i => i.text fmt ++ ['\n']))).mapM _ = _
      rw [readlines_line hnl, List.mapM_cons, h1, ih']
      rfl
  unfold read
  rw [key]
  show Except.ok ((l.map Item.row?).filterMap id) = _
  simp [List.filterMap_map]

end Netlist
end Pyphs
