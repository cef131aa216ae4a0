/-
C46: examples, and texts for which the round trip fails.
-/
import Verif.Netlist.Props
import Mathlib.Data.Nat.Digits.Lemmas

namespace Pyphs
namespace Netlist

/-- Decimal representation of integers. -/
def intFmt : NumFmt ℤ where
  show_ n :=
    let d := if n = 0 then ['0'] else ((Nat.digits 10 n.natAbs).map Nat.digitChar).reverse
    if n < 0 then '-' :: d else d
  read s :=
    let val (t : Str) : ℤ := (Nat.ofDigits 10 (t.reverse.map fun c => c.toNat - 48) : ℕ)
    match s with
    | '-' :: t => if t ≠ [] ∧ t.all Char.isDigit then some (-val t) else none
    | t => if t ≠ [] ∧ t.all Char.isDigit then some (val t) else none

theorem digitChar_isDigit {d : ℕ} (h : d < 10) : (Nat.digitChar d).isDigit = true := by
  interval_cases d <;> decide

theorem digitChar_val {d : ℕ} (h : d < 10) : (Nat.digitChar d).toNat - 48 = d := by
  interval_cases d <;> decide

/-- The digits of the absolute value. -/
def absText (n : ℤ) : Str :=
  if n = 0 then ['0'] else ((Nat.digits 10 n.natAbs).map Nat.digitChar).reverse

theorem absText_digit (n : ℤ) : ∀ c ∈ absText n, c.isDigit = true := by
  intro c hc
  unfold absText at hc
  split_ifs at hc with h
  · simp only [List.mem_singleton] at hc; subst hc; decide
  · simp only [List.mem_reverse, List.mem_map] at hc
    obtain ⟨d, hd, rfl⟩ := hc
    exact digitChar_isDigit (Nat.digits_lt_base (by omega) hd)

theorem absText_ne (n : ℤ) : absText n ≠ [] := by
  unfold absText
  split_ifs with h
  · simp
  · simp [Nat.digits_ne_nil_iff_ne_zero, h]

theorem absText_val (n : ℤ) :
    Nat.ofDigits 10 ((absText n).reverse.map fun c => c.toNat - 48) = n.natAbs := by
  unfold absText
  split_ifs with h
  · subst h; decide
  · rw [List.reverse_reverse, List.map_map]
    have : (Nat.digits 10 n.natAbs).map ((fun c => c.toNat - 48) ∘ Nat.digitChar) =
        Nat.digits 10 n.natAbs := by
      conv_rhs => rw [← List.map_id (Nat.digits 10 n.natAbs)]
      exact List.map_congr_left fun d hd => digitChar_val (Nat.digits_lt_base (by omega) hd)
    rw [this, Nat.ofDigits_digits]

theorem intFmt_show (n : ℤ) : intFmt.show_ n = if n < 0 then '-' :: absText n else absText n := rfl

/-- The hypotheses on numbers hold for integers. -/
theorem intFmt_ok : FmtOK intFmt where
  read_show n := by
    rw [intFmt_show]
    have h1 := absText_digit n
    have h2 := absText_ne n
    have h3 := absText_val n
    have hall : (absText n).all Char.isDigit = true := List.all_eq_true.2 h1
    split_ifs with h
    · show (if absText n ≠ [] ∧ (absText n).all Char.isDigit then
        some (-((Nat.ofDigits 10 ((absText n).reverse.map fun c => c.toNat - 48) : ℕ) : ℤ)) else none) = _
      rw [if_pos ⟨h2, hall⟩, h3]
      congr 1
      omega
    · obtain ⟨c, t, hc⟩ := List.exists_cons_of_ne_nil h2
      have hne : c ≠ '-' := by
        rintro rfl
        have := h1 '-' (by rw [hc]; simp)
        revert this; decide
      have : intFmt.read (absText n) = if absText n ≠ [] ∧ (absText n).all Char.isDigit then
          some ((Nat.ofDigits 10 ((absText n).reverse.map fun c => c.toNat - 48) : ℕ) : ℤ) else none := by
        unfold intFmt
        dsimp only
        split
        · rename_i h0; rw [hc] at h0; simp at h0; exact absurd h0.1 hne
        · rfl
      rw [this, if_pos ⟨h2, hall⟩, h3]
      congr 1
      omega
  chars n c hc := by
    rw [intFmt_show] at hc
    split_ifs at hc
    · rcases List.mem_cons.1 hc with rfl | hc
      · exact Or.inr (Or.inl rfl)
      · exact Or.inl (absText_digit n c hc)
    · exact Or.inl (absText_digit n c hc)
  head n := by
    rw [intFmt_show]
    split_ifs
    · exact ⟨_, _, rfl, Or.inr rfl⟩
    · obtain ⟨c, t, hc⟩ := List.exists_cons_of_ne_nil (absText_ne n)
      exact ⟨c, t, hc, Or.inl (absText_digit n c (by rw [hc]; simp))⟩

instance (s : Str) : Decidable (Free BadInfo s) :=
  inferInstanceAs (Decidable (∀ c ∈ s, ¬ (isSpace c = true ∨ c = ':')))
instance (s : Str) : Decidable (Free BadPar s) :=
  inferInstanceAs (Decidable (∀ c ∈ s, ¬ (c = ' ' ∨ c = '=' ∨ c = ';' ∨ c = '\n' ∨ c = '\r')))
instance (s : Str) : Decidable (Quotable s) := inferInstanceAs (Decidable (_ ∧ _))

/-- `electronics.resistor R1 ('A', '#'): R=('R1', -1000); label=abc; n=3;` -/
def exRow : Row ℤ :=
  ⟨"electronics".toList, "resistor".toList, "R1".toList,
    .tuple [.str "A".toList, .str "#".toList],
    [("R".toList, .tuple [.str "R1".toList, .num (-1000)]), ("label".toList, .elem (.str "abc".toList)),
      ("n".toList, .elem (.num 3))]⟩

theorem exRow_ok : RowOK exRow where
  dict := by decide
  comp := by decide
  label := by decide
  nodes := ⟨_, rfl, by
    intro e he
    simp only [List.mem_cons, List.not_mem_nil, or_false] at he
    rcases he with rfl | rfl
    · exact ⟨by show Quotable _; decide, fun s hs => by cases hs; decide⟩
    · exact ⟨by show Quotable _; decide, fun s hs => by cases hs; decide⟩⟩
  keys := by show (["R".toList, "label".toList, "n".toList] : List Str).Nodup; decide
  key := List.forall_mem_cons.2 ⟨by show Free BadPar "R".toList; decide, List.forall_mem_cons.2
    ⟨by show Free BadPar "label".toList; decide, List.forall_mem_cons.2
      ⟨by show Free BadPar "n".toList; decide, List.forall_mem_nil _⟩⟩⟩
  val := List.forall_mem_cons.2 ⟨⟨by simp, List.forall_mem_cons.2
      ⟨⟨by show Quotable "R1".toList; decide, fun s hs => by cases hs; decide⟩,
        List.forall_mem_cons.2 ⟨⟨True.intro, fun s hs => by cases hs⟩, List.forall_mem_nil _⟩⟩⟩,
    List.forall_mem_cons.2 ⟨⟨by decide, ⟨_, _, rfl, by decide⟩, by decide, by decide⟩,
      List.forall_mem_cons.2 ⟨True.intro, List.forall_mem_nil _⟩⟩⟩

example : read intFmt (write intFmt [exRow, exRow]) = .ok [exRow, exRow] :=
  C46_roundtrip intFmt_ok _ (by simp [exRow_ok])

/-- A line with one parameter. -/
def rowWith {F : Type} (node : Str) (v : Lit F) : Row F :=
  ⟨"d".toList, "c".toList, "l".toList, .tuple [.str node, .str "#".toList], [("k".toList, v)]⟩

variable {F : Type}

/-- **C46**, limit: a space in the name of a node is lost. -/
theorem C46_space_lost (fmt : NumFmt F) :
    read fmt (write fmt [rowWith "a b".toList .none]) = .ok [rowWith "ab".toList .none] := rfl

/-- **C46**, limit: a label which is the name of a constant is read as the constant. -/
theorem C46_constant_label (fmt : NumFmt F) :
    read fmt (write fmt [rowWith "a".toList (.elem (.str "None".toList))]) =
      .ok [rowWith "a".toList .none] := rfl

/-- **C46**, limit: a label which is a python keyword (as `lambda`) cannot be read back. -/
theorem C46_keyword_label (fmt : NumFmt F) :
    read fmt (write fmt [rowWith "a".toList (.elem (.str "lambda".toList))]) =
      .error .syntaxError := rfl

/-- **C46**, limit: a label that is the text of a number is read as the number. -/
theorem C46_number_label {fmt : NumFmt F} (h : FmtOK fmt) (f : F) :
    read fmt (write fmt [rowWith "a".toList (.elem (.str (fmt.show_ f)))]) =
      .ok [rowWith "a".toList (.elem (.num f))] := by
  have : write fmt [rowWith "a".toList (.elem (.str (fmt.show_ f)))] =
      write fmt [rowWith "a".toList (.elem (.num f))] := rfl
  rw [this]
  refine C46_roundtrip h _ ?_
  simp only [List.mem_singleton, forall_eq]
  refine ⟨by show Free BadInfo "d".toList ∧ '.' ∉ "d".toList ∧ "d".toList.head? ≠ some '#'; decide, by show Free BadInfo "c".toList; decide,
    by show Free BadInfo "l".toList ∧ "l".toList ≠ []; decide, ⟨_, rfl, ?_⟩, by simp [rowWith], ?_, ?_⟩
  · intro e he
    simp only [List.mem_cons, List.not_mem_nil, or_false] at he
    rcases he with rfl | rfl
    · exact ⟨by show Quotable _; decide, fun s hs => by cases hs; decide⟩
    · exact ⟨by show Quotable _; decide, fun s hs => by cases hs; decide⟩
  · intro p hp
    simp only [rowWith, List.mem_singleton] at hp
    subst hp
    show Free BadPar "k".toList
    decide
  · intro p hp
    simp only [rowWith, List.mem_singleton] at hp
    subst hp
    trivial

/-- **C46**, limit: a parameter given as a tuple of one element cannot be read back. -/
theorem C46_one_tuple (fmt : NumFmt F) :
    read fmt (write fmt [rowWith "a".toList (.tuple [.str "b".toList])]) = .error .syntaxError := rfl

/-- **C46**, limit: a colon in the name of a node cuts the line at the wrong place. -/
theorem C46_colon (fmt : NumFmt F) :
    ∃ e, read fmt (write fmt [rowWith "a:b".toList .none]) = .error e := ⟨_, rfl⟩

end Netlist
end Pyphs
