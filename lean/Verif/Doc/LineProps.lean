/-
C91: the netlist line of the documentation of a component is read as this component with its defaults.
-/
import Verif.Doc.Line
import Verif.Netlist.Props

namespace Pyphs
namespace Doc

open Netlist

variable {F : Type}

/-- What the documentation describes: the component (in lower case, as in netlists) with its label, its nodes
and the defaults of its parameters. -/
def described (m : Meta F) : Row F :=
  ⟨m.dico, lower m.component, m.label, .tuple (m.nodes.map .str), m.parameters⟩

theorem defaults_eq {pars : List (Str × Lit F)} (h : (pars.map (·.1)).Nodup) : parametersDefault pars = pars := by
  have key : ∀ l d : List (Str × Lit F), ((d ++ l).map (·.1)).Nodup →
      l.foldl (fun d p => setArg d p.1 p.2) d = d ++ l := by
    intro l
    induction l with
    | nil => intro d _; simp
    | cons p l ih =>
      intro d hd
      have hp : p.1 ∉ d.map (·.1) := by
        intro hm
        rw [List.map_append, List.nodup_append] at hd
        exact hd.2.2 _ hm _ (by simp) rfl
      rw [List.foldl_cons, setArg_new _ hp, ih _ (by simpa using hd)]
      simp
  exact key pars [] (by simpa using h)

theorem join_eq (fmt : NumFmt F) : ∀ {l : List (Str × Lit F)}, l ≠ [] →
    ' ' :: (joinSemi (l.map fun p => p.1 ++ ['='] ++ p.2.str fmt) ++ [';']) = printArgs fmt l
  | [], h => absurd rfl h
  | [p], _ => by simp [joinSemi, printArgs]
  | p :: p' :: l, _ => by
    have ih := join_eq fmt (l := p' :: l) (by simp)
    rw [printArgs, ← ih]
    simp [joinSemi]

/-- C91. The documented line of a component with parameters is what `Netlist.write` writes for it, and
`Netlist.read` gives the described component back: its dictionary, its label, its nodes and the default values
of all its parameters. -/
theorem C91_line {fmt : NumFmt F} (h : FmtOK fmt) {m : Meta F} (hp : m.parameters ≠ [])
    (hr : RowOK (described m)) : ∃ t, docLine fmt m = some t ∧ t = write fmt [described m] ∧
      read fmt t = .ok [described m] := by
  have e : write fmt [described m] = lineText fmt (described m) := by simp [write, printLine_eq]
  refine ⟨_, ?_, rfl, C46_roundtrip h _ (by simpa using hr)⟩
  unfold docLine linepars
  rw [if_neg hp, defaults_eq (pars := m.parameters) hr.keys, e]
  unfold lineText
  rw [show (described m).args = m.parameters from rfl, ← join_eq fmt hp]
  simp [described]

/-- C91. A component without parameters cannot be documented. -/
theorem C91_no_parameters (fmt : NumFmt F) {m : Meta F} (h : m.parameters = []) : docLine fmt m = none := by
  unfold docLine
  rw [if_pos h]

/-! ### The components of the dictionary -/

def identB (s : Str) : Bool :=
  s.all isIdChar && (match s with | [] => false | c :: _ => !c.isDigit) && s != "None".toList &&
    s != "True".toList && s != "False".toList && !keywords.contains s

def valB : Lit F → Bool
  | .elem (.num _) => true
  | .elem (.str s) => identB s
  | .tuple l => 2 ≤ l.length && l.all fun | .num _ => true | .str _ => false
  | .none => true
  | .bool _ => true

def metaB (m : Meta F) : Bool :=
  identB m.dico && identB (lower m.component) && identB m.label && m.nodes.all identB &&
    decide (m.parameters.map (·.1)).Nodup && m.parameters.all (fun p => identB p.1 && valB p.2) &&
    !m.parameters.isEmpty && (klass (lower m.component) == some m.component) &&
    exports.any fun p => p.1 == m.dico && p.2.contains m.component

theorem ident_of {s : Str} (h : identB s = true) : Ident s := by
  unfold identB at h
  simp only [Bool.and_eq_true, List.all_eq_true, bne_iff_ne, Bool.not_eq_true', List.contains_eq_mem,
    decide_eq_false_iff_not] at h
  obtain ⟨⟨⟨⟨⟨h1, h2⟩, h3⟩, h4⟩, h5⟩, h6⟩ := h
  refine ⟨h1, ?_, ⟨h3, h4, h5⟩, h6⟩
  cases s with
  | nil => simp at h2
  | cons c t => exact ⟨c, t, rfl, by simpa using h2⟩

theorem ident_ne {s : Str} (h : Ident s) {c : Char} (hc : isIdChar c = false) : c ∉ s := by
  intro hm
  rw [h.chars c hm] at hc
  exact absurd hc (by decide)

theorem ident_info {s : Str} (h : Ident s) : Free BadInfo s := by
  intro c hc hb
  have hi := h.chars c hc
  rcases hb with hb | rfl
  · unfold isSpace at hb
    unfold isIdChar Char.isAlphanum Char.isAlpha Char.isUpper Char.isLower Char.isDigit at hi
    simp only [Bool.or_eq_true, Bool.and_eq_true, decide_eq_true_eq] at hb hi
    rcases hb with (rfl | hb) | hb
    · revert hi; decide
    all_goals
      rcases hi with ((hi | hi) | hi) | rfl
      · have := UInt32.le_iff_toNat_le.1 hi.1
        simp at this
        have e : c.val.toNat = c.toNat := rfl
        omega
      · have := UInt32.le_iff_toNat_le.1 hi.1
        simp at this
        have e : c.val.toNat = c.toNat := rfl
        omega
      · have := UInt32.le_iff_toNat_le.1 hi.1
        simp at this
        have e : c.val.toNat = c.toNat := rfl
        omega
      · revert hb; decide
  · revert hi; decide

theorem ident_par {s : Str} (h : Ident s) : Free BadPar s := by
  intro c hc hb
  have hi := h.chars c hc
  rcases hb with rfl | rfl | rfl | rfl | rfl <;> (revert hi; decide)

theorem val_of : ∀ {v : Lit F}, valB v = true → ValOK v
  | .elem (.num _), _ => trivial
  | .elem (.str _), h => ident_of h
  | .tuple l, h => by
    simp only [valB, Bool.and_eq_true, decide_eq_true_eq, List.all_eq_true] at h
    refine ⟨h.1, ?_⟩
    intro e he
    have hb := h.2 e he
    cases e with
    | num f => exact ⟨trivial, fun s e => by cases e⟩
    | str s => simp at hb
  | .none, _ => trivial
  | .bool _, _ => trivial

theorem meta_of {m : Meta F} (h : metaB m = true) : RowOK (described m) ∧ m.parameters ≠ [] ∧
    klass (lower m.component) = some m.component ∧ ∃ l, (m.dico, l) ∈ exports ∧ m.component ∈ l := by
  unfold metaB at h
  simp only [Bool.and_eq_true, List.all_eq_true, decide_eq_true_eq, Bool.not_eq_true', List.isEmpty_eq_false_iff,
    beq_iff_eq, List.any_eq_true, List.contains_eq_mem] at h
  obtain ⟨⟨⟨⟨⟨⟨⟨⟨h1, h2⟩, h3⟩, h4⟩, h5⟩, h6⟩, h7⟩, h8⟩, p, hp, h9, h10⟩ := h
  have i1 := ident_of h1
  refine ⟨⟨⟨ident_info i1, ident_ne i1 (by decide), ?_⟩, ident_info (ident_of h2), ⟨ident_info (ident_of h3), ?_⟩,
    ⟨_, rfl, ?_⟩, h5, fun p hp => ident_par (ident_of (h6 p hp).1), ?_⟩, h7, h8, p.2, ?_, h10⟩
  · intro e
    have : '#' ∈ m.dico := List.mem_of_mem_head? e
    exact ident_ne i1 (by decide) this
  · obtain ⟨c, t, e, -⟩ := (ident_of h3).head
    intro e'
    have e' : m.label = [] := e'
    rw [e'] at e
    simp at e
  · intro e he
    obtain ⟨s, hs, rfl⟩ := List.mem_map.1 he
    have i := ident_of (h4 s hs)
    refine ⟨⟨ident_ne i (by decide), Or.inl (ident_ne i (by decide))⟩, ?_⟩
    rintro s' ⟨⟩
    exact ident_info i
  · exact fun p hp => val_of (h6 p hp).2
  · rw [← h9]
    exact hp

theorem dictionary_lower (q : ℚ → F) : (dictionary q).all (fun m => (lower m.component).all (! ·.isUpper)) = true := by
  rfl

theorem dictionary_klass (q : ℚ → F) : (dictionary q).all (fun m => klass m.component == some m.component) = true := by
  rfl

theorem dictionary_ok (q : ℚ → F) : (dictionary q).all metaB = true := by rfl

/-- C91. All the components of the dictionary with numbers, identifiers, constants and tuples of numbers as
defaults: the documented line exists, it is read as the described component, the name of the component has no
upper case letter, and the graph finds its class in the documented module, from the name of the line as from the
same name with other cases. -/
theorem C91_dictionary {fmt : NumFmt F} (h : FmtOK fmt) (q : ℚ → F) : ∀ m ∈ dictionary q,
    (∃ t, docLine fmt m = some t ∧ read fmt t = .ok [described m]) ∧
    (∀ c ∈ (described m).comp, c.isUpper = false) ∧ klass (described m).comp = some m.component ∧
    (∀ s, lower s = (described m).comp → klass s = some m.component) ∧
    ∃ l, (m.dico, l) ∈ exports ∧ m.component ∈ l := by
  intro m hm
  obtain ⟨h1, h2, h3, h4⟩ := meta_of (List.all_eq_true.1 (dictionary_ok q) m hm)
  obtain ⟨t, ht, -, hr⟩ := C91_line h h2 h1
  refine ⟨⟨t, ht, hr⟩, fun c hc => ?_, h3, fun s hs => ?_, h4⟩
  · have hl := List.all_eq_true.1 (List.all_eq_true.1 (dictionary_lower q) m hm) c hc
    simpa using hl
  · have hk := List.all_eq_true.1 (dictionary_klass q) m hm
    rw [beq_iff_eq] at hk
    rw [← hk]
    unfold klass
    rw [hs]
    rfl

/-- C91. Each class that a module of the dictionary exports is one of the components of `C91_dictionary`, exactly
once, or one of the four others. -/
theorem C91_complete (q : ℚ → F) : (exports.flatMap fun p => p.2.map fun c => (p.1, c)).Perm
    ((dictionary q).map (fun m => (m.dico, m.component)) ++
      [("electronics".toList, "Capacitor".toList), ("electronics".toList, "Inductor".toList),
       ("pwl".toList, "Storage".toList), ("pwl".toList, "Dissipative".toList)]) := by
  have e : (dictionary q).map (fun m => (m.dico, m.component)) =
      (dictionary fun _ => ()).map (fun m => (m.dico, m.component)) := rfl
  rw [e]
  exact List.isPerm_iff.1 (by decide +kernel)

theorem read_numeral {fmt : NumFmt F} {s : Str} {f : F} (h : fmt.read ('1' :: s) = some f)
    {t dict comp label key par : Str}
    (h0 : readlines t = [t]) (h1 : readLine fmt t = (do
      let a ← readArgs fmt 1 par []
      return some ⟨dict, comp, label, .tuple [.str "N1".toList, .str "N2".toList], a⟩))
    (h2 : readArgs fmt 1 par [] = (do
      let v ← readValue fmt ('1' :: s)
      .ok [(key, v)])) :
    read fmt t = .ok [⟨dict, comp, label, .tuple [.str "N1".toList, .str "N2".toList], [(key, .elem (.num f))]⟩] := by
  have hv : readValue fmt ('1' :: s) = .ok (.elem (.num f)) := by
    unfold readValue
    have : literalEval fmt ('1' :: s) = .ok (.elem (.num f)) := by
      unfold literalEval
      simp [h]
    simp [this]
  unfold Netlist.read
  rw [h0, List.mapM_cons, h1, h2, hv]
  rfl

/-- C91. The defaults of the capacitor and of the inductor of `electronics` are texts: the documented lines are read
as numbers. -/
theorem C91_numeral {fmt : NumFmt F} {c l : F} (hc : fmt.read "1e-9".toList = some c)
    (hl : fmt.read "1e-3".toList = some l) :
    (∃ t, docLine fmt ⟨"electronics".toList, "Capacitor".toList, "capa".toList, ["N1".toList, "N2".toList],
        [("C".toList, .elem (.str "1e-9".toList))]⟩ = some t ∧
      read fmt t = .ok [⟨"electronics".toList, "capacitor".toList, "capa".toList,
        .tuple [.str "N1".toList, .str "N2".toList], [("C".toList, .elem (.num c))]⟩]) ∧
    (∃ t, docLine fmt ⟨"electronics".toList, "Inductor".toList, "induc".toList, ["N1".toList, "N2".toList],
        [("L".toList, .elem (.str "1e-3".toList))]⟩ = some t ∧
      read fmt t = .ok [⟨"electronics".toList, "inductor".toList, "induc".toList,
        .tuple [.str "N1".toList, .str "N2".toList], [("L".toList, .elem (.num l))]⟩]) := by
  refine ⟨⟨"electronics.capacitor capa ('N1', 'N2'): C=1e-9;".toList, rfl, ?_⟩,
    ⟨"electronics.inductor induc ('N1', 'N2'): L=1e-3;".toList, rfl, ?_⟩⟩
  · exact read_numeral (dict := "electronics".toList) (comp := "capacitor".toList) (label := "capa".toList)
      (key := "C".toList) (s := "e-9".toList) (par := " C=1e-9;".toList) hc rfl rfl rfl
  · exact read_numeral (dict := "electronics".toList) (comp := "inductor".toList) (label := "induc".toList)
      (key := "L".toList) (s := "e-3".toList) (par := " L=1e-3;".toList) hl rfl rfl rfl

/-- The documented line of the diode. -/
example (q : ℚ → ℕ) : ∃ m ∈ dictionary q, m.component = "Diode".toList ∧
    docLine ⟨fun _ => "1".toList, fun _ => none⟩ m =
      some "electronics.diode D ('N1', 'N2'): Is=1; mu=1; R=1; v0=1;".toList := by
  refine ⟨_, List.mem_of_getElem? (i := 4) rfl, rfl, rfl⟩

/-- A component with one node, documented with the comma of python. -/
example (q : ℚ → ℕ) : ∃ m ∈ dictionary q, m.dico = "thermics".toList ∧
    docLine ⟨fun _ => "1".toList, fun _ => none⟩ m =
      some "thermics.source T ('T',): type=temperature;".toList := by
  refine ⟨_, List.mem_of_getElem? (i := 32) rfl, rfl, rfl⟩

end Doc
end Pyphs
