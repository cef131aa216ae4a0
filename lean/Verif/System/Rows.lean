/-
Each accepted line of a netlist gives the documented component.
-/
import Verif.System.Model
import Verif.System.Spec
import Verif.Params.Props

namespace Pyphs
namespace System
open Core Graph Params
open Netlist (Row Lit Elem Str)

/-- The value of an argument that does not depend on anything. -/
def IsVal (v : ℝ) (o : Obj ℝ) : Prop := o = .num v ∨ ∃ s, o = .tuple s (.num v)

/-- The component built from a line and the one it describes. -/
inductive Rel : Part ℝ → Device → Prop
  | fluxStorage {l t h o v} (inv : Bool) (hv : IsVal v o) :
    Rel (.storage l t h o inv .f) (.fluxStorage ⟨l, t, h⟩ (if inv then v⁻¹ else v))
  | effortStorage {l t h o v} (inv : Bool) (hv : IsVal v o) :
    Rel (.storage l t h o inv .e) (.effortStorage ⟨l, t, h⟩ (if inv then v⁻¹ else v))
  | resistance {l t h o v} (inv : Bool) (hv : IsVal v o) :
    Rel (.dissipative l t h o inv) (.resistance ⟨l, t, h⟩ (if inv then v⁻¹ else v))
  | effortSource {l t h} : Rel (.port l t h .f) (.effortSource ⟨l, t, h⟩)
  | fluxSource {l t h} : Rel (.port l t h .e) (.fluxSource ⟨l, t, h⟩)
  | gyrator {l n1 n2 n3 n4 o v} (hv : IsVal v o) :
    Rel (.connector l n1 n2 n3 n4 [("alpha", o)] .gyrator)
      (.gyrator ⟨l ++ "1", n1, n2⟩ ⟨l ++ "2", n3, n4⟩ v)
  | transformer {l n1 n2 n3 n4 o v} (hv : IsVal v o) :
    Rel (.connector l n1 n2 n3 n4 [("alpha", o)] .transformer)
      (.transformer ⟨l ++ "1", n1, n2⟩ ⟨l ++ "2", n3, n4⟩ v)

/-- The parameters recorded by a component are those of the line. -/
def Recorded (ps : List (String × ℝ)) (p : Part ℝ) : Prop :=
  p.comp.flatMap Comp.records = ps.map fun q => (q.1, Sym.Val.num q.2)

variable {F : Type} {val : F → ℝ} {r : Row F}

theorem mapM_nodes {l : List (Elem F)} {ns : List String}
    (h : (l.mapM fun
      | .str s => some (name s)
      | .num _ => none : Option (List String)) = some ns) :
    (l.mapM fun
      | .str s => .ok (txt s)
      | .num _ => .error .unmodelled : Except Err (List String)) = .ok ns := by
  induction l generalizing ns with
  | nil => cases h; rfl
  | cons a l ih =>
    rw [List.mapM_cons] at h ⊢
    cases a with
    | num f => cases h
    | str s =>
      revert h
      cases hl : (l.mapM fun
        | .str s => some (name s)
        | .num _ => none : Option (List String)) with
      | none => intro h; cases h
      | some ms =>
        intro h
        rw [ih hl]
        cases h
        rfl

theorem nodesOf_ok {ns : List String} (h : nodeNames r = some ns) : nodesOf r.nodes = .ok ns := by
  unfold nodeNames at h
  unfold nodesOf
  cases hn : r.nodes with
  | tuple l => rw [hn] at h; exact mapM_nodes h
  | elem e => rw [hn] at h; cases h
  | none => rw [hn] at h; cases h
  | bool b => rw [hn] at h; cases h

/-- The argument of a class is the documented parameter. -/
theorem argument_ok {key : String} {d v : ℝ} {dflt : Option (Obj ℝ)}
    (hv : value val r key d = some v)
    (hd : dflt = some (.num d) ∨ r.args.lookup key.toList ≠ none) :
    ∃ o, argument val r.args key dflt = .ok o ∧ coefficient val r.args key dflt = .ok o ∧ IsVal v o ∧
      ∀ auto : String, o.recorded auto =
        [((symbolOf val r key d auto).1, Sym.Val.num (symbolOf val r key d auto).2)] := by
  unfold value given at hv
  unfold coefficient argument symbolOf given
  cases hl : r.args.lookup key.toList with
  | none =>
    rw [hl] at hv
    simp only [Option.some.injEq] at hv
    subst hv
    rcases hd with rfl | hd
    · exact ⟨_, rfl, rfl, .inl rfl, fun _ => rfl⟩
    · exact absurd hl hd
  | some a =>
    rw [hl] at hv
    revert hv
    match a with
    | .elem (.num f) => intro hv; cases hv; exact ⟨_, rfl, rfl, .inl rfl, fun _ => rfl⟩
    | .elem (.str s) => intro hv; cases hv
    | .none => intro hv; cases hv
    | .bool b => intro hv; cases hv
    | .tuple [] => intro hv; cases hv
    | .tuple [.str s] => intro hv; cases hv
    | .tuple [.str s, .num f] =>
      intro hv; cases hv; exact ⟨_, rfl, rfl, .inr ⟨_, rfl⟩, fun _ => rfl⟩
    | .tuple [.str s, .str f] => intro hv; cases hv
    | .tuple (.str s :: .num f :: _ :: _) => intro hv; cases hv
    | .tuple (.str s :: .str f :: _ :: _) => intro hv; cases hv
    | .tuple (.num f :: _) => intro hv; cases hv

/-- The class of a line. -/
theorem rowPart_of {h : Char} {t : Str} {k : Class ℝ} {ns : List String} (hw : Works r)
    (hcomp : compName r = name (h :: t))
    (hk : classOf (dictName r) (name (h.toUpper :: t)) = some k) (hn : nodeNames r = some ns) :
    rowPart val r = k.init val (name r.label) ns r.args := by
  have hc : r.comp.map Char.toLower = h :: t := String.ofList_injective hcomp
  unfold rowPart
  rw [hc]
  have hk' : classOf (txt r.dict) (txt (h.toUpper :: t)) = some k := hk
  simp only [hk']
  rw [if_neg]
  · rw [nodesOf_ok hn]; rfl
  · rintro ⟨p, hp, hq⟩
    obtain ⟨h1, h2, h3⟩ := hw.keys p hp
    simp only [List.mem_cons, List.not_mem_nil, or_false] at hq
    rcases hq with hq | hq | hq
    · exact h1 hq
    · exact h2 hq
    · exact h3 hq

theorem branchOf_two {b : Branch} (hm : ¬ (dictName r = "mechanics" ∧ compName r = "mass"))
    (hs : compName r ≠ "source") (h : branchOf r = some b) :
    ∃ n1 n2, nodeNames r = some [n1, n2] ∧ b = ⟨name r.label, n1, n2⟩ := by
  unfold branchOf at h
  split at h
  · exact absurd ⟨by assumption, by assumption⟩ hm
  · exact absurd ⟨by assumption, by assumption⟩ hm
  · exact absurd (by assumption) hs
  · cases h; exact ⟨_, _, by assumption, rfl⟩
  · cases h

theorem paramOf_eq {key : String} {d : ℝ} (hs : compName r ≠ "source")
    (hp : parameter (dictName r) (compName r) = some (key, d)) :
    paramOf val r = [symbolOf val r key d (if dictName r = "connectors" then name r.label ++ "_alpha"
      else name r.label ++ "coeff")] := by
  unfold paramOf
  rw [if_neg hs, hp]

/-- A line of a linear storage. -/
theorem storage_row {h : Char} {t : Str} {key n1 n2 : String} {d v : ℝ} {dflt : Option (Obj ℝ)}
    {inv ground : Bool} {ctrl : Ctrl} {ns : List String} (hw : Works r)
    (hcomp : compName r = name (h :: t)) (hs : compName r ≠ "source") (hc : dictName r ≠ "connectors")
    (hp : parameter (dictName r) (compName r) = some (key, d))
    (hk : classOf (dictName r) (name (h.toUpper :: t)) = some (.storage key dflt inv ctrl ground))
    (hn : nodeNames r = some ns)
    (hg : (ground = true ∧ ns = [n2] ∧ n1 = datum) ∨ (ground = false ∧ ns = [n1, n2]))
    (hv : value val r key d = some v)
    (hd : dflt = some (.num d) ∨ r.args.lookup key.toList ≠ none) :
    ∃ o, rowPart val r = .ok (.storage (name r.label) n1 n2 o inv ctrl) ∧ IsVal v o ∧
      Recorded (paramOf val r) (.storage (name r.label) n1 n2 o inv ctrl) := by
  obtain ⟨o, h1, -, h3, h4⟩ := argument_ok hv hd
  refine ⟨o, ?_, h3, ?_⟩
  · rw [rowPart_of hw hcomp hk hn]
    unfold Class.init
    dsimp only
    rw [h1]
    rcases hg with ⟨rfl, rfl, rfl⟩ | ⟨rfl, rfl⟩ <;> rfl
  · unfold Recorded
    rw [paramOf_eq hs hp, if_neg hc]
    simp only [Part.comp, Comp.records, Comp.args, List.flatMap_cons, List.flatMap_nil, List.append_nil,
      h4, List.map_cons, List.map_nil]

/-- A line of a linear dissipative component. -/
theorem dissipative_row {h : Char} {t : Str} {key n1 n2 : String} {d v : ℝ} {dflt : Option (Obj ℝ)}
    {inv : Bool} (hw : Works r)
    (hcomp : compName r = name (h :: t)) (hs : compName r ≠ "source") (hc : dictName r ≠ "connectors")
    (hp : parameter (dictName r) (compName r) = some (key, d))
    (hk : classOf (dictName r) (name (h.toUpper :: t)) = some (.dissipative key dflt inv))
    (hn : nodeNames r = some [n1, n2])
    (hv : value val r key d = some v)
    (hd : dflt = some (.num d) ∨ r.args.lookup key.toList ≠ none) :
    ∃ o, rowPart val r = .ok (.dissipative (name r.label) n1 n2 o inv) ∧ IsVal v o ∧
      Recorded (paramOf val r) (.dissipative (name r.label) n1 n2 o inv) := by
  obtain ⟨o, -, h2, h3, h4⟩ := argument_ok hv hd
  refine ⟨o, ?_, h3, ?_⟩
  · rw [rowPart_of hw hcomp hk hn]
    unfold Class.init
    dsimp only
    rw [h2]
    rfl
  · unfold Recorded
    rw [paramOf_eq hs hp, if_neg hc]
    simp only [Part.comp, Comp.records, Comp.args, List.flatMap_cons, List.flatMap_nil, List.append_nil,
      h4, List.map_cons, List.map_nil]

theorem one_row {key : String} {d v : ℝ} {g : Branch → ℝ → Device} {b : Branch} (hw : Works r)
    (hs : compName r ≠ "source") (hp : parameter (dictName r) (compName r) = some (key, d))
    (hg : oneLaw (dictName r) (compName r) = some g) (hv : value val r key d = some v)
    (hb : branchOf r = some b) :
    ∃ p, rowPart val r = .ok p ∧ Rel p (g b v) ∧ Recorded (paramOf val r) p := by
  have hgiv := hw.given
  have hp0 := hp
  by_cases hm : dictName r = "mechanics" ∧ compName r = "mass"
  · obtain ⟨hD, hC⟩ := hm
    rw [hD, hC] at hp hg
    cases hp; cases hg
    unfold branchOf at hb
    rw [hD, hC] at hb
    revert hb
    match hn : nodeNames r with
    | some [n] =>
      intro hb
      cases hb
      obtain ⟨o, q1, q2, q3⟩ := storage_row (h := 'm') (t := "ass".toList) hw hC hs (by rw [hD]; decide) hp0
        (by rw [hD]; rfl) hn (.inl ⟨rfl, rfl, rfl⟩) hv (.inl rfl)
      exact ⟨_, q1, .fluxStorage true q2, q3⟩
    | none => intro hb; cases hb
    | some [] => intro hb; cases hb
    | some (_ :: _ :: _) => intro hb; cases hb
  · obtain ⟨n1, n2, hn, rfl⟩ := branchOf_two hm hs hb
    generalize hD : dictName r = D at *
    generalize hC : compName r = C at *
    unfold parameter at hp
    split at hp <;> (try cases hp) <;> (try cases hg)
    · obtain ⟨o, q1, q2, q3⟩ := dissipative_row (h := 'r') (t := "esistor".toList) hw hC (by rw [hC]; decide) (by rw [hD]; decide) (by rw [hD, hC]; exact hp0)
        (by rw [hD]; rfl) hn hv (.inr (hgiv (by simp) _ _ hp0))
      exact ⟨_, q1, .resistance false q2, q3⟩
    · obtain ⟨o, q1, q2, q3⟩ := storage_row (h := 'c') (t := "apacitor".toList) hw hC (by rw [hC]; decide) (by rw [hD]; decide) (by rw [hD, hC]; exact hp0)
        (by rw [hD]; rfl) hn (.inr ⟨rfl, rfl⟩) hv (.inr (hgiv (by simp) _ _ hp0))
      exact ⟨_, q1, .fluxStorage true q2, q3⟩
    · obtain ⟨o, q1, q2, q3⟩ := storage_row (h := 'i') (t := "nductor".toList) hw hC (by rw [hC]; decide) (by rw [hD]; decide) (by rw [hD, hC]; exact hp0)
        (by rw [hD]; rfl) hn (.inr ⟨rfl, rfl⟩) hv (.inr (hgiv (by simp) _ _ hp0))
      exact ⟨_, q1, .effortStorage true q2, q3⟩
    · exact absurd ⟨rfl, rfl⟩ hm
    · obtain ⟨o, q1, q2, q3⟩ := storage_row (h := 's') (t := "tiffness".toList) hw hC (by rw [hC]; decide) (by rw [hD]; decide) (by rw [hD, hC]; exact hp0)
        (by rw [hD]; rfl) hn (.inr ⟨rfl, rfl⟩) hv (.inl rfl)
      exact ⟨_, q1, .effortStorage false q2, q3⟩
    · obtain ⟨o, q1, q2, q3⟩ := dissipative_row (h := 'd') (t := "amper".toList) hw hC (by rw [hC]; decide) (by rw [hD]; decide) (by rw [hD, hC]; exact hp0)
        (by rw [hD]; rfl) hn hv (.inl rfl)
      exact ⟨_, q1, .resistance true q2, q3⟩
    · obtain ⟨o, q1, q2, q3⟩ := storage_row (h := 'm') (t := "ass".toList) hw hC (by rw [hC]; decide) (by rw [hD]; decide) (by rw [hD, hC]; exact hp0)
        (by rw [hD]; rfl) hn (.inr ⟨rfl, rfl⟩) hv (.inl rfl)
      exact ⟨_, q1, .effortStorage true q2, q3⟩
    · obtain ⟨o, q1, q2, q3⟩ := storage_row (h := 's') (t := "tiffness".toList) hw hC (by rw [hC]; decide) (by rw [hD]; decide) (by rw [hD, hC]; exact hp0)
        (by rw [hD]; rfl) hn (.inr ⟨rfl, rfl⟩) hv (.inr (hgiv (by simp) _ _ hp0))
      exact ⟨_, q1, .fluxStorage false q2, q3⟩
    · obtain ⟨o, q1, q2, q3⟩ := dissipative_row (h := 'd') (t := "amper".toList) hw hC (by rw [hC]; decide) (by rw [hD]; decide) (by rw [hD, hC]; exact hp0)
        (by rw [hD]; rfl) hn hv (.inl rfl)
      exact ⟨_, q1, .resistance false q2, q3⟩
    · obtain ⟨o, q1, q2, q3⟩ := storage_row (h := 'c') (t := "apacitor".toList) hw hC (by rw [hC]; decide) (by rw [hD]; decide) (by rw [hD, hC]; exact hp0)
        (by rw [hD]; rfl) hn (.inr ⟨rfl, rfl⟩) hv (.inl rfl)
      exact ⟨_, q1, .fluxStorage true q2, q3⟩
    · obtain ⟨o, q1, q2, q3⟩ := dissipative_row (h := 'r') (t := "esistor".toList) hw hC (by rw [hC]; decide) (by rw [hD]; decide) (by rw [hD, hC]; exact hp0)
        (by rw [hD]; rfl) hn hv (.inl rfl)
      exact ⟨_, q1, .resistance false q2, q3⟩

/-! ### Sources -/

theorem branchOf_source {b : Branch} (hs : compName r = "source") (h : branchOf r = some b) :
    (∃ n, nodeNames r = some [n] ∧ b = ⟨name r.label, ground, n⟩) ∨
    ∃ n1 n2, nodeNames r = some [n1, n2] ∧ b = ⟨name r.label, n1, n2⟩ := by
  unfold branchOf at h
  rw [hs] at h
  split at h
  · exact absurd (by assumption : "source" = "mass") (by decide)
  · exact absurd (by assumption : "source" = "mass") (by decide)
  · cases h; exact .inl ⟨_, by assumption, rfl⟩
  · cases h; exact .inr ⟨_, _, by assumption, rfl⟩
  · cases h

theorem port_row {b : Branch} {c : Ctrl} {dflt : Option String} {types : List (String × Ctrl)}
    (hw : Works r) (hs : compName r = "source")
    (hk : classOf (K := ℝ) (dictName r) "Source" = some (.source dflt types))
    (hc : sourceCtrl r.args dflt types = .ok c) (hb : branchOf r = some b) :
    rowPart val r = .ok (.port b.id b.tail b.head c) ∧
      Recorded (paramOf val r) (.port b.id b.tail b.head c) := by
  constructor
  · rcases branchOf_source hs hb with ⟨n, hn, rfl⟩ | ⟨n1, n2, hn, rfl⟩
    all_goals
      rw [rowPart_of (h := 's') (t := "ource".toList) hw hs hk hn]
      unfold Class.init
      dsimp only
      rw [hc, hw.const]
      rfl
  · unfold Recorded paramOf
    rw [if_pos hs]
    rfl

theorem sourceCtrl_of {dflt : Option String} {types : List (String × Ctrl)} {d t : String} {c : Ctrl}
    (ht : sourceType r d = some t) (hc : types.lookup t = some c)
    (hd : dflt = some d ∨ r.args.lookup "type".toList ≠ none) :
    sourceCtrl r.args dflt types = .ok c := by
  unfold sourceType at ht
  unfold sourceCtrl
  cases hl : r.args.lookup "type".toList with
  | none =>
    rw [hl] at ht
    rcases hd with rfl | hd
    · cases ht
      simp only [hc]
    · exact absurd hl hd
  | some a =>
    rw [hl] at ht
    revert ht
    match a with
    | .elem (.str s) =>
      intro ht
      cases ht
      have hc' : types.lookup (txt (s.map Char.toLower)) = some c := hc
      simp only [hc']
    | .elem (.num _) => intro ht; cases ht
    | .tuple _ => intro ht; cases ht
    | .none => intro ht; cases ht
    | .bool _ => intro ht; cases ht

theorem source_row {d t : String} {f : String → Option (Branch → Device)} {g : Branch → Device}
    {b : Branch} (hw : Works r) (hs : compName r = "source")
    (hl : sourceLaw (dictName r) = some (d, f)) (ht : sourceType r d = some t) (hg : f t = some g)
    (hb : branchOf r = some b) :
    ∃ p, rowPart val r = .ok p ∧ Rel p (g b) ∧ Recorded (paramOf val r) p := by
  have htyped := hw.typed hs
  have hmfv := hw.mfv
  generalize hD : dictName r = D at *
  unfold sourceLaw at hl
  split at hl
  · cases hl
    dsimp only at hg
    split at hg <;> cases hg
    · obtain ⟨q1, q2⟩ := port_row (val := val) hw hs (by rw [hD]; rfl)
        (sourceCtrl_of (c := .f) ht rfl (.inr (htyped (.inl rfl)))) hb
      exact ⟨_, q1, .effortSource, q2⟩
    · obtain ⟨q1, q2⟩ := port_row (val := val) hw hs (by rw [hD]; rfl)
        (sourceCtrl_of (c := .e) ht rfl (.inr (htyped (.inl rfl)))) hb
      exact ⟨_, q1, .fluxSource, q2⟩
  · cases hl
    dsimp only at hg
    split at hg <;> cases hg
    · obtain ⟨q1, q2⟩ := port_row (val := val) hw hs (by rw [hD]; rfl)
        (sourceCtrl_of (c := .e) ht rfl (.inl rfl)) hb
      exact ⟨_, q1, .fluxSource, q2⟩
    · obtain ⟨q1, q2⟩ := port_row (val := val) hw hs (by rw [hD]; rfl)
        (sourceCtrl_of (c := .f) ht rfl (.inl rfl)) hb
      exact ⟨_, q1, .effortSource, q2⟩
  · cases hl
    dsimp only at hg
    split at hg <;> cases hg
    · obtain ⟨q1, q2⟩ := port_row (val := val) hw hs (by rw [hD]; rfl)
        (sourceCtrl_of (c := .f) ht rfl (.inr (htyped (.inr rfl)))) hb
      exact ⟨_, q1, .effortSource, q2⟩
    · obtain ⟨q1, q2⟩ := port_row (val := val) hw hs (by rw [hD]; rfl)
        (sourceCtrl_of (c := .e) ht rfl (.inr (htyped (.inr rfl)))) hb
      exact ⟨_, q1, .fluxSource, q2⟩
  · cases hl
    dsimp only at hg
    split at hg <;> cases hg
    · obtain ⟨q1, q2⟩ := port_row (val := val) hw hs (by rw [hD]; rfl)
        (sourceCtrl_of (c := .f) ht rfl (.inl rfl)) hb
      exact ⟨_, q1, .effortSource, q2⟩
    · exact absurd ⟨rfl, hs, ht⟩ hmfv
    · obtain ⟨q1, q2⟩ := port_row (val := val) hw hs (by rw [hD]; rfl)
        (sourceCtrl_of (c := .e) ht rfl (.inl rfl)) hb
      exact ⟨_, q1, .fluxSource, q2⟩
  · cases hl

/-! ### Connectors -/

theorem alpha_args (hn : (r.args.map (·.1)).Nodup) (ha : ∀ p ∈ r.args, p.1 = "alpha".toList) :
    r.args = [] ∨ ∃ a, r.args = [("alpha".toList, a)] := by
  match h : r.args with
  | [] => exact .inl rfl
  | [(k, a)] =>
    have := ha (k, a) (by rw [h]; simp)
    dsimp only at this
    subst this
    exact .inr ⟨a, rfl⟩
  | p :: q :: l =>
    rw [h] at hn
    have h1 := ha p (by rw [h]; simp)
    have h2 := ha q (by rw [h]; simp)
    simp [h1, h2] at hn

theorem connArgs_of {v : ℝ} (hn : (r.args.map (·.1)).Nodup) (ha : ∀ p ∈ r.args, p.1 = "alpha".toList)
    (hv : value val r "alpha" 1 = some v) :
    ∃ o, connArgs val r.args = .ok [("alpha", o)] ∧ IsVal v o ∧
      ∀ auto : String, o.recorded auto =
        [((symbolOf val r "alpha" 1 auto).1, Sym.Val.num (symbolOf val r "alpha" 1 auto).2)] := by
  obtain ⟨o, h1, -, h3, h4⟩ := argument_ok (dflt := some (.num 1)) hv (.inl rfl)
  refine ⟨o, ?_, h3, h4⟩
  rcases alpha_args hn ha with h | ⟨a, h⟩
  · rw [h] at h1 ⊢
    cases h1
    rfl
  · rw [h] at h1 ⊢
    have h1' : toObj val a = .ok o := h1
    unfold connArgs
    have : (List.filter (fun p : Str × Lit F => decide (p.1 ≠ "connector_type".toList))
        [("alpha".toList, a)]) = [("alpha".toList, a)] := rfl
    rw [this, List.mapM_cons, h1']
    rfl

theorem two_row {key : String} {d v : ℝ} {g : Branch → Branch → ℝ → Device} {n1 n2 n3 n4 : String}
    (hw : Works r) (hs : compName r ≠ "source")
    (hp : parameter (dictName r) (compName r) = some (key, d))
    (hg : twoLaw (dictName r) (compName r) = some g) (hv : value val r key d = some v)
    (hn : nodeNames r = some [n1, n2, n3, n4]) :
    ∃ p, rowPart val r = .ok p ∧
      Rel p (g ⟨name r.label ++ "1", n1, n2⟩ ⟨name r.label ++ "2", n3, n4⟩ v) ∧
      Recorded (paramOf val r) p := by
  have hrat := hw.ratio
  have hp0 := hp
  generalize hD : dictName r = D at *
  generalize hC : compName r = C at *
  unfold twoLaw at hg
  split at hg <;> cases hg
  all_goals
    cases hp
    obtain ⟨o, h1, h2, h3⟩ := connArgs_of hw.nodup (hrat rfl) hv
  · refine ⟨.connector (name r.label) n1 n2 n3 n4 [("alpha", o)] .gyrator, ?_, .gyrator h2, ?_⟩
    · rw [rowPart_of (h := 'g') (t := "yrator".toList) (k := .connector .gyrator) hw hC (by rw [hD]; rfl) hn]
      unfold Class.init
      dsimp only
      rw [h1]
      rfl
    · unfold Recorded
      rw [paramOf_eq (by rw [hC]; exact hs) (by rw [hD, hC]; exact hp0), if_pos hD]
      simp only [Part.comp, Comp.records, Comp.args, List.flatMap_cons, List.flatMap_nil, List.append_nil,
        h3, List.map_cons, List.map_nil, String.append_assoc]
      rfl
  · refine ⟨.connector (name r.label) n1 n2 n3 n4 [("alpha", o)] .transformer, ?_, .transformer h2, ?_⟩
    · rw [rowPart_of (h := 't') (t := "ransformer".toList) (k := .connector .transformer) hw hC
        (by rw [hD]; rfl) hn]
      unfold Class.init
      dsimp only
      rw [h1]
      rfl
    · unfold Recorded
      rw [paramOf_eq (by rw [hC]; exact hs) (by rw [hD, hC]; exact hp0), if_pos hD]
      simp only [Part.comp, Comp.records, Comp.args, List.flatMap_cons, List.flatMap_nil, List.append_nil,
        h3, List.map_cons, List.map_nil, String.append_assoc]
      rfl

/-- The component built from an accepted line is the documented one. -/
theorem row_ok {d : Device} (hw : Works r) (hd : device val r = some d) :
    ∃ p, rowPart val r = .ok p ∧ Rel p d ∧ Recorded (paramOf val r) p := by
  unfold device at hd
  dsimp only at hd
  by_cases hs : compName r = "source"
  · rw [if_pos hs] at hd
    obtain ⟨⟨d, f⟩, h1, hd⟩ := Option.bind_eq_some_iff.1 hd
    obtain ⟨t, h2, hd⟩ := Option.bind_eq_some_iff.1 hd
    obtain ⟨g, h3, hd⟩ := Option.bind_eq_some_iff.1 hd
    obtain ⟨b, h4, hd⟩ := Option.bind_eq_some_iff.1 hd
    cases hd
    exact source_row hw hs h1 h2 h3 h4
  · rw [if_neg hs] at hd
    obtain ⟨⟨key, d⟩, h1, hd⟩ := Option.bind_eq_some_iff.1 hd
    obtain ⟨v, h2, hd⟩ := Option.bind_eq_some_iff.1 hd
    cases h3 : twoLaw (dictName r) (compName r) with
    | some g =>
      rw [h3] at hd
      revert hd
      match hn : nodeNames r with
      | some [n1, n2, n3, n4] =>
        intro hd; cases hd
        exact two_row hw hs h1 h3 h2 hn
      | none => intro hd; cases hd
      | some [] => intro hd; cases hd
      | some [_] => intro hd; cases hd
      | some [_, _] => intro hd; cases hd
      | some [_, _, _] => intro hd; cases hd
      | some (_ :: _ :: _ :: _ :: _ :: _) => intro hd; cases hd
    | none =>
      rw [h3] at hd
      obtain ⟨g, h4, hd⟩ := Option.bind_eq_some_iff.1 hd
      obtain ⟨b, h5, hd⟩ := Option.bind_eq_some_iff.1 hd
      cases hd
      exact one_row hw hs h1 h4 h2 h5

/-- The components built from the accepted lines of a netlist. -/
theorem buildParts_ok {rows : List (Row F)} {ds : List Device}
    (hm : List.Forall₂ (fun r d => device val r = some d) rows ds) (hw : ∀ r ∈ rows, Works r) :
    ∃ ps, buildParts val rows = .ok ps ∧ List.Forall₂ Rel ps ds ∧
      (ps.flatMap Part.comp).flatMap Comp.records =
        (rows.flatMap (paramOf val)).map fun q => (q.1, Sym.Val.num q.2) := by
  induction hm with
  | nil => exact ⟨[], rfl, .nil, rfl⟩
  | @cons r d rows ds h _ ih =>
    obtain ⟨p, h1, h2, h3⟩ := row_ok (hw r List.mem_cons_self) h
    obtain ⟨ps, q1, q2, q3⟩ := ih fun r hr => hw r (List.mem_cons_of_mem _ hr)
    refine ⟨p :: ps, ?_, .cons h2 q2, ?_⟩
    · unfold buildParts at q1 ⊢
      rw [List.mapM_cons, h1, q1]
      rfl
    · rw [List.flatMap_cons, List.flatMap_append, q3, List.flatMap_cons, List.map_append]
      unfold Recorded at h3
      rw [h3]

end System
end Pyphs
