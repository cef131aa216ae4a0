/-
Simple conditions on the names chosen by the user under which C80 applies, and examples where
the values do not reach the equations.
-/
import Verif.Params.Props
import Mathlib.Algebra.Field.Rat
import Mathlib.Data.List.Nodup

namespace Pyphs
namespace Params
open Sym Expr

variable {K : Type} [Field K]

/-- A name without underscore, which does not end with `coeff`. -/
def Plain (s : String) : Prop := '_' ∉ s.toList ∧ ¬ "coeff".toList <:+ s.toList

instance (s : String) : Decidable (Plain s) := by unfold Plain; infer_instance

/-- The names given by the user in the arguments. -/
def Obj.user : Obj K → List String
  | .tuple s _ => [s]
  | .str s => [s]
  | _ => []

/-- An argument whose value, if it is given, is a number. -/
def Obj.NoExpr : Obj K → Prop
  | .tuple _ (.num _) => True
  | .num _ => True
  | .str _ => True
  | _ => False

/-- Choice of names: the labels are distinct, the keys are plain names; the variables are plain
names, or `l_k` with a plain name `k` where `l` is not a label (e.g. `wD_R` for a diode); the
names given by the user are plain names, distinct from the variables and from the other keys of
the component; a name has only one value, and a parameter given by its name has none; the values are numbers. -/
structure Simple (cs : List (Comp K)) : Prop where
  labels : (cs.map Comp.label).Nodup
  keys : ∀ c ∈ cs, (c.kwargs.map (·.1)).Nodup
  plainKeys : ∀ c ∈ cs, ∀ p ∈ c.kwargs, Plain p.1
  plainVars : ∀ c ∈ cs, ∀ s ∈ c.vars, Plain s ∨
    ∃ l k, s = l ++ "_" ++ k ∧ Plain k ∧ l ∉ cs.map Comp.label
  user : ∀ c ∈ cs, ∀ a ∈ c.args, ∀ s ∈ a.2.user, Plain s ∧ ∀ c' ∈ cs, s ∉ c'.vars
  others : ∀ c ∈ cs, ∀ p ∈ c.kwargs, ∀ q ∈ c.kwargs, q.1 ∈ p.2.user → q.1 = p.1
  numbers : ∀ c ∈ cs, ∀ a ∈ c.args, a.2.NoExpr
  tuples : ∀ c ∈ cs, ∀ a ∈ c.args, ∀ c' ∈ cs, ∀ a' ∈ c'.args, ∀ s v v',
    a.2 = .tuple s v → a'.2 = .tuple s v' → v = v'
  strs : ∀ c ∈ cs, ∀ a ∈ c.args, ∀ c' ∈ cs, ∀ a' ∈ c'.args, ∀ s v,
    a.2 = .str s → a'.2 ≠ .tuple s v

theorem not_plain_coeff (l : String) : ¬ Plain (l ++ "coeff") := fun h =>
  h.2 (by rw [String.toList_append]; exact List.suffix_append _ _)

theorem not_plain_under (l k : String) : ¬ Plain (l ++ "_" ++ k) := fun h =>
  h.1 (by simp [String.toList_append])

theorem append_inj_left {l l' s : String} (h : l ++ s = l' ++ s) : l = l' := by
  have := congrArg String.toList h
  rw [String.toList_append, String.toList_append] at this
  exact String.toList_inj.1 (List.append_cancel_right this)

theorem under_split {a b k k' : List Char} (h : a ++ '_' :: k = b ++ '_' :: k')
    (hk : '_' ∉ k) (hk' : '_' ∉ k') : a = b ∧ k = k' := by
  induction a generalizing b with
  | nil =>
    cases b with
    | nil => simpa using h
    | cons c b =>
      simp only [List.nil_append, List.cons_append, List.cons.injEq] at h
      exact absurd (h.2 ▸ by simp) hk
  | cons c a ih =>
    cases b with
    | nil =>
      simp only [List.nil_append, List.cons_append, List.cons.injEq] at h
      exact absurd (h.2.symm ▸ by simp) hk'
    | cons d b =>
      simp only [List.cons_append, List.cons.injEq] at h
      obtain ⟨h1, h2⟩ := ih h.2
      exact ⟨by rw [h.1, h1], h2⟩

theorem under_inj {l l' k k' : String} (hk : Plain k) (hk' : Plain k')
    (h : l ++ "_" ++ k = l' ++ "_" ++ k') : l = l' ∧ k = k' := by
  have := congrArg String.toList h
  simp only [String.toList_append] at this
  have h2 : l.toList ++ '_' :: k.toList = l'.toList ++ '_' :: k'.toList := by simpa using this
  obtain ⟨h3, h4⟩ := under_split h2 hk.1 hk'.1
  exact ⟨String.toList_inj.1 h3, String.toList_inj.1 h4⟩

theorem coeff_ne_under {l l' k : String} (hk : Plain k) : l ++ "coeff" ≠ l' ++ "_" ++ k := by
  intro h
  have h1 := congrArg String.toList h
  simp only [String.toList_append] at h1
  have h2 : l.toList ++ "coeff".toList = (l'.toList ++ ['_']) ++ k.toList := by simpa using h1
  rcases le_total "coeff".toList.length k.toList.length with hle | hle
  · refine hk.2 ?_
    have s1 : "coeff".toList <:+ (l'.toList ++ ['_']) ++ k.toList := h2 ▸ List.suffix_append _ _
    exact List.suffix_of_suffix_length_le s1 (List.suffix_append _ _) hle
  · have s1 : "coeff".toList <:+ l'.toList ++ ('_' :: k.toList) := by
      have : l'.toList ++ ('_' :: k.toList) = (l'.toList ++ ['_']) ++ k.toList := by simp
      rw [this, ← h2]; exact List.suffix_append _ _
    have s2 : ('_' :: k.toList) <:+ l'.toList ++ ('_' :: k.toList) := List.suffix_append _ _
    have hc : '_' ∉ "coeff".toList := by decide
    rcases le_total ('_' :: k.toList).length "coeff".toList.length with h3 | h3
    · have := List.suffix_of_suffix_length_le s2 s1 h3
      exact hc (this.subset (by simp))
    · -- then the lengths of `k` and `coeff` are equal up to one
      have h5 := List.suffix_of_suffix_length_le s1 s2 h3
      rcases List.suffix_cons_iff.1 h5 with h6 | h6
      · exact hc (h6 ▸ by simp)
      · exact hk.2 h6

/-- The arguments of a component are determined by the automatic names. -/
theorem args_auto {cs : List (Comp K)} (h : Simple cs) {c c' : Comp K} (hc : c ∈ cs)
    (hc' : c' ∈ cs) {a a' : String × Obj K} (ha : a ∈ c.args) (ha' : a' ∈ c'.args)
    (he : a.1 = a'.1) : a.2 = a'.2 := by
  have hl : c.label = c'.label → c = c' := fun hl => List.inj_on_of_nodup_map h.labels hc hc' hl
  have key : ∀ (d : Comp K), d ∈ cs → ∀ b ∈ d.args,
      (d.args = [b] ∧ b.1 = d.label ++ "coeff") ∨
      (∃ p ∈ d.kwargs, b = (d.label ++ "_" ++ p.1, p.2)) := by
    intro d hd b hb
    cases d with
    | dissLinear l o i =>
      simp only [Comp.args, List.mem_singleton] at hb ⊢
      exact .inl ⟨by rw [hb], by rw [hb]; rfl⟩
    | stoLinear l o i =>
      simp only [Comp.args, List.mem_singleton] at hb ⊢
      exact .inl ⟨by rw [hb], by rw [hb]; rfl⟩
    | nonLinear l kw H z =>
      obtain ⟨p, hp, rfl⟩ := List.mem_map.1 hb
      exact .inr ⟨p, hp, rfl⟩
    | connector l kw =>
      obtain ⟨p, hp, rfl⟩ := List.mem_map.1 hb
      exact .inr ⟨p, hp, rfl⟩
  rcases key c hc a ha with ⟨h1, h2⟩ | ⟨p, hp, rfl⟩ <;>
    rcases key c' hc' a' ha' with ⟨h3, h4⟩ | ⟨q, hq, rfl⟩
  · have := hl (append_inj_left (h2.symm.trans (he.trans h4)))
    subst this
    rw [h1] at ha'
    rw [List.mem_singleton.1 ha']
  · exact absurd (h2.symm.trans he) (coeff_ne_under (h.plainKeys c' hc' q hq))
  · exact absurd (h4.symm.trans he.symm) (coeff_ne_under (h.plainKeys c hc p hp))
  · obtain ⟨h1, h2⟩ := under_inj (h.plainKeys c hc p hp) (h.plainKeys c' hc' q hq) he
    have := hl h1
    subst this
    have e1 := nlookup (h.keys c hc) hp
    have e2 := nlookup (h.keys c hc) hq
    rw [h2, e2] at e1
    exact (Option.some.inj e1).symm

theorem auto_not_plain {c : Comp K} {a : String × Obj K} (ha : a ∈ c.args) : ¬ Plain a.1 := by
  cases c with
  | dissLinear l o i => simp only [Comp.args, List.mem_singleton] at ha; rw [ha]; exact not_plain_coeff l
  | stoLinear l o i => simp only [Comp.args, List.mem_singleton] at ha; rw [ha]; exact not_plain_coeff l
  | nonLinear l kw H z => obtain ⟨p, _, rfl⟩ := List.mem_map.1 ha; exact not_plain_under _ _
  | connector l kw => obtain ⟨p, _, rfl⟩ := List.mem_map.1 ha; exact not_plain_under _ _

/-- The form of the automatic names. -/
theorem auto_form {cs : List (Comp K)} (h : Simple cs) {c : Comp K} (hc : c ∈ cs)
    {a : String × Obj K} (ha : a ∈ c.args) :
    a.1 = c.label ++ "coeff" ∨ ∃ k, Plain k ∧ a.1 = c.label ++ "_" ++ k := by
  cases c with
  | dissLinear l o i => simp only [Comp.args, List.mem_singleton] at ha; rw [ha]; exact .inl rfl
  | stoLinear l o i => simp only [Comp.args, List.mem_singleton] at ha; rw [ha]; exact .inl rfl
  | nonLinear l kw H z =>
    obtain ⟨p, hp, rfl⟩ := List.mem_map.1 ha
    exact .inr ⟨p.1, h.plainKeys _ hc p hp, rfl⟩
  | connector l kw =>
    obtain ⟨p, hp, rfl⟩ := List.mem_map.1 ha
    exact .inr ⟨p.1, h.plainKeys _ hc p hp, rfl⟩

/-- The records of a simple choice of names. -/
theorem mem_records {cs : List (Comp K)} (h : Simple cs) {p : String × Val K} (hp : p ∈ records cs) :
    ∃ c ∈ cs, ∃ a ∈ c.args, ((∃ k, a.2 = .num k ∧ p = (a.1, .num k)) ∨
      ∃ s k, a.2 = .tuple s (.num k) ∧ p = (s, .num k)) := by
  obtain ⟨c, hc, hp⟩ := List.mem_flatMap.1 hp
  obtain ⟨a, ha, hp⟩ := List.mem_flatMap.1 hp
  refine ⟨c, hc, a, ha, ?_⟩
  have hn := h.numbers c hc a ha
  cases hv : a.2 with
  | tuple s v =>
    rw [hv] at hp hn
    cases v with
    | num k => exact .inr ⟨s, k, rfl, by simpa [Obj.recorded] using hp⟩
    | ex b => simp [Obj.NoExpr] at hn
  | num k => rw [hv] at hp; exact .inl ⟨k, rfl, by simpa [Obj.recorded] using hp⟩
  | str s => rw [hv] at hp; simp [Obj.recorded] at hp
  | expr b => rw [hv] at hn; simp [Obj.NoExpr] at hn

/-- **C80**: with a simple choice of names, the conditions of the other theorems hold. -/
theorem C80_names (cs : List (Comp K)) (h : Simple cs) : NamesOK cs ∧ NamesFree cs := by
  refine ⟨⟨h.keys, fun c hc p hp q hq hlt => ?_, fun p hp q hq hpq => ?_⟩,
    ⟨fun s hs hm => ?_, fun c hc s hs hm => ?_, fun p hp s hs _ => ?_⟩⟩
  · intro he
    have hpl := h.plainKeys c hc q hq
    have hne : p.1 ≠ q.1 := fun h0 => String.lt_irrefl _ (h0 ▸ hlt)
    cases hv : p.2 with
    | tuple s v =>
      rw [hv] at he
      exact hne (h.others c hc p hp q hq (by rw [hv, ← he]; simp [Obj.user, Obj.symbol])).symm
    | str s =>
      rw [hv] at he
      exact hne (h.others c hc p hp q hq (by rw [hv, ← he]; simp [Obj.user, Obj.symbol])).symm
    | num k => rw [hv] at he; exact not_plain_under _ _ (he ▸ hpl)
    | expr b => rw [hv] at he; exact not_plain_under _ _ (he ▸ hpl)
  · obtain ⟨c, hc, a, ha, h1⟩ := mem_records h hp
    obtain ⟨c', hc', a', ha', h2⟩ := mem_records h hq
    rcases h1 with ⟨k, e1, rfl⟩ | ⟨s, k, e1, rfl⟩ <;> rcases h2 with ⟨k', e2, rfl⟩ | ⟨s', k', e2, rfl⟩
    · have := args_auto h hc hc' ha ha' hpq
      rw [e1, e2] at this
      injection this with this
      simp [this]
    · exact absurd (show Plain a.1 by
        rw [show a.1 = s' from hpq]
        exact (h.user c' hc' a' ha' s' (by simp [e2, Obj.user])).1) (auto_not_plain ha)
    · exact absurd (show Plain a'.1 by
        rw [← show s = a'.1 from hpq]
        exact (h.user c hc a ha s (by simp [e1, Obj.user])).1) (auto_not_plain ha')
    · have : s = s' := hpq
      subst this
      exact h.tuples c hc a ha c' hc' a' ha' s _ _ e1 e2
  · obtain ⟨c, hc, hs⟩ := List.mem_flatMap.1 hs
    obtain ⟨a, ha, hs⟩ := List.mem_flatMap.1 hs
    have hv : a.2 = .str s := by
      cases hv : a.2 <;> rw [hv] at hs <;> simp [Obj.named] at hs
      rw [hs]
    obtain ⟨p, hp, rfl⟩ := List.mem_map.1 hm
    obtain ⟨c', hc', a', ha', h2⟩ := mem_records h hp
    rcases h2 with ⟨k', e2, rfl⟩ | ⟨s', k', e2, rfl⟩
    · exact auto_not_plain ha' (h.user c hc a ha a'.1 (by simp [hv, Obj.user])).1
    · exact h.strs c hc a ha c' hc' a' ha' s' _ hv e2
  · obtain ⟨p, hp, rfl⟩ := List.mem_map.1 hm
    obtain ⟨c', hc', a', ha', h2⟩ := mem_records h hp
    rcases h2 with ⟨k', e2, rfl⟩ | ⟨s', k', e2, rfl⟩
    · rcases h.plainVars c hc _ hs with h3 | ⟨l, k, h3, hk, hl⟩
      · exact auto_not_plain ha' h3
      · rcases auto_form h hc' ha' with h4 | ⟨k', hk', h4⟩
        · exact coeff_ne_under hk (h4.symm.trans h3)
        · exact hl ((under_inj hk hk' (h3.symm.trans h4)).1 ▸ List.mem_map_of_mem hc')
    · exact ((h.user c' hc' a' ha' s' (by simp [e2, Obj.user])).2 c hc) hs
  · obtain ⟨c', hc', a', ha', h2⟩ := mem_records h hp
    rcases h2 with ⟨k', e2, rfl⟩ | ⟨s', k', e2, rfl⟩ <;> simp [Val.expr, free] at hs

/-! ### Examples -/

/-- A diode (electronics/_diode.py, effort-controlled laws left out): the conductance `gmin` is
shared by all diodes. -/
def exDiode (label : String) (is : ℚ) : Comp ℚ :=
  .nonLinear label [("Is", .num is), ("R", .num 7), ("gmin", .tuple "gmin" (.num 2))] (.const 0)
    [(.op1 "log" (.op2 "/" (.sym ("w" ++ label)) (.sym "Is")), .const 0),
     (.op2 "*" (.sym "R") (.sym ("w" ++ label ++ "_R")), .const 0),
     (.op2 "/" (.sym ("w" ++ label ++ "_gmin")) (.sym "gmin"), .const 0)]

/-- A resistor `R1` with a number, a capacitor `C` with a parameter, two diodes, a gyrator, and a
spring whose linear part has a named value. -/
def exSystem : List (Comp ℚ) :=
  [.dissLinear "R1" (.num 1000) false,
   .stoLinear "C" (.str "capa") true,
   exDiode "D1" 3, exDiode "D2" 4,
   .nonLinear "S" [("F1", .tuple "force" (.num 10)), ("F3", .num 3)]
     (.op2 "+" (.op2 "*" (.sym "F1") (.op1 "sq" (.sym "xS"))) (.op2 "*" (.sym "F3") (.sym "xS"))) [],
   .connector "G" [("alpha", .num 2)]]

/-- The arguments of the example. -/
theorem exArgs {P : Obj ℚ → Prop} (h1 : P (.num 1000)) (h2 : P (.str "capa")) (h3 : P (.num 3))
    (h4 : P (.num 4)) (h5 : P (.num 7)) (h6 : P (.tuple "gmin" (.num 2)))
    (h7 : P (.tuple "force" (.num 10))) (h8 : P (.num 2)) :
    ∀ c ∈ exSystem, ∀ a ∈ c.args, P a.2 := by
  simp only [exSystem, exDiode, List.forall_mem_cons, Comp.args, List.map_cons, List.map_nil]
  refine ⟨⟨h1, by simp⟩, ⟨h2, by simp⟩, ⟨h3, h5, h6, by simp⟩, ⟨h4, h5, h6, by simp⟩,
    ⟨h7, h3, by simp⟩, ⟨h8, by simp⟩, by simp⟩

theorem exSimple : Simple exSystem where
  labels := by decide +kernel
  keys := by intro c hc; revert c; simp [exSystem, exDiode, Comp.kwargs]
  plainKeys := by
    intro c hc; revert c
    simp only [exSystem, exDiode, List.forall_mem_cons, Comp.kwargs]
    refine ⟨by simp, by simp, ⟨by decide +kernel, by decide +kernel, by decide +kernel, by simp⟩,
      ⟨by decide +kernel, by decide +kernel, by decide +kernel, by simp⟩,
      ⟨by decide +kernel, by decide +kernel, by simp⟩, ⟨by decide +kernel, by simp⟩, by simp⟩
  plainVars := by
    intro c hc; revert c
    have hp : ∀ l : List String, (∀ s ∈ l, Plain s) → ∀ s ∈ l, Plain s ∨ ∃ a k,
      s = a ++ "_" ++ k ∧ Plain k ∧ a ∉ exSystem.map Comp.label := fun l h s hs => .inl (h s hs)
    have hd : ∀ l is, (exDiode l is).vars = ["w" ++ l, "w" ++ l ++ "_R", "w" ++ l ++ "_gmin"] →
        Plain ("w" ++ l) → "w" ++ l ∉ exSystem.map Comp.label → ∀ s ∈ (exDiode l is).vars, Plain s ∨
          ∃ a k, s = a ++ "_" ++ k ∧ Plain k ∧ a ∉ exSystem.map Comp.label := by
      intro l is h h1 h2 s hs
      rw [h] at hs
      simp only [List.mem_cons, List.not_mem_nil, or_false] at hs
      rcases hs with rfl | rfl | rfl
      · exact .inl h1
      · exact .inr ⟨"w" ++ l, "R", by simp [String.append_assoc], by decide +kernel, h2⟩
      · exact .inr ⟨"w" ++ l, "gmin", by simp [String.append_assoc], by decide +kernel, h2⟩
    intro c hc
    simp only [exSystem, List.mem_cons, List.not_mem_nil, or_false] at hc
    rcases hc with rfl | rfl | rfl | rfl | rfl | rfl
    · exact hp _ (by decide +kernel)
    · exact hp _ (by decide +kernel)
    · exact hd _ _ (by decide +kernel) (by decide +kernel) (by decide +kernel)
    · exact hd _ _ (by decide +kernel) (by decide +kernel) (by decide +kernel)
    · exact hp _ (by decide +kernel)
    · exact hp _ (by decide +kernel)
  user := exArgs (P := fun o => ∀ s ∈ o.user, Plain s ∧ ∀ c' ∈ exSystem, s ∉ c'.vars)
    (by simp [Obj.user]) (by decide +kernel) (by simp [Obj.user]) (by simp [Obj.user])
    (by simp [Obj.user]) (by decide +kernel) (by decide +kernel) (by simp [Obj.user])
  others := by
    intro c hc; revert c
    simp only [exSystem, exDiode, List.forall_mem_cons, Comp.kwargs, Obj.user]
    simp
  numbers := exArgs (P := Obj.NoExpr) trivial trivial trivial trivial trivial trivial trivial trivial
  tuples := by
    intro c hc a ha c' hc' a' ha' s v v' h1 h2
    have key := exArgs (P := fun o => ∀ s v, o = .tuple s v →
      v = .num (if s = "gmin" then 2 else 10)) (by simp) (by simp) (by simp) (by simp) (by simp)
      (by rintro s v ⟨⟩; rfl) (by rintro s v ⟨⟩; rfl) (by simp)
    rw [key c hc a ha s v h1, key c' hc' a' ha' s v' h2]
  strs := by
    intro c hc a ha c' hc' a' ha' s v h1 h2
    have k1 := exArgs (P := fun o => ∀ s, o = .str s → s = "capa") (by simp) (by simp) (by simp)
      (by simp) (by simp) (by simp) (by simp) (by simp)
    have k2 := exArgs (P := fun o => ∀ s v, o = .tuple s v → s = "gmin" ∨ s = "force") (by simp)
      (by simp) (by simp) (by simp) (by simp) (by rintro s v ⟨⟩; simp) (by rintro s v ⟨⟩; simp)
      (by simp)
    rcases k2 c' hc' a' ha' s v h2 with h | h <;>
      exact absurd ((k1 c hc a ha s h1).symm.trans h) (by decide)

/-- A meaning of the operations over the rationals. -/
def ratI : Interp ℚ :=
  ⟨fun f a => if f = "inv" then a⁻¹ else if f = "sq" then a * a else a,
    fun f a b => if f = "+" then a + b else if f = "*" then a * b else if f = "/" then a / b else 0⟩

theorem ratArith : Arith ratI := ⟨fun _ _ => rfl, fun _ _ => rfl, fun _ _ => rfl, fun _ => rfl⟩

/-- The theorems apply: with `capa = 4`, `xC = 6` and `xS = 1`, the energy is `36/8 + 10 + 3`. -/
example : ((coreOf exSystem).toS.substitute [] true false).1.values ratI
    (fun s => if s = "capa" then 4 else if s = "xC" then 6 else if s = "wR1" then 5 else 1) =
    [[35 / 2], [5000, 1 / 3, 7, 1 / 2, 1 / 4, 7, 1 / 2], [1 / 200, 0, 0, 0, 0, 0, 0], [2]] := by
  obtain ⟨h1, h2⟩ := C80_names exSystem exSimple
  rw [(C80_resolved ratArith exSystem h1 h2).1]
  decide +kernel

example : (coreOf exSystem).p = ["capa"] := by decide +kernel

/-! ### Disagreements -/

/-- **C80**, disagreement: keys are replaced one after the other in the order of their names.
With `Is` named `v0` in a law `Is * v / v0`, the value of `v0` is used for both. -/
theorem C80_capture_counterexample :
    let c : Comp ℚ := .nonLinear "D" [("Is", .tuple "v0" (.num 3)), ("v0", .num 7)] (.const 0)
      [(.op2 "/" (.op2 "*" (.sym "Is") (.sym "wD")) (.sym "v0"), .const 0)]
    (c.laws ratI fun _ => 1) = [(3 / 7, 0)] ∧
    ((coreOf [c]).toS.substitute [] true false).1.values ratI (fun _ => 1) =
      [[0], [1], [0], []] := by
  refine ⟨?_, ?_⟩ <;> decide +kernel

/-- **C80**, disagreement: two components which use one name for two values both have the value
of the last one; nothing is reported. -/
theorem C80_shared_name_counterexample :
    let cs : List (Comp ℚ) := [.dissLinear "a" (.tuple "R" (.num 1)) false,
      .dissLinear "b" (.tuple "R" (.num 2)) false]
    (cs.flatMap fun c => c.laws ratI fun _ => 1) = [(1, 1), (2, 1 / 2)] ∧
    ((coreOf cs).toS.substitute [] true false).1.values ratI (fun _ => 1) =
      [[0], [2, 2], [1 / 2, 1 / 2], []] := by
  refine ⟨?_, ?_⟩ <;> decide +kernel

/-- **C80**, disagreement: a parameter of the core which is also the name of a value in another
component has no effect: the result does not depend on the value `r` of the parameter. -/
theorem C80_fixed_parameter_counterexample :
    let cs : List (Comp ℚ) := [.dissLinear "a" (.str "R") false,
      .dissLinear "b" (.tuple "R" (.num 2)) false]
    (coreOf cs).p = ["R"] ∧ Dict.keys (coreOf cs).subs = ["R"] ∧
    ((coreOf cs).toS.substitute [] true false).1.attrs.map (List.map Expr.free) =
      [[[]], [["wa"], ["wb"]], [["wa"], ["wb"]], []] := by
  refine ⟨?_, ?_, ?_⟩ <;> decide +kernel

/-- **C80**, disagreement: a parameter used by two components is twice in `core.p`. -/
theorem C80_twice_counterexample :
    (coreOf ([.dissLinear "a" (.str "R") false, .dissLinear "b" (.str "R") true] :
      List (Comp ℚ))).p = ["R", "R"] := by decide +kernel

/-- **C80**, disagreement: the state of a component can have the name of a parameter of another
one. With labels `xa` and `a_R`, the state of the second component is replaced by the value of
the parameter `R` of the first. -/
theorem C80_label_counterexample :
    let cs : List (Comp ℚ) := [.nonLinear "xa" [("R", .num 5)] (.const 0)
        [(.op2 "*" (.sym "R") (.sym "wxa"), .const 0)],
      .stoLinear "a_R" (.num 2) false]
    ((coreOf cs).toS.substitute [] true false).1.values ratI (fun _ => 1) =
      [[25], [5], [0], []] ∧ (cs.map fun c => c.energy ratI fun _ => 1).sum = 1 := by
  refine ⟨?_, ?_⟩ <;> decide +kernel

/-- **C80**, disagreement: a keyword argument which is not a parameter of the component is
accepted; the equations use the default value. -/
theorem C80_misspelt_counterexample :
    let c : Comp ℚ := .nonLinear "D" (withDefaults [("R", .num 5)] [("r", .num 9)]) (.const 0)
      [(.op2 "*" (.sym "R") (.sym "wD"), .const 0)]
    ((coreOf [c]).toS.substitute [] true false).1.values ratI (fun _ => 1) =
      [[0], [5], [0], []] := by decide +kernel

end Params
end Pyphs
