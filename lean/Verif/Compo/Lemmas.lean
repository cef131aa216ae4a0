/-
Names and values of the parameters of components.
-/
import Verif.Compo.Model
import Mathlib.Tactic.Linarith
import Mathlib.Tactic.Positivity

namespace Pyphs
namespace Compo
open Sym Sym.Expr

/-! ### Values -/

section
variable (ρ : String → ℝ) (a b : E)

@[simp] theorem val_sym (x : String) : val ρ (.sym x) = ρ x := rfl
@[simp] theorem val_const (c : ℝ) : val ρ (.const c) = c := rfl
@[simp] theorem val_add : val ρ (a + b) = val ρ a + val ρ b := by
  show val ρ (.op2 "+" a b) = _; simp [val, Expr.eval, realI]
@[simp] theorem val_sub : val ρ (a - b) = val ρ a - val ρ b := by
  show val ρ (.op2 "-" a b) = _; simp [val, Expr.eval, realI]
@[simp] theorem val_mul : val ρ (a * b) = val ρ a * val ρ b := by
  show val ρ (.op2 "*" a b) = _; simp [val, Expr.eval, realI]
@[simp] theorem val_div : val ρ (a / b) = val ρ a / val ρ b := by
  show val ρ (.op2 "/" a b) = _; simp [val, Expr.eval, realI]
@[simp] theorem val_pow : val ρ (a ^ b) = val ρ a ^ val ρ b := by
  show val ρ (.op2 "**" a b) = _; simp [val, Expr.eval, realI]
@[simp] theorem val_exp : val ρ (.op1 "exp" a) = Real.exp (val ρ a) := by
  simp [val, Expr.eval, realI]
@[simp] theorem val_log : val ρ (.op1 "log" a) = Real.log (val ρ a) := by
  simp [val, Expr.eval, realI]
@[simp] theorem val_cos : val ρ (.op1 "cos" a) = Real.cos (val ρ a) := by
  simp [val, Expr.eval, realI]
@[simp] theorem val_sqrt : val ρ (.op1 "sqrt" a) = Real.sqrt (val ρ a) := by
  simp [val, Expr.eval, realI]
@[simp] theorem val_tanh : val ρ (.op1 "tanh" a) = Real.tanh (val ρ a) := by
  simp [val, Expr.eval, realI]
@[simp] theorem val_pos : val ρ (.op2 "pos" a b) = if val ρ a ≤ 0 then 0 else val ρ b := by
  have h : ∀ u v : ℝ, realI.f2 "pos" u v = if u ≤ 0 then 0 else v := by
    intro u v; simp [realI]
  exact h _ _

end

/-! ### Specification of parameters -/

/-- The number that an argument stands for. -/
def Arg.value (ρ : String → ℝ) : Arg → ℝ
  | .num v => v
  | .named _ v => v
  | .str x => ρ x

/-- The number given with an argument, if any. -/
def Arg.number : Arg → Option ℝ
  | .num v => some v
  | .named _ v => some v
  | .str _ => none

/-- The values of the symbols of a constitutive law: a parameter has the value of its
argument, any other symbol its own value. -/
def penv (kw : Dict Arg) (ρ : String → ℝ) : String → ℝ := fun x =>
  match kw.lookup x with
  | some a => a.value ρ
  | none => ρ x

/-- The symbol that represents a parameter in the core. -/
def symbOf (label : String) (p : String × Arg) : String :=
  (form (label ++ "_" ++ p.1) p.2).symb

/-- Admissible names: the keys are distinct, no parameter is represented by the name of
another key, the variables of the component are not keys, and a name stands for one number. -/
structure NamesOK (label : String) (kw : Dict Arg) (vars : List String) : Prop where
  nodup : (Dict.keys kw).Nodup
  noclash : ∀ p ∈ kw, ∀ x ∈ Dict.keys kw, x ≠ p.1 → symbOf label p ≠ x
  vars : ∀ v ∈ vars, v ∉ Dict.keys kw
  single : ∀ p ∈ kw, ∀ q ∈ kw, symbOf label p = symbOf label q →
    ∀ v v', p.2.number = some v → q.2.number = some v' → v = v'

/-- The values of the symbols agree with the dictionary of substitutions of the core. -/
def Agrees (ρ : String → ℝ) (subs : Dict ℝ) : Prop := ∀ p ∈ subs, ρ p.1 = p.2

/-! ### `mappars` -/

/-- One step of `mappars`. -/
def mapStep (label : String) (m : Mapped) (a : String × Arg) : Mapped :=
  let f := form (label ++ "_" ++ a.1) a.2
  { dicpars := m.dicpars.set a.1 (s f.symb)
    subs := m.subs.update f.sub
    p := match f.par with
      | none => m.p
      | some x => m.p ++ [x] }

theorem mappars_eq (label : String) (kw : Dict Arg) :
    mappars label kw = kw.foldl (mapStep label) ⟨[], [], []⟩ := rfl

theorem foldl_dicpars (label : String) (kw : Dict Arg) (m : Mapped)
    (h : (Dict.keys m.dicpars ++ Dict.keys kw).Nodup) :
    (kw.foldl (mapStep label) m).dicpars =
      m.dicpars ++ kw.map fun p => (p.1, s (symbOf label p)) := by
  induction kw generalizing m with
  | nil => simp
  | cons a kw ih =>
    have hk : a.1 ∉ Dict.keys m.dicpars := by
      intro h0
      have := (List.nodup_append.1 h).2.2 _ h0 a.1 (by simp [Dict.keys])
      exact this rfl
    have hs : (mapStep label m a).dicpars = m.dicpars ++ [(a.1, s (symbOf label a))] := by
      simp only [mapStep, Dict.set, if_neg hk, symbOf]
    rw [List.foldl_cons, ih, hs]
    · simp
    · rw [hs]
      simpa [Dict.keys, List.append_assoc] using h

theorem dicpars_eq {label : String} {kw : Dict Arg} (h : (Dict.keys kw).Nodup) :
    (mappars label kw).dicpars = kw.map fun p => (p.1, s (symbOf label p)) := by
  rw [mappars_eq, foldl_dicpars]
  · simp
  · simpa [Dict.keys] using h

theorem form_number {name : String} {a : Arg} {v : ℝ} (h : a.number = some v) :
    (form name a).sub = [((form name a).symb, v)] := by
  cases a <;> simp_all [Arg.number, form]

theorem form_none {name : String} {a : Arg} (h : a.number = none) :
    (form name a).sub = [] := by
  cases a <;> simp_all [Arg.number, form]

theorem subs_inv (label : String) (kw : Dict Arg) :
    (∀ p ∈ kw, p.2.number.isSome → symbOf label p ∈ Dict.keys (mappars label kw).subs) ∧
    ∀ t ∈ (mappars label kw).subs, ∃ p ∈ kw, symbOf label p = t.1 ∧ p.2.number = some t.2 := by
  rw [mappars_eq]
  induction kw using List.reverseRecOn with
  | nil => simp
  | append_singleton kw a ih =>
    rw [List.foldl_append]
    simp only [List.foldl_cons, List.foldl_nil]
    set m := kw.foldl (mapStep label) ⟨[], [], []⟩ with hm
    have hsub : (mapStep label m a).subs = m.subs.update (form (label ++ "_" ++ a.1) a.2).sub := rfl
    rw [hsub]
    constructor
    · intro p hp hv
      rw [mem_keys_update]
      rcases List.mem_append.1 hp with hp | hp
      · exact .inl (ih.1 p hp hv)
      · rw [List.mem_singleton] at hp
        subst hp
        obtain ⟨v, hv⟩ := Option.isSome_iff_exists.1 hv
        right
        rw [form_number hv]
        simp [Dict.keys, symbOf]
    · intro t ht
      rcases mem_update ht with ht | ht
      · obtain ⟨p, hp, h1⟩ := ih.2 t ht
        exact ⟨p, by simp [hp], h1⟩
      · refine ⟨a, by simp, ?_⟩
        cases hv : a.2.number with
        | none => rw [form_none hv] at ht; simp at ht
        | some v =>
          rw [form_number hv, List.mem_singleton] at ht
          subst ht
          exact ⟨rfl, rfl⟩

theorem symb_value {label : String} {kw : Dict Arg} {vars : List String}
    (h : NamesOK label kw vars) {ρ : String → ℝ} (ha : Agrees ρ (mappars label kw).subs)
    {p : String × Arg} (hp : p ∈ kw) : ρ (symbOf label p) = p.2.value ρ := by
  cases hv : p.2.number with
  | none =>
    obtain ⟨x, a⟩ := p
    cases a <;> simp_all [Arg.number, Arg.value, symbOf, form]
  | some v =>
    have h1 := (subs_inv label kw).1 p hp (by simp [hv])
    obtain ⟨t, ht, h2⟩ := List.mem_map.1 h1
    obtain ⟨q, hq, h3, h4⟩ := (subs_inv label kw).2 t ht
    have h5 := h.single p hp q hq (h2.symm.trans h3.symm) v t.2 hv h4
    have h6 : p.2.value ρ = v := by
      obtain ⟨x, a⟩ := p
      cases a <;> simp_all [Arg.number, Arg.value]
    rw [h6, h5, ← h2]
    exact ha t ht

theorem lookup_map_symb {label : String} {kw : Dict Arg} (x : String) :
    (kw.map fun p => (p.1, s (symbOf label p))).lookup x =
      (kw.find? fun p => p.1 == x).map fun p => s (symbOf label p) := by
  induction kw with
  | nil => rfl
  | cons a kw ih =>
    rw [List.map_cons, List.lookup_cons, List.find?_cons, ih]
    by_cases hx : a.1 = x
    · subst hx; simp
    · have h1 : (x == a.1) = false := by simpa using fun h => hx h.symm
      have h2 : (a.1 == x) = false := by simpa using hx
      simp [h1, h2]

theorem lookup_find (kw : Dict Arg) (x : String) :
    kw.lookup x = (kw.find? fun p => p.1 == x).map (·.2) := by
  induction kw with
  | nil => rfl
  | cons a kw ih =>
    rw [List.lookup_cons, List.find?_cons, ih]
    by_cases hx : a.1 = x
    · subst hx; simp
    · have h1 : (x == a.1) = false := by simpa using fun h => hx h.symm
      have h2 : (a.1 == x) = false := by simpa using hx
      simp [h1, h2]

/-- Value of a law after the substitution of the parameters. -/
theorem val_mappars {label : String} {kw : Dict Arg} {vars : List String}
    (h : NamesOK label kw vars) {ρ : String → ℝ} (ha : Agrees ρ (mappars label kw).subs) (t : E) :
    val ρ (t.subsDict (mappars label kw).dicpars) = val (penv kw ρ) t := by
  have hd := dicpars_eq (label := label) h.nodup
  have hu : Unchained (mappars label kw).dicpars := by
    rw [hd]
    constructor
    · simpa [Dict.keys, List.map_map, Function.comp_def] using h.nodup
    · intro p hp q hq hne
      obtain ⟨p0, hp0, rfl⟩ := List.mem_map.1 hp
      obtain ⟨q0, hq0, rfl⟩ := List.mem_map.1 hq
      simp only [Expr.free, List.mem_singleton]
      exact fun h0 => h.noclash p0 hp0 q0.1 (List.mem_map_of_mem hq0) hne h0.symm
  unfold val
  rw [eval_subsDict realI _ hu]
  congr 1
  funext x
  unfold substEnv penv
  rw [hd, lookup_map_symb, lookup_find]
  cases hf : kw.find? fun p => p.1 == x with
  | none => rfl
  | some p =>
    have hp := List.mem_of_find?_eq_some hf
    exact symb_value h ha hp

theorem penv_var {kw : Dict Arg} {x : String} (h : x ∉ Dict.keys kw) (ρ : String → ℝ) :
    penv kw ρ x = ρ x := by
  unfold penv
  have : kw.lookup x = none := by
    rw [List.lookup_eq_none_iff]
    intro p hp
    simp only [beq_eq_false_iff_ne, ne_eq, bne_iff_ne]
    rintro rfl
    exact h (List.mem_map_of_mem hp)
  rw [this]

/-! ### Defaults -/

theorem lookup_set (d : Dict Arg) (x y : String) (v : Arg) :
    (d.set x v).lookup y = if y = x then some v else d.lookup y := by
  unfold Dict.set
  split
  · rename_i hk
    induction d with
    | nil => simp [Dict.keys] at hk
    | cons a d ih =>
      rw [List.map_cons, List.lookup_cons, List.lookup_cons]
      by_cases hx : a.1 = x
      · rw [if_pos hx]
        by_cases hy : y = x
        · subst hy; simp
        · have h1 : (y == x) = false := by simpa using hy
          have h2 : (y == a.1) = false := by rw [hx]; exact h1
          simp only [h1, h2, if_neg hy]
          clear ih hk
          induction d with
          | nil => rfl
          | cons b d ih =>
            rw [List.map_cons, List.lookup_cons, List.lookup_cons, ih]
            by_cases hb : b.1 = x
            · have : (y == b.1) = false := by rw [hb]; exact h1
              rw [if_pos hb]; simp [h1, this]
            · rw [if_neg hb]
      · rw [if_neg hx]
        have hk' : x ∈ Dict.keys d := by
          rcases List.mem_cons.1 hk with h | h
          · exact absurd h.symm hx
          · exact h
        rw [ih hk']
        by_cases hy : y = a.1
        · subst hy; simp [hx]
        · have h1 : (y == a.1) = false := by simpa using hy
          simp [h1]
  · rename_i hk
    by_cases hy : y = x
    · subst hy
      have : d.lookup y = none := by
        rw [List.lookup_eq_none_iff]
        intro p hp
        simp only [beq_eq_false_iff_ne, ne_eq, bne_iff_ne]
        rintro rfl
        exact hk (List.mem_map_of_mem hp)
      simp [List.lookup_append, this]
    · have h1 : (y == x) = false := by simpa using hy
      simp [List.lookup_append, List.lookup_cons, h1, hy]

theorem lookup_update (d d' : Dict Arg) (hd : (Dict.keys d').Nodup) (y : String) :
    (d.update d').lookup y = (d'.lookup y).or (d.lookup y) := by
  unfold Dict.update
  induction d' generalizing d with
  | nil => simp
  | cons a d' ih =>
    have hn := List.nodup_cons.1 (by simpa [Dict.keys] using hd : (a.1 :: Dict.keys d').Nodup)
    rw [List.foldl_cons, ih _ hn.2, lookup_set, List.lookup_cons]
    by_cases hy : y = a.1
    · subst hy
      have : d'.lookup a.1 = none := by
        rw [List.lookup_eq_none_iff]
        intro p hp
        simp only [beq_eq_false_iff_ne, ne_eq, bne_iff_ne]
        intro h0
        exact hn.1 (h0 ▸ List.mem_map_of_mem hp)
      simp [this]
    · have h1 : (y == a.1) = false := by simpa using hy
      simp [h1, hy]

/-- A parameter that is given has the given value, the others the default one. -/
theorem penv_update (d kw : Dict Arg) (hk : (Dict.keys kw).Nodup) (ρ : String → ℝ) (y : String) :
    penv (d.update kw) ρ y = match kw.lookup y with
      | some a => a.value ρ
      | none => penv d ρ y := by
  unfold penv
  rw [lookup_update _ _ hk]
  cases kw.lookup y <;> rfl

theorem keys_nodup_set {d : Dict Arg} {x : String} {v : Arg} (h : (Dict.keys d).Nodup) :
    (Dict.keys (d.set x v)).Nodup := by
  unfold Dict.set
  split
  · have : Dict.keys (d.map fun p => if p.1 = x then (x, v) else p) = Dict.keys d := by
      unfold Dict.keys
      rw [List.map_map]
      refine List.map_congr_left fun p _ => ?_
      by_cases hp : p.1 = x
      · simp [hp]
      · simp [hp]
    rw [this]; exact h
  · rename_i hk
    simp only [Dict.keys, List.map_append, List.map_cons, List.map_nil]
    exact List.Nodup.append h (by simp) (by
      rw [List.disjoint_singleton]; exact hk)

theorem keys_nodup_update {d d' : Dict Arg} (h : (Dict.keys d).Nodup) :
    (Dict.keys (d.update d')).Nodup := by
  unfold Dict.update
  induction d' generalizing d with
  | nil => exact h
  | cons a d' ih => exact ih (keys_nodup_set h)

end Compo
end Pyphs
