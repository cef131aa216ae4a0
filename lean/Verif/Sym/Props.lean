/-
Properties C27 (evaluation point of the structure), C28 (substitution of parameters).
-/
import Verif.Sym.Model
import Mathlib.Data.List.Sort
import Mathlib.Algebra.Field.Rat
import Mathlib.Tactic.Ring
import Mathlib.Tactic.NormNum

namespace Pyphs
namespace Sym
variable {K : Type}

namespace Expr

theorem eval_congr (I : Interp K) {e e' : String → K} (a : Expr K)
    (h : ∀ s ∈ a.free, e s = e' s) : a.eval I e = a.eval I e' := by
  induction a with
  | const c => rfl
  | sym s => exact h s (by simp [free])
  | op1 f a ih => simp only [eval]; rw [ih h]
  | op2 f a b iha ihb =>
    simp only [eval]
    rw [iha fun s hs => h s (by simp [free, hs]), ihb fun s hs => h s (by simp [free, hs])]

theorem eval_subs1 (I : Interp K) (e : String → K) (x : String) (r a : Expr K) :
    (subs1 x r a).eval I e = a.eval I (Function.update e x (r.eval I e)) := by
  induction a with
  | const c => rfl
  | sym s =>
    by_cases h : s = x
    · subst h; simp [subs1, eval]
    · simp [subs1, eval, h]
  | op1 f a ih => simp only [subs1, eval, ih]
  | op2 f a b iha ihb => simp only [subs1, eval, iha, ihb]

theorem mem_free_subs1 {x : String} {r a : Expr K} {s : String} (h : s ∈ (subs1 x r a).free) :
    (s ∈ a.free ∧ s ≠ x) ∨ (x ∈ a.free ∧ s ∈ r.free) := by
  induction a with
  | const c => simp [subs1, free] at h
  | sym t =>
    by_cases ht : t = x
    · subst ht; simp only [subs1, if_pos] at h; right; exact ⟨by simp [free], h⟩
    · simp only [subs1, if_neg ht, free, List.mem_singleton] at h
      subst h; left; exact ⟨by simp [free], ht⟩
  | op1 f a ih => exact ih h
  | op2 f a b iha ihb =>
    simp only [subs1, free, List.mem_append] at h ⊢
    rcases h with h | h
    · rcases iha h with ⟨h1, h2⟩ | ⟨h1, h2⟩
      · exact .inl ⟨.inl h1, h2⟩
      · exact .inr ⟨.inl h1, h2⟩
    · rcases ihb h with ⟨h1, h2⟩ | ⟨h1, h2⟩
      · exact .inl ⟨.inr h1, h2⟩
      · exact .inr ⟨.inr h1, h2⟩

/-- Values of the symbols after simultaneous substitution (specification). -/
def substEnv (I : Interp K) (l : List (String × Expr K)) (e : String → K) : String → K :=
  fun s => match l.lookup s with
    | some a => a.eval I e
    | none => e s

/-- The replaced symbols are distinct, and none occurs in the value of another one. -/
structure Unchained (l : List (String × Expr K)) : Prop where
  nodup : (l.map (·.1)).Nodup
  free : ∀ p ∈ l, ∀ q ∈ l, q.1 ≠ p.1 → q.1 ∉ p.2.free

theorem lookup_none {l : List (String × Expr K)} {s : String} (h : s ∉ l.map (·.1)) :
    l.lookup s = none := by
  rw [List.lookup_eq_none_iff]
  intro p hp
  simp only [beq_eq_false_iff_ne, ne_eq, bne_iff_ne]
  rintro rfl
  exact h (List.mem_map_of_mem hp)

theorem lookup_some {l : List (String × Expr K)} (h : (l.map (·.1)).Nodup) {p : String × Expr K}
    (hp : p ∈ l) : l.lookup p.1 = some p.2 := by
  induction l with
  | nil => simp at hp
  | cons q l ih =>
    have hn := List.nodup_cons.1 (by simpa using h : (q.1 :: l.map (·.1)).Nodup)
    rw [List.lookup_cons]
    rcases List.mem_cons.1 hp with rfl | hp
    · simp
    · have : p.1 ≠ q.1 := fun h0 => hn.1 (h0 ▸ List.mem_map_of_mem hp)
      have h2 : (p.1 == q.1) = false := by simpa using this
      rw [h2]
      exact ih hn.2 hp

theorem eval_subsSeq (I : Interp K) (l : List (String × Expr K)) (h : Unchained l)
    (a : Expr K) (e : String → K) : (subsSeq l a).eval I e = a.eval I (substEnv I l e) := by
  induction l generalizing a with
  | nil => rfl
  | cons p l ih =>
    have hn := List.nodup_cons.1 (by simpa using h.nodup : (p.1 :: l.map (·.1)).Nodup)
    have hl : Unchained l := ⟨hn.2, fun q hq r hr => h.free q (by simp [hq]) r (by simp [hr])⟩
    show (subsSeq l (subs1 p.1 p.2 a)).eval I e = _
    rw [ih hl, eval_subs1]
    have hp : p.2.eval I (substEnv I l e) = p.2.eval I e := by
      refine eval_congr I _ fun s hs => ?_
      unfold substEnv
      by_cases hk : s ∈ l.map (·.1)
      · obtain ⟨q, hq, rfl⟩ := List.mem_map.1 hk
        exact absurd hs (h.free p (by simp) q (by simp [hq]) fun h0 => hn.1 (h0 ▸ hk))
      · rw [lookup_none hk]
    rw [hp]
    congr 1
    funext s
    unfold substEnv
    rw [List.lookup_cons]
    by_cases hs : s = p.1
    · subst hs; simp
    · rw [Function.update_of_ne hs]
      have : (s == p.1) = false := by simpa using hs
      rw [this]

theorem Unchained.perm {l l' : List (String × Expr K)} (h : Unchained l) (hp : l.Perm l') :
    Unchained l' :=
  ⟨(hp.map _).nodup_iff.1 h.nodup, fun p hp' q hq => h.free p (hp.mem_iff.2 hp') q (hp.mem_iff.2 hq)⟩

theorem substEnv_perm (I : Interp K) {l l' : List (String × Expr K)} (h : Unchained l)
    (hp : l.Perm l') (e : String → K) : substEnv I l' e = substEnv I l e := by
  funext s
  unfold substEnv
  by_cases hk : s ∈ l.map (·.1)
  · obtain ⟨p, hp', rfl⟩ := List.mem_map.1 hk
    rw [lookup_some h.nodup hp', lookup_some (h.perm hp).nodup (hp.mem_iff.1 hp')]
  · rw [lookup_none hk, lookup_none fun h0 => hk ((hp.map _).mem_iff.2 h0)]

/-- For a dictionary in which no replaced symbol occurs in the value of another one, the
sequential substitution of sympy is the simultaneous one. -/
theorem eval_subsDict (I : Interp K) (l : List (String × Expr K)) (h : Unchained l)
    (a : Expr K) (e : String → K) : (subsDict l a).eval I e = a.eval I (substEnv I l e) := by
  have hp := (List.perm_insertionSort (fun p q : String × Expr K => p.1 ≤ q.1) l).symm
  unfold subsDict
  rw [eval_subsSeq I _ (h.perm hp), substEnv_perm I h hp]

/-- Substituting, in any order, expressions which have the value of the symbol does not
change the value. -/
theorem eval_subsDict_same (I : Interp K) (l : List (String × Expr K)) (e : String → K)
    (h : ∀ p ∈ l, e p.1 = p.2.eval I e) (a : Expr K) : (subsDict l a).eval I e = a.eval I e := by
  unfold subsDict
  have h' : ∀ p ∈ l.insertionSort fun p q => p.1 ≤ q.1, e p.1 = p.2.eval I e :=
    fun p hp => h p ((List.mem_insertionSort _).1 hp)
  revert h'
  generalize l.insertionSort (fun p q => p.1 ≤ q.1) = l'
  intro h'
  induction l' generalizing a with
  | nil => rfl
  | cons p l' ih =>
    show (subsSeq l' (subs1 p.1 p.2 a)).eval I e = _
    rw [ih _ fun q hq => h' q (by simp [hq]), eval_subs1, ← h' p (by simp), Function.update_eq_self]

theorem mem_free_subsSeq {l : List (String × Expr K)} {a : Expr K} {s : String}
    (h : s ∈ (subsSeq l a).free) :
    (s ∈ a.free ∧ s ∉ l.map (·.1)) ∨ ∃ p ∈ l, s ∈ p.2.free := by
  induction l generalizing a with
  | nil => exact .inl ⟨h, by simp⟩
  | cons p l ih =>
    rcases ih (a := subs1 p.1 p.2 a) h with ⟨h1, h2⟩ | ⟨q, hq, hs⟩
    · rcases mem_free_subs1 h1 with ⟨h3, h4⟩ | ⟨_, h4⟩
      · exact .inl ⟨h3, by simp only [List.map_cons, List.mem_cons, not_or]; exact ⟨h4, h2⟩⟩
      · exact .inr ⟨p, by simp, h4⟩
    · exact .inr ⟨q, by simp [hq], hs⟩

theorem mem_free_subsDict {l : List (String × Expr K)} {a : Expr K} {s : String}
    (h : s ∈ (subsDict l a).free) :
    (s ∈ a.free ∧ s ∉ l.map (·.1)) ∨ ∃ p ∈ l, s ∈ p.2.free := by
  rcases mem_free_subsSeq h with ⟨h1, h2⟩ | ⟨p, hp, hs⟩
  · exact .inl ⟨h1, fun h0 => h2 (((List.perm_insertionSort _ l).map _).mem_iff.2 h0)⟩
  · exact .inr ⟨p, (List.mem_insertionSort _).1 hp, hs⟩

end Expr

open Expr

/-! ### C28 -/

/-- The values of the symbols agree with a substitution dictionary. -/
def Agrees (I : Interp K) (e : String → K) (d : Dict (Val K)) : Prop :=
  ∀ p ∈ d, e p.1 = p.2.expr.eval I e

theorem mem_set {V : Type} {d : Dict V} {k : String} {v : V} {p : String × V}
    (h : p ∈ Dict.set d k v) : p ∈ d ∨ p = (k, v) := by
  unfold Dict.set at h
  split_ifs at h
  · obtain ⟨q, hq, hp⟩ := List.mem_map.1 h
    split_ifs at hp
    · exact .inr hp.symm
    · exact .inl (hp ▸ hq)
  · simpa using h

theorem mem_update {V : Type} {d d' : Dict V} {p : String × V} (h : p ∈ Dict.update d d') :
    p ∈ d ∨ p ∈ d' := by
  induction d' generalizing d with
  | nil => exact .inl h
  | cons q d' ih =>
    rcases ih (d := Dict.set d q.1 q.2) h with h1 | h1
    · rcases mem_set h1 with h2 | h2
      · exact .inl h2
      · exact .inr (by rw [h2]; simp)
    · exact .inr (by simp [h1])

theorem mem_keys_set {V : Type} {d : Dict V} {k : String} {v : V} {s : String} :
    s ∈ Dict.keys (Dict.set d k v) ↔ s ∈ Dict.keys d ∨ s = k := by
  unfold Dict.set
  split_ifs with h
  · have : Dict.keys (d.map fun p => if p.1 = k then (k, v) else p) = Dict.keys d := by
      unfold Dict.keys
      rw [List.map_map]
      refine List.map_congr_left fun p _ => ?_
      simp only [Function.comp_apply]
      split_ifs with h1
      · exact h1.symm
      · rfl
    rw [this]
    constructor
    · exact .inl
    · rintro (h1 | rfl)
      · exact h1
      · exact h
  · simp [Dict.keys]

theorem mem_keys_update {V : Type} {d d' : Dict V} {s : String} :
    s ∈ Dict.keys (Dict.update d d') ↔ s ∈ Dict.keys d ∨ s ∈ Dict.keys d' := by
  induction d' generalizing d with
  | nil => simp [Dict.update, Dict.keys]
  | cons q d' ih =>
    show s ∈ Dict.keys (Dict.update (Dict.set d q.1 q.2) d') ↔ _
    rw [ih, mem_keys_set]
    simp [Dict.keys]; tauto

theorem mem_pops {V : Type} (ks : List String) (d : Dict V) (p : String × V) :
    p ∈ ks.foldl Dict.pop d ↔ p ∈ d ∧ p.1 ∉ ks := by
  induction ks generalizing d with
  | nil => simp
  | cons k ks ih =>
    rw [List.foldl_cons, ih]
    simp only [Dict.pop, List.mem_filter, decide_eq_true_eq, List.mem_cons, not_or]
    tauto

theorem pairs_agree {I : Interp K} {e : String → K} {d : Dict (Val K)} (h : Agrees I e d) :
    ∀ p ∈ pairs d, e p.1 = p.2.eval I e := by
  intro p hp
  obtain ⟨q, hq, rfl⟩ := List.mem_map.1 hp
  exact h q hq

theorem substituteDict_agree {I : Interp K} {e : String → K} {d s : Dict (Val K)}
    (hd : Agrees I e d) (hs : Agrees I e s) : Agrees I e (substituteDict d s) := by
  intro p hp
  obtain ⟨q, hq, rfl⟩ := List.mem_map.1 hp
  have := hd q hq
  cases hv : q.2 with
  | num c => simpa [hv] using this
  | ex a =>
    rw [hv] at this
    simp only [hv, Val.expr] at this ⊢
    rw [this, eval_subsDict_same I _ e (pairs_agree hs)]

theorem substituteAttr_eval {I : Interp K} {e : String → K} {s : Dict (Val K)}
    (hs : Agrees I e s) (a : List (Expr K)) :
    (substituteAttr s a).map (Expr.eval I e) = a.map (Expr.eval I e) := by
  unfold substituteAttr
  dsimp only
  rw [List.map_map]
  refine List.map_congr_left fun b _ => ?_
  simp only [Function.comp_apply]
  refine eval_subsDict_same I _ e (pairs_agree fun p hp => hs p ?_) b
  exact (List.mem_filter.1 hp).1

/-- Values of all the expressions of a core. -/
def SCore.values (I : Interp K) (e : String → K) (c : SCore K) : List (List K) :=
  c.attrs.map fun a => a.map (Expr.eval I e)

theorem apply_values {I : Interp K} {e : String → K} (c : SCore K) {s : Dict (Val K)}
    (hc : Agrees I e c.subs) (hs : Agrees I e s) :
    (c.apply s).values I e = c.values I e ∧ Agrees I e (c.apply s).subs := by
  constructor
  · simp only [SCore.values, SCore.apply, List.map_map]
    exact List.map_congr_left fun a _ => substituteAttr_eval hs a
  · intro p hp
    exact substituteDict_agree hc hs p ((mem_pops _ _ p).1 hp).1

/-- **C28**: whatever the expressions, the dictionaries (chained or not) and the options,
substitution does not change the value of any expression of the core for values of the
symbols that agree with the dictionaries; the remaining entries of `core.subs` still agree
with these values. -/
theorem C28_values (I : Interp K) (e : String → K) (c : SCore K) (s : Dict (Val K))
    (selfall selfexprs : Bool) (hc : Agrees I e c.subs) (hs : Agrees I e s) :
    (c.substitute s selfall selfexprs).1.values I e = c.values I e ∧
      Agrees I e (c.substitute s selfall selfexprs).1.subs := by
  have hx : Agrees I e (Dict.update [] c.subsexprs) := fun p hp => by
    rcases mem_update hp with h | h
    · simp at h
    · exact hc p (List.mem_filter.1 h).1
  unfold SCore.substitute
  split_ifs with h1 h2
  · obtain ⟨e1, e2⟩ := apply_values c hc hx
    obtain ⟨e3, e4⟩ := apply_values (c.apply (Dict.update [] c.subsexprs))
      (s := s.update (c.apply (Dict.update [] c.subsexprs)).subs) e2 (fun p hp => by
        rcases mem_update hp with h | h
        · exact hs p h
        · exact e2 p h)
    exact ⟨e3.trans e1, e4⟩
  · exact apply_values c hc fun p hp => by
      rcases mem_update hp with h | h
      · exact hs p h
      · exact hc p (List.mem_filter.1 h).1
  · exact apply_values c hc hs

/-- The dictionary `core.subs` has no chain: the values that are expressions only contain
symbols without value, or with a number as value. -/
structure Flat (d : Dict (Val K)) : Prop where
  nodup : (Dict.keys d).Nodup
  flat : ∀ k a, (k, Val.ex a) ∈ d → ∀ k' a', (k', Val.ex a') ∈ d → k' ∉ a.free

/-- Values of the symbols once the recorded numbers are assigned. -/
def numEnv (d : Dict (Val K)) (e : String → K) : String → K :=
  fun s => match List.lookup s d with
    | some (.num c) => c
    | _ => e s

/-- Values of the symbols once the recorded numbers and expressions are assigned
(specification). -/
def fullEnv (I : Interp K) (d : Dict (Val K)) (e : String → K) : String → K :=
  fun s => match List.lookup s d with
    | some (.num c) => c
    | some (.ex a) => a.eval I (numEnv d e)
    | none => e s

theorem dlookup_some {d : Dict (Val K)} (h : (Dict.keys d).Nodup) {p : String × Val K}
    (hp : p ∈ d) : List.lookup p.1 d = some p.2 := by
  induction d with
  | nil => simp at hp
  | cons q l ih =>
    have hn := List.nodup_cons.1 (by simpa [Dict.keys] using h : (q.1 :: Dict.keys l).Nodup)
    rw [List.lookup_cons]
    rcases List.mem_cons.1 hp with rfl | hp
    · simp
    · have : p.1 ≠ q.1 := fun h0 => hn.1 (h0 ▸ List.mem_map_of_mem hp)
      have h2 : (p.1 == q.1) = false := by simpa using this
      rw [h2]
      exact ih hn.2 hp

theorem dlookup_mem {d : Dict (Val K)} {s : String} {v : Val K} (h : List.lookup s d = some v) :
    (s, v) ∈ d := by
  induction d with
  | nil => simp at h
  | cons q l ih =>
    rw [List.lookup_cons] at h
    by_cases hs : s = q.1
    · subst hs; simp at h; subst h; simp
    · have h2 : (s == q.1) = false := by simpa using hs
      rw [h2] at h
      exact List.mem_cons_of_mem _ (ih h)

theorem fullEnv_agrees (I : Interp K) {d : Dict (Val K)} (h : Flat d) (e : String → K) :
    Agrees I (fullEnv I d e) d := by
  intro p hp
  have hl := dlookup_some h.nodup hp
  unfold fullEnv
  rw [hl]
  cases hv : p.2 with
  | num c => rfl
  | ex a =>
    refine eval_congr I a fun s hs => ?_
    unfold numEnv
    cases hls : List.lookup s d with
    | none => rfl
    | some v =>
      cases v with
      | num c => rfl
      | ex b =>
        have h1 : (p.1, Val.ex a) ∈ d := by rw [← hv]; exact hp
        exact absurd hs (h.flat p.1 a h1 s b (dlookup_mem hls))

theorem subsexprs_mem {c : SCore K} {p : String × Val K} :
    p ∈ c.subsexprs ↔ p ∈ c.subs ∧ ∃ a, p.2 = .ex a := by
  unfold SCore.subsexprs
  rw [List.mem_filter]
  cases p.2 <;> simp

theorem filter_keys {d : Dict (Val K)} (q : String → Bool) :
    (pairs (d.filter fun p => q p.1)).map (·.1) = (Dict.keys d).filter q := by
  unfold pairs Dict.keys
  rw [List.map_map, List.filter_map]
  rfl

theorem substituteAttr_free {s : Dict (Val K)} {a : List (Expr K)} {b : Expr K}
    (hb : b ∈ substituteAttr s a) {x : String} (hx : x ∈ b.free) :
    (x ∈ a.flatMap Expr.free ∧ x ∉ Dict.keys s) ∨ ∃ p ∈ s, x ∈ p.2.expr.free := by
  unfold substituteAttr at hb
  obtain ⟨b', hb', rfl⟩ := List.mem_map.1 hb
  rcases mem_free_subsDict hx with ⟨h1, h2⟩ | ⟨p, hp, hs⟩
  · have hm : x ∈ a.flatMap Expr.free := List.mem_flatMap.2 ⟨b', hb', h1⟩
    refine .inl ⟨hm, fun h3 => h2 ?_⟩
    rw [filter_keys fun k => decide (k ∈ a.flatMap Expr.free)]
    exact List.mem_filter.2 ⟨h3, by simpa using hm⟩
  · obtain ⟨q, hq, rfl⟩ := List.mem_map.1 hp
    exact .inr ⟨q, (List.mem_filter.1 hq).1, hs⟩

/-- **C28**, complete resolution: without chains in the dictionary, `substitute(selfall=True)`
leaves no symbol of `core.subs` in any expression, empties `core.subs`, and the values of the
new expressions are those of the original ones with all the recorded values assigned, for any
values of the remaining symbols. -/
theorem C28_resolved (I : Interp K) (c : SCore K) (h : Flat c.subs) :
    (∀ a ∈ (c.substitute [] true false).1.attrs, ∀ b ∈ a, ∀ x ∈ b.free, x ∉ Dict.keys c.subs) ∧
    (c.substitute [] true false).1.subs = [] ∧
    ∀ e, (c.substitute [] true false).1.values I e = c.values I (fullEnv I c.subs e) := by
  set X : Dict (Val K) := Dict.update [] c.subsexprs with hX
  set c1 := c.apply X with hc1
  have hXm : ∀ p ∈ X, p ∈ c.subs ∧ ∃ a, p.2 = .ex a := fun p hp => by
    rcases mem_update hp with h | h
    · simp at h
    · exact subsexprs_mem.1 h
  have hXk : ∀ k, k ∈ Dict.keys X ↔ k ∈ Dict.keys c.subsexprs := fun k => by
    rw [hX, mem_keys_update]; simp [Dict.keys]
  -- only numbers remain in the dictionary
  have hnum : ∀ p ∈ c1.subs, ∃ k, p.2 = .num k ∧ p ∈ c.subs := by
    intro p hp
    obtain ⟨h1, h2⟩ := (mem_pops _ _ p).1 hp
    obtain ⟨q, hq, rfl⟩ := List.mem_map.1 h1
    cases hv : q.2 with
    | num k =>
      refine ⟨k, by simp [hv], ?_⟩
      simp only [hv]
      rw [← hv]; exact hq
    | ex a =>
      exfalso
      apply h2
      rw [hXk]
      exact List.mem_map_of_mem (f := (·.1)) (subsexprs_mem.2 ⟨hq, a, hv⟩)
  have hkeys : ∀ k ∈ Dict.keys c.subs, k ∈ Dict.keys X ∨ k ∈ Dict.keys c1.subs := by
    intro k hk
    obtain ⟨p, hp, rfl⟩ := List.mem_map.1 hk
    by_cases hx : p.1 ∈ Dict.keys X
    · exact .inl hx
    · right
      refine List.mem_map.2 ⟨_, (mem_pops _ _ _).2 ⟨List.mem_map.2 ⟨p, hp, rfl⟩, ?_⟩, rfl⟩
      exact hx
  set S : Dict (Val K) := Dict.update [] c1.subs with hS
  have hSm : ∀ p ∈ S, p ∈ c1.subs := fun p hp => by
    rcases mem_update hp with h | h
    · simp at h
    · exact h
  have hSk : ∀ k, k ∈ Dict.keys S ↔ k ∈ Dict.keys c1.subs := fun k => by
    rw [hS, mem_keys_update]; simp [Dict.keys]
  have hr : (c.substitute [] true false).1 = c1.apply S := rfl
  have hfree : ∀ a ∈ (c1.apply S).attrs, ∀ b ∈ a, ∀ x ∈ b.free, x ∉ Dict.keys c.subs := by
    intro a ha b hb x hx hk
    obtain ⟨a1, ha1, rfl⟩ := List.mem_map.1 ha
    obtain ⟨a0, ha0, rfl⟩ := List.mem_map.1 ha1
    rcases substituteAttr_free hb hx with ⟨h1, h2⟩ | ⟨p, hp, hs⟩
    · rcases hkeys x hk with h3 | h3
      · obtain ⟨b1, hb1, hx1⟩ := List.mem_flatMap.1 h1
        rcases substituteAttr_free hb1 hx1 with ⟨_, h5⟩ | ⟨p, hp, hs⟩
        · exact h5 h3
        · obtain ⟨hpm, a', ha'⟩ := hXm p hp
          rw [hXk] at h3
          obtain ⟨q, hq, rfl⟩ := List.mem_map.1 h3
          obtain ⟨hqm, a'', ha''⟩ := subsexprs_mem.1 hq
          rw [ha'] at hs
          refine h.flat p.1 a' (by rw [← ha']; exact hpm) q.1 a'' (by rw [← ha'']; exact hqm) hs
      · exact h2 ((hSk x).2 h3)
    · obtain ⟨k, hk', _⟩ := hnum p (hSm p hp)
      rw [hk'] at hs
      simp [Val.expr, free] at hs
  refine ⟨by rw [hr]; exact hfree, ?_, ?_⟩
  · rw [hr]
    apply List.eq_nil_iff_forall_not_mem.2
    intro p hp
    obtain ⟨h1, h2⟩ := (mem_pops _ _ p).1 hp
    obtain ⟨q, hq, rfl⟩ := List.mem_map.1 h1
    exact h2 ((hSk _).2 (List.mem_map_of_mem (f := (·.1)) hq))
  · intro e
    have h1 := (C28_values I (fullEnv I c.subs e) c [] true false (fullEnv_agrees I h e)
      (by intro p hp; simp at hp)).1
    rw [← h1, hr]
    unfold SCore.values
    refine List.map_congr_left fun a ha => List.map_congr_left fun b hb => ?_
    refine eval_congr I b fun s hs => ?_
    have hk := hfree a ha b hb s hs
    unfold fullEnv
    have : List.lookup s c.subs = none := by
      cases hl : List.lookup s c.subs with
      | none => rfl
      | some v => exact absurd (List.mem_map_of_mem (f := (·.1)) (dlookup_mem hl)) hk
    rw [this]

/-- Example: the hypothesis is met by a dictionary with a number and an expression. -/
example : Flat ([("R", .num 3), ("G", .ex (.op1 "inv" (.sym "R")))] : Dict (Val ℚ)) := by
  refine ⟨by decide, ?_⟩
  intro k a h k' a' h'
  simp only [List.mem_cons, Prod.mk.injEq, reduceCtorEq, and_false, List.not_mem_nil,
    or_false, false_or, Val.ex.injEq] at h h'
  rw [h.2, h'.1]; simp [free]

/-- **C28**, disagreement: chains are not resolved. With `a = b + 1` and `b = c`, an
expression which only contains `a` keeps the symbol `b`, and `b` is removed from
`core.subs`. -/
theorem C28_chain_counterexample :
    let c : SCore ℚ := ⟨[("a", .ex (.op2 "+" (.sym "b") (.const 1))), ("b", .ex (.sym "c")),
      ("c", .num 3)], [[.sym "a"]]⟩
    (c.substitute [] true false).1.attrs = [[.op2 "+" (.sym "b") (.const 1)]] ∧
    (c.substitute [] true false).1.subs = [] := by
  refine ⟨?_, ?_⟩ <;> decide +kernel

/-- **C28**, disagreement: with the names exchanged, a chain is left unresolved even in an
attribute which contains both symbols, because replacements are made in the order of the
names. -/
theorem C28_order_counterexample :
    let c : SCore ℚ := ⟨[("b", .ex (.op2 "+" (.sym "a") (.const 1))), ("a", .ex (.sym "c")),
      ("c", .num 3)], [[.sym "a", .sym "b"]]⟩
    (c.substitute [] true false).1.attrs = [[.const 3, .op2 "+" (.sym "a") (.const 1)]] := by
  decide +kernel

/-- **C28**, disagreement: the dictionary given by the caller is modified. -/
theorem C28_caller_dict_modified :
    let c : SCore ℚ := ⟨[("c", .num 3)], []⟩
    Dict.keys (c.substitute [] true false).2 = ["c"] := by
  decide +kernel

end Sym
end Pyphs
