import Verif.Params.Spec
import Verif.Sym.Props
import Verif.Sym.InverseProps

namespace Pyphs
namespace Params
open Sym Expr

variable {K : Type} [Field K]

/-! ### `mappars` -/

theorem form_symb (name : String) (o : Obj K) : (form name o).symb = o.symbol name := by
  cases o <;> rfl

theorem form_sub (name : String) (o : Obj K) : (form name o).sub = o.recorded name := by
  cases o <;> rfl

theorem form_par (name : String) (o : Obj K) : (form name o).par = o.named := by
  cases o <;> rfl

/-- The replacements of `mappars`. -/
def dicpars (label : String) (kwargs : Dict (Obj K)) : Dict (Expr K) :=
  kwargs.map fun p => (p.1, .sym (p.2.symbol (label ++ "_" ++ p.1)))

theorem set_new {V : Type} {d : Dict V} {k : String} {v : V} (h : k ∉ Dict.keys d) :
    Dict.set d k v = d ++ [(k, v)] := by
  unfold Dict.set; rw [if_neg h]

theorem mappars_fold (label : String) (kwargs : Dict (Obj K)) (m : Mapped K)
    (h : (kwargs.map (·.1)).Nodup) (hd : ∀ p ∈ kwargs, p.1 ∉ Dict.keys m.dicpars) :
    let r := kwargs.foldl (fun m p =>
      let f := form (parName label p.1) p.2
      (⟨m.dicpars.set p.1 (.sym f.symb), m.subs.update f.sub, m.pars ++ f.par⟩ : Mapped K)) m
    r.dicpars = m.dicpars ++ dicpars label kwargs ∧
    (∀ p ∈ r.subs, p ∈ m.subs ∨
      p ∈ kwargs.flatMap fun q => q.2.recorded (label ++ "_" ++ q.1)) ∧
    (∀ s, s ∈ Dict.keys r.subs ↔ s ∈ Dict.keys m.subs ∨
      s ∈ (kwargs.flatMap fun q => q.2.recorded (label ++ "_" ++ q.1)).map (·.1)) ∧
    r.pars = m.pars ++ kwargs.flatMap fun q => q.2.named := by
  induction kwargs generalizing m with
  | nil => simp [dicpars]
  | cons q l ih =>
    simp only [List.map_cons, List.nodup_cons] at h
    have hq : q.1 ∉ Dict.keys m.dicpars := hd q (by simp)
    simp only [List.foldl_cons]
    obtain ⟨h1, h2, h3, h4⟩ := ih
      ⟨m.dicpars.set q.1 (.sym (form (parName label q.1) q.2).symb),
        m.subs.update (form (parName label q.1) q.2).sub,
        m.pars ++ (form (parName label q.1) q.2).par⟩ h.2 (by
        intro p hp
        simp only [mem_keys_set, not_or]
        refine ⟨hd p (by simp [hp]), fun h0 => h.1 ?_⟩
        rw [← h0]; exact List.mem_map_of_mem hp)
    refine ⟨?_, ?_, ?_, ?_⟩
    · rw [h1]
      simp only [set_new hq, form_symb, parName, dicpars, List.map_cons, List.append_assoc,
        List.singleton_append]
    · intro p hp
      rcases h2 p hp with h | h
      · rcases mem_update h with h | h
        · exact .inl h
        · rw [form_sub] at h
          exact .inr (by simp only [List.flatMap_cons, List.mem_append]; exact .inl h)
      · exact .inr (by simp only [List.flatMap_cons, List.mem_append]; exact .inr h)
    · intro s
      rw [h3, mem_keys_update, form_sub]
      simp only [List.flatMap_cons, List.map_append, List.mem_append, or_assoc, Dict.keys, parName]
    · rw [h4, form_par]; simp

theorem mappars_eq (label : String) (kwargs : Dict (Obj K)) (h : (kwargs.map (·.1)).Nodup) :
    (mappars label kwargs).dicpars = dicpars label kwargs ∧
    (∀ p ∈ (mappars label kwargs).subs,
      p ∈ kwargs.flatMap fun q => q.2.recorded (label ++ "_" ++ q.1)) ∧
    (∀ s, s ∈ Dict.keys (mappars label kwargs).subs ↔
      s ∈ (kwargs.flatMap fun q => q.2.recorded (label ++ "_" ++ q.1)).map (·.1)) ∧
    (mappars label kwargs).pars = kwargs.flatMap fun q => q.2.named := by
  obtain ⟨h1, h2, h3, h4⟩ := mappars_fold label kwargs ⟨[], [], []⟩ h (by simp [Dict.keys])
  unfold mappars
  refine ⟨by simpa using h1, fun p hp => ?_, fun s => ?_, by simpa using h4⟩
  · simpa using h2 p hp
  · rw [h3 s]; simp [Dict.keys]

/-! ### Replacement of the keys -/

theorem nlookup {V : Type} {d : List (String × V)} (h : (d.map (·.1)).Nodup) {p : String × V}
    (hp : p ∈ d) : List.lookup p.1 d = some p.2 := by
  induction d with
  | nil => simp at hp
  | cons q l ih =>
    have hn := List.nodup_cons.1 (by simpa using h : (q.1 :: l.map (·.1)).Nodup)
    rw [List.lookup_cons]
    rcases List.mem_cons.1 hp with rfl | hp
    · simp
    · have : p.1 ≠ q.1 := fun h0 => hn.1 (h0 ▸ List.mem_map_of_mem hp)
      have h2 : (p.1 == q.1) = false := by simpa using this
      rw [h2]
      exact ih hn.2 hp

theorem eval_subsSeq_names (I : Interp K) (l : List (String × String)) (e : String → K)
    (hs : l.Pairwise fun p q => p.1 < q.1 ∧ p.2 ≠ q.1) (a : Expr K) :
    (subsSeq (l.map fun p => (p.1, (.sym p.2 : Expr K))) a).eval I e =
      a.eval I (fun s => match l.lookup s with
        | some t => e t
        | none => e s) := by
  induction l generalizing a with
  | nil => rfl
  | cons p l ih =>
    obtain ⟨h1, h2⟩ := List.pairwise_cons.1 hs
    have hne : ∀ s : String, (∀ q ∈ l, s ≠ q.1) → l.lookup s = none := by
      intro s hl
      rw [List.lookup_eq_none_iff]
      intro q hq
      simpa using hl q hq
    show (subsSeq (l.map fun p => (p.1, (.sym p.2 : Expr K))) (subs1 p.1 (.sym p.2) a)).eval I e = _
    rw [ih h2, eval_subs1]
    congr 1
    funext s
    rw [List.lookup_cons]
    by_cases hsp : s = p.1
    · subst hsp
      simp only [beq_self_eq_true, Function.update_self, eval]
      rw [hne _ fun q hq => (h1 q hq).2]
    · have : (s == p.1) = false := by simpa using hsp
      simp only [this, Function.update_of_ne hsp]

/-- The keys of a component are replaced by symbols whose values are those of the arguments. -/
theorem eval_dicpars (I : Interp K) (label : String) (kwargs : Dict (Obj K)) (e : String → K)
    (hn : (kwargs.map (·.1)).Nodup)
    (ho : ∀ p ∈ kwargs, ∀ q ∈ kwargs, p.1 < q.1 → p.2.symbol (label ++ "_" ++ p.1) ≠ q.1)
    (hv : ∀ p ∈ kwargs, e (p.2.symbol (label ++ "_" ++ p.1)) = p.2.value I e) (a : Expr K) :
    (a.subsDict (dicpars label kwargs)).eval I e = a.eval I (atArgs I e kwargs) := by
  set N : List (String × String) := kwargs.map fun p => (p.1, p.2.symbol (label ++ "_" ++ p.1))
    with hN
  have hd : dicpars label kwargs = N.map fun p => (p.1, (.sym p.2 : Expr K)) := by
    rw [hN, List.map_map]; rfl
  have hk : N.map (·.1) = kwargs.map (·.1) := by rw [hN, List.map_map]; rfl
  unfold subsDict
  have hsort : (dicpars label kwargs).insertionSort (fun p q => p.1 ≤ q.1) =
      (N.insertionSort fun p q => p.1 ≤ q.1).map fun p => (p.1, (.sym p.2 : Expr K)) := by
    rw [hd]
    exact (List.map_insertionSort (r := fun p q : String × String => p.1 ≤ q.1)
      (s := fun p q : String × Expr K => p.1 ≤ q.1) _ _ (fun _ _ _ _ => Iff.rfl)).symm
  rw [hsort, eval_subsSeq_names]
  · refine eval_congr I a fun s _ => ?_
    have hp : (N.insertionSort fun p q => p.1 ≤ q.1).Perm N := List.perm_insertionSort _ _
    have hnS : ((N.insertionSort fun p q => p.1 ≤ q.1).map (·.1)).Nodup :=
      (hp.map _).nodup_iff.2 (hk ▸ hn)
    unfold atArgs
    by_cases hs : s ∈ kwargs.map (·.1)
    · obtain ⟨p, hpk, rfl⟩ := List.mem_map.1 hs
      have h1 : List.lookup p.1 kwargs = some p.2 := nlookup hn hpk
      have h2 : List.lookup p.1 (N.insertionSort fun p q => p.1 ≤ q.1) =
          some (p.2.symbol (label ++ "_" ++ p.1)) :=
        nlookup (p := (p.1, p.2.symbol (label ++ "_" ++ p.1))) hnS
          (hp.mem_iff.2 (List.mem_map_of_mem hpk))
      simp only [h1, h2]
      exact hv p hpk
    · have h1 : List.lookup s kwargs = none := by
        rw [List.lookup_eq_none_iff]
        intro q hq
        have : s ≠ q.1 := fun h => hs (h ▸ List.mem_map_of_mem hq)
        simpa using this
      have h2 : List.lookup s (N.insertionSort fun p q => p.1 ≤ q.1) = none := by
        rw [List.lookup_eq_none_iff]
        intro q hq
        have : s ≠ q.1 := fun h => hs (by
          rw [← hk, h]; exact List.mem_map_of_mem (hp.mem_iff.1 hq))
        simpa using this
      simp only [h1, h2]
  · have hp : (N.insertionSort fun p q => p.1 ≤ q.1).Perm N := List.perm_insertionSort _ _
    have hnS : ((N.insertionSort fun p q => p.1 ≤ q.1).map (·.1)).Nodup :=
      (hp.map _).nodup_iff.2 (hk ▸ hn)
    have hso : (N.insertionSort fun p q => p.1 ≤ q.1).Pairwise fun p q => p.1 ≤ q.1 := by
      haveI : Std.Total (fun p q : String × String => p.1 ≤ q.1) := ⟨fun a b => String.le_total a.1 b.1⟩
      haveI : IsTrans (String × String) (fun p q : String × String => p.1 ≤ q.1) :=
        ⟨fun a b c => String.le_trans⟩
      exact List.pairwise_insertionSort _ _
    have hne : (N.insertionSort fun p q => p.1 ≤ q.1).Pairwise fun p q => p.1 ≠ q.1 :=
      List.pairwise_map.1 hnS
    refine (hso.and hne).imp_of_mem fun {p q} hpm hqm h => ?_
    have hlt : p.1 < q.1 := by
      by_contra hc
      exact h.2 (String.le_antisymm h.1 (String.not_lt.1 hc))
    refine ⟨hlt, ?_⟩
    obtain ⟨p', hp', rfl⟩ := List.mem_map.1 (hp.mem_iff.1 hpm)
    obtain ⟨q', hq', rfl⟩ := List.mem_map.1 (hp.mem_iff.1 hqm)
    exact ho p' hp' q' hq' hlt

end Params
end Pyphs
