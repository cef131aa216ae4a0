/-
C80: the values given to the parameters of the components reach their equations, and only them.
-/
import Verif.Params.Lemmas

namespace Pyphs
namespace Params
open Sym Expr

variable {K : Type} [Field K]

/-! ### The dictionary and the parameters of the sum of the components -/

/-- The values recorded by one component. -/
def Comp.records (c : Comp K) : List (String × Val K) := c.args.flatMap fun a => a.2.recorded a.1

theorem keys_update_nil {V : Type} (d : Dict V) (s : String) :
    s ∈ Dict.keys (Dict.update [] d) ↔ s ∈ Dict.keys d := by
  rw [mem_keys_update]; simp [Dict.keys]

theorem mem_update_nil {V : Type} {d : Dict V} {p : String × V} (h : p ∈ Dict.update [] d) : p ∈ d := by
  rcases mem_update h with h | h
  · simp at h
  · exact h

theorem keys_set_nodup {V : Type} {d : Dict V} {k : String} {v : V} (h : (Dict.keys d).Nodup) :
    (Dict.keys (Dict.set d k v)).Nodup := by
  unfold Dict.set
  split_ifs with hk
  · have : Dict.keys (d.map fun p => if p.1 = k then (k, v) else p) = Dict.keys d := by
      unfold Dict.keys
      rw [List.map_map]
      refine List.map_congr_left fun p _ => ?_
      simp only [Function.comp_apply]
      split_ifs with h1
      · exact h1.symm
      · rfl
    rw [this]; exact h
  · unfold Dict.keys at *
    rw [List.map_append, List.nodup_append]
    refine ⟨h, by simp, ?_⟩
    intro a ha b hb hab
    simp only [List.map_cons, List.map_nil, List.mem_singleton] at hb
    exact hk (hb ▸ hab ▸ ha)

theorem keys_update_nodup {V : Type} {d d' : Dict V} (h : (Dict.keys d).Nodup) :
    (Dict.keys (Dict.update d d')).Nodup := by
  induction d' generalizing d with
  | nil => exact h
  | cons q l ih => exact ih (d := Dict.set d q.1 q.2) (keys_set_nodup h)

theorem core_subs (c : Comp K) (hk : (c.kwargs.map (·.1)).Nodup) :
    (∀ p ∈ c.core.subs, p ∈ c.records) ∧
    (∀ s, s ∈ Dict.keys c.core.subs ↔ s ∈ c.records.map (·.1)) := by
  cases c with
  | dissLinear label o inv =>
    refine ⟨fun p hp => ?_, fun s => ?_⟩
    · have := mem_update_nil hp
      rw [form_sub] at this
      simpa [Comp.records, Comp.args] using this
    · simp only [Comp.core, keys_update_nil, form_sub]
      simp [Comp.records, Comp.args, Dict.keys]
  | stoLinear label o inv =>
    refine ⟨fun p hp => ?_, fun s => ?_⟩
    · have := mem_update_nil hp
      rw [form_sub] at this
      simpa [Comp.records, Comp.args] using this
    · simp only [Comp.core, keys_update_nil, form_sub]
      simp [Comp.records, Comp.args, Dict.keys]
  | nonLinear label kwargs H z =>
    obtain ⟨_, h2, h3, _⟩ := mappars_eq label kwargs hk
    refine ⟨fun p hp => ?_, fun s => ?_⟩
    · have := h2 p (mem_update_nil hp)
      simpa only [Comp.records, Comp.args, List.flatMap_map] using this
    · simp only [Comp.core, keys_update_nil, h3, Comp.records, Comp.args, List.flatMap_map]
  | connector label kwargs =>
    obtain ⟨_, h2, h3, _⟩ := mappars_eq label kwargs hk
    refine ⟨fun p hp => ?_, fun s => ?_⟩
    · have := h2 p (mem_update_nil hp)
      simpa only [Comp.records, Comp.args, List.flatMap_map] using this
    · simp only [Comp.core, keys_update_nil, h3, Comp.records, Comp.args, List.flatMap_map]

theorem core_p (c : Comp K) (hk : (c.kwargs.map (·.1)).Nodup) :
    c.core.p = c.args.flatMap fun a => a.2.named := by
  cases c with
  | dissLinear label o inv => cases o <;> rfl
  | stoLinear label o inv => cases o <;> rfl
  | nonLinear label kwargs H z =>
    simp only [Comp.core, (mappars_eq label kwargs hk).2.2.2, Comp.args, List.flatMap_map]
  | connector label kwargs =>
    simp only [Comp.core, (mappars_eq label kwargs hk).2.2.2, Comp.args, List.flatMap_map]

/-- The sum of the components, from a given core. -/
theorem sum_fold (cs : List (Comp K)) (c0 : PCore K)
    (hk : ∀ c ∈ cs, (c.kwargs.map (·.1)).Nodup) :
    let r := cs.foldl (fun c k => c.add k.core) c0
    (∀ p ∈ r.subs, p ∈ c0.subs ∨ p ∈ cs.flatMap Comp.records) ∧
    (∀ s, s ∈ Dict.keys r.subs ↔ s ∈ Dict.keys c0.subs ∨
      s ∈ (cs.flatMap Comp.records).map (·.1)) ∧
    r.p = c0.p ++ cs.flatMap (fun c => c.core.p) ∧
    r.z = c0.z ++ cs.flatMap (fun c => c.core.z) ∧
    r.alpha = c0.alpha ++ cs.flatMap (fun c => c.core.alpha) ∧
    ((Dict.keys c0.subs).Nodup → (Dict.keys r.subs).Nodup) ∧
    ∀ I : Interp K, Arith I → ∀ e, r.H.eval I e =
      c0.H.eval I e + (cs.map fun c => c.core.H.eval I e).sum := by
  induction cs generalizing c0 with
  | nil => simp
  | cons c cs ih =>
    obtain ⟨h1, h2, h3, h4, h5, h6, h7⟩ := ih (c0.add c.core) fun k hk' => hk k (by simp [hk'])
    obtain ⟨g1, g2⟩ := core_subs c (hk c (by simp))
    simp only [List.foldl_cons]
    refine ⟨fun p hp => ?_, fun s => ?_, ?_, ?_, ?_, fun hn => h6 ?_, fun I hI e => ?_⟩
    · rcases h1 p hp with h | h
      · rcases mem_update h with h | h
        · exact .inl (mem_update_nil h)
        · exact .inr (by simp only [List.flatMap_cons, List.mem_append]; exact .inl (g1 p h))
      · exact .inr (by simp only [List.flatMap_cons, List.mem_append]; exact .inr h)
    · rw [h2]
      simp only [PCore.add, mem_keys_update, g2, List.flatMap_cons, List.map_append,
        List.mem_append, or_assoc]
      simp [Dict.keys]
    · rw [h3]; simp [PCore.add]
    · rw [h4]; simp [PCore.add]
    · rw [h5]; simp [PCore.add]
    · exact keys_update_nodup (keys_update_nodup (by simp [Dict.keys]))
    · rw [h7 I hI e]
      simp only [PCore.add, eval, hI.add, List.map_cons, List.sum_cons]
      ring

/-- The values of the arguments are those of their symbols. -/
theorem value_symbol {I : Interp K} {e : String → K} {auto : String} (o : Obj K)
    (h : ∀ p ∈ o.recorded auto, e p.1 = p.2.expr.eval I e) : e (o.symbol auto) = o.value I e := by
  cases o with
  | tuple s v => exact h (s, v) (by simp [Obj.recorded])
  | num c => exact h (auto, .num c) (by simp [Obj.recorded])
  | str s => rfl
  | expr a => exact h (auto, .ex a) (by simp [Obj.recorded])

/-- The equations of one component, for values of the symbols that agree with the recorded
values. -/
theorem core_values {I : Interp K} (hI : Arith I) (c : Comp K)
    (hk : (c.kwargs.map (·.1)).Nodup)
    (ho : ∀ p ∈ c.kwargs, ∀ q ∈ c.kwargs, p.1 < q.1 → p.2.symbol (c.label ++ "_" ++ p.1) ≠ q.1)
    (e : String → K) (he : Agrees I e c.records) :
    c.core.H.eval I e = c.energy I e ∧
    c.core.z.map (fun q => (q.1.eval I e, q.2.eval I e)) = c.laws I e ∧
    c.core.alpha.map (eval I e) = c.ratio I e := by
  cases c with
  | dissLinear label o inv =>
    have hv : e (o.symbol (label ++ "coeff")) = o.value I e :=
      value_symbol o fun p hp => he p (by simpa [Comp.records, Comp.args] using hp)
    cases inv <;>
      simp [Comp.core, Comp.energy, Comp.laws, Comp.ratio, eval, mul, div, form_symb, hv, hI.mul, hI.div]
  | stoLinear label o inv =>
    have hv : e (o.symbol (label ++ "coeff")) = o.value I e :=
      value_symbol o fun p hp => he p (by simpa [Comp.records, Comp.args] using hp)
    cases inv <;>
      simp [Comp.core, Comp.energy, Comp.laws, Comp.ratio, eval, mul, div, sq, Params.inv, form_symb,
        hv, hI.mul, hI.div, hI.inv, pow_two]
  | nonLinear label kwargs H z =>
    have hv : ∀ p ∈ kwargs, e (p.2.symbol (label ++ "_" ++ p.1)) = p.2.value I e := fun p hp =>
      value_symbol p.2 fun q hq => he q (by
        simp only [Comp.records, Comp.args, List.flatMap_map, List.mem_flatMap]
        exact ⟨p, hp, hq⟩)
    have hs := eval_dicpars I label kwargs e hk ho hv
    simp only [Comp.core, (mappars_eq label kwargs hk).1, Comp.energy, Comp.laws, Comp.ratio, hs,
      List.map_map, Function.comp_def, List.map_nil, and_self]
  | connector label kwargs =>
    have hv : ∀ p ∈ kwargs, e (p.2.symbol (label ++ "_" ++ p.1)) = p.2.value I e := fun p hp =>
      value_symbol p.2 fun q hq => he q (by
        simp only [Comp.records, Comp.args, List.flatMap_map, List.mem_flatMap]
        exact ⟨p, hp, hq⟩)
    have hs := eval_dicpars I label kwargs e hk ho hv
    simp only [Comp.core, (mappars_eq label kwargs hk).1, Comp.energy, Comp.laws, Comp.ratio, hs,
      List.map_nil, List.map_cons, eval, and_self]

theorem records_eq (cs : List (Comp K)) : cs.flatMap Comp.records = records cs := rfl

theorem coreOf_agrees {I : Interp K} {cs : List (Comp K)} (h : NamesOK cs) {e : String → K}
    (he : Agrees I e (coreOf cs).subs) : Agrees I e (records cs) := by
  obtain ⟨h1, h2, _⟩ := sum_fold cs ⟨[], [], .const 0, [], []⟩ h.keys
  intro p hp
  have hs := (h2 p.1).2 (.inr (List.mem_map_of_mem hp))
  obtain ⟨q, hq, hqp⟩ := List.mem_map.1 hs
  have hq' : q ∈ records cs := by
    rcases h1 q hq with h | h
    · simp at h
    · exact h
  have := he q hq
  rwa [h.values q hq' p hp hqp, show q.1 = p.1 from hqp] at this

/-- **C80**: in any system made of components whose names respect `NamesOK`, for all values of
the symbols that agree with `core.subs`, the energy is the sum of the energies of the
components, and the dissipation functions and the coefficients of the connectors are those of
the components, each with the values of its own arguments. -/
theorem C80_values {I : Interp K} (hI : Arith I) (cs : List (Comp K)) (h : NamesOK cs)
    (e : String → K) (he : Agrees I e (coreOf cs).subs) :
    (coreOf cs).H.eval I e = (cs.map fun c => c.energy I e).sum ∧
    (coreOf cs).z.map (fun q => (q.1.eval I e, q.2.eval I e)) = cs.flatMap (fun c => c.laws I e) ∧
    (coreOf cs).alpha.map (eval I e) = cs.flatMap (fun c => c.ratio I e) := by
  have hr := coreOf_agrees h he
  have hc : ∀ c ∈ cs, _ := fun c hc => core_values hI c (h.keys c hc) (h.order c hc) e fun p hp =>
    hr p (List.mem_flatMap.2 ⟨c, hc, hp⟩)
  obtain ⟨_, _, _, h4, h5, _, h7⟩ := sum_fold cs ⟨[], [], .const 0, [], []⟩ h.keys
  refine ⟨?_, ?_, ?_⟩
  · unfold coreOf
    rw [h7 I hI e]
    simp only [eval, zero_add]
    exact congrArg List.sum (List.map_congr_left fun c hm => (hc c hm).1)
  · unfold coreOf
    rw [h4, List.nil_append, List.map_flatMap]
    exact List.flatMap_congr fun c hm => (hc c hm).2.1
  · unfold coreOf
    rw [h5, List.nil_append, List.map_flatMap]
    exact List.flatMap_congr fun c hm => (hc c hm).2.2

/-- **C80**: the parameters of the core are exactly the arguments given by their names, in
order, and `core.subs` has exactly the recorded values; if no name is also used for a value,
no parameter of the core is fixed by `core.subs`. -/
theorem C80_parameters (cs : List (Comp K)) (h : NamesOK cs) :
    (coreOf cs).p = named cs ∧ (∀ p, p ∈ (coreOf cs).subs ↔ p ∈ records cs) ∧
    (NamesFree cs → ∀ s ∈ (coreOf cs).p, s ∉ Dict.keys (coreOf cs).subs) := by
  obtain ⟨h1, h2, h3, _⟩ := sum_fold cs ⟨[], [], .const 0, [], []⟩ h.keys
  have hp : (coreOf cs).p = named cs := by
    unfold coreOf
    rw [h3, List.nil_append]
    exact List.flatMap_congr fun c hc => core_p c (h.keys c hc)
  have hm : ∀ p ∈ (coreOf cs).subs, p ∈ records cs := fun p hp => by
    rcases h1 p hp with h | h
    · simp at h
    · exact h
  refine ⟨hp, fun p => ⟨hm p, fun hpr => ?_⟩, fun hf s hs hk => ?_⟩
  · obtain ⟨q, hq, hqp⟩ := List.mem_map.1 ((h2 p.1).2 (.inr (List.mem_map_of_mem hpr)))
    have : q = p := Prod.ext hqp (h.values q (hm q hq) p hpr hqp)
    exact this ▸ hq
  · rw [hp] at hs
    obtain ⟨q, hq, rfl⟩ := List.mem_map.1 hk
    exact hf.pars _ hs (List.mem_map_of_mem (hm q hq))

/-- Values of the equations of a system (specification), in the order of `PCore.toS`. -/
def meant (I : Interp K) (e : String → K) (cs : List (Comp K)) : List (List K) :=
  [[(cs.map fun c => c.energy I e).sum], (cs.flatMap fun c => c.laws I e).map (·.1),
    (cs.flatMap fun c => c.laws I e).map (·.2), cs.flatMap fun c => c.ratio I e]

theorem value_congr {I : Interp K} {e e' : String → K} (o : Obj K) (auto : String)
    (hs : ∀ s ∈ o.named, e s = e' s)
    (hv : ∀ p ∈ o.recorded auto, ∀ s ∈ p.2.expr.free, e s = e' s) :
    o.value I e = o.value I e' := by
  cases o with
  | tuple s v => exact eval_congr I _ (hv (s, v) (by simp [Obj.recorded]))
  | num c => rfl
  | str s => exact hs s (by simp [Obj.named])
  | expr a => exact eval_congr I _ (hv (auto, .ex a) (by simp [Obj.recorded]))

theorem atArgs_congr {I : Interp K} {e e' : String → K} (label : String) (kwargs : Dict (Obj K))
    (hs : ∀ p ∈ kwargs, ∀ s ∈ p.2.named, e s = e' s)
    (hv : ∀ p ∈ kwargs, ∀ q ∈ p.2.recorded (label ++ "_" ++ p.1), ∀ s ∈ q.2.expr.free, e s = e' s)
    (s : String) (hvar : s ∉ kwargs.map (·.1) → e s = e' s) :
    atArgs I e kwargs s = atArgs I e' kwargs s := by
  unfold atArgs
  cases hl : kwargs.lookup s with
  | none =>
    refine hvar fun hm => ?_
    obtain ⟨p, hp, rfl⟩ := List.mem_map.1 hm
    simpa using List.lookup_eq_none_iff.1 hl p hp
  | some o =>
    have hm : (s, o) ∈ kwargs := by
      obtain ⟨l1, l2, h1, _⟩ := List.lookup_eq_some_iff.1 hl
      rw [h1]; simp
    exact value_congr o (label ++ "_" ++ s) (hs _ hm) (hv _ hm)

/-- The meaning of a component does not depend on the values of the recorded symbols. -/
theorem comp_congr {I : Interp K} {cs : List (Comp K)} (hf : NamesFree cs) {e e' : String → K}
    (hee : ∀ s, s ∉ (records cs).map (·.1) → e s = e' s) (c : Comp K) (hc : c ∈ cs) :
    c.energy I e = c.energy I e' ∧ c.laws I e = c.laws I e' ∧ c.ratio I e = c.ratio I e' := by
  have hn : ∀ a ∈ c.args, ∀ s ∈ a.2.named, e s = e' s := fun a ha s hs =>
    hee s (hf.pars s (List.mem_flatMap.2 ⟨c, hc, List.mem_flatMap.2 ⟨a, ha, hs⟩⟩))
  have hr : ∀ a ∈ c.args, ∀ p ∈ a.2.recorded a.1, ∀ s ∈ p.2.expr.free, e s = e' s :=
    fun a ha p hp s hs =>
      hee s (hf.exprs p (List.mem_flatMap.2 ⟨c, hc, List.mem_flatMap.2 ⟨a, ha, hp⟩⟩) s hs)
  have hvv : ∀ a ∈ c.args, a.2.value I e = a.2.value I e' := fun a ha =>
    value_congr a.2 a.1 (hn a ha) (hr a ha)
  have hva : ∀ s ∈ c.vars, e s = e' s := fun s hs => hee s (hf.vars c hc s hs)
  cases c with
  | dissLinear label o inv =>
    have h1 := hvv (label ++ "coeff", o) (by simp [Comp.args])
    have h2 := hva ("w" ++ label) (by simp [Comp.vars])
    simp only at h1
    cases inv <;> simp [Comp.energy, Comp.laws, Comp.ratio, h1, h2]
  | stoLinear label o inv =>
    have h1 := hvv (label ++ "coeff", o) (by simp [Comp.args])
    have h2 := hva ("x" ++ label) (by simp [Comp.vars])
    simp only at h1
    cases inv <;> simp [Comp.energy, Comp.laws, Comp.ratio, h1, h2]
  | nonLinear label kwargs H z =>
    have hA : ∀ s, (s ∉ kwargs.map (·.1) → e s = e' s) →
        atArgs I e kwargs s = atArgs I e' kwargs s := fun s hs =>
      atArgs_congr label kwargs (fun p hp => hn (label ++ "_" ++ p.1, p.2) (List.mem_map_of_mem
          (f := fun p : String × Obj K => (label ++ "_" ++ p.1, p.2)) hp))
        (fun p hp => hr _ (List.mem_map_of_mem
          (f := fun p : String × Obj K => (label ++ "_" ++ p.1, p.2)) hp)) s hs
    have hfree : ∀ s, (s ∈ H.free ∨ ∃ q ∈ z, s ∈ q.1.free ∨ s ∈ q.2.free) →
        atArgs I e kwargs s = atArgs I e' kwargs s := fun s hs => hA s fun hk => hva s (by
      simp only [Comp.vars, List.mem_filter, List.mem_append, List.mem_flatMap, decide_eq_true_eq]
      exact ⟨hs, hk⟩)
    refine ⟨eval_congr I H fun s hs => hfree s (.inl hs), ?_, rfl⟩
    refine List.map_congr_left fun q hq => ?_
    rw [eval_congr I q.1 fun s hs => hfree s (.inr ⟨q, hq, .inl hs⟩),
      eval_congr I q.2 fun s hs => hfree s (.inr ⟨q, hq, .inr hs⟩)]
  | connector label kwargs =>
    refine ⟨rfl, rfl, ?_⟩
    simp only [Comp.ratio]
    rw [atArgs_congr label kwargs (fun p hp => hn (label ++ "_" ++ p.1, p.2) (List.mem_map_of_mem
          (f := fun p : String × Obj K => (label ++ "_" ++ p.1, p.2)) hp))
        (fun p hp => hr _ (List.mem_map_of_mem
          (f := fun p : String × Obj K => (label ++ "_" ++ p.1, p.2)) hp)) "alpha"
        fun hk => hva "alpha" (by simp only [Comp.vars, List.mem_filter]; simpa using hk)]

/-- **C80**, after `core.substitute(selfall=True)` (done for every simulation): the equations
of the system are those of its components with the values of the arguments in place of the
keys, whatever the values of the remaining symbols; no symbol of a value is left. -/
theorem C80_resolved {I : Interp K} (hI : Arith I) (cs : List (Comp K)) (h : NamesOK cs)
    (hf : NamesFree cs) :
    (∀ e, ((coreOf cs).toS.substitute [] true false).1.values I e = meant I e cs) ∧
    (∀ a ∈ ((coreOf cs).toS.substitute [] true false).1.attrs, ∀ b ∈ a, ∀ x ∈ b.free,
      x ∉ (records cs).map (·.1)) := by
  obtain ⟨_, hsubs, _⟩ := C80_parameters cs h
  obtain ⟨_, h2, _, _, _, h6, _⟩ := sum_fold cs ⟨[], [], .const 0, [], []⟩ h.keys
  have hkeys : ∀ s, s ∈ Dict.keys (coreOf cs).subs ↔ s ∈ (records cs).map (·.1) := fun s => by
    rw [show s ∈ Dict.keys (coreOf cs).subs ↔ _ from h2 s]; simp [Dict.keys, records_eq]
  have hflat : Flat (coreOf cs).toS.subs := by
    refine ⟨h6 (by simp [Dict.keys]), fun k a hk k' a' hk' hm => ?_⟩
    exact hf.exprs (k, .ex a) ((hsubs _).1 hk) k' hm
      (List.mem_map_of_mem (f := Prod.fst) ((hsubs (k', .ex a')).1 hk'))
  obtain ⟨r1, _, r3⟩ := C28_resolved I (coreOf cs).toS hflat
  refine ⟨fun e => ?_, fun a ha b hb x hx hm => r1 a ha b hb x hx ((hkeys x).2 hm)⟩
  rw [r3 e]
  set E := fullEnv I (coreOf cs).toS.subs e with hE
  obtain ⟨v1, v2, v3⟩ := C80_values hI cs h E (fullEnv_agrees I hflat e)
  have hee : ∀ s, s ∉ (records cs).map (·.1) → E s = e s := fun s hs => by
    have : List.lookup s (coreOf cs).toS.subs = none := by
      rw [List.lookup_eq_none_iff]
      intro q hq
      have : s ≠ q.1 := fun h0 => hs ((hkeys s).1 (h0 ▸ List.mem_map_of_mem hq))
      simpa using this
    simp only [hE, fullEnv, this]
  have hc := comp_congr (I := I) hf hee
  have w1 : (cs.map fun c => c.energy I E) = cs.map fun c => c.energy I e :=
    List.map_congr_left fun c hm => (hc c hm).1
  have w2 : (cs.flatMap fun c => c.laws I E) = cs.flatMap fun c => c.laws I e :=
    List.flatMap_congr fun c hm => (hc c hm).2.1
  have w3 : (cs.flatMap fun c => c.ratio I E) = cs.flatMap fun c => c.ratio I e :=
    List.flatMap_congr fun c hm => (hc c hm).2.2
  rw [w1] at v1; rw [w2] at v2; rw [w3] at v3
  simp only [SCore.values, PCore.toS, List.map_cons, List.map_nil, meant, v1, v3, ← v2,
    List.map_map, Function.comp_def]

/-- **C80**, default values: an argument which is given replaces the default value, one which
is not given keeps it. -/
theorem C80_defaults (pars : List (String × Obj K)) (kwargs : Dict (Obj K))
    (hp : (pars.map (·.1)).Nodup) (hk : (kwargs.map (·.1)).Nodup) (k : String) :
    (withDefaults pars kwargs).lookup k =
      match kwargs.lookup k with
      | some o => some o
      | none => pars.lookup k := by
  have hset : ∀ (d : Dict (Obj K)) (p : String × Obj K), (Dict.set d p.1 p.2).lookup k =
      if k = p.1 then some p.2 else d.lookup k := by
    intro d p
    unfold Dict.set
    by_cases hkp : k = p.1
    · subst hkp
      rw [if_pos rfl]
      split_ifs with hm
      · induction d with
        | nil => simp [Dict.keys] at hm
        | cons q l ih =>
          rw [List.map_cons, List.lookup_cons]
          by_cases hq : q.1 = p.1
          · simp [hq]
          · have h1 : (p.1 == q.1) = false := by simpa using fun h => hq h.symm
            simp only [if_neg hq, h1]
            refine ih ?_
            simp only [Dict.keys, List.map_cons, List.mem_cons] at hm
            rcases hm with hm | hm
            · exact absurd hm.symm hq
            · exact hm
      · have : List.lookup p.1 d = none := by
          rw [List.lookup_eq_none_iff]
          intro q hq
          have : p.1 ≠ q.1 := fun h0 => hm (h0 ▸ List.mem_map_of_mem hq)
          simpa using this
        rw [List.lookup_append, this]
        simpa using nlookup (d := [p]) (p := p) (by simp) (by simp)
    · rw [if_neg hkp]
      have h1 : (k == p.1) = false := by simpa using hkp
      split_ifs with hm
      · clear hm
        induction d with
        | nil => rfl
        | cons q l ih =>
          rw [List.map_cons, List.lookup_cons, List.lookup_cons, ih]
          by_cases hq : q.1 = p.1
          · simp [hq, h1]
          · simp [hq]
      · rw [List.lookup_append]
        cases List.lookup k d <;> simp [List.lookup_cons, h1, hkp]
  have hfold : ∀ (l : List (String × Obj K)) (d : Dict (Obj K)), (l.map (·.1)).Nodup →
      (l.foldl (fun d p => Dict.set d p.1 p.2) d).lookup k = match l.lookup k with
        | some o => some o
        | none => d.lookup k := by
    intro l
    induction l with
    | nil => intro d _; rfl
    | cons q l ih =>
      intro d hn
      simp only [List.map_cons, List.nodup_cons] at hn
      rw [List.foldl_cons, ih _ hn.2, hset, List.lookup_cons]
      by_cases hq : k = q.1
      · subst hq
        have : List.lookup q.1 l = none := by
          rw [List.lookup_eq_none_iff]
          intro r hr
          have : q.1 ≠ r.1 := fun h0 => hn.1 (h0 ▸ List.mem_map_of_mem hr)
          simpa using this
        simp [this]
      · have h1 : (k == q.1) = false := by simpa using hq
        simp [h1, hq]
  unfold withDefaults Dict.update parametersDefault
  rw [hfold kwargs _ hk, hfold pars _ hp]
  cases List.lookup k kwargs <;> cases List.lookup k pars <;> rfl

end Params
end Pyphs
