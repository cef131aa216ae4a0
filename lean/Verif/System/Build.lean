/-
The graph and the core built from the components of a netlist.
-/
import Verif.System.Rows
import Verif.System.Linear

namespace Pyphs
namespace System
open Core Graph Params
open Netlist (Row Lit Elem Str)

/-! ### Values of the parameters -/

theorem rel_mem {ps : List (Part ℝ)} {ds : List Device} (h : List.Forall₂ Rel ps ds) {p : Part ℝ}
    (hp : p ∈ ps) : ∃ d ∈ ds, Rel p d := by
  induction h with
  | nil => cases hp
  | cons h _ ih =>
    rcases List.mem_cons.1 hp with rfl | hp
    · exact ⟨_, List.mem_cons_self, h⟩
    · obtain ⟨d, h1, h2⟩ := ih hp
      exact ⟨d, List.mem_cons_of_mem _ h1, h2⟩

theorem IsVal.value {v : ℝ} {o : Obj ℝ} (h : IsVal v o) (I : Sym.Interp ℝ) (e : String → ℝ) :
    o.value I e = v := by
  rcases h with rfl | ⟨s, rfl⟩ <;> rfl

theorem IsVal.named {v : ℝ} {o : Obj ℝ} (h : IsVal v o) : o.named = [] := by
  rcases h with rfl | ⟨s, rfl⟩ <;> rfl

variable {F : Type} {val : F → ℝ} {rows : List (Row F)} {ds : List Device} {ps : List (Part ℝ)}

theorem mem_symbols {d : Device} (hd : d ∈ ds) {b : Branch} (hb : b ∈ d.branches) {s : String}
    (hs : s ∈ ["x" ++ b.id, "dx" ++ b.id, "w" ++ b.id, "u" ++ b.id, "y" ++ b.id]) :
    s ∈ symbolsOf ds := by
  unfold symbolsOf
  exact List.mem_flatMap.2 ⟨d, hd, List.mem_flatMap.2 ⟨b, hb, hs⟩⟩

theorem namesOK (h : List.Forall₂ Rel ps ds)
    (hrec : (ps.flatMap Part.comp).flatMap Comp.records =
      (rows.flatMap (paramOf val)).map fun q => (q.1, Sym.Val.num q.2))
    (hval : ∀ p ∈ rows.flatMap (paramOf val), ∀ q ∈ rows.flatMap (paramOf val), p.1 = q.1 → p.2 = q.2) :
    NamesOK (ps.flatMap Part.comp) where
  keys := by
    intro c hc
    obtain ⟨p, hp, hc⟩ := List.mem_flatMap.1 hc
    obtain ⟨d, -, hr⟩ := rel_mem h hp
    cases hr <;> simp only [Part.comp, List.mem_cons, List.not_mem_nil, or_false] at hc <;>
      subst hc <;> simp [Comp.kwargs]
  order := by
    intro c hc
    obtain ⟨p, hp, hc⟩ := List.mem_flatMap.1 hc
    obtain ⟨d, -, hr⟩ := rel_mem h hp
    cases hr <;> simp only [Part.comp, List.mem_cons, List.not_mem_nil, or_false] at hc <;>
      subst hc <;> simp [Comp.kwargs]
  values := by
    intro p hp q hq hpq
    rw [← records_eq, hrec] at hp hq
    obtain ⟨p', hp', rfl⟩ := List.mem_map.1 hp
    obtain ⟨q', hq', rfl⟩ := List.mem_map.1 hq
    dsimp only at hpq ⊢
    rw [hval p' hp' q' hq' hpq]

theorem namesFree (h : List.Forall₂ Rel ps ds)
    (hrec : (ps.flatMap Part.comp).flatMap Comp.records =
      (rows.flatMap (paramOf val)).map fun q => (q.1, Sym.Val.num q.2))
    (hnm : ∀ p ∈ rows.flatMap (paramOf val), p.1 ∉ symbolsOf ds) :
    NamesFree (ps.flatMap Part.comp) := by
  have hkeys : ∀ s, s ∈ (records (ps.flatMap Part.comp)).map (·.1) → s ∉ symbolsOf ds := by
    intro s hs
    rw [← records_eq, hrec, List.map_map] at hs
    obtain ⟨p, hp, rfl⟩ := List.mem_map.1 hs
    exact hnm p hp
  refine ⟨?_, ?_, ?_⟩
  · intro s hs
    obtain ⟨c, hc, hs⟩ := List.mem_flatMap.1 hs
    obtain ⟨p, hp, hc⟩ := List.mem_flatMap.1 hc
    obtain ⟨d, -, hr⟩ := rel_mem h hp
    cases hr <;> simp only [Part.comp, List.mem_cons, List.not_mem_nil, or_false] at hc <;>
      subst hc <;> rename_i hv <;> simp [Comp.args, hv.named] at hs
  · intro c hc s hs hk
    refine hkeys s hk ?_
    obtain ⟨p, hp, hc⟩ := List.mem_flatMap.1 hc
    obtain ⟨d, hd, hr⟩ := rel_mem h hp
    cases hr <;> simp only [Part.comp, List.mem_cons, List.not_mem_nil, or_false] at hc <;>
      subst hc <;> simp [Comp.vars] at hs <;> subst hs <;>
      exact mem_symbols hd (List.mem_singleton.2 rfl) (by simp)
  · intro p hp s hs
    rw [← records_eq, hrec] at hp
    obtain ⟨p', -, rfl⟩ := List.mem_map.1 hp
    simp [Sym.Val.expr, Sym.Expr.free] at hs

/-- The resistances and the ratios of a system, in order. -/
def resistances : List Device → List (String × ℝ)
  | [] => []
  | .resistance b r :: ds => (b.id, r) :: resistances ds
  | _ :: ds => resistances ds

def ratiosOf : List Device → List ℝ
  | [] => []
  | .gyrator _ _ α :: ds => α :: ratiosOf ds
  | .transformer _ _ α :: ds => α :: ratiosOf ds
  | _ :: ds => ratiosOf ds

/-- The equations of the components with the values of the parameters. -/
structure Resolved (I : Sym.Interp ℝ) (ps : List (Part ℝ)) (ds : List Device) : Prop where
  energy : energy I ps = fun e => stored ds fun i => e ("x" ++ i)
  zf : ∀ e, (resolved I ps e).getD 1 [] = (resistances ds).map fun q => q.2 * e ("w" ++ q.1)
  ze : ∀ e, (resolved I ps e).getD 2 [] = (resistances ds).map fun q => q.2⁻¹ * e ("w" ++ q.1)
  ratios : ratios I ps = ratiosOf ds

theorem meant_energy (h : List.Forall₂ Rel ps ds) (I : Sym.Interp ℝ) (e : String → ℝ) :
    ((ps.flatMap Part.comp).map fun c => c.energy I e).sum = stored ds fun i => e ("x" ++ i) := by
  unfold stored
  induction h with
  | nil => rfl
  | cons h _ ih =>
    rw [List.flatMap_cons, List.map_append, List.sum_append, List.map_cons, List.sum_cons, ih]
    congr 1
    cases h with
    | fluxStorage inv hv => cases inv <;> simp [Part.comp, Comp.energy, Device.energy, hv.value]
    | effortStorage inv hv => cases inv <;> simp [Part.comp, Comp.energy, Device.energy, hv.value]
    | _ => simp [Part.comp, Comp.energy, Device.energy]

theorem meant_laws (h : List.Forall₂ Rel ps ds) (I : Sym.Interp ℝ) (e : String → ℝ) :
    ((ps.flatMap Part.comp).flatMap fun c => c.laws I e) =
      (resistances ds).map fun q => (q.2 * e ("w" ++ q.1), q.2⁻¹ * e ("w" ++ q.1)) := by
  induction h with
  | nil => rfl
  | cons h _ ih =>
    rw [List.flatMap_cons, List.flatMap_append, ih]
    cases h with
    | resistance inv hv =>
      cases inv
      · simp [Part.comp, Comp.laws, hv.value, resistances, div_eq_inv_mul]
      · simp [Part.comp, Comp.laws, hv.value, resistances, div_eq_inv_mul]
    | _ => simp [Part.comp, Comp.laws, resistances]

theorem meant_ratios (h : List.Forall₂ Rel ps ds) (I : Sym.Interp ℝ) (e : String → ℝ) :
    ((ps.flatMap Part.comp).flatMap fun c => c.ratio I e) = ratiosOf ds := by
  induction h with
  | nil => rfl
  | cons h _ ih =>
    rw [List.flatMap_cons, List.flatMap_append, ih]
    cases h with
    | gyrator hv => simp [Part.comp, Comp.ratio, atArgs, hv.value, ratiosOf]
    | transformer hv => simp [Part.comp, Comp.ratio, atArgs, hv.value, ratiosOf]
    | _ => simp [Part.comp, Comp.ratio, ratiosOf]

theorem resolved_ok {I : Sym.Interp ℝ} (hI : Arith I) (h : List.Forall₂ Rel ps ds)
    (hn : NamesOK (ps.flatMap Part.comp)) (hf : NamesFree (ps.flatMap Part.comp)) :
    Resolved I ps ds := by
  have hr : ∀ e, resolved I ps e = meant I e (ps.flatMap Part.comp) := fun e =>
    (C80_resolved hI _ hn hf).1 e
  refine ⟨?_, fun e => ?_, fun e => ?_, ?_⟩
  · funext e
    unfold energy
    rw [hr]
    exact meant_energy h I e
  · rw [hr]
    show ((ps.flatMap Part.comp).flatMap fun c => c.laws I e).map (·.1) = _
    rw [meant_laws h, List.map_map]; rfl
  · rw [hr]
    show ((ps.flatMap Part.comp).flatMap fun c => c.laws I e).map (·.2) = _
    rw [meant_laws h, List.map_map]; rfl
  · unfold ratios
    rw [hr]
    exact meant_ratios h I _

theorem dissLabels_eq (h : List.Forall₂ Rel ps ds) : dissLabels ps = (resistances ds).map (·.1) := by
  induction h with
  | nil => rfl
  | cons h _ ih => cases h <;> simp [dissLabels, resistances, ih]

theorem pre_inj {a b : String} (s : String) (h : s ++ a = s ++ b) : a = b := by
  have := congrArg String.toList h
  rw [String.toList_append, String.toList_append] at this
  exact String.toList_injective (List.append_cancel_left this)

theorem lookup_map {L : List (String × ℝ)} (hL : (L.map (·.1)).Nodup) (s : String)
    (f : String × ℝ → ℝ) {q : String × ℝ} (hq : q ∈ L) :
    (L.map fun q => (s ++ q.1, f q)).lookup (s ++ q.1) = some (f q) := by
  induction L with
  | nil => cases hq
  | cons p L ih =>
    rw [List.map_cons, List.nodup_cons] at hL
    rw [List.map_cons, List.lookup_cons]
    rcases List.mem_cons.1 hq with rfl | hq
    · simp
    · have : s ++ q.1 ≠ s ++ p.1 := fun hh => hL.1 (pre_inj s hh ▸ List.mem_map_of_mem hq)
      rw [beq_false_of_ne this]
      exact ih hL.2 hq

theorem law_eq {I : Sym.Interp ℝ} (hr : Resolved I ps ds) (h : List.Forall₂ Rel ps ds)
    (hn : ((resistances ds).map (·.1)).Nodup) {q : String × ℝ} (hq : q ∈ resistances ds) :
    law I ps ("f:w" ++ q.1) = (fun e => q.2 * e ("w" ++ q.1)) ∧
    law I ps ("e:w" ++ q.1) = fun e => q.2⁻¹ * e ("w" ++ q.1) := by
  have z : ∀ (s : String) (f : String × ℝ → ℝ),
      (((resistances ds).map (·.1)).map fun l => s ++ l).zip ((resistances ds).map f) =
        (resistances ds).map fun q => (s ++ q.1, f q) := by
    intro s f
    induction resistances ds with
    | nil => rfl
    | cons p L ih => simp only [List.map_cons, List.zip_cons_cons, ih]
  constructor
  · funext e
    unfold law
    rw [hr.zf, hr.ze, dissLabels_eq h, z, z, List.lookup_append, lookup_map hn _ _ hq]
    rfl
  · funext e
    unfold law
    rw [hr.zf, hr.ze, dissLabels_eq h, z, z, List.lookup_append, lookup_map hn _ _ hq]
    have : ((resistances ds).map fun q => ("f:w" ++ q.1, q.2 * e ("w" ++ q.1))).lookup ("e:w" ++ q.1) =
        none := by
      rw [List.lookup_eq_none_iff]
      intro p hp
      obtain ⟨p', -, rfl⟩ := List.mem_map.1 hp
      rw [bne_iff_ne]
      intro hh
      have := congrArg String.toList hh
      rw [String.toList_append, String.toList_append] at this
      simp at this
    rw [this]
    rfl

end System
end Pyphs
