/-
Each accepted line of a netlist with nonlinear components gives the documented components.
-/
import Verif.Nonlin.Model
import Verif.Nonlin.Spec
import Verif.System.Build

namespace Pyphs
namespace Nonlin
open Core Graph Params
open _root_.Pyphs.System (txt toObj nodesOf rowPart dictName compName name Branch Device nodeNames given
  symbolOf paramOf device Works IsVal Rel Recorded nodesOf_ok row_ok)
open Compo (E s k hsat GMIN)
open Netlist (Row Lit Elem Str)

/-- Meaning of the operations used by the nonlinear components. -/
structure ArithNl (I : Sym.Interp ℝ) : Prop extends Arith I where
  sub : ∀ a b, I.f2 "-" a b = a - b
  pow : ∀ a b, I.f2 "**" a b = a ^ b
  exp : ∀ a, I.f1 "exp" a = Real.exp a
  log : ∀ a, I.f1 "log" a = Real.log a
  cos : ∀ a, I.f1 "cos" a = Real.cos a

section eval
variable {I : Sym.Interp ℝ} (hI : ArithNl I) (e : Env ℝ) (a b : E)
include hI
theorem ev_add : (a + b).eval I e = a.eval I e + b.eval I e := hI.add _ _
theorem ev_sub : (a - b).eval I e = a.eval I e - b.eval I e := hI.sub _ _
theorem ev_mul : (a * b).eval I e = a.eval I e * b.eval I e := hI.mul _ _
theorem ev_div : (a / b).eval I e = a.eval I e / b.eval I e := hI.div _ _
theorem ev_pow : (a ^ b).eval I e = a.eval I e ^ b.eval I e := hI.pow _ _
theorem ev_exp : (Sym.Expr.op1 "exp" a).eval I e = Real.exp (a.eval I e) := hI.exp _
theorem ev_log : (Sym.Expr.op1 "log" a).eval I e = Real.log (a.eval I e) := hI.log _
theorem ev_cos : (Sym.Expr.op1 "cos" a).eval I e = Real.cos (a.eval I e) := hI.cos _
end eval

theorem free_add (a b : E) : (a + b).free = a.free ++ b.free := rfl
theorem free_sub (a b : E) : (a - b).free = a.free ++ b.free := rfl
theorem free_mul (a b : E) : (a * b).free = a.free ++ b.free := rfl
theorem free_div (a b : E) : (a / b).free = a.free ++ b.free := rfl
theorem free_pow (a b : E) : (a ^ b).free = a.free ++ b.free := rfl

/-- A dissipative edge and the component it stands for. -/
inductive DRel (kw : Sym.Dict (Obj ℝ)) : DEdge → Component → Prop
  | conductor {d : DEdge} {g gi : ℝ → ℝ} (hinv : Function.LeftInverse gi g)
      (he : ∀ I, ArithNl I → ∀ e, d.ze.eval I (atArgs I e kw) = g (e ("w" ++ d.id)))
      (hf : ∀ I, ArithNl I → ∀ e, d.zf.eval I (atArgs I e kw) = gi (e ("w" ++ d.id))) :
    DRel kw d (.conductor ⟨d.id, d.tail, d.head⟩ g)
  | resistance {d : DEdge} {r : ℝ}
      (he : ∀ I, ArithNl I → ∀ e, d.ze.eval I (atArgs I e kw) = r⁻¹ * e ("w" ++ d.id))
      (hf : ∀ I, ArithNl I → ∀ e, d.zf.eval I (atArgs I e kw) = r * e ("w" ++ d.id)) :
    DRel kw d (.linear (.resistance ⟨d.id, d.tail, d.head⟩ r))

/-- The graph built from a line and the components it describes. -/
inductive NRel : NPart → List Component → Prop
  | linear {p : System.Part ℝ} {d : Device} (h : Rel p d) : NRel (.linear p) [.linear d]
  | fluxStorage {l t h : String} {kw : Sym.Dict (Obj ℝ)} {H : E} {en f : ℝ → ℝ} {dom : Set ℝ}
      (hv : ∀ I, ArithNl I → ∀ e, H.eval I (atArgs I e kw) = en (e ("x" ++ l))) :
    NRel (.storage l t h kw H .f) [.fluxStorage ⟨l, t, h⟩ en f dom]
  | effortStorage {l t h : String} {kw : Sym.Dict (Obj ℝ)} {H : E} {en f : ℝ → ℝ} {dom : Set ℝ}
      (hv : ∀ I, ArithNl I → ∀ e, H.eval I (atArgs I e kw) = en (e ("x" ++ l))) :
    NRel (.storage l t h kw H .e) [.effortStorage ⟨l, t, h⟩ en f dom]
  | dissipative {l : String} {kw : Sym.Dict (Obj ℝ)} {es : List DEdge} {cs : List Component}
      (hes : List.Forall₂ (DRel kw) es cs) : NRel (.dissipative l kw es) cs

/-- The parameters of a component are those of the line, and do not interfere. -/
structure Clean (ps : List (String × ℝ)) (cs : List Component) (p : NPart) : Prop where
  recorded : p.comp.flatMap Comp.records = ps.map fun q => (q.1, Sym.Val.num q.2)
  keys : ∀ c ∈ p.comp, (c.kwargs.map (·.1)).Nodup
  order : ∀ c ∈ p.comp, ∀ a ∈ c.kwargs, ∀ q ∈ c.kwargs, a.1 < q.1 →
    a.2.symbol (c.label ++ "_" ++ a.1) ≠ q.1
  named : ∀ c ∈ p.comp, ∀ a ∈ c.args, a.2.named = []
  vars : ∀ c ∈ p.comp, ∀ v ∈ c.vars, v ∈ symbolsOf cs

variable {F : Type} {val : F → ℝ} {r : Row F}

theorem clean_linear {p : System.Part ℝ} {d : Device} (h : Rel p d)
    (hr : Recorded (paramOf val r) p) : Clean (paramOf val r) [.linear d] (.linear p) where
  recorded := hr
  keys := by
    intro c hc
    cases h <;> simp only [NPart.comp, System.Part.comp, List.mem_cons, List.not_mem_nil, or_false] at hc <;>
      subst hc <;> simp [Comp.kwargs]
  order := by
    intro c hc
    cases h <;> simp only [NPart.comp, System.Part.comp, List.mem_cons, List.not_mem_nil, or_false] at hc <;>
      subst hc <;> simp [Comp.kwargs]
  named := by
    intro c hc a ha
    cases h <;> simp only [NPart.comp, System.Part.comp, List.mem_cons, List.not_mem_nil, or_false] at hc <;>
      subst hc <;> rename_i hv <;> simp [Comp.args] at ha <;> subst ha <;> rcases hv with rfl | ⟨s, rfl⟩ <;> rfl
  vars := by
    intro c hc v hv
    cases h <;> simp only [NPart.comp, System.Part.comp, List.mem_cons, List.not_mem_nil, or_false] at hc <;>
      subst hc <;> simp [Comp.vars] at hv <;> subst hv <;>
      simp [symbolsOf, Component.branches, Device.branches]

/-! ### Arguments -/

/-- The object of an argument. -/
noncomputable def objOf (val : F → ℝ) (l : Lit F) : Obj ℝ :=
  match toObj val l with
  | .ok o => o
  | .error _ => .num 0

theorem kwargs_ok {args : List (Str × Lit F)} (h : ∀ p ∈ args, toObj val p.2 = .ok (objOf val p.2)) :
    kwargsOf val args = .ok (args.map fun p => (txt p.1, objOf val p.2)) := by
  unfold kwargsOf
  induction args with
  | nil => rfl
  | cons p l ih =>
    rw [List.mapM_cons, ih fun p hp => h p (List.mem_cons_of_mem _ hp), h p List.mem_cons_self]
    rfl

theorem kwargs_lookup (args : List (Str × Lit F)) (key : String) :
    (args.map fun p => (txt p.1, objOf val p.2)).lookup key =
      (args.lookup key.toList).map (objOf val) := by
  induction args with
  | nil => rfl
  | cons p l ih =>
    rw [List.map_cons, List.lookup_cons, List.lookup_cons]
    by_cases h : key = txt p.1
    · subst h
      simp [txt]
    · have h1 : (key == txt p.1) = false := by simpa using h
      have h2 : (key.toList == p.1) = false := by
        have : key.toList ≠ p.1 := fun hh => h (by rw [txt, ← hh, String.ofList_toList])
        simpa using this
      rw [h1, h2]
      exact ih

theorem update_known {V : Type} (D kw : Sym.Dict V) (hk : ∀ p ∈ kw, p.1 ∈ Sym.Dict.keys D)
    (hn : (kw.map (·.1)).Nodup) :
    Sym.Dict.update D kw = D.map fun p => (p.1, (kw.lookup p.1).getD p.2) := by
  induction kw generalizing D with
  | nil => simp [Sym.Dict.update]
  | cons q kw ih =>
    obtain ⟨qk, qv⟩ := q
    rw [List.map_cons, List.nodup_cons] at hn
    have h1 : Sym.Dict.update D ((qk, qv) :: kw) = Sym.Dict.update (Sym.Dict.set D qk qv) kw := rfl
    have h2 : Sym.Dict.set D qk qv = D.map fun p => if p.1 = qk then (qk, qv) else p := by
      unfold Sym.Dict.set
      rw [if_pos (hk (qk, qv) List.mem_cons_self)]
    have h3 : Sym.Dict.keys (D.map fun p => if p.1 = qk then (qk, qv) else p) = Sym.Dict.keys D := by
      unfold Sym.Dict.keys
      rw [List.map_map]
      refine List.map_congr_left fun p _ => ?_
      simp only [Function.comp_apply]
      split
      · rename_i hh; exact hh.symm
      · rfl
    rw [h1, h2, ih _ (fun p hp => by rw [h3]; exact hk p (List.mem_cons_of_mem _ hp)) hn.2, List.map_map]
    refine List.map_congr_left fun p _ => ?_
    simp only [Function.comp_apply, List.lookup_cons]
    by_cases hp : p.1 = qk
    · have : kw.lookup qk = none := by
        rw [List.lookup_eq_none_iff]
        intro a ha
        have : qk ≠ a.1 := fun hh => hn.1 (by rw [show qk = a.1 from hh]; exact List.mem_map_of_mem (f := (·.1)) ha)
        simpa using this
      rw [if_pos hp, this, hp]
      simp
    · have : (p.1 == qk) = false := by simpa using hp
      rw [if_neg hp, this]

/-- The values of the parameters. -/
structure ArgOK (val : F → ℝ) (r : Row F) (key : String) (dflt v : ℝ) (o : Obj ℝ) : Prop where
  isVal : IsVal v o
  recorded : ∀ auto : String, o.recorded auto =
    [((symbolOf val r key dflt auto).1, Sym.Val.num (symbolOf val r key dflt auto).2)]
  symbol : ∀ auto : String, o.symbol auto = auto ∨ ∃ s v, given val r key = some (some s, v) ∧
    o.symbol auto = s

theorem argOK {key : String} {dflt : Option ℝ} {od : Obj ℝ} {v : ℝ}
    (hv : valueOf val r (key, dflt) = some v) (hd : ∀ d, dflt = some d → od = .num d) :
    (∀ l, r.args.lookup key.toList = some l → toObj val l = .ok (objOf val l)) ∧
    ArgOK val r key (dflt.getD 0) v (((r.args.lookup key.toList).map (objOf val)).getD od) := by
  unfold valueOf at hv
  cases hl : r.args.lookup key.toList with
  | none =>
    dsimp only at hv
    rw [hl] at hv
    dsimp only at hv
    subst hv
    obtain rfl := hd v rfl
    refine ⟨fun l h => (by cases h), .inl rfl, fun auto => ?_, fun auto => .inl rfl⟩
    simp [symbolOf, given, hl, Obj.recorded]
  | some a =>
    dsimp only at hv
    rw [hl] at hv
    dsimp only at hv
    suffices toObj val a = .ok (objOf val a) ∧ ArgOK val r key (dflt.getD 0) v (objOf val a) from
      ⟨fun l h => by cases h; exact this.1, this.2⟩
    revert hv
    match a, hl with
    | .elem (.num f), hl =>
      have hg : given val r key = some (none, val f) := by unfold given; rw [hl]
      rw [hg]
      intro hv; cases hv
      exact ⟨rfl, .inl rfl, fun auto => by simp [symbolOf, hg, objOf, toObj, Obj.recorded], fun auto => .inl rfl⟩
    | .tuple [.str s, .num f], hl =>
      have hg : given val r key = some (some (name s), val f) := by unfold given; rw [hl]
      rw [hg]
      intro hv; cases hv
      exact ⟨rfl, .inr ⟨_, rfl⟩, fun auto => by simp [symbolOf, hg, objOf, toObj, Obj.recorded, name, txt],
        fun auto => .inr ⟨_, _, hg, rfl⟩⟩
    | .elem (.str s), hl => unfold given; rw [hl]; intro hv; cases hv
    | .none, hl => unfold given; rw [hl]; intro hv; cases hv
    | .bool b, hl => unfold given; rw [hl]; intro hv; cases hv
    | .tuple [], hl => unfold given; rw [hl]; intro hv; cases hv
    | .tuple [.str s], hl => unfold given; rw [hl]; intro hv; cases hv
    | .tuple [.str s, .str f], hl => unfold given; rw [hl]; intro hv; cases hv
    | .tuple (.str s :: .num f :: _ :: _), hl => unfold given; rw [hl]; intro hv; cases hv
    | .tuple (.str s :: .str f :: _ :: _), hl => unfold given; rw [hl]; intro hv; cases hv
    | .tuple (.num f :: _), hl => unfold given; rw [hl]; intro hv; cases hv

/-! ### Lines -/

theorem nrowPart_linear {p : System.Part ℝ} (h : rowPart val r = .ok p) :
    nrowPart val r = .ok (.linear p) := by
  unfold nrowPart
  have h' := h
  unfold rowPart at h'
  cases hc : r.comp.map Char.toLower with
  | nil => rw [hc] at h'; cases h'
  | cons a t =>
    rw [hc] at h'
    dsimp only at h' ⊢
    have : classOf (txt r.dict) (txt (a.toUpper :: t)) = none := by
      generalize txt r.dict = D at *
      generalize txt (a.toUpper :: t) = C at *
      unfold classOf
      split <;> first | rfl | cases h'
    rw [this]
    dsimp only
    rw [h]
    rfl

/-- The parameters of a nonlinear class, for a line. -/
noncomputable def kwOf (val : F → ℝ) (r : Row F) (D : List (String × Obj ℝ)) : Sym.Dict (Obj ℝ) :=
  D.map fun p => (p.1, ((r.args.lookup p.1.toList).map (objOf val)).getD p.2)

/-- The class of a nonlinear line. -/
theorem nrowPart_of {h : Char} {t : Str} {c : Class} {ns : List String} {ps : List (String × Option ℝ)}
    (hw : WorksNl val r ps) (hcomp : compName r = name (h :: t))
    (hk : classOf (dictName r) (name (h.toUpper :: t)) = some c) (hn : nodeNames r = some ns)
    (hkeys : c.defaults.map (·.1) = ps.map (·.1)) (hnd : (ps.map (·.1)).Nodup)
    (hres : ∀ q ∈ ps, q.1 ∉ ["self", "label", "nodes"] ∧ q.1 ∉ c.reserved)
    (hok : ∀ q ∈ ps, ∀ l, r.args.lookup q.1.toList = some l → toObj val l = .ok (objOf val l))
    (hlen : ns.length = c.arity) :
    nrowPart val r = c.build (name r.label) ns (kwOf val r c.defaults) := by
  have hc : r.comp.map Char.toLower = h :: t := String.ofList_injective hcomp
  have hk' : classOf (txt r.dict) (txt (h.toUpper :: t)) = some c := hk
  have hkey : ∀ p ∈ r.args, ∃ q ∈ ps, p.1 = q.1.toList := by
    intro p hp
    obtain ⟨q, hq, hh⟩ := List.mem_map.1 (hw.keys p hp)
    exact ⟨q, hq, hh.symm⟩
  have hobj : ∀ p ∈ r.args, toObj val p.2 = .ok (objOf val p.2) := by
    intro p hp
    obtain ⟨q, hq, hh⟩ := hkey p hp
    refine hok q hq p.2 ?_
    rw [← hh]
    have hnd' := hw.nodup
    revert hp hnd'
    generalize r.args = L
    intro hp hnd'
    clear hk' hc
    induction L with
    | nil => cases hp
    | cons a L ih =>
      rw [List.map_cons, List.nodup_cons] at hnd'
      rw [List.lookup_cons]
      rcases List.mem_cons.1 hp with rfl | hp
      · simp
      · have : (p.1 == a.1) = false := by
          have : p.1 ≠ a.1 := fun hh => hnd'.1 (hh ▸ List.mem_map_of_mem (f := (·.1)) hp)
          simpa using this
        rw [this]
        exact ih hp hnd'.2
  unfold nrowPart
  rw [hc]
  simp only [hk']
  rw [if_neg, nodesOf_ok hn]
  · show c.init val (txt r.label) ns r.args = _
    unfold Class.init
    rw [if_neg (by simpa using hlen), if_neg, kwargs_ok hobj]
    · show c.build _ ns (withDefaults c.defaults _) = _
      have hD : parametersDefault c.defaults = c.defaults := by
        cases c <;> simp [parametersDefault, Class.defaults, Sym.Dict.set, Sym.Dict.keys]
      unfold withDefaults
      rw [hD, update_known]
      · unfold kwOf
        congr 1
        refine List.map_congr_left fun p _ => ?_
        rw [kwargs_lookup]
      · intro p hp
        obtain ⟨a, ha, rfl⟩ := List.mem_map.1 hp
        obtain ⟨q, hq, hh⟩ := hkey a ha
        show txt a.1 ∈ c.defaults.map (·.1)
        rw [hh, hkeys, txt, String.ofList_toList]
        exact List.mem_map_of_mem (f := (·.1)) hq
      · rw [List.map_map]
        have : ((fun x : String × Obj ℝ => x.1) ∘ fun p : Str × Lit F => (txt p.1, objOf val p.2)) =
            txt ∘ fun p : Str × Lit F => p.1 := rfl
        rw [this, ← List.map_map]
        exact hw.nodup.map fun _ _ hh => String.ofList_injective hh
    · rintro ⟨p, hp, hq⟩
      obtain ⟨q, hq', hh⟩ := hkey p hp
      rw [hh, txt, String.ofList_toList] at hq
      exact (hres q hq').2 hq
  · rintro ⟨p, hp, hq⟩
    obtain ⟨q, hq', hh⟩ := hkey p hp
    rw [hh] at hq
    have := (hres q hq').1
    simp only [List.mem_cons, List.not_mem_nil, or_false, String.toList_inj] at hq this
    exact this hq

/-! ### Names -/

/-- The symbol of a parameter is not the key of another one. -/
structure EntryOK (label : String) (K : List String) (p : String × Obj ℝ) : Prop where
  named : p.2.named = []
  symbol : ∀ q ∈ K, p.1 < q → p.2.symbol (label ++ "_" ++ p.1) ≠ q

theorem auto_ne {l key q : String} (h : '_' ∉ q.toList) : l ++ "_" ++ key ≠ q := by
  intro hh
  apply h
  rw [← hh, String.toList_append, String.toList_append]
  simp

theorem entryOK {ps : List (String × Option ℝ)} (hw : WorksNl val r ps) {K : List String}
    (hK : ∀ q ∈ K, q ∈ "gmin" :: ps.map (·.1)) (hK' : ∀ q ∈ K, '_' ∉ q.toList)
    {p : String × Option ℝ} (hp : p ∈ ps) {d v : ℝ} {o : Obj ℝ} (h : ArgOK val r p.1 d v o) (label : String) :
    EntryOK label K (p.1, o) := by
  refine ⟨h.isVal.named, fun q hq hlt => ?_⟩
  rcases h.symbol (label ++ "_" ++ p.1) with hs | ⟨s, v', hg, hs⟩
  · dsimp only
    rw [hs]
    exact auto_ne (hK' q hq)
  · dsimp only
    rw [hs]
    rcases hw.names p hp s v' hg with rfl | hn
    · exact fun hh => absurd hlt (by rw [hh]; exact String.lt_irrefl _)
    · exact fun hh => hn (hh ▸ hK q hq)

theorem clean_nl {ps : List (String × ℝ)} {cs : List Component} {p : NPart} {label : String}
    {kw : Sym.Dict (Obj ℝ)} {H : E} {z : List (E × E)} (hp : p.comp = [.nonLinear label kw H z])
    (hrec : (kw.flatMap fun a => a.2.recorded (label ++ "_" ++ a.1)) =
      ps.map fun q => (q.1, Sym.Val.num q.2))
    (hnd : (kw.map (·.1)).Nodup) (he : ∀ a ∈ kw, EntryOK label (kw.map (·.1)) a)
    (hv : ∀ v ∈ H.free ++ z.flatMap fun q => q.1.free ++ q.2.free, v ∉ kw.map (·.1) → v ∈ symbolsOf cs) :
    Clean ps cs p where
  recorded := by
    rw [hp, ← hrec]
    simp [Comp.records, Comp.args, List.flatMap_map]
  keys := by
    rw [hp]; intro c hc; obtain rfl := List.mem_singleton.1 hc; exact hnd
  order := by
    rw [hp]; intro c hc; obtain rfl := List.mem_singleton.1 hc
    intro a ha q hq hlt
    exact (he a ha).symbol q.1 (List.mem_map_of_mem hq) hlt
  named := by
    rw [hp]; intro c hc; obtain rfl := List.mem_singleton.1 hc
    intro a ha
    obtain ⟨b, hb, rfl⟩ := List.mem_map.1 ha
    exact (he b hb).named
  vars := by
    rw [hp]; intro c hc; obtain rfl := List.mem_singleton.1 hc
    intro v hvv
    have := List.mem_filter.1 hvv
    exact hv v this.1 (by simpa using this.2)

end Nonlin
end Pyphs
