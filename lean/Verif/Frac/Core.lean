/-
From the equations of the core to the laws of the parts.
-/
import Verif.Frac.Net

namespace Pyphs
namespace Frac
open Graph Finset
open Core (ConnRel)

variable {K : Type} [Field K] [DecidableEq K]

/-- The laws `z['e_ctrl']` and `z['f_ctrl']` of the dissipative parts
(edges/dissipatives.py:49-54). -/
def HasLaws (law : String → Env K → K) (ps : List (Part K)) : Prop :=
  ∀ label n1 n2 coeff inv, Part.diss label n1 n2 coeff inv ∈ ps →
    law ("e" ++ label) = (fun v => if inv then coeff * v ("w" ++ label) else v ("w" ++ label) / coeff) ∧
    law ("f" ++ label) = (fun v => if inv then v ("w" ++ label) / coeff else coeff * v ("w" ++ label))

/-- A point of a trajectory of the core: the efforts `E` and flows `F` of all edges, the states `X` and
their derivatives `dX`. `β` and `α` are the vectors `b` and `a` of `b = M a`; the gradient of the energy
`value * x ** 2 / 2` of a storage is `value * x` (edges/storages.py:35). -/
structure CoreSolution (st : St K) (c' : Core K) (ps : List (Part K)) (E F X dX : String → K) : Prop where
  core : ∃ β α : Env K, Sides st E F β α ∧ Core.StructEq c'.labels c'.M β α ∧
    (∀ k ∈ c'.connectors, ConnRel k β α) ∧
    (∀ (i : ℕ) l z, c'.w[i]? = some l → c'.z[i]? = some z → α l = z β) ∧
    ∀ label n1 n2 value ctrl, Part.stor label n1 n2 value ctrl ∈ ps →
      β ("x" ++ label) = dX ("x" ++ label) ∧ α ("x" ++ label) = value * X ("x" ++ label)

variable {law : String → Env K → K} {nodes : List String} {edges : List (Edge K)} {fuel : ℕ}
  {st : St K} {c c' : Core K}

/-- The coefficients that are divided by are not zero and the storages have a control. -/
def Part.Good : Part K → Prop
  | .diss _ _ _ coeff _ => coeff ≠ 0
  | .stor _ _ _ _ ctrl => ctrl ≠ .unknown
  | .trans .. => True

theorem Assembled.solution (h : Assembled law nodes edges fuel st c c') {ps : List (Part K)}
    (hps : ∀ d ∈ edgesOf ps, d ∈ edges) (hg : ∀ p ∈ ps, p.Good) (hl : HasLaws law ps)
    {E F X dX : String → K} (hs : CoreSolution st c' ps E F X dX) : Solution st c' ps E F X dX := by
  obtain ⟨β, α, hsd, hst, hcr, hz, hx⟩ := hs.core
  refine ⟨⟨β, α, hsd, hst, hcr⟩, ?_⟩
  intro p hp
  cases p with
  | trans => trivial
  | stor label n1 n2 value ctrl =>
    have hm : (edgeS label n1 n2 ctrl : Edge K) ∈ edges :=
      hps _ (List.mem_flatMap.2 ⟨_, hp, List.mem_singleton_self _⟩)
    obtain ⟨c1, c2⟩ := C60_prescribed h.datum h.labels h.free h.analysed hm
    obtain ⟨e1, e2⟩ := hx _ _ _ _ _ hp
    have hne := hg _ hp
    cases ctrl with
    | unknown => exact absurd rfl hne
    | e =>
      obtain ⟨e, he, hel⟩ := List.mem_map.1 (c1 rfl).1
      obtain ⟨f1, f2⟩ := hsd.ec e he
      rw [hel] at f1 f2
      simp only [Part.Law, reduceCtorEq, if_false]
      exact ⟨e1.symm.trans f1, f2.symm.trans e2⟩
    | f =>
      obtain ⟨e, he, hel⟩ := List.mem_map.1 (c2 rfl).1
      obtain ⟨f1, f2⟩ := hsd.fc e he
      rw [hel] at f1 f2
      simp only [Part.Law, if_true]
      exact ⟨e1.symm.trans f1, f2.symm.trans e2⟩
  | diss label n1 n2 coeff inv =>
    have hm : (edgeD label n1 n2 : Edge K) ∈ edges :=
      hps _ (List.mem_flatMap.2 ⟨_, hp, List.mem_singleton_self _⟩)
    have h0 : coeff ≠ 0 := hg _ hp
    obtain ⟨l1, l2⟩ := hl _ _ _ _ _ hp
    obtain ⟨i, x, hi, hxd, hil, hic⟩ := h.pos hm
    have hf := (C43_order h.datum h.labels h.analysed h.built).1
    have hty : x.type = .dissipative := (congrArg Edge.type hxd :)
    have hze : x.ze = "e" ++ label := (congrArg Edge.ze hxd :)
    have hzf : x.zf = "f" ++ label := (congrArg Edge.zf hxd :)
    have hmem : i ∈ positions st .dissipative := by
      obtain ⟨hlt, hxi⟩ := List.getElem?_eq_some_iff.1 hi
      simp [positions, hlt, hxi, hty]
    obtain ⟨j, hj, hji⟩ := List.getElem_of_mem hmem
    have hj' : (positions st .dissipative)[j]? = some i := by rw [List.getElem?_eq_getElem hj, hji]
    have hw : c'.w[j]? = some ("w" ++ label) := by
      rw [hf.w, List.getElem?_map, hj']; exact congrArg some hil
    have hil : lab st i = "w" ++ label := hil
    rcases hf.z.2 j i x hj' hi with ⟨he, hzj⟩ | ⟨hne, he, hzj⟩
    · have hα := hz j _ _ hw hzj
      obtain ⟨f1, f2⟩ := hsd.ec i he
      rw [hil] at f1 f2
      rw [hze, l1, f2] at hα
      simp only [f1] at hα
      cases inv with
      | true => simpa only [Part.Law, if_true] using hα
      | false =>
        simp only [Part.Law, Bool.false_eq_true, if_false] at hα ⊢
        rw [hα]; field_simp
    · have hα := hz j _ _ hw hzj
      obtain ⟨f1, f2⟩ := hsd.fc i he
      rw [hil] at f1 f2
      rw [hzf, l2, f2] at hα
      simp only [f1] at hα
      cases inv with
      | true =>
        simp only [Part.Law, if_true] at hα ⊢
        rw [hα]; field_simp
      | false => simpa only [Part.Law, Bool.false_eq_true, if_false] using hα

/-- Conversely, values that satisfy Kirchhoff's laws and the laws of the parts are a point of a
trajectory of the core. -/
theorem Assembled.coreSolution (h : Assembled law nodes edges fuel st c c') {ps : List (Part K)}
    (hps : ∀ d ∈ edgesOf ps, d ∈ edges)
    (hd : ∀ d ∈ edges, d.type = .dissipative → ∃ l a b k i, Part.diss l a b k i ∈ ps ∧ d = edgeD l a b)
    (hg : ∀ p ∈ ps, p.Good) (hl : HasLaws law ps) {E F X dX : String → K}
    (hf : FlowBalance nodes edges F) (hpot : FromPotentials edges E)
    (hlaw : ∀ p ∈ ps, p.Law E F X dX)
    (hcon : ∀ k ∈ c'.connectors, ∀ β α, Sides st E F β α → ConnRel k β α) :
    CoreSolution st c' ps E F X dX := by
  obtain ⟨β, α, hsd⟩ := sides_exist h.datum h.labels h.analysed E F
  refine ⟨β, α, hsd, (C42_kirchhoff h.datum h.nodup h.ends h.labels h.analysed h.built E F β α hsd.ec
    hsd.fc).2 ⟨hf, hpot⟩, fun k hk => hcon k hk β α hsd, ?_, ?_⟩
  · intro j l z hw hz
    have hfo := (C43_order h.datum h.labels h.analysed h.built).1
    obtain ⟨hp, hic, hord⟩ := C39_analysis h.datum h.labels h.analysed
    rw [hfo.w, List.getElem?_map] at hw
    obtain ⟨e, hj, hel⟩ := Option.map_eq_some_iff.1 hw
    have hmem := List.mem_of_getElem? hj
    simp only [positions, List.mem_filter, List.mem_range, decide_eq_true_eq] at hmem
    obtain ⟨x, hx, hxt⟩ := Option.map_eq_some_iff.1 hmem.2
    have : noAlpha x ∈ edges.map noAlpha :=
      hp.sameEdges.mem_iff.1 (List.mem_map_of_mem (List.mem_of_getElem? hx))
    obtain ⟨d, hde, hdx⟩ := List.mem_map.1 this
    obtain ⟨lb, a, b, k, i, hpm, rfl⟩ := hd d hde ((congrArg Edge.type hdx :).trans hxt)
    obtain ⟨l1, l2⟩ := hl _ _ _ _ _ hpm
    have hlw := hlaw _ hpm
    have h0 : k ≠ 0 := hg _ hpm
    have hze : "e" ++ lb = x.ze := (congrArg Edge.ze hdx :)
    have hzf : "f" ++ lb = x.zf := (congrArg Edge.zf hdx :)
    have hlb : "w" ++ lb = l := by
      have : "w" ++ lb = x.label := (congrArg Edge.label hdx :)
      rw [this, ← hel]; simp [lab, hx]
    rcases hfo.z.2 j e x hj hx with ⟨he, hzj⟩ | ⟨hne, he, hzj⟩
    · obtain rfl := Option.some.inj (hz.symm.trans hzj)
      obtain ⟨f1, f2⟩ := hsd.ec e he
      rw [hel, ← hlb] at f1 f2
      rw [← hze, l1, ← hlb, f2]
      simp only [f1]
      cases i with
      | true => simpa only [Part.Law, if_true] using hlw
      | false =>
        simp only [Part.Law, Bool.false_eq_true, if_false] at hlw ⊢
        rw [hlw]; field_simp
    · obtain rfl := Option.some.inj (hz.symm.trans hzj)
      obtain ⟨f1, f2⟩ := hsd.fc e he
      rw [hel, ← hlb] at f1 f2
      rw [← hzf, l2, ← hlb, f2]
      simp only [f1]
      cases i with
      | true =>
        simp only [Part.Law, if_true] at hlw ⊢
        rw [hlw]; field_simp
      | false => simpa only [Part.Law, Bool.false_eq_true, if_false] using hlw
  · intro label n1 n2 value ctrl hp
    have hm : (edgeS label n1 n2 ctrl : Edge K) ∈ edges :=
      hps _ (List.mem_flatMap.2 ⟨_, hp, List.mem_singleton_self _⟩)
    obtain ⟨c1, c2⟩ := C60_prescribed h.datum h.labels h.free h.analysed hm
    have hlw := hlaw _ hp
    cases ctrl with
    | unknown => exact absurd rfl (hg _ hp)
    | e =>
      obtain ⟨e, he, hel⟩ := List.mem_map.1 (c1 rfl).1
      obtain ⟨f1, f2⟩ := hsd.ec e he
      rw [hel] at f1 f2
      simp only [Part.Law, reduceCtorEq, if_false] at hlw
      exact ⟨f1.trans hlw.1.symm, f2.trans hlw.2⟩
    | f =>
      obtain ⟨e, he, hel⟩ := List.mem_map.1 (c2 rfl).1
      obtain ⟨f1, f2⟩ := hsd.fc e he
      rw [hel] at f1 f2
      simp only [Part.Law, if_true] at hlw
      exact ⟨f1.trans hlw.1.symm, f2.trans hlw.2⟩

end Frac
end Pyphs
