/-
The lines of the nonlinear components give the documented components.
-/
import Verif.Nonlin.Rows

namespace Pyphs
namespace Nonlin
open Core Graph Params
open _root_.Pyphs.System (txt toObj nodesOf rowPart dictName compName name Branch Device nodeNames given
  symbolOf paramOf device Works IsVal Rel Recorded nodesOf_ok row_ok)
open Compo (E s k hsat GMIN)
open Netlist (Row Lit Elem Str)

set_option linter.unusedSimpArgs false

variable {F : Type} {val : F → ℝ} {r : Row F}

theorem atArgs_cons (I : Sym.Interp ℝ) (e : Env ℝ) (key : String) (o : Obj ℝ) (kw : Sym.Dict (Obj ℝ))
    (x : String) : atArgs I e ((key, o) :: kw) x = if x = key then o.value I e else atArgs I e kw x := by
  unfold atArgs
  rw [List.lookup_cons]
  by_cases h : x = key
  · simp [h]
  · have : (x == key) = false := by simpa using h
    rw [this, if_neg h]

theorem atArgs_nil (I : Sym.Interp ℝ) (e : Env ℝ) (x : String) : atArgs I e [] x = e x := rfl

/-- A line of a nonlinear storage with three parameters. -/
theorem storage3 {h : Char} {t : Str} {c : Class} {k1 k2 k3 n1 n2 : String} {d1 d2 d3 v1 v2 v3 : ℝ}
    {Hf : String → E} {ctrl : Ctrl} {en : ℝ → ℝ → ℝ → ℝ → ℝ}
    (hps : parameters (dictName r) (compName r) = some [(k1, some d1), (k2, some d2), (k3, some d3)])
    (hw : WorksNl val r [(k1, some d1), (k2, some d2), (k3, some d3)])
    (hcomp : compName r = name (h :: t))
    (hk : classOf (dictName r) (name (h.toUpper :: t)) = some c)
    (hdef : c.defaults = [(k1, .num d1), (k2, .num d2), (k3, .num d3)])
    (har : c.arity = 2)
    (hbuild : ∀ l n1 n2 kw, c.build l [n1, n2] kw = .ok (.storage l n1 n2 kw (Hf ("x" ++ l)) ctrl))
    (hne : compName r ≠ "diode")
    (hfree : ∀ x, ∀ v ∈ (Hf x).free, v = x ∨ v ∈ [k1, k2, k3])
    (heval : ∀ I, ArithNl I → ∀ e x, (Hf x).eval I e = en (e k1) (e k2) (e k3) (e x))
    (hnd : [k1, k2, k3].Nodup) (hus : ∀ q ∈ [k1, k2, k3], '_' ∉ q.toList)
    (hres : ∀ q ∈ [k1, k2, k3], q ∉ ["self", "label", "nodes"] ∧ q ∉ c.reserved)
    (hn : nodeNames r = some [n1, n2])
    (h1 : valueOf val r (k1, some d1) = some v1) (h2 : valueOf val r (k2, some d2) = some v2)
    (h3 : valueOf val r (k3, some d3) = some v3) :
    ∃ kw, nrowPart val r = .ok (.storage (name r.label) n1 n2 kw (Hf ("x" ++ name r.label)) ctrl) ∧
      (∀ I, ArithNl I → ∀ e, (Hf ("x" ++ name r.label)).eval I (atArgs I e kw) =
        en v1 v2 v3 (e ("x" ++ name r.label))) ∧
      ∀ cs, "x" ++ name r.label ∈ symbolsOf cs →
        Clean (paramsOf val r) cs (.storage (name r.label) n1 n2 kw (Hf ("x" ++ name r.label)) ctrl) := by
  obtain ⟨p1, q1⟩ := argOK (od := .num d1) h1 (by rintro d ⟨⟩; rfl)
  obtain ⟨p2, q2⟩ := argOK (od := .num d2) h2 (by rintro d ⟨⟩; rfl)
  obtain ⟨p3, q3⟩ := argOK (od := .num d3) h3 (by rintro d ⟨⟩; rfl)
  have hrow := nrowPart_of (val := val) hw hcomp hk hn (by rw [hdef]; rfl) (by simpa using hnd)
    (by simpa using hres) (by
      intro q hq l hl
      simp only [List.mem_cons, List.not_mem_nil, or_false] at hq
      rcases hq with rfl | rfl | rfl
      · exact p1 l hl
      · exact p2 l hl
      · exact p3 l hl) (by rw [har]; rfl)
  rw [hdef, hbuild] at hrow
  simp only [List.nodup_cons, List.mem_cons, List.not_mem_nil, or_false, not_or] at hnd
  obtain ⟨⟨h12, h13⟩, h23, -, -⟩ := hnd
  have hst := hw.state
  simp only [List.map_cons, List.map_nil, List.mem_cons, List.not_mem_nil, or_false, not_or] at hst
  obtain ⟨s1, s2, s3⟩ := hst
  refine ⟨_, hrow, ?_, ?_⟩
  · intro I hI e
    rw [heval I hI]
    simp only [kwOf, List.map_cons, List.map_nil, atArgs_cons, atArgs_nil, if_true, if_neg h12,
      if_neg h13, if_neg h23, if_neg (Ne.symm h12), if_neg (Ne.symm h13), if_neg (Ne.symm h23),
      if_neg s1, if_neg s2, if_neg s3, q1.isVal.value, q2.isVal.value, q3.isVal.value]
  · intro cs hcs
    refine clean_nl (kw := kwOf val r [(k1, .num d1), (k2, .num d2), (k3, .num d3)]) rfl ?_ ?_ ?_ ?_
    · unfold paramsOf
      rw [hps]
      simp only [kwOf, List.map_cons, List.map_nil, List.flatMap_cons, List.flatMap_nil, q1.recorded,
        q2.recorded, q3.recorded, if_neg hne, List.append_nil, List.singleton_append]
    · simp [kwOf, h12, h13, h23]
    · intro a ha
      have hK : ∀ q ∈ (kwOf val r [(k1, .num d1), (k2, .num d2), (k3, .num d3)]).map (·.1),
          q ∈ "gmin" :: [(k1, some d1), (k2, some d2), (k3, some d3)].map (·.1) := fun q hq =>
        List.mem_cons_of_mem _ hq
      have hK' : ∀ q ∈ (kwOf val r [(k1, .num d1), (k2, .num d2), (k3, .num d3)]).map (·.1),
          '_' ∉ q.toList := hus
      simp only [kwOf, List.map_cons, List.map_nil, List.mem_cons, List.not_mem_nil, or_false] at ha
      rcases ha with rfl | rfl | rfl
      · exact entryOK hw hK hK' (p := (k1, some d1)) (by simp) q1 _
      · exact entryOK hw hK hK' (p := (k2, some d2)) (by simp) q2 _
      · exact entryOK hw hK hK' (p := (k3, some d3)) (by simp) q3 _
    · intro v hv hnk
      rw [List.flatMap_nil, List.append_nil] at hv
      rcases hfree _ v hv with rfl | hh
      · exact hcs
      · exact absurd hh hnk

/-! ### Expressions -/

noncomputable def cubicE (x : String) : E :=
  s "F1" * s x ^ k 2 / (k 2 * s "xref") + s "F3" * s x ^ k 4 / (k 4 * s "xref" ^ k 3)
noncomputable def satE (x : String) : E := s "K0" * (s x ^ k 2 / k 2 - s "Ksat" * hsat x "xsat")
noncomputable def capsatE (x : String) : E := (s x ^ k 2 / k 2 - s "Csat" * hsat x "phisat") / s "C0"

theorem ev_sym (I : Sym.Interp ℝ) (e : Env ℝ) (x : String) : (s x).eval I e = e x := rfl
theorem ev_const (I : Sym.Interp ℝ) (e : Env ℝ) (c : ℝ) : (k c).eval I e = c := rfl
theorem free_sym (x : String) : (s x).free = [x] := rfl
theorem free_const (c : ℝ) : (k c).free = [] := rfl
theorem free_op1 (f : String) (a : E) : (Sym.Expr.op1 f a).free = a.free := rfl

theorem cubic_eval {I : Sym.Interp ℝ} (hI : ArithNl I) (e : Env ℝ) (x : String) :
    (cubicE x).eval I e = cubicEnergy (e "F1") (e "F3") (e "xref") (e x) := by
  unfold cubicE cubicEnergy
  simp only [ev_add hI, ev_mul hI, ev_div hI, ev_pow hI, ev_sym, ev_const, Real.rpow_ofNat]

theorem hsat_eval {I : Sym.Interp ℝ} (hI : ArithNl I) (e : Env ℝ) (x q : String) :
    (hsat x q).eval I e = -satPart (e q) (e x) := by
  unfold hsat satPart
  simp only [ev_add hI, ev_sub hI, ev_mul hI, ev_div hI, ev_pow hI, ev_log hI, ev_cos hI, ev_sym, ev_const,
    Real.rpow_ofNat]
  ring

theorem sat_eval {I : Sym.Interp ℝ} (hI : ArithNl I) (e : Env ℝ) (x : String) :
    (satE x).eval I e = satEnergy (e "K0") (e "Ksat") (e "xsat") (e x) := by
  unfold satE satEnergy
  simp only [ev_sub hI, ev_mul hI, ev_div hI, ev_pow hI, ev_sym, ev_const, hsat_eval hI, Real.rpow_ofNat]
  ring

theorem capsat_eval {I : Sym.Interp ℝ} (hI : ArithNl I) (e : Env ℝ) (x : String) :
    (capsatE x).eval I e = satEnergy (e "C0")⁻¹ (e "Csat") (e "phisat") (e x) := by
  unfold capsatE satEnergy
  simp only [ev_sub hI, ev_mul hI, ev_div hI, ev_pow hI, ev_sym, ev_const, hsat_eval hI, Real.rpow_ofNat]
  ring

theorem cubic_free (x : String) : ∀ v ∈ (cubicE x).free, v = x ∨ v ∈ ["F1", "F3", "xref"] := by
  intro v hv
  simp only [cubicE, free_add, free_mul, free_div, free_pow, free_sym, free_const, List.mem_append,
    List.mem_cons, List.not_mem_nil, or_false] at hv ⊢
  tauto

theorem sat_free (x : String) : ∀ v ∈ (satE x).free, v = x ∨ v ∈ ["K0", "Ksat", "xsat"] := by
  intro v hv
  simp only [satE, hsat, free_add, free_sub, free_op1, free_mul, free_div, free_pow, free_sym, free_const, List.mem_append,
    List.mem_cons, List.not_mem_nil, or_false] at hv ⊢
  tauto

theorem capsat_free (x : String) : ∀ v ∈ (capsatE x).free, v = x ∨ v ∈ ["C0", "Csat", "phisat"] := by
  intro v hv
  simp only [capsatE, hsat, free_add, free_sub, free_op1, free_mul, free_div, free_pow, free_sym, free_const, List.mem_append,
    List.mem_cons, List.not_mem_nil, or_false] at hv ⊢
  tauto

theorem w_ne {l key : String} (h : key.toList.head? ≠ some 'w') : "w" ++ l ≠ key := by
  intro hh
  apply h
  rw [← hh, String.toList_append]
  rfl

theorem mapM_some {α β : Type} {f : α → Option β} {l : List α} {vs : List β} (h : l.mapM f = some vs) :
    List.Forall₂ (fun a v => f a = some v) l vs := by
  induction l generalizing vs with
  | nil => cases h; exact .nil
  | cons a l ih =>
    rw [List.mapM_cons] at h
    cases ha : f a with
    | none => rw [ha] at h; cases h
    | some v =>
      rw [ha] at h
      cases hl : l.mapM f with
      | none => rw [hl] at h; cases h
      | some ws => rw [hl] at h; cases h; exact .cons ha (ih hl)

theorem shockley_inv {Is mu v0 : ℝ} (h : StrictMono (shockley Is mu v0)) :
    Function.LeftInverse (fun w => mu * v0 * Real.log (w / Is + 1)) (shockley Is mu v0) := by
  have h01 := h zero_lt_one
  have hI : Is ≠ 0 := by rintro rfl; simp [shockley] at h01
  have hm : mu * v0 ≠ 0 := by intro hh; simp [shockley, hh] at h01
  intro v
  unfold shockley
  dsimp only
  rw [mul_div_cancel_left₀ _ hI, sub_add_cancel, Real.log_exp, mul_div_cancel₀ _ hm]

/-- A line of a diode. -/
theorem diode_row {n1 n2 : String} {Is mu R v0 : ℝ} (hD : dictName r = "electronics")
    (hC : compName r = "diode")
    (hw : WorksNl val r [("Is", some 2e-9), ("mu", some 1.7), ("R", some 0.5), ("v0", some 26e-3)])
    (hn : nodeNames r = some [n1, n2])
    (h1 : valueOf val r ("Is", some 2e-9) = some Is) (h2 : valueOf val r ("mu", some 1.7) = some mu)
    (h3 : valueOf val r ("R", some 0.5) = some R) (h4 : valueOf val r ("v0", some 26e-3) = some v0)
    {cs : List Component}
    (hm : meaning "electronics" "diode" (name r.label) [n1, n2] [Is, mu, R, v0] = some cs)
    (hph : ∀ c ∈ cs, c.Physical) :
    ∃ p, nrowPart val r = .ok p ∧ NRel p cs ∧ Clean (paramsOf val r) cs p := by
  cases hm
  have hmono : StrictMono (shockley Is mu v0) :=
    (hph (.conductor _ _) List.mem_cons_self).1
  obtain ⟨p1, q1⟩ := argOK (od := .num 2e-9) h1 (by rintro d ⟨⟩; rfl)
  obtain ⟨p2, q2⟩ := argOK (od := .num 1.7) h2 (by rintro d ⟨⟩; rfl)
  obtain ⟨p3, q3⟩ := argOK (od := .num 0.5) h3 (by rintro d ⟨⟩; rfl)
  obtain ⟨p4, q4⟩ := argOK (od := .num 26e-3) h4 (by rintro d ⟨⟩; rfl)
  have hrow := nrowPart_of (val := val) (c := .diode) (h := 'd') (t := "iode".toList) hw hC
    (by rw [hD]; rfl) hn rfl (by simp) (by simp [Class.reserved]) (by
      intro q hq l hl
      simp only [List.mem_cons, List.not_mem_nil, or_false] at hq
      rcases hq with rfl | rfl | rfl | rfl
      · exact p1 l hl
      · exact p2 l hl
      · exact p3 l hl
      · exact p4 l hl) rfl
  have hkw : Sym.Dict.update (kwOf val r Class.diode.defaults) [("gmin", .tuple "gmin" (.num GMIN))] =
      [("Is", ((r.args.lookup "Is".toList).map (objOf val)).getD (.num 2e-9)),
        ("mu", ((r.args.lookup "mu".toList).map (objOf val)).getD (.num 1.7)),
        ("R", ((r.args.lookup "R".toList).map (objOf val)).getD (.num 0.5)),
        ("v0", ((r.args.lookup "v0".toList).map (objOf val)).getD (.num 26e-3)),
        ("gmin", .tuple "gmin" (.num GMIN))] := by
    simp [kwOf, Class.defaults, Sym.Dict.update, Sym.Dict.set, Sym.Dict.keys]
  have hg : ∀ e : Env ℝ, ∀ I, Obj.value I e (.tuple "gmin" (.num GMIN)) = GMIN := fun _ _ => rfl
  have w1 : ∀ l : String, "w" ++ l ≠ "Is" := fun l => w_ne (by decide)
  have w2 : ∀ l : String, "w" ++ l ≠ "mu" := fun l => w_ne (by decide)
  have w3 : ∀ l : String, "w" ++ l ≠ "R" := fun l => w_ne (by decide)
  have w4 : ∀ l : String, "w" ++ l ≠ "v0" := fun l => w_ne (by decide)
  have w5 : ∀ l : String, "w" ++ l ≠ "gmin" := fun l => w_ne (by decide)
  unfold Class.build at hrow
  dsimp only at hrow
  rw [hkw] at hrow
  refine ⟨_, hrow, .dissipative (.cons (.conductor (shockley_inv hmono) ?_ ?_)
    (.cons (.resistance ?_ ?_) (.cons (.resistance ?_ ?_) .nil))), clean_nl rfl ?_ ?_ ?_ ?_⟩
  · intro I hI e
    simp only [ev_sub hI, ev_mul hI, ev_div hI, ev_exp hI, ev_sym, ev_const, atArgs_cons, atArgs_nil, w1, w2, w3, w4, w5,
      q1.isVal.value, q2.isVal.value, q4.isVal.value, if_false, if_true, reduceCtorEq]
    simp [shockley]
  · intro I hI e
    simp only [ev_add hI, ev_mul hI, ev_div hI, ev_log hI, ev_sym, ev_const, atArgs_cons, atArgs_nil, w1, w2, w3, w4, w5,
      q1.isVal.value, q2.isVal.value, q4.isVal.value, if_false, if_true]
    simp
  · intro I hI e
    simp only [ev_div hI, ev_sym, atArgs_cons, atArgs_nil, w1, w2, w3, w4, w5, q3.isVal.value, if_false, if_true]
    simp [div_eq_inv_mul]
  · intro I hI e
    simp only [ev_mul hI, ev_sym, atArgs_cons, atArgs_nil, w1, w2, w3, w4, w5, q3.isVal.value, if_false, if_true]
    simp
  · intro I hI e
    simp only [ev_mul hI, ev_sym, atArgs_cons, atArgs_nil, w1, w2, w3, w4, w5, hg, if_false, if_true]
    simp [GMIN]
    ring
  · intro I hI e
    simp only [ev_div hI, ev_sym, atArgs_cons, atArgs_nil, w1, w2, w3, w4, w5, hg, if_false, if_true]
    simp [GMIN]
    ring
  · unfold paramsOf
    rw [hD, hC]
    simp only [parameters, List.map_cons, List.map_nil, List.flatMap_cons, List.flatMap_nil, q1.recorded,
      q2.recorded, q3.recorded, q4.recorded, if_true, List.append_nil, List.singleton_append, List.cons_append,
      List.nil_append]
    rfl
  · simp
  · have hK : ∀ q ∈ ["Is", "mu", "R", "v0", "gmin"], q ∈ "gmin" ::
        [("Is", some (2e-9 : ℝ)), ("mu", some 1.7), ("R", some 0.5), ("v0", some 26e-3)].map (·.1) := by
      simp
    have hK' : ∀ q ∈ ["Is", "mu", "R", "v0", "gmin"], '_' ∉ q.toList := by decide
    intro a ha
    simp only [List.mem_cons, List.not_mem_nil, or_false] at ha
    rcases ha with rfl | rfl | rfl | rfl | rfl
    · exact entryOK hw hK hK' (p := ("Is", some 2e-9)) (by simp) q1 _
    · exact entryOK hw hK hK' (p := ("mu", some 1.7)) (by simp) q2 _
    · exact entryOK hw hK hK' (p := ("R", some 0.5)) (by simp) q3 _
    · exact entryOK hw hK hK' (p := ("v0", some 26e-3)) (by simp) q4 _
    · exact ⟨rfl, fun q _ hlt hh => absurd hlt (by rw [← hh]; exact String.lt_irrefl _)⟩
  · intro v hv hnk
    have : v = "w" ++ name r.label ∨ v = "w" ++ (name r.label ++ "_R") ∨
        v = "w" ++ (name r.label ++ "_gmin") := by
      simp only [List.map_cons, List.map_nil, List.flatMap_cons, List.flatMap_nil, free_add, free_sub, free_mul, free_div, free_sym, free_const,
        free_op1, List.mem_append, List.mem_cons, List.not_mem_nil, or_false, Sym.Expr.free, false_or] at hv hnk
      change _ at hnk
      tauto
    rcases this with rfl | rfl | rfl <;>
      simp [symbolsOf, Component.branches, Device.branches]

/-- A line of a potentiometer. -/
theorem potentiometer_row {n1 n2 n3 : String} {R A E : ℝ} (hD : dictName r = "electronics")
    (hC : compName r = "potentiometer")
    (hw : WorksNl val r [("R", some 1e5), ("A", none), ("E", some 1)])
    (hn : nodeNames r = some [n1, n2, n3])
    (h1 : valueOf val r ("R", some 1e5) = some R) (h2 : valueOf val r ("A", none) = some A)
    (h3 : valueOf val r ("E", some 1) = some E)
    {cs : List Component}
    (hm : meaning "electronics" "potentiometer" (name r.label) [n1, n2, n3] [R, A, E] = some cs) :
    ∃ p, nrowPart val r = .ok p ∧ NRel p cs ∧ Clean (paramsOf val r) cs p := by
  cases hm
  obtain ⟨p1, q1⟩ := argOK (od := .num 1e5) h1 (by rintro d ⟨⟩; rfl)
  obtain ⟨p2, q2⟩ := argOK (od := .str "alpha") h2 (by rintro d ⟨⟩)
  obtain ⟨p3, q3⟩ := argOK (od := .num 1) h3 (by rintro d ⟨⟩; rfl)
  have hrow := nrowPart_of (val := val) (c := .potentiometer) (h := 'p') (t := "otentiometer".toList) hw hC
    (by rw [hD]; rfl) hn rfl (by simp) (by simp [Class.reserved]) (by
      intro q hq l hl
      simp only [List.mem_cons, List.not_mem_nil, or_false] at hq
      rcases hq with rfl | rfl | rfl
      · exact p1 l hl
      · exact p2 l hl
      · exact p3 l hl) rfl
  have w1 : ∀ l : String, "w" ++ l ≠ "R" := fun l => w_ne (by decide)
  have w2 : ∀ l : String, "w" ++ l ≠ "A" := fun l => w_ne (by decide)
  have w3 : ∀ l : String, "w" ++ l ≠ "E" := fun l => w_ne (by decide)
  unfold Class.build at hrow
  dsimp only at hrow
  have hkw : kwOf val r Class.potentiometer.defaults =
      [("R", ((r.args.lookup "R".toList).map (objOf val)).getD (.num 1e5)),
        ("A", ((r.args.lookup "A".toList).map (objOf val)).getD (.str "alpha")),
        ("E", ((r.args.lookup "E".toList).map (objOf val)).getD (.num 1))] := rfl
  rw [hkw] at hrow
  refine ⟨_, hrow, .dissipative (.cons (.resistance ?_ ?_) (.cons (.resistance ?_ ?_) .nil)),
    clean_nl rfl ?_ ?_ ?_ ?_⟩
  · intro I hI e
    simp only [ev_add hI, ev_mul hI, ev_pow hI, ev_div hI, ev_sym, ev_const, atArgs_cons, atArgs_nil, w1, w2, w3,
      q1.isVal.value, q2.isVal.value, q3.isVal.value, if_false, if_true]
    simp [div_eq_inv_mul]
  · intro I hI e
    simp only [ev_add hI, ev_mul hI, ev_pow hI, ev_div hI, ev_sym, ev_const, atArgs_cons, atArgs_nil, w1, w2, w3,
      q1.isVal.value, q2.isVal.value, q3.isVal.value, if_false, if_true]
    simp
  · intro I hI e
    simp only [ev_add hI, ev_sub hI, ev_mul hI, ev_pow hI, ev_div hI, ev_sym, ev_const, atArgs_cons, atArgs_nil, w1, w2, w3,
      q1.isVal.value, q2.isVal.value, q3.isVal.value, if_false, if_true]
    simp [div_eq_inv_mul]
  · intro I hI e
    simp only [ev_add hI, ev_sub hI, ev_mul hI, ev_pow hI, ev_div hI, ev_sym, ev_const, atArgs_cons, atArgs_nil, w1, w2, w3,
      q1.isVal.value, q2.isVal.value, q3.isVal.value, if_false, if_true]
    simp
  · unfold paramsOf
    rw [hD, hC]
    simp only [parameters, List.map_cons, List.map_nil, List.flatMap_cons, List.flatMap_nil, q1.recorded,
      q2.recorded, q3.recorded, List.append_nil, List.singleton_append, List.cons_append,
      List.nil_append]
    rfl
  · simp
  · have hK : ∀ q ∈ ["R", "A", "E"], q ∈ "gmin" ::
        [("R", some (1e5 : ℝ)), ("A", none), ("E", some 1)].map (·.1) := by
      simp
    have hK' : ∀ q ∈ ["R", "A", "E"], '_' ∉ q.toList := by decide
    intro a ha
    simp only [List.mem_cons, List.not_mem_nil, or_false] at ha
    rcases ha with rfl | rfl | rfl
    · exact entryOK hw hK hK' (p := ("R", some 1e5)) (by simp) q1 _
    · exact entryOK hw hK hK' (p := ("A", none)) (by simp) q2 _
    · exact entryOK hw hK hK' (p := ("E", some 1)) (by simp) q3 _
  · intro v hv hnk
    have : v = "w" ++ (name r.label ++ "1") ∨ v = "w" ++ (name r.label ++ "2") := by
      simp only [List.map_cons, List.map_nil, List.flatMap_cons, List.flatMap_nil, free_add, free_sub, free_mul, free_div, free_pow, free_sym, free_const,
        free_op1, List.mem_append, List.mem_cons, List.not_mem_nil, or_false, Sym.Expr.free, false_or] at hv hnk
      tauto
    rcases this with rfl | rfl <;>
      simp [symbolsOf, Component.branches, Device.branches]

/-- Each accepted line gives the documented components. -/
theorem nrow_ok {cs : List Component}
    (hw : parameters (dictName r) (compName r) = none → Works r)
    (hwn : ∀ ps, parameters (dictName r) (compName r) = some ps → WorksNl val r ps)
    (hd : components val r = some cs) (hph : ∀ c ∈ cs, c.Physical) :
    ∃ p, nrowPart val r = .ok p ∧ NRel p cs ∧ Clean (paramsOf val r) cs p := by
  unfold components at hd
  cases hps : parameters (dictName r) (compName r) with
  | none =>
    rw [hps] at hd
    cases hdev : device val r with
    | none => dsimp only at hd; rw [hdev] at hd; cases hd
    | some d =>
      dsimp only at hd
      rw [hdev] at hd
      cases hd
      obtain ⟨p, h1, h2, h3⟩ := row_ok (hw hps) hdev
      have : paramsOf val r = paramOf val r := by unfold paramsOf; rw [hps]
      rw [this]
      exact ⟨_, nrowPart_linear h1, .linear h2, clean_linear h2 h3⟩
  | some ps =>
    have hw' := hwn ps hps
    have hps' := hps
    rw [hps] at hd
    dsimp only at hd
    cases hvs : ps.mapM (valueOf val r) with
    | none => rw [hvs] at hd; cases hd
    | some vs =>
      rw [hvs] at hd
      cases hns : nodeNames r with
      | none => rw [hns] at hd; cases hd
      | some ns =>
        rw [hns] at hd
        have hm : meaning (dictName r) (compName r) (name r.label) ns vs = some cs := hd
        clear hd
        have hf := mapM_some hvs
        generalize hD : dictName r = D at *
        generalize hC : compName r = C at *
        unfold meaning at hm
        split at hm
        · cases hps
          cases hf with | cons h1 hf => cases hf with | cons h2 hf => cases hf with | cons h3 hf => cases hf with | cons h4 hf =>
          exact diode_row hD hC hw' hns h1 h2 h3 h4 hm hph
        · cases hps
          cases hf with | cons h1 hf => cases hf with | cons h2 hf => cases hf with | cons h3 hf =>
          exact potentiometer_row hD hC hw' hns h1 h2 h3 hm
        · cases hps; cases hm
          cases hf with | cons h1 hf => cases hf with | cons h2 hf => cases hf with | cons h3 hf =>
          obtain ⟨kw, a1, a2, a3⟩ := storage3 (h := 's') (t := "pringcubic".toList) (c := .springcubic .e)
            (Hf := cubicE) (en := cubicEnergy) (by rw [hD, hC]; rfl) hw' hC (by rw [hD]; rfl) rfl rfl
            (fun _ _ _ _ => rfl) (by rw [hC]; decide) cubic_free (fun I hI e x => cubic_eval hI e x)
            (by simp) (by decide) (by simp [Class.reserved]) hns h1 h2 h3
          exact ⟨_, a1, .effortStorage a2, a3 _ (by simp [symbolsOf, Component.branches])⟩
        · cases hps; cases hm
          cases hf with | cons h1 hf => cases hf with | cons h2 hf => cases hf with | cons h3 hf =>
          obtain ⟨kw, a1, a2, a3⟩ := storage3 (h := 's') (t := "pringcubic".toList) (c := .springcubic .f)
            (Hf := cubicE) (en := cubicEnergy) (by rw [hD, hC]; rfl) hw' hC (by rw [hD]; rfl) rfl rfl
            (fun _ _ _ _ => rfl) (by rw [hC]; decide) cubic_free (fun I hI e x => cubic_eval hI e x)
            (by simp) (by decide) (by simp [Class.reserved]) hns h1 h2 h3
          exact ⟨_, a1, .fluxStorage a2, a3 _ (by simp [symbolsOf, Component.branches])⟩
        · cases hps; cases hm
          cases hf with | cons h1 hf => cases hf with | cons h2 hf => cases hf with | cons h3 hf =>
          obtain ⟨kw, a1, a2, a3⟩ := storage3 (h := 's') (t := "pringsat".toList) (c := .springsat .e)
            (Hf := satE) (en := satEnergy) (by rw [hD, hC]; rfl) hw' hC (by rw [hD]; rfl) rfl rfl
            (fun _ _ _ _ => rfl) (by rw [hC]; decide) sat_free (fun I hI e x => sat_eval hI e x)
            (by simp) (by decide) (by simp [Class.reserved]) hns h1 h2 h3
          exact ⟨_, a1, .effortStorage a2, a3 _ (by simp [symbolsOf, Component.branches])⟩
        · cases hps; cases hm
          cases hf with | cons h1 hf => cases hf with | cons h2 hf => cases hf with | cons h3 hf =>
          obtain ⟨kw, a1, a2, a3⟩ := storage3 (h := 's') (t := "pringsat".toList) (c := .springsat .f)
            (Hf := satE) (en := satEnergy) (by rw [hD, hC]; rfl) hw' hC (by rw [hD]; rfl) rfl rfl
            (fun _ _ _ _ => rfl) (by rw [hC]; decide) sat_free (fun I hI e x => sat_eval hI e x)
            (by simp) (by decide) (by simp [Class.reserved]) hns h1 h2 h3
          exact ⟨_, a1, .fluxStorage a2, a3 _ (by simp [symbolsOf, Component.branches])⟩
        · cases hps; cases hm
          cases hf with | cons h1 hf => cases hf with | cons h2 hf => cases hf with | cons h3 hf =>
          obtain ⟨kw, a1, a2, a3⟩ := storage3 (h := 'c') (t := "apacitorsat".toList) (c := .capacitorsat)
            (Hf := capsatE) (en := fun C c q x => satEnergy C⁻¹ c q x) (by rw [hD, hC]; rfl) hw' hC
            (by rw [hD]; rfl) rfl rfl
            (fun _ _ _ _ => rfl) (by rw [hC]; decide) capsat_free (fun I hI e x => capsat_eval hI e x)
            (by simp) (by decide) (by simp [Class.reserved]) hns h1 h2 h3
          exact ⟨_, a1, .fluxStorage a2, a3 _ (by simp [symbolsOf, Component.branches])⟩
        · cases hm

end Nonlin
end Pyphs
