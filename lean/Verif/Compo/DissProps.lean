/-
C48, C49: dissipative components.
-/
import Verif.Compo.Lemmas
import Mathlib.Analysis.SpecialFunctions.Log.Basic

namespace Pyphs
namespace Compo
open Sym Function

/-! ### Specification -/

/-- The flux imposed by an effort-controlled edge, as a function of the effort. -/
noncomputable def Edge.fluxOf (a : Edge) (ρ : String → ℝ) (e : ℝ) : ℝ :=
  val (update ρ a.label e) a.ze

/-- The effort imposed by a flux-controlled edge, as a function of the flux. -/
noncomputable def Edge.effortOf (a : Edge) (ρ : String → ℝ) (f : ℝ) : ℝ :=
  val (update ρ a.label f) a.zf

/-- The name given for a parameter is not that of the variable of the edge. -/
def Arg.Avoids (x : String) : Arg → Prop
  | .num _ => True
  | .named y _ => y ≠ x
  | .str y => y ≠ x

/-! ### Linear components -/

theorem coeff_ne {pre label : String} (h : pre.length = 1) (a : Arg) (ha : a.Avoids (pre ++ label)) :
    (form (label ++ "coeff") a).symb ≠ pre ++ label := by
  cases a with
  | num v =>
    intro h0
    have := congrArg String.length h0
    have h5 : "coeff".length = 5 := rfl
    simp only [form, String.length_append] at this
    omega
  | named y v => exact ha
  | str y => exact ha

theorem coeff_value {label : String} {a : Arg} {ρ : String → ℝ}
    (h : Agrees ρ (form (label ++ "coeff") a).sub) :
    ρ (form (label ++ "coeff") a).symb = a.value ρ := by
  cases a <;> simp_all [Agrees, form, Arg.value]

/-- Laws of linear dissipative edges: `effort = coeff * flux`, or `flux = coeff * effort` with
`inv_coeff`. -/
theorem diss_laws {label n1 n2 : String} {a : Arg} {inv : Bool} {ρ : String → ℝ}
    (hn : a.Avoids ("w" ++ label))
    (ha : Agrees ρ (dissipativeLinear label n1 n2 a inv).subs) :
    ∀ b ∈ (dissipativeLinear label n1 n2 a inv).edges, ∀ v,
      b.effortOf ρ v = (if inv then v / a.value ρ else a.value ρ * v) ∧
      b.fluxOf ρ v = (if inv then a.value ρ * v else v / a.value ρ) := by
  have hne := coeff_ne (pre := "w") rfl a hn
  have hv : ρ (form (label ++ "coeff") a).symb = a.value ρ := coeff_value ha
  intro b hb v
  simp only [dissipativeLinear, List.mem_singleton] at hb
  subst hb
  cases inv <;>
    simp [Edge.effortOf, Edge.fluxOf, update_of_ne hne, hv]

/-- **C48**, electronic and magnetic resistors: `e = R f`, in both controls. -/
theorem C48_resistor (label n1 n2 : String) (R : Arg) (ρ : String → ℝ)
    (hn : R.Avoids ("w" ++ label)) (ha : Agrees ρ (resistor label n1 n2 (some R)).subs) :
    ∀ b ∈ (resistor label n1 n2 (some R)).edges, ∀ v,
      b.effortOf ρ v = R.value ρ * v ∧ b.fluxOf ρ v = v / R.value ρ := by
  intro b hb v
  simpa using diss_laws (inv := false) hn ha b hb v

/-- **C48**, mechanical damper: `f = A e`, in both controls. -/
theorem C48_damper (label n1 n2 : String) (A : Arg) (ρ : String → ℝ)
    (hn : A.Avoids ("w" ++ label)) (ha : Agrees ρ (damper label n1 n2 (some A)).subs) :
    ∀ b ∈ (damper label n1 n2 (some A)).edges, ∀ v,
      b.fluxOf ρ v = A.value ρ * v ∧ b.effortOf ρ v = v / A.value ρ := by
  intro b hb v
  simpa using (diss_laws (inv := true) hn ha b hb v).symm

/-- **C48**, dual mechanical damper: `e = A f`, in both controls. -/
theorem C48_damperDual (label n1 n2 : String) (A : Arg) (ρ : String → ℝ)
    (hn : A.Avoids ("w" ++ label)) (ha : Agrees ρ (damperDual label n1 n2 (some A)).subs) :
    ∀ b ∈ (damperDual label n1 n2 (some A)).edges, ∀ v,
      b.effortOf ρ v = A.value ρ * v ∧ b.fluxOf ρ v = v / A.value ρ := by
  intro b hb v
  simpa using diss_laws (inv := false) hn ha b hb v

/-- **C48**, consistency of the controls: the two laws of an edge are inverse functions. -/
theorem C48_inverse (label n1 n2 : String) (a : Arg) (inv : Bool) (ρ : String → ℝ)
    (hn : a.Avoids ("w" ++ label)) (ha : Agrees ρ (dissipativeLinear label n1 n2 a inv).subs)
    (hc : a.value ρ ≠ 0) :
    ∀ b ∈ (dissipativeLinear label n1 n2 a inv).edges, ∀ v,
      b.effortOf ρ (b.fluxOf ρ v) = v ∧ b.fluxOf ρ (b.effortOf ρ v) = v := by
  intro b hb v
  have h1 := fun v => (diss_laws hn ha b hb v).1
  have h2 := fun v => (diss_laws hn ha b hb v).2
  simp only [h1, h2]
  cases inv <;> constructor <;> simp <;> field_simp

/-- **C48**, passivity: the power received is nonnegative in both controls, and positive
unless the variable is zero. -/
theorem C48_passive (label n1 n2 : String) (a : Arg) (inv : Bool) (ρ : String → ℝ)
    (hn : a.Avoids ("w" ++ label)) (ha : Agrees ρ (dissipativeLinear label n1 n2 a inv).subs)
    (hc : 0 < a.value ρ) :
    ∀ b ∈ (dissipativeLinear label n1 n2 a inv).edges, ∀ v,
      0 ≤ v * b.effortOf ρ v ∧ 0 ≤ v * b.fluxOf ρ v ∧
      (v ≠ 0 → 0 < v * b.effortOf ρ v ∧ 0 < v * b.fluxOf ρ v) := by
  intro b hb v
  have h := diss_laws hn ha b hb v
  rw [h.1, h.2]
  have h2 : 0 ≤ v * v := mul_self_nonneg v
  have e1 : v * (a.value ρ * v) = a.value ρ * (v * v) := by ring
  have e2 : v * (v / a.value ρ) = (v * v) / a.value ρ := by ring
  have h3 : v ≠ 0 → 0 < v * v := fun h => mul_self_pos.2 h
  cases inv <;> simp only [if_true, if_false, Bool.false_eq_true, e1, e2]
  · exact ⟨by positivity, by positivity, fun h => ⟨mul_pos hc (h3 h), div_pos (h3 h) hc⟩⟩
  · exact ⟨by positivity, by positivity, fun h => ⟨div_pos (h3 h) hc, mul_pos hc (h3 h)⟩⟩

/-- The hypotheses can be met: a resistor of 1 kOhm. -/
example : (Arg.num 1000).Avoids ("w" ++ "R1") ∧
    Agrees (fun _ => 1000) (resistor "R1" "A" "B" (some (.num 1000))).subs ∧
    (0 : ℝ) < (Arg.num 1000).value (fun _ => 1000) := by
  refine ⟨trivial, ?_, by norm_num [Arg.value]⟩
  intro p hp
  simp only [resistor, orZero, dissipativeLinear, form, List.mem_singleton] at hp
  subst hp
  rfl

/-- Without the condition on names the law is not linear: a resistor `R` whose resistance is
given the name `wR` of its variable has the effort-controlled law `wR / wR`. -/
theorem C48_name_clash (ρ : String → ℝ) (v : ℝ) (hv : v ≠ 0) :
    ∀ b ∈ (resistor "R" "A" "B" (some (.str "wR"))).edges, b.fluxOf ρ v = 1 := by
  intro b hb
  simp only [resistor, orZero, dissipativeLinear, form, List.mem_singleton] at hb
  subst hb
  simp [Edge.fluxOf, show "w" ++ "R" = "wR" from rfl, hv]

/-! ### Sufficient conditions on names -/

/-- Numbers, numbers named by their key, and names that are not keys are admissible. -/
theorem NamesOK.of_simple {label : String} {kw : Dict Arg} {vars : List String}
    (hd : (Dict.keys kw).Nodup)
    (hs : ∀ p ∈ kw, (∃ v, p.2 = .num v) ∨ (∃ v, p.2 = .named p.1 v) ∨
      ∃ y, p.2 = .str y ∧ y ∉ Dict.keys kw)
    (hu : ∀ x ∈ Dict.keys kw, '_' ∉ x.toList) (hv : ∀ v ∈ vars, v ∉ Dict.keys kw) :
    NamesOK label kw vars := by
  have hne : ∀ x ∈ Dict.keys kw, ∀ y, label ++ "_" ++ y ≠ x := by
    intro x hx y h0
    apply hu x hx
    rw [← h0]
    simp [String.toList_append]
  refine ⟨hd, ?_, hv, ?_⟩
  · intro p hp x hx hxp
    obtain ⟨y, a⟩ := p
    rcases hs _ hp with ⟨v, h⟩ | ⟨v, h⟩ | ⟨z, h, hz⟩ <;> simp only at h <;> subst h <;>
      simp only [symbOf, form]
    · exact hne x hx y
    · exact fun h0 => hxp h0.symm
    · exact fun h0 => hz (h0 ▸ hx)
  · intro p hp q hq hpq v v' h1 h2
    have key : p.1 = q.1 → v = v' := by
      intro h0
      have : p.2 = q.2 := by
        have := List.inj_on_of_nodup_map hd hp hq h0
        rw [this]
      rw [this, h2] at h1
      exact (Option.some.inj h1).symm
    have hpk := List.mem_map_of_mem (f := (·.1)) hp
    have hqk := List.mem_map_of_mem (f := (·.1)) hq
    obtain ⟨y, a⟩ := p
    obtain ⟨y', a'⟩ := q
    rcases hs _ hp with ⟨w, h⟩ | ⟨w, h⟩ | ⟨z, h, -⟩ <;> simp only at h <;> subst h <;>
    rcases hs _ hq with ⟨w', h'⟩ | ⟨w', h'⟩ | ⟨z', h', -⟩ <;> simp only at h' <;> subst h' <;>
      simp only [symbOf, form, Arg.number, reduceCtorEq] at hpq h1 h2
    · refine key ?_
      have := congrArg String.toList hpq
      simpa [String.toList_append, String.toList_inj] using this
    · exact absurd hpq (hne _ hqk _)
    · exact absurd hpq.symm (hne _ hpk _)
    · exact key hpq

/-! ### Diode -/

theorem mul_exp_sub_one_nonneg {c w : ℝ} (hc : 0 < c) : 0 ≤ w * (Real.exp (w / c) - 1) := by
  rcases le_total 0 w with h | h
  · have : 1 ≤ Real.exp (w / c) := Real.one_le_exp (by positivity)
    exact mul_nonneg h (by linarith)
  · have : Real.exp (w / c) ≤ 1 := Real.exp_le_one_iff.2 (div_nonpos_of_nonpos_of_nonneg h hc.le)
    exact mul_nonneg_of_nonpos_of_nonpos h (by linarith)

theorem mul_log_nonneg {c w : ℝ} (hc : 0 < c) (hw : -c < w) : 0 ≤ w * Real.log (w / c + 1) := by
  have hpos : 0 < w / c + 1 := by
    have : w / c + 1 = (w + c) / c := by field_simp
    rw [this]; exact div_pos (by linarith) hc
  rcases le_total 0 w with h | h
  · exact mul_nonneg h (Real.log_nonneg (by have : 0 ≤ w / c := by positivity
                                            linarith))
  · refine mul_nonneg_of_nonpos_of_nonpos h (Real.log_nonpos hpos.le ?_)
    have := div_nonpos_of_nonpos_of_nonneg h hc.le
    linarith

/-- The variables of a diode. -/
def diodeVars (label : String) : List String :=
  ["w" ++ label, "w" ++ label ++ "_R", "w" ++ label ++ "_gmin"]

theorem gmin_value (kw : Dict Arg) (ρ : String → ℝ) : penv (diodePars kw) ρ "gmin" = GMIN := by
  unfold diodePars
  rw [penv_update _ _ (by simp [Dict.keys])]
  simp [Arg.value]

theorem gmin_pos : 0 < GMIN := by unfold GMIN; norm_num

/-- **C49**, diode: each of the three edges receives a nonnegative power, whatever its
control. In flux control, the current of the junction has to be above `-Is`. -/
theorem C49_diode (label N1 N2 : String) (kw : Dict Arg) (ρ : String → ℝ)
    (hn : NamesOK label (diodePars kw) (diodeVars label))
    (ha : Agrees ρ (diode label N1 N2 kw).subs)
    (hI : 0 < penv (diodePars kw) ρ "Is") (hm : 0 < penv (diodePars kw) ρ "mu")
    (hv : 0 < penv (diodePars kw) ρ "v0") (hR : 0 < penv (diodePars kw) ρ "R") :
    ∀ b ∈ (diode label N1 N2 kw).edges,
      0 ≤ ρ b.label * val ρ b.ze ∧
      ((b.label = "w" ++ label → -penv (diodePars kw) ρ "Is" < ρ b.label) →
        0 ≤ ρ b.label * val ρ b.zf) := by
  have hval : ∀ t : E, val ρ (t.subsDict (mappars label (diodePars kw)).dicpars) = _ :=
    val_mappars hn ha
  have h0 := penv_var (hn.vars _ (by simp [diodeVars] : "w" ++ label ∈ _)) ρ
  have h1 := penv_var (hn.vars _ (by simp [diodeVars] : "w" ++ label ++ "_R" ∈ _)) ρ
  have h2 := penv_var (hn.vars _ (by simp [diodeVars] : "w" ++ label ++ "_gmin" ∈ _)) ρ
  have hg := gmin_value kw ρ
  have hgp := gmin_pos
  intro b hb
  simp only [diode, dissipativeNonLinear, List.map_cons, List.map_nil, List.mem_cons,
    List.not_mem_nil, or_false] at hb
  rcases hb with rfl | rfl | rfl
  · simp only [hval, val_mul, val_sub, val_div, val_exp, val_log, val_add, val_sym, val_const, h0]
    constructor
    · have := mul_exp_sub_one_nonneg (w := ρ ("w" ++ label)) (mul_pos hm hv)
      have h3 := mul_nonneg hI.le this
      linarith [h3]
    · intro h
      have := mul_log_nonneg hI (h trivial)
      have h3 := mul_nonneg (mul_pos hm hv).le this
      linarith [h3]
  · simp only [hval, val_mul, val_div, val_sym, h1]
    have e1 : ρ ("w" ++ label ++ "_R") * (ρ ("w" ++ label ++ "_R") / penv (diodePars kw) ρ "R") =
        ρ ("w" ++ label ++ "_R") * ρ ("w" ++ label ++ "_R") / penv (diodePars kw) ρ "R" := by ring
    have e2 : ρ ("w" ++ label ++ "_R") * (penv (diodePars kw) ρ "R" * ρ ("w" ++ label ++ "_R")) =
        penv (diodePars kw) ρ "R" * (ρ ("w" ++ label ++ "_R") * ρ ("w" ++ label ++ "_R")) := by ring
    have h3 := mul_self_nonneg (ρ ("w" ++ label ++ "_R"))
    rw [e1, e2]
    exact ⟨by positivity, fun _ => by positivity⟩
  · simp only [hval, val_mul, val_div, val_sym, h2, hg]
    have e1 : ρ ("w" ++ label ++ "_gmin") * (ρ ("w" ++ label ++ "_gmin") / GMIN) =
        ρ ("w" ++ label ++ "_gmin") * ρ ("w" ++ label ++ "_gmin") / GMIN := by ring
    have e2 : ρ ("w" ++ label ++ "_gmin") * (ρ ("w" ++ label ++ "_gmin") * GMIN) =
        GMIN * (ρ ("w" ++ label ++ "_gmin") * ρ ("w" ++ label ++ "_gmin")) := by ring
    have h3 := mul_self_nonneg (ρ ("w" ++ label ++ "_gmin"))
    rw [e1, e2]
    exact ⟨by positivity, fun _ => by positivity⟩

/-- The parameters do not use the name of a variable. -/
def Indep (label : String) (kw : Dict Arg) (v : String) : Prop := ∀ p ∈ kw, symbOf label p ≠ v

theorem Agrees.update {label : String} {kw : Dict Arg} {v : String} {ρ : String → ℝ}
    (hi : Indep label kw v) (h : Agrees ρ (mappars label kw).subs) (t : ℝ) :
    Agrees (update ρ v t) (mappars label kw).subs := by
  intro p hp
  obtain ⟨q, hq, h1, _⟩ := (subs_inv label kw).2 p hp
  rw [update_of_ne (h1 ▸ hi q hq)]
  exact h p hp

theorem penv_indep {label : String} {kw : Dict Arg} {v : String} {ρ : String → ℝ}
    (hi : Indep label kw v) (t : ℝ) {x : String} (hx : x ∈ Dict.keys kw) :
    penv kw (update ρ v t) x = penv kw ρ x := by
  unfold penv
  rw [lookup_find]
  cases hf : kw.find? fun p => p.1 == x with
  | none =>
    exfalso
    obtain ⟨p, hp, rfl⟩ := List.mem_map.1 hx
    have := List.find?_eq_none.1 hf p hp
    simp at this
  | some p =>
    have hp := List.mem_of_find?_eq_some hf
    have := hi p hp
    obtain ⟨y, a⟩ := p
    cases a with
    | num c => rfl
    | named z c => rfl
    | str z => exact update_of_ne this _ _

theorem mem_keys_of_default {d kw : Dict Arg} {x : String} (h : x ∈ Dict.keys d) :
    x ∈ Dict.keys (d.update kw) := mem_keys_update.2 (.inl h)

/-- **C49**, control of the junction of a diode: the two laws are inverse functions (the
effort-controlled law has its values above `-Is`). -/
theorem C49_diode_inverse (label N1 N2 : String) (kw : Dict Arg) (ρ : String → ℝ)
    (hn : NamesOK label (diodePars kw) (diodeVars label))
    (hi : Indep label (diodePars kw) ("w" ++ label))
    (ha : Agrees ρ (diode label N1 N2 kw).subs)
    (hI : 0 < penv (diodePars kw) ρ "Is") (hm : 0 < penv (diodePars kw) ρ "mu")
    (hv : 0 < penv (diodePars kw) ρ "v0") :
    ∃ b ∈ (diode label N1 N2 kw).edges, b.label = "w" ++ label ∧
      (∀ v, -penv (diodePars kw) ρ "Is" < b.fluxOf ρ v ∧ b.effortOf ρ (b.fluxOf ρ v) = v) ∧
      ∀ i, -penv (diodePars kw) ρ "Is" < i → b.fluxOf ρ (b.effortOf ρ i) = i := by
  have hw := hn.vars _ (by simp [diodeVars] : "w" ++ label ∈ _)
  have hk : ∀ x ∈ ["Is", "mu", "v0"], x ∈ Dict.keys (diodePars kw) := by
    intro x hx
    refine mem_keys_of_default (mem_keys_of_default ?_)
    fin_cases hx <;> simp [diodeDefaults, Dict.keys]
  have p1 := fun t => penv_indep (ρ := ρ) hi t (hk "Is" (by simp))
  have p2 := fun t => penv_indep (ρ := ρ) hi t (hk "mu" (by simp))
  have p3 := fun t => penv_indep (ρ := ρ) hi t (hk "v0" (by simp))
  have hval : ∀ (u : ℝ) (t : E),
      val (update ρ ("w" ++ label) u) (t.subsDict (mappars label (diodePars kw)).dicpars) =
        val (penv (diodePars kw) (update ρ ("w" ++ label) u)) t :=
    fun u t => val_mappars hn (Agrees.update hi ha u) t
  have h0 : ∀ u, penv (diodePars kw) (update ρ ("w" ++ label) u) ("w" ++ label) = u := by
    intro u; rw [penv_var hw]; simp
  refine ⟨_, by
    simp only [diode, dissipativeNonLinear, List.map_cons]; exact List.mem_cons_self, rfl, ?_, ?_⟩
  · intro v
    simp only [Edge.fluxOf, Edge.effortOf, hval, val_mul, val_sub, val_div, val_exp, val_log, val_add,
      val_sym, val_const, h0, p1, p2, p3]
    set I := penv (diodePars kw) ρ "Is"
    set m := penv (diodePars kw) ρ "mu"
    set v0 := penv (diodePars kw) ρ "v0"
    have he := Real.exp_pos (v / (m * v0))
    constructor
    · nlinarith
    · have : I * (Real.exp (v / (m * v0)) - 1) / I + 1 = Real.exp (v / (m * v0)) := by
        field_simp; ring
      rw [this, Real.log_exp]
      field_simp
  · intro i hi'
    simp only [Edge.fluxOf, Edge.effortOf, hval, val_mul, val_sub, val_div, val_exp, val_log, val_add,
      val_sym, val_const, h0, p1, p2, p3]
    set I := penv (diodePars kw) ρ "Is"
    set m := penv (diodePars kw) ρ "mu"
    set v0 := penv (diodePars kw) ρ "v0"
    have hpos : 0 < i / I + 1 := by
      have : i / I + 1 = (i + I) / I := by field_simp
      rw [this]; exact div_pos (by linarith) hI
    have : m * v0 * Real.log (i / I + 1) / (m * v0) = Real.log (i / I + 1) := by field_simp
    rw [this, Real.exp_log hpos]
    field_simp
    ring

/-! ### Bipolar junction transistor -/

/-- The variables of a transistor. -/
def bjtVars (label : String) : List String :=
  ["w" ++ label ++ "bc", "w" ++ label ++ "be", "w" ++ label ++ "rb", "w" ++ label ++ "rc",
   "w" ++ label ++ "re"]

/-- Sum over the edges of the power received, each edge being in effort control. -/
noncomputable def powerE (ρ : String → ℝ) (l : List Edge) : ℝ :=
  (l.map fun b => ρ b.label * val ρ b.ze).sum

theorem junction_mono {Is c g : ℝ} (hI : 0 ≤ Is) (hc : 0 < c) (hg : 0 ≤ g) {a b : ℝ} (h : a ≤ b) :
    Is * (Real.exp (a / c) - 1) + g * a ≤ Is * (Real.exp (b / c) - 1) + g * b := by
  have h1 : Real.exp (a / c) ≤ Real.exp (b / c) :=
    Real.exp_le_exp.2 (div_le_div_of_nonneg_right h hc.le)
  have h2 := mul_le_mul_of_nonneg_left h1 hI
  have h3 := mul_le_mul_of_nonneg_left h hg
  linarith

theorem ebers_moll {F : ℝ → ℝ} (hF : ∀ a b, a ≤ b → F a ≤ F b) (h0 : F 0 = 0) {α β : ℝ}
    (hα : 1 ≤ α) (hβ : 1 ≤ β) (x y : ℝ) :
    0 ≤ x * (α * F x + -1 * F y) + y * (-1 * F x + β * F y) := by
  have hx : 0 ≤ x * F x := by
    rcases le_total 0 x with h | h
    · exact mul_nonneg h (h0 ▸ hF 0 x h)
    · exact mul_nonneg_of_nonpos_of_nonpos h (h0 ▸ hF x 0 h)
  have hy : 0 ≤ y * F y := by
    rcases le_total 0 y with h | h
    · exact mul_nonneg h (h0 ▸ hF 0 y h)
    · exact mul_nonneg_of_nonpos_of_nonpos h (h0 ▸ hF y 0 h)
  have hd : 0 ≤ (x - y) * (F x - F y) := by
    rcases le_total x y with h | h
    · exact mul_nonneg_of_nonpos_of_nonpos (by linarith) (by linarith [hF x y h])
    · exact mul_nonneg (by linarith) (by linarith [hF y x h])
  have e : x * (α * F x + -1 * F y) + y * (-1 * F x + β * F y) =
      (x - y) * (F x - F y) + (α - 1) * (x * F x) + (β - 1) * (y * F y) := by ring
  rw [e]
  have := mul_nonneg (sub_nonneg.2 hα) hx
  have := mul_nonneg (sub_nonneg.2 hβ) hy
  linarith

/-- **C49**, transistor: the two junctions together receive a nonnegative power, and so does
each resistance in both controls. -/
theorem C49_bjt (label Nb Nc Ne : String) (kw : Dict Arg) (ρ : String → ℝ)
    (hn : NamesOK label (bjtDefaults.update kw) (bjtVars label))
    (ha : Agrees ρ (bjt label Nb Nc Ne kw).subs)
    (hI : 0 < penv (bjtDefaults.update kw) ρ "Is")
    (hm : 0 < penv (bjtDefaults.update kw) ρ "mu")
    (hV : 0 < penv (bjtDefaults.update kw) ρ "Vt")
    (hF : 0 < penv (bjtDefaults.update kw) ρ "betaF")
    (hR : 0 < penv (bjtDefaults.update kw) ρ "betaR")
    (hRb : 0 < penv (bjtDefaults.update kw) ρ "Rb")
    (hRc : 0 < penv (bjtDefaults.update kw) ρ "Rc")
    (hRe : 0 < penv (bjtDefaults.update kw) ρ "Re") :
    ((bjt label Nb Nc Ne kw).edges.map (·.label)) = bjtVars label ∧
    0 ≤ powerE ρ ((bjt label Nb Nc Ne kw).edges.take 2) ∧
    ∀ b ∈ (bjt label Nb Nc Ne kw).edges.drop 2,
      0 ≤ ρ b.label * val ρ b.ze ∧ 0 ≤ ρ b.label * val ρ b.zf := by
  have hval : ∀ t : E, val ρ (t.subsDict (mappars label (bjtDefaults.update kw)).dicpars) = _ :=
    val_mappars hn ha
  have h0 := penv_var (hn.vars _ (by simp [bjtVars] : "w" ++ label ++ "bc" ∈ _)) ρ
  have h1 := penv_var (hn.vars _ (by simp [bjtVars] : "w" ++ label ++ "be" ∈ _)) ρ
  have h2 := penv_var (hn.vars _ (by simp [bjtVars] : "w" ++ label ++ "rb" ∈ _)) ρ
  have h3 := penv_var (hn.vars _ (by simp [bjtVars] : "w" ++ label ++ "rc" ∈ _)) ρ
  have h4 := penv_var (hn.vars _ (by simp [bjtVars] : "w" ++ label ++ "re" ∈ _)) ρ
  refine ⟨rfl, ?_, ?_⟩
  · simp only [bjt, dissipativeNonLinear, List.map_cons, List.map_nil, List.take_succ_cons,
      List.take_zero, powerE, List.sum_cons, List.sum_nil, add_zero]
    simp only [hval, val_mul, val_sub, val_div, val_exp, val_add, val_sym, val_const, h0, h1]
    refine ebers_moll (F := fun w => penv (bjtDefaults.update kw) ρ "Is" *
      (Real.exp (w / (penv (bjtDefaults.update kw) ρ "mu" * penv (bjtDefaults.update kw) ρ "Vt")) - 1)
      + GMIN * w) ?_ ?_ ?_ ?_ _ _
    · intro a b hab
      exact junction_mono hI.le (mul_pos hm hV) gmin_pos.le hab
    · simp
    · rw [le_div_iff₀ hR]; linarith
    · rw [le_div_iff₀ hF]; linarith
  · intro b hb
    have key : ∀ v R : ℝ, 0 < R → 0 ≤ v * (v / R) ∧ 0 ≤ v * (R * v) := by
      intro v R hR
      have h5 := mul_self_nonneg v
      have e1 : v * (v / R) = v * v / R := by ring
      have e2 : v * (R * v) = R * (v * v) := by ring
      rw [e1, e2]
      exact ⟨by positivity, by positivity⟩
    simp only [bjt, dissipativeNonLinear, List.map_cons, List.map_nil, List.drop_succ_cons,
      List.drop_zero, List.mem_cons, List.not_mem_nil, or_false] at hb
    rcases hb with rfl | rfl | rfl
    · simp only [hval, val_mul, val_div, val_sym, h2]; exact key _ _ hRb
    · simp only [hval, val_mul, val_div, val_sym, h3]; exact key _ _ hRc
    · simp only [hval, val_mul, val_div, val_sym, h4]; exact key _ _ hRe

/-! ### Potentiometer -/

/-- **C49**, potentiometer with a total resistance `R ≥ 0`, a position in `[0, 1]` and an
exponent `E ≥ 0`: both edges receive a nonnegative power in both controls, and the two
resistances sum to `2 + R`. -/
theorem C49_potentiometer (label N1 N2 N3 : String) (kw : Dict Arg) (ρ : String → ℝ)
    (hn : NamesOK label (potDefaults.update kw) ["w" ++ label ++ "1", "w" ++ label ++ "2"])
    (ha : Agrees ρ (potentiometer label N1 N2 N3 kw).subs)
    (hR : 0 ≤ penv (potDefaults.update kw) ρ "R")
    (hA : 0 ≤ penv (potDefaults.update kw) ρ "A") (hA1 : penv (potDefaults.update kw) ρ "A" ≤ 1)
    (hE : 0 ≤ penv (potDefaults.update kw) ρ "E") :
    ∃ r1 r2, 1 ≤ r1 ∧ 1 ≤ r2 ∧ r1 + r2 = 2 + penv (potDefaults.update kw) ρ "R" ∧
      r1 = 1 + penv (potDefaults.update kw) ρ "R" *
        penv (potDefaults.update kw) ρ "A" ^ penv (potDefaults.update kw) ρ "E" ∧
      (potentiometer label N1 N2 N3 kw).edges.map (fun b => (val ρ b.ze, val ρ b.zf)) =
        [(ρ ("w" ++ label ++ "1") / r1, r1 * ρ ("w" ++ label ++ "1")),
         (ρ ("w" ++ label ++ "2") / r2, r2 * ρ ("w" ++ label ++ "2"))] ∧
      ∀ b ∈ (potentiometer label N1 N2 N3 kw).edges,
        0 ≤ ρ b.label * val ρ b.ze ∧ 0 ≤ ρ b.label * val ρ b.zf := by
  have hval : ∀ t : E, val ρ (t.subsDict (mappars label (potDefaults.update kw)).dicpars) = _ :=
    val_mappars hn ha
  have h0 := penv_var (hn.vars _ (by simp : "w" ++ label ++ "1" ∈ _)) ρ
  have h1 := penv_var (hn.vars _ (by simp : "w" ++ label ++ "2" ∈ _)) ρ
  set R := penv (potDefaults.update kw) ρ "R" with hRd
  set A := penv (potDefaults.update kw) ρ "A" with hAd
  set E := penv (potDefaults.update kw) ρ "E" with hEd
  have hp0 : 0 ≤ A ^ E := Real.rpow_nonneg hA E
  have hp1 : A ^ E ≤ 1 := Real.rpow_le_one hA hA1 hE
  have hr1 : 1 ≤ 1 + R * A ^ E := by have := mul_nonneg hR hp0; linarith
  have hr2 : 1 ≤ 1 + R * (1 - A ^ E) := by
    have := mul_nonneg hR (sub_nonneg.2 hp1); linarith
  have key : ∀ v R : ℝ, 1 ≤ R → 0 ≤ v * (v / R) ∧ 0 ≤ v * (R * v) := by
    intro v R hR
    have h5 := mul_self_nonneg v
    have e1 : v * (v / R) = v * v / R := by ring
    have e2 : v * (R * v) = R * (v * v) := by ring
    rw [e1, e2]
    exact ⟨by positivity, by positivity⟩
  refine ⟨1 + R * A ^ E, 1 + R * (1 - A ^ E), hr1, hr2, by ring, rfl, ?_, ?_⟩
  · simp [potentiometer, dissipativeNonLinear, hval, h0, h1, ← hRd, ← hAd, ← hEd]
  · intro b hb
    simp only [potentiometer, dissipativeNonLinear, List.map_cons, List.map_nil, List.mem_cons,
      List.not_mem_nil, or_false] at hb
    rcases hb with rfl | rfl
    · simp only [hval, val_mul, val_div, val_sym, val_add, val_sub, val_const, val_pow, h0,
        ← hRd, ← hAd, ← hEd]
      exact key _ _ hr1
    · simp only [hval, val_mul, val_div, val_sym, val_add, val_sub, val_const, val_pow, h1,
        ← hRd, ← hAd, ← hEd]
      exact key _ _ hr2

/-! ### Felt -/

/-- **C49**, damper of the felt: documented law `(A L / B) c^(B-1) * dq/dt` with
`c = max(q, 0) / L`, and nonnegative power. -/
theorem C49_felt (label N1 N2 : String) (kw : Dict Arg) (ρ : String → ℝ)
    (hn : NamesOK label (feltDefaults.update kw) ["q" ++ label, "dtq" ++ label])
    (ha : Agrees ρ (felt label N1 N2 kw).subs)
    (hL : 0 < penv (feltDefaults.update kw) ρ "L") (hA : 0 ≤ penv (feltDefaults.update kw) ρ "A")
    (hB : 1 < penv (feltDefaults.update kw) ρ "B") :
    ∃ b ∈ (felt label N1 N2 kw).edges, b.label = "dtq" ++ label ∧ b.ctrl = .e ∧
      val ρ b.ze = penv (feltDefaults.update kw) ρ "A" * penv (feltDefaults.update kw) ρ "L" /
        penv (feltDefaults.update kw) ρ "B" *
        (max (ρ ("q" ++ label)) 0 / penv (feltDefaults.update kw) ρ "L") ^
          (penv (feltDefaults.update kw) ρ "B" - 1) * ρ ("dtq" ++ label) ∧
      0 ≤ ρ b.label * val ρ b.ze := by
  have hval : ∀ t : E, val ρ (t.subsDict (mappars label (feltDefaults.update kw)).dicpars) = _ :=
    val_mappars hn ha
  have h0 := penv_var (hn.vars _ (by simp : "q" ++ label ∈ _)) ρ
  set L := penv (feltDefaults.update kw) ρ "L" with hLd
  set A := penv (feltDefaults.update kw) ρ "A" with hAd
  set B := penv (feltDefaults.update kw) ρ "B" with hBd
  have key : ∀ t : E, t = (.op2 "pos" (s ("q" ++ label)) (s "A" * s "L" / s "B" *
      (s ("q" ++ label) / s "L") ^ (s "B" - k 1)) : E).subsDict
        (mappars label (feltDefaults.update kw)).dicpars →
      val ρ (t * s ("dtq" ++ label)) =
        A * L / B * (max (ρ ("q" ++ label)) 0 / L) ^ (B - 1) * ρ ("dtq" ++ label) := by
    intro t ht
    subst ht
    simp only [val_mul, val_sym, hval, val_pos, val_div, val_pow, val_sub, val_const, h0,
      ← hLd, ← hAd, ← hBd]
    split
    · rename_i hq
      rw [max_eq_right hq, zero_div, Real.zero_rpow (by linarith)]
      ring
    · rename_i hq
      rw [max_eq_left (le_of_lt (not_le.1 hq))]
  refine ⟨_, by simp only [felt]; exact List.mem_cons_of_mem _ List.mem_cons_self, rfl, rfl,
    key _ rfl, ?_⟩
  have hk := key _ rfl
  show 0 ≤ ρ ("dtq" ++ label) * _
  rw [hk]
  have hc : 0 ≤ (max (ρ ("q" ++ label)) 0 / L) ^ (B - 1) :=
    Real.rpow_nonneg (div_nonneg (le_max_right _ _) hL.le) _
  have h5 := mul_self_nonneg (ρ ("dtq" ++ label))
  have hBp : 0 < B := by linarith
  have e : ρ ("dtq" ++ label) * (A * L / B * (max (ρ ("q" ++ label)) 0 / L) ^ (B - 1) *
      ρ ("dtq" ++ label)) = (A * L / B * (max (ρ ("q" ++ label)) 0 / L) ^ (B - 1)) *
      (ρ ("dtq" ++ label) * ρ ("dtq" ++ label)) := by ring
  rw [e]
  positivity

end Compo
end Pyphs
