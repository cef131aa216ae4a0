/-
Circuits of linear components: everything C63, C66 and C69 ask from a circuit holds.
-/
import Verif.Circuit.Linear

namespace Pyphs
namespace System
open Scheme Core Graph Circuit

/-- The energy of linear storages. -/
noncomputable def quadSum (k : String → ℝ) (L : List String) : Sc := fun e =>
  (L.map fun l => k l * e l ^ 2 / 2).sum

theorem quadSum_update {k : String → ℝ} {L : List String} (hL : L.Nodup) {x : String} (hx : x ∈ L)
    (e : Env ℝ) (t : ℝ) :
    quadSum k L (Function.update e x t) = quadSum k L e + k x * (t ^ 2 - e x ^ 2) / 2 := by
  induction L with
  | nil => cases hx
  | cons a L ih =>
    have hn := List.nodup_cons.1 hL
    have step : ∀ e : Env ℝ, quadSum k (a :: L) e = k a * e a ^ 2 / 2 + quadSum k L e := fun e => by
      simp [quadSum]
    rw [step, step]
    rcases List.mem_cons.1 hx with rfl | hx
    · have : quadSum k L (Function.update e x t) = quadSum k L e := by
        unfold quadSum
        refine congrArg _ (List.map_congr_left fun l hl => ?_)
        rw [Function.update_of_ne]
        rintro rfl
        exact hn.1 hl
      rw [this, Function.update_self]
      ring
    · rw [ih hn.2 hx, Function.update_of_ne]
      · ring
      · rintro rfl
        exact hn.1 hx

theorem quadSum_indep {k : String → ℝ} {L : List String} {x : String} (hx : x ∉ L) :
    Indep (quadSum k L) x := by
  intro e t
  unfold quadSum
  refine congrArg _ (List.map_congr_left fun l hl => ?_)
  rw [Function.update_of_ne]
  rintro rfl
  exact hx hl

theorem quadSum_pdiff {k : String → ℝ} {L : List String} (hL : L.Nodup) {x : String} (hx : x ∈ L) :
    pdiff (quadSum k L) x = fun e => k x * e x := by
  funext e
  unfold pdiff
  simp only [quadSum_update hL hx]
  have h : HasDerivAt (fun t : ℝ => quadSum k L e + k x * (t ^ 2 - e x ^ 2) / 2)
      (k x * (2 * e x) / 2) (e x) := by
    have := (((hasDerivAt_pow 2 (e x)).sub_const (e x ^ 2)).const_mul (k x)).div_const 2
    have := this.const_add (quadSum k L e)
    simpa using this
  rw [h.deriv]; ring

theorem quadSum_cdiff {k : String → ℝ} {L : List String} (hL : L.Nodup) {x : String} (hx : x ∈ L) :
    CDiff (quadSum k L) x := by
  intro e
  simp only [quadSum_update hL hx]
  fun_prop

theorem pdiff_lin (a : ℝ) (x y : String) :
    pdiff (fun e => a * e x) y = fun _ => if x = y then a else 0 := by
  funext e
  unfold pdiff
  split_ifs with h
  · subst h; simp
  · simp [Function.update_of_ne h]

theorem cdiff_lin (a : ℝ) (x y : String) : CDiff (fun e => a * e x) y :=
  ((Aff.symb (V := []) x).cmul a).diff.1

theorem indep_lin (a : ℝ) {x y : String} (h : x ≠ y) : Indep (fun e => a * e x) y := by
  intro e t; simp [Function.update_of_ne h]

/-- The components of a circuit are linear: a storage of coefficient `k l` stores `k l x² / 2`, a
dissipative component of resistance `r l` has the laws `w / r l` and `r l w`. Distinct names are
given to the states, their increments, their gradients and the variables of the dissipative
components. -/
structure LinearCircuit (law : String → Env ℝ → ℝ) (edges : List (Edge ℝ)) (H : Sc)
    (k r : String → ℝ) : Prop where
  energy : H = quadSum k ((ofType .storage edges).map (·.label))
  pos : ∀ d ∈ edges, d.type = .storage → 0 < k d.label
  res : ∀ d ∈ edges, d.type = .dissipative → 0 < r d.label
  ze : ∀ d ∈ edges, d.type = .dissipative → law d.ze = fun e => (r d.label)⁻¹ * e d.label
  zf : ∀ d ∈ edges, d.type = .dissipative → law d.zf = fun e => r d.label * e d.label
  names : ((ofType .storage edges).map (·.label) ++ ((ofType .storage edges).map (·.label)).map dn ++
    (ofType .dissipative edges).map (·.label)).Nodup
  grads : ∀ d ∈ edges, d.type = .dissipative →
    d.label ∉ ((ofType .storage edges).map (·.label)).map gn

variable {law : String → Env ℝ → ℝ} {edges : List (Edge ℝ)} {H : Sc} {k r : String → ℝ}

theorem mem_label {t : EType} {d : Edge ℝ} (hd : d ∈ edges) (ht : d.type = t) :
    d.label ∈ (ofType t edges).map (·.label) :=
  List.mem_map_of_mem (f := fun d : Edge ℝ => d.label) (mem_ofType.2 ⟨hd, ht⟩)

namespace LinearCircuit
variable (h : LinearCircuit law edges H k r)
include h

theorem nd : ((ofType .storage edges).map (·.label)).Nodup :=
  (List.nodup_append.1 (List.nodup_append.1 h.names).1).1

theorem w_not {d : Edge ℝ} (hd : d ∈ edges) (ht : d.type = .dissipative) :
    d.label ∉ (ofType .storage edges).map (·.label) ∧
    d.label ∉ ((ofType .storage edges).map (·.label)).map dn := by
  have := (List.nodup_append.1 h.names).2.2
  exact ⟨fun hx => this _ (List.mem_append_left _ hx) _ (mem_label hd ht) rfl,
    fun hx => this _ (List.mem_append_right _ hx) _ (mem_label hd ht) rfl⟩

theorem dn_not {d : Edge ℝ} (hd : d ∈ edges) (ht : d.type = .storage) :
    dn d.label ∉ (ofType .storage edges).map (·.label) := fun hx =>
  (List.nodup_append.1 (List.nodup_append.1 h.names).1).2.2 _ hx _
    (List.mem_map_of_mem (mem_label hd ht)) rfl

theorem law_lin {d : Edge ℝ} (hd : d ∈ edges) (ht : d.type = .dissipative) {f : Sc}
    (hf : f = law d.ze ∨ f = law d.zf) : ∃ a, 0 < a ∧ f = fun e => a * e d.label := by
  have hr := h.res d hd ht
  rcases hf with rfl | rfl
  · exact ⟨_, inv_pos.2 hr, h.ze d hd ht⟩
  · exact ⟨_, hr, h.zf d hd ht⟩

theorem static : StaticLaws law edges := by
  intro d hd ht
  have hs : ∀ a : ℝ, Static ((ofType .storage edges).map (·.label)) fun e => a * e d.label :=
    fun a e e' hh => by
      dsimp only
      rw [hh _ (h.w_not hd ht).1 (h.grads d hd ht)]
  rw [h.ze d hd ht, h.zf d hd ht]
  exact ⟨hs _, hs _⟩

theorem regular : RegularCircuit law edges H where
  nodup := h.names
  Hx := by
    rw [h.energy]
    exact ⟨fun d hd ht => quadSum_indep (h.dn_not hd ht),
      fun d hd ht => quadSum_indep (h.w_not hd ht).1⟩
  H2 := by
    intro d hd ht q _ _
    rw [h.energy, quadSum_pdiff h.nd (mem_label hd ht)]
    exact cdiff_lin _ _ _
  laws := by
    intro d hd ht f hf
    obtain ⟨a, -, rfl⟩ := h.law_lin hd ht hf
    refine ⟨fun q hq hqt => indep_lin _ fun hh => (h.w_not hd ht).2 ?_, fun q _ _ => cdiff_lin _ _ _⟩
    rw [hh]
    exact List.mem_map_of_mem (mem_label hq hqt)

theorem monotone : MonotoneCircuit law edges H where
  cross := by
    intro d hd ht q _ _ hne
    rw [h.energy, quadSum_pdiff h.nd (mem_label hd ht)]
    exact indep_lin _ (Ne.symm hne)
  convex := by
    intro d hd ht e
    rw [h.energy, quadSum_pdiff h.nd (mem_label hd ht), pdiff_lin, if_pos rfl]
    exact (h.pos d hd ht).le
  own := by
    intro d hd ht f hf q _ _ hne
    obtain ⟨a, -, rfl⟩ := h.law_lin hd ht hf
    exact indep_lin _ (Ne.symm hne)
  mono := by
    intro d hd ht f hf e
    obtain ⟨a, ha, rfl⟩ := h.law_lin hd ht hf
    rw [pdiff_lin, if_pos rfl]
    exact ha.le

theorem linear : LinearLaws law edges := by
  intro d hd ht f hf
  obtain ⟨a, ha, rfl⟩ := h.law_lin hd ht hf
  rw [pdiff_lin, if_pos rfl]
  exact fun _ _ => rfl

theorem passive : PassiveLaws law edges := by
  intro d hd ht e
  rw [h.ze d hd ht, h.zf d hd ht]
  have hr := h.res d hd ht
  have h2 := mul_self_nonneg (e d.label)
  constructor
  · have := mul_nonneg (inv_pos.2 hr).le h2
    linarith
  · have := mul_nonneg hr.le h2
    linarith

theorem quad : QuadEnergy H ((ofType .storage edges).map (·.label)) where
  smooth := by
    rw [h.energy]
    exact ⟨fun i hi => quadSum_cdiff h.nd hi, fun i hi j _ => by
      rw [quadSum_pdiff h.nd hi]; exact cdiff_lin _ _ _⟩
  const := by
    intro i hi j _ l _
    rw [h.energy, quadSum_pdiff h.nd hi, pdiff_lin]
    exact fun _ _ => rfl
  cross := by
    intro i hi j _ hne e
    rw [h.energy, quadSum_pdiff h.nd hi, pdiff_lin, if_neg hne]

theorem gradQuad_eq {x : String} (hx : x ∈ (ofType .storage edges).map (·.label)) (τ : ℝ) :
    gradQuad H τ x = fun e => k x * (e x + τ * e (dn x)) := by
  funext e
  unfold gradQuad
  rw [h.energy, quadSum_pdiff h.nd hx, pdiff_lin, if_pos rfl]
  ring

/-- The entries of the Jacobian of the equations of a circuit of linear components are constants. No
symbol can be missed by sympy. -/
theorem jacSound {fuel : ℕ} {nodes : List String} {c c2 : Core ℝ} (hok : CircuitOK nodes edges c)
    (hcH : c.H = H) (hc : toCore law fuel nodes edges c = some c2) {s : Sympy} (hs : s.OK) {o : Config}
    (ht : 0 < o.epsdg) : JacSound s o c2 := by
  classical
  intro n c' hk hdx i hi j hj sym _
  obtain ⟨ec, -, hwf, -, hH, -, hx, hw, -⟩ := C63_core hok hc two_ne_zero
  have hx' : c'.x.Perm ((ofType .storage edges).map (·.label)) := hk.same.x.trans hx
  have hH' : c'.H = H := hk.same.H.trans (hH.trans hcH)
  have hgx : (groups c' n).x = c'.x := groups_x n
  have hnd : c'.x.Nodup := hx'.nodup_iff.2 h.nd
  have hd : c'.dxH = some (c'.x.map (gradQuad H (weight o.kind o.θ))) := by
    rw [hdx, hH', quad_gradient (by rw [hgx]; exact h.quad.mono fun y hy => hx'.mem_iff.1 hy)
      (by rw [hgx]; exact hnd) _ _ ht, hgx]
  have hlen : ((asMeth o n c').v .all).length = c'.x.length + c'.w.length := by
    have : (asMeth o n c').v .all = vars c' := by
      show (groups c' n).x.map dn ++ c'.w = _
      rw [groups_x]; rfl
    rw [this]; simp [vars]
  obtain ⟨l, -, hF⟩ := F_row hk hd o n .all (i := i) (by rw [hlen, ← (hs.jacF c').1]; exact hi)
  rw [hF]
  refine (aff_rowRes (V := [sym]) ?_ ?_).diff.2 sym (by simp)
  · intro f hf
    obtain ⟨x, hxm, rfl⟩ := List.mem_map.1 hf
    rw [h.gradQuad_eq (hx'.mem_iff.1 hxm)]
    exact ((Aff.symb _).add ((Aff.symb _).cmul _)).cmul _
  · intro f hf
    obtain ⟨w, hw'⟩ := mem_zip_of_mem hk.wf.wz hf
    obtain ⟨d, hd, e⟩ := List.mem_map.1 ((hk.same.laws.trans hw).mem_iff.1 hw')
    obtain ⟨q1, q2⟩ := mem_ofType.1 hd
    have hf' : f = law d.ze ∨ f = law d.zf := by
      have := congrArg Prod.snd e
      dsimp only at this
      rw [← this]
      split_ifs
      · exact Or.inl rfl
      · exact Or.inr rfl
    obtain ⟨a, -, rfl⟩ := h.law_lin q1 q2 hf'
    exact (Aff.symb _).cmul _

end LinearCircuit
end System
end Pyphs
