/-
Circuits to which C66 applies.
-/
import Verif.Circuit.Run
import Verif.Circuit.QuadForm
import Verif.Circuit.Examples

namespace Pyphs
namespace Circuit
open Scheme Core Graph Finset Numeric Record H5

theorem gDiss : (ofType .dissipative gEdges).map (·.label) = ["w"] := by
  simp [ofType, gEdges, gEdge]

theorem g_storage {d : Edge ℝ} (hd : d ∈ gEdges) (ht : d.type = .storage) : d.label = "q" := by
  have : d.label ∈ (ofType .storage gEdges).map (·.label) :=
    List.mem_map_of_mem (f := fun d : Edge ℝ => d.label) (mem_ofType.2 ⟨hd, ht⟩)
  rw [gStor] at this
  simpa using this

theorem g_diss {d : Edge ℝ} (hd : d ∈ gEdges) (ht : d.type = .dissipative) :
    d.label = "w" ∧ d.ze = "ze" ∧ d.zf = "zf" := by
  simp only [gEdges, List.mem_cons, List.not_mem_nil, or_false] at hd
  rcases hd with rfl | rfl | rfl | rfl | rfl <;> simp [gEdge] at ht
  exact ⟨rfl, rfl, rfl⟩

theorem gLaw_ze : gLaw "ze" = fun e => e "w" / 3 := by
  funext e; simp [gLaw]
theorem gLaw_zf : gLaw "zf" = fun e => 3 * e "w" := by
  funext e; simp [gLaw]

/-- The components of the circuit are regular, if the energy is a twice differentiable function of the
charge. -/
theorem gRegular {H : Sc} (hq : ∀ s, s ≠ "q" → Indep H s) (hs : Smooth2 H ["q"]) :
    RegularCircuit gLaw gEdges H where
  nodup := by rw [gStor, gDiss]; decide
  Hx := ⟨fun d hd ht => hq _ (by rw [g_storage hd ht]; decide),
    fun d hd ht => hq _ (by rw [(g_diss hd ht).1]; decide)⟩
  H2 := by
    intro d hd ht r hr ht'
    rw [g_storage hd ht, g_storage hr ht']
    exact hs.d2 "q" (by simp) "q" (by simp)
  laws := by
    intro d hd ht f hf
    obtain ⟨-, h1, h2⟩ := g_diss hd ht
    rw [h1, h2, gLaw_ze, gLaw_zf] at hf
    constructor
    · intro r hr ht' e t
      rw [g_storage hr ht', dn_q]
      rcases hf with rfl | rfl <;> simp [Function.update]
    · intro r hr ht' e
      rw [(g_diss hr ht').1]
      rcases hf with rfl | rfl <;> simp [Function.update] <;> fun_prop

theorem linH_indep : ∀ s, s ≠ "q" → Indep linH s := by
  intro s hs e t
  simp [linH, Function.update_of_ne (Ne.symm hs)]

theorem linH_dd : pdiff (pdiff linH "q") "q" = fun _ => 1 := by
  funext e; rw [linH_d]; simp [pdiff, Function.update]

/-- The entries of the Jacobian of the linear circuit are constants: sympy finds no symbol in them. -/
theorem gJacSound {o : Config} (ht : 0 < o.epsdg) {c2 : Core ℝ}
    (hc : toCore gLaw 30 gNodes gEdges (gCore linH) = some c2) : JacSound iSympy o c2 := by
  classical
  intro n c' hk hdx i hi j hj k _
  obtain ⟨ec, -, hwf, -, hH, -, hx, hw, -⟩ := C63_core (gOK linH) hc two_ne_zero
  rw [gStor] at hx
  have hx' : c'.x = ["q"] := List.perm_singleton.1 (hk.same.x.trans hx)
  have hH' : c'.H = linH := hk.same.H.trans hH
  have hgx : (groups c' n).x = ["q"] := (groups_x n).trans hx'
  have hd : c'.dxH = some [gradQuad linH (weight o.kind o.θ) "q"] := by
    rw [hdx, hH', quad_gradient (by rw [hgx]; exact linH_quad) (by rw [hgx]; decide) _ _ ht, hgx]
    rfl
  have hlen : ((asMeth o n c').v .all).length = c'.x.length + c'.w.length := by
    have : (asMeth o n c').v .all = vars c' := by
      show (groups c' n).x.map dn ++ c'.w = _
      rw [groups_x]; rfl
    rw [this]; simp [vars]
  obtain ⟨l, -, hF⟩ := F_row hk hd o n .all (i := i) (by rw [hlen]; exact hi)
  rw [hF]
  have haff : ∀ y, Aff [k] y (rowRes c' o.fs [gradQuad linH (weight o.kind o.θ) "q"] l) := by
    intro y
    unfold rowRes
    refine ((Aff.sub ?_ ?_).sub ?_).sub ?_
    · exact .ite ((Aff.symb _).cmul _) (.symb _)
    · refine .sum (f := fun (p : String × Sc) e => coef c' l p.1 * p.2 e) fun p hp => .cmul _ ?_
      have := (List.of_mem_zip hp).2
      rw [List.mem_singleton.1 this]
      have : gradQuad linH (weight o.kind o.θ) "q" = fun e => e "q" + weight o.kind o.θ * e "dq" := by
        funext e
        unfold gradQuad
        rw [linH_dd, linH_d, dn_q, one_mul]
      rw [this]
      exact (Aff.symb _).add ((Aff.symb _).cmul _)
    · refine .sum (f := fun (p : String × Sc) e => coef c' l p.1 * p.2 e) fun p hp => .cmul _ ?_
      obtain ⟨d, hd, e⟩ := List.mem_map.1 ((hk.same.laws.trans hw).mem_iff.1 hp)
      obtain ⟨q1, q2⟩ := mem_ofType.1 hd
      obtain ⟨-, h1, h2⟩ := g_diss q1 q2
      have := congrArg Prod.snd e
      simp only [h1, h2] at this
      rw [← this]
      split_ifs
      · rw [gLaw_ze]
        have := (Aff.symb (V := [k]) (y := y) "w").cmul (1 / 3)
        refine cast (congrArg _ (funext fun e => ?_)) this
        ring
      · rw [gLaw_zf]
        exact (Aff.symb _).cmul _
    · exact .sum (f := fun (p : String × String) e => coef c' l p.1 * e p.2) fun p _ => .cmul _ (.symb _)
  exact (haff _).diff.2 k (by simp)

/-- C66 applies to the circuit of a source, a gyrator, a resistor and a capacitor. -/
example (o : Config) (hfs : 0 < o.fs) (ht : 0 < o.epsdg) (hθ : o.kind = .theta → o.θ = 1 / 2) :=
  fun c2 (h : toCore gLaw 30 gNodes gEdges (gCore linH) = some c2) =>
    C66_passive (gOK linH) gStatic (gRegular linH_indep linH_quad.smooth) gPassive
      (by rw [gStor]; exact linH_quad) h iSympy iSympy_ok o (gJacSound ht h) hfs hθ

example (o : Config) (ht : 0 < o.epsdg) :=
  fun c2 (h : toCore gLaw 30 gNodes gEdges (gCore linH) = some c2) =>
    C66_update (gOK linH) gStatic (gRegular linH_indep linH_quad.smooth) h iSympy iSympy_ok o
      (gJacSound ht h)

end Circuit
end Pyphs
