/-
The laws of the pickup in a graph.
-/
import Verif.Pickup.Model
import Verif.Beam.Names

namespace Pyphs
namespace Pickup
open Graph Frac Beam
open Core (ConnRel)

variable {K : Type} [Field K]
variable {nodes : List String} {es : List (Edge K)} {c c' : Core K} {label mass el1 el2 : String}
  {f n : K} {law : String → Env K → K} {fuel : ℕ} {st : St K}

theorem Plugged.mem (h : Plugged nodes es c label mass el1 el2 f n) {d : Edge K}
    (hd : d ∈ edges label mass el1 el2 f n) : d ∈ es := by
  obtain ⟨rest, hp, -⟩ := h.rest
  exact hp.mem_iff.2 (List.mem_append_left _ hd)

theorem Plugged.balance (h : Plugged nodes es c label mass el1 el2 f n) {F : String → K}
    (hf : FlowBalance nodes es F) {v : String} (hv : v ∈ [nMagnet label, nCcoil label]) :
    leaving (edges label mass el1 el2 f n) F v = 0 := by
  obtain ⟨rest, hp, hr⟩ := h.rest
  have h1 := hf v (h.known v hv).1 (h.known v hv).2
  have h2 : leaving (edges label mass el1 el2 f n ++ rest) F v = 0 := by
    rw [← h1]
    exact ((hp.map fun d => (sign d v : K) * F d.label).sum_eq).symm
  rw [leaving_append, leaving_zero (hr v hv), add_zero] at h2
  exact h2

theorem inner_ne : nMagnet label ≠ nCcoil label := by
  intro e
  have := congrArg String.toList e
  simp [nMagnet, nCcoil, String.toList_append] at this

variable [DecidableEq K]

/-- The law of an effort-controlled gyrator. -/
theorem gyr_ec (h : Assembled law nodes es fuel st c c') {ps : List (Frac.Part K)}
    {E F X dX : String → K} (hs : Solution st c' ps E F X dX) {d1 d2 : Edge K} {a : K} {i : ℕ}
    {k : Conn K} (hk : IsConnector es c d1 d2 a i k) (hg : d1.ctype = .gyrator)
    (hec : d1.label ∈ st.ec.map (lab st)) :
    F d1.label = -a⁻¹ * E d2.label ∧ F d2.label = a⁻¹ * E d1.label := by
  obtain ⟨k1, k2, g1, g2, l1, l2, hc⟩ := conn_ratio h.datum h.labels h.analysed h.built hk
  have ct : ∀ (b : Prop) [Decidable b] (d : Edge K), (if b then ecEdge d else d).ctype = d.ctype ∧
      (if b then ecEdge d else d).type = d.type ∧ (if b then ecEdge d else d).label = d.label ∧
      (if b then ecEdge d else d).link = d.link := by
    intro b _ d
    split
    · unfold ecEdge; split <;> exact ⟨rfl, rfl, rfl, rfl⟩
    · exact ⟨rfl, rfl, rfl, rfl⟩
  have hctl := (C51_controls h.datum h.labels h.links h.analysed g1 g2 (by rw [(ct _ d1).2.1, hk.type1])
    (by rw [(ct _ d2).2.2.2, (ct _ d1).2.2.1, hk.link2])).1 (by rw [(ct _ d1).1, hg])
  rcases hctl with ⟨m1, m2⟩ | ⟨m1, -⟩
  · obtain ⟨β, α, hsd, -, hcr⟩ := hs.core
    have hrel := hcr _ (List.mem_of_getElem? hc)
    obtain ⟨b1, a1⟩ := hsd.ec k1 m1
    obtain ⟨b2, a2⟩ := hsd.ec k2 m2
    rw [l1] at b1 a1
    rw [l2] at b2 a2
    unfold ConnRel at hrel
    simp only [m1, hg, and_self, if_true, hk.y0, hk.y1, b1, a1, b2, a2] at hrel
    exact hrel
  · exact absurd (l1 ▸ List.mem_map_of_mem m1) (h.disj hec)

end Pickup
end Pyphs
