/-
C61: the fractional integrators and derivators of fraccalc in any graph.
-/
import Verif.Frac.Props
import Verif.Frac.Core
import Mathlib.Algebra.Field.Rat
import Mathlib.Algebra.Order.Ring.Rat

namespace Pyphs
namespace Frac
open Graph Finset
open Core (ConnRel)

section theorems
variable {K : Type} [Field K] [DecidableEq K] [Preorder K] [DecidableLT K]
variable {law : String → Env K → K} {nodes : List String} {edges : List (Edge K)} {fuel : ℕ}
  {st : St K} {c c' : Core K} {label N1 N2 : String}

omit [DecidableEq K] in
theorem kept_pos {mu xi : List K} {n : ℕ} (hn : n < (kept mu xi).length) : 0 < muAt (kept mu xi) n := by
  have hm : (kept mu xi)[n] ∈ kept mu xi := List.getElem_mem hn
  have := (List.mem_filter.1 hm).2
  simpa [muAt, List.getD_eq_getElem?_getD, List.getElem?_eq_getElem hn] using this

omit [DecidableEq K] in
theorem kept_xi {mu xi : List K} (hx : ∀ x ∈ xi, x ≠ 0) {n : ℕ} (hn : n < (kept mu xi).length) :
    xiAt (kept mu xi) n ≠ 0 := by
  have hm : (kept mu xi)[n] ∈ kept mu xi := List.getElem_mem hn
  have h1 := (List.mem_filter.1 hm).1
  have : (kept mu xi)[n].2 ∈ xi := (List.of_mem_zip (show ((kept mu xi)[n].1, (kept mu xi)[n].2) ∈ _ from h1)).2
  have := hx _ this
  simpa [xiAt, List.getD_eq_getElem?_getD, List.getElem?_eq_getElem hn] using this

omit [DecidableEq K] in
theorem kept_weight {g : K} (hg : g ≠ 0) {mu xi : List K} {n : ℕ} (hn : n < (kept mu xi).length) :
    g * muAt (kept mu xi) n ≠ 0 := mul_ne_zero hg (kept_pos hn).ne'

/-- C61. The effort-controlled integrator, in any graph that gives a core: for every solution of the
equations of this core, its flow is `g ∑ μ q` with `q' = e - ξ q`, where `e` is the difference of
potential of its terminals. -/
theorem C61_intec (h : Assembled law nodes edges fuel st c c') {g : K} {mu xi : List K} (hg : g ≠ 0)
    (hx : ∀ x ∈ xi, x ≠ 0) (hl : HasLaws law (intec label N1 N2 (intWeights g mu xi)))
    (hp : Placed nodes edges c (intec label N1 N2 (intWeights g mu xi)) N1 N2
      (intecNodes label (kept mu xi).length))
    {E F X dX : String → K}
    (hs : CoreSolution st c' (intec label N1 N2 (intWeights g mu xi)) E F X dX) :
    FromPotentials edges E ∧ ∀ p, Potential edges E p →
      Integrator g (kept mu xi) (p N1 - p N2)
        (leaving (edgesOf (intec label N1 N2 (intWeights g mu xi))) F N1)
        (fun n => X ("x" ++ (label ++ n.repr))) (fun n => dX ("x" ++ (label ++ n.repr))) ∧
      leaving (edgesOf (intec label N1 N2 (intWeights g mu xi))) F N2 =
        -leaving (edgesOf (intec label N1 N2 (intWeights g mu xi))) F N1 := by
  have hs' := h.solution (fun _ hd => hp.mem hd) (by
    intro p hp
    obtain ⟨n, hn, hpn⟩ := List.mem_flatMap.1 hp
    have hn' : n < (kept mu xi).length := by simpa [intWeights_eq] using hn
    simp only [intecCell, List.mem_cons, List.not_mem_nil, or_false] at hpn
    rcases hpn with rfl | rfl
    · rw [intWeights_eq, at_map _ _ hn']
      exact mul_ne_zero (inv_ne_zero (kept_weight hg hn')) (kept_xi hx hn')
    · simp [Part.Good]) hl hs
  exact ⟨(h.kirchhoff hs').2, fun p hpot =>
    intec_correct h (fun n hn => kept_weight hg hn) hp hs' hpot⟩

/-- C61. The flux-controlled integrator: its effort is `g ∑ μ q` with `q' = f - ξ q`. -/
theorem C61_intfc (h : Assembled law nodes edges fuel st c c') {g : K} {mu xi : List K} (hg : g ≠ 0)
    (hx : ∀ x ∈ xi, x ≠ 0) (hk : kept mu xi ≠ [])
    (hl : HasLaws law (intfc label N1 N2 (intWeights g mu xi)))
    (hp : Placed nodes edges c (intfc label N1 N2 (intWeights g mu xi)) N1 N2
      (intfcNodes label (kept mu xi).length))
    {E F X dX : String → K}
    (hs : CoreSolution st c' (intfc label N1 N2 (intWeights g mu xi)) E F X dX) :
    FromPotentials edges E ∧ ∀ p, Potential edges E p →
      Integrator g (kept mu xi) (leaving (edgesOf (intfc label N1 N2 (intWeights g mu xi))) F N1)
        (p N1 - p N2)
        (fun n => X ("x" ++ (label ++ "Q" ++ n.repr))) (fun n => dX ("x" ++ (label ++ "Q" ++ n.repr))) ∧
      leaving (edgesOf (intfc label N1 N2 (intWeights g mu xi))) F N2 =
        -leaving (edgesOf (intfc label N1 N2 (intWeights g mu xi))) F N1 := by
  have hs' := h.solution (fun _ hd => hp.mem hd) (by
    intro p hp
    obtain ⟨n, hn, hpn⟩ := List.mem_flatMap.1 hp
    have hn' : n < (kept mu xi).length := by simpa [intWeights_eq] using hn
    simp only [intfcCell, List.mem_cons, List.not_mem_nil, or_false] at hpn
    rcases hpn with rfl | rfl
    · rw [intWeights_eq, at_map _ _ hn']
      exact mul_ne_zero (inv_ne_zero (kept_weight hg hn')) (kept_xi hx hn')
    · simp [Part.Good]) hl hs
  exact ⟨(h.kirchhoff hs').2, fun p hpot =>
    intfc_correct h (fun n hn => kept_weight hg hn) (List.length_pos_iff.2 hk) hp hs' hpot⟩

/-- C61. The effort-controlled derivator: its flow is `g ∑ μ q'` with `q' = e - ξ q`. -/
theorem C61_derec (h : Assembled law nodes edges fuel st c c') {g : K} {mu xi : List K} (hg : g ≠ 0)
    (hl : HasLaws law (derec label N1 N2 (derWeights g mu xi)))
    (hp : Placed nodes edges c (derec label N1 N2 (derWeights g mu xi)) N1 N2
      (derecNodes label (kept mu xi).length))
    {E F X dX : String → K}
    (hs : CoreSolution st c' (derec label N1 N2 (derWeights g mu xi)) E F X dX) :
    FromPotentials edges E ∧ ∀ p, Potential edges E p →
      Derivator g (kept mu xi) (p N1 - p N2)
        (leaving (edgesOf (derec label N1 N2 (derWeights g mu xi))) F N1)
        (fun n => -X ("x" ++ (label ++ "Q" ++ n.repr)))
        (fun n => -dX ("x" ++ (label ++ "Q" ++ n.repr))) ∧
      leaving (edgesOf (derec label N1 N2 (derWeights g mu xi))) F N2 =
        -leaving (edgesOf (derec label N1 N2 (derWeights g mu xi))) F N1 := by
  have hs' := h.solution (fun _ hd => hp.mem hd) (by
    intro p hp
    obtain ⟨n, hn, hpn⟩ := List.mem_flatMap.1 hp
    have hn' : n < (kept mu xi).length := by simpa [derWeights_eq] using hn
    simp only [derecCell, List.mem_cons, List.not_mem_nil, or_false] at hpn
    rcases hpn with rfl | rfl | rfl
    · rw [derWeights_eq, at_map _ _ hn']
      exact kept_weight hg hn'
    · simp [Part.Good]
    · trivial) hl hs
  exact ⟨(h.kirchhoff hs').2, fun p hpot =>
    derec_correct h (fun n hn => kept_weight hg hn) hp hs' hpot⟩

/-- C61. The flux-controlled derivator: its effort is `g ∑ μ q'` with `q' = f - (g μ)⁴ ξ q`, and not
`q' = f - ξ q`. -/
theorem C61_derfc (h : Assembled law nodes edges fuel st c c') {g : K} {mu xi : List K} (hg : g ≠ 0)
    (hk : kept mu xi ≠ []) (hl : HasLaws law (derfc label N1 N2 (derWeights g mu xi)))
    (hp : Placed nodes edges c (derfc label N1 N2 (derWeights g mu xi)) N1 N2
      (derfcNodes label (kept mu xi).length))
    {E F X dX : String → K}
    (hs : CoreSolution st c' (derfc label N1 N2 (derWeights g mu xi)) E F X dX) :
    FromPotentials edges E ∧ ∀ p, Potential edges E p →
      Derivator g ((kept mu xi).map fun c => (c.1, (g * c.1) ^ 4 * c.2))
        (leaving (edgesOf (derfc label N1 N2 (derWeights g mu xi))) F N1) (p N1 - p N2)
        (fun n => X ("x" ++ (label ++ "Q" ++ n.repr)) / (g * muAt (kept mu xi) n) ^ 2)
        (fun n => dX ("x" ++ (label ++ "Q" ++ n.repr)) / (g * muAt (kept mu xi) n) ^ 2) ∧
      leaving (edgesOf (derfc label N1 N2 (derWeights g mu xi))) F N2 =
        -leaving (edgesOf (derfc label N1 N2 (derWeights g mu xi))) F N1 := by
  have hs' := h.solution (fun _ hd => hp.mem hd) (by
    intro p hp
    obtain ⟨n, hn, hpn⟩ := List.mem_flatMap.1 hp
    have hn' : n < (kept mu xi).length := by simpa [derWeights_eq] using hn
    simp only [derfcCell, List.mem_cons, List.not_mem_nil, or_false] at hpn
    rcases hpn with rfl | rfl | rfl
    · rw [derWeights_eq, at_map _ _ hn']
      exact kept_weight hg hn'
    · simp [Part.Good]
    · trivial) hl hs
  exact ⟨(h.kirchhoff hs').2, fun p hpot =>
    derfc_actual h (fun n hn => kept_weight hg hn) (List.length_pos_iff.2 hk) hp hs' hpot⟩

end theorems

end Frac
end Pyphs
