/-
The energy of the components, from their laws alone.
-/
import Verif.System.Spec
import Mathlib.Algebra.BigOperators.Group.Finset.Basic
import Mathlib.Algebra.BigOperators.Ring.Finset
import Mathlib.Tactic.Ring
import Mathlib.Tactic.Linarith
import Mathlib.Tactic.FieldSimp
import Mathlib.Tactic.Positivity

namespace Pyphs
namespace System

/-- The sources of a system. -/
def sources (ds : List Device) : List Branch := ds.flatMap fun
  | .effortSource b => [b]
  | .fluxSource b => [b]
  | _ => []

/-- The power dissipated in the resistances. -/
noncomputable def dissipated (ds : List Device) (F : String → ℝ) : ℝ := (ds.map fun
  | .resistance b r => r * F b.id ^ 2
  | _ => 0).sum

theorem node_sum (bs : List Branch) (F p : String → ℝ) (S : Finset String)
    (hS : ∀ b ∈ bs, b.tail ∈ S ∧ b.head ∈ S) :
    ∑ n ∈ S, p n * (bs.map fun b => (if b.tail = n then F b.id else 0) -
      (if b.head = n then F b.id else 0)).sum = (bs.map fun b => (p b.tail - p b.head) * F b.id).sum := by
  induction bs with
  | nil => simp
  | cons b bs ih =>
    simp only [List.map_cons, List.sum_cons, mul_add, Finset.sum_add_distrib]
    rw [ih fun b' hb' => hS b' (List.mem_cons_of_mem _ hb')]
    obtain ⟨h1, h2⟩ := hS b List.mem_cons_self
    congr 1
    simp only [mul_sub, Finset.sum_sub_distrib, mul_ite, mul_zero, Finset.sum_ite_eq, h1, h2, if_true]
    ring

/-- Tellegen's theorem. -/
theorem tellegen {bs : List Branch} {E F : String → ℝ} (hF : FluxBalance bs F) (hE : Potentials bs E) :
    (bs.map fun b => E b.id * F b.id).sum = 0 := by
  obtain ⟨p, hp⟩ := hE
  have h := node_sum bs F (fun n => p n - p ground) ((bs.map (·.tail) ++ bs.map (·.head)).toFinset)
    (fun b hb => by
      constructor <;> rw [List.mem_toFinset, List.mem_append]
      · exact .inl (List.mem_map.2 ⟨b, hb, rfl⟩)
      · exact .inr (List.mem_map.2 ⟨b, hb, rfl⟩))
  rw [Finset.sum_eq_zero fun n _ => ?_] at h
  · rw [h]
    congr 1
    refine List.map_congr_left fun b hb => ?_
    rw [hp b hb]; ring
  · by_cases hn : n = ground
    · rw [hn, sub_self, zero_mul]
    · rw [hF n hn, mul_zero]

/-- The balance of one step of a midpoint rule. -/
theorem step_power {ds : List Device} (hpos : ∀ d ∈ ds, d.Positive) {ec : String → Prop} {fs : ℝ}
    {x dx u E F : String → ℝ} (h : Equations ds ec fs (1 / 2) x dx u E F) :
    fs * (stored ds (fun i => x i + dx i) - stored ds x) + dissipated ds F +
      ((sources ds).map fun b => E b.id * F b.id).sum = 0 := by
  have ht := tellegen h.flux h.effort
  rw [← ht]
  have hl := h.laws
  clear ht h
  unfold stored dissipated sources
  induction ds with
  | nil => simp
  | cons d ds ih =>
    have ih' := ih (fun d' hd' => hpos d' (List.mem_cons_of_mem _ hd'))
      (fun d' hd' => hl d' (List.mem_cons_of_mem _ hd'))
    have l := hl d List.mem_cons_self
    have hp := hpos d List.mem_cons_self
    simp only [List.map_cons, List.sum_cons, List.flatMap_cons, List.map_append, List.sum_append]
    rw [← ih']
    cases d with
    | fluxStorage b k =>
      obtain ⟨l1, l2⟩ := l
      simp only [Device.energy, Device.branches, List.map_cons, List.map_nil, List.sum_cons, List.sum_nil,
        l1, l2]
      ring
    | effortStorage b k =>
      obtain ⟨l1, l2⟩ := l
      simp only [Device.energy, Device.branches, List.map_cons, List.map_nil, List.sum_cons, List.sum_nil,
        l1, l2]
      ring
    | resistance b r =>
      have l1 : E b.id = r * F b.id := l
      simp only [Device.energy, Device.branches, List.map_cons, List.map_nil, List.sum_cons, List.sum_nil,
        l1]
      ring
    | effortSource b =>
      simp only [Device.energy, Device.branches, List.map_cons, List.map_nil, List.sum_cons, List.sum_nil]
      ring
    | fluxSource b =>
      simp only [Device.energy, Device.branches, List.map_cons, List.map_nil, List.sum_cons, List.sum_nil]
      ring
    | gyrator a b α =>
      simp only [Device.energy, Device.branches, List.map_cons, List.map_nil, List.sum_cons, List.sum_nil]
      by_cases hh : ec a.id
      · obtain ⟨l1, l2⟩ := l.2 hh
        rw [l1, l2]; ring
      · obtain ⟨l1, l2⟩ := l.1 hh
        rw [l1, l2]; ring
    | transformer a b α =>
      simp only [Device.energy, Device.branches, List.map_cons, List.map_nil, List.sum_cons, List.sum_nil]
      by_cases hh : ec a.id
      · obtain ⟨l1, l2⟩ := l.1 hh
        rw [l1, l2]; ring
      · obtain ⟨l1, l2⟩ := l.2 hh
        rw [l1, l2]; ring

theorem dissipated_nonneg {ds : List Device} (hpos : ∀ d ∈ ds, d.Positive) (F : String → ℝ) :
    0 ≤ dissipated ds F := by
  unfold dissipated
  refine List.sum_nonneg fun t ht => ?_
  obtain ⟨d, hd, rfl⟩ := List.mem_map.1 ht
  cases d with
  | resistance b r =>
    have : 0 < r := hpos _ hd
    dsimp only
    positivity
  | _ => exact le_refl _

end System
end Pyphs
