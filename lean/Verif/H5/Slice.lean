import Mathlib.Data.Int.Notation
import Mathlib.Tactic.Ring
import Mathlib.Data.List.Nodup
import Mathlib.Data.List.Range
import Mathlib.Algebra.Order.Ring.Int

/-!
# Python slices with a positive step

`slice(start, stop, step).indices(len)`, as used by lists, ranges, numpy arrays and h5py datasets
(h5py refuses a step below 1).
-/

namespace Pyphs
namespace H5

/-- Clipping of a bound of a slice. -/
def clip (len : ℕ) (i : ℤ) : ℕ := if i < 0 then (i + len).toNat else min i.toNat len

/-- First bound of a slice. -/
def lo (len : ℕ) : Option ℤ → ℕ
  | none => 0
  | some i => clip len i

/-- Second bound of a slice. -/
def hi (len : ℕ) : Option ℤ → ℕ
  | none => len
  | some i => clip len i

/-- Positions selected by a slice in a sequence of length `len`. -/
def pyIndices (len : ℕ) (start stop : Option ℤ) (step : ℕ) : List ℕ :=
  (List.range ((hi len stop - lo len start + step - 1) / step)).map fun k =>
    lo len start + k * step

/-- `numpy.arange(a, b, step)` on integers -/
def arange (a b : ℤ) (step : ℕ) : List ℤ :=
  (List.range (((b - a).toNat + step - 1) / step)).map fun k : ℕ => a + (k : ℤ) * (step : ℤ)

theorem lt_count {n step k : ℕ} (hs : 1 ≤ step) : k < (n + step - 1) / step ↔ k * step < n := by
  rw [Nat.lt_div_iff_mul_lt (by omega)]
  constructor <;> intro h <;> rw [mul_comm] at * <;> omega

theorem clip_of_le {len i : ℕ} (h : i ≤ len) : clip len i = i := by
  unfold clip; rw [if_neg (by omega)]; simp [h]

theorem clip_le (len : ℕ) (i : ℤ) : clip len i ≤ len := by
  unfold clip; split <;> omega

theorem hi_le (len : ℕ) (stop : Option ℤ) : hi len stop ≤ len := by
  cases stop with
  | none => exact le_refl _
  | some i => exact clip_le len i

theorem pyIndices_lt {len : ℕ} {start stop : Option ℤ} {step : ℕ} (hs : 1 ≤ step) {i : ℕ}
    (h : i ∈ pyIndices len start stop step) : i < len := by
  obtain ⟨k, hk, rfl⟩ := List.mem_map.1 h
  rw [List.mem_range, lt_count hs] at hk
  have := hi_le len stop
  omega

theorem pyIndices_nodup {len : ℕ} {start stop : Option ℤ} {step : ℕ} (hs : 1 ≤ step) :
    (pyIndices len start stop step).Nodup := by
  refine List.Nodup.map ?_ List.nodup_range
  intro a b h
  have h' : a * step = b * step := Nat.add_left_cancel h
  exact Nat.eq_of_mul_eq_mul_right (by omega) h'

/-- A slice inside the sequence selects start, start + step, ... below stop. -/
theorem pyIndices_inside {len a b step : ℕ} (ha : a ≤ len) (hb : b ≤ len) :
    pyIndices len (some (a : ℤ)) (some (b : ℤ)) step =
      (List.range ((b - a + step - 1) / step)).map fun k => a + k * step := by
  unfold pyIndices
  simp only [lo, hi, clip_of_le ha, clip_of_le hb]

end H5
end Pyphs
