/-
Model of the piecewise linear interpolation (pyphs/dictionary/pwl), property C53.
-/
import Mathlib.Analysis.Calculus.Deriv.Pow
import Mathlib.Analysis.Calculus.Deriv.Slope
import Mathlib.Analysis.Calculus.Deriv.MeanValue
import Mathlib.Algebra.Order.BigOperators.Group.List
import Mathlib.Tactic.FieldSimp
import Mathlib.Tactic.Positivity
import Mathlib.Tactic.FinCases
import Mathlib.Tactic.NormNum
import Mathlib.Data.Rat.Cast.Order

namespace Pyphs
namespace Pwl

variable {K : Type} [Field K] [LinearOrder K] [IsStrictOrderedRing K]

/-! ### Model -/

/-- numpy.diff -/
def diff : List K → List K
  | a :: b :: l => (b - a) :: diff (b :: l)
  | _ => []

/-- tools.py:80-86: the slopes, first and last repeated. `none` is the `IndexError` raised by
`m[np.newaxis, 0]` if there is no slope. -/
def slopes (X Y : List K) : Option (List K) :=
  match List.zipWith (· / ·) (diff Y) (diff X) with
  | [] => none
  | m0 :: m => some (m0 :: m0 :: m ++ [(m0 :: m).getLast (by simp)])

/-- The coefficients of the canonical form. -/
structure Coeffs (K : Type) where
  (a b : K)
  c : List K

/-- tools.py:68-93. `none`: the lists have different lengths (`AssertionError`) or fewer than
two points (`IndexError`). -/
def coeffs (X Y : List K) (y0 : K) : Option (Coeffs K) :=
  if X.length = Y.length then
    (slopes X Y).map fun m =>
      let b := (m.head?.getD 0 + m.getLast?.getD 0) / 2
      let c := List.zipWith (fun u v => (u - v) / 2) m.tail (m.take X.length)
      ⟨y0 - (List.zipWith (fun c x => c * |x|) c X).sum, b, c⟩
  else none

/-- tools.py:101: the interpolation, as a function of the symbol. -/
def eval (k : Coeffs K) (X : List K) (x : K) : K :=
  k.a + k.b * x + (List.zipWith (fun c xi => c * |x - xi|) k.c X).sum

/-- tools.py:95-99: the integral. -/
def evalInteg (k : Coeffs K) (X : List K) (intconst x : K) : K :=
  intconst + k.a * x + k.b / 2 * x ^ 2 +
    (List.zipWith (fun c xi => c * (1 / 2) * |x - xi| * (x - xi)) k.c X).sum +
    (List.zipWith (fun c xi => c * (1 / 2) * |xi| * xi) k.c X).sum

/-- pwl/_dissipative.py:36-46: the assertions on the data. -/
abbrev DissOK (W Z : List K) : Prop :=
  (∀ p ∈ W.zip Z, 0 ≤ p.1 → 0 ≤ p.2) ∧ (∀ p ∈ W.zip Z, p.1 < 0 → p.2 < 0) ∧
  (∀ p ∈ W.zip Z, p.1 = 0 → p.2 = 0) ∧ ∀ d ∈ diff Z, 0 < d

/-- pwl/_storage.py:33-46: the assertions on the data. The truth value of the array
`h_vals[x_vals == 0] == 0` is false if the array is empty, and an error if it has more than one
element. -/
abbrev StorOK (integ : Bool) (X H : List K) : Prop :=
  (∀ p ∈ X.zip H, 0 ≤ p.1 → 0 ≤ p.2) ∧
  (∀ p ∈ X.zip H, p.1 < 0 → if integ then p.2 < 0 else 0 ≤ p.2) ∧
  ∃ p, (X.zip H).filter (fun p => p.1 = 0) = [p] ∧ p.2 = 0

/-! ### Specification -/

/-- The straight line through two points. -/
def line (p q : K × K) (x : K) : K := p.2 + (q.2 - p.2) / (q.1 - p.1) * (x - p.1)

/-- The polygonal line through the points, extended with the slopes of its ends. -/
def poly : List (K × K) → K → K
  | p :: q :: r :: l, x => if x ≤ q.1 then line p q x else poly (q :: r :: l) x
  | [p, q], x => line p q x
  | _, _ => 0

/-- The abscissae are strictly increasing. -/
abbrev Sorted (l : List (K × K)) : Prop := l.Pairwise fun p q => p.1 < q.1

/-! ### The canonical form -/

theorem half_abs (x y : K) : ((x - y) - |x - y|) / 2 = if x ≤ y then x - y else 0 := by
  split
  · rename_i h
    rw [abs_of_nonpos (by linarith)]; ring
  · rename_i h
    rw [abs_of_nonneg (by push Not at h; linarith)]; ring

theorem line_eq (p q : K × K) (x : K) (h : p.1 < q.1) :
    line p q x = q.2 + (q.2 - p.2) / (q.1 - p.1) * (x - q.1) := by
  have : q.1 - p.1 ≠ 0 := by linarith
  unfold line
  field_simp
  ring

/-- The second differences of a list of slopes. -/
def bends : List K → List K
  | u :: v :: l => (v - u) / 2 :: bends (v :: l)
  | _ => []

theorem bends_eq (m : List K) (n : ℕ) (h : m.length = n + 1) :
    List.zipWith (fun u v => (u - v) / 2) m.tail (m.take n) = bends m := by
  induction m generalizing n with
  | nil => simp at h
  | cons u l ih =>
    cases l with
    | nil =>
      simp only [List.length_cons, List.length_nil] at h
      have : n = 0 := by omega
      subst this
      simp [bends]
    | cons v l =>
      cases n with
      | zero => simp at h
      | succ n =>
        simp only [List.tail_cons, List.take_succ_cons, List.zipWith_cons_cons, bends]
        congr 1
        exact ih n (by simpa using h)

/-- Slopes of the segments. -/
def segs : List (K × K) → List K
  | p :: q :: l => (q.2 - p.2) / (q.1 - p.1) :: segs (q :: l)
  | _ => []

theorem zip_diff (l : List (K × K)) :
    List.zipWith (· / ·) (diff (l.map (·.2))) (diff (l.map (·.1))) = segs l := by
  induction l with
  | nil => rfl
  | cons p l ih =>
    cases l with
    | nil => rfl
    | cons q l => simp only [List.map_cons, diff, List.zipWith_cons_cons, segs]; rw [← ih]; rfl

theorem segs_length (l : List (K × K)) : (segs l).length = l.length - 1 := by
  induction l with
  | nil => rfl
  | cons p l ih =>
    cases l with
    | nil => rfl
    | cons q l => simp only [segs, List.length_cons, ih]; simp

/-- The sum of the absolute values. -/
def absSum (c X : List K) (x : K) : K := (List.zipWith (fun c xi => c * |x - xi|) c X).sum

theorem bends_last (m : List K) (v : K) (h : m.getLast? = some v) :
    ∀ X : List K, ∀ x, X.length = m.length → absSum (bends (m ++ [v])) X x =
      absSum (bends m ++ [0]) X x := by
  induction m with
  | nil => simp at h
  | cons u l ih =>
    cases l with
    | nil =>
      intro X x hX
      obtain ⟨a, rfl⟩ : ∃ a, X = [a] := List.length_eq_one_iff.1 hX
      simp only [List.getLast?_singleton, Option.some.injEq] at h
      subst h
      simp [bends, absSum]
    | cons w l =>
      intro X x hX
      cases X with
      | nil => simp at hX
      | cons a X =>
        have := ih (by simpa using h) X x (by simpa using hX)
        simp only [absSum, List.cons_append, bends, List.zipWith_cons_cons, List.sum_cons] at this ⊢
        rw [this]

/-- The polygonal line in canonical form, up to a constant. -/
theorem canonical (p q : K × K) (l : List (K × K)) (hs : Sorted (p :: q :: l)) :
    ∃ A, ∀ x, poly (p :: q :: l) x =
      A + ((segs (p :: q :: l)).head?.getD 0 + (segs (p :: q :: l)).getLast?.getD 0) / 2 * x +
      absSum (bends (segs (p :: q :: l))) ((q :: l).map (·.1)) x := by
  induction l generalizing p q with
  | nil =>
    refine ⟨p.2 - (q.2 - p.2) / (q.1 - p.1) * p.1, fun x => ?_⟩
    simp [poly, segs, bends, absSum, line]
    ring
  | cons r l ih =>
    obtain ⟨A, hA⟩ := ih q r (List.Pairwise.of_cons hs)
    have hpq : p.1 < q.1 := by
      simp only [Sorted, List.pairwise_cons, List.mem_cons] at hs
      exact hs.1 q (.inl rfl)
    have hqr : q.1 < r.1 := by
      simp only [Sorted, List.pairwise_cons, List.mem_cons] at hs
      exact hs.2.1 r (.inl rfl)
    set s0 := (q.2 - p.2) / (q.1 - p.1) with hs0
    set s1 := (r.2 - q.2) / (r.1 - q.1) with hs1
    refine ⟨A - (s0 - s1) / 2 * q.1, fun x => ?_⟩
    have h1 : poly (p :: q :: r :: l) x = poly (q :: r :: l) x +
        (s0 - s1) * (((x - q.1) - |x - q.1|) / 2) := by
      rw [half_abs, poly]
      split
      · rename_i h
        have hq : poly (q :: r :: l) x = line q r x := by
          cases l with
          | nil => rfl
          | cons t l => rw [poly, if_pos (h.trans hqr.le)]
        rw [hq, line_eq p q x hpq, line, ← hs0, ← hs1]; ring
      · ring
    have h2 : segs (p :: q :: r :: l) = s0 :: s1 :: segs (r :: l) := rfl
    have h3 : segs (q :: r :: l) = s1 :: segs (r :: l) := rfl
    rw [h1, hA x, h2, h3]
    simp only [List.head?_cons, Option.getD_some, List.getLast?_cons_cons, bends, List.map_cons,
      absSum, List.zipWith_cons_cons, List.sum_cons]
    ring

/-- The interpolation is the polygonal line through the points, translated vertically so that
its value at the origin is `y0`. -/
theorem eval_eq (l : List (K × K)) (hs : Sorted l) (hl : 2 ≤ l.length) (y0 : K) :
    ∃ k, coeffs (l.map (·.1)) (l.map (·.2)) y0 = some k ∧
      ∀ x, eval k (l.map (·.1)) x = poly l x - poly l 0 + y0 := by
  match l, hl with
  | p :: q :: l, _ =>
    obtain ⟨A, hA⟩ := canonical p q l hs
    set m := segs (p :: q :: l) with hm
    have hm' : m = (q.2 - p.2) / (q.1 - p.1) :: segs (q :: l) := rfl
    set s0 := (q.2 - p.2) / (q.1 - p.1) with hs0
    set v := m.getLast (by rw [hm']; simp) with hv
    have hlast : m.getLast? = some v := List.getLast?_eq_getLast_of_ne_nil _
    have hsl : slopes ((p :: q :: l).map (·.1)) ((p :: q :: l).map (·.2)) =
        some (s0 :: m ++ [v]) := by
      unfold slopes
      split
      · rename_i h
        rw [zip_diff] at h
        rw [← hm, hm'] at h
        simp at h
      · rename_i m0 m1 h
        rw [zip_diff, ← hm] at h
        have e0 : m0 = s0 := by rw [hm'] at h; exact (List.cons.inj h).1.symm
        subst e0
        simp only [← h, List.cons_append]
        rfl
    have hc : coeffs ((p :: q :: l).map (·.1)) ((p :: q :: l).map (·.2)) y0 =
        some ⟨y0 - (List.zipWith (fun c x => c * |x|) (List.zipWith (fun u v => (u - v) / 2)
            (s0 :: m ++ [v]).tail ((s0 :: m ++ [v]).take ((p :: q :: l).map (·.1)).length))
            ((p :: q :: l).map (·.1))).sum,
          ((s0 :: m ++ [v]).head?.getD 0 + (s0 :: m ++ [v]).getLast?.getD 0) / 2,
          List.zipWith (fun u v => (u - v) / 2) (s0 :: m ++ [v]).tail
            ((s0 :: m ++ [v]).take ((p :: q :: l).map (·.1)).length)⟩ := by
      unfold coeffs
      rw [if_pos (by simp), hsl]
      rfl
    refine ⟨_, hc, ?_⟩
    · have hlen : (s0 :: m ++ [v]).length = ((p :: q :: l).map (·.1)).length + 1 := by
        simp [hm, segs_length]
      have hb := bends_eq (s0 :: m ++ [v]) _ hlen
      intro x
      unfold eval
      simp only [hb]
      have hX : ∀ x, absSum (bends (s0 :: m ++ [v])) ((p :: q :: l).map (·.1)) x =
          absSum (bends m) ((q :: l).map (·.1)) x := by
        intro x
        have h1 : bends (s0 :: m ++ [v]) = 0 :: bends (m ++ [v]) := by
          rw [hm']; simp [bends]
        have h2 : ((q :: l).map (·.1)).length = m.length := by simp [hm, segs_length]
        rw [h1]
        have h4 := bends_last m v hlast ((q :: l).map (·.1)) x h2
        simp only [List.map_cons, absSum, List.zipWith_cons_cons, List.sum_cons, zero_mul,
          zero_add] at h4 ⊢
        rw [h4]
        have h5 : ∀ (c X : List K), c.length + 1 = X.length →
            (List.zipWith (fun c xi => c * |x - xi|) (c ++ [0]) X).sum =
            (List.zipWith (fun c xi => c * |x - xi|) c X).sum := by
          intro c
          induction c with
          | nil =>
            intro X hX
            obtain ⟨a, rfl⟩ : ∃ a, X = [a] := List.length_eq_one_iff.1 (by simpa using hX.symm)
            simp
          | cons u c ih =>
            intro X hX
            cases X with
            | nil => simp at hX
            | cons a X =>
              simp only [List.cons_append, List.zipWith_cons_cons, List.sum_cons]
              rw [ih X (by simpa using hX)]
        refine h5 _ _ ?_
        have hbl : ∀ m : List K, (bends m).length = m.length - 1 := by
          intro m
          induction m with
          | nil => rfl
          | cons u m ih =>
            cases m with
            | nil => rfl
            | cons w m => simp only [bends, List.length_cons, ih]; simp
        rw [hbl, hm, segs_length]
        simp
      have e1 : (List.zipWith (fun c xi => c * |x - xi|) (bends (s0 :: m ++ [v]))
          ((p :: q :: l).map (·.1))).sum = absSum (bends m) ((q :: l).map (·.1)) x := hX x
      have e0 : (List.zipWith (fun c xi => c * |xi|) (bends (s0 :: m ++ [v]))
          ((p :: q :: l).map (·.1))).sum = absSum (bends m) ((q :: l).map (·.1)) 0 := by
        rw [← hX 0]
        simp [absSum]
      have hh : m.head? = some s0 := by rw [hm']; rfl
      have hb0 : (s0 :: m ++ [v]).head? = some s0 := rfl
      have hbl : (s0 :: m ++ [v]).getLast? = some v := List.getLast?_concat
      rw [e1, e0, hA x, hA 0, hlast, hh, hb0, hbl]
      simp only [Option.getD_some]
      ring

end Pwl
end Pyphs
