/-
Property C53: piecewise linear interpolation, and the components built on it.
-/
import Verif.Compo.Pwl

namespace Pyphs
namespace Pwl

section field
variable {K : Type} [Field K] [LinearOrder K] [IsStrictOrderedRing K]

theorem sorted_append {l1 l2 : List (K × K)} (h : Sorted (l1 ++ l2)) : Sorted l2 :=
  (List.pairwise_append.1 h).2.1

/-- On and after the first point of a part of the data, only that part matters. -/
theorem poly_append (l1 l2 : List (K × K)) (r t : K × K) (hs : Sorted (l1 ++ r :: t :: l2))
    (x : K) (hx : r.1 ≤ x ∨ l1 = []) : poly (l1 ++ r :: t :: l2) x = poly (r :: t :: l2) x := by
  rcases hx with hx | rfl
  · induction l1 with
    | nil => rfl
    | cons p l1 ih =>
      have ih := ih hs.of_cons
      cases l1 with
      | nil =>
        have hp : p.1 < r.1 := by
          simp only [Sorted, List.singleton_append, List.pairwise_cons, List.mem_cons] at hs
          exact hs.1 r (.inl rfl)
        show poly (p :: r :: t :: l2) x = _
        rw [poly]
        split
        · rename_i h
          have : x = r.1 := le_antisymm h hx
          subst this
          rw [line_eq _ _ _ hp, sub_self, mul_zero, add_zero]
          have hrt : r.1 < t.1 := by
            have : Sorted (r :: t :: l2) := sorted_append (l1 := [p]) hs
            exact (List.pairwise_cons.1 this).1 t (by simp)
          cases l2 with
          | nil => simp [poly, line]
          | cons u l2 => rw [poly, if_pos hrt.le]; simp [line]
        · rfl
      | cons q l1 =>
        have hq : q.1 < r.1 := by
          have : Sorted (q :: (l1 ++ r :: t :: l2)) := sorted_append (l1 := [p]) hs
          exact (List.pairwise_cons.1 this).1 r (by simp)
        have : ∃ u m, l1 ++ r :: t :: l2 = u :: m := by
          cases l1 with
          | nil => exact ⟨_, _, rfl⟩
          | cons u m => exact ⟨_, _, rfl⟩
        obtain ⟨u, m, hm⟩ := this
        simp only [List.cons_append] at ih ⊢
        rw [hm] at ih ⊢
        rw [poly, if_neg (by push Not; linarith)]
        exact ih
  · rfl

theorem poly_first (r t : K × K) (l : List (K × K)) (x : K) (hx : x ≤ t.1 ∨ l = []) :
    poly (r :: t :: l) x = line r t x := by
  cases l with
  | nil => rfl
  | cons u l =>
    rcases hx with hx | hx
    · rw [poly, if_pos hx]
    · simp at hx

/-- On a segment of the data, extended if it is the first or the last one, the polygonal line
is the line of the segment. -/
theorem poly_segment (l1 l2 : List (K × K)) (r t : K × K) (hs : Sorted (l1 ++ r :: t :: l2)) (x : K)
    (h1 : r.1 ≤ x ∨ l1 = []) (h2 : x ≤ t.1 ∨ l2 = []) :
    poly (l1 ++ r :: t :: l2) x = line r t x := by
  rw [poly_append l1 l2 r t hs x h1, poly_first r t l2 x h2]

theorem seg_lt {l1 l2 : List (K × K)} {r t : K × K} (hs : Sorted (l1 ++ r :: t :: l2)) :
    r.1 < t.1 := by
  have := sorted_append hs
  simp only [Sorted, List.pairwise_cons, List.mem_cons] at this
  exact this.1 t (.inl rfl)

/-- Every point of a list of at least two belongs to a segment. -/
theorem mem_seg {l : List (K × K)} (hl : 2 ≤ l.length) {p : K × K} (hp : p ∈ l) :
    ∃ l1 r t l2, l = l1 ++ r :: t :: l2 ∧ (p = r ∨ p = t) := by
  induction l with
  | nil => simp at hp
  | cons q l ih =>
    match l, hl with
    | [t], _ =>
      refine ⟨[], q, t, [], rfl, ?_⟩
      simpa using hp
    | t :: u :: l, _ =>
      rcases List.mem_cons.1 hp with rfl | hp
      · exact ⟨[], p, t, u :: l, rfl, .inl rfl⟩
      · obtain ⟨l1, r, t', l2, h, h'⟩ := ih (by simp) hp
        exact ⟨q :: l1, r, t', l2, by rw [h]; rfl, h'⟩

theorem poly_point {l : List (K × K)} (hs : Sorted l) (hl : 2 ≤ l.length) {p : K × K} (hp : p ∈ l) :
    poly l p.1 = p.2 := by
  obtain ⟨l1, r, t, l2, rfl, h⟩ := mem_seg hl hp
  have hlt := seg_lt hs
  rcases h with rfl | rfl
  · rw [poly_segment l1 l2 p t hs _ (.inl le_rfl) (.inl hlt.le)]; simp [line]
  · rw [poly_segment l1 l2 r p hs _ (.inl hlt.le) (.inl le_rfl), line_eq _ _ _ hlt]; simp

/-- Every abscissa belongs to a segment, the first and the last being extended. -/
theorem exists_seg {l : List (K × K)} (hs : Sorted l) (hl : 2 ≤ l.length) (x : K) :
    ∃ l1 r t l2, l = l1 ++ r :: t :: l2 ∧ (r.1 ≤ x ∨ l1 = []) ∧ (x ≤ t.1 ∨ l2 = []) := by
  induction l with
  | nil => simp at hl
  | cons p l ih =>
    match l, hl with
    | [t], _ => exact ⟨[], p, t, [], rfl, .inr rfl, .inr rfl⟩
    | t :: u :: l, _ =>
      rcases le_total x t.1 with h | h
      · exact ⟨[], p, t, u :: l, rfl, .inr rfl, .inl h⟩
      · obtain ⟨l1, r, t', l2, e, h1, h2⟩ := ih hs.of_cons (by simp)
        refine ⟨p :: l1, r, t', l2, by rw [e]; rfl, ?_, h2⟩
        rcases h1 with h1 | rfl
        · exact .inl h1
        · simp only [List.nil_append, List.cons.injEq] at e
          exact .inl (e.1 ▸ h)

/-- **C53**: the interpolation exists for every list of at least two points with increasing
abscissae, and takes the value `y0` at the origin. -/
theorem C53_origin (l : List (K × K)) (hs : Sorted l) (hl : 2 ≤ l.length) (y0 : K) :
    ∃ k, coeffs (l.map (·.1)) (l.map (·.2)) y0 = some k ∧ eval k (l.map (·.1)) 0 = y0 := by
  obtain ⟨k, h, e⟩ := eval_eq l hs hl y0
  exact ⟨k, h, by rw [e]; ring⟩

theorem eval_exact {l : List (K × K)} (hs : Sorted l) (hl : 2 ≤ l.length) {y0 : K}
    (h0 : ((0 : K), y0) ∈ l) {k : Coeffs K}
    (hk : coeffs (l.map (·.1)) (l.map (·.2)) y0 = some k) (x : K) :
    eval k (l.map (·.1)) x = poly l x := by
  obtain ⟨k', h, e⟩ := eval_eq l hs hl y0
  rw [hk] at h
  cases h
  rw [e, poly_point hs hl h0]
  ring

/-- **C53**: if the data contains the origin, the interpolation takes the given values at the
given abscissae, -/
theorem C53_points (l : List (K × K)) (hs : Sorted l) (hl : 2 ≤ l.length) (y0 : K)
    (h0 : ((0 : K), y0) ∈ l) (k : Coeffs K)
    (hk : coeffs (l.map (·.1)) (l.map (·.2)) y0 = some k) :
    ∀ p ∈ l, eval k (l.map (·.1)) p.1 = p.2 := fun p hp => by
  rw [eval_exact hs hl h0 hk, poly_point hs hl hp]

/-- is a straight line between two successive points, -/
theorem C53_segments (l1 l2 : List (K × K)) (r t : K × K) (hs : Sorted (l1 ++ r :: t :: l2)) (y0 : K)
    (h0 : ((0 : K), y0) ∈ l1 ++ r :: t :: l2) (k : Coeffs K)
    (hk : coeffs ((l1 ++ r :: t :: l2).map (·.1)) ((l1 ++ r :: t :: l2).map (·.2)) y0 = some k)
    (x : K) (h1 : r.1 ≤ x) (h2 : x ≤ t.1) :
    eval k ((l1 ++ r :: t :: l2).map (·.1)) x =
      r.2 + (t.2 - r.2) / (t.1 - r.1) * (x - r.1) := by
  rw [eval_exact hs (by simp; omega) h0 hk, poly_segment l1 l2 r t hs x (.inl h1) (.inl h2)]
  rfl

/-- and continues with the slopes of the first and of the last segment. -/
theorem C53_ends (l1 l2 : List (K × K)) (r t : K × K) (hs : Sorted (l1 ++ r :: t :: l2)) (y0 : K)
    (h0 : ((0 : K), y0) ∈ l1 ++ r :: t :: l2) (k : Coeffs K)
    (hk : coeffs ((l1 ++ r :: t :: l2).map (·.1)) ((l1 ++ r :: t :: l2).map (·.2)) y0 = some k)
    (x : K) :
    (l1 = [] → x ≤ r.1 → eval k ((l1 ++ r :: t :: l2).map (·.1)) x =
      r.2 + (t.2 - r.2) / (t.1 - r.1) * (x - r.1)) ∧
    (l2 = [] → t.1 ≤ x → eval k ((l1 ++ r :: t :: l2).map (·.1)) x =
      t.2 + (t.2 - r.2) / (t.1 - r.1) * (x - t.1)) := by
  have hlt := seg_lt hs
  rw [eval_exact hs (by simp; omega) h0 hk]
  constructor
  · intro h h1
    rw [poly_segment l1 l2 r t hs x (.inr h) (.inl (h1.trans hlt.le))]; rfl
  · intro h h1
    rw [poly_segment l1 l2 r t hs x (.inl (hlt.le.trans h1)) (.inr h), line_eq _ _ _ hlt]

/-- The hypotheses can be met: three points around the origin. -/
example : Sorted [((-1 : ℚ), (-2 : ℚ)), (0, 0), (2, 1)] ∧
    ((0 : ℚ), (0 : ℚ)) ∈ [((-1 : ℚ), (-2 : ℚ)), (0, 0), (2, 1)] ∧
    (coeffs [(-1 : ℚ), 0, 2] [-2, 0, 1] 0).isSome ∧ DissOK [(-1 : ℚ), 0, 2] [-2, 0, 1] := by
  decide +kernel

/-- Without the origin in the data, the values at the given points are not the given ones. -/
theorem C53_origin_needed : ∃ k, coeffs [(1 : ℚ), 2] [3, 4] 0 = some k ∧
    DissOK [(1 : ℚ), 2] [3, 4] ∧ eval k [(1 : ℚ), 2] 1 = 1 :=
  ⟨_, rfl, by decide +kernel, by decide +kernel⟩

/-! ### Monotonicity, passivity of the dissipative component -/

theorem line_lt {r t : K × K} (h : r.1 < t.1) (hv : r.2 < t.2) {x y : K} (hxy : x < y) :
    line r t x < line r t y := by
  have : 0 < (t.2 - r.2) / (t.1 - r.1) := div_pos (by linarith) (by linarith)
  unfold line
  nlinarith [mul_pos this (sub_pos.2 hxy)]

theorem poly_strictMono {l : List (K × K)} (hs : Sorted l) (hl : 2 ≤ l.length)
    (hv : (l.map (·.2)).Pairwise (· < ·)) : StrictMono (poly l) := by
  induction l with
  | nil => simp at hl
  | cons p l ih =>
    match l, hl with
    | [t], _ =>
      intro x y hxy
      refine line_lt ?_ ?_ hxy
      · simp only [Sorted, List.pairwise_cons, List.mem_cons] at hs; exact hs.1 t (.inl rfl)
      · simp only [List.map_cons, List.pairwise_cons, List.mem_cons] at hv; exact hv.1 t.2 (.inl rfl)
    | t :: u :: l, _ =>
      have hpt : p.1 < t.1 := by
        simp only [Sorted, List.pairwise_cons, List.mem_cons] at hs; exact hs.1 t (.inl rfl)
      have hvt : p.2 < t.2 := by
        simp only [List.map_cons, List.pairwise_cons, List.mem_cons] at hv; exact hv.1 t.2 (.inl rfl)
      have ih := ih hs.of_cons (by simp) (by simpa using (hv.of_cons))
      have ht : poly (t :: u :: l) t.1 = t.2 := poly_point hs.of_cons (by simp) (by simp)
      have htl : line p t t.1 = t.2 := by rw [line_eq _ _ _ hpt]; simp
      intro x y hxy
      rw [poly, poly]
      split <;> split
      · exact line_lt hpt hvt hxy
      · rename_i h1 h2
        calc line p t x ≤ line p t t.1 := by
              rcases eq_or_lt_of_le h1 with h | h
              · rw [h]
              · exact (line_lt hpt hvt h).le
          _ = poly (t :: u :: l) t.1 := by rw [htl, ht]
          _ < _ := ih (by push Not at h2; exact h2)
      · rename_i h1 h2
        exact absurd (hxy.le.trans h2) h1
      · exact ih hxy

theorem pairwise_of_diff (l : List K) (h : ∀ d ∈ diff l, 0 < d) : l.Pairwise (· < ·) := by
  rw [← List.isChain_iff_pairwise]
  induction l with
  | nil => exact List.IsChain.nil
  | cons a l ih =>
    cases l with
    | nil => exact List.IsChain.singleton _
    | cons b l =>
      refine List.isChain_cons_cons.2 ⟨?_, ih fun d hd => h d (by simp [diff, hd])⟩
      have := h (b - a) (by simp [diff])
      linarith

/-- **C53**: the interpolation of strictly increasing values is strictly increasing, whether or
not the origin is a data point. -/
theorem C53_monotone (l : List (K × K)) (hs : Sorted l) (hl : 2 ≤ l.length) (y0 : K) (k : Coeffs K)
    (hk : coeffs (l.map (·.1)) (l.map (·.2)) y0 = some k)
    (hv : (l.map (·.2)).Pairwise (· < ·)) : StrictMono (eval k (l.map (·.1))) := by
  obtain ⟨k', h, e⟩ := eval_eq l hs hl y0
  rw [hk] at h
  cases h
  intro x y hxy
  rw [e, e]
  have := poly_strictMono hs hl hv hxy
  linarith

/-- **C53**: a dissipative component that passes the assertions on its data, given with
increasing abscissae, is passive: `w z(w) ≥ 0` for every `w`, with equality only at zero. -/
theorem C53_dissipative_passive (l : List (K × K)) (hs : Sorted l) (hl : 2 ≤ l.length)
    (hok : DissOK (l.map (·.1)) (l.map (·.2))) (k : Coeffs K)
    (hk : coeffs (l.map (·.1)) (l.map (·.2)) 0 = some k) (w : K) :
    0 ≤ w * eval k (l.map (·.1)) w ∧ (w * eval k (l.map (·.1)) w = 0 ↔ w = 0) := by
  have hm := C53_monotone l hs hl 0 k hk (pairwise_of_diff _ hok.2.2.2)
  obtain ⟨k', h, e⟩ := C53_origin l hs hl (0 : K)
  rw [hk] at h
  cases h
  rcases lt_trichotomy w 0 with h | rfl | h
  · have := hm h
    rw [e] at this
    have := mul_pos_of_neg_of_neg h this
    exact ⟨this.le, by constructor <;> intro h' <;> linarith⟩
  · simp
  · have := hm h
    rw [e] at this
    have := mul_pos h this
    exact ⟨this.le, by constructor <;> intro h' <;> linarith⟩

/-- The component does not check that the abscissae increase: data accepted by the assertions
may give a component that delivers power. -/
theorem C53_unsorted_active : ∃ k, coeffs [(0 : ℚ), 2, 1] [0, 1, 2] 0 = some k ∧
    DissOK [(0 : ℚ), 2, 1] [0, 1, 2] ∧ 5 * eval k [(0 : ℚ), 2, 1] 5 < 0 :=
  ⟨_, rfl, by decide +kernel, by decide +kernel⟩

/-! ### Storage component given by its energy -/

theorem line_nonneg {r t : K × K} (h : r.1 < t.1) {x : K} (h1 : r.1 ≤ x) (h2 : x ≤ t.1)
    (hr : 0 ≤ r.2) (ht : 0 ≤ t.2) : 0 ≤ line r t x := by
  have e : line r t x = (r.2 * (t.1 - x) + t.2 * (x - r.1)) / (t.1 - r.1) := by
    unfold line
    have : t.1 - r.1 ≠ 0 := by linarith
    field_simp
    ring
  rw [e]
  exact div_nonneg (add_nonneg (mul_nonneg hr (by linarith)) (mul_nonneg ht (by linarith)))
    (by linarith)

theorem storOK_origin {integ : Bool} {l : List (K × K)}
    (h : StorOK integ (l.map (·.1)) (l.map (·.2))) : ((0 : K), (0 : K)) ∈ l := by
  have e : (l.map (·.1)).zip (l.map (·.2)) = l := by
    rw [List.zip_map']; simp
  obtain ⟨p, hp, h0⟩ := h.2.2
  rw [e] at hp
  have : p ∈ l.filter (fun p => p.1 = 0) := by rw [hp]; simp
  rw [List.mem_filter] at this
  have h1 : p = (0, 0) := by
    ext
    · simpa using this.2
    · exact h0
  exact h1 ▸ this.1

/-- The segment containing a point of the range of the data. -/
theorem exists_inner_seg {l : List (K × K)} (hs : Sorted l) (hl : 2 ≤ l.length) {x : K} {a b : K × K}
    (ha : a ∈ l) (hb : b ∈ l) (hax : a.1 ≤ x) (hxb : x ≤ b.1) :
    ∃ l1 r t l2, l = l1 ++ r :: t :: l2 ∧ r.1 ≤ x ∧ x ≤ t.1 := by
  obtain ⟨l1, r, t, l2, rfl, h1, h2⟩ := exists_seg hs hl x
  refine ⟨l1, r, t, l2, rfl, ?_, ?_⟩
  · rcases h1 with h1 | rfl
    · exact h1
    · refine le_trans ?_ hax
      simp only [List.nil_append, List.mem_cons] at ha
      simp only [Sorted, List.nil_append, List.pairwise_cons, List.mem_cons] at hs
      rcases ha with rfl | ha
      · exact le_rfl
      · exact (hs.1 a ha).le
  · rcases h2 with h2 | rfl
    · exact h2
    · refine le_trans hxb ?_
      have hlt := seg_lt hs
      rw [show l1 ++ [r, t] = (l1 ++ [r]) ++ [t] by simp] at hs hb
      have := (List.pairwise_append.1 hs).2.2
      rcases List.mem_append.1 hb with hb | hb
      · exact (this b hb t (by simp)).le
      · simp only [List.mem_singleton] at hb
        rw [hb]

/-- **C53**: a storage component given by values of its energy that pass the assertions has a
nonnegative energy on the range of the data. -/
theorem C53_storage_energy (l : List (K × K)) (hs : Sorted l) (hl : 2 ≤ l.length)
    (hok : StorOK false (l.map (·.1)) (l.map (·.2))) (k : Coeffs K)
    (hk : coeffs (l.map (·.1)) (l.map (·.2)) 0 = some k) (a b : K × K) (ha : a ∈ l) (hb : b ∈ l)
    (x : K) (hax : a.1 ≤ x) (hxb : x ≤ b.1) : 0 ≤ eval k (l.map (·.1)) x := by
  have e : (l.map (·.1)).zip (l.map (·.2)) = l := by rw [List.zip_map']; simp
  have hpos : ∀ p ∈ l, 0 ≤ p.2 := by
    intro p hp
    rcases lt_or_ge p.1 0 with h | h
    · simpa using hok.2.1 p (by rw [e]; exact hp) h
    · exact hok.1 p (by rw [e]; exact hp) h
  rw [eval_exact hs hl (storOK_origin hok) hk]
  obtain ⟨l1, r, t, l2, rfl, h1, h2⟩ := exists_inner_seg hs hl ha hb hax hxb
  rw [poly_segment l1 l2 r t hs x (.inl h1) (.inl h2)]
  exact line_nonneg (seg_lt hs) h1 h2 (hpos r (by simp)) (hpos t (by simp))

/-- Beyond the last point the energy may be negative, although the data passes the assertions. -/
theorem C53_storage_extrapolation : ∃ k, coeffs [(-1 : ℚ), 0, 1, 2] [1, 0, 2, 1] 0 = some k ∧
    StorOK false [(-1 : ℚ), 0, 1, 2] [1, 0, 2, 1] ∧ eval k [(-1 : ℚ), 0, 1, 2] 4 < 0 := by
  refine ⟨_, rfl, ?_, by decide +kernel⟩
  refine ⟨by decide +kernel, by decide +kernel, (0, 0), by decide +kernel, rfl⟩

end field

/-! ### Integrated data -/

theorem hasDerivAt_abs_mul (c a x : ℝ) :
    HasDerivAt (fun x => c * (1 / 2) * |x - a| * (x - a)) (c * |x - a|) x := by
  have key : ∀ y : ℝ, HasDerivAt (fun y : ℝ => |y| * y) (2 * |y|) y := by
    intro y
    rcases lt_trichotomy y 0 with h | h | h
    · have h1 : HasDerivAt (fun y : ℝ => -(y * y)) (2 * |y|) y := by
        refine ((hasDerivAt_id y).mul (hasDerivAt_id y)).neg.congr_deriv ?_
        simp [abs_of_neg h]; ring
      refine h1.congr_of_eventuallyEq ?_
      filter_upwards [Iio_mem_nhds h] with z hz
      rw [abs_of_neg hz]; ring
    · subst h
      have hz : (2 * |(0 : ℝ)|) = 0 := by simp
      rw [hz, hasDerivAt_iff_tendsto_slope_zero]
      have : (fun t : ℝ => t⁻¹ • (|0 + t| * (0 + t) - |(0 : ℝ)| * 0)) =ᶠ[nhdsWithin 0 {0}ᶜ]
          fun t => |t| := by
        filter_upwards [self_mem_nhdsWithin] with t ht
        have : t ≠ 0 := ht
        simp only [zero_add, smul_eq_mul, mul_zero, sub_zero]
        field_simp
      refine Filter.Tendsto.congr' this.symm ?_
      have h0 : Filter.Tendsto (fun t : ℝ => |t|) (nhds 0) (nhds 0) := by
        have := (continuous_abs (G := ℝ)).tendsto 0
        simpa using this
      exact h0.mono_left nhdsWithin_le_nhds
    · have h1 : HasDerivAt (fun y : ℝ => y * y) (2 * |y|) y := by
        refine ((hasDerivAt_id y).mul (hasDerivAt_id y)).congr_deriv ?_
        simp [abs_of_pos h]; ring
      refine h1.congr_of_eventuallyEq ?_
      filter_upwards [Ioi_mem_nhds h] with z hz
      rw [abs_of_pos hz]
  have h := ((key (x - a)).comp x ((hasDerivAt_id x).sub_const a)).const_mul (c * (1 / 2))
  have e : (fun x => c * (1 / 2) * |x - a| * (x - a)) =
      fun x => c * (1 / 2) * ((fun y : ℝ => |y| * y) ∘ fun x => id x - a) x := by
    funext x
    simp [mul_assoc]
  rw [e]
  refine h.congr_deriv ?_
  ring

theorem hasDerivAt_sum (c X : List ℝ) (x : ℝ) :
    HasDerivAt (fun x => (List.zipWith (fun c xi => c * (1 / 2) * |x - xi| * (x - xi)) c X).sum)
      ((List.zipWith (fun c xi => c * |x - xi|) c X).sum) x := by
  induction c generalizing X with
  | nil => simpa using hasDerivAt_const x (0 : ℝ)
  | cons a c ih =>
    cases X with
    | nil => simpa using hasDerivAt_const x (0 : ℝ)
    | cons b X =>
      simp only [List.zipWith_cons_cons, List.sum_cons]
      exact (hasDerivAt_abs_mul a b x).add (ih X)

/-- **C53**: the integrated form is the integral of the interpolation with the given value at
the origin, for all coefficients. -/
theorem C53_integral (k : Coeffs ℝ) (X : List ℝ) (ic : ℝ) :
    evalInteg k X ic 0 = ic ∧ ∀ x, HasDerivAt (evalInteg k X ic) (eval k X x) x := by
  constructor
  · unfold evalInteg
    have : ∀ c X : List ℝ, (List.zipWith (fun c xi => c * (1 / 2) * |(0 : ℝ) - xi| * (0 - xi)) c X).sum +
        (List.zipWith (fun c xi => c * (1 / 2) * |xi| * xi) c X).sum = 0 := by
      intro c
      induction c with
      | nil => simp
      | cons a c ih =>
        intro X
        cases X with
        | nil => simp
        | cons b X =>
          have := ih X
          simp only [List.zipWith_cons_cons, List.sum_cons, zero_sub, abs_neg] at this ⊢
          linarith
    have := this k.c X
    rw [mul_zero, add_zero]
    linarith
  · intro x
    unfold evalInteg eval
    have h1 := ((hasDerivAt_id x).const_mul k.a).const_add ic
    have h2 := ((hasDerivAt_id x).pow 2).const_mul (k.b / 2)
    have h := ((h1.add h2).add (hasDerivAt_sum k.c X x)).add_const
      (List.zipWith (fun c xi => c * (1 / 2) * |xi| * xi) k.c X).sum
    refine (HasDerivAt.congr_of_eventuallyEq h (Filter.Eventually.of_forall fun y => ?_)).congr_deriv ?_
    · simp
    · simp; ring

/-- **C53**: a storage component given by values of the derivative of its energy that pass the
assertions has, on the range of the data, the interpolation as law and a nonnegative energy. -/
theorem C53_storage_integrated (l : List (ℝ × ℝ)) (hs : Sorted l) (hl : 2 ≤ l.length)
    (hok : StorOK true (l.map (·.1)) (l.map (·.2))) (k : Coeffs ℝ)
    (hk : coeffs (l.map (·.1)) (l.map (·.2)) 0 = some k) (a b : ℝ × ℝ) (ha : a ∈ l) (hb : b ∈ l)
    (x : ℝ) (hax : a.1 ≤ x) (hxb : x ≤ b.1) : 0 ≤ evalInteg k (l.map (·.1)) 0 x := by
  have e : (l.map (·.1)).zip (l.map (·.2)) = l := by rw [List.zip_map']; simp
  have h00 := storOK_origin hok
  obtain ⟨i0, id⟩ := C53_integral k (l.map (·.1)) 0
  have hlaw := eval_exact hs hl h00 hk
  -- sign of the law
  have hp : ∀ y, 0 ≤ y → y ≤ b.1 → 0 ≤ eval k (l.map (·.1)) y := by
    intro y h0 h1
    rw [hlaw]
    obtain ⟨l1, r, t, l2, he, g1, g2⟩ := exists_inner_seg hs hl h00 hb h0 h1
    subst he
    rw [poly_segment l1 l2 r t hs y (.inl g1) (.inl g2)]
    have ht := hok.1 t (by rw [e]; simp) (h0.trans g2)
    rcases lt_or_ge r.1 0 with h | h
    · -- the origin is the end of the segment
      have : t = (0, 0) := by
        have hmem := h00
        have hsr := hs
        rcases List.mem_append.1 hmem with hm | hm
        · have := (List.pairwise_append.1 hsr).2.2 _ hm r (by simp)
          exact absurd (lt_trans this h) (lt_irrefl _)
        · rcases List.mem_cons.1 hm with hm | hm
          · rw [← hm] at h; exact absurd h (lt_irrefl _)
          · rcases List.mem_cons.1 hm with hm | hm
            · exact hm.symm
            · have := sorted_append hsr
              simp only [Sorted, List.pairwise_cons] at this
              have := this.2.1 _ hm
              exact absurd (lt_of_lt_of_le this (h0.trans g2)) (lt_irrefl _)
      subst this
      have : y = 0 := le_antisymm g2 h0
      subst this
      rw [line_eq _ _ _ (seg_lt hs)]
      simp
    · exact line_nonneg (seg_lt hs) g1 g2 (hok.1 r (by rw [e]; simp) h) ht
  have hn : ∀ y, y ≤ 0 → a.1 ≤ y → eval k (l.map (·.1)) y ≤ 0 := by
    intro y h0 h1
    rw [hlaw]
    obtain ⟨l1, r, t, l2, he, g1, g2⟩ := exists_inner_seg hs hl ha h00 h1 h0
    subst he
    rw [poly_segment l1 l2 r t hs y (.inl g1) (.inl g2)]
    have hneg : ∀ p ∈ l1 ++ r :: t :: l2, p.1 ≤ 0 → p.2 ≤ 0 := by
      intro p hp hp0
      rcases eq_or_lt_of_le hp0 with h | h
      · have h1 := poly_point hs hl hp
        have h2 := poly_point hs hl h00
        rw [h] at h1
        simp only at h2
        rw [← h1, h2]
      · have := hok.2.1 p (by rw [e]; exact hp) h
        simp only [if_true] at this
        exact this.le
    have key : ∀ (r t : ℝ × ℝ), r.1 < t.1 → r.1 ≤ y → y ≤ t.1 → r.2 ≤ 0 → t.2 ≤ 0 → line r t y ≤ 0 := by
      intro r t h g1 g2 hr ht
      have := line_nonneg (r := (r.1, -r.2)) (t := (t.1, -t.2)) h g1 g2 (by simpa using hr)
        (by simpa using ht)
      have e : line (r.1, -r.2) (t.1, -t.2) y = - line r t y := by
        unfold line; simp only; ring
      linarith
    rcases lt_or_ge 0 t.1 with h | h
    · have : r = (0, 0) := by
        have hsr := hs
        rcases List.mem_append.1 h00 with hm | hm
        · have := (List.pairwise_append.1 hsr).2.2 _ hm r (by simp)
          exact absurd (lt_of_lt_of_le this (g1.trans h0)) (lt_irrefl _)
        · rcases List.mem_cons.1 hm with hm | hm
          · exact hm.symm
          · rcases List.mem_cons.1 hm with hm | hm
            · rw [← hm] at h; exact absurd h (lt_irrefl _)
            · have := sorted_append hsr
              simp only [Sorted, List.pairwise_cons] at this
              have := this.2.1 _ hm
              exact absurd (lt_trans this h) (lt_irrefl _)
      subst this
      have : y = 0 := le_antisymm h0 g1
      subst this
      simp [line]
    · exact key r t (seg_lt hs) g1 g2
        (hneg r (by simp) ((seg_lt hs).le.trans h)) (hneg t (by simp) h)
  refine i0.symm.le.trans ?_
  rcases le_total 0 x with hx | hx
  · refine monotoneOn_of_deriv_nonneg (convex_Icc 0 x)
      (fun y _ => (id y).continuousAt.continuousWithinAt)
      (fun y _ => (id y).differentiableAt.differentiableWithinAt) (fun y hy => ?_)
      (Set.left_mem_Icc.2 hx) (Set.right_mem_Icc.2 hx) hx
    rw [(id y).deriv]
    have := interior_subset hy
    exact hp y this.1 (this.2.trans hxb)
  · refine antitoneOn_of_deriv_nonpos (convex_Icc x 0)
      (fun y _ => (id y).continuousAt.continuousWithinAt)
      (fun y _ => (id y).differentiableAt.differentiableWithinAt) (fun y hy => ?_)
      (Set.left_mem_Icc.2 hx) (Set.right_mem_Icc.2 hx) hx
    rw [(id y).deriv]
    have := interior_subset hy
    exact hn y this.2 (hax.trans this.1)

/-- The hypotheses on the data can be met. -/
example : StorOK true [(-1 : ℚ), 0, 2] [-1, 0, 3] ∧ StorOK false [(-1 : ℚ), 0, 2] [1, 0, 3] := by
  refine ⟨⟨by decide +kernel, by decide +kernel, (0, 0), by decide +kernel, rfl⟩,
    ⟨by decide +kernel, by decide +kernel, (0, 0), by decide +kernel, rfl⟩⟩

end Pwl
end Pyphs
