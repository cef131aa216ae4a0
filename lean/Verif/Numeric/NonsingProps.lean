/-
Property C67: the Jacobians of the discrete equations of a passive system with monotone laws are
nonsingular.
-/
import Verif.Numeric.Total

namespace Pyphs
namespace Numeric
open Scheme Mat Finset

/-- Unknown of row `r` of the discrete equations. -/
def vn (m : Meth) (r : ℕ) : String :=
  if r < m.g.x.length then dn (m.g.x.getD r "") else m.w.getD (r - m.g.x.length) ""

/-- Law (component of the discrete gradient, or law of dissipation) of row `r`. -/
def fn (m : Meth) (r : ℕ) : Sc :=
  if r < m.g.x.length then m.dxH.getD r (fun _ => 0) else m.z.getD (r - m.g.x.length) fun _ => 0

/-- Factor of the unknown in row `r`. -/
noncomputable def sc (m : Meth) (r : ℕ) : ℝ := if r < m.g.x.length then m.fs else 1

/-- Number of equations. -/
def sz (m : Meth) : ℕ := m.g.x.length + m.w.length

/-- A system whose structure creates no power and whose laws are monotone. -/
structure MonotoneSys (m : Meth) : Prop where
  /-- The structure matrix does not depend on the unknowns; inputs are no unknowns. -/
  Mfree : ∀ k ∈ m.v .all, ∀ e t i j, (m.M (Function.update e k t)).e i j = (m.M e).e i j
  inp : ∀ k ∈ m.v .all, k ∉ m.u
  /-- The structure creates no power. -/
  diss : ∀ e (a : ℕ → ℝ), ∑ i ∈ range (sz m), a i * ∑ j ∈ range (sz m), (m.M e).e i j * a j ≤ 0
  /-- Laws are differentiable functions of the unknowns. -/
  diff : ∀ j < sz m, ∀ k ∈ m.v .all, CDiff (fn m j) k
  /-- The laws of the nonlinear part do not depend on the unknowns of the linear part. -/
  coupl : ∀ e, ∀ i < (m.v .nl).length, ∀ k ∈ m.v .l, pdiff (fn m (m.row .nl i e)) k e = 0
  /-- The Jacobian `D` of the laws: the product of the scaled increment `v` with `D v` is not negative,
  and vanishes only with `D v`. -/
  mono : ∀ e (v : ℕ → ℝ),
    ∑ j ∈ range (sz m), sc m j * v j * ∑ i ∈ range (sz m), pdiff (fn m j) (vn m i) e * v i ≤ 0 →
    ∀ j < sz m, ∑ i ∈ range (sz m), pdiff (fn m j) (vn m i) e * v i = 0

theorem v_all_getD (m : Meth) (r : ℕ) : (m.v .all).getD r "" = vn m r := by
  unfold vn
  simp only [Meth.v, Sfx.pick]
  split_ifs with h
  · rw [List.getD_eq_getElem?_getD, List.getElem?_append_left (by simpa using h),
      List.getD_eq_getElem?_getD]
    simp [h]
  · rw [List.getD_eq_getElem?_getD, List.getElem?_append_right (by simpa using h),
      List.getD_eq_getElem?_getD]
    simp

theorem v_all_length (m : Meth) : (m.v .all).length = sz m := by
  simp [Meth.v, Sfx.pick, sz]

theorem vn_mem {m : Meth} {r : ℕ} (h : r < sz m) : vn m r ∈ m.v .all := by
  rw [← v_all_getD]; exact getD_mem (by rw [v_all_length]; exact h)

theorem vn_inj {m : Meth} (hs : SplitOK m) {r c : ℕ} (hr : r < sz m) (hc : c < sz m)
    (h : vn m r = vn m c) : r = c := by
  rw [← v_all_getD, ← v_all_getD] at h
  rw [← v_all_length] at hr hc
  rw [← idxOf_getD hs.nodup hr, ← idxOf_getD hs.nodup hc, h]

/-- The residuals in terms of rows. -/
theorem res_fn (m : Meth) (r : ℕ) (e : Env ℝ) :
    m.res r e = sc m r * e (vn m r) - ∑ j ∈ range (sz m), (m.M e).e r j * fn m j e
      - ∑ k ∈ range m.y.length, (m.M e).e r (m.g.x.length + m.w.length + k) * svals m.u e k := by
  unfold Meth.res sz
  rw [sum_range_add]
  congr 2
  · unfold sc vn
    split_ifs <;> simp
  · congr 1
    · refine sum_congr rfl fun j hj => ?_
      unfold fn vals
      rw [if_pos (mem_range.1 hj)]
    · refine sum_congr rfl fun j hj => ?_
      unfold fn vals
      rw [if_neg (by omega), Nat.add_sub_cancel_left]

/-- The residuals along one unknown. -/
theorem res_update {m : Meth} (hw : MethWF m) (hs : SplitOK m) (h : MonotoneSys m) {r c : ℕ}
    (hr : r < sz m) (hc : c < sz m) (e : Env ℝ) (t : ℝ) : m.res r (Function.update e (vn m c) t) =
      sc m r * (if r = c then t else e (vn m r)) -
      ∑ j ∈ range (sz m), (m.M e).e r j * fn m j (Function.update e (vn m c) t) -
      ∑ k ∈ range m.y.length, (m.M e).e r (m.g.x.length + m.w.length + k) * svals m.u e k := by
  have hk := vn_mem hc
  rw [res_fn]
  simp only [h.Mfree _ hk]
  congr 1
  · congr 2
    split_ifs with hh
    · rw [hh, Function.update_self]
    · rw [Function.update_of_ne fun h' => hh (vn_inj hs hr hc h')]
  · refine sum_congr rfl fun k hk' => ?_
    congr 1
    unfold svals
    rw [Function.update_of_ne]
    intro h'
    refine h.inp _ hk (h' ▸ getD_mem ?_)
    rw [hw.uy]; exact mem_range.1 hk'

/-- The residuals are differentiable. -/
theorem res_cdiff {m : Meth} (hw : MethWF m) (hs : SplitOK m) (h : MonotoneSys m) {r c : ℕ}
    (hr : r < sz m) (hc : c < sz m) : CDiff (m.res r) (vn m c) := by
  intro e
  rw [funext (res_update hw hs h hr hc e)]
  refine Differentiable.sub_const (Differentiable.sub ?_ ?_) _
  · by_cases hh : r = c
    · simp only [if_pos hh]
      exact differentiable_id.const_mul _
    · simp only [if_neg hh]
      exact differentiable_const _
  · exact Differentiable.fun_sum fun j hj => (h.diff j (mem_range.1 hj) _ (vn_mem hc) e).const_mul _

/-- The derivatives of the residuals. -/
theorem res_pdiff {m : Meth} (hw : MethWF m) (hs : SplitOK m) (h : MonotoneSys m) {r c : ℕ}
    (hr : r < sz m) (hc : c < sz m) (e : Env ℝ) :
    pdiff (m.res r) (vn m c) e = (if r = c then sc m r else 0) -
      ∑ j ∈ range (sz m), (m.M e).e r j * pdiff (fn m j) (vn m c) e := by
  have hk := vn_mem hc
  have e1 := res_update hw hs h hr hc e
  unfold pdiff
  rw [funext e1]
  refine HasDerivAt.deriv ?_
  refine HasDerivAt.sub_const _ (HasDerivAt.sub ?_ ?_)
  · by_cases hh : r = c
    · simp only [if_pos hh]
      simpa using (hasDerivAt_id (e (vn m c))).const_mul (sc m r)
    · simp only [if_neg hh]
      exact hasDerivAt_const _ _
  · refine HasDerivAt.fun_sum fun j hj => HasDerivAt.const_mul _ ?_
    exact ((h.diff j (mem_range.1 hj) _ hk e) _).hasDerivAt

/-! ### Rows of the linear and nonlinear parts -/

theorem row_l (m : Meth) (i : ℕ) (e : Env ℝ) : m.row .l i e =
    if i < m.g.xl.length then i else m.g.x.length + (i - m.g.xl.length) := by
  have hx := xl_le m
  have : m.row .l i e = if i < m.g.xl.length then 0 + i
    else m.g.xl.length + (m.g.x.length - m.g.xl.length) + (i - m.g.xl.length) := rfl
  rw [this]
  split_ifs <;> omega

theorem row_nl (m : Meth) (i : ℕ) (e : Env ℝ) : m.row .nl i e =
    if i < m.g.x.length - m.g.xl.length then m.g.xl.length + i
    else m.g.x.length + m.wl + (i - (m.g.x.length - m.g.xl.length)) := by
  have hx := xl_le m
  have : m.row .nl i e = if i < m.g.x.length - m.g.xl.length then m.g.xl.length + i
    else m.g.xl.length + (m.g.x.length - m.g.xl.length) + m.wl +
      (i - (m.g.x.length - m.g.xl.length)) := rfl
  rw [this]
  split_ifs <;> omega

/-- The vector over all rows with the given linear and nonlinear parts. -/
def glue (m : Meth) (φ ψ : ℕ → ℝ) (r : ℕ) : ℝ :=
  if r < m.g.xl.length then φ r
  else if r < m.g.x.length then ψ (r - m.g.xl.length)
  else if r < m.g.x.length + m.wl then φ (m.g.xl.length + (r - m.g.x.length))
  else ψ ((m.g.x.length - m.g.xl.length) + (r - (m.g.x.length + m.wl)))

section
variable {m : Meth} (hw : MethWF m)
include hw

theorem len_l : (m.v .l).length = m.g.xl.length + m.wl := v_length hw (fun _ => 0) .l
theorem len_nl : (m.v .nl).length = (m.g.x.length - m.g.xl.length) + (m.w.length - m.wl) :=
  v_length hw (fun _ => 0) .nl

theorem row_l_lt {i : ℕ} (hi : i < (m.v .l).length) (e : Env ℝ) : m.row .l i e < sz m := by
  have := xl_le m
  have := hw.wl
  rw [len_l hw] at hi
  rw [row_l]
  unfold sz
  split_ifs <;> omega

theorem row_nl_lt {i : ℕ} (hi : i < (m.v .nl).length) (e : Env ℝ) : m.row .nl i e < sz m := by
  have := xl_le m
  have := hw.wl
  rw [len_nl hw] at hi
  rw [row_nl]
  unfold sz
  split_ifs <;> omega

theorem glue_l (φ ψ : ℕ → ℝ) {i : ℕ} (hi : i < (m.v .l).length) (e : Env ℝ) :
    glue m φ ψ (m.row .l i e) = φ i := by
  have := xl_le m
  have := hw.wl
  rw [len_l hw] at hi
  rw [row_l]
  unfold glue
  by_cases h : i < m.g.xl.length
  · simp [h]
  · rw [if_neg h, if_neg (by omega), if_neg (by omega), if_pos (by omega)]
    congr 1; omega

theorem glue_nl (φ ψ : ℕ → ℝ) {i : ℕ} (hi : i < (m.v .nl).length) (e : Env ℝ) :
    glue m φ ψ (m.row .nl i e) = ψ i := by
  have := xl_le m
  have := hw.wl
  rw [len_nl hw] at hi
  rw [row_nl]
  unfold glue
  by_cases h : i < m.g.x.length - m.g.xl.length
  · rw [if_pos h, if_neg (by omega), if_pos (by omega)]
    congr 1; omega
  · rw [if_neg h, if_neg (by omega), if_neg (by omega), if_neg (by omega)]
    congr 1; omega

/-- Every row is a row of one of the parts. -/
theorem row_cases (e : Env ℝ) {r : ℕ} (hr : r < sz m) :
    (∃ i < (m.v .l).length, m.row .l i e = r) ∨ ∃ i < (m.v .nl).length, m.row .nl i e = r := by
  have := xl_le m
  have := hw.wl
  unfold sz at hr
  by_cases c1 : r < m.g.xl.length
  · exact .inl ⟨r, by rw [len_l hw]; omega, by rw [row_l, if_pos c1]⟩
  by_cases c2 : r < m.g.x.length
  · exact .inr ⟨r - m.g.xl.length, by rw [len_nl hw]; omega, by
      rw [row_nl, if_pos (by omega)]; omega⟩
  by_cases c3 : r < m.g.x.length + m.wl
  · exact .inl ⟨m.g.xl.length + (r - m.g.x.length), by rw [len_l hw]; omega, by
      rw [row_l, if_neg (by omega)]; omega⟩
  · exact .inr ⟨(m.g.x.length - m.g.xl.length) + (r - (m.g.x.length + m.wl)), by
      rw [len_nl hw]; omega, by rw [row_nl, if_neg (by omega)]; omega⟩

/-- Sums over the parts. -/
theorem sum_parts (g : ℕ → ℝ) (e : Env ℝ) :
    ∑ i ∈ range (m.v .l).length, g (m.row .l i e) + ∑ i ∈ range (m.v .nl).length, g (m.row .nl i e) =
      ∑ r ∈ range (sz m), g r := by
  have hx := xl_le m
  have hl := hw.wl
  rw [len_l hw, len_nl hw, sum_range_add, sum_range_add]
  unfold sz
  rw [sum_range_add g m.g.x.length,
    sum_range_split g _ _ hx,
    sum_range_split (fun j => g (m.g.x.length + j)) _ _ hl]
  have h1 : ∑ i ∈ range m.g.xl.length, g (m.row .l i e) = ∑ i ∈ range m.g.xl.length, g i :=
    sum_congr rfl fun i hi => by rw [row_l, if_pos (mem_range.1 hi)]
  have h2 : ∑ i ∈ range m.wl, g (m.row .l (m.g.xl.length + i) e) =
      ∑ i ∈ range m.wl, g (m.g.x.length + i) :=
    sum_congr rfl fun i hi => by rw [row_l, if_neg (by omega)]; congr 1; omega
  have h3 : ∑ i ∈ range (m.g.x.length - m.g.xl.length), g (m.row .nl i e) =
      ∑ i ∈ range (m.g.x.length - m.g.xl.length), g (m.g.xl.length + i) :=
    sum_congr rfl fun i hi => by rw [row_nl, if_pos (mem_range.1 hi)]
  have h4 : ∑ i ∈ range (m.w.length - m.wl),
      g (m.row .nl (m.g.x.length - m.g.xl.length + i) e) =
      ∑ i ∈ range (m.w.length - m.wl), g (m.g.x.length + (m.wl + i)) :=
    sum_congr rfl fun i hi => by rw [row_nl, if_neg (by omega)]; congr 1; omega
  rw [h1, h2, h3, h4]
  ring

/-- The unknowns of the parts. -/
theorem v_l_getD {i : ℕ} (hi : i < (m.v .l).length) (e : Env ℝ) :
    (m.v .l).getD i "" = vn m (m.row .l i e) := by
  have := xl_le m
  have hl := hw.wl
  rw [len_l hw] at hi
  rw [row_l]
  unfold vn
  simp only [Meth.v, Sfx.pick]
  by_cases h : i < m.g.xl.length
  · rw [if_pos h, if_pos (by omega), List.getD_eq_getElem?_getD,
      List.getElem?_append_left (by simp; omega), List.getD_eq_getElem?_getD]
    simp [h]
    rw [List.getElem?_eq_getElem (by omega)]
    rfl
  · rw [if_neg h, if_neg (by omega), List.getD_eq_getElem?_getD,
      List.getElem?_append_right (by simp; omega), List.getD_eq_getElem?_getD]
    simp only [List.length_map, List.length_take, Nat.min_eq_left this]
    rw [List.getElem?_take_of_lt (by omega)]
    congr 2; omega

theorem v_nl_getD {i : ℕ} (hi : i < (m.v .nl).length) (e : Env ℝ) :
    (m.v .nl).getD i "" = vn m (m.row .nl i e) := by
  have := xl_le m
  have hl := hw.wl
  rw [len_nl hw] at hi
  rw [row_nl]
  unfold vn
  simp only [Meth.v, Sfx.pick]
  by_cases h : i < m.g.x.length - m.g.xl.length
  · rw [if_pos h, if_pos (by omega), List.getD_eq_getElem?_getD,
      List.getElem?_append_left (by simp; omega), List.getD_eq_getElem?_getD]
    simp
    rw [List.getElem?_eq_getElem (by omega)]
    rfl
  · rw [if_neg h, if_neg (by omega), List.getD_eq_getElem?_getD,
      List.getElem?_append_right (by simp; omega), List.getD_eq_getElem?_getD]
    simp only [List.length_map, List.length_drop]
    rw [List.getElem?_drop]
    congr 2; omega

/-- The product of the Jacobian with a vector. -/
theorem jac_mv (hs : SplitOK m) (h : MonotoneSys m) {a : Sfx} (ha : a ≠ .all) {i : ℕ}
    (hi : i < (m.v a).length) (e : Env ℝ) (hr : m.row a i e < sz m) (φ ψ : ℕ → ℝ) :
    (m.J a .l e).mv φ i + (m.JG a .nl e).mv ψ i =
      sc m (m.row a i e) * glue m φ ψ (m.row a i e) - ∑ j ∈ range (sz m),
        (m.M e).e (m.row a i e) j *
          ∑ c ∈ range (sz m), pdiff (fn m j) (vn m c) e * glue m φ ψ c := by
  have hF : m.F a i = m.res (m.row a i e) := funext fun e' => F_eq_res hw e' a hi
  have h1 : (m.J a .l e).mv φ i = ∑ k ∈ range (m.v .l).length,
      pdiff (m.res (m.row a i e)) (vn m (m.row .l k e)) e * glue m φ ψ (m.row .l k e) := by
    unfold mv
    refine sum_congr rfl fun k hk => ?_
    have hk' : k < (m.v .l).length := mem_range.1 hk
    rw [glue_l hw _ _ hk', ← v_l_getD hw hk', ← hF]
    rfl
  have h2 : (m.JG a .nl e).mv ψ i = ∑ k ∈ range (m.v .nl).length,
      pdiff (m.res (m.row a i e)) (vn m (m.row .nl k e)) e * glue m φ ψ (m.row .nl k e) := by
    unfold mv
    refine sum_congr rfl fun k hk => ?_
    have hk' : k < (m.v .nl).length := mem_range.1 hk
    rw [glue_nl hw _ _ hk', ← v_nl_getD hw hk', ← hF]
    congr 1
    show pdiff (m.G a i) ((m.v .nl).getD k "") e = _
    unfold pdiff
    simp only [G_update hs ha hi (getD_mem hk')]
    rw [deriv_sub_const]
  rw [h1, h2, sum_parts hw (fun c => pdiff (m.res (m.row a i e)) (vn m c) e * glue m φ ψ c) e]
  have h3 : ∀ c ∈ range (sz m), pdiff (m.res (m.row a i e)) (vn m c) e * glue m φ ψ c =
      (if c = m.row a i e then sc m (m.row a i e) * glue m φ ψ c else 0) -
      ∑ j ∈ range (sz m), (m.M e).e (m.row a i e) j * (pdiff (fn m j) (vn m c) e * glue m φ ψ c) := by
    intro c hc
    rw [res_pdiff hw hs h hr (mem_range.1 hc), sub_mul, sum_mul]
    congr 1
    · by_cases hh : m.row a i e = c
      · rw [if_pos hh, if_pos hh.symm]
      · rw [if_neg hh, if_neg (Ne.symm hh), zero_mul]
    · exact sum_congr rfl fun j _ => by ring
  rw [sum_congr rfl h3, sum_sub_distrib, sum_ite_eq' , if_pos (mem_range.2 hr), sum_comm]
  congr 1
  exact sum_congr rfl fun j _ => by rw [mul_sum]

/-- **C67**: the Jacobians of a passive system with monotone laws are nonsingular. -/
theorem C67_nonsing (hs : SplitOK m) (h : MonotoneSys m) (hfs : 0 < m.fs) : Nonsing m := by
  have hsc : ∀ r, sc m r ≠ 0 := fun r => by
    unfold sc; split_ifs
    · exact hfs.ne'
    · exact one_ne_zero
  -- a vector in the kernel, up to rows where the laws do not vary
  have key : ∀ (e : Env ℝ) (v : ℕ → ℝ), (∀ r < sz m, sc m r * v r = ∑ j ∈ range (sz m), (m.M e).e r j *
        ∑ c ∈ range (sz m), pdiff (fn m j) (vn m c) e * v c ∨
        ∑ c ∈ range (sz m), pdiff (fn m r) (vn m c) e * v c = 0) →
      ∀ r < sz m, ∑ c ∈ range (sz m), pdiff (fn m r) (vn m c) e * v c = 0 := by
    intro e v hv
    refine h.mono e v ?_
    refine le_trans (le_of_eq ?_) (h.diss e fun j => ∑ c ∈ range (sz m), pdiff (fn m j) (vn m c) e * v c)
    refine sum_congr rfl fun r hr => ?_
    rcases hv r (mem_range.1 hr) with h1 | h1
    · rw [h1, mul_comm]
    · simp only [h1]; ring
  constructor
  · intro e φ h0 i hi
    set v := glue m φ fun _ => 0 with hv
    have hD : ∀ r < sz m, ∑ c ∈ range (sz m), pdiff (fn m r) (vn m c) e * v c = 0 := by
      refine key e v fun r hr => ?_
      rcases row_cases hw e hr with ⟨k, hk, rfl⟩ | ⟨k, hk, rfl⟩
      · left
        have := jac_mv hw hs h (by simp) hk e (row_l_lt hw hk e) φ fun _ => 0
        rw [h0 k hk] at this
        have hz : (m.JG .l .nl e).mv (fun _ => 0) k = 0 := by simp [mv]
        rw [hz] at this
        rw [hv]
        linarith
      · right
        rw [← sum_parts hw _ e, sum_eq_zero, sum_eq_zero, add_zero]
        · intro c hc
          rw [hv, glue_nl hw _ _ (mem_range.1 hc), mul_zero]
        · intro c hc
          rw [← v_l_getD hw (mem_range.1 hc), h.coupl e k hk _ (getD_mem (mem_range.1 hc)), zero_mul]
    have := jac_mv hw hs h (by simp) hi e (row_l_lt hw hi e) φ fun _ => 0
    rw [h0 i hi, glue_l hw _ _ hi] at this
    have hz : (m.JG .l .nl e).mv (fun _ => 0) i = 0 := by simp [mv]
    rw [hz, sum_eq_zero fun j hj => by rw [hD j (mem_range.1 hj), mul_zero]] at this
    have h1 : sc m (m.row .l i e) * φ i = 0 := by linarith
    exact (mul_eq_zero.1 h1).resolve_left (hsc _)
  · intro e φ ψ h0 h1 i hi
    set v := glue m φ ψ with hv
    have hD : ∀ r < sz m, ∑ c ∈ range (sz m), pdiff (fn m r) (vn m c) e * v c = 0 := by
      refine key e v fun r hr => .inl ?_
      rcases row_cases hw e hr with ⟨k, hk, rfl⟩ | ⟨k, hk, rfl⟩
      · have := jac_mv hw hs h (by simp) hk e (row_l_lt hw hk e) φ ψ
        rw [h0 k hk] at this
        rw [hv]; linarith
      · have := jac_mv hw hs h (by simp) hk e (row_nl_lt hw hk e) φ ψ
        rw [h1 k hk] at this
        rw [hv]; linarith
    have := jac_mv hw hs h (by simp) hi e (row_nl_lt hw hi e) φ ψ
    rw [h1 i hi, glue_nl hw _ _ hi,
      sum_eq_zero fun j hj => by rw [hD j (mem_range.1 hj), mul_zero]] at this
    have h2 : sc m (m.row .nl i e) * ψ i = 0 := by linarith
    exact (mul_eq_zero.1 h2).resolve_left (hsc _)

omit hw in
theorem pdiff_indep {f : Sc} {k : String} (h : Indep f k) (e : Env ℝ) : pdiff f k e = 0 := by
  unfold pdiff
  simp only [h e, deriv_const]

omit hw in
theorem row_nl_mem (hw : MethWF m) {i : ℕ} (hi : i < (m.v .nl).length) (e : Env ℝ) :
    vn m (m.row .nl i e) ∈ m.v .nl := by
  rw [← v_nl_getD hw hi]; exact getD_mem hi

/-- A system whose structure creates no power, whose laws are nondecreasing functions of their own
unknown. -/
structure DiagSys (m : Meth) : Prop where
  Mfree : ∀ k ∈ m.v .all, ∀ e t i j, (m.M (Function.update e k t)).e i j = (m.M e).e i j
  diss : ∀ e (a : ℕ → ℝ), ∑ i ∈ range (sz m), a i * ∑ j ∈ range (sz m), (m.M e).e i j * a j ≤ 0
  own : ∀ j < sz m, ∀ k ∈ m.v .all, k ≠ vn m j → Indep (fn m j) k
  diff : ∀ j < sz m, CDiff (fn m j) (vn m j)
  mono : ∀ j < sz m, ∀ e, 0 ≤ pdiff (fn m j) (vn m j) e

include hw in
theorem DiagSys.monotone (d : DiagSys m) (hs : SplitOK m) (hfs : 0 < m.fs)
    (inp : ∀ k ∈ m.v .all, k ∉ m.u) : MonotoneSys m where
  Mfree := d.Mfree
  inp := inp
  diss := d.diss
  diff := fun j hj k hk => by
    by_cases h : k = vn m j
    · rw [h]; exact d.diff j hj
    · intro e
      have : (fun t => fn m j (Function.update e k t)) = fun _ => fn m j e :=
        funext fun t => d.own j hj k hk h e t
      rw [this]
      exact differentiable_const _
  coupl := fun e i hi k hk => by
    refine pdiff_indep (d.own _ (row_nl_lt hw hi e) k (mem_l m hk) fun h => ?_) e
    exact hs.ne (row_nl_mem hw hi e) (h ▸ hk)
  mono := fun e v h0 => by
    have h1 : ∀ j < sz m, ∑ i ∈ range (sz m), pdiff (fn m j) (vn m i) e * v i =
        pdiff (fn m j) (vn m j) e * v j := fun j hj => by
      rw [sum_eq_single j]
      · intro i hi hij
        rw [pdiff_indep (d.own j hj _ (vn_mem (mem_range.1 hi)) fun h =>
          hij (vn_inj hs (mem_range.1 hi) hj h)) e, zero_mul]
      · intro h; exact absurd (mem_range.2 hj) h
    have hsc : ∀ r, 0 < sc m r := fun r => by
      unfold sc; split_ifs
      · exact hfs
      · exact one_pos
    have h2 : ∀ j ∈ range (sz m), 0 ≤ sc m j * v j * ∑ i ∈ range (sz m), pdiff (fn m j) (vn m i) e * v i := by
      intro j hj
      rw [h1 j (mem_range.1 hj)]
      have := mul_nonneg (mul_nonneg (hsc j).le (d.mono j (mem_range.1 hj) e)) (mul_self_nonneg (v j))
      nlinarith
    intro j hj
    have h3 := (sum_eq_zero_iff_of_nonneg h2).1 (le_antisymm h0 (sum_nonneg h2)) j (mem_range.2 hj)
    rw [h1 j hj] at h3 ⊢
    rcases mul_eq_zero.1 h3 with h4 | h4
    · rw [(mul_eq_zero.1 h4).resolve_left (hsc j).ne', mul_zero]
    · exact h4

end
end Numeric
end Pyphs
