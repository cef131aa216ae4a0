/-
Properties C03 (decomposition J/R), C04 (block setters and getters), C05 (adding components).
-/
import Verif.Core.Spec
import Verif.Mat.Spec
import Mathlib.Algebra.Field.Rat
import Mathlib.Algebra.Order.Ring.Rat
import Mathlib.Tactic.NormNum
import Mathlib.Tactic.Linarith

namespace Pyphs
namespace Core
open Finset Mat

variable {K : Type} [Field K] [DecidableEq K]

theorem R_e (c : Core K) (i j : ℕ) : c.R.e i j = 1 / 2 * -(c.M.e i j + c.M.e j i) := rfl

theorem J_e (c : Core K) (i j : ℕ) : c.J.e i j = 1 / 2 * (c.M.e i j - c.M.e j i) := rfl

/-! ### C03 -/

/-- **C03**: `J()` is skew-symmetric, `R()` symmetric, `M = J - R`. -/
theorem C03_decomposition (h2 : (2 : K) ≠ 0) (c : Core K) (h : c.M.r = c.M.c) :
    c.J.IsSkew ∧ c.R.IsSym ∧ Same c.M (c.J.sub c.R) := by
  refine ⟨⟨h, fun i _ j _ => ?_⟩, ⟨h, fun i _ j _ => ?_⟩, rfl, rfl, fun i _ j _ => ?_⟩
  · simp only [J, smul, sub, tr]; ring
  · simp only [R, smul, neg, add, tr]; ring
  · simp only [J, R, smul, neg, add, sub, tr]; field_simp; ring

/-- **C03**: the decomposition is unique. -/
theorem C03_unique (h2 : (2 : K) ≠ 0) (c : Core K) (h : c.M.r = c.M.c) (A B : Mat K)
    (hA : A.IsSkew) (hB : B.IsSym) (hM : Same c.M (A.sub B)) (hr : A.r = B.r) :
    Same A c.J ∧ Same B c.R := by
  obtain ⟨h1, h3, h4⟩ := hM
  simp only [Mat.sub] at h1 h3 h4
  refine ⟨⟨h1.symm, h3.symm, fun i hi j hj => ?_⟩, ⟨by rw [← hr]; exact h1.symm, ?_, ?_⟩⟩
  · rw [← hA.1] at hj
    have e1 := h4 i (by omega) j (by omega)
    have e2 := h4 j (by omega) i (by omega)
    have e3 := hA.2 i hi j hj
    have e4 := hB.2 i (by omega) j (by omega)
    simp only [J, smul, sub, tr, e1, e2]
    rw [e4]; field_simp; linear_combination e3
  · rw [← hB.1, ← hr, ← h1]; exact h
  · intro i hi j hj
    rw [← hB.1] at hj
    have e1 := h4 i (by omega) j (by omega)
    have e2 := h4 j (by omega) i (by omega)
    have e3 := hA.2 i (by omega) j (by omega)
    have e4 := hB.2 i hi j hj
    simp only [R, smul, neg, add, tr, e1, e2]
    rw [e3, e4]; field_simp; ring

/-- **C03**: the power of any vector of efforts is the opposite of the one of `R()`. -/
theorem C03_power (h2 : (2 : K) ≠ 0) (c : Core K) (h : c.M.r = c.M.c) (a : ℕ → K) :
    dot c.M.r a (c.M.mv a) = - dot c.M.r a (c.R.mv a) := by
  have hR : c.R.quad a = - c.M.quad a := by
    have e : c.R.quad a = - (1 / 2) * (c.M.quad a + c.M.tr.quad a) := by
      rw [quad_eq, quad_eq, quad_eq]
      simp only [tr, R, smul, neg, add, ← h, ← Finset.sum_add_distrib, Finset.mul_sum]
      refine Finset.sum_congr rfl fun i _ => Finset.sum_congr rfl fun j _ => by ring
    rw [e, quad_tr _ h]; field_simp; ring
  have h3 : c.R.r = c.M.r := rfl
  unfold quad at hR
  rw [h3] at hR
  rw [hR]; ring

/-- **C03**: no vector of efforts produces power iff `M` is skew-symmetric. -/
theorem C03_conservative_iff (h2 : (2 : K) ≠ 0) (c : Core K) (h : c.M.r = c.M.c) :
    (∀ a, dot c.M.r a (c.M.mv a) = 0) ↔ c.M.IsSkew :=
  (isSkew_iff_quad h2 c.M h).symm

/-- **C03**: no vector of efforts makes the structure generate power iff `R()` is positive
semidefinite. -/
theorem C03_passive_iff {K : Type} [Field K] [LinearOrder K] [IsStrictOrderedRing K]
    (c : Core K) (h : c.M.r = c.M.c) : c.M.Passive ↔ c.R.PSD := by
  have h2 : (2 : K) ≠ 0 := two_ne_zero
  have key : ∀ a, c.R.quad a = - c.M.quad a := fun a => by
    have := C03_power h2 c h a
    unfold quad
    rw [this]; simp [R, smul, neg, add]
  constructor
  · rintro ⟨_, hp⟩
    exact ⟨(C03_decomposition h2 c h).2.1, fun a => by rw [key]; linarith [hp a]⟩
  · rintro ⟨_, hp⟩
    exact ⟨h, fun a => by have := hp a; rw [key] at this; linarith⟩

/-! ### C04 -/

theorem add_sub_cancel' {a i : ℕ} (h : a ≤ i) : a + (i - a) = i := by omega

/-- Two blocks do not overlap. -/
abbrev Apart (c : Core K) (a b : Blk) : Prop := c.fin a ≤ c.deb b ∨ c.fin b ≤ c.deb a

/-- Index `i` belongs to block `a`. -/
abbrev In (c : Core K) (a : Blk) (i : ℕ) : Prop := c.deb a ≤ i ∧ i < c.fin a

theorem fin_le_tot {c : Core K} (hx : c.xl ≤ c.x.length) (hw : c.wl ≤ c.w.length) (a : Blk) :
    c.fin a ≤ c.tot := by
  cases a <;> simp only [fin, deb, dim, tot] <;> omega

theorem dim_congr {c c' : Core K} (hx : c'.x = c.x) (hw : c'.w = c.w) (hy : c'.y = c.y)
    (hcy : c'.cy = c.cy) (hxl : c'.xl = c.xl) (hwl : c'.wl = c.wl) (a : Blk) :
    c'.deb a = c.deb a ∧ c'.fin a = c.fin a ∧ c'.dim a = c.dim a := by
  cases a <;> simp [deb, fin, dim, hx, hw, hy, hcy, hxl, hwl]

/-- **C04** for `set_Mab`: on a core whose `M` has the right size, and for blocks which do not
overlap (or are equal), the call succeeds exactly for a value of the right shape, and then the
entries of the block are those of the value and all other entries are unchanged. -/
theorem C04_set_M (c : Core K) (hM : c.M.r = c.tot) (a b : Blk)
    (hab : a = b ∨ c.Apart a b) (V : Mat K) :
    (¬ (V.r = c.dim a ∧ V.c = c.dim b) → c.setMat .M a b V = none) ∧
    (V.r = c.dim a → V.c = c.dim b → ∃ M', c.setMat .M a b V = some { c with M := M' } ∧
      M'.r = c.M.r ∧ M'.c = c.M.c ∧
      ∀ i j, M'.e i j = if c.In a i ∧ c.In b j then V.e (i - c.deb a) (j - c.deb b)
        else c.M.e i j) := by
  unfold setMat
  simp only [hM, ne_eq, not_true_eq_false, if_false]
  constructor
  · intro h; rw [if_neg h]
  · intro h1 h2
    rw [if_pos ⟨h1, h2⟩]
    refine ⟨_, rfl, ?_, ?_, ?_⟩
    · split_ifs <;> exact hM
    · split_ifs <;> rfl
    · intro i j
      rcases hab with rfl | hab
      · simp [setBlock, In, and_assoc]
      · by_cases e : a = b
        · subst e; simp [setBlock, In, and_assoc]
        · simp only [e, not_false_eq_true, if_true, setBlock, In]
          unfold Apart at hab
          by_cases p : (c.deb b ≤ i ∧ i < c.fin b ∧ c.deb a ≤ j ∧ j < c.fin a)
          · rw [if_pos p, if_neg (by omega)]
            simp only [getMat, Mat.slice, part]
            rw [add_sub_cancel' p.1, add_sub_cancel' p.2.2.1]
          · rw [if_neg p]
            by_cases q : c.deb a ≤ i ∧ i < c.fin a ∧ c.deb b ≤ j ∧ j < c.fin b
            · rw [if_pos q, if_pos (by omega)]
            · rw [if_neg q, if_neg (by omega)]

/-- The value of an accessor, entry by entry: shape of the block and entries of the matrix at
the positions of the block. -/
theorem getMat_shape (c : Core K) (hr : c.M.r = c.tot) (hc : c.M.c = c.tot)
    (hx : c.xl ≤ c.x.length) (hw : c.wl ≤ c.w.length) (p : Part) (a b : Blk) :
    (c.getMat p a b).r = c.dim a ∧ (c.getMat p a b).c = c.dim b := by
  have h1 := fin_le_tot hx hw a
  have h2 := fin_le_tot hx hw b
  have h3 : (c.part p).r = c.tot ∧ (c.part p).c = c.tot := by
    cases p <;> simp [part, J, R, smul, neg, add, sub, hr, hc]
  simp only [getMat, Mat.slice, h3]
  simp only [fin] at *
  omega

/-- **C04**: after `set_Mab(V)`, `Mab()` returns `V`, and every block with a row or a column
range disjoint from the one written is unchanged. -/
theorem C04_get_set_M (c c' : Core K) (hr : c.M.r = c.tot) (hc : c.M.c = c.tot)
    (hx : c.xl ≤ c.x.length) (hw : c.wl ≤ c.w.length) (a b : Blk)
    (hab : a = b ∨ c.Apart a b) (V : Mat K) (h : c.setMat .M a b V = some c') :
    Same (c'.getMat .M a b) V ∧
    ∀ p q, c.Apart p a ∨ c.Apart q b → Same (c'.getMat .M p q) (c.getMat .M p q) := by
  obtain ⟨h1, h2⟩ := C04_set_M c hr a b hab V
  have hs : V.r = c.dim a ∧ V.c = c.dim b := by
    by_contra hn; rw [h1 hn] at h; simp at h
  obtain ⟨M', h3, h4, h5, h6⟩ := h2 hs.1 hs.2
  rw [h3] at h
  obtain rfl := Option.some.inj h
  have hd : ∀ p, ({ c with M := M' } : Core K).deb p = c.deb p ∧
      ({ c with M := M' } : Core K).fin p = c.fin p ∧
      ({ c with M := M' } : Core K).dim p = c.dim p :=
    fun p => dim_congr rfl rfl rfl rfl rfl rfl p
  have hsh := fun p q => getMat_shape c hr hc hx hw .M p q
  have hsh' := fun p q => getMat_shape { c with M := M' } (h4.trans hr) (h5.trans hc) hx hw .M p q
  constructor
  · refine ⟨by rw [(hsh' a b).1, hs.1, (hd a).2.2], by rw [(hsh' a b).2, hs.2, (hd b).2.2], ?_⟩
    intro i hi j hj
    rw [(hsh' a b).1, (hd a).2.2] at hi
    rw [(hsh' a b).2, (hd b).2.2] at hj
    simp only [getMat, Mat.slice, part, (hd a).1, (hd b).1]
    rw [h6, if_pos (by simp only [In, fin]; omega)]
    rw [Nat.add_sub_cancel_left, Nat.add_sub_cancel_left]
  · intro p q hpq
    refine ⟨by rw [(hsh' p q).1, (hsh p q).1, (hd p).2.2],
      by rw [(hsh' p q).2, (hsh p q).2, (hd q).2.2], ?_⟩
    intro i hi j hj
    rw [(hsh' p q).1, (hd p).2.2] at hi
    rw [(hsh' p q).2, (hd q).2.2] at hj
    simp only [getMat, Mat.slice, part, (hd p).1, (hd q).1]
    rw [h6, if_neg]
    simp only [In, fin, Apart] at *
    omega

/-- **C04** for `set_Jab`, off-diagonal block: all of `R()` is unchanged, and `J()` is changed
exactly on the block, which becomes `V`, and on its mirror, which becomes `-Vᵀ`. -/
theorem C04_set_J (h2 : (2 : K) ≠ 0) (c : Core K) (hr : c.M.r = c.tot) (hc : c.M.c = c.tot)
    (hx : c.xl ≤ c.x.length) (hw : c.wl ≤ c.w.length) (a b : Blk) (hne : a ≠ b)
    (hab : c.Apart a b) (V : Mat K) (hVr : V.r = c.dim a) (hVc : V.c = c.dim b) :
    ∃ c', c.setMat .J a b V = some c' ∧ c' = { c with M := c'.M } ∧
      Same c'.R c.R ∧ c'.J.r = c.J.r ∧ c'.J.c = c.J.c ∧
      ∀ i < c.tot, ∀ j < c.tot, c'.J.e i j =
        if c.In a i ∧ c.In b j then V.e (i - c.deb a) (j - c.deb b)
        else if c.In b i ∧ c.In a j then - V.e (j - c.deb a) (i - c.deb b)
        else c.J.e i j := by
  unfold setMat
  simp only [hr, ne_eq, not_true_eq_false, if_false, hVr, hVc, and_self, if_true, hne,
    not_false_eq_true]
  have key : ∀ i j, (((c.M.setBlock (c.deb a) (c.fin a) (c.deb b) (c.fin b)
        (V.sub (c.getMat .R a b))).setBlock (c.deb b) (c.fin b) (c.deb a) (c.fin a)
        (V.tr.neg.sub (c.getMat .R b a))).e i j) =
      if c.In a i ∧ c.In b j then V.e (i - c.deb a) (j - c.deb b) - c.R.e i j
      else if c.In b i ∧ c.In a j then - V.e (j - c.deb a) (i - c.deb b) - c.R.e i j
      else c.M.e i j := by
    intro i j
    simp only [setBlock, In, Apart] at *
    by_cases p : (c.deb b ≤ i ∧ i < c.fin b ∧ c.deb a ≤ j ∧ j < c.fin a)
    · rw [if_pos p, if_neg (by omega), if_pos (by omega)]
      simp only [getMat, Mat.slice, part, sub, neg, tr]
      rw [add_sub_cancel' p.1, add_sub_cancel' p.2.2.1]
    · rw [if_neg p]
      by_cases q : c.deb a ≤ i ∧ i < c.fin a ∧ c.deb b ≤ j ∧ j < c.fin b
      · rw [if_pos q, if_pos (by omega)]
        simp only [getMat, Mat.slice, part, sub]
        rw [add_sub_cancel' q.1, add_sub_cancel' q.2.2.1]
      · rw [if_neg q, if_neg (by omega), if_neg (by omega)]
  refine ⟨_, rfl, rfl, ⟨rfl, rfl, ?_⟩, rfl, rfl, ?_⟩
  · intro i hi j hj
    simp only [R_e, key]
    simp only [In, Apart] at *
    split_ifs with h1 h3 h4 h5
    all_goals first
      | omega
      | rfl
      | ((try simp only [R_e, J_e]); (try field_simp); done)
      | ((try simp only [R_e, J_e]); (try field_simp); ring)
  · intro i hi j hj
    simp only [J_e, key]
    simp only [In, Apart] at *
    split_ifs with h1 h3 h4 h5
    all_goals first
      | omega
      | rfl
      | ((try simp only [R_e, J_e]); (try field_simp); done)
      | ((try simp only [R_e, J_e]); (try field_simp); ring)

/-- **C04** for `set_Rab`, off-diagonal block: all of `J()` is unchanged, and `R()` is changed
exactly on the block, which becomes `V`, and on its mirror, which becomes `Vᵀ`. -/
theorem C04_set_R (h2 : (2 : K) ≠ 0) (c : Core K) (hr : c.M.r = c.tot) (hc : c.M.c = c.tot)
    (hx : c.xl ≤ c.x.length) (hw : c.wl ≤ c.w.length) (a b : Blk) (hne : a ≠ b)
    (hab : c.Apart a b) (V : Mat K) (hVr : V.r = c.dim a) (hVc : V.c = c.dim b) :
    ∃ c', c.setMat .R a b V = some c' ∧ c' = { c with M := c'.M } ∧
      Same c'.J c.J ∧ c'.R.r = c.R.r ∧ c'.R.c = c.R.c ∧
      ∀ i < c.tot, ∀ j < c.tot, c'.R.e i j =
        if c.In a i ∧ c.In b j then V.e (i - c.deb a) (j - c.deb b)
        else if c.In b i ∧ c.In a j then V.e (j - c.deb a) (i - c.deb b)
        else c.R.e i j := by
  unfold setMat
  simp only [hr, ne_eq, not_true_eq_false, if_false, hVr, hVc, and_self, if_true, hne,
    not_false_eq_true]
  have key : ∀ i j, (((c.M.setBlock (c.deb a) (c.fin a) (c.deb b) (c.fin b)
        ((c.getMat .J a b).sub V)).setBlock (c.deb b) (c.fin b) (c.deb a) (c.fin a)
        ((c.getMat .J b a).sub V.tr)).e i j) =
      if c.In a i ∧ c.In b j then c.J.e i j - V.e (i - c.deb a) (j - c.deb b)
      else if c.In b i ∧ c.In a j then c.J.e i j - V.e (j - c.deb a) (i - c.deb b)
      else c.M.e i j := by
    intro i j
    simp only [setBlock, In, Apart] at *
    by_cases p : (c.deb b ≤ i ∧ i < c.fin b ∧ c.deb a ≤ j ∧ j < c.fin a)
    · rw [if_pos p, if_neg (by omega), if_pos (by omega)]
      simp only [getMat, Mat.slice, part, sub, neg, tr]
      rw [add_sub_cancel' p.1, add_sub_cancel' p.2.2.1]
    · rw [if_neg p]
      by_cases q : c.deb a ≤ i ∧ i < c.fin a ∧ c.deb b ≤ j ∧ j < c.fin b
      · rw [if_pos q, if_pos (by omega)]
        simp only [getMat, Mat.slice, part, sub]
        rw [add_sub_cancel' q.1, add_sub_cancel' q.2.2.1]
      · rw [if_neg q, if_neg (by omega), if_neg (by omega)]
  refine ⟨_, rfl, rfl, ⟨rfl, rfl, ?_⟩, rfl, rfl, ?_⟩
  · intro i hi j hj
    simp only [J_e, key]
    simp only [In, Apart] at *
    split_ifs with h1 h3 h4 h5
    all_goals first
      | omega
      | rfl
      | ((try simp only [R_e, J_e]); (try field_simp); done)
      | ((try simp only [R_e, J_e]); (try field_simp); ring)
  · intro i hi j hj
    simp only [R_e, key]
    simp only [In, Apart] at *
    split_ifs with h1 h3 h4 h5
    all_goals first
      | omega
      | rfl
      | ((try simp only [R_e, J_e]); (try field_simp); done)
      | ((try simp only [R_e, J_e]); (try field_simp); ring)

/-- **C04** for `set_Jaa`, diagonal block: with a skew-symmetric value the block becomes the
value, the rest of `J()` and all of `R()` are unchanged. -/
theorem C04_set_J_diag (h2 : (2 : K) ≠ 0) (c : Core K) (hr : c.M.r = c.tot)
    (hc : c.M.c = c.tot) (a : Blk) (V : Mat K) (hVr : V.r = c.dim a) (hV : V.IsSkew) :
    ∃ c', c.setMat .J a a V = some c' ∧ c' = { c with M := c'.M } ∧
      Same c'.R c.R ∧
      ∀ i < c.tot, ∀ j < c.tot, c'.J.e i j =
        if c.In a i ∧ c.In a j then V.e (i - c.deb a) (j - c.deb a) else c.J.e i j := by
  unfold setMat
  have hVc : V.c = c.dim a := by rw [← hV.1, hVr]
  simp only [hr, ne_eq, not_true_eq_false, if_false, hVr, hVc, and_self, if_true]
  have key : ∀ i j, ((c.M.setBlock (c.deb a) (c.fin a) (c.deb a) (c.fin a)
        (V.sub (c.getMat .R a a))).e i j) =
      if c.In a i ∧ c.In a j then V.e (i - c.deb a) (j - c.deb a) - c.R.e i j
      else c.M.e i j := by
    intro i j
    simp only [setBlock, In] at *
    by_cases q : c.deb a ≤ i ∧ i < c.fin a ∧ c.deb a ≤ j ∧ j < c.fin a
    · rw [if_pos q, if_pos (by omega)]
      simp only [getMat, Mat.slice, part, sub]
      rw [add_sub_cancel' q.1, add_sub_cancel' q.2.2.1]
    · rw [if_neg q, if_neg (by omega)]
  have sk : ∀ i j, c.In a i → c.In a j →
      V.e (j - c.deb a) (i - c.deb a) = - V.e (i - c.deb a) (j - c.deb a) := by
    intro i j h1 h3
    simp only [In, fin] at h1 h3
    exact hV.2 _ (by rw [hVr]; omega) _ (by rw [hVr]; omega)
  refine ⟨_, rfl, rfl, ⟨rfl, rfl, ?_⟩, ?_⟩
  · intro i hi j hj
    simp only [R_e, key]
    by_cases h1 : c.In a i ∧ c.In a j
    · rw [if_pos h1, if_pos h1.symm, sk i j h1.1 h1.2]
      (try simp only [R_e, J_e]); (try field_simp); ring
    · rw [if_neg h1, if_neg (fun h => h1 h.symm)]
  · intro i hi j hj
    simp only [J_e, key]
    by_cases h1 : c.In a i ∧ c.In a j
    · rw [if_pos h1, if_pos h1.symm, sk i j h1.1 h1.2, if_pos h1]
      (try simp only [R_e, J_e]); (try field_simp); ring
    · rw [if_neg h1, if_neg (fun h => h1 h.symm), if_neg h1]

/-- **C04** for `set_Raa`, diagonal block: with a symmetric value. -/
theorem C04_set_R_diag (h2 : (2 : K) ≠ 0) (c : Core K) (hr : c.M.r = c.tot)
    (hc : c.M.c = c.tot) (a : Blk) (V : Mat K) (hVr : V.r = c.dim a) (hV : V.IsSym) :
    ∃ c', c.setMat .R a a V = some c' ∧ c' = { c with M := c'.M } ∧
      Same c'.J c.J ∧
      ∀ i < c.tot, ∀ j < c.tot, c'.R.e i j =
        if c.In a i ∧ c.In a j then V.e (i - c.deb a) (j - c.deb a) else c.R.e i j := by
  unfold setMat
  have hVc : V.c = c.dim a := by rw [← hV.1, hVr]
  simp only [hr, ne_eq, not_true_eq_false, if_false, hVr, hVc, and_self, if_true]
  have key : ∀ i j, ((c.M.setBlock (c.deb a) (c.fin a) (c.deb a) (c.fin a)
        ((c.getMat .J a a).sub V)).e i j) =
      if c.In a i ∧ c.In a j then c.J.e i j - V.e (i - c.deb a) (j - c.deb a)
      else c.M.e i j := by
    intro i j
    simp only [setBlock, In] at *
    by_cases q : c.deb a ≤ i ∧ i < c.fin a ∧ c.deb a ≤ j ∧ j < c.fin a
    · rw [if_pos q, if_pos (by omega)]
      simp only [getMat, Mat.slice, part, sub]
      rw [add_sub_cancel' q.1, add_sub_cancel' q.2.2.1]
    · rw [if_neg q, if_neg (by omega)]
  have sk : ∀ i j, c.In a i → c.In a j →
      V.e (j - c.deb a) (i - c.deb a) = V.e (i - c.deb a) (j - c.deb a) := by
    intro i j h1 h3
    simp only [In, fin] at h1 h3
    exact hV.2 _ (by rw [hVr]; omega) _ (by rw [hVr]; omega)
  refine ⟨_, rfl, rfl, ⟨rfl, rfl, ?_⟩, ?_⟩
  · intro i hi j hj
    simp only [J_e, key]
    by_cases h1 : c.In a i ∧ c.In a j
    · rw [if_pos h1, if_pos h1.symm, sk i j h1.1 h1.2]
      (try simp only [R_e, J_e]); (try field_simp); ring
    · rw [if_neg h1, if_neg (fun h => h1 h.symm)]
  · intro i hi j hj
    simp only [R_e, key]
    by_cases h1 : c.In a i ∧ c.In a j
    · rw [if_pos h1, if_pos h1.symm, sk i j h1.1 h1.2, if_pos h1]
      (try simp only [R_e, J_e]); (try field_simp); ring
    · rw [if_neg h1, if_neg (fun h => h1 h.symm), if_neg h1]

/-- **C04**, limit of the property: on overlapping blocks (`set_Mxxl` with one linear state)
`Mab()` does not return the value just written, because the mirror block is written back. -/
theorem C04_overlap_counterexample :
    ∃ (c c' : Core ℚ) (V : Mat ℚ), c.M.r = c.tot ∧ c.M.c = c.tot ∧ c.xl ≤ c.x.length ∧
      c.setMat .M .x .xl V = some c' ∧ (c'.getMat .M .x .xl).e 0 0 ≠ V.e 0 0 := by
  let c : Core ℚ := { (Core.empty : Core ℚ) with x := ["x1"], xl := 1, M := zeros 1 1 }
  refine ⟨c, (c.setMat .M .x .xl ⟨1, 1, fun _ _ => 7⟩).get (by decide +kernel),
    ⟨1, 1, fun _ _ => 7⟩, rfl, rfl, by decide, (Option.some_get _).symm, by decide +kernel⟩

/-- **C04**, limit of the property: `set_Jxx` with a value that is not skew-symmetric modifies
`R()`. -/
theorem C04_set_J_diag_nonskew_counterexample :
    ∃ (c c' : Core ℚ) (V : Mat ℚ), c.M.r = c.tot ∧ c.M.c = c.tot ∧
      c.setMat .J .x .x V = some c' ∧ c'.R.e 0 0 ≠ c.R.e 0 0 := by
  let c : Core ℚ := { (Core.empty : Core ℚ) with x := ["x1"], M := zeros 1 1 }
  refine ⟨c, (c.setMat .J .x .x ⟨1, 1, fun _ _ => 7⟩).get (by decide +kernel),
    ⟨1, 1, fun _ _ => 7⟩, rfl, rfl, (Option.some_get _).symm, by decide +kernel⟩

/-! ### C05 -/

/-- One call to add components. -/
inductive Add (K : Type)
  | storages (x : List String) (H : Env K → K)
  | dissipations (w : List String) (z : List (Env K → K))
  | ports (u y : List String)

/-- Effect of the call; a call that raises leaves the core as it was. -/
def Add.run : Add K → Core K → Core K
  | .storages x H, c => c.addStorages x H
  | .dissipations w z, c => (c.addDissipations w z).getD c
  | .ports u y, c => (c.addPorts u y).getD c

/-- Specification: states added by a call. -/
def Add.xs : Add K → List String
  | .storages x _ => x
  | _ => []

/-- Specification: energy added by a call. -/
def Add.energy : Add K → Env K → K
  | .storages _ H, e => H e
  | _, _ => 0

/-- Specification: pairs (variable, law) added by a call; none on a length mismatch. -/
def Add.laws : Add K → List (String × (Env K → K))
  | .dissipations w z => if w.length = z.length then w.zip z else []
  | _ => []

/-- Specification: pairs (input, output) added by a call; none on a length mismatch. -/
def Add.uys : Add K → List (String × String)
  | .ports u y => if u.length = y.length then u.zip y else []
  | _ => []

/-- **C05**: after any history of additions, the states are the added states in order, the
energy is the sum of the added energies, laws and inputs stay paired with their variables, and
the structure matrix is exactly what it was. -/
theorem C05_add_history (ops : List (Add K)) (c : Core K) (hw : c.w.length = c.z.length)
    (hu : c.u.length = c.y.length) :
    let c' := ops.foldl (fun c o => o.run c) c
    c'.x = c.x ++ (ops.map Add.xs).flatten ∧
    (∀ e, c'.H e = c.H e + (ops.map fun o => o.energy e).sum) ∧
    c'.w.zip c'.z = c.w.zip c.z ++ (ops.map Add.laws).flatten ∧
    c'.u.zip c'.y = c.u.zip c.y ++ (ops.map Add.uys).flatten ∧
    c'.w.length = c'.z.length ∧ c'.u.length = c'.y.length ∧
    c'.M = c.M ∧ c'.cu = c.cu ∧ c'.cy = c.cy ∧ c'.connectors = c.connectors := by
  induction ops generalizing c with
  | nil => simp [hw, hu]
  | cons o ops ih =>
    simp only [List.foldl_cons]
    have step : (o.run c).x = c.x ++ o.xs ∧ (∀ e, (o.run c).H e = c.H e + o.energy e) ∧
        (o.run c).w.zip (o.run c).z = c.w.zip c.z ++ o.laws ∧
        (o.run c).u.zip (o.run c).y = c.u.zip c.y ++ o.uys ∧
        (o.run c).w.length = (o.run c).z.length ∧ (o.run c).u.length = (o.run c).y.length ∧
        (o.run c).M = c.M ∧ (o.run c).cu = c.cu ∧ (o.run c).cy = c.cy ∧
        (o.run c).connectors = c.connectors := by
      cases o with
      | storages x H => simp [Add.run, addStorages, Add.xs, Add.energy, Add.laws, Add.uys, hw, hu]
      | dissipations w z =>
        by_cases h : w.length = z.length
        · simp [Add.run, addDissipations, Add.xs, Add.energy, Add.laws, Add.uys, hw, hu, h,
            List.zip_append hw]
        · simp [Add.run, addDissipations, Add.xs, Add.energy, Add.laws, Add.uys, hw, hu, h]
      | ports u y =>
        by_cases h : u.length = y.length
        · simp [Add.run, addPorts, Add.xs, Add.energy, Add.laws, Add.uys, hw, hu, h,
            List.zip_append hu]
        · simp [Add.run, addPorts, Add.xs, Add.energy, Add.laws, Add.uys, hw, hu, h]
    obtain ⟨s1, s2, s3, s4, s5, s6, s7, s8, s9, s10⟩ := step
    obtain ⟨t1, t2, t3, t4, t5, t6, t7, t8, t9, t10⟩ := ih (o.run c) s5 s6
    refine ⟨?_, ?_, ?_, ?_, t5, t6, t7.trans s7, t8.trans s8, t9.trans s9, t10.trans s10⟩
    · rw [t1, s1]; simp
    · intro e; rw [t2, s2]; simp [add_assoc]
    · rw [t3, s3]; simp
    · rw [t4, s4]; simp

/-- **C05**: a call raises exactly on a length mismatch. -/
theorem C05_add_error (c : Core K) (a : List String) (z : List (Env K → K)) (u y : List String) :
    (c.addDissipations a z = none ↔ a.length ≠ z.length) ∧
    (c.addPorts u y = none ↔ u.length ≠ y.length) := by
  unfold addDissipations addPorts
  constructor <;> split_ifs <;> simp_all

/-- **C05**, what happens to the structure: when components have been added after `M` was set,
the next `set_Mab` forgets every coefficient of the previous structure. The statement covers
the three setters. -/
theorem C05_set_after_add_resets (c c' : Core K) (h : c.M.r ≠ c.tot) (p : Part) (a b : Blk)
    (V : Mat K) (hs : c.setMat p a b V = some c') (i j : ℕ)
    (hij : ¬ (c.In a i ∧ c.In b j)) (hji : ¬ (c.In b i ∧ c.In a j)) : c'.M.e i j = 0 := by
  unfold setMat at hs
  simp only [h, ne_eq, not_false_eq_true, if_true] at hs
  split_ifs at hs with h1 h2
  all_goals
    simp only [Option.some.injEq] at hs
    subst hs
    have e := fun q => dim_congr (c := c) (c' := c.initM) rfl rfl rfl rfl rfl rfl q
    simp only [In] at hij hji
    simp only [setBlock, (e a).1, (e a).2.1, (e b).1, (e b).2.1]
  · rw [if_neg (by omega)]; simp [initM, zeros]
  · rw [if_neg (by omega), if_neg (by omega)]; simp [initM, zeros]

/-! Concrete cases meeting the hypotheses. -/

/-- Two states, one dissipation and one port, with a non-skew structure. -/
def exStruct : Core ℚ :=
  { (Core.empty : Core ℚ) with
    x := ["x1", "x2"], w := ["w1"], u := ["u1"], y := ["y1"], z := [fun e => 3 * e "w1"]
    M := ⟨4, 4, fun i j => (i : ℚ) - 2 * j⟩ }

example : exStruct.M.r = exStruct.M.c ∧ (2 : ℚ) ≠ 0 := ⟨rfl, by norm_num⟩
example : exStruct.Apart .x .w ∧ exStruct.Apart .y .x := by decide +kernel
example : (exStruct.setMat .J .x .w ⟨2, 1, fun i _ => i + 1⟩).isSome := by decide +kernel
example : (⟨2, 2, fun i j => (i : ℚ) - j⟩ : Mat ℚ).IsSkew := ⟨rfl, by decide +kernel⟩
example : (exStruct.addStorages ["x3"] (fun e => e "x3")).M.r ≠
    (exStruct.addStorages ["x3"] (fun e => e "x3")).tot := by decide

end Core
end Pyphs
