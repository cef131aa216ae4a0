/-
Property C06: the sum of two cores is the disjoint union of the systems.
-/
import Verif.Core.StructProps
import Verif.Core.MoveLemmas

namespace Pyphs
namespace Core
open Finset Mat

variable {K : Type} [Field K] [DecidableEq K]

/-! ### Reindexing -/

/-- The origin of index `i` of the sum: index in the first or in the second core. -/
def src (c1 c2 : Core K) (i : ℕ) : ℕ ⊕ ℕ :=
  let X := c1.x.length + c2.x.length
  let W := c1.w.length + c2.w.length
  let Y := c1.y.length + c2.y.length
  if i < X then
    if i < c1.x.length then .inl i else .inr (i - c1.x.length)
  else if i < X + W then
    if i - X < c1.w.length then .inl (c1.x.length + (i - X))
    else .inr (c2.x.length + (i - X - c1.w.length))
  else if i < X + W + Y then
    if i - (X + W) < c1.y.length then .inl (c1.x.length + c1.w.length + (i - (X + W)))
    else .inr (c2.x.length + c2.w.length + (i - (X + W) - c1.y.length))
  else
    if i - (X + W + Y) < c1.cy.length then
      .inl (c1.x.length + c1.w.length + c1.y.length + (i - (X + W + Y)))
    else .inr (c2.x.length + c2.w.length + c2.y.length + (i - (X + W + Y) - c1.cy.length))

/-- Entry of the structure of the union. -/
def unionE (M1 M2 : Mat K) : ℕ ⊕ ℕ → ℕ ⊕ ℕ → K
  | .inl i, .inl j => M1.e i j
  | .inr i, .inr j => M2.e i j
  | _, _ => 0

theorem sum_src (c1 c2 : Core K) (F : ℕ ⊕ ℕ → K) :
    ∑ j ∈ range (c1.tot + c2.tot), F (src c1 c2 j) =
      ∑ j ∈ range c1.tot, F (.inl j) + ∑ j ∈ range c2.tot, F (.inr j) := by
  have e : c1.tot + c2.tot = (c1.x.length + c2.x.length) + (c1.w.length + c2.w.length) +
      (c1.y.length + c2.y.length) + (c1.cy.length + c2.cy.length) := by unfold tot; omega
  rw [e]
  unfold tot
  simp only [Finset.sum_range_add]
  have h1 : ∀ k ∈ range c1.x.length, F (src c1 c2 k) = F (.inl k) := by
    intro k hk; rw [mem_range] at hk; unfold src
    rw [if_pos (by omega), if_pos (by omega)]
  have h2 : ∀ k ∈ range c2.x.length, F (src c1 c2 (c1.x.length + k)) = F (.inr k) := by
    intro k hk; rw [mem_range] at hk; unfold src
    rw [if_pos (by omega), if_neg (by omega)]; congr 2; omega
  have h3 : ∀ k ∈ range c1.w.length, F (src c1 c2 (c1.x.length + c2.x.length + k)) =
      F (.inl (c1.x.length + k)) := by
    intro k hk; rw [mem_range] at hk; unfold src
    rw [if_neg (by omega), if_pos (by omega), if_pos (by omega)]; congr 2; omega
  have h4 : ∀ k ∈ range c2.w.length,
      F (src c1 c2 (c1.x.length + c2.x.length + (c1.w.length + k))) =
      F (.inr (c2.x.length + k)) := by
    intro k hk; rw [mem_range] at hk; unfold src
    rw [if_neg (by omega), if_pos (by omega), if_neg (by omega)]; congr 2; omega
  have h5 : ∀ k ∈ range c1.y.length,
      F (src c1 c2 (c1.x.length + c2.x.length + (c1.w.length + c2.w.length) + k)) =
      F (.inl (c1.x.length + c1.w.length + k)) := by
    intro k hk; rw [mem_range] at hk; unfold src
    rw [if_neg (by omega), if_neg (by omega), if_pos (by omega), if_pos (by omega)]
    congr 2; omega
  have h6 : ∀ k ∈ range c2.y.length,
      F (src c1 c2 (c1.x.length + c2.x.length + (c1.w.length + c2.w.length) +
        (c1.y.length + k))) =
      F (.inr (c2.x.length + c2.w.length + k)) := by
    intro k hk; rw [mem_range] at hk; unfold src
    rw [if_neg (by omega), if_neg (by omega), if_pos (by omega), if_neg (by omega)]
    congr 2; omega
  have h7 : ∀ k ∈ range c1.cy.length,
      F (src c1 c2 (c1.x.length + c2.x.length + (c1.w.length + c2.w.length) +
        (c1.y.length + c2.y.length) + k)) =
      F (.inl (c1.x.length + c1.w.length + c1.y.length + k)) := by
    intro k hk; rw [mem_range] at hk; unfold src
    rw [if_neg (by omega), if_neg (by omega), if_neg (by omega), if_pos (by omega)]
    congr 2; omega
  have h8 : ∀ k ∈ range c2.cy.length,
      F (src c1 c2 (c1.x.length + c2.x.length + (c1.w.length + c2.w.length) +
        (c1.y.length + c2.y.length) + (c1.cy.length + k))) =
      F (.inr (c2.x.length + c2.w.length + c2.y.length + k)) := by
    intro k hk; rw [mem_range] at hk; unfold src
    rw [if_neg (by omega), if_neg (by omega), if_neg (by omega), if_neg (by omega)]
    congr 2; omega
  rw [sum_congr rfl h1, sum_congr rfl h2, sum_congr rfl h3, sum_congr rfl h4, sum_congr rfl h5,
    sum_congr rfl h6, sum_congr rfl h7, sum_congr rfl h8]
  ring

/-- Every index of the sum comes from a valid index of one core. -/
theorem src_lt (c1 c2 : Core K) {i : ℕ} (hi : i < c1.tot + c2.tot) :
    (∃ k, src c1 c2 i = .inl k ∧ k < c1.tot) ∨ (∃ k, src c1 c2 i = .inr k ∧ k < c2.tot) := by
  unfold tot at *
  unfold src
  simp only
  split_ifs
  all_goals first
    | exact Or.inl ⟨_, rfl, by omega⟩
    | exact Or.inr ⟨_, rfl, by omega⟩

/-- Every index of the two cores is the origin of an index of the sum. -/
theorem src_surj (c1 c2 : Core K) :
    (∀ k < c1.tot, ∃ i < c1.tot + c2.tot, src c1 c2 i = .inl k) ∧
    (∀ k < c2.tot, ∃ i < c1.tot + c2.tot, src c1 c2 i = .inr k) := by
  unfold tot
  constructor
  · intro k hk
    rcases Nat.lt_or_ge k c1.x.length with h | h
    · refine ⟨k, by omega, ?_⟩
      unfold src; rw [if_pos (by omega), if_pos (by omega)]
    rcases Nat.lt_or_ge k (c1.x.length + c1.w.length) with h' | h'
    · refine ⟨k + c2.x.length, by omega, ?_⟩
      unfold src; rw [if_neg (by omega), if_pos (by omega), if_pos (by omega)]
      congr 1; omega
    rcases Nat.lt_or_ge k (c1.x.length + c1.w.length + c1.y.length) with h'' | h''
    · refine ⟨k + c2.x.length + c2.w.length, by omega, ?_⟩
      unfold src
      rw [if_neg (by omega), if_neg (by omega), if_pos (by omega), if_pos (by omega)]
      congr 1; omega
    · refine ⟨k + c2.x.length + c2.w.length + c2.y.length, by omega, ?_⟩
      unfold src
      rw [if_neg (by omega), if_neg (by omega), if_neg (by omega), if_pos (by omega)]
      congr 1; omega
  · intro k hk
    rcases Nat.lt_or_ge k c2.x.length with h | h
    · refine ⟨k + c1.x.length, by omega, ?_⟩
      unfold src; rw [if_pos (by omega), if_neg (by omega)]
      congr 1; omega
    rcases Nat.lt_or_ge k (c2.x.length + c2.w.length) with h' | h'
    · refine ⟨k + c1.x.length + c1.w.length, by omega, ?_⟩
      unfold src; rw [if_neg (by omega), if_pos (by omega), if_neg (by omega)]
      congr 1; omega
    rcases Nat.lt_or_ge k (c2.x.length + c2.w.length + c2.y.length) with h'' | h''
    · refine ⟨k + c1.x.length + c1.w.length + c1.y.length, by omega, ?_⟩
      unfold src
      rw [if_neg (by omega), if_neg (by omega), if_pos (by omega), if_neg (by omega)]
      congr 1; omega
    · refine ⟨k + c1.x.length + c1.w.length + c1.y.length + c1.cy.length, by omega, ?_⟩
      unfold src
      rw [if_neg (by omega), if_neg (by omega), if_neg (by omega), if_neg (by omega)]
      congr 1; omega

/-- Labels of the sum. -/
def sumLabels (c1 c2 : Core K) : List String :=
  (c1.x ++ c2.x) ++ (c1.w ++ c2.w) ++ (c1.y ++ c2.y) ++ (c1.cy ++ c2.cy)

theorem label_src (c1 c2 : Core K) {i : ℕ} :
    (sumLabels c1 c2).getD i "" =
      match src c1 c2 i with
      | .inl k => c1.labels.getD k ""
      | .inr k => c2.labels.getD k "" := by
  unfold src sumLabels labels
  simp only
  split_ifs
  all_goals
    simp only [List.getD_eq_getElem?_getD, List.getElem?_append, List.length_append]
    split_ifs
    all_goals first
      | omega
      | rfl
      | (congr 2; omega)

/-! ### The fold of block assignments -/

/-- Everything but `M` is the same. -/
def SameBut (c c' : Core K) : Prop := c' = { c with M := c'.M }

theorem apart_dimNames (c : Core K) (hx : c.xl = 0) (hw : c.wl = 0) {a b : Blk}
    (ha : a ∈ dimNames) (hb : b ∈ dimNames) : a = b ∨ c.Apart a b := by
  simp only [dimNames, List.mem_cons, List.not_mem_nil, or_false] at ha hb
  rcases ha with rfl | rfl | rfl | rfl <;> rcases hb with rfl | rfl | rfl | rfl <;>
    simp [Apart, fin, deb, dim, hx, hw] <;> omega

theorem mem_dimPairs {ab : Blk × Blk} : ab ∈ dimPairs ↔ ab.1 ∈ dimNames ∧ ab.2 ∈ dimNames := by
  simp only [dimPairs, List.mem_flatMap, List.mem_map]
  constructor
  · rintro ⟨a, ha, b, hb, rfl⟩; exact ⟨ha, hb⟩
  · rintro ⟨ha, hb⟩; exact ⟨_, ha, _, hb, rfl⟩

theorem In_ex {c : Core K} (hx : c.xl = 0) (hw : c.wl = 0) {i : ℕ} (hi : i < c.tot) :
    ∃ a ∈ dimNames, c.In a i := by
  unfold tot at hi
  simp only [dimNames, List.mem_cons, List.not_mem_nil, or_false, exists_eq_or_imp,
    exists_eq_left, In, fin, deb, dim, hx, hw]
  omega

theorem In_lt {c : Core K} (hx : c.xl = 0) (hw : c.wl = 0) {a : Blk} (ha : a ∈ dimNames)
    {i : ℕ} (h : c.In a i) : i < c.tot := by
  simp only [dimNames, List.mem_cons, List.not_mem_nil, or_false] at ha
  simp only [In, fin] at h
  unfold tot
  rcases ha with rfl | rfl | rfl | rfl <;> simp [deb, dim, hx, hw] at h <;> omega

/-- Invariant of the first loop of `__add__` after writing the blocks of `D`. -/
def Inv1 (T : ℕ → ℕ → K) (c0 : Core K) (D : Blk × Blk → Prop) (c : Core K) : Prop :=
  SameBut c0 c ∧
  ((c.M.r = c0.tot ∧ c.M.c = c0.tot ∧
    ∀ ab, D ab → ∀ i j, c0.In ab.1 i → c0.In ab.2 j → c.M.e i j = T i j) ∨
   (c = c0 ∧ c.M.r ≠ c0.tot ∧ ∀ ab, D ab → c0.dim ab.1 = 0 ∨ c0.dim ab.2 = 0))

theorem setM_any (c0 c : Core K) (hx : c0.xl = 0) (hw : c0.wl = 0) (hs : SameBut c0 c)
    (hc : c.M.r = c0.tot → c.M.c = c0.tot) {a b : Blk} (ha : a ∈ dimNames) (hb : b ∈ dimNames)
    (V : Mat K) (hVr : V.r = c0.dim a) (hVc : V.c = c0.dim b) :
    ∃ c', c.setMat .M a b V = some c' ∧ SameBut c0 c' ∧ c'.M.r = c0.tot ∧ c'.M.c = c0.tot ∧
      ∀ i j, c'.M.e i j = if c0.In a i ∧ c0.In b j then V.e (i - c0.deb a) (j - c0.deb b)
        else if c.M.r = c0.tot then c.M.e i j else 0 := by
  obtain ⟨M, rfl⟩ : ∃ M, c = { c0 with M := M } := ⟨c.M, hs⟩
  by_cases hr : M.r = c0.tot
  · obtain ⟨M', h1, h2, h3, h4⟩ := (C04_set_M { c0 with M := M } hr a b
      (apart_dimNames _ hx hw ha hb) V).2 hVr hVc
    refine ⟨_, h1, rfl, h2.trans hr, h3.trans (hc hr), fun i j => ?_⟩
    rw [h4]
    simp only [hr, if_true]
    rfl
  · obtain ⟨M', h1, h2, h3, h4⟩ := (C04_set_M { c0 with M := zeros c0.tot c0.tot } rfl a b
      (apart_dimNames _ hx hw ha hb) V).2 hVr hVc
    refine ⟨{ c0 with M := M' }, ?_, rfl, h2, h3, fun i j => ?_⟩
    · rw [← h1]
      unfold setMat
      have : ({ c0 with M := M } : Core K).tot = c0.tot := rfl
      simp only [this, ne_eq, hr, not_false_eq_true, if_true, initM]
      have h' : (zeros c0.tot c0.tot : Mat K).r =
        ({ c0 with M := zeros c0.tot c0.tot } : Core K).tot := rfl
      simp only [h', not_true_eq_false, if_false]
    · rw [h4]
      simp only [hr, if_false]
      rfl

theorem loop1 (T : ℕ → ℕ → K) (c0 : Core K) (hx : c0.xl = 0) (hw : c0.wl = 0)
    (V : Blk × Blk → Mat K)
    (hV : ∀ ab ∈ dimPairs, (V ab).r = c0.dim ab.1 ∧ (V ab).c = c0.dim ab.2 ∧
      ∀ i j, c0.In ab.1 i → c0.In ab.2 j →
        (V ab).e (i - c0.deb ab.1) (j - c0.deb ab.2) = T i j) :
    ∀ (L : List (Blk × Blk)) (D : Blk × Blk → Prop) (c : Core K), (∀ ab ∈ L, ab ∈ dimPairs) →
      Inv1 T c0 D c →
      ∃ c', L.foldlM (fun (c : Core K) ab =>
        if 0 < (V ab).r ∧ 0 < (V ab).c then c.setMat .M ab.1 ab.2 (V ab) else some c) c = some c' ∧
        Inv1 T c0 (fun ab => D ab ∨ ab ∈ L) c' := by
  intro L
  induction L with
  | nil => intro D c _ h; exact ⟨c, rfl, by simpa using h⟩
  | cons ab L ih =>
    intro D c hL h
    have hab := hL ab (by simp)
    obtain ⟨hVr, hVc, hVe⟩ := hV ab hab
    obtain ⟨ha, hb⟩ := mem_dimPairs.1 hab
    have step : ∃ c', (if 0 < (V ab).r ∧ 0 < (V ab).c then c.setMat .M ab.1 ab.2 (V ab)
        else some c) = some c' ∧ Inv1 T c0 (fun q => D q ∨ q = ab) c' := by
      split_ifs with hpos
      · obtain ⟨c', e1, e2, e3, e4, e5⟩ := setM_any c0 c hx hw h.1
          (by rcases h.2 with h | h
              · exact fun _ => h.2.1
              · exact fun hh => absurd hh h.2.1) ha hb (V ab) hVr hVc
        refine ⟨c', e1, e2, Or.inl ⟨e3, e4, ?_⟩⟩
        intro q hq i j hi hj
        rw [e5]
        split_ifs with g1 g2
        · exact hVe i j g1.1 g1.2
        · rcases hq with hq | rfl
          · rcases h.2 with h' | h'
            · exact h'.2.2 q hq i j hi hj
            · exact absurd g2 h'.2.1
          · exact absurd ⟨hi, hj⟩ g1
        · rcases hq with hq | rfl
          · rcases h.2 with h' | h'
            · exact absurd h'.1 g2
            · exfalso
              have := h'.2.2 q hq
              simp only [In, fin] at hi hj
              omega
          · exact absurd ⟨hi, hj⟩ g1
      · refine ⟨c, rfl, h.1, ?_⟩
        have hz : c0.dim ab.1 = 0 ∨ c0.dim ab.2 = 0 := by rw [← hVr, ← hVc]; omega
        rcases h.2 with h' | h'
        · refine Or.inl ⟨h'.1, h'.2.1, ?_⟩
          rintro q (hq | rfl) i j hi hj
          · exact h'.2.2 q hq i j hi hj
          · exfalso; simp only [In, fin] at hi hj; omega
        · refine Or.inr ⟨h'.1, h'.2.1, ?_⟩
          rintro q (hq | rfl)
          · exact h'.2.2 q hq
          · exact hz
    obtain ⟨c', e1, e2⟩ := step
    obtain ⟨c'', e3, e4⟩ := ih _ c' (fun q hq => hL q (List.mem_cons_of_mem _ hq)) e2
    refine ⟨c'', ?_, ?_⟩
    · rw [List.foldlM_cons, e1]; exact e3
    · have : (fun q => D q ∨ q ∈ ab :: L) = (fun q => (D q ∨ q = ab) ∨ q ∈ L) := by
        funext q; simp [or_assoc]
      rw [this]; exact e4

theorem loop2 (T : ℕ → ℕ → K) (c0 : Core K) (hx : c0.xl = 0) (hw : c0.wl = 0) :
    ∀ (L : List (Blk × Blk)) (c : Core K), (∀ ab ∈ L, ab ∈ dimPairs) →
      SameBut c0 c → c.M.r = c0.tot → c.M.c = c0.tot →
      (∀ i < c0.tot, ∀ j < c0.tot, c.M.e i j = T i j) →
      ∃ c', L.foldlM (fun (c : Core K) ab =>
        if 0 < (c.getMat .M ab.1 ab.2).r ∧ 0 < (c.getMat .M ab.1 ab.2).c then
          c.setMat .M ab.1 ab.2 (c.getMat .M ab.1 ab.2) else some c) c = some c' ∧
        SameBut c0 c' ∧ c'.M.r = c0.tot ∧ c'.M.c = c0.tot ∧
        (∀ i < c0.tot, ∀ j < c0.tot, c'.M.e i j = T i j) := by
  intro L
  induction L with
  | nil => intro c _ h1 h2 h3 h4; exact ⟨c, rfl, h1, h2, h3, h4⟩
  | cons ab L ih =>
    intro c hL hs hr hc hT
    have hab := hL ab (by simp)
    obtain ⟨ha, hb⟩ := mem_dimPairs.1 hab
    obtain ⟨M, rfl⟩ : ∃ M, c = { c0 with M := M } := ⟨c.M, hs⟩
    have hsh := getMat_shape { c0 with M := M } hr hc (by simp [hx]) (by simp [hw]) .M ab.1 ab.2
    have step : ∃ c', (if 0 < (({ c0 with M := M } : Core K).getMat .M ab.1 ab.2).r ∧
          0 < (({ c0 with M := M } : Core K).getMat .M ab.1 ab.2).c then
          ({ c0 with M := M } : Core K).setMat .M ab.1 ab.2
            (({ c0 with M := M } : Core K).getMat .M ab.1 ab.2)
          else some { c0 with M := M }) = some c' ∧
        SameBut c0 c' ∧ c'.M.r = c0.tot ∧ c'.M.c = c0.tot ∧
        (∀ i < c0.tot, ∀ j < c0.tot, c'.M.e i j = T i j) := by
      split_ifs with hpos
      · obtain ⟨c', e1, e2, e3, e4, e5⟩ := setM_any c0 { c0 with M := M } hx hw rfl
          (fun _ => hc) ha hb _ hsh.1 hsh.2
        refine ⟨c', e1, e2, e3, e4, ?_⟩
        intro i hi j hj
        rw [e5]
        split_ifs with g1 g2
        · have d1 : ({ c0 with M := M } : Core K).deb ab.1 = c0.deb ab.1 :=
            (dim_congr (c := c0) rfl rfl rfl rfl rfl rfl ab.1).1
          have d2 : ({ c0 with M := M } : Core K).deb ab.2 = c0.deb ab.2 :=
            (dim_congr (c := c0) rfl rfl rfl rfl rfl rfl ab.2).1
          simp only [getMat, Mat.slice, part, d1, d2]
          rw [add_sub_cancel' g1.1.1, add_sub_cancel' g1.2.1]
          exact hT i hi j hj
        · exact hT i hi j hj
      · exact ⟨_, rfl, rfl, hr, hc, hT⟩
    obtain ⟨c', e1, e2, e3, e4, e5⟩ := step
    obtain ⟨c'', f1, f2⟩ := ih c' (fun q hq => hL q (List.mem_cons_of_mem _ hq)) e2 e3 e4 e5
    refine ⟨c'', ?_, f2⟩
    rw [List.foldlM_cons, e1]; exact f1

/-- The sum exists and its matrix is the union structure, index by index. -/
theorem addCores_spec (c1 c2 : Core K) (h1 : WF c1) (h2 : WF c2) :
    ∃ c, addCores c1 c2 = some c ∧
      c.x = c1.x ++ c2.x ∧ c.w = c1.w ++ c2.w ∧ c.u = c1.u ++ c2.u ∧ c.y = c1.y ++ c2.y ∧
      c.cu = c1.cu ++ c2.cu ∧ c.cy = c1.cy ++ c2.cy ∧ c.z = c1.z ++ c2.z ∧
      (∀ e, c.H e = c1.H e + c2.H e) ∧ c.connectors = c1.connectors ++ c2.connectors ∧
      c.dxH = none ∧ c.xl = 0 ∧ c.wl = 0 ∧
      c.M.r = c1.tot + c2.tot ∧ c.M.c = c1.tot + c2.tot ∧
      ∀ i < c1.tot + c2.tot, ∀ j < c1.tot + c2.tot,
        c.M.e i j = unionE c1.M c2.M (src c1 c2 i) (src c1 c2 j) := by
  set c0 : Core K := { (empty : Core K) with
    x := c1.x ++ c2.x, w := c1.w ++ c2.w, u := c1.u ++ c2.u, y := c1.y ++ c2.y,
    cu := c1.cu ++ c2.cu, cy := c1.cy ++ c2.cy } with hc0
  have ht : c0.tot = c1.tot + c2.tot := by
    simp only [hc0, tot, List.length_append]; omega
  have hx0 : c0.xl = 0 := rfl
  have hw0 : c0.wl = 0 := rfl
  let T : ℕ → ℕ → K := fun i j => unionE c1.M c2.M (src c1 c2 i) (src c1 c2 j)
  let V : Blk × Blk → Mat K := fun ab =>
    Mat.diag (c1.getMat .M ab.1 ab.2) (c2.getMat .M ab.1 ab.2)
  have hdim : ∀ a ∈ dimNames, c0.dim a = c1.dim a + c2.dim a := by
    intro a ha
    simp only [dimNames, List.mem_cons, List.not_mem_nil, or_false] at ha
    rcases ha with rfl | rfl | rfl | rfl <;> simp [dim, hc0]
  have hsrc : ∀ a ∈ dimNames, ∀ i, c0.In a i →
      src c1 c2 i = if i - c0.deb a < c1.dim a then .inl (c1.deb a + (i - c0.deb a))
        else .inr (c2.deb a + (i - c0.deb a - c1.dim a)) := by
    intro a ha i hi
    have w1 := h1.xl; have w2 := h2.xl; have w3 := h1.wl; have w4 := h2.wl
    simp only [dimNames, List.mem_cons, List.not_mem_nil, or_false] at ha
    unfold src
    rcases ha with rfl | rfl | rfl | rfl <;>
      simp only [In, fin, deb, dim, hc0, empty, List.length_append, Nat.sub_zero, Nat.zero_add,
        Nat.add_zero] at hi ⊢ <;>
      split_ifs <;> first | omega | (congr 1 <;> omega)
  have hV : ∀ ab ∈ dimPairs, (V ab).r = c0.dim ab.1 ∧ (V ab).c = c0.dim ab.2 ∧
      ∀ i j, c0.In ab.1 i → c0.In ab.2 j →
        (V ab).e (i - c0.deb ab.1) (j - c0.deb ab.2) = T i j := by
    intro ab hab
    obtain ⟨ha, hb⟩ := mem_dimPairs.1 hab
    have s1 := getMat_shape c1 h1.Mr h1.Mc h1.xl h1.wl .M ab.1 ab.2
    have s2 := getMat_shape c2 h2.Mr h2.Mc h2.xl h2.wl .M ab.1 ab.2
    refine ⟨?_, ?_, ?_⟩
    · show (c1.getMat .M ab.1 ab.2).r + (c2.getMat .M ab.1 ab.2).r = _
      rw [s1.1, s2.1, hdim _ ha]
    · show (c1.getMat .M ab.1 ab.2).c + (c2.getMat .M ab.1 ab.2).c = _
      rw [s1.2, s2.2, hdim _ hb]
    · intro i j hi hj
      show _ = unionE c1.M c2.M (src c1 c2 i) (src c1 c2 j)
      rw [hsrc _ ha i hi, hsrc _ hb j hj]
      simp only [V, Mat.diag, s1.1, s1.2]
      split_ifs <;> simp [unionE, getMat, Mat.slice, part]
  have hinit : Inv1 T c0 (fun _ => False) c0 := by
    refine ⟨rfl, ?_⟩
    by_cases h : c0.M.r = c0.tot
    · exact Or.inl ⟨h, by rw [← h]; rfl, by simp⟩
    · exact Or.inr ⟨rfl, h, by simp⟩
  obtain ⟨c', e1, e2⟩ := loop1 T c0 hx0 hw0 V hV dimPairs _ c0 (fun _ h => h) hinit
  have e3 : c'.M.r = c0.tot ∧ c'.M.c = c0.tot ∧
      ∀ i < c0.tot, ∀ j < c0.tot, c'.M.e i j = T i j := by
    rcases e2.2 with h | ⟨h3, h4, h5⟩
    · refine ⟨h.1, h.2.1, fun i hi j hj => ?_⟩
      obtain ⟨a, ha, hai⟩ := In_ex hx0 hw0 hi
      obtain ⟨b, hb, hbj⟩ := In_ex hx0 hw0 hj
      exact h.2.2 (a, b) (Or.inr (mem_dimPairs.2 ⟨ha, hb⟩)) i j hai hbj
    · exfalso
      have z : ∀ a ∈ dimNames, c0.dim a = 0 := fun a ha => by
        have := h5 (a, a) (Or.inr (mem_dimPairs.2 ⟨ha, ha⟩)); simpa using this
      have z1 := z .x (by simp [dimNames]); have z2 := z .w (by simp [dimNames])
      have z3 := z .y (by simp [dimNames]); have z4 := z .cy (by simp [dimNames])
      simp only [dim] at z1 z2 z3 z4
      apply h4
      rw [h3]
      show 0 = c0.tot
      unfold tot; omega
  obtain ⟨M', hM'⟩ : ∃ M, c' = { c0 with M := M } := ⟨c'.M, e2.1⟩
  subst hM'
  let c2' : Core K :=
    { c0 with
      M := M', H := fun e => c1.H e + c2.H e, z := c1.z ++ c2.z
      connectors := c1.connectors ++ c2.connectors
      forceWnl := c1.forceWnl ++ c2.forceWnl }
  obtain ⟨c'', f1, f2, f3, f4, f5⟩ := loop2 T c2' hx0 hw0 dimPairs c2' (fun _ h => h) rfl
    e3.1 e3.2.1 e3.2.2
  refine ⟨c'', ?_, ?_⟩
  · unfold addCores
    simp only [Option.bind_eq_bind]
    rw [show List.foldlM (fun (c : Core K) ab => if 0 < (Mat.diag (c1.getMat .M ab.1 ab.2)
      (c2.getMat .M ab.1 ab.2)).r ∧ 0 < (Mat.diag (c1.getMat .M ab.1 ab.2)
      (c2.getMat .M ab.1 ab.2)).c then c.setMat .M ab.1 ab.2 (Mat.diag (c1.getMat .M ab.1 ab.2)
      (c2.getMat .M ab.1 ab.2)) else some c) c0 dimPairs = some { c0 with M := M' } from e1]
    exact f1
  · have ht' : c2'.tot = c1.tot + c2.tot := ht
    rw [ht'] at f3 f4 f5
    rw [f2]
    exact ⟨rfl, rfl, rfl, rfl, rfl, rfl, rfl, fun _ => rfl, rfl, rfl, rfl, rfl, f3, f4, f5⟩

/-! ### Property theorems -/

/-- **C06**: the sum of two cores always exists; it has the concatenated variables and laws,
the total energy, the connectors of both, and its structure equations hold exactly when those
of both cores hold. -/
theorem C06_sum (c1 c2 : Core K) (h1 : WF c1) (h2 : WF c2) :
    ∃ c, addCores c1 c2 = some c ∧
      c.x = c1.x ++ c2.x ∧ c.w = c1.w ++ c2.w ∧ c.u = c1.u ++ c2.u ∧ c.y = c1.y ++ c2.y ∧
      c.cu = c1.cu ++ c2.cu ∧ c.cy = c1.cy ++ c2.cy ∧ c.z = c1.z ++ c2.z ∧
      (∀ e, c.H e = c1.H e + c2.H e) ∧ c.connectors = c1.connectors ++ c2.connectors ∧
      (∀ β α : Env K, StructEq c.labels c.M β α ↔
        StructEq c1.labels c1.M β α ∧ StructEq c2.labels c2.M β α) := by
  obtain ⟨c, e, k1, k2, k3, k4, k5, k6, k7, k8, k9, k10, k11, k12, k13, k14, k15⟩ :=
    addCores_spec c1 c2 h1 h2
  refine ⟨c, e, k1, k2, k3, k4, k5, k6, k7, k8, k9, ?_⟩
  intro β α
  have hl : c.labels = sumLabels c1 c2 := by simp [labels, sumLabels, k1, k2, k4, k6]
  have hlen : (sumLabels c1 c2).length = c1.tot + c2.tot := by
    simp only [sumLabels, List.length_append, tot]; omega
  unfold StructEq
  rw [hl, hlen, labels_length, labels_length]
  have rhs : ∀ i < c1.tot + c2.tot,
      ∑ j ∈ range (c1.tot + c2.tot), c.M.e i j * α ((sumLabels c1 c2).getD j "") =
      (match src c1 c2 i with
        | .inl k => ∑ j ∈ range c1.tot, c1.M.e k j * α (c1.labels.getD j "")
        | .inr k => ∑ j ∈ range c2.tot, c2.M.e k j * α (c2.labels.getD j "")) := by
    intro i hi
    obtain ⟨F, hF⟩ : ∃ F : ℕ ⊕ ℕ → K, F = fun s => unionE c1.M c2.M (src c1 c2 i) s *
      α (match s with
          | .inl k => c1.labels.getD k ""
          | .inr k => c2.labels.getD k "") := ⟨_, rfl⟩
    have : ∀ j ∈ range (c1.tot + c2.tot), c.M.e i j * α ((sumLabels c1 c2).getD j "") =
        F (src c1 c2 j) := by
      intro j hj
      rw [k15 i hi j (mem_range.1 hj), label_src, hF]
    rw [Finset.sum_congr rfl this, sum_src, hF]
    rcases src c1 c2 i with k | k <;> simp [unionE]
  constructor
  · intro h
    constructor
    · intro k hk
      obtain ⟨i, hi, hs⟩ := (src_surj c1 c2).1 k hk
      have := h i hi
      rw [rhs i hi, label_src, hs] at this
      exact this
    · intro k hk
      obtain ⟨i, hi, hs⟩ := (src_surj c1 c2).2 k hk
      have := h i hi
      rw [rhs i hi, label_src, hs] at this
      exact this
  · rintro ⟨ha, hb⟩ i hi
    rw [rhs i hi, label_src]
    rcases src_lt c1 c2 hi with ⟨k, hk, hk'⟩ | ⟨k, hk, hk'⟩
    · rw [hk]; exact ha k hk'
    · rw [hk]; exact hb k hk'

/-- **C06**: the sum is well-formed when the two cores share no variable name. -/
theorem C06_sum_wf (c1 c2 c : Core K) (h1 : WF c1) (h2 : WF c2)
    (hd : c1.labels.Disjoint c2.labels) (h : addCores c1 c2 = some c) : WF c := by
  obtain ⟨c', e, k1, k2, k3, k4, k5, k6, k7, k8, k9, k10, k11, k12, k13, k14, k15⟩ :=
    addCores_spec c1 c2 h1 h2
  rw [h] at e
  obtain rfl := Option.some.inj e
  have ht : c.tot = c1.tot + c2.tot := by
    simp only [tot, k1, k2, k4, k6, List.length_append]; omega
  refine ⟨k13.trans ht.symm, k14.trans ht.symm, ?_, ?_, ?_, ?_, ?_, ?_, ?_⟩
  · simp [k3, k4, h1.uy, h2.uy]
  · simp [k5, k6, h1.cucy, h2.cucy]
  · simp [k2, k7, h1.wz, h2.wz]
  · simp [k10]
  · simp [k11]
  · simp [k12]
  · have hp : c.labels.Perm (c1.labels ++ c2.labels) := by
      rw [← Multiset.coe_eq_coe]
      simp only [labels, k1, k2, k4, k6, ← Multiset.coe_add]
      abel
    rw [hp.nodup_iff]
    exact h1.nodup.append h2.nodup hd

theorem src_inj (c1 c2 : Core K) {i j : ℕ} (hi : i < c1.tot + c2.tot) (hj : j < c1.tot + c2.tot)
    (h : src c1 c2 i = src c1 c2 j) : i = j := by
  unfold tot at *
  unfold src at h
  simp only at h
  split_ifs at h <;> simp only [Sum.inl.injEq, Sum.inr.injEq, reduceCtorEq] at h <;> omega

/-- **C06**: power of the sum is the sum of the powers, for every vector of efforts. -/
theorem C06_power (c1 c2 c : Core K) (h1 : WF c1) (h2 : WF c2) (h : addCores c1 c2 = some c)
    (g : ℕ ⊕ ℕ → K) : c.M.quad (g ∘ src c1 c2) =
      c1.M.quad (fun k => g (.inl k)) + c2.M.quad (fun k => g (.inr k)) := by
  obtain ⟨c', e, k1, k2, k3, k4, k5, k6, k7, k8, k9, k10, k11, k12, k13, k14, k15⟩ :=
    addCores_spec c1 c2 h1 h2
  rw [h] at e
  obtain rfl := Option.some.inj e
  rw [quad_eq, quad_eq, quad_eq, k13, k14, h1.Mr, h1.Mc, h2.Mr, h2.Mc]
  obtain ⟨F, hF⟩ : ∃ F : ℕ ⊕ ℕ → ℕ ⊕ ℕ → K, F = fun s t => g s * unionE c1.M c2.M s t * g t :=
    ⟨_, rfl⟩
  obtain ⟨G, hG⟩ : ∃ G : ℕ ⊕ ℕ → K, G = fun s => ∑ j ∈ range c1.tot, F s (.inl j) +
    ∑ j ∈ range c2.tot, F s (.inr j) := ⟨_, rfl⟩
  have : ∀ i ∈ range (c1.tot + c2.tot), ∑ j ∈ range (c1.tot + c2.tot),
      (g ∘ src c1 c2) i * c.M.e i j * (g ∘ src c1 c2) j = G (src c1 c2 i) := by
    intro i hi
    have e1 : ∀ j ∈ range (c1.tot + c2.tot), (g ∘ src c1 c2) i * c.M.e i j * (g ∘ src c1 c2) j =
        (F (src c1 c2 i)) (src c1 c2 j) := by
      intro j hj
      rw [k15 i (mem_range.1 hi) j (mem_range.1 hj), hF]; rfl
    rw [sum_congr rfl e1, sum_src, hG]
  rw [sum_congr rfl this, sum_src, hG, hF]
  simp [unionE]

/-- Every vector on the sum is given by two vectors. -/
theorem exists_split (c1 c2 : Core K) (a : ℕ → K) :
    ∃ g : ℕ ⊕ ℕ → K, ∀ i < c1.tot + c2.tot, a i = g (src c1 c2 i) := by
  classical
  refine ⟨fun s => if h : ∃ i, i < c1.tot + c2.tot ∧ src c1 c2 i = s then a h.choose else 0, ?_⟩
  intro i hi
  have hex : ∃ i', i' < c1.tot + c2.tot ∧ src c1 c2 i' = src c1 c2 i := ⟨i, hi, rfl⟩
  simp only [hex, dif_pos]
  rw [src_inj c1 c2 hex.choose_spec.1 hi hex.choose_spec.2]

theorem quad_congr {A : Mat K} (h : A.r = A.c) {a b : ℕ → K} (hab : ∀ i < A.r, a i = b i) :
    A.quad a = A.quad b := by
  unfold quad
  exact dot_congr hab (fun i _ => mv_congr (fun j hj => hab j (by rw [h]; exact hj)) i)

/-- **C06**: the sum is conservative iff both cores are. -/
theorem C06_conservative_iff (h2' : (2 : K) ≠ 0) (c1 c2 c : Core K) (h1 : WF c1) (h2 : WF c2)
    (h : addCores c1 c2 = some c) : c.M.IsSkew ↔ c1.M.IsSkew ∧ c2.M.IsSkew := by
  obtain ⟨c', e, k⟩ := addCores_spec c1 c2 h1 h2
  rw [h] at e
  obtain rfl := Option.some.inj e
  have hr : c.M.r = c1.tot + c2.tot := k.2.2.2.2.2.2.2.2.2.2.2.2.1
  have hc : c.M.c = c1.tot + c2.tot := k.2.2.2.2.2.2.2.2.2.2.2.2.2.1
  rw [isSkew_iff_quad h2' _ (hr.trans hc.symm), isSkew_iff_quad h2' _ (h1.Mr.trans h1.Mc.symm),
    isSkew_iff_quad h2' _ (h2.Mr.trans h2.Mc.symm)]
  constructor
  · intro hq
    have hz : ∀ A : Mat K, A.quad (fun _ => 0) = 0 := fun A => by simp [quad, dot]
    constructor
    · intro a
      have := C06_power c1 c2 c h1 h2 h (fun | .inl k => a k | .inr _ => 0)
      rw [hq] at this
      simp only [hz, add_zero] at this
      exact this.symm
    · intro a
      have := C06_power c1 c2 c h1 h2 h (fun | .inl _ => 0 | .inr k => a k)
      rw [hq] at this
      simp only [hz, zero_add] at this
      exact this.symm
  · rintro ⟨q1, q2⟩ a
    obtain ⟨g, hg⟩ := exists_split c1 c2 a
    rw [quad_congr (hr.trans hc.symm) (b := g ∘ src c1 c2) (by rw [hr]; exact hg),
      C06_power c1 c2 c h1 h2 h, q1, q2, add_zero]

/-- **C06**: the sum is passive iff both cores are. -/
theorem C06_passive_iff {K : Type} [Field K] [LinearOrder K] [IsStrictOrderedRing K]
    (c1 c2 c : Core K) (h1 : WF c1) (h2 : WF c2)
    (h : addCores c1 c2 = some c) : c.M.Passive ↔ c1.M.Passive ∧ c2.M.Passive := by
  obtain ⟨c', e, k⟩ := addCores_spec c1 c2 h1 h2
  rw [h] at e
  obtain rfl := Option.some.inj e
  have hr : c.M.r = c1.tot + c2.tot := k.2.2.2.2.2.2.2.2.2.2.2.2.1
  have hc : c.M.c = c1.tot + c2.tot := k.2.2.2.2.2.2.2.2.2.2.2.2.2.1
  constructor
  · rintro ⟨_, hq⟩
    have hz : ∀ A : Mat K, A.quad (fun _ => 0) = 0 := fun A => by simp [quad, dot]
    refine ⟨⟨h1.Mr.trans h1.Mc.symm, fun a => ?_⟩, ⟨h2.Mr.trans h2.Mc.symm, fun a => ?_⟩⟩
    · have := C06_power c1 c2 c h1 h2 h (fun | .inl k => a k | .inr _ => 0)
      simp only [hz, add_zero] at this
      rw [← this]; exact hq _
    · have := C06_power c1 c2 c h1 h2 h (fun | .inl _ => 0 | .inr k => a k)
      simp only [hz, zero_add] at this
      rw [← this]; exact hq _
  · rintro ⟨⟨_, q1⟩, ⟨_, q2⟩⟩
    refine ⟨hr.trans hc.symm, fun a => ?_⟩
    obtain ⟨g, hg⟩ := exists_split c1 c2 a
    rw [quad_congr (hr.trans hc.symm) (b := g ∘ src c1 c2) (by rw [hr]; exact hg),
      C06_power c1 c2 c h1 h2 h]
    linarith [q1 (fun k => g (.inl k)), q2 (fun k => g (.inr k))]

/-! Concrete case: two cores with different block sizes and distinct names. -/

/-- One state and one port. -/
def exA : Core ℚ :=
  { (Core.empty : Core ℚ) with
    x := ["xa"], u := ["ua"], y := ["ya"], M := ⟨2, 2, fun i j => (i : ℚ) - j⟩ }

/-- Two states, one dissipation, one port. -/
def exB : Core ℚ :=
  { (Core.empty : Core ℚ) with
    x := ["xb", "xc"], w := ["wb"], z := [fun e => 2 * e "wb"], u := ["ub"], y := ["yb"],
    M := ⟨4, 4, fun i j => (i : ℚ) - 3 * j⟩ }

theorem exA_wf : WF exA := ⟨rfl, rfl, rfl, rfl, rfl, by simp [exA, Core.empty],
  by simp [exA, Core.empty], by simp [exA, Core.empty], by decide⟩
theorem exB_wf : WF exB := ⟨rfl, rfl, rfl, rfl, rfl, by simp [exB, Core.empty],
  by simp [exB, Core.empty], by simp [exB, Core.empty], by decide⟩
example : exA.labels.Disjoint exB.labels := by
  simp [List.Disjoint, labels, exA, exB, Core.empty]
example : (addCores exA exB).map (fun c => (c.x, c.M.r, c.M.e 1 5)) =
    some (["xa", "xb", "xc"], 6, -9) := by decide +kernel

end Core
end Pyphs
