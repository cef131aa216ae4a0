/-
Invariants of the analysis.
-/
import Verif.Graph.Steps
import Mathlib.Data.List.Perm.Basic
import Mathlib.Data.List.Nodup

namespace Pyphs
namespace Graph

variable {K : Type} [Inv K]

/-- Moves of the whole analysis. -/
inductive Any : Seg K → Seg K → Prop
  | move {s t} : Step s t → Any s t
  | unlock {s t} : Unl s t → Any s t

abbrev ReachAny : Seg K → Seg K → Prop := Relation.ReflTransGen Any

theorem Reach.any {s t : Seg K} (h : Reach s t) : ReachAny s t := by
  induction h with
  | refl => exact .refl
  | tail _ h ih => exact ih.tail (.move h)

theorem Any.labels {s t : Seg K} (h : Any s t) : t.labels.Perm s.labels := by
  cases h with
  | move h => exact h.labels
  | unlock h => exact h.labels

theorem ReachAny.labels {s t : Seg K} (h : ReachAny s t) : t.labels.Perm s.labels := by
  induction h with
  | refl => exact List.Perm.refl _
  | tail _ h ih => exact h.labels.trans ih

/-! ### Edges and incidence -/

omit [Inv K] in
theorem zr_edge (n : ℕ) (c : Col K) : (zr n c).edge = c.edge := rfl
omit [Inv K] in
theorem zr_g (n : ℕ) (c : Col K) : (zr n c).g = c.g := rfl
omit [Inv K] in
theorem single_edge (n : ℕ) (c : Col K) : (single n c).edge = c.edge := rfl
omit [Inv K] in
theorem single_g (n : ℕ) (c : Col K) : (single n c).g = c.g := rfl

/-- The edges are those of the graph; the ratio of the effort-controlled gyrators is inverted. -/
def EdgesOf (edges : List (Edge K)) (s : Seg K) : Prop :=
  ∃ A0, s.A.map (·.edge) = A0.map ecEdge ∧
    (A0 ++ (s.B ++ s.C).map (·.edge)).Perm edges

theorem EdgesOf.step {edges : List (Edge K)} {s t : Seg K} (h : Any s t)
    (hs : EdgesOf edges s) : EdgesOf edges t := by
  obtain ⟨A0, h1, h2⟩ := hs
  rcases h with h | h
  · cases h with
    | ec A P c Q C I =>
      refine ⟨c.edge :: A0, by simpa [ecCol] using h1, ?_⟩
      simp only [List.map_append, List.map_cons] at h2 ⊢
      refine List.Perm.trans ?_ h2
      have e1 : A0 ++ (P.map (·.edge) ++ c.edge :: Q.map (·.edge) ++ C.map (·.edge)) =
          (A0 ++ P.map (·.edge)) ++ c.edge :: (Q.map (·.edge) ++ C.map (·.edge)) := by simp
      have e2 : c.edge :: A0 ++ (P.map (·.edge) ++ Q.map (·.edge) ++ C.map (·.edge)) =
          c.edge :: ((A0 ++ P.map (·.edge)) ++ (Q.map (·.edge) ++ C.map (·.edge))) := by simp
      rw [e1, e2]
      exact List.perm_middle.symm
    | fc A P c Q C I =>
      refine ⟨A0, h1, ?_⟩
      refine List.Perm.trans (List.Perm.append_left _ ?_) h2
      simp only [List.map_append, List.map_cons, List.map_nil, List.append_assoc,
        List.cons_append]
      refine List.Perm.append_left _ ?_
      rw [← List.append_assoc]
      exact List.perm_append_comm
    | dcB A P c Q C I n hI hc =>
      refine ⟨A0, by simpa [zr, Function.comp_def] using h1, ?_⟩
      refine List.Perm.trans (List.Perm.append_left _ ?_) h2
      simp only [List.map_append, List.map_cons, List.map_nil, List.append_assoc,
        List.cons_append, List.map_map, Function.comp_def, zr_edge, single_edge]
      refine List.Perm.append_left _ ?_
      rw [← List.append_assoc]
      exact List.perm_append_comm
    | dcC A B P c Q I n hI hc =>
      refine ⟨A0, by simpa [zr, Function.comp_def] using h1, ?_⟩
      simpa [zr, single, Function.comp_def] using h2
  · cases h with
    | unB A P c Q C I n hr => exact ⟨A0, h1, by simpa [zr] using h2⟩
    | unC A B P c Q I n hr => exact ⟨A0, h1, by simpa [zr] using h2⟩

/-- Every column of the second matrix is the incidence of its edge. -/
def Aligned (nodes : List String) (s : Seg K) : Prop :=
  ∀ c ∈ s.all, c.g = incidence nodes c.edge

theorem incidence_ecEdge (nodes : List String) (d : Edge K) :
    incidence nodes (ecEdge d) = incidence nodes d := by
  unfold ecEdge; split <;> rfl

theorem Aligned.step {nodes : List String} {s t : Seg K} (h : Any s t)
    (hs : Aligned nodes s) : Aligned nodes t := by
  have keyzr : ∀ (n : ℕ) (l : List (Col K)), (∀ c ∈ l, c ∈ s.all) → ∀ c ∈ l.map (zr n),
      c.g = incidence nodes c.edge := by
    intro n l hl c hc
    obtain ⟨c', h', rfl⟩ := List.mem_map.1 hc
    exact hs c' (hl c' h')
  intro c hc
  rcases h with h | h
  · cases h with
    | ec A P c' Q C I =>
      simp only [Seg.all, List.mem_append, List.mem_cons] at hc
      rcases hc with ((rfl | hc) | hc | hc) | hc
      · rw [ecCol, incidence_ecEdge]; exact hs c' (by simp [Seg.all])
      all_goals exact hs c (by simp [Seg.all, hc])
    | fc A P c' Q C I =>
      refine hs c ?_
      simp only [Seg.all, List.mem_append, List.mem_cons, List.mem_nil_iff] at hc ⊢
      tauto
    | dcB A P c' Q C I n hI h1 =>
      simp only [Seg.all, List.mem_append, List.mem_singleton] at hc
      rcases hc with (hc | hc | hc) | hc | rfl
      · exact keyzr n A (by intro x hx; simp [Seg.all, hx]) c hc
      · exact keyzr n P (by intro x hx; simp [Seg.all, hx]) c hc
      · exact keyzr n Q (by intro x hx; simp [Seg.all, hx]) c hc
      · exact keyzr n C (by intro x hx; simp [Seg.all, hx]) c hc
      · exact hs c' (by simp [Seg.all])
    | dcC A B P c' Q I n hI h1 =>
      simp only [Seg.all, List.mem_append, List.mem_cons] at hc
      rcases hc with (hc | hc) | hc | rfl | hc
      · exact keyzr n A (by intro x hx; simp [Seg.all, hx]) c hc
      · exact keyzr n B (by intro x hx; simp [Seg.all, hx]) c hc
      · exact keyzr n P (by intro x hx; simp [Seg.all, hx]) c hc
      · exact hs c' (by simp [Seg.all])
      · exact keyzr n Q (by intro x hx; simp [Seg.all, hx]) c hc
  · cases h with
    | unB A P c' Q C I n hr =>
      simp only [Seg.all, List.mem_append, List.mem_cons] at hc
      rcases hc with (hc | hc | rfl | hc) | hc
      · exact hs c (by simp [Seg.all, hc])
      · exact hs c (by simp [Seg.all, hc])
      · exact hs c' (by simp [Seg.all])
      · exact hs c (by simp [Seg.all, hc])
      · exact hs c (by simp [Seg.all, hc])
    | unC A B P c' Q I n hr =>
      simp only [Seg.all, List.mem_append, List.mem_cons] at hc
      rcases hc with (hc | hc) | hc | rfl | hc
      · exact hs c (by simp [Seg.all, hc])
      · exact hs c (by simp [Seg.all, hc])
      · exact hs c (by simp [Seg.all, hc])
      · exact hs c' (by simp [Seg.all])
      · exact hs c (by simp [Seg.all, hc])

/-! ### The matrix of possible controls -/

/-- Entry of a column. -/
def Col.at (c : Col K) (n : ℕ) : ℕ := c.l.getD n 0

theorem getD_set (l : List ℕ) (n m v : ℕ) :
    (l.set n v).getD m 0 = if m = n ∧ n < l.length then v else l.getD m 0 := by
  simp only [List.getD_eq_getElem?_getD, List.getElem?_set]
  by_cases h : n = m
  · subst h
    by_cases h2 : n < l.length <;> simp [h2]
  · simp [h, Ne.symm h]

omit [Inv K] in
theorem zr_at (n m : ℕ) (c : Col K) : (zr n c).at m = if m = n then 0 else c.at m := by
  unfold Col.at zr
  rw [getD_set]
  by_cases h : m = n
  · subst h
    by_cases h2 : m < c.l.length
    · simp [h2]
    · simp [h2]
  · simp [h]

theorem zeros_at (l : List ℕ) (m : ℕ) : (zeros l).getD m 0 = 0 := by
  simp only [zeros, List.getD_eq_getElem?_getD, List.getElem?_map]
  cases l[m]? <;> rfl

omit [Inv K] in
theorem single_at (n m : ℕ) (c : Col K) (hn : n < c.l.length) :
    (single n c).at m = if m = n then 1 else 0 := by
  unfold Col.at single
  simp only
  rw [getD_set, getD_set]
  by_cases h : m = n
  · simp [h, zeros, hn]
  · rw [if_neg (by simp [h]), if_neg (by simp [h]), zeros_at, if_neg h]

theorem ecCol_at (c : Col K) (m : ℕ) : (ecCol c).at m = 0 := zeros_at _ _

omit [Inv K] in
theorem lt_of_at {c : Col K} {n : ℕ} (h : c.at n = 1) : n < c.l.length := by
  by_contra hn
  unfold Col.at at h
  rw [List.getD_eq_getElem?_getD, List.getElem?_eq_none (by omega)] at h
  exact absurd h (by simp)

/-- What the analysis keeps true of the matrix. `free n`: node `n` is not the reference. -/
structure Good (free : ℕ → Prop) (s : Seg K) : Prop where
  bin : ∀ c ∈ s.all, ∀ n, c.at n ≤ 1
  ref : ∀ c ∈ s.all, ∀ n, c.at n = 1 → free n
  inc : ∀ c ∈ s.all, ∀ n, c.at n = 1 → c.g.getD n 0 ≠ 0
  nodup : s.I.Nodup
  mem : ∀ n ∈ s.I, free n
  ecz : ∀ c ∈ s.A, ∀ n, c.at n = 0
  det : ∀ n, free n → n ∉ s.I → ∃ P c Q, s.C = P ++ c :: Q ∧
    (∀ m, c.at m = if m = n then 1 else 0) ∧ ∀ c' ∈ s.A ++ s.B ++ P ++ Q, c'.at n = 0

omit [Inv K] in
theorem rowSum_append (n : ℕ) (l l' : List (Col K)) :
    rowSum n (l ++ l') = rowSum n l + rowSum n l' := by
  simp [rowSum]

omit [Inv K] in
theorem rowSum_cons (n : ℕ) (c : Col K) (l : List (Col K)) :
    rowSum n (c :: l) = c.at n + rowSum n l := by
  simp [rowSum, Col.at]

omit [Inv K] in
theorem rowSum_zero {n : ℕ} {l : List (Col K)} (h : ∀ c ∈ l, c.at n = 0) : rowSum n l = 0 := by
  induction l with
  | nil => rfl
  | cons c l ih =>
    rw [rowSum_cons, h c (List.mem_cons_self ..), ih fun x hx => h x (List.mem_cons_of_mem _ hx)]

/-- Two splittings of the same list. -/
theorem append_cons_cases {α : Type} {P Q P' Q' : List α} {c c' : α}
    (h : P ++ c :: Q = P' ++ c' :: Q') :
    (P = P' ∧ c = c' ∧ Q = Q') ∨ (∃ R, P = P' ++ c' :: R ∧ Q' = R ++ c :: Q) ∨
      (∃ R, P' = P ++ c :: R ∧ Q = R ++ c' :: Q') := by
  rw [List.append_eq_append_iff] at h
  rcases h with ⟨R, h1, h2⟩ | ⟨R, h1, h2⟩
  · cases R with
    | nil => simp at h1 h2; exact Or.inl ⟨h1.symm, h2.1, h2.2⟩
    | cons r R =>
      simp at h2
      exact Or.inr (Or.inr ⟨R, by rw [h1, h2.1], h2.2⟩)
  · cases R with
    | nil => simp at h1 h2; exact Or.inl ⟨h1, h2.1.symm, h2.2.symm⟩
    | cons r R =>
      simp at h2
      exact Or.inr (Or.inl ⟨R, by rw [h1, h2.1], h2.2⟩)

/-- Properties of all columns after a move that changes columns by `zr n` or `single n`. -/
theorem Good.step {free : ℕ → Prop} {s t : Seg K} (h : Any s t) (hs : Good free s) :
    Good free t := by
  -- pointwise facts are inherited by `zr`
  have hzr : ∀ (n : ℕ) (c : Col K), c ∈ s.all → (∀ m, (zr n c).at m ≤ 1) ∧
      (∀ m, (zr n c).at m = 1 → free m) ∧ (∀ m, (zr n c).at m = 1 → (zr n c).g.getD m 0 ≠ 0) := by
    intro n c hc
    refine ⟨fun m => ?_, fun m hm => ?_, fun m hm => ?_⟩
    · rw [zr_at]; split
      · omega
      · exact hs.bin c hc m
    · rw [zr_at] at hm; split at hm
      · omega
      · exact hs.ref c hc m hm
    · rw [zr_at] at hm; split at hm
      · omega
      · exact hs.inc c hc m hm
  have hsg : ∀ (n : ℕ) (c : Col K), c ∈ s.all → c.at n = 1 → (∀ m, (single n c).at m ≤ 1) ∧
      (∀ m, (single n c).at m = 1 → free m) ∧
      (∀ m, (single n c).at m = 1 → (single n c).g.getD m 0 ≠ 0) := by
    intro n c hc h1
    have hl := lt_of_at h1
    refine ⟨fun m => ?_, fun m hm => ?_, fun m hm => ?_⟩
    · rw [single_at _ _ _ hl]; split <;> omega
    · rw [single_at _ _ _ hl] at hm; split at hm
      · rename_i e; subst e; exact hs.ref c hc m h1
      · omega
    · rw [single_at _ _ _ hl] at hm; split at hm
      · rename_i e; subst e; exact hs.inc c hc m h1
      · omega
  have hold : ∀ c ∈ s.all, (∀ m, c.at m ≤ 1) ∧ (∀ m, c.at m = 1 → free m) ∧
      (∀ m, c.at m = 1 → c.g.getD m 0 ≠ 0) := fun c hc => ⟨hs.bin c hc, hs.ref c hc, hs.inc c hc⟩
  -- the three pointwise facts for the new columns
  have hpt : ∀ c ∈ t.all, (∀ m, c.at m ≤ 1) ∧ (∀ m, c.at m = 1 → free m) ∧
      (∀ m, c.at m = 1 → c.g.getD m 0 ≠ 0) := by
    intro c hc
    rcases h with h | h
    · cases h with
      | ec A P c' Q C I =>
        simp only [Seg.all, List.mem_append, List.mem_cons] at hc
        rcases hc with ((rfl | hc) | hc | hc) | hc
        · refine ⟨fun m => ?_, fun m hm => ?_, fun m hm => ?_⟩
          · rw [ecCol_at]; omega
          · rw [ecCol_at] at hm; omega
          · rw [ecCol_at] at hm; omega
        all_goals exact hold c (by simp [Seg.all, hc])
      | fc A P c' Q C I =>
        refine hold c ?_
        simp only [Seg.all, List.mem_append, List.mem_cons, List.mem_nil_iff] at hc ⊢
        tauto
      | dcB A P c' Q C I n hI h1 =>
        simp only [Seg.all, List.mem_append, List.mem_singleton, List.mem_map] at hc
        rcases hc with (⟨x, hx, rfl⟩ | ⟨x, hx, rfl⟩ | ⟨x, hx, rfl⟩) | ⟨x, hx, rfl⟩ | rfl
        · exact hzr n x (by simp [Seg.all, hx])
        · exact hzr n x (by simp [Seg.all, hx])
        · exact hzr n x (by simp [Seg.all, hx])
        · exact hzr n x (by simp [Seg.all, hx])
        · exact hsg n c' (by simp [Seg.all]) h1
      | dcC A B P c' Q I n hI h1 =>
        simp only [Seg.all, List.mem_append, List.mem_cons, List.mem_map] at hc
        rcases hc with (⟨x, hx, rfl⟩ | ⟨x, hx, rfl⟩) | ⟨x, hx, rfl⟩ | rfl | ⟨x, hx, rfl⟩
        · exact hzr n x (by simp [Seg.all, hx])
        · exact hzr n x (by simp [Seg.all, hx])
        · exact hzr n x (by simp [Seg.all, hx])
        · exact hsg n c' (by simp [Seg.all]) h1
        · exact hzr n x (by simp [Seg.all, hx])
    · cases h with
      | unB A P c' Q C I n hr =>
        simp only [Seg.all, List.mem_append, List.mem_cons] at hc
        rcases hc with (hc | hc | rfl | hc) | hc
        · exact hold c (by simp [Seg.all, hc])
        · exact hold c (by simp [Seg.all, hc])
        · exact hzr n c' (by simp [Seg.all])
        · exact hold c (by simp [Seg.all, hc])
        · exact hold c (by simp [Seg.all, hc])
      | unC A B P c' Q I n hr =>
        simp only [Seg.all, List.mem_append, List.mem_cons] at hc
        rcases hc with (hc | hc) | hc | rfl | hc
        · exact hold c (by simp [Seg.all, hc])
        · exact hold c (by simp [Seg.all, hc])
        · exact hold c (by simp [Seg.all, hc])
        · exact hzr n c' (by simp [Seg.all])
        · exact hold c (by simp [Seg.all, hc])
  have hz : ∀ (n m : ℕ) (l : List (Col K)), (∀ c ∈ l, c.at m = 0) → ∀ c ∈ l.map (zr n), c.at m = 0 := by
    intro n m l hl c hc
    obtain ⟨x, hx, rfl⟩ := List.mem_map.1 hc
    rw [zr_at]; split
    · rfl
    · exact hl x hx
  have hzn : ∀ (n : ℕ) (l : List (Col K)), ∀ c ∈ l.map (zr n), c.at n = 0 := by
    intro n l c hc
    obtain ⟨x, hx, rfl⟩ := List.mem_map.1 hc
    rw [zr_at]; simp
  refine ⟨fun c hc => (hpt c hc).1, fun c hc => (hpt c hc).2.1, fun c hc => (hpt c hc).2.2, ?_, ?_, ?_, ?_⟩
  · rcases h with h | h
    · cases h
      · exact hs.nodup
      · exact hs.nodup
      · exact hs.nodup.erase _
      · exact hs.nodup.erase _
    · cases h <;> exact hs.nodup
  · rcases h with h | h
    · cases h
      · exact hs.mem
      · exact hs.mem
      · exact fun n hn => hs.mem n (List.mem_of_mem_erase hn)
      · exact fun n hn => hs.mem n (List.mem_of_mem_erase hn)
    · cases h <;> exact hs.mem
  · rcases h with h | h
    · cases h with
      | ec A P c' Q C I =>
        intro c hc n
        rcases List.mem_cons.1 hc with rfl | hc
        · exact ecCol_at _ _
        · exact hs.ecz c hc n
      | fc A P c' Q C I => exact hs.ecz
      | dcB A P c' Q C I n hI h1 =>
        intro c hc m
        exact hz n m A (fun x hx => hs.ecz x hx m) c hc
      | dcC A B P c' Q I n hI h1 =>
        intro c hc m
        exact hz n m A (fun x hx => hs.ecz x hx m) c hc
    · cases h <;> exact hs.ecz
  · intro n hf hn
    rcases h with h | h
    · cases h with
      | ec A P c' Q C I =>
        obtain ⟨P1, c1, Q1, e1, e2, e3⟩ := hs.det n hf hn
        refine ⟨P1, c1, Q1, e1, e2, ?_⟩
        intro x hx
        simp only [List.mem_append, List.mem_cons] at hx e3
        rcases hx with (((rfl | hx) | hx | hx) | hx) | hx
        · exact ecCol_at _ _
        all_goals exact e3 x (by simp [hx])
      | fc A P c' Q C I =>
        obtain ⟨P1, c1, Q1, e1, e2, e3⟩ := hs.det n hf hn
        refine ⟨P1, c1, Q1 ++ [c'], by simp only at e1 ⊢; rw [e1]; simp, e2, ?_⟩
        intro x hx
        refine e3 x ?_
        simp only [List.mem_append, List.mem_cons, List.mem_nil_iff] at hx ⊢
        tauto
      | dcB A P c' Q C I n' hI h1 =>
        have hl : n' < c'.l.length := lt_of_at h1
        by_cases hnn : n = n'
        · subst hnn
          refine ⟨C.map (zr n), single n c', [], rfl, fun m => single_at _ _ _ hl, ?_⟩
          intro x hx
          simp only [List.mem_append, List.mem_nil_iff, or_false] at hx
          rcases hx with (hx | hx | hx) | hx <;> exact hzn n _ x hx
        · have hn' : n ∉ I := fun hm => hn ((List.mem_erase_of_ne hnn).2 hm)
          obtain ⟨P1, c1, Q1, e1, e2, e3⟩ := hs.det n hf hn'
          simp only at e1 e3
          refine ⟨P1.map (zr n'), zr n' c1, Q1.map (zr n') ++ [single n' c'], by simp [e1], ?_, ?_⟩
          · intro m
            rw [zr_at, e2 m]
            by_cases hm : m = n'
            · simp [hm, Ne.symm hnn]
            · simp [hm]
          · intro x hx
            simp only [List.mem_append, List.mem_singleton] at hx
            rcases hx with ((hx | hx | hx) | hx) | hx | rfl
            · exact hz n' n A (fun y hy => e3 y (by simp [hy])) x hx
            · exact hz n' n P (fun y hy => e3 y (by simp [hy])) x hx
            · exact hz n' n Q (fun y hy => e3 y (by simp [hy])) x hx
            · exact hz n' n P1 (fun y hy => e3 y (by simp [hy])) x hx
            · exact hz n' n Q1 (fun y hy => e3 y (by simp [hy])) x hx
            · rw [single_at _ _ _ hl]; simp [hnn]
      | dcC A B P c' Q I n' hI h1 =>
        have hl : n' < c'.l.length := lt_of_at h1
        by_cases hnn : n = n'
        · subst hnn
          refine ⟨P.map (zr n), single n c', Q.map (zr n), rfl, fun m => single_at _ _ _ hl, ?_⟩
          intro x hx
          simp only [List.mem_append] at hx
          rcases hx with ((hx | hx) | hx) | hx <;> exact hzn n _ x hx
        · have hn' : n ∉ I := fun hm => hn ((List.mem_erase_of_ne hnn).2 hm)
          obtain ⟨P1, c1, Q1, e1, e2, e3⟩ := hs.det n hf hn'
          simp only at e1 e3
          have e2' : ∀ m, (zr n' c1).at m = if m = n then 1 else 0 := by
            intro m
            rw [zr_at, e2 m]
            by_cases hm : m = n'
            · simp [hm, Ne.symm hnn]
            · simp [hm]
          rcases append_cons_cases e1 with ⟨rfl, rfl, rfl⟩ | ⟨R, rfl, rfl⟩ | ⟨R, rfl, rfl⟩
          · have := e2 n'
            rw [if_neg (Ne.symm hnn)] at this
            exact absurd (h1.symm.trans this) (by omega)
          · refine ⟨P1.map (zr n'), zr n' c1, R.map (zr n') ++ single n' c' :: Q.map (zr n'),
              by simp, e2', ?_⟩
            intro x hx
            simp only [List.mem_append, List.mem_cons] at hx
            rcases hx with ((hx | hx) | hx) | hx | rfl | hx
            · exact hz n' n A (fun y hy => e3 y (by simp [hy])) x hx
            · exact hz n' n B (fun y hy => e3 y (by simp [hy])) x hx
            · exact hz n' n P1 (fun y hy => e3 y (by simp [hy])) x hx
            · exact hz n' n R (fun y hy => e3 y (by simp [hy])) x hx
            · rw [single_at _ _ _ hl]; simp [hnn]
            · exact hz n' n Q (fun y hy => e3 y (by simp [hy])) x hx
          · refine ⟨P.map (zr n') ++ single n' c' :: R.map (zr n'), zr n' c1, Q1.map (zr n'),
              by simp, e2', ?_⟩
            intro x hx
            simp only [List.mem_append, List.mem_cons] at hx
            rcases hx with ((hx | hx) | hx | rfl | hx) | hx
            · exact hz n' n A (fun y hy => e3 y (by simp [hy])) x hx
            · exact hz n' n B (fun y hy => e3 y (by simp [hy])) x hx
            · exact hz n' n P (fun y hy => e3 y (by simp [hy])) x hx
            · rw [single_at _ _ _ hl]; simp [hnn]
            · exact hz n' n R (fun y hy => e3 y (by simp [hy])) x hx
            · exact hz n' n Q1 (fun y hy => e3 y (by simp [hy])) x hx
    · cases h with
      | unB A P c' Q C I n' hr =>
        obtain ⟨P1, c1, Q1, e1, e2, e3⟩ := hs.det n hf hn
        refine ⟨P1, c1, Q1, e1, e2, ?_⟩
        intro x hx
        simp only [List.mem_append, List.mem_cons] at hx e3
        rcases hx with ((hx | hx | rfl | hx) | hx) | hx
        · exact e3 x (by simp [hx])
        · exact e3 x (by simp [hx])
        · rw [zr_at]; split
          · rfl
          · exact e3 c' (by simp)
        all_goals exact e3 x (by simp [hx])
      | unC A B P c' Q I n' hr =>
        obtain ⟨P1, c1, Q1, e1, e2, e3⟩ := hs.det n hf hn
        simp only at e1 e3
        have hzr' : ∀ x : Col K, x.at n = 0 → (zr n' x).at n = 0 := by
          intro x hx; rw [zr_at]; split
          · rfl
          · exact hx
        rcases append_cons_cases e1 with ⟨rfl, rfl, rfl⟩ | ⟨R, rfl, rfl⟩ | ⟨R, rfl, rfl⟩
        · have hnn : n' ≠ n := by
            rintro rfl
            rw [rowSum_append, rowSum_append, rowSum_cons, e2 n', if_pos rfl,
              rowSum_zero (l := B) (fun y hy => e3 y (by simp [hy])),
              rowSum_zero (l := P) (fun y hy => e3 y (by simp [hy])),
              rowSum_zero (l := Q) (fun y hy => e3 y (by simp [hy]))] at hr
            omega
          refine ⟨P, zr n' c', Q, rfl, ?_, e3⟩
          intro m
          rw [zr_at, e2 m]
          by_cases hm : m = n'
          · simp [hm, hnn]
          · simp [hm]
        · refine ⟨P1, c1, R ++ zr n' c' :: Q, by simp, e2, ?_⟩
          intro x hx
          simp only [List.mem_append, List.mem_cons] at hx
          rcases hx with ((hx | hx) | hx) | hx | rfl | hx
          · exact e3 x (by simp [hx])
          · exact e3 x (by simp [hx])
          · exact e3 x (by simp [hx])
          · exact e3 x (by simp [hx])
          · exact hzr' _ (e3 c' (by simp))
          · exact e3 x (by simp [hx])
        · refine ⟨P ++ zr n' c' :: R, c1, Q1, by simp, e2, ?_⟩
          intro x hx
          simp only [List.mem_append, List.mem_cons] at hx
          rcases hx with ((hx | hx) | hx | rfl | hx) | hx
          · exact e3 x (by simp [hx])
          · exact e3 x (by simp [hx])
          · exact e3 x (by simp [hx])
          · exact hzr' _ (e3 c' (by simp))
          · exact e3 x (by simp [hx])
          · exact e3 x (by simp [hx])

/-- The three invariants together. -/
structure Invar (nodes : List String) (edges : List (Edge K)) (free : ℕ → Prop) (s : Seg K) :
    Prop where
  edgesOf : EdgesOf edges s
  aligned : Aligned nodes s
  good : Good free s
  labels : s.labels.Nodup

theorem Invar.reach {nodes : List String} {edges : List (Edge K)} {free : ℕ → Prop} {s t : Seg K}
    (hs : Invar nodes edges free s) (h : ReachAny s t) : Invar nodes edges free t := by
  induction h with
  | refl => exact hs
  | tail _ h ih =>
    exact ⟨ih.edgesOf.step h, ih.aligned.step h, ih.good.step h, h.labels.nodup_iff.2 ih.labels⟩

end Graph
end Pyphs
