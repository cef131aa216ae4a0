/-
C90: the tables of the documentation are grids, and the cells can be read back from them.
-/
import Verif.Doc.Table
import Mathlib.Algebra.BigOperators.Group.Finset.Basic
import Mathlib.Data.List.GetD
import Mathlib.Tactic.Ring

namespace Pyphs
namespace Doc

/-- Length of the longest cell of column `i`. -/
def width (rows : List (List Text)) (i : ℕ) : ℕ := (rows.map fun r => (r.getD i []).length).foldr max 0

/-- Position of the separator on the left of column `i`. -/
def offset (rows : List (List Text)) (i : ℕ) : ℕ := ∑ j ∈ Finset.range i, (width rows j + 3)

/-! ### The widths -/

theorem foldl_max (l : List Text) (a : ℕ) :
    l.foldl (fun m c => max m c.length) a = max a ((l.map List.length).foldr max 0) := by
  induction l generalizing a with
  | nil => simp
  | cons c l ih => simp [ih, max_assoc]

theorem mapM_get {content : List (List Text)} {i : ℕ} (h : ∀ c ∈ content, i < c.length) :
    content.mapM (fun c => c[i]?) = some (content.map fun c => c.getD i []) := by
  induction content with
  | nil => rfl
  | cons c l ih =>
    rw [List.mapM_cons, ih fun c hc => h c (List.mem_cons_of_mem _ hc),
      List.getElem?_eq_getElem (h c List.mem_cons_self)]
    simp [List.getElem?_eq_getElem (h c List.mem_cons_self)]

theorem mapM_short {content : List (List Text)} {i : ℕ} (h : ∃ c ∈ content, c.length ≤ i) :
    content.mapM (fun c => c[i]?) = none := by
  induction content with
  | nil => simp at h
  | cons c l ih =>
    rw [List.mapM_cons]
    by_cases hc : c.length ≤ i
    · rw [List.getElem?_eq_none hc]; rfl
    · have := ih (by
        obtain ⟨c', hc', h'⟩ := h
        rcases List.mem_cons.1 hc' with rfl | hm
        · exact absurd h' hc
        · exact ⟨c', hm, h'⟩)
      rw [this, List.getElem?_eq_getElem (by omega)]
      rfl

theorem dims_eq {content : List (List Text)} {header : List Text}
    (h : ∀ c ∈ content, header.length ≤ c.length) (pre post : List Text) (hp : pre ++ post = header) :
    dims content pre.length post =
      some ((List.range' pre.length post.length).map (width (header :: content))) := by
  induction post generalizing pre with
  | nil => rfl
  | cons e t ih =>
    have hl : pre.length < header.length := by rw [← hp]; simp
    have := ih (pre ++ [e]) (by simpa using hp)
    rw [List.length_append, List.length_singleton] at this
    unfold dims
    rw [mapM_get fun c hc => lt_of_lt_of_le hl (h c hc), this]
    simp only [bind, Option.bind, foldl_max, List.map_map, List.length_cons, List.range'_succ, List.map_cons]
    congr 2
    unfold width
    have he : header.getD pre.length [] = e := by
      rw [← hp, List.getD_append_right _ _ _ _ le_rfl]
      simp
    rw [List.map_cons, List.foldr_cons, he]
    rfl

theorem dims_short {content : List (List Text)} (header : List Text) (i : ℕ)
    (h : ∃ c ∈ content, c.length < i + header.length) (hi : ∀ c ∈ content, i ≤ c.length) :
    dims content i header = none := by
  induction header generalizing i with
  | nil =>
    obtain ⟨c, hc, h⟩ := h
    have := hi c hc
    simp at h
    omega
  | cons e t ih =>
    unfold dims
    by_cases hc : ∃ c ∈ content, c.length ≤ i
    · rw [mapM_short hc]; rfl
    · push Not at hc
      rw [ih (i + 1) (by simpa [add_assoc, add_comm 1] using h) hc]
      cases content.mapM fun c => c[i]? <;> rfl

/-! ### The lines -/

/-- The inside of a cell. -/
def pad (e : Text) (d : ℕ) : Text := ' ' :: e ++ List.replicate (d + 1 - e.length) ' '

/-- A line of cells between separators. -/
def frame (b : Char) (l : List Text) : Text := b :: l.flatMap fun c => c ++ [b]

theorem cells_eq {dim : List ℕ} {l : List Text} (h : l.length ≤ dim.length) :
    cells dim l = some ((List.zipWith pad l dim).flatMap fun c => c ++ ['|']) := by
  induction l generalizing dim with
  | nil => cases dim <;> rfl
  | cons e l ih =>
    cases dim with
    | nil => simp at h
    | cons d ds =>
      unfold cells
      rw [ih (by simpa using h)]
      simp [pad, bind, Option.bind]

theorem cells_long {dim : List ℕ} {l : List Text} (h : dim.length < l.length) : cells dim l = none := by
  induction l generalizing dim with
  | nil => simp at h
  | cons e l ih =>
    cases dim with
    | nil => rfl
    | cons d ds =>
      unfold cells
      rw [ih (by simpa using h)]
      rfl

theorem line_eq {dim : List ℕ} {l : List Text} (h : l.length ≤ dim.length) :
    line dim l = some (frame '|' (List.zipWith pad l dim) ++ ['\n']) := by
  unfold line
  rw [cells_eq h]
  simp [frame]

theorem delimiters_eq (dim : List ℕ) (m : Char) :
    delimiters dim m = frame '+' (dim.map fun d => List.replicate (d + 2) m) ++ ['\n'] := by
  unfold delimiters frame
  rw [List.flatMap_map]

/-- The lines of a table. -/
def lines (rows : List (List Text)) (n : ℕ) : List Text :=
  let dim := (List.range n).map (width rows)
  let d m := frame '+' (dim.map fun d => List.replicate (d + 2) m)
  d '-' :: (match rows with
    | [] => []
    | h :: content => frame '|' (List.zipWith pad h dim) :: d '=' ::
      content.flatMap fun r => [frame '|' (List.zipWith pad r dim), d '-'])

theorem mapM_line {dim : List ℕ} {content : List (List Text)} (h : ∀ c ∈ content, c.length ≤ dim.length) :
    content.mapM (line dim) = some (content.map fun r => frame '|' (List.zipWith pad r dim) ++ ['\n']) := by
  induction content with
  | nil => rfl
  | cons c l ih =>
    rw [List.mapM_cons, ih fun c hc => h c (List.mem_cons_of_mem _ hc), line_eq (h c List.mem_cons_self)]
    rfl

theorem table_eq {header : List Text} {content : List (List Text)}
    (h : ∀ c ∈ content, c.length = header.length) :
    table header content = some ((lines (header :: content) header.length).flatMap fun l => l ++ ['\n']) := by
  have hd := dims_eq (fun c hc => (h c hc).ge) [] header rfl
  unfold table
  rw [List.length_nil] at hd
  rw [hd, ← List.range_eq_range']
  simp only [bind, Option.bind]
  rw [line_eq (by simp)]
  simp only
  rw [mapM_line (by intro c hc; simp [h c hc])]
  simp only [delimiters_eq, lines, List.flatMap_cons, List.flatMap_map, List.flatMap_assoc,
    List.flatMap_nil, List.append_assoc, List.append_nil]

/-- C90. A table is made if and only if every line of the content has as many cells as the header. -/
theorem C90_total (header : List Text) (content : List (List Text)) :
    (table header content).isSome ↔ ∀ c ∈ content, c.length = header.length := by
  constructor
  · intro h
    by_contra hc
    push Not at hc
    obtain ⟨c, hc, hne⟩ := hc
    by_cases hs : ∃ c ∈ content, c.length < 0 + header.length
    · unfold table at h
      rw [dims_short header 0 hs (by simp)] at h
      simp [bind, Option.bind] at h
    · push Not at hs
      simp only [zero_add] at hs
      have hd := dims_eq hs [] header rfl
      rw [List.length_nil, ← List.range_eq_range'] at hd
      have hm : ∀ (dim : List ℕ) (l : List (List Text)), (∃ c ∈ l, dim.length < c.length) →
          l.mapM (line dim) = none := by
        intro dim l
        induction l with
        | nil => simp
        | cons a l ih =>
          intro hl
          rw [List.mapM_cons]
          by_cases ha : dim.length < a.length
          · unfold line
            rw [cells_long ha]
            rfl
          · rw [ih (by
              obtain ⟨c', hc', h'⟩ := hl
              rcases List.mem_cons.1 hc' with rfl | hm
              · exact absurd h' ha
              · exact ⟨c', hm, h'⟩)]
            cases line dim a <;> rfl
      unfold table at h
      rw [hd] at h
      simp only [bind, Option.bind] at h
      rw [line_eq (by simp)] at h
      simp only at h
      rw [hm _ _ ⟨c, hc, by have := hs c hc; simp; omega⟩] at h
      simp at h
  · intro h
    rw [table_eq h]
    rfl

/-! ### The grid -/

theorem frame_cons (b : Char) (c : Text) (l : List Text) : frame b (c :: l) = b :: (c ++ frame b l) := by
  simp [frame]

theorem frame_drop (b : Char) (l : List Text) (i : ℕ) (hi : i ≤ l.length) :
    (frame b l).drop (((l.map fun c => c.length + 1).take i).sum) = frame b (l.drop i) := by
  induction l generalizing i with
  | nil =>
    have : i = 0 := by simpa using hi
    subst this
    rfl
  | cons c l ih =>
    cases i with
    | zero => rfl
    | succ i =>
      rw [frame_cons, List.map_cons, List.take_succ_cons, List.sum_cons,
        show c.length + 1 + ((l.map fun c => c.length + 1).take i).sum =
          (c.length + ((l.map fun c => c.length + 1).take i).sum) + 1 by ring, List.drop_succ_cons,
        ← List.drop_drop, List.drop_left, ih i (by simpa using hi), List.drop_succ_cons]

theorem frame_length (b : Char) (l : List Text) :
    (frame b l).length = ((l.map fun c => c.length + 1)).sum + 1 := by
  induction l with
  | nil => rfl
  | cons c l ih =>
    rw [frame_cons, List.map_cons, List.sum_cons, List.length_cons, List.length_append, ih]
    ring

/-- A line whose cells have the widths of the columns. -/
theorem frame_grid {rows : List (List Text)} {n : ℕ} (b : Char) {l : List Text} (hl : l.length = n)
    (hw : ∀ i < n, (l.getD i []).length = width rows i + 2) :
    (frame b l).length = offset rows n + 1 ∧
    (∀ i ≤ n, (frame b l)[offset rows i]? = some b) ∧
    (∀ i < n, ((frame b l).drop (offset rows i + 1)).take (width rows i + 2) = l.getD i []) := by
  have hm : (l.map fun c => c.length + 1) = (List.range n).map fun i => width rows i + 3 := by
    apply List.ext_getElem (by simp [hl])
    intro i h1 h2
    have := hw i (by simpa [hl] using h1)
    rw [List.getD_eq_getElem _ _ (by simpa using h1)] at this
    simp [this]
  have hsum : ∀ m, ((List.range m).map fun i => width rows i + 3).sum = offset rows m := by
    intro m
    unfold offset
    induction m with
    | zero => rfl
    | succ m ih => rw [List.range_succ, Finset.sum_range_succ, List.map_append, List.sum_append, ih]; simp
  have ht : ∀ i ≤ n, (((l.map fun c => c.length + 1).take i)).sum = offset rows i := by
    intro i hi
    rw [hm, ← List.map_take, List.take_range, min_eq_left hi, hsum]
  have hdrop : ∀ i ≤ n, (frame b l).drop (offset rows i) = frame b (l.drop i) := by
    intro i hi
    rw [← ht i hi, frame_drop _ _ _ (by omega)]
  refine ⟨by rw [frame_length, hm, hsum], ?_, ?_⟩
  · intro i hi
    rw [← add_zero (offset rows i), ← List.getElem?_drop, hdrop i hi]
    rfl
  · intro i hi
    rw [← List.drop_drop, hdrop i hi.le,
      show l.drop i = l[i]'(by omega) :: l.drop (i + 1) from List.drop_eq_getElem_cons (by omega), frame_cons]
    have := hw i hi
    rw [List.getD_eq_getElem _ _ (by omega)] at this ⊢
    rw [List.drop_succ_cons, List.drop_zero, ← this, List.take_left]

theorem pairs_even (f : List Text → Text) (D : Text) (content : List (List Text)) {k : ℕ}
    (hk : k < content.length) :
    (content.flatMap fun r => [f r, D]).getD (2 * k) [] = f (content.getD k []) := by
  induction content generalizing k with
  | nil => simp at hk
  | cons c l ih =>
    cases k with
    | zero => rfl
    | succ k =>
      rw [List.flatMap_cons, show 2 * (k + 1) = 2 * k + 1 + 1 by ring]
      exact ih (by simpa using hk)

theorem pairs_odd (f : List Text → Text) (D : Text) (content : List (List Text)) {k : ℕ}
    (hk : k < content.length) : (content.flatMap fun r => [f r, D]).getD (2 * k + 1) [] = D := by
  induction content generalizing k with
  | nil => simp at hk
  | cons c l ih =>
    cases k with
    | zero => rfl
    | succ k =>
      rw [List.flatMap_cons, show 2 * (k + 1) + 1 = 2 * k + 1 + 1 + 1 by ring]
      exact ih (by simpa using hk)

theorem pairs_length (f : List Text → Text) (D : Text) (content : List (List Text)) :
    (content.flatMap fun r => [f r, D]).length = 2 * content.length := by
  induction content with
  | nil => rfl
  | cons c l ih =>
    rw [List.flatMap_cons, List.length_append, ih]
    simp only [List.length_cons, List.length_nil]
    ring

theorem width_le {rows : List (List Text)} {r : List Text} (h : r ∈ rows) (i : ℕ) :
    (r.getD i []).length ≤ width rows i := by
  unfold width
  induction rows with
  | nil => simp at h
  | cons a l ih =>
    rw [List.map_cons, List.foldr_cons]
    rcases List.mem_cons.1 h with rfl | h
    · exact le_max_left _ _
    · exact (ih h).trans (le_max_right _ _)

theorem width_mem {rows : List (List Text)} (h : rows ≠ []) (i : ℕ) :
    ∃ r ∈ rows, (r.getD i []).length = width rows i := by
  unfold width
  induction rows with
  | nil => exact absurd rfl h
  | cons a l ih =>
    rw [List.map_cons, List.foldr_cons]
    by_cases hl : l = []
    · subst hl
      exact ⟨a, List.mem_cons_self, by simp⟩
    · obtain ⟨r, hr, e⟩ := ih hl
      rcases le_total ((l.map fun r => (r.getD i []).length).foldr max 0) (a.getD i []).length with hle | hle
      · exact ⟨a, List.mem_cons_self, by rw [max_eq_left hle]⟩
      · exact ⟨r, List.mem_cons_of_mem _ hr, by rw [max_eq_right hle, e]⟩

theorem lines_grid {header : List Text} {content : List (List Text)} (h : ∀ c ∈ content, c.length = header.length)
    {rows : List (List Text)} (hr : rows = header :: content) {L : List Text}
    (hL : L = lines rows header.length) :
    (L.length = 2 * content.length + 3 ∧
      (∀ l ∈ L, l.length = offset rows header.length + 1) ∧
      (∀ k < L.length, ∀ i ≤ header.length,
        (L.getD k [])[offset rows i]? = some (if k % 2 = 0 then '+' else '|')) ∧
      (∀ k < content.length + 2, ∀ i < header.length,
        ((L.getD (2 * k) []).drop (offset rows i + 1)).take (width rows i + 2) =
          List.replicate (width rows i + 2) (if k = 1 then '=' else '-')) ∧
      (∀ k < content.length + 1, ∀ i < header.length,
        ∃ cell, cell = (rows.getD k []).getD i [] ∧ cell.length ≤ width rows i ∧
          ((L.getD (2 * k + 1) []).drop (offset rows i + 1)).take (width rows i + 2) =
            ' ' :: cell ++ List.replicate (width rows i + 1 - cell.length) ' ')) := by
  subst hL
  set n := header.length with hn
  set dim := (List.range n).map (width rows) with hdim
  have hdl : dim.length = n := by simp [hdim]
  have hget : ∀ i < n, dim.getD i 0 = width rows i := by
    intro i hi
    rw [List.getD_eq_getElem _ _ (by omega)]
    simp [hdim]
  have hd : ∀ m : Char, ∀ i < n, ((dim.map fun d => List.replicate (d + 2) m).getD i []) =
      List.replicate (width rows i + 2) m := by
    intro m i hi
    rw [List.getD_eq_getElem _ _ (by simpa [hdl] using hi)]
    simp [hdim]
  have hp : ∀ r ∈ rows, r.length = n ∧ (List.zipWith pad r dim).length = n ∧
      ∀ i < n, (List.zipWith pad r dim).getD i [] = pad (r.getD i []) (width rows i) := by
    intro r hrr
    have hrl : r.length = n := by
      rw [hr] at hrr
      rcases List.mem_cons.1 hrr with rfl | hc
      · rfl
      · exact h r hc
    refine ⟨hrl, by simp [hrl, hdl], ?_⟩
    intro i hi
    rw [List.getD_eq_getElem _ _ (by simp [hrl, hdl, hi]), List.getElem_zipWith,
      List.getD_eq_getElem _ _ (by omega)]
    simp [hdim]
  have hpl : ∀ r ∈ rows, ∀ i < n, (pad (r.getD i []) (width rows i)).length = width rows i + 2 := by
    intro r hrr i hi
    have := width_le hrr i
    unfold pad
    rw [List.length_append, List.length_cons, List.length_replicate]
    omega
  have heven : ∀ k < content.length + 2, (lines rows n).getD (2 * k) [] =
      frame '+' (dim.map fun d => List.replicate (d + 2) (if k = 1 then '=' else '-')) := by
    intro k hk
    unfold lines
    rw [← hdim, hr]
    match k, hk with
    | 0, _ => rfl
    | 1, _ => rfl
    | k + 2, hk =>
      rw [if_neg (by omega), show 2 * (k + 2) = 2 * k + 1 + 1 + 1 + 1 by ring]
      exact pairs_odd (fun r => frame '|' (List.zipWith pad r dim)) _ content (by omega)
  have hodd : ∀ k < content.length + 1, (lines rows n).getD (2 * k + 1) [] =
      frame '|' (List.zipWith pad (rows.getD k []) dim) := by
    intro k hk
    unfold lines
    rw [← hdim, hr]
    match k, hk with
    | 0, _ => rfl
    | k + 1, hk =>
      rw [show 2 * (k + 1) + 1 = 2 * k + 1 + 1 + 1 by ring]
      exact pairs_even (fun r => frame '|' (List.zipWith pad r dim)) _ content (by omega)
  have hlen : (lines rows n).length = 2 * content.length + 3 := by
    unfold lines
    rw [hr]
    simp only [List.length_cons, pairs_length]
  have hmem : ∀ k < content.length + 1, rows.getD k [] ∈ rows := by
    intro k hk
    rw [List.getD_eq_getElem _ _ (by rw [hr]; simpa using hk)]
    exact List.getElem_mem _
  have g0 := fun m : Char => frame_grid (rows := rows) (n := n) '+'
    (l := dim.map fun d => List.replicate (d + 2) m) (by simp [hdl]) (by
      intro i hi; rw [hd m i hi, List.length_replicate])
  have g1 := fun (r : List Text) (hrr : r ∈ rows) => frame_grid (rows := rows) (n := n) '|'
    (l := List.zipWith pad r dim) (hp r hrr).2.1 (by
      intro i hi; rw [(hp r hrr).2.2 i hi, hpl r hrr i hi])
  have hall : ∀ k < (lines rows n).length, ((lines rows n).getD k []).length = offset rows n + 1 ∧
      ∀ i ≤ n, ((lines rows n).getD k [])[offset rows i]? = some (if k % 2 = 0 then '+' else '|') := by
    intro k hk
    rcases Nat.even_or_odd' k with ⟨j, rfl | rfl⟩
    · rw [show (if 2 * j % 2 = 0 then '+' else '|') = '+' from if_pos (by omega), heven j (by omega)]
      exact ⟨(g0 _).1, (g0 _).2.1⟩
    · rw [show (if (2 * j + 1) % 2 = 0 then '+' else '|') = '|' from if_neg (by omega), hodd j (by omega)]
      exact ⟨(g1 _ (hmem j (by omega))).1, (g1 _ (hmem j (by omega))).2.1⟩
  refine ⟨hlen, ?_, fun k hk => (hall k hk).2, ?_, ?_⟩
  · intro l hl
    obtain ⟨k, hk, rfl⟩ := List.getElem_of_mem hl
    rw [← (hall k hk).1, List.getD_eq_getElem _ _ hk]
  · intro k hk i hi
    rw [heven k hk, (g0 _).2.2 i hi, hd _ i hi]
  · intro k hk i hi
    refine ⟨_, rfl, width_le (hmem k hk) i, ?_⟩
    rw [hodd k hk, (g1 _ (hmem k hk)).2.2 i hi, (hp _ (hmem k hk)).2.2 i hi]
    rfl

/-- C90. A table with `m` lines of content has `2 m + 3` lines of the same length. The separators are at the
same positions in all of them, `+` in the lines of delimiters and `|` in the others; the space between two
separators is filled by the delimiter (`=` under the header), or by a space, the cell and spaces. The width
of a column is the length of its longest cell. -/
theorem C90_grid {header : List Text} {content : List (List Text)} (h : ∀ c ∈ content, c.length = header.length)
    {rows : List (List Text)} (hr : rows = header :: content) :
    (∀ i, ∃ r ∈ rows, (r.getD i []).length = width rows i) ∧
    ∃ L : List Text, table header content = some (L.flatMap fun l => l ++ ['\n']) ∧
      L.length = 2 * content.length + 3 ∧
      (∀ l ∈ L, l.length = offset rows header.length + 1) ∧
      (∀ k < L.length, ∀ i ≤ header.length,
        (L.getD k [])[offset rows i]? = some (if k % 2 = 0 then '+' else '|')) ∧
      (∀ k < content.length + 2, ∀ i < header.length,
        ((L.getD (2 * k) []).drop (offset rows i + 1)).take (width rows i + 2) =
          List.replicate (width rows i + 2) (if k = 1 then '=' else '-')) ∧
      (∀ k < content.length + 1, ∀ i < header.length,
        ∃ cell, cell = (rows.getD k []).getD i [] ∧ cell.length ≤ width rows i ∧
          ((L.getD (2 * k + 1) []).drop (offset rows i + 1)).take (width rows i + 2) =
            ' ' :: cell ++ List.replicate (width rows i + 1 - cell.length) ' ') := by
  exact ⟨fun i => width_mem (by rw [hr]; simp) i, lines rows header.length, by rw [hr]; exact table_eq h,
    lines_grid h hr rfl⟩

/-! ### Reading a table -/

theorem append_inj {b : Char} : ∀ {x y u v : Text}, b ∉ x → b ∉ y → x ++ b :: u = y ++ b :: v → x = y ∧ u = v
  | [], [], _, _, _, _, e => by simpa using e
  | [], c :: y, _, _, _, hy, e => by
    simp only [List.nil_append, List.cons_append, List.cons.injEq] at e
    exact absurd (by rw [e.1]; exact List.mem_cons_self) hy
  | c :: x, [], _, _, hx, _, e => by
    simp only [List.nil_append, List.cons_append, List.cons.injEq] at e
    exact absurd (by rw [e.1]; exact List.mem_cons_self) hx
  | c :: x, c' :: y, _, _, hx, hy, e => by
    simp only [List.cons_append, List.cons.injEq] at e
    obtain ⟨h1, h2⟩ := append_inj (fun h => hx (List.mem_cons_of_mem _ h))
      (fun h => hy (List.mem_cons_of_mem _ h)) e.2
    exact ⟨by rw [e.1, h1], h2⟩

theorem split_inj {b : Char} {A B : List Text} (hA : ∀ a ∈ A, b ∉ a) (hB : ∀ a ∈ B, b ∉ a)
    (h : (A.flatMap fun a => a ++ [b]) = B.flatMap fun a => a ++ [b]) : A = B := by
  induction A generalizing B with
  | nil =>
    cases B with
    | nil => rfl
    | cons c B => simp at h
  | cons a A ih =>
    cases B with
    | nil => simp at h
    | cons c B =>
      rw [List.flatMap_cons, List.flatMap_cons, List.append_assoc, List.append_assoc] at h
      obtain ⟨h1, h2⟩ := append_inj (hA a List.mem_cons_self) (hB c List.mem_cons_self) h
      rw [h1, ih (fun a h => hA a (List.mem_cons_of_mem _ h)) (fun a h => hB a (List.mem_cons_of_mem _ h)) h2]

/-- Parts of the same length can be read by position. -/
theorem const_inj {b : Char} {W : ℕ} {A B : List Text} (hA : ∀ a ∈ A, a.length = W) (hB : ∀ a ∈ B, a.length = W)
    (h : (A.flatMap fun a => a ++ [b]) = B.flatMap fun a => a ++ [b]) : A = B := by
  induction A generalizing B with
  | nil =>
    cases B with
    | nil => rfl
    | cons c B => simp at h
  | cons a A ih =>
    cases B with
    | nil => simp at h
    | cons c B =>
      rw [List.flatMap_cons, List.flatMap_cons] at h
      obtain ⟨h1, h2⟩ := List.append_inj h (by
        rw [List.length_append, List.length_append, hA a List.mem_cons_self, hB c List.mem_cons_self])
      rw [List.append_cancel_right h1, ih (fun a h => hA a (List.mem_cons_of_mem _ h))
        (fun a h => hB a (List.mem_cons_of_mem _ h)) h2]

theorem pad_inj {e e' : Text} (h : e.getLast? ≠ some ' ') (h' : e'.getLast? ≠ some ' ') {d d' : ℕ}
    (he : pad e d = pad e' d') : e = e' := by
  have key : ∀ (n : ℕ) (e : Text), e.getLast? ≠ some ' ' →
      (List.replicate n ' ' ++ e.reverse).dropWhile (· == ' ') = e.reverse := by
    intro n e h
    induction n with
    | zero =>
      rw [List.replicate_zero, List.nil_append]
      rw [← List.head?_reverse] at h
      cases hr : e.reverse with
      | nil => rfl
      | cons c l =>
        rw [hr] at h
        have hc : c ≠ ' ' := fun e => h (by rw [e]; rfl)
        rw [List.dropWhile_cons_of_neg (by simpa using hc)]
    | succ n ih => rw [List.replicate_succ, List.cons_append, List.dropWhile_cons_of_pos (by simp), ih]
  unfold pad at he
  rw [List.cons_append, List.cons_append, List.cons.injEq] at he
  have h2 := congrArg (fun l => (List.reverse l).dropWhile (· == ' ')) he.2
  simp only [List.reverse_append, List.reverse_replicate] at h2
  rw [key _ _ h, key _ _ h'] at h2
  exact List.reverse_injective h2

/-- Two lines of cells with the same widths. -/
theorem row_inj : ∀ {r r' : List Text} {d : List ℕ}, (∀ e ∈ r, e.getLast? ≠ some ' ') →
    (∀ e ∈ r', e.getLast? ≠ some ' ') → r.length = d.length → r'.length = d.length →
    (∀ i < d.length, (r.getD i []).length ≤ d.getD i 0) → (∀ i < d.length, (r'.getD i []).length ≤ d.getD i 0) →
    frame '|' (List.zipWith pad r d) = frame '|' (List.zipWith pad r' d) → r = r'
  | [], [], _, _, _, _, _, _, _, _ => rfl
  | [], _ :: _, _, _, _, h, h', _, _, _ => by rw [← h] at h'; simp at h'
  | _ :: _, [], _, _, _, h, h', _, _, _ => by rw [← h'] at h; simp at h
  | e :: r, e' :: r', [], _, _, h, _, _, _, _ => by simp at h
  | e :: r, e' :: r', a :: d, hr, hr', hl, hl', hw, hw', h => by
    have w := hw 0 (by simp)
    have w' := hw' 0 (by simp)
    simp only [List.getD_cons_zero] at w w'
    rw [List.zipWith_cons_cons, List.zipWith_cons_cons, frame_cons, frame_cons, List.cons.injEq] at h
    obtain ⟨h1, h2⟩ := List.append_inj h.2 (by
      unfold pad
      simp only [List.length_append, List.length_cons, List.length_replicate]
      omega)
    rw [pad_inj (hr e List.mem_cons_self) (hr' e' List.mem_cons_self) h1,
      row_inj (fun x hx => hr x (List.mem_cons_of_mem _ hx)) (fun x hx => hr' x (List.mem_cons_of_mem _ hx))
        (by simpa using hl) (by simpa using hl')
        (fun i hi => by simpa using hw (i + 1) (by simpa using hi))
        (fun i hi => by simpa using hw' (i + 1) (by simpa using hi)) h2]

/-- The widths are read in the first line. -/
theorem delim_inj {d d' : List ℕ} {u v : Text}
    (h : frame '+' (d.map fun d => List.replicate (d + 2) '-') ++ '\n' :: u =
      frame '+' (d'.map fun d => List.replicate (d + 2) '-') ++ '\n' :: v) : d = d' ∧ u = v := by
  have hn : ∀ (b : Char), b ≠ '-' → ∀ d : List ℕ, ∀ e ∈ d.map fun d => List.replicate (d + 2) '-', b ∉ e := by
    intro b hb d e he
    obtain ⟨x, -, rfl⟩ := List.mem_map.1 he
    simp [List.mem_replicate, hb]
  have hf : ∀ d : List ℕ, '\n' ∉ frame '+' (d.map fun d => List.replicate (d + 2) '-') := by
    intro d
    unfold frame
    simp only [List.mem_cons, List.mem_flatMap, List.mem_append, List.not_mem_nil, or_false, not_or,
      not_exists, not_and]
    exact ⟨by decide, fun e he => ⟨hn _ (by decide) d e he, by decide⟩⟩
  obtain ⟨h1, h2⟩ := append_inj (hf d) (hf d') h
  refine ⟨?_, h2⟩
  unfold frame at h1
  rw [List.cons.injEq] at h1
  have h3 := split_inj (hn '+' (by decide) d) (hn '+' (by decide) d') h1.2
  refine List.map_injective_iff.2 (fun x y e => ?_) h3
  have := congrArg List.length e
  simpa using this

/-- C90. The table determines the header and the content when no cell ends with a space; the cells may contain
separators and line breaks. -/
theorem C90_unique {header header' : List Text} {content content' : List (List Text)}
    (h : ∀ r ∈ header :: content, ∀ e ∈ r, e.getLast? ≠ some ' ')
    (h' : ∀ r ∈ header' :: content', ∀ e ∈ r, e.getLast? ≠ some ' ') {t : Text}
    (ht : table header content = some t) (ht' : table header' content' = some t) :
    header = header' ∧ content = content' := by
  have hc := (C90_total header content).1 (by rw [ht]; rfl)
  have hc' := (C90_total header' content').1 (by rw [ht']; rfl)
  rw [table_eq hc] at ht
  rw [table_eq hc', ← ht] at ht'
  have hl := Option.some.inj ht'
  obtain ⟨-, g, -⟩ := lines_grid hc rfl rfl
  obtain ⟨-, g', -⟩ := lines_grid hc' rfl rfl
  have hdim : (List.range header'.length).map (width (header' :: content')) =
      (List.range header.length).map (width (header :: content)) := by
    unfold lines at hl
    simp only [List.flatMap_cons, List.append_assoc, List.cons_append, List.nil_append] at hl
    exact (delim_inj hl).1
  have hn : header'.length = header.length := by simpa using congrArg List.length hdim
  rw [hn] at hdim
  have hw : ∀ i < header.length, width (header' :: content') i = width (header :: content) i := by
    intro i hi
    exact List.map_inj_left.1 hdim i (List.mem_range.2 hi)
  have ho : offset (header' :: content') header'.length = offset (header :: content) header.length := by
    rw [hn]
    unfold offset
    exact Finset.sum_congr rfl fun i hi => by rw [hw i (Finset.mem_range.1 hi)]
  rw [ho] at g'
  have hL := const_inj g' g hl
  unfold lines at hL
  rw [hn, hdim] at hL
  simp only [List.cons.injEq] at hL
  obtain ⟨-, h1, -, h2⟩ := hL
  set d := (List.range header.length).map (width (header :: content)) with hd
  have hdl : d.length = header.length := by simp [hd]
  have hg : ∀ i < d.length, d.getD i 0 = width (header :: content) i := by
    intro i hi
    rw [List.getD_eq_getElem _ _ hi]
    simp [hd]
  have inj : ∀ r ∈ header :: content, ∀ r' ∈ header' :: content', r.length = header.length →
      r'.length = header.length →
      frame '|' (List.zipWith pad r' d) = frame '|' (List.zipWith pad r d) → r' = r := by
    intro r hr r' hr' hrl hrl' e
    refine row_inj (h' r' hr') (h r hr) (by omega) (by omega) ?_ ?_ e
    · intro i hi
      rw [hg i hi, ← hw i (by omega)]
      exact width_le hr' i
    · intro i hi
      rw [hg i hi]
      exact width_le hr i
  refine ⟨(inj _ List.mem_cons_self _ List.mem_cons_self rfl hn h1).symm, ?_⟩
  have hd : ∀ (D : Text) (A B : List (List Text)), (∀ r ∈ A, r ∈ header' :: content' ∧ r.length = header.length) →
      (∀ r ∈ B, r ∈ header :: content ∧ r.length = header.length) →
      (A.flatMap fun r => [frame '|' (List.zipWith pad r d), D]) =
        (B.flatMap fun r => [frame '|' (List.zipWith pad r d), D]) → A = B := by
    intro D A
    induction A with
    | nil =>
      intro B _ _ e
      cases B with
      | nil => rfl
      | cons _ _ => simp at e
    | cons a A ih =>
      intro B hA hB e
      cases B with
      | nil => simp at e
      | cons b B =>
        simp only [List.flatMap_cons, List.cons_append, List.nil_append, List.cons.injEq] at e
        have ha := hA a List.mem_cons_self
        have hb := hB b List.mem_cons_self
        rw [inj b hb.1 a ha.1 hb.2 ha.2 e.1, ih B (fun r hr => hA r (List.mem_cons_of_mem _ hr))
          (fun r hr => hB r (List.mem_cons_of_mem _ hr)) e.2.2]
  refine (hd _ _ _ ?_ ?_ h2).symm
  · exact fun r hr => ⟨List.mem_cons_of_mem _ hr, by rw [hc' r hr, hn]⟩
  · exact fun r hr => ⟨List.mem_cons_of_mem _ hr, hc r hr⟩

/-- C90. Spaces at the end of a cell are lost; with a `|` in a cell only the delimiters tell the columns; with a
line break the text is no longer a grid. -/
theorem C90_counterexamples :
    table ["ab".toList] [["c".toList]] = table ["ab".toList] [["c ".toList]] ∧
    table ["a".toList, "b".toList] [] = some "+---+---+\n| a | b |\n+===+===+\n".toList ∧
    table ["a | b".toList] [] = some "+-------+\n| a | b |\n+=======+\n".toList ∧
    table ["a\nb".toList] [] = some "+-----+\n| a\nb |\n+=====+\n".toList := by
  decide

set_option maxRecDepth 8000 in
/-- A table of parameters. -/
example : table ["Key".toList, "Unit".toList] [["R".toList, "Ohm".toList], ["value".toList, "".toList]] =
    some ("+-------+------+\n" ++
          "| Key   | Unit |\n" ++
          "+=======+======+\n" ++
          "| R     | Ohm  |\n" ++
          "+-------+------+\n" ++
          "| value |      |\n" ++
          "+-------+------+\n").toList := by
  decide

example : (∀ e ∈ ["Key".toList, "Unit".toList], e.getLast? ≠ some ' ') ∧
    table ["Key".toList] [["R".toList, "1".toList]] = none := by
  decide

end Doc
end Pyphs
