import Verif.Core.Split
import Verif.Core.MoveProps

namespace Pyphs
namespace Core

/-- The split loop is a stable partition: every element is tested once, in order. -/
theorem splitLoop_partition {S : Type} {test : ℕ → S → Bool} {move : ℕ → S → Option S}
    (Inv : List ℕ → S → Prop) (p : ℕ → Bool) (n : ℕ)
    (hstep : ∀ L k R s, (L ++ k :: R).Perm (List.range n) → Inv (L ++ k :: R) s →
      test L.length s = false → ∃ s', move L.length s = some s' ∧ Inv (L ++ R ++ [k]) s')
    (htest : ∀ L k R s, (L ++ k :: R).Perm (List.range n) → (∀ l ∈ L, p l = true) →
      Inv (L ++ k :: R) s → test L.length s = p k)
    (s : S) (hs : Inv (List.range n) s) :
    ∃ s', splitLoop test move n 0 s = some (s', ((List.range n).filter p).length) ∧
      Inv ((List.range n).filter p ++ (List.range n).filter (fun k => !p k)) s' := by
  have key : ∀ (T done : List ℕ) (s : S), List.range n = done ++ T →
      Inv (done.filter p ++ T ++ done.filter (fun k => !p k)) s →
      ∃ s', splitLoop test move T.length (done.filter p).length s =
          some (s', ((done ++ T).filter p).length) ∧
        Inv ((done ++ T).filter p ++ (done ++ T).filter (fun k => !p k)) s' := by
    intro T
    induction T with
    | nil => intro done s _ hI; exact ⟨s, by simp [splitLoop], by simpa using hI⟩
    | cons k T ih =>
      intro done s hr hI
      have hperm : (done.filter p ++ k :: (T ++ done.filter (fun k => !p k))).Perm
          (List.range n) := by
        rw [hr]
        have h1 : (done.filter p ++ done.filter (fun k => !p k)).Perm done :=
          List.filter_append_perm p done
        calc (done.filter p ++ k :: (T ++ done.filter (fun k => !p k))).Perm
              (done.filter p ++ (done.filter (fun k => !p k) ++ (k :: T))) :=
            List.Perm.append_left _ (by
              rw [← List.cons_append]; exact List.perm_append_comm)
          _ = (done.filter p ++ done.filter (fun k => !p k)) ++ (k :: T) := by simp
          List.Perm _ (done ++ k :: T) := h1.append_right _
      have hI' : Inv (done.filter p ++ k :: (T ++ done.filter (fun k => !p k))) s := by
        simpa using hI
      have ht := htest _ _ _ s hperm (by simp) hI'
      rw [List.length_cons]
      by_cases hp : p k = true
      · obtain ⟨s', e1, e2⟩ := ih (done ++ [k]) s (by simp [hr]) (by
          simpa [List.filter_append, hp] using hI)
        refine ⟨s', ?_, by simpa using e2⟩
        rw [splitLoop, if_pos (by rw [ht]; exact hp)]
        simpa [List.filter_append, hp] using e1
      · have hp' : p k = false := by simpa using hp
        obtain ⟨s1, m1, m2⟩ := hstep _ _ _ s hperm hI' (by rw [ht]; exact hp')
        obtain ⟨s', e1, e2⟩ := ih (done ++ [k]) s1 (by simp [hr]) (by
          simpa [List.filter_append, hp'] using m2)
        refine ⟨s', ?_, by simpa using e2⟩
        rw [splitLoop, if_neg (by rw [ht]; exact hp), m1]
        simpa [List.filter_append, hp'] using e1
  have := key (List.range n) [] s (by simp) (by simpa using hs)
  simpa using this

/-- Moving an element to the end. -/
theorem movedTo_last {α : Type} {L R l' : List α} {k : α} {f : ℕ}
    (hf : f = (L ++ k :: R).length - 1) (hl : l'.length = (L ++ k :: R).length)
    (h : MovedTo L.length f (L ++ k :: R) l') : l' = L ++ R ++ [k] := by
  obtain ⟨h1, h2⟩ := h
  have e1 : (L ++ k :: R).eraseIdx L.length = L ++ R := by
    rw [List.eraseIdx_append_of_length_le (by omega)]; simp
  have e2 : (L ++ k :: R)[L.length]? = some k := by simp
  rw [e1] at h2
  rw [e2] at h1
  have hlen : f + 1 = l'.length := by rw [hl, hf]; simp; omega
  rw [← h2]
  apply List.ext_getElem?
  intro i
  by_cases hi : i < f
  · rw [List.getElem?_append_left (by rw [List.length_eraseIdx]; split_ifs <;> omega),
      List.getElem?_eraseIdx_of_lt hi]
  · have hle : (l'.eraseIdx f).length = f := by rw [List.length_eraseIdx]; split_ifs <;> omega
    rw [List.getElem?_append_right (by omega), hle]
    by_cases hi2 : i = f
    · subst hi2; simpa using h1
    · rw [List.getElem?_eq_none (by omega), List.getElem?_eq_none (by simp; omega)]

/-- Entries of a list of indices with one element moved to the end. -/
theorem moved_getD (L R : List ℕ) (k : ℕ) {j : ℕ} (hj : j < (L ++ k :: R).length) :
    (L ++ R ++ [k]).getD j 0 =
      (L ++ k :: R).getD (mrIdx L.length ((L ++ k :: R).length - 1) j) 0 := by
  simp only [List.length_append, List.length_cons] at hj ⊢
  unfold mrIdx
  simp only [List.getD_eq_getElem?_getD]
  congr 1
  by_cases h1 : j < L.length
  · rw [if_neg (by omega), if_neg (by omega), if_neg (by omega), List.append_assoc,
      List.getElem?_append_left h1, List.getElem?_append_left h1]
  · by_cases h2 : j = L.length + (R.length + 1) - 1
    · rw [if_pos h2, List.getElem?_append_right (by simp; omega)]
      simp only [List.length_append]
      rw [show j - (L.length + R.length) = 0 by omega]; simp
    · rw [if_neg h2, if_pos ⟨by omega, by omega⟩, List.append_assoc,
        List.getElem?_append_right (by omega), List.getElem?_append_left (by omega),
        List.getElem?_append_right (by omega),
        show j + 1 - L.length = (j - L.length) + 1 by omega, List.getElem?_cons_succ]

theorem moveSquareM_spec {α : Type} {M : Mat α} {n i f : ℕ} (hr : M.r = n) (hc : M.c = n)
    (hi : i < n) (hf : f < n) : ∃ M', moveSquareM M i f = some M' ∧ M'.r = n ∧ M'.c = n ∧
      ∀ a < n, ∀ b < n, M'.e a b = M.e (mrIdx i f a) (mrIdx i f b) := by
  have hm := myrange_eq_map n i f hi
  rw [show min f (n - 1) = f by omega] at hm
  have hall : ∀ k ∈ (List.range n).map (mrIdx i f), k < n := by
    intro k hk
    simp only [List.mem_map, List.mem_range] at hk
    obtain ⟨a, ha, rfl⟩ := hk
    exact mrIdx_lt hi hf ha
  refine ⟨_, by
    unfold moveSquareM
    rw [hr, hm]
    simp only [Option.bind_eq_bind, Option.bind_some, Mat.select]
    rw [if_pos ⟨by rw [hr]; exact hall, by rw [hc]; exact hall⟩], by simp, by simp, ?_⟩
  intro a ha b hb
  simp [List.getD_eq_getElem?_getD, ha, hb]

theorem moveColsM_spec {α : Type} {M : Mat α} {n i f : ℕ} (hc : M.c = n)
    (hi : i < n) (hf : f < n) : ∃ M', moveColsM M i f = some M' ∧ M'.r = M.r ∧ M'.c = n ∧
      ∀ a < M.r, ∀ b < n, M'.e a b = M.e a (mrIdx i f b) := by
  have hm := myrange_eq_map n i f hi
  rw [show min f (n - 1) = f by omega] at hm
  have hall : ∀ k ∈ (List.range n).map (mrIdx i f), k < n := by
    intro k hk
    simp only [List.mem_map, List.mem_range] at hk
    obtain ⟨a, ha, rfl⟩ := hk
    exact mrIdx_lt hi hf ha
  refine ⟨_, by
    unfold moveColsM
    rw [hc, hm]
    simp only [Option.bind_eq_bind, Option.bind_some, Mat.select]
    rw [if_pos ⟨by simp, by rw [hc]; exact hall⟩], by simp, by simp, ?_⟩
  intro a ha b hb
  simp [List.getD_eq_getElem?_getD, ha, hb]

theorem colFree_iff {h : Mat FS} {arg : List String} {k : ℕ} :
    colFree h arg k = true ↔ ∀ i < h.r, ∀ s ∈ h.e i k, s ∉ arg := by
  simp [colFree]

/-- The column test is not affected by the moves of the matrix. -/
theorem moveFun_spec (square : Bool) {M : Mat FS} {n i f : ℕ} (hsq : square = true → M.r = n)
    (hc : M.c = n) (hi : i < n) (hf : f < n) (arg : List String) :
    ∃ M', (if square then moveSquareM else moveColsM) M i f = some M' ∧ M'.r = M.r ∧ M'.c = n ∧
      ∀ b < n, colFree M' arg b = colFree M arg (mrIdx i f b) := by
  cases square with
  | false =>
    obtain ⟨M', h1, h2, h3, h4⟩ := moveColsM_spec (M := M) hc hi hf
    refine ⟨M', by simpa using h1, h2, h3, fun b hb => ?_⟩
    rw [Bool.eq_iff_iff, colFree_iff, colFree_iff, h2]
    constructor
    · intro h a ha; rw [← h4 a ha b hb]; exact h a ha
    · intro h a ha; rw [h4 a ha b hb]; exact h a ha
  | true =>
    obtain ⟨M', h1, h2, h3, h4⟩ := moveSquareM_spec (hsq rfl) hc hi hf
    refine ⟨M', by simpa using h1, by rw [h2, hsq rfl], h3, fun b hb => ?_⟩
    rw [Bool.eq_iff_iff, colFree_iff, colFree_iff, h2, hsq rfl]
    constructor
    · intro h a ha
      have ha' : mrIdx f i a < n := mrIdx_lt hf hi ha
      have := h (mrIdx f i a) ha'
      rw [h4 _ ha' b hb, mrIdx_inv] at this
      exact this
    · intro h a ha
      rw [h4 a ha b hb]
      exact h _ (mrIdx_lt hi hf ha)

/-- The elements of `l` at the positions listed. -/
def pick {α : Type} (π : List ℕ) (l : List α) : List α := π.filterMap (fun k => l[k]?)

theorem pick_append {α : Type} (a b : List ℕ) (l : List α) :
    pick (a ++ b) l = pick a l ++ pick b l := by simp [pick]

theorem pick_range {α : Type} (l : List α) : pick (List.range l.length) l = l := by
  have : ∀ n ≤ l.length, pick (List.range n) l = l.take n := by
    intro n
    induction n with
    | zero => intro _; simp [pick]
    | succ n ih =>
      intro hn
      rw [List.range_succ, pick_append, ih (by omega), List.take_add_one]
      congr 1
  rw [this _ le_rfl, List.take_length]

theorem pick_length {α : Type} {π : List ℕ} {l : List α} (h : ∀ k ∈ π, k < l.length) :
    (pick π l).length = π.length := by
  induction π with
  | nil => rfl
  | cons k π ih =>
    have hk := h k (by simp)
    rw [show k :: π = [k] ++ π from rfl, pick_append, List.length_append, List.length_append,
      ih (fun a ha => h a (List.mem_cons_of_mem _ ha))]
    simp [pick, List.getElem?_eq_getElem hk]

theorem pick_single {α : Type} {k : ℕ} {l : List α} (h : k < l.length) :
    pick [k] l = [l[k]] := by
  simp [pick, List.getElem?_eq_getElem h]

theorem pick_perm {α : Type} {π : List ℕ} {l : List α} (h : π.Perm (List.range l.length)) :
    (pick π l).Perm l := by
  have := h.filterMap (fun k => l[k]?)
  rwa [show List.filterMap (fun k => l[k]?) (List.range l.length) = l from pick_range l] at this

/-- One move of the split loops, on a list reordered by `π`. -/
theorem pick_moved {α : Type} {L R : List ℕ} {k : ℕ} {l l' : List α} {f : ℕ}
    (hp : (L ++ k :: R).Perm (List.range l.length)) (hf : f = l.length - 1)
    (hl : l'.length = l.length) (h : MovedTo L.length f (pick (L ++ k :: R) l) l') :
    l' = pick (L ++ R ++ [k]) l := by
  have hlt : ∀ a ∈ L ++ k :: R, a < l.length := fun a ha => by
    simpa using (hp.mem_iff.1 ha)
  have hk := hlt k (by simp)
  have e : pick (L ++ k :: R) l = pick L l ++ l[k] :: pick R l := by
    rw [show L ++ k :: R = L ++ ([k] ++ R) from rfl, pick_append, pick_append, pick_single hk]
    rfl
  have hL : (pick L l).length = L.length := pick_length fun a ha => hlt a (by simp [ha])
  have hR : (pick R l).length = R.length := pick_length fun a ha => hlt a (by simp [ha])
  have hlen := hp.length_eq
  simp only [List.length_append, List.length_cons, List.length_range] at hlen
  rw [e, ← hL] at h
  have := movedTo_last (by simp [hL, hR]; omega) (by simp [hL, hR]; omega) h
  rw [this, pick_append, pick_append, pick_single hk]

section field
variable {K : Type} [Field K] [DecidableEq K]

theorem moveCoreM_eq {c c' : Core K} {i f : ℕ} (h : c.moveCoreM i f = some c') :
    ∃ M', c' = { c with M := M' } := by
  unfold moveCoreM at h
  split_ifs at h with hz
  · simp only [Option.some.injEq] at h; subst h; exact ⟨_, rfl⟩
  · cases hm : moveSquare c.M i f with
    | none => simp [hm] at h
    | some M => simp [hm] at h; subst h; exact ⟨_, rfl⟩

theorem moveStor_frame {c c' : Core K} {i f : ℕ} (h : c.moveStor i f = some c') :
    ∃ x d M, c' = { c with x := x, dxH := d, M := M } := by
  simp only [moveStor, Option.bind_eq_bind, Option.bind_eq_some_iff] at h
  obtain ⟨_, _, x, _, d, _, h⟩ := h
  obtain ⟨M, rfl⟩ := moveCoreM_eq h
  exact ⟨x, d, M, rfl⟩

theorem moveDiss_frame {c c' : Core K} {i f : ℕ} (h : c.moveDiss i f = some c') :
    ∃ w z M Zl, c' = { c with w := w, z := z, M := M, Zl := Zl } := by
  simp only [moveDiss, Option.bind_eq_bind, Option.bind_eq_some_iff] at h
  obtain ⟨_, _, w, _, z, _, d', hd, h⟩ := h
  obtain ⟨M, rfl⟩ := moveCoreM_eq hd
  split_ifs at h with hz1 hz2
  · simp only [Option.bind_eq_some_iff] at h
    obtain ⟨Zl, hZl, h⟩ := h
    simp only [Option.pure_def, Option.some.injEq] at h
    subst h; exact ⟨w, z, M, Zl, rfl⟩
  · simp only [Option.pure_def, Option.some.injEq] at h
    subst h; exact ⟨w, z, M, _, rfl⟩
  · simp only [Option.pure_def, Option.some.injEq] at h
    subst h; exact ⟨w, z, M, _, rfl⟩

theorem MoveOK.refl {c : Core K} (h : WF c) : MoveOK c c :=
  ⟨SameSystem.refl c, h, rfl, rfl, rfl, rfl, rfl⟩

theorem MoveOK.trans {c c' c'' : Core K} (h : WF c) (h1 : MoveOK c c') (h2 : MoveOK c' c'') :
    MoveOK c c'' := by
  obtain ⟨a1, a2, a3, a4, a5⟩ := h1.dims
  obtain ⟨b1, b2, b3, b4, b5⟩ := h2.dims
  exact ⟨h1.same.trans h h1.wf h2.same, h2.wf, b1.trans a1, b2.trans a2, b3.trans a3,
    b4.trans a4, b5.trans a5⟩

/-- The storage loop of `linear_nonlinear`. -/
theorem storLoop_spec (c : Core K) (hc : WF c) (hZ : ZlOK c) (square : Bool) (h : Mat FS)
    (arg : List String) (hcol : h.c = c.x.length) (hsq : square = true → h.r = c.x.length) :
    let lin := colFree h arg
    let π := (List.range c.x.length).filter lin ++ (List.range c.x.length).filter (fun k => !lin k)
    ∃ s, splitLoop (fun k (s : Core K × Mat FS) => colFree s.2 arg k)
      (fun k s => do
        let c' ← s.1.moveStor k (s.1.x.length - 1)
        let h' ← (if square then moveSquareM else moveColsM) s.2 k (c'.x.length - 1)
        return (c', h')) h.c 0 (c, h) =
          some (s, ((List.range c.x.length).filter lin).length) ∧
      s.1.x = pick π c.x ∧ (∀ d, c.dxH = some d → s.1.dxH = some (pick π d)) ∧
      MoveOK c s.1 ∧ ZlOK s.1 ∧ s.1.w = c.w ∧ s.1.z = c.z ∧ s.1.xl = c.xl ∧ s.1.H = c.H ∧
        s.1.forceWnl = c.forceWnl ∧ s.1.u = c.u ∧ s.1.y = c.y ∧ s.1.cu = c.cu ∧ s.1.cy = c.cy := by
  intro lin π
  have hpart := splitLoop_partition
    (test := fun k (s : Core K × Mat FS) => colFree s.2 arg k)
    (move := fun k s => do
        let c' ← s.1.moveStor k (s.1.x.length - 1)
        let h' ← (if square then moveSquareM else moveColsM) s.2 k (c'.x.length - 1)
        return (c', h'))
    (Inv := fun ρ s => s.1.x = pick ρ c.x ∧ (∀ d, c.dxH = some d → s.1.dxH = some (pick ρ d)) ∧
      MoveOK c s.1 ∧ ZlOK s.1 ∧ s.1.w = c.w ∧ s.1.z = c.z ∧ s.1.xl = c.xl ∧ s.1.H = c.H ∧
        s.1.forceWnl = c.forceWnl ∧ (s.1.u = c.u ∧ s.1.y = c.y ∧ s.1.cu = c.cu ∧ s.1.cy = c.cy) ∧
      s.2.r = h.r ∧ s.2.c = c.x.length ∧
      ∀ j < c.x.length, colFree s.2 arg j = lin (ρ.getD j 0))
    (p := lin) (n := c.x.length) ?_ ?_ (c, h) ?_
  · obtain ⟨s, e1, e2⟩ := hpart
    rw [hcol]
    obtain ⟨f1, f2, f3, f4, f5, f6, f7, f8, f9, f10, _⟩ := e2
    exact ⟨s, e1, f1, f2, f3, f4, f5, f6, f7, f8, f9, f10⟩
  · rintro L k R ⟨c1, h1⟩ hp ⟨f1, f2, f3, f4, f5, f6, f7, f8, f9, f10, g1, g2, g3⟩ _
    dsimp only at *
    have hlen := hp.length_eq
    simp only [List.length_append, List.length_cons, List.length_range] at hlen
    have hx : c1.x.length = c.x.length := f3.dims.1
    obtain ⟨c2, m1, m2, m3, m4, _⟩ := C02_move_storage c1 f3.wf L.length (c1.x.length - 1)
      (by omega) (by omega)
    have hx2 : c2.x.length = c.x.length := m2.dims.1.trans hx
    obtain ⟨h2, k1, k2, k3, k4⟩ := moveFun_spec square (M := h1) (n := c.x.length) (i := L.length)
      (f := c2.x.length - 1) (fun hs => by rw [g1, hsq hs]) g2 (by omega) (by omega) arg
    have hZ2 := ZlOK_run (m := .stor L.length (c1.x.length - 1)) f4 m1
    obtain ⟨x2, d2, M2, hfr⟩ := moveStor_frame m1
    refine ⟨(c2, h2), by simp [m1, k1], ?_, ?_, f3.trans hc m2, hZ2, ?_, ?_, ?_, ?_, ?_, ?_, ?_⟩
    · rw [hx, f1] at m3
      exact pick_moved hp rfl hx2 m3
    · intro d hd
      obtain ⟨d', n1, n2⟩ := m4 _ (f2 d hd)
      rw [n1]
      have hdl := hc.dxH d hd
      have hp' : (L ++ k :: R).Perm (List.range d.length) := by rw [hdl]; exact hp
      rw [pick_moved hp' (by omega) (by rw [hdl, ← hx2, m2.wf.dxH _ n1]) n2]
    · rw [hfr]; exact f5
    · rw [hfr]; exact f6
    · rw [hfr]; exact f7
    · rw [hfr]; exact f8
    · rw [hfr]; exact f9
    · rw [hfr]; exact f10
    · refine ⟨by rw [k2, g1], k3, fun j hj => ?_⟩
      have hlen2 : (L ++ k :: R).length = c.x.length := by simp; omega
      dsimp only
      rw [k4 j hj, g3 _ (mrIdx_lt (by omega) (by omega) hj), moved_getD L R k (by omega),
        hlen2, hx2]
  · rintro L k R ⟨c1, h1⟩ hp _ ⟨_, _, _, _, _, _, _, _, _, _, g1, g2, g3⟩
    have hlen := hp.length_eq
    simp only [List.length_append, List.length_cons, List.length_range] at hlen
    have := g3 L.length (by omega)
    simpa using this
  · refine ⟨(pick_range _).symm, ?_, MoveOK.refl hc, hZ, rfl, rfl, rfl, rfl, rfl,
      ⟨rfl, rfl, rfl, rfl⟩, rfl, hcol, ?_⟩
    · intro d hd
      rw [← hc.dxH d hd, pick_range]; exact hd
    · intro j hj
      simp [lin, hj, List.getD_eq_getElem?_getD]

/-- The dissipation loop of `linear_nonlinear`. -/
theorem dissLoop_spec (c : Core K) (hc : WF c) (hZ : ZlOK c) (square : Bool) (h : Mat FS)
    (arg : List String) (hcol : h.c = c.w.length) (hsq : square = true → h.r = c.w.length) :
    let lin := colFree h arg
    let π := (List.range c.w.length).filter lin ++ (List.range c.w.length).filter (fun k => !lin k)
    ∃ s, splitLoop (fun k (s : Core K × Mat FS) => colFree s.2 arg k)
      (fun k s => do
        let c' ← s.1.moveDiss k (s.1.w.length - 1)
        let h' ← (if square then moveSquareM else moveColsM) s.2 k (c'.w.length - 1)
        return (c', h')) h.c 0 (c, h) =
          some (s, ((List.range c.w.length).filter lin).length) ∧
      s.1.w = pick π c.w ∧ s.1.z = pick π c.z ∧
      MoveOK c s.1 ∧ s.1.x = c.x ∧ s.1.dxH = c.dxH ∧ s.1.xl = c.xl ∧ s.1.H = c.H ∧
        s.1.forceWnl = c.forceWnl ∧ s.1.u = c.u ∧ s.1.y = c.y ∧ s.1.cu = c.cu ∧ s.1.cy = c.cy := by
  intro lin π
  have hpart := splitLoop_partition
    (test := fun k (s : Core K × Mat FS) => colFree s.2 arg k)
    (move := fun k s => do
        let c' ← s.1.moveDiss k (s.1.w.length - 1)
        let h' ← (if square then moveSquareM else moveColsM) s.2 k (c'.w.length - 1)
        return (c', h'))
    (Inv := fun ρ s => s.1.w = pick ρ c.w ∧ s.1.z = pick ρ c.z ∧
      MoveOK c s.1 ∧ ZlOK s.1 ∧ s.1.x = c.x ∧ s.1.dxH = c.dxH ∧ s.1.xl = c.xl ∧ s.1.H = c.H ∧
        s.1.forceWnl = c.forceWnl ∧ (s.1.u = c.u ∧ s.1.y = c.y ∧ s.1.cu = c.cu ∧ s.1.cy = c.cy) ∧
      s.2.r = h.r ∧ s.2.c = c.w.length ∧
      ∀ j < c.w.length, colFree s.2 arg j = lin (ρ.getD j 0))
    (p := lin) (n := c.w.length) ?_ ?_ (c, h) ?_
  · obtain ⟨s, e1, e2⟩ := hpart
    rw [hcol]
    obtain ⟨f1, f2, f3, f4, f5, f6, f7, f8, f9, f10, _⟩ := e2
    exact ⟨s, e1, f1, f2, f3, f5, f6, f7, f8, f9, f10⟩
  · rintro L k R ⟨c1, h1⟩ hp ⟨f1, f2, f3, f4, f5, f6, f7, f8, f9, f10, g1, g2, g3⟩ _
    dsimp only at *
    have hlen := hp.length_eq
    simp only [List.length_append, List.length_cons, List.length_range] at hlen
    have hx : c1.w.length = c.w.length := f3.dims.2.1
    obtain ⟨c2, m1, m2, m3, m4, _⟩ := C02_move_dissipative c1 f3.wf f4 L.length (c1.w.length - 1)
      (by omega) (by omega)
    have hx2 : c2.w.length = c.w.length := m2.dims.2.1.trans hx
    obtain ⟨h2, k1, k2, k3, k4⟩ := moveFun_spec square (M := h1) (n := c.w.length) (i := L.length)
      (f := c2.w.length - 1) (fun hs => by rw [g1, hsq hs]) g2 (by omega) (by omega) arg
    have hZ2 := ZlOK_run (m := .diss L.length (c1.w.length - 1)) f4 m1
    obtain ⟨w2, z2, M2, Z2, hfr⟩ := moveDiss_frame m1
    refine ⟨(c2, h2), by simp [m1, k1], ?_, ?_, f3.trans hc m2, hZ2, ?_, ?_, ?_, ?_, ?_, ?_, ?_⟩
    · rw [hx, f1] at m3
      exact pick_moved hp rfl hx2 m3
    · rw [f2] at m4
      have hp' : (L ++ k :: R).Perm (List.range c.z.length) := by rw [← hc.wz]; exact hp
      exact pick_moved hp' (by have := hc.wz; omega) (by rw [← m2.wf.wz, ← hc.wz, hx2]) m4
    · rw [hfr]; exact f5
    · rw [hfr]; exact f6
    · rw [hfr]; exact f7
    · rw [hfr]; exact f8
    · rw [hfr]; exact f9
    · rw [hfr]; exact f10
    · refine ⟨by rw [k2, g1], k3, fun j hj => ?_⟩
      have hlen2 : (L ++ k :: R).length = c.w.length := by simp; omega
      dsimp only
      rw [k4 j hj, g3 _ (mrIdx_lt (by omega) (by omega) hj), moved_getD L R k (by omega),
        hlen2, hx2]
  · rintro L k R ⟨c1, h1⟩ hp _ ⟨_, _, _, _, _, _, _, _, _, _, g1, g2, g3⟩
    have hlen := hp.length_eq
    simp only [List.length_append, List.length_cons, List.length_range] at hlen
    have := g3 L.length (by omega)
    simpa using this
  · refine ⟨(pick_range _).symm, ?_, MoveOK.refl hc, hZ, rfl, rfl, rfl, rfl, rfl,
      ⟨rfl, rfl, rfl, rfl⟩, rfl, hcol, ?_⟩
    · dsimp only; rw [hc.wz, pick_range]
    · intro j hj
      simp [lin, hj, List.getD_eq_getElem?_getD]

/-- Positions of the elements satisfying `p` first, then the others, both in order. -/
def stable (n : ℕ) (p : ℕ → Prop) [DecidablePred p] : List ℕ :=
  (List.range n).filter (fun k => decide (p k)) ++ (List.range n).filter (fun k => decide (¬ p k))

/-- Number of positions satisfying `p`. -/
def count (n : ℕ) (p : ℕ → Prop) [DecidablePred p] : ℕ := (List.range n).countP (fun k => decide (p k))

/-- Column `k` of a matrix given by the free symbols of its entries contains no symbol of
`arg`. -/
abbrev ColIndep (h : Mat FS) (arg : List String) (k : ℕ) : Prop :=
  ∀ i < h.r, ∀ s ∈ h.e i k, s ∉ arg

/-- **C13**: `linear_nonlinear` always succeeds; it only reorders the system; the first
`dims.xl()` states are exactly those whose column of the Hessian contains no symbol of
`argx`, in their order, followed by the others in their order; likewise for dissipations with
their laws; the stored gradient follows; `Zl` is the Jacobian of the first laws. -/
theorem C13_linear_nonlinear (c : Core K) (hc : WF c) (hZ : ZlOK c) (square : Bool)
    (hess jacz : Mat FS) (argx argz : List String)
    (jac : List (Env K → K) → List String → Mat K)
    (hx : hess.c = c.x.length) (hxs : square = true → hess.r = c.x.length)
    (hw : jacz.c = c.w.length) (hws : square = true → jacz.r = c.w.length) :
    let πx := stable c.x.length (ColIndep hess argx)
    let πw := stable c.w.length (ColIndep jacz argz)
    ∃ c', c.linearNonlinear square hess argx jacz argz jac = some c' ∧
      SameSystem c c' ∧ WF c' ∧
      c'.x = pick πx c.x ∧ (∀ d, c.dxH = some d → c'.dxH = some (pick πx d)) ∧
      c'.w = pick πw c.w ∧ c'.z = pick πw c.z ∧
      c'.xl = count c.x.length (ColIndep hess argx) ∧
      c'.wl = count c.w.length (ColIndep jacz argz) ∧
      c'.Zl = jac (c'.z.take c'.wl) (c'.w.take c'.wl) ∧ c'.forceWnl = c.forceWnl := by
  intro πx πw
  obtain ⟨s, a1, a2, a3, a4, a5, a6, a7, a8, a9, a10, a11⟩ :=
    storLoop_spec c hc hZ square hess argx hx hxs
  obtain ⟨t, b1, b2, b3, b4, b5, b6, b7, b8, b9, b10⟩ :=
    dissLoop_spec s.1 a4.wf a5 square jacz argz (by rw [a6]; exact hw)
      (fun h => by rw [a6]; exact hws h)
  have ex : ∀ k, colFree hess argx k = decide (ColIndep hess argx k) := fun k => by
    rw [Bool.eq_iff_iff, colFree_iff]; simp
  have ew : ∀ k, colFree jacz argz k = decide (ColIndep jacz argz k) := fun k => by
    rw [Bool.eq_iff_iff, colFree_iff]; simp
  have hπx : (List.range c.x.length).filter (colFree hess argx) ++
      (List.range c.x.length).filter (fun k => !colFree hess argx k) = πx := by
    simp only [πx, stable, ex, decide_not]
    congr 1
    exact List.filter_congr fun k _ => ex k
  have hπw : (List.range c.w.length).filter (colFree jacz argz) ++
      (List.range c.w.length).filter (fun k => !colFree jacz argz k) = πw := by
    simp only [πw, stable, ew, decide_not]
    congr 1
    exact List.filter_congr fun k _ => ew k
  have nx : ((List.range c.x.length).filter (colFree hess argx)).length =
      count c.x.length (ColIndep hess argx) := by
    rw [count, List.countP_eq_length_filter]
    exact congrArg _ (List.filter_congr fun k _ => ex k)
  have nw : ((List.range c.w.length).filter (colFree jacz argz)).length =
      count c.w.length (ColIndep jacz argz) := by
    rw [count, List.countP_eq_length_filter]
    exact congrArg _ (List.filter_congr fun k _ => ew k)
  have hall := a4.trans hc b4
  rw [nx] at a1
  rw [a6, nw] at b1
  rw [hπx] at a2
  rw [a6, hπw] at b2
  rw [a6, hπw, a7] at b3
  refine ⟨{ t.1 with xl := count c.x.length (ColIndep hess argx),
                     wl := count c.w.length (ColIndep jacz argz),
                     Zl := jac (t.1.z.take (count c.w.length (ColIndep jacz argz)))
                       (t.1.w.take (count c.w.length (ColIndep jacz argz))) }, ?_, ?_, ?_, ?_⟩
  · unfold linearNonlinear
    refine (Option.bind_eq_some_iff).2 ⟨_, a1, (Option.bind_eq_some_iff).2 ⟨_, b1, rfl⟩⟩
  · obtain ⟨q1, q2, q3, q4, q5, q6, q7, q8⟩ := hall.same
    exact ⟨q1, q2, q3, q4, q5, q6, q7, q8⟩
  · obtain ⟨q1, q2, q3, q4, q5, q6, q7, q8, q9⟩ := hall.wf
    have hx' : t.1.x.length = c.x.length := hall.dims.1
    have hw' : t.1.w.length = c.w.length := hall.dims.2.1
    refine ⟨q1, q2, q3, q4, q5, q6, ?_, ?_, q9⟩
    · show count c.x.length (ColIndep hess argx) ≤ t.1.x.length
      rw [hx']; exact (List.countP_le_length).trans (by simp)
    · show count c.w.length (ColIndep jacz argz) ≤ t.1.w.length
      rw [hw']; exact (List.countP_le_length).trans (by simp)
  · refine ⟨by rw [b5]; exact a2, ?_, b2, b3, rfl, rfl, rfl, by rw [b9]; exact a10⟩
    intro d hd
    show t.1.dxH = _
    rw [b6, a3 d hd, hπx]

theorem rowZero_iff {nz : Mat Bool} {k : ℕ} :
    rowZero nz k = true ↔ ∀ j < nz.c, k < j → nz.e k j = false := by
  simp only [rowZero, List.all_eq_true, List.mem_range, Bool.not_eq_true', Bool.and_eq_false_iff,
    decide_eq_false_iff_not]
  exact forall₂_congr fun j _ => by tauto

/-- State `k` is separable: all its cross derivatives are zero. -/
abbrev Separable (n : ℕ) (nz : Mat Bool) (k : ℕ) : Prop := ∀ j < n, j ≠ k → nz.e k j = false

/-- **C14**: for a symmetric pattern of nonzero second derivatives, `monovar_multivar`
succeeds, only reorders the system, leaves the linear states first, and puts next exactly
the nonlinear states which have zero cross derivatives with all other nonlinear states (in
their order), followed by the others (in their order). -/
theorem C14_monovar_multivar (c : Core K) (hc : WF c) (hZ : ZlOK c) (nz : Mat Bool)
    (hr : nz.r = c.x.length - c.xl) (hcl : nz.c = c.x.length - c.xl)
    (hsym : ∀ i < c.x.length - c.xl, ∀ j < c.x.length - c.xl, nz.e i j = nz.e j i) :
    let n := c.x.length - c.xl
    let π := stable n (Separable n nz)
    ∃ c', c.monovarMultivar nz = some (c', count n (Separable n nz)) ∧ MoveOK c c' ∧
      c'.xl = c.xl ∧ c'.x = c.x.take c.xl ++ pick π (c.x.drop c.xl) := by
  intro n π
  have hxl := hc.xl
  have hn : (c.x.drop c.xl).length = n := by simp [n]
  set p : ℕ → Bool := fun k => decide (Separable n nz k) with hpdef
  have hpart := splitLoop_partition
    (test := fun k (s : Core K × Mat Bool) => rowZero s.2 k)
    (move := fun k s => do
      let c' ← s.1.moveStor (s.1.xl + k) (s.1.x.length - 1)
      let h' ← moveSquareM s.2 k (c'.x.length - c'.xl - 1)
      return (c', h'))
    (Inv := fun ρ s => s.1.x = c.x.take c.xl ++ pick ρ (c.x.drop c.xl) ∧
      MoveOK c s.1 ∧ s.1.xl = c.xl ∧ s.2.r = n ∧ s.2.c = n ∧
      ∀ a < n, ∀ b < n, s.2.e a b = nz.e (ρ.getD a 0) (ρ.getD b 0))
    (p := p) (n := n) ?_ ?_ (c, nz) ?_
  · obtain ⟨s, e1, f1, f2, f3, f4⟩ := hpart
    have hπ : (List.range n).filter p ++ (List.range n).filter (fun k => !p k) = π := by
      simp only [π, stable, decide_not, p]
    rw [hπ] at f1
    refine ⟨s.1, ?_, f2, f3, f1⟩
    unfold monovarMultivar
    refine (Option.bind_eq_some_iff).2 ⟨_, e1, ?_⟩
    simp only [Option.pure_def, count, List.countP_eq_length_filter, p]
  · rintro L k R ⟨c1, h1⟩ hp ⟨f1, f3, f7, g1, g2, g3⟩ _
    dsimp only at *
    have hlen := hp.length_eq
    simp only [List.length_append, List.length_cons, List.length_range] at hlen
    have hx : c1.x.length = c.x.length := f3.dims.1
    obtain ⟨c2, m1, m2, m3, _⟩ := C02_move_storage c1 f3.wf (c1.xl + L.length) (c1.x.length - 1)
      (by omega) (by omega)
    have hx2 : c2.x.length = c.x.length := m2.dims.1.trans hx
    obtain ⟨x2, d2, M2, hfr⟩ := moveStor_frame m1
    have hxl2 : c2.xl = c.xl := by rw [hfr]; exact f7
    obtain ⟨h2, k1, k2, k3, k4⟩ := moveSquareM_spec (M := h1) (n := n) (i := L.length)
      (f := n - 1) g1 g2 (by omega) (by omega)
    have hn2 : c2.x.length - c2.xl - 1 = n - 1 := by rw [hx2, hxl2]
    refine ⟨(c2, h2), by simp [m1, hn2, k1], ?_, f3.trans hc m2, hxl2, k2, k3, ?_⟩
    · have hlt : ∀ a ∈ L ++ k :: R, a < (c.x.drop c.xl).length := fun a ha => by
        rw [hn]; simpa using (hp.mem_iff.1 ha)
      have hk := hlt k (by simp)
      have hL : (pick L (c.x.drop c.xl)).length = L.length :=
        pick_length fun a ha => hlt a (by simp [ha])
      have hR : (pick R (c.x.drop c.xl)).length = R.length :=
        pick_length fun a ha => hlt a (by simp [ha])
      have e : c1.x = (c.x.take c.xl ++ pick L (c.x.drop c.xl)) ++
          (c.x.drop c.xl)[k] :: pick R (c.x.drop c.xl) := by
        rw [f1, show L ++ k :: R = L ++ ([k] ++ R) from rfl, pick_append, pick_append,
          pick_single hk]
        simp
      have hpos : c1.xl + L.length = (c.x.take c.xl ++ pick L (c.x.drop c.xl)).length := by
        simp [hL, f7, hxl]
      rw [hx, hpos, e] at m3
      have := movedTo_last (by rw [← e, hx]) (by rw [← e, hx, hx2]) m3
      rw [this, pick_append, pick_append, pick_single hk]
      simp
    · intro a ha b hb
      have hlen2 : (L ++ k :: R).length = n := by simp; omega
      dsimp only
      rw [k4 a ha b hb, g3 _ (mrIdx_lt (by omega) (by omega) ha) _
        (mrIdx_lt (by omega) (by omega) hb), moved_getD L R k (by omega),
        moved_getD L R k (by omega), hlen2]
  · rintro L k R ⟨c1, h1⟩ hp hLp ⟨_, _, _, g1, g2, g3⟩
    dsimp only at *
    have hlen := hp.length_eq
    simp only [List.length_append, List.length_cons, List.length_range] at hlen
    have hmem : ∀ a, a < n ↔ a ∈ L ++ k :: R := fun a => by rw [hp.mem_iff]; simp
    have hkn : k < n := (hmem k).2 (by simp)
    have hat : (L ++ k :: R).getD L.length 0 = k := by simp
    rw [Bool.eq_iff_iff, rowZero_iff, g2]
    simp only [p, decide_eq_true_eq]
    constructor
    · intro h j hj hjk
      rcases List.mem_append.1 ((hmem j).1 hj) with hjL | hjR
      · rw [hsym k hkn j hj]
        have := hLp j hjL
        simp only [p, decide_eq_true_eq] at this
        exact this k hkn (Ne.symm hjk)
      · rcases List.mem_cons.1 hjR with rfl | hjR
        · exact absurd rfl hjk
        · obtain ⟨i, hi, rfl⟩ := List.getElem_of_mem hjR
          have := h (L.length + 1 + i) (by omega) (by omega)
          rw [g3 _ (by omega) _ (by omega), hat] at this
          have e : (L ++ k :: R).getD (L.length + 1 + i) 0 = R[i] := by
            rw [List.getD_eq_getElem?_getD, List.getElem?_append_right (by omega),
              show L.length + 1 + i - L.length = i + 1 by omega]
            simp [hi]
          rwa [e] at this
    · intro h j hj hlt
      rw [g3 _ (by omega) _ hj, hat]
      have hj' : j < (L ++ k :: R).length := by simp; omega
      have hjn : (L ++ k :: R).getD j 0 < n := by
        rw [hmem, List.getD_eq_getElem?_getD, List.getElem?_eq_getElem hj', Option.getD_some]
        exact List.getElem_mem hj'
      refine h _ hjn ?_
      intro hEq
      have hnd : (L ++ k :: R).Nodup := hp.nodup_iff.2 List.nodup_range
      have h1 : (L ++ k :: R)[j] = (L ++ k :: R)[L.length]'(by simp) := by
        rw [List.getD_eq_getElem?_getD, List.getElem?_eq_getElem hj', Option.getD_some] at hEq
        rw [hEq]; simp
      have := (List.Nodup.getElem_inj_iff hnd).1 h1
      omega
  · refine ⟨?_, MoveOK.refl hc, rfl, hr, hcl, ?_⟩
    · dsimp only
      rw [← hn, pick_range, List.take_append_drop]
    · intro a ha b hb
      simp [ha, hb, List.getD_eq_getElem?_getD]

/-! ### Examples meeting the hypotheses -/

/-- Three states: the second has a quartic energy. -/
def exSplit : Core ℚ :=
  { (empty : Core ℚ) with
    x := ["a", "b", "c"], w := ["v", "r"], u := ["u"], y := ["y"],
    H := fun e => e "a" ^ 2 + e "b" ^ 4 + e "c" ^ 2
    z := [fun e => e "v" ^ 3, fun e => 2 * e "r"]
    M := ⟨6, 6, fun i j => (i : ℚ) - (j : ℚ)⟩ }

theorem exSplit_wf : WF exSplit :=
  ⟨rfl, rfl, rfl, rfl, rfl, by simp [exSplit, empty], by decide, by decide, by decide⟩

/-- Free symbols of the Hessian and of the Jacobian of `exSplit`. -/
def exHess : Mat FS := ⟨3, 3, fun i j => if i = 1 ∧ j = 1 then ["b"] else []⟩

/-- See `exHess`. -/
def exJac : Mat FS := ⟨2, 2, fun i j => if i = 0 ∧ j = 0 then ["v"] else []⟩

example : ∃ c', exSplit.linearNonlinear true exHess ["a", "b", "c"] exJac ["v", "r"]
      (fun _ _ => ⟨1, 1, fun _ _ => 2⟩) = some c' ∧
      c'.x = ["a", "c", "b"] ∧ c'.w = ["r", "v"] ∧ c'.xl = 2 ∧ c'.wl = 1 := by
  obtain ⟨c', h1, _, _, h2, _, h3, _, h4, h5, _⟩ := C13_linear_nonlinear exSplit exSplit_wf
    (Or.inl (by decide)) true exHess exJac ["a", "b", "c"] ["v", "r"]
    (fun _ _ => ⟨1, 1, fun _ _ => 2⟩) rfl (fun _ => rfl) rfl (fun _ => rfl)
  refine ⟨c', h1, h2.trans ?_, h3.trans ?_, h4.trans ?_, h5.trans ?_⟩ <;> decide

/-- Coupling of the first two states. -/
def exNz : Mat Bool := ⟨3, 3, fun i j => (i == 0 && j == 1) || (i == 1 && j == 0) || i == j⟩

example : ∃ c', exSplit.monovarMultivar exNz = some (c', 1) ∧ c'.x = ["c", "a", "b"] := by
  obtain ⟨c', h1, _, _, h2⟩ := C14_monovar_multivar exSplit exSplit_wf
    (Or.inl (by decide)) exNz rfl rfl (by decide)
  exact ⟨c', h1, h2.trans (by decide)⟩

/-- The symmetry of the pattern is needed: with a nonzero entry below the diagonal only, the
first state is counted as separable although the second depends on it. -/
theorem C14_symmetry_needed : ∃ nz : Mat Bool, nz.r = 3 ∧ nz.c = 3 ∧
    ¬ Separable 3 nz 1 ∧ (exSplit.monovarMultivar nz).map Prod.snd = some 3 :=
  ⟨⟨3, 3, fun i j => i == 1 && j == 0⟩, rfl, rfl, by decide, by decide +kernel⟩

end field
end Core
end Pyphs
