/-
Property C22: the splitting of the implicit equations into a nonlinear part, solved by
iterations, and a linear part, solved explicitly, is exact.
-/
import Verif.Scheme.MethodLemmas
import Verif.Scheme.GradProps

namespace Pyphs
namespace Scheme
open Finset Mat Core

/-- A function which is differentiable, with a gradient that does not depend on the variables
of `ys`, is affine in these variables. -/
theorem affine_moved {f : Sc} {ys : List String} (hnd : ys.Nodup) (hd : ∀ y ∈ ys, CDiff f y)
    (hi : ∀ y ∈ ys, ∀ k ∈ ys, Indep (pdiff f y) k) (e : Env ℝ) (D : String → ℝ) :
    f (moved e D ys) = f e + (ys.map fun y => pdiff f y e * D y).sum := by
  induction ys with
  | nil => simp [moved_nil]
  | cons y ys ih =>
    have hn := List.nodup_cons.1 hnd
    rw [moved_cons _ _ hn.1, affine_coord (hd y (by simp)) (hi y (by simp) y (by simp)),
      ih hn.2 (fun z hz => hd z (by simp [hz])) (fun z hz k hk => hi z (by simp [hz]) k (by simp [hk])),
      Indep.moved ys (fun k hk => hi y (by simp) k (by simp [hk])) e D hn.2]
    simp only [List.map_cons, List.sum_cons]
    ring

/-- Values `φ` given to the unknowns `vl`. -/
def Meth.setL (m : Meth) (e : Env ℝ) (φ : ℕ → ℝ) : Env ℝ :=
  fun s => if s ∈ m.v .l then φ ((m.v .l).idxOf s) else e s

/-- What `explicit_implicit` establishes (Core/SplitProps.lean, C13): the columns of the
Jacobian for the unknowns `vl` are free of unknowns. Names of unknowns are distinct. -/
structure SplitOK (m : Meth) : Prop where
  nodup : (m.v .all).Nodup
  diff : ∀ a, a ≠ .all → ∀ i < (m.v a).length, ∀ y ∈ m.v .l, CDiff (m.F a i) y
  free : ∀ a, a ≠ .all → ∀ i < (m.v a).length, ∀ y ∈ m.v .l, ∀ k ∈ m.v .all,
    Indep (pdiff (m.F a i) y) k

theorem v_perm (m : Meth) : List.Perm (m.v .all) (m.v .l ++ m.v .nl) := by
  simp only [Meth.v, Sfx.pick]
  have h1 : m.g.x.map dn = (m.g.x.take m.g.xl.length).map dn ++ (m.g.x.drop m.g.xl.length).map dn := by
    rw [← List.map_append, List.take_append_drop]
  rw [h1]
  conv_lhs => rw [← List.take_append_drop m.wl m.w]
  simp only [List.append_assoc]
  refine List.Perm.append_left _ ?_
  rw [← List.append_assoc, ← List.append_assoc]
  exact List.Perm.append_right _ List.perm_append_comm

theorem SplitOK.l {m : Meth} (h : SplitOK m) : (m.v .l).Nodup :=
  (List.nodup_append.1 ((v_perm m).nodup_iff.1 h.nodup)).1

theorem SplitOK.ne {m : Meth} (h : SplitOK m) {s : String} (hs : s ∈ m.v .nl) : s ∉ m.v .l :=
  fun hl => (List.nodup_append.1 ((v_perm m).nodup_iff.1 h.nodup)).2.2 s hl s hs rfl

theorem mem_l (m : Meth) {s : String} (h : s ∈ m.v .l) : s ∈ m.v .all :=
  (v_perm m).mem_iff.2 (List.mem_append_left _ h)

theorem mem_nl (m : Meth) {s : String} (h : s ∈ m.v .nl) : s ∈ m.v .all :=
  (v_perm m).mem_iff.2 (List.mem_append_right _ h)

theorem setL_moved (m : Meth) (e : Env ℝ) (φ : ℕ → ℝ) :
    m.setL e φ = moved e (fun s => φ ((m.v .l).idxOf s) - e s) (m.v .l) := by
  funext s; unfold Meth.setL moved; split_ifs <;> ring

theorem list_sum_range (l : List String) (f : String → ℝ) :
    (l.map f).sum = ∑ j ∈ range l.length, f (l.getD j "") := by
  induction l with
  | nil => simp
  | cons a l ih =>
    rw [List.length_cons, sum_range_succ']
    simp only [List.map_cons, List.sum_cons, ih, List.getD_cons_succ, List.getD_cons_zero]
    ring

theorem getD_mem {l : List String} {j : ℕ} (h : j < l.length) : l.getD j "" ∈ l := by
  rw [List.getD_eq_getElem?_getD, List.getElem?_eq_getElem h]; simp

theorem idxOf_getD {l : List String} (hn : l.Nodup) {j : ℕ} (h : j < l.length) :
    l.idxOf (l.getD j "") = j := by
  rw [List.getD_eq_getElem?_getD, List.getElem?_eq_getElem h]
  exact hn.idxOf_getElem j h

/-- `tempF{a}` as a function of the unknowns `vl`: `G{a} + jactempF{a}l.vl`. -/
theorem F_setL {m : Meth} (h : SplitOK m) {a : Sfx} (ha : a ≠ .all) {i : ℕ}
    (hi : i < (m.v a).length) (e : Env ℝ) (φ : ℕ → ℝ) :
    m.F a i (m.setL e φ) = m.G a i e + (m.J a .l e).mv φ i := by
  rw [setL_moved, affine_moved h.l (fun y hy => h.diff a ha i hi y hy)
    (fun y hy k hk => h.free a ha i hi y hy k (mem_l m hk)), list_sum_range]
  unfold Meth.G
  have : ∀ ψ : ℕ → ℝ, (m.J a .l e).mv ψ i =
      ∑ j ∈ range (m.v .l).length, pdiff (m.F a i) ((m.v .l).getD j "") e * ψ j := fun ψ => rfl
  rw [this, this, sub_add, ← sum_sub_distrib, sub_eq_add_neg, ← sum_neg_distrib]
  congr 1
  refine sum_congr rfl fun j hj => ?_
  rw [idxOf_getD h.l (mem_range.1 hj)]
  unfold svals
  ring

theorem setL_self (m : Meth) (e : Env ℝ) : m.setL e (svals (m.v .l) e) = e := by
  funext s
  unfold Meth.setL svals
  split_ifs with hs
  · congr 1
    rw [List.getD_eq_getElem?_getD, List.getElem?_eq_getElem (List.idxOf_lt_length_of_mem hs)]
    simp
  · rfl

theorem F_self {m : Meth} (h : SplitOK m) {a : Sfx} (ha : a ≠ .all) {i : ℕ}
    (hi : i < (m.v a).length) (e : Env ℝ) :
    m.F a i e = m.G a i e + (m.J a .l e).mv (svals (m.v .l) e) i := by
  unfold Meth.G; ring

/-- The full equations hold if and only if the linear and nonlinear equations hold. -/
theorem solved_iff {m : Meth} (hw : MethWF m) (e : Env ℝ) :
    (∀ i < (m.v .all).length, m.F .all i e = 0) ↔
      (∀ i < (m.v .l).length, m.F .l i e = 0) ∧ (∀ i < (m.v .nl).length, m.F .nl i e = 0) := by
  have hx := xl_le m
  have hwl := hw.wl
  have L0 : (m.v .all).length = m.g.x.length + m.w.length := v_length hw e .all
  have L1 : (m.v .l).length = m.g.xl.length + m.wl := v_length hw e .l
  have L2 : (m.v .nl).length = (m.g.x.length - m.g.xl.length) + (m.w.length - m.wl) :=
    v_length hw e .nl
  have r0 : ∀ i, m.row .all i e = i := fun i => by
    show (if i < m.g.x.length then 0 + i else m.g.x.length + (i - m.g.x.length)) = i
    split_ifs <;> omega
  have r1 : ∀ i, m.row .l i e = if i < m.g.xl.length then 0 + i
    else m.g.xl.length + (m.g.x.length - m.g.xl.length) + (i - m.g.xl.length) := fun i => rfl
  have r2 : ∀ i, m.row .nl i e = if i < m.g.x.length - m.g.xl.length then m.g.xl.length + i
    else m.g.xl.length + (m.g.x.length - m.g.xl.length) + m.wl +
      (i - (m.g.x.length - m.g.xl.length)) := fun i => rfl
  constructor
  · intro h
    have h' : ∀ r < m.g.x.length + m.w.length, m.res r e = 0 := fun r hr => by
      have := h r (by omega)
      rwa [F_eq_res hw e .all (by omega), r0] at this
    constructor
    · intro i hi
      rw [F_eq_res hw e .l hi, r1]
      rw [L1] at hi
      split_ifs with h1
      · exact h' _ (by omega)
      · exact h' _ (by omega)
    · intro i hi
      rw [F_eq_res hw e .nl hi, r2]
      rw [L2] at hi
      split_ifs with h1
      · exact h' _ (by omega)
      · exact h' _ (by omega)
  · rintro ⟨hl, hn⟩ i hi
    rw [F_eq_res hw e .all hi, r0]
    rw [L0] at hi
    have key1 : ∀ j < (m.v .l).length, m.res (m.row .l j e) e = 0 := fun j hj => by
      rw [← F_eq_res hw e .l hj]; exact hl j hj
    have key2 : ∀ j < (m.v .nl).length, m.res (m.row .nl j e) e = 0 := fun j hj => by
      rw [← F_eq_res hw e .nl hj]; exact hn j hj
    by_cases c1 : i < m.g.xl.length
    · have := key1 i (by omega)
      rw [r1, if_pos c1] at this
      simpa using this
    by_cases c2 : i < m.g.x.length
    · have := key2 (i - m.g.xl.length) (by omega)
      rw [r2, if_pos (by omega)] at this
      rwa [show m.g.xl.length + (i - m.g.xl.length) = i by omega] at this
    by_cases c3 : i < m.g.x.length + m.wl
    · have := key1 (m.g.xl.length + (i - m.g.x.length)) (by omega)
      rw [r1, if_neg (by omega)] at this
      rwa [show m.g.xl.length + (m.g.x.length - m.g.xl.length) +
        (m.g.xl.length + (i - m.g.x.length) - m.g.xl.length) = i by omega] at this
    · have := key2 (m.g.x.length - m.g.xl.length + (i - (m.g.x.length + m.wl))) (by omega)
      rw [r2, if_neg (by omega)] at this
      rwa [show m.g.xl.length + (m.g.x.length - m.g.xl.length) + m.wl +
        (m.g.x.length - m.g.xl.length + (i - (m.g.x.length + m.wl)) -
          (m.g.x.length - m.g.xl.length)) = i by omega] at this

theorem mv_zero_cols (A : Mat ℝ) (h : A.c = 0) (v : ℕ → ℝ) (i : ℕ) : A.mv v i = 0 := by
  unfold mv; rw [h]; simp

/-- `Fnl` in both cases. -/
theorem Fnl_eq {m : Meth} {e : Env ℝ} {f φ : ℕ → ℝ} (hf : m.Fnl e = some f)
    (hu : m.udVl e = some φ) (i : ℕ) : f i = m.G .nl i e + (m.J .nl .l e).mv φ i := by
  unfold Meth.Fnl at hf
  unfold Meth.udVl at hu
  obtain ⟨iJ, hj, h1⟩ := Option.bind_eq_some_iff.1 hu
  simp only [Option.pure_def, Option.some.injEq] at h1
  split_ifs at hf with h0
  · obtain ⟨iJ', hj', h2⟩ := Option.bind_eq_some_iff.1 hf
    rw [hj] at hj'
    simp only [Option.some.injEq] at hj'
    subst hj'
    simp only [Option.pure_def, Option.some.injEq] at h2
    rw [← h2, ← h1]
  · simp only [Option.some.injEq] at hf
    rw [← hf, mv_zero_cols _ (by simp [Meth.J]; simpa using h0)]; simp

/-- **C22**, sufficiency: whatever the values of `vnl`, once `vl` is set to `ud_vl` the linear
equations hold and the residual of the nonlinear equations is `Fnl`; so a zero of `Fnl` gives
a solution of the full discrete equations. -/
theorem C22_reduced_solves {m : Meth} (hw : MethWF m) (h : SplitOK m) (e : Env ℝ) (f φ : ℕ → ℝ)
    (hf : m.Fnl e = some f) (hu : m.udVl e = some φ) :
    (∀ i < (m.v .l).length, m.F .l i (m.setL e φ) = 0) ∧
    (∀ i < (m.v .nl).length, m.F .nl i (m.setL e φ) = f i) ∧
    ((∀ i < (m.v .nl).length, f i = 0) → ∀ i < (m.v .all).length, m.F .all i (m.setL e φ) = 0) := by
  have h1 : ∀ i < (m.v .l).length, m.F .l i (m.setL e φ) = 0 := by
    intro i hi
    rw [F_setL h (by simp) hi]
    unfold Meth.udVl at hu
    obtain ⟨iJ, hj, hφ⟩ := Option.bind_eq_some_iff.1 hu
    simp only [Option.pure_def, Option.some.injEq] at hφ
    rw [← hφ, (inv_isInv hj).mv_left _ hi]; ring
  have h2 : ∀ i < (m.v .nl).length, m.F .nl i (m.setL e φ) = f i := by
    intro i hi
    rw [F_setL h (by simp) hi, Fnl_eq hf hu]
  exact ⟨h1, h2, fun h0 => (solved_iff hw _).2 ⟨h1, fun i hi => by rw [h2 i hi, h0 i hi]⟩⟩

/-- **C22**, necessity: every solution of the full discrete equations (with an invertible
linear block) is a zero of `Fnl` in which `vl` has the values `ud_vl`. -/
theorem C22_solution_reduced {m : Meth} (hw : MethWF m) (h : SplitOK m) (e : Env ℝ)
    (hs : ∀ i < (m.v .all).length, m.F .all i e = 0) (hinv : (m.J .l .l e).inv ≠ none) :
    ∃ f φ, m.Fnl e = some f ∧ m.udVl e = some φ ∧ (∀ i < (m.v .nl).length, f i = 0) ∧
      ∀ j < (m.v .l).length, svals (m.v .l) e j = φ j := by
  obtain ⟨iJ, hj⟩ := Option.ne_none_iff_exists'.1 hinv
  obtain ⟨hl, hn⟩ := (solved_iff hw e).1 hs
  have hu : m.udVl e = some (iJ.mv fun i => -1 * m.G .l i e) :=
    (Option.bind_eq_some_iff).2 ⟨_, hj, rfl⟩
  obtain ⟨f, hf⟩ : ∃ f, m.Fnl e = some f := by
    unfold Meth.Fnl
    split_ifs
    · exact ⟨_, (Option.bind_eq_some_iff).2 ⟨_, hj, rfl⟩⟩
    · exact ⟨_, rfl⟩
  have hφ : ∀ j < (m.v .l).length, svals (m.v .l) e j = (iJ.mv fun i => -1 * m.G .l i e) j := by
    refine ((inv_isInv hj).solve (svals (m.v .l) e) _).1 fun i hi => ?_
    have h0 := hl i hi
    rw [F_self h (by simp) hi] at h0
    linarith
  refine ⟨f, _, hf, hu, ?_, hφ⟩
  intro i hi
  rw [Fnl_eq hf hu]
  have h0 := hn i hi
  rw [F_self h (by simp) hi] at h0
  rw [← h0]
  congr 1
  exact mv_congr (fun j hj => (hφ j hj).symm) _

theorem J_setL {m : Meth} (h : SplitOK m) {a : Sfx} (ha : a ≠ .all) {i j : ℕ}
    (hi : i < (m.v a).length) (hj : j < (m.v .l).length) (e : Env ℝ) (φ : ℕ → ℝ) :
    (m.J a .l (m.setL e φ)).e i j = (m.J a .l e).e i j := by
  rw [setL_moved]
  exact Indep.moved _ (fun k hk => h.free a ha i hi _ (getD_mem hj) k (mem_l m hk)) _ _ h.l

/-- **C22**: `G` does not depend on the values of `vl`, so that the iterations on `vnl` may
use whatever values `vl` has. -/
theorem C22_G_indep {m : Meth} (h : SplitOK m) {a : Sfx} (ha : a ≠ .all) {i : ℕ}
    (hi : i < (m.v a).length) (e : Env ℝ) (φ : ℕ → ℝ) : m.G a i (m.setL e φ) = m.G a i e := by
  have h1 := F_setL h ha hi e φ
  have h2 : m.G a i (m.setL e φ) = m.F a i (m.setL e φ) -
    (m.J a .l (m.setL e φ)).mv (svals (m.v .l) (m.setL e φ)) i := rfl
  rw [h2, h1]
  have h3 : (m.J a .l (m.setL e φ)).mv (svals (m.v .l) (m.setL e φ)) i = (m.J a .l e).mv φ i := by
    unfold mv
    refine sum_congr rfl fun j hj => ?_
    have hj' : j < (m.v .l).length := mem_range.1 hj
    rw [J_setL h ha hi hj']
    congr 1
    unfold svals Meth.setL
    rw [if_pos (getD_mem hj'), idxOf_getD h.l hj']
  rw [h3]; ring

/-! ### The Jacobian used by the iterations -/

/-- Component `i` of `Fnl` as an expression. -/
noncomputable def Meth.FnlE (m : Meth) (i : ℕ) : Sc := fun e => ((m.Fnl e).getD fun _ => 0) i

theorem G_update {m : Meth} (h : SplitOK m) {a : Sfx} (ha : a ≠ .all) {i : ℕ}
    (hi : i < (m.v a).length) {s : String} (hs : s ∈ m.v .nl) (e : Env ℝ) (t : ℝ) :
    m.G a i (Function.update e s t) = m.F a i (Function.update e s t) -
      (m.J a .l e).mv (svals (m.v .l) e) i := by
  show m.F a i (Function.update e s t) - _ = _
  congr 1
  unfold mv
  refine sum_congr rfl fun j hj => ?_
  have hj' : j < (m.v .l).length := mem_range.1 hj
  congr 1
  · exact h.free a ha i hi _ (getD_mem hj') s (mem_nl m hs) e t
  · unfold svals
    rw [Function.update_of_ne]
    intro h0
    exact h.ne hs (h0 ▸ getD_mem hj')

theorem pdiff_congr {f g : Sc} {s : String} {e : Env ℝ}
    (h : ∀ t, f (Function.update e s t) = g (Function.update e s t)) : pdiff f s e = pdiff g s e := by
  unfold pdiff
  rw [funext h]

theorem G_diff {m : Meth} (h : SplitOK m) {a : Sfx} (ha : a ≠ .all) {i : ℕ}
    (hi : i < (m.v a).length) {s : String} (hs : s ∈ m.v .nl) (e : Env ℝ)
    (hd : DifferentiableAt ℝ (fun t => m.F a i (Function.update e s t)) (e s)) :
    DifferentiableAt ℝ (fun t => m.G a i (Function.update e s t)) (e s) := by
  simp only [G_update h ha hi hs]
  exact hd.sub_const _

open Classical in
/-- The inverse of the linear block does not vary with `vnl`. -/
theorem inv_update {m : Meth} (h : SplitOK m) {s : String} (hs : s ∈ m.v .nl) (e : Env ℝ) (t : ℝ)
    {iJ : Mat ℝ} (hj : (m.J .l .l e).inv = some iJ) :
    ∃ iJt, (m.J .l .l (Function.update e s t)).inv = some iJt ∧
      ∀ (ψ : ℕ → ℝ), ∀ k < (m.v .l).length, iJt.mv ψ k = iJ.mv ψ k := by
  have hI := inv_isInv hj
  have he : ∀ i < (m.v .l).length, ∀ k < (m.v .l).length,
      (m.J .l .l (Function.update e s t)).e i k = (m.J .l .l e).e i k := fun i hi k hk =>
    h.free .l (by simp) i hi _ (getD_mem hk) s (mem_nl m hs) e t
  have hIt : IsInv (m.J .l .l (Function.update e s t)) iJ := by
    obtain ⟨h1, h2, h3, h4, h5⟩ := hI
    refine ⟨h1, h2, h3, ?_, ?_⟩
    · intro i hi j hj
      rw [← h4 i hi j hj]
      exact sum_congr rfl fun k hk => by rw [he i hi k (mem_range.1 hk)]
    · intro i hi j hj
      rw [← h5 i hi j hj]
      exact sum_congr rfl fun k hk => by rw [he k (mem_range.1 hk) j hj]
  have hne : (m.J .l .l (Function.update e s t)).inv ≠ none := fun h0 =>
    (inv_eq_none_iff.1 h0) iJ hIt
  obtain ⟨iJt, hjt⟩ := Option.ne_none_iff_exists'.1 hne
  refine ⟨iJt, hjt, fun ψ k hk => ?_⟩
  have hIt' := inv_isInv hjt
  exact (hIt.solve _ _).1 (fun i hi => hIt'.mv_left ψ hi) k hk

/-- **C22**: `jacFnl`, used in the Newton iterations, is the exact Jacobian of `Fnl` with
respect to `vnl`, at every point where the equations are differentiable (the discrete gradient is
not on the borders of the interval in which its quotient is expanded). -/
theorem C22_jacobian {m : Meth} (h : SplitOK m) (e : Env ℝ)
    (hdf : ∀ a, a ≠ .all → ∀ i < (m.v a).length, ∀ s ∈ m.v .nl,
      DifferentiableAt ℝ (fun t => m.F a i (Function.update e s t)) (e s))
    (A : Mat ℝ) (hA : m.jacFnl e = some A)
    {i j : ℕ} (hi : i < (m.v .nl).length) (hj : j < (m.v .nl).length) :
    A.e i j = pdiff (m.FnlE i) ((m.v .nl).getD j "") e := by
  set s := (m.v .nl).getD j "" with hsdef
  have hs : s ∈ m.v .nl := getD_mem hj
  unfold Meth.jacFnl at hA
  split_ifs at hA with h0
  · obtain ⟨iJ, hJ, h1⟩ := Option.bind_eq_some_iff.1 hA
    simp only [Option.pure_def, Option.some.injEq] at h1
    have hI := inv_isInv hJ
    have hIr : iJ.r = (m.v .l).length := hI.2.1
    have hIc : iJ.c = (m.v .l).length := hI.2.2.1
    -- `Fnl` along `s`
    have hF : ∀ t, m.FnlE i (Function.update e s t) = m.G .nl i (Function.update e s t) +
        ∑ k ∈ range (m.v .l).length, (m.J .nl .l e).e i k *
          ∑ l ∈ range (m.v .l).length, iJ.e k l * (-1 * m.G .l l (Function.update e s t)) := by
      intro t
      obtain ⟨iJt, hJt, heq⟩ := inv_update h hs e t hJ
      have : m.Fnl (Function.update e s t) = some fun i => m.G .nl i (Function.update e s t) +
          (m.J .nl .l (Function.update e s t)).mv
            (iJt.mv fun i => -1 * m.G .l i (Function.update e s t)) i := by
        unfold Meth.Fnl
        rw [if_pos h0]
        exact (Option.bind_eq_some_iff).2 ⟨_, hJt, rfl⟩
      unfold Meth.FnlE
      rw [this, Option.getD_some]
      congr 1
      unfold mv
      refine sum_congr rfl fun k hk => ?_
      have hk' : k < (m.v .l).length := mem_range.1 hk
      have e1 : (m.J .nl .l (Function.update e s t)).e i k = (m.J .nl .l e).e i k :=
        h.free .nl (by simp) i hi _ (getD_mem hk') s (mem_nl m hs) e t
      rw [e1]
      congr 1
      have := heq (fun i => -1 * m.G .l i (Function.update e s t)) k hk'
      unfold mv at this
      rw [this, hIc]
    have hd : ∀ l < (m.v .l).length,
        DifferentiableAt ℝ (fun t => m.G .l l (Function.update e s t)) (e s) :=
      fun l hl => G_diff h (by simp) hl hs e (hdf .l (by simp) l hl s hs)
    have hdn := G_diff h (a := .nl) (by simp) hi hs e (hdf .nl (by simp) i hi s hs)
    unfold pdiff
    rw [funext hF]
    have D : HasDerivAt (fun t => m.G .nl i (Function.update e s t) +
        ∑ k ∈ range (m.v .l).length, (m.J .nl .l e).e i k *
          ∑ l ∈ range (m.v .l).length, iJ.e k l * (-1 * m.G .l l (Function.update e s t)))
        (pdiff (m.G .nl i) s e + ∑ k ∈ range (m.v .l).length, (m.J .nl .l e).e i k *
          ∑ l ∈ range (m.v .l).length, iJ.e k l * (-1 * pdiff (m.G .l l) s e)) (e s) := by
      refine HasDerivAt.add hdn.hasDerivAt (HasDerivAt.fun_sum fun k _ => ?_)
      refine HasDerivAt.const_mul _ (HasDerivAt.fun_sum fun l hl => ?_)
      exact HasDerivAt.const_mul _ (HasDerivAt.const_mul _ (hd l (mem_range.1 hl)).hasDerivAt)
    rw [D.deriv, ← h1]
    simp only [add, mul, smul, Meth.JG]
    congr 1
    show ∑ k ∈ range (m.v .l).length, _ = _
    refine sum_congr rfl fun k hk => ?_
    congr 1
    rw [hIc]
  · simp only [Option.some.injEq] at hA
    rw [← hA]
    show pdiff (m.G .nl i) s e = _
    refine pdiff_congr fun t => ?_
    unfold Meth.FnlE Meth.Fnl
    rw [if_neg h0, Option.getD_some]

/-! ### Example -/

/-- A quadratic storage and a cubic dissipation. -/
noncomputable def exSp : Meth where
  g := ⟨["a"], [], []⟩
  w := ["w"]
  u := []
  y := []
  wl := 0
  H := fun e => e "a" ^ 2 / 2
  z := [fun e => e "w" ^ 3]
  dxH := [fun e => e "a" + 1 / 2 * e "da"]
  M := fun _ => ⟨2, 2, fun i j => if i = 0 ∧ j = 1 then -1 else if i = 1 ∧ j = 0 then 1 else 0⟩
  fs := 1

theorem exSp_wf : MethWF exSp :=
  ⟨fun _ => rfl, fun _ => rfl, rfl, rfl, rfl, by simp [exSp], by decide⟩

theorem exSp_vl : exSp.v .l = ["da"] := by decide
theorem exSp_vnl : exSp.v .nl = ["w"] := by decide
theorem exSp_v : exSp.v .all = ["da", "w"] := by decide

theorem exSp_res (r : ℕ) (e : Env ℝ) : exSp.res r e =
    (if r = 0 then e "da" else e (["w"].getD (r - 1) "")) -
    ((exSp.M e).e r 0 * (e "a" + 1 / 2 * e "da") + (exSp.M e).e r 1 * e "w" ^ 3) := by
  have hx : exSp.g.x = ["a"] := rfl
  have hw : exSp.w = ["w"] := rfl
  have hy : exSp.y = [] := rfl
  have hfs : exSp.fs = 1 := rfl
  have hz : exSp.z = [fun e => e "w" ^ 3] := rfl
  have hd : exSp.dxH = [fun e => e "a" + 1 / 2 * e "da"] := rfl
  unfold Meth.res
  rw [hx, hw, hy, hfs, hz, hd]
  have hdn : dn "a" = "da" := by decide
  by_cases h : r = 0
  · subst h; simp [vals, hdn]
  · simp [vals, h]

theorem exSp_F1 : exSp.F .l 0 = fun e => e "da" + e "w" ^ 3 := by
  funext e
  rw [F_eq_res exSp_wf e .l (by rw [exSp_vl]; simp), exSp_res]
  have : exSp.row .l 0 e = 0 := rfl
  rw [this]; simp [exSp]

theorem exSp_F2 : exSp.F .nl 0 = fun e => e "w" - (e "a" + 1 / 2 * e "da") := by
  funext e
  rw [F_eq_res exSp_wf e .nl (by rw [exSp_vnl]; simp), exSp_res]
  have : exSp.row .nl 0 e = 1 := rfl
  rw [this]; simp [exSp]

theorem exSp_ok : SplitOK exSp := by
  refine ⟨by decide, ?_, ?_⟩
  · intro a ha i hi y hy e
    rw [exSp_vl] at hy
    obtain rfl : y = "da" := by simpa using hy
    cases a with
    | all => exact absurd rfl ha
    | l =>
      rw [exSp_vl] at hi
      obtain rfl : i = 0 := by simpa using hi
      rw [exSp_F1]
      simp [Function.update]
    | nl =>
      rw [exSp_vnl] at hi
      obtain rfl : i = 0 := by simpa using hi
      rw [exSp_F2]
      simp [Function.update]; fun_prop
  · intro a ha i hi y hy k _ e t
    rw [exSp_vl] at hy
    obtain rfl : y = "da" := by simpa using hy
    cases a with
    | all => exact absurd rfl ha
    | l =>
      rw [exSp_vl] at hi
      obtain rfl : i = 0 := by simpa using hi
      rw [exSp_F1]
      simp [pdiff, Function.update]
    | nl =>
      rw [exSp_vnl] at hi
      obtain rfl : i = 0 := by simpa using hi
      rw [exSp_F2]
      simp [pdiff, Function.update]

/-- The hypothesis of `C22_jacobian` holds for the example, everywhere. -/
example (e : Env ℝ) : ∀ a, a ≠ .all → ∀ i < (exSp.v a).length, ∀ s ∈ exSp.v .nl,
    DifferentiableAt ℝ (fun t => exSp.F a i (Function.update e s t)) (e s) := by
  intro a ha i hi y hy
  rw [exSp_vnl] at hy
  obtain rfl : y = "w" := by simpa using hy
  cases a with
  | all => exact absurd rfl ha
  | l =>
    rw [exSp_vl] at hi
    obtain rfl : i = 0 := by simpa using hi
    rw [exSp_F1]
    simp [Function.update]
  | nl =>
    rw [exSp_vnl] at hi
    obtain rfl : i = 0 := by simpa using hi
    rw [exSp_F2]
    simp [Function.update]

end Scheme
end Pyphs
