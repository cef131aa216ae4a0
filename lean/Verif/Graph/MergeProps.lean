import Verif.Graph.Merge
import Verif.Graph.Kirchhoff
import Mathlib.Analysis.Calculus.Deriv.Comp
import Mathlib.Analysis.Calculus.Deriv.Add
import Mathlib.Analysis.Calculus.Deriv.Pow
import Mathlib.Analysis.Calculus.Deriv.Mul
import Mathlib.Order.Monotone.Basic
import Mathlib.Tactic.FieldSimp
import Mathlib.Tactic.LinearCombination
import Mathlib.Tactic.Linarith

/-!
# C45: series and parallel merging
-/

namespace Pyphs
namespace Graph

/-! ### Specification -/

section spec
variable {K : Type} [Field K]

/-- A component with law `z` and control: `fc = true` for `effort = z flow`, else
`flow = z effort`. -/
def rel (fc : Bool) (z : K → K) (E F : K) : Prop := if fc then E = z F else F = z E

/-- Components in parallel: same effort, flows add. -/
def ParBundle (fc : Bool) (zs : List (K → K)) (E F : K) : Prop :=
  ∃ Fs, List.Forall₂ (fun z f => rel fc z E f) zs Fs ∧ Fs.sum = F

/-- Components in series: same flow, efforts add. -/
def SerBundle (fc : Bool) (zs : List (K → K)) (E F : K) : Prop :=
  ∃ Es, List.Forall₂ (fun z e => rel fc z e F) zs Es ∧ Es.sum = E

theorem rel_swap (fc : Bool) (z : K → K) (E F : K) : rel fc z E F ↔ rel (!fc) z F E := by
  cases fc <;> rfl

/-- Series and parallel are dual. -/
theorem ser_par (fc : Bool) (zs : List (K → K)) (E F : K) :
    SerBundle fc zs E F ↔ ParBundle (!fc) zs F E := by
  unfold SerBundle ParBundle
  simp only [rel_swap fc]

end spec

/-! ### Laws -/

section comp
variable {K : Type} [Field K]

theorem mapM_forall₂ {α β : Type} {f : α → Option β} : ∀ {l : List α} {l' : List β},
    l.mapM f = some l' → List.Forall₂ (fun a b => f a = some b) l l' := by
  intro l
  induction l with
  | nil => intro l' h; cases h; exact .nil
  | cons a l ih =>
    intro l' h
    rw [List.mapM_cons] at h
    obtain ⟨b, hb, h⟩ := Option.bind_eq_some_iff.1 h
    obtain ⟨bs, hbs, h⟩ := Option.bind_eq_some_iff.1 h
    cases h
    exact .cons hb (ih hbs)

/-- The answers of a sound solver are right inverses. -/
theorem right_inverses {solve : Solver K} (hs : solve.Sound) {zs iz : List (K → K)}
    (h : zs.mapM solve = some iz) : List.Forall₂ (fun z g => ∀ y, z (g y) = y) zs iz :=
  (mapM_forall₂ h).imp fun _ _ h => hs _ _ h

/-- C45. Merging of effort-controlled dissipations in parallel. -/
theorem C45_parallel_real (zs : List (K → K)) (E F : K) :
    ParBundle false zs E F ↔ rel false (realDiss zs) E F := by
  have : ∀ Fs, List.Forall₂ (fun z f => rel false z E f) zs Fs ↔ Fs = zs.map fun z => z E := by
    intro Fs
    induction zs generalizing Fs with
    | nil => simp
    | cons z zs ih =>
      cases Fs with
      | nil => simp
      | cons f Fs =>
        rw [List.forall₂_cons, ih, List.map_cons, List.cons.injEq]
        exact Iff.rfl
  unfold ParBundle
  simp only [this, exists_eq_left]
  exact eq_comm

/-- C45. Merging of flux-controlled dissipations in series. -/
theorem C45_serial_real (zs : List (K → K)) (E F : K) :
    SerBundle true zs E F ↔ rel true (realDiss zs) E F := by
  rw [ser_par, rel_swap]; exact C45_parallel_real zs F E

/-- Merging with inverse laws, for laws without repeated values. -/
theorem nonreal_iff {solve : Solver K} (hs : solve.Sound) {zs : List (K → K)} {Z : K → K}
    (hz : ∀ z ∈ zs, Function.Injective z)
    (hinj : ∀ iz, zs.mapM solve = some iz → Function.Injective (total iz))
    (h : nonrealDiss solve zs = some Z) (E F : K) : ParBundle true zs E F ↔ rel true Z E F := by
  obtain ⟨iz, h1, h2⟩ := Option.bind_eq_some_iff.1 h
  have hr := right_inverses hs h1
  have hZ := hs _ _ h2
  have key : ∀ Fs, List.Forall₂ (fun z f => rel true z E f) zs Fs ↔ Fs = iz.map fun g => g E := by
    clear hinj h h1 h2 hZ
    induction hr with
    | nil => simp
    | @cons z g zs iz hg _ ih =>
      intro Fs
      cases Fs with
      | nil => simp
      | cons f Fs =>
        rw [List.forall₂_cons, ih (fun z h => hz z (by simp [h])), List.map_cons, List.cons.injEq]
        refine and_congr_left fun _ => ?_
        show E = z f ↔ f = g E
        constructor
        · intro h; exact hz z (by simp) (by rw [hg, h])
        · intro h; rw [h, hg]
  unfold ParBundle
  simp only [key, exists_eq_left]
  show total iz E = F ↔ E = Z F
  constructor
  · intro h; exact hinj iz h1 (by rw [h, hZ])
  · intro h; rw [h, hZ]

/-- A linear law and the answer of any sound solver. -/
theorem linear_solve {solve : Solver K} (hs : solve.Sound) {r : K} {g : K → K}
    (h : solve (fun v => r * v) = some g) : r ≠ 0 ∧ g = fun y => r⁻¹ * y := by
  have hg := hs _ _ h
  have h0 : r ≠ 0 := by
    intro h0
    have := hg 1
    rw [h0, zero_mul] at this
    exact zero_ne_one this
  refine ⟨h0, funext fun y => ?_⟩
  have h1 : r * g y = y := hg y
  rw [← h1, inv_mul_cancel_left₀ h0, h1]

theorem linear_total (rs : List K) :
    total (rs.map fun r v => r * v) = fun v => rs.sum * v := by
  funext v
  unfold total
  induction rs with
  | nil => simp
  | cons r rs ih =>
    rw [List.map_cons, List.map_cons, List.sum_cons, ih, List.sum_cons]; ring

theorem linear_mapM {solve : Solver K} (hs : solve.Sound) : ∀ {rs : List K} {iz : List (K → K)},
    (rs.map fun r v => r * v).mapM solve = some iz →
    (∀ r ∈ rs, r ≠ 0) ∧ iz = (rs.map (·⁻¹)).map fun r v => r * v := by
  intro rs
  induction rs with
  | nil => intro iz h; cases h; simp
  | cons r rs ih =>
    intro iz h
    rw [List.map_cons, List.mapM_cons] at h
    obtain ⟨b, hb, h⟩ := Option.bind_eq_some_iff.1 h
    obtain ⟨bs, hbs, h⟩ := Option.bind_eq_some_iff.1 h
    cases h
    obtain ⟨h1, h2⟩ := ih hbs
    obtain ⟨h3, h4⟩ := linear_solve hs hb
    refine ⟨?_, ?_⟩
    · intro x hx
      rcases List.mem_cons.1 hx with rfl | hx
      · exact h3
      · exact h1 x hx
    · rw [h2, h4]; rfl

/-- C45. Linear flux-controlled dissipations in parallel, of any number: the merged component is
linear, its coefficient is the inverse of the sum of the inverses, and it has the same behaviour. -/
theorem C45_parallel_linear {solve : Solver K} (hs : solve.Sound) {rs : List K} {Z : K → K}
    (h : nonrealDiss solve (rs.map fun r v => r * v) = some Z) :
    (Z = fun W => (rs.map (·⁻¹)).sum⁻¹ * W) ∧ (rs.map (·⁻¹)).sum ≠ 0 ∧
    ∀ E F, ParBundle true (rs.map fun r v => r * v) E F ↔ rel true Z E F := by
  obtain ⟨iz, h1, h2⟩ := Option.bind_eq_some_iff.1 h
  obtain ⟨h3, h4⟩ := linear_mapM hs h1
  rw [h4, linear_total] at h2
  obtain ⟨h5, h6⟩ := linear_solve hs h2
  refine ⟨h6, h5, nonreal_iff hs ?_ ?_ h⟩
  · intro z hz
    obtain ⟨r, hr, rfl⟩ := List.mem_map.1 hz
    intro a b hab
    exact mul_left_cancel₀ (h3 r hr) hab
  · intro iz' hiz
    obtain rfl : iz = iz' := Option.some.inj (h1.symm.trans hiz)
    rw [h4, linear_total]
    intro a b hab
    exact mul_left_cancel₀ h5 hab

/-- C45. Linear effort-controlled dissipations in series. -/
theorem C45_serial_linear {solve : Solver K} (hs : solve.Sound) {rs : List K} {Z : K → K}
    (h : nonrealDiss solve (rs.map fun r v => r * v) = some Z) :
    (Z = fun W => (rs.map (·⁻¹)).sum⁻¹ * W) ∧ (rs.map (·⁻¹)).sum ≠ 0 ∧
    ∀ E F, SerBundle false (rs.map fun r v => r * v) E F ↔ rel false Z E F := by
  obtain ⟨h1, h2, h3⟩ := C45_parallel_linear hs h
  refine ⟨h1, h2, fun E F => ?_⟩
  rw [ser_par, rel_swap]; exact h3 F E

/-- C45. The power of the merged component is that of the components. -/
theorem C45_power_parallel (fc : Bool) {zs : List (K → K)} {E F : K} {Fs : List K}
    (_ : List.Forall₂ (fun z f => rel fc z E f) zs Fs) (hF : Fs.sum = F) :
    (Fs.map fun f => E * f).sum = E * F := by
  rw [← hF, List.sum_map_mul_left]; simp

end comp

section ordered
variable {K : Type} [Field K] [LinearOrder K] [IsStrictOrderedRing K]

theorem strictMono_inverse {z g : K → K} (hz : StrictMono z) (hg : ∀ y, z (g y) = y) :
    StrictMono g := by
  intro a b hab
  have : z (g a) < z (g b) := by rw [hg, hg]; exact hab
  exact hz.lt_iff_lt.1 this

theorem strictMono_total {gs : List (K → K)} (hne : gs ≠ []) (h : ∀ g ∈ gs, StrictMono g) :
    StrictMono (total gs) := by
  intro a b hab
  unfold total
  have hle : ∀ l : List (K → K), (∀ g ∈ l, StrictMono g) →
      (l.map fun f => f a).sum ≤ (l.map fun f => f b).sum := by
    intro l hl
    induction l with
    | nil => simp
    | cons g l ih =>
      rw [List.map_cons, List.sum_cons, List.map_cons, List.sum_cons]
      have h1 := hl g (by simp) hab
      have h2 := ih fun g hg => hl g (by simp [hg])
      linarith
  cases gs with
  | nil => exact absurd rfl hne
  | cons g gs =>
    rw [List.map_cons, List.sum_cons, List.map_cons, List.sum_cons]
    have h1 := h g (by simp) hab
    have h2 := hle gs fun g hg => h g (by simp [hg])
    linarith

/-- C45. The same for increasing laws: flux-controlled dissipations in parallel. -/
theorem C45_parallel_nonreal {solve : Solver K} (hs : solve.Sound) {zs : List (K → K)} {Z : K → K}
    (hz : ∀ z ∈ zs, StrictMono z) (h : nonrealDiss solve zs = some Z) (E F : K) :
    ParBundle true zs E F ↔ rel true Z E F := by
  refine nonreal_iff hs (fun z hm => (hz z hm).injective) ?_ h E F
  intro iz hiz
  have hr := right_inverses hs hiz
  obtain ⟨iz', h1, h2⟩ := Option.bind_eq_some_iff.1 h
  obtain rfl : iz = iz' := Option.some.inj (hiz.symm.trans h1)
  have hne : iz ≠ [] := by
    rintro rfl
    have := hs _ _ h2 1
    simp [total] at this
  refine (strictMono_total hne ?_).injective
  clear h h1 h2 hiz hne
  induction hr with
  | nil => simp
  | @cons z g zs iz hg _ ih =>
    intro x hx
    rcases List.mem_cons.1 hx with rfl | hx
    · exact strictMono_inverse (hz z (by simp)) hg
    · exact ih (fun z h => hz z (by simp [h])) x hx

/-- C45. Effort-controlled dissipations in series. -/
theorem C45_serial_nonreal {solve : Solver K} (hs : solve.Sound) {zs : List (K → K)} {Z : K → K}
    (hz : ∀ z ∈ zs, StrictMono z) (h : nonrealDiss solve zs = some Z) (E F : K) :
    SerBundle false zs E F ↔ rel false Z E F := by
  rw [ser_par, rel_swap]; exact C45_parallel_nonreal hs hz h F E

end ordered
end Graph
end Pyphs
