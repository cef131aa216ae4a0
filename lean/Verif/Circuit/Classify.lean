/-
The equations that a method classifies as explicit are affine in the variables it classifies as
linear, with coefficients that do not depend on the unknowns (property C66).
-/
import Verif.Circuit.Props
import Verif.Scheme.SplitExact

namespace Pyphs
namespace Circuit
open Scheme Core Graph

/-! ### Affine functions of one symbol -/

/-- `f` is affine in `y`, with a slope that depends on no symbol of `V`. -/
def Aff (V : List String) (y : String) (f : Sc) : Prop :=
  ∃ a : Sc, (∀ e t, f (Function.update e y t) = f e + a e * (t - e y)) ∧ ∀ v ∈ V, Indep a v

variable {V : List String} {y : String}

theorem Aff.of_indep {f : Sc} (h : Indep f y) : Aff V y f :=
  ⟨fun _ => 0, fun e t => by rw [h e t]; ring, fun _ _ _ _ => rfl⟩

theorem Aff.const (c : ℝ) : Aff V y fun _ => c := .of_indep fun _ _ => rfl

theorem Aff.symb (s : String) : Aff V y fun e => e s := by
  by_cases h : s = y
  · subst h
    exact ⟨fun _ => 1, fun e t => by simp, fun _ _ _ _ => rfl⟩
  · exact .of_indep fun e t => by simp [Function.update_of_ne h]

theorem Aff.add {f g : Sc} (hf : Aff V y f) (hg : Aff V y g) : Aff V y fun e => f e + g e := by
  obtain ⟨a, ha, ia⟩ := hf
  obtain ⟨b, hb, ib⟩ := hg
  exact ⟨fun e => a e + b e, fun e t => by simp only [ha, hb]; ring,
    fun v hv e t => by simp only [ia v hv e t, ib v hv e t]⟩

theorem Aff.smul {f : Sc} {c : Sc} (hc : Indep c y) (hv : ∀ v ∈ V, Indep c v) (hf : Aff V y f) :
    Aff V y fun e => c e * f e := by
  obtain ⟨a, ha, ia⟩ := hf
  exact ⟨fun e => c e * a e, fun e t => by simp only [ha, hc e t]; ring,
    fun v h e t => by simp only [ia v h e t, hv v h e t]⟩

theorem Aff.cmul {f : Sc} (c : ℝ) (hf : Aff V y f) : Aff V y fun e => c * f e :=
  .smul (fun _ _ => rfl) (fun _ _ _ _ => rfl) hf

theorem Aff.sub {f g : Sc} (hf : Aff V y f) (hg : Aff V y g) : Aff V y fun e => f e - g e := by
  have := hf.add (hg.cmul (-1))
  refine cast (congrArg _ (funext fun e => ?_)) this
  ring

theorem Aff.sum {ι : Type} {l : List ι} {f : ι → Sc} (h : ∀ p ∈ l, Aff V y (f p)) :
    Aff V y fun e => (l.map fun p => f p e).sum := by
  induction l with
  | nil => exact .const 0
  | cons p l ih =>
    have := (h p (by simp)).add (ih fun q hq => h q (by simp [hq]))
    refine cast (congrArg _ (funext fun e => ?_)) this
    simp

theorem Aff.fsum {n : ℕ} {f : ℕ → Sc} (h : ∀ j < n, Aff V y (f j)) :
    Aff V y fun e => ∑ j ∈ Finset.range n, f j e := by
  induction n with
  | zero => exact .const 0
  | succ n ih =>
    have := (ih fun j hj => h j (by omega)).add (h n (by omega))
    refine cast (congrArg _ (funext fun e => ?_)) this
    rw [Finset.sum_range_succ]

theorem Aff.ite {p : Prop} [Decidable p] {f g : Sc} (hf : Aff V y f) (hg : Aff V y g) :
    Aff V y fun e => if p then f e else g e := by
  split_ifs
  · exact hf
  · exact hg

theorem Aff.diff {f : Sc} (h : Aff V y f) : CDiff f y ∧ ∀ v ∈ V, Indep (pdiff f y) v := by
  obtain ⟨a, ha, ia⟩ := h
  have hd : ∀ e, (fun t => f (Function.update e y t)) = fun t => f e + a e * (t - e y) :=
    fun e => funext fun t => ha e t
  have hp : pdiff f y = a := by
    funext e
    unfold pdiff
    rw [hd]
    simp
  refine ⟨fun e => ?_, fun v hv => ?_⟩
  · rw [hd]; fun_prop
  · rw [hp]; exact ia v hv

theorem Aff.of_diff {f : Sc} (hd : CDiff f y) (hy : y ∈ V) (h : ∀ v ∈ V, Indep (pdiff f y) v) :
    Aff V y f := ⟨pdiff f y, affine_coord hd (h y hy), h⟩

/-! ### Symbols that do not occur in the gradient -/

theorem indep_pdiff {f : Sc} {x : String} (h : Indep f y) : Indep (pdiff f x) y := by
  by_cases hxy : x = y
  · subst hxy
    intro e t
    have : ∀ e, Scheme.pdiff f x e = 0 := fun e => by
      unfold Scheme.pdiff
      simp only [h e, deriv_const]
    rw [this, this]
  · intro e t
    unfold Scheme.pdiff
    rw [Function.update_of_ne hxy]
    congr 1
    funext s
    rw [Function.update_comm (Ne.symm hxy), h]

theorem indep_subs_shift {f : Sc} {xs : List String} {θ : ℝ} (h : Indep f y) (hx : y ∉ xs)
    (hd : y ∉ xs.map dn) : Indep (subs (shift xs θ) f) y := by
  intro e t
  rw [Scheme.subs_shift, Scheme.subs_shift, ← h (moved e _ xs) t]
  congr 1
  funext s
  by_cases hs : s = y
  · subst hs; simp [moved, hx]
  · rw [Function.update_of_ne hs]
    unfold moved
    split_ifs with hm
    · have : dn s ≠ y := fun hh => hd (hh ▸ List.mem_map_of_mem hm)
      simp [incr, Function.update_of_ne hs, Function.update_of_ne this]
    · rw [Function.update_of_ne hs]

theorem indep_gradMono {H : Sc} {xs : List String} {tol : ℝ} (h : Indep H y) (hx : y ∉ xs)
    (hd : y ∉ xs.map dn) : ∀ f ∈ gradMono H xs tol, Indep f y := by
  intro f hf
  obtain ⟨x, hxm, rfl⟩ := List.mem_map.1 hf
  have n1 : x ≠ y := fun hh => hx (hh ▸ hxm)
  have n2 : dn x ≠ y := fun hh => hd (hh ▸ List.mem_map_of_mem hxm)
  intro e t
  have a1 : subs [(x, fun e => e x + e (dn x))] H (Function.update e y t) =
      subs [(x, fun e => e x + e (dn x))] H e := by
    rw [subs_single, subs_single, Function.update_of_ne n1, Function.update_of_ne n2,
      Function.update_comm (Ne.symm n1), h]
  simp only [a1, Function.update_of_ne n2, h e t, (indep_pdiff (x := x) h) e t,
    (indep_pdiff (x := x) (indep_pdiff (x := x) h)) e t]

theorem indep_gradTheta {H : Sc} {xs : List String} {θ : ℝ} (h : Indep H y) (hx : y ∉ xs)
    (hd : y ∉ xs.map dn) : ∀ f ∈ gradTheta H xs θ, Indep f y := by
  intro f hf
  obtain ⟨g, hg, rfl⟩ := List.mem_map.1 hf
  obtain ⟨x, hxm, rfl⟩ := List.mem_map.1 hg
  exact indep_subs_shift (indep_pdiff h) hx hd

theorem indep_gradTrapez {H : Sc} {xs : List String} (h : Indep H y) (hx : y ∉ xs)
    (hd : y ∉ xs.map dn) : ∀ f ∈ gradTrapez H xs, Indep f y := by
  intro f hf
  obtain ⟨g, hg, rfl⟩ := List.mem_map.1 hf
  obtain ⟨x, hxm, rfl⟩ := List.mem_map.1 hg
  intro e t
  have a1 := indep_subs_shift (θ := 1) (indep_pdiff (x := x) h) hx hd e t
  have a2 := indep_pdiff (x := x) h e t
  simp only [a1, a2]

theorem indep_gradMulti {H : Sc} {xs : List String} {tol : ℝ} (h : Indep H y) (hx : y ∉ xs)
    (hd : y ∉ xs.map dn) : ∀ f ∈ gradMulti H xs tol, Indep f y := by
  intro f hf
  unfold gradMulti at hf
  obtain ⟨p, hp, rfl⟩ := List.mem_map.1 hf
  obtain ⟨hp1, hp2⟩ := List.of_mem_zip hp
  have ndn : ∀ x ∈ xs, dn x ≠ y := fun x hxm hh => hd (hh ▸ List.mem_map_of_mem hxm)
  have i1 := indep_gradTheta (θ := 0.5) h hx hd
  intro e t
  have b1 : ((gradTheta H xs 0.5).zip xs).map (fun p => p.1 (Function.update e y t) *
      Function.update e y t (dn p.2)) = ((gradTheta H xs 0.5).zip xs).map
      (fun p => p.1 e * e (dn p.2)) := by
    refine List.map_congr_left fun q hq => ?_
    obtain ⟨q1, q2⟩ := List.of_mem_zip hq
    rw [i1 _ q1, Function.update_of_ne (ndn _ q2)]
  have b2 : xs.map (fun x => Function.update e y t (dn x) ^ 2) = xs.map (fun x => e (dn x) ^ 2) :=
    List.map_congr_left fun x hxm => by rw [Function.update_of_ne (ndn x hxm)]
  have b3 := indep_subs_shift (θ := 1) h hx hd e t
  simp only [b1, b2, b3, h e t, i1 _ hp1 e t, Function.update_of_ne (ndn _ hp2)]

theorem aff_gradLin {H : Sc} {g : Groups} (h : Indep H y)
    (hV : ∀ v ∈ V, Indep H v) : ∀ f ∈ gradLin H g, Aff V y f := by
  intro f hf
  unfold gradLin at hf
  obtain ⟨p, hp, rfl⟩ := List.mem_map.1 hf
  obtain ⟨hp1, hp2⟩ := List.of_mem_zip hp
  have hQ : ∀ (z : String), Indep H z → ∀ i < g.xl.length, ∀ j < g.xl.length,
      Indep ((Qmat H g).e i j) z := by
    intro z hz i hi j hj
    show Indep (pdiff ((gradient H g.xl).getD i fun _ => 0) _) z
    apply indep_pdiff
    unfold gradient
    rw [List.getD_eq_getElem?_getD, List.getElem?_map, List.getElem?_eq_getElem hi]
    exact indep_pdiff hz
  have hr : (Qmat H g).r = g.xl.length := by simp [Qmat, hessian, jacobian, gradient]
  have hc : (Qmat H g).c = g.xl.length := rfl
  have mv : ∀ (u : List Sc), (∀ j < g.xl.length, Aff V y (u.getD j fun _ => 0)) →
      ∀ q ∈ matvec (Qmat H g) u, Aff V y q := by
    intro u hu q hq
    obtain ⟨i, hi, rfl⟩ := List.mem_map.1 hq
    rw [List.mem_range, hr] at hi
    rw [hc]
    exact Aff.fsum fun j hj => (hu j hj).smul (hQ y h i hi j hj) fun v hv =>
      hQ v (hV v hv) i hi j hj
  refine Aff.add ?_ ?_
  · refine mv _ (fun j hj => ?_) _ hp1
    rw [List.getD_eq_getElem?_getD, List.getElem?_map, List.getElem?_eq_getElem hj]
    exact (Aff.symb _).add ((Aff.symb _).cmul 0.5)
  · unfold blVec at hp2
    obtain ⟨q, hq, he⟩ := List.mem_map.1 hp2
    obtain ⟨q1, q2⟩ := List.of_mem_zip hq
    rw [← he]
    refine Aff.sub ?_ (mv _ (fun j hj => ?_) _ q2)
    · obtain ⟨x, -, hx⟩ := List.mem_map.1 q1
      rw [← hx]
      exact .of_indep (indep_pdiff h)
    · rw [List.getD_eq_getElem?_getD, List.getElem?_map, List.getElem?_eq_getElem hj]
      exact Aff.symb _

theorem indep_gradLin {H : Sc} {g : Groups} (h : Indep H y) (hx : y ∉ g.xl)
    (hd : y ∉ g.xl.map dn) : ∀ f ∈ gradLin H g, Indep f y := by
  intro f hf
  unfold gradLin at hf
  obtain ⟨p, hp, rfl⟩ := List.mem_map.1 hf
  obtain ⟨hp1, hp2⟩ := List.of_mem_zip hp
  have hr : (Qmat H g).r = g.xl.length := by simp [Qmat, hessian, jacobian, gradient]
  have hc : (Qmat H g).c = g.xl.length := rfl
  have mv : ∀ (u : List Sc), (∀ j < g.xl.length, Indep (u.getD j fun _ => 0) y) →
      ∀ q ∈ matvec (Qmat H g) u, Indep q y := by
    intro u hu q hq
    obtain ⟨i, hi, rfl⟩ := List.mem_map.1 hq
    rw [List.mem_range, hr] at hi
    rw [hc]
    intro e t
    refine Finset.sum_congr rfl fun j hj => ?_
    rw [hu j (Finset.mem_range.1 hj)]
    congr 1
    have : Indep (pdiff ((gradient H g.xl).getD i fun _ => 0) (g.xl.getD j "")) y := by
      apply indep_pdiff
      unfold gradient
      rw [List.getD_eq_getElem?_getD, List.getElem?_map, List.getElem?_eq_getElem hi]
      exact indep_pdiff h
    exact this e t
  have sy : ∀ x ∈ g.xl, ∀ (e : Env ℝ) (t : ℝ), Function.update e y t x = e x :=
    fun x hxm e t => Function.update_of_ne (fun hh : x = y => hx (hh ▸ hxm)) _ _
  have sd : ∀ x ∈ g.xl, ∀ (e : Env ℝ) (t : ℝ), Function.update e y t (dn x) = e (dn x) :=
    fun x hxm e t => Function.update_of_ne
      (fun hh : dn x = y => hd (hh ▸ List.mem_map_of_mem hxm)) _ _
  have i1 : Indep p.1 y := by
    refine mv _ (fun j hj => ?_) _ hp1
    rw [List.getD_eq_getElem?_getD, List.getElem?_map, List.getElem?_eq_getElem hj]
    intro e t
    show Function.update e y t g.xl[j] + 0.5 * Function.update e y t (dn g.xl[j]) =
      e g.xl[j] + 0.5 * e (dn g.xl[j])
    rw [sy _ (List.getElem_mem hj), sd _ (List.getElem_mem hj)]
  have i2 : Indep p.2 y := by
    unfold blVec at hp2
    obtain ⟨q, hq, he⟩ := List.mem_map.1 hp2
    obtain ⟨q1, q2⟩ := List.of_mem_zip hq
    have j1 : Indep q.1 y := by
      obtain ⟨x, -, hx⟩ := List.mem_map.1 q1
      rw [← hx]
      exact indep_pdiff h
    have j2 : Indep q.2 y := by
      refine mv _ (fun j hj => ?_) _ q2
      rw [List.getD_eq_getElem?_getD, List.getElem?_map, List.getElem?_eq_getElem hj]
      exact fun e t => sy _ (List.getElem_mem hj) e t
    rw [← he]
    intro e t
    show q.1 _ - q.2 _ = q.1 _ - q.2 _
    rw [j1, j2]
  intro e t
  show p.1 _ + p.2 _ = p.1 _ + p.2 _
  rw [i1, i2]

end Circuit
end Pyphs
