/-
C78: the whole component `Cantilever`, from its parameters to the modal equations.
-/
import Verif.Beam.Complete
import Verif.Beam.Props

namespace Pyphs
namespace Beam
open Real Graph Frac

/-- `pars['Ab_array']` (_cantilever.py:193-194). -/
noncomputable def dampings (A D : ℝ) (N : ℕ) : List ℝ :=
  (List.range N).map fun i => A * 10 ^ gridPoint D N i

/-- `Cantilever.__init__` (_cantilever.py:161-252): the parameters are the radius `R`, the modulus `E`,
the density `M`, the frequency `F`, the number of modes `N`, the dampings `A` and `D`, and the positions
`z (n + 1)` and widths `w (n + 1)` of the contacts. The second value is the length. -/
noncomputable def cantilever (label : String) (contacts : List String) (R E M F : ℝ) (N : ℕ) (A D : ℝ)
    (z w : ℕ → ℝ) : Option (ℝ × List (Frac.Part ℝ)) :=
  let Mb := π * R ^ 2 * M
  let Kb := E * π * R ^ 4 / 4
  (beamLength F Kb Mb).map fun Lb =>
    let ks := waveNumbers N Lb
    (Lb, beam label contacts Mb Kb ks (dampings A D ks.length)
      fun n k => omegaCosine (z (n + 1) * Lb) (w (n + 1)) Lb k)

/-- What a contact at `z` of width `w` feels of the shape `φ`: its value for a point, else its mean under
the cosine window. -/
noncomputable def felt (z w : ℝ) (φ : ℝ → ℝ) : ℝ := open Classical in if w = 0 then φ z else project z w φ

/-- C77. The coefficients of the code, for points and for contacts with a width. -/
theorem C77_felt {L k z w : ℝ} (hk : 0 < k) (hL : 0 < L) (hw : 0 ≤ w) (hkw : k * w ≠ π) :
    omegaCosine z w L k = felt z w (modeShape L k) := by
  unfold felt
  split_ifs with h
  · rw [h, C77_point z hk hL]
  · exact C77_projection hk hL (lt_of_le_of_ne hw (Ne.symm h)) hkw

/-- C78. A cantilever in any graph that gives a core: its equations are the modal equations of the beam of
length `L`, with `N` wave numbers that are the first `N` of the beam up to one step of the search, and
with the mean displacements of the modes under the contacts and dampings from `A` to `A * 10 ^ D` in
geometric progression. `L` is the length for the frequency `F` up
to one step of the search. -/
theorem C78_cantilever {law : String → Env ℝ → ℝ} {nodes : List String} {edges : List (Edge ℝ)} {fuel : ℕ}
    {st : St ℝ} {c c' : Core ℝ} {label : String} {contacts : List String} {R E M F A D : ℝ} {N : ℕ}
    {z w : ℕ → ℝ} {L : ℝ} {parts : List (Frac.Part ℝ)}
    (hR : 0 < R) (hE : 0 < E) (hM : 0 < M) (hF : 0 < F) (hA : 0 < A) (hN : 0 < N)
    (hk : firstWave F (E * π * R ^ 4 / 4) (π * R ^ 2 * M) ≤ 1000000)
    (hno : ∀ j < 10000000,
      ((j : ℕ) : ℝ) * (firstWave F (E * π * R ^ 4 / 4) (π * R ^ 2 * M) * (10 / 9999999)) ≠ root 0)
    (hno' : ∀ i < N, ∀ j < N * 1000000,
      (j : ℝ) * (N * 2 * π / (((N * 1000000 : ℕ) : ℝ) - 1)) ≠ root i)
    (hc : cantilever label contacts R E M F N A D z w = some (L, parts)) (hL : 0 < L)
    (hw : ∀ n < contacts.length, 0 ≤ w (n + 1) ∧ ∀ k ∈ waveNumbers N L, k * w (n + 1) ≠ π)
    (ho : ∀ n < contacts.length, ∀ k ∈ waveNumbers N L,
      felt (z (n + 1) * L) (w (n + 1)) (modeShape L k) ≠ 0)
    (h : Assembled law nodes edges fuel st c c') (hl : HasLaws law parts)
    (hp : Inside nodes edges c parts (inner label N contacts.length))
    (hcn : ∀ v ∈ contacts, v ∉ inner label N contacts.length)
    {Ef Fl X dX : String → ℝ} (hs : CoreSolution st c' parts Ef Fl X dX) :
    (∃ Ls, frequency (E * π * R ^ 4 / 4) (π * R ^ 2 * M) (root 0 / Ls) = F ∧ L < Ls ∧
      Ls < L + 10 / 9999999) ∧
    ∃ κ a : ℕ → ℝ, (∀ i < N, 0 < κ i ∧ κ i < root i / L ∧
        root i / L < κ i + N * 2 * π / L / (((N * 1000000 : ℕ) : ℝ) - 1)) ∧ (∀ i < N, 0 < a i ∧ a i = A * 10 ^ (D * (i / (N - 1)))) ∧
      ∀ p, Potential edges Ef p → ∃ f : ℕ → ℝ,
        (∀ v, v ≠ datum → v ∉ inner label N contacts.length →
          leaving (edgesOf parts) Fl v =
            ∑ n ∈ Finset.range contacts.length, if contacts.getD n "" = v then f n else 0) ∧
        Modal N contacts.length (π * R ^ 2 * M) (fun i => E * π * R ^ 4 / 4 * κ i ^ 4) a
          (fun n i => felt (z (n + 1) * L) (w (n + 1)) (modeShape L (κ i)))
          (fun i => -X ("x" ++ (label ++ "K" ++ i.repr)))
          (fun i => -(X ("x" ++ (label ++ "M" ++ i.repr)) / (π * R ^ 2 * M)))
          (fun i => -dX ("x" ++ (label ++ "K" ++ i.repr)))
          (fun i => -(dX ("x" ++ (label ++ "M" ++ i.repr)) / (π * R ^ 2 * M)))
          (fun n => p (contacts.getD n "") - p datum) f := by
  have hpi := pi_pos
  have hMb : 0 < π * R ^ 2 * M := by positivity
  have hKb : 0 < E * π * R ^ 4 / 4 := by positivity
  have hp3 := pi_gt_three
  unfold cantilever at hc
  simp only [Option.map_eq_some_iff, Prod.mk.injEq] at hc
  obtain ⟨L', hL', rfl, rfl⟩ := hc
  obtain ⟨Ls, -, hfr, hlt, hge⟩ := C78_length hF hKb hMb hk hno
  obtain ⟨hlen, hks⟩ := C78_waves hN hL hno'
  have hLs : Ls < 10 := by
    by_contra hn
    rw [hge (not_lt.1 hn)] at hL'
    exact absurd hL' (by simp)
  refine ⟨?_, ?_⟩
  · obtain ⟨L2, h1, h2, h3⟩ := hlt hLs
    rw [hL'] at h1
    obtain rfl := Option.some.inj h1
    exact ⟨Ls, hfr, h2, h3⟩
  rw [hlen] at hl hp hs ⊢
  have hget : ∀ i < N, (waveNumbers N L')[i]? = some ((waveNumbers N L').getD i 0) := by
    intro i hi
    rw [List.getD_eq_getElem?_getD, List.getElem?_eq_getElem (by omega)]
    rfl
  have hmem : ∀ i < N, (waveNumbers N L').getD i 0 ∈ waveNumbers N L' := fun i hi =>
    List.mem_of_getElem? (hget i hi)
  have hbound : ∀ i < N, 0 < (waveNumbers N L').getD i 0 ∧ (waveNumbers N L').getD i 0 < root i / L' ∧
      root i / L' < (waveNumbers N L').getD i 0 + N * 2 * π / L' / (((N * 1000000 : ℕ) : ℝ) - 1) := by
    intro i hi
    obtain ⟨h1, h2⟩ := hks i _ (hget i hi)
    refine ⟨?_, h1, h2⟩
    have hN' : (1 : ℝ) ≤ N := by exact_mod_cast hN
    have h3 := root_gt i
    have h4 : (0 : ℝ) ≤ i * π := by positivity
    have h5 : N * 2 * π / L' / (((N * 1000000 : ℕ) : ℝ) - 1) < root i / L' := by
      rw [div_div, div_lt_div_iff₀ (mul_pos hL (by push_cast; linarith)) hL]
      push_cast
      have h6 : N * 2 * π < root i * (N * 1000000 - 1) := by nlinarith
      nlinarith
    linarith
  have hcoef : ∀ n < contacts.length, ∀ k ∈ waveNumbers N L',
      omegaCosine (z (n + 1) * L') (w (n + 1)) L' k = felt (z (n + 1) * L') (w (n + 1)) (modeShape L' k) := by
    intro n hn k hk
    obtain ⟨i, hi, rfl⟩ := List.getElem_of_mem hk
    have e := hget i (by omega)
    rw [List.getElem?_eq_getElem hi] at e
    have hb := (hbound i (by omega)).1
    rw [← Option.some.inj e] at hb
    exact C77_felt hb hL (hw n hn).1 ((hw n hn).2 _ hk)
  have hdamp : ∀ i < N, 0 < (dampings A D N).getD i 0 := by
    intro i hi
    rw [dampings, List.getD_eq_getElem?_getD, List.getElem?_map,
      List.getElem?_range hi]
    simp only [Option.map_some, Option.getD_some]
    have : (0 : ℝ) < 10 ^ gridPoint D N i := rpow_pos_of_pos (by norm_num) _
    positivity
  have hval : ∀ i < N, (dampings A D N).getD i 0 = A * 10 ^ (D * ((i : ℝ) / (N - 1))) := by
    intro i hi
    rw [dampings, List.getD_eq_getElem?_getD, List.getElem?_map, List.getElem?_range hi]
    simp only [Option.map_some, Option.getD_some, gridPoint]
    rw [show (i : ℝ) * (D / (N - 1)) = D * ((i : ℝ) / (N - 1)) by ring]
  refine ⟨fun i => (waveNumbers N L').getD i 0, fun i => (dampings A D N).getD i 0,
    hbound, fun i hi => ⟨hdamp i hi, hval i hi⟩, ?_⟩
  have key := C76_beam h hMb.ne' (by intro e; rw [e] at hlen; simp at hlen; omega)
    (by rw [hlen]; exact fun i hi => (hdamp i hi).ne')
    (fun n hn k hk => by rw [hcoef n hn k hk]; exact ho n hn k hk) hl (by rw [hlen]; exact hp)
    (by rw [hlen]; exact hcn) hs
  intro p hpot
  obtain ⟨f, h1, h2⟩ := key.2 p hpot
  rw [hlen] at h1 h2
  refine ⟨f, h1, h2.disp, fun i hi => ?_, fun n hn => ?_⟩
  · rw [h2.force i hi]
    exact Finset.sum_congr rfl fun n hn => by rw [hcoef n (Finset.mem_range.1 hn) _ (hmem i hi)]
  · rw [h2.vel n hn]
    exact Finset.sum_congr rfl fun i hi => by rw [hcoef n hn _ (hmem i (Finset.mem_range.1 hi))]

/-- Parameters that satisfy the hypotheses of `C78_cantilever` about numbers: one mode and a point contact
at the free end (an instance of the hypotheses about the graph is in `Verif/Beam/Examples.lean`). -/
example : ∃ R E M F L parts, 0 < R ∧ 0 < E ∧ 0 < M ∧ 0 < F ∧
    firstWave F (E * π * R ^ 4 / 4) (π * R ^ 2 * M) ≤ 1000000 ∧
    (∀ j < 10000000,
      ((j : ℕ) : ℝ) * (firstWave F (E * π * R ^ 4 / 4) (π * R ^ 2 * M) * (10 / 9999999)) ≠ root 0) ∧
    (∀ i < 1, ∀ j < 1 * 1000000,
      ((j : ℕ) : ℝ) * ((1 : ℕ) * 2 * π / (((1 * 1000000 : ℕ) : ℝ) - 1)) ≠ root i) ∧
    cantilever "b" ["A"] R E M F 1 0.05 6 (fun _ => 1) (fun _ => 0) = some (L, parts) ∧ 0 < L ∧
    ∀ k ∈ waveNumbers 1 L, k * 0 ≠ π ∧ felt (1 * L) 0 (modeShape L k) ≠ 0 := by
  obtain ⟨F, L, hF, h1, h2, h3, h4, -⟩ := length_instance
  have hp := pi_pos
  have hp3 := pi_gt_three
  have eK : 4 / π * π * 1 ^ 4 / 4 = 1 := by field_simp
  have eM : π * 1 ^ 2 * (1 / π) = 1 := by field_simp
  have hcan : ∃ parts, cantilever "b" ["A"] 1 (4 / π) (1 / π) F 1 0.05 6 (fun _ => 1) (fun _ => 0) =
      some (L, parts) := by
    unfold cantilever
    simp only [eK, eM, h3, Option.map_some]
    exact ⟨_, rfl⟩
  obtain ⟨parts, hcan⟩ := hcan
  refine ⟨1, 4 / π, 1 / π, F, L, parts, one_pos, by positivity, by positivity, hF, ?_, ?_,
    fun i hi j _ => no_hit hi, hcan, by linarith, ?_⟩
  · rw [eK, eM]; exact h1
  · rw [eK, eM]; exact h2
  · intro k hk
    have hL : 0 < L := by linarith
    obtain ⟨k', e, a, b⟩ := one_mode hL
    rw [e, List.mem_singleton] at hk
    subst hk
    rw [lt_div_iff₀ hL] at a
    rw [← sub_lt_iff_lt_add, ← sub_div, div_lt_iff₀ hL] at b
    obtain ⟨r1, r2⟩ := root_zero_near
    have hkp : 0 < k := by
      by_contra hn
      nlinarith
    refine ⟨by rw [mul_zero]; exact hp.ne, ?_⟩
    unfold felt modeShape bare
    rw [if_pos rfl, one_mul]
    have hs : 0 < sin (k * L) := sin_pos_of_pos_of_lt_pi (by linarith) (by linarith)
    have hS : 0 < sinh (k * L) := sinh_pos_iff.2 (by linarith)
    have hQ := omegaRoot_pos hkp hL
    have e : (cos (k * L) + cosh (k * L)) * (cos (k * L) - cosh (k * L)) +
        (sin (k * L) - sinh (k * L)) * (sin (k * L) - sinh (k * L)) = -(2 * (sin (k * L) * sinh (k * L))) := by
      linear_combination sin_sq_add_cos_sq (k * L) - cosh_sq (k * L)
    rw [e]
    have : 0 < √2 / √(omegaRoot L k) * (2 * (sin (k * L) * sinh (k * L))) := by positivity
    linarith

end Beam
end Pyphs
