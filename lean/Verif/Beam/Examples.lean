/-
C76: an instance of the hypotheses, a beam with two modes and one contact driven by a force.
-/
import Verif.Beam.Names
import Verif.Frac.Examples

namespace Pyphs
namespace Beam
open Graph Frac Finset

def bParts : List (Frac.Part ℚ) := beam "b" ["A"] 2 3 [1, 2] [1, 2] (fun _ k => k)
def bNodes : List String := ["A", "#", "bM0", "bM1", "bT00"]
def bEdges : List (Edge ℚ) :=
  edgesOf bParts ++ [⟨"#", "A", "u", .port, .e, none, .gyrator, none, "", ""⟩]
def bCore : Core ℚ := bareCore ["xbK0", "xbK1", "xbM0", "xbM1"] ["wbA0", "wbA1"] ["u"] ["vu"]
  ["ybT001", "ybT002", "ybT011", "ybT012"] ["c1", "c2", "c3", "c4"]
  [⟨"c1", "c2", "ybT001", "ybT002", 1⟩, ⟨"c3", "c4", "ybT011", "ybT012", 2⟩]

theorem bParts_eq : bParts = [.stor "bK0" "#" "bM0" 3 .e, .stor "bK1" "#" "bM1" 48 .e,
    .stor "bM0" "#" "bM0" (1 / 2) .f, .stor "bM1" "#" "bM1" (1 / 2) .f,
    .diss "bA0" "#" "bM0" 1 true, .diss "bA1" "#" "bM1" 2 true,
    .trans "bT00" "A" "bT00" "#" "bM0" 1, .trans "bT01" "bT00" "#" "#" "bM1" 2] := by decide +kernel

theorem bEdges_eq : bEdges = [edgeS "bK0" "#" "bM0" .e, edgeS "bK1" "#" "bM1" .e,
    edgeS "bM0" "#" "bM0" .f, edgeS "bM1" "#" "bM1" .f,
    edgeD "bA0" "#" "bM0", edgeD "bA1" "#" "bM1",
    edgeA "bT00" "A" "bT00" 1, edgeB "bT00" "#" "bM0",
    edgeA "bT01" "bT00" "#" 2, edgeB "bT01" "#" "bM1",
    ⟨"#", "A", "u", .port, .e, none, .gyrator, none, "", ""⟩] := by
  rw [bEdges, bParts_eq]; rfl

def bE : String → ℚ := tab [("xbK0", -1), ("xbK1", -2), ("xbM0", -1), ("xbM1", -2), ("wbA0", -1),
  ("wbA1", -2), ("ybT001", 1), ("ybT002", -1), ("ybT011", 4), ("ybT012", -2), ("u", -5)]
def bF : String → ℚ := tab [("xbK0", -3), ("xbK1", -48), ("xbM0", -6), ("xbM1", 32), ("wbA0", -1),
  ("wbA1", -4), ("ybT001", 10), ("ybT002", 10), ("ybT011", 10), ("ybT012", 20), ("u", 10)]
def bX : String → ℚ := tab [("xbK0", -1), ("xbK1", -1), ("xbM0", -2), ("xbM1", -4)]
def bD : String → ℚ := tab [("xbK0", -1), ("xbK1", -2), ("xbM0", -6), ("xbM1", 32)]
def bP : String → ℚ := tab [("A", 5), ("bM0", 1), ("bM1", 2), ("bT00", 4)]

theorem b_laws : HasLaws (lawOf bParts) bParts := by
  intro label n1 n2 coeff inv hm
  rw [bParts_eq] at hm ⊢
  simp only [List.mem_cons, Part.diss.injEq, List.not_mem_nil, or_false, reduceCtorEq, false_or] at hm
  rcases hm with ⟨rfl, rfl, rfl, rfl, rfl⟩ | ⟨rfl, rfl, rfl, rfl, rfl⟩
  · exact ⟨rfl, rfl⟩
  · exact ⟨rfl, rfl⟩

theorem b_assembled : ∃ st c', Assembled (lawOf bParts) bNodes bEdges 60 st bCore c' ∧
    st.ec.map (lab st) = ["ybT012", "wbA1", "wbA0", "ybT002", "u", "xbK1", "xbK0"] ∧
    c'.connectors.length = 2 := by
  obtain ⟨st, c', ha, hb, he, hc⟩ := runF_some (show runF (lawOf bParts) bNodes bEdges bCore =
    some (["ybT012", "wbA1", "wbA0", "ybT002", "u", "xbK1", "xbK0"], 2) by decide +kernel)
  refine ⟨st, c', ⟨by decide, by decide +kernel, ?_, by decide +kernel, ?_, ?_, ha, hb⟩, he, hc⟩
  · rw [bEdges_eq]; decide +kernel
  · rw [bEdges_eq]; simp [LinksUnique, edgeD, edgeS, edgeA, edgeB]
  · rw [bEdges_eq]; simp [edgeD, edgeS, edgeA, edgeB]

theorem b_conn0 : IsConnector bEdges bCore (edgeA "bT00" "A" "bT00" 1) (edgeB "bT00" "#" "bM0") 1 0
    ⟨"c1", "c2", "ybT001", "ybT002", 1⟩ := by
  refine ⟨by rw [bEdges_eq]; decide +kernel, by rw [bEdges_eq]; decide +kernel, rfl, rfl, rfl, rfl, rfl,
    by decide +kernel, by decide +kernel, rfl, by decide +kernel, by decide +kernel, ?_⟩
  intro j hj k' hk
  omega

theorem b_conn1 : IsConnector bEdges bCore (edgeA "bT01" "bT00" "#" 2) (edgeB "bT01" "#" "bM1") 2 1
    ⟨"c3", "c4", "ybT011", "ybT012", 2⟩ := by
  refine ⟨by rw [bEdges_eq]; decide +kernel, by rw [bEdges_eq]; decide +kernel, rfl, rfl, rfl, rfl, rfl,
    by decide +kernel, by decide +kernel, rfl, by decide +kernel, by decide +kernel, ?_⟩
  intro j hj k' hk
  obtain rfl : j = 0 := by omega
  obtain rfl := Option.some.inj hk
  decide +kernel

theorem b_inside : Inside bNodes bEdges bCore bParts (inner "b" 2 1) := by
  refine ⟨⟨_, List.Perm.refl _, ?_⟩, ?_, ?_⟩
  · decide +kernel
  · decide +kernel
  · intro label a1 a2 b1 b2 alpha hm
    rw [bParts_eq] at hm
    simp only [List.mem_cons, Part.trans.injEq, List.not_mem_nil, or_false, reduceCtorEq, false_or] at hm
    rcases hm with ⟨rfl, rfl, rfl, rfl, rfl, rfl⟩ | ⟨rfl, rfl, rfl, rfl, rfl, rfl⟩
    · exact ⟨0, _, b_conn0⟩
    · exact ⟨1, _, b_conn1⟩

theorem b_solution {st c'} (h : Assembled (lawOf bParts) bNodes bEdges 60 st bCore c')
    (he : st.ec.map (lab st) = ["ybT012", "wbA1", "wbA0", "ybT002", "u", "xbK1", "xbK0"])
    (hc : c'.connectors.length = 2) : CoreSolution st c' bParts bE bF bX bD := by
  refine h.coreSolution (fun _ hd => b_inside.mem hd) ?_ ?_ b_laws ?_ ⟨bP, ?_⟩ ?_ ?_
  · intro d hd ht
    rw [bEdges_eq] at hd
    simp only [List.mem_cons, List.not_mem_nil, or_false] at hd
    rw [bParts_eq]
    rcases hd with rfl | rfl | rfl | rfl | rfl | rfl | rfl | rfl | rfl | rfl | rfl
    · exact absurd ht (by decide)
    · exact absurd ht (by decide)
    · exact absurd ht (by decide)
    · exact absurd ht (by decide)
    · exact ⟨"bA0", "#", "bM0", 1, true, by simp, rfl⟩
    · exact ⟨"bA1", "#", "bM1", 2, true, by simp, rfl⟩
    · exact absurd ht (by decide)
    · exact absurd ht (by decide)
    · exact absurd ht (by decide)
    · exact absurd ht (by decide)
    · exact absurd ht (by decide)
  · rw [bParts_eq]; intro p hp
    simp only [List.mem_cons, List.not_mem_nil, or_false] at hp
    rcases hp with rfl | rfl | rfl | rfl | rfl | rfl | rfl | rfl <;> simp [Part.Good]
  · intro v hv hne
    simp only [bNodes, List.mem_cons, List.not_mem_nil, or_false] at hv
    rw [bEdges_eq]
    rcases hv with rfl | rfl | rfl | rfl | rfl
    · decide +kernel
    · exact absurd rfl hne
    · decide +kernel
    · decide +kernel
    · decide +kernel
  · rw [bEdges_eq]; decide +kernel
  · rw [bParts_eq]; intro p hp
    simp only [List.mem_cons, List.not_mem_nil, or_false] at hp
    rcases hp with rfl | rfl | rfl | rfl | rfl | rfl | rfl | rfl
    · unfold Part.Law; decide +kernel
    · unfold Part.Law; decide +kernel
    · unfold Part.Law; decide +kernel
    · unfold Part.Law; decide +kernel
    · unfold Part.Law; decide +kernel
    · unfold Part.Law; decide +kernel
    · trivial
    · trivial
  · intro k hk β α hsd
    obtain ⟨j, hj, rfl⟩ := List.getElem_of_mem hk
    have hj' : j = 0 ∨ j = 1 := by omega
    rcases hj' with rfl | rfl
    · obtain ⟨k', hk', -, hlaw⟩ := C51_transformer h.datum h.labels h.links h.analysed h.built b_conn0 rfl
        (by norm_num)
      obtain rfl : c'.connectors[0] = k' := by
        rw [List.getElem?_eq_getElem hj] at hk'; exact Option.some.inj hk'
      rcases hlaw with ⟨-, hf⟩ | ⟨hl, -⟩
      · rw [he] at hf
        exact absurd hf (by decide +kernel)
      · refine (hl bE bF β α hsd).2 ?_
        unfold TransformerLaw; decide +kernel
    · obtain ⟨k', hk', -, hlaw⟩ := C51_transformer h.datum h.labels h.links h.analysed h.built b_conn1 rfl
        (by norm_num)
      obtain rfl : c'.connectors[1] = k' := by
        rw [List.getElem?_eq_getElem hj] at hk'; exact Option.some.inj hk'
      rcases hlaw with ⟨-, hf⟩ | ⟨hl, -⟩
      · rw [he] at hf
        exact absurd hf (by decide +kernel)
      · refine (hl bE bF β α hsd).2 ?_
        unfold TransformerLaw; decide +kernel

/-- The hypotheses of `C76_beam`; with displacements 1, 1, velocities 1, 2 and a force 10 the velocity at
the contact is 5. -/
example : ∃ st c' f, Assembled (lawOf bParts) bNodes bEdges 60 st bCore c' ∧
    CoreSolution st c' bParts bE bF bX bD ∧ leaving (edgesOf bParts) bF "A" = f 0 ∧
    Modal 2 1 2 (fun i => 3 * [1, 2].getD i 0 ^ 4) (fun i => [1, 2].getD i 0)
      (fun _ i => [1, 2].getD i 0) (fun i => -bX ("x" ++ ("b" ++ "K" ++ i.repr)))
      (fun i => -(bX ("x" ++ ("b" ++ "M" ++ i.repr)) / 2)) (fun i => -bD ("x" ++ ("b" ++ "K" ++ i.repr)))
      (fun i => -(bD ("x" ++ ("b" ++ "M" ++ i.repr)) / 2)) (fun n => bP (["A"].getD n "") - bP "#") f := by
  obtain ⟨st, c', h, he, hc⟩ := b_assembled
  have hs := b_solution h he hc
  obtain ⟨-, h2⟩ := C76_beam h (by norm_num) (by simp) (by decide +kernel) (by decide +kernel) b_laws
    b_inside (by decide +kernel) hs
  obtain ⟨f, h3, h4⟩ := h2 bP (by unfold Potential; rw [bEdges_eq]; decide +kernel)
  refine ⟨st, c', f, h, hs, ?_, h4⟩
  have := h3 "A" (by decide) (by decide +kernel)
  simpa [bParts] using this

/-- The hypotheses of `C76_names`. -/
example : ((edgesOf (beam "beam" ["N1", "N2"] (2 : ℚ) 3 [1, 2, 3, 4, 5] [1, 2, 3, 4, 5] fun _ k => k)).map
    (·.label)).Nodup := C76_names _ _ _ _ _ _ _ (.inl (by decide))

/-- A solution of the modal equations with two contacts. -/
example : Modal 1 2 (1 : ℚ) (fun _ => 4) (fun _ => 1) (fun n _ => n + 1) (fun _ => 1) (fun _ => 2)
    (fun _ => 2) (fun _ => 3) (fun n => 2 * (n + 1)) (fun n => if n = 0 then 1 else 4) := by
  refine ⟨fun i hi => rfl, ?_, ?_⟩
  · intro i hi; simp [Finset.sum_range_succ]; norm_num
  · intro n hn; simp; ring

end Beam
end Pyphs
