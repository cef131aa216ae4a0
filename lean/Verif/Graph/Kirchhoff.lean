/-
C42: the structure matrix of a graph.
-/
import Verif.Graph.Build
import Verif.Graph.Order
import Verif.Mat.Lemmas
import Verif.Mat.Spec
import Verif.Core.Spec
import Mathlib.Tactic.LinearCombination
import Mathlib.Algebra.BigOperators.Ring.Finset
import Mathlib.Algebra.BigOperators.Fin
import Mathlib.Tactic.Push

namespace Pyphs
namespace Graph
open Finset Mat

variable {K : Type} [Field K] [DecidableEq K]

/-- Balance of the flows `F` (by label) at every node other than the reference. -/
def FlowBalance (nodes : List String) (edges : List (Edge K)) (F : String → K) : Prop :=
  ∀ v ∈ nodes, v ≠ datum → (edges.map fun d => (sign d v : K) * F d.label).sum = 0

/-- The efforts `E` (by label) are differences of node potentials. -/
def FromPotentials (edges : List (Edge K)) (E : String → K) : Prop :=
  ∃ p : String → K, ∀ d ∈ edges, E d.label = p d.tail - p d.head

/-! ### Linear algebra -/

omit [DecidableEq K] in
theorem IsInv.tr {A B : Mat K} (h : IsInv A B) : IsInv A.tr B.tr := by
  obtain ⟨h1, h2, h3, h4, h5⟩ := h
  refine ⟨h1.symm, ?_, ?_, ?_, ?_⟩
  · simp only [Mat.tr]; rw [h3, ← h1]
  · simp only [Mat.tr]; rw [h2, ← h1]
  · intro i hi j hj
    simp only [Mat.tr] at hi hj ⊢
    rw [← h1] at hi hj ⊢
    have := h5 j hj i hi
    have e : (if i = j then (1:K) else 0) = if j = i then 1 else 0 := by simp only [eq_comm]
    rw [e, ← this]
    exact Finset.sum_congr rfl fun k _ => mul_comm _ _
  · intro i hi j hj
    simp only [Mat.tr] at hi hj ⊢
    rw [← h1] at hi hj ⊢
    have := h4 j hj i hi
    have e : (if i = j then (1:K) else 0) = if j = i then 1 else 0 := by simp only [eq_comm]
    rw [e, ← this]
    exact Finset.sum_congr rfl fun k _ => mul_comm _ _

omit [DecidableEq K] in
theorem tr_mul_mv (A B : Mat K) (h : A.c = B.r) (v : ℕ → K) (i : ℕ) :
    (A.mul B).tr.mv v i = B.tr.mv (A.tr.mv v) i := by
  show ∑ j ∈ range A.r, (∑ k ∈ range A.c, A.e j k * B.e k i) * v j =
    ∑ k ∈ range B.r, B.e k i * ∑ j ∈ range A.r, A.e j k * v j
  simp only [Finset.sum_mul, Finset.mul_sum]
  rw [Finset.sum_comm, h]
  refine Finset.sum_congr rfl fun k _ => Finset.sum_congr rfl fun j _ => ?_
  ring

omit [DecidableEq K] in
/-- The flows of the two parts. -/
theorem flows_iff {Gf Ge iG : Mat K} (h : IsInv Gf iG) (hr : Ge.r = Gf.r) (x y : ℕ → K) :
    (∀ i < Gf.r, x i = - (iG.mul Ge).mv y i) ↔ (∀ i < Gf.r, Gf.mv x i + Ge.mv y i = 0) := by
  have e1 : ∀ i, - (iG.mul Ge).mv y i = iG.mv (fun i => - Ge.mv y i) i := by
    intro i; rw [mv_mul, mv_neg]
  simp only [e1]
  rw [← h.solve x fun i => - Ge.mv y i]
  constructor
  · intro hx i hi; rw [hx i hi]; ring
  · intro hx i hi; linear_combination hx i hi

omit [DecidableEq K] in
/-- The efforts of the two parts. -/
theorem efforts_iff {Gf Ge iG : Mat K} (h : IsInv Gf iG) (hr : Ge.r = Gf.r) (x y : ℕ → K) :
    (∀ k < Ge.c, y k = (iG.mul Ge).tr.mv x k) ↔
      ∃ p : ℕ → K, (∀ j < Gf.c, x j = Gf.tr.mv p j) ∧ ∀ k < Ge.c, y k = Ge.tr.mv p k := by
  have hcol : iG.c = Ge.r := by rw [h.2.2.1, hr]
  have ht := IsInv.tr h
  constructor
  · intro hy
    refine ⟨iG.tr.mv x, ?_, ?_⟩
    · intro j hj
      exact (ht.mv_left x hj).symm
    · intro k hk
      rw [hy k hk, tr_mul_mv _ _ hcol]
  · rintro ⟨p, hx, hy⟩ k hk
    rw [hy k hk, tr_mul_mv _ _ hcol]
    refine mv_congr (fun j hj => ?_) k
    have hj' : j < Gf.tr.r := by
      simp only [Mat.tr] at hj ⊢
      rw [hr, h.1] at hj; exact hj
    rw [← ht.mv_right p hj']
    refine mv_congr (fun l hl => ?_) j
    refine (hx l ?_).symm
    simp only [Mat.tr] at hl
    rw [h.2.1, h.1] at hl; exact hl

/-- The block matrix `[[0, γᵀ], [-γ, 0]]`. -/
def blockJ (nec nfc : ℕ) (γ : Mat K) : Mat K :=
  ((Mat.zeros nec nec).hcat γ.tr).vcat (γ.neg.hcat (Mat.zeros nfc nfc))

omit [DecidableEq K] in
theorem blockJ_skew {nec nfc : ℕ} {γ : Mat K} (hr : γ.r = nfc) (hc : γ.c = nec) :
    (blockJ nec nfc γ).r = nec + nfc ∧ (blockJ nec nfc γ).c = nec + nfc ∧
      ∀ i j, i < nec + nfc → j < nec + nfc →
        (blockJ nec nfc γ).e i j = - (blockJ nec nfc γ).e j i := by
  refine ⟨by simp [blockJ, vcat, hcat, Mat.zeros, neg, hr], by simp [blockJ, vcat, hcat, Mat.zeros, Mat.tr, hr],
    ?_⟩
  intro i j hi hj
  simp only [blockJ, vcat, hcat, Mat.zeros, Mat.tr, neg, hc]
  by_cases h1 : i < nec
  · by_cases h2 : j < nec
    · simp [h1, h2]
    · simp [h1, h2]
  · by_cases h2 : j < nec
    · simp [h1, h2]
    · simp [h1, h2]

omit [DecidableEq K] in
theorem blockJ_top {nec nfc : ℕ} {γ : Mat K} (hr : γ.r = nfc) (a : ℕ → K) {k : ℕ} (hk : k < nec) :
    ∑ j ∈ range (nec + nfc), (blockJ nec nfc γ).e k j * a j =
      γ.tr.mv (fun j => a (nec + j)) k := by
  rw [Finset.sum_range_add]
  simp only [blockJ, vcat, hcat, Mat.zeros, hk, if_true, mv, Mat.tr, hr]
  rw [Finset.sum_eq_zero (s := range nec), zero_add]
  · refine Finset.sum_congr rfl fun j hj => ?_
    simp
  · intro j hj
    simp [Finset.mem_range.1 hj]

omit [DecidableEq K] in
theorem blockJ_bot {nec nfc : ℕ} {γ : Mat K} (hc : γ.c = nec) (a : ℕ → K) {i : ℕ}
    (hi : i < nfc) :
    ∑ j ∈ range (nec + nfc), (blockJ nec nfc γ).e (nec + i) j * a j = - γ.mv a i := by
  rw [Finset.sum_range_add]
  simp only [blockJ, vcat, hcat, Mat.zeros, mv, neg, hc]
  have : ¬ nec + i < nec := by omega
  simp only [this, if_false]
  rw [Finset.sum_eq_zero (s := range nfc), add_zero]
  · show _ = - ∑ j ∈ range γ.c, γ.e i j * a j
    rw [hc, ← Finset.sum_neg_distrib]
    refine Finset.sum_congr rfl fun j hj => ?_
    simp [Finset.mem_range.1 hj]
  · intro j hj
    simp

/-! ### The matrix in the order of the analysis -/

theorem structureMatrix_some {nodes : List String} {edges : List (Edge K)} {st : St K} {J : Mat K}
    (hp : Partitioned nodes edges st) (hic : st.ic = []) (h : structureMatrix st = some J) :
    ∃ iG, IsInv (gammaFc st) iG ∧ (gammaFc st).r = st.nodes.length - 1 ∧
      (gammaFc st).c = st.fc.length ∧ (gammaEc st).r = st.nodes.length - 1 ∧
      (gammaEc st).c = st.ec.length ∧ st.ec.length + st.fc.length = st.edges.length ∧
      J.r = st.edges.length ∧ J.c = st.edges.length ∧
      ∀ i j, J.e i j = (blockJ st.ec.length st.fc.length (iG.mul (gammaEc st))).e
        ((allEdges st).getD i 0) ((allEdges st).getD j 0) := by
  obtain ⟨iG, hiG, h⟩ := Option.bind_eq_some_iff.1 h
  have hlen : st.ec.length + st.fc.length = st.edges.length := by
    have h1 := congrArg List.length hp.order
    have h2 := hp.sameEdges.length_eq
    simp [hic] at h1 h2
    omega
  have hall : (allEdges st).length = st.edges.length := by
    simpa using (allEdges_perm st).length_eq
  refine ⟨iG, inv_isInv hiG, ?_, ?_, ?_, ?_, hlen, ?_, ?_, ?_⟩
  · simp [gammaFc, Mat.slice, gammaMat]
  · simp [gammaFc, Mat.slice, gammaMat]; omega
  · simp [gammaEc, Mat.slice, gammaMat]
  · simp [gammaEc, Mat.slice, gammaMat]; omega
  all_goals
    dsimp only at h
    unfold Mat.select at h
    split at h
    · cases h
      first
        | exact hall
        | exact fun i j => rfl
    · cases h

omit [DecidableEq K] in
theorem list_sum_range {α : Type} (l : List α) (d : α) (f : α → K) :
    ∑ j ∈ range l.length, f (l.getD j d) = (l.map f).sum := by
  induction l with
  | nil => simp
  | cons a l ih =>
    rw [List.length_cons, Finset.sum_range_succ', List.map_cons, List.sum_cons, ← ih, add_comm]
    rfl

omit [DecidableEq K] in
/-- The structure equations in the order of the analysis. -/
theorem structEq_allEdges {st : St K} {J B : Mat K} {n : ℕ} (hn : st.edges.length = n)
    (hJ : ∀ i j, J.e i j = B.e ((allEdges st).getD i 0) ((allEdges st).getD j 0)) (β α : Env K) :
    Core.StructEq ((allEdges st).map (lab st)) J β α ↔
      ∀ k < n, β (lab st k) = ∑ l ∈ range n, B.e k l * α (lab st l) := by
  have hperm := allEdges_perm st
  rw [hn] at hperm
  have hlen : (allEdges st).length = n := by simpa using hperm.length_eq
  have hget : ∀ i < n, ((allEdges st).map (lab st)).getD i "" = lab st ((allEdges st).getD i 0) := by
    intro i hi
    have : i < (allEdges st).length := by omega
    simp [this]
  have hsum : ∀ f : ℕ → K, ∑ j ∈ range n, f ((allEdges st).getD j 0) = ∑ l ∈ range n, f l := by
    intro f
    have e1 := list_sum_range (allEdges st) 0 f
    have e2 := list_sum_range (List.range n) 0 f
    rw [hlen] at e1
    rw [List.length_range] at e2
    rw [e1, (hperm.map f).sum_eq, ← e2]
    refine Finset.sum_congr rfl fun j hj => ?_
    have := Finset.mem_range.1 hj
    simp [this]
  unfold Core.StructEq
  rw [List.length_map, hlen]
  have key : ∀ i < n, ∑ j ∈ range n, J.e i j * α (((allEdges st).map (lab st)).getD j "") =
      ∑ l ∈ range n, B.e ((allEdges st).getD i 0) l * α (lab st l) := by
    intro i hi
    rw [← hsum fun l => B.e ((allEdges st).getD i 0) l * α (lab st l)]
    refine Finset.sum_congr rfl fun j hj => ?_
    rw [hget j (Finset.mem_range.1 hj), hJ]
  constructor
  · intro h k hk
    have hm : k ∈ allEdges st := hperm.mem_iff.2 (List.mem_range.2 hk)
    obtain ⟨i, hi, rfl⟩ := List.getElem_of_mem hm
    have := h i (by omega)
    rw [key i (by omega), hget i (by omega)] at this
    simpa [hi] using this
  · intro h i hi
    rw [key i hi, hget i hi]
    refine h _ ?_
    have : (allEdges st).getD i 0 ∈ allEdges st := by
      rw [List.getD_eq_getElem?_getD, List.getElem?_eq_getElem (by omega)]
      exact List.getElem_mem _
    exact List.mem_range.1 (hperm.mem_iff.1 this)

/-! ### The incidence matrix and the edges of the graph -/

omit [DecidableEq K] in
theorem gamma_entry {nodes : List String} {edges : List (Edge K)} {st : St K}
    (hp : Partitioned nodes edges st) {n e : ℕ} (hn : n < st.nodes.length) (he : e < st.edges.length) :
    (gammaMat st).e n e = (sign st.edges[e] st.nodes[n] : K) := by
  simp [gammaMat, hp.incidence, hn, he]

omit [DecidableEq K] in
theorem flow_sum {nodes : List String} {edges : List (Edge K)} {st : St K}
    (hp : Partitioned nodes edges st) (F : String → K) {n : ℕ} (hn : n < st.nodes.length) :
    ∑ k ∈ range st.edges.length, (gammaMat st).e n k * F (lab st k) =
      (edges.map fun d => (sign d st.nodes[n] : K) * F d.label).sum := by
  have h := (hp.sameEdges.map fun d => (sign d st.nodes[n] : K) * F d.label).sum_eq
  rw [List.map_map, List.map_map] at h
  refine Eq.trans ?_ h
  rw [← Fin.sum_univ_eq_sum_range (fun k => (gammaMat st).e n k * F (lab st k)), ← List.sum_ofFn]
  congr 1
  apply List.ext_getElem
  · simp
  · intro i h1 h2
    simp at h1
    have e : ∀ d : Edge K, sign (noAlpha d) st.nodes[n] = sign d st.nodes[n] := fun _ => rfl
    have e' : ∀ d : Edge K, (noAlpha d).label = d.label := fun _ => rfl
    simp [gamma_entry hp hn h1, lab, h1, e, e']

omit [DecidableEq K] in
theorem sum_sign {l : List String} (hl : l.Nodup) (p : String → K) (v : String) :
    (l.map fun n => (if n = v then (1 : K) else 0) * p n).sum = if v ∈ l then p v else 0 := by
  induction l with
  | nil => simp
  | cons a l ih =>
    obtain ⟨h1, h2⟩ := List.nodup_cons.1 hl
    rw [List.map_cons, List.sum_cons, ih h2]
    by_cases h : a = v
    · subst h; simp [h1]
    · simp [h, Ne.symm h]

omit [DecidableEq K] in
theorem potential_sum {nodes : List String} {edges : List (Edge K)} {st : St K}
    (hp : Partitioned nodes edges st) (hn : nodes.Nodup) (p : String → K) {e : ℕ}
    (he : e < st.edges.length) (ht : st.edges[e].tail ∈ nodes) (hh : st.edges[e].head ∈ nodes)
    (h0 : p datum = 0) :
    ∑ i ∈ range (st.nodes.length - 1), (gammaMat st).e (1 + i) e * p (st.nodes.getD (1 + i) "") =
      p st.edges[e].tail - p st.edges[e].head := by
  have hn' : st.nodes.Nodup := hp.sameNodes.nodup_iff.2 hn
  have hpos : 0 < st.nodes.length := (List.getElem?_eq_some_iff.1 hp.ref).1
  have href : st.nodes[0] = datum := (List.getElem?_eq_some_iff.1 hp.ref).2
  have e1 : ∑ i ∈ range (st.nodes.length - 1), (gammaMat st).e (1 + i) e *
      p (st.nodes.getD (1 + i) "") =
      ∑ i ∈ range st.nodes.length, (sign st.edges[e] (st.nodes.getD i "") : K) *
        p (st.nodes.getD i "") := by
    obtain ⟨m, hm⟩ : ∃ m, st.nodes.length = m + 1 := ⟨_, (Nat.succ_pred_eq_of_pos hpos).symm⟩
    rw [hm, Finset.sum_range_succ', Nat.add_sub_cancel]
    have : p (st.nodes.getD 0 "") = 0 := by
      rw [List.getD_eq_getElem?_getD, List.getElem?_eq_getElem hpos, href]; exact h0
    rw [this, mul_zero, add_zero]
    refine Finset.sum_congr rfl fun i hi => ?_
    have hi := Finset.mem_range.1 hi
    have hi' : 1 + i < st.nodes.length := by omega
    rw [gamma_entry hp hi' he]
    have : st.nodes.getD (1 + i) "" = st.nodes[1 + i] := by simp [hi']
    rw [add_comm i 1, this]
  rw [e1, list_sum_range st.nodes "" fun v => (sign st.edges[e] v : K) * p v]
  have e2 : (st.nodes.map fun v => (sign st.edges[e] v : K) * p v).sum =
      (st.nodes.map fun n => (if n = st.edges[e].tail then (1 : K) else 0) * p n).sum -
      (st.nodes.map fun n => (if n = st.edges[e].head then (1 : K) else 0) * p n).sum := by
    generalize st.nodes = l
    induction l with
    | nil => simp
    | cons a l ih =>
      rw [List.map_cons, List.sum_cons, ih, List.map_cons, List.sum_cons, List.map_cons,
        List.sum_cons]
      simp only [sign]
      push_cast
      ring
  rw [e2, sum_sign hn', sum_sign hn', if_pos (hp.sameNodes.mem_iff.2 ht),
    if_pos (hp.sameNodes.mem_iff.2 hh)]

/-! ### C42 -/

/-- C42. The structure matrix of the core built after an analysis is skew-symmetric. -/
theorem C42_skew {law : String → Env K → K} {nodes : List String} {edges : List (Edge K)}
    {st : St K} {fuel : ℕ} {c c' : Core K} (hd : datum ∈ nodes)
    (hl : (edges.map (·.label)).Nodup) (ha : analyse fuel nodes edges = .ok st)
    (hb : buildCore law st c = some c') :
    c'.M.r = edges.length ∧ IsSkew c'.M := by
  obtain ⟨hp, hic, -⟩ := C39_analysis hd hl ha
  obtain ⟨J, hJ, hs⟩ := buildCore_some hb
  obtain ⟨iG, hinv, hfr, hfc, her, hec, hlen, hr, hc, hM⟩ := structureMatrix_some hp hic hJ
  have hsame : st.edges.length = edges.length := by simpa using hp.sameEdges.length_eq
  rw [(setCore_follows (hp.nodup hl) hs).2]
  refine ⟨hr.trans hsame, hr.trans hc.symm, fun i hi j hj => ?_⟩
  have hg := blockJ_skew (γ := iG.mul (gammaEc st)) (nec := st.ec.length) (nfc := st.fc.length)
    (by show iG.r = _; rw [hinv.2.1, hinv.1, hfc]) hec
  have hlt : ∀ i < st.edges.length, (allEdges st).getD i 0 < st.edges.length := by
    intro i hi
    have hall : (allEdges st).length = st.edges.length := by
      simpa using (allEdges_perm st).length_eq
    have : (allEdges st).getD i 0 ∈ allEdges st := by
      rw [List.getD_eq_getElem?_getD, List.getElem?_eq_getElem (by omega)]
      exact List.getElem_mem _
    exact List.mem_range.1 ((allEdges_perm st).mem_iff.1 this)
  rw [hM, hM]
  exact hg.2.2 _ _ (by rw [hlen]; exact hlt i (hr ▸ hi)) (by rw [hlen]; exact hlt j (hr ▸ hj))

/-- C42. The structure equations are Kirchhoff's laws. `E` and `F` give the effort and the flow of each
edge by label; an effort-controlled edge has its effort on the left side (`β`) and its flow on
the right (`α`), a flux-controlled edge the converse. -/
theorem C42_kirchhoff {law : String → Env K → K} {nodes : List String} {edges : List (Edge K)}
    {st : St K} {fuel : ℕ} {c c' : Core K} (hd : datum ∈ nodes) (hn : nodes.Nodup)
    (hnodes : ∀ d ∈ edges, d.tail ∈ nodes ∧ d.head ∈ nodes)
    (hl : (edges.map (·.label)).Nodup) (ha : analyse fuel nodes edges = .ok st)
    (hb : buildCore law st c = some c') (E F : String → K) (β α : Env K)
    (hec : ∀ e ∈ st.ec, β (lab st e) = E (lab st e) ∧ α (lab st e) = F (lab st e))
    (hfc : ∀ e ∈ st.fc, β (lab st e) = F (lab st e) ∧ α (lab st e) = E (lab st e)) :
    Core.StructEq c'.labels c'.M β α ↔ FlowBalance nodes edges F ∧ FromPotentials edges E := by
  obtain ⟨hp, hic, hord⟩ := C39_analysis hd hl ha
  obtain ⟨J, hJ, hs⟩ := buildCore_some hb
  obtain ⟨iG, hinv, hfr, hfcc, her, hecc, hlen, hr, hc, hM⟩ := structureMatrix_some hp hic hJ
  obtain ⟨hfol, hM'⟩ := setCore_follows (hp.nodup hl) hs
  have hsame : st.edges.length = edges.length := by simpa using hp.sameEdges.length_eq
  rw [hfol.labels, hM', structEq_allEdges hlen.symm hM]
  -- positions of the two parts
  have pec : ∀ k < st.ec.length, k ∈ st.ec := by
    intro k hk
    have h1 : (st.ec ++ st.fc)[k]? = some k := by
      rw [hord, List.getElem?_range (by omega)]
    rw [List.getElem?_append_left hk] at h1
    exact List.mem_of_getElem? h1
  have pfc : ∀ j < st.fc.length, st.ec.length + j ∈ st.fc := by
    intro j hj
    have h1 : (st.ec ++ st.fc)[st.ec.length + j]? = some (st.ec.length + j) := by
      rw [hord, List.getElem?_range (by omega)]
    rw [List.getElem?_append_right (by omega)] at h1
    exact List.mem_of_getElem? h1
  have hm : st.nodes.length - 1 = st.fc.length := by rw [← hfr, ← hfcc]; exact hinv.1
  have hgr : (iG.mul (gammaEc st)).r = st.fc.length := by
    show iG.r = _; rw [hinv.2.1, hinv.1, hfcc]
  have hsplit : (∀ k < st.ec.length + st.fc.length, β (lab st k) =
      ∑ l ∈ range (st.ec.length + st.fc.length),
        (blockJ st.ec.length st.fc.length (iG.mul (gammaEc st))).e k l * α (lab st l)) ↔
      (∀ k < (gammaEc st).c, E (lab st k) =
        (iG.mul (gammaEc st)).tr.mv (fun j => E (lab st (st.ec.length + j))) k) ∧
      (∀ i < (gammaFc st).r, F (lab st (st.ec.length + i)) =
        - (iG.mul (gammaEc st)).mv (fun j => F (lab st j)) i) := by
    have top : ∀ k < st.ec.length, ∑ l ∈ range (st.ec.length + st.fc.length),
        (blockJ st.ec.length st.fc.length (iG.mul (gammaEc st))).e k l * α (lab st l) =
        (iG.mul (gammaEc st)).tr.mv (fun j => E (lab st (st.ec.length + j))) k := by
      intro k hk
      rw [blockJ_top hgr (fun l => α (lab st l)) hk]
      refine mv_congr (fun j hj => ?_) k
      exact (hfc _ (pfc j (by rw [← hgr]; exact hj))).2
    have bot : ∀ i < st.fc.length, ∑ l ∈ range (st.ec.length + st.fc.length),
        (blockJ st.ec.length st.fc.length (iG.mul (gammaEc st))).e (st.ec.length + i) l *
          α (lab st l) = - (iG.mul (gammaEc st)).mv (fun j => F (lab st j)) i := by
      intro i hi
      rw [blockJ_bot (γ := iG.mul (gammaEc st)) hecc (fun l => α (lab st l)) hi]
      rw [mv_congr (fun j hj => ?_) i]
      exact (hec _ (pec j (by rw [← hecc]; exact hj))).2
    rw [hecc, hfr, hm]
    constructor
    · intro h
      refine ⟨fun k hk => ?_, fun i hi => ?_⟩
      · rw [← top k hk, ← h k (by omega)]; exact (hec k (pec k hk)).1.symm
      · rw [← bot i hi, ← h _ (by omega)]; exact (hfc _ (pfc i hi)).1.symm
    · rintro ⟨h1, h2⟩ k hk
      by_cases hlt : k < st.ec.length
      · rw [top k hlt, ← h1 k hlt]; exact (hec k (pec k hlt)).1
      · obtain ⟨i, rfl⟩ : ∃ i, k = st.ec.length + i := ⟨k - st.ec.length, by omega⟩
        rw [bot i (by omega), ← h2 i (by omega)]; exact (hfc _ (pfc i (by omega))).1
  rw [hsplit, and_comm, flows_iff hinv (her.trans hfr.symm), efforts_iff hinv (her.trans hfr.symm)]
  refine and_congr ?_ ?_
  · -- flows
    have key : ∀ i < st.nodes.length - 1, ∀ hi : 1 + i < st.nodes.length,
        (gammaFc st).mv (fun j => F (lab st (st.ec.length + j))) i +
          (gammaEc st).mv (fun j => F (lab st j)) i =
        (edges.map fun d => (sign d st.nodes[1 + i] : K) * F d.label).sum := by
      intro i hi hi'
      rw [← flow_sum hp F hi', ← hlen, Finset.sum_range_add, add_comm]
      unfold Mat.mv
      rw [hecc, hfcc]
      simp [gammaEc, gammaFc, Mat.slice]
    rw [hfr]
    constructor
    · intro h v hv hne
      obtain ⟨n, hlt, rfl⟩ := List.getElem_of_mem (hp.sameNodes.mem_iff.2 hv)
      have h0 : n ≠ 0 := by
        rintro rfl
        exact hne (List.getElem?_eq_some_iff.1 hp.ref).2
      obtain ⟨i, rfl⟩ : ∃ i, n = 1 + i := ⟨n - 1, by omega⟩
      rw [← key i (by omega) hlt]
      exact h i (by omega)
    · intro h i hi
      have hi' : 1 + i < st.nodes.length := by omega
      rw [key i hi hi']
      refine h _ (hp.sameNodes.mem_iff.1 (List.getElem_mem _)) fun heq => ?_
      have hn' : st.nodes.Nodup := hp.sameNodes.nodup_iff.2 hn
      have h0 := (List.getElem?_eq_some_iff.1 hp.ref)
      have := (List.Nodup.getElem_inj_iff hn' (hi := hi') (hj := h0.1)).1 (heq.trans h0.2.symm)
      omega
  · -- efforts
    have hends : ∀ e (he : e < st.edges.length),
        st.edges[e].tail ∈ nodes ∧ st.edges[e].head ∈ nodes := by
      intro e he
      have : noAlpha st.edges[e] ∈ edges.map noAlpha :=
        hp.sameEdges.mem_iff.1 (List.mem_map_of_mem (List.getElem_mem he))
      obtain ⟨d, hd, hde⟩ := List.mem_map.1 this
      have h1 := congrArg Edge.tail hde
      have h2 := congrArg Edge.head hde
      simp only [noAlpha] at h1 h2
      rw [← h1, ← h2]
      exact hnodes d hd
    -- all edges at once
    have hall : ∀ P : String → K, (∀ d ∈ edges, E d.label = P d.tail - P d.head) ↔
        ∀ e (he : e < st.edges.length),
          E (lab st e) = P st.edges[e].tail - P st.edges[e].head := by
      intro P
      have h1 : (∀ d ∈ edges, E d.label = P d.tail - P d.head) ↔
          ∀ d ∈ edges.map noAlpha, E d.label = P d.tail - P d.head := by
        simp [noAlpha]
      have h2 : (∀ d ∈ st.edges.map noAlpha, E d.label = P d.tail - P d.head) ↔
          ∀ e (he : e < st.edges.length),
            E (lab st e) = P st.edges[e].tail - P st.edges[e].head := by
        constructor
        · intro h e he
          have := h _ (List.mem_map_of_mem (List.getElem_mem he))
          simpa [noAlpha, lab, he] using this
        · intro h d hd
          obtain ⟨d', hd', rfl⟩ := List.mem_map.1 hd
          obtain ⟨e, he, rfl⟩ := List.getElem_of_mem hd'
          have := h e he
          simpa [noAlpha, lab, he] using this
      rw [h1, ← h2]
      constructor
      · intro h d hd; exact h d (hp.sameEdges.mem_iff.1 hd)
      · intro h d hd; exact h d (hp.sameEdges.mem_iff.2 hd)
    have hcol : ∀ (p : ℕ → K) (P : String → K), P datum = 0 →
        (∀ i < st.nodes.length - 1, p i = P (st.nodes.getD (1 + i) "")) →
        ((∀ j < (gammaFc st).c, E (lab st (st.ec.length + j)) = (gammaFc st).tr.mv p j) ∧
          (∀ k < (gammaEc st).c, E (lab st k) = (gammaEc st).tr.mv p k) ↔
        ∀ d ∈ edges, E d.label = P d.tail - P d.head) := by
      intro p P h0 hpP
      rw [hall P]
      have e1 : ∀ k (hk : k < st.ec.length), (gammaEc st).tr.mv p k =
          P (st.edges[k]'(by omega)).tail - P (st.edges[k]'(by omega)).head := by
        intro k hk
        have hk' : k < st.edges.length := by omega
        rw [← potential_sum hp hn P hk' (hends k hk').1 (hends k hk').2 h0]
        show ∑ i ∈ range (gammaEc st).r, (gammaEc st).e i k * p i = _
        rw [her]
        refine Finset.sum_congr rfl fun i hi => ?_
        rw [hpP i (Finset.mem_range.1 hi)]
        simp [gammaEc, Mat.slice]
      have e2 : ∀ j (hj : j < st.fc.length), (gammaFc st).tr.mv p j =
          P (st.edges[st.ec.length + j]'(by omega)).tail -
            P (st.edges[st.ec.length + j]'(by omega)).head := by
        intro j hj
        have hk' : st.ec.length + j < st.edges.length := by omega
        rw [← potential_sum hp hn P hk' (hends _ hk').1 (hends _ hk').2 h0]
        show ∑ i ∈ range (gammaFc st).r, (gammaFc st).e i j * p i = _
        rw [hfr]
        refine Finset.sum_congr rfl fun i hi => ?_
        rw [hpP i (Finset.mem_range.1 hi)]
        simp [gammaFc, Mat.slice]
      rw [hecc, hfcc]
      constructor
      · rintro ⟨h1, h2⟩ e he
        by_cases hlt : e < st.ec.length
        · rw [h2 e hlt, e1 e hlt]
        · obtain ⟨j, rfl⟩ : ∃ j, e = st.ec.length + j := ⟨e - st.ec.length, by omega⟩
          rw [h1 j (by omega), e2 j (by omega)]
      · intro h
        refine ⟨fun j hj => ?_, fun k hk => ?_⟩
        · rw [e2 j hj]; exact h _ (by omega)
        · rw [e1 k hk]; exact h _ (by omega)
    constructor
    · rintro ⟨p, hpp⟩
      have hn' : st.nodes.Nodup := hp.sameNodes.nodup_iff.2 hn
      have h0 := (List.getElem?_eq_some_iff.1 hp.ref)
      refine ⟨fun v => if v = datum then 0 else p (st.nodes.idxOf v - 1), ?_⟩
      refine (hcol p (fun v => if v = datum then 0 else p (st.nodes.idxOf v - 1)) (by simp) ?_).1 hpp
      intro i hi
      have hi' : 1 + i < st.nodes.length := by omega
      have e1 : st.nodes.getD (1 + i) "" = st.nodes[1 + i] := by simp [hi']
      have e2 : st.nodes[1 + i] ≠ datum := by
        intro heq
        have := (List.Nodup.getElem_inj_iff hn' (hi := hi') (hj := h0.1)).1 (heq.trans h0.2.symm)
        omega
      have e3 : st.nodes.idxOf st.nodes[1 + i] = 1 + i := by
        have hm := List.getElem_mem hi'
        exact (List.getElem?_inj (List.idxOf_lt_length_iff.2 hm) hn').1
          ((List.getElem?_idxOf hm).trans (List.getElem?_eq_getElem hi').symm)
      simp only [e1, e2, if_false, e3, Nat.add_sub_cancel_left]
    · rintro ⟨P, hP⟩
      refine ⟨fun i => P (st.nodes.getD (1 + i) "") - P datum, ?_⟩
      refine (hcol _ (fun v => P v - P datum) (by simp) fun i _ => rfl).2 fun d hd => ?_
      rw [hP d hd]; ring

end Graph
end Pyphs
