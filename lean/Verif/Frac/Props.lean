/-
C61: the networks built by the fractional integrators and derivators, inside any graph, compute what
their weights and poles say.
-/
import Verif.Frac.Net
import Verif.Frac.Spec

namespace Pyphs
namespace Frac
open Graph Finset

variable {K : Type} [Field K] [DecidableEq K]

/-! ### Tools -/

section tools
variable {law : String → Env K → K} {nodes : List String} {edges : List (Edge K)} {fuel : ℕ}
  {st : St K} {c c' : Core K} {ps : List (Part K)} {N1 N2 : String} {int : List String}

omit [DecidableEq K] in
theorem Placed.mem (h : Placed nodes edges c ps N1 N2 int) {d : Edge K} (hd : d ∈ edgesOf ps) :
    d ∈ edges := by
  obtain ⟨rest, hp, -⟩ := h.rest
  exact hp.mem_iff.2 (List.mem_append_left _ hd)

omit [DecidableEq K] in
theorem mem_edgesOf {p : Part K} (hp : p ∈ ps) {d : Edge K} (hd : d ∈ p.edges) : d ∈ edgesOf ps :=
  List.mem_flatMap.2 ⟨p, hp, hd⟩

omit [DecidableEq K] in
/-- No flow accumulates at an internal node. -/
theorem Placed.balance (h : Placed nodes edges c ps N1 N2 int) {F : String → K}
    (hf : FlowBalance nodes edges F) {v : String} (hv : v ∈ int) :
    leaving (edgesOf ps) F v = 0 := by
  obtain ⟨rest, hp, hr⟩ := h.rest
  have h1 := hf v (h.known v hv) (h.priv v hv).1
  have h2 : leaving (edgesOf ps ++ rest) F v = 0 := by
    rw [← h1]
    exact ((hp.map fun d => (sign d v : K) * F d.label).sum_eq).symm
  rw [leaving_append, leaving_zero (hr v hv), add_zero] at h2
  exact h2

omit [DecidableEq K] in
/-- The edges of the graph at an internal node are those of the parts. -/
theorem Placed.inside (h : Placed nodes edges c ps N1 N2 int) {v : String} (hv : v ∈ int)
    {d : Edge K} (hd : d ∈ edges) (ht : v = d.tail ∨ v = d.head) : d ∈ edgesOf ps := by
  obtain ⟨rest, hp, hr⟩ := h.rest
  rcases List.mem_append.1 (hp.mem_iff.1 hd) with h1 | h1
  · exact h1
  · have := hr v hv d h1
    rcases ht with rfl | rfl
    · exact absurd rfl this.1
    · exact absurd rfl this.2

omit [DecidableEq K] in
theorem mem_cells {cell : ℕ → List (Part K)} {N n : ℕ} (hn : n < N) {p : Part K} (hp : p ∈ cell n) :
    p ∈ (List.range N).flatMap cell := List.mem_flatMap.2 ⟨n, List.mem_range.2 hn, hp⟩

omit [DecidableEq K] in
theorem at_map (f : K × K → K × K) (poles : List (K × K)) {n : ℕ} (hn : n < poles.length) :
    at' (poles.map f) n = f (muAt poles n, xiAt poles n) := by
  simp [at', muAt, xiAt, List.getD_eq_getElem?_getD, List.getElem?_eq_getElem hn]

omit [DecidableEq K] in
theorem Placed.pot_diss (h : Placed nodes edges c ps N1 N2 int) {E p : String → K}
    (hpot : Potential edges E p) {l a b : String} {k : K} {i : Bool}
    (hm : Part.diss l a b k i ∈ ps) : E ("w" ++ l) = p a - p b :=
  hpot _ (h.mem (mem_edgesOf hm (d := edgeD l a b) (List.mem_singleton_self _)))

omit [DecidableEq K] in
theorem Placed.pot_stor (h : Placed nodes edges c ps N1 N2 int) {E p : String → K}
    (hpot : Potential edges E p) {l a b : String} {k : K} {i : Ctrl}
    (hm : Part.stor l a b k i ∈ ps) : E ("x" ++ l) = p a - p b :=
  hpot _ (h.mem (mem_edgesOf hm (d := edgeS l a b i) (List.mem_singleton_self _)))

omit [DecidableEq K] in
theorem Placed.pot_transA (h : Placed nodes edges c ps N1 N2 int) {E p : String → K}
    (hpot : Potential edges E p) {l a1 a2 b1 b2 : String} {k : K}
    (hm : Part.trans l a1 a2 b1 b2 k ∈ ps) : E ("y" ++ l ++ "1") = p a1 - p a2 :=
  hpot _ (h.mem (mem_edgesOf hm (d := edgeA l a1 a2 k) List.mem_cons_self))

omit [DecidableEq K] in
theorem Placed.pot_transB (h : Placed nodes edges c ps N1 N2 int) {E p : String → K}
    (hpot : Potential edges E p) {l a1 a2 b1 b2 : String} {k : K}
    (hm : Part.trans l a1 a2 b1 b2 k ∈ ps) : E ("y" ++ l ++ "2") = p b1 - p b2 :=
  hpot _ (h.mem (mem_edgesOf hm (d := edgeB l b1 b2) (List.mem_cons_of_mem _ List.mem_cons_self)))

omit [DecidableEq K] in
theorem weight_cancel {k : K} (hk : k ≠ 0) (a b : K) : k⁻¹ * a * (k * b) = a * b := by
  field_simp

/-- Sum over a chain of nodes `v 0, …, v N`: the flow is the same in all cells. -/
theorem chain_sum {N : ℕ} {v : ℕ → String} {i : ℕ → K} (hv : ∀ n ≤ N, ∀ m ≤ N, v n = v m → n = m)
    {m : ℕ} (hm : m ≤ N) :
    ∑ n ∈ range N, ((if v m = v n then (1 : K) else 0) - (if v m = v (n + 1) then 1 else 0)) * i n =
      (if m < N then i m else 0) - (if 0 < m then i (m - 1) else 0) := by
  have e : ∀ n ∈ range N,
      ((if v m = v n then (1 : K) else 0) - (if v m = v (n + 1) then 1 else 0)) * i n =
      (if m = n then i n else 0) - (if m = n + 1 then i n else 0) := by
    intro n hn
    have hn := mem_range.1 hn
    have h1 : v m = v n ↔ m = n := ⟨hv m hm n (by omega), fun h => by rw [h]⟩
    have h2 : v m = v (n + 1) ↔ m = n + 1 := ⟨hv m hm (n + 1) (by omega), fun h => by rw [h]⟩
    simp only [h1, h2]
    split <;> split <;> ring
  rw [Finset.sum_congr rfl e, Finset.sum_sub_distrib, Finset.sum_ite_eq]
  congr 1
  · simp
  · cases m with
    | zero => simp
    | succ m =>
      simp only [Nat.add_right_cancel_iff, Finset.sum_ite_eq, mem_range]
      simp; omega

end tools

/-! ### Effort-controlled integrator -/

section intec
variable {law : String → Env K → K} {nodes : List String} {edges : List (Edge K)} {fuel : ℕ}
  {st : St K} {c c' : Core K} {label N1 N2 : String}

/-- The nodes added by `Fracintec`. -/
def intecNodes (label : String) (len : ℕ) : List String :=
  (List.range len).map fun n => "iN_" ++ label ++ n.repr

/-- The function of the weights. -/
def intW (g : K) (c : K × K) : K × K := ((g * c.1)⁻¹ * c.2, (g * c.1)⁻¹⁻¹)
/-- The function of the weights. -/
def derW (g : K) (c : K × K) : K × K := (g * c.1, g * c.1 * c.2)

omit [DecidableEq K] in
theorem intWeights_eq [LT K] [DecidableLT K] (g : K) (mu xi : List K) :
    intWeights g mu xi = (kept mu xi).map (intW g) := rfl
omit [DecidableEq K] in
theorem derWeights_eq [LT K] [DecidableLT K] (g : K) (mu xi : List K) :
    derWeights g mu xi = (kept mu xi).map (derW g) := rfl

theorem intec_correct (h : Assembled law nodes edges fuel st c c') {g : K} {poles : List (K × K)}
    (hg : ∀ n < poles.length, g * muAt poles n ≠ 0)
    (hp : Placed nodes edges c (intec label N1 N2 (poles.map (intW g))) N1 N2
      (intecNodes label poles.length))
    {E F X dX : String → K}
    (hs : Solution st c' (intec label N1 N2 (poles.map (intW g))) E F X dX) {p : String → K}
    (hpot : Potential edges E p) :
    Integrator g poles (p N1 - p N2) (leaving (edgesOf (intec label N1 N2 (poles.map (intW g)))) F N1)
      (fun n => X ("x" ++ (label ++ n.repr))) (fun n => dX ("x" ++ (label ++ n.repr))) ∧
    leaving (edgesOf (intec label N1 N2 (poles.map (intW g)))) F N2 =
      -leaving (edgesOf (intec label N1 N2 (poles.map (intW g)))) F N1 := by
  obtain ⟨hf, -⟩ := h.kirchhoff hs
  have hlen : (poles.map (intW g)).length = poles.length := by simp
  -- equations of each cell
  have mD : ∀ n < poles.length, Part.diss ("R_" ++ label ++ n.repr) ("iN_" ++ label ++ n.repr) N2
      (at' (poles.map (intW g)) n).1 false ∈ intec label N1 N2 (poles.map (intW g)) := fun n hn =>
    mem_cells (by rw [hlen]; exact hn) (by simp [intecCell])
  have mS : ∀ n < poles.length, Part.stor (label ++ n.repr) N1 ("iN_" ++ label ++ n.repr)
      (at' (poles.map (intW g)) n).2 .e ∈ intec label N1 N2 (poles.map (intW g)) := fun n hn =>
    mem_cells (by rw [hlen]; exact hn) (by simp [intecCell])
  have inNode : ∀ n < poles.length, "iN_" ++ label ++ n.repr ∈ intecNodes label poles.length :=
    fun n hn => List.mem_map.2 ⟨n, List.mem_range.2 hn, rfl⟩
  have nodeInj : ∀ n m, "iN_" ++ label ++ Nat.repr n = "iN_" ++ label ++ Nat.repr m ↔ n = m :=
    fun n m => ⟨fun e => Nat.repr_inj.1 (append_left_cancel e), fun e => by rw [e]⟩
  have cellLeave : ∀ n v, leaving (edgesOf (intecCell label N1 N2 (poles.map (intW g)) n)) F v =
      ((if v = "iN_" ++ label ++ n.repr then 1 else 0) - (if v = N2 then 1 else 0)) *
        F ("w" ++ ("R_" ++ label ++ n.repr)) +
      ((if v = N1 then 1 else 0) - (if v = "iN_" ++ label ++ n.repr then 1 else 0)) *
        F ("x" ++ (label ++ n.repr)) := by
    intro n v
    simp [leaving, edgesOf, intecCell, Part.edges, edgeD, edgeS, sign]
  have allLeave : ∀ v, leaving (edgesOf (intec label N1 N2 (poles.map (intW g)))) F v =
      ∑ n ∈ range poles.length,
        (((if v = "iN_" ++ label ++ n.repr then 1 else 0) - (if v = N2 then 1 else 0)) *
          F ("w" ++ ("R_" ++ label ++ n.repr)) +
        ((if v = N1 then 1 else 0) - (if v = "iN_" ++ label ++ n.repr then 1 else 0)) *
          F ("x" ++ (label ++ n.repr))) := by
    intro v
    unfold intec
    rw [leaving_cells, hlen]
    exact Finset.sum_congr rfl fun n _ => cellLeave n v
  -- balance at the internal node
  have bal : ∀ n < poles.length,
      F ("w" ++ ("R_" ++ label ++ n.repr)) = F ("x" ++ (label ++ n.repr)) := by
    intro n hn
    have h1 := hp.balance hf (inNode n hn)
    obtain ⟨-, hn1, hn2⟩ := hp.priv _ (inNode n hn)
    rw [allLeave, Finset.sum_eq_single n] at h1
    · simp only [if_true, if_neg hn1, if_neg hn2] at h1
      linear_combination h1
    · intro m _ hmn
      simp [nodeInj, hn1, hn2, Ne.symm hmn]
    · intro h; exact absurd (mem_range.2 hn) h
  have eqn : ∀ n < poles.length,
      F ("x" ++ (label ++ n.repr)) = g * muAt poles n * X ("x" ++ (label ++ n.repr)) ∧
      dX ("x" ++ (label ++ n.repr)) =
        p N1 - p N2 - xiAt poles n * X ("x" ++ (label ++ n.repr)) := by
    intro n hn
    have lD := hs.laws _ (mD n hn)
    have lS := hs.laws _ (mS n hn)
    have eD := hp.pot_diss hpot (mD n hn)
    have eS := hp.pot_stor hpot (mS n hn)
    simp only [Part.Law, Bool.false_eq_true, if_false, reduceCtorEq, at_map _ _ hn, intW] at lD lS
    have h0 := hg n hn
    rw [inv_inv] at lS
    refine ⟨lS.2, ?_⟩
    rw [bal n hn, lS.2] at lD
    have : E ("w" ++ ("R_" ++ label ++ n.repr)) = xiAt poles n * X ("x" ++ (label ++ n.repr)) := by
      rw [lD, weight_cancel h0]
    rw [lS.1, eS]
    rw [this] at eD
    linear_combination eD
  have hN1 : leaving (edgesOf (intec label N1 N2 (poles.map (intW g)))) F N1 =
      ∑ n ∈ range poles.length, F ("x" ++ (label ++ n.repr)) := by
    rw [allLeave]
    refine Finset.sum_congr rfl fun n hn => ?_
    obtain ⟨-, hn1, hn2⟩ := hp.priv _ (inNode n (mem_range.1 hn))
    simp [hn1.symm, hp.terminals]
  refine ⟨⟨?_, ?_⟩, ?_⟩
  · rw [hN1]
    exact Finset.sum_congr rfl fun n hn => (eqn n (mem_range.1 hn)).1
  · exact fun n hn => (eqn n hn).2
  · rw [hN1, allLeave, ← Finset.sum_neg_distrib]
    refine Finset.sum_congr rfl fun n hn => ?_
    obtain ⟨-, hn1, hn2⟩ := hp.priv _ (inNode n (mem_range.1 hn))
    rw [bal n (mem_range.1 hn)]
    simp [hn2.symm, hp.terminals.symm]

end intec

/-! ### Flux-controlled integrator -/

section intfc
variable {law : String → Env K → K} {nodes : List String} {edges : List (Edge K)} {fuel : ℕ}
  {st : St K} {c c' : Core K} {label N1 N2 : String}

/-- The nodes added by `Fracintfc`. -/
def intfcNodes (label : String) (len : ℕ) : List String :=
  (List.range (len - 1)).map fun n => "iN_" ++ label ++ n.repr ++ "to" ++ (n + 1).repr

/-- In a chain `v 0, …, v N` whose inner nodes are internal, the flow is the same everywhere. -/
theorem chain_flow {N : ℕ} (hN : 0 < N) {v : ℕ → String}
    (hv : ∀ n ≤ N, ∀ m ≤ N, v n = v m → n = m) {i : ℕ → K} {L : String → K}
    (hL : ∀ m ≤ N, L (v m) = ∑ n ∈ range N,
      ((if v m = v n then (1 : K) else 0) - (if v m = v (n + 1) then 1 else 0)) * i n)
    (hbal : ∀ m, 0 < m → m < N → L (v m) = 0) :
    L (v N) = -L (v 0) ∧ ∀ n < N, i n = L (v 0) := by
  have h0 : L (v 0) = i 0 := by
    rw [hL 0 (Nat.zero_le _), chain_sum hv (Nat.zero_le _)]; simp [hN]
  have h1 : ∀ n < N, i n = i 0 := by
    intro n
    induction n with
    | zero => intro _; rfl
    | succ n ih =>
      intro hn
      have := hbal (n + 1) (by omega) hn
      rw [hL _ hn.le, chain_sum hv hn.le, if_pos hn, if_pos (by omega), Nat.add_sub_cancel] at this
      rw [← ih (by omega)]
      linear_combination this
  refine ⟨?_, fun n hn => (h1 n hn).trans h0.symm⟩
  rw [hL N (Nat.le_refl _), chain_sum hv (Nat.le_refl _), h0, if_neg (by omega), if_pos hN,
    h1 (N - 1) (by omega)]
  ring

theorem intfcNode_inj {len : ℕ} (hlen : 0 < len)
    (hpriv : ∀ v ∈ intfcNodes label len, v ≠ datum ∧ v ≠ N1 ∧ v ≠ N2) (hne : N1 ≠ N2) :
    ∀ n ≤ len, ∀ m ≤ len,
      intfcNode label N1 N2 len n = intfcNode label N1 N2 len m → n = m := by
  have key : ∀ n, n < len - 1 → _ := fun n hn => hpriv ("iN_" ++ label ++ n.repr ++ "to" ++ (n + 1).repr)
    (List.mem_map.2 ⟨n, List.mem_range.2 hn, rfl⟩)
  intro n hn m hm h
  cases n with
  | zero =>
    cases m with
    | zero => rfl
    | succ m =>
      simp only [intfcNode] at h
      split at h
      · next hlt => exact absurd h.symm (key m hlt).2.1
      · exact absurd h hne
  | succ n =>
    cases m with
    | zero =>
      simp only [intfcNode] at h
      split at h
      · next hlt => exact absurd h (key n hlt).2.1
      · exact absurd h.symm hne
    | succ m =>
      simp only [intfcNode] at h
      split at h
      · next h1 =>
        split at h
        · rw [chain_inj h]
        · exact absurd h (key n h1).2.2
      · next h1 =>
        split at h
        · next h2 => exact absurd h.symm (key m h2).2.2
        · omega

theorem intfc_correct (h : Assembled law nodes edges fuel st c c') {g : K} {poles : List (K × K)}
    (hg : ∀ n < poles.length, g * muAt poles n ≠ 0) (hN : 0 < poles.length)
    (hp : Placed nodes edges c (intfc label N1 N2 (poles.map (intW g))) N1 N2
      (intfcNodes label poles.length))
    {E F X dX : String → K}
    (hs : Solution st c' (intfc label N1 N2 (poles.map (intW g))) E F X dX) {p : String → K}
    (hpot : Potential edges E p) :
    Integrator g poles (leaving (edgesOf (intfc label N1 N2 (poles.map (intW g)))) F N1) (p N1 - p N2)
      (fun n => X ("x" ++ (label ++ "Q" ++ n.repr))) (fun n => dX ("x" ++ (label ++ "Q" ++ n.repr))) ∧
    leaving (edgesOf (intfc label N1 N2 (poles.map (intW g)))) F N2 =
      -leaving (edgesOf (intfc label N1 N2 (poles.map (intW g)))) F N1 := by
  obtain ⟨hf, -⟩ := h.kirchhoff hs
  have hlen : (poles.map (intW g)).length = poles.length := by simp
  generalize hv : intfcNode label N1 N2 poles.length = v
  have mD : ∀ n < poles.length, Part.diss (label ++ "R" ++ n.repr) (v n) (v (n + 1))
      (at' (poles.map (intW g)) n).1 true ∈ intfc label N1 N2 (poles.map (intW g)) := fun n hn =>
    mem_cells (by rw [hlen]; exact hn) (by simp [intfcCell, ← hv])
  have mS : ∀ n < poles.length, Part.stor (label ++ "Q" ++ n.repr) (v n) (v (n + 1))
      (at' (poles.map (intW g)) n).2 .f ∈ intfc label N1 N2 (poles.map (intW g)) := fun n hn =>
    mem_cells (by rw [hlen]; exact hn) (by simp [intfcCell, ← hv])
  have v0 : v 0 = N1 := by rw [← hv]; rfl
  have vN : v poles.length = N2 := by
    obtain ⟨k, hk⟩ := Nat.exists_eq_succ_of_ne_zero hN.ne'
    rw [← hv, hk]; simp [intfcNode]
  have allLeave : ∀ w, leaving (edgesOf (intfc label N1 N2 (poles.map (intW g)))) F w =
      ∑ n ∈ range poles.length,
        ((if w = v n then (1 : K) else 0) - (if w = v (n + 1) then 1 else 0)) *
          (F ("w" ++ (label ++ "R" ++ n.repr)) + F ("x" ++ (label ++ "Q" ++ n.repr))) := by
    intro w
    unfold intfc
    rw [leaving_cells, hlen]
    refine Finset.sum_congr rfl fun n _ => ?_
    simp [leaving, edgesOf, intfcCell, Part.edges, edgeD, edgeS, sign, hv]
    ring
  have hinj := intfcNode_inj (N1 := N1) (N2 := N2) hN (fun w hw => hp.priv w hw) hp.terminals
  rw [hv] at hinj
  obtain ⟨h1, h2⟩ := chain_flow hN hinj
    (i := fun n => F ("w" ++ (label ++ "R" ++ n.repr)) + F ("x" ++ (label ++ "Q" ++ n.repr)))
    (L := leaving (edgesOf (intfc label N1 N2 (poles.map (intW g)))) F)
    (fun m _ => allLeave (v m)) (by
      intro m h0 hm
      refine hp.balance hf ?_
      obtain ⟨k, rfl⟩ := Nat.exists_eq_succ_of_ne_zero h0.ne'
      refine List.mem_map.2 ⟨k, List.mem_range.2 (by omega), ?_⟩
      rw [← hv]
      simp only [intfcNode]
      rw [if_pos (by omega)])
  rw [v0, vN] at h1
  rw [v0] at h2
  have eqn : ∀ n < poles.length,
      p (v n) - p (v (n + 1)) = g * muAt poles n * X ("x" ++ (label ++ "Q" ++ n.repr)) ∧
      dX ("x" ++ (label ++ "Q" ++ n.repr)) =
        leaving (edgesOf (intfc label N1 N2 (poles.map (intW g)))) F N1 -
          xiAt poles n * X ("x" ++ (label ++ "Q" ++ n.repr)) := by
    intro n hn
    have lD := hs.laws _ (mD n hn)
    have lS := hs.laws _ (mS n hn)
    have eD := hp.pot_diss hpot (mD n hn)
    have eS := hp.pot_stor hpot (mS n hn)
    simp only [Part.Law, if_true, at_map _ _ hn, intW] at lD lS
    have h0 := hg n hn
    rw [inv_inv] at lS
    have e1 : p (v n) - p (v (n + 1)) = g * muAt poles n * X ("x" ++ (label ++ "Q" ++ n.repr)) := by
      rw [← eS]; exact lS.2
    refine ⟨e1, ?_⟩
    rw [eD, e1] at lD
    have : F ("w" ++ (label ++ "R" ++ n.repr)) =
        xiAt poles n * X ("x" ++ (label ++ "Q" ++ n.repr)) := by
      rw [lD, weight_cancel h0]
    have h3 := h2 n hn
    rw [lS.1, ← h3, this]
    ring
  refine ⟨⟨?_, fun n hn => (eqn n hn).2⟩, h1⟩
  rw [← v0, ← vN, ← Finset.sum_range_sub' (fun n => p (v n))]
  exact Finset.sum_congr rfl fun n hn => (eqn n (mem_range.1 hn)).1

end intfc

/-! ### Effort-controlled derivator -/

section derec
variable {law : String → Env K → K} {nodes : List String} {edges : List (Edge K)} {fuel : ℕ}
  {st : St K} {c c' : Core K} {label N1 N2 : String}

/-- The nodes added by `Fracderec`. -/
def derecNodes (label : String) (len : ℕ) : List String :=
  (List.range len).flatMap fun n => ["N" ++ label ++ n.repr ++ "_1", "N" ++ label ++ n.repr ++ "_2"]

omit [DecidableEq K] in
theorem cancel_at (a x y z w s t : K) (h : s + t = 0) : x * y + (a * s + (z * w + a * t)) =
    x * y + z * w := by linear_combination a * h

theorem derec_correct (h : Assembled law nodes edges fuel st c c') {g : K} {poles : List (K × K)}
    (hg : ∀ n < poles.length, g * muAt poles n ≠ 0)
    (hp : Placed nodes edges c (derec label N1 N2 (poles.map (derW g))) N1 N2
      (derecNodes label poles.length))
    {E F X dX : String → K}
    (hs : Solution st c' (derec label N1 N2 (poles.map (derW g))) E F X dX) {p : String → K}
    (hpot : Potential edges E p) :
    Derivator g poles (p N1 - p N2) (leaving (edgesOf (derec label N1 N2 (poles.map (derW g)))) F N1)
      (fun n => -X ("x" ++ (label ++ "Q" ++ n.repr)))
      (fun n => -dX ("x" ++ (label ++ "Q" ++ n.repr))) ∧
    leaving (edgesOf (derec label N1 N2 (poles.map (derW g)))) F N2 =
      -leaving (edgesOf (derec label N1 N2 (poles.map (derW g)))) F N1 := by
  obtain ⟨hf, -⟩ := h.kirchhoff hs
  have hlen : (poles.map (derW g)).length = poles.length := by simp
  have mD : ∀ n < poles.length, Part.diss (label ++ "R" ++ n.repr) ("N" ++ label ++ n.repr ++ "_1") N1
      (at' (poles.map (derW g)) n).1 true ∈ derec label N1 N2 (poles.map (derW g)) := fun n hn =>
    mem_cells (by rw [hlen]; exact hn) (by simp [derecCell])
  have mS : ∀ n < poles.length, Part.stor (label ++ "Q" ++ n.repr) ("N" ++ label ++ n.repr ++ "_2") datum
      (at' (poles.map (derW g)) n).2 .f ∈ derec label N1 N2 (poles.map (derW g)) := fun n hn =>
    mem_cells (by rw [hlen]; exact hn) (by simp [derecCell])
  have mT : ∀ n < poles.length, Part.trans (label ++ "alpha" ++ n.repr)
      ("N" ++ label ++ n.repr ++ "_1") N2 ("N" ++ label ++ n.repr ++ "_2") datum
      (at' (poles.map (derW g)) n).1⁻¹ ∈ derec label N1 N2 (poles.map (derW g)) := fun n hn =>
    mem_cells (by rw [hlen]; exact hn) (by simp [derecCell])
  have in1 : ∀ n < poles.length, "N" ++ label ++ n.repr ++ "_1" ∈ derecNodes label poles.length :=
    fun n hn => List.mem_flatMap.2 ⟨n, List.mem_range.2 hn, by simp⟩
  have in2 : ∀ n < poles.length, "N" ++ label ++ n.repr ++ "_2" ∈ derecNodes label poles.length :=
    fun n hn => List.mem_flatMap.2 ⟨n, List.mem_range.2 hn, by simp⟩
  have inj1 : ∀ n m, "N" ++ label ++ Nat.repr n ++ "_1" = "N" ++ label ++ Nat.repr m ++ "_1" ↔ n = m :=
    fun n m => ⟨fun e => name_inj e, fun e => by rw [e]⟩
  have inj2 : ∀ n m, "N" ++ label ++ Nat.repr n ++ "_2" = "N" ++ label ++ Nat.repr m ++ "_2" ↔ n = m :=
    fun n m => ⟨fun e => name_inj e, fun e => by rw [e]⟩
  have n12 : ∀ n m, "N" ++ label ++ Nat.repr n ++ "_1" ≠ "N" ++ label ++ Nat.repr m ++ "_2" :=
    fun n m => name_suffix
  have allLeave : ∀ v, leaving (edgesOf (derec label N1 N2 (poles.map (derW g)))) F v =
      ∑ n ∈ range poles.length,
        (((if v = "N" ++ label ++ n.repr ++ "_1" then 1 else 0) - (if v = N1 then 1 else 0)) *
          F ("w" ++ (label ++ "R" ++ n.repr)) +
        (((if v = "N" ++ label ++ n.repr ++ "_2" then 1 else 0) - (if v = datum then 1 else 0)) *
          F ("x" ++ (label ++ "Q" ++ n.repr)) +
        (((if v = "N" ++ label ++ n.repr ++ "_1" then 1 else 0) - (if v = N2 then 1 else 0)) *
          F ("y" ++ (label ++ "alpha" ++ n.repr) ++ "1") +
        ((if v = "N" ++ label ++ n.repr ++ "_2" then 1 else 0) - (if v = datum then 1 else 0)) *
          F ("y" ++ (label ++ "alpha" ++ n.repr) ++ "2")))) := by
    intro v
    unfold derec
    rw [leaving_cells, hlen]
    refine Finset.sum_congr rfl fun n _ => ?_
    simp [leaving, edgesOf, derecCell, Part.edges, edgeD, edgeS, edgeA, edgeB, sign]
  have bal1 : ∀ n < poles.length, F ("w" ++ (label ++ "R" ++ n.repr)) =
      -F ("y" ++ (label ++ "alpha" ++ n.repr) ++ "1") := by
    intro n hn
    have h1 := hp.balance hf (in1 n hn)
    obtain ⟨hn0, hn1, hn2⟩ := hp.priv _ (in1 n hn)
    rw [allLeave, Finset.sum_eq_single n] at h1
    · simp only [if_true, if_neg hn0, if_neg hn1, if_neg hn2, if_neg (n12 n n)] at h1
      linear_combination h1
    · intro m _ hmn
      simp only [inj1, if_neg (Ne.symm hmn), if_neg hn0, if_neg hn1, if_neg hn2, if_neg (n12 n m)]
      ring
    · intro h; exact absurd (mem_range.2 hn) h
  have bal2 : ∀ n < poles.length, F ("x" ++ (label ++ "Q" ++ n.repr)) +
      F ("y" ++ (label ++ "alpha" ++ n.repr) ++ "2") = 0 := by
    intro n hn
    have h1 := hp.balance hf (in2 n hn)
    obtain ⟨hn0, hn1, hn2⟩ := hp.priv _ (in2 n hn)
    rw [allLeave, Finset.sum_eq_single n] at h1
    · simp only [if_true, if_neg hn0, if_neg hn1, if_neg hn2, if_neg (n12 n n).symm] at h1
      linear_combination h1
    · intro m _ hmn
      simp only [inj2, if_neg (Ne.symm hmn), if_neg hn0, if_neg hn1, if_neg hn2, if_neg (n12 m n).symm]
      ring
    · intro h; exact absurd (mem_range.2 hn) h
  have eqn : ∀ n < poles.length,
      F ("y" ++ (label ++ "alpha" ++ n.repr) ++ "1") =
        g * muAt poles n * -dX ("x" ++ (label ++ "Q" ++ n.repr)) ∧
      -dX ("x" ++ (label ++ "Q" ++ n.repr)) =
        p N1 - p N2 - xiAt poles n * -X ("x" ++ (label ++ "Q" ++ n.repr)) := by
    intro n hn
    have lD := hs.laws _ (mD n hn)
    have lS := hs.laws _ (mS n hn)
    have eD := hp.pot_diss hpot (mD n hn)
    have eS := hp.pot_stor hpot (mS n hn)
    have eA := hp.pot_transA hpot (mT n hn)
    have eB := hp.pot_transB hpot (mT n hn)
    obtain ⟨i, k, hk⟩ := hp.conns _ _ _ _ _ _ (mT n hn)
    have h0 := hg n hn
    simp only [at_map _ _ hn, derW] at hk
    have memS : (edgeS (label ++ "Q" ++ n.repr) ("N" ++ label ++ n.repr ++ "_2") datum .f : Edge K) ∈
        edges := hp.mem (mem_edgesOf (mS n hn) (List.mem_singleton_self _))
    have cS := ((C60_prescribed h.datum h.labels h.free h.analysed memS).2 rfl).1
    have cB := h.not_both memS hk.mem2 (by
      simp only [edgeS, edgeB]
      intro e
      have := congrArg (fun s : String => s.toList.head?) e
      simp [String.toList_append] at this) rfl rfl rfl rfl cS
    have hT : TransformerLaw (-(g * muAt poles n)⁻¹⁻¹) _ _ _ _ :=
      (h.trans hs hk rfl (inv_ne_zero h0)).elim (fun h => absurd h.2.1 cB) (fun h => h.2.2)
    rw [inv_inv] at hT
    obtain ⟨t1, t2⟩ := hT
    simp only [edgeA, edgeB] at t1 t2
    simp only [Part.Law, if_true, at_map _ _ hn, derW] at lD lS
    have b1 := bal1 n hn
    have b2 := bal2 n hn
    obtain ⟨s1, s2⟩ := lS
    have q1 : F ("y" ++ (label ++ "alpha" ++ n.repr) ++ "1") =
        g * muAt poles n * -dX ("x" ++ (label ++ "Q" ++ n.repr)) := by
      rw [t1, s1]; linear_combination (g * muAt poles n) * b2
    refine ⟨q1, ?_⟩
    have e1 : E ("y" ++ (label ++ "alpha" ++ n.repr) ++ "1") =
        -(xiAt poles n * X ("x" ++ (label ++ "Q" ++ n.repr))) := by
      refine mul_left_cancel₀ h0 ?_
      linear_combination t2 - s2 - eB + eS
    have e2 : E ("w" ++ (label ++ "R" ++ n.repr)) = dX ("x" ++ (label ++ "Q" ++ n.repr)) := by
      refine mul_left_cancel₀ h0 ?_
      linear_combination -lD + b1 - q1
    linear_combination e2 - eD + eA - e1
  have hN : ∀ v, (∀ n < poles.length, v ≠ "N" ++ label ++ n.repr ++ "_1" ∧
        v ≠ "N" ++ label ++ n.repr ++ "_2") →
      leaving (edgesOf (derec label N1 N2 (poles.map (derW g)))) F v =
      ∑ n ∈ range poles.length, ((if v = N1 then 1 else 0) - (if v = N2 then 1 else 0)) *
          F ("y" ++ (label ++ "alpha" ++ n.repr) ++ "1") := by
    intro v hv
    rw [allLeave]
    refine Finset.sum_congr rfl fun n hn => ?_
    have hn := mem_range.1 hn
    rw [cancel_at _ _ _ _ _ _ _ (bal2 n hn), bal1 n hn, if_neg (hv n hn).1]
    ring
  have hN1 : leaving (edgesOf (derec label N1 N2 (poles.map (derW g)))) F N1 =
      ∑ n ∈ range poles.length, F ("y" ++ (label ++ "alpha" ++ n.repr) ++ "1") := by
    rw [hN N1 fun n hn => ⟨(hp.priv _ (in1 n hn)).2.1.symm, (hp.priv _ (in2 n hn)).2.1.symm⟩]
    simp [hp.terminals]
  refine ⟨⟨?_, fun n hn => (eqn n hn).2⟩, ?_⟩
  · rw [hN1]
    exact Finset.sum_congr rfl fun n hn => (eqn n (mem_range.1 hn)).1
  · rw [hN1, hN N2 fun n hn => ⟨(hp.priv _ (in1 n hn)).2.2.symm, (hp.priv _ (in2 n hn)).2.2.symm⟩]
    simp [hp.terminals.symm]

end derec

/-! ### Flux-controlled derivator -/

section derfc
variable {law : String → Env K → K} {nodes : List String} {edges : List (Edge K)} {fuel : ℕ}
  {st : St K} {c c' : Core K} {label N1 N2 : String}

/-- The nodes added by `Fracderfc`. -/
def derfcNodes (label : String) (len : ℕ) : List String :=
  ((List.range (len - 1)).map fun n => "N" ++ label ++ n.repr ++ "_1") ++
    ((List.range len).map fun n => "N" ++ label ++ n.repr ++ "_2")

theorem derfc_mem1 {len n : ℕ} (hn : n < len - 1) :
    "N" ++ label ++ n.repr ++ "_1" ∈ derfcNodes label len :=
  List.mem_append_left _ (List.mem_map.2 ⟨n, List.mem_range.2 hn, rfl⟩)

theorem derfc_mem2 {len n : ℕ} (hn : n < len) :
    "N" ++ label ++ n.repr ++ "_2" ∈ derfcNodes label len :=
  List.mem_append_right _ (List.mem_map.2 ⟨n, List.mem_range.2 hn, rfl⟩)

theorem derfcNode_inj {len : ℕ} (hlen : 0 < len)
    (hpriv : ∀ v ∈ derfcNodes label len, v ≠ datum ∧ v ≠ N1 ∧ v ≠ N2) (hne : N1 ≠ N2) :
    ∀ n ≤ len, ∀ m ≤ len,
      derfcNode label N1 N2 len n = derfcNode label N1 N2 len m → n = m := by
  have key : ∀ n, n < len - 1 → _ := fun n hn => hpriv ("N" ++ label ++ n.repr ++ "_1")
    (derfc_mem1 hn)
  intro n hn m hm h
  cases n with
  | zero =>
    cases m with
    | zero => rfl
    | succ m =>
      simp only [derfcNode] at h
      split at h
      · next hlt => exact absurd h.symm (key m hlt).2.1
      · exact absurd h hne
  | succ n =>
    cases m with
    | zero =>
      simp only [derfcNode] at h
      split at h
      · next hlt => exact absurd h (key n hlt).2.1
      · exact absurd h.symm hne
    | succ m =>
      simp only [derfcNode] at h
      split at h
      · next h1 =>
        split at h
        · rw [name_inj h]
        · exact absurd h (key n h1).2.2
      · next h1 =>
        split at h
        · next h2 => exact absurd h.symm (key m h2).2.2
        · omega

theorem derfcNode_ne {len n : ℕ} (hn : n < len)
    (hpriv : ∀ v ∈ derfcNodes label len, v ≠ datum ∧ v ≠ N1 ∧ v ≠ N2) (m : ℕ) :
    "N" ++ label ++ n.repr ++ "_2" ≠ derfcNode label N1 N2 len m := by
  obtain ⟨h0, h1, h2⟩ := hpriv _ (derfc_mem2 hn)
  cases m with
  | zero => exact h1
  | succ m =>
    simp only [derfcNode]
    split
    · exact name_suffix.symm
    · exact h2

/-- The poles of the network that `Fracderfc` builds. -/
def derfcPoles (g : K) (poles : List (K × K)) : List (K × K) :=
  poles.map fun c => (c.1, (g * c.1) ^ 4 * c.2)

omit [DecidableEq K] in
theorem muAt_derfcPoles (g : K) (poles : List (K × K)) (n : ℕ) :
    muAt (derfcPoles g poles) n = muAt poles n := by
  simp only [muAt, derfcPoles, List.getD_eq_getElem?_getD, List.getElem?_map]
  cases poles[n]? <;> rfl

omit [DecidableEq K] in
theorem xiAt_derfcPoles (g : K) (poles : List (K × K)) (n : ℕ) :
    xiAt (derfcPoles g poles) n = (g * muAt poles n) ^ 4 * xiAt poles n := by
  simp only [muAt, xiAt, derfcPoles, List.getD_eq_getElem?_getD, List.getElem?_map]
  cases poles[n]? <;> simp

theorem derfc_actual (h : Assembled law nodes edges fuel st c c') {g : K} {poles : List (K × K)}
    (hg : ∀ n < poles.length, g * muAt poles n ≠ 0) (hN : 0 < poles.length)
    (hp : Placed nodes edges c (derfc label N1 N2 (poles.map (derW g))) N1 N2
      (derfcNodes label poles.length))
    {E F X dX : String → K}
    (hs : Solution st c' (derfc label N1 N2 (poles.map (derW g))) E F X dX) {p : String → K}
    (hpot : Potential edges E p) :
    Derivator g (derfcPoles g poles)
      (leaving (edgesOf (derfc label N1 N2 (poles.map (derW g)))) F N1) (p N1 - p N2)
      (fun n => X ("x" ++ (label ++ "Q" ++ n.repr)) / (g * muAt poles n) ^ 2)
      (fun n => dX ("x" ++ (label ++ "Q" ++ n.repr)) / (g * muAt poles n) ^ 2) ∧
    leaving (edgesOf (derfc label N1 N2 (poles.map (derW g)))) F N2 =
      -leaving (edgesOf (derfc label N1 N2 (poles.map (derW g)))) F N1 := by
  obtain ⟨hf, -⟩ := h.kirchhoff hs
  have hlen : (poles.map (derW g)).length = poles.length := by simp
  generalize hv : derfcNode label N1 N2 poles.length = v
  have mD : ∀ n < poles.length, Part.diss (label ++ "R" ++ n.repr) (v (n + 1)) (v n)
      (at' (poles.map (derW g)) n).1 false ∈ derfc label N1 N2 (poles.map (derW g)) := fun n hn =>
    mem_cells (by rw [hlen]; exact hn) (by simp [derfcCell, ← hv])
  have mS : ∀ n < poles.length, Part.stor (label ++ "Q" ++ n.repr) ("N" ++ label ++ n.repr ++ "_2") datum
      (at' (poles.map (derW g)) n).2 .e ∈ derfc label N1 N2 (poles.map (derW g)) := fun n hn =>
    mem_cells (by rw [hlen]; exact hn) (by simp [derfcCell])
  have mT : ∀ n < poles.length, Part.trans (label ++ "alpha" ++ n.repr)
      (v n) (v (n + 1)) ("N" ++ label ++ n.repr ++ "_2") datum
      (at' (poles.map (derW g)) n).1 ∈ derfc label N1 N2 (poles.map (derW g)) := fun n hn =>
    mem_cells (by rw [hlen]; exact hn) (by simp [derfcCell, ← hv])
  have v0 : v 0 = N1 := by rw [← hv]; rfl
  have vN : v poles.length = N2 := by
    obtain ⟨k, hk⟩ := Nat.exists_eq_succ_of_ne_zero hN.ne'
    rw [← hv, hk]; simp [derfcNode]
  have inj2 : ∀ n m, "N" ++ label ++ Nat.repr n ++ "_2" = "N" ++ label ++ Nat.repr m ++ "_2" ↔ n = m :=
    fun n m => ⟨fun e => name_inj e, fun e => by rw [e]⟩
  have n3 : ∀ n < poles.length, ∀ m, "N" ++ label ++ Nat.repr n ++ "_2" ≠ v m := by
    intro n hn m
    rw [← hv]; exact derfcNode_ne hn (fun w hw => hp.priv w hw) m
  have allLeave : ∀ w, leaving (edgesOf (derfc label N1 N2 (poles.map (derW g)))) F w =
      ∑ n ∈ range poles.length,
        (((if w = v n then (1 : K) else 0) - (if w = v (n + 1) then 1 else 0)) *
          (F ("y" ++ (label ++ "alpha" ++ n.repr) ++ "1") - F ("w" ++ (label ++ "R" ++ n.repr))) +
        ((if w = "N" ++ label ++ n.repr ++ "_2" then 1 else 0) - (if w = datum then 1 else 0)) *
          (F ("x" ++ (label ++ "Q" ++ n.repr)) +
            F ("y" ++ (label ++ "alpha" ++ n.repr) ++ "2"))) := by
    intro w
    unfold derfc
    rw [leaving_cells, hlen]
    refine Finset.sum_congr rfl fun n _ => ?_
    simp [leaving, edgesOf, derfcCell, Part.edges, edgeD, edgeS, edgeA, edgeB, sign, hv]
    ring
  have bal2 : ∀ n < poles.length, F ("x" ++ (label ++ "Q" ++ n.repr)) +
      F ("y" ++ (label ++ "alpha" ++ n.repr) ++ "2") = 0 := by
    intro n hn
    have h1 := hp.balance hf (derfc_mem2 hn)
    obtain ⟨hn0, hn1, hn2⟩ := hp.priv _ (derfc_mem2 hn)
    rw [allLeave, Finset.sum_eq_single n] at h1
    · simp only [if_true, if_neg hn0, if_neg (n3 n hn n), if_neg (n3 n hn (n + 1))] at h1
      linear_combination h1
    · intro m _ hmn
      simp only [inj2, if_neg (Ne.symm hmn), if_neg hn0, if_neg (n3 n hn m), if_neg (n3 n hn (m + 1))]
      ring
    · intro h; exact absurd (mem_range.2 hn) h
  have hinj := derfcNode_inj (N1 := N1) (N2 := N2) hN (fun w hw => hp.priv w hw) hp.terminals
  rw [hv] at hinj
  obtain ⟨h1, h2⟩ := chain_flow hN hinj
    (i := fun n => F ("y" ++ (label ++ "alpha" ++ n.repr) ++ "1") - F ("w" ++ (label ++ "R" ++ n.repr)))
    (L := leaving (edgesOf (derfc label N1 N2 (poles.map (derW g)))) F)
    (by
      intro m _
      rw [allLeave]
      refine Finset.sum_congr rfl fun n hn => ?_
      rw [bal2 n (mem_range.1 hn), mul_zero, add_zero]) (by
      intro m h0 hm
      refine hp.balance hf ?_
      obtain ⟨k, rfl⟩ := Nat.exists_eq_succ_of_ne_zero h0.ne'
      rw [← hv]
      simp only [derfcNode]
      rw [if_pos (by omega)]
      exact derfc_mem1 (by omega))
  rw [v0, vN] at h1
  rw [v0] at h2
  have eqn : ∀ n < poles.length,
      g * muAt poles n * (p (v n) - p (v (n + 1))) = dX ("x" ++ (label ++ "Q" ++ n.repr)) ∧
      dX ("x" ++ (label ++ "Q" ++ n.repr)) = (g * muAt poles n) ^ 2 *
        (leaving (edgesOf (derfc label N1 N2 (poles.map (derW g)))) F N1 -
          (g * muAt poles n) ^ 2 * xiAt poles n * X ("x" ++ (label ++ "Q" ++ n.repr))) := by
    intro n hn
    have lD := hs.laws _ (mD n hn)
    have lS := hs.laws _ (mS n hn)
    have eD := hp.pot_diss hpot (mD n hn)
    have eS := hp.pot_stor hpot (mS n hn)
    have eA := hp.pot_transA hpot (mT n hn)
    have eB := hp.pot_transB hpot (mT n hn)
    obtain ⟨i, k, hk⟩ := hp.conns _ _ _ _ _ _ (mT n hn)
    have h0 := hg n hn
    simp only [at_map _ _ hn, derW] at hk
    have memS : (edgeS (label ++ "Q" ++ n.repr) ("N" ++ label ++ n.repr ++ "_2") datum .e : Edge K) ∈
        edges := hp.mem (mem_edgesOf (mS n hn) (List.mem_singleton_self _))
    have cS := ((C60_prescribed h.datum h.labels h.free h.analysed memS).1 rfl).2
    -- the second edge of the transformer is the flux-controlled edge of its node
    have cB : (edgeB (label ++ "alpha" ++ n.repr) ("N" ++ label ++ n.repr ++ "_2") datum :
        Edge K).label ∈ st.fc.map (lab st) := by
      obtain ⟨d, hd, hdf, hdn⟩ := h.fc_at (hp.known _ (derfc_mem2 hn)) (hp.priv _ (derfc_mem2 hn)).1
      obtain ⟨q, hq, hdq⟩ := List.mem_flatMap.1 (hp.inside (derfc_mem2 hn) hd hdn)
      obtain ⟨m, hm, hqm⟩ := List.mem_flatMap.1 hq
      simp only [derfcCell, List.mem_cons, List.not_mem_nil, or_false] at hqm
      have h00 := (hp.priv _ (derfc_mem2 hn)).1
      rw [hlen, hv] at hqm
      rcases hqm with rfl | rfl | rfl
      · rw [Part.edges, List.mem_singleton] at hdq
        subst hdq
        rcases hdn with e | e
        · exact absurd e (n3 n hn _)
        · exact absurd e (n3 n hn _)
      · rw [Part.edges, List.mem_singleton] at hdq
        subst hdq
        rcases hdn with e | e
        · rw [show n = m from (inj2 n m).1 e] at cS
          exact absurd hdf cS
        · exact absurd e h00
      · simp only [Part.edges, List.mem_cons, List.not_mem_nil, or_false] at hdq
        rcases hdq with rfl | rfl
        · rcases hdn with e | e
          · exact absurd e (n3 n hn _)
          · exact absurd e (n3 n hn _)
        · rcases hdn with e | e
          · rw [show n = m from (inj2 n m).1 e]
            exact hdf
          · exact absurd e h00
    have hT : TransformerLaw (g * muAt poles n) _ _ _ _ :=
      (h.trans hs hk rfl h0).elim (fun h => h.2.2) (fun h' => absurd cB (h.disj h'.2.1))
    obtain ⟨t1, t2⟩ := hT
    simp only [edgeA, edgeB] at t1 t2
    simp only [Part.Law, if_false, Bool.false_eq_true, reduceCtorEq, at_map _ _ hn, derW] at lD lS
    have b2 := bal2 n hn
    have h3 := h2 n hn
    obtain ⟨s1, s2⟩ := lS
    rw [s1, ← h3]
    constructor
    · linear_combination -(g * muAt poles n) * eA - t2 + eB - eS
    · have hFA : F ("y" ++ (label ++ "alpha" ++ n.repr) ++ "1") =
          (g * muAt poles n) ^ 2 * xiAt poles n * X ("x" ++ (label ++ "Q" ++ n.repr)) := by
        linear_combination t1 + (g * muAt poles n) * s2 - (g * muAt poles n) * b2
      have hES : E ("x" ++ (label ++ "Q" ++ n.repr)) = g * muAt poles n * (p (v n) - p (v (n + 1))) := by
        linear_combination (g * muAt poles n) * eA + t2 - eB + eS
      rw [hES, ← hFA]
      linear_combination -(g * muAt poles n) * lD + (g * muAt poles n) * eD
  refine ⟨⟨?_, ?_⟩, h1⟩
  · rw [← v0, ← vN, ← Finset.sum_range_sub' (fun n => p (v n))]
    have : (derfcPoles g poles).length = poles.length := by simp [derfcPoles]
    rw [this]
    refine Finset.sum_congr rfl fun n hn => ?_
    have h0 := hg n (mem_range.1 hn)
    beta_reduce
    rw [muAt_derfcPoles, ← (eqn n (mem_range.1 hn)).1]
    generalize g * muAt poles n = k at h0
    field_simp
  · intro n hn
    have hn' : n < poles.length := by simpa [derfcPoles] using hn
    have h0 := hg n hn'
    simp only
    rw [xiAt_derfcPoles, (eqn n hn').2]
    generalize g * muAt poles n = k at h0
    field_simp

end derfc

end Frac
end Pyphs
