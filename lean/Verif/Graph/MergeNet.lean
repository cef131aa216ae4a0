import Verif.Graph.MergeProps

/-!
# C45 in a network

Components in parallel (or in series) between two nodes are replaced by the merged component; the
other components see the same efforts and flows.
-/

namespace Pyphs
namespace Graph
variable {K : Type} [Field K]

/-- A component of a cluster: its edge, its direction in the cluster and its law. -/
structure Comp (K : Type) where
  edge : Edge K
  fwd : Bool
  law : K → K

/-- Ends of a component in the direction of the cluster. -/
def Comp.from (c : Comp K) : String := if c.fwd then c.edge.tail else c.edge.head
/-- See `Comp.from`. -/
def Comp.to (c : Comp K) : String := if c.fwd then c.edge.head else c.edge.tail

/-- Sign of the direction. -/
def Comp.dir (c : Comp K) : K := if c.fwd then 1 else -1

/-- A network: the components of `cs`, of control `fc`, and other edges `rest`, of any laws. -/
structure Solution (nodes : List String) (rest : List (Edge K)) (fc : Bool) (cs : List (Comp K))
    (E F : String → K) : Prop where
  balance : FlowBalance nodes (rest ++ cs.map Comp.edge) F
  potentials : FromPotentials (rest ++ cs.map Comp.edge) E
  laws : ∀ c ∈ cs, rel fc c.law (E c.edge.label) (F c.edge.label)

/-- Same values on the edges `rest`. -/
def SameOn (rest : List (Edge K)) (E E' : String → K) : Prop := ∀ d ∈ rest, E d.label = E' d.label

/-- All components join `a` to `b`. -/
def AllParallel (a b : String) (cs : List (Comp K)) : Prop := ∀ c ∈ cs, c.from = a ∧ c.to = b

/-- The components make a path from `a` to `b`, through the nodes `ns`. -/
def IsPath : String → List (Comp K) → List String → String → Prop
  | _, [], _, _ => False
  | a, [c], ns, b => c.from = a ∧ c.to = b ∧ ns = []
  | a, c :: d :: cs, ns, b => c.from = a ∧ ∃ ns', ns = c.to :: ns' ∧ IsPath c.to (d :: cs) ns' b

/-! ### Orientation -/

theorem Comp.dir_mul_self (c : Comp K) : c.dir * c.dir = 1 := by
  unfold Comp.dir; split <;> ring

theorem rel_orient (fc : Bool) (c : Comp K) (E F : K) :
    rel fc (orient c.fwd c.law) E F ↔ rel fc c.law (c.dir * E) (c.dir * F) := by
  unfold rel orient Comp.dir
  cases fc <;> cases c.fwd <;> simp [neg_eq_iff_eq_neg]

theorem sign_dir (c : Comp K) (v : String) (x : K) : (sign c.edge v : K) * x =
    ((if v = c.from then 1 else 0) - (if v = c.to then 1 else 0)) * (c.dir * x) := by
  unfold sign Comp.from Comp.to Comp.dir
  cases c.fwd <;> simp <;> ring

theorem potential_dir (c : Comp K) (p : String → K) (x : K) : x = p c.edge.tail - p c.edge.head ↔
    c.dir * x = p c.from - p c.to := by
  unfold Comp.from Comp.to Comp.dir
  cases c.fwd
  · simp only [Bool.false_eq_true, if_false]
    constructor
    · intro h; rw [h]; ring
    · intro h; linear_combination -h
  · simp

/-! ### Values by label -/

/-- A function with given values on a list of labels. -/
theorem exists_values (X : String → K) : ∀ {ls : List String} {xs : List K},
    ls.length = xs.length → ls.Nodup → ∃ X' : String → K, ls.map X' = xs ∧
      ∀ l, l ∉ ls → X' l = X l := by
  intro ls
  induction ls with
  | nil => intro xs h _; cases xs with
    | nil => exact ⟨X, rfl, fun _ _ => rfl⟩
    | cons x xs => simp at h
  | cons l ls ih =>
    intro xs h hn
    cases xs with
    | nil => simp at h
    | cons x xs =>
      obtain ⟨X', h1, h2⟩ := ih (by simpa using h) (List.nodup_cons.1 hn).2
      refine ⟨Function.update X' l x, ?_, ?_⟩
      · rw [List.map_cons, Function.update_self, ← h1]
        congr 1
        refine List.map_congr_left fun k hk => Function.update_of_ne ?_ _ _
        rintro rfl
        exact (List.nodup_cons.1 hn).1 hk
      · intro k hk
        rw [Function.update_of_ne (fun h => hk (by simp [h])), h2 k fun h => hk (by simp [h])]

/-- The labels of a network are distinct. -/
def FreshLabels (rest : List (Edge K)) (cs : List (Comp K)) : Prop :=
  (cs.map fun c => c.edge.label).Nodup ∧ ∀ c ∈ cs, ∀ d ∈ rest, c.edge.label ≠ d.label

/-- Values for the components of a cluster, given along its direction. -/
theorem exists_dir_values {rest : List (Edge K)} {cs : List (Comp K)} (hl : FreshLabels rest cs)
    (X : String → K) {xs : List K} (h : cs.length = xs.length) : ∃ X' : String → K,
    SameOn rest X X' ∧ (cs.map fun c => c.dir * X' c.edge.label) = xs := by
  obtain ⟨X', h1, h2⟩ := exists_values X (ls := cs.map fun c => c.edge.label)
    (xs := List.zipWith (fun c x => c.dir * x) cs xs) (by simp [h]) hl.1
  refine ⟨X', fun d hd => (h2 _ ?_).symm, ?_⟩
  · intro hm
    obtain ⟨c, hc, he⟩ := List.mem_map.1 hm
    exact hl.2 c hc d hd he
  · rw [List.map_map] at h1
    clear hl h2
    induction cs generalizing xs with
    | nil => cases xs with
      | nil => rfl
      | cons x xs => simp at h
    | cons c cs ih => cases xs with
      | nil => simp at h
      | cons x xs =>
        rw [List.map_cons, List.zipWith_cons_cons, List.cons.injEq] at h1
        rw [List.map_cons, ih (by simpa using h) h1.2]
        have : X' c.edge.label = c.dir * x := h1.1
        rw [this, ← mul_assoc, c.dir_mul_self, one_mul]

theorem forall₂_map_iff {α β : Type} (R : α → β → Prop) (f : α → β) (l : List α) :
    List.Forall₂ R l (l.map f) ↔ ∀ a ∈ l, R a (f a) := by
  induction l with
  | nil => simp
  | cons a l ih => simp [List.forall₂_cons, ih]

theorem balance_split {nodes : List String} {l : List (Edge K)} {cs : List (Comp K)}
    {F : String → K} : FlowBalance nodes (l ++ cs.map Comp.edge) F ↔ ∀ v ∈ nodes, v ≠ datum →
      (l.map fun d => (sign d v : K) * F d.label).sum +
      (cs.map fun c => ((if v = c.from then 1 else 0) - (if v = c.to then 1 else 0)) *
        (c.dir * F c.edge.label)).sum = 0 := by
  unfold FlowBalance
  have : ∀ v, (cs.map fun c => ((if v = c.from then 1 else 0) - (if v = c.to then 1 else 0)) *
        (c.dir * F c.edge.label)).sum =
      ((cs.map Comp.edge).map fun d => (sign d v : K) * F d.label).sum := by
    intro v
    rw [List.map_map]
    refine congrArg List.sum (List.map_congr_left fun c _ => ?_)
    exact (sign_dir c v _).symm
  simp only [this, List.map_append, List.sum_append]

theorem potentials_split {l : List (Edge K)} {cs : List (Comp K)} {E : String → K} :
    FromPotentials (l ++ cs.map Comp.edge) E ↔ ∃ p : String → K,
      (∀ d ∈ l, E d.label = p d.tail - p d.head) ∧
      ∀ c ∈ cs, c.dir * E c.edge.label = p c.from - p c.to := by
  unfold FromPotentials
  refine exists_congr fun p => ?_
  simp only [List.mem_append, List.mem_map]
  constructor
  · intro h
    exact ⟨fun d hd => h d (.inl hd), fun c hc => (potential_dir c p _).1 (h _ (.inr ⟨c, hc, rfl⟩))⟩
  · rintro ⟨h1, h2⟩ d (hd | ⟨c, hc, rfl⟩)
    · exact h1 d hd
    · exact (potential_dir c p _).2 (h2 c hc)

theorem sum_same {rest : List (Edge K)} {F F' : String → K} (h : SameOn rest F F') (v : String) :
    (rest.map fun d => (sign d v : K) * F d.label).sum =
    (rest.map fun d => (sign d v : K) * F' d.label).sum :=
  congrArg List.sum (List.map_congr_left fun d hd => by rw [h d hd])

/-! ### Parallel -/

theorem sum_parallel {a b : String} {cs : List (Comp K)} (h : AllParallel a b cs) (v : String)
    (F : String → K) :
    (cs.map fun c => ((if v = c.from then 1 else 0) - (if v = c.to then 1 else 0)) *
        (c.dir * F c.edge.label)).sum =
    ((if v = a then 1 else 0) - (if v = b then 1 else 0)) *
      (cs.map fun c => c.dir * F c.edge.label).sum := by
  rw [← List.sum_map_mul_left]
  refine congrArg List.sum (List.map_congr_left fun c hc => ?_)
  rw [(h c hc).1, (h c hc).2]

/-- C45. Components in parallel replaced by one of equivalent law, in any network: the edges
`rest` of the network have the same possible efforts and flows. -/
theorem parallel_network {nodes : List String} {rest : List (Edge K)} {fc : Bool}
    {cs : List (Comp K)} {m : Comp K} {a b : String} (hp : AllParallel a b cs)
    (hm : AllParallel a b [m]) (hl : FreshLabels rest cs) (hlm : FreshLabels rest [m])
    (hlaw : ∀ E F, ParBundle fc (cs.map fun c => orient c.fwd c.law) E F ↔
      rel fc (orient m.fwd m.law) E F) (E F : String → K) :
    (∃ E' F', SameOn rest E E' ∧ SameOn rest F F' ∧ Solution nodes rest fc cs E' F') ↔
    ∃ E' F', SameOn rest E E' ∧ SameOn rest F F' ∧ Solution nodes rest fc [m] E' F' := by
  have hbm := fun (v : String) (F : String → K) => sum_parallel hm v F
  constructor
  · rintro ⟨E', F', hE, hF, hb, hpot, hlw⟩
    rw [balance_split] at hb
    rw [potentials_split] at hpot
    obtain ⟨p, hp1, hp2⟩ := hpot
    obtain ⟨E2, hE2, hv⟩ := exists_dir_values hlm E' (xs := [p a - p b]) rfl
    obtain ⟨F2, hF2, hw⟩ := exists_dir_values hlm F'
      (xs := [(cs.map fun c => c.dir * F' c.edge.label).sum]) rfl
    refine ⟨E2, F2, fun d hd => (hE d hd).trans (hE2 d hd), fun d hd => (hF d hd).trans (hF2 d hd),
      ?_, ?_, ?_⟩
    · rw [balance_split]
      intro v h1 h2
      rw [hbm, hw, ← sum_same hF2, List.sum_singleton, ← sum_parallel hp]
      exact hb v h1 h2
    · rw [potentials_split]
      refine ⟨p, fun d hd => by rw [← hE2 d hd, hp1 d hd], ?_⟩
      intro c hc
      obtain rfl := List.mem_singleton.1 hc
      rw [(hm _ hc).1, (hm _ hc).2]
      simpa using hv
    · intro c hc
      obtain rfl := List.mem_singleton.1 hc
      have hv' : c.dir * E2 c.edge.label = p a - p b := by simpa using hv
      have hw' : c.dir * F2 c.edge.label = (cs.map fun c => c.dir * F' c.edge.label).sum := by
        simpa using hw
      have := (hlaw (p a - p b) (cs.map fun c => c.dir * F' c.edge.label).sum).1
        ⟨cs.map fun c => c.dir * F' c.edge.label, ?_, rfl⟩
      · rw [rel_orient, ← hv', ← hw', ← mul_assoc, ← mul_assoc, c.dir_mul_self, one_mul,
          one_mul] at this
        exact this
      · rw [List.forall₂_map_left_iff, forall₂_map_iff]
        intro d hd
        rw [rel_orient]
        have h3 := hp2 d hd
        rw [(hp d hd).1, (hp d hd).2] at h3
        rw [← h3, ← mul_assoc, ← mul_assoc, d.dir_mul_self, one_mul, one_mul]
        exact hlw d hd
  · rintro ⟨E', F', hE, hF, hb, hpot, hlw⟩
    rw [balance_split] at hb
    rw [potentials_split] at hpot
    obtain ⟨p, hp1, hp2⟩ := hpot
    have hpm := hp2 m (by simp)
    rw [(hm m (by simp)).1, (hm m (by simp)).2] at hpm
    have h1 : rel fc (orient m.fwd m.law) (p a - p b) (m.dir * F' m.edge.label) := by
      rw [rel_orient, ← hpm, ← mul_assoc, ← mul_assoc, m.dir_mul_self, one_mul, one_mul]
      exact hlw m (by simp)
    obtain ⟨Fs, hFs, hsum⟩ := (hlaw _ _).2 h1
    have hlen : cs.length = Fs.length := by simpa using hFs.length_eq
    obtain ⟨E2, hE2, hv⟩ := exists_dir_values hl E' (xs := cs.map fun _ => p a - p b) (by simp)
    obtain ⟨F2, hF2, hw⟩ := exists_dir_values hl F' hlen
    rw [← hw, List.forall₂_map_left_iff, forall₂_map_iff] at hFs
    rw [List.map_inj_left] at hv
    refine ⟨E2, F2, fun d hd => (hE d hd).trans (hE2 d hd), fun d hd => (hF d hd).trans (hF2 d hd),
      ?_, ?_, ?_⟩
    · rw [balance_split]
      intro v h1 h2
      rw [sum_parallel hp, hw, hsum, ← sum_same hF2]
      have := hb v h1 h2
      rw [hbm] at this
      simpa using this
    · rw [potentials_split]
      refine ⟨p, fun d hd => by rw [← hE2 d hd, hp1 d hd], ?_⟩
      intro c hc
      rw [(hp c hc).1, (hp c hc).2]
      exact hv c hc
    · intro c hc
      have := hFs c hc
      rw [rel_orient, ← hv c hc, ← mul_assoc, ← mul_assoc, c.dir_mul_self, one_mul,
        one_mul] at this
      exact this

/-! ### Series -/

theorem path_ne_nil {a b : String} {ns : List String} : ∀ {cs : List (Comp K)},
    IsPath a cs ns b → cs ≠ [] := by
  intro cs h; cases cs with
  | nil => exact h.elim
  | cons => simp

/-- Ends of the components of a path. -/
theorem path_ends : ∀ {cs : List (Comp K)} {a b : String} {ns : List String},
    IsPath a cs ns b → ∀ c ∈ cs, (c.from = a ∨ c.from ∈ ns) ∧ (c.to = b ∨ c.to ∈ ns) := by
  intro cs
  induction cs with
  | nil => intro a b ns h; exact h.elim
  | cons c cs ih =>
    intro a b ns h
    cases cs with
    | nil =>
      intro d hd
      obtain rfl := List.mem_singleton.1 hd
      exact ⟨.inl h.1, .inl h.2.1⟩
    | cons d cs =>
      obtain ⟨h1, ns', rfl, h2⟩ := h
      intro x hx
      rcases List.mem_cons.1 hx with rfl | hx
      · exact ⟨.inl h1, .inr (by simp)⟩
      · obtain ⟨h3, h4⟩ := ih h2 x hx
        refine ⟨.inr ?_, h4.imp id fun h => by simp [h]⟩
        rcases h3 with h3 | h3
        · simp [h3]
        · simp [h3]

/-- Contribution of a path to the balance of a node, for a common flow. -/
theorem sum_path (v : String) (g : K) : ∀ {cs : List (Comp K)} {a b : String} {ns : List String},
    IsPath a cs ns b → (cs.map fun c => ((if v = c.from then 1 else 0) -
      (if v = c.to then 1 else 0)) * g).sum =
      ((if v = a then 1 else 0) - (if v = b then 1 else 0)) * g := by
  intro cs
  induction cs with
  | nil => intro a b ns h; exact h.elim
  | cons c cs ih =>
    intro a b ns h
    cases cs with
    | nil => rw [List.map_singleton, List.sum_singleton, h.1, h.2.1]
    | cons d cs =>
      obtain ⟨h1, ns', rfl, h2⟩ := h
      rw [List.map_cons, List.sum_cons, ih h2, h1]; ring

/-- Balance at the inner nodes of a path is equality of the flows. -/
theorem path_flow (f : Comp K → K) : ∀ {cs : List (Comp K)} {c : Comp K} {a b : String}
    {ns : List String}, IsPath a (c :: cs) ns b → (a :: ns).Nodup → b ∉ ns →
    (∀ v ∈ ns, ((c :: cs).map fun c => ((if v = c.from then 1 else 0) -
      (if v = c.to then 1 else 0)) * f c).sum = 0) → ∀ d ∈ cs, f d = f c := by
  intro cs
  induction cs with
  | nil => simp
  | cons d cs ih =>
    intro c a b ns h hn hb hbal
    obtain ⟨h1, ns', rfl, h2⟩ := h
    have hn1 := List.nodup_cons.1 hn
    have hn2 := List.nodup_cons.1 hn1.2
    have hb' : b ≠ c.to ∧ b ∉ ns' := by simpa [not_or] using hb
    have hzero : ∀ v, v = c.to → (cs.map fun c => ((if v = c.from then (1:K) else 0) -
      (if v = c.to then 1 else 0)) * f c).sum = 0 := by
      intro v hv
      have : ∀ x ∈ cs, ((if v = x.from then (1:K) else 0) - (if v = x.to then 1 else 0)) * f x
          = 0 := by
        intro x hx
        obtain ⟨-, hto⟩ := path_ends h2 x (by simp [hx])
        have hfrom : x.from ∈ ns' := by
          cases cs with
          | nil => simp at hx
          | cons y ys =>
            obtain ⟨-, ns'', rfl, h3⟩ := h2
            obtain ⟨h4, -⟩ := path_ends h3 x hx
            rcases h4 with h4 | h4
            · simp [h4]
            · simp [h4]
        have e1 : v ≠ x.from := by rw [hv]; intro h; exact hn2.1 (h ▸ hfrom)
        have e2 : v ≠ x.to := by
          rw [hv]; intro h
          rcases hto with hto | hto
          · exact hb'.1 (by rw [← hto, ← h])
          · exact hn2.1 (h ▸ hto)
        rw [if_neg e1, if_neg e2]; ring
      rw [List.map_congr_left this]
      simp
    have hdfrom : d.from = c.to := by
      cases cs with
      | nil => exact h2.1
      | cons => exact h2.1
    have hdto : c.to ≠ d.to := by
      intro he
      obtain ⟨-, hto⟩ := path_ends h2 d (by simp)
      rcases hto with hto | hto
      · exact hb'.1 (by rw [← hto, ← he])
      · exact hn2.1 (he ▸ hto)
    have hac : c.to ≠ a := fun h => hn1.1 (by simp [h])
    have hdc : f d = f c := by
      have := hbal c.to (by simp)
      rw [List.map_cons, List.map_cons, List.sum_cons, List.sum_cons, hzero c.to rfl, h1,
        hdfrom, if_neg hac, if_pos rfl, if_neg hdto] at this
      linear_combination this
    have hrest := ih h2 hn1.2 hb'.2 (by
      intro v hv
      have := hbal v (by simp [hv])
      rw [List.map_cons, List.sum_cons] at this
      have e1 : v ≠ c.from := by rw [h1]; rintro rfl; exact hn1.1 (by simp [hv])
      have e2 : v ≠ c.to := by rintro rfl; exact hn2.1 hv
      rw [if_neg e1, if_neg e2] at this
      simpa using this)
    intro x hx
    rcases List.mem_cons.1 hx with rfl | hx
    · exact hdc
    · rw [hrest x hx, hdc]

theorem path_drop (p : String → K) : ∀ {cs : List (Comp K)} {a b : String} {ns : List String},
    IsPath a cs ns b → (cs.map fun c => p c.from - p c.to).sum = p a - p b := by
  intro cs
  induction cs with
  | nil => intro a b ns h; exact h.elim
  | cons c cs ih =>
    intro a b ns h
    cases cs with
    | nil => rw [List.map_singleton, List.sum_singleton, h.1, h.2.1]
    | cons d cs =>
      obtain ⟨h1, ns', rfl, h2⟩ := h
      rw [List.map_cons, List.sum_cons, ih h2, h1]; ring

/-- Potentials of the inner nodes of a path. -/
theorem path_potentials (f : Comp K → K) : ∀ {cs : List (Comp K)} {a b : String} {ns : List String}
    (p : String → K), IsPath a cs ns b → (a :: ns).Nodup → b ∉ ns →
    (cs.map f).sum = p a - p b → ∃ p' : String → K, (∀ v, v ∉ ns → p' v = p v) ∧
      ∀ c ∈ cs, f c = p' c.from - p' c.to := by
  intro cs
  induction cs with
  | nil => intro a b ns p h; exact h.elim
  | cons c cs ih =>
    intro a b ns p h hn hb hsum
    cases cs with
    | nil =>
      refine ⟨p, fun _ _ => rfl, ?_⟩
      intro d hd
      obtain rfl := List.mem_singleton.1 hd
      rw [h.1, h.2.1, ← hsum]; simp
    | cons d cs =>
      obtain ⟨h1, ns', rfl, h2⟩ := h
      have hn1 := List.nodup_cons.1 hn
      have hn2 := List.nodup_cons.1 hn1.2
      have hb' : b ≠ c.to ∧ b ∉ ns' := by simpa [not_or] using hb
      have hac : a ≠ c.to := fun h => hn1.1 (by simp [h])
      obtain ⟨p', h3, h4⟩ := ih (Function.update p c.to (p a - f c)) h2 hn1.2 hb'.2 (by
        rw [Function.update_self, Function.update_of_ne hb'.1]
        rw [List.map_cons, List.sum_cons] at hsum
        linear_combination hsum)
      refine ⟨p', ?_, ?_⟩
      · intro v hv
        have hv' : v ≠ c.to ∧ v ∉ ns' := by simpa [not_or] using hv
        rw [h3 v hv'.2, Function.update_of_ne hv'.1]
      · intro x hx
        rcases List.mem_cons.1 hx with rfl | hx
        · rw [h1, h3 a (fun h => hn1.1 (by simp [h])), h3 x.to hn2.1, Function.update_self,
            Function.update_of_ne hac]; ring
        · exact h4 x hx

/-- C45. Components in series replaced by one of equivalent law; the inner nodes `ns` of the path
carry no other edge, and are not nodes of the merged network. -/
theorem serial_network {nodes ns nodes' : List String} {rest : List (Edge K)} {fc : Bool}
    {cs : List (Comp K)} {m : Comp K} {a b : String} (hp : IsPath a cs ns b)
    (hm : AllParallel a b [m]) (hl : FreshLabels rest cs) (hlm : FreshLabels rest [m])
    (hn : (a :: ns).Nodup) (hb : b ∉ ns) (hns : ∀ v ∈ ns, v ∈ nodes ∧ v ≠ datum)
    (hnodes : ∀ v, v ∈ nodes' ↔ v ∈ nodes ∧ v ∉ ns)
    (hrest : ∀ d ∈ rest, d.tail ∉ ns ∧ d.head ∉ ns)
    (hlaw : ∀ E F, SerBundle fc (cs.map fun c => orient c.fwd c.law) E F ↔
      rel fc (orient m.fwd m.law) E F) (E F : String → K) :
    (∃ E' F', SameOn rest E E' ∧ SameOn rest F F' ∧ Solution nodes rest fc cs E' F') ↔
    ∃ E' F', SameOn rest E E' ∧ SameOn rest F F' ∧ Solution nodes' rest fc [m] E' F' := by
  have hbm := fun (v : String) (F : String → K) => sum_parallel hm v F
  have hr0 : ∀ (F : String → K), ∀ v ∈ ns,
      (rest.map fun d => (sign d v : K) * F d.label).sum = 0 := by
    intro F v hv
    have : ∀ d ∈ rest, (sign d v : K) * F d.label = 0 := by
      intro d hd
      have h1 : v ≠ d.tail := fun h => (hrest d hd).1 (h ▸ hv)
      have h2 : v ≠ d.head := fun h => (hrest d hd).2 (h ▸ hv)
      unfold sign
      rw [if_neg h1, if_neg h2]; simp
    rw [List.map_congr_left this]; simp
  constructor
  · rintro ⟨E', F', hE, hF, hbal, hpot, hlw⟩
    rw [balance_split] at hbal
    rw [potentials_split] at hpot
    obtain ⟨p, hp1, hp2⟩ := hpot
    obtain ⟨c0, cs', rfl⟩ := List.exists_cons_of_ne_nil (path_ne_nil hp)
    have hflow : ∀ d ∈ c0 :: cs', d.dir * F' d.edge.label = c0.dir * F' c0.edge.label := by
      intro d hd
      rcases List.mem_cons.1 hd with rfl | hd
      · rfl
      · refine path_flow (fun c => c.dir * F' c.edge.label) hp hn hb ?_ d hd
        intro v hv
        have := hbal v (hns v hv).1 (hns v hv).2
        rw [hr0 F' v hv, zero_add] at this
        exact this
    have hsums : ∀ v, ((c0 :: cs').map fun c => ((if v = c.from then 1 else 0) -
        (if v = c.to then 1 else 0)) * (c.dir * F' c.edge.label)).sum =
        ((if v = a then 1 else 0) - (if v = b then 1 else 0)) *
          (c0.dir * F' c0.edge.label) := by
      intro v
      rw [← sum_path v _ hp]
      exact congrArg List.sum (List.map_congr_left fun c hc => by rw [hflow c hc])
    obtain ⟨E2, hE2, hv⟩ := exists_dir_values hlm E' (xs := [p a - p b]) rfl
    obtain ⟨F2, hF2, hw⟩ := exists_dir_values hlm F' (xs := [c0.dir * F' c0.edge.label]) rfl
    refine ⟨E2, F2, fun d hd => (hE d hd).trans (hE2 d hd), fun d hd => (hF d hd).trans (hF2 d hd),
      ?_, ?_, ?_⟩
    · rw [balance_split]
      intro v h1 h2
      rw [hbm, hw, ← sum_same hF2, List.sum_singleton, ← hsums]
      exact hbal v ((hnodes v).1 h1).1 h2
    · rw [potentials_split]
      refine ⟨p, fun d hd => by rw [← hE2 d hd, hp1 d hd], ?_⟩
      intro c hc
      obtain rfl := List.mem_singleton.1 hc
      rw [(hm _ hc).1, (hm _ hc).2]
      simpa using hv
    · intro c hc
      obtain rfl := List.mem_singleton.1 hc
      have hv' : c.dir * E2 c.edge.label = p a - p b := by simpa using hv
      have hw' : c.dir * F2 c.edge.label = c0.dir * F' c0.edge.label := by simpa using hw
      have := (hlaw (p a - p b) (c0.dir * F' c0.edge.label)).1
        ⟨(c0 :: cs').map fun c => c.dir * E' c.edge.label, ?_, ?_⟩
      · rw [rel_orient, ← hv', ← hw', ← mul_assoc, ← mul_assoc, c.dir_mul_self, one_mul,
          one_mul] at this
        exact this
      · rw [List.forall₂_map_left_iff, forall₂_map_iff]
        intro d hd
        rw [rel_orient, ← hflow d hd, ← mul_assoc, ← mul_assoc, d.dir_mul_self, one_mul, one_mul]
        exact hlw d hd
      · rw [← path_drop p hp]
        exact congrArg List.sum (List.map_congr_left hp2)
  · rintro ⟨E', F', hE, hF, hbal, hpot, hlw⟩
    rw [balance_split] at hbal
    rw [potentials_split] at hpot
    obtain ⟨p, hp1, hp2⟩ := hpot
    have hpm := hp2 m (by simp)
    rw [(hm m (by simp)).1, (hm m (by simp)).2] at hpm
    have h1 : rel fc (orient m.fwd m.law) (p a - p b) (m.dir * F' m.edge.label) := by
      rw [rel_orient, ← hpm, ← mul_assoc, ← mul_assoc, m.dir_mul_self, one_mul, one_mul]
      exact hlw m (by simp)
    obtain ⟨Es, hEs, hsum⟩ := (hlaw _ _).2 h1
    have hlen : cs.length = Es.length := by simpa using hEs.length_eq
    obtain ⟨F2, hF2, hv⟩ := exists_dir_values hl F' (xs := cs.map fun _ => m.dir * F' m.edge.label)
      (by simp)
    obtain ⟨E2, hE2, hw⟩ := exists_dir_values hl E' hlen
    rw [← hw, List.forall₂_map_left_iff, forall₂_map_iff] at hEs
    rw [List.map_inj_left] at hv
    obtain ⟨p', hp3, hp4⟩ := path_potentials (fun c => c.dir * E2 c.edge.label) p hp hn hb
      (by rw [hw, hsum])
    have hsums : ∀ v, (cs.map fun c => ((if v = c.from then 1 else 0) -
        (if v = c.to then 1 else 0)) * (c.dir * F2 c.edge.label)).sum =
        ((if v = a then 1 else 0) - (if v = b then 1 else 0)) *
          (m.dir * F' m.edge.label) := by
      intro v
      rw [← sum_path v _ hp]
      exact congrArg List.sum (List.map_congr_left fun c hc => by rw [hv c hc])
    refine ⟨E2, F2, fun d hd => (hE d hd).trans (hE2 d hd), fun d hd => (hF d hd).trans (hF2 d hd),
      ?_, ?_, ?_⟩
    · rw [balance_split]
      intro v h1 h2
      rw [hsums, ← sum_same hF2]
      by_cases hvn : v ∈ ns
      · rw [hr0 F' v hvn]
        have e1 : v ≠ a := by rintro rfl; exact (List.nodup_cons.1 hn).1 hvn
        have e2 : v ≠ b := by rintro rfl; exact hb hvn
        rw [if_neg e1, if_neg e2]; ring
      · have := hbal v ((hnodes v).2 ⟨h1, hvn⟩) h2
        rw [hbm] at this
        simpa using this
    · rw [potentials_split]
      refine ⟨p', fun d hd => ?_, hp4⟩
      rw [← hE2 d hd, hp1 d hd, hp3 _ (hrest d hd).1, hp3 _ (hrest d hd).2]
    · intro c hc
      have := hEs c hc
      rw [rel_orient, ← hv c hc, ← mul_assoc, ← mul_assoc, c.dir_mul_self, one_mul,
        one_mul] at this
      exact this

/-! ### The merging functions -/

/-- The merged component, from `a` to `b`. -/
def merged (a b label : String) (Z : K → K) (d : Edge K) : Comp K :=
  ⟨{ d with tail := a, head := b, label := label }, true, Z⟩

omit [Field K] in
theorem merged_parallel (a b label : String) (Z : K → K) (d : Edge K) :
    AllParallel a b [merged a b label Z d] := by
  intro c hc
  obtain rfl := List.mem_singleton.1 hc
  exact ⟨rfl, rfl⟩

/-- Labels of the merged component. -/
theorem merged_fresh {rest : List (Edge K)} {label : String} (h : ∀ d ∈ rest, label ≠ d.label)
    (a b : String) (Z : K → K) (d : Edge K) : FreshLabels rest [merged a b label Z d] := by
  refine ⟨by simp, ?_⟩
  intro c hc
  obtain rfl := List.mem_singleton.1 hc
  exact h

section merge
variable [LinearOrder K] [IsStrictOrderedRing K]

theorem strictMono_orient (o : Bool) {f : K → K} (h : StrictMono f) : StrictMono (orient o f) := by
  cases o
  · intro a b hab
    exact neg_lt_neg (h (neg_lt_neg hab))
  · exact h

/-- C45. Flux-controlled dissipations of increasing laws in parallel (`merge_arc_dissipatives`). -/
theorem C45_network_parallel_nonreal {solve : Solver K} (hs : solve.Sound) {nodes : List String}
    {rest : List (Edge K)} {cs : List (Comp K)} {a b label : String} {Z : K → K}
    (hp : AllParallel a b cs) (hl : FreshLabels rest cs) (hlab : ∀ d ∈ rest, label ≠ d.label)
    (hz : ∀ c ∈ cs, StrictMono c.law)
    (h : nonrealDiss solve (cs.map fun c => orient c.fwd c.law) = some Z) (d : Edge K)
    (E F : String → K) :
    (∃ E' F', SameOn rest E E' ∧ SameOn rest F F' ∧ Solution nodes rest true cs E' F') ↔
    ∃ E' F', SameOn rest E E' ∧ SameOn rest F F' ∧
      Solution nodes rest true [merged a b label Z d] E' F' := by
  refine parallel_network hp (merged_parallel a b label Z d) hl (merged_fresh hlab a b Z d) ?_ E F
  refine C45_parallel_nonreal hs ?_ h
  intro z hzm
  obtain ⟨c, hc, rfl⟩ := List.mem_map.1 hzm
  exact strictMono_orient _ (hz c hc)

/-- C45. Effort-controlled dissipations of increasing laws in series. -/
theorem C45_network_serial_nonreal {solve : Solver K} (hs : solve.Sound)
    {nodes ns nodes' : List String}
    {rest : List (Edge K)} {cs : List (Comp K)} {a b label : String} {Z : K → K}
    (hp : IsPath a cs ns b) (hl : FreshLabels rest cs) (hlab : ∀ d ∈ rest, label ≠ d.label)
    (hn : (a :: ns).Nodup) (hb : b ∉ ns) (hns : ∀ v ∈ ns, v ∈ nodes ∧ v ≠ datum)
    (hnodes : ∀ v, v ∈ nodes' ↔ v ∈ nodes ∧ v ∉ ns)
    (hrest : ∀ d ∈ rest, d.tail ∉ ns ∧ d.head ∉ ns)
    (hz : ∀ c ∈ cs, StrictMono c.law)
    (h : nonrealDiss solve (cs.map fun c => orient c.fwd c.law) = some Z) (d : Edge K)
    (E F : String → K) :
    (∃ E' F', SameOn rest E E' ∧ SameOn rest F F' ∧ Solution nodes rest false cs E' F') ↔
    ∃ E' F', SameOn rest E E' ∧ SameOn rest F F' ∧
      Solution nodes' rest false [merged a b label Z d] E' F' := by
  refine serial_network hp (merged_parallel a b label Z d) hl (merged_fresh hlab a b Z d) hn hb hns
    hnodes hrest ?_ E F
  refine C45_serial_nonreal hs ?_ h
  intro z hzm
  obtain ⟨c, hc, rfl⟩ := List.mem_map.1 hzm
  exact strictMono_orient _ (hz c hc)

end merge

/-- C45. Effort-controlled dissipations in parallel, of any laws (`merge_rc_dissipatives`). -/
theorem C45_network_parallel_real {nodes : List String}
    {rest : List (Edge K)} {cs : List (Comp K)} {a b label : String}
    (hp : AllParallel a b cs) (hl : FreshLabels rest cs) (hlab : ∀ d ∈ rest, label ≠ d.label)
    (d : Edge K) (E F : String → K) :
    (∃ E' F', SameOn rest E E' ∧ SameOn rest F F' ∧ Solution nodes rest false cs E' F') ↔
    ∃ E' F', SameOn rest E E' ∧ SameOn rest F F' ∧ Solution nodes rest false
      [merged a b label (realDiss (cs.map fun c => orient c.fwd c.law)) d] E' F' :=
  parallel_network hp (merged_parallel a b label _ d) hl (merged_fresh hlab a b _ d)
    (C45_parallel_real _) E F

/-- C45. Flux-controlled dissipations in series, of any laws. -/
theorem C45_network_serial_real {nodes ns nodes' : List String}
    {rest : List (Edge K)} {cs : List (Comp K)} {a b label : String}
    (hp : IsPath a cs ns b) (hl : FreshLabels rest cs) (hlab : ∀ d ∈ rest, label ≠ d.label)
    (hn : (a :: ns).Nodup) (hb : b ∉ ns) (hns : ∀ v ∈ ns, v ∈ nodes ∧ v ≠ datum)
    (hnodes : ∀ v, v ∈ nodes' ↔ v ∈ nodes ∧ v ∉ ns)
    (hrest : ∀ d ∈ rest, d.tail ∉ ns ∧ d.head ∉ ns) (d : Edge K) (E F : String → K) :
    (∃ E' F', SameOn rest E E' ∧ SameOn rest F F' ∧ Solution nodes rest true cs E' F') ↔
    ∃ E' F', SameOn rest E E' ∧ SameOn rest F F' ∧ Solution nodes' rest true
      [merged a b label (realDiss (cs.map fun c => orient c.fwd c.law)) d] E' F' :=
  serial_network hp (merged_parallel a b label _ d) hl (merged_fresh hlab a b _ d) hn hb hns
    hnodes hrest (C45_serial_real _) E F

/-! ### Examples -/

/-- An edge of an example. -/
def exEdge (t h l : String) : Edge ℚ :=
  { tail := t, head := h, label := l, type := .dissipative, ctrl := .unknown, link := none,
    ctype := .gyrator, alpha := none, ze := "", zf := "" }

/-- A solver for linear laws. -/
noncomputable def linSolve : Solver ℚ := by
  classical exact fun f => if f 1 ≠ 0 ∧ f = (fun v => f 1 * v) then some (fun y => (f 1)⁻¹ * y)
    else none

theorem linSolve_sound : linSolve.Sound := by
  intro f g h y
  unfold linSolve at h
  split at h
  · rename_i hf
    cases h
    have := congrFun hf.2 ((f 1)⁻¹ * y)
    exact this.trans (mul_inv_cancel_left₀ hf.1 y)
  · simp at h

theorem linSolve_mul {r : ℚ} (h : r ≠ 0) :
    linSolve (fun v => r * v) = some fun y => r⁻¹ * y := by
  unfold linSolve
  rw [if_pos]
  · simp
  · simpa using h

/-- Resistors of 2 and 3, the second one reversed. -/
def exComps : List (Comp ℚ) :=
  [⟨exEdge "A" "B" "wR1", true, fun v => 2 * v⟩, ⟨exEdge "B" "A" "wR2", false, fun v => 3 * v⟩]

/-- Merged in parallel: 6/5. -/
theorem exComps_merge : nonrealDiss linSolve (exComps.map fun c => orient c.fwd c.law) =
    some fun W => (6 / 5 : ℚ) * W := by
  have e : (exComps.map fun c => orient c.fwd c.law) = [2, 3].map fun (r : ℚ) v => r * v := by
    simp [exComps, orient]
  rw [e]
  unfold nonrealDiss
  rw [List.map_cons, List.map_cons, List.map_nil, List.mapM_cons, List.mapM_cons, List.mapM_nil,
    linSolve_mul (by norm_num), linSolve_mul (by norm_num)]
  show linSolve (total ([2⁻¹, 3⁻¹].map fun (r : ℚ) v => r * v)) = _
  rw [linear_total, linSolve_mul (by norm_num)]
  norm_num

example (E F : String → ℚ) := C45_network_parallel_nonreal linSolve_sound (nodes := ["A", "B", "#"])
  (rest := [exEdge "#" "A" "u", exEdge "B" "#" "xL"]) (a := "A") (b := "B") (label := "wR1R2")
  (cs := exComps) (by unfold AllParallel; decide) (by unfold FreshLabels; decide) (by decide)
  (by
    intro c hc
    simp only [exComps, List.mem_cons, List.not_mem_nil, or_false] at hc
    rcases hc with rfl | rfl
    · intro a b h; show 2 * a < 2 * b; linarith
    · intro a b h; show 3 * a < 3 * b; linarith)
  exComps_merge (exEdge "A" "B" "wR1") E F

/-- The same resistors in series through the node `N`. -/
def exChain : List (Comp ℚ) :=
  [⟨exEdge "A" "N" "wR1", true, fun v => 2 * v⟩, ⟨exEdge "B" "N" "wR2", false, fun v => 3 * v⟩]

example (E F : String → ℚ) := C45_network_serial_real (nodes := ["A", "N", "B", "#"])
  (nodes' := ["A", "B", "#"]) (ns := ["N"])
  (rest := [exEdge "#" "A" "u", exEdge "B" "#" "xL"]) (a := "A") (b := "B") (label := "wR1R2")
  (cs := exChain) ⟨rfl, [], rfl, rfl, rfl, rfl⟩ (by unfold FreshLabels; decide)
  (by decide) (by decide) (by decide) (by decide)
  (by intro v; simp only [List.mem_cons, List.not_mem_nil, or_false]; constructor
      · rintro (rfl | rfl | rfl) <;> decide
      · rintro ⟨rfl | rfl | rfl | rfl, h⟩ <;> simp_all)
  (by decide) (exEdge "A" "B" "wR1") E F

end Graph
end Pyphs
