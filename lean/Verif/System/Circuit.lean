/-
The graph of a netlist is a circuit of linear components, and its equations are those of the netlist.
-/
import Verif.System.Assemble

namespace Pyphs
namespace System
open Scheme Core Graph Params Circuit

/-! ### Names -/

/-- The name of the branch of an edge. -/
def strip (l : String) : String := String.ofList (l.toList.drop 1)

theorem strip_x (i : String) : strip ("x" ++ i) = i := by simp [strip, String.toList_append]
theorem strip_w (i : String) : strip ("w" ++ i) = i := by simp [strip, String.toList_append]
theorem strip_y (i : String) : strip ("y" ++ i) = i := by simp [strip, String.toList_append]

theorem devEdges_ids (d : Device) : (devEdges d).map (fun q => strip q.label) = d.branches.map (·.id) := by
  cases d <;> simp [devEdges, Device.branches, strip_x, strip_w, strip_y]

theorem edges_ids (ds : List Device) :
    (ds.flatMap devEdges).map (fun q => strip q.label) = (ds.flatMap Device.branches).map (·.id) := by
  rw [List.map_flatMap, List.map_flatMap]
  exact List.flatMap_congr fun d _ => devEdges_ids d

/-- A branch belongs to one component. -/
theorem same_device {α β : Type} {L : List α} {f : α → List β} (h : (L.flatMap f).Nodup) {x y : α} {a : β}
    (hx : x ∈ L) (hy : y ∈ L) (ha : a ∈ f x) (hb : a ∈ f y) : x = y := by
  induction L with
  | nil => cases hx
  | cons z L ih =>
    rw [List.flatMap_cons, List.nodup_append] at h
    rcases List.mem_cons.1 hx with rfl | hx' <;> rcases List.mem_cons.1 hy with rfl | hy'
    · rfl
    · exact absurd rfl (h.2.2 a ha a (List.mem_flatMap.2 ⟨y, hy', hb⟩))
    · exact absurd rfl (h.2.2 a hb a (List.mem_flatMap.2 ⟨x, hx', ha⟩))
    · exact ih h.2.1 hx' hy'

theorem sub_flatMap {α β : Type} (L : List α) {f g : α → List β} (h : ∀ x, List.Sublist (f x) (g x)) :
    List.Sublist (L.flatMap f) (L.flatMap g) := by
  induction L with
  | nil => exact List.Sublist.refl _
  | cons x L ih => exact (h x).append ih

variable {ds : List Device}

/-- The names of the branches are distinct. -/
def Distinct (ds : List Device) : Prop := ((ds.flatMap Device.branches).map (·.id)).Nodup

theorem Distinct.flat (h : Distinct ds) : (ds.flatMap fun d => d.branches.map (·.id)).Nodup := by
  unfold Distinct at h
  rwa [List.map_flatMap] at h

theorem Distinct.same (h : Distinct ds) {x y : Device} {a b : Branch} (hx : x ∈ ds) (hy : y ∈ ds)
    (ha : a ∈ x.branches) (hb : b ∈ y.branches) (hi : a.id = b.id) : x = y :=
  same_device h.flat hx hy (List.mem_map_of_mem ha) (by rw [hi]; exact List.mem_map_of_mem hb)

theorem Distinct.labels (h : Distinct ds) : ((ds.flatMap devEdges).map (·.label)).Nodup := by
  unfold Distinct at h
  rw [← edges_ids] at h
  have : (ds.flatMap devEdges).map (fun q => strip q.label) =
      ((ds.flatMap devEdges).map (·.label)).map strip := by rw [List.map_map]; rfl
  rw [this] at h
  exact h.of_map _

theorem Distinct.ports (h : Distinct ds) : ((ds.flatMap devPorts).map (·.id)).Nodup := by
  refine List.Nodup.sublist ?_ h
  refine List.Sublist.map _ (sub_flatMap _ fun d => ?_)
  cases d <;> simp [devPorts, Device.branches]

theorem Distinct.conns (h : Distinct ds) :
    ((ds.flatMap devConns).flatMap fun q => [q.1.id, q.2.1.id]).Nodup := by
  refine List.Nodup.sublist ?_ h.flat
  rw [List.flatMap_assoc]
  refine sub_flatMap _ fun d => ?_
  cases d <;> simp [devConns, Device.branches]

theorem Distinct.resistances (h : Distinct ds) : ((resistances ds).map (·.1)).Nodup := by
  refine List.Nodup.sublist ?_ h
  clear h
  induction ds with
  | nil => exact List.Sublist.refl _
  | cons d ds ih =>
    rw [List.flatMap_cons, List.map_append]
    cases d with
    | resistance b r => exact List.Sublist.cons_cons _ ih
    | _ => exact ih.trans (List.sublist_append_right _ _)

theorem mem_resistances {b : Branch} {r : ℝ} (h : .resistance b r ∈ ds) : (b.id, r) ∈ resistances ds := by
  induction ds with
  | nil => cases h
  | cons d ds ih =>
    rcases List.mem_cons.1 h with rfl | h'
    · exact List.mem_cons_self
    · cases d with
      | resistance b r => exact List.mem_cons_of_mem _ (ih h')
      | _ => exact ih h'

/-- The prefix of the labels of the edges of a component. -/
def pfx : Device → String
  | .fluxStorage .. => "x"
  | .effortStorage .. => "x"
  | .resistance .. => "w"
  | _ => "y"

def deviceOf (ds : List Device) (i : String) : Option Device :=
  ds.find? fun d => i ∈ d.branches.map (·.id)

theorem deviceOf_eq (h : Distinct ds) {d : Device} {b : Branch} (hd : d ∈ ds) (hb : b ∈ d.branches) :
    deviceOf ds b.id = some d := by
  unfold deviceOf
  cases hf : ds.find? fun d => b.id ∈ d.branches.map (·.id) with
  | none =>
    have := List.find?_eq_none.1 hf d hd
    simp only [decide_eq_true_eq] at this
    exact absurd (List.mem_map_of_mem hb) this
  | some d' =>
    have h1 := List.mem_of_find?_eq_some hf
    have h2 := List.find?_some hf
    simp only [decide_eq_true_eq] at h2
    rw [same_device h.flat h1 hd h2 (List.mem_map_of_mem hb)]

/-- The label of the edge of a branch. -/
def labelOf (ds : List Device) (i : String) : String :=
  ((deviceOf ds i).map pfx).getD "" ++ i

theorem labelOf_eq (h : Distinct ds) {d : Device} {b : Branch} (hd : d ∈ ds) (hb : b ∈ d.branches) :
    labelOf ds b.id = pfx d ++ b.id := by
  unfold labelOf
  rw [deviceOf_eq h hd hb]; rfl

/-- The coefficient of a component. -/
def coefficientOf : Device → ℝ
  | .fluxStorage _ k => k
  | .effortStorage _ k => k
  | .resistance _ r => r
  | _ => 0

noncomputable def coef (ds : List Device) (l : String) : ℝ :=
  ((deviceOf ds (strip l)).map coefficientOf).getD 0

theorem coef_x (h : Distinct ds) {d : Device} {b : Branch} (hd : d ∈ ds) (hb : b ∈ d.branches) :
    coef ds ("x" ++ b.id) = coefficientOf d := by
  unfold coef
  rw [strip_x, deviceOf_eq h hd hb]; rfl

theorem coef_w (h : Distinct ds) {d : Device} {b : Branch} (hd : d ∈ ds) (hb : b ∈ d.branches) :
    coef ds ("w" ++ b.id) = coefficientOf d := by
  unfold coef
  rw [strip_w, deviceOf_eq h hd hb]; rfl

/-! ### Edges by type -/

theorem ofType_flat (t : EType) : ofType t (ds.flatMap devEdges) = ds.flatMap fun d => ofType t (devEdges d) := by
  unfold ofType
  rw [List.filter_flatMap]

theorem storage_labels : (ofType .storage (ds.flatMap devEdges)).map (·.label) = ds.flatMap devX := by
  rw [ofType_flat, List.map_flatMap]
  refine List.flatMap_congr fun d _ => ?_
  cases d <;> rfl

theorem conn_labels : (ofType .connector (ds.flatMap devEdges)).map (·.label) =
    (ds.flatMap devConns).flatMap fun q => ["y" ++ q.1.id, "y" ++ q.2.1.id] := by
  rw [ofType_flat, List.map_flatMap, List.flatMap_assoc]
  refine List.flatMap_congr fun d _ => ?_
  cases d <;> rfl

theorem port_labels : (ofType .port (ds.flatMap devEdges)).map (·.label) =
    (ds.flatMap devPorts).map fun b => "y" ++ b.id := by
  rw [ofType_flat, List.map_flatMap, List.map_flatMap]
  refine List.flatMap_congr fun d _ => ?_
  cases d <;> rfl

theorem ofType_perm {t : EType} {L L' : List (Edge ℝ)} (h : L.Perm L') : (ofType t L).Perm (ofType t L') :=
  h.filter _

theorem mem_storage {d : Edge ℝ} (h : d ∈ ds.flatMap devEdges) (ht : d.type = .storage) :
    ∃ b k, d.label = "x" ++ b.id ∧
      ((.fluxStorage b k ∈ ds ∧ d.ctrl = .f) ∨ (.effortStorage b k ∈ ds ∧ d.ctrl = .e)) := by
  obtain ⟨x, hx, hd⟩ := List.mem_flatMap.1 h
  cases x <;> simp only [devEdges, List.mem_cons, List.not_mem_nil, or_false] at hd
  case fluxStorage b k => subst hd; exact ⟨b, k, rfl, .inl ⟨hx, rfl⟩⟩
  case effortStorage b k => subst hd; exact ⟨b, k, rfl, .inr ⟨hx, rfl⟩⟩
  case gyrator a b α => rcases hd with rfl | rfl <;> cases ht
  case transformer a b α => rcases hd with rfl | rfl <;> cases ht
  all_goals (subst hd; cases ht)

theorem mem_dissipative {d : Edge ℝ} (h : d ∈ ds.flatMap devEdges) (ht : d.type = .dissipative) :
    ∃ b r, .resistance b r ∈ ds ∧ d.label = "w" ++ b.id ∧ d.ze = "e:w" ++ b.id ∧ d.zf = "f:w" ++ b.id := by
  obtain ⟨x, hx, hd⟩ := List.mem_flatMap.1 h
  cases x <;> simp only [devEdges, List.mem_cons, List.not_mem_nil, or_false] at hd
  case resistance b k => subst hd; exact ⟨b, k, hx, rfl, rfl, rfl⟩
  case gyrator a b α => rcases hd with rfl | rfl <;> cases ht
  case transformer a b α => rcases hd with rfl | rfl <;> cases ht
  all_goals (subst hd; cases ht)

theorem mem_port {d : Edge ℝ} (h : d ∈ ds.flatMap devEdges) (ht : d.type = .port) :
    ∃ b, d.label = "y" ++ b.id ∧
      ((.effortSource b ∈ ds ∧ d.ctrl = .f) ∨ (.fluxSource b ∈ ds ∧ d.ctrl = .e)) := by
  obtain ⟨x, hx, hd⟩ := List.mem_flatMap.1 h
  cases x <;> simp only [devEdges, List.mem_cons, List.not_mem_nil, or_false] at hd
  case effortSource b => subst hd; exact ⟨b, rfl, .inl ⟨hx, rfl⟩⟩
  case fluxSource b => subst hd; exact ⟨b, rfl, .inr ⟨hx, rfl⟩⟩
  case gyrator a b α => rcases hd with rfl | rfl <;> cases ht
  case transformer a b α => rcases hd with rfl | rfl <;> cases ht
  all_goals (subst hd; cases ht)

theorem mem_link {d : Edge ℝ} (h : d ∈ ds.flatMap devEdges) {l : String} (hl : d.link = some l) :
    ∃ x ∈ ds, ∃ a b, x.branches = [a, b] ∧ pfx x = "y" ∧
      ((d.label = "y" ++ a.id ∧ l = "y" ++ b.id) ∨ (d.label = "y" ++ b.id ∧ l = "y" ++ a.id)) := by
  obtain ⟨x, hx, hd⟩ := List.mem_flatMap.1 h
  cases x <;> simp only [devEdges, List.mem_cons, List.not_mem_nil, or_false] at hd
  case gyrator a b α =>
    refine ⟨_, hx, a, b, rfl, rfl, ?_⟩
    rcases hd with rfl | rfl <;> cases hl
    · exact .inl ⟨rfl, rfl⟩
    · exact .inr ⟨rfl, rfl⟩
  case transformer a b α =>
    refine ⟨_, hx, a, b, rfl, rfl, ?_⟩
    rcases hd with rfl | rfl <;> cases hl
    · exact .inl ⟨rfl, rfl⟩
    · exact .inr ⟨rfl, rfl⟩
  all_goals (subst hd; cases hl)

theorem two_ids (h : Distinct ds) {x : Device} (hx : x ∈ ds) {a b : Branch} (hb : x.branches = [a, b]) :
    a.id ≠ b.id := by
  have h1 := h.flat
  rw [List.nodup_flatMap] at h1
  have := h1.1 x hx
  rw [hb] at this
  simpa using this

theorem links_unique (h : Distinct ds) : LinksUnique (ds.flatMap devEdges) := by
  intro d hd d' hd' l hl hl'
  obtain ⟨x, hx, a, b, q1, q2, q3⟩ := mem_link hd hl
  obtain ⟨x', hx', a', b', q1', q2', q3'⟩ := mem_link hd' hl'
  have key : d.label = d'.label := by
    have hxx : x = x' := by
      have hab : ∃ i, ∃ c ∈ x.branches, ∃ c' ∈ x'.branches, c.id = i ∧ c'.id = i := by
        rw [q1, q1']
        rcases q3 with ⟨-, q3⟩ | ⟨-, q3⟩ <;> rcases q3' with ⟨-, q3'⟩ | ⟨-, q3'⟩
        · exact ⟨b.id, b, by simp, b', by simp, rfl, (pre_inj _ (q3.symm.trans q3')).symm⟩
        · exact ⟨b.id, b, by simp, a', by simp, rfl, (pre_inj _ (q3.symm.trans q3')).symm⟩
        · exact ⟨a.id, a, by simp, b', by simp, rfl, (pre_inj _ (q3.symm.trans q3')).symm⟩
        · exact ⟨a.id, a, by simp, a', by simp, rfl, (pre_inj _ (q3.symm.trans q3')).symm⟩
      obtain ⟨i, c, hc, c', hc', e1, e2⟩ := hab
      exact h.same hx hx' hc hc' (e1.trans e2.symm)
    subst hxx
    rw [q1] at q1'
    simp only [List.cons.injEq, and_true] at q1'
    obtain ⟨rfl, rfl⟩ := q1'
    have hne := two_ids h hx q1
    rcases q3 with ⟨q4, q3⟩ | ⟨q4, q3⟩ <;> rcases q3' with ⟨q4', q3'⟩ | ⟨q4', q3'⟩
    · rw [q4, q4']
    · exact absurd (pre_inj _ (q3.symm.trans q3')).symm hne
    · exact absurd (pre_inj _ (q3.symm.trans q3')) hne
    · rw [q4, q4']
  exact List.inj_on_of_nodup_map h.labels hd hd' key

theorem zip_conns (L : List (Branch × Branch × ℝ)) :
    (connPairs (L.map fun q => (⟨"u" ++ q.1.id, "u" ++ q.2.1.id, "y" ++ q.1.id, "y" ++ q.2.1.id, q.2.2⟩ :
      Conn ℝ))).Perm
      ((L.flatMap fun q => ["y" ++ q.2.1.id, "y" ++ q.1.id]).zip
        (L.flatMap fun q => ["u" ++ q.2.1.id, "u" ++ q.1.id])) := by
  induction L with
  | nil => exact List.Perm.refl _
  | cons q L ih =>
    exact (List.Perm.swap _ _ _).trans (((ih.cons _)).cons _)

/-- The graph of a netlist is a circuit. -/
theorem circuitOK (h : Distinct ds) (hpos : ∀ d ∈ ds, d.Positive) {nodes : List String}
    {edges : List (Edge ℝ)} (hp : edges.Perm (ds.flatMap devEdges)) (hd : datum ∈ nodes)
    (hnd : nodes.Nodup) (hends : ∀ d ∈ edges, d.tail ∈ nodes ∧ d.head ∈ nodes) {c : Core ℝ}
    (hc : Declares c ds) : CircuitOK nodes edges c where
  datum := hd
  distinct := hnd
  ends := hends
  labels := (hp.map _).nodup_iff.2 h.labels
  links := fun d hd d' hd' => links_unique h d (hp.mem_iff.1 hd) d' (hp.mem_iff.1 hd')
  free := by
    intro d hd ht
    obtain ⟨x, hx, hd⟩ := List.mem_flatMap.1 (hp.mem_iff.1 hd)
    cases x <;> simp only [devEdges, List.mem_cons, List.not_mem_nil, or_false] at hd
    case gyrator a b α => rcases hd with rfl | rfl <;> rfl
    case transformer a b α => rcases hd with rfl | rfl <;> rfl
    all_goals (subst hd; cases ht)
  dxH := hc.dxH
  xl := hc.xl
  wl := hc.wl
  cy := by
    refine List.Perm.trans ?_ ((ofType_perm hp).map _).symm
    rw [conn_labels, hc.cy]
    exact List.Perm.flatMap_left _ fun q _ => List.Perm.swap _ _ _
  cu := by
    rw [hc.cu, hc.cy]
    simp
  conn := by
    unfold ConnOK
    rw [hc.connectors, hc.cy, hc.cu]
    exact zip_conns _
  kind := by
    intro i k hk
    have hk0 := hk
    rw [hc.connectors, List.getElem?_map, Option.map_eq_some_iff] at hk
    obtain ⟨q, hq, rfl⟩ := hk
    have hqm := List.mem_of_getElem? hq
    obtain ⟨x, hx, hqx⟩ := List.mem_flatMap.1 hqm
    have hfirst : ∀ j < i, ∀ k', c.connectors[j]? = some k' →
        k'.y0 ≠ "y" ++ q.1.id ∧ k'.y1 ≠ "y" ++ q.1.id := by
      intro j hj k' hk'
      rw [hc.connectors, List.getElem?_map, Option.map_eq_some_iff] at hk'
      obtain ⟨q', hq', rfl⟩ := hk'
      have hpw := (List.nodup_flatMap.1 h.conns).2
      rw [List.pairwise_iff_getElem] at hpw
      obtain ⟨hi1, hi2⟩ := List.getElem?_eq_some_iff.1 hq
      obtain ⟨hj1, hj2⟩ := List.getElem?_eq_some_iff.1 hq'
      have := hpw j i hj1 hi1 hj
      rw [hi2, hj2] at this
      have hne : ∀ s ∈ [q'.1.id, q'.2.1.id], s ∉ [q.1.id, q.2.1.id] := fun s hs hs' => this hs hs'
      constructor
      · intro he
        exact hne q'.1.id (by simp) (by rw [pre_inj _ he]; simp)
      · intro he
        exact hne q'.2.1.id (by simp) (by rw [pre_inj _ he]; simp)
    have hα := hpos x hx
    have hmem : ∀ d ∈ devEdges x, d ∈ edges := fun d hd => hp.mem_iff.2 (List.mem_flatMap.2 ⟨x, hx, hd⟩)
    cases x <;> simp only [devConns, List.mem_cons, List.not_mem_nil, or_false] at hqx
    case gyrator a b α =>
      subst hqx
      exact ⟨_, _, α, hα, hmem _ List.mem_cons_self, hmem _ (List.mem_cons_of_mem _ List.mem_cons_self),
        rfl, rfl, rfl, rfl, rfl, rfl, rfl, hk0, rfl, rfl, hfirst⟩
    case transformer a b α =>
      subst hqx
      exact ⟨_, _, α, hα, hmem _ List.mem_cons_self, hmem _ (List.mem_cons_of_mem _ List.mem_cons_self),
        rfl, rfl, rfl, rfl, rfl, rfl, rfl, hk0, rfl, rfl, hfirst⟩

/-! ### Linear components -/

theorem quadSum_flat (h : Distinct ds) (e : Env ℝ) :
    quadSum (coef ds) (ds.flatMap devX) e = stored ds fun i => e ("x" ++ i) := by
  have key : ∀ L : List Device, (∀ d ∈ L, d ∈ ds) →
      quadSum (coef ds) (L.flatMap devX) e = stored L fun i => e ("x" ++ i) := by
    intro L hL
    induction L with
    | nil => rfl
    | cons d L ih =>
      have ih' := ih fun d hd => hL d (List.mem_cons_of_mem _ hd)
      have hd := hL d List.mem_cons_self
      unfold quadSum stored at ih' ⊢
      rw [List.flatMap_cons, List.map_append, List.sum_append, List.map_cons, List.sum_cons, ih']
      congr 1
      cases d with
      | fluxStorage b k =>
        simp [devX, Device.energy, coef_x h hd (b := b) (by simp [Device.branches]), coefficientOf]
      | effortStorage b k =>
        simp [devX, Device.energy, coef_x h hd (b := b) (by simp [Device.branches]), coefficientOf]
      | _ => simp [devX, Device.energy]
  exact key ds fun _ hd => hd

theorem quadSum_perm {k : String → ℝ} {L L' : List String} (h : L.Perm L') : quadSum k L = quadSum k L' := by
  funext e
  unfold quadSum
  exact (h.map _).sum_eq

theorem first_ne {a b : Char} (hab : a ≠ b) {l l' : List Char} {s t : String}
    (hs : s.toList = a :: l) (ht : t.toList = b :: l') : s ≠ t := by
  rintro rfl
  rw [hs] at ht
  exact hab (List.cons.inj ht).1

theorem devX_pre {s : String} (hs : s ∈ ds.flatMap devX) : ∃ i, s = "x" ++ i := by
  obtain ⟨d, -, hd⟩ := List.mem_flatMap.1 hs
  cases d <;> simp only [devX, List.mem_cons, List.not_mem_nil, or_false] at hd
  all_goals exact ⟨_, hd⟩

theorem Distinct.devX (h : Distinct ds) : (ds.flatMap devX).Nodup := by
  rw [← storage_labels]
  exact List.Nodup.sublist (List.Sublist.map _ List.filter_sublist) h.labels

/-- The laws of the resistances. -/
def LawsOf (ds : List Device) (lw : String → Env ℝ → ℝ) : Prop :=
  ∀ b r, .resistance b r ∈ ds → lw ("f:w" ++ b.id) = (fun e => r * e ("w" ++ b.id)) ∧
    lw ("e:w" ++ b.id) = fun e => r⁻¹ * e ("w" ++ b.id)

/-- The components of a netlist are linear. -/
theorem linearCircuit (h : Distinct ds) (hpos : ∀ d ∈ ds, d.Positive) {lw : String → Env ℝ → ℝ}
    (hlw : LawsOf ds lw) {H : Sc} (hH : H = fun e => stored ds fun i => e ("x" ++ i))
    {edges : List (Edge ℝ)} (hp : edges.Perm (ds.flatMap devEdges)) :
    LinearCircuit lw edges H (coef ds) (coef ds) where
  energy := by
    rw [hH, quadSum_perm ((ofType_perm hp).map _), storage_labels]
    funext e
    exact (quadSum_flat h e).symm
  pos := by
    intro d hd ht
    obtain ⟨b, k, h1, ⟨h2, -⟩ | ⟨h2, -⟩⟩ := mem_storage (hp.mem_iff.1 hd) ht
    all_goals
      rw [h1, coef_x h h2 (by simp [Device.branches])]
      exact hpos _ h2
  res := by
    intro d hd ht
    obtain ⟨b, r, h2, h1, -⟩ := mem_dissipative (hp.mem_iff.1 hd) ht
    rw [h1, coef_w h h2 (by simp [Device.branches])]
    exact hpos _ h2
  ze := by
    intro d hd ht
    obtain ⟨b, r, h2, h1, h3, -⟩ := mem_dissipative (hp.mem_iff.1 hd) ht
    rw [h1, h3, coef_w h h2 (by simp [Device.branches])]
    exact (hlw b r h2).2
  zf := by
    intro d hd ht
    obtain ⟨b, r, h2, h1, -, h3⟩ := mem_dissipative (hp.mem_iff.1 hd) ht
    rw [h1, h3, coef_w h h2 (by simp [Device.branches])]
    exact (hlw b r h2).1
  names := by
    have hx : ((ofType .storage edges).map (·.label)).Perm (ds.flatMap devX) := by
      rw [← storage_labels]; exact (ofType_perm hp).map _
    have hxs : ∀ s ∈ (ofType .storage edges).map (·.label), ∃ i, s = "x" ++ i := fun s hs =>
      devX_pre (hx.mem_iff.1 hs)
    have hws : ∀ s ∈ (ofType .dissipative edges).map (·.label), ∃ i, s = "w" ++ i := by
      intro s hs
      obtain ⟨d, h1, h2, rfl⟩ := mem_labels_of hs
      obtain ⟨b, r, -, q, -⟩ := mem_dissipative (hp.mem_iff.1 h1) h2
      exact ⟨_, q⟩
    have hnx := hx.nodup_iff.2 h.devX
    rw [List.nodup_append, List.nodup_append]
    refine ⟨⟨hnx, List.Nodup.map (fun a b hab => pre_inj "d" hab) hnx, ?_⟩, ?_, ?_⟩
    · intro a ha b hb hab
      obtain ⟨i, rfl⟩ := hxs a ha
      obtain ⟨b, -, rfl⟩ := List.mem_map.1 hb
      exact first_ne (a := 'x') (b := 'd') (by decide) (String.toList_append) (String.toList_append) hab
    · have := ((hp.map (·.label)).nodup_iff.2 h.labels)
      exact List.Nodup.sublist (List.Sublist.map _ List.filter_sublist) this
    · intro a ha b hb hab
      obtain ⟨j, rfl⟩ := hws b hb
      rcases List.mem_append.1 ha with ha | ha
      · obtain ⟨i, rfl⟩ := hxs a ha
        exact first_ne (a := 'x') (b := 'w') (by decide) (String.toList_append) (String.toList_append) hab
      · obtain ⟨a, -, rfl⟩ := List.mem_map.1 ha
        exact first_ne (a := 'd') (b := 'w') (by decide) (String.toList_append) (String.toList_append) hab
  grads := by
    intro d hd ht hm
    obtain ⟨b, r, -, h1, -⟩ := mem_dissipative (hp.mem_iff.1 hd) ht
    obtain ⟨a, -, h2⟩ := List.mem_map.1 hm
    rw [h1] at h2
    exact first_ne (a := 'g') (b := 'w') (by decide) (String.toList_append) (String.toList_append) h2

end System
end Pyphs
