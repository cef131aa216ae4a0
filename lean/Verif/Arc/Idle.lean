/-
Graphs whose analysis succeeds are not changed by the merging.
-/
import Verif.Arc.Model
import Verif.Split.Props
import Verif.Graph.Controls
import Verif.Graph.Connectors
import Verif.Circuit.Spec
import Verif.Circuit.Model

namespace Pyphs
namespace Arc
open Graph Circuit
open Verif.Split (Name View Flows SerEq SerEqs SP Joins leaves leavesOf Balanced NoHang LoopFree Free outs parLabel
  serLabel isPar isPar_par isPar_ser serEqs_iff)

/-! ### Calm trees -/

mutual
/-- There is nothing to merge in the tree. -/
def Calm : Tr → Prop
  | .graph _ _ l sub => (sub.filter (isStorage (anti l))).length ≤ 1 ∧
      (sub.filter (isDissipative (anti l))).length ≤ 1 ∧ Calms sub
  | .comp .. => True
  | .out .. => True
def Calms : List Tr → Prop
  | [] => True
  | e :: es => Calm e ∧ Calms es
end

theorem calms_iff {g : List Tr} : Calms g ↔ ∀ e ∈ g, Calm e := by
  induction g with
  | nil => simp [Calms]
  | cons e g ih => simp [Calms, ih]

theorem mergeArc_calm {sy : Sympy} {v : View (Edge ℝ)} (hv : v.Lawful) {t h l : Name} {sub : List Tr}
    {s : Shared} (h1 : (sub.filter (isStorage (anti l))).length ≤ 1)
    (h2 : (sub.filter (isDissipative (anti l))).length ≤ 1) : mergeArc sy v t h l sub s = .ok ([], s) := by
  have e1 : ((v.edges sub).filter (isStorage (anti l))).length ≤ 1 := by
    rw [((hv.edges_perm sub).filter _).length_eq]; exact h1
  have e2 : ((v.edges sub).filter (isDissipative (anti l))).length ≤ 1 := by
    rw [((hv.edges_perm sub).filter _).length_eq]; exact h2
  unfold mergeArc
  dsimp only
  split
  · unfold planStorages
    dsimp only
    rw [if_pos e1]
    simp only [bind, Except.bind, Option.toList, applyAll, List.foldlM, pure, Except.pure]
    unfold planDissipatives
    dsimp only
    rw [if_pos e2]
    rfl
  · rw [if_pos ⟨e1, e2⟩]

mutual
theorem mergeEdge_calm {sy : Sympy} {v : View (Edge ℝ)} (hv : v.Lawful) : ∀ (e : Tr) (s : Shared), Calm e →
    mergeEdge sy v e s = .ok (e, s)
  | .graph t h l sub, s, hc => by
    rw [Calm] at hc
    rw [mergeEdge, mergeArc_calm hv hc.1 hc.2.1]
    simp only [bind, Except.bind]
    rw [mergeEdges_calm hv sub s hc.2.2]
    rfl
  | .comp .., _, _ => by rw [mergeEdge]
  | .out .., _, _ => by rw [mergeEdge]
theorem mergeEdges_calm {sy : Sympy} {v : View (Edge ℝ)} (hv : v.Lawful) : ∀ (es : List Tr) (s : Shared),
    Calms es → mergeEdges sy v es s = .ok (es, s)
  | [], _, _ => by rw [mergeEdges]
  | e :: es, s, hc => by
    rw [Calms] at hc
    rw [mergeEdges, mergeEdge_calm hv e s hc.1]
    simp only [bind, Except.bind]
    rw [mergeEdges_calm hv es s hc.2]
end

/-! ### The tree of a graph -/

theorem filter_sublist_leaves {p : Tr → Bool} (hp : ∀ e, p e = true → Verif.Split.IsComp e) (g : List Tr) :
    (g.filter p).Sublist (leaves g) := by
  induction g with
  | nil => simp [leaves]
  | cons e g ih =>
    rw [leaves]
    by_cases h : p e = true
    · rw [List.filter_cons_of_pos h]
      obtain ⟨t, h', l, c, rfl⟩ := hp e h
      rw [leavesOf]
      exact List.Sublist.cons₂ _ ih
    · rw [List.filter_cons_of_neg h]
      exact ih.trans (List.sublist_append_right _ _)

theorem isStorage_comp {c : Ctrl} {e : Tr} (h : isStorage c e = true) :
    ∃ t h l d, e = .comp t h l d ∧ d.type = .storage ∧ d.ctrl = c := by
  cases e with
  | comp t h' l d => exact ⟨t, h', l, d, rfl, by simpa [isStorage] using h⟩
  | out => simp [isStorage] at h
  | graph => simp [isStorage] at h

theorem isDissipative_comp {c : Ctrl} {e : Tr} (h : isDissipative c e = true) :
    ∃ t h l d, e = .comp t h l d ∧ d.type = .dissipative ∧ d.ctrl = c := by
  cases e with
  | comp t h' l d => exact ⟨t, h', l, d, rfl, by simpa [isDissipative] using h⟩
  | out => simp [isDissipative] at h
  | graph => simp [isDissipative] at h

theorem length_le_one {α : Type} {l : List α} (hn : l.Nodup) (h : ∀ x ∈ l, ∀ y ∈ l, x = y) : l.length ≤ 1 := by
  match l with
  | [] => simp
  | [a] => simp
  | a :: b :: l =>
    exfalso
    have := h a (by simp) b (by simp)
    simp [this] at hn

theorem wrap_inj {a b : Edge ℝ} (h : wrap a = wrap b) : a = b := by
  unfold wrap at h
  injection h

theorem leaves_mem {g : List Tr} {e x : Tr} (he : e ∈ g) (hx : x ∈ leavesOf e) : x ∈ leaves g := by
  rw [Verif.Split.leaves_eq]
  exact List.mem_flatMap.2 ⟨e, he, hx⟩

theorem leaves_nodup_sub {g : List Tr} (h : (leaves g).Nodup) {e : Tr} (he : e ∈ g) : (leavesOf e).Nodup := by
  rw [Verif.Split.leaves_eq] at h
  exact (List.nodup_flatMap.1 h).1 e he

/-- The tree of a graph without anti-realizable connections. -/
theorem calm_of {edges : List (Edge ℝ)} {Φ : (Edge ℝ → ℝ) → Prop}
    (hpar : ∀ a ∈ edges, ∀ b ∈ edges, a.ctrl = .f → b.ctrl = .f →
      ((a.tail = b.tail ∧ a.head = b.head) ∨ (a.tail = b.head ∧ a.head = b.tail)) → a = b)
    (hser : ∀ a ∈ edges, ∀ b ∈ edges, a.ctrl = .e → b.ctrl = .e → (∀ F, Φ F → F a ^ 2 = F b ^ 2) → a = b)
    {e : Tr} (hsp : SP e) : SerEq Φ e → (leavesOf e).Nodup → (∀ x ∈ leavesOf e, ∃ d ∈ edges, x = wrap d) →
    Calm e := by
  have main : ∀ (l : Name) (sub : List Tr), (leaves sub).Nodup →
      (∀ x ∈ leaves sub, ∃ d ∈ edges, x = wrap d) →
      (∀ a ∈ edges, ∀ b ∈ edges, wrap a ∈ sub → wrap b ∈ sub → a.ctrl = anti l → b.ctrl = anti l → a = b) →
      (sub.filter (isStorage (anti l))).length ≤ 1 ∧ (sub.filter (isDissipative (anti l))).length ≤ 1 := by
    intro l sub hn hx hu
    have key : ∀ p : Tr → Bool, (∀ e, p e = true → ∃ t h k d, e = .comp t h k d ∧ d.ctrl = anti l) →
        (sub.filter p).length ≤ 1 := by
      intro p hp
      have hs := filter_sublist_leaves (p := p) (fun e he => by
        obtain ⟨t, h, k, d, rfl, -⟩ := hp e he
        exact ⟨_, _, _, _, rfl⟩) sub
      refine length_le_one (hs.nodup hn) fun x hxm y hym => ?_
      obtain ⟨a, ha, rfl⟩ := hx x (hs.subset hxm)
      obtain ⟨b, hb, rfl⟩ := hx y (hs.subset hym)
      obtain ⟨hx1, hx2⟩ := List.mem_filter.1 hxm
      obtain ⟨hy1, hy2⟩ := List.mem_filter.1 hym
      obtain ⟨_, _, _, _, q1, q2⟩ := hp _ hx2
      obtain ⟨_, _, _, _, q3, q4⟩ := hp _ hy2
      unfold wrap at q1 q3
      injection q1 with _ _ _ q1
      injection q3 with _ _ _ q3
      subst q1 q3
      rw [hu a ha b hb hx1 hy1 q2 q4]
    refine ⟨key _ fun e he => ?_, key _ fun e he => ?_⟩
    · obtain ⟨t, h, k, d, h1, -, h2⟩ := isStorage_comp he
      exact ⟨t, h, k, d, h1, h2⟩
    · obtain ⟨t, h, k, d, h1, -, h2⟩ := isDissipative_comp he
      exact ⟨t, h, k, d, h1, h2⟩
  have sub : ∀ (es : List Tr) (l a b : Name), (∀ e ∈ es, SerEq Φ e → (leavesOf e).Nodup →
      (∀ x ∈ leavesOf e, ∃ d ∈ edges, x = wrap d) → Calm e) → SerEqs Φ (es ++ outs l a b) →
      (leaves (es ++ outs l a b)).Nodup → (∀ x ∈ leaves (es ++ outs l a b), ∃ d ∈ edges, x = wrap d) →
      Calms (es ++ outs l a b) := by
    intro es l a b ih hse hn hx
    rw [calms_iff]
    intro e he
    rcases List.mem_append.1 he with h1 | h1
    · exact ih e h1 (serEqs_iff.1 hse e he) (leaves_nodup_sub hn he) fun x hxm => hx x (leaves_mem he hxm)
    · simp only [outs, List.mem_map] at h1
      obtain ⟨n, -, rfl⟩ := h1
      rw [Calm]; trivial
  induction hsp with
  | comp => intro _ _ _; rw [Calm]; trivial
  | par t h n es _ _ hj ih =>
    intro hse hn hx
    rw [SerEq] at hse
    rw [leavesOf] at hn hx
    obtain ⟨h1, h2⟩ := main (parLabel n) _ hn hx (by
      intro a ha b hb ma mb ca cb
      rw [anti, isPar_par, if_pos rfl] at ca cb
      replace ma := (List.mem_append.1 ma).resolve_right Verif.Split.outs_comp
      replace mb := (List.mem_append.1 mb).resolve_right Verif.Split.outs_comp
      refine hpar a ha b hb ca cb ?_
      have ja := hj _ ma
      have jb := hj _ mb
      unfold Joins at ja jb
      simp only [wrap, Verif.Split.Edge.tail, Verif.Split.Edge.head] at ja jb
      have inj : ∀ {x y : String} {n : Name}, x.toList = n → y.toList = n → x = y := fun h1 h2 =>
        String.toList_injective (h1.trans h2.symm)
      rcases ja with ⟨a1, a2⟩ | ⟨a1, a2⟩ <;> rcases jb with ⟨b1, b2⟩ | ⟨b1, b2⟩
      · exact Or.inl ⟨inj a1 b1, inj a2 b2⟩
      · exact Or.inr ⟨inj a1 b2, inj a2 b1⟩
      · exact Or.inr ⟨inj a1 b2, inj a2 b1⟩
      · exact Or.inl ⟨inj a1 b1, inj a2 b2⟩)
    rw [Calm]
    exact ⟨h1, h2, sub es _ _ _ ih hse.2 hn hx⟩
  | ser t h n es s _ _ _ _ _ _ ih =>
    intro hse hn hx
    rw [SerEq] at hse
    rw [leavesOf] at hn hx
    obtain ⟨h1, h2⟩ := main (serLabel n) _ hn hx (by
      intro a ha b hb ma mb ca cb
      rw [anti, isPar_ser] at ca cb
      exact hser a ha b hb ca cb fun F hF => hse.1 (isPar_ser n) F hF _ _ _ _ _ _ _ _ ma mb)
    rw [Calm]
    exact ⟨h1, h2, sub es _ _ _ ih hse.2 hn hx⟩

/-! ### The controls are free -/

/-- If the core of a graph is built, the fluxes of the effort-controlled edges and the efforts of the
flux-controlled ones can have any values. -/
theorem controls_free {K : Type} [Field K] [DecidableEq K] {law : String → Env K → K} {nodes : List String}
    {edges : List (Edge K)} {st : St K} {fuel : ℕ} {c c' : Core K} (hd : datum ∈ nodes) (hn : nodes.Nodup)
    (hnodes : ∀ d ∈ edges, d.tail ∈ nodes ∧ d.head ∈ nodes) (hl : (edges.map (·.label)).Nodup)
    (ha : analyse fuel nodes edges = .ok st) (hb : buildCore law st c = some c') (A : String → K) :
    ∃ E F : String → K, FlowBalance nodes edges F ∧ FromPotentials edges E ∧
      (∀ l ∈ st.ec.map (lab st), F l = A l) ∧ ∀ l ∈ st.fc.map (lab st), l ∉ st.ec.map (lab st) → E l = A l := by
  obtain ⟨hp, hic, hord⟩ := C39_analysis hd hl ha
  have hnd := hp.nodup hl
  obtain ⟨J, hJ, hs⟩ := buildCore_some hb
  obtain ⟨hfol, -⟩ := setCore_follows hnd hs
  have hlab : c'.labels.Nodup := by
    rw [hfol.labels]
    refine lab_nodup hnd ((allEdges_perm st).nodup_iff.2 List.nodup_range) fun e he => ?_
    exact List.mem_range.1 ((allEdges_perm st).mem_iff.1 he)
  have hlen : st.edges.length = edges.length := by simpa using hp.sameEdges.length_eq
  let β : Env K := fun l => ∑ j ∈ Finset.range c'.labels.length, c'.M.e (c'.labels.idxOf l) j *
    A (c'.labels.getD j "")
  let E : String → K := fun l => if l ∈ st.ec.map (lab st) then β l else A l
  let F : String → K := fun l => if l ∈ st.ec.map (lab st) then A l else β l
  have hec : ∀ e ∈ st.ec, β (lab st e) = E (lab st e) ∧ A (lab st e) = F (lab st e) := by
    intro e he
    have h1 : lab st e ∈ st.ec.map (lab st) := List.mem_map_of_mem he
    exact ⟨by simp only [E, if_pos h1], by simp only [F, if_pos h1]⟩
  have hfc : ∀ e ∈ st.fc, β (lab st e) = F (lab st e) ∧ A (lab st e) = E (lab st e) := by
    intro e he
    have h1 : lab st e ∉ st.ec.map (lab st) := by
      have h1 : ((st.ec ++ st.fc).map (lab st)).Nodup := by
        refine lab_nodup hnd (by rw [hord]; exact List.nodup_range) ?_
        intro x hx
        rw [hord, ← hlen] at hx
        exact List.mem_range.1 hx
      rw [List.map_append] at h1
      intro hm
      exact (List.nodup_append.1 h1).2.2 _ hm _ (List.mem_map_of_mem he) rfl
    exact ⟨by simp only [F, if_neg h1], by simp only [E, if_neg h1]⟩
  have hst : Core.StructEq c'.labels c'.M β A := by
    intro i hi
    have : c'.labels.idxOf (c'.labels.getD i "") = i := by
      rw [List.getD_eq_getElem?_getD, List.getElem?_eq_getElem hi]
      exact hlab.idxOf_getElem i hi
    simp only [β]
    rw [this]
  obtain ⟨h1, h2⟩ := (C42_kirchhoff hd hn hnodes hl ha hb E F β A hec hfc).1 hst
  exact ⟨E, F, h1, h2, fun l hl => by simp only [F, if_pos hl], fun l _ hl' => by simp only [E, if_neg hl']⟩

/-- Flows of the graph are flows of the tree. -/
theorem balanced_of {nodes : List String} {edges : List (Edge ℝ)} {F : String → ℝ}
    (hnodes : ∀ d ∈ edges, d.tail ∈ nodes ∧ d.head ∈ nodes) (h : FlowBalance nodes edges F) :
    Balanced (fun d : Edge ℝ => F d.label) (edges.map wrap) := by
  intro n hn
  have hlv : leaves (edges.map wrap) = edges.map wrap := Verif.Split.leaves_comps fun e he => by
    obtain ⟨d, -, rfl⟩ := List.mem_map.1 he
    exact ⟨_, _, _, _, rfl⟩
  rw [hlv, List.map_map]
  have hsum : ∀ v : String, v.toList = n → (edges.map (Verif.Split.leafNet (fun d : Edge ℝ => F d.label) n ∘ wrap)) =
      edges.map fun d => (sign d v : ℝ) * F d.label := by
    rintro v rfl
    refine List.map_congr_left fun d _ => ?_
    simp only [Function.comp, wrap, Verif.Split.leafNet, Verif.Split.inc, sign, String.toList_inj]
    push_cast
    simp only [eq_comm (a := v)]
    ring
  rw [hsum (String.ofList n) (by simp)]
  by_cases hv : String.ofList n ∈ nodes
  · refine h _ hv fun hd => hn ?_
    have := congrArg String.toList hd
    rw [String.toList_ofList] at this
    exact this
  · refine List.sum_eq_zero fun y hy => ?_
    obtain ⟨d, hd, rfl⟩ := List.mem_map.1 hy
    have h1 := hnodes d hd
    have h2 : String.ofList n ≠ d.tail := fun h => hv (h ▸ h1.1)
    have h3 : String.ofList n ≠ d.head := fun h => hv (h ▸ h1.2)
    simp [sign, h2, h3]

theorem datas_wrap (es : List (Edge ℝ)) : datas (es.map wrap) = es := by
  induction es with
  | nil => rfl
  | cons d es ih => simpa [datas, wrap] using ih

theorem datas_perm {g g' : List Tr} (h : g.Perm g') : (datas g).Perm (datas g') := h.filterMap _

theorem toCore_some {law : String → Env ℝ → ℝ} {fuel : ℕ} {nodes : List String} {edges : List (Edge ℝ)}
    {c c2 : Core ℝ} (h : toCore law fuel nodes edges c = some c2) :
    ∃ st c', analyse fuel nodes edges = .ok st ∧ buildCore law st c = some c' := by
  unfold toCore at h
  cases ha : analyse fuel nodes edges with
  | error x => rw [ha] at h; cases h
  | ok st =>
    rw [ha] at h
    obtain ⟨c', hb, -⟩ := Option.bind_eq_some_iff.1 h
    exact ⟨st, c', rfl, hb⟩

/-- C85. A graph whose analysis succeeds is not changed by the merging of anti-realizable components. -/
theorem C85_idle {sy : Sympy} {V : Views} (hV : V.Lawful) {law : String → Env ℝ → ℝ} {fuel fuel' : ℕ}
    {nodes : List String} {edges : List (Edge ℝ)} {c c2 : Core ℝ} (hok : CircuitOK nodes edges c)
    (h : toCore law fuel nodes edges c = some c2) (hloop : ∀ d ∈ edges, d.tail ≠ d.head)
    (hhang : NoHang (edges.map wrap)) (hfree : ∀ d ∈ edges, Free d.label.toList) (hf : edges.length < fuel')
    (s : Shared) : ∃ edges', prepare sy V fuel' edges s = .ok (edges', s) ∧ edges'.Perm edges := by
  obtain ⟨st, c', ha, hb⟩ := toCore_some h
  have hcomp : ∀ e ∈ edges.map wrap, Verif.Split.IsComp e := fun e he => by
    obtain ⟨d, -, rfl⟩ := List.mem_map.1 he
    exact ⟨_, _, _, _, rfl⟩
  have hl : LoopFree (edges.map wrap) := by
    intro e he
    obtain ⟨d, hd, rfl⟩ := List.mem_map.1 he
    intro hc
    exact hloop d hd (String.toList_injective hc)
  obtain ⟨st', h1, h2, h3, -⟩ := Verif.Split.C62_split hV.vp hV.vs (edges.map wrap) hcomp hl hhang 0 0 fuel'
    (by simpa using hf)
  let Φ : (Edge ℝ → ℝ) → Prop := fun f => ∃ F, FlowBalance nodes edges F ∧ f = fun d => F d.label
  have hfl := Verif.Split.spSplit_flows (Φ := Φ) hV.vp hV.vs fuel' 0 _ st' hl hhang
    (fun e he => (hcomp e he).sp) (fun f hf => by
      obtain ⟨F, hF, rfl⟩ := hf
      exact balanced_of hok.ends hF) (fun e he => by
      obtain ⟨t, h, l, c, rfl⟩ := hcomp e he
      exact Verif.Split.flows_comp Φ t h l c) h1
  have hnd : (edges.map wrap).Nodup := by
    refine List.Nodup.map (fun a b h => wrap_inj h) ?_
    exact List.Nodup.of_map _ hok.labels
  have hinj : ∀ a ∈ edges, ∀ b ∈ edges, a.label = b.label → a = b := fun a ha b hb h =>
    List.inj_on_of_nodup_map hok.labels ha hb h
  have hcalm : Calms st'.edges := by
    rw [calms_iff]
    intro e he
    refine calm_of (edges := edges) (Φ := Φ) ?_ ?_ (h3 e he) (hfl e he).2
      (leaves_nodup_sub (h2.nodup_iff.2 hnd) he) fun x hx => ?_
    · intro a hA b hB ca cb hab
      by_contra hne
      have hln : a.label ≠ b.label := fun h => hne (hinj a hA b hB h)
      obtain ⟨a1, a2⟩ := (C60_prescribed hok.datum hok.labels hok.free ha hA).2 ca
      obtain ⟨b1, b2⟩ := (C60_prescribed hok.datum hok.labels hok.free ha hB).2 cb
      obtain ⟨E, F, -, ⟨p, hp⟩, -, hE⟩ := controls_free hok.datum hok.distinct hok.ends hok.labels ha hb
        fun l => if l = a.label then 1 else 0
      have e1 := hE _ a1 a2
      have e2 := hE _ b1 b2
      rw [if_pos rfl, hp a hA] at e1
      rw [if_neg (Ne.symm hln), hp b hB] at e2
      rcases hab with ⟨q1, q2⟩ | ⟨q1, q2⟩
      · rw [q1, q2, e2] at e1; exact zero_ne_one e1
      · rw [q1, q2, ← neg_sub, e2] at e1; norm_num at e1
    · intro a hA b hB ca cb hab
      by_contra hne
      have hln : a.label ≠ b.label := fun h => hne (hinj a hA b hB h)
      obtain ⟨a1, -⟩ := (C60_prescribed hok.datum hok.labels hok.free ha hA).1 ca
      obtain ⟨b1, -⟩ := (C60_prescribed hok.datum hok.labels hok.free ha hB).1 cb
      obtain ⟨E, F, hF, -, hA', -⟩ := controls_free hok.datum hok.distinct hok.ends hok.labels ha hb
        fun l => if l = a.label then 1 else 0
      have := hab (fun d => F d.label) ⟨F, hF, rfl⟩
      simp only [hA' _ a1, hA' _ b1, if_true, if_neg (Ne.symm hln)] at this
      norm_num at this
    · have := h2.subset (leaves_mem he hx)
      obtain ⟨d, hd, rfl⟩ := List.mem_map.1 this
      exact ⟨d, hd, rfl⟩
  obtain ⟨g', h4, h5⟩ := Verif.Split.C62_assemble hV.va st'.edges h3 fun x hx => by
    obtain ⟨d, hd, rfl⟩ := List.mem_map.1 (h2.subset hx)
    exact hfree d hd
  refine ⟨datas g', ?_, ?_⟩
  · unfold prepare
    rw [h1]
    simp only [bind, Except.bind]
    rw [mergeEdges_calm hV.vm _ _ hcalm]
    simp only [h4]
  · have := datas_perm (h5.trans h2)
    rwa [datas_wrap] at this

end Arc
end Pyphs
