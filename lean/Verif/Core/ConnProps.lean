/-
Properties C07 (add_connector), C08 (connect), C09 (conservation and passivity of connect),
C10 (sign convention).
-/
import Verif.Core.ConnLemmas
import Verif.Core.SumProps

namespace Pyphs
namespace Core
open Finset Mat

variable {K : Type} [Field K] [DecidableEq K]

/-! ### Specification -/

/-- Relation imposed by a connector: `α p` is the input paired with the output `p`, `β p` the
value of the output. -/
def ConnRel (k : Conn K) (β α : Env K) : Prop :=
  α k.y0 = - k.alpha * β k.y1 ∧ α k.y1 = k.alpha * β k.y0

/-- Relation documented for `add_connector` (core.py:770-773). -/
def DocRel (k : Conn K) (β α : Env K) : Prop :=
  α k.y0 = k.alpha * β k.y1 ∧ α k.y1 = - k.alpha * β k.y0

/-- The connectors list describes exactly the connector variables: every pair (output, input)
of `cy`, `cu` belongs to exactly one connector. -/
def ConnOK (c : Core K) : Prop := (connPairs c.connectors).Perm (c.cy.zip c.cu)

/-! ### C07 -/

/-- **C07**: for two distinct existing ports, `add_connector` succeeds; it removes the two
ports from the list of ports, appends them to the connectors, keeps the other ports in order
and inputs paired with outputs, records the connector, and the equations are unchanged. -/
theorem C07_add_connector (c : Core K) (hc : WF c) (hu : c.u.Nodup) (i0 i1 : ℕ) (alpha : K)
    (h0 : i0 < c.y.length) (h1 : i1 < c.y.length) (hne : i0 ≠ i1) :
    ∃ c' u0 u1 y0 y1, c.addConnector i0 i1 alpha = some c' ∧
      c.u[i0]? = some u0 ∧ c.u[i1]? = some u1 ∧ c.y[i0]? = some y0 ∧ c.y[i1]? = some y1 ∧
      c'.connectors = c.connectors ++ [⟨u0, u1, y0, y1, alpha⟩] ∧
      c'.x = c.x ∧ c'.w = c.w ∧ c'.z = c.z ∧ c'.H = c.H ∧
      c'.y = (c.y.eraseIdx (max i0 i1)).eraseIdx (min i0 i1) ∧
      c'.u = (c.u.eraseIdx (max i0 i1)).eraseIdx (min i0 i1) ∧
      (c'.cy.zip c'.cu).Perm (c.cy.zip c.cu ++ [(y0, u0), (y1, u1)]) ∧
      WF c' ∧ c'.u.Nodup ∧
      (∀ p ∈ c.labels, ∀ q ∈ c.labels, c'.coef p q = c.coef p q) ∧
      (∀ β α : Env K, StructEq c'.labels c'.M β α ↔ StructEq c.labels c.M β α) := by
  have g0 : i0 < c.u.length := by rw [hc.uy]; exact h0
  have g1 : i1 < c.u.length := by rw [hc.uy]; exact h1
  let k : Conn K := ⟨c.u[i0], c.u[i1], c.y[i0], c.y[i1], alpha⟩
  let ca : Core K := { c with connectors := c.connectors ++ [k] }
  have hca : WF ca := ⟨hc.Mr, hc.Mc, hc.uy, hc.cucy, hc.wz, hc.dxH, hc.xl, hc.wl, hc.nodup⟩
  have hmax : max i0 i1 < ca.y.length := by show max i0 i1 < c.y.length; omega
  obtain ⟨M1, ui, yi, r1, ru1, ry1, _⟩ := port2connector_spec ca hca hu _ hmax
  obtain ⟨w1, nd1, a1, a2, a3, a4, a5, a6, a7, a8, ⟨ui', b1, b2⟩, ⟨yi', b3, b4⟩, p1, co1, se1⟩ :=
    port2connector_same ca _ hca hu _ hmax r1
  have hmin : min i0 i1 < (c.y.eraseIdx (max i0 i1)).length := by
    rw [List.length_eraseIdx_of_lt (by omega)]; omega
  obtain ⟨M2, uj, yj, r2, ru2, ry2, _⟩ := port2connector_spec _ w1 nd1 (min i0 i1)
    (by rw [a7]; exact hmin)
  obtain ⟨w2, nd2, d1, d2, d3, d4, d5, d6, d7, d8, ⟨uj', e1, e2⟩, ⟨yj', e3, e4⟩, p2, co2, se2⟩ :=
    port2connector_same _ _ w1 nd1 (min i0 i1) (by rw [a7]; exact hmin) r2
  refine ⟨_, c.u[i0], c.u[i1], c.y[i0], c.y[i1], ?_, List.getElem?_eq_getElem g0,
    List.getElem?_eq_getElem g1, List.getElem?_eq_getElem h0, List.getElem?_eq_getElem h1,
    d6.trans a6, d1.trans a1, d2.trans a2, d3.trans a3, d4.trans a4, ?_, ?_, ?_, w2, nd2, ?_, ?_⟩
  · unfold addConnector
    rw [if_neg hne, if_neg (by simp [h0, h1])]
    simp only [List.getElem?_eq_getElem g0, List.getElem?_eq_getElem g1,
      List.getElem?_eq_getElem h0, List.getElem?_eq_getElem h1, Option.bind_eq_bind,
      Option.bind_some]
    rw [show port2connector { c with connectors := c.connectors ++
      [⟨c.u[i0], c.u[i1], c.y[i0], c.y[i1], alpha⟩] } (max i0 i1) = _ from r1]
    simp only [Option.bind_some]
    exact r2
  · rw [d7, a7]
  · rw [d8, a8]
  · have hz : ∀ (l m : List String) (a b : String), l.length = m.length →
        (l ++ [a]).zip (m ++ [b]) = l.zip m ++ [(a, b)] := by
      intro l m a b h; rw [List.zip_append h]; rfl
    rw [e4, e2, hz _ _ _ _ (by rw [w1.cucy]), b4, b2, hz _ _ _ _ hc.cucy.symm, List.append_assoc]
    refine List.Perm.append_left _ ?_
    rw [a7] at e3
    rw [a8] at e1
    rw [List.getElem?_eraseIdx_of_lt (by omega)] at e3 e1
    rcases Nat.lt_or_gt_of_ne hne with h | h
    · rw [Nat.max_eq_right h.le] at b1 b3
      rw [Nat.min_eq_left h.le] at e1 e3
      have q1 : ui' = c.u[i1] := by
        have : c.u[i1]? = some ui' := b1
        rw [List.getElem?_eq_getElem g1] at this; exact (Option.some.inj this).symm
      have q2 : yi' = c.y[i1] := by
        have : c.y[i1]? = some yi' := b3
        rw [List.getElem?_eq_getElem h1] at this; exact (Option.some.inj this).symm
      have q3 : uj' = c.u[i0] := by
        have : c.u[i0]? = some uj' := e1
        rw [List.getElem?_eq_getElem g0] at this; exact (Option.some.inj this).symm
      have q4 : yj' = c.y[i0] := by
        have : c.y[i0]? = some yj' := e3
        rw [List.getElem?_eq_getElem h0] at this; exact (Option.some.inj this).symm
      rw [q1, q2, q3, q4]
      exact List.Perm.swap _ _ _
    · rw [Nat.max_eq_left h.le] at b1 b3
      rw [Nat.min_eq_right h.le] at e1 e3
      have q1 : ui' = c.u[i0] := by
        have : c.u[i0]? = some ui' := b1
        rw [List.getElem?_eq_getElem g0] at this; exact (Option.some.inj this).symm
      have q2 : yi' = c.y[i0] := by
        have : c.y[i0]? = some yi' := b3
        rw [List.getElem?_eq_getElem h0] at this; exact (Option.some.inj this).symm
      have q3 : uj' = c.u[i1] := by
        have : c.u[i1]? = some uj' := e1
        rw [List.getElem?_eq_getElem g1] at this; exact (Option.some.inj this).symm
      have q4 : yj' = c.y[i1] := by
        have : c.y[i1]? = some yj' := e3
        rw [List.getElem?_eq_getElem h1] at this; exact (Option.some.inj this).symm
      rw [q1, q2, q3, q4]
      exact List.Perm.refl _
  · intro p hp q hq
    rw [co2 p (p1.mem_iff.2 hp) q (p1.mem_iff.2 hq)]
    exact co1 p hp q hq
  · intro β α
    exact (se2 β α).trans (se1 β α)

/-- **C07**: `add_connector` raises exactly when the two indices are equal or one of them is
not the index of a port. -/
theorem C07_add_connector_error (c : Core K) (hc : WF c) (hu : c.u.Nodup) (i0 i1 : ℕ) (alpha : K) :
    c.addConnector i0 i1 alpha = none ↔ i0 = i1 ∨ c.y.length ≤ i0 ∨ c.y.length ≤ i1 := by
  constructor
  · intro h
    by_contra hn
    push Not at hn
    obtain ⟨c', _, _, _, _, e, _⟩ := C07_add_connector c hc hu i0 i1 alpha hn.2.1 hn.2.2 hn.1
    rw [h] at e; simp at e
  · intro h
    unfold addConnector
    split_ifs with a b
    · rfl
    · omega
    · rfl

/-- **C07**, any history: starting from a core whose connector variables are described by its
connectors (in particular with none of them), every sequence of calls of `add_connector`
keeps this. -/
theorem C07_history (ops : List (ℕ × ℕ × K)) (c : Core K) (hc : WF c) (hu : c.u.Nodup)
    (hk : ConnOK c) :
    let c' := ops.foldl (fun c o => (c.addConnector o.1 o.2.1 o.2.2).getD c) c
    WF c' ∧ c'.u.Nodup ∧ ConnOK c' ∧ c'.x = c.x ∧ c'.w = c.w ∧
      (∀ β α : Env K, StructEq c'.labels c'.M β α ↔ StructEq c.labels c.M β α) := by
  induction ops generalizing c with
  | nil => exact ⟨hc, hu, hk, rfl, rfl, fun _ _ => Iff.rfl⟩
  | cons o ops ih =>
    simp only [List.foldl_cons]
    cases h : c.addConnector o.1 o.2.1 o.2.2 with
    | none =>
      simpa using ih c hc hu hk
    | some d =>
      have hn : ¬ (o.1 = o.2.1 ∨ c.y.length ≤ o.1 ∨ c.y.length ≤ o.2.1) := by
        rw [← C07_add_connector_error c hc hu o.1 o.2.1 o.2.2, h]; simp
      push Not at hn
      obtain ⟨d', u0, u1, y0, y1, e, -, -, -, -, ec, ex, ew, -, -, -, -, ez, ewf, eu, -, es⟩ :=
        C07_add_connector c hc hu o.1 o.2.1 o.2.2 hn.2.1 hn.2.2 hn.1
      rw [h] at e
      obtain rfl := Option.some.inj e
      have hk' : ConnOK d := by
        unfold ConnOK connPairs at *
        rw [ec, List.flatMap_append]
        refine List.Perm.trans ?_ ez.symm
        exact hk.append_right _
      obtain ⟨f1, f2, f3, f4, f5, f6⟩ := ih d ewf eu hk'
      exact ⟨f1, f2, f3, f4.trans ex, f5.trans ew, fun β α => (f6 β α).trans (es β α)⟩

/-! ### C08 -/

theorem connOK_cy {c : Core K} (hc : WF c) (hk : ConnOK c) : c.cy.Perm (connY c.connectors) := by
  have := hk.map Prod.fst
  rw [List.map_fst_zip (by rw [hc.cucy])] at this
  rw [connY_eq]
  exact this.symm

/-- The parts of `connect` before the inversion, for a core in which connectors describe the
connector variables. -/
theorem connect_unfold (c : Core K) (hc : WF c) (hk : ConnOK c) :
    ∃ c1, MoveOK c c1 ∧ c1.cy = connY c.connectors ∧
      (c1.x = c.x ∧ c1.w = c.w ∧ c1.y = c.y ∧ c1.u = c.u ∧ c1.z = c.z) ∧
      c1.connectors = c.connectors ∧
      let n := c.x.length + c.w.length + c.y.length
      let m := 2 * c.connectors.length
      let S := mswitch c.connectors
      let N := (eye m).sub ((c1.M.slice n (n + m) n (n + m)).mul S)
      c1.M.r = n + m ∧ c1.M.c = n + m ∧
      c.connect = (N.inv).map fun iN => { c1 with
        M := (c1.M.slice 0 n 0 n).add
          ((((c1.M.slice 0 n n c1.M.c).mul S).mul iN).mul (c1.M.slice n c1.M.r 0 n))
        cy := [], cu := [], connectors := [] } := by
  obtain ⟨c1, h1, h2, h3, h4⟩ := sortConnectors_spec c.connectors 0 c [] c.cy hc (by simp) rfl
    (connOK_cy hc hk)
  rw [List.nil_append] at h3
  refine ⟨c1, h2, h3, h4, h2.same.connectors, ?_⟩
  have hlen : c1.cy.length = 2 * c.connectors.length := by rw [h3, connY_length]
  have ht : c1.tot = c.x.length + c.w.length + c.y.length + 2 * c.connectors.length := by
    unfold tot; rw [h4.1, h4.2.1, h4.2.2.1, hlen]
  refine ⟨h2.wf.Mr.trans ht, h2.wf.Mc.trans ht, ?_⟩
  unfold connect
  rw [h1]
  simp only [Option.bind_eq_bind, Option.bind_some]
  have hd : c1.deb .cy = c.x.length + c.w.length + c.y.length := by
    have := h2.wf.xl; have := h2.wf.wl
    simp only [deb]; rw [h4.1] at *; rw [h4.2.1] at *; rw [h4.2.2.1]; omega
  have hf : c1.fin .cy = c.x.length + c.w.length + c.y.length + 2 * c.connectors.length := by
    unfold fin; rw [hd]; simp only [dim]; rw [hlen]
  have hg : c1.getMat .M .cy .cy = c1.M.slice (c.x.length + c.w.length + c.y.length)
      (c.x.length + c.w.length + c.y.length + 2 * c.connectors.length)
      (c.x.length + c.w.length + c.y.length)
      (c.x.length + c.w.length + c.y.length + 2 * c.connectors.length) := by
    simp only [getMat, part, hd, hf]
  rw [hg, hlen, h4.1, h4.2.1, h4.2.2.1]
  rw [if_neg]
  · cases ((eye (2 * c.connectors.length)).sub ((c1.M.slice _ _ _ _).mul
      (mswitch c.connectors)) : Mat K).inv with
    | none => rfl
    | some iN => rfl
  · have := mswitch_shape c.connectors
    have hMc : c1.M.c = _ := h2.wf.Mc.trans ht
    simp only [Mat.slice, hMc]
    omega

/-- Values of an index vector read by name. -/
theorem idxOf_getD {l : List String} (nd : l.Nodup) {i : ℕ} (hi : i < l.length) :
    l.idxOf (l.getD i "") = i := by
  rw [List.getD_eq_getElem?_getD, List.getElem?_eq_getElem hi]
  exact nd.idxOf_getElem i hi

theorem getD_mem {l : List String} {i : ℕ} (hi : i < l.length) : l.getD i "" ∈ l := by
  rw [List.getD_eq_getElem?_getD, List.getElem?_eq_getElem hi]; simp

/-- Structure equations of a list split in two parts. -/
theorem structEq_split (A B : List String) (M : Mat K) (β α : Env K) :
    StructEq (A ++ B) M β α ↔
    (∀ i < A.length, β (A.getD i "") = ∑ j ∈ range A.length, M.e i j * α (A.getD j "") +
        ∑ j ∈ range B.length, M.e i (A.length + j) * α (B.getD j "")) ∧
    (∀ i < B.length, β (B.getD i "") = ∑ j ∈ range A.length, M.e (A.length + i) j * α (A.getD j "") +
        ∑ j ∈ range B.length, M.e (A.length + i) (A.length + j) * α (B.getD j "")) := by
  unfold StructEq
  have gl : ∀ i, i < A.length → (A ++ B).getD i "" = A.getD i "" := fun i hi => by
    simp only [List.getD_eq_getElem?_getD, List.getElem?_append_left hi]
  have gr : ∀ i, (A ++ B).getD (A.length + i) "" = B.getD i "" := fun i => by
    simp only [List.getD_eq_getElem?_getD]
    rw [List.getElem?_append_right (by omega), Nat.add_sub_cancel_left]
  have hs : ∀ i, ∑ j ∈ range (A ++ B).length, M.e i j * α ((A ++ B).getD j "") =
      ∑ j ∈ range A.length, M.e i j * α (A.getD j "") +
        ∑ j ∈ range B.length, M.e i (A.length + j) * α (B.getD j "") := by
    intro i
    rw [List.length_append, Finset.sum_range_add]
    congr 1
    · exact sum_congr rfl fun j hj => by rw [gl j (mem_range.1 hj)]
    · exact sum_congr rfl fun j _ => by rw [gr j]
  constructor
  · intro h
    constructor
    · intro i hi
      rw [← hs, ← gl i hi]
      exact h i (by rw [List.length_append]; omega)
    · intro i hi
      rw [← hs, ← gr i]
      exact h _ (by rw [List.length_append]; omega)
  · rintro ⟨h1, h2⟩ i hi
    rw [hs]
    rcases Nat.lt_or_ge i A.length with h | h
    · rw [gl i h]; exact h1 i h
    · obtain ⟨k, rfl⟩ := Nat.exists_eq_add_of_le h
      rw [gr]
      exact h2 k (by rw [List.length_append] at hi; omega)

/-- Connector relations read by position. -/
theorem connRel_index {ks : List (Conn K)} (β α : Env K) :
    (∀ k ∈ ks, ConnRel k β α) ↔
    ∀ i < 2 * ks.length, α ((connY ks).getD i "") =
      (mswitch ks).mv (fun j => β ((connY ks).getD j "")) i := by
  have g : ∀ t k, ks[t]? = some k → (connY ks).getD (2 * t) "" = k.y0 ∧
      (connY ks).getD (2 * t + 1) "" = k.y1 := by
    intro t k h
    obtain ⟨h1, h2⟩ := connY_get ks t k h
    simp only [List.getD_eq_getElem?_getD, h1, h2, Option.getD_some, and_self]
  constructor
  · intro h i hi
    have ht : i / 2 < ks.length := by omega
    have hk := List.getElem?_eq_getElem ht
    obtain ⟨e0, e1⟩ := g (i / 2) _ hk
    obtain ⟨s0, s1⟩ := mswitch_mv ks (fun j => β ((connY ks).getD j "")) (i / 2) _ hk
    obtain ⟨r0, r1⟩ := h _ (List.getElem_mem ht)
    rcases Nat.mod_two_eq_zero_or_one i with hm | hm
    · rw [show i = 2 * (i / 2) by omega, s0, e0, e1, r0]
    · rw [show i = 2 * (i / 2) + 1 by omega, s1, e0, e1, r1]
  · intro h k hk
    obtain ⟨t, ht, rfl⟩ := List.getElem_of_mem hk
    have hk := List.getElem?_eq_getElem ht
    obtain ⟨e0, e1⟩ := g t _ hk
    obtain ⟨s0, s1⟩ := mswitch_mv ks (fun j => β ((connY ks).getD j "")) t _ hk
    have r0 := h (2 * t) (by omega)
    have r1 := h (2 * t + 1) (by omega)
    rw [s0, e0, e1] at r0
    rw [s1, e0, e1] at r1
    exact ⟨r0, r1⟩

/-- **C08**: when `connect()` succeeds, the other variables are unchanged, no connector is left,
and an assignment of the remaining variables satisfies the new structure equations iff it
extends to the connector variables so that the old structure equations and every connector
relation hold. -/
theorem C08_connect (c c' : Core K) (hc : WF c) (hk : ConnOK c) (h : c.connect = some c') :
    WF c' ∧ c'.x = c.x ∧ c'.w = c.w ∧ c'.y = c.y ∧ c'.u = c.u ∧ c'.z = c.z ∧ c'.H = c.H ∧
      c'.cy = [] ∧ c'.cu = [] ∧ c'.connectors = [] ∧
      ∀ β α : Env K, StructEq c'.labels c'.M β α ↔
        ∃ β' α' : Env K, (∀ p ∈ c'.labels, β' p = β p ∧ α' p = α p) ∧
          StructEq c.labels c.M β' α' ∧ ∀ k ∈ c.connectors, ConnRel k β' α' := by
  obtain ⟨c1, ok, hcy, ⟨hx, hw, hy, hu, hz⟩, hcon, hMr, hMc, hconn⟩ := connect_unfold c hc hk
  rw [hconn, Option.map_eq_some_iff] at h
  obtain ⟨iN, hinv, rfl⟩ := h
  have hlab : c1.labels = (c.x ++ c.w ++ c.y) ++ connY c.connectors := by
    simp [labels, hx, hw, hy, hcy]
  have hnd := ok.wf.nodup
  rw [hlab] at hnd
  have hn : (c.x ++ c.w ++ c.y).length = c.x.length + c.w.length + c.y.length := by
    simp only [List.length_append]
  have hm : (connY c.connectors).length = 2 * c.connectors.length := connY_length _
  have hlab' : (({ c1 with
        M := (c1.M.slice 0 (c.x.length + c.w.length + c.y.length) 0
            (c.x.length + c.w.length + c.y.length)).add
          ((((c1.M.slice 0 (c.x.length + c.w.length + c.y.length)
            (c.x.length + c.w.length + c.y.length) c1.M.c).mul (mswitch c.connectors)).mul iN).mul
            (c1.M.slice (c.x.length + c.w.length + c.y.length) c1.M.r 0
              (c.x.length + c.w.length + c.y.length)))
        cy := [], cu := [], connectors := [] } : Core K)).labels = c.x ++ c.w ++ c.y := by
    simp [labels, hx, hw, hy]
  refine ⟨⟨?_, ?_, ok.wf.uy, rfl, ok.wf.wz, ok.wf.dxH, ok.wf.xl, ok.wf.wl, ?_⟩, hx, hw, hy, hu, hz,
    ok.same.H, rfl, rfl, rfl, ?_⟩
  · simp only [Mat.add, Mat.slice, tot, hx, hw, hy, hMr, List.length_nil]; omega
  · simp only [Mat.add, Mat.slice, tot, hx, hw, hy, hMc, List.length_nil]; omega
  · rw [hlab']; exact (List.nodup_append.1 hnd).1
  intro β α
  rw [hlab']
  set A := c.x ++ c.w ++ c.y with hA
  set B := connY c.connectors with hB
  have hdisj : ∀ p ∈ A, p ∉ B := fun p hp hp' => (List.nodup_append.1 hnd).2.2 p hp p hp' rfl
  have hndB : B.Nodup := (List.nodup_append.1 hnd).2.1
  have key := eliminate_index c1.M (mswitch c.connectors) _ iN _ hMr hMc
    (mswitch_shape c.connectors).1 (mswitch_shape c.connectors).2 rfl (inv_isInv hinv) rfl
    (fun i => β (A.getD i "")) (fun i => α (A.getD i ""))
  have hse : StructEq A ((c1.M.slice 0 (c.x.length + c.w.length + c.y.length) 0
            (c.x.length + c.w.length + c.y.length)).add
          ((((c1.M.slice 0 (c.x.length + c.w.length + c.y.length)
            (c.x.length + c.w.length + c.y.length) c1.M.c).mul (mswitch c.connectors)).mul iN).mul
            (c1.M.slice (c.x.length + c.w.length + c.y.length) c1.M.r 0
              (c.x.length + c.w.length + c.y.length)))) β α ↔ _ := Iff.trans (by
      unfold StructEq
      rw [hn]
      refine forall_congr' fun i => forall_congr' fun _ => ?_
      have : ((c1.M.slice 0 (c.x.length + c.w.length + c.y.length) 0
            (c.x.length + c.w.length + c.y.length)).add
          ((((c1.M.slice 0 (c.x.length + c.w.length + c.y.length)
            (c.x.length + c.w.length + c.y.length) c1.M.c).mul (mswitch c.connectors)).mul iN).mul
            (c1.M.slice (c.x.length + c.w.length + c.y.length) c1.M.r 0
              (c.x.length + c.w.length + c.y.length)))).c = c.x.length + c.w.length + c.y.length := by
        simp only [Mat.add, Mat.slice, hMc]; omega
      unfold mv
      rw [this]) key
  rw [hse]
  constructor
  · rintro ⟨bc, h1, h2⟩
    refine ⟨fun p => if p ∈ B then bc (B.idxOf p) else β p,
      fun p => if p ∈ B then (mswitch c.connectors).mv bc (B.idxOf p) else α p, ?_, ?_, ?_⟩
    · intro p hp
      simp [hdisj p hp]
    · rw [← ok.same.eqs, hlab, structEq_split, hn, hm]
      have eA : ∀ j < c.x.length + c.w.length + c.y.length,
          (if A.getD j "" ∈ B then bc (B.idxOf (A.getD j "")) else β (A.getD j "")) =
            β (A.getD j "") ∧
          (if A.getD j "" ∈ B then (mswitch c.connectors).mv bc (B.idxOf (A.getD j ""))
            else α (A.getD j "")) = α (A.getD j "") := by
        intro j hj
        have := hdisj _ (getD_mem (l := A) (by rw [hn]; exact hj))
        simp only [this, if_false, and_self]
      have eB : ∀ j < 2 * c.connectors.length,
          (if B.getD j "" ∈ B then bc (B.idxOf (B.getD j "")) else β (B.getD j "")) = bc j ∧
          (if B.getD j "" ∈ B then (mswitch c.connectors).mv bc (B.idxOf (B.getD j ""))
            else α (B.getD j "")) = (mswitch c.connectors).mv bc j := by
        intro j hj
        have hj' : j < B.length := by rw [hm]; exact hj
        simp only [getD_mem hj', if_true, idxOf_getD hndB hj', and_self]
      constructor
      · intro i hi
        rw [(eA i hi).1, h1 i hi]
        congr 1
        · exact sum_congr rfl fun j hj => by rw [(eA j (mem_range.1 hj)).2]
        · exact sum_congr rfl fun j hj => by rw [(eB j (mem_range.1 hj)).2]
      · intro i hi
        rw [(eB i hi).1, h2 i hi]
        congr 1
        · exact sum_congr rfl fun j hj => by rw [(eA j (mem_range.1 hj)).2]
        · exact sum_congr rfl fun j hj => by rw [(eB j (mem_range.1 hj)).2]
    · rw [connRel_index]
      intro i hi
      have hi' : i < B.length := by rw [hm]; exact hi
      simp only [← hB, getD_mem hi', if_true, idxOf_getD hndB hi']
      refine mv_congr (fun j hj => ?_) i
      rw [(mswitch_shape _).2] at hj
      have hj' : j < B.length := by rw [hm]; exact hj
      simp only [getD_mem hj', if_true, idxOf_getD hndB hj']
  · rintro ⟨β', α', hag, hst, hrel⟩
    rw [← ok.same.eqs, hlab, structEq_split, hn, hm] at hst
    rw [connRel_index] at hrel
    have eA : ∀ j < c.x.length + c.w.length + c.y.length,
        β' (A.getD j "") = β (A.getD j "") ∧ α' (A.getD j "") = α (A.getD j "") :=
      fun j hj => hag _ (getD_mem (by rw [hn]; exact hj))
    refine ⟨fun j => β' (B.getD j ""), ?_, ?_⟩
    · intro i hi
      rw [← (eA i hi).1, hst.1 i hi]
      congr 1
      · exact sum_congr rfl fun j hj => by rw [(eA j (mem_range.1 hj)).2]
      · exact sum_congr rfl fun j hj => by rw [hrel j (mem_range.1 hj)]
    · intro i hi
      beta_reduce
      rw [hst.2 i hi]
      congr 1
      · exact sum_congr rfl fun j hj => by rw [(eA j (mem_range.1 hj)).2]
      · exact sum_congr rfl fun j hj => by rw [hrel j (mem_range.1 hj)]

/-- **C08**: `connect()` raises exactly when the connection is ill-posed: with every other
flow and effort equal to zero at the inputs, the structure and the connector relations admit
a solution with a connector output different from zero. -/
theorem C08_connect_error (c : Core K) (hc : WF c) (hk : ConnOK c) :
    c.connect = none ↔ ∃ β α : Env K, StructEq c.labels c.M β α ∧
      (∀ k ∈ c.connectors, ConnRel k β α) ∧ (∀ p ∈ c.x ++ c.w ++ c.y, α p = 0) ∧
      ∃ p ∈ c.cy, β p ≠ 0 := by
  obtain ⟨c1, ok, hcy, ⟨hx, hw, hy, hu, hz⟩, hcon, hMr, hMc, hconn⟩ := connect_unfold c hc hk
  rw [hconn, Option.map_eq_none_iff, inv_none_kernel (m := 2 * c.connectors.length) rfl
    (by simp [Mat.sub, eye])]
  have hlab : c1.labels = (c.x ++ c.w ++ c.y) ++ connY c.connectors := by
    simp [labels, hx, hw, hy, hcy]
  have hnd := ok.wf.nodup
  rw [hlab] at hnd
  have hn : (c.x ++ c.w ++ c.y).length = c.x.length + c.w.length + c.y.length := by
    simp only [List.length_append]
  have hm : (connY c.connectors).length = 2 * c.connectors.length := connY_length _
  have hcyB := connOK_cy hc hk
  set A := c.x ++ c.w ++ c.y with hA
  set B := connY c.connectors with hB
  have hdisj : ∀ p ∈ A, p ∉ B := fun p hp hp' => (List.nodup_append.1 hnd).2.2 p hp p hp' rfl
  have hndB : B.Nodup := (List.nodup_append.1 hnd).2.1
  have hNmv : ∀ (v : ℕ → K) i, i < 2 * c.connectors.length →
      ((eye (2 * c.connectors.length)).sub ((c1.M.slice (c.x.length + c.w.length + c.y.length)
        (c.x.length + c.w.length + c.y.length + 2 * c.connectors.length)
        (c.x.length + c.w.length + c.y.length)
        (c.x.length + c.w.length + c.y.length + 2 * c.connectors.length)).mul
          (mswitch c.connectors))).mv v i = v i - ∑ j ∈ range (2 * c.connectors.length),
          c1.M.e (c.x.length + c.w.length + c.y.length + i)
            (c.x.length + c.w.length + c.y.length + j) * (mswitch c.connectors).mv v j := by
    intro v i hi
    rw [mv_sub_mat _ _ (by simp [eye, mul, (mswitch_shape c.connectors).2]), mv_eye _ _ _ hi, mv_mul]
    congr 1
    simp [mv, Mat.slice, hMc]
  constructor
  · rintro ⟨v, ⟨i0, hi0, hv0⟩, hv⟩
    refine ⟨fun p => if p ∈ B then v (B.idxOf p) else ∑ j ∈ range (2 * c.connectors.length),
        c1.M.e (A.idxOf p) (c.x.length + c.w.length + c.y.length + j) *
          (mswitch c.connectors).mv v j,
      fun p => if p ∈ B then (mswitch c.connectors).mv v (B.idxOf p) else 0, ?_, ?_, ?_, ?_⟩
    · rw [← ok.same.eqs, hlab, structEq_split, hn, hm]
      have eA : ∀ j < c.x.length + c.w.length + c.y.length,
          (if A.getD j "" ∈ B then (mswitch c.connectors).mv v (B.idxOf (A.getD j ""))
            else 0) = 0 := by
        intro j hj
        have := hdisj _ (getD_mem (l := A) (by rw [hn]; exact hj))
        simp only [this, if_false]
      have eB : ∀ j < 2 * c.connectors.length,
          (if B.getD j "" ∈ B then (mswitch c.connectors).mv v (B.idxOf (B.getD j ""))
            else 0) = (mswitch c.connectors).mv v j := by
        intro j hj
        have hj' : j < B.length := by rw [hm]; exact hj
        simp only [getD_mem hj', if_true, idxOf_getD hndB hj']
      have sA : ∀ i, ∑ j ∈ range (c.x.length + c.w.length + c.y.length), c1.M.e i j *
          (if A.getD j "" ∈ B then (mswitch c.connectors).mv v (B.idxOf (A.getD j "")) else 0) = 0 :=
        fun i => sum_eq_zero fun j hj => by rw [eA j (mem_range.1 hj), mul_zero]
      constructor
      · intro i hi
        have hi' : i < A.length := by rw [hn]; exact hi
        have := hdisj _ (getD_mem hi')
        rw [sA, zero_add]
        simp only [this, if_false, idxOf_getD (List.nodup_append.1 hnd).1 hi']
        exact sum_congr rfl fun j hj => by rw [eB j (mem_range.1 hj)]
      · intro i hi
        have hi' : i < B.length := by rw [hm]; exact hi
        rw [sA, zero_add]
        have := hv i hi
        rw [hNmv v i hi, sub_eq_zero] at this
        simp only [getD_mem hi', if_true, idxOf_getD hndB hi']
        rw [this]
        refine sum_congr rfl fun j hj => ?_
        have := eB j (mem_range.1 hj)
        have hj' : j < B.length := by rw [hm]; exact mem_range.1 hj
        simp only [getD_mem hj', if_true, idxOf_getD hndB hj'] 
    · rw [connRel_index]
      intro i hi
      have hi' : i < B.length := by rw [hm]; exact hi
      simp only [← hB, getD_mem hi', if_true, idxOf_getD hndB hi']
      refine mv_congr (fun j hj => ?_) i
      rw [(mswitch_shape _).2] at hj
      have hj' : j < B.length := by rw [hm]; exact hj
      simp only [getD_mem hj', if_true, idxOf_getD hndB hj']
    · intro p hp
      simp [hdisj p hp]
    · have hi' : i0 < B.length := by rw [hm]; exact hi0
      refine ⟨B.getD i0 "", hcyB.mem_iff.2 (getD_mem hi'), ?_⟩
      simp only [getD_mem hi', if_true, idxOf_getD hndB hi']
      exact hv0
  · rintro ⟨β, α, hst, hrel, hzero, p, hp, hpn⟩
    rw [← ok.same.eqs, hlab, structEq_split, hn, hm] at hst
    rw [connRel_index] at hrel
    refine ⟨fun j => β (B.getD j ""), ?_, ?_⟩
    · obtain ⟨i, hi, rfl⟩ := List.getElem_of_mem (hcyB.mem_iff.1 hp)
      refine ⟨i, by rw [← hm]; exact hi, ?_⟩
      beta_reduce; rw [List.getD_eq_getElem?_getD, List.getElem?_eq_getElem hi]
      exact hpn
    · intro i hi
      rw [hNmv _ i hi, sub_eq_zero]
      beta_reduce
      rw [hst.2 i hi, sum_eq_zero, zero_add]
      · exact sum_congr rfl fun j hj => by rw [hrel j (mem_range.1 hj)]
      · intro j hj
        rw [hzero _ (getD_mem (by rw [hn]; exact mem_range.1 hj)), mul_zero]

/-! ### C09 -/

/-- Power `Σ α β` of an assignment over a list of variables. -/
def power (l : List String) (β α : Env K) : K := (l.map fun p => α p * β p).sum

theorem sum_getD (l : List String) (f : String → K) :
    ∑ i ∈ range l.length, f (l.getD i "") = (l.map f).sum := by
  induction l with
  | nil => simp
  | cons a l ih =>
    rw [List.length_cons, sum_range_succ', List.map_cons, List.sum_cons, ← ih, add_comm]
    simp

theorem quad_struct {l : List String} {M : Mat K} (hr : M.r = l.length) (hcM : M.c = l.length)
    {β α : Env K} (h : StructEq l M β α) :
    M.quad (fun i => α (l.getD i "")) = power l β α := by
  unfold power
  rw [← sum_getD]
  unfold quad dot mv
  rw [hr, hcM]
  refine sum_congr rfl fun i hi => ?_
  rw [h i (mem_range.1 hi)]

theorem conn_power (ks : List (Conn K)) (β α : Env K) (h : ∀ k ∈ ks, ConnRel k β α) :
    power (connY ks) β α = 0 := by
  induction ks with
  | nil => rfl
  | cons k ks ih =>
    have e : connY (k :: ks) = k.y0 :: k.y1 :: connY ks := rfl
    obtain ⟨h1, h2⟩ := h k (by simp)
    have := ih fun k hk => h k (by simp [hk])
    unfold power at *
    rw [e, List.map_cons, List.map_cons, List.sum_cons, List.sum_cons, this, h1, h2]
    ring

/-- **C09**: `connect()` neither creates nor dissipates power: each solution of the connected
structure is the restriction of a solution of the initial structure with the same power. -/
theorem C09_power (c c' : Core K) (hc : WF c) (hk : ConnOK c) (h : c.connect = some c')
    (β α : Env K) (hst : StructEq c'.labels c'.M β α) :
    ∃ β' α' : Env K, (∀ p ∈ c'.labels, β' p = β p ∧ α' p = α p) ∧
      StructEq c.labels c.M β' α' ∧ power c.labels β' α' = power c'.labels β α := by
  obtain ⟨_, hx, hw, hy, _, _, _, hcy, _, _, key⟩ := C08_connect c c' hc hk h
  obtain ⟨β', α', hag, hs, hrel⟩ := (key β α).1 hst
  refine ⟨β', α', hag, hs, ?_⟩
  have e : c.labels = (c.x ++ c.w ++ c.y) ++ c.cy := rfl
  have e' : c'.labels = c.x ++ c.w ++ c.y := by simp [labels, hx, hw, hy, hcy]
  rw [e'] at hag
  have hz : power c.cy β' α' = 0 := by
    rw [← conn_power c.connectors β' α' hrel]
    unfold power
    exact ((connOK_cy hc hk).map _).sum_eq
  rw [e, e']
  unfold power at *
  rw [List.map_append, List.sum_append, hz, add_zero]
  congr 1
  refine List.map_congr_left fun p hp => ?_
  rw [(hag p hp).1, (hag p hp).2]

/-- Each quadratic form value of the connected structure is one of the initial structure. -/
theorem C09_quad (c c' : Core K) (hc : WF c) (hk : ConnOK c) (h : c.connect = some c')
    (a : ℕ → K) : ∃ a' : ℕ → K, c.M.quad a' = c'.M.quad a := by
  have hwf := (C08_connect c c' hc hk h).1
  have hr : c'.M.r = c'.labels.length := by rw [hwf.Mr]; rw [labels_length]
  have hcc : c'.M.c = c'.labels.length := by rw [hwf.Mc]; rw [labels_length]
  have hr0 : c.M.r = c.labels.length := by rw [hc.Mr]; rw [labels_length]
  have hc0 : c.M.c = c.labels.length := by rw [hc.Mc]; rw [labels_length]
  let α : Env K := fun p => a (c'.labels.idxOf p)
  let β : Env K := fun p => c'.M.mv a (c'.labels.idxOf p)
  have hst : StructEq c'.labels c'.M β α := by
    intro i hi
    simp only [β, α, idxOf_getD hwf.nodup hi]
    unfold mv
    rw [hcc]
    refine sum_congr rfl fun j hj => ?_
    rw [idxOf_getD hwf.nodup (mem_range.1 hj)]
  obtain ⟨β', α', _, hs, hp⟩ := C09_power c c' hc hk h β α hst
  refine ⟨fun i => α' (c.labels.getD i ""), ?_⟩
  rw [quad_struct hr0 hc0 hs, hp, ← quad_struct hr hcc hst]
  refine quad_congr (hr.trans hcc.symm) fun i hi => ?_
  simp only [α]
  rw [idxOf_getD hwf.nodup (by rw [← hr]; exact hi)]

/-- **C09**: connecting a conservative structure gives a conservative structure. -/
theorem C09_conservative (h2 : (2 : K) ≠ 0) (c c' : Core K) (hc : WF c) (hk : ConnOK c)
    (h : c.connect = some c') (hs : c.M.IsSkew) : c'.M.IsSkew := by
  have hwf := (C08_connect c c' hc hk h).1
  rw [isSkew_iff_quad h2 _ (hwf.Mr.trans hwf.Mc.symm)]
  rw [isSkew_iff_quad h2 _ (hc.Mr.trans hc.Mc.symm)] at hs
  intro a
  obtain ⟨a', e⟩ := C09_quad c c' hc hk h a
  rw [← e, hs]

/-- **C09**: connecting a passive structure gives a passive structure. -/
theorem C09_passive {K : Type} [Field K] [LinearOrder K] [IsStrictOrderedRing K]
    (c c' : Core K) (hc : WF c) (hk : ConnOK c)
    (h : c.connect = some c') (hs : c.M.Passive) : c'.M.Passive := by
  have hwf := (C08_connect c c' hc hk h).1
  refine ⟨hwf.Mr.trans hwf.Mc.symm, fun a => ?_⟩
  obtain ⟨a', e⟩ := C09_quad c c' hc hk h a
  rw [← e]
  exact hs.2 a'

/-! ### whole pipeline -/

/-- **C08**, **C10**: what the user gets by `add_connector((i0, i1), alpha)` then `connect()` on
a core without connectors: the equations of the initial core together with
`u[i0] = -alpha*y[i1]`, `u[i1] = alpha*y[i0]`. -/
theorem C10_sign_of_code (c : Core K) (hc : WF c) (hu : c.u.Nodup) (hcy : c.cy = [])
    (hco : c.connectors = []) (i0 i1 : ℕ) (alpha : K) (y0 y1 : String)
    (h0 : c.y[i0]? = some y0) (h1 : c.y[i1]? = some y1) (hne : i0 ≠ i1) (c' : Core K)
    (h : (c.addConnector i0 i1 alpha).bind connect = some c') (β α : Env K) :
    StructEq c'.labels c'.M β α ↔
      ∃ β' α' : Env K, (∀ p ∈ c'.labels, β' p = β p ∧ α' p = α p) ∧
        StructEq c.labels c.M β' α' ∧
        α' y0 = - alpha * β' y1 ∧ α' y1 = alpha * β' y0 := by
  have l0 := (List.getElem?_eq_some_iff.1 h0).1
  have l1 := (List.getElem?_eq_some_iff.1 h1).1
  obtain ⟨d, u0, u1, z0, z1, e, -, -, q0, q1, ec, ex, ew, -, -, -, -, ez, ewf, eu, -, es⟩ :=
    C07_add_connector c hc hu i0 i1 alpha l0 l1 hne
  rw [h0] at q0; rw [h1] at q1
  obtain rfl := Option.some.inj q0
  obtain rfl := Option.some.inj q1
  rw [e] at h
  have hk : ConnOK d := by
    unfold ConnOK connPairs
    rw [ec, hco]
    rw [hcy] at ez
    exact ez.symm
  obtain ⟨_, _, _, _, _, _, _, _, _, _, key⟩ := C08_connect d c' ewf hk h
  rw [key]
  refine exists_congr fun β' => exists_congr fun α' => and_congr_right fun _ => ?_
  rw [es, ec, hco]
  simp [ConnRel]

/-- Two ports of a gyrator-like structure joined by a connector: `y1 = x`, `dx = -u1`,
`y2 = u2`-resistor. -/
def exConn : Core ℚ :=
  { (Core.empty : Core ℚ) with
    x := ["x"], u := ["u1", "u2", "u3"], y := ["y1", "y2", "y3"]
    M := ⟨4, 4, fun i j => if i = 0 ∧ j = 1 then -1 else if i = 1 ∧ j = 0 then 1
      else if i = 2 ∧ j = 3 then 1 else if i = 3 ∧ j = 2 then -1 else 0⟩ }

theorem exConn_wf : WF exConn :=
  ⟨rfl, rfl, rfl, rfl, rfl, by simp [exConn, Core.empty], by simp [exConn, Core.empty],
    by simp [exConn, Core.empty], by decide⟩

example : exConn.u.Nodup ∧ ConnOK exConn := ⟨by decide, by simp [ConnOK, connPairs, exConn, Core.empty]⟩

example : ((exConn.addConnector 0 1 3).bind connect).isSome = true := by decide +kernel
example : ((exConn.addConnector 0 1 3).bind connect).map (fun c => (c.labels, c.coef "x" "y3",
    c.coef "y3" "x")) = some (["x", "y3"], 3, -3) := by decide +kernel
/-- The ill-posed case of C08: a direct loop `y1 = u2`, `y2 = u1` closed with gain 1. -/
example : ((({ exConn with
    M := ⟨4, 4, fun i j => if i = 1 ∧ j = 2 then 1 else if i = 2 ∧ j = 1 then -1 else 0⟩ } :
      Core ℚ).addConnector 0 1 1).bind connect).isNone = true := by decide +kernel

/-- **C10**, disagreement with the documentation: the relation documented for `add_connector`
(`u[i0] = alpha*y[i1]`, `u[i1] = -alpha*y[i0]`) is not the one implemented by `connect`. Here
the structure of `exConn` with gain 3 between ports 1 and 2 gives `dx = 3*u3`
instead of `dx = -3*u3`. -/
theorem C10_documented_sign_counterexample :
    ∃ (c c' : Core ℚ) (β α : Env ℚ), WF c ∧ c.u.Nodup ∧ c.y[0]? = some "y1" ∧
      c.y[1]? = some "y2" ∧ (c.addConnector 0 1 3).bind connect = some c' ∧
      StructEq c'.labels c'.M β α ∧
      ¬ ∃ β' α' : Env ℚ, (∀ p ∈ c'.labels, β' p = β p ∧ α' p = α p) ∧
        StructEq c.labels c.M β' α' ∧ DocRel ⟨"u1", "u2", "y1", "y2", 3⟩ β' α' := by
  refine ⟨exConn, ((exConn.addConnector 0 1 3).bind connect).get (by decide +kernel),
    fun p => if p = "x" then 3 else 0, fun p => if p = "y3" then 1 else 0, exConn_wf, by decide,
    rfl, rfl, (Option.some_get _).symm, ?_, ?_⟩
  · unfold StructEq; decide +kernel
  · rintro ⟨β', α', hag, hst, h1, h2⟩
    have e1 := hag "x" (by decide +kernel)
    have e2 := hag "y3" (by decide +kernel)
    have s0 := hst 0 (by decide)
    have s2 := hst 2 (by decide)
    simp [exConn, Core.empty, labels, sum_range_succ] at s0 s2
    simp at e1 e2
    simp at h1 h2
    rw [e2.2] at s2
    rw [s2] at h1
    rw [h1, e1.1] at s0
    norm_num at s0

/-- **C10**: the documented relation is obtained by exchanging the two indices (equivalently
by the opposite gain). -/
theorem C10_documented_by_swap (c : Core K) (hc : WF c) (hu : c.u.Nodup) (hcy : c.cy = [])
    (hco : c.connectors = []) (i0 i1 : ℕ) (alpha : K) (u0 u1 y0 y1 : String)
    (h0 : c.y[i0]? = some y0) (h1 : c.y[i1]? = some y1) (hne : i0 ≠ i1) (c' : Core K)
    (h : (c.addConnector i1 i0 alpha).bind connect = some c') (β α : Env K) :
    StructEq c'.labels c'.M β α ↔
      ∃ β' α' : Env K, (∀ p ∈ c'.labels, β' p = β p ∧ α' p = α p) ∧
        StructEq c.labels c.M β' α' ∧ DocRel ⟨u0, u1, y0, y1, alpha⟩ β' α' := by
  rw [C10_sign_of_code c hc hu hcy hco i1 i0 alpha y1 y0 h1 h0 hne.symm c' h β α]
  refine exists_congr fun β' => exists_congr fun α' => and_congr_right fun _ =>
    and_congr_right fun _ => ?_
  unfold DocRel
  exact and_comm

end Core
end Pyphs
