/-
C29, continued: accessors, operations, commands, loop, update.
-/
import Verif.Cpp.Equiv

namespace Pyphs
namespace Cpp
open Numeric

variable {K : Type} [Field K] [LinearOrder K] {N : Type} [DecidableEq N]
variable {G : Gen N K} {Γ : N → Sh} {T : List N}

/-- The Python program. -/
abbrev Gen.py (G : Gen N K) : Prog N K := G.src.prog G.fs0 G.sqrt

theorem py_laidOut (G : Gen N K) : LaidOut G.py G.src.all G.src.syms := fun _ => rfl

/-! ### Accessors and operations -/

theorem rel_get (hS : G.src.WF) (hG : GenOK G) (hA : ArgsOK G.src Γ) {st : St N K} {o : Obj N K}
    (h : Rel G Γ T st o) {n : N} (hn : n ∉ T) {v : NV K} (hv : G.py.get st n = some v) :
    HasSh v (Γ n) ∧ Rep v (G.get o n) := by
  cases hs : G.src.syms n with
  | none =>
    have e : G.py.get st n = st.vals n := by
      have : G.py.argInds n = none := by rw [py_laidOut G n, hs]; rfl
      unfold Prog.get
      rw [this]
    have e2 : G.get o n = o.fld n := by unfold Gen.get; rw [hs]
    rw [e] at hv
    rw [e2]
    exact h.vals n v hn hs hv
  | some l =>
    have hg := get_arg (base := G.src.base G.fs0) (py_laidOut G) hS.nodup h.len hs (hS.sub n l hs)
    rw [hv] at hg
    obtain rfl := Option.some.inj hg
    have e2 : G.get o n = .m ⟨l.length, col l.length, fun i _ => G.env o (l.getD i "")⟩ := by
      unfold Gen.get; rw [hs]
    rw [e2, hA n l hs]
    refine ⟨by simp [HasSh], by simp, by simp, fun i hi => ?_⟩
    have hi' : i < l.length := by simpa using hi
    rw [env_eq hS hG h.args h.len h.sr]
    simp [List.getD_eq_getElem?_getD, hi']

theorem getD_map_range {n : ℕ} (f : ℕ → K) {i : ℕ} (hi : i < n) :
    ((List.range n).map f).getD i 0 = f i := by
  simp [List.getD_eq_getElem?_getD, hi]

theorem rel_add {a b v : NV K} {ca cb : CV K} {t : Sh} (ha : HasSh a t) (hb : HasSh b t)
    (ra : Rep a ca) (rb : Rep b cb) (h : NV.pointwise (· + ·) a b = some v) :
    HasSh v t ∧ ∃ cv, CV.add ca cb = some cv ∧ Rep v cv := by
  cases t with
  | sc =>
    cases a <;> simp only [HasSh] at ha
    cases b <;> simp only [HasSh] at hb
    cases ca <;> simp only [Rep] at ra
    cases cb <;> simp only [Rep] at rb
    subst ra rb
    obtain rfl := Option.some.inj h
    exact ⟨trivial, _, rfl, rfl⟩
  | vec n =>
    cases a <;> simp only [HasSh] at ha
    cases b <;> simp only [HasSh] at hb
    cases ca <;> simp only [Rep] at ra
    cases cb <;> simp only [Rep] at rb
    rename_i la lb A B
    have hl : la.length = lb.length := by rw [ha, hb]
    simp only [NV.pointwise, hl, if_true] at h
    obtain rfl := Option.some.inj h
    refine ⟨by simp [HasSh, ha, hb], .m (A.add B), ?_, ?_, ?_, ?_⟩
    · simp only [CV.add]
      rw [if_pos ⟨by rw [ra.1, rb.1, hl], by rw [ra.2.1, rb.2.1, hl]⟩]
    · show A.r = _
      simp [ra.1, hl]
    · show A.c = _
      rw [ra.2.1]; simp [hl]
    · intro i hi
      have hi' : i < la.length := by
        simp only [List.length_zipWith] at hi; omega
      show A.e i 0 + B.e i 0 = _
      rw [ra.2.2 i hi', rb.2.2 i (by omega)]
      simp [List.getD_eq_getElem?_getD, hi', hl ▸ hi']
  | mat r c =>
    cases a <;> simp only [HasSh] at ha
    cases b <;> simp only [HasSh] at hb
    cases ca <;> simp only [Rep] at ra
    cases cb <;> simp only [Rep] at rb
    rename_i A B A' B'
    have hs : A.r = B.r ∧ A.c = B.c := ⟨by rw [ha.1, hb.1], by rw [ha.2, hb.2]⟩
    simp only [NV.pointwise] at h
    rw [if_pos hs] at h
    obtain rfl := Option.some.inj h
    refine ⟨ha, .m (A'.add B'), ?_, ra.1, ra.2.1, ?_⟩
    · simp only [CV.add]
      rw [if_pos ⟨by rw [← ra.1, ← rb.1, hs.1], by rw [← ra.2.1, ← rb.2.1, hs.2]⟩]
    · intro i hi j hj
      have hi' : i < A.r := hi
      have hj' : j < A.c := hj
      show A.e i j + B.e i j = A'.e i j + B'.e i j
      rw [ra.2.2 i hi j hj, rb.2.2 i (by omega) j (by omega)]

/-- A product where the first factor is a scalar. -/
theorem rel_smul {a b v : NV K} {ca cb : CV K} {t : Sh} (ha : HasSh a .sc) (hb : HasSh b t)
    (ra : Rep a ca) (rb : Rep b cb) (h : NV.pointwise (· * ·) a b = some v) :
    HasSh v t ∧ ∃ cv, CV.mul ca cb = some cv ∧ Rep v cv := by
  cases a <;> simp only [HasSh] at ha
  cases ca <;> simp only [Rep] at ra
  subst ra
  rename_i k
  cases b with
  | s b =>
    cases cb <;> simp only [Rep] at rb
    subst rb
    cases t <;> simp only [HasSh] at hb
    obtain rfl := Option.some.inj h
    exact ⟨trivial, _, rfl, rfl⟩
  | v l =>
    cases cb <;> simp only [Rep] at rb
    cases t <;> simp only [HasSh] at hb
    obtain rfl := Option.some.inj h
    refine ⟨by simpa [HasSh] using hb, _, rfl, by simp [rb.1], by simp [rb.2.1], fun i hi => ?_⟩
    have hi' : i < l.length := by simpa using hi
    simp only
    rw [rb.2.2 i hi']
    simp [List.getD_eq_getElem?_getD, hi']
  | m A =>
    cases cb <;> simp only [Rep] at rb
    cases t <;> simp only [HasSh] at hb
    obtain rfl := Option.some.inj h
    refine ⟨hb, _, rfl, rb.1, rb.2.1, fun i hi j hj => ?_⟩
    simp only
    rw [rb.2.2 i hi j hj]

/-- A product where the second factor is a scalar. -/
theorem rel_muls {a b v : NV K} {ca cb : CV K} {t : Sh} (ha : HasSh a t) (hb : HasSh b .sc)
    (ra : Rep a ca) (rb : Rep b cb) (h : NV.pointwise (· * ·) a b = some v) :
    HasSh v t ∧ ∃ cv, CV.mul ca cb = some cv ∧ Rep v cv := by
  cases b <;> simp only [HasSh] at hb
  cases cb <;> simp only [Rep] at rb
  subst rb
  rename_i k
  cases a with
  | s b =>
    cases ca <;> simp only [Rep] at ra
    subst ra
    cases t <;> simp only [HasSh] at ha
    obtain rfl := Option.some.inj h
    exact ⟨trivial, _, rfl, rfl⟩
  | v l =>
    cases ca <;> simp only [Rep] at ra
    cases t <;> simp only [HasSh] at ha
    obtain rfl := Option.some.inj h
    refine ⟨by simpa [HasSh] using ha, _, rfl, by simp [ra.1], by simp [ra.2.1], fun i hi => ?_⟩
    have hi' : i < l.length := by simpa using hi
    simp only
    rw [ra.2.2 i hi']
    simp [List.getD_eq_getElem?_getD, hi']
  | m A =>
    cases ca <;> simp only [Rep] at ra
    cases t <;> simp only [HasSh] at ha
    obtain rfl := Option.some.inj h
    refine ⟨ha, _, rfl, ra.1, ra.2.1, fun i hi j hj => ?_⟩
    simp only
    rw [ra.2.2 i hi j hj]

theorem rel_mv {A : Mat K} {l : List K} {ca cb : CV K} (ra : Rep (.m A) ca) (rb : Rep (.v l) cb)
    (hc : A.c = l.length) (hr : 0 < A.r) (hl : 0 < l.length) :
    ∃ cv, CV.mul ca cb = some cv ∧
      Rep (.v ((List.range A.r).map (A.mv fun j => l.getD j 0))) cv := by
  cases ca <;> simp only [Rep] at ra
  cases cb <;> simp only [Rep] at rb
  rename_i A' B'
  have e1 : col l.length = 1 := by unfold col; rw [if_neg (by omega)]
  have e2 : col A.r = 1 := by unfold col; rw [if_neg (by omega)]
  refine ⟨.m (A'.mul B'), ?_, ?_, ?_, ?_⟩
  · simp only [CV.mul]
    rw [if_pos (by rw [← ra.2.1, rb.1, hc])]
  · show A'.r = _
    simp [← ra.1]
  · show B'.c = _
    rw [rb.2.1, e1]; simp [e2]
  · intro i hi
    have hi' : i < A.r := by simpa using hi
    rw [getD_map_range _ hi']
    show (∑ k ∈ Finset.range A'.c, A'.e i k * B'.e k 0) = ∑ j ∈ Finset.range A.c, A.e i j * l.getD j 0
    rw [← ra.2.1]
    refine Finset.sum_congr rfl fun k hk => ?_
    have hk' := Finset.mem_range.1 hk
    rw [ra.2.2 i hi' k hk', rb.2.2 k (by omega)]

theorem rel_mm {A B : Mat K} {ca cb : CV K} (ra : Rep (.m A) ca) (rb : Rep (.m B) cb)
    (hc : A.c = B.r) : ∃ cv, CV.mul ca cb = some cv ∧ Rep (.m (A.mul B)) cv := by
  cases ca <;> simp only [Rep] at ra
  cases cb <;> simp only [Rep] at rb
  rename_i A' B'
  refine ⟨.m (A'.mul B'), ?_, ra.1, rb.2.1, ?_⟩
  · simp only [CV.mul]
    rw [if_pos (by rw [← ra.2.1, ← rb.1, hc])]
  · intro i hi j hj
    have hi' : i < A.r := hi
    have hj' : j < B.c := hj
    show (∑ k ∈ Finset.range A.c, A.e i k * B.e k j) = ∑ k ∈ Finset.range A'.c, A'.e i k * B'.e k j
    rw [← ra.2.1]
    refine Finset.sum_congr rfl fun k hk => ?_
    have hk' := Finset.mem_range.1 hk
    rw [ra.2.2 i hi' k hk', rb.2.2 k (by omega) j hj']

theorem sum_sq (l : List K) (f : ℕ → K) (h : ∀ i < l.length, f i = l.getD i 0) :
    ((List.range l.length).map fun i => f i * f i).sum = (l.zipWith (· * ·) l).sum := by
  congr 1
  apply List.ext_getElem
  · simp
  · intro i h1 h2
    have hi : i < l.length := by simpa using h1
    simp [h i hi, List.getD_eq_getElem?_getD, hi]

/-- Operations: a well shaped operation has the same value in C++. -/
theorem rel_evalOp (hS : G.src.WF) (hG : GenOK G) (hA : ArgsOK G.src Γ) {st : St N K}
    {o : Obj N K} (h : Rel G Γ T st o) (op : Op N K) :
    ∀ t v, opTy Γ T op = some t → G.py.evalOp st op = some v →
      HasSh v t ∧ ∃ cv, G.evalOp o op = some cv ∧ Rep v cv := by
  induction op with
  | ref n =>
    intro t v ht hv
    simp only [opTy] at ht
    split_ifs at ht with hn
    obtain rfl := Option.some.inj ht
    obtain ⟨h1, h2⟩ := rel_get hS hG hA h hn hv
    exact ⟨h1, _, rfl, h2⟩
  | num c =>
    intro t v ht hv
    obtain rfl := Option.some.inj ht
    obtain rfl := Option.some.inj hv
    exact ⟨trivial, _, rfl, rfl⟩
  | add a b iha ihb =>
    intro t v ht hv
    simp only [opTy, Option.bind_eq_bind, Option.bind_eq_some_iff] at ht
    obtain ⟨ta, hta, tb, htb, ht⟩ := ht
    split_ifs at ht with hab
    obtain rfl := Option.some.inj ht
    subst hab
    simp only [Prog.evalOp, Option.bind_eq_bind, Option.bind_eq_some_iff] at hv
    obtain ⟨va, hva, vb, hvb, hv⟩ := hv
    obtain ⟨s1, ca, e1, r1⟩ := iha _ _ hta hva
    obtain ⟨s2, cb, e2, r2⟩ := ihb _ _ htb hvb
    obtain ⟨s3, cv, e3, r3⟩ := rel_add s1 s2 r1 r2 hv
    refine ⟨s3, cv, ?_, r3⟩
    simp only [Gen.evalOp, Option.bind_eq_bind, e1, e2, Option.bind_some, e3]
  | prod a b iha ihb =>
    intro t v ht hv
    simp only [opTy, Option.bind_eq_bind, Option.bind_eq_some_iff] at ht
    obtain ⟨ta, hta, tb, htb, ht⟩ := ht
    simp only [Prog.evalOp, Option.bind_eq_bind, Option.bind_eq_some_iff] at hv
    obtain ⟨va, hva, vb, hvb, hv⟩ := hv
    obtain ⟨s1, ca, e1, r1⟩ := iha _ _ hta hva
    obtain ⟨s2, cb, e2, r2⟩ := ihb _ _ htb hvb
    have key : HasSh v t ∧ ∃ cv, CV.mul ca cb = some cv ∧ Rep v cv := by
      split at ht
      · obtain rfl := Option.some.inj ht
        exact rel_smul s1 s2 r1 r2 hv
      · obtain rfl := Option.some.inj ht
        exact rel_muls s1 s2 r1 r2 hv
      · simp at ht
    obtain ⟨s3, cv, e3, r3⟩ := key
    refine ⟨s3, cv, ?_, r3⟩
    simp only [Gen.evalOp, Option.bind_eq_bind, e1, e2, Option.bind_some, e3]
  | dot a b iha ihb =>
    intro t v ht hv
    simp only [opTy, Option.bind_eq_bind, Option.bind_eq_some_iff] at ht
    obtain ⟨ta, hta, tb, htb, ht⟩ := ht
    simp only [Prog.evalOp, Option.bind_eq_bind, Option.bind_eq_some_iff] at hv
    obtain ⟨va, hva, vb, hvb, hv⟩ := hv
    obtain ⟨s1, ca, e1, r1⟩ := iha _ _ hta hva
    obtain ⟨s2, cb, e2, r2⟩ := ihb _ _ htb hvb
    have key : HasSh v t ∧ ∃ cv, CV.mul ca cb = some cv ∧ Rep v cv := by
      split at ht
      · obtain rfl := Option.some.inj ht
        refine rel_smul s1 s2 r1 r2 ?_
        cases va <;> simp only [HasSh] at s1
        simpa [NV.dot] using hv
      · obtain rfl := Option.some.inj ht
        refine rel_muls s1 s2 r1 r2 ?_
        cases vb <;> simp only [HasSh] at s2
        cases va <;> simpa [NV.dot] using hv
      · split_ifs at ht with hc
        obtain rfl := Option.some.inj ht
        cases va <;> simp only [HasSh] at s1
        cases vb <;> simp only [HasSh] at s2
        rename_i A l
        have hcl : A.c = l.length := by rw [s1.2, s2, hc.1]
        simp only [NV.dot] at hv
        rw [if_pos hcl] at hv
        obtain rfl := Option.some.inj hv
        exact ⟨by simp [HasSh, s1.1], rel_mv r1 r2 hcl (by rw [s1.1]; exact hc.2.1)
          (by rw [s2]; exact hc.2.2)⟩
      · split_ifs at ht with hc
        obtain rfl := Option.some.inj ht
        cases va <;> simp only [HasSh] at s1
        cases vb <;> simp only [HasSh] at s2
        rename_i A B
        have hcl : A.c = B.r := by rw [s1.2, s2.1, hc]
        simp only [NV.dot] at hv
        rw [if_pos hcl] at hv
        obtain rfl := Option.some.inj hv
        exact ⟨⟨s1.1, s2.2⟩, rel_mm r1 r2 hcl⟩
      · simp at ht
    obtain ⟨s3, cv, e3, r3⟩ := key
    refine ⟨s3, cv, ?_, r3⟩
    simp only [Gen.evalOp, Option.bind_eq_bind, e1, e2, Option.bind_some, e3]
  | inv a iha =>
    intro t v ht hv
    simp only [opTy, Option.bind_eq_bind, Option.bind_eq_some_iff] at ht
    obtain ⟨ta, hta, ht⟩ := ht
    simp only [Prog.evalOp, Option.bind_eq_bind, Option.bind_eq_some_iff] at hv
    obtain ⟨va, hva, hv⟩ := hv
    obtain ⟨s1, ca, e1, r1⟩ := iha _ _ hta hva
    split at ht
    · split_ifs at ht with hrc
      obtain rfl := Option.some.inj ht
      cases va <;> simp only [HasSh] at s1
      cases ca <;> simp only [Rep] at r1
      rename_i A A'
      obtain ⟨B, hB, rfl⟩ := Option.map_eq_some_iff.1 hv
      have hi := Mat.inv_isInv hB
      refine ⟨⟨by rw [hi.2.1, s1.1], by rw [hi.2.2.1, s1.1, hrc]⟩, .m (G.einv A'), ?_,
        einv_same hG r1 hi⟩
      simp only [Gen.evalOp, Option.bind_eq_bind, e1, Option.bind_some]
      rw [if_pos (by rw [← r1.1, ← r1.2.1, s1.1, s1.2, hrc])]
    · simp at ht
  | norm a iha =>
    intro t v ht hv
    simp only [opTy, Option.bind_eq_bind, Option.bind_eq_some_iff] at ht
    obtain ⟨ta, hta, ht⟩ := ht
    simp only [Prog.evalOp, Option.bind_eq_bind, Option.bind_eq_some_iff] at hv
    obtain ⟨va, hva, hv⟩ := hv
    obtain ⟨s1, ca, e1, r1⟩ := iha _ _ hta hva
    split at ht
    · obtain rfl := Option.some.inj ht
      cases va <;> simp only [HasSh] at s1
      cases ca <;> simp only [Rep] at r1
      rename_i l A
      obtain rfl := Option.some.inj hv
      refine ⟨trivial, .s _, ?_, rfl⟩
      simp only [Gen.evalOp, Option.bind_eq_bind, e1, Option.bind_some]
      rw [if_pos (by rw [r1.2.1, r1.1]), r1.1, sum_sq l (fun i => A.e i 0) r1.2.2]
      rfl
    · simp at ht
  | copy a iha =>
    intro t v ht hv
    exact iha t v ht hv

end Cpp
end Pyphs
