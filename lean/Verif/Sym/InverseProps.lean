/-
Property C71: the replacement of inverses of parameters does not change the meaning of a core.
-/
import Verif.Sym.Inverse
import Verif.Sym.Props
import Mathlib.Analysis.SpecialFunctions.Pow.Real

namespace Pyphs
namespace Sym

variable {K : Type} [Field K] [LinearOrder K]

/-- Contract on powers: negative powers of a number are positive powers of its inverse. -/
structure PowOK (I : Interp K) : Prop where
  inv : ∀ b, b ≠ 0 → I.f2 "**" b (-1) = b⁻¹
  neg : ∀ b k, b ≠ 0 → k < 0 → I.f2 "**" b⁻¹ (-k) = I.f2 "**" b k

/-- The names made by the replacement are new: no symbol `inv...` of a parameter is a parameter, or occurs in an
expression or in the value of a parameter. -/
structure FreshInv (d : Dict (Val K)) (A : List (Expr K)) : Prop where
  nodup : (Dict.keys d).Nodup
  keys : ∀ s ∈ Dict.keys d, "inv" ++ s ∉ Dict.keys d
  exprs : ∀ s ∈ Dict.keys d, ∀ a ∈ A, "inv" ++ s ∉ a.free
  vals : ∀ s ∈ Dict.keys d, ∀ p ∈ d, "inv" ++ s ∉ p.2.expr.free

/-- Contract on `simplify` for the values `e`: values are kept and no symbol appears. -/
structure SimpAt (I : Interp K) (S : Simp K) (e : String → K) : Prop where
  value : ∀ a, (S.f a).eval I e = a.eval I e

/-- No symbol appears by simplification. -/
def SimpFree (S : Simp K) : Prop := ∀ a, ∀ s ∈ (S.f a).free, s ∈ a.free

/-- The dictionary `d` is `d0` with some inverses added. -/
structure InvOf (d0 d : Dict (Val K)) : Prop where
  sub : ∀ p ∈ d0, p ∈ d
  new : ∀ p ∈ d, p ∈ d0 ∨ ∃ s v v', (s, v) ∈ d0 ∧ invVal v = some v' ∧ p = ("inv" ++ s, v')

theorem InvOf.refl (d : Dict (Val K)) : InvOf d d := ⟨fun _ h => h, fun _ h => .inl h⟩

theorem inv_inj {s t : String} (h : "inv" ++ s = "inv" ++ t) : s = t := by
  have := congrArg String.toList h
  simpa [String.toList_append, String.toList_inj] using this

theorem invPow_some {d : Dict (Val K)} {f : String} {b c : Expr K} {s : String} {v : Val K} {k : K}
    (h : invPow d f b c = some (s, v, k)) :
    f = "**" ∧ b = .sym s ∧ c = .const k ∧ k < 0 ∧ d.lookup s = some v := by
  unfold invPow at h
  split at h
  · split_ifs at h with h1
    rw [Option.map_eq_some_iff] at h
    obtain ⟨v', h2, h3⟩ := h
    simp only [Prod.mk.injEq] at h3
    obtain ⟨rfl, rfl, rfl⟩ := h3
    exact ⟨h1.1, rfl, rfl, h1.2, h2⟩
  · cases h

theorem mem_set_same {V : Type} {d : Dict V} {k : String} {v : V} : (k, v) ∈ Dict.set d k v := by
  unfold Dict.set
  split_ifs with h
  · obtain ⟨p, hp, hk⟩ := List.mem_map.1 h
    exact List.mem_map.2 ⟨p, hp, if_pos hk⟩
  · simp

theorem mem_set_old {V : Type} {d : Dict V} {k : String} {v : V} {p : String × V} (hp : p ∈ d)
    (h : p.1 = k → p.2 = v) : p ∈ Dict.set d k v := by
  unfold Dict.set
  split_ifs with h1
  · refine List.mem_map.2 ⟨p, hp, ?_⟩
    split_ifs with h2
    · rw [← h h2, ← h2]
    · rfl
  · exact List.mem_append_left _ hp

theorem unique_of_nodup {V : Type} {d : Dict V} (h : (Dict.keys d).Nodup) {s : String} {v v' : V}
    (h1 : (s, v) ∈ d) (h2 : (s, v') ∈ d) : v = v' := by
  have := List.inj_on_of_nodup_map h h1 h2 rfl
  simpa using this

/-- The dictionary of the call of one replacement. -/
theorem InvOf.set {d0 d : Dict (Val K)} {A : List (Expr K)} (hf : FreshInv d0 A) (h : InvOf d0 d)
    {s : String} {v v' : Val K} (hs : (s, v) ∈ d0) (hv : invVal v = some v') :
    InvOf d0 (Dict.set d ("inv" ++ s) v') ∧ ∀ p ∈ d, p ∈ Dict.set d ("inv" ++ s) v' := by
  have hsk : s ∈ Dict.keys d0 := List.mem_map_of_mem hs
  have key : ∀ p ∈ d, p ∈ Dict.set d ("inv" ++ s) v' := fun p hp => mem_set_old hp fun hk => by
    rcases h.new p hp with h1 | ⟨t, w, w', h1, h2, rfl⟩
    · exact absurd (hk ▸ List.mem_map_of_mem h1) (hf.keys s hsk)
    · obtain rfl := inv_inj hk
      obtain rfl := unique_of_nodup hf.nodup hs h1
      exact Option.some.inj (h2.symm.trans hv)
  refine ⟨⟨fun p hp => key p (h.sub p hp), fun p hp => ?_⟩, key⟩
  rcases mem_set hp with h1 | rfl
  · exact h.new p h1
  · exact .inr ⟨s, v, v', hs, hv, rfl⟩

/-- What a call on an expression guarantees. -/
structure Good (I : Interp K) (S : Simp K) (d0 d : Dict (Val K)) (a : Expr K) (r : IRes K (Expr K)) : Prop where
  inv : InvOf d0 r.2
  mono : ∀ p ∈ d, p ∈ r.2
  value : ∀ b, r.1 = .ok b → ∀ e, Agrees I e r.2 → SimpAt I S e →
    (∀ s x, (s, Val.ex x) ∈ d0 → e s ≠ 0) → b.eval I e = a.eval I e
  free : ∀ b, r.1 = .ok b → ∀ s ∈ b.free, s ∈ a.free ∨ ∃ t ∈ Dict.keys d0, s = "inv" ++ t

theorem agrees_mono {I : Interp K} {e : String → K} {d d' : Dict (Val K)} (h : Agrees I e d')
    (hm : ∀ p ∈ d, p ∈ d') : Agrees I e d := fun p hp => h p (hm p hp)

theorem good_same {I : Interp K} {S : Simp K} {d0 d : Dict (Val K)} (h : InvOf d0 d) (a : Expr K) :
    Good I S d0 d a (.ok a, d) :=
  ⟨h, fun _ hp => hp, fun b hb e _ _ _ => by cases hb; rfl, fun b hb s hs => by cases hb; exact .inl hs⟩

theorem good_error {I : Interp K} {S : Simp K} {d0 d : Dict (Val K)} (h : InvOf d0 d) (a : Expr K) (x : IErr) :
    Good I S d0 d a (.error x, d) :=
  ⟨h, fun _ hp => hp, fun b hb => by simp at hb, fun b hb => by simp at hb⟩

/-- Value of an added inverse. -/
theorem inv_value {I : Interp K} (hI : PowOK I) {d0 d : Dict (Val K)} {e : String → K} {s : String}
    {v v' : Val K} (hs : (s, v) ∈ d) (hv : invVal v = some v') (hi : ("inv" ++ s, v') ∈ d)
    (ha : Agrees I e d) (h0 : ∀ x, v = Val.ex x → e s ≠ 0) : e s ≠ 0 ∧ e ("inv" ++ s) = (e s)⁻¹ := by
  have h1 := ha _ hs
  have h2 := ha _ hi
  cases v with
  | num c =>
    simp only [invVal] at hv
    split_ifs at hv with hc
    obtain rfl := Option.some.inj hv
    simp only [Val.expr, Expr.eval] at h1 h2
    rw [h1, h2]
    exact ⟨hc, rfl⟩
  | ex a =>
    obtain rfl := Option.some.inj hv
    simp only [Val.expr, Expr.eval] at h1 h2
    refine ⟨h0 a rfl, ?_⟩
    rw [h2, ← h1, hI.inv _ (h0 a rfl)]

theorem inverse_good {I : Interp K} (hI : PowOK I) {S : Simp K} (hS : SimpFree S) {d0 : Dict (Val K)}
    {A : List (Expr K)} (hf : FreshInv d0 A) :
    ∀ (n : ℕ) (d : Dict (Val K)) (a : Expr K), InvOf d0 d → (∀ s ∈ Dict.keys d0, "inv" ++ s ∉ a.free) →
      Good I S d0 d a (inverse S n d a) := by
  intro n
  induction n with
  | zero => intro d a h _; exact good_error h a _
  | succ n ih =>
    intro d a h ha
    have hvis : ∀ d b, InvOf d0 d → (∀ s ∈ b.free, s ∈ (S.f a).free) →
        Good I S d0 d b (visit (inverse S n) d b) := fun d b hd hb => by
      unfold visit
      split_ifs
      · exact good_same hd b
      · exact ih d b hd fun s hs hs' => ha s hs (hS a _ (hb _ hs'))
    unfold inverse
    split_ifs with h0
    · exact good_same h a
    have hval : ∀ e, SimpAt I S e → (S.f a).eval I e = a.eval I e := fun e he => he.value a
    split
    · rename_i c hc
      split_ifs
      · exact ⟨h, fun _ hp => hp, fun b hb e _ he _ => by cases hb; rw [← hval e he, hc],
          fun b hb s hs => by cases hb; simp [Expr.free] at hs⟩
      · exact good_error h a _
    · exact good_error h a _
    · rename_i f b hb
      have hg := hvis d b h (fun s hs => by rw [hb]; exact hs)
      split
      · rename_i b' d' hr
        rw [hr] at hg
        refine ⟨hg.inv, hg.mono, fun x hx e h1 h2 h3 => ?_, fun x hx s hs => ?_⟩
        · cases hx
          rw [← hval e h2, hb]
          simp only [Expr.eval]
          rw [hg.value b' rfl e h1 h2 h3]
        · cases hx
          rcases hg.free b' rfl s hs with h1 | h1
          · exact .inl (hS a s (by rw [hb]; exact h1))
          · exact .inr h1
      · rename_i x d' hr
        rw [hr] at hg
        exact ⟨hg.inv, hg.mono, fun b hb => by simp at hb, fun b hb => by simp at hb⟩
    · rename_i f b c hbc
      split
      · rename_i s v k hp
        obtain ⟨rfl, rfl, rfl, hk, hl⟩ := invPow_some hp
        have hsf : s ∈ a.free := hS a s (by rw [hbc]; simp [Expr.free])
        have hs0 : (s, v) ∈ d0 := by
          rcases h.new _ (dlookup_mem hl) with h1 | ⟨t, w, w', h1, h2, h3⟩
          · exact h1
          · simp only [Prod.mk.injEq] at h3
            exact absurd (h3.1 ▸ hsf) (ha t (List.mem_map_of_mem h1))
        split
        · exact good_error h a _
        · rename_i v' hv
          obtain ⟨g1, g2⟩ := h.set hf hs0 hv
          refine ⟨g1, g2, fun x hx e h1 h2 h3 => ?_, fun x hx t ht => ?_⟩
          · cases hx
            obtain ⟨q1, q2⟩ := inv_value hI (d0 := d0) (g2 _ (dlookup_mem hl)) hv mem_set_same h1
              (fun x hx => h3 s x (hx ▸ hs0))
            rw [← hval e h2, hbc]
            simp only [Expr.eval]
            rw [q2, hI.neg _ _ q1 hk]
          · cases hx
            simp only [Expr.free, List.append_nil, List.mem_singleton] at ht
            exact .inr ⟨s, List.mem_map_of_mem hs0, ht⟩
      · have hg := hvis d b h (fun s hs => by rw [hbc]; exact List.mem_append_left _ hs)
        split
        · rename_i x d' hr
          rw [hr] at hg
          exact ⟨hg.inv, hg.mono, fun b hb => by simp at hb, fun b hb => by simp at hb⟩
        · rename_i b' d' hr
          rw [hr] at hg
          have hg' := hvis d' c hg.inv (fun s hs => by rw [hbc]; exact List.mem_append_right _ hs)
          split
          · rename_i x d'' hr'
            rw [hr'] at hg'
            exact ⟨hg'.inv, fun p hp => hg'.mono p (hg.mono p hp), fun b hb => by simp at hb,
              fun b hb => by simp at hb⟩
          · rename_i c' d'' hr'
            rw [hr'] at hg'
            refine ⟨hg'.inv, fun p hp => hg'.mono p (hg.mono p hp), fun x hx e h1 h2 h3 => ?_,
              fun x hx s hs => ?_⟩
            · cases hx
              rw [← hval e h2, hbc]
              simp only [Expr.eval]
              rw [hg'.value c' rfl e h1 h2 h3, hg.value b' rfl e (agrees_mono h1 hg'.mono) h2 h3]
            · cases hx
              rcases List.mem_append.1 hs with hs | hs
              · rcases hg.free b' rfl s hs with h1 | h1
                · exact .inl (hS a s (by rw [hbc]; exact List.mem_append_left _ h1))
                · exact .inr h1
              · rcases hg'.free c' rfl s hs with h1 | h1
                · exact .inl (hS a s (by rw [hbc]; exact List.mem_append_right _ h1))
                · exact .inr h1

theorem inverseAll_good {I : Interp K} (hI : PowOK I) {S : Simp K} (hS : SimpFree S) {d0 : Dict (Val K)}
    {A : List (Expr K)} (hf : FreshInv d0 A) (n : ℕ) :
    ∀ (l : List (ICell K)) (d : Dict (Val K)), InvOf d0 d →
      (∀ c ∈ l, ∀ s ∈ Dict.keys d0, "inv" ++ s ∉ c.expr.free) →
      InvOf d0 (inverseAll S n d l).2.1 ∧ (∀ p ∈ d, p ∈ (inverseAll S n d l).2.1) ∧
        ∀ e, Agrees I e (inverseAll S n d l).2.1 → SimpAt I S e →
          (∀ s x, (s, Val.ex x) ∈ d0 → e s ≠ 0) →
          (inverseAll S n d l).1.map (fun c => c.expr.eval I e) = l.map (fun c => c.expr.eval I e) := by
  intro l
  induction l with
  | nil => intro d h _; exact ⟨h, fun _ hp => hp, fun _ _ _ _ => rfl⟩
  | cons c l ih =>
    intro d h hl
    have hg := inverse_good hI hS hf n d c.expr h (hl c (by simp))
    have hl' : ∀ c ∈ l, ∀ s ∈ Dict.keys d0, "inv" ++ s ∉ c.expr.free := fun c hc => hl c (by simp [hc])
    unfold inverseAll
    split
    · rename_i a d' hr
      rw [hr] at hg
      obtain ⟨i1, i2, i3⟩ := ih d' hg.inv hl'
      refine ⟨i1, fun p hp => i2 p (hg.mono p hp), fun e h1 h2 h3 => ?_⟩
      simp only [List.map_cons]
      rw [i3 e h1 h2 h3, hg.value a rfl e (agrees_mono h1 i2) h2 h3]
    · rename_i x d' hr
      rw [hr] at hg
      split_ifs with hx
      · obtain ⟨i1, i2, i3⟩ := ih d' hg.inv hl'
        refine ⟨i1, fun p hp => i2 p (hg.mono p hp), fun e h1 h2 h3 => ?_⟩
        simp only [List.map_cons]
        rw [i3 e h1 h2 h3]
      · exact ⟨hg.inv, hg.mono, fun e _ _ _ => rfl⟩

/-- **C71**: for values of the symbols that agree with the new dictionary, the old dictionary is respected and
no expression of the core has changed its value, whether the call raises or not. -/
theorem C71_values {I : Interp K} (hI : PowOK I) {S : Simp K} (hS : SimpFree S) (n : ℕ)
    (d : Dict (Val K)) (l : List (ICell K)) (hf : FreshInv d (l.map (·.expr))) (e : String → K)
    (he : Agrees I e (inverseAll S n d l).2.1) (hs : SimpAt I S e)
    (h0 : ∀ s x, (s, Val.ex x) ∈ d → e s ≠ 0) :
    Agrees I e d ∧
      (inverseAll S n d l).1.map (fun c => c.expr.eval I e) = l.map (fun c => c.expr.eval I e) := by
  obtain ⟨-, h2, h3⟩ := inverseAll_good hI hS hf n l d (.refl d) fun c hc s hs =>
    hf.exprs s hs _ (List.mem_map_of_mem hc)
  exact ⟨agrees_mono he h2, h3 e he hs h0⟩

/-- Values of the symbols completed with the inverses of the parameters. -/
noncomputable def withInverses (d : Dict (Val K)) (e : String → K) : String → K := by
  classical exact fun x => if h : ∃ s ∈ Dict.keys d, x = "inv" ++ s then (e h.choose)⁻¹ else e x

theorem withInverses_inv {d : Dict (Val K)} {e : String → K} {s : String} (h : s ∈ Dict.keys d) :
    withInverses d e ("inv" ++ s) = (e s)⁻¹ := by
  classical
  have hx : ∃ t ∈ Dict.keys d, "inv" ++ s = "inv" ++ t := ⟨s, h, rfl⟩
  unfold withInverses
  rw [dif_pos hx, ← inv_inj hx.choose_spec.2]

theorem withInverses_old {d : Dict (Val K)} {e : String → K} {x : String}
    (h : ∀ s ∈ Dict.keys d, x ≠ "inv" ++ s) : withInverses d e x = e x := by
  classical
  unfold withInverses
  rw [dif_neg]
  rintro ⟨s, h1, h2⟩
  exact h s h1 h2

/-- **C71**: values that agree with the parameters of the core can be completed by values of the added symbols so
that they agree with the new dictionary, hence give all the expressions their previous values. -/
theorem C71_extends {I : Interp K} (hI : PowOK I) {S : Simp K} (hS : SimpFree S) (n : ℕ)
    (d : Dict (Val K)) (l : List (ICell K)) (hf : FreshInv d (l.map (·.expr))) (e : String → K)
    (he : Agrees I e d) (hs : ∀ e', Agrees I e' d → SimpAt I S e')
    (h0 : ∀ s x, (s, Val.ex x) ∈ d → e s ≠ 0) :
    ∃ e', (∀ x, (∀ s ∈ Dict.keys d, x ≠ "inv" ++ s) → e' x = e x) ∧
      Agrees I e' (inverseAll S n d l).2.1 ∧
      (inverseAll S n d l).1.map (fun c => c.expr.eval I e') = l.map (fun c => c.expr.eval I e) := by
  obtain ⟨h1, h2, h3⟩ := inverseAll_good hI hS hf n l d (.refl d) fun c hc s hs =>
    hf.exprs s hs _ (List.mem_map_of_mem hc)
  have hkey : ∀ s ∈ Dict.keys d, ∀ t ∈ Dict.keys d, s ≠ "inv" ++ t := fun s hs t ht hst =>
    hf.keys t ht (hst ▸ hs)
  have hev : ∀ a : Expr K, (∀ s ∈ Dict.keys d, "inv" ++ s ∉ a.free) →
      a.eval I (withInverses d e) = a.eval I e := fun a ha => Expr.eval_congr I a fun x hx =>
    withInverses_old fun s hs hxs => ha s hs (hxs ▸ hx)
  have hold : Agrees I (withInverses d e) d := fun p hp => by
    rw [withInverses_old (hkey p.1 (List.mem_map_of_mem hp)), he p hp,
      hev _ fun s hs => hf.vals s hs p hp]
  have hag : Agrees I (withInverses d e) (inverseAll S n d l).2.1 := fun p hp => by
    rcases h1.new p hp with hp | ⟨s, v, v', q1, q2, rfl⟩
    · exact hold p hp
    · have hk : s ∈ Dict.keys d := List.mem_map_of_mem q1
      rw [withInverses_inv hk]
      have hes := he _ q1
      cases v with
      | num c =>
        simp only [invVal] at q2
        split_ifs at q2 with hc
        obtain rfl := Option.some.inj q2
        simp only [Val.expr, Expr.eval] at hes ⊢
        rw [hes]
      | ex a =>
        obtain rfl := Option.some.inj q2
        simp only [Val.expr, Expr.eval] at hes ⊢
        rw [hev a (fun t ht => hf.vals t ht _ q1), ← hes, hI.inv _ (h0 s a q1)]
  refine ⟨withInverses d e, fun x hx => withInverses_old hx, hag, ?_⟩
  rw [h3 _ hag (hs _ hold) fun s x hsx => ?_]
  · refine List.map_congr_left fun c hc => hev _ fun s hs => hf.exprs s hs _ (List.mem_map_of_mem hc)
  · rw [withInverses_old (hkey s (List.mem_map_of_mem hsx))]
    exact h0 s x hsx

/-! ### Purpose of the replacement and end of the recursion -/

/-- A negative power of a parameter occurs in the expression. -/
def HasInverse (d : Dict (Val K)) : Expr K → Prop
  | .const _ => False
  | .sym _ => False
  | .op1 _ a => HasInverse d a
  | .op2 f a b => (f = "**" ∧ ∃ s k, a = .sym s ∧ b = .const k ∧ k < 0 ∧ s ∈ Dict.keys d) ∨
      HasInverse d a ∨ HasInverse d b

/-- The arguments of a simplified expression are not numbers in disguise. -/
def SimpDeep (S : Simp K) : Prop :=
  ∀ a f b c, S.f a = .op2 f b c → c.isAtom = false → c.free ≠ [] → ∀ k, S.f c ≠ .const k

theorem not_hasInverse_closed {d : Dict (Val K)} {a : Expr K} (h : a.free = []) : ¬ HasInverse d a := by
  induction a with
  | const c => simp [HasInverse]
  | sym s => simp [Expr.free] at h
  | op1 f a ih => exact ih h
  | op2 f a b iha ihb =>
    obtain ⟨h1, h2⟩ := List.append_eq_nil_iff.1 (show a.free ++ b.free = [] from h)
    rintro (⟨-, s, k, rfl, -⟩ | h3 | h3)
    · simp [Expr.free] at h1
    · exact iha h1 h3
    · exact ihb h2 h3

/-- A call gives a symbol or a number only in known cases. -/
theorem inverse_atom {S : Simp K} {n : ℕ} {d d' : Dict (Val K)} {a r : Expr K} (hat : a.isAtom = false)
    (h : inverse S n d a = (.ok r, d')) : r.isSym = false ∧ ∀ k, r = .const k → S.f a = .const k := by
  cases n with
  | zero => simp [inverse] at h
  | succ n =>
    unfold inverse at h
    split_ifs at h with h0
    · simp only [Prod.mk.injEq, Except.ok.injEq] at h
      obtain ⟨rfl, -⟩ := h
      refine ⟨?_, ?_⟩
      · cases a <;> simp_all [Expr.isAtom, Expr.isSym]
      · rintro k rfl
        simp [Expr.isAtom] at hat
    · split at h
      · rename_i c hc
        split_ifs at h
        · simp only [Prod.mk.injEq, Except.ok.injEq] at h
          obtain ⟨rfl, -⟩ := h
          exact ⟨rfl, fun k hk => by rw [hc, hk]⟩
        · simp at h
      · simp at h
      · split at h
        · simp only [Prod.mk.injEq, Except.ok.injEq] at h
          obtain ⟨rfl, -⟩ := h
          exact ⟨rfl, fun k hk => by cases hk⟩
        · simp at h
      · split at h
        · split at h
          · simp at h
          · simp only [Prod.mk.injEq, Except.ok.injEq] at h
            obtain ⟨rfl, -⟩ := h
            exact ⟨rfl, fun k hk => by cases hk⟩
        · split at h
          · simp at h
          · split at h
            · simp at h
            · simp only [Prod.mk.injEq, Except.ok.injEq] at h
              obtain ⟨rfl, -⟩ := h
              exact ⟨rfl, fun k hk => by cases hk⟩

theorem lookup_of_key {d : Dict (Val K)} {s : String} (h : s ∈ Dict.keys d) : ∃ v, d.lookup s = some v := by
  cases hl : d.lookup s with
  | some v => exact ⟨v, rfl⟩
  | none =>
    rw [List.lookup_eq_none_iff] at hl
    obtain ⟨p, hp, rfl⟩ := List.mem_map.1 h
    have := hl p hp
    simp at this

/-- **C71**: no negative power of a parameter is left in a converted expression. -/
theorem C71_none_left {I : Interp K} (hI : PowOK I) {S : Simp K} (hS : SimpFree S) (hD : SimpDeep S)
    {d0 : Dict (Val K)} {A : List (Expr K)} (hf : FreshInv d0 A) :
    ∀ (n : ℕ) (d : Dict (Val K)) (a : Expr K), InvOf d0 d → (∀ s ∈ Dict.keys d0, "inv" ++ s ∉ a.free) →
      ∀ r d', inverse S n d a = (.ok r, d') → ¬ HasInverse d0 r := by
  intro n
  induction n with
  | zero => intro d a _ _ r d' h; simp [inverse] at h
  | succ n ih =>
    intro d a hd ha r d' h
    have hvis : ∀ d b, InvOf d0 d → (∀ s ∈ b.free, s ∈ (S.f a).free) → ∀ r d',
        visit (inverse S n) d b = (.ok r, d') → ¬ HasInverse d0 r ∧ InvOf d0 d' := fun d b hd hb r d' hr => by
      have hg : Good I S d0 d b (visit (inverse S n) d b) := by
        unfold visit
        split_ifs
        · exact good_same hd b
        · exact inverse_good hI hS hf n d b hd fun s hs hs' => ha s hs (hS a _ (hb _ hs'))
      refine ⟨?_, ?_⟩
      · unfold visit at hr
        split_ifs at hr with hat
        · simp only [Prod.mk.injEq, Except.ok.injEq] at hr
          obtain ⟨rfl, -⟩ := hr
          cases b <;> simp_all [Expr.isAtom, HasInverse]
        · exact ih d b hd (fun s hs hs' => ha s hs (hS a _ (hb _ hs'))) r d' hr
      · rw [hr] at hg; exact hg.inv
    unfold inverse at h
    split_ifs at h with h0
    · simp only [Prod.mk.injEq, Except.ok.injEq] at h
      obtain ⟨rfl, -⟩ := h
      rcases h0 with h0 | h0
      · cases a <;> simp_all [Expr.isSym, HasInverse]
      · exact not_hasInverse_closed h0
    · split at h
      · split_ifs at h
        · simp only [Prod.mk.injEq, Except.ok.injEq] at h
          obtain ⟨rfl, -⟩ := h
          simp [HasInverse]
        · simp at h
      · simp at h
      · rename_i f b hb
        split at h
        · rename_i b' d1 hr
          simp only [Prod.mk.injEq, Except.ok.injEq] at h
          obtain ⟨rfl, -⟩ := h
          exact (hvis d b hd (fun s hs => by rw [hb]; exact hs) b' d1 hr).1
        · simp at h
      · rename_i f b c hbc
        split at h
        · rename_i s v k hp
          obtain ⟨rfl, rfl, rfl, hk, hl⟩ := invPow_some hp
          split at h
          · simp at h
          · simp only [Prod.mk.injEq, Except.ok.injEq] at h
            obtain ⟨rfl, -⟩ := h
            rintro (⟨-, t, k', h1, h2, h3, h4⟩ | h1 | h1)
            · simp only [Expr.sym.injEq] at h1
              have hs0 : s ∈ Dict.keys d0 := by
                rcases hd.new _ (dlookup_mem hl) with h1 | ⟨t, w, w', h1, h2, h3⟩
                · exact List.mem_map_of_mem h1
                · simp only [Prod.mk.injEq] at h3
                  exact absurd (h3.1 ▸ hS a s (by rw [hbc]; simp [Expr.free])) (ha t (List.mem_map_of_mem h1))
              exact hf.keys s hs0 (h1 ▸ h4)
            · exact h1
            · exact h1
        · rename_i hp
          split at h
          · simp at h
          · rename_i b' d1 hr
            split at h
            · simp at h
            · rename_i c' d2 hr'
              simp only [Prod.mk.injEq, Except.ok.injEq] at h
              obtain ⟨rfl, -⟩ := h
              obtain ⟨v1, v2⟩ := hvis d b hd (fun s hs => by rw [hbc]; exact List.mem_append_left _ hs) b' d1 hr
              obtain ⟨v3, -⟩ := hvis d1 c v2 (fun s hs => by rw [hbc]; exact List.mem_append_right _ hs) c' d2 hr'
              rintro (⟨hf', t, k, rfl, rfl, h3, h4⟩ | h1 | h1)
              · -- the arguments were already a symbol and a number
                have hb' : b = .sym t := by
                  unfold visit at hr
                  split_ifs at hr with hat
                  · simp only [Prod.mk.injEq, Except.ok.injEq] at hr
                    exact hr.1
                  · have := (inverse_atom (by simpa using hat) hr).1
                    simp [Expr.isSym] at this
                have hc' : c = .const k := by
                  unfold visit at hr'
                  split_ifs at hr' with hat
                  · simp only [Prod.mk.injEq, Except.ok.injEq] at hr'
                    exact hr'.1
                  · have hk := (inverse_atom (by simpa using hat) hr').2 k rfl
                    by_cases hfc : c.free = []
                    · exfalso
                      cases n with
                      | zero => simp [inverse] at hr'
                      | succ n =>
                        unfold inverse at hr'
                        rw [if_pos (.inr hfc)] at hr'
                        simp only [Prod.mk.injEq, Except.ok.injEq] at hr'
                        rw [hr'.1] at hat
                        simp [Expr.isAtom] at hat
                    · exact absurd hk (hD a f b c hbc (by simpa using hat) hfc k)
                obtain ⟨p, hp1, rfl⟩ := List.mem_map.1 h4
                obtain ⟨v, hv⟩ := lookup_of_key (List.mem_map_of_mem (f := (·.1)) (hd.sub p hp1) : p.1 ∈ Dict.keys d)
                rw [hb', hc'] at hp
                simp [invPow, hf', h3, hv] at hp
              · exact v1 h1
              · exact v3 h1

/-- Number of operations. -/
def Expr.size : Expr K → ℕ
  | .const _ => 0
  | .sym _ => 0
  | .op1 _ a => a.size + 1
  | .op2 _ a b => a.size + b.size + 1

/-- **C71**: if simplification does not make expressions longer the recursion ends. -/
theorem C71_ends {S : Simp K} (hsz : ∀ a, (S.f a).size ≤ a.size) :
    ∀ (n : ℕ) (d : Dict (Val K)) (a : Expr K), a.size < n → (inverse S n d a).1 ≠ .error .fuel := by
  intro n
  induction n with
  | zero => intro d a h; omega
  | succ n ih =>
    intro d a hn
    have hvis : ∀ d b, b.size < n → (visit (inverse S n) d b).1 ≠ .error .fuel := fun d b hb => by
      unfold visit
      split_ifs
      · simp
      · exact ih d b hb
    have hs := hsz a
    unfold inverse
    split_ifs
    · simp
    split
    · split_ifs <;> simp
    · simp
    · rename_i f b hb
      have := hvis d b (by rw [hb] at hs; simp only [Expr.size] at hs; omega)
      split
      · simp
      · rename_i x d' hr
        rw [hr] at this
        simpa using this
    · rename_i f b c hbc
      rw [hbc] at hs
      simp only [Expr.size] at hs
      split
      · split <;> simp
      · have h1 := hvis d b (by omega)
        split
        · rename_i x d' hr
          rw [hr] at h1
          simpa using h1
        · rename_i b' d' hr
          have h2 := hvis d' c (by omega)
          split
          · rename_i x d'' hr'
            rw [hr'] at h2
            simpa using h2
          · simp

/-! ### Examples -/

/-- The real numbers with their powers. -/
noncomputable def realI : Interp ℝ where
  f1 f x := if f = "-" then -x else x
  f2 f x y := if f = "**" then x ^ y else if f = "*" then x * y else x + y

theorem realI_pow : PowOK realI where
  inv b hb := by simp [realI, Real.rpow_neg_one]
  neg b k hb hk := by
    simp only [realI, if_true]
    rcases lt_or_gt_of_ne hb with h | h
    · rw [Real.rpow_def_of_neg (inv_lt_zero.2 h), Real.rpow_def_of_neg h, Real.log_inv]
      congr 1
      · congr 1; ring
      · rw [show -k * Real.pi = -(k * Real.pi) by ring, Real.cos_neg]
    · rw [Real.inv_rpow h.le, Real.rpow_neg h.le, inv_inv]

/-- `simplify` that changes nothing. -/
def idSimp : Simp ℝ := ⟨fun a => a, fun _ => false⟩

/-- `x**2 * C**(-1)`: energy of a capacitor (times 2), with the parameter `C`. -/
def capE : Expr ℝ := .op2 "*" (.op2 "**" (.sym "x") (.const 2)) (.op2 "**" (.sym "C") (.const (-1)))

/-- The conversion replaces `C**(-1)` by `invC**1` and adds `invC`. -/
example : inverseAll idSimp 5 [("C", .num 4)] [⟨false, capE⟩] =
    ([⟨false, .op2 "*" (.op2 "**" (.sym "x") (.const 2)) (.op2 "**" (.sym "invC") (.const (- -1)))⟩],
      [("C", .num 4), ("invC", .num (4⁻¹))], none) := by
  simp [inverseAll, inverse, capE, idSimp, Expr.isSym, Expr.free, visit, Expr.isAtom, invPow, invVal, Dict.set,
    Dict.keys, List.lookup]

theorem capFresh : FreshInv ([("C", .num 4)] : Dict (Val ℝ)) [capE] where
  nodup := by simp [Dict.keys]
  keys := by simp [Dict.keys]
  exprs := by simp [Dict.keys, capE, Expr.free]
  vals := by simp [Dict.keys, Val.expr, Expr.free]

example (e : String → ℝ) (he : e "C" = 4) :=
  C71_extends realI_pow (S := idSimp) (fun _ _ h => h) 5 [("C", .num 4)] [⟨false, capE⟩] capFresh e
    (by intro p hp; simp at hp; subst hp; exact he) (fun e' _ => ⟨fun _ => rfl⟩) (by simp)

/-- **C71**: a parameter that is already called `invC` is overwritten; expressions change their value. -/
theorem C71_collision :
    ∃ (d : Dict (Val ℝ)) (l : List (ICell ℝ)), (∃ e, Agrees realI e d) ∧
      (inverseAll idSimp 5 d l).2.2 = none ∧
      ∀ e e', Agrees realI e d → Agrees realI e' (inverseAll idSimp 5 d l).2.1 →
        (inverseAll idSimp 5 d l).1.map (fun c => c.expr.eval realI e') ≠ l.map (fun c => c.expr.eval realI e) := by
  refine ⟨[("C", .num 4), ("invC", .num 7)], [⟨false, .sym "invC"⟩, ⟨false, .op2 "**" (.sym "C") (.const (-1))⟩],
    ⟨fun s => if s = "C" then 4 else 7, ?_⟩, ?_, ?_⟩
  · intro p hp
    simp at hp
    rcases hp with rfl | rfl <;> simp [Val.expr, Expr.eval]
  · simp [inverseAll, inverse, idSimp, Expr.isSym, Expr.free, invPow, invVal, List.lookup]
  · intro e e' h h' heq
    have h1 : e "invC" = 7 := h ("invC", .num 7) (by simp)
    have h2 : e' "invC" = 4⁻¹ := h' ("invC", .num 4⁻¹) (by
      simp [inverseAll, inverse, idSimp, Expr.isSym, Expr.free, invPow, invVal, List.lookup, Dict.set, Dict.keys])
    simp [inverseAll, inverse, idSimp, Expr.isSym, Expr.free, invPow, invVal, List.lookup, Expr.eval, h1, h2] at heq
    norm_num at heq

/-- **C71**: an expression that simplifies to a symbol raises `TypeError` (`Symbol()`), e.g. a law
`(w**2 + w)*(w + 1)**(-1)`. -/
theorem C71_raises (S : Simp K) (a : Expr K) (s : String) (h : S.f a = .sym s) (ha : a.isSym = false)
    (hfr : a.free ≠ []) (n : ℕ) (d : Dict (Val K)) (l : List (ICell K)) :
    (inverseAll S (n + 1) d (⟨false, a⟩ :: l)).2.2 = some .typ := by
  simp [inverseAll, inverse, h, ha, hfr]

end Sym
end Pyphs
