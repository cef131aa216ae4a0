/-
C29: the generated C++ object computes what a `Numeric` computes.
-/
import Verif.Cpp.Model
import Verif.Mat.Lemmas

namespace Pyphs
namespace Cpp
open Numeric

variable {K : Type} [Field K] [LinearOrder K] {N : Type} [DecidableEq N]

/-! ### The Python program of the same method -/

/-- Values of the symbols that are not arguments: `method.subs` after
`subs.update({fs: config['fs']})`. -/
def Src.base (S : Src N K) (fs0 : K) : String → K := fun s =>
  if s = S.fs then fs0 else (S.subs.lookup s).getD 0

/-- The program that a `Numeric` executes (Numeric/Interp.lean). -/
def Src.prog (S : Src N K) (fs0 : K) (sqrt : K → K) : Prog N K where
  argInds := fun n => (S.syms n).map fun l => (find l S.all).2
  op := S.op
  func := fun n => (S.fe n).map fun f => fun a => f.val (envOf S.all (S.base fs0) a)
  norm := fun l => sqrt ((l.zipWith (· * ·) l).sum)

/-- The method can be generated: the arguments are distinct, listed in the order of `args()`, and
are not parameters. -/
structure Src.WF (S : Src N K) : Prop where
  nodup : S.all.Nodup
  sub : ∀ n l, S.syms n = some l → l.Sublist S.all
  keys : (S.subs.map Prod.fst).Nodup
  disj : ∀ s ∈ S.all, s ∉ S.subs.map Prod.fst ∧ s ≠ S.fs

/-! ### Shapes -/

/-- Shapes of numpy values. -/
inductive Sh
  | sc | vec (n : ℕ) | mat (r c : ℕ)
  deriving DecidableEq

def HasSh : NV K → Sh → Prop
  | .s _, .sc => True
  | .v l, .vec n => l.length = n
  | .m A, .mat r c => A.r = r ∧ A.c = c
  | _, _ => False

/-- The C++ value of a numpy value. -/
def Rep : NV K → CV K → Prop
  | .s a, .s b => a = b
  | .v l, .m B => B.r = l.length ∧ B.c = col l.length ∧ ∀ i < l.length, B.e i 0 = l.getD i 0
  | .m A, .m B => A.Same B
  | _, _ => False

/-- Shape of an operation whose operands have shapes `Γ`; `T` are names that it must not use (see
`Rel`). -/
def opTy (Γ : N → Sh) (T : List N) : Op N K → Option Sh
  | .ref n => if n ∈ T then none else some (Γ n)
  | .num _ => some .sc
  | .add a b => do
    let ta ← opTy Γ T a
    let tb ← opTy Γ T b
    if ta = tb then some ta else none
  | .prod a b => do
    match ← opTy Γ T a, ← opTy Γ T b with
    | .sc, t => some t
    | t, .sc => some t
    | _, _ => none
  | .dot a b => do
    match ← opTy Γ T a, ← opTy Γ T b with
    | .sc, t => some t
    | t, .sc => some t
    | .mat r c, .vec n => if c = n ∧ 0 < r ∧ 0 < n then some (.vec r) else none
    | .mat r c, .mat r' c' => if c = r' then some (.mat r c') else none
    | _, _ => none
  | .inv a => do
    match ← opTy Γ T a with
    | .mat r c => if r = c then some (.mat r c) else none
    | _ => none
  | .norm a => do
    match ← opTy Γ T a with
    | .vec _ => some .sc
    | _ => none
  | .copy a => opTy Γ T a

/-- Shape of the value of a function. -/
def FE.sh : FE K → Sh
  | .vec n _ => .vec n
  | .mat r c _ => .mat r c

/-- The name can be evaluated and its value has the shape `Γ n`. -/
def EvalOK (S : Src N K) (Γ : N → Sh) (T : List N) (n : N) : Prop :=
  match S.op n with
  | some op => opTy Γ T op = some (Γ n)
  | none => ∃ f, S.fe n = some f ∧ f.sh = Γ n

/-- A command that C++ accepts: `name`, which is not an argument, or `(argument, name)` where the
member `_name` is not used otherwise. -/
def CmdOK (S : Src N K) (Γ : N → Sh) (T : List N) (c : Cmd N) : Prop :=
  EvalOK S Γ T c.eval ∧ c.eval ∈ S.deps ∧ Γ c.set = Γ c.eval ∧ S.syms c.eval = none ∧
  if c.set = c.eval then c.eval ∉ T else (S.syms c.set).isSome ∧ c.eval ∈ T

/-- An action that C++ accepts. -/
def ActOK (S : Src N K) (Γ : N → Sh) (T : List N) : Action N → Prop
  | .exec l => ∀ c ∈ l, CmdOK S Γ T c
  | .iter l res step => (∀ c ∈ l, CmdOK S Γ T c) ∧ Γ res = .sc ∧ Γ step = .sc ∧
      res ∉ T ∧ step ∉ T ∧ S.syms res = none ∧ S.syms step = none ∧ S.fe step = none

/-- Shapes of the arguments. -/
def ArgsOK (S : Src N K) (Γ : N → Sh) : Prop := ∀ n l, S.syms n = some l → Γ n = .vec l.length

/-- The generated code belongs to the method: table of the values of the parameters, and an
`inverse` that is right on invertible matrices. -/
structure GenOK (G : Gen N K) : Prop where
  tab : G.tab = [G.src.subs.map Prod.snd]
  einv : ∀ A B : Mat K, A.IsInv B → A.IsInv (G.einv A)

/-- The relation between the Python object and the C++ object: same arguments and same sample rate;
each value stored by Python is that of the C++ member, apart from the names `T` (evaluated only to set
an argument: C++ stores them, Python does not); the coefficients that no update computes
have their value. -/
structure Rel (G : Gen N K) (Γ : N → Sh) (T : List N) (st : St N K) (o : Obj N K) : Prop where
  args : o.args = st.args
  len : st.args.length = G.src.all.length
  sr : o.sr = G.fs0
  vals : ∀ n v, n ∉ T → G.src.syms n = none → st.vals n = some v →
    HasSh v (Γ n) ∧ Rep v (o.fld n)
  const : ∀ n f, G.src.op n = none → G.src.fe n = some f → n ∈ G.src.deps →
    ∀ i < f.r, ∀ j < f.c, G.src.dep (f.ent i j) = false →
      (o.fld n).at i j = (f.ent i j).ev (G.env o)

/-! ### Symbols -/

theorem lookup_slot {l : List (String × K)} {s : String} :
    (l.lookup s).getD 0 =
      if s ∈ l.map Prod.fst then (l.map Prod.snd).getD ((l.map Prod.fst).idxOf s) 0 else 0 := by
  induction l with
  | nil => simp
  | cons p l ih =>
    obtain ⟨k, v⟩ := p
    by_cases h : s = k
    · subst h; simp
    · have h1 : (s == k) = false := by simpa using h
      have h2 : (k == s) = false := by simpa using (Ne.symm h)
      rw [List.lookup_cons, h1]
      simp only [List.map_cons, List.mem_cons, h, false_or, List.idxOf_cons, h2]
      rw [ih]
      split_ifs <;> simp

theorem env_eq {G : Gen N K} (hS : G.src.WF) (hG : GenOK G) {args : List K} {o : Obj N K}
    (ha : o.args = args) (hl : args.length = G.src.all.length) (hs : o.sr = G.fs0) :
    G.env o = envOf G.src.all (G.src.base G.fs0) args := by
  funext s
  unfold Gen.env
  by_cases h1 : s = G.src.fs
  · rw [if_pos h1, envOf_not_mem (fun h => (hS.disj s h).2 h1)]
    unfold Src.base
    rw [if_pos h1, hs]
  rw [if_neg h1]
  by_cases h2 : s ∈ G.src.subs.map Prod.fst
  · rw [envOf_not_mem (fun h => (hS.disj s h).1 h2)]
    unfold Src.base Src.slot
    rw [if_neg h1, if_pos h2, hG.tab, lookup_slot, if_pos h2]
    rfl
  · have e : G.src.slot s = none := by unfold Src.slot; rw [if_neg h2]
    rw [e]
    dsimp only
    by_cases h3 : s ∈ G.src.all
    · rw [if_pos h3, envOf_mem h3 hl, ha]
    · rw [if_neg h3, envOf_not_mem h3]
      unfold Src.base
      rw [if_neg h1, lookup_slot, if_neg h2]

/-- Coefficients without arguments do not depend on the arguments. -/
theorem ev_const {G : Gen N K} (hS : G.src.WF) {e : Ent K} (hd : G.src.dep e = false)
    {o o' : Obj N K} (hs : o.sr = o'.sr) : e.ev (G.env o) = e.ev (G.env o') := by
  refine e.congr _ _ fun s hs' => ?_
  have h3 : s ∉ G.src.all := by
    intro h
    have := List.any_eq_false.1 hd s hs'
    simp [h] at this
  unfold Gen.env
  rw [if_neg h3, if_neg h3, hs]

/-! ### Inverses -/

theorem inv_same {A A' B B' : Mat K} (hA : A.Same A') (h : A.IsInv B) (h' : A'.IsInv B') :
    B.Same B' := by
  have hr : B.r = A.r := h.2.1
  have hc : B.c = A.r := h.2.2.1
  have hr' : B'.r = A.r := by rw [h'.2.1, hA.1]
  have hc' : B'.c = A.r := by rw [h'.2.2.1, hA.1]
  have e : Mat.toM A.r A.r A.e = Mat.toM A.r A.r A'.e := by
    ext i j
    exact hA.2.2 i i.2 j (by rw [← h.1]; exact j.2)
  have h1 := (Mat.isInv_iff_toM A B h.1 hr hc).1 h
  have h2 := (Mat.isInv_iff_toM A' B' h'.1 h'.2.1 h'.2.2.1).1 h'
  rw [← hA.1, ← e] at h2
  have h3 := mul_eq_one_comm.1 h1
  have : Mat.toM A.r A.r B.e = Mat.toM A.r A.r B'.e := by
    calc Mat.toM A.r A.r B.e = Mat.toM A.r A.r B.e * (Mat.toM A.r A.r A.e * Mat.toM A.r A.r B'.e) := by
          rw [h2, mul_one]
      _ = _ := by rw [← mul_assoc, h3, one_mul]
  refine ⟨by rw [hr, hr'], by rw [hc, hc'], fun i hi j hj => ?_⟩
  have := congrFun (congrFun this ⟨i, by omega⟩) ⟨j, by omega⟩
  exact this

theorem einv_same {G : Gen N K} (hG : GenOK G) {A A' B : Mat K} (hA : A.Same A')
    (h : A.IsInv B) : B.Same (G.einv A') := by
  have h' : A'.IsInv B := by
    obtain ⟨h1, h2, h3, h4, h5⟩ := h
    refine ⟨by rw [← hA.1, ← hA.2.1]; exact h1, by rw [← hA.1]; exact h2,
      by rw [← hA.1]; exact h3, fun i hi j hj => ?_, fun i hi j hj => ?_⟩
    · rw [← h4 i (by rw [hA.1]; exact hi) j (by rw [hA.1]; exact hj), ← hA.1]
      refine Finset.sum_congr rfl fun k hk => ?_
      rw [hA.2.2 i (by rw [hA.1]; exact hi) k (by rw [← h1]; exact Finset.mem_range.1 hk)]
    · rw [← h5 i (by rw [hA.1]; exact hi) j (by rw [hA.1]; exact hj), ← hA.1]
      refine Finset.sum_congr rfl fun k hk => ?_
      rw [hA.2.2 k (Finset.mem_range.1 hk) j (by rw [← h1, hA.1]; exact hj)]
  exact inv_same hA h (hG.einv A' B h')

end Cpp
end Pyphs
