import Verif.Split.Walk
import Mathlib.Logic.Relation
import Mathlib.Data.List.Flatten

/-!
# What is expected of the splitting

The tree of subgraphs must contain the components of the graph, each one once and between its
nodes (`leaves`), and nothing must be left to split (`Reduced`).  A graph cannot be split when a
loop hangs at one node: `NoHang` excludes it.
-/

namespace Verif.Split

open Edge

variable {C : Type}

mutual
/-- The components of an edge of the tree. -/
def leavesOf : Edge C → List (Edge C)
  | .comp t h l c => [.comp t h l c]
  | .out .. => []
  | .graph _ _ _ sub => leaves sub
/-- The components of a list of edges of the tree. -/
def leaves : List (Edge C) → List (Edge C)
  | [] => []
  | e :: es => leavesOf e ++ leaves es
end

/-- The edge joins `a` and `b`. -/
def Joins (a b : Name) (e : Edge C) : Prop :=
  (e.tail = a ∧ e.head = b) ∨ (e.tail = b ∧ e.head = a)

instance (a b : Name) (e : Edge C) : Decidable (Joins a b e) := by
  unfold Joins
  infer_instance

/-- Each node `n` other than the datum which has several neighbours has one edge to each of them. -/
def Single (g : List (Edge C)) : Prop :=
  ∀ n a b, n ≠ datum → a ≠ b → Adj g n a → Adj g n b →
    (g.filter fun e => decide (Joins n a e)).length = 1

/-- Nothing is left to split: no node other than the datum has exactly two neighbours, and a node
other than the datum with several neighbours has only one edge to each of them. -/
def Reduced (g : List (Edge C)) : Prop := (∀ n, ¬ Mid g n) ∧ Single g

/-- The edges join the successive nodes of the list. -/
def Along : List Name → List (Edge C) → Prop
  | a :: b :: s, e :: es => Joins a b e ∧ Along (b :: s) es
  | [_], [] => True
  | _, _ => False

/-- Trees of series and parallel connections: the edge of a subgraph stands for at least two edges
between its two nodes, or for a chain of at least two edges from its first node to its last one
through different nodes. -/
inductive SP : Edge C → Prop
  | comp (t h l : Name) (c : C) : SP (.comp t h l c)
  | par (t h : Name) (n : ℕ) (es : List (Edge C)) : 2 ≤ es.length → (∀ e ∈ es, SP e) →
      (∀ e ∈ es, Joins t h e) → SP (.graph t h (parLabel n) (es ++ outs (parLabel n) t h))
  | ser (t h : Name) (n : ℕ) (es : List (Edge C)) (s : List Name) : 3 ≤ s.length → s.Nodup →
      s.head? = some t → s.getLast? = some h → (∀ e ∈ es, SP e) → Along s es →
      SP (.graph t h (serLabel n) (es ++ outs (serLabel n) t h))

/-- `x` and `y` are adjacent, and none of them is `A`. -/
def AdjOff (g : List (Edge C)) (A x y : Name) : Prop := Adj g x y ∧ x ≠ A ∧ y ≠ A

/-- No loop hangs at a single node: in each set `U` of nodes all of which have two neighbours in the
set, and for each node `A` other than the datum, there is a node which is connected with the datum
without passing by `A`. -/
def NoHang (g : List (Edge C)) : Prop :=
  ∀ A, A ≠ datum → ∀ U : Name → Prop, (∃ u, U u) →
    (∀ u, U u → ∃ a b, a ≠ b ∧ U a ∧ U b ∧ Adj g u a ∧ Adj g u b) →
    ∃ b, U b ∧ b ≠ A ∧ Relation.ReflTransGen (AdjOff g A) b datum

theorem leaves_eq (l : List (Edge C)) : leaves l = l.flatMap leavesOf := by
  induction l with
  | nil => simp [leaves]
  | cons e l ih => simp [leaves, ih]

theorem leaves_append (l l' : List (Edge C)) : leaves (l ++ l') = leaves l ++ leaves l' := by
  simp [leaves_eq]

theorem leaves_perm {l l' : List (Edge C)} (h : l.Perm l') : (leaves l).Perm (leaves l') := by
  rw [leaves_eq, leaves_eq]
  exact List.Perm.flatMap_right _ h

theorem leaves_outs (l n1 n2 : Name) : leaves (outs l n1 n2 : List (Edge C)) = [] := by
  rw [leaves_eq, List.flatMap_eq_nil_iff]
  intro e he
  simp only [outs, List.mem_map] at he
  obtain ⟨n, -, rfl⟩ := he
  simp [leavesOf]

theorem leaves_graph (t h l : Name) (sub : List (Edge C)) :
    leaves [.graph t h l sub] = leaves sub := by
  simp [leaves, leavesOf]

end Verif.Split
