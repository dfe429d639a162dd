/-
Two ways to fill the shards of the transaction system: lists of transactions, and the whole
history of how a shard was made.
-/
import Verif.Txn.Inv
namespace Verif.Txn

/-! ### Lists -/

/-- A shard is the list of its transactions; a transaction is how many addresses it has
text for and how many annotations. -/
def listOps : Ops (Nat × Nat) (List (Entry (Nat × Nat))) where
  size := (·.1)
  empty := fun t => t.2 == 0
  leaf := fun e => [e]
  merge := List.flatten
  convert := id
  blank := []
  last := fun l => (l.reverse.find? fun e => 0 < e.txn.1).map fun e => e.base + e.txn.1 - 1

theorem listOps_lawful : Lawful listOps (fun l => l) where
  leaf := fun _ => rfl
  merge := fun bs => by simp [listOps]
  convert := fun _ => rfl
  blank := rfl
  last := fun _ => rfl

/-! ### Histories -/

/-- How a shard came about. -/
inductive Tree (τ : Type)
  | leaf (e : Entry τ)
  | merge (ts : List (Tree τ))
  | convert (t : Tree τ)
  | blank

mutual
/-- its transactions, in order -/
def Tree.leaves {τ : Type} : Tree τ → List (Entry τ)
  | .leaf e => [e]
  | .merge ts => Tree.leavesAll ts
  | .convert t => t.leaves
  | .blank => []
def Tree.leavesAll {τ : Type} : List (Tree τ) → List (Entry τ)
  | [] => []
  | t :: ts => t.leaves ++ Tree.leavesAll ts
end

theorem Tree.leavesAll_eq {τ : Type} (ts : List (Tree τ)) : Tree.leavesAll ts = ts.flatMap Tree.leaves := by
  induction ts with
  | nil => rfl
  | cons t ts ih => rw [Tree.leavesAll, ih]; rfl

/-- the last address with text, from the sizes of the transactions -/
def lastOf {τ : Type} (size : τ → Nat) (l : List (Entry τ)) : Option Nat :=
  (l.reverse.find? fun e => 0 < size e.txn).map fun e => e.base + size e.txn - 1

def treeOps {τ : Type} (size : τ → Nat) (empty : τ → Bool) : Ops τ (Tree τ) where
  size := size
  empty := empty
  leaf := .leaf
  merge := .merge
  convert := .convert
  blank := .blank
  last := fun t => lastOf size t.leaves

theorem treeOps_lawful {τ : Type} (size : τ → Nat) (empty : τ → Bool) :
    Lawful (treeOps size empty) Tree.leaves where
  leaf := fun _ => by simp [treeOps, Tree.leaves]
  merge := fun bs => by simp [treeOps, Tree.leaves, Tree.leavesAll_eq]
  convert := fun _ => by simp [treeOps, Tree.leaves]
  blank := by simp [treeOps, Tree.leaves]
  last := fun _ => rfl

end Verif.Txn
