/-
Specification of feedback: the best of the words that are good enough.
-/
import Verif.Feedback.Model
namespace Verif.Feedback
variable {Word : Type} [DecidableEq Word]

/-- `l` are the `n` best of the good words, best first (any of them among equals; all of them, if there are fewer). -/
structure BestOf (score : Word → Rat) (n : Nat) (good : Word → Prop) (l : List Word) : Prop where
  distinct : l.Nodup
  worthy : ∀ w ∈ l, good w
  few : l.length ≤ n
  order : l.Pairwise fun a b => score b ≤ score a
  rest : ∀ w, good w → w ∉ l → l.length = n ∧ ∀ v ∈ l, score w ≤ score v

/-- what `std::sort` guarantees: the same elements, none with a higher score than an earlier one -/
def Sorts (E : Env Word) : Prop := ∀ score l, (E.sort score l).Perm l ∧ (E.sort score l).Pairwise fun a b => score b ≤ score a

/-- the first result in each container -/
def firsts : List Result → List Result
  | [] => []
  | r :: l => r :: (firsts l).filter fun x => x.cp ≠ r.cp

/-- how many of the texts have the word -/
def holders (texts : List (List Word)) (w : Word) : Nat := (texts.filter fun t => t.contains w).length

/-- how many of the texts would be expected to have the word, if words came up at random -/
def expected (E : Env Word) (texts : List (List Word)) (w : Word) : Rat :=
  ((texts.filter fun t => t.contains w).map fun t => 1 - (1 - ((E.count w : Rat) + 1) / ((E.tokens : Rat) + E.vocab)) ^ t.length).sum

/-- the query has `extra` more weight for the words in `l`, and is otherwise as it was -/
def Gains (l : List Word) (extra : Word → Rat) (q q' : Query Word) : Prop :=
  ∀ w, q' w = if w ∈ l then some ((q w).getD 0 + extra w) else q w

/-- `o` is the least of the numbers, if there are any -/
def Least (S : Int → Prop) : Option Int → Prop
  | none => ∀ g, ¬ S g
  | some a => S a ∧ ∀ g, S g → a ≤ g

/-- The words at the addresses from `p` to `q`. -/
def wordsAt (word : Int → Word) (p q : Int) : List Word := (List.range (q - p + 1).toNat).map fun (i : Nat) => word (p + i)

/-- Text and tokenizer give the words at the addresses that are asked for, in a container. -/
def Reads (E : Env Word) (word : Int → Word) (cp cq : Int) : Prop :=
  ∀ p q, cp ≤ p → p ≤ q → q ≤ cq → E.split (E.translate p q) = wordsAt word p q

end Verif.Feedback
