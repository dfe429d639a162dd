import Verif.Pipe.Spec
/-
  What short answers are (the specification of C65).
-/
namespace Verif.Qap
open Verif.Pipe (Word Weights weightOf sum)

abbrev Txt := List Char

/-- a passage that matches the query and what contains it -/
structure Cover where
  p : Int
  q : Int
  cp : Int
  cq : Int
deriving DecidableEq

/-- it is within its container, and the container begins at 0 or later -/
def Cover.Good (c : Cover) : Prop := 0 ≤ c.cp ∧ c.cp ≤ c.p ∧ c.p ≤ c.q ∧ c.q ≤ c.cq

/-- how many words a word is away from a passage -/
def distance (c : Cover) (x : Int) : Int := if x < c.p then c.p - x else if x ≤ c.q then 0 else x - c.q

/-- the text from the beginning of the `i`-th word to the end of the one `length - 1` words later; words are given by offset and length -/
def Window (fragment : Txt) (words : List (Nat × Nat)) (length i : Nat) (t : Txt) : Prop :=
  ∃ a b, words[i]? = some a ∧ words[i + length - 1]? = some b ∧ t = (fragment.drop a.1).take (b.1 + b.2 - a.1)

/-- the fragments around the passages: at most `window` words before and after, in the container -/
def around (translate : Int → Int → Txt) (window : Nat) (c : Cover) : Txt := translate (max (c.p - window) c.cp) (min (c.q + window) c.cq)

/-- A selection of answers among candidates.  `source` is the fragment of a candidate, and `better` compares scores. -/
structure Selects {σ : Type} (n : Nat) (score : Nat → σ) (source : Nat → Nat) (better : σ → σ → Bool) (depth : Nat) (picks : List Nat) : Prop where
  /-- at most `depth` candidates -/
  some : picks.length ≤ depth ∧ ∀ i ∈ picks, i < n
  /-- the best first -/
  ordered : picks.Pairwise fun i j => better (score j) (score i) = false
  /-- at most one of each fragment -/
  once : (picks.map source).Nodup
  /-- which is the best of its fragment -/
  best : ∀ i ∈ picks, ∀ j, j < n → source j = source i → better (score j) (score i) = false
  /-- nothing is left out that is better than what is there, nor anything while there is room -/
  all : ∀ j, j < n → source j ∉ picks.map source → picks.length = depth ∧ ∀ i ∈ picks, better (score j) (score i) = false

end Verif.Qap
