import Verif.Hopper.Spec
/-
  What a ranking is (the specification of C44): the best containers by score.  Nothing here
  mentions hoppers or the ranking programs.
-/
namespace Verif.Rank
open Verif.Hopper

/-- Scores, of which only what the programs use is known: zero, addition, the comparison, and
what a solution `[p, q]` adds.  `fval` (`double`) is one instance: no property of arithmetic is
assumed, so rounding does not matter. -/
structure Scores (σ : Type) where
  zero : σ
  add : σ → σ → σ
  gt : σ → σ → Bool
  weight : Int → Int → σ

/-- `src/ranking.h:16-45` `RankingResult`: a passage, its container and the score -/
structure Result (σ : Type) where
  p : Int
  q : Int
  cp : Int
  cq : Int
  score : σ
deriving DecidableEq

/-- The comparison orders the scores (incomparable ones count as equal).  (For doubles: no NaN.) -/
structure Scores.Ordered {σ : Type} (sc : Scores σ) : Prop where
  asymm : ∀ {a b}, sc.gt a b = true → sc.gt b a = false
  split : ∀ {a b c}, sc.gt a c = true → sc.gt a b = true ∨ sc.gt b c = true

/-- Moreover a sum of one or more weights is greater than zero.  (For doubles: `K > 0`.) -/
structure Scores.Lawful {σ : Type} (sc : Scores σ) : Prop extends sc.Ordered where
  pos : ∀ {s} {p q : Int}, s = sc.zero ∨ sc.gt s sc.zero = true → p ≤ q →
    sc.gt (sc.add s (sc.weight p q)) sc.zero = true

instance {σ : Type} {sc : Scores σ} : Coe sc.Lawful sc.Ordered := ⟨Scores.Lawful.toOrdered⟩

/-- the solutions lying in a container, in order -/
def within (L : List Ann) (c : Ann) : List Ann := L.filter fun a => decide (c.p ≤ a.p ∧ a.q ≤ c.q)

/-- the weights of the solutions, added up in order -/
def scoreOf {σ : Type} (sc : Scores σ) (l : List Ann) : σ :=
  l.foldl (fun s a => sc.add s (sc.weight a.p a.q)) sc.zero

/-- the first of the shortest -/
def Shortest (l : List Ann) (a : Ann) : Prop :=
  a ∈ l ∧ ∀ b ∈ l, a.q - a.p ≤ b.q - b.p ∧ (b.q - b.p = a.q - a.p → a.p ≤ b.p)

/-- the result of a container: its shortest solution and the sum over all its solutions -/
def Scored {σ : Type} (sc : Scores σ) (L : List Ann) (c : Ann) (r : Result σ) : Prop :=
  r.cp = c.p ∧ r.cq = c.q ∧ r.score = scoreOf sc (within L c) ∧
    ∃ a, Shortest (within L c) a ∧ r.p = a.p ∧ r.q = a.q

/-- the containers in `[start, stop)` with a solution in them -/
def matching (L C : List Ann) (start stop : Int) : List Ann :=
  C.filter fun c => decide (start ≤ c.p ∧ c.p < stop) && !(within L c).isEmpty

/-- `all` are the results of the containers `cs`, in the same order -/
inductive Results {σ : Type} (sc : Scores σ) (L : List Ann) : List Ann → List (Result σ) → Prop
  | nil : Results sc L [] []
  | cons {c cs r rs} : Scored sc L c r → Results sc L cs rs → Results sc L (c :: cs) (r :: rs)

/-- `R` are the best `depth` of `all`, best first: nothing left out is better than something in
`R`. -/
structure Top {σ : Type} (sc : Scores σ) (depth : Nat) (all R : List (Result σ)) : Prop where
  size : R.length = min depth all.length
  sorted : R.Pairwise fun a b => sc.gt b.score a.score = false
  best : ∃ others, (R ++ others).Perm all ∧ ∀ x ∈ others, ∀ r ∈ R, sc.gt x.score r.score = false

end Verif.Rank
