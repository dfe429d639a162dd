import Verif.Rank.Spec
/-
  What a ranking by term weights is (the specification of C45).
-/
namespace Verif.Rank
open Verif.Hopper

/-- A query term: the most it can add to the score of a document, and the documents with the
term, in order; the value of a document is the term's frequency in it. -/
structure Term where
  weight : Rat
  docs : List Ann

/-- what a term adds to the score of a document: `part` of the term's weight, its frequency and
the document's length -/
def share (part : Rat → Int → Int → Rat) (d : Ann) (t : Term) : Rat :=
  match t.docs.find? fun a => a.p == d.p with
  | some a => part t.weight a.v (d.q - d.p + 1)
  | none => 0

/-- a sum -/
def tot (l : List Rat) : Rat := l.foldr (· + ·) 0

def docScore (part : Rat → Int → Int → Rat) (terms : List Term) (d : Ann) : Rat := tot (terms.map (share part d))

/-- some term occurs in the document -/
def occurs (terms : List Term) (d : Ann) : Bool := terms.any fun t => t.docs.any fun a => a.p == d.p

/-- the documents `D` that start in `[a, b)` and have a term in them, with their scores -/
def ranked (part : Rat → Int → Int → Rat) (terms : List Term) (D : List Ann) (a b : Int) : List (Result Rat) :=
  (D.filter fun d => decide (a ≤ d.p ∧ d.p < b) && occurs terms d).map fun d =>
    ⟨d.p, d.q, d.p, d.q, docScore part terms d⟩

/-- rational scores, larger ones first -/
def ratScores : Scores Rat where
  zero := 0
  add := (· + ·)
  gt := fun a b => decide (a > b)
  weight := fun _ _ => 1

/-- `src/ranking.cc:1294-1296` `bm25`, exactly: of the weight, the frequency and the length -/
def bm25 (tf : Int → Rat) (avgl b k1 : Rat) (w : Rat) (v l : Int) : Rat :=
  tf v * w / (k1 * ((1 - b) + b * (l / avgl)) + tf v)

end Verif.Rank
