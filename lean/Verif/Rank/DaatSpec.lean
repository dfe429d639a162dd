import Verif.Rank.Spec
/-
  What a ranking by terms that are annotated with values is (the specification of C62).  Nothing here mentions
  hoppers or the ranking programs.
-/
namespace Verif.Rank
open Verif.Hopper

/-- a query term: its weight, and the passages that are annotated with it -/
structure Lane (τ : Type) where
  weight : τ
  docs : List Ann

/-- the terms that annotate a passage beginning at `p`, in the order of the query, with their annotations -/
def lanesAt {τ : Type} (lanes : List (Lane τ)) (p : Int) : List (τ × Ann) :=
  lanes.filterMap fun l => (l.docs.find? fun a => a.p == p).map fun a => (l.weight, a)

/-- The passage at `p`: it ends where the first of its terms says, and its score is the sum of what its terms add, in
the order of the query; `part` says what a term adds, of its weight, its value and the length of the passage. -/
def passageAt {σ τ : Type} (sc : Scores σ) (part : τ → Int → Int → σ) (lanes : List (Lane τ)) (p : Int) : Option (Result σ) :=
  match lanesAt lanes p with
  | [] => none
  | x :: xs => some ⟨p, x.2.q, p, x.2.q,
      (x :: xs).foldl (fun s y => sc.add s (part y.1 y.2.v (x.2.q - p + 1))) sc.zero⟩

/-- `all` are the passages with a score greater than zero, in order -/
structure Passages {σ τ : Type} (sc : Scores σ) (part : τ → Int → Int → σ) (lanes : List (Lane τ)) (all : List (Result σ)) : Prop where
  ordered : all.Pairwise fun a b => a.p < b.p
  mem : ∀ r, r ∈ all ↔ passageAt sc part lanes r.p = some r ∧ sc.gt r.score sc.zero = true

/-- The passages of a container when each is given the next of the numbers drawn as its score (`none`: no number), those with a score
greater than zero. -/
def lottery {σ : Type} (sc : Scores σ) : (Nat → Option σ) → List Ann → List (Result σ)
  | _, [] => []
  | draw, d :: ds =>
    let rest := lottery sc (fun i => draw (i + 1)) ds
    match draw 0 with
    | none => rest
    | some x => if sc.gt x sc.zero then ⟨d.p, d.q, d.p, d.q, x⟩ :: rest else rest

end Verif.Rank
