import Verif.Rank.Spec
/-
  What combined rankings are (the specification of C58).
-/
namespace Verif.Rank

/-- of the elements with the same key the first, without those whose key is in `seen` -/
def firsts {α : Type} (key : α → Int) : List Int → List α → List α
  | _, [] => []
  | seen, a :: l => if key a ∈ seen then firsts key seen l else a :: firsts key (key a :: seen) l

section
variable {σ : Type}

/-- the ranks, from `i` on, of the results that begin at `p` -/
def ranksOf (p : Int) : Nat → List (Result σ) → List Nat
  | _, [] => []
  | i, r :: l => if r.p = p then i :: ranksOf p (i + 1) l else ranksOf p (i + 1) l

/-- the shares of these ranks, added up in order -/
def sumShares (sc : Scores σ) (share : Nat → σ) : List Nat → Option σ
  | [] => none
  | i :: l => some (l.foldl (fun s j => sc.add s (share j)) (share i))

/-- the results with new scores, the first with that of rank `n` -/
def rescored (score : Nat → σ) : Nat → List (Result σ) → List (Result σ)
  | _, [] => []
  | n, r :: l => ⟨r.p, r.q, r.cp, r.cq, score n⟩ :: rescored score (n + 1) l

/-- `R` are the best `depth` containers of `all`, best first, each with the best of its results -/
structure BestContainers (sc : Scores σ) (depth : Nat) (all R : List (Result σ)) : Prop where
  size : R.length ≤ depth
  mem : ∀ r ∈ R, r ∈ all
  apart : (R.map (·.cp)).Nodup
  sorted : R.Pairwise fun a b => sc.gt b.score a.score = false
  best : ∀ x ∈ all, (∃ r ∈ R, r.cp = x.cp ∧ sc.gt x.score r.score = false) ∨
    (R.length = depth ∧ ∀ r ∈ R, sc.gt x.score r.score = false)

end

end Verif.Rank
