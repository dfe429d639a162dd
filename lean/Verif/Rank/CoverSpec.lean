import Verif.Rank.CoverModel
import Verif.Rank.CombineSpec
/-
  What the ranking by covers finds (the specification of C59).  `M t` are the solutions of the term `t`.
-/
namespace Verif.Rank
open Verif.Hopper

variable {σ : Type}

/-- the hopper of a term answers as its solutions require -/
def SolvedBy (t : Weighed σ) (S : GC) : Prop :=
  Wf S ∧ ∀ k, InRange k → TauSpec S k (t.tau k) ∧ UatSpec S k (t.uat k)

/-- some of the terms, each as often at most as it is there -/
def Of (T terms : List (Weighed σ)) : Prop := ∃ rest, (T ++ rest).Perm terms

/-- each of the terms has a solution in `[p, q]` -/
def AllIn (M : Weighed σ → GC) (T : List (Weighed σ)) (p q : Int) : Prop := ∀ t ∈ T, ∃ a, M t a ∧ p ≤ a.p ∧ a.q ≤ q

/-- and in no smaller interval -/
def Tight (M : Weighed σ → GC) (T : List (Weighed σ)) (p q : Int) : Prop :=
  AllIn M T p q ∧ ∀ p' q', p ≤ p' → q' ≤ q → AllIn M T p' q' → p' = p ∧ q' = q

/-- what a passage with these terms is worth: a term by itself its weight, otherwise the sum of the
weights less the penalty for the length -/
def worth (sc : Scores σ) (penalty : Nat → Int → σ → σ) (p q : Int) : List (Weighed σ) → σ
  | [] => sc.zero
  | [t] => t.weight
  | t :: l => penalty (l.length + 1) (q - p + 1) (l.foldl (fun s t => sc.add s t.weight) t.weight)

/-- a passage: a tight interval around some of the terms, in a container, with its worth -/
def Passage (sc : Scores σ) (penalty : Nat → Int → σ → σ) (M : Weighed σ → GC) (C : GC) (terms : List (Weighed σ)) (r : Result σ) : Prop :=
  (∃ T, T ≠ [] ∧ Of T terms ∧ Tight M T r.p r.q ∧ r.score = worth sc penalty r.p r.q T) ∧
    ∃ c, C c ∧ r.cp = c.p ∧ r.cq = c.q ∧ c.p ≤ r.p ∧ r.q ≤ c.q

/-- nothing with `n` terms is overlooked: wherever `n` of the terms are, there is a tight interval around
some `n` of the terms that is among the candidates `A`, if it is in a container and is worth anything -/
def NothingMissed (sc : Scores σ) (penalty : Nat → Int → σ → σ) (M : Weighed σ → GC) (C : GC) (terms : List (Weighed σ)) (n : Nat)
    (A : List (Result σ)) : Prop :=
  ∀ (u v : Int) (T' : List (Weighed σ)), T'.length = n → Of T' terms → AllIn M T' u v →
    ∃ T p q, T.length = n ∧ Of T terms ∧ Tight M T p q ∧ u ≤ p ∧ q ≤ v ∧
      ((∃ c, C c ∧ c.p ≤ p ∧ q ≤ c.q) → sc.gt (worth sc penalty p q T) sc.zero = true →
        ∃ x ∈ A, x.p = p ∧ x.q = q ∧ x.score = worth sc penalty p q T)

end Verif.Rank
