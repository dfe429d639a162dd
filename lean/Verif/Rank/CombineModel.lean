import Verif.Rank.Model
/-
  Model of how rankings are combined in src/ranking.cc: reciprocal rank fusion (64-89), tiers
  (240-264) and the merging of results that may share a container (374-400).
-/
namespace Verif.Rank
open Verif.Hopper

section
variable {σ : Type} (sc : Scores σ) (sort : List (Result σ) → List (Result σ))

/-! ### fusion -/

/-- 70-74: the inner loop over one ranking from rank `i` on; `share i` is `1.0 / (K + i + 1.0)` -/
def addShares (share : Nat → σ) : Nat → List (Result σ) → (Int → Option σ) → Int → Option σ
  | _, [], scores => scores
  | i, r :: l, scores =>
    addShares share (i + 1) l fun k =>
      if k = r.p then (match scores r.p with
        | none => some (share i)
        | some s => some (sc.add s (share i)))
      else scores k

/-- 69-74 -/
def allShares (share : Nat → σ) : List (List (Result σ)) → (Int → Option σ) → Int → Option σ
  | [], scores => scores
  | R :: rs, scores => allShares share rs (addShares sc share 0 R scores)

/-- 76-82 for one ranking: what has been seen, and what was collected -/
def collectFused (scores : Int → Option σ) : List (Result σ) → List Int × List (Result σ) → List Int × List (Result σ)
  | [], st => st
  | r :: l, (seen, fused) =>
    if r.p ∈ seen then collectFused scores l (seen, fused)
    else collectFused scores l (r.p :: seen, fused ++ [⟨r.p, r.q, r.cp, r.cq, (scores r.p).getD sc.zero⟩])

/-- 64-89 `rrf_fusion` -/
def rrfFusion (share : Nat → σ) (rankings : List (List (Result σ))) : List (Result σ) :=
  let scores := allShares sc share rankings fun _ => none
  sort (rankings.foldl (fun st R => collectFused sc scores R st) ([], [])).2

/-! ### tiers -/

/-- 250-259: the loop over the ranking of one tier; `fake n` is `n` as a score -/
def tierLoop (fake : Nat → σ) (depth : Nat) : List (Result σ) → List Int × List (Result σ) → List Int × List (Result σ)
  | [], st => st
  | r :: l, (seen, top) =>
    if top.length < depth then
      if r.cp ∈ seen then tierLoop fake depth l (seen, top)
      else tierLoop fake depth l (r.cp :: seen, top ++ [⟨r.p, r.q, r.cp, r.cq, fake (depth - top.length)⟩])
    else (seen, top)

/-- 247-263; the tiers are their rankings, which are made one after the other (`none`: undefined) -/
def tiersLoop (fake : Nat → σ) (depth : Nat) : List (Option (List (Result σ))) → List Int × List (Result σ) → Option (List (Result σ))
  | [], st => some st.2
  | none :: _, _ => none
  | some R :: l, st =>
    let st := tierLoop fake depth R st
    if st.2.length = depth then some st.2 else tiersLoop fake depth l st

/-- 240-264 `tiered_ranking`; `parameters` is not used -/
def tieredRanking (fake : Nat → σ) (tiers : List (Option Obj)) (container : Option Obj) (depth : Nat) : Option (List (Result σ)) :=
  if tiers = [] then some []
  else tiersLoop fake depth (tiers.map fun H => ssrRanking sc sort depth H container minfinity maxfinity) ([], [])

/-! ### merging -/

/-- 384-387 `std::stable_sort` by container -/
def byContainer (l : List (Result σ)) : List (Result σ) :=
  l.foldr (fun a l => l.takeWhile (fun b => decide (b.cp < a.cp)) ++ a :: l.dropWhile (fun b => decide (b.cp < a.cp))) []

/-- 390 `merged.empty() || merged.back().container_p() < result.container_p()` -/
def later : Option Int → Int → Bool
  | none, _ => true
  | some c, d => decide (c < d)

/-- 388-391; `last` is the container of `merged.back()` -/
def onePer : Option Int → List (Result σ) → List (Result σ)
  | _, [] => []
  | last, r :: l =>
    if later last r.cp then r :: onePer (some r.cp) l
    else onePer last l

/-- 374-400 `merge_results` -/
def mergeResults (a b : List (Result σ)) (depth : Nat) : List (Result σ) :=
  (sort (onePer none (byContainer (sort (a ++ b))))).take depth

end

end Verif.Rank
