import Verif.Hopper.Model
import Verif.Rank.Spec
/-
  Model of src/ranking.cc: shortest-substring ranking and parallel ranking.
-/
namespace Verif.Rank
open Verif.Hopper

/-- `src/ranking.cc:286-303` `top_results`; `sort` is whatever `std::sort` does with the
comparison `a.score() > b.score()` -/
def topResults {σ : Type} (sort : List (Result σ) → List (Result σ)) (a b : List (Result σ)) (depth : Nat) :
    List (Result σ) := (sort (a ++ b)).take depth

/-- what `std::sort` guarantees: the same elements, none greater than an earlier one -/
def SortsBy {σ : Type} (sc : Scores σ) (sort : List (Result σ) → List (Result σ)) : Prop :=
  ∀ l, (sort l).Perm l ∧ (sort l).Pairwise fun a b => sc.gt b.score a.score = false

/-- the variables of `ssr_ranking` (`src/ranking.cc:331-338`) -/
structure Vars (σ : Type) where
  p : Int
  q : Int
  cp : Int
  cq : Int
  score : σ
  target : σ
  bestP : Int := maxfinity
  bestQ : Int := maxfinity
  top : List (Result σ) := []
  current : List (Result σ) := []

/-- `src/ranking.cc:340` -/
def targetOf {σ : Type} (sc : Scores σ) (depth : Nat) (top : List (Result σ)) : σ :=
  if top.length = depth then (match top.getLast? with
    | some r => r.score
    | none => sc.zero)
  else sc.zero

section
variable {σ : Type} (sc : Scores σ) (sort : List (Result σ) → List (Result σ)) (depth : Nat)

/-- `src/ranking.cc:344-353`: a container is finished -/
def Vars.close (s : Vars σ) : Vars σ :=
  let s := if sc.gt s.score s.target then
      let current := s.current ++ [⟨s.bestP, s.bestQ, s.cp, s.cq, s.score⟩]
      if current.length = depth then { s with top := topResults sort s.top current depth, current := [] }
      else { s with current := current }
    else s
  { s with score := sc.zero, bestP := maxfinity, bestQ := maxfinity }

/-- `src/ranking.cc:355-359`: a solution in the container.  (Differences of addresses are
unbounded integers here.) -/
def Vars.count (s : Vars σ) : Vars σ :=
  let s := { s with score := sc.add s.score (sc.weight s.p s.q) }
  if s.bestP = maxfinity ∨ s.q - s.p < s.bestQ - s.bestP then { s with bestP := s.p, bestQ := s.q } else s

/-- `src/ranking.cc:339-362`: the loop, with the two hoppers and their states; the first
argument bounds the turns -/
def ssrLoop (H C : Obj) (stop : Int) : Nat → H.σ → C.σ → Vars σ → Option (Vars σ)
  | 0, _, _, _ => none
  | n + 1, hs, cs, s =>
    if s.p < maxfinity ∧ s.cq < maxfinity ∧ s.cp < stop then
      let s := { s with target := targetOf sc depth s.top }
      if s.p < s.cp then
        match H.tau s.cp hs with
        | none => none
        | some (a, hs) => ssrLoop H C stop n hs cs { s with p := a.p, q := a.q }
      else if s.q > s.cq then
        match C.rho s.q cs with
        | none => none
        | some (c, cs) => ssrLoop H C stop n hs cs { s.close sc sort depth with cp := c.p, cq := c.q }
      else
        match H.tau (s.p + 1) hs with
        | none => none
        | some (a, hs) => ssrLoop H C stop n hs cs { s.count sc with p := a.p, q := a.q }
    else some s

/-- turns enough for any loop: more than twice the number of addresses -/
abbrev turns : Nat := 2 * loopFuel

/-- `src/ranking.cc:308-367` `ssr_ranking`; `H` and `C` are what `hopper_from_gcl` makes of the
query and of the container (inner `none`: `nullptr`) -/
def ssrRanking (H C : Option Obj) (start stop : Int) : Option (List (Result σ)) :=
  if depth = 0 then some []
  else
    let start := if start = minfinity then start + 1 else start
    if start ≥ stop then some []
    else match H, C with
      | some H, some C => do
        let (c, cs) ← C.tau start C.init
        if c.p ≥ stop then some []
        else do
          let (a, hs) ← H.tau c.p H.init
          let s ← ssrLoop sc sort depth H C stop turns hs cs
            { p := a.p, q := a.q, cp := c.p, cq := c.q, score := sc.zero, target := sc.zero }
          let current := if sc.gt s.score s.target ∧ s.cq < maxfinity ∧ s.cp < stop
            then s.current ++ [⟨s.bestP, s.bestQ, s.cp, s.cq, s.score⟩] else s.current
          return topResults sort s.top current depth
      | _, _ => some []

end

/-- `src/core.cc:39-46` `allowed_threads`, for what the hardware reports -/
def allowedThreads (hardware desired : Nat) : Nat :=
  let cap := if hardware ≤ 1 then 4 else 2 * hardware
  if desired = 0 then cap else if desired < cap then desired else cap

/-- `src/ranking.cc:1819` and `1821`: where the `n`-th of `d` ranges begins -/
def cutAt (start span d n : Int) : Int := start + span / d * n + span % d * n / d

/-- `src/ranking.cc:1814-1823`: the ranges -/
def ranges (start span : Int) (d : Nat) : List (Int × Int) :=
  (List.range d).map fun (i : Nat) => (cutAt start span d i, cutAt start span d (i + 1))

/-- `src/ranking.cc:1778-1848` `parallel_ranking` for a ranking algorithm that is given the two
ends of a range (outer `none`: undefined behaviour).  `cloned i` tells whether the warren could
be cloned for worker `i`; the workers share nothing, so their order does not matter. -/
def parallelRanking {σ : Type} (sort : List (Result σ) → List (Result σ)) (depth : Nat) (H C : Option Obj)
    (hardware threads : Nat) (cloned : Nat → Bool) (alg : Int → Int → Option (List (Result σ))) :
    Option (List (Result σ)) :=
  if depth = 0 then some []
  else match H, C with
    | some _, some C => do
      let (c, cs) ← C.tau (minfinity + 1) C.init
      if c.p = maxfinity then some []
      else do
        let start := c.p
        let (c, _) ← C.ohr (maxfinity - 1) cs
        if c.p = minfinity then some []
        else
          let z := if c.q = maxfinity then maxfinity else c.q + 1
          if z ≤ start then some []
          else if z - start > maxfinity then none
          else
            let span := z - start
            let threads := min (allowedThreads hardware threads) (max 1 (span / 1000000).toNat)
            if threads ≤ 1 then alg start z
            else do
              let rankings ← (ranges start span threads).zipIdx.mapM fun r =>
                if cloned r.2 then alg r.1.1 r.1.2 else some []
              if (List.range threads).any fun i => !cloned i then some []
              else return rankings.foldl (fun top r => topResults sort top r depth) []
    | _, _ => some []

end Verif.Rank
