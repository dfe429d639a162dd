import Verif.Rank.CombineModel
/-
  Model of `icover_ranking` (src/ranking.cc 406-536).

  The answers of a hopper depend on the key only (C01), so a hopper is its answers here.
-/
namespace Verif.Rank
open Verif.Hopper

/-- 424-430 `WeightedHopper`, without the position, which is set anew in each round (466-467) -/
structure Weighed (σ : Type) where
  weight : σ
  tau : Int → Ann
  uat : Int → Ann

/-- what `std::sort` is asked to do: 446-449 and 503-505 (lighter first), 468-471 (by position),
516-518 (heavier first); and what is taken from a score, `n * log(length)` (482) -/
structure Sorts (σ : Type) where
  light : List (Weighed σ) → List (Weighed σ)
  position : List (Weighed σ × Int) → List (Weighed σ × Int)
  heavy : List (Weighed σ) → List (Weighed σ)
  results : List (Result σ) → List (Result σ)
  penalty : Nat → Int → σ → σ

section
variable {σ : Type} (sc : Scores σ) (so : Sorts σ) (rho : Int → Ann) (depth : Nat)

/-- 443, 490, 499: `none` is `back()` of an empty vector -/
def targetAt (top : List (Result σ)) : Option σ :=
  if top.length ≥ depth then top.getLast?.map (·.score) else some sc.zero

/-- the variables `top`, `current` and `target` -/
structure Heap (σ : Type) where
  top : List (Result σ)
  current : List (Result σ)
  target : σ

/-- 487-492, when the cover is good enough -/
def Heap.offer (h : Heap σ) (r : Result σ) : Option (Heap σ) :=
  if (h.current ++ [r]).length = depth then
    let top := mergeResults so.results h.top (h.current ++ [r]) depth
    (targetAt sc depth top).map fun target => ⟨top, [], target⟩
  else some { h with current := h.current ++ [r] }

/-- 484-494 -/
def Heap.add (h : Heap σ) (p q : Int) (score : σ) : Option (Heap σ) :=
  if sc.gt score h.target then
    if (rho q).p ≤ p then h.offer sc so depth ⟨p, q, (rho q).p, (rho q).q, score⟩
    else some h
  else some h

/-- 475-479: where the cover begins -/
def coverStart (q : Int) (last : Weighed σ) (others : List (Weighed σ)) : Int :=
  others.foldl (fun p t => min p (t.uat q).p) (last.uat q).p

/-- 476, 480, 482: its score -/
def coverScore (p q : Int) (last : Weighed σ) (others : List (Weighed σ)) : σ :=
  so.penalty (others.length + 1) (q - p + 1) (others.foldl (fun s t => sc.add s t.weight) last.weight)

/-- 463-496: one pass for `n` terms; the first argument bounds the turns (`none`: more turns, or
undefined behaviour) -/
def coverPass (n : Nat) : Nat → Int → List (Weighed σ) → Heap σ → Option (List (Weighed σ) × Heap σ)
  | 0, _, _, _ => none
  | turns + 1, k, terms, h =>
    let whs := so.position (terms.map fun t => (t, (t.tau k).q))
    match whs[n - 1]? with
    | none => none
    | some (last, q) =>
      if q = maxfinity then some (whs.map (·.1), h)
      else
        let others := (whs.take (n - 1)).map (·.1)
        let p := coverStart q last others
        match h.add sc so rho depth p q (coverScore sc so p q last others) with
        | none => none
        | some h => coverPass n turns (p + 1) (whs.map (·.1)) h

/-- 450-459: terms are dropped while the `n` lightest together do not exceed the target -/
def dropLight (n : Nat) (target : σ) : List (Weighed σ) → List (Weighed σ)
  | [] => []
  | t :: l =>
    if n ≤ (t :: l).length then
      if sc.gt (((t :: l).take n).foldl (fun s t => sc.add s t.weight) sc.zero) target then t :: l
      else dropLight n target l
    else t :: l

/-- 445-459: the terms that are used in this pass -/
def passTerms (n : Nat) (target : σ) (terms : List (Weighed σ)) (top : List (Result σ)) : List (Weighed σ) :=
  if top.length ≥ depth then dropLight sc n target (so.light terms) else terms

/-- 497-500 -/
def Heap.flush (h : Heap σ) : Option (Heap σ) :=
  if h.current.length > 0 then
    let top := mergeResults so.results h.top h.current depth
    (targetAt sc depth top).map fun target => ⟨top, [], target⟩
  else some h

/-- 442-501: the passes for `n`, `n - 1`, …, 2 terms; the first of the pair is set when the function
returns at 460-461 -/
def coverPasses : Nat → List (Weighed σ) → List (Result σ) → σ → Option (Bool × List (Weighed σ) × List (Result σ) × σ)
  | 0, terms, top, target => some (false, terms, top, target)
  | 1, terms, top, target => some (false, terms, top, target)
  | n + 2, terms, top, _ =>
    match targetAt sc depth top with
    | none => none
    | some target =>
      let terms := passTerms sc so depth (n + 2) target terms top
      if top.length ≥ depth ∧ terms.length < n + 2 then some (true, terms, top, target)
      else
        match coverPass sc so rho depth (n + 2) loopFuel (minfinity + 1) terms ⟨top, [], target⟩ with
        | none => none
        | some (terms, h) =>
          match h.flush sc so depth with
          | none => none
          | some h => coverPasses (n + 1) terms h.top h.target

/-- 520-531 for one term: until it has no more solutions or there are enough -/
def onesOf (t : Weighed σ) : Nat → Int → List (Result σ) → Option (List (Result σ))
  | 0, _, _ => none
  | turns + 1, k, ones =>
    if ones.length < depth then
      if (t.tau k).q < maxfinity then
        onesOf t turns ((t.tau k).p + 1)
          (if (rho (t.tau k).q).p ≤ (t.tau k).p then
            ones ++ [⟨(t.tau k).p, (t.tau k).q, (rho (t.tau k).q).p, (rho (t.tau k).q).q, t.weight⟩] else ones)
      else some ones
    else some ones

/-- 519-532: the first term from address 0 on -/
def onesLoop : Int → List (Weighed σ) → List (Result σ) → Option (List (Result σ))
  | _, [], ones => some ones
  | k, t :: l, ones =>
    match onesOf rho depth t loopFuel k ones with
    | none => none
    | some ones => onesLoop (minfinity + 1) l ones

/-- 502-511: the terms that are used alone -/
def oneTerms (target : σ) (terms : List (Weighed σ)) (top : List (Result σ)) : List (Weighed σ) :=
  if top.length ≥ depth then (so.light terms).dropWhile fun t => !sc.gt t.weight target else terms

/-- 406-536 `icover_ranking`; `terms` is what the tokenizer makes of the query, with the hoppers and
weights of 431-439.  (414-423: that there is a container query and that it is well-formed is assumed.) -/
def icoverRanking (terms : List (Weighed σ)) : Option (List (Result σ)) :=
  if terms = [] then some []
  else
    match coverPasses sc so rho depth terms.length terms [] sc.zero with
    | none => none
    | some (true, _, top, _) => some top
    | some (false, terms, top, target) =>
      let ones := oneTerms sc so depth target terms top
      if top.length ≥ depth ∧ ones = [] then some top
      else
        match onesLoop rho depth 0 (so.heavy ones) [] with
        | none => none
        | some onesies => some (mergeResults so.results top onesies depth)

end

end Verif.Rank
