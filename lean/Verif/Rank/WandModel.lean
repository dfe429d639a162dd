import Verif.Rank.Model
import Verif.Rank.WandSpec
/-
  Model of bm25_ranking (src/ranking.cc).
-/
namespace Verif.Rank
open Verif.Hopper

/-- `src/ranking.cc:1338-1344` `WandHopper`: the weight, the hopper and its state, and where it
stands (`p`, `q`, and `tf` as the value) -/
structure Leg where
  idf : Rat
  H : Obj
  st : H.σ
  cur : Ann

/-- `hopper->tau(k, &p, &q, &tf)` -/
def Leg.seek (w : Leg) (k : Int) : Option Leg :=
  match w.H.tau k w.st with
  | none => none
  | some (a, s) => some { w with st := s, cur := a }

/-- `src/ranking.cc:1352-1353` and `1374-1375` -/
def seekAll (k : Int) : List Leg → Option (List Leg)
  | [] => some []
  | w :: ws => match w.seek k with
    | none => none
    | some w => match seekAll k ws with
      | none => none
      | some ws => some (w :: ws)

/-- `src/ranking.cc:1360-1361`: the legs at the end are dropped -/
def popEnded (l : List Leg) : List Leg := (l.reverse.dropWhile fun w => w.cur.p == maxfinity).reverse

/-- `src/ranking.cc:1362-1370`: the first leg with which the weights exceed the target, those
before it and those after it -/
def findPivot (target : Rat) : Rat → List Leg → Option (List Leg × Leg × List Leg)
  | _, [] => none
  | x, w :: ws =>
    if x + w.idf > target then some ([], w, ws)
    else match findPivot target (x + w.idf) ws with
      | none => none
      | some (b, v, a) => some (w :: b, v, a)

/-- `src/ranking.cc:1376-1381`: the score of the document at the pivot; every leg there moves on -/
def collect (part : Rat → Int → Int → Rat) (pivot length : Int) : Rat → List Leg → Option (Rat × List Leg)
  | score, [] => some (score, [])
  | score, w :: ws =>
    if w.cur.p = pivot then
      match w.seek (pivot + 1) with
      | none => none
      | some w' => match collect part pivot length (score + part w.idf w.cur.v length) ws with
        | none => none
        | some (s, ws) => some (s, w' :: ws)
    else match collect part pivot length score ws with
      | none => none
      | some (s, ws) => some (s, w :: ws)

/-- `src/ranking.cc:1382-1388`: keep a result better than the target -/
def push (sort : List (Result Rat) → List (Result Rat)) (depth : Nat) (top current : List (Result Rat)) (r : Result Rat) :
    List (Result Rat) × List (Result Rat) :=
  if r.score > targetOf ratScores depth top then
    let current := current ++ [r]
    if current.length = depth then (topResults sort top current depth, []) else (top, current)
  else (top, current)

/-- `src/ranking.cc:1356-1390`: the loop.  `order` is whatever `std::sort` does with
the comparison by `p`, `sort` with that by score; the first argument bounds the turns.  Weights
and scores are exact. -/
def wandLoop (part : Rat → Int → Int → Rat) (order : List Leg → List Leg)
    (sort : List (Result Rat) → List (Result Rat)) (depth : Nat) :
    Nat → List Leg → List (Result Rat) → List (Result Rat) → Option (List (Result Rat))
  | 0, _, _, _ => none
  | n + 1, legs, top, current =>
    match findPivot (targetOf ratScores depth top) 0 (popEnded (order legs)) with
    | none => some (topResults sort top current depth)
    | some (before, w, after) =>
      match seekAll w.cur.p before with
      | none => none
      | some before =>
        match collect part w.cur.p (w.cur.q - w.cur.p + 1) 0 (before ++ w :: after) with
        | none => none
        | some (score, legs) =>
          let r := push sort depth top current ⟨w.cur.p, w.cur.q, w.cur.p, w.cur.q, score⟩
          wandLoop part order sort depth n legs r.1 r.2

/-- `src/ranking.cc:1323-1390` `bm25_ranking` up to `maybe_add_container`, for a query given as the weight of each
term, its `rsj` and its hopper -/
def bm25Ranking (part : Rat → Int → Int → Rat) (order : List Leg → List Leg)
    (sort : List (Result Rat) → List (Result Rat)) (depth : Nat) (query : List (Rat × Rat × Obj)) :
    Option (List (Result Rat)) :=
  if depth = 0 then some []
  else if query.length = 0 then some []
  else
    let wand := (query.filter fun t => t.2.1 != 0).map fun t => ({ idf := t.1 * t.2.1, H := t.2.2, st := t.2.2.init, cur := highEnd } : Leg)
    match seekAll (minfinity + 1) wand with
    | none => none
    | some wand => wandLoop part order sort depth loopFuel wand [] []

/-- `src/ranking.h:33-38` `container` -/
def Result.inside {σ : Type} (r : Result σ) (c : Ann) : Result σ :=
  if c.p ≤ r.p ∧ c.q ≥ r.q then { r with cp := c.p, cq := c.q } else r

/-- `src/ranking.cc:45-58` `maybe_add_container`, with the hopper for the containers -/
def addContainers {σ : Type} (C : Obj) : C.σ → List (Result σ) → Option (List (Result σ))
  | _, [] => some []
  | s, r :: rs => match C.rho r.q s with
    | none => none
    | some (c, s) => match addContainers C s rs with
      | none => none
      | some rs => some (r.inside c :: rs)

end Verif.Rank
