import Verif.Rank.Model
import Verif.Rank.DaatSpec
/-
  Model of product_ranking, lmd_ranking, random_ranking and ranking_parameter (src/ranking.cc) and of the defaults of
  src/parameters.cc.
-/
namespace Verif.Rank
open Verif.Hopper

/-- `src/ranking.cc:1578-1585` and `1231-1237` `TermHopper`: the weight (for `lmd_ranking` that in the query and that of the term), the
hopper and its state, and where it stands.  What `product_ranking` keeps in `score` is computed from the value when it is used. -/
structure Topper (τ : Type) where
  weight : τ
  H : Obj
  st : H.σ
  cur : Ann

/-- `hopper->tau(k, &p, &q, &v)` -/
def Topper.seek {τ : Type} (t : Topper τ) (k : Int) : Option (Topper τ) :=
  match t.H.tau k t.st with
  | none => none
  | some (a, s) => some { t with st := s, cur := a }

/-- `src/ranking.cc:1601-1604`, `1624-1627` and `1252-1255`, `1271-1274` -/
def nearer {τ : Type} (t : Topper τ) (next : Int × Int) : Int × Int :=
  if t.cur.p < next.1 then (t.cur.p, t.cur.q) else next

/-- `src/ranking.cc:1590-1605` and `1249-1256`: all stand at their first passage, and which is the first -/
def firstAll {τ : Type} : Int × Int → List (Topper τ) → Option ((Int × Int) × List (Topper τ))
  | next, [] => some (next, [])
  | next, t :: ts => match t.seek (minfinity + 1) with
    | none => none
    | some t => match firstAll (nearer t next) ts with
      | none => none
      | some (next, ts) => some (next, t :: ts)

/-- `src/ranking.cc:1608` and `1259` -/
def atLeastDepth {σ : Type} (sc : Scores σ) (depth : Nat) (top : List (Result σ)) : σ :=
  if depth ≤ top.length then (match top.getLast? with
    | some r => r.score
    | none => sc.zero)
  else sc.zero

section
variable {σ τ : Type} (sc : Scores σ) (part : τ → Int → Int → σ)

/-- `src/ranking.cc:1612-1623` and `1264-1270`: a term at the passage adds its part and moves on -/
def visit (p len : Int) (score : σ) (t : Topper τ) : Option (σ × Topper τ) :=
  if t.cur.p = p then
    match t.seek (p + 1) with
    | none => none
    | some t' => some (sc.add score (part t.weight t.cur.v len), t')
  else some (score, t)

/-- `src/ranking.cc:1609-1628` and `1261-1275`: the score of the passage at `p`, and where the next one is -/
def turn (p len : Int) : σ → Int × Int → List (Topper τ) → Option (σ × (Int × Int) × List (Topper τ))
  | score, next, [] => some (score, next, [])
  | score, next, t :: ts => match visit sc part p len score t with
    | none => none
    | some (score, t) => match turn p len score (nearer t next) ts with
      | none => none
      | some (score, next, ts) => some (score, next, t :: ts)

/-- `src/ranking.cc:1629-1635` and `1276-1282`, `1529-1535`: keep a result better than the target -/
def keep (sort : List (Result σ) → List (Result σ)) (depth : Nat) (target : σ) (top current : List (Result σ)) (r : Result σ) :
    List (Result σ) × List (Result σ) :=
  if sc.gt r.score target then
    let current := current ++ [r]
    if current.length = depth then (topResults sort top current depth, []) else (top, current)
  else (top, current)

/-- `src/ranking.cc:1606-1640` and `1257-1287`: the loop; the first argument bounds the turns -/
def daatLoop (sort : List (Result σ) → List (Result σ)) (depth : Nat) : Nat → List (Topper τ) → Int × Int →
    List (Result σ) → List (Result σ) → Option (List (Result σ))
  | 0, _, _, _, _ => none
  | n + 1, ts, (p, q), top, current =>
    if p < maxfinity then
      match turn sc part p (q - p + 1) sc.zero (maxfinity, maxfinity) ts with
      | none => none
      | some (score, next, ts) =>
        let r := keep sc sort depth (atLeastDepth sc depth top) top current ⟨p, q, p, q, score⟩
        daatLoop sort depth n ts next r.1 r.2
    else some (topResults sort top current depth)

/-- `src/ranking.cc:1572-1641` `product_ranking` and `1228-1288` `lmd_ranking`, once the depth is known, for a query given as the weight and
the hopper of each term -/
def daat (sort : List (Result σ) → List (Result σ)) (depth : Nat) (query : List (τ × Obj)) : Option (List (Result σ)) :=
  if depth = 0 ∨ query.length = 0 then some []
  else
    match firstAll (maxfinity, maxfinity) (query.map fun t => ({ weight := t.1, H := t.2, st := t.2.init, cur := highEnd } : Topper τ)) with
    | none => none
    | some (next, ts) => daatLoop sc part sort depth loopFuel ts next [] []

/-- `src/ranking.cc:1524-1538`: the loop of `random_ranking`.  The numbers that are drawn are given; `none` is 0/0, which is greater than
nothing. -/
def randomLoop (sort : List (Result σ) → List (Result σ)) (depth : Nat) (C : Obj) : Nat → (Nat → Option σ) → C.σ → Int → Int →
    List (Result σ) → List (Result σ) → Option (List (Result σ))
  | 0, _, _, _, _, _, _ => none
  | n + 1, draw, s, p, q, top, current =>
    if p < maxfinity then
      let r := match draw 0 with
        | none => (top, current)
        | some x => keep sc sort depth (targetOf sc depth top) top current ⟨p, q, p, q, x⟩
      match C.tau (p + 1) s with
      | none => none
      | some (a, s) => randomLoop sort depth C n (fun i => draw (i + 1)) s a.p a.q r.1 r.2
    else some (topResults sort top current depth)

/-- `src/ranking.cc:1512-1539` `random_ranking` -/
def randomRanking (sort : List (Result σ) → List (Result σ)) (depth : Nat) (C : Option Obj) (draw : Nat → Option σ) :
    Option (List (Result σ)) :=
  if depth = 0 then some []
  else match C with
    | none => some []
    | some C => match C.tau (minfinity + 1) C.init with
      | none => none
      | some (a, s) => randomLoop sc sort depth C loopFuel draw s a.p a.q [] []

end

/-! ### parameters -/

/-- a parameter: its name and its value -/
abbrev Params := List (List Char × Rat)

def Params.get (m : Params) (name : List Char) : Option Rat := (m.find? fun x => x.1 = name).map (·.2)

/-- `src/parameters.cc:220-238` `from_ranker_name`, with the defaults of each ranker (26-30, 50-54, 76-81, 103-107, 131-137, 167-174, 205-212) -/
def rankerDefaults (name : List Char) : Option Params :=
  if name = ['b', 'm', '2', '5'] then
    some [(['b', 'm', '2', '5', ':', 'b'], 1/4), (['b', 'm', '2', '5', ':', 'k', '1'], 1/2)]
  else if name = ['k', 'l', 'd'] then
    some [(['k', 'l', 'd', ':', 'e', 'x', 'p', 'a', 'n', 's', 'i', 'o', 'n', 's'], 8), (['k', 'l', 'd', ':', 'd', 'e', 'p', 't', 'h'], 16),
      (['k', 'l', 'd', ':', 'w', 'i', 'n', 'd', 'o', 'w'], 64), (['k', 'l', 'd', ':', 'g', 'a', 'm', 'm', 'a'], 1/3)]
  else if name = ['l', 'm', 'd'] then some [(['l', 'm', 'd', ':', 'm', 'u'], 2000)]
  else if name = ['r', 's', 'j'] then
    some [(['r', 's', 'j', ':', 'e', 'x', 'p', 'a', 'n', 's', 'i', 'o', 'n', 's'], 25), (['r', 's', 'j', ':', 'd', 'e', 'p', 't', 'h'], 10),
      (['r', 's', 'j', ':', 'g', 'a', 'm', 'm', 'a'], 1/5)]
  else if name = ['s', 's', 'r'] then some [(['s', 's', 'r', ':', 'K'], 42)]
  else if name = ['t', 'i', 'e', 'r', 'e', 'd'] then some [(['t', 'i', 'e', 'r', 'e', 'd', ':', 'd', 'e', 'l', 't', 'a'], 1)]
  else if name = ['q', 'a', 'p'] then
    some [(['q', 'a', 'p', ':', 'd', 'e', 'p', 't', 'h'], 5), (['q', 'a', 'p', ':', 'l', 'e', 'n', 'g', 't', 'h'], 64),
      (['q', 'a', 'p', ':', 'p', 'a', 's', 's', 'a', 'g', 'e', 's'], 32), (['q', 'a', 'p', ':', 'w', 'i', 'n', 'd', 'o', 'w'], 64)]
  else none

/-- "depth" -/
def depthName : List Char := ['d', 'e', 'p', 't', 'h']

/-- `src/parameters.h` `defaults`: those of the ranker and a depth of 1000 (`src/parameters.cc:9`) -/
def withDepth (m : Params) : Params := (depthName, 1000) :: m.filter fun x => x.1 != depthName

/-- `src/ranking.cc:39-42` (without the assertion: what is not there is 0) -/
def defaultOf (m : Params) (full name : List Char) : Rat :=
  match m.get full with
  | some x => x
  | none => (m.get name).getD 0

/-- `src/ranking.cc:30-43` `ranking_parameter`; `none`: a null pointer is followed -/
def rankingParameter (ranker name : List Char) (m : Params) : Option Rat :=
  match m.get (ranker ++ ':' :: name) with
  | some x => some x
  | none => match m.get name with
    | some x => some x
    | none => match rankerDefaults ranker with
      | none => none
      | some d => some (defaultOf (withDepth d) (ranker ++ ':' :: name) name)

/-- `static_cast<size_t>`; `none`: the number does not fit, which is undefined -/
def toSize (x : Rat) : Option Nat :=
  if -1 < x ∧ x < 18446744073709551616 then some x.floor.toNat else none

/-- `src/ranking.cc:1564-1641` `product_ranking` -/
def productRanking {σ τ : Type} (sc : Scores σ) (part : τ → Int → Int → σ) (sort : List (Result σ) → List (Result σ)) (tag : List Char)
    (m : Params) (query : List (τ × Obj)) : Option (List (Result σ)) :=
  match (rankingParameter tag depthName m).bind toSize with
  | none => none
  | some depth => daat sc part sort depth query

/-- `src/ranking.cc:1221-1288` `lmd_ranking`; `part` is given `mu`, and a term has its weight in the query and `tokens / count` -/
def lmdRanking {σ τ : Type} (sc : Scores σ) (part : Rat → τ → Int → Int → σ) (sort : List (Result σ) → List (Result σ))
    (m : Params) (query : List (τ × Obj)) : Option (List (Result σ)) :=
  match rankingParameter ['l', 'm', 'd'] ['m', 'u'] m with
  | none => none
  | some mu => match (rankingParameter ['l', 'm', 'd'] depthName m).bind toSize with
    | none => none
    | some depth => daat sc (part mu) sort depth query

/-- `src/ranking.cc:1260` and `1265-1267`: what a term adds in `lmd_ranking`, of its weight in the query, `tokens / count` and the
frequency, exactly, with any logarithm -/
def lmdPart (log : Rat → Rat) (mu : Rat) (w : Rat × Rat) (tf len : Int) : Rat :=
  w.1 * (log (mu + tf * w.2) - log (mu + len))

/-- `src/ranking.cc:1595`, `1615-1622`: what a term adds in `product_ranking`, exactly -/
def productPart (w : Rat) (v _len : Int) : Rat := w * v

/-- `src/ranking.cc:1554-1560` and `1207-1210` (and `weighted_query[term] += 1.0`): a word more in the map, which is kept by `lt` -/
def addWord {α : Type} [DecidableEq α] (lt : α → α → Bool) (w : α) : List (α × Nat) → List (α × Nat)
  | [] => [(w, 1)]
  | (x, n) :: m => if w = x then (x, n + 1) :: m else if lt w x then (w, 1) :: (x, n) :: m else (x, n) :: addWord lt w m

/-- the words of a query as a map from words to weights -/
def weighted {α : Type} [DecidableEq α] (lt : α → α → Bool) (words : List α) : List (α × Nat) :=
  words.foldl (fun m w => addWord lt w m) []

end Verif.Rank
