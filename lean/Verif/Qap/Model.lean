import Verif.Qap.Spec
import Verif.Pipe.Model
/-
  Model of `qap` (src/ranking.cc:1395-1509), after its parameters are known and the passages are found (`icover_ranking`, C60).
-/
namespace Verif.Qap
open Verif.Pipe (Word Weights weightOf Arith addTo)

/-- what `qap` uses.  `weigh word location` is `log(N / (ft * (location + 1)))` with the count `ft` of the word; `sort` sorts candidates by
their scores. -/
structure Tools (V : Type) where
  translate : Int → Int → Txt
  split : Txt → List Word
  tokenize : Txt → List (Nat × Nat)
  weigh : Word → Int → V
  cube : V → V
  zero : V
  add : V → V → V
  lt : Word → Word → Bool
  sort : (Nat → V) → List Nat → List Nat

/-- `src/ranking.cc:1415-1420`; with numbers that are not bounded (`cover.p() - window` is unsigned, but is put back into an `addr`) -/
def spread (window : Nat) (c : Cover) : Int × Int :=
  let p := c.p - window
  let p := if p < c.cp then c.cp else p
  let q := c.q + window
  let q := if q > c.cq then c.cq else q
  (p, q)

/-- `src/ranking.cc:1429-1431`.  The map is in the order of the first occurrences: each word is weighed on its own. -/
def place (m : List (Word × Int)) (w : Word) (where_ location : Int) : List (Word × Int) :=
  match (m.find? fun x => x.1 = w).map (·.2) with
  | none => m ++ [(w, location)]
  | some old => if where_ < old then m.map fun x => if x.1 = w then (w, location) else x else m

/-- `src/ranking.cc:1432-1436` -/
def advance (q where_ location : Int) : Int × Int :=
  let where_ := where_ + 1
  let location := if location > 0 then location - 1 else location
  let location := if where_ > q then location + 1 else location
  (where_, location)

/-- `src/ranking.cc:1428-1437` -/
def locate (q : Int) : Int → Int → List (Word × Int) → List Word → List (Word × Int)
  | _, _, m, [] => m
  | where_, location, m, w :: ws =>
    locate q (advance q where_ location).1 (advance q where_ location).2 (place m w where_ location) ws

section
variable {V : Type} (T : Tools V)

/-- `src/ranking.cc:1421-1423`: `seen` is looked up but nothing is put into it, so it does not occur here -/
def fragmentOf (window : Nat) (c : Cover) : Txt := T.translate (spread window c).1 (spread window c).2

/-- `src/ranking.cc:1424-1437` -/
def locations (window : Nat) (c : Cover) : List (Word × Int) :=
  locate c.q (spread window c).1 (max (c.p - (spread window c).1) 0) [] (T.split (fragmentOf T window c))

/-- `src/ranking.cc:1438-1450` -/
def addWeights (window : Nat) (m : Weights V) (c : Cover) : Weights V :=
  (locations T window c).foldl (fun m x => addTo ⟨T.zero, T.zero, T.add⟩ T.lt x.1 (T.weigh x.1 x.2) m) m

/-- `src/ranking.cc:1414-1460` -/
def weights (window : Nat) (covers : List Cover) (query : Txt) : Weights V :=
  ((covers.foldl (addWeights T window) []).filter fun x => !(T.split query).contains x.1).map fun x => (x.1, T.cube x.2)

/-- `src/ranking.cc:1464-1477`: the candidates of a fragment; `none`: `tokens` is read outside (`i + length - 1` is unsigned) -/
def candidatesOf (length : Nat) (fragment : Txt) : Option (List Txt) :=
  let tokens := T.tokenize fragment
  if tokens.length ≤ length then some [fragment]
  else (List.range (tokens.length - length)).mapM fun i =>
    if i + length = 0 then none
    else match tokens[i]?, tokens[i + length - 1]? with
      | some a, some b => some ((fragment.drop a.1).take (b.1 + b.2 - a.1))
      | _, _ => none

/-- `src/ranking.cc:1461-1478`: candidates and the numbers of their fragments -/
def candidates (length : Nat) : Nat → List Txt → Option (List (Txt × Nat))
  | _, [] => some []
  | j, f :: fs => match candidatesOf T length f, candidates length (j + 1) fs with
    | some cs, some rest => some (cs.map (fun t => (t, j)) ++ rest)
    | _, _ => none

/-- `std::set<std::string>` -/
def insertWord (lt : Word → Word → Bool) (w : Word) : List Word → List Word
  | [] => [w]
  | x :: m => if w = x then x :: m else if lt w x then w :: x :: m else x :: insertWord lt w m

/-- `src/ranking.cc:1482-1490` -/
def scoreOf (ws : Weights V) (t : Txt) : V :=
  ((T.split t).foldl (fun m w => insertWord T.lt w m) []).foldl (fun s w => match weightOf ws w with
    | none => s
    | some v => T.add s v) T.zero

/-- `src/ranking.cc:1498-1507`: the answers that are taken, in order -/
def pick (source : Nat → Nat) (depth : Nat) : List Nat → List Nat → List Nat
  | _, [] => []
  | taken, i :: is =>
    if taken.length < depth then
      if source i ∈ taken then pick source depth taken is else i :: pick source depth (source i :: taken) is
    else []

/-- `src/ranking.cc:1409-1508`, once the passages are known -/
def qap (depth length window : Nat) (covers : List Cover) (query : Txt) : Option (List Txt) :=
  let ws := weights T window covers query
  match candidates T length 0 (covers.map (fragmentOf T window)) with
  | none => none
  | some cs =>
    let score := fun i => scoreOf T ws ((cs[i]?.getD ([], 0)).1)
    let source := fun i => (cs[i]?.getD ([], 0)).2
    let order := T.sort score (List.range cs.length)
    some ((pick source depth [] order).map fun i => (cs[i]?.getD ([], 0)).1)

end

end Verif.Qap
