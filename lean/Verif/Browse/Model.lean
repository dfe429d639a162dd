import Verif.Names.Model
/-
  Model of apps/fluffy.cc (queries at a terminal), apps/containers.cc (all containers, a line each) and the run of apps/treccast20.cc (results without duplicates).

  A hopper is the list of its solutions by rising address (C01, C02): `tau` gives the first that begins at or after an address, or `maxfinity` (nothing here).  Numbers are exact.  A text
  is the list of its tokens with what is around them.
-/
namespace Verif.Browse

abbrev Text := List Char

/-- a solution: its addresses and its value -/
structure Solution where
  p : Int
  q : Int
  v : Rat
  deriving DecidableEq

/-- `Hopper::tau` (C01) -/
def tau (solutions : List Solution) (k : Int) : Option Solution := solutions.find? fun s => decide (k ≤ s.p)

/-- src/core.h: `minfinity` -/
def minfinity : Int := -(2 ^ 63 : Nat)

/-- fluffy.cc 77-83 and containers.cc 36-39: the loop over the solutions, for at most so many -/
def visit (solutions : List Solution) : Nat → Int → List Solution
  | 0, _ => []
  | n + 1, k =>
    match tau solutions k with
    | none => []
    | some s => s :: visit solutions n (s.p + 1)

/-- fluffy.cc 77-83 -/
def shown (solutions : List Solution) : List Solution := visit solutions 24 (minfinity + 1)

/-- containers.cc 36-42, after so many turns -/
def listed (solutions : List Solution) (turns : Nat) : List Solution := visit solutions turns (minfinity + 1)

/-! ### values -/

/-- `cottontail::addr n = v` -/
def truncate (v : Rat) : Int := if v < 0 then -((-v).floor) else v.floor

/-- fluffy.cc 91-99: the number that is printed, if one is; `v` is a number that fits an address (others are undefined) -/
def valueShown (v : Rat) : Option Rat :=
  if v = 0 then none
  else
    let n := truncate v
    if v - n > 0 then some v else some n

/-! ### texts -/

/-- `Txt::translate` (C40): the tokens from `p` to `q` -/
def translate (tokens : List Text) (p q : Nat) : Text := ((tokens.drop p).take (q + 1 - p)).flatten

/-- fluffy.cc 58-63 -/
def thing (s : Text) : Text := s.map fun c => if c = '\n' then ' ' else c

/-- fluffy.cc 101-109 -/
def window (tokens : List Text) (p q : Nat) : Text :=
  if q - p ≤ 128 then thing (translate tokens p q) ++ ['\n']
  else thing (translate tokens p (p + 128 / 2)) ++ ['.', '.', '.', ' '] ++ thing (translate tokens (q - 128 / 2) q) ++ ['\n']

/-- containers.cc 30-35, 40-41 -/
def oneline (s : Text) : Text := s.map (fun c => if c = '\n' ∨ c = '\r' then ' ' else c) ++ ['\n']

/-! ### runs without duplicates -/

/-- treccast20.cc 161-162 -/
def canon (canonical : List (Text × Text)) (pid : Text) : Text := ((canonical.find? fun x => x.1 == pid).map (·.2)).getD pid

/-- treccast20.cc 153-177: the loop over the results, with what was seen and the next rank; what is printed are names and ranks -/
def dedupe (canonical : List (Text × Text)) : List Text → Nat → List Text → List (Text × Nat)
  | _, _, [] => []
  | seen, rank, r :: rs =>
    let pid := canon canonical r
    if pid ∈ seen then dedupe canonical seen rank rs
    else (pid, rank) :: (if rank + 1 > 1000 then [] else dedupe canonical (pid :: seen) (rank + 1) rs)

/-- treccast20.cc 153-177 -/
def castNames (canonical : List (Text × Text)) (ranking : List Text) : List (Text × Nat) := dedupe canonical [] 1 ranking

/-- treccast20.cc 116-121: the label and the query of a line: `none` when `substr` throws, `some none` when the line is refused -/
def castLine (line : Text) : Option (Option (Text × Text)) :=
  if ' ' ∉ line then none
  else
    let label := line.takeWhile (· != ' ')
    let query := line.dropWhile (· != ' ')
    if label = [] ∨ query = [] then some none else some (some (label, query))

/-! ### specification -/

/-- the first of each, in order -/
def firsts : List Text → List Text
  | [] => []
  | a :: as => a :: (firsts as).filter (· != a)

/-- solutions by rising address, after `minfinity` -/
def Rising (solutions : List Solution) : Prop := solutions.Pairwise (fun a b => a.p < b.p) ∧ ∀ s ∈ solutions, minfinity < s.p

end Verif.Browse
