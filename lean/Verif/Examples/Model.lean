/-
  Model of apps/json-examples.cc: what its example queries compute from the solutions that they go through, and how it finds the parts of a date.

  A query is the list of its solutions, in order; that a hopper goes through these is C04.  Ratings are exact numbers.  Whether the parts of a date are numbers, and the time that they are (231-242), are not in
  the model.
-/
namespace Verif.Examples

abbrev Text := List Char

/-! ### example 1: MIN, AVG, MAX -/

/-- least, total, greatest and number of ratings, as the program has them -/
structure Ratings where
  least : Rat
  total : Rat
  greatest : Rat
  restaurants : Rat

/-- json-examples.cc 43-49 -/
def rate (r : Ratings) (v : Rat) : Ratings := ⟨if v < r.least then v else r.least, r.total + v, if r.greatest < v then v else r.greatest, r.restaurants + 1⟩

/-- json-examples.cc 35-50: the first solution is there before the loop, which begins with it -/
def ratings : List Rat → Ratings
  | [] => ⟨0, 0, 0, 1⟩
  | v :: vs => (v :: vs).foldl rate ⟨v, v, v, 1⟩

/-- json-examples.cc 54-55 -/
def printed (vs : List Rat) : Rat × Rat × Rat := ((ratings vs).least, (ratings vs).total / (ratings vs).restaurants, (ratings vs).greatest)

/-! ### example 6: GROUP BY -/

/-- json-examples.cc 195-200 -/
def countOne (x : Text) : List (Text × Nat) → List (Text × Nat)
  | [] => [(x, 1)]
  | (y, n) :: rest => if y = x then (y, n + 1) :: rest else (y, n) :: countOne x rest

/-- json-examples.cc 190-201: in the order in which they are seen here, and not in that of a map -/
def groups (xs : List Text) : List (Text × Nat) := xs.foldl (fun m x => countOne x m) []

/-! ### example 8: titles of a year -/

structure Span where
  p : Int
  q : Int
deriving DecidableEq

def inside (a b : Span) : Bool := decide (b.p ≤ a.p) && decide (a.q ≤ b.q)

/-- json-examples.cc 373: titles in files that have a mark of the year in them (the meaning of `<<` and `>>`: C02; that a file is one solution of its name: scribe.cc 346-349) -/
def titlesOfYear (titles files marks : List Span) : List Span := titles.filter fun t => files.any fun f => inside t f && marks.any fun m => inside m f

/-! ### example 4: titles and authors -/

/-- `tau`: the first solution that does not start before (C04) -/
def firstFrom (l : List Span) (p : Int) : Option Span := l.find? fun x => p ≤ x.p

/-- json-examples.cc 136-149: one list of solutions for each place in the array of authors -/
def authorsOf (text : Span → Text) (b : Span) : List (List Span) → List Text
  | [] => []
  | a :: rest =>
    match firstFrom a b.p with
    | none => []
    | some x => if x.q > b.q then [] else if text x = ['"', '"', ' '] then authorsOf text b rest else text x :: authorsOf text b rest

/-- json-examples.cc 128-149: one book -/
def bookLines (text : Span → Text) (titles : List Span) (authors : List (List Span)) (b : Span) : List (Text × Text) :=
  match firstFrom titles b.p with
  | none => []
  | some t => if t.q > b.q then [] else if text t = ['"', '"'] then [] else (authorsOf text b authors).map fun a => (text t, a)

/-- json-examples.cc 126-150 -/
def bookJoin (text : Span → Text) (titles : List Span) (authors : List (List Span)) (books : List Span) : List (Text × Text) := books.flatMap (bookLines text titles authors)

/-! ### dates -/

/-- `std::string::substr`, which throws after the end -/
def substr (i n : Nat) (s : Text) : Option Text := if i ≤ s.length then some ((s.drop i).take n) else none

/-- json-examples.cc 257-260: a name that is not there gives an empty text -/
def month (s : Text) : Text :=
  match s with
  | ['J', 'a', 'n'] => ['0', '1']
  | ['F', 'e', 'b'] => ['0', '2']
  | ['M', 'a', 'r'] => ['0', '3']
  | ['A', 'p', 'r'] => ['0', '4']
  | ['M', 'a', 'y'] => ['0', '5']
  | ['J', 'u', 'n'] => ['0', '6']
  | ['J', 'u', 'l'] => ['0', '7']
  | ['A', 'u', 'g'] => ['0', '8']
  | ['S', 'e', 'p'] => ['0', '9']
  | ['O', 'c', 't'] => ['1', '0']
  | ['N', 'o', 'v'] => ['1', '1']
  | ['D', 'e', 'c'] => ['1', '2']
  | _ => []

structure Date where
  year : Text
  month : Text
  day : Text
deriving DecidableEq

/-- json-examples.cc 269-271, 325-327, 338-340: books, profiles and trades -/
def isoDate (s : Text) : Option Date := do
  let y ← substr 1 4 s
  let m ← substr 6 2 s
  let d ← substr 9 2 s
  return ⟨y, m, d⟩

/-- json-examples.cc 282-287: inspections -/
def inspectionDate (s : Text) : Option Date := do
  let d ← substr 5 2 s
  let d ← if d.take 1 = [' '] then (substr 1 1 d).map fun x => '0' :: x else some d
  let y ← substr 8 4 s
  let m ← substr 1 3 s
  return ⟨y, Verif.Examples.month m, d⟩

/-- json-examples.cc 312-314: companies with a date in words -/
def companyDate (s : Text) : Option Date := do
  let y ← substr 25 4 s
  let m ← substr 5 3 s
  let d ← substr 9 2 s
  return ⟨y, Verif.Examples.month m, d⟩

/-! ### specification -/

/-- solutions come in order, and none is in another -/
def InOrder : List Span → Prop
  | [] => True
  | x :: l => (∀ y ∈ l, x.p < y.p ∧ x.q < y.q) ∧ InOrder l

/-- `x` is the first of the list that lies in `b` -/
def FirstIn (l : List Span) (b x : Span) : Prop := x ∈ l ∧ b.p ≤ x.p ∧ x.q ≤ b.q ∧ ∀ y ∈ l, b.p ≤ y.p → y.q ≤ b.q → x.p ≤ y.p


def sum (vs : List Rat) : Rat := vs.foldl (· + ·) 0

/-- AVG -/
def average (vs : List Rat) : Rat := sum vs / (vs.length : Rat)

/-- the number of a month is two digits, in order -/
def monthNames : List Text :=
  [['J', 'a', 'n'], ['F', 'e', 'b'], ['M', 'a', 'r'], ['A', 'p', 'r'], ['M', 'a', 'y'], ['J', 'u', 'n'], ['J', 'u', 'l'], ['A', 'u', 'g'], ['S', 'e', 'p'], ['O', 'c', 't'], ['N', 'o', 'v'], ['D', 'e', 'c']]

/-- two digits -/
def twoDigits (n : Nat) : Text := [Char.ofNat (48 + n / 10), Char.ofNat (48 + n % 10)]

end Verif.Examples
