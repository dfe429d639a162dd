/-
Model of pseudo-relevance feedback: `rsj_prf` (src/ranking.cc 1126-1199), `kld_prf` (656-758) and `qa_prf` (539-652).

Numbers are exact.  The tables `frequencies`, `expectations`, `tsvs` and `klds` are lists of words with numbers, in the order in which the
words are first seen; the code goes through them in the order of the words, which only matters to `std::sort` among equals, and what
that does is a parameter.  Text, tokenizer, index and statistics are parameters (C27, C28, C46, C68).
-/
import Verif.Text.Spec
namespace Verif.Feedback
open Verif.Text (Text)

/-- `RankingResult` src/ranking.h: a passage and the container that it is in -/
structure Result where
  p : Int
  q : Int
  cp : Int
  cq : Int
  deriving DecidableEq

/-- What feedback uses of a warren and its statistics; `sort score` is what `std::sort` does when it is to put those with higher scores
first. -/
structure Env (Word : Type) where
  translate : Int → Int → Text
  split : Text → List Word
  stem : Word → Word
  rsj : Word → Rat
  count : Word → Int
  tokens : Int
  vocab : Int
  log : Rat → Rat
  sort : (Word → Rat) → List Word → List Word

variable {Word : Type} [DecidableEq Word]

/-- a table of numbers by words -/
abbrev Table (Word : Type) := List (Word × Rat)

/-- `find` -/
def get (m : Table Word) (w : Word) : Option Rat := (m.find? fun x => x.1 = w).map (·.2)

/-- `if (m.find(w) == m.end()) m[w] = v; else m[w] += v;` src/ranking.cc 709-720, 1162-1165 -/
def bump (m : Table Word) (w : Word) (v : Rat) : Table Word :=
  match m with
  | [] => [(w, v)]
  | x :: l => if x.1 = w then (x.1, x.2 + v) :: l else x :: bump l w v

/-- the words that pass the test of `seen`, src/ranking.cc 705-708 and 1153-1161 -/
def unseen (seen : List Word) : List Word → List Word
  | [] => []
  | w :: l => if seen.contains w then unseen seen l else w :: unseen (w :: seen) l

/-- the loops over the texts; each text is given by its different words with a number for each, which is added -/
def gather (docs : List (List (Word × Rat))) : Table Word :=
  docs.foldl (fun m d => d.foldl (fun m x => bump m x.1 x.2) m) []

/-- `std::sort` and `erase`, src/ranking.cc 736-742 and 1177-1183 -/
def best (E : Env Word) (score : Word → Rat) (expansions : Nat) (l : List Word) : List Word := (E.sort score l).take expansions

/-- a weighted query, as what is found in it -/
abbrev Query (Word : Type) := Word → Option Rat

/-- src/ranking.cc 750-754 and 1191-1195 -/
def expand (q : Query Word) (l : List (Word × Rat)) : Query Word :=
  l.foldl (fun q x => fun w => if w = x.1 then some (match q x.1 with | some v => v + x.2 | none => x.2) else q w) q

/-- src/ranking.cc 1152-1161: what is counted of a text -/
def rsjTerms (E : Env Word) (unstemmed : Bool) (t : Text) : List Word :=
  unseen [] ((E.split t).map fun w => if unstemmed then w else E.stem w)

/-- `frequencies` of `rsj_prf`, src/ranking.cc 1143-1168 -/
def rsjFrequencies (E : Env Word) (unstemmed : Bool) (depth : Nat) (ranking : List Result) : Table Word :=
  gather ((ranking.take depth).map fun r => (rsjTerms E unstemmed (E.translate r.cp r.cq)).map fun w => (w, 1))

/-- `rsj_prf` src/ranking.cc 1126-1199 with statistics that have "rsj": the words that are returned and the query -/
def rsjPrf (E : Env Word) (unstemmed : Bool) (expansions depth : Nat) (gamma : Rat) (ranking : List Result) (q : Query Word) :
    List Word × Query Word :=
  let f := rsjFrequencies E unstemmed depth ranking
  let score := fun w => E.rsj w * (get f w).getD 0
  let l := best E score expansions ((f.map (·.1)).filter fun w => decide (E.rsj w > 0))
  (l, expand q (l.map fun w => (w, gamma)))

/-- the range of a result that `kld_prf` reads, src/ranking.cc 676-692 -/
def window (size : Int) (r : Result) : Int × Int :=
  if r.cq - r.cp + 1 ≤ size then (r.cp, r.cq)
  else if r.q - r.p + 1 < size then
    let remaining := size - (r.q - r.p + 1)
    let p := r.p - remaining / 2
    let q := r.q + (remaining - remaining / 2)
    if p < r.cp then (r.cp, q + (r.cp - p + 1)) else (p, q)
  else (r.p, r.q)

/-- the loop over the ranking, src/ranking.cc 672-696 (also 558-561 and 625-627): results in a container that was seen are passed over, until there are
`depth`; `k` is `texts.size()` -/
def chosen (depth : Nat) : (seen : List Int) → (k : Nat) → List Result → List Result
  | _, _, [] => []
  | seen, k, r :: l =>
    if seen.contains r.cp then chosen depth seen k l
    else if k + 1 ≥ depth then [r]
    else r :: chosen depth (r.cp :: seen) (k + 1) l

/-- `token_prob` src/ranking.cc 715, 618 -/
def prob (E : Env Word) (w : Word) : Rat := ((E.count w : Rat) + 1) / ((E.tokens : Rat) + E.vocab)

/-- `expectation` src/ranking.cc 716, 619 -/
def expectation (E : Env Word) (w : Word) (n : Nat) : Rat := 1 - (1 - prob E w) ^ n

/-- the texts of `kld_prf` with their different words and what is added to the table of expectations for each -/
def kldDocs (E : Env Word) (depth : Nat) (size : Int) (ranking : List Result) : List (List Word × Nat) :=
  (chosen depth [] 0 ranking).map fun r =>
    let ts := E.split (E.translate (window size r).1 (window size r).2)
    (unseen [] ts, ts.length)

/-- `frequencies` and `expectations` of `kld_prf`, src/ranking.cc 701-724 -/
def kldTables (E : Env Word) (docs : List (List Word × Nat)) : Table Word × Table Word :=
  (gather (docs.map fun d => d.1.map fun w => (w, 1)), gather (docs.map fun d => d.1.map fun w => (w, expectation E w d.2)))

/-- `tsvs` src/ranking.cc 729-731 -/
def kldScore (E : Env Word) (f e : Table Word) (w : Word) : Rat :=
  let n := (get f w).getD 0
  n * E.log (n / (get e w).getD 0)

/-- `max_tsv` src/ranking.cc 726-733 -/
def maxScore (score : Word → Rat) (l : List Word) : Rat := l.foldl (fun m w => max m (score w)) 0

/-- `kld_prf` src/ranking.cc 656-758; the query is `none` where the code divides by zero -/
def kldPrf (E : Env Word) (expansions depth : Nat) (size : Int) (gamma : Rat) (ranking : List Result) (q : Query Word) :
    List Word × Option (Query Word) :=
  let t := kldTables E (kldDocs E depth size ranking)
  let score := kldScore E t.1 t.2
  let l0 := (t.1.filter fun x => decide (x.2 > 1)).map (·.1)
  let l := best E score expansions l0
  let m := maxScore score l0
  (l, if l ≠ [] ∧ m = 0 then none else some (expand q (l.map fun w => (w, gamma * score w / m))))

/-- `range[w] = min(gap, range[w])` src/ranking.cc 575-578 -/
def shorten (m : List (Word × Int)) (w : Word) (gap : Int) : List (Word × Int) :=
  match m with
  | [] => [(w, gap)]
  | x :: l => if x.1 = w then (x.1, min gap x.2) :: l else x :: shorten l w gap

/-- one of the three loops over tokens; `gap i` for token number `i` -/
def shortenAll (gap : Nat → Int) : Nat → List Word → List (Word × Int) → List (Word × Int)
  | _, [], m => m
  | i, w :: l, m => shortenAll gap (i + 1) l (shorten m w (gap i))

/-- `range` of a result in `qa_prf`, src/ranking.cc 562-610: before the passage, within and after -/
def qaRange (E : Env Word) (size : Int) (r : Result) : List (Word × Int) :=
  let p1 := if r.p - size < r.cp then r.cp else r.p - size
  let q1 := if r.p - 1 < r.cp then r.cp else r.p - 1
  let t1 := if p1 ≤ q1 then E.split (E.translate p1 q1) else []
  let m1 := shortenAll (fun i => (t1.length : Int) - i + r.q - r.p) 0 t1 []
  let t2 := if r.p ≤ r.q then E.split (E.translate r.p r.q) else []
  let m2 := shortenAll (fun _ => r.q - r.p + 1) 0 t2 m1
  let p3 := if r.q + 1 > r.cq then r.cq else r.q + 1
  let q3 := if r.q + size > r.cq then r.cq else r.q + size
  let t3 := if p3 ≤ q3 then E.split (E.translate p3 q3) else []
  shortenAll (fun i => r.q - r.p + i) 0 t3 m2

/-- the scores of `qa_prf`, src/ranking.cc 611-634; `none` where the code divides by zero.  Gaps are not negative where the passage is
not empty. -/
def qaScore (E : Env Word) (depth : Nat) (size : Int) (ranking : List Result) (w : Word) : Option Rat :=
  let docs := (chosen depth [] 0 ranking).map (qaRange E size)
  let f := (get (gather (docs.map fun d => d.map fun x => (x.1, (1 : Rat)))) w).getD 0
  let e := (get (gather (docs.map fun d => d.map fun x => (x.1, expectation E x.1 x.2.toNat))) w).getD 0
  if e = 0 then none else some (f * E.log (f / e))

end Verif.Feedback
