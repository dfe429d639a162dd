import Verif.Rank.DaatModel
/-
  What a pipeline for ranking is and what it does to a query (the specification of C63).  Of the models it uses only
  the names of rankers and the names of their parameters (`Verif.Rank.rankerDefaults`).
-/
namespace Verif.Pipe
open Verif.Rank

abbrev Word := List Char

/-- the words of a query and their weights, in order -/
abbrev Weights (V : Type) := List (Word × V)

/-- the ranking functions -/
inductive Ranking | bm25 | lmd
deriving DecidableEq

/-- pseudo-relevance feedback -/
inductive Feedback | kld | rsj
deriving DecidableEq

/-- what a stage of a pipeline does -/
inductive Stage
  | rank (r : Ranking)
  | expand (f : Feedback)
  | stem
  | stop
  | set (name : Word) (value : Rat)
  | setAll (values : Params)

/-! ### how pipelines are written -/

def Blank (c : Char) : Prop := c ∈ [' ', '\t', '\n', '\x0b', '\x0c', '\r']

/-- something without blanks -/
structure IsWord (w : Word) : Prop where
  some : w ≠ []
  solid : ∀ c ∈ w, ¬ Blank c

/-- the words of a pipeline: blanks are between them, and may follow the last -/
inductive Written : List Word → List Char → Prop
  | last {w g} : IsWord w → (∀ c ∈ g, Blank c) → Written [w] (w ++ g)
  | more {w g ws t} : IsWord w → g ≠ [] → (∀ c ∈ g, Blank c) → Written ws t → Written (w :: ws) (w ++ g ++ t)

/-- what a word says; `stof` reads a number, `drawn` are the values drawn for the parameters of a ranker -/
inductive Says (stof : Word → Option Rat) (drawn : Word → Rat) : Word → Stage → Prop
  | set {name value x} : name ≠ [] → '=' ∉ name → value ≠ [] → stof value = some x →
      Says stof drawn (name ++ '=' :: value) (.set name x)
  | random {ranker names} : '=' ∉ ranker → rankerDefaults ranker = some names →
      Says stof drawn (['r', 'a', 'n', 'd', 'o', 'm', ':'] ++ ranker)
        (.setAll ((['d', 'e', 'p', 't', 'h'], 1000) :: names.map fun n => (n.1, drawn n.1)))
  | bm25 : Says stof drawn ['b', 'm', '2', '5'] (.rank .bm25)
  | lmd : Says stof drawn ['l', 'm', 'd'] (.rank .lmd)
  | kld : Says stof drawn ['k', 'l', 'd'] (.expand .kld)
  | rsj : Says stof drawn ['r', 's', 'j'] (.expand .rsj)
  | stem : Says stof drawn ['s', 't', 'e', 'm'] .stem
  | stop : Says stof drawn ['s', 't', 'o', 'p'] .stop

/-- what all the words say; every stage draws its own values -/
inductive SayAll (stof : Word → Option Rat) : (Nat → Word → Rat) → List Word → List Stage → Prop
  | nil {drawn} : SayAll stof drawn [] []
  | cons {drawn w s ws ss} : Says stof (drawn 0) w s → SayAll stof (fun i => drawn (i + 1)) ws ss → SayAll stof drawn (w :: ws) (s :: ss)

/-! ### what pipelines do -/

/-- what a pipeline is run with: how a query is split into words, the stemmer, the stopwords, the ranking functions, and the words (with
weights) that pseudo-relevance feedback finds -/
structure Means (V R : Type) where
  one : V
  add : V → V → V
  lt : Word → Word → Prop
  split : List Char → List Word
  stem : Word → Word
  stopwords : List Word
  rank : Ranking → Weights V → (Word → Option Rat) → List R
  feedback : Feedback → List R → (Word → Option Rat) → List (Word × V)

/-- a query on its way: its words, the parameters set so far, the last ranking -/
structure Asking (V R : Type) where
  query : Weights V
  params : Word → Option Rat
  ranking : List R

/-- the weight of a word -/
def weightOf {V : Type} (m : Weights V) (w : Word) : Option V := (m.find? fun x => x.1 = w).map (·.2)

/-- several weights added up, from the first on -/
def sum {V : Type} (add : V → V → V) : List V → Option V
  | [] => none
  | v :: vs => some (vs.foldl add v)

/-- the weights of the words that a function takes to `w`, in order -/
def gathered {V : Type} (f : Word → Word) (m : Weights V) (w : Word) : List V := (m.filter fun x => f x.1 = w).map (·.2)

/-- the value that is given last to a name -/
def latest (values : Params) (name : Word) : Option Rat := ((values.filter fun x => x.1 = name).map (·.2)).getLast?

/-- words in order, each once -/
def Ordered {V : Type} (lt : Word → Word → Prop) (m : Weights V) : Prop := m.Pairwise fun a b => lt a.1 b.1

section
variable {V R : Type} (E : Means V R)

/-- a query at first: its words, each weighs as many ones as there are of it -/
structure Start (query : List Char) (a : Asking V R) : Prop where
  ordered : Ordered E.lt a.query
  words : ∀ w, weightOf a.query w = sum E.add (((E.split query).filter (· = w)).map fun _ => E.one)
  params : a.params = fun _ => none
  ranking : a.ranking = []

/-- what a stage does to a query -/
inductive Step : Asking V R → Stage → Asking V R → Prop
  | rank {a r} : Step a (.rank r) { a with ranking := E.rank r a.query a.params }
  | idle {a f} : a.ranking = [] → Step a (.expand f) a
  | expand {a f m} : a.ranking ≠ [] → Ordered E.lt m →
      (∀ w, weightOf m w = sum E.add ((weightOf a.query w).toList ++ gathered id (E.feedback f a.ranking a.params) w)) →
      Step a (.expand f) { a with query := m }
  | stem {a m} : Ordered E.lt m → (∀ w, weightOf m w = sum E.add (gathered E.stem a.query w)) → Step a .stem { a with query := m }
  | stop {a x} : x ∈ a.query → x.1 ∉ E.stopwords → Step a .stop { a with query := a.query.filter fun x => x.1 ∉ E.stopwords }
  | leave {a} : (∀ x ∈ a.query, x.1 ∈ E.stopwords) → Step a .stop a
  | set {a k v} : Step a (.set k v) { a with params := fun n => if n = k then some v else a.params n }
  | setAll {a values} : Step a (.setAll values) { a with params := fun n => (latest values n).or (a.params n) }

/-- what stages do, one after another -/
inductive Steps : Asking V R → List Stage → Asking V R → Prop
  | nil {a} : Steps a [] a
  | cons {a b c s ss} : Step E a s b → Steps b ss c → Steps a (s :: ss) c

end

/-- what a stage gives to a parameter -/
def gives (name : Word) : Stage → Option Rat
  | .set k v => if name = k then some v else none
  | .setAll values => latest values name
  | _ => none

def Stage.isRank : Stage → Bool
  | .rank _ => true
  | _ => false

end Verif.Pipe
