import Verif.Pipe.Spec
/-
  Model of src/ranker.cc up to `trec`, of the end of `Stats::make` in src/stats.cc, and of the flags of src/idf_stats.cc.
-/
namespace Verif.Pipe
open Verif.Rank

/-! ### reading a pipeline -/

/-- `\s` of `std::regex` in the "C" locale -/
def isSpace (c : Char) : Bool := c.toNat == 32 || (9 ≤ c.toNat && c.toNat ≤ 13)

/-- `src/ranker.cc:339-342`: what `std::sregex_token_iterator` gives between the matches of `\s+`: also an empty word before
blanks at the beginning, and a word after the last blanks only if it is not empty.  `none`: in blanks. -/
def cut : Option Word → List Char → List Word
  | none, [] => []
  | some w, [] => [w]
  | none, c :: s => if isSpace c then cut none s else cut (some [c]) s
  | some w, c :: s => if isSpace c then w :: cut none s else cut (some (w ++ [c])) s

def cutStages (s : List Char) : List Word := cut (some []) s

/-- `s.substr(0, s.find(c))` and `s.substr(s.find(c) + 1)` -/
def halves (c : Char) (s : Word) : Word × Word := (s.takeWhile (· != c), (s.dropWhile (· != c)).drop 1)

/-- `src/parameters.h:90-94` `random` and `RandomParameterTransformer` (`src/ranker.cc:235-241`); `none`: not `okay` -/
def randomParams (drawn : Word → Rat) (ranker : Word) : Option Params :=
  (rankerDefaults ranker).map fun names => withDepth (names.map fun n => (n.1, drawn n.1))

section
variable (stof : Word → Option Rat)

/-- `src/ranker.cc:259-272` -/
def fromAssignment (s : Word) : Option Stage :=
  let (key, value) := halves '=' s
  if key = [] ∨ value = [] then none
  else (stof value).map fun x => .set key x

/-- `src/ranker.cc:273-286` -/
def fromCall (drawn : Word → Rat) (s : Word) : Option Stage :=
  let (name, argument) := halves ':' s
  if name = ['r', 'a', 'n', 'd', 'o', 'm'] then (randomParams drawn argument).map .setAll else none

/-- `src/ranker.cc:257-301` `RankingContextTransformer::from_name`.  `stof` is what `std::stof` makes of a word (`none`: an exception). -/
def fromName (drawn : Word → Rat) (s : Word) : Option Stage :=
  if s.contains '=' then fromAssignment stof s
  else if s.contains ':' then fromCall drawn s
  else if s = ['b', 'm', '2', '5'] then some (.rank .bm25)
  else if s = ['k', 'l', 'd'] then some (.expand .kld)
  else if s = ['l', 'm', 'd'] then some (.rank .lmd)
  else if s = ['s', 't', 'e', 'm'] then some .stem
  else if s = ['s', 't', 'o', 'p'] then some .stop
  else if s = ['r', 's', 'j'] then some (.expand .rsj)
  else none

/-- `src/ranker.cc:343-352`; an error is the stage that is named by the message -/
def readStages (drawn : Nat → Word → Rat) : List Word → Except Word (List Stage)
  | [] => .ok []
  | w :: ws => match fromName stof (drawn 0) w with
    | none => .error w
    | some s => match readStages (fun i => drawn (i + 1)) ws with
      | .error e => .error e
      | .ok ss => .ok (s :: ss)

/-- `src/ranker.cc:334-354` `Ranker::from_pipeline` -/
def fromPipeline (drawn : Nat → Word → Rat) (text : List Char) : Except Word (List Stage) := readStages stof drawn (cutStages text)

end

/-! ### running a pipeline -/

/-- the numbers of weights -/
structure Arith (V : Type) where
  zero : V
  one : V
  add : V → V → V

/-- what a pipeline uses: the tokenizer of the statistics (a null pointer: `none`), that of the warren, the stemmer, the stopwords, the
ranking functions and what pseudo-relevance feedback adds to a query -/
structure Tools (V R : Type) where
  tokenizer : Option (List Char → List Word)
  warrenTokenizer : List Char → List Word
  stem : Word → Word
  stopwords : List Word
  rank : Ranking → Weights V → (Word → Option Rat) → List R
  feedback : Feedback → List R → (Word → Option Rat) → List (Word × V)

/-- `src/ranker.cc:30-75` `RankingContext` -/
structure Context (V R : Type) where
  raw : List Char
  weighted : Weights V
  params : Params
  ranking : List R

/-- `std::map<std::string, fval>`: add to the weight of a word, or put it in its place -/
def addTo {V : Type} (A : Arith V) (lt : Word → Word → Bool) (w : Word) (v : V) : Weights V → Weights V
  | [] => [(w, v)]
  | (x, u) :: m => if w = x then (x, A.add u v) :: m else if lt w x then (w, v) :: (x, u) :: m else (x, u) :: addTo A lt w v m

/-- `parameters_[key] = value` -/
def putParam (m : Params) (k : Word) (v : Rat) : Params := (k, v) :: m.filter fun x => x.1 != k

section
variable {V R : Type} (A : Arith V) (lt : Word → Word → Bool) (T : Tools V R)

/-- `src/ranker.cc:53-57` -/
def countWords (words : List Word) : Weights V := words.foldl (fun m w => addTo A lt w A.one m) []

/-- `weighted_query[term] += 1.0`, from an empty map (`src/ranking.cc:101-103`, `1208-1210`) -/
def countFromZero (words : List Word) : Weights V := words.foldl (fun m w => addTo A lt w A.one (addZero m w)) []
where
  addZero (m : Weights V) (w : Word) : Weights V := if m.any fun x => x.1 = w then m else addTo A lt w A.zero m

/-- `src/ranker.cc:50-59` `cook`; `none`: a null pointer is followed -/
def Context.cook (c : Context V R) : Option (Context V R) :=
  if c.weighted.length = 0 ∧ c.raw ≠ [] then
    match T.tokenizer with
    | none => none
    | some split => some { c with weighted := countWords A lt (split c.raw) }
  else some c

/-- `src/ranker.cc:100-107` and `115-123`: with a text for a query, the words are counted by `ranking<ALGORITHM>` (`src/ranking.cc:98-105`), with
the tokenizer of the statistics, or by `lmd_ranking` (`1203-1212`), with that of the warren -/
def Context.rank (r : Ranking) (c : Context V R) : Option (Context V R) :=
  if 0 < c.weighted.length then some { c with ranking := T.rank r c.weighted c.params.get }
  else match r with
    | .lmd => some { c with ranking := T.rank .lmd (countFromZero A lt (T.warrenTokenizer c.raw)) c.params.get }
    | .bm25 => match T.tokenizer with
      | none => none
      | some split => some { c with ranking := T.rank .bm25 (countFromZero A lt (split c.raw)) c.params.get }

/-- `src/ranker.cc:139-145`, and the ends of `rsj_prf` (`src/ranking.cc:1183-1197`) and `kld_prf` (`736-750`): each word that is found
adds to the weight it has -/
def Context.expand (f : Feedback) (c : Context V R) : Option (Context V R) :=
  if c.ranking.length = 0 then some c
  else match c.cook A lt T with
    | none => none
    | some c => some { c with weighted := (T.feedback f c.ranking c.params.get).foldl (fun m x => addTo A lt x.1 x.2 m) c.weighted }

/-- `src/ranker.cc:189-197` -/
def Context.stop (c : Context V R) : Option (Context V R) :=
  match c.cook A lt T with
  | none => none
  | some c =>
    let stopped := c.weighted.filter fun x => !T.stopwords.contains x.1
    if 0 < stopped.length then some { c with weighted := stopped } else some c

/-- `src/ranker.cc:205-216` -/
def Context.stem (c : Context V R) : Option (Context V R) :=
  match c.cook A lt T with
  | none => none
  | some c => some { c with weighted := c.weighted.foldl (fun m x => addTo A lt (T.stem x.1) x.2 m) [] }

/-- `transform`, for each kind of stage (also `src/ranker.cc:228-230` and `249-254`) -/
def transform (c : Context V R) : Stage → Option (Context V R)
  | .rank r => c.rank A lt T r
  | .expand f => c.expand A lt T f
  | .stem => c.stem A lt T
  | .stop => c.stop A lt T
  | .set k v => some { c with params := putParam c.params k v }
  | .setAll ps => some { c with params := ps.foldl (fun m x => putParam m x.1 x.2) c.params }

def runStages : Context V R → List Stage → Option (Context V R)
  | c, [] => some c
  | c, s :: ss => match transform A lt T c s with
    | none => none
    | some c => runStages c ss

/-- `src/ranker.cc:319-329` `rank_`: the ranking and the parameters -/
def runPipeline (stages : List Stage) (query : List Char) : Option (List R × Params) :=
  (runStages A lt T ⟨query, [], [], []⟩ stages).map fun c => (c.ranking, c.params)

end

/-! ### statistics -/

/-- `src/stats.cc:80-81`: the tokenizer that statistics are left with, which may be none.  The assignment is within an `assert`.  `none`: the
assertion fails. -/
def statsTokenizer {T : Type} (asserts : Bool) (own warren : Option T) : Option (Option T) :=
  match own with
  | some t => some (some t)
  | none => if asserts then
      match warren with
      | some t => some (some t)
      | none => none
    else some none

/-- `src/core.cc:11-16` `okay` -/
def okay (s : Word) : Bool :=
  [['y'], ['y', 'e', 's'], ['o', 'n'], ['t', 'r', 'u', 'e'], ['o', 'k', 'a', 'y'], ['o', 'k'], ['Y'], ['Y', 'e', 's'], ['O', 'n'],
    ['T', 'r', 'u', 'e'], ['O', 'k', 'a', 'y'], ['O', 'k'], ['O', 'K']].contains s

/-- `src/core.cc:18-23` -/
def okayText (yes : Bool) : Word := if yes then ['y', 'e', 's'] else ['n', 'o']

/-- `get_parameter` leaves the value it finds, or fails and leaves the one that was there -/
def left (value : Word) (got : Option Word) : Word := got.getD value

/-- `src/idf_stats.cc:49-57`: a flag is set only when `get_parameter` fails (they are true at first, `src/idf_stats.h:37-39`) -/
def flagOf (value : Word) (got : Option Word) : Bool := if got.isSome then true else okay (left value got)

/-- `src/idf_stats.cc:47-57`: the flags for "unstemmed", "idf" and "rsj" -/
def idfFlags (unstemmed idf rsj : Option Word) : Bool × Bool × Bool :=
  let v1 := left [] unstemmed
  let v2 := left v1 idf
  (flagOf [] unstemmed, flagOf v1 idf, flagOf v2 rsj)

end Verif.Pipe
