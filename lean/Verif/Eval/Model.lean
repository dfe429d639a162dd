/-
  Model of src/eval.cc: the measures of a ranking and the similarity of two rankings.

  Numbers are exact.  Judgements (`std::map<addr, fval>`) are a list of addresses and grades, without an
  address twice; of a ranking only the addresses where its passages begin are used.
  Time-biased gain (`tbg_eval`, 288-317) is modelled in Eval/Tbg.lean, the parsing of the file of judgements (98-124) and the
  lookup of document numbers (`translate_docno`) in Judge/Model.lean.
-/
namespace Verif.Eval

/-- the judgements -/
abbrev Qrels := List (Int × Rat)

/-- eval.cc 154-159, 232-237, 268-273: the grade of an address, zero if it was not judged -/
def gradeAt (qrels : Qrels) (p : Int) : Rat :=
  match qrels.find? fun x => x.1 == p with
  | none => 0
  | some x => x.2

/-- eval.cc 138-144 `count_binary_rels` -/
def countRels (qrels : Qrels) : Rat := qrels.foldl (fun count x => if x.2 > 0 then count + 1 else count) 0

/-- the variables of `trec_eval` (eval.cc 150) -/
structure Trec where
  seen : Rat := 0
  ap : Rat := 0
  p05 : Rat := 0
  p10 : Rat := 0
  p20 : Rat := 0
  rr : Rat := 0
deriving DecidableEq

/-- eval.cc 160-165 -/
def Trec.score (s : Trec) (rank : Nat) (rval : Rat) : Trec :=
  if rval > 0 then
    { s with seen := s.seen + 1, ap := s.ap + (s.seen + 1) / rank, rr := if s.rr = 0 then 1 / rank else s.rr }
  else s

/-- eval.cc 166-171 -/
def Trec.cut (s : Trec) (rank : Nat) : Trec :=
  { s with
    p05 := if rank = 5 then s.seen / 5 else s.p05
    p10 := if rank = 10 then s.seen / 10 else s.p10
    p20 := if rank = 20 then s.seen / 20 else s.p20 }

/-- eval.cc 153-172: the loop from `rank` on -/
def trecLoop (qrels : Qrels) : Nat → List Int → Trec → Trec
  | _, [], s => s
  | rank, p :: ps, s => trecLoop qrels (rank + 1) ps ((s.score rank (gradeAt qrels p)).cut rank)

/-- eval.cc 173-179, with the `rank` after the loop -/
def Trec.finish (s : Trec) (rank : Nat) (possible : Rat) : Trec :=
  { s with
    p05 := if rank ≤ 5 then s.seen / 5 else s.p05
    p10 := if rank ≤ 10 then s.seen / 10 else s.p10
    p20 := if rank ≤ 20 then s.seen / 20 else s.p20
    ap := s.ap / possible }

/-- what `trec_eval` reports (eval.cc 181-196) -/
structure TrecMetrics where
  ap : Rat
  rr : Rat
  p05 : Rat
  p10 : Rat
  p20 : Rat
  ret : Rat
  rel : Rat
  relRet : Rat
  precision : Rat
  recall : Rat
deriving DecidableEq

/-- eval.cc 146-197 `trec_eval`; at 182 the entry `rr` is set to `ap` -/
def trecEval (qrels : Qrels) (results : List Int) : TrecMetrics :=
  let possible := countRels qrels
  let s := if possible > 0 ∧ results.length > 0
    then (trecLoop qrels 1 results {}).finish (results.length + 1) possible else {}
  { ap := s.ap, rr := s.ap, p05 := s.p05, p10 := s.p10, p20 := s.p20
    ret := results.length, rel := possible, relRet := s.seen
    precision := if (results.length : Rat) > 0 then s.seen / results.length else 0
    recall := if possible > 0 then s.seen / possible else 0 }

/-! ### discounted gain -/

/-- the running sum and its values at the three depths (eval.cc 207, 230) -/
structure Gain where
  score : Rat := 0
  at05 : Rat := 0
  at10 : Rat := 0
  at20 : Rat := 0
deriving DecidableEq

/-- eval.cc 208-216 and 231-245, from place `i` on; `disc i` is `1 / log(i + 2.0)` -/
def gainLoop (disc : Nat → Rat) : Nat → List Rat → Gain → Gain
  | _, [], s => s
  | i, x :: l, s =>
    let score := s.score + x * disc i
    gainLoop disc (i + 1) l
      { score := score
        at05 := if i = 4 then score else s.at05
        at10 := if i = 9 then score else s.at10
        at20 := if i = 19 then score else s.at20 }

/-- eval.cc 224-229 and 246-251 -/
def Gain.finish (s : Gain) (size : Nat) : Gain :=
  { s with
    at05 := if size < 5 then s.score else s.at05
    at10 := if size < 10 then s.score else s.at10
    at20 := if size < 20 then s.score else s.at20 }

/-- what `ndcg_eval` reports (eval.cc 252-259) -/
structure NdcgMetrics where
  dcg : Gain
  ndcg : Gain
deriving DecidableEq

/-- eval.cc 199-260 `ndcg_eval`; at 217-223 everything is zero; `sort` is `std::sort` with `a > b`, `log2` is `log(2.0)` -/
def ndcgEval (sort : List Rat → List Rat) (disc : Nat → Rat) (log2 : Rat) (qrels : Qrels) (results : List Int) : NdcgMetrics :=
  let grades := sort (qrels.map (·.2))
  let ideal := gainLoop disc 0 grades {}
  if ideal.score = 0 then ⟨{}, {}⟩
  else
    let ideal := ideal.finish grades.length
    let actual := (gainLoop disc 0 (results.map (gradeAt qrels)) {}).finish results.length
    { dcg := ⟨log2 * actual.score, log2 * actual.at05, log2 * actual.at10, log2 * actual.at20⟩
      ndcg := ⟨actual.score / ideal.score, actual.at05 / ideal.at05, actual.at10 / ideal.at10, actual.at20 / ideal.at20⟩ }

/-! ### rank-biased precision -/

/-- eval.cc 267-278 for one persistence `r`: the sum and the probability -/
def rbpLoop (r : Rat) : List Rat → Rat × Rat → Rat × Rat
  | [], s => s
  | x :: l, (sum, prob) => rbpLoop r l (sum + x * prob, prob * r)

/-- eval.cc 262-281 `rbp_eval` for one persistence -/
def rbpEval (r : Rat) (qrels : Qrels) (results : List Int) : Rat :=
  (1 - r) * (rbpLoop r (results.map (gradeAt qrels)) (0, 1)).1

/-! ### similarity -/

/-- eval.cc 335-337, 338-340, 343-345: an address is judged the first time it is seen -/
def judge (qrels : Qrels) (p : Int) (grade : Rat) : Qrels :=
  match qrels.find? fun x => x.1 == p with
  | none => qrels ++ [(p, grade)]
  | some _ => qrels

/-- eval.cc 330-348 `med_qrels` -/
def medQrels : Qrels → List Int → List Int → Qrels
  | qrels, a :: l, b :: m => medQrels (judge (judge qrels a 1) b 0) l m
  | qrels, a :: l, [] => medQrels (judge qrels a 1) l []
  | qrels, [], _ => qrels

/-- the three differences that `med_half` reports (eval.cc 360-362) -/
structure Med where
  dcg : Rat
  rbp50 : Rat
  rbp95 : Rat
deriving DecidableEq

/-- eval.cc 350-363 `med_half` -/
def medHalf (sort : List Rat → List Rat) (disc : Nat → Rat) (log2 : Rat) (one two : List Int) : Med :=
  let qrels := medQrels [] one two
  { dcg := (ndcgEval sort disc log2 qrels one).dcg.score - (ndcgEval sort disc log2 qrels two).dcg.score
    rbp50 := rbpEval (1/2) qrels one - rbpEval (1/2) qrels two
    rbp95 := rbpEval (19/20) qrels one - rbpEval (19/20) qrels two }

/-- eval.cc 365-370 `med_fake_ideal_dcg` -/
def medIdeal (disc : Nat → Rat) (log2 : Rat) (depth : Nat) : Rat :=
  log2 * (List.range depth).foldl (fun s i => s + disc i) 0

/-- eval.cc 379-393 `med`: the three measures and `med-ndcg` (`none`: `0.0 / 0.0`) -/
def med (sort : List Rat → List Rat) (disc : Nat → Rat) (log2 : Rat) (one two : List Int) : Med × Option Rat :=
  let a := medHalf sort disc log2 one two
  let b := medHalf sort disc log2 two one
  let m : Med := ⟨max a.dcg b.dcg, max a.rbp50 b.rbp50, max a.rbp95 b.rbp95⟩
  (m, if medIdeal disc log2 (max one.length two.length) = 0 then none
    else some (m.dcg / medIdeal disc log2 (max one.length two.length)))

/-! ### means -/

section
variable {κ : Type} [DecidableEq κ]

/-- `metrics.find(key)` (eval.cc 403, 416) -/
def metric (metrics : List (κ × Rat)) (key : κ) : Option Rat := (metrics.find? fun x => x.1 = key).map (·.2)

/-- eval.cc 401-409, 414-423: the loop over the means with the new value of a metric given by `f`; a metric that
is missing is erased while the loop is at it, which is undefined -/
def meanLoop (f : Rat → Rat → Rat) (metrics : List (κ × Rat)) : List (κ × Rat) → Option (List (κ × Rat))
  | [] => some []
  | (k, x) :: l =>
    match metric metrics k with
    | none => none
    | some v =>
      match meanLoop f metrics l with
      | none => none
      | some l => some ((k, f x v) :: l)

/-- the means so far, and the entry `n` (eval.cc 396) -/
abbrev Means (κ : Type) := List (κ × Rat) × Option Rat

/-- eval.cc 395-426 `mean`; the names are those other than `n` -/
def mean (metrics : List (κ × Rat)) : Means κ → Option (Means κ)
  | ([], none) => some (metrics, some 1)
  | (means, none) => (meanLoop (fun x v => (x + v) / 2) metrics means).map fun l => (l, some 2)
  | (means, some n) => (meanLoop (fun x v => (x * n + v) / (n + 1)) metrics means).map fun l => (l, some (n + 1))

/-- eval.cc 395-426, called for one ranking after the other -/
def meanAll : List (List (κ × Rat)) → Means κ → Option (Means κ)
  | [], s => some s
  | m :: ms, s =>
    match mean m s with
    | none => none
    | some s => meanAll ms s

end

/-! ### grades -/

section
variable {τ : Type} [DecidableEq τ]

/-- a topic and the address of a document, with a grade -/
abbrev Graded (τ : Type) := List ((τ × Int) × Rat)

/-- eval.cc 118-119: `(*qrels)[field[0]][p] = level` -/
def record (key : τ × Int) (level : Rat) : Graded τ → Graded τ
  | [] => [(key, level)]
  | x :: l => if x.1 = key then (key, level) :: l else x :: record key level l

/-- eval.cc 105-124: the lines of the file, with the greatest level so far; `line.2` is what `atof` gives -/
def loadLines : Graded τ → Graded τ → Rat → Graded τ × Rat
  | [], qrels, top => (qrels, top)
  | line :: lines, qrels, top =>
    let level := max 0 line.2
    loadLines lines (record line.1 level qrels) (max level top)

/-- eval.cc 127-133 for one grade; `pow` is `std::pow(2.0, _)`.  `none` is a division by zero, which leaves
something that is not a number. -/
def rescale (pow : Rat → Rat) (microsoft : Bool) (top level : Rat) : Option Rat :=
  if microsoft then
    if pow top = 0 then none else some ((pow level - 1) / pow top)
  else if top = 0 then none else some (level / top)

/-- eval.cc 98-135 `load_trec_qrels`, into judgements that may hold something already: every grade in them
is rescaled -/
def loadQrels (pow : Rat → Rat) (microsoft : Bool) (qrels lines : Graded τ) : List ((τ × Int) × Option Rat) :=
  let all := loadLines lines qrels 0
  all.1.map fun x => (x.1, rescale pow microsoft all.2 x.2)

end

end Verif.Eval
