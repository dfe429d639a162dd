import Verif.Rank.CombineModel
/-
  Model of `build_tiers` (src/ranking.cc 141-235).  Texts are lists of characters, as in the model
  of the query parser.
-/
namespace Verif.Rank

section
variable {σ : Type} (sc : Scores σ)

/-- 149-154: of equal terms the first -/
def distinctTerms : List (List Char) → List (List Char) → List (List Char)
  | _, [] => []
  | seen, t :: l => if t ∈ seen then distinctTerms seen l else t :: distinctTerms (t :: seen) l

/-- 178-185: the terms whose bits are set in `m`; the code stops when no bit is left, which is not
after the last term, as `m < 2 ^ terms.size()` -/
def chosen {α : Type} : List α → Nat → List α
  | [], _ => []
  | t :: ts, m => if m % 2 = 1 then t :: chosen ts (m / 2) else chosen ts (m / 2)

/-- 175, 178-185: their weights, added up in this order -/
def weightOf (weight : List Char → σ) (current : List (List Char)) : σ :=
  current.foldl (fun s t => sc.add s (weight t)) sc.zero

/-- 186-194 -/
def subqueryText : List (List Char) → List Char
  | [t] => ['(', '.', '.', '.', ' '] ++ t ++ [' '] ++ t ++ [')']
  | current => ['(', '^'] ++ current.flatMap (fun t => ' ' :: t) ++ [' ', ')']

/-- 209-213, 216, 224-231: one subquery is a tier as it is -/
def tierText : List (List Char) → List Char
  | [s] => s
  | current => ['(', '+'] ++ current.flatMap (fun s => ' ' :: s) ++ [')']

/-- 203-222 and the tiers after them, with what is written at the end (224-232); a subquery is its
text and its weight; `close a b` is `a - b < delta` -/
def tierGroups (close : σ → σ → Bool) : List (List Char × σ) → List (List Char) → σ → List (List Char)
  | [], current, _ => if current = [] then [] else [tierText current]
  | (s, w) :: l, current, weight =>
    if current = [] then tierGroups close l [s] w
    else if close weight w then tierGroups close l (current ++ [s]) weight
    else tierText current :: tierGroups close l [s] w

/-- 141-235 `build_tiers`; `raw` is what the tokenizer makes of the query, `weight` is
`log((tokens + vocab) / (count + 1))` of a term; `sortT` and `sortS` are what `std::sort` does with
terms and subqueries.  In the code the weights of the subqueries are kept in the same map as those
of the terms; as no term is the text of a subquery this makes no difference. -/
def buildTiers (close : σ → σ → Bool) (weight : List Char → σ) (sortT : List (List Char) → List (List Char))
    (sortS : List (List Char × σ) → List (List Char × σ)) (raw : List (List Char)) : List (List Char) :=
  if raw = [] then []
  else
    let terms := (sortT (distinctTerms [] raw)).take 16
    let subqueries := ((List.range (2 ^ terms.length)).drop 1).reverse.map fun m =>
      (subqueryText (chosen terms m), weightOf sc weight (chosen terms m))
    tierGroups close (sortS subqueries) [] sc.zero

end

end Verif.Rank
