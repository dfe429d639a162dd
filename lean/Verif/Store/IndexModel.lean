import Verif.Store.PostingModel
import Verif.Hopper.Model2
/-
  Model of the per-shard index (src/fiver.cc), its construction from the annotations of a
  transaction, the index over several shards (src/bigwig.cc), and merging shards.
-/
namespace Verif.Store
open Verif.Hopper

/-- `src/core.h:19` -/
abbrev nullFeature : Int := 0

/-- `std::map<addr, std::shared_ptr<SimplePosting>>`: the posting of each feature -/
abbrev Index := Int → Option Posting

/-- `(*index)[f] = posting` -/
def Index.set (ix : Index) (f : Int) (P : Posting) : Index := fun g => if g = f then some P else ix g

/-- the empty map -/
def Index.empty : Index := fun _ => none

/-! ### building a shard's index -/

/-- `src/fiver.cc:35` `staging` -/
abbrev staging : Int := maxfinity / 2

/-- `src/fiver.cc:678-682`: annotations on the transaction's own text move to their final
address.  (Unbounded integers: an end so low that the subtraction overflows is not
modelled.) -/
def relocate (whereTo : Int) (x : Int × Ann) : Int × Ann :=
  if x.2.p ≥ staging then
    (x.1, { x.2 with p := x.2.p - (staging - whereTo), q := x.2.q - (staging - whereTo) })
  else x

/-- `src/fiver.cc:683-688`, the comparison given to `std::sort` -/
def annLess (x y : Int × Ann) : Bool :=
  x.1 < y.1 || (x.1 == y.1 && (x.2.q < y.2.q || (x.2.q == y.2.q && x.2.p > y.2.p)))

/-- what `std::sort` guarantees: a rearrangement in which no element is less than an
earlier one.  (Which of the possible rearrangements is unspecified.) -/
def SortedFrom (l sorted : List (Int × Ann)) : Prop :=
  sorted.Perm l ∧ sorted.Pairwise fun x y => annLess y x = false

/-- `src/fiver.cc:691-696`: the loop over the sorted annotations, one posting per turn; the
first argument bounds the number of turns by the number of annotations -/
def buildIndex : Nat → Index → List (Int × Ann) → Index
  | 0, ix, _ => ix
  | n + 1, ix, l => match fromAnnotations l with
    | none => ix
    | some (P, rest) => buildIndex n (ix.set P.feature P) rest

/-- `src/fiver.cc:674-696`: the index of a transaction, from the relocated and sorted
annotations -/
def indexOf (sorted : List (Int × Ann)) : Index := buildIndex sorted.length Index.empty sorted

/-! ### lookups -/

/-- `src/fiver.cc:219-234` `FiverIdx::hopper_` -/
def fiverObj (ix : Index) (f : Int) : Obj :=
  match ix f with
  | none => emptyObj
  | some P =>
    if P.size = 1 then
      match P.get 0 with
      | some a => singleObj a
      | none => emptyObj
    else arrayObj P.arrays

/-- `src/fiver.cc:235-241` `FiverIdx::count_` -/
def count (ix : Index) (f : Int) : Nat :=
  match ix f with
  | none => 0
  | some P => P.size

/-- `src/bigwig.cc:150-156` `contributors` -/
def contributors (ixs : List Index) (f : Int) : List Index := ixs.filter fun ix => count ix f > 0

/-- `src/bigwig.cc:158-181` `fill_posting`: the children's postings (`Fiver::posting`,
`src/fiver.cc:610-617`), merged and appended to an empty posting -/
def fillPosting (cs : List Index) (f : Int) : Option Posting :=
  (mergePostings (cs.filterMap fun ix => ix f)).map fun M =>
    ({ feature := f } : Posting).append M

/-- a hopper on which every call fails (`assert(false)` in `fill_posting`) -/
def failObj : Obj where
  σ := Unit
  init := ()
  tau := fun _ _ => none
  rho := fun _ _ => none
  uat := fun _ _ => none
  ohr := fun _ _ => none
  L := fun _ _ => none
  R := fun _ _ => none

/-- `src/bigwig.cc:183-208` `raw_hopper`.  (The cache and the thread that fills the posting
are modelled separately: the hopper waits until the posting is filled.) -/
def rawObj (ixs : List Index) (f : Int) : Obj :=
  match contributors ixs f with
  | [] => emptyObj
  | [ix] => fiverObj ix f
  | cs => match fillPosting cs f with
    | some P => arrayObj P.arrays
    | none => failObj

/-- `src/bigwig.cc:114-119` `erasing_` -/
def erasing (ixs : List Index) : Bool := ixs.any fun ix => count ix nullFeature != 0

/-- `src/bigwig.cc:127-134` `BigwigIdx::hopper_` -/
def bigwigObj (ixs : List Index) (f : Int) : Obj :=
  if erasing ixs && f != nullFeature then nciObj (rawObj ixs f) (rawObj ixs nullFeature)
  else rawObj ixs f

/-! ### merging shards -/

/-- `src/fiver.cc:564-576`: the merged erasures -/
def mergedErasures (ixs : List Index) : Option Posting :=
  mergePostings (ixs.filterMap fun ix => ix nullFeature)

/-- `src/fiver.cc:526-601` `Fiver::merge`, for one feature other than the text chunks: the
posting the merged shard has (outer `none`: stuck inside the exclusion hopper).  One shard
is returned as it is (`src/fiver.cc:518-519`). -/
def mergeFeature (ixs : List Index) (f : Int) : Option (Option Posting) :=
  match ixs with
  | [ix] => some (ix f)
  | _ =>
    if f = nullFeature then some (mergedErasures ixs)
    else mergeExcluding (ixs.filterMap fun ix => ix f) (mergedErasures ixs)

end Verif.Store
