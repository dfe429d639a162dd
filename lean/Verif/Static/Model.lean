import Verif.Store.IndexModel
import Verif.Stream.Model

/-!
# The index of a static warren

Model of the two files a static ("simple") warren keeps its index in, `idx` and `pst`: how the builder
writes them (`src/simple_builder.cc`), how the annotator merges a transaction into them
(`src/simple_annotator.cc`), and how they are read (`src/simple_idx.cc`).

Simplifications:
* files are strings of bytes and opening, creating and renaming them succeeds; crashes are not modelled
  here;
* the threads that sort and write one batch each (`src/simple_annotator.cc` 213-238) work on data of
  their own, so they are modelled as done at once;
* `std::sort` is any function that sorts (`Sorts`), since the order of equal elements is unspecified;
* an open index keeps postings it has read in a cache (`src/simple_idx.cc` 308-366); since its files do
  not change while it has them open, reading again gives the same, and the cache is left out;
* `none` stands for a failed assertion, an operation reporting failure, or an access outside of a buffer.
-/

namespace Verif.Static
open Verif.Hopper Verif.Store

/-- The files `idx` and `pst` (`src/simple.h` 20-21). -/
structure Files where
  idx : List UInt8 := []
  pst : List UInt8 := []
deriving DecidableEq, Repr

/-- An `IdxRecord` (`src/simple.h` 38-42): a feature and where its posting ends in `pst`. -/
def record (feature stop : Int) : List UInt8 := addrsBytes [feature, stop]

/-! ## Merging files of postings -/

/-- One of the files being merged: the posting read last, and the rest of the file. -/
structure Src where
  cur : Option Posting
  rest : List UInt8
deriving DecidableEq, Repr

/-- `posting_from_file` (`src/simple_posting.cc` 257-309) on a file being merged: no posting if not even
a header is left. -/
def Src.next (pc fc : Codec) (rest : List UInt8) : Option Src :=
  if rest.length < 40 then some ⟨none, rest⟩
  else (readFile pc fc rest).map fun x => ⟨some x.1, x.2⟩

/-- Opening the files (`src/simple_annotator.cc` 148-159, `src/simple_builder.cc` 491-520). -/
def openAll (pc fc : Codec) : List (List UInt8) → Option (List Src)
  | [] => some []
  | f :: fs =>
    match Src.next pc fc f with
    | none => none
    | some s => (openAll pc fc fs).map (s :: ·)

/-- One turn of the loop looking for the smallest feature (`src/simple_annotator.cc` 163-170,
`src/simple_builder.cc` 524-531). -/
def smaller (acc : Option Int) (cur : Option Posting) : Option Int :=
  match acc, cur with
  | some f, some P => some (if P.feature < f then P.feature else f)
  | none, some P => some P.feature
  | acc, none => acc

/-- The smallest feature of the postings read last (`src/simple_annotator.cc` 161-172,
`src/simple_builder.cc` 522-533). -/
def smallest (srcs : List Src) : Option Int := srcs.foldl (fun acc s => smaller acc s.cur) none

/-- The postings with a feature (`src/simple_annotator.cc` 173-177). -/
def withFeature (f : Int) (srcs : List Src) : List Posting :=
  (srcs.filterMap (·.cur)).filter (fun P => P.feature == f)

/-- Reading on in the files whose posting had the feature (`src/simple_annotator.cc` 190-193,
`src/simple_builder.cc` 536-542). -/
def advance (pc fc : Codec) (f : Int) : List Src → Option (List Src)
  | [] => some []
  | s :: ss =>
    match (if s.cur.any (fun P => P.feature == f) then Src.next pc fc s.rest else some s) with
    | none => none
    | some s => (advance pc fc f ss).map (s :: ·)

/-- The loop over the features (`src/simple_annotator.cc` 160-200, `src/simple_builder.cc` 521-554):
`combine` makes one posting of those with the feature; `n` bounds the rounds. -/
def mergeLoop (pc fc : Codec) (combine : Int → List Posting → Option Posting) :
    Nat → List Src → Files → Option Files
  | 0, _, _ => none
  | n + 1, srcs, out =>
    match smallest srcs with
    | none => some out
    | some f =>
      match combine f (withFeature f srcs) with
      | none => none
      | some R =>
        match R.write pc fc with
        | none => none
        | some b =>
          match advance pc fc f srcs with
          | none => none
          | some srcs =>
            mergeLoop pc fc combine n srcs
              { idx := out.idx ++ record f (out.pst ++ b).length, pst := out.pst ++ b }

/-- Merging files of postings into new files `idx` and `pst`. -/
def mergeFiles (pc fc : Codec) (combine : Int → List Posting → Option Posting)
    (files : List (List UInt8)) : Option Files :=
  match openAll pc fc files with
  | none => none
  | some srcs => mergeLoop pc fc combine ((files.map List.length).sum + 1) srcs {}

/-- How the annotator combines postings (`src/simple_annotator.cc` 178-189). -/
def annCombine (_f : Int) (Ps : List Posting) : Option Posting :=
  match Ps with
  | [] => none
  | [P] => some P
  | Ps =>
    match mergePostings Ps with
    | none => none
    | some M => if M.invariants then some M else none

/-- How the builder combines postings (`src/simple_builder.cc` 534-546). -/
def buildCombine (f : Int) (Ps : List Posting) : Option Posting :=
  let M := Ps.foldl Posting.append { feature := f }
  if M.invariants then some M else none

/-! ## Batches -/

/-- `annotation_cmp` (`src/simple_annotator.cc` 204-206, `src/simple_builder.cc` 44-46): by feature and
start, not by end. -/
def annCmp (x y : Int × Ann) : Bool := x.1 < y.1 || (x.1 == y.1 && x.2.p < y.2.p)

/-- `tok_cmp` (`src/simple_builder.cc` 40-42). -/
def tokCmp (x y : Int × Int) : Bool := x.1 < y.1 || (x.1 == y.1 && x.2 < y.2)

/-- What `std::sort` guarantees. -/
def Sorts {α : Type} (cmp : α → α → Bool) (sort : List α → List α) : Prop :=
  ∀ l, (sort l).Perm l ∧ (sort l).Pairwise fun x y => cmp y x = false

/-- The loop writing the postings of a sorted batch (`src/simple_annotator.cc` 223-228,
`src/simple_builder.cc` 629-635). -/
def runBytes (pc fc : Codec) : Nat → List (Int × Ann) → Option (List UInt8)
  | 0, l => if l = [] then some [] else none
  | n + 1, l =>
    match fromAnnotations l with
    | none => some []
    | some (P, rest) =>
      match P.write pc fc with
      | none => none
      | some b => (runBytes pc fc n rest).map (b ++ ·)

/-- The same for tokens (`src/simple_builder.cc` 438-443), with `posting_from_tokens`
(`src/simple_posting.cc` 20-38). -/
def tokBytes (pc fc : Codec) : Nat → List (Int × Int) → Option (List UInt8)
  | 0, l => if l = [] then some [] else none
  | _ + 1, [] => some []
  | n + 1, (f, a) :: l =>
    let run := ((f, a) :: l).takeWhile fun x => x.1 == f
    match (fromTokens f (run.map (·.2))).write pc fc with
    | none => none
    | some b => (tokBytes pc fc n (((f, a) :: l).dropWhile fun x => x.1 == f)).map (b ++ ·)

/-- The annotations not yet written, and the files written (`added_`, `added_files_` without the first,
`src/simple_annotator.h`; `annotations_`, `annq_` of the builder). -/
structure Adding where
  added : List (Int × Ann) := []
  files : List (List UInt8) := []
deriving DecidableEq, Repr

/-- `maybe_flush_additions` when it does flush (`src/simple_annotator.cc` 209-242;
`src/simple_builder.cc` 619-655). -/
def Adding.flush (pc fc : Codec) (sort : List (Int × Ann) → List (Int × Ann)) (a : Adding) : Option Adding :=
  (runBytes pc fc a.added.length (sort a.added)).map fun b => { added := [], files := a.files ++ [b] }

/-- `annotate_` (`src/simple_annotator.cc` 244-268) in a transaction: annotations that are not intervals
of addresses are ignored. -/
def Adding.annotate (pc fc : Codec) (sort : List (Int × Ann) → List (Int × Ann)) (limit : Nat)
    (a : Adding) (x : Int × Ann) : Option Adding :=
  if 0 ≤ x.2.p ∧ x.2.p ≤ x.2.q then
    let a := { a with added := a.added ++ [x] }
    if a.added.length > limit then a.flush pc fc sort else some a
  else some a

/-- Annotations one after the other. -/
def Adding.annotateAll (pc fc : Codec) (sort : List (Int × Ann) → List (Int × Ann)) (limit : Nat) :
    Adding → List (Int × Ann) → Option Adding
  | a, [] => some a
  | a, x :: xs =>
    match a.annotate pc fc sort limit x with
    | none => none
    | some a => Adding.annotateAll pc fc sort limit a xs

/-- Flushing at the end, if there is anything to (`src/simple_annotator.cc` 212 and 298). -/
def Adding.finish (pc fc : Codec) (sort : List (Int × Ann) → List (Int × Ann)) (a : Adding) : Option Adding :=
  if a.added.length > 0 then a.flush pc fc sort else some a

/-- The part of `ready_` that makes the new files (`src/simple_annotator.cc` 298-318). -/
def prepare (pc fc : Codec) (sort : List (Int × Ann) → List (Int × Ann)) (limit : Nat)
    (anns : List (Int × Ann)) (old : Files) : Option Files :=
  match Adding.annotateAll pc fc sort limit {} anns with
  | none => none
  | some a =>
    match a.finish pc fc sort with
    | none => none
    | some a => mergeFiles pc fc annCombine (old.pst :: a.files)

/-- A transaction: what is annotated in it, and whether it is committed or aborted. -/
structure Txn where
  anns : List (Int × Ann)
  commit : Bool
deriving DecidableEq, Repr

/-- What a transaction makes of the files (`src/simple_annotator.cc` 342-369). What an aborted one has
written to temporary files is left out. -/
def transact (pc fc : Codec) (sort : List (Int × Ann) → List (Int × Ann)) (limit : Nat)
    (old : Files) (t : Txn) : Option Files :=
  if t.commit then prepare pc fc sort limit t.anns old else some old

/-- Transactions one after the other. -/
def transactAll (pc fc : Codec) (sort : List (Int × Ann) → List (Int × Ann)) (limit : Nat) :
    Files → List Txn → Option Files
  | d, [] => some d
  | d, t :: ts =>
    match transact pc fc sort limit d t with
    | none => none
    | some d => transactAll pc fc sort limit d ts

/-! ## The builder -/

/-- The tokens not yet written, and the files written (`tokens_`, `tokq_`). -/
structure Tokens where
  tokens : List (Int × Int) := []
  files : List (List UInt8) := []
deriving DecidableEq, Repr

/-- `maybe_flush_tokens` when it does flush (`src/simple_builder.cc` 428-476). -/
def Tokens.flush (pc fc : Codec) (sort : List (Int × Int) → List (Int × Int)) (a : Tokens) : Option Tokens :=
  (tokBytes pc fc a.tokens.length (sort a.tokens)).map fun b => { tokens := [], files := a.files ++ [b] }

/-- The part of `add_text_` concerning the index (`src/simple_builder.cc` 596-599, 616): `text` are
the features and addresses of the tokens of a text. -/
def Tokens.add (pc fc : Codec) (sort : List (Int × Int) → List (Int × Int)) (limit : Nat) (a : Tokens)
    (text : List (Int × Int)) : Option Tokens :=
  let a := { a with tokens := a.tokens ++ text.filter fun t => t.1 != nullFeature }
  if a.tokens.length > limit then a.flush pc fc sort else some a

/-- Texts one after the other. -/
def Tokens.addAll (pc fc : Codec) (sort : List (Int × Int) → List (Int × Int)) (limit : Nat) :
    Tokens → List (List (Int × Int)) → Option Tokens
  | a, [] => some a
  | a, t :: ts =>
    match a.add pc fc sort limit t with
    | none => none
    | some a => Tokens.addAll pc fc sort limit a ts

/-- Flushing at the end (`src/simple_builder.cc` 428-429, 678-681). -/
def Tokens.finish (pc fc : Codec) (sort : List (Int × Int) → List (Int × Int)) (a : Tokens) : Option Tokens :=
  if a.tokens.length > 0 then a.flush pc fc sort else some a

/-- The index the builder writes (`src/simple_builder.cc` 478-566, 657-691): the tokens of some texts,
and some annotations; those with the null feature are ignored (661). Without any token the index is
empty (489-490). -/
def build (pc fc : Codec) (tokSort : List (Int × Int) → List (Int × Int))
    (annSort : List (Int × Ann) → List (Int × Ann)) (tokLimit annLimit : Nat)
    (texts : List (List (Int × Int))) (anns : List (Int × Ann)) : Option Files :=
  match Tokens.addAll pc fc tokSort tokLimit {} texts with
  | none => none
  | some t =>
    match t.finish pc fc tokSort with
    | none => none
    | some t =>
      match Adding.annotateAll pc fc annSort annLimit {} (anns.filter fun x => x.1 != nullFeature) with
      | none => none
      | some a =>
        match a.finish pc fc annSort with
        | none => none
        | some a =>
          if t.files = [] then some {}
          else mergeFiles pc fc buildCombine (t.files ++ a.files)

/-! ## Lookups -/

/-- The `i`th record of an `idx` file. -/
def recordAt (idx : List UInt8) (i : Nat) : Int × Int :=
  let l := bytesAddrs 2 (idx.drop (16 * i))
  (l.getD 0 0, l.getD 1 0)

/-- The records of an `idx` file (`src/simple_idx.cc` 154-175). -/
def records (idx : List UInt8) : Option (List (Int × Int)) :=
  if idx.length % 16 ≠ 0 then none
  else
    let n := idx.length / 16
    some ((List.range n).map (recordAt idx))

/-- The search in `locate` (`src/simple_idx.cc` 213-229); `l` and `h` are positions in the map. -/
def search (feature : Int) (map : List (Int × Int)) : Nat → Int → Int → Option (Option Nat)
  | 0, _, _ => none
  | n + 1, l, h =>
    if h > l then
      let m := l + (h - l) / 2
      if m < 0 then none
      else match map[m.toNat]? with
      | none => none
      | some r =>
        if r.1 < feature then search feature map n (m + 1) h
        else if r.1 > feature then search feature map n l (m - 1)
        else some (some m.toNat)
    else if h < 0 then none
    else match map[h.toNat]? with
    | none => none
    | some r => if r.1 = feature then some (some h.toNat) else some none

/-- `locate` (`src/simple_idx.cc` 208-230): the position of the record of a feature. The map is null when
it is empty. -/
def locate (feature : Int) (map : List (Int × Int)) : Option (Option Nat) :=
  match map.head?, map.getLast? with
  | some first, some last =>
    if feature < first.1 ∨ feature > last.1 then some none
    else if first.1 = feature then some (some 0)
    else search feature map (map.length + 1) 0 (map.length - 1)
  | _, _ => some none

/-- Where the posting of a record starts (`src/simple_idx.cc` 328-332, 407-411). -/
def startOf (map : List (Int × Int)) (i : Nat) : Int :=
  if i = 0 then 0 else (map.getD (i - 1) (0, 0)).2

/-- `decompress_cache` (`src/simple_idx.cc` 268-305): the arrays of a posting as stored. -/
def decompress (pc fc : Codec) (data : List UInt8) : Option Arrays :=
  match bytesAddrs 5 data with
  | [_, n, pst, qst, fst] =>
    if n < 0 ∨ pst < 0 ∨ qst < 0 ∨ fst < 0 ∨ 40 + pst + qst + fst > data.length then none
    else
      match tangArray pc ((data.drop 40).take pst.toNat) n.toNat with
      | none => none
      | some ps =>
        match (if qst = 0 then some ps
          else tangArray pc ((data.drop (40 + pst).toNat).take qst.toNat) n.toNat) with
        | none => none
        | some qs =>
          match (if fst = 0 then some none
            else (tangArray fc ((data.drop (40 + pst + qst).toNat).take fst.toNat) n.toNat).map some) with
          | none => none
          | some vs => some { ps := ps, qs := qs, vs := vs }
  | _ => none

/-- `load_cache` (`src/simple_idx.cc` 308-366): the bytes of the posting of a feature, if there is one.
`pst_` is a reader of the file (`Verif.Stream`). -/
def loadPosting (d : Files) (feature : Int) : Option (Option (List UInt8)) :=
  match records d.idx with
  | none => none
  | some map =>
    match locate feature map with
    | none => none
    | some none => some none
    | some (some i) =>
      let start := startOf map i
      let amount := (map.getD i (0, 0)).2 - start
      if start < 0 ∨ amount < 0 then none
      else
        match Stream.FileR.readAt start.toNat amount.toNat { file := d.pst } with
        | none => none
        | some (_, b) => if b.length = amount.toNat ∧ 40 ≤ b.length then some (some b) else none

/-- `hopper_` (`src/simple_idx.cc` 368-384). -/
def hopper (pc fc : Codec) (d : Files) (feature : Int) : Obj :=
  match loadPosting d feature with
  | none => failObj
  | some none => emptyObj
  | some (some b) =>
    let n := (bytesAddrs 5 b).getD 1 0
    if n = 0 then emptyObj
    else
      match decompress pc fc b with
      | none => failObj
      | some A =>
        if n = 1 then
          match A.ps, A.qs, A.vs with
          | [p], [q], none => singleObj ⟨p, q, 0⟩
          | [p], [q], some [v] => singleObj ⟨p, q, v⟩
          | _, _, _ => failObj
        else arrayObj A

/-- `count_` (`src/simple_idx.cc` 386-417). -/
def count (d : Files) (feature : Int) : Option Int :=
  match records d.idx with
  | none => none
  | some map =>
    match locate feature map with
    | none => none
    | some none => some 0
    | some (some i) =>
      let start := startOf map i
      if start < 0 then none
      else
        match Stream.FileR.readAt start.toNat 40 { file := d.pst } with
        | none => none
        | some (_, b) => if b.length = 40 then (bytesAddrs 5 b)[1]? else none

/-- `vocab_` (`src/simple_idx.cc` 419-424). -/
def vocab (d : Files) : Option Nat := (records d.idx).map List.length

end Verif.Static
