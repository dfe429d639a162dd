import Verif.Store.IndexModel
/-
Model of static shards (src/hazel.cc, and the writer in src/fiver.cc 930-1263): the file, its
index, and looking up a feature.
-/
namespace Verif.Hazel
open Verif.Hopper Verif.Store

/-! ### The index blob -/

/-- `hazel_idx_magic` owsla.cc 13: "COTTONTAIL_HAZEL_IDX\n" -/
def idxMagic : List UInt8 := [67, 79, 84, 84, 79, 78, 84, 65, 73, 76, 95, 72, 65, 90, 69, 76, 95, 73, 68, 88, 10]

/-- `HazelPostingEntry` owsla.h: feature, end of its bytes in the blob, and the number of
annotations, or the address if there are no bytes -/
structure Entry where
  feature : Int
  stop : Int
  cp : Int
deriving DecidableEq, Repr

/-- `hazel_idx_header_length` hazel.cc 422-424 -/
notation "headerLen" => (45 : Int)

/-- three `write_pod`s, hazel.cc 544-546, fiver.cc 1006-1008 -/
def entryBytes (e : Entry) : List UInt8 := addrsBytes [e.feature, e.stop, e.cp]

def dirBytes (d : List Entry) : List UInt8 := d.flatMap entryBytes

/-- the condition `count_or_p == 1 && get(0, …) && p == q && v == 0.0`, fiver.cc 994-995 and
hazel.cc 573-574: the address, if the posting is kept inline -/
def inlineAt (P : Posting) : Option Int :=
  if P.size = 1 then
    match P.get 0 with
    | some a => if a.p = a.q ∧ isZero a.v then some a.p else none
    | none => none
  else none

/-- fiver.cc 989-1002, hazel.cc 568-584: the bytes written for one posting when the blob is
`pos` bytes long, and its entry.  `none`: the compressor does not finish. -/
def put (pc fc : Codec) (pos f : Int) (P : Posting) : Option (List UInt8 × Entry) :=
  match inlineAt P with
  | some p => some ([], ⟨f, pos, p⟩)
  | none => do
    let z ← P.write pc fc
    return (z, ⟨f, pos + z.length, P.size⟩)

/-- fiver.cc 987-1003: the loop over the index, a `std::map`, so in order of features -/
def putAll (pc fc : Codec) (pos : Int) : List (Int × Posting) → Option (List UInt8 × List Entry)
  | [] => some ([], [])
  | (f, P) :: l => do
    let (z, e) ← put pc fc pos f P
    let (zs, es) ← putAll pc fc (pos + z.length) l
    return (z ++ zs, e :: es)

/-- the blob: hazel.cc 916-928; `hazel_write_idx_blob` fiver.cc 981-1021, which writes zeros for
the three numbers first and overwrites them at the end -/
def idxBlob (pst : List UInt8) (dct : List Entry) : List UInt8 :=
  idxMagic ++ addrsBytes [headerLen + pst.length, (dirBytes dct).length, dct.length] ++ pst ++ dirBytes dct

def writeIdx (pc fc : Codec) (l : List (Int × Posting)) : Option (List UInt8) := do
  let (zs, es) ← putAll pc fc headerLen l
  return idxBlob zs es

/-- one `read_pod` of each member -/
def entryOf (b : List UInt8) : Entry :=
  ⟨bytesAddr (b.take 8), bytesAddr ((b.drop 8).take 8), bytesAddr ((b.drop 16).take 8)⟩

/-- hazel.cc 391-405: the loop reading the directory, with its checks; `last` is the end of the
entry before, if any -/
def loadDir (dirOff : Int) (last : Option Int) : Nat → List UInt8 → Option (List Entry)
  | 0, _ => some []
  | n + 1, b =>
    let e := entryOf b
    if e.stop < headerLen ∨ e.stop > dirOff ∨ last.any (fun s => decide (e.stop < s)) then none
    else do
      let es ← loadDir dirOff (some e.stop) n (b.drop 24)
      return e :: es

/-- `HazelIdx::load` hazel.cc 358-407.  (A read that goes past the end of the file fails; the
blob is the part of the file the dictionary names.) -/
def load (blob : List UInt8) : Option (List Entry) :=
  if (blob.length : Int) < headerLen then none
  else if blob.take 21 ≠ idxMagic then none
  else match bytesAddrs 3 (blob.drop 21) with
    | [off, len, n] =>
      if off < headerLen ∨ len < 0 ∨ n < 0 ∨ off + len > blob.length ∨ len ≠ n * 24 then none
      else loadDir off none n.toNat (blob.drop off.toNat)
    | _ => none

/-- `std::lower_bound` (the loop of libstdc++, by halving) with the comparison of hazel.cc
165-167, on `len` entries from `first` on -/
def lowerBound (d : List Entry) (f : Int) (first len : Nat) : Nat :=
  if len = 0 then first
  else
    let half := len / 2
    match d[first + half]? with
    | some e => if e.feature < f then lowerBound d f (first + half + 1) (len - half - 1)
      else lowerBound d f first half
    | none => first
termination_by len
decreasing_by all_goals omega

/-- `locate_posting` hazel.cc 161-172 -/
def locate (d : List Entry) (f : Int) : Option Nat :=
  let i := lowerBound d f 0 d.length
  match d[i]? with
  | some e => if e.feature ≠ f then none else some i
  | none => none

/-- `HazelIdx::posting_start` hazel.cc 327-329 -/
def postingStart (d : List Entry) (i : Nat) : Int :=
  if i = 0 then headerLen else match d[i - 1]? with
    | some e => e.stop
    | none => headerLen

/-- an open index: hazel.cc 409-417 -/
structure HIdx where
  blob : List UInt8
  dir : List Entry
deriving DecidableEq

/-- `HazelIdx::make` hazel.cc 208-235, for the blob -/
def openIdx (blob : List UInt8) : Option HIdx := (load blob).map fun d => ⟨blob, d⟩

/-- the bytes of a posting -/
def HIdx.slice (H : HIdx) (start stop : Int) : List UInt8 := (H.blob.drop start.toNat).take (stop - start).toNat

/-- `fill_hazel_posting` hazel.cc 181-199 into a new posting; `none` is `assert(false)` -/
def fill (pc fc : Codec) (bytes : List UInt8) (f n : Int) : Option Posting :=
  match readBlob pc fc bytes with
  | some D => if D.feature = f ∧ (D.size : Int) = n then some (({ feature := f } : Posting).append D) else none
  | none => none

/-- `HazelIdx::posting` hazel.cc 249-276 (outer `none`: an assertion; inner: `nullptr`).  (The
cache: a posting is filled once, from bytes that do not change.) -/
def HIdx.posting (pc fc : Codec) (H : HIdx) (f : Int) : Option (Option Posting) :=
  match locate H.dir f with
  | none => some none
  | some i => match H.dir[i]? with
    | none => none
    | some e =>
      let start := postingStart H.dir i
      if start = e.stop then some (some (({ feature := f } : Posting).push ⟨e.cp, e.cp, 0⟩))
      else if start > e.stop then none
      else (fill pc fc (H.slice start e.stop) f e.cp).map some

/-- `HazelIdx::hopper_` hazel.cc 287-315 -/
def HIdx.obj (pc fc : Codec) (H : HIdx) (f : Int) : Obj :=
  match locate H.dir f with
  | none => emptyObj
  | some i => match H.dir[i]? with
    | none => failObj
    | some e =>
      let start := postingStart H.dir i
      if start = e.stop then singleObj ⟨e.cp, e.cp, 0⟩
      else if start > e.stop then failObj
      else match fill pc fc (H.slice start e.stop) f e.cp with
        | some P => arrayObj P.arrays
        | none => failObj

/-- `HazelIdx::count_` hazel.cc 316-324 -/
def HIdx.count (H : HIdx) (f : Int) : Int :=
  match locate H.dir f with
  | none => 0
  | some i => match H.dir[i]? with
    | none => 0
    | some e => if postingStart H.dir i = e.stop then 1 else e.cp

/-- `HazelIdx::vocab_` hazel.cc 325 -/
def HIdx.vocab (H : HIdx) : Nat := H.dir.length

/-- `HazelIdx::posting_at` hazel.cc 331-356 (`none` = `nullptr`) -/
def HIdx.postingAt (pc fc : Codec) (H : HIdx) (i : Nat) : Option Posting :=
  match H.dir[i]? with
  | none => none
  | some e =>
    let start := postingStart H.dir i
    if start = e.stop then some (({ feature := e.feature } : Posting).push ⟨e.cp, e.cp, 0⟩)
    else if start > e.stop then none
    else match readBlob pc fc (H.slice start e.stop) with
      | some D => if D.feature = e.feature then some D else none
      | none => none

/-! ### The file -/

/-- `cottontail_file_magic` owsla.cc 8: "#COTTONTAIL\n" -/
def fileMagic : List UInt8 := [35, 67, 79, 84, 84, 79, 78, 84, 65, 73, 76, 10]
/-- `hazel_blob_dictionary_magic` owsla.cc 12: "COTTONTAIL_HAZEL_BLOBS\n" -/
def dictMagic : List UInt8 :=
  [67, 79, 84, 84, 79, 78, 84, 65, 73, 76, 95, 72, 65, 90, 69, 76, 95, 66, 76, 79, 66, 83, 10]

/-- `HazelBlob` owsla.h -/
structure Blob where
  name : List UInt8
  offset : Int
  length : Int
deriving DecidableEq, Repr

/-- "idx" and "txt" -/
def idxName : List UInt8 := [105, 100, 120]
def txtName : List UInt8 := [116, 120, 116]

/-- `hazel_blob_dictionary` owsla.cc 88-100 -/
def blobDictionary (bs : List Blob) : List UInt8 :=
  dictMagic ++ addrBytes bs.length ++
    bs.flatMap fun b => addrBytes b.name.length ++ b.name ++ addrBytes b.offset ++ addrBytes b.length

/-- `Fiver::hazel` fiver.cc 1204-1260, `HazelMergeOutput` hazel.cc 1370-1421 with 2034-2060: the
finished file.  (A dictionary of zeros is written first, and overwritten at the end.) -/
def hazelFile (dna idx txt : List UInt8) : List UInt8 :=
  let head := fileMagic ++ dna ++ [10]
  let zeros := blobDictionary [⟨idxName, 0, 0⟩, ⟨txtName, 0, 0⟩]
  let i := head.length + zeros.length
  head ++ blobDictionary [⟨idxName, i, idx.length⟩, ⟨txtName, i + idx.length, txt.length⟩] ++ idx ++ txt

/-- `std::getline` until an empty line: hazel.cc 93-98; the rest of the file.  `cur` says whether
the line so far is empty. -/
def skipLines (empty : Bool) : List UInt8 → Option (List UInt8)
  | [] => none
  | c :: s => if c = 10 then (if empty then some s else skipLines true s) else skipLines false s

/-- `skip_hazel_dna` hazel.cc 85-99 -/
def skipDna (s : List UInt8) : Option (List UInt8) :=
  if s.take 12 ≠ fileMagic then none else skipLines true (s.drop 12)

/-- hazel.cc 123-139: the loop over the dictionary's entries -/
def readBlobs : Nat → List UInt8 → Option (List Blob)
  | 0, _ => some []
  | n + 1, s => do
    let (b, s) ← readN 8 s
    let nl := bytesAddr b
    if nl < 0 then none else
    let (name, s) ← readN nl.toNat s
    let (ob, s) ← readN 8 s
    let (lb, s) ← readN 8 s
    let off := bytesAddr ob
    let len := bytesAddr lb
    if off < 0 ∨ len < 0 then none else
    let rest ← readBlobs n s
    return ⟨name, off, len⟩ :: rest

/-- `read_blob_dictionary` hazel.cc 101-141 -/
def readDictionary (s : List UInt8) : Option (List Blob) := do
  let s ← skipDna s
  let (m, s) ← readN 23 s
  if m ≠ dictMagic then none else
  let (b, s) ← readN 8 s
  let n := bytesAddr b
  if n < 0 then none else
  readBlobs n.toNat s

/-- the last entry of a name counts: `(*blobs)[name] = blob` -/
def findBlob (name : List UInt8) (bs : List Blob) : Option Blob := (bs.filter fun b => b.name = name).getLast?

/-- `Hazel::make` hazel.cc 2090-2170, the part that finds the two blobs -/
def openFile (s : List UInt8) : Option (List UInt8 × List UInt8) := do
  let bs ← readDictionary s
  let i ← findBlob idxName bs
  let t ← findBlob txtName bs
  return ((s.drop i.offset.toNat).take i.length.toNat, (s.drop t.offset.toNat).take t.length.toNat)

end Verif.Hazel
