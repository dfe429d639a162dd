import Verif.Store.IndexModel
/-
  Model of the file a dynamic shard is kept in (src/fiver.cc: pickle, unpickle).
-/
namespace Verif.Pickle
open Verif.Hopper Verif.Store

/-- `std::map<addr, std::shared_ptr<SimplePosting>>` (`src/fiver.h:107`) with its order, as the
list of its entries by ascending key -/
abbrev Map := List (Int × Posting)

/-- `(*index)[f] = posting` (`src/fiver.cc:695` and `917`): insert in order, or replace -/
def put (f : Int) (P : Posting) : Map → Map
  | [] => [(f, P)]
  | (g, Q) :: l =>
    if f < g then (f, P) :: (g, Q) :: l
    else if f = g then (f, P) :: l
    else (g, Q) :: put f P l

/-- `index->find(f)` (`src/fiver.cc:220`) -/
def find (m : Map) : Store.Index := fun f => (m.find? fun x => x.1 == f).map (·.2)

/-- `src/fiver.cc:690-696`: the loop over the sorted annotations, as `Store.buildIndex`, but
with the order of the map -/
def build : Nat → Map → List (Int × Ann) → Map
  | 0, m, _ => m
  | n + 1, m, l => match fromAnnotations l with
    | none => m
    | some (P, rest) => build n (put P.feature P m) rest

/-- `src/fiver.cc:674-696` `ready_` -/
def mapOf (sorted : List (Int × Ann)) : Map := build sorted.length [] sorted

/-- What a shard keeps in its file: the numbers of its first and last transaction, the text,
and the index (`src/fiver.h:101-107`).  (The address `where_` and the name are not kept in the file.) -/
structure Shard where
  first : Int
  last : Int
  text : List UInt8
  index : Map
deriving DecidableEq

/-- the three compressors of a shard; `extra` is that of the text compressor -/
structure Gear where
  posting : Codec
  fvalue : Codec
  text : Codec
  extra : Nat → Nat
  destructive : Bool

/-- A file being written to a device on which it can grow to `room` bytes: `bytes` is what
has reached it, `failed` the state of the stream.  (Without buffering: a buffered stream
notices even later that the device is full.) -/
structure Jar where
  room : Nat
  bytes : List UInt8 := []
  failed : Bool := false

/-- `jar.write(…)`: a failed stream writes nothing; what does not fit is cut off and fails the
stream -/
def Jar.write (j : Jar) (b : List UInt8) : Jar :=
  if j.failed then j
  else if j.bytes.length + b.length ≤ j.room then { j with bytes := j.bytes ++ b }
  else { j with bytes := (j.bytes ++ b).take j.room, failed := true }

/-- `src/fiver.cc:807-808`: write every posting; nobody looks at the stream -/
def writeAll (g : Gear) : Jar → Map → Option Jar
  | j, [] => some j
  | j, (_, P) :: l => do
    let b ← P.write g.posting g.fvalue
    writeAll g (j.write b) l

/-- `src/fiver.cc:764-811` `pickle(filename)`: what it returns, and the file (`none`: a
compressor asserts or does not end).  The file opens, and the shard has `idx_` and `txt_`. -/
def pickle (g : Gear) (room : Nat) (S : Shard) : Option (Bool × List UInt8) :=
  if g.destructive then some (false, [])
  else do
    let j : Jar := { room := room }
    let j := j.write (addrBytes S.first)
    if j.failed then return (false, j.bytes)
    let j := j.write (addrBytes S.last)
    if j.failed then return (false, j.bytes)
    let j := j.write (addrBytes S.text.length)
    let z ← g.text.crush S.text
    let j := j.write (addrBytes z.length)
    if j.failed then return (false, j.bytes)
    let j := j.write z
    if j.failed then return (false, j.bytes)
    let j ← writeAll g j S.index
    return (true, j.bytes)

/-- `src/fiver.cc:911-918`: the loop over the postings in the file.  It ends when no whole
header is left (`posting_from_file` returns `nullptr`); anything else that is wrong with a
posting is an assertion in `posting_from_file`, `none` here.  The first argument bounds the
turns by the length of the file. -/
def readAll (g : Gear) : Nat → Map → List UInt8 → Option Map
  | 0, m, _ => some m
  | n + 1, m, s =>
    if s.length < 40 then some m
    else match readFile g.posting g.fvalue s with
      | none => none
      | some (P, s) => readAll g n (put P.feature P m) s

/-- `src/fiver.cc:816-930` `unpickle` (outer `none`: an assertion, or bytes nobody has
written; inner `none`: `nullptr`).  A text that is cut off is not noticed: the compressor gets
the bytes that were there before the read, whatever they are, so `none`. -/
def unpickle (g : Gear) (s : List UInt8) : Option (Option Shard) :=
  match readN 8 s with
  | none => some none
  | some (a, s) => match readN 8 s with
    | none => some none
    | some (b, s) => match readN 8 s with
      | none => some none
      | some (n, s) => match readN 8 s with
        | none => some none
        | some (m, s) =>
          let n := bytesAddr n
          let m := bytesAddr m
          if n < 0 ∨ m < 0 then none
          else match readN m.toNat s with
            | none => none
            | some (z, s) => do
              let t ← g.text.tang z (n.toNat + g.extra n.toNat)
              if t.length < n.toNat then none
              else do
                let index ← readAll g s.length [] s
                return some ⟨bytesAddr a, bytesAddr b, t.take n.toNat, index⟩

end Verif.Pickle
