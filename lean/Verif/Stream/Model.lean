import Verif.Store.Bytes
import Verif.TxtIO.Model

/-!
# Files and compressed streams

Model of the readers and writers a working directory hands out (`src/working.cc` 21-339,
`src/working.h` 19-76).

Simplifications:
* a file is a string of bytes that nobody changes while a reader is open on it;
* what was written to a file is in it at once, so the buffer of `std::fstream` is not modelled;
* a compressor is a pair of functions on byte strings (`Verif.TxtIO.Codec`);
* `none` stands for a failed assertion, a failed stream, or an access outside of a buffer;
* `size_t` has 64 bits.
-/

namespace Verif.Stream
open Verif.Store Verif.TxtIO

/-- `FileReader` (`src/working.cc` 21-78) and the file it reads. The size it keeps is that of the file. -/
structure FileR where
  file : Bytes
  pos : Nat := 0
deriving DecidableEq, Repr

/-- `FileReader::read_(buffer, amount)` (`src/working.cc` 48-64). -/
def FileR.read (amount : Nat) (r : FileR) : Option (FileR × Bytes) :=
  if amount = 0 ∨ r.pos ≥ r.file.length then some (r, [])
  else
    let actual :=
      if (r.pos + amount) % 18446744073709551616 > r.file.length then r.file.length - r.pos else amount
    if r.pos + actual ≤ r.file.length then
      some ({ r with pos := r.pos + actual }, (r.file.drop r.pos).take actual)
    else none

/-- `FileReader::read_(buffer, where, amount)` (`src/working.cc` 44-47). -/
def FileR.readAt (pos amount : Nat) (r : FileR) : Option (FileR × Bytes) :=
  FileR.read amount { r with pos := pos }

/-- `FileReader::size_` (`src/working.cc` 65-73). -/
def FileR.size (r : FileR) : Nat := r.file.length

/-- `FullReader` (`src/working.cc` 80-124): the whole file in memory. -/
structure FullR where
  buffer : Bytes
  pos : Nat := 0
deriving DecidableEq, Repr

/-- `FullReader::make` (`src/working.cc` 82-97): reads the file through a `FileReader`. -/
def FullR.make (file : Bytes) : Option FullR :=
  let r : FileR := { file := file }
  if r.size = 0 then some { buffer := [] }
  else (r.readAt 0 r.size).map (fun x => { buffer := x.2 })

/-- `FullReader::read_(buffer, amount)` (`src/working.cc` 111-119). -/
def FullR.read (amount : Nat) (r : FullR) : Option (FullR × Bytes) :=
  if amount = 0 ∨ r.pos ≥ r.buffer.length then some (r, [])
  else
    let actual :=
      if (r.pos + amount) % 18446744073709551616 > r.buffer.length then r.buffer.length - r.pos else amount
    if r.pos + actual ≤ r.buffer.length then
      some ({ r with pos := r.pos + actual }, (r.buffer.drop r.pos).take actual)
    else none

/-- `FullReader::read_(buffer, where, amount)` (`src/working.cc` 107-110). -/
def FullR.readAt (pos amount : Nat) (r : FullR) : Option (FullR × Bytes) :=
  FullR.read amount { r with pos := pos }

/-- `CompressWriter` (`src/working.cc` 253-324): `cap` is `buffer_available_`, `buffer` the first
`buffer_used_` bytes of `buffer_`, and `file` what was handed to the `FileWriter` below (222-251). -/
structure CompW where
  cap : Nat
  buffer : Bytes := []
  file : Bytes := []
deriving DecidableEq, Repr

/-- `CompressWriter::flush` (`src/working.cc` 293-302). -/
def CompW.flush (z : Codec) (w : CompW) : CompW :=
  if w.buffer.length = 0 then w
  else
    let b := z.crush w.buffer
    { w with file := w.file ++ leBytes 8 b.length ++ b, buffer := [] }

/-- The loop of `CompressWriter::append_` (`src/working.cc` 304-311), returning what is left of the
bytes; `fuel` bounds its rounds. -/
def CompW.fill (z : Codec) : Nat → Bytes → CompW → Option (CompW × Bytes)
  | 0, b, w => if w.buffer.length + b.length > w.cap then none else some (w, b)
  | fuel + 1, b, w =>
    if w.buffer.length + b.length > w.cap then
      let remaining := w.cap - w.buffer.length
      CompW.fill z fuel (b.drop remaining)
        (CompW.flush z { w with buffer := w.buffer ++ b.take remaining })
    else some (w, b)

/-- `CompressWriter::append_` (`src/working.cc` 303-316). -/
def CompW.append (z : Codec) (b : Bytes) (w : CompW) : Option CompW :=
  match CompW.fill z (b.length + 1) b w with
  | none => none
  | some (w, b) => if b.length = 0 then some w else some { w with buffer := w.buffer ++ b }

/-- `~CompressWriter` (`src/working.cc` 285): what the file holds once the writer is gone. -/
def CompW.close (z : Codec) (w : CompW) : Bytes := (w.flush z).file

/-- `CompressReader` (`src/working.cc` 126-205): `cap` is the size of the buffer and `space` that of the
buffer for compressed bytes; `buffer` the bytes from `current_` to `end_`; `done` says that
`buffer_available_` was set to 0. -/
structure CompR where
  reader : FileR
  cap : Nat
  space : Nat
  buffer : Bytes := []
  done : Bool := false
deriving DecidableEq, Repr

/-- `CompressReader::make` (`src/working.cc` 128-152). -/
def CompR.make (cap space : Nat) (file : Bytes) : CompR :=
  { reader := { file := file }, cap := cap, space := space }

/-- The part of the loop that reads the next piece of the file (`src/working.cc` 177-188). -/
def CompR.next (z : Codec) (r : CompR) : Option CompR :=
  match r.reader.read 8 with
  | none => none
  | some (f, s) =>
    if s.length = 0 then some { r with reader := f, done := true }
    else if s.length = 8 then
      match f.read (leNat s) with
      | none => none
      | some (f, b) =>
        if b.length > r.space + 1 then none
        else some { r with reader := f, buffer := (z.tang b).take r.cap }
    else none

/-- The loop of `CompressReader::read_(buffer, amount)` (`src/working.cc` 166-192). -/
def CompR.loop (z : Codec) : Nat → Nat → CompR → Option (CompR × Bytes)
  | 0, _, _ => none
  | fuel + 1, amount, r =>
    if amount = 0 ∨ r.done then some (r, [])
    else if r.buffer.length > 0 then
      let n := if r.buffer.length ≥ amount then amount else r.buffer.length
      (CompR.loop z fuel (amount - n) { r with buffer := r.buffer.drop n }).map
        (fun x => (x.1, r.buffer.take n ++ x.2))
    else
      match r.next z with
      | none => none
      | some r => CompR.loop z fuel amount r

/-- `CompressReader::read_(buffer, amount)` (`src/working.cc` 166-192); the bytes wanted and those left
in the file bound the rounds of its loop. -/
def CompR.read (z : Codec) (amount : Nat) (r : CompR) : Option (CompR × Bytes) :=
  CompR.loop z (amount + (r.reader.file.length - r.reader.pos) + 2) amount r

/-- `CompressReader::read_(buffer, where, amount)` (`src/working.cc` 162-165): the assertion fails, or,
with `fast` (no assertions), nothing is read. -/
def CompR.readAt (fast : Bool) (_pos _amount : Nat) (r : CompR) : Option (CompR × Bytes) :=
  if fast then some (r, []) else none

/-- The readers there are (`src/working.cc` 207-220). -/
inductive ReaderKind where
  | file | full | compressed
deriving DecidableEq, Repr

/-- `Reader::make` (`src/working.cc` 207-220): the last condition is a non-null pointer and so always
holds. -/
def readerKind (recipe : List Char) : Option ReaderKind :=
  if recipe = [] ∨ recipe = ['f', 'i', 'l', 'e'] then some .file
  else if recipe = ['f', 'u', 'l', 'l'] then some .full
  else some .compressed

/-- The writers there are, compressing ones with the size of their buffer (`src/working.cc` 16-19,
326-339). -/
inductive WriterKind where
  | file | compressed (cap : Nat)
deriving DecidableEq, Repr

/-- `Writer::make` (`src/working.cc` 326-339). -/
def writerKind (recipe : List Char) : Option WriterKind :=
  if recipe = [] ∨ recipe = ['f', 'i', 'l', 'e'] ∨ recipe = ['f', 'u', 'l', 'l'] then some .file
  else if recipe = ['c', 'o', 'm', 'p', 'r', 'e', 's', 's', 'e', 'd'] then some (.compressed 67108864)
  else if recipe = ['c', 'o', 'm', 'p', 'r', 'e', 's', 's', 'i', 'o', 'n', ' ', 't', 'e', 's', 't'] then
    some (.compressed 133)
  else none

/-! ## Sequences of calls -/

/-- A writer is given some strings. -/
def CompW.appends (z : Codec) : List Bytes → CompW → Option CompW
  | [], w => some w
  | b :: bs, w =>
    match w.append z b with
    | none => none
    | some w => CompW.appends z bs w

/-- A file holds what a `CompressWriter` with a buffer of `cap` bytes was given, after it is gone. -/
def written (z : Codec) (cap : Nat) (bs : List Bytes) : Option Bytes :=
  (CompW.appends z bs { cap := cap }).map (CompW.close z)

/-- Reads one after the other, and what they return. -/
def CompR.reads (z : Codec) : List Nat → CompR → Option (List Bytes)
  | [], _ => some []
  | a :: as, r =>
    match r.read z a with
    | none => none
    | some (r, b) => (CompR.reads z as r).map (b :: ·)

/-- A read from where the last one ended, or from a given place. -/
inductive Read where
  | next (amount : Nat)
  | at (pos amount : Nat)
deriving DecidableEq, Repr

/-- How many bytes a read asks for. -/
def Read.amount : Read → Nat
  | .next a => a
  | .at _ a => a

/-- Reads of a file, and what they return. -/
def FileR.reads : List Read → FileR → Option (List Bytes)
  | [], _ => some []
  | c :: cs, r =>
    match (match c with | .next a => r.read a | .at p a => r.readAt p a) with
    | none => none
    | some (r, b) => (FileR.reads cs r).map (b :: ·)

/-- Reads of a file held in memory, and what they return. -/
def FullR.reads : List Read → FullR → Option (List Bytes)
  | [], _ => some []
  | c :: cs, r =>
    match (match c with | .next a => r.read a | .at p a => r.readAt p a) with
    | none => none
    | some (r, b) => (FullR.reads cs r).map (b :: ·)

end Verif.Stream
