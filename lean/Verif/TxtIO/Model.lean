/-!
# The chunked text store

Model of `SimpleTxtIO` (`src/simple_txt_io.cc`, `src/simple_txt_io.h`): a text kept on disk as a
sequence of separately compressed chunks, with a second file (the chunk map) holding for each chunk
the offset at which its compressed form ends.

A disk is modelled as the values of the files the class touches.  Every change of a file is one
`Op`, and a store carries the list of operations performed since the running transaction began, so
that crashes can be placed between and inside them.

Simplifications, all of them here:
* offsets and lengths are natural numbers (64-bit signed integers in the code), so overflow of
  `start + desired` is not modelled;
* the chunk map file is a list of offsets, not of bytes; a partly written last entry is one the
  code ignores, so it is not represented;
* opening files never fails, and the files are writable;
* what is in memory but was not yet written by `std::fstream` is represented only where the code
  depends on it: the last write to the contents may still be pending when a transaction is aborted
  (`Store.pending`), and a crash may lose any of the writes of the transaction;
* `none` stands for a failed assertion or for reading bytes that do not exist.
-/

namespace Verif.TxtIO

abbrev Bytes := List UInt8

/-- A compressor: `Compressor::crush` and `Compressor::tang` (`src/compressor.h` 28-43) as functions
on byte strings. The space they are given is taken to be enough. -/
structure Codec where
  crush : Bytes → Bytes
  tang : Bytes → Bytes

/-- The files of a store: contents, chunk map, `.limits` (number of chunks and bytes of the last
chunk when the transaction began), and whether `.lock` exists
(`src/simple_txt_io.cc` 14-42, 417-468). -/
structure Disk where
  contents : Bytes := []
  map : List Nat := []
  limits : Option (Nat × Bytes) := none
  lock : Bool := false
deriving DecidableEq, Repr

/-- `truncate(2)`: cuts a file, or extends it with zeros. -/
def resize {α} (n : Nat) (fill : α) (l : List α) : List α :=
  l.take n ++ List.replicate (n - l.length) fill

/-- Writing `b` at offset `pos` of a file; a gap before it reads as zeros. -/
def overwrite (pos : Nat) (b c : Bytes) : Bytes :=
  resize pos 0 c ++ b ++ c.drop (pos + b.length)

/-- Replacing the last entry of the chunk map file (`seekp(-sizeof(where), end)` and `write`). -/
def setLast (v : Nat) (m : List Nat) : List Nat := m.set (m.length - 1) v

/-- The changes the code makes to its files. -/
inductive Op where
  /-- `contents.seekp(pos); contents.write(b)` -/
  | write (pos : Nat) (b : Bytes)
  /-- overwriting the last entry of the chunk map -/
  | last (v : Nat)
  /-- appending an entry to the chunk map -/
  | push (v : Nat)
  /-- `truncate(contents, n)` -/
  | cutContents (n : Nat)
  /-- `truncate(chunk_map, n * sizeof(std::streamoff))` -/
  | cutMap (n : Nat)
  /-- `rename(temp, limits)` -/
  | limit (k : Nat) (b : Bytes)
  /-- `remove(limits)` -/
  | unlimit
  /-- `link(contents, lock)` -/
  | lock
  /-- `remove(lock)` -/
  | unlock
deriving DecidableEq, Repr

/-- What an operation does to the files. -/
def Op.run : Op → Disk → Disk
  | .write pos b, d => { d with contents := overwrite pos b d.contents }
  | .last v, d => { d with map := setLast v d.map }
  | .push v, d => { d with map := d.map ++ [v] }
  | .cutContents n, d => { d with contents := resize n 0 d.contents }
  | .cutMap n, d => { d with map := resize n 0 d.map }
  | .limit k b, d => { d with limits := some (k, b) }
  | .unlimit, d => { d with limits := none }
  | .lock, d => { d with lock := true }
  | .unlock, d => { d with lock := false }

/-- Operations in order. -/
def runAll (ops : List Op) (d : Disk) : Disk := ops.foldl (fun d o => o.run d) d

/-- A store object (`src/simple_txt_io.h` 49-80) and the files it works on. `chunk` is the first
`chunk_end_` bytes of `chunk_`; `limited` is `last_chunk_` when `limited_` is set. -/
structure Store where
  disk : Disk
  /-- the offsets in memory, `*chunk_map_` -/
  map : List Nat := []
  size : Nat := 0
  chunk : Bytes := []
  valid : Bool := false
  index : Nat := 0
  synced : Bool := true
  flushed : Bool := true
  readOnly : Bool := false
  limited : Option Bytes := none
  /-- `started_`, `readied_` of `Committable` (`src/committable.h` 83-85); `ready_` always votes yes -/
  started : Bool := false
  readied : Bool := false
  /-- the last write to the contents, if no seek or flush of the stream came after it -/
  pending : Option (Nat × Bytes) := none
  /-- bookkeeping of the model: the files when the running transaction's limits were in place -/
  base : Disk := {}
  /-- bookkeeping of the model: the changes made to the files since -/
  log : List Op := []
deriving DecidableEq, Repr

/-- A change of a file by a store. -/
def Store.does (s : Store) (o : Op) : Store :=
  { s with disk := o.run s.disk, log := s.log ++ [o] }

/-- Changes in order. -/
def Store.doAll (s : Store) (ops : List Op) : Store := ops.foldl Store.does s

/-- Where chunk `i` starts in the contents: 0, or where the one before ends
(as computed in `fetch_chunk`, `src/simple_txt_io.cc` 220-224). -/
def mark (m : List Nat) : Nat → Nat
  | 0 => 0
  | i + 1 => m.getD i 0

/-- The bytes of `c` from offset `a` up to `b`. -/
def slice (a b : Nat) (c : Bytes) : Bytes := (c.take b).drop a

/-- Reading them from a file fails when they are not there. -/
def readFile (a b : Nat) (c : Bytes) : Option Bytes :=
  if a ≤ b ∧ b ≤ c.length then some (slice a b c) else none

/-- `sync_last_chunk` (`src/simple_txt_io.cc` 247-275). -/
def sync (z : Codec) (s : Store) : Option Store :=
  if s.synced then some s
  else if s.limited = none ∧ s.map ≠ [] ∧ s.valid = true ∧ s.index = s.map.length - 1 ∧ s.chunk ≠ [] then
    let pos := mark s.map (s.map.length - 1)
    let b := z.crush s.chunk
    let s := s.does (.write pos b)
    let s := { s with map := setLast (pos + b.length) s.map, pending := some (pos, b) }
    let s := s.does (.last (pos + b.length))
    some { s with synced := true }
  else none

/-- The rest of `fetch_chunk` after syncing (`src/simple_txt_io.cc` 213-233). -/
def load (n : Nat) (z : Codec) (i : Nat) (s : Store) : Option Store :=
  match s.limited, decide (i = s.map.length - 1) with
  | some l, true => some { s with valid := true, index := i, chunk := l }
  | _, _ =>
    match readFile (mark s.map i) (mark s.map (i + 1)) s.disk.contents with
    | none => none
    | some b =>
      if (z.tang b).length ≤ n then
        some { s with valid := true, index := i, chunk := z.tang b, pending := none }
      else none

/-- `fetch_chunk` (`src/simple_txt_io.cc` 208-233). -/
def fetch (n : Nat) (z : Codec) (i : Nat) (s : Store) : Option Store :=
  if i < s.map.length then
    if s.valid = true ∧ s.index = i then some s
    else
      match sync z s with
      | none => none
      | some s => load n z i s
  else none

/-- `fetch_last_chunk` (`src/simple_txt_io.cc` 235). -/
def fetchLast (n : Nat) (z : Codec) (s : Store) : Option Store :=
  fetch n z (s.map.length - 1) s

/-- `append_last_chunk` (`src/simple_txt_io.cc` 237-245). -/
def appendLast (n : Nat) (t : Bytes) (s : Store) : Option Store :=
  if s.limited = none ∧ s.map ≠ [] ∧ s.valid = true ∧ s.index = s.map.length - 1 ∧
      s.chunk.length + t.length ≤ n then
    some { s with chunk := s.chunk ++ t, synced := false }
  else none

/-- `append_full_chunk` (`src/simple_txt_io.cc` 277-297); `t` is one chunk long. -/
def appendFull (z : Codec) (t : Bytes) (s : Store) : Store :=
  let pos := mark s.map s.map.length
  let b := z.crush t
  let s := s.does (.write pos b)
  let s := { s with map := s.map ++ [pos + b.length], pending := some (pos, b) }
  s.does (.push (pos + b.length))

/-- `start_new_chunk` (`src/simple_txt_io.cc` 299-325). -/
def startNew (n : Nat) (z : Codec) (t : Bytes) (s : Store) : Option Store :=
  if s.limited = none ∧ t ≠ [] ∧ t.length ≤ n then
    let pos := mark s.map s.map.length
    let b := z.crush t
    let s := { s with valid := true, index := s.map.length, chunk := t }
    let s := s.does (.write pos b)
    let s := { s with map := s.map ++ [pos + b.length], pending := some (pos, b) }
    let s := s.does (.push (pos + b.length))
    some { s with synced := true }
  else none

/-- The loop and the last chunk of `append` (`src/simple_txt_io.cc` 348-354); `fuel` bounds the
rounds, and the length of the text is enough of it. -/
def appendRest (n : Nat) (z : Codec) : Nat → Bytes → Store → Option Store
  | 0, t, s => if t = [] then some s else startNew n z t s
  | fuel + 1, t, s =>
    if t.length > n then appendRest n z fuel (t.drop n) (appendFull z (t.take n) s)
    else if t = [] then some s
    else startNew n z t s

/-- The first part of `append` (`src/simple_txt_io.cc` 332-343): fills the last chunk, or starts the
first one. Returns what is left of the text. -/
def appendFirst (n : Nat) (z : Codec) (t : Bytes) (s : Store) : Option (Store × Bytes) :=
  if s.map = [] then
    (startNew n z (t.take n) s).map (fun s => (s, t.drop n))
  else
    match fetchLast n z s with
    | none => none
    | some s =>
      let room := n - s.chunk.length
      if room = 0 then some (s, t)
      else (appendLast n (t.take room) s).map (fun s => (s, t.drop room))

/-- `size_ = chunk_size_ * (chunk_map_->size() - 1) + chunk_end_`
(`src/simple_txt_io.cc` 345, 357). -/
def setSize (n : Nat) (s : Store) : Store :=
  { s with size := n * (s.map.length - 1) + s.chunk.length }

/-- `append` (`src/simple_txt_io.cc` 327-358). -/
def append (n : Nat) (z : Codec) (t : Bytes) (s : Store) : Option Store :=
  if s.readOnly then some s
  else if t = [] then some s
  else
    match appendFirst n z t { s with flushed := false } with
    | none => none
    | some (s, t) =>
      if t = [] then some (setSize n s)
      else
        match sync z s with
        | none => none
        | some s =>
          match appendRest n z t.length t s with
          | none => none
          | some s =>
            if s.map ≠ [] ∧ s.valid = true ∧ s.index = s.map.length - 1 then some (setSize n s)
            else none

/-- `flush` (`src/simple_txt_io.h` 27-35). -/
def flush (z : Codec) (s : Store) : Option Store :=
  if s.readOnly then some s
  else if s.flushed then some s
  else
    match sync z s with
    | none => none
    | some s => some { s with flushed := true, pending := none }

/-- `memcpy` out of the chunk in memory. -/
def copy (off len : Nat) (chunk : Bytes) : Option Bytes :=
  if off + len ≤ chunk.length then some ((chunk.drop off).take len) else none

/-- The whole chunks and the last part of `read` (`src/simple_txt_io.cc` 386-408); `fuel` bounds the
rounds of the loop. -/
def readWhole (n : Nat) (z : Codec) : Nat → Nat → Nat → Store → Option (Store × Bytes)
  | 0, _, _, _ => none
  | fuel + 1, i, desired, s =>
    if desired > n then
      match readFile (mark s.map i) (mark s.map (i + 1)) s.disk.contents with
      | none => none
      | some b =>
        if (z.tang b).length = n then
          match readWhole n z fuel (i + 1) (desired - n) { s with pending := none } with
          | none => none
          | some (s, r) => some (s, z.tang b ++ r)
        else none
    else
      match fetch n z i s with
      | none => none
      | some s => (copy 0 desired s.chunk).map (fun r => (s, r))

/-- The part of `read` that copies (`src/simple_txt_io.cc` 370-408), for a range known to be inside
the text. -/
def readAt (n : Nat) (z : Codec) (start desired : Nat) (s : Store) : Option (Store × Bytes) :=
  let offset := start % n
  let index := start / n
  if offset > 0 then
    match fetch n z index s with
    | none => none
    | some s =>
      match copy offset (min desired (n - offset)) s.chunk with
      | none => none
      | some r =>
        let desired := desired - min desired (n - offset)
        if desired = 0 then some (s, r)
        else
          match readWhole n z desired (index + 1) desired s with
          | none => none
          | some (s, r') => some (s, r ++ r')
  else readWhole n z desired index desired s

/-- `read` (`src/simple_txt_io.cc` 360-408). -/
def read (n : Nat) (z : Codec) (start desired : Int) (s : Store) : Option (Store × Bytes) :=
  let start := if start < 0 then 0 else start
  match flush z s with
  | none => none
  | some s =>
    let desired := if start + desired > s.size then s.size - start else desired
    if desired ≤ 0 then some (s, []) else readAt n z start.toNat desired.toNat s

/-- `restore` (`src/simple_txt_io.cc` 44-92), as the changes it makes. With `fast` the assertions are
compiled away (`-DNDEBUG`, `Makefile` 14-21), and the calls of `truncate` inside them with them. -/
def restore (fast : Bool) (z : Codec) (d : Disk) : List Op :=
  match d.limits with
  | none => []
  | some (0, _) => if fast then [] else [.cutContents 0, .cutMap 0]
  | some (k + 1, l) =>
    let m := if fast then d.map else resize (k + 1) 0 d.map
    let w := if k = 0 then 0 else m.getD (m.length - 2) 0
    let b := z.crush l
    let c := if fast then d.contents else resize (w + b.length) 0 d.contents
    let pos := c.length - b.length
    (if fast then [] else [.cutMap (k + 1), .cutContents (w + b.length)]) ++
      [.write pos b, .last (pos + b.length)]

/-- `unlock` (`src/simple_txt_io.cc` 34-42); `.temp` is not represented. -/
def unlocking : List Op := [.unlimit, .unlock]

/-- `recover` (`src/simple_txt_io.cc` 96-103). -/
def recover (fast : Bool) (z : Codec) (commit : Bool) (d : Disk) : List Op :=
  (if commit then [] else restore fast z d) ++ unlocking

/-- Loading the last chunk and computing the size, as at the end of `make` and in `abort_`
(`src/simple_txt_io.cc` 168-174 and 492-497). -/
def settle (n : Nat) (z : Codec) (s : Store) : Option Store :=
  if s.map = [] then some { s with size := 0 }
  else (fetchLast n z s).map (setSize n)

/-- `make` (`src/simple_txt_io.cc` 105-176). -/
def make (n : Nat) (z : Codec) (d : Disk) : Option Store :=
  match d.limits with
  | none => settle n z { disk := d, map := d.map, base := d }
  | some (k, l) =>
    settle n z { disk := d, map := d.map.take k, base := d, limited := some l, readOnly := true }

/-- `clone` (`src/simple_txt_io.cc` 178-206). The chunk map in memory is shared with the original. -/
def clone (s : Store) : Option Store :=
  if s.started then none
  else some { disk := s.disk, map := s.map, base := s.disk, size := s.size, readOnly := true,
              limited := s.disk.limits.map (·.2) }

/-- The part of `transaction_` after the lock was obtained (`src/simple_txt_io.cc` 427-467). In an empty
store `chunk_end_` may not be initialised, and `junk` stands for the bytes recorded then. -/
def begin (n : Nat) (z : Codec) (junk : Bytes) (s : Store) : Option Store :=
  if s.map = [] then
    let s := s.does (.limit 0 junk)
    some { s with started := true, base := s.disk, log := [] }
  else
    match fetchLast n z s with
    | none => none
    | some s =>
      let s := s.does (.limit s.map.length s.chunk)
      some { s with started := true, base := s.disk, log := [] }

/-- `transaction_` (`src/simple_txt_io.cc` 417-468) called through `transaction`
(`src/committable.h` 20-33). -/
def transaction (n : Nat) (z : Codec) (junk : Bytes) (s : Store) : Option (Store × Bool) :=
  if s.started then some (s, false)
  else if s.readOnly || s.disk.lock then some ({ s with readied := false }, false)
  else (begin n z junk ({ s with readied := false }.does .lock)).map (fun s => (s, true))

/-- `ready_` (`src/simple_txt_io.cc` 470-473) through `ready` (`src/committable.h` 34-51). -/
def ready (z : Codec) (s : Store) : Option (Store × Bool) :=
  if !s.started then some (s, false)
  else if s.readied then some (s, true)
  else (flush z s).map (fun s => ({ s with readied := true }, true))

/-- `commit_` (`src/simple_txt_io.cc` 475) through `commit` (`src/committable.h` 52-58). -/
def commit (s : Store) : Option Store :=
  if s.started && s.readied then
    let s := s.doAll unlocking
    some { s with started := false, readied := false, base := s.disk, log := [] }
  else none

/-- The first part of `abort_` (`src/simple_txt_io.cc` 477-483): restoring the files. `late` says
that the last write to the contents was still in the stream's buffer, so that closing the stream
writes it after the files were restored. -/
def undo (fast : Bool) (z : Codec) (late : Bool) (s : Store) : Store :=
  let s := s.doAll (restore fast z s.disk)
  let s := { s with valid := false, synced := true, flushed := true }
  match late, s.pending with
  | true, some (pos, b) => { s.does (.write pos b) with pending := none }
  | _, _ => { s with pending := none }

/-- The rest of `abort_` (`src/simple_txt_io.cc` 484-499): reading the files again. -/
def reload (n : Nat) (z : Codec) (s : Store) : Option Store :=
  match settle n z { s with map := s.disk.map, limited := none } with
  | none => none
  | some s =>
    let s := s.doAll unlocking
    some { s with started := false, readied := false, base := s.disk, log := [] }

/-- `abort_` (`src/simple_txt_io.cc` 477-499) through `abort` (`src/committable.h` 59-65). -/
def abort (fast : Bool) (n : Nat) (z : Codec) (late : Bool) (s : Store) : Option Store :=
  if s.started then reload n z (undo fast z late s)
  else some { s with readied := false }

/-- Closing a store (`~SimpleTxtIO`, `src/simple_txt_io.h` 40), then recovering and opening its files. -/
def reopen (fast : Bool) (n : Nat) (z : Codec) (s : Store) : Option Store :=
  match flush z s with
  | none => none
  | some s => make n z (runAll (recover fast z false s.disk) s.disk)

/-! ## Calls -/

inductive Call where
  | append (t : Bytes)
  | read (start desired : Int)
  | size
  | flush
  | transaction (junk : Bytes)
  | ready
  | commit
  | abort (late : Bool)
  | reopen
deriving DecidableEq, Repr

inductive Answer where
  | done
  | yes (b : Bool)
  | text (b : Bytes)
  | count (n : Nat)
deriving DecidableEq, Repr

/-- One call on a store. -/
def call (fast : Bool) (n : Nat) (z : Codec) (s : Store) : Call → Option (Store × Answer)
  | .append t => (append n z t s).map (fun s => (s, .done))
  | .read a b => (read n z a b s).map (fun r => (r.1, .text r.2))
  | .size => some (s, .count s.size)
  | .flush => (flush z s).map (fun s => (s, .done))
  | .transaction j => (transaction n z j s).map (fun r => (r.1, .yes r.2))
  | .ready => (ready z s).map (fun r => (r.1, .yes r.2))
  | .commit => (commit s).map (fun s => (s, .done))
  | .abort l => (abort fast n z l s).map (fun s => (s, .done))
  | .reopen => (reopen fast n z s).map (fun s => (s, .done))

/-- Calls in order, with their answers. -/
def run (fast : Bool) (n : Nat) (z : Codec) (s : Store) : List Call → Option (Store × List Answer)
  | [] => some (s, [])
  | c :: cs =>
    match call fast n z s c with
    | none => none
    | some (s, a) =>
      match run fast n z s cs with
      | none => none
      | some (s, as) => some (s, a :: as)

end Verif.TxtIO
