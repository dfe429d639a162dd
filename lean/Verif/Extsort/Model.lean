/-
Model of sorting files of annotations that do not fit into memory, and of checking them: `merge_records`, `sort_records`,
`check_annotations` and `sort_annotations` (src/simple_builder.cc 44-213).

Files are strings of bytes under names.  Whether writing a new file succeeds is a parameter (`Out`): streams keep what is written in a
buffer, so a disk that fills up is noticed by the test of `fail()` only if the buffer was written out before; what is written out when the
stream is closed, or destroyed, is not tested.  What `std::sort` does is a parameter.
-/
import Verif.Store.Bytes
namespace Verif.Extsort
open Verif.Store

abbrev Bytes := List UInt8

/-- `Annotation` src/core.h 99-105; the value as its 64 bits -/
structure Ann where
  feature : Int
  p : Int
  q : Int
  v : Int
  deriving DecidableEq, Repr

/-- `out.write(reinterpret_cast<char *>(&t), sizeof(t))` -/
def encode (a : Ann) : Bytes := addrBytes a.feature ++ addrBytes a.p ++ addrBytes a.q ++ addrBytes a.v

/-- what `in.read(reinterpret_cast<char *>(&t), sizeof(t))` puts into `t` -/
def decode (bs : Bytes) : Ann :=
  ⟨bytesAddr (bs.take 8), bytesAddr ((bs.drop 8).take 8), bytesAddr ((bs.drop 16).take 8), bytesAddr ((bs.drop 24).take 8)⟩

/-- The annotations read until `in.fail()`: a last one that is not complete is left. -/
def records (bs : Bytes) : List Ann :=
  if _h : bs.length < 32 then [] else decode (bs.take 32) :: records (bs.drop 32)
termination_by bs.length
decreasing_by simp only [List.length_drop]; omega

/-- All of a list written one by one. -/
def write (l : List Ann) : Bytes := l.flatMap encode

/-- `annotation_cmp` src/simple_builder.cc 44-46 -/
def cmp (a b : Ann) : Bool := decide (a.feature < b.feature) || (decide (a.feature = b.feature) && decide (a.p < b.p))

/-- The names of files: those a user gives, and `Working::make_temp` src/working.h 109-123, which counts. -/
inductive Name where
  | path (s : List UInt8)
  | temp (n : Nat)
  deriving DecidableEq, Repr

structure World where
  files : Name → Option Bytes
  next : Nat

/-- What becomes of a file that is written: all is well, or only some bytes get to the disk, and this is noticed or not. -/
inductive Out where
  | good
  | noticed (n : Nat)
  | unnoticed (n : Nat)

/-- What sorting depends on: how many annotations fit into memory (`LOTS`), what `std::sort` does, and the disk. -/
structure Env where
  lots : Nat
  sort : List Ann → List Ann
  disk : Nat → Out

/-- a file gets new contents -/
def World.set (w : World) (n : Name) (c : Option Bytes) : World := { w with files := fun m => if m = n then c else w.files m }

/-- Writing the temporary file number `k`; `false` if failure was noticed. -/
def put (E : Env) (w : World) (k : Nat) (bs : Bytes) : World × Bool :=
  match E.disk k with
  | .good => (w.set (.temp k) (some bs), true)
  | .noticed n => (w.set (.temp k) (some (bs.take n)), false)
  | .unnoticed n => (w.set (.temp k) (some (bs.take n)), true)

/-- The three loops of `merge_records` src/simple_builder.cc 67-86. -/
def merge : List Ann → List Ann → List Ann
  | [], l => l
  | l, [] => l
  | a :: l, b :: m => if cmp a b then a :: merge l (b :: m) else b :: merge (a :: l) m
termination_by l m => l.length + m.length

/-- `merge_records` src/simple_builder.cc 48-92, into the temporary file number `k` -/
def mergeFiles (E : Env) (w : World) (n0 n1 : Name) (k : Nat) : World × Bool :=
  match w.files n0, w.files n1 with
  | some b0, some b1 => put E w k (write (merge (records b0) (records b1)))
  | _, _ => (w, false)

/-- A full buffer is sorted and written, src/simple_builder.cc 110-129 and 133-151. -/
def flush (E : Env) (w : World) (ts : List Ann) (q : List Name) : World × Option (List Name) :=
  let r := put E { w with next := w.next + 1 } w.next (write (E.sort ts))
  (r.1, if r.2 then some (q ++ [.temp w.next]) else none)

/-- The loop that makes sorted files, src/simple_builder.cc 104-151: what is still to be read, the buffer and the queue of files. -/
def runs (E : Env) : List Ann → List Ann → List Name → World → World × Option (List Name)
  | [], ts, q, w => if ts.length > 0 then flush E w ts q else (w, some q)
  | a :: l, ts, q, w =>
    if (ts ++ [a]).length ≥ E.lots then
      match flush E w (ts ++ [a]) q with
      | (w', none) => (w', none)
      | (w', some q') => runs E l [] q' w'
    else runs E l (ts ++ [a]) q w

/-- The loop that merges two files into one, src/simple_builder.cc 152-168; the name of the last file, or an empty name. -/
def drain (E : Env) : List Name → World → World × Option Name
  | [], w => (w, some (.path []))
  | [n], w => (w, some n)
  | n0 :: n1 :: q, w =>
    match mergeFiles E { w with next := w.next + 1 } n0 n1 w.next with
    | (w', true) => drain E (q ++ [.temp w.next]) ((w'.set n0 none).set n1 none)
    | (w', false) => (w', none)
termination_by q => q.length
decreasing_by simp only [List.length_append, List.length_cons, List.length_nil]; omega

/-- `sort_annotations` src/simple_builder.cc 94-172, 208-213; the name of the sorted file, if it returns true -/
def sortAnnotations (E : Env) (w : World) (input : Name) : World × Option Name :=
  match w.files input with
  | none => (w, none)
  | some bs =>
    match runs E (records bs) [] [] w with
    | (w', none) => (w', none)
    | (w', some q) =>
      match drain E q w' with
      | (w'', none) => (w'', none)
      | (w'', some out) => (w''.set input none, some out)

/-- The loop of `check_annotations` src/simple_builder.cc 191-203. -/
def checkFrom : Ann → List Ann → Bool
  | _, [] => true
  | a, b :: l =>
    if b.p ≤ b.q ∧ (a.feature < b.feature ∨ (a.feature = b.feature ∧ a.p < b.p ∧ a.q < b.q)) then checkFrom b l else false

/-- `check_annotations` src/simple_builder.cc 176-206 -/
def checkAnnotations (w : World) (name : Name) : Bool :=
  match w.files name with
  | none => false
  | some bs =>
    match records bs with
    | [] => true
    | a :: l => if a.p ≤ a.q then checkFrom a l else false

end Verif.Extsort
