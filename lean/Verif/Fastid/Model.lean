import Verif.Store.PostModel
import Verif.Store.PostProof
import Verif.Hopper.Model2
/-
  Model of `src/fastid_txt.cc`: the texts of ids in a file, and translation that looks there first.
-/
namespace Verif.Fastid
open Verif.Hopper Verif.Store

abbrev Bytes := List UInt8

/-- the text compressor, which is zlib -/
structure Codec where
  crush : Bytes → Bytes
  tang : Bytes → Nat → Option Bytes

/-- `strcpy` of a text into its place in a buffer.  (After a NUL the place is left as it was, which is unspecified; here it is
zero.) -/
def strcpy (t : Bytes) : Bytes :=
  let s := t.takeWhile (· ≠ 0)
  s ++ List.replicate (t.length - s.length) 0

/-- `src/fastid_txt.cc:22-39` `compressed_write`, with a compressor's result -/
def compressedWrite (b : Bytes) : Bytes := leBytes 8 b.length ++ b

/-- `src/fastid_txt.cc:180-185`: where each text starts -/
def offsets : Nat → List Bytes → List Int
  | _, [] => []
  | n, t :: ts => (n : Int) :: offsets (n + t.length) ts

/-- `src/fastid_txt.cc:179-236`: the file, for these ids with these texts; nothing if the compressor does not return.  (That a
write fails is not modelled, nor the parameter set at the end.) -/
def write (C : Codec) (ids : List (Ann × Bytes)) : Option Bytes := do
  let n := (ids.map (·.2.length)).sum
  let ps ← postCrush (addrsBytes (ids.map (·.1.p)))
  let qs ← postCrush (addrsBytes (ids.map (·.1.q)))
  let os ← postCrush (addrsBytes (offsets 0 (ids.map (·.2))))
  let text := (ids.map fun x => strcpy x.2).flatten
  return leBytes 8 n ++ leBytes 8 ids.length ++ compressedWrite ps ++ compressedWrite qs ++ compressedWrite os ++
    compressedWrite (C.crush text)

/-- `src/fastid_txt.cc:153-178`, `179-236` `fastid`: the ids are the solutions of a query -/
def fastid (C : Codec) (H : Obj) (translate : Int → Int → Bytes) : M H.σ Bytes := do
  let l ← tauAll H.tau loopFuel (minfinity + 1)
  match write C (l.map fun a => (a, translate a.p a.q)) with
  | none => ub
  | some b => return b

/-- `FastidTxt` (`src/fastid_txt.h:40-43`) -/
structure Fast where
  text : Bytes
  p : List Int
  q : List Int
  offset : List Int
deriving DecidableEq

/-- bytes from the buffer; none if they are not there -/
def takeN (k : Nat) (b : Bytes) : Option (Bytes × Bytes) := if b.length < k then none else some (b.take k, b.drop k)

/-- a `size_t`, and so many bytes -/
def sized (b : Bytes) : Option (Bytes × Bytes) := do
  let (k, b) ← takeN 8 b
  takeN (leNat k) b

/-- `src/fastid_txt.cc:77-130` `FastidTxt::make`, of the contents of the file -/
def make (C : Codec) (b : Bytes) : Option Fast := do
  let (n, b) ← takeN 8 b
  let (m, b) ← takeN 8 b
  let (ps, b) ← sized b
  let p ← postTang ps (leNat m * 8)
  let (qs, b) ← sized b
  let q ← postTang qs (leNat m * 8)
  let (os, b) ← sized b
  let o ← postTang os (leNat m * 8)
  let (ts, _) ← sized b
  let text ← C.tang ts (leNat n)
  return ⟨text, bytesAddrs (leNat m) p, bytesAddrs (leNat m) q, bytesAddrs (leNat m) o ++ [(leNat n : Int)]⟩

/-- an `addr` in an `int` -/
def toInt (x : Int) : Int := (x + 2147483648) % 4294967296 - 2147483648

/-- an array read; none outside -/
def at? (a : List Int) (i : Int) : Option Int := if i < 0 then none else a[i.toNat]?

/-- `src/fastid_txt.cc:55-66` `search_addr`; each round halves the range -/
def search (a : List Int) (value : Int) : Nat → Int → Int → Option Int
  | 0, _, _ => none
  | fuel + 1, l, h =>
    if h ≥ l then do
      let m := toInt (l + (h - l) / 2)
      let x ← at? a m
      if x = value then return m
      else if x > value then search a value fuel l (m - 1)
      else search a value fuel (m + 1) h
    else return -1

/-- `src/fastid_txt.cc:142-151` `translate_` -/
def Fast.translate (F : Fast) (slow : Int → Int → Bytes) (p q : Int) : Option Bytes := do
  let i ← search F.p p (F.p.length + 1) 0 (F.p.length - 1)
  if i ≠ -1 then
    let q' ← at? F.q i
    if q' = q then
      let o ← at? F.offset i
      let e ← at? F.offset (i + 1)
      return (F.text.drop o.toNat).take (e - o).toNat
    else return slow p q
  else return slow p q

end Verif.Fastid
