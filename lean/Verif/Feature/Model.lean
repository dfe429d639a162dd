import Verif.Store.Bytes

/-!
# Featurizers

Model of `HashingFeaturizer` (`src/hashing_featurizer.cc`), which turns a key, a byte string, into a
feature, a signed 64-bit number, and of the featurizers wrapped around it
(`src/tagging_featurizer.h`, `src/vocab_featurizer.cc`). Machines are little-endian, as everywhere in
the model.
-/

namespace Verif.Feature
open Verif.Store

abbrev Key := List UInt8

/-- One round of the loop of `MurmurHash64A` (`src/hashing_featurizer.cc` 22-31). -/
def round (h k : UInt64) : UInt64 :=
  let m : UInt64 := 0xc6a4a7935bd1e995
  let k := k * m
  let k := k ^^^ (k >>> 47)
  let k := k * m
  (h ^^^ k) * m

/-- The rounds over whole words (`src/hashing_featurizer.cc` 19-31). -/
def rounds : Nat → UInt64 → Key → UInt64
  | 0, h, _ => h
  | n + 1, h, bs => rounds n (round h (UInt64.ofNat (leNat (bs.take 8)))) (bs.drop 8)

/-- The switch of `MurmurHash64A`, whose cases fall through (`src/hashing_featurizer.cc` 33-51): `d` is
what is left of the key, at most seven bytes. -/
def tail (h : UInt64) (d : Key) : UInt64 :=
  let m : UInt64 := 0xc6a4a7935bd1e995
  let byte (i : Nat) : UInt64 := UInt64.ofNat (d.getD i 0).toNat
  let h := if d.length ≥ 7 then h ^^^ (byte 6 <<< 48) else h
  let h := if d.length ≥ 6 then h ^^^ (byte 5 <<< 40) else h
  let h := if d.length ≥ 5 then h ^^^ (byte 4 <<< 32) else h
  let h := if d.length ≥ 4 then h ^^^ (byte 3 <<< 24) else h
  let h := if d.length ≥ 3 then h ^^^ (byte 2 <<< 16) else h
  let h := if d.length ≥ 2 then h ^^^ (byte 1 <<< 8) else h
  if d.length ≥ 1 then (h ^^^ byte 0) * m else h

/-- `MurmurHash64A` (`src/hashing_featurizer.cc` 12-58). The code takes the length as an `int`: keys are
assumed shorter than two gigabytes. -/
def hash (key : Key) (seed : UInt64) : UInt64 :=
  let m : UInt64 := 0xc6a4a7935bd1e995
  let h := seed ^^^ (UInt64.ofNat key.length * m)
  let h := rounds (key.length / 8) h key
  let h := tail h (key.drop (key.length / 8 * 8))
  let h := h ^^^ (h >>> 47)
  let h := h * m
  h ^^^ (h >>> 47)

/-- `try_digit` (`src/hashing_featurizer.cc` 64-89). -/
def digit (c : UInt8) : Option Nat :=
  if 0x30 ≤ c ∧ c ≤ 0x39 then some (c.toNat - 0x30) else none

/-- The loop of `try_literal` (`src/hashing_featurizer.cc` 99-109). -/
def literalFrom : Nat → Key → Option Nat
  | v, [] => some v
  | v, c :: cs =>
    match digit c with
    | none => none
    | some d =>
      if v < 922337203685477580 ∨ (v = 922337203685477580 ∧ d ≤ 7) then literalFrom (10 * v + d) cs
      else none

/-- A key that denotes a number: `try_literal` (`src/hashing_featurizer.cc` 91-110) as used in
`featurize_` (118-122). -/
def literal : Key → Option Nat
  | 0x23 :: c :: cs => literalFrom 0 (c :: cs)
  | _ => none

/-- `u.a > 0 ? u.a : -u.a` (`src/hashing_featurizer.cc` 136); for the least number, where the code
has signed overflow, the result is taken to wrap around. -/
def positive (a : Int) : Int := if a > 0 then a else signed64 (unsigned64 (-a))

/-- `u.s[sizeof(addr) - 1] |= 0x1` (`src/hashing_featurizer.cc` 137). -/
def mark (bs : List UInt8) : List UInt8 := bs.take 7 ++ (bs.drop 7).map (· ||| 1)

/-- `featurize_` (`src/hashing_featurizer.cc` 115-140). -/
def featurize (key : Key) : Int :=
  if key = [] then 0
  else
    match literal key with
    | some n => n
    | none =>
      if key.length < 8 then bytesAddr (key ++ List.replicate (8 - key.length) 0)
      else bytesAddr (mark (addrBytes (positive (signed64 (hash key 588503011).toNat))))

/-- `std::to_string` of a number that is not negative. -/
def digits (n : Nat) : Key :=
  if n < 10 then [UInt8.ofNat (0x30 + n)] else digits (n / 10) ++ [UInt8.ofNat (0x30 + n % 10)]

/-- `translate_` (`src/hashing_featurizer.cc` 142-154). -/
def translate (f : Int) : Key :=
  if f = 0 then [0x23, 0x30]
  else
    let s := addrBytes f
    if s.drop 7 ≠ [0] then 0x23 :: ((if f < 0 then [0x2D] else []) ++ digits f.natAbs)
    else s.takeWhile (· ≠ 0)

/-- `TaggingFeaturizer::featurize_` (`src/tagging_featurizer.h` 21-22, 33-36). -/
def tagged (tag key : Key) : Int := featurize (tag ++ [0x3A] ++ key)

/-- A byte as a signed number. -/
def signed8 (b : UInt8) : Int := if b.toNat < 128 then b.toNat else b.toNat - 256

/-- `a >= b` on the type `char`, which is signed. -/
def charGe (a b : UInt8) : Bool := decide (signed8 a ≥ signed8 b)

/-- `json_internal_token` (`src/json.h` 22-25). -/
def jsonInternal : Key → Bool
  | [a, b, c] => a == 0xEF && b == 0xB7 && (charGe c 0x90 || charGe c 0x99)
  | _ => false

/-- `JsonFeaturizer::featurize_` (`src/json_featurizer.cc` 17-22) over a hashing featurizer. -/
def jsonFeaturize (key : Key) : Int := if jsonInternal key then 0 else featurize key

/-- A `VocabFeaturizer` over a hashing featurizer: how often each key was asked for
(`src/vocab_featurizer.h`). -/
abbrev Vocab := List (Key × Nat)

/-- `vocab_[term]++` or `vocab_[term] = 1` (`src/vocab_featurizer.cc` 101-104). -/
def Vocab.add : Vocab → Key → Vocab
  | [], k => [(k, 1)]
  | (k', n) :: v, k => if k' = k then (k', n + 1) :: v else (k', n) :: Vocab.add v k

/-- `VocabFeaturizer::featurize_` (`src/vocab_featurizer.cc` 99-106). -/
def Vocab.featurize (v : Vocab) (key : Key) : Vocab × Int := (v.add key, Feature.featurize key)

end Verif.Feature
