/-!
# What is said of featurizers
-/

namespace Verif.Feature

/-- The number written by decimal digits. -/
def valueOf (ds : List UInt8) : Nat := ds.foldl (fun v c => 10 * v + (c.toNat - 0x30)) 0

/-- The key is a number sign and the decimal digits of the number `n`, a signed 64-bit number. -/
def Denotes (key : List UInt8) (n : Nat) : Prop :=
  ∃ ds, key = 0x23 :: ds ∧ ds ≠ [] ∧ (∀ c ∈ ds, 0x30 ≤ c.toNat ∧ c.toNat ≤ 0x39) ∧
    valueOf ds = n ∧ n ≤ 9223372036854775807

/-- A key that denotes no number, is not empty and holds no NUL. -/
structure Word (key : List UInt8) : Prop where
  nonempty : key ≠ []
  clean : ∀ c ∈ key, c ≠ 0
  plain : ∀ n, ¬ Denotes key n

/-- How often a key is among the keys. -/
def occurrences (keys : List (List UInt8)) (key : List UInt8) : Nat :=
  (keys.filter (fun k => decide (k = key))).length

/-! MurmurHash64A, in numbers: the published function, by which indexes written by one program are read by
another. -/

/-- The number written by bytes, the lowest first. -/
def byteValue (bs : List UInt8) : Nat := bs.foldr (fun b v => b.toNat + 256 * v) 0

/-- The product of two 64-bit numbers. -/
def times (a b : Nat) : Nat := a * b % 2 ^ 64

/-- The multiplier. -/
def murmurM : Nat := 14313749767032793493

/-- The high bits of a number laid over its low ones. -/
def fold47 (k : Nat) : Nat := k ^^^ (k / 2 ^ 47)

/-- A word joins the hash. -/
def join (h w : Nat) : Nat := times (h ^^^ times (fold47 (times w murmurM)) murmurM) murmurM

/-- The `i`-th word of eight bytes. -/
def wordOf (key : List UInt8) (i : Nat) : Nat := byteValue ((key.drop (8 * i)).take 8)

/-- The hash: length, whole words in their order, what is left as one word, and the final mixing. -/
def murmur (key : List UInt8) (seed : Nat) : Nat :=
  let n := key.length / 8
  let left := key.drop (8 * n)
  let h := ((List.range n).map (wordOf key)).foldl join (seed ^^^ times key.length murmurM)
  let h := if left = [] then h else times (h ^^^ byteValue left) murmurM
  fold47 (times (fold47 h) murmurM)

/-- A 64-bit number as a signed one without its sign. -/
def magnitude (h : Nat) : Nat := if h < 2 ^ 63 then h else 2 ^ 64 - h

/-- A number whose bit 56 is set: bytes of a short key never have it. -/
def marked (a : Nat) : Nat := if a / 2 ^ 56 % 2 = 1 then a else a + 2 ^ 56

end Verif.Feature
