import Verif.Store.Bytes
/-
  Model of src/post_compressor.cc (variable-byte coding of gaps).
-/
namespace Verif.Store

/-- `src/post_compressor.cc:11-20` `encode_1` for a non-negative gap -/
def encode1 (delta : Nat) : List UInt8 :=
  if delta / 128 = 0 then [UInt8.ofNat (delta % 128)]
  else UInt8.ofNat (delta % 128 + 128) :: encode1 (delta / 128)
termination_by delta
decreasing_by omega

/-- `src/post_compressor.cc:22-33` `encode_all`.  On a negative gap the shift never
reaches 0 and `encode_1` writes for ever; that is `none`. -/
def encodeAll : Int → List Int → Option (List UInt8)
  | _, [] => some []
  | prev, a :: l =>
    if a - prev < 0 then none
    else (encodeAll a l).map (encode1 (a - prev).toNat ++ ·)

/-- `src/post_compressor.cc:35-47` `decode_1`.  The bits or-ed in at each step are
disjoint, so `|=` is addition.  Running off the buffer, or past 63 bits, is `none`. -/
def decode1 (shift working : Nat) : List UInt8 → Option (Nat × List UInt8)
  | [] => none
  | b :: rest =>
    if shift > 56 then none
    else if b.toNat / 128 % 2 = 0 then some (working + b.toNat % 128 * 2 ^ shift, rest)
    else decode1 (shift + 7) (working + b.toNat % 128 * 2 ^ shift) rest

/-- `src/post_compressor.cc:49-63` `decode_all`: at most `n` values; the assertion that
all input was used is a `none` when it fails. -/
def decodeAll : Nat → Int → List UInt8 → Option (List Int)
  | _, _, [] => some []
  | 0, _, _ :: _ => none
  | n + 1, value, b :: bs =>
    match decode1 0 0 (b :: bs) with
    | none => none
    | some (d, rest) => (decodeAll n (value + d) rest).map ((value + d) :: ·)

/-- `src/post_compressor.cc:67-72` under `src/compressor.h:28-35` -/
def postCrush (input : List UInt8) : Option (List UInt8) :=
  encodeAll 0 (bytesAddrs (input.length / 8) input)

/-- `src/post_compressor.cc:74-79` under `src/compressor.h:36-41` -/
def postTang (input : List UInt8) (available : Nat) : Option (List UInt8) :=
  (decodeAll (available / 8) 0 input).map addrsBytes

/-- `src/post_compressor.h:48` -/
def postExtra (n : Nat) : Nat := n / 8 + 2

end Verif.Store
