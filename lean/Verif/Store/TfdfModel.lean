import Verif.Store.Bytes
/-
  Model of src/bits.h and src/tfdf_compressor.cc.
-/
namespace Verif.Store

/-- `src/bits.h:9-46` `BitsIn`; `out` are the bytes already stored through `next_` -/
structure BitsIn where
  count : Nat := 0
  mask : Nat := 1
  current : Nat := 0
  out : List UInt8 := []

/-- `src/bits.h:14-24` `push` -/
def BitsIn.push (b : BitsIn) (bit : Bool) : BitsIn :=
  let current := if bit then b.current ||| b.mask else b.current
  if (b.count + 1) % 8 = 0 then
    { count := b.count + 1, mask := 1, current := 0, out := b.out ++ [UInt8.ofNat current] }
  else { b with count := b.count + 1, mask := b.mask * 2, current := current }

/-- `src/bits.h:48-78` `BitsOut`; `next` are the bytes from `next_` on -/
structure BitsOut where
  count : Nat
  front : Nat
  current : Nat
  next : List UInt8

/-- `src/bits.h:50-56`; `none` reads past the buffer -/
def BitsOut.make (bytes : List UInt8) (count : Nat) : Option BitsOut :=
  if count > 0 then
    match bytes with
    | [] => none
    | b :: bs => some ⟨count, 0, b.toNat, bs⟩
  else some ⟨0, 0, 0, bytes⟩

/-- `src/bits.h:58` -/
def BitsOut.bit (o : BitsOut) : Bool := o.current % 2 = 1
/-- `src/bits.h:60` -/
def BitsOut.empty (o : BitsOut) : Bool := o.front ≥ o.count

/-- `src/bits.h:62-72`; `none` reads past the buffer -/
def BitsOut.pop (o : BitsOut) : Option BitsOut :=
  let front := o.front + 1
  if front ≥ o.count then some { o with front := front, current := 0 }
  else if front % 8 = 0 then
    match o.next with
    | [] => none
    | b :: bs => some { o with front := front, current := b.toNat, next := bs }
  else some { o with front := front, current := o.current / 2 }

/-- `src/tfdf_compressor.cc:18-23`: index of the highest of the low 31 bits that is set -/
def topBit (a : Nat) : Nat := (List.range 31).foldl (fun j i => if a.testBit i then i else j) 0

/-- `src/tfdf_compressor.cc:24-29`: the bits pushed -/
def gammaBits : Nat → Nat → List Bool
  | 0, _ => [true]
  | j + 1, a => false :: (a % 2 == 1) :: gammaBits j (a / 2)

/-- `src/tfdf_compressor.cc:15-31` `crush_addr` (`none` = returned false) -/
def crushAddr (a : Int) : Option (List Bool) :=
  if a ≤ 0 ∨ a > 1073741824 then none else some (gammaBits (topBit a.toNat) a.toNat)

/-- `src/tfdf_compressor.cc:33-46` `tang_addr`.  `a |= mask` adds a bit not yet set.  The
first argument bounds the loop: if the bits run out `front()` is 0 for ever. -/
def tangAddr : Nat → Nat → Nat → BitsOut → Option (Nat × BitsOut)
  | 0, _, _, _ => none
  | n + 1, a, mask, o =>
    if o.bit = false then do
      let o ← o.pop
      let a := if o.bit then a + mask else a
      let o ← o.pop
      tangAddr n a (mask * 2) o
    else do
      let o ← o.pop
      return (a + mask, o)

/-- `src/tfdf_compressor.cc:54-62`, the loop over the values -/
def crushVals : BitsIn → List Int → Option BitsIn
  | b, [] => some b
  | b, a :: l => match crushAddr a with
    | none => none
    | some bits => crushVals (bits.foldl BitsIn.push b) l

/-- `src/tfdf_compressor.cc:63-64`; at most seven zero bits are needed -/
def padBits : Nat → BitsIn → BitsIn
  | 0, b => b
  | n + 1, b => if b.count % 8 ≠ 0 then padBits n (b.push false) else b

/-- `src/tfdf_compressor.cc:49-70` `crush_` under `src/compressor.h:28-35` (`none` = the
assertion on the length) -/
def tfdfCrush (component : Bool) (input : List UInt8) : Option (List UInt8) :=
  if input.length = 0 then some []
  else if input.length % 8 ≠ 0 then none
  else match crushVals {} (bytesAddrs (input.length / 8) input) with
    | none => if component then some [] else some input
    | some b =>
      let out := (padBits 7 b).out
      if !component ∧ out.length % 8 = 0 then some (out ++ [0]) else some out

/-- `src/tfdf_compressor.cc:84-88`: `count` minus the zero bits at the top of the last
byte, where `mask = 2^i` -/
def dropTop (last : Nat) : Nat → Nat → Nat
  | 0, count => if last.testBit 0 then count else count - 1
  | i + 1, count => if last.testBit (i + 1) then count else dropTop last i (count - 1)

/-- `src/tfdf_compressor.cc:90-92`; the bound is the number of bits -/
def tangVals : Nat → BitsOut → Option (List Int)
  | 0, o => if o.empty then some [] else none
  | n + 1, o =>
    if o.empty then some []
    else do
      let (a, o) ← tangAddr (o.count + 1) 0 1 o
      let l ← tangVals n o
      return (a : Int) :: l

/-- `src/tfdf_compressor.cc:81-93`: decoding the bit string -/
def tfdfDecode (input : List UInt8) : Option (List UInt8) :=
  match input.getLast? with
  | none => none
  | some last =>
    if last = 0 then none
    else
      match BitsOut.make input (dropTop last.toNat 7 (8 * input.length)) with
      | none => none
      | some o => (tangVals (dropTop last.toNat 7 (8 * input.length)) o).map addrsBytes

/-- `src/tfdf_compressor.cc:72-94` `tang_` under `src/compressor.h:36-41`, with room for
the output -/
def tfdfTang (component : Bool) (input : List UInt8) : Option (List UInt8) :=
  if input.length = 0 then some []
  else if !component ∧ input.length % 8 = 0 then some input
  else tfdfDecode (if !component ∧ input.getLast? = some 0 then input.dropLast else input)

/-- `src/tfdf_compressor.h:49` -/
def tfdfExtra (n : Nat) : Nat := n + 1

end Verif.Store
