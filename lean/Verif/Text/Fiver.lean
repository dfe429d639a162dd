import Verif.Text.Spec
import Verif.Hopper.Model
/-
  Model of the text of a shard: `FiverAppender` and `FiverTxt` of `src/fiver.cc`, the text
  part of `Fiver::merge`, and `BigwigTxt` of `src/bigwig.cc`.

  During a transaction the code counts addresses from `staging` (src/fiver.cc 35, 100);
  here they are counted from 0, and `placed` is the relocation to the final address
  (src/fiver.cc 678-682, modelled in full as `Verif.Store.relocate`).
-/
namespace Verif.Text
open Verif.Hopper

/-- src/core.h 109 -/
def separator (c : UInt8) : Bool := c == 0x20 || c == 0x09 || c == 0x0A

/-- src/fiver.cc 127-128: what is added to a text that does not end in a separator -/
def ending (s : Text) : Text :=
  match s.getLast? with
  | none => []
  | some c => if separator c then [] else [0x0A]

/-- src/fiver.cc 126-128: what `append` stores for a text -/
def stored (s : Text) : Text := s ++ ending s

/-- The fields of `FiverAppender` (src/fiver.cc 185-193) and the annotations it makes:
`notes` those of tokens (138-140), `chunks` those of the text chunk tag, whose value is the
offset of the chunk in the text. -/
structure App where
  text : Text := []
  address : Nat := 0
  chunkAddress : Nat := 0
  chunkOffset : Nat := 0
  notes : List (Text × Nat) := []
  chunks : List Ann := []

/-- src/fiver.cc 136-149: the body of the loop over the tokens of one text -/
def App.token (offset base : Nat) (st : App) (t : Tok) : App :=
  let a := t.address + base
  let st := { st with notes := st.notes ++ [(t.str, a)] }
  if a - st.chunkAddress > 512 then
    { st with
      chunks := st.chunks ++ [⟨st.chunkAddress, (a : Int) - 1, st.chunkOffset⟩]
      chunkAddress := a
      chunkOffset := offset + t.offset }
  else st

/-- src/fiver.cc 119-154; the range of addresses is returned as `(p, q)` -/
def App.append (T : Tokenizer) (st : App) (s : Text) : App × Int × Int :=
  if s = [] then (st, st.address + 1, st.address)
  else
    let offset := st.text.length
    let st1 := { st with text := st.text ++ stored s }
    match (T.tokenize s).getLast? with
    | none => (st1, st.address + 1, st.address)
    | some l =>
      let last := st.address + l.address
      let st2 := (T.tokenize s).foldl (App.token offset st.address) st1
      ({ st2 with address := last + 1 }, st.address, last)

/-- src/fiver.cc 163-176; the annotation of the transaction tag is left out -/
def App.ready (st : App) : App :=
  { st with
    text := match st.text.getLast? with
      | none => st.text
      | some c => if c ≠ 0x0A then st.text ++ [0x0A] else st.text
    chunks := if st.address > st.chunkAddress then
        st.chunks ++ [⟨st.chunkAddress, (st.address : Int) - 1, st.chunkOffset⟩]
      else st.chunks }

/-- the texts of a transaction appended one after the other -/
def App.all (T : Tokenizer) : App → List Text → App
  | st, [] => st
  | st, s :: l => App.all T (st.append T s).1 l

/-- a chunk moved by an address and an offset -/
def moveChunk (base : Int) (offset : Nat) (c : Ann) : Ann := ⟨c.p + base, c.q + base, c.v + offset⟩

/-- the text of a shard and the annotations of its text chunk tag -/
structure Shard where
  text : Text
  chunks : List Ann
deriving DecidableEq

/-- A committed transaction: its texts, appended, relocated to the address `base`. -/
def single (T : Tokenizer) (base : Nat) (texts : List Text) : Shard :=
  let st := (App.all T {} texts).ready
  ⟨st.text, st.chunks.map (moveChunk base 0)⟩

/-- src/fiver.cc 523-537: one turn of the loop of `Fiver::merge` over the shards.  (The
annotations collected are then sorted by address, 538-543; they are sorted already when the
shards are in the order of their addresses.) -/
def addShard (acc x : Shard) : Shard :=
  if x.text.length > 0 then
    if x.chunks ≠ [] then
      let text := match acc.text.getLast? with
        | none => acc.text
        | some c => if c ≠ 0x0A then acc.text ++ [0x0A] else acc.text
      ⟨text ++ x.text, acc.chunks ++ x.chunks.map (moveChunk 0 text.length)⟩
    else ⟨acc.text ++ x.text, acc.chunks⟩
  else acc

/-- src/fiver.cc 509-543: text and chunks of the merge of shards -/
def mergeShards (xs : List Shard) : Shard :=
  match xs with
  | [x] => x
  | _ => xs.foldl addShard ⟨[], []⟩

/-- src/fiver.cc 293-307: the part of `translate_` after the two lookups, for the chunks
`c0` and `c1` found.  `substr` with a negative length goes to the end of the text; an offset
outside of the text is undefined behaviour. -/
def cutText (T : Tokenizer) (text : Text) (p q : Int) (c0 c1 : Ann) : Option Text :=
  if c0.v < 0 ∨ c0.v > text.length then none
  else
    let i := c0.v.toNat
    let s := if c0.p < p then i + T.skip (text.drop i) (p - c0.p) else i
    let p := if c0.p < p then p else c0.p
    if q > c1.q then some (text.drop s)
    else if c0.q = c1.q then some ((text.drop s).take (T.skip (text.drop s) (q - p + 1)))
    else if c1.v < 0 ∨ c1.v > text.length then none
    else
      let j := c1.v.toNat
      let e := j + T.skip (text.drop j) (q - c1.p + 1)
      some (if e < s then text.drop s else (text.drop s).take (e - s))

/-- src/fiver.cc 279-308 `FiverTxt::translate_`; `H` is the cursor on the chunks -/
def translate (T : Tokenizer) (H : Obj) (text : Text) (p q : Int) : M H.σ Text :=
  let p := if p < 0 then 0 else p
  if p = maxfinity ∨ q < p then pure []
  else do
    let c0 ← H.rho p
    if c0.p = maxfinity ∨ c0.p > q then pure []
    else do
      let c1 ← H.ohr q
      match cutText T text p q c0 c1 with
      | some r => pure r
      | none => ub

/-- the text object of one shard: its cursor, with its state, and its text
(src/fiver.cc 262-266) -/
structure TextReader where
  H : Obj
  state : H.σ
  text : Text

/-- src/bigwig.cc 240-245 `BigwigTxt::translate_`: the answers of all shards one after the
other -/
def readAll (T : Tokenizer) (p q : Int) : List TextReader → Option (Text × List TextReader)
  | [] => some ([], [])
  | r :: rs =>
    match translate T r.H r.text p q r.state with
    | none => none
    | some (a, s) => match readAll T p q rs with
      | none => none
      | some (b, rs) => some (a ++ b, { r with state := s } :: rs)

end Verif.Text
