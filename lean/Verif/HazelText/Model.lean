import Verif.Text.Across
import Verif.Store.Bytes
import Verif.TxtIO.Model
/-
  Model of the text of a static shard: `hazel_write_txt_blob` of `src/fiver.cc`, and
  `HazelTxt` of `src/hazel.cc` with its `merge`.

  A compressor is a pair of functions on byte strings, as in `Verif.TxtIO`; an overflow of the
  space it is given (src/fiver.cc 1052-1055) is left out.  Numbers are mathematical integers.
-/
namespace Verif.HazelText
open Verif.Hopper Verif.Text Verif.Store

/-- src/owsla.cc 14 `hazel_txt_magic`: "COTTONTAIL_HAZEL_TXT\n" -/
def txtMagic : List UInt8 := [67, 79, 84, 84, 79, 78, 84, 65, 73, 76, 95, 72, 65, 90, 69, 76, 95, 84, 88, 84, 10]

/-- src/hazel.cc 1070: magic and five numbers -/
notation "txtHeader" => (61 : Int)

/-- src/owsla.h `HazelTextEntry`: where a piece of the text ends, and where its compressed
bytes end -/
structure Entry where
  raw : Int
  comp : Int
deriving DecidableEq, Repr

def entryBytes (e : Entry) : List UInt8 := addrsBytes [e.raw, e.comp]

def dirBytes (d : List Entry) : List UInt8 := d.flatMap entryBytes

/-- `length` bytes from `start` on -/
def slice (s : Text) (start length : Int) : Text := (s.drop start.toNat).take length.toNat

/-- what has been written: compressed pieces and directory -/
structure Out where
  space : List UInt8 := []
  dir : List Entry := []

/-- src/fiver.cc 1060-1082 `hazel_write_text_chunk` -/
def writePiece (z : TxtIO.Codec) (text : Text) (start length : Int) (o : Out) : Out :=
  if length ≤ 0 then o
  else
    let space := o.space ++ z.crush (slice text start length)
    ⟨space, o.dir ++ [⟨start + length, space.length⟩]⟩

/-- the variables of the loop of `hazel_write_txt_blob` (src/fiver.cc 1105-1111); `start` is
`group_start`, if `have_chunk` -/
structure Loop where
  start : Option Int := none
  out : Out := {}

/-- src/fiver.cc 1114-1131: one turn of the loop -/
def turn (z : TxtIO.Codec) (target : Int) (text : Text) (st : Loop) (c : Ann) : Option Loop :=
  if c.v < 0 ∨ c.v > text.length then none
  else match st.start with
    | none => some { st with start := some c.v }
    | some a =>
      if c.v - a ≥ target then some ⟨some c.v, writePiece z text a (c.v - a) st.out⟩
      else some st

/-- the loop, over the annotations of the text chunk tag in their order -/
def turns (z : TxtIO.Codec) (target : Int) (text : Text) : Loop → List Ann → Option Loop
  | st, [] => some st
  | st, c :: cs => match turn z target text st c with
    | none => none
    | some st => turns z target text st cs

/-- the blob: magic, numbers, pieces, directory.  (src/fiver.cc 1094-1103 and 1143-1157 write
zeros for the numbers first and overwrite them at the end, and so does src/hazel.cc.) -/
def blobOf (o : Out) (raw target : Int) : List UInt8 :=
  txtMagic ++ addrsBytes [o.space.length, (dirBytes o.dir).length, o.dir.length, raw, target] ++
    o.space ++ dirBytes o.dir

/-- src/fiver.cc 1218-1219: a separator is added to a text that does not end in one -/
def sealText (text : Text) : Text :=
  match text.getLast? with
  | none => text
  | some c => if separator c then text else text ++ [0x0A]

/-- src/fiver.cc 1084-1163 `hazel_write_txt_blob`, for the shard `x` -/
def writeTxt (z : TxtIO.Codec) (target : Int) (x : Shard) : Option (List UInt8) :=
  let text := sealText x.text
  match turns z target text {} x.chunks with
  | none => none
  | some st =>
    let out := match st.start with
      | some a => writePiece z text a (text.length - a) st.out
      | none => if text.length > 0 then writePiece z text 0 text.length st.out else st.out
    some (blobOf out text.length target)

/-- an open text: `HazelTxt` (src/hazel.cc 1237-1250); `space` is the blob from its pieces on -/
structure Txt where
  space : List UInt8 := []
  raw : Int := 0
  target : Int := 1
  map : List Entry := []
deriving DecidableEq

/-- src/hazel.cc 1118-1134: reading the directory, with its checks -/
def loadDir (offset : Int) : Option Entry → Nat → List UInt8 → Option (List Entry)
  | _, 0, _ => some []
  | last, n + 1, b =>
    let e : Entry := ⟨bytesAddr (b.take 8), bytesAddr ((b.drop 8).take 8)⟩
    if e.raw < 0 ∨ e.comp < 0 ∨ e.comp > offset ∨
        last.any (fun l => decide (e.raw < l.raw) || decide (e.comp < l.comp)) then none
    else match loadDir offset (some e) n (b.drop 16) with
      | none => none
      | some es => some (e :: es)

/-- src/hazel.cc 1068-1145 `HazelTxt::load`.  (A read past the end of the file fails; the
directory is checked to lie within the blob.) -/
def load (blob : List UInt8) : Option Txt :=
  if (blob.length : Int) < txtHeader then none
  else if blob.take 21 ≠ txtMagic then none
  else match bytesAddrs 5 (blob.drop 21) with
    | [off, len, n, raw, target] =>
      let space := blob.drop 61
      if off < 0 ∨ len < 0 ∨ n < 0 ∨ raw < 0 ∨ target ≤ 0 ∨ len ≠ n * 16 ∨ off > space.length ∨
          len > space.length - off then none
      else if n = 0 then
        if raw ≠ 0 ∨ len ≠ 0 ∨ off ≠ 0 then none else some ⟨space, raw, target, []⟩
      else match loadDir off none n.toNat (space.drop off.toNat) with
        | none => none
        | some map => match map.getLast? with
          | none => none
          | some l => if l.raw ≠ raw ∨ l.comp ≠ off then none else some ⟨space, raw, target, map⟩
    | _ => none

/-- `std::upper_bound` (the loop of libstdc++, by halving) with the comparison of src/hazel.cc
1169-1173, on `len` entries from `first` on -/
def upperBound (m : List Entry) (b : Int) (first len : Nat) : Nat :=
  if len = 0 then first
  else
    let half := len / 2
    match m[first + half]? with
    | some e => if b < e.raw then upperBound m b first half
      else upperBound m b (first + half + 1) (len - half - 1)
    | none => first
termination_by len
decreasing_by all_goals omega

/-- src/hazel.cc 1166-1175 `chunk_containing` -/
def Txt.pieceOf (t : Txt) (b : Int) : Nat :=
  if b = t.raw ∧ t.map ≠ [] then t.map.length - 1 else upperBound t.map b 0 t.map.length

/-- `k == 0 ? 0 : map_[k - 1].raw_byte_end` -/
def Txt.rawStart (t : Txt) (k : Nat) : Int := if k = 0 then 0 else (t.map[k - 1]?.map Entry.raw).getD 0
def Txt.rawEnd (t : Txt) (k : Nat) : Int := (t.map[k]?.map Entry.raw).getD 0
def Txt.compStart (t : Txt) (k : Nat) : Int := if k = 0 then 0 else (t.map[k - 1]?.map Entry.comp).getD 0
def Txt.compEnd (t : Txt) (k : Nat) : Int := (t.map[k]?.map Entry.comp).getD 0

/-- src/hazel.cc 1177-1209 `obtain`: a piece of the text; `none` is `nullptr`.  (The cache: a
piece is always read from the same bytes.) -/
def Txt.piece (z : TxtIO.Codec) (t : Txt) (k : Nat) : Option Text :=
  let rawLen := t.rawEnd k - t.rawStart k
  let compLen := t.compEnd k - t.compStart k
  if rawLen < 0 ∨ compLen < 0 then none
  else
    let raw := z.tang (slice t.space (t.compStart k) compLen)
    if (raw.length : Int) ≠ rawLen then none else some raw

/-- src/hazel.cc 1222-1232: the loop of `raw_bytes`, over `n` pieces from `k` on -/
def Txt.pieces (z : TxtIO.Codec) (t : Txt) (a b : Int) : Nat → Nat → Option Text
  | _, 0 => some []
  | k, n + 1 => match t.piece z k with
    | none => none
    | some bytes =>
      let start := max a (t.rawStart k)
      let stop := min b (t.rawEnd k)
      let here := if stop > start then slice bytes (start - t.rawStart k) (stop - start) else []
      match t.pieces z a b (k + 1) n with
      | none => none
      | some r => some (here ++ r)

/-- src/hazel.cc 1211-1235 `raw_bytes` -/
def Txt.rawBytes (z : TxtIO.Codec) (t : Txt) (a b : Int) : Text :=
  if a < 0 ∨ b < a ∨ b > t.raw ∨ a = b then []
  else if t.map = [] then []
  else
    let first := t.pieceOf a
    let last := t.pieceOf (b - 1)
    if first ≥ t.map.length ∨ last ≥ t.map.length ∨ first > last then []
    else (t.pieces z a b first (last - first + 1)).getD []

/-- src/hazel.cc 1147-1164 `load_token_range` -/
def tokenRange (H : Obj) : M H.σ (Int × Int) := do
  let a ← H.tau (minfinity + 1)
  if a.p = maxfinity then pure (maxfinity, maxfinity)
  else do
    let b ← H.uat (maxfinity - 1)
    if b.q < a.p then pure (maxfinity, maxfinity) else pure (a.p, b.q)

/-- src/hazel.cc 1000-1050: the part of `translate_` after the two lookups, for the chunks
`c0` and `c1` found -/
def cutStatic (T : Tokenizer) (z : TxtIO.Codec) (t : Txt) (p q : Int) (c0 c1 : Ann) : Text :=
  if c0.v < 0 ∨ c0.v > t.raw ∨ c1.v < 0 ∨ c1.v > t.raw then []
  else
    let coverEnd := if q > c1.q then t.raw else c1.v
    if c0.v > coverEnd ∨ t.map = [] then []
    else
      let first := t.pieceOf c0.v
      let last := if q > c1.q then t.map.length - 1 else t.pieceOf c1.v
      if first ≥ t.map.length ∨ last ≥ t.map.length ∨ first > last then []
      else
        let w0 := t.rawStart first
        let w1 := t.rawEnd last
        if c0.v < w0 ∨ coverEnd > w1 then []
        else
          let cover := t.rawBytes z w0 w1
          if (cover.length : Int) ≠ w1 - w0 then []
          else
            let i := (c0.v - w0).toNat
            let s := if c0.p < p then i + T.skip (cover.drop i) (p - c0.p) else i
            let p := if c0.p < p then p else c0.p
            if q > c1.q then cover.drop s
            else if c0.q = c1.q then (cover.drop s).take (T.skip (cover.drop s) (q - p + 1))
            else
              let off := c1.v - w0
              if off < 0 ∨ off > cover.length then []
              else
                let e := off.toNat + T.skip (cover.drop off.toNat) (q - c1.p + 1)
                if e < s then [] else (cover.drop s).take (e - s)

/-- src/hazel.cc 979-1051 `HazelTxt::translate_`; `H` is the cursor on the chunks, `range` what
`load_token_range` found -/
def translateStatic (T : Tokenizer) (z : TxtIO.Codec) (H : Obj) (t : Txt) (range : Int × Int) (p q : Int) :
    M H.σ Text :=
  if range.1 = maxfinity then pure []
  else
    let p := if p < range.1 then range.1 else p
    let q := if q > range.2 then range.2 else q
    if p = maxfinity ∨ q < p then pure []
    else do
      let c0 ← H.rho p
      if c0.p = maxfinity ∨ c0.p > q then pure []
      else do
        let c1 ← H.ohr q
        if c1.p = minfinity ∨ c1.p = maxfinity then pure []
        else pure (cutStatic T z t p q c0 c1)

/-- src/hazel.cc 1290-1318: one text's pieces copied behind what has been written; `base` is
the length of the texts before, `k` the number of pieces already copied.  `none`: a bad
boundary. -/
def copyPieces (t : Txt) (base : Int) : Out → Nat → Nat → Option Out
  | o, _, 0 => some o
  | o, k, n + 1 =>
    let rawLen := t.rawEnd k - t.rawStart k
    let compLen := t.compEnd k - t.compStart k
    if rawLen < 0 ∨ compLen < 0 then none
    else
      let space := o.space ++ slice t.space (t.compStart k) compLen
      copyPieces t base ⟨space, o.dir ++ [⟨base + t.rawEnd k, space.length⟩]⟩ (k + 1) n

/-- src/hazel.cc 1288-1320: the loop over the texts -/
def copyTexts : Int → Out → List Txt → Option (Out × Int)
  | base, o, [] => some (o, base)
  | base, o, t :: ts => match copyPieces t base o 0 t.map.length with
    | none => none
    | some o => copyTexts (base + t.raw) o ts

/-- src/hazel.cc 1254-1342 `HazelTxt::merge` -/
def mergeTxt : List Txt → Option (List UInt8)
  | [] => none
  | [_] => none
  | t :: ts =>
    if ts.any fun u => u.target != t.target then none
    else match copyTexts 0 {} (t :: ts) with
      | none => none
      | some (o, raw) => some (blobOf o raw t.target)

/-- the text object of a static shard (src/hazel.cc 935-957, 2152-2160) -/
structure StaticReader where
  H : Obj
  state : H.σ
  codec : TxtIO.Codec
  text : Txt
  range : Int × Int

/-- the text object of a shard of a warren: dynamic or static -/
inductive AnyReader
  | dynamic (r : TextReader)
  | static (r : StaticReader)

/-- `translate` of a text object -/
def AnyReader.read (T : Tokenizer) (p q : Int) : AnyReader → Option (Text × AnyReader)
  | .dynamic r => match translate T r.H r.text p q r.state with
    | none => none
    | some (a, s) => some (a, .dynamic { r with state := s })
  | .static r => match translateStatic T r.codec r.H r.text r.range p q r.state with
    | none => none
    | some (a, s) => some (a, .static { r with state := s })

/-- src/bigwig.cc 240-245 `BigwigTxt::translate_`: the answers of all shards one after the
other -/
def readMixed (T : Tokenizer) (p q : Int) : List AnyReader → Option (Text × List AnyReader)
  | [] => some ([], [])
  | r :: rs => match r.read T p q with
    | none => none
    | some (a, r) => match readMixed T p q rs with
      | none => none
      | some (b, rs) => some (a ++ b, r :: rs)

end Verif.HazelText
