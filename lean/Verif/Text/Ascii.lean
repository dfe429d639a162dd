import Verif.Text.Spec
/-
  Model of `src/ascii_tokenizer.cc`.

  The three functions scan with pointers into one buffer; here each is a recursion on the
  bytes that are left, with a bound on the number of rounds that the length of the text
  always meets (every round passes over at least one byte).  `tokenize_` and `split_`
  write into their copy of the text, but only at bytes they have passed.
-/
namespace Verif.Text

/-- src/ascii_tokenizer.cc 15-17.  `char` is signed: bytes from 0x80 are negative there and
large here, and in neither case alphabetic. -/
def alphabetic (c : UInt8) : Bool := (0x41 ≤ c && c ≤ 0x5A) || (0x61 ≤ c && c ≤ 0x7A)

/-- src/ascii_tokenizer.cc 19-21 -/
def alphanumeric (c : UInt8) : Bool := alphabetic c || (0x30 ≤ c && c ≤ 0x39)

/-- src/ascii_tokenizer.cc 23 -/
def lower (c : UInt8) : UInt8 := c ||| 0x20

/-- src/ascii_tokenizer.cc 25 -/
def isUpper (c : UInt8) : Bool := 0x41 ≤ c && c ≤ 0x5A

/-- src/ascii_tokenizer.cc 27 -/
def tagInitial (c : UInt8) : Bool := alphabetic c || c == 0x5F

/-- src/ascii_tokenizer.cc 29-31 -/
def tagCharacter (c : UInt8) : Bool := alphanumeric c || c == 0x2D || c == 0x5F || c == 0x2E

/-- src/ascii_tokenizer.cc 57-61, 120-123, 170-174: from the end of the tag name at `q`, the
`>` that closes the tag on the same line -/
def tagClose (s : Text) (q : Nat) : Option (Nat × Nat) :=
  match s[q]? with
  | none => none
  | some d =>
    if d = 0x0A then none
    else
      let r := q + ((s.drop q).takeWhile fun c => c != 0x0A && c != 0x3E).length
      if s[r]? = some 0x3E then some (q, r) else none

/-- src/ascii_tokenizer.cc 51-61, 114-123, 164-174: a tag starting with the `<` at the head
of `s`, as the position `q` after its name and the position `r` of its `>` -/
def tagEnd (s : Text) : Option (Nat × Nat) :=
  let q := if s[1]? = some 0x2F then 2 else 1
  match s[q]? with
  | none => none
  | some c =>
    if tagInitial c then
      tagClose s (q + 1 + ((s.drop (q + 1)).takeWhile tagCharacter).length)
    else none

/-- src/ascii_tokenizer.cc 74-79, 134-139, 183-188: the `;` of an entity starting with the
`&` at the head of `s` -/
def entityEnd (s : Text) : Option Nat :=
  let q := 1 + ((s.drop 1).takeWhile fun c => c != 0x20 && c != 0x0A && c != 0x3B).length
  if s[q]? = some 0x3B then some q else none

/-- src/ascii_tokenizer.cc 84-101: the tokens of one word, which is annotated as it stands
and in lower case if a letter after the first is in upper case -/
def wordToks (w : Text) (address offset : Nat) : List Tok :=
  if (w.drop 1).any isUpper then
    [⟨w, address, offset, w.length⟩, ⟨w.map lower, address, offset, w.length⟩]
  else [⟨(w.take 1).map lower ++ w.drop 1, address, offset, w.length⟩]

/-- src/ascii_tokenizer.cc 39-104 -/
def asciiTokens (xml : Bool) : Nat → Text → (address offset : Nat) → List Tok
  | 0, _, _, _ => []
  | _ + 1, [], _, _ => []
  | n + 1, c :: cs, address, offset =>
    if alphanumeric c then
      let w := (c :: cs).takeWhile alphanumeric
      wordToks w address offset ++
        asciiTokens xml n ((c :: cs).drop w.length) (address + 1) (offset + w.length)
    else if xml && c == 0x3C then
      match tagEnd (c :: cs) with
      | some (q, r) =>
        ⟨(c :: cs).take q ++ [0x3E], address, offset, r + 1⟩ ::
          asciiTokens xml n ((c :: cs).drop (r + 1)) (address + 1) (offset + (r + 1))
      | none => asciiTokens xml n cs address (offset + 1)
    else if xml && c == 0x26 then
      match entityEnd (c :: cs) with
      | some q => asciiTokens xml n ((c :: cs).drop (q + 1)) address (offset + (q + 1))
      | none => asciiTokens xml n cs address (offset + 1)
    else asciiTokens xml n cs address (offset + 1)

/-- src/ascii_tokenizer.cc 106-150 -/
def asciiSkip (xml : Bool) : Nat → Text → Int → Nat
  | 0, _, _ => 0
  | _ + 1, [], _ => 0
  | f + 1, c :: cs, n =>
    if alphanumeric c then
      if n ≤ 0 then 0
      else
        let w := (c :: cs).takeWhile alphanumeric
        w.length + asciiSkip xml f ((c :: cs).drop w.length) (n - 1)
    else if xml && c == 0x3C then
      match tagEnd (c :: cs) with
      | some (_, r) =>
        if n ≤ 0 then 0 else (r + 1) + asciiSkip xml f ((c :: cs).drop (r + 1)) (n - 1)
      | none => 1 + asciiSkip xml f cs n
    else if xml && c == 0x26 then
      match entityEnd (c :: cs) with
      | some q => (q + 1) + asciiSkip xml f ((c :: cs).drop (q + 1)) n
      | none => 1 + asciiSkip xml f cs n
    else 1 + asciiSkip xml f cs n

/-- src/ascii_tokenizer.cc 193-201 -/
def wordTerm (w : Text) : Text :=
  if (w.drop 1).any isUpper then w else (w.take 1).map lower ++ w.drop 1

/-- src/ascii_tokenizer.cc 152-203 -/
def asciiSplit (xml : Bool) : Nat → Text → List Text
  | 0, _ => []
  | _ + 1, [] => []
  | n + 1, c :: cs =>
    if alphanumeric c then
      let w := (c :: cs).takeWhile alphanumeric
      wordTerm w :: asciiSplit xml n ((c :: cs).drop w.length)
    else if xml && c == 0x3C then
      match tagEnd (c :: cs) with
      | some (q, r) => ((c :: cs).take q ++ [0x3E]) :: asciiSplit xml n ((c :: cs).drop (r + 1))
      | none => asciiSplit xml n cs
    else if xml && c == 0x26 then
      match entityEnd (c :: cs) with
      | some q => asciiSplit xml n ((c :: cs).drop (q + 1))
      | none => asciiSplit xml n cs
    else asciiSplit xml n cs

/-- `class AsciiTokenizer` (src/ascii_tokenizer.h); `xml` is its recipe (205-222). -/
def ascii (xml : Bool) : Tokenizer where
  tokenize s := asciiTokens xml s.length s 0 0
  skip s n := asciiSkip xml s.length s n
  split s := asciiSplit xml s.length s

end Verif.Text
