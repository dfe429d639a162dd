import Verif.Text.Words
/-
  Specification: where the words of a text are, and what the ASCII tokenizer makes of tags and entities.
-/
namespace Verif.Text

/-- a place of a text, and the strings that are annotated there -/
structure WordPlace where
  offset : Nat
  length : Nat
  strs : List Text
deriving DecidableEq, Repr

/-- the tokens of places that follow each other: each place is an address -/
def WordPlace.toks (ps : List WordPlace) : List Tok :=
  ps.zipIdx.flatMap fun p => p.1.strs.map fun w => ⟨w, p.2, p.1.offset, p.1.length⟩

/-- a letter of ASCII -/
def letter (c : UInt8) : Bool := (Char.ofNat c.toNat).isAlpha
/-- the name of a tag begins with a letter or `_` … -/
def nameStart (c : UInt8) : Bool := letter c || c = 0x5F
/-- … and goes on with letters, digits, `-`, `_` and `.` -/
def nameChar (c : UInt8) : Bool := letterOrDigit c || c = 0x2D || c = 0x5F || c = 0x2E

/-- The text `t` is a tag, and `short` is the tag without attributes: `<` or `</`, a name, attributes, `>`, all
on one line. -/
structure IsTag (t short : Text) : Prop where
  parts : ∃ slash name attrs, (slash = [] ∨ slash = [0x2F]) ∧
    (∃ c cs, name = c :: cs ∧ nameStart c = true ∧ ∀ d ∈ cs, nameChar d = true) ∧
    (∀ d ∈ attrs.head?, nameChar d = false) ∧ (∀ d ∈ attrs, d ≠ 0x0A ∧ d ≠ 0x3E) ∧
    t = 0x3C :: (slash ++ (name ++ (attrs ++ [0x3E]))) ∧ short = 0x3C :: (slash ++ (name ++ [0x3E]))

/-- The text is an entity: `&`, no blank, no end of line, no `;`, and then a `;`. -/
def IsEntity (t : Text) : Prop :=
  ∃ body, t = 0x26 :: (body ++ [0x3B]) ∧ ∀ d ∈ body, d ≠ 0x20 ∧ d ≠ 0x0A ∧ d ≠ 0x3B

/-- the strings of a word: in small letters, and when a letter after the first is a capital also as it stands -/
def wordForms (w : Text) : List Text := if (w.drop 1).any capital then [w, w.map small] else [w.map small]

/-- Where the words of a text of bytes are that begins at this offset, for the ASCII tokenizer with or without
tags.  Each longest run of letters and digits is a word; with tags, each tag is a word, and an entity is passed
over, and so are its letters. -/
inductive CutBytes (xml : Bool) : Nat → Text → List WordPlace → Prop
  | nil {o} : CutBytes xml o [] []
  | gap {o c s ps} : letterOrDigit c = false →
      (xml = true → (¬∃ t short rest, c :: s = t ++ rest ∧ IsTag t short) ∧ ¬∃ t rest, c :: s = t ++ rest ∧ IsEntity t) →
      CutBytes xml (o + 1) s ps → CutBytes xml o (c :: s) ps
  | word {o w rest ps} : w ≠ [] → (∀ c ∈ w, letterOrDigit c = true) → (∀ c ∈ rest.head?, letterOrDigit c = false) →
      CutBytes xml (o + w.length) rest ps → CutBytes xml o (w ++ rest) (⟨o, w.length, wordForms w⟩ :: ps)
  | tag {o t short rest ps} : xml = true → IsTag t short → CutBytes xml (o + t.length) rest ps →
      CutBytes xml o (t ++ rest) (⟨o, t.length, [short]⟩ :: ps)
  | entity {o t rest ps} : xml = true → IsEntity t → CutBytes xml (o + t.length) rest ps →
      CutBytes xml o (t ++ rest) ps

/-- Where the terms of a text of code points are that begins at this offset: as `Cut`, with the bytes that each
term stands for. -/
inductive CutPlaces (act : Nat → Action) : Nat → List Nat → List WordPlace → Prop
  | nil {o} : CutPlaces act o [] []
  | gap {o c cs ps} : act c = .non → CutPlaces act (o + (encode c).length) cs ps → CutPlaces act o (c :: cs) ps
  | alone {o c cs ps} : act c = .uni → CutPlaces act (o + (encode c).length) cs ps →
      CutPlaces act o (c :: cs) (⟨o, (encode c).length, [encode c]⟩ :: ps)
  | word {o w rest ps} : w ≠ [] → (∀ c ∈ w, inWord act c = true) → (∀ c ∈ rest.head?, inWord act c = false) →
      CutPlaces act (o + (w.flatMap encode).length) rest ps →
      CutPlaces act o (w ++ rest) (⟨o, (w.flatMap encode).length, [w.flatMap (folded act)]⟩ :: ps)

end Verif.Text
