import Verif.Text.Spec
import Verif.Text.Utf8
import Verif.Text.Ascii
/-
  Specification: how a text is cut into words.
-/
namespace Verif.Text

/-- src/utf8_tokenizer.cc 150-168: the bytes of a code point -/
def encode (c : Nat) : Text :=
  if c ≤ 0x7F then [UInt8.ofNat c]
  else if c ≤ 0x7FF then [UInt8.ofNat (c / 64 + 0xC0), UInt8.ofNat (c % 64 + 0x80)]
  else if c ≤ 0xFFFF then
    [UInt8.ofNat (c / 4096 + 0xE0), UInt8.ofNat (c / 64 % 64 + 0x80), UInt8.ofNat (c % 64 + 0x80)]
  else if c ≤ 0x1FFFFF then
    [UInt8.ofNat (c / 262144 + 0xF0), UInt8.ofNat (c / 4096 % 64 + 0x80),
     UInt8.ofNat (c / 64 % 64 + 0x80), UInt8.ofNat (c % 64 + 0x80)]
  else [0x20]

/-- the code point is part of words -/
def inWord (act : Nat → Action) (c : Nat) : Bool :=
  match act c with
  | .tok => true
  | .fold _ => true
  | _ => false

/-- the bytes a code point of a word contributes to the term -/
def folded (act : Nat → Action) (c : Nat) : Text :=
  match act c with
  | .fold b => b
  | _ => encode c

/-- A text, as code points, and its terms: between gaps, each character that stands alone
is a term, and so is each longest run of word characters, folded. -/
inductive Cut (act : Nat → Action) : List Nat → List Text → Prop
  | nil : Cut act [] []
  | gap {c cs ts} : act c = .non → Cut act cs ts → Cut act (c :: cs) ts
  | alone {c cs ts} : act c = .uni → Cut act cs ts → Cut act (c :: cs) (encode c :: ts)
  | word {w rest ts} : w ≠ [] → (∀ c ∈ w, inWord act c = true) →
      (∀ c ∈ rest.head?, inWord act c = false) → Cut act rest ts →
      Cut act (w ++ rest) (w.flatMap (folded act) :: ts)

/-- a letter or digit of ASCII -/
def letterOrDigit (c : UInt8) : Bool := (Char.ofNat c.toNat).isAlphanum
/-- a capital letter -/
def capital (c : UInt8) : Bool := (Char.ofNat c.toNat).isUpper
/-- a letter as a small letter -/
def small (c : UInt8) : UInt8 := UInt8.ofNat (Char.ofNat c.toNat).toLower.toNat

/-- A text of bytes and the strings of each of its addresses, for the ASCII tokenizer
without tags: each longest run of letters and digits is an address, with its lower-case
form and, when a letter after the first is a capital, also the word as it stands. -/
inductive CutAscii : Text → List (List Text) → Prop
  | nil : CutAscii [] []
  | gap {c s ts} : letterOrDigit c = false → CutAscii s ts → CutAscii (c :: s) ts
  | word {w rest ts} : w ≠ [] → (∀ c ∈ w, letterOrDigit c = true) →
      (∀ c ∈ rest.head?, letterOrDigit c = false) → CutAscii rest ts →
      CutAscii (w ++ rest)
        ((if (w.drop 1).any capital then [w, w.map small] else [w.map small]) :: ts)

end Verif.Text
