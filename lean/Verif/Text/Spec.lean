/-
  Specification: what it means that the three functions of a tokenizer agree.

  Nothing here refers to how texts are scanned.  A tokenizer turns a byte string into
  tokens, each at an address; `skip` moves over a number of addresses; `split` lists the
  terms of a text.
-/
namespace Verif.Text

/-- a byte string (`std::string`) -/
abbrev Text := List UInt8

/-- `struct Token` (src/core.h 91-97), with the string handed to the featurizer in place
of its feature. -/
structure Tok where
  str : Text
  address : Nat
  offset : Nat
  length : Nat
deriving DecidableEq, Repr

/-- A tokenizer (src/tokenizer.h 25-47).  `skip s n` is the number of bytes of `s` it
passes over, that is, the pointer it returns minus `s`. -/
structure Tokenizer where
  tokenize : Text → List Tok
  skip : Text → Int → Nat
  split : Text → List Text

/-- there is a token at this address -/
def Tokenizer.At (T : Tokenizer) (s : Text) (n : Nat) : Prop := ∃ t ∈ T.tokenize s, t.address = n

/-- The addresses of the tokens of `s` are `0, 1, …` without gaps, tokens of one address
share one place in the text, and places follow each other as their addresses do. -/
structure Tokenizer.Ordered (T : Tokenizer) (s : Text) : Prop where
  sorted : (T.tokenize s).Pairwise fun t u => t.address ≤ u.address
  dense : ∀ n m, T.At s n → m < n → T.At s m
  place : ∀ t ∈ T.tokenize s, ∀ u ∈ T.tokenize s, t.address = u.address →
    t.offset = u.offset ∧ t.length = u.length
  mono : ∀ t ∈ T.tokenize s, ∀ u ∈ T.tokenize s, t.address < u.address →
    t.offset + t.length ≤ u.offset
  inside : ∀ t ∈ T.tokenize s, 0 < t.length ∧ t.offset + t.length ≤ s.length

/-- `skip` moves to the place of the token with the given address, and to the end of the
text when there is none. -/
structure Tokenizer.Skips (T : Tokenizer) (s : Text) : Prop where
  start : ∀ t ∈ T.tokenize s, T.skip s t.address = t.offset
  past : ∀ n : Nat, ¬ T.At s n → T.skip s n = s.length
  neg : ∀ n : Int, n ≤ 0 → T.skip s n = T.skip s 0
  /-- skipping `n` and then `m` is skipping `n + m` -/
  add : ∀ n m : Int, 0 ≤ n → 0 ≤ m →
    T.skip s n + T.skip (s.drop (T.skip s n)) m = T.skip s (n + m)

/-- `split` lists one string for every address, and it is a string of a token there. -/
structure Tokenizer.Splits (T : Tokenizer) (s : Text) : Prop where
  each : ∀ n w, (T.split s)[n]? = some w → ∃ t ∈ T.tokenize s, t.address = n ∧ t.str = w
  all : ∀ n, T.At s n → n < (T.split s).length

/-! ### texts put one after the other -/

/-- number of addresses of a text -/
def Tokenizer.addresses (T : Tokenizer) (s : Text) : Nat :=
  match (T.tokenize s).getLast? with
  | none => 0
  | some t => t.address + 1

/-- the token moved to where its text starts -/
def Tok.moved (address offset : Nat) (t : Tok) : Tok :=
  { t with address := t.address + address, offset := t.offset + offset }

/-- The text `s`, ended by the bytes `e`, can be followed by any text: the tokens are those
of `s` and those of what follows. -/
def Tokenizer.Joins (T : Tokenizer) (s e : Text) : Prop :=
  ∀ b, T.tokenize (s ++ e ++ b) =
    T.tokenize s ++ (T.tokenize b).map (Tok.moved (T.addresses s) (s ++ e).length)

/-- number of bytes of a UTF-8 sequence, from its first byte -/
def need (c : UInt8) : Nat :=
  if c < 0xC0 then 1 else if c < 0xE0 then 2 else if c < 0xF0 then 3 else if c < 0xF8 then 4 else 1

/-- every byte that starts a UTF-8 sequence has as many bytes after it as it announces -/
def Complete (s : Text) : Prop := ∀ c suf, c :: suf <:+ s → need c ≤ suf.length + 1

end Verif.Text
