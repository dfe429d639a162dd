import Verif.Text.Spec
/-
  Model of `src/utf8_tokenizer.cc`.

  The table of actions, one for every code point, is generated from the Unicode database
  (`src/utf8_tokenizer.cc` 234-306, `src/unicode.h`); it is a parameter here, and `Verif/Unicode` has the one of the code.  The
  constructor (315-357) never stores `&action_bigram_` in it, so the `ACTION_BIGRAM`
  branches of the three functions cannot be reached and are not modelled.
-/
namespace Verif.Text

/-- an entry of `actions_` (src/utf8_tokenizer.cc 334-351): the code point ends words, is
part of a word as it is, is a term by itself, or is part of a word in folded form (its
bytes in `folds_`) -/
inductive Action
  | non
  | tok
  | uni
  | fold (b : Text)
deriving DecidableEq

/-- src/utf8_tokenizer.cc 192-230: the code point at the head of `s` and the number of bytes
it takes.  A lead byte whose sequence would go past the end, and a byte that cannot lead,
read as a blank of one byte; the bytes after the lead are not checked. -/
def decode (s : Text) : Nat × Nat :=
  let b (i : Nat) : Nat := (s.getD i 0).toNat
  if b 0 < 0x80 then (b 0, 1)
  else if 0xC0 ≤ b 0 && b 0 < 0xE0 then
    if s.length < 2 then (0x20, 1) else ((b 0 % 32) * 64 + b 1 % 64, 2)
  else if 0xE0 ≤ b 0 && b 0 < 0xF0 then
    if s.length < 3 then (0x20, 1)
    else ((b 0 % 16) * 4096 + (b 1 % 64) * 64 + b 2 % 64, 3)
  else if 0xF0 ≤ b 0 && b 0 < 0xF8 then
    if s.length < 4 then (0x20, 1)
    else ((b 0 % 8) * 262144 + (b 1 % 64) * 4096 + (b 2 % 64) * 64 + b 3 % 64, 4)
  else (0x20, 1)

/-- src/utf8_tokenizer.cc 382-511.  The state is `none` for `ACTION_NONTOKEN` and holds the
term and its offset for `ACTION_TOKEN`. -/
def utf8Tokens (act : Nat → Action) : Nat → Text → Option (Text × Nat) → (address offset : Nat) →
    List Tok
  | 0, _, _, _, _ => []
  | _ + 1, [], none, _, _ => []
  | _ + 1, [], some (token, start), address, offset => [⟨token, address, start, offset - start⟩]
  | n + 1, c :: cs, state, address, offset =>
    let k := (decode (c :: cs)).2
    let u := (c :: cs).take k
    let rest := (c :: cs).drop k
    match state with
    | none =>
      match act (decode (c :: cs)).1 with
      | .non => utf8Tokens act n rest none address (offset + k)
      | .tok => utf8Tokens act n rest (some (u, offset)) address (offset + k)
      | .uni => ⟨u, address, offset, k⟩ :: utf8Tokens act n rest none (address + 1) (offset + k)
      | .fold b => utf8Tokens act n rest (some (b, offset)) address (offset + k)
    | some (token, start) =>
      match act (decode (c :: cs)).1 with
      | .non =>
        ⟨token, address, start, offset - start⟩ ::
          utf8Tokens act n rest none (address + 1) (offset + k)
      | .tok => utf8Tokens act n rest (some (token ++ u, start)) address (offset + k)
      | .uni =>
        ⟨token, address, start, offset - start⟩ :: ⟨u, address + 1, offset, k⟩ ::
          utf8Tokens act n rest none (address + 2) (offset + k)
      | .fold b => utf8Tokens act n rest (some (token ++ b, start)) address (offset + k)

/-- src/utf8_tokenizer.cc 513-572; `word` is the state `ACTION_TOKEN` -/
def utf8Skip (act : Nat → Action) : Nat → Text → (word : Bool) → Int → Nat
  | 0, _, _, _ => 0
  | _ + 1, [], _, _ => 0
  | f + 1, c :: cs, word, n =>
    let k := (decode (c :: cs)).2
    let rest := (c :: cs).drop k
    match word with
    | false =>
      match act (decode (c :: cs)).1 with
      | .non => k + utf8Skip act f rest false n
      | .tok => if n ≤ 0 then 0 else k + utf8Skip act f rest true n
      | .uni => if n ≤ 0 then 0 else k + utf8Skip act f rest false (n - 1)
      | .fold _ => if n ≤ 0 then 0 else k + utf8Skip act f rest true n
    | true =>
      match act (decode (c :: cs)).1 with
      | .non => k + utf8Skip act f rest false (n - 1)
      | .tok => k + utf8Skip act f rest true n
      | .uni => if n - 1 ≤ 0 then 0 else k + utf8Skip act f rest false (n - 1 - 1)
      | .fold _ => k + utf8Skip act f rest true n

/-- src/utf8_tokenizer.cc 574-677.  The loop runs `while (*s)`: it ends at a NUL byte (580),
the one in the text or the one after it. -/
def utf8Split (act : Nat → Action) : Nat → Text → Option Text → List Text
  | 0, _, _ => []
  | _ + 1, [], none => []
  | _ + 1, [], some token => [token]
  | n + 1, c :: cs, state =>
    if c = 0 then state.toList
    else
      let k := (decode (c :: cs)).2
      let u := (c :: cs).take k
      let rest := (c :: cs).drop k
      match state with
      | none =>
        match act (decode (c :: cs)).1 with
        | .non => utf8Split act n rest none
        | .tok => utf8Split act n rest (some u)
        | .uni => u :: utf8Split act n rest none
        | .fold b => utf8Split act n rest (some b)
      | some token =>
        match act (decode (c :: cs)).1 with
        | .non => token :: utf8Split act n rest none
        | .tok => utf8Split act n rest (some (token ++ u))
        | .uni => token :: u :: utf8Split act n rest none
        | .fold b => utf8Split act n rest (some (token ++ b))

/-- `class Utf8Tokenizer` with a table of actions.  The extra round is the end of the text,
where a pending term is put out (505-509, 674-675). -/
def utf8 (act : Nat → Action) : Tokenizer where
  tokenize s := utf8Tokens act (s.length + 1) s none 0 0
  skip s n := utf8Skip act (s.length + 1) s false n
  split s := utf8Split act (s.length + 1) s none

end Verif.Text
