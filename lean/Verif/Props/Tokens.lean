import Verif.Text.WordsProof
import Verif.Text.PlacesProof
/-
  C28: the three functions of a tokenizer agree.  The specification is `Verif/Text/Spec.lean`.
  C40: which words a text is cut into.  The specification is `Verif/Text/Words.lean`.
-/
namespace Verif.Props
open Verif.Text

/-- C28 for the ASCII tokenizer, with and without tags: for every text, the addresses of
its tokens are `0, 1, …`, `skip` moves to where a token's address starts and adds up, and
`split` gives one string per address, which is a string of a token there. -/
theorem C28_ascii (xml : Bool) (s : Text) :
    (ascii xml).Ordered s ∧ (ascii xml).Skips s ∧ (ascii xml).Splits s :=
  ⟨ordered (ascii_follows xml) s, skips (ascii_follows xml) s,
   splits (ascii_follows xml) (ascii_split xml s)⟩

/-- C28 for the UTF-8 tokenizer, whatever its table of actions: as above for every text as
to `tokenize` and `skip`; as to `split`, for texts without a NUL byte.  (What is missing:
texts with a NUL byte, for which it is false, see `C28_utf8_nul`.) -/
theorem C28_utf8_partial (act : Nat → Action) (s : Text) :
    (utf8 act).Ordered s ∧ (utf8 act).Skips s ∧ ((∀ b ∈ s, b ≠ 0) → (utf8 act).Splits s) :=
  ⟨ordered (utf8_follows act) s, skips (utf8_follows act) s,
   fun h => splits (utf8_follows act) (utf8_split act h)⟩

/-- the actions of a few code points, as the tables give them: letters and digits make
words, capitals are folded, Han characters stand alone -/
def smallTable (c : Nat) : Action :=
  if 0x61 ≤ c ∧ c ≤ 0x7A then .tok
  else if 0x30 ≤ c ∧ c ≤ 0x39 then .tok
  else if 0x41 ≤ c ∧ c ≤ 0x5A then .fold [UInt8.ofNat (c + 0x20)]
  else if c = 0xC9 ∨ c = 0xCA then .fold [0xC3, UInt8.ofNat (c - 0xC0 + 0xA0)]
  else if 0xE0 ≤ c ∧ c ≤ 0xFF then .tok
  else if 0x4E00 ≤ c ∧ c ≤ 0x9FFF then .uni
  else .non

/-- `split` of the UTF-8 tokenizer stops at a NUL byte (src/utf8_tokenizer.cc 580) where
`tokenize` goes on: the text `a\0b` has two addresses and one term. -/
theorem C28_utf8_nul : ¬ (utf8 smallTable).Splits [0x61, 0, 0x62] := by
  intro h
  have := h.all 1 ⟨⟨[0x62], 1, 2, 1⟩, by decide, rfl⟩
  revert this
  decide

/-! ### examples -/

/-- `<a b> Hi-FI &amp; x2` -/
def taggedText : Text :=
  [0x3C, 0x61, 0x20, 0x62, 0x3E, 0x20, 0x48, 0x69, 0x2D, 0x46, 0x49, 0x20,
   0x26, 0x61, 0x6D, 0x70, 0x3B, 0x20, 0x78, 0x32]

example : (ascii true).tokenize taggedText =
    [⟨[0x3C, 0x61, 0x3E], 0, 0, 5⟩, ⟨[0x68, 0x69], 1, 6, 2⟩, ⟨[0x46, 0x49], 2, 9, 2⟩,
     ⟨[0x66, 0x69], 2, 9, 2⟩, ⟨[0x78, 0x32], 3, 18, 2⟩] := by decide
example : (ascii true).skip taggedText 3 = 18 ∧ (ascii true).skip taggedText 4 = 20 := by decide
example : (ascii true).split taggedText =
    [[0x3C, 0x61, 0x3E], [0x68, 0x69], [0x46, 0x49], [0x78, 0x32]] := by decide
/-- without tags, the same text has more words -/
example : ((ascii false).tokenize taggedText).map (·.address) = [0, 1, 2, 3, 3, 4, 5] := by decide

/-- `Été 世界a` (`É` is C3 89, the two Han characters E4 B8 96 and E7 95 8C) -/
def frenchText : Text :=
  [0xC3, 0x89, 0x74, 0xC3, 0xA9, 0x20, 0xE4, 0xB8, 0x96, 0xE7, 0x95, 0x8C, 0x61]

example : (utf8 smallTable).tokenize frenchText =
    [⟨[0xC3, 0xA9, 0x74, 0xC3, 0xA9], 0, 0, 5⟩, ⟨[0xE4, 0xB8, 0x96], 1, 6, 3⟩,
     ⟨[0xE7, 0x95, 0x8C], 2, 9, 3⟩, ⟨[0x61], 3, 12, 1⟩] := by decide
example : (utf8 smallTable).skip frenchText 2 = 9 := by decide
example : (utf8 smallTable).split frenchText =
    [[0xC3, 0xA9, 0x74, 0xC3, 0xA9], [0xE4, 0xB8, 0x96], [0xE7, 0x95, 0x8C], [0x61]] := by decide
example : ∀ b ∈ frenchText, b ≠ 0 := by decide

/-! ### C40 -/

/-- C40 for the ASCII tokenizer without tags: the strings annotated at address `i` are
those of the `i`-th longest run of letters and digits. -/
theorem C40_ascii (s : Text) : ∃ gs, CutAscii s gs ∧
    ((ascii false).tokenize s).map (fun t => (t.str, t.address)) =
      gs.zipIdx.flatMap fun g => g.1.map fun w => (w, g.2) :=
  ⟨_, ascii_cut s.length s (Nat.le_refl _), by
    rw [(ascii_follows false).tokenize]; exact groups_tokens _ 0 0⟩

/-- C40 for the ASCII tokenizer, with tags or without: the tokens are those of the words of the text, each with
the bytes it covers.  With tags, each tag is a word, which stands for itself without its attributes, and entities
are passed over (`CutBytes`). -/
theorem C40_bytes (xml : Bool) (s : Text) : ∃ ps, CutBytes xml 0 s ps ∧ (ascii xml).tokenize s = WordPlace.toks ps :=
  ⟨_, bytes_cut xml s.length s 0 (Nat.le_refl _), by
    rw [(ascii_follows xml).tokenize]; exact places_tokens _ 0 0⟩

/-- … and `split` lists the first string of each word: the word as it stands, if a letter after the first is a
capital, and otherwise in small letters. -/
theorem C40_bytes_split (xml : Bool) (s : Text) : ∃ ps, CutBytes xml 0 s ps ∧
    (ascii xml).split s = ps.map fun p => p.strs.headD [] :=
  ⟨_, bytes_cut xml s.length s 0 (Nat.le_refl _), by rw [ascii_split]; exact places_split _ 0⟩

/-- `CutBytes` leaves no choice: the words and their places are determined by the bytes. -/
theorem C40_bytes_determined {xml : Bool} {o : Nat} {s : Text} {ps qs : List WordPlace}
    (h1 : CutBytes xml o s ps) (h2 : CutBytes xml o s qs) : ps = qs := cutBytes_unique h1 h2

/-- C40 for the UTF-8 tokenizer: the text of any code points is cut into the terms that
their classes in the table determine, one address each. -/
theorem C40_utf8 (act : Nat → Action) (cps : List Nat) (h : ∀ c ∈ cps, c < 0x200000) :
    ∃ ts, Cut act cps ts ∧
      ((utf8 act).tokenize (cps.flatMap encode)).map (fun t => (t.str, t.address)) = ts.zipIdx := by
  obtain ⟨h1, h2⟩ := utf8_cut act cps.length cps (Nat.le_refl _) h
  refine ⟨_, h1, ?_⟩
  rw [(utf8_follows act).tokenize]
  exact h2 0 0

/-- … and each token covers the bytes of its code points. -/
theorem C40_utf8_places (act : Nat → Action) (cps : List Nat) (h : ∀ c ∈ cps, c < 0x200000) :
    ∃ ps, CutPlaces act 0 cps ps ∧ (utf8 act).tokenize (cps.flatMap encode) = WordPlace.toks ps :=
  ⟨_, utf8_places act cps.length cps 0 (Nat.le_refl _) h, by
    rw [(utf8_follows act).tokenize]; exact places_tokens _ 0 0⟩

/-- … and `split` lists them, if the text has no NUL (see `C28_utf8_nul`). -/
theorem C40_utf8_split (act : Nat → Action) (cps : List Nat) (h : ∀ c ∈ cps, c < 0x200000) (h0 : ∀ b ∈ cps.flatMap encode, b ≠ 0) :
    ∃ ts, Cut act cps ts ∧ (utf8 act).split (cps.flatMap encode) = ts :=
  ⟨_, (utf8_cut act cps.length cps (Nat.le_refl _) h).1, utf8_split act h0⟩

/-- Whatever the bytes of a text, the code point read from it is in the table of actions
(`UTF8_MAX`, src/utf8_tokenizer.cc 15, 329), and a code point is read back from its bytes,
whatever follows. -/
theorem C40_table (s : Text) : (decode s).1 < 2097152 := decode_lt s

theorem C40_code_points (c : Nat) (h : c < 2097152) (rest : Text) :
    decode (encode c ++ rest) = (c, (encode c).length) := decode_encode h rest

/-- The bytes of a code point are its UTF-8 encoding. -/
theorem C40_encoding (c : Char) : encode c.toNat = String.utf8EncodeChar c := by
  unfold encode String.utf8EncodeChar
  have h : c.toNat = c.val.toNat := rfl
  have hv : c.val.toNat < 0x110000 := by
    have := c.valid; unfold UInt32.isValidChar Nat.isValidChar at this; omega
  simp only [h]
  split
  · rfl
  · split
    · rw [Nat.mod_eq_of_lt (a := c.val.toNat / 64) (by omega)]
    · split
      · rw [Nat.mod_eq_of_lt (a := c.val.toNat / 4096) (b := 16) (by omega)]
      · rw [if_pos (by omega), Nat.mod_eq_of_lt (a := c.val.toNat / 262144) (by omega)]

/-- `Cut` leaves no choice: the terms are determined by the code points. -/
theorem C40_determined (act : Nat → Action) {cps : List Nat} {ts us : List Text}
    (h1 : Cut act cps ts) (h2 : Cut act cps us) : ts = us := cut_unique act h1 h2

/-- `x<B> ÉtE 世` as code points -/
example : Cut smallTable [0x78, 0x3C, 0x42, 0x20, 0xC9, 0x74, 0x45, 0x4E16]
    [[0x78], [0x62], [0xC3, 0xA9, 0x74, 0x65], [0xE4, 0xB8, 0x96]] := by
  refine Cut.word (w := [0x78]) (by simp) (by decide) (by decide) ?_
  refine Cut.gap (by decide) ?_
  refine Cut.word (w := [0x42]) (by simp) (by decide) (by decide) ?_
  refine Cut.gap (by decide) ?_
  refine Cut.word (w := [0xC9, 0x74, 0x45]) (rest := [0x4E16]) (by simp) (by decide) (by decide) ?_
  exact Cut.alone (by decide) Cut.nil

/-- `<a-1 b="x">Hi&amp;</a>&x<` -/
example : CutBytes true 0
    [0x3C, 0x61, 0x2D, 0x31, 0x20, 0x62, 0x3D, 0x22, 0x78, 0x22, 0x3E, 0x48, 0x69, 0x26, 0x61, 0x6D, 0x70, 0x3B,
     0x3C, 0x2F, 0x61, 0x3E, 0x26, 0x78, 0x3C]
    [⟨0, 11, [[0x3C, 0x61, 0x2D, 0x31, 0x3E]]⟩, ⟨11, 2, [[0x68, 0x69]]⟩, ⟨18, 4, [[0x3C, 0x2F, 0x61, 0x3E]]⟩,
     ⟨23, 1, [[0x78]]⟩] := by
  refine CutBytes.tag (t := [0x3C, 0x61, 0x2D, 0x31, 0x20, 0x62, 0x3D, 0x22, 0x78, 0x22, 0x3E]) rfl
    ⟨[], [0x61, 0x2D, 0x31], [0x20, 0x62, 0x3D, 0x22, 0x78, 0x22], Or.inl rfl,
      ⟨_, _, rfl, by decide +kernel, by decide +kernel⟩, by decide +kernel, by decide, rfl, rfl⟩ ?_
  refine CutBytes.word (w := [0x48, 0x69]) (by simp) (by decide +kernel) (by decide +kernel) ?_
  refine CutBytes.entity (t := [0x26, 0x61, 0x6D, 0x70, 0x3B]) rfl ⟨[0x61, 0x6D, 0x70], rfl, by decide⟩ ?_
  refine CutBytes.tag (t := [0x3C, 0x2F, 0x61, 0x3E]) rfl
    ⟨[0x2F], [0x61], [], Or.inr rfl, ⟨_, _, rfl, by decide +kernel, by decide⟩, by decide, by decide, rfl, rfl⟩ ?_
  exact bytes_cut true 3 [0x26, 0x78, 0x3C] 22 (by decide)

/-- `The US.` -/
example : CutAscii [0x54, 0x68, 0x65, 0x20, 0x55, 0x53, 0x2E]
    [[[0x74, 0x68, 0x65]], [[0x55, 0x53], [0x75, 0x73]]] := by
  refine CutAscii.word (w := [0x54, 0x68, 0x65]) (by simp) (by decide) (by decide) ?_
  refine CutAscii.gap (by decide) ?_
  refine CutAscii.word (w := [0x55, 0x53]) (by simp) (by decide) (by decide) ?_
  exact CutAscii.gap (by decide) CutAscii.nil

end Verif.Props
