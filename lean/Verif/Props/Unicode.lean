import Verif.Unicode.Runs
import Verif.Props.Tokens
import Verif.Json.Places
/-
  C83: the table of the UTF-8 tokenizer.  The specification is `Verif/Text/Words.lean` and, for documents, `JsonTable`
  (`Verif/Json/Places.lean`).  The numbers of src/unicode.h are `compressedActions` and `compressedFolds`.
-/
namespace Verif.Props
open Verif.Text Verif.Unicode
open Verif.Json (JsonTable)

/-- a code point without its case: the entry of `compressed_folds`, if there is one -/
def foldCase (c : Nat) : Nat := (compressedFolds.lookup c).getD c

/-- the circled capital letters -/
def Circled (c : Nat) : Prop := 0x24B6 ≤ c ∧ c ≤ 0x24CF

instance (c : Nat) : Decidable (Circled c) := inferInstanceAs (Decidable (_ ∧ _))

theorem lookup_of_mem : ∀ {fs : List (Nat × Nat)}, (fs.Pairwise fun a b => a.1 < b.1) → ∀ {c d : Nat}, (c, d) ∈ fs →
    fs.lookup c = some d
  | (s, e) :: fs, hs, c, d, h => by
    rw [List.lookup_cons]
    rcases List.mem_cons.1 h with h | h
    · cases h; simp
    · have := List.rel_of_pairwise_cons hs h
      simp only at this
      rw [show (c == s) = false by simpa using fun e : c = s => by omega]
      exact lookup_of_mem (List.Pairwise.of_cons hs) h

theorem mem_of_lookup : ∀ {fs : List (Nat × Nat)} {c d : Nat}, fs.lookup c = some d → (c, d) ∈ fs
  | [], c, d, h => by cases h
  | (s, e) :: fs, c, d, h => by
    rw [List.lookup_cons] at h
    split at h
    · rename_i hs
      cases h
      rw [eq_of_beq hs]; exact List.mem_cons_self ..
    · exact List.mem_cons_of_mem _ (mem_of_lookup h)

/-- The numbers of src/unicode.h fill the table: each of its `UTF8_MAX` entries is set, and none beyond. -/
theorem C83_built (c : Nat) : (entry compressedActions compressedFolds c).isSome ↔ c < 2097152 := by
  have hw := actionAt_isSome compressedActions c
  rw [written_actions, show utf8Max = 2097152 from rfl] at hw
  unfold entry
  cases h : actionAt compressedActions c with
  | none => rw [h] at hw; simpa using hw
  | some a =>
    rw [h] at hw
    obtain ⟨p, hp, e⟩ := actionAt_mem h
    have ha := actions_le p hp
    rw [e] at ha
    refine Iff.trans ?_ hw
    have : a = 0 ∨ a = 1 ∨ a = 2 ∨ a = 3 ∨ a = 4 := by omega
    rcases this with rfl | rfl | rfl | rfl | rfl <;> exact Iff.rfl

/-- A folded character is a word character that becomes its folding of `compressed_folds`, which is a word character that stays
as it is. -/
theorem C83_fold {c : Nat} {b : Text} (h : table c = .fold b) : b = encode (foldCase c) ∧ foldCase c ≠ c ∧ table (foldCase c) = .tok := by
  obtain ⟨d, h1, h2, h3, -⟩ := table_fold h
  have e : foldCase c = d := by unfold foldCase; rw [lookup_of_mem folds_rising h1]; rfl
  rw [e]
  refine ⟨h2, fun hc => ?_, h3⟩
  rw [hc, h] at h3; cases h3

theorem foldCase_alike {c : Nat} (h : ¬Circled c) : Alike table c (foldCase c) := by
  unfold foldCase
  cases hl : compressedFolds.lookup c with
  | none => exact Or.inl rfl
  | some d =>
    have hm := mem_of_lookup hl
    have h2 : find blocks c = some 2 := (folds_sources _ hm).resolve_right h
    have ht := table_folds hm h2
    have hd := (C83_fold ht).2.2
    have e : foldCase c = d := by unfold foldCase; rw [hl]; rfl
    rw [e] at hd
    refine Or.inr ⟨?_, ?_, ?_⟩
    · unfold inWord; rw [ht]
    · show inWord table d = true; unfold inWord; rw [hd]
    · show folded table c = folded table d; unfold folded; rw [ht, hd]

/-- Case does not matter: two texts, without circled letters, that are the same without their case have the same terms at the
same addresses. -/
theorem C83_case_partial {a b : List Nat} (ha : ∀ c ∈ a, c < 0x200000 ∧ ¬Circled c) (hb : ∀ c ∈ b, c < 0x200000 ∧ ¬Circled c)
    (h : a.map foldCase = b.map foldCase) :
    ((utf8 table).tokenize (a.flatMap encode)).map (fun t => (t.str, t.address)) =
    ((utf8 table).tokenize (b.flatMap encode)).map (fun t => (t.str, t.address)) := by
  obtain ⟨ts, c1, e1⟩ := C40_utf8 table a fun c hc => (ha c hc).1
  obtain ⟨us, c2, e2⟩ := C40_utf8 table b fun c hc => (hb c hc).1
  have d1 := cut_alike c1 fun c hc => foldCase_alike (ha c hc).2
  have d2 := cut_alike c2 fun c hc => foldCase_alike (hb c hc).2
  rw [h] at d1
  rw [e1, e2, C40_determined table d1 d2]

/-- The claim fails for the circled letters: `Ⓐ` and `ⓐ` are the same without their case, but are different terms. -/
theorem C83_circled : foldCase 0x24B6 = foldCase 0x24D0 ∧
    ((utf8 table).tokenize (encode 0x24B6)).map (·.str) = [encode 0x24B6] ∧
    ((utf8 table).tokenize (encode 0x24D0)).map (·.str) = [encode 0x24D0] ∧ encode 0x24B6 ≠ encode 0x24D0 := by
  have one : ∀ c, c < 0x200000 → find blocks c = some 3 → ((utf8 table).tokenize (encode c)).map (·.str) = [encode c] := by
    intro c hc h
    have ht : table c = .uni := table_find h
    obtain ⟨ts, h1, e⟩ := C40_utf8 table [c] (by simpa using hc)
    have := C40_determined table h1 (Cut.alone ht Cut.nil)
    subst this
    have e' := congrArg (List.map Prod.fst) e
    simpa using e'
  exact ⟨by decide +kernel, one _ (by decide) (by decide +kernel), one _ (by decide) (by decide +kernel), by decide +kernel⟩

/-! ### ASCII -/

theorem ascii_actions : ∀ n : Fin 128, actionAt compressedActions0 n.val =
    some (if letterOrDigit (UInt8.ofNat n.val) then (if capital (UInt8.ofNat n.val) then 2 else 1) else 0) := by decide +kernel

theorem ascii_folds : ∀ n : Fin 128, capital (UInt8.ofNat n.val) = true →
    (n.val, (small (UInt8.ofNat n.val)).toNat) ∈ compressedFolds0 := by decide +kernel

theorem ascii_same : ∀ n : Fin 128, capital (UInt8.ofNat n.val) = false → small (UInt8.ofNat n.val) = UInt8.ofNat n.val := by
  decide +kernel

theorem ascii_small : ∀ n : Fin 128, (small (UInt8.ofNat n.val)).toNat ≤ 0x7F := by decide +kernel

theorem find_ascii {c : Nat} (h : c < 128) : find blocks c = actionAt compressedActions0 c := by
  unfold blocks
  rw [find, if_pos (by omega)]

theorem folds0_mem {p : Nat × Nat} (h : p ∈ compressedFolds0) : p ∈ compressedFolds := by
  unfold compressedFolds; exact List.mem_append_left _ h

/-- The table on ASCII: letters and digits are parts of words, capital letters as small ones; everything else is between words. -/
theorem C83_ascii_table (c : UInt8) (h : c < 0x80) : table c.toNat =
    if letterOrDigit c then (if capital c then .fold [small c] else .tok) else .non := by
  have hc : c.toNat < 128 := by simpa [UInt8.lt_iff_toNat_lt] using h
  have ec : UInt8.ofNat c.toNat = c := UInt8.ofNat_toNat
  have hf := (find_ascii hc).trans (ascii_actions ⟨c.toNat, hc⟩)
  simp only [ec] at hf
  by_cases h1 : letterOrDigit c = true
  · rw [if_pos h1] at hf ⊢
    by_cases h2 : capital c = true
    · rw [if_pos h2] at hf ⊢
      have hm := ascii_folds ⟨c.toNat, hc⟩ (by simpa only [ec] using h2)
      simp only [ec] at hm
      rw [table_folds (folds0_mem hm) hf]
      have := ascii_small ⟨c.toNat, hc⟩
      simp only [ec] at this
      unfold encode
      rw [if_pos this, UInt8.ofNat_toNat]
    · rw [if_neg h2] at hf ⊢; exact table_find hf
  · rw [if_neg h1] at hf ⊢; exact table_find hf

theorem encode_ascii : ∀ {s : Text}, (∀ c ∈ s, c < 0x80) → (s.map UInt8.toNat).flatMap encode = s
  | [], _ => rfl
  | c :: s, h => by
    have hc : c.toNat < 128 := by simpa [UInt8.lt_iff_toNat_lt] using h c (List.mem_cons_self ..)
    rw [List.map_cons, List.flatMap_cons, encode_ascii fun d hd => h d (List.mem_cons_of_mem _ hd)]
    unfold encode
    rw [if_pos (by omega), UInt8.ofNat_toNat]
    rfl

theorem ascii_inWord {c : UInt8} (h : c < 0x80) : inWord table c.toNat = letterOrDigit c := by
  unfold inWord
  rw [C83_ascii_table c h]
  cases letterOrDigit c <;> cases capital c <;> rfl

theorem ascii_folded {c : UInt8} (h : c < 0x80) (hl : letterOrDigit c = true) : folded table c.toNat = [small c] := by
  have hc : c.toNat < 128 := by simpa [UInt8.lt_iff_toNat_lt] using h
  have ec : UInt8.ofNat c.toNat = c := UInt8.ofNat_toNat
  unfold folded
  rw [C83_ascii_table c h, if_pos hl]
  by_cases h2 : capital c = true
  · rw [if_pos h2]
  · rw [if_neg h2]
    have := ascii_same ⟨c.toNat, hc⟩ (by rw [ec]; simpa using h2)
    simp only [ec] at this
    rw [this]
    show encode c.toNat = [c]
    unfold encode
    rw [if_pos (by omega), ec]

theorem cut_ascii {s : Text} {gs : List (List Text)} (h : CutAscii s gs) (hs : ∀ c ∈ s, c < 0x80) :
    Cut table (s.map UInt8.toNat) (gs.map fun g => g.getLastD []) := by
  induction h with
  | nil => exact Cut.nil
  | @gap c s ts hn _ ih =>
    have hc := hs c (List.mem_cons_self ..)
    refine Cut.gap ?_ (ih fun d hd => hs d (List.mem_cons_of_mem _ hd))
    rw [C83_ascii_table c hc, hn]; rfl
  | @word w rest ts hne hw hr _ ih =>
    have hwa : ∀ c ∈ w, c < 0x80 := fun c hc => hs c (List.mem_append_left _ hc)
    have e : ((if (w.drop 1).any capital then [w, w.map small] else [w.map small]) : List Text).getLastD [] =
        (w.map UInt8.toNat).flatMap (folded table) := by
      have e1 : (w.map UInt8.toNat).flatMap (folded table) = w.map small := by
        clear hne hs
        induction w with
        | nil => rfl
        | cons c w ih =>
          rw [List.map_cons, List.flatMap_cons, List.map_cons, ascii_folded (hwa c (List.mem_cons_self ..)) (hw c (List.mem_cons_self ..)),
            ih (fun c hc => hw c (List.mem_cons_of_mem _ hc)) fun c hc => hwa c (List.mem_cons_of_mem _ hc)]
          rfl
      rw [e1]
      split <;> rfl
    rw [List.map_append, List.map_cons, e]
    refine Cut.word (by simpa using hne) ?_ ?_ (ih fun d hd => hs d (List.mem_append_right _ hd))
    · intro d hd
      obtain ⟨c, hc, rfl⟩ := List.mem_map.1 hd
      rw [ascii_inWord (hwa c hc)]; exact hw c hc
    · intro d hd
      cases rest with
      | nil => cases hd
      | cons c rest =>
        simp only [List.map_cons, List.head?_cons, Option.mem_some_iff] at hd
        subst hd
        rw [ascii_inWord (hs c (List.mem_append_right _ (List.mem_cons_self ..)))]
        exact hr c (by simp)

/-- On a text of ASCII the UTF-8 tokenizer finds the words that the ASCII tokenizer finds, at the same addresses: each longest
run of letters and digits, in small letters. -/
theorem C83_ascii {s : Text} (hs : ∀ c ∈ s, c < 0x80) : ∃ gs, CutAscii s gs ∧
    ((utf8 table).tokenize s).map (fun t => (t.str, t.address)) = (gs.map fun g => g.getLastD []).zipIdx ∧
    ((ascii false).tokenize s).map (fun t => (t.str, t.address)) = gs.zipIdx.flatMap fun g => g.1.map fun w => (w, g.2) := by
  obtain ⟨gs, hg, ht⟩ := C40_ascii s
  refine ⟨gs, hg, ?_, ht⟩
  obtain ⟨ts, h1, e⟩ := C40_utf8 table (s.map UInt8.toNat) (by
    intro c hc
    obtain ⟨d, -, rfl⟩ := List.mem_map.1 hc
    have := d.toNat_lt
    omega)
  rw [encode_ascii hs] at e
  rw [e, C40_determined table h1 (cut_ascii hg hs)]

/-! ### what other properties need of the table -/

/-- The table is as documents need it, and so as all that depends on it in C27, C28, C36 and others. -/
theorem C83_documents : JsonTable table := by
  refine ⟨⟨?_, ?_, ?_⟩, fun n hn => ?_, ?_, ?_, ?_⟩
  · exact table_find (a := 0) (by decide +kernel)
  · exact table_find (a := 0) (by decide +kernel)
  · exact table_find (a := 0) (by decide +kernel)
  · rw [table_const (a := 3) (lo := 0xFDD0) (hi := 0xFDF0) (by decide +kernel) (by omega) (by omega)]
    exact fun h => by cases h
  · rw [table_find (a := 1) (by decide +kernel)]; exact fun h => by cases h
  · rw [table_find (a := 1) (by decide +kernel)]; exact fun h => by cases h
  · rw [table_find (a := 1) (by decide +kernel)]; exact fun h => by cases h

/-- Scripts: each character of the unified ideographs is a term by itself, and so is each emoticon; the syllables of Hangul, the
letters of Hiragana and Katakana, of Hebrew and Arabic, and marks on letters, are parts of words. -/
theorem C83_scripts (c : Nat) :
    (0x4E00 ≤ c → c < 0xA000 → table c = .uni) ∧ (0x3400 ≤ c → c < 0x4DC0 → table c = .uni) ∧
    (0x20000 ≤ c → c < 0x2A6E0 → table c = .uni) ∧ (0x1F600 ≤ c → c < 0x1F650 → table c = .uni) ∧
    (0xAC00 ≤ c → c < 0xD7A4 → table c = .tok) ∧ (0x3041 ≤ c → c < 0x3097 → table c = .tok) ∧
    (0x30A1 ≤ c → c < 0x30FB → table c = .tok) ∧ (0x5D0 ≤ c → c < 0x5EB → table c = .tok) ∧
    (0x620 ≤ c → c < 0x64B → table c = .tok) ∧ (0x300 ≤ c → c < 0x345 → table c = .tok) := by
  refine ⟨fun h1 h2 => ?_, fun h1 h2 => ?_, fun h1 h2 => ?_, fun h1 h2 => ?_, fun h1 h2 => ?_, fun h1 h2 => ?_, fun h1 h2 => ?_,
    fun h1 h2 => ?_, fun h1 h2 => ?_, fun h1 h2 => ?_⟩
  · exact table_const (a := 4) (by decide +kernel) h1 h2
  · exact table_const (a := 4) (by decide +kernel) h1 h2
  · exact table_const (a := 4) (by decide +kernel) h1 h2
  · exact table_const (a := 3) (by decide +kernel) h1 h2
  · exact table_const (a := 1) (by decide +kernel) h1 h2
  · exact table_const (a := 1) (by decide +kernel) h1 h2
  · exact table_const (a := 1) (by decide +kernel) h1 h2
  · exact table_const (a := 1) (by decide +kernel) h1 h2
  · exact table_const (a := 1) (by decide +kernel) h1 h2
  · exact table_const (a := 1) (by decide +kernel) h1 h2

theorem fold_range {lo k d : Nat} (h : ∀ n : Fin k, compressedFolds.lookup (lo + n.val) = some (lo + n.val + d) ∧
    find blocks (lo + n.val) = some 2) {c : Nat} (h1 : lo ≤ c) (h2 : c < lo + k) : table c = .fold (encode (c + d)) := by
  have := h ⟨c - lo, by omega⟩
  simp only [show lo + (c - lo) = c by omega] at this
  exact table_folds (mem_of_lookup this.1) this.2

/-- The capital letters of the western European languages, of Greek, of Russian and other languages with Cyrillic letters, and of
Armenian become the small letters as Unicode has them. -/
theorem C83_capitals (c : Nat) :
    (0xC0 ≤ c → c < 0xD7 → table c = .fold (encode (c + 32))) ∧ (0xD8 ≤ c → c < 0xDF → table c = .fold (encode (c + 32))) ∧
    (0x391 ≤ c → c < 0x3A2 → table c = .fold (encode (c + 32))) ∧ (0x3A3 ≤ c → c < 0x3AC → table c = .fold (encode (c + 32))) ∧
    (0x410 ≤ c → c < 0x430 → table c = .fold (encode (c + 32))) ∧ (0x400 ≤ c → c < 0x410 → table c = .fold (encode (c + 80))) ∧
    (0x531 ≤ c → c < 0x557 → table c = .fold (encode (c + 48))) := by
  refine ⟨fun h1 h2 => ?_, fun h1 h2 => ?_, fun h1 h2 => ?_, fun h1 h2 => ?_, fun h1 h2 => ?_, fun h1 h2 => ?_, fun h1 h2 => ?_⟩
  · exact fold_range (k := 0x17) (by decide +kernel) h1 h2
  · exact fold_range (k := 7) (by decide +kernel) h1 h2
  · exact fold_range (k := 0x11) (by decide +kernel) h1 h2
  · exact fold_range (k := 9) (by decide +kernel) h1 h2
  · exact fold_range (k := 0x20) (by decide +kernel) h1 h2
  · exact fold_range (k := 0x10) (by decide +kernel) h1 h2
  · exact fold_range (k := 0x26) (by decide +kernel) h1 h2

/-- Nothing that is not a character of Unicode is part of a term: surrogates, and what is beyond Unicode, which overlong or
broken sequences can decode to. -/
theorem C83_none (c : Nat) (h : (0xD800 ≤ c ∧ c < 0xE000) ∨ 0x110000 ≤ c) : table c = .non := by
  rcases h with ⟨h1, h2⟩ | h1
  · exact table_const (a := 0) (by decide +kernel) h1 h2
  · by_cases h2 : c < 2097152
    · exact table_const (a := 0) (by decide +kernel) h1 h2
    · unfold table
      have := C83_built c
      cases he : entry compressedActions compressedFolds c with
      | none => rfl
      | some a => rw [he] at this; simp at this; omega

/-! ### writing the table -/

/-- What `write_compressed_actions` writes, read as the constructor reads it, is the table that was given to it; no run is
empty, and no two neighbours could be one. -/
theorem C83_compress {l : List Nat} (h : l ≠ []) : ∃ rs, compress l = some rs ∧ (∀ c, actionAt rs c = l[c]?) ∧ Short rs := by
  cases l with
  | nil => exact absurd rfl h
  | cons a l =>
    refine ⟨runs a 1 l, rfl, fun c => ?_, runs_short l a 1 (by omega)⟩
    rw [actionAt_expand, runs_expand]; rfl

/-- The numbers of src/unicode.h are what `write_compressed_actions` writes for some table of `UTF8_MAX` actions. -/
theorem C83_generated : ∃ l, l.length = 2097152 ∧ compress l = some compressedActions :=
  ⟨expand compressedActions, by rw [expand_length]; exact written_actions,
   compress_expand (by unfold compressedActions compressedActions0; simp) actions_short⟩

/-! ### examples -/

/-- `ÉTÉ Straße` and `été STRAßE` -/
example := C83_case_partial (a := [0xC9, 0x54, 0xC9, 0x20, 0x53, 0x74, 0x72, 0x61, 0xDF, 0x65])
  (b := [0xE9, 0x74, 0xE9, 0x20, 0x53, 0x54, 0x52, 0x41, 0xDF, 0x45]) (by decide) (by decide) (by decide +kernel)
/-- `К` of Cyrillic -/
example : table 0x41A = .fold [0xD0, 0xBA] := table_folds (d := 0x43A) (mem_of_lookup (by decide +kernel)) (by decide +kernel)
/-- `The US.` -/
example := C83_ascii (s := [0x54, 0x68, 0x65, 0x20, 0x55, 0x53, 0x2E]) (by decide)
example : compress [0, 0, 1, 1, 1, 3] = some [(2, 0), (3, 1), (1, 3)] := by decide

end Verif.Props
