import Verif.Member.Model
import Verif.Member.Spec
import Verif.Label.Proof
/-
  Proofs about labels in any JSON (C82).
-/
namespace Verif.Member
open Verif.Text Verif.Label
open Verif.Json (Value Elems Members Space Spaces Digit Hex4 Chars hex escaped)

/-! ### strings -/

theorem hex_val (c : UInt8) : hexVal c = hex c := by
  have h : ∀ n : Fin 256, hexVal (UInt8.ofNat n) = hex (UInt8.ofNat n) := by decide +kernel
  have := h ⟨c.toNat, c.toNat_lt⟩
  simpa using this

theorem hex_byte {h : Text} {n : Nat} (hh : Hex4 h n) :
    ∃ a b c d, h = [a, b, c, d] ∧ hexByte a b c d = some (if n ≤ 255 then UInt8.ofNat n else 0x3F) := by
  obtain ⟨a, b, c, d, i, j, k, l, rfl, ha, hb, hc, hd, rfl⟩ := hh
  refine ⟨a, b, c, d, rfl, ?_⟩
  unfold hexByte
  rw [hex_val, hex_val, hex_val, hex_val, ha, hb, hc, hd]
  have e : i * 4096 + j * 256 + k * 16 + l = ((i * 16 + j) * 16 + k) * 16 + l := by omega
  simp only [e]
  split <;> rfl

theorem body_code {h : Text} {n : Nat} (hh : Hex4 h n) (s r : Text) :
    parseBody (0x5C :: 0x75 :: (h ++ s)) r = parseBody s (r ++ [if n ≤ 255 then UInt8.ofNat n else 0x3F]) := by
  obtain ⟨a, b, c, d, rfl, e⟩ := hex_byte hh
  simp only [List.cons_append, List.nil_append]
  rw [parseBody, e]

theorem body_short {e c : UInt8} (h : escaped e = some c) (s r : Text) :
    parseBody (0x5C :: e :: s) r = parseBody s (r ++ [c]) := by
  unfold escaped at h
  split at h <;> first | (cases h; rw [parseBody]) | cases h

theorem encode_low {n : Nat} (h : n < 0x80) : encode n = [UInt8.ofNat n] := by
  unfold encode; rw [if_pos (by omega)]

theorem encode_wide {n : Nat} (h : 0x80 ≤ n) (h' : n < 0x110000) : ∃ c ∈ encode n, ¬ c < 0x80 := by
  unfold encode
  rw [if_neg (by omega)]
  split
  · exact ⟨_, List.mem_cons_self, by rw [UInt8.lt_iff_toNat_lt]; simp; omega⟩
  · split
    · exact ⟨_, List.mem_cons_self, by rw [UInt8.lt_iff_toNat_lt]; simp; omega⟩
    · rw [if_pos (by omega)]
      exact ⟨_, List.mem_cons_self, by rw [UInt8.lt_iff_toNat_lt]; simp; omega⟩

theorem hex4_lt {h : Text} {n : Nat} (hh : Hex4 h n) : n < 0x10000 := by
  obtain ⟨a, b, c, d, i, j, k, l, rfl, ha, hb, hc, hd, rfl⟩ := hh
  have lt : ∀ {c : UInt8} {n : Nat}, hex c = some n → n < 16 := by
    intro c n h
    have := c.toNat_lt
    unfold hex at h
    simp only [UInt8.le_iff_toNat_le] at h
    simp at h
    split at h
    · cases h; omega
    · split at h
      · cases h; omega
      · split at h
        · cases h; omega
        · cases h
  have := lt ha; have := lt hb; have := lt hc; have := lt hd
  omega

theorem NoWide.infix {x y : Text} (h : NoWide y) (e : x <:+: y) : NoWide x := fun a n ha hx => h a n ha (hx.trans e)

/-- what was read is the string that was written -/
def Same (x s t : Text) : Prop := NoWide x ∨ Ascii s ∨ (∀ c ∈ t, c < 0x80 ∧ c ≠ 0x3F) → t = s

theorem body_chars {x s : Text} (h : Chars x s) :
    ∃ t, (∀ rest r, parseBody (x ++ 0x22 :: rest) r = some (r ++ t, rest)) ∧ Same x s t := by
  induction h with
  | nil => exact ⟨[], fun rest r => by simp [parseBody], fun _ => rfl⟩
  | plain c h1 h2 h3 h ih =>
    obtain ⟨t, ht, hs⟩ := ih
    refine ⟨c :: t, fun rest r => ?_, fun hh => ?_⟩
    · rw [List.cons_append, body_plain h2 h3 (by simpa using h1), ht]; simp
    · rw [hs]
      rcases hh with hh | hh | hh
      · exact .inl (hh.infix (List.suffix_cons _ _).isInfix)
      · exact .inr (.inl fun d hd => hh d (by simp [hd]))
      · exact .inr (.inr fun d hd => hh d (by simp [hd]))
  | @short e c x s he h ih =>
    obtain ⟨t, ht, hs⟩ := ih
    refine ⟨c :: t, fun rest r => ?_, fun hh => ?_⟩
    · simp only [List.cons_append]
      rw [body_short he, ht]; simp
    · rw [hs]
      rcases hh with hh | hh | hh
      · exact .inl (hh.infix (List.IsSuffix.isInfix ⟨[0x5C, e], rfl⟩))
      · exact .inr (.inl fun d hd => hh d (by simp [hd]))
      · exact .inr (.inr fun d hd => hh d (by simp [hd]))
  | @code h n x s hh hn hc ih =>
    obtain ⟨t, ht, hs⟩ := ih
    refine ⟨(if n ≤ 255 then UInt8.ofNat n else 0x3F) :: t, fun rest r => ?_, fun hw => ?_⟩
    · simp only [List.cons_append, List.append_assoc]
      rw [body_code hh, ht]; simp
    · have hl : n < 0x80 := by
        rcases hw with hw | hw | hw
        · exact hw h n hh ⟨[], x, by simp⟩
        · apply Nat.lt_of_not_le
          intro hle
          obtain ⟨c, hc, hc'⟩ := encode_wide hle (by have := hex4_lt hh; omega)
          exact hc' (hw c (by simp [hc]))
        · apply Nat.lt_of_not_le
          intro hle
          have := hw _ List.mem_cons_self
          by_cases h255 : n ≤ 255
          · rw [if_pos h255, UInt8.lt_iff_toNat_lt] at this
            simp at this
            omega
          · rw [if_neg h255] at this
            exact this.2 rfl
      rw [encode_low hl, if_pos (by omega), hs]
      · rfl
      · rcases hw with hw | hw | hw
        · exact .inl (hw.infix (List.IsSuffix.isInfix ⟨0x5C :: 0x75 :: h, by simp⟩))
        · exact .inr (.inl fun d hd => hw d (by simp [hd]))
        · exact .inr (.inr fun d hd => hw d (by simp [hd]))
  | @pair h l n m x s hh hl h1 h2 h3 h4 hc ih =>
    obtain ⟨t, ht, hs⟩ := ih
    refine ⟨0x3F :: 0x3F :: t, fun rest r => ?_, fun hw => ?_⟩
    · simp only [List.cons_append, List.append_assoc]
      rw [body_code hh, body_code hl, ht, if_neg (by omega), if_neg (by omega)]; simp
    · exfalso
      rcases hw with hw | hw | hw
      · have := hw h n hh ⟨[], 0x5C :: 0x75 :: (l ++ x), by simp⟩
        omega
      · obtain ⟨c, hc, hc'⟩ := encode_wide (n := 0x10000 + (n - 0xD800) * 0x400 + (m - 0xDC00)) (by omega) (by omega)
        exact hc' (hw c (by simp [hc]))
      · exact (hw _ List.mem_cons_self).2 rfl

/-! ### white space and what ends a value -/

theorem space_isSpace {c : UInt8} (h : Space c) : isSpace c = true := by
  rcases h with rfl | rfl | rfl | rfl <;> decide

theorem ws_spaces {a : Text} (h : Spaces a) (r : Text) : skipWs (a ++ r) = skipWs r :=
  dropWhile_all (fun c hc => space_isSpace (h c hc)) r

theorem consume_spaces {a : Text} (h : Spaces a) (r : Text) (c : UInt8) : consume (a ++ r) c = consume r c := by
  unfold consume; rw [ws_spaces h]

theorem string_spaces {a : Text} (h : Spaces a) (r : Text) : parseString (a ++ r) = parseString r := by
  unfold parseString; rw [ws_spaces h]

/-- what may follow a value -/
def Stop (r : Text) : Prop := r = [] ∨ ∃ c t, r = c :: t ∧ (Space c ∨ c = 0x2C ∨ c = 0x5D ∨ c = 0x7D)

theorem stop_of {b : Text} (h : Spaces b) {c : UInt8} (hc : c = 0x2C ∨ c = 0x5D ∨ c = 0x7D) (r : Text) : Stop (b ++ c :: r) := by
  cases b with
  | nil => exact .inr ⟨c, r, rfl, .inr hc⟩
  | cons d b => exact .inr ⟨d, b ++ c :: r, rfl, .inl (h d (by simp))⟩

/-- a string, from its opening quotation mark on -/
theorem string_chars {k key : Text} (h : Chars k key) :
    ∃ t, (∀ a rest, Spaces a → parseString (a ++ 0x22 :: (k ++ 0x22 :: rest)) = some (t, rest)) ∧ Same k key t := by
  obtain ⟨t, ht, hs⟩ := body_chars h
  refine ⟨t, fun a rest ha => ?_, hs⟩
  rw [string_spaces ha]
  unfold parseString
  rw [skipWs_of _ (by decide)]
  simp only [if_pos, ht, List.nil_append]

theorem digit_isDigit {c : UInt8} (h : Digit c) : isDigit c = true := by
  unfold isDigit; simpa [Digit] using h

theorem digit_facts {c : UInt8} (h : Digit c) : isSpace c = false ∧ c ≠ 0x22 ∧ c ≠ 0x7B ∧ c ≠ 0x5B ∧ c ≠ 0x74 ∧ c ≠ 0x66 ∧ c ≠ 0x6E ∧
    c ≠ 0x2B ∧ c ≠ 0x2D ∧ c ≠ 0x5D ∧ c ≠ 0x7D := by
  have hd : ∀ n : Fin 256, (0x30 ≤ UInt8.ofNat n ∧ UInt8.ofNat n ≤ 0x39) → isSpace (UInt8.ofNat n) = false ∧ UInt8.ofNat n ≠ 0x22 ∧ UInt8.ofNat n ≠ 0x7B ∧
    UInt8.ofNat n ≠ 0x5B ∧ UInt8.ofNat n ≠ 0x74 ∧ UInt8.ofNat n ≠ 0x66 ∧ UInt8.ofNat n ≠ 0x6E ∧ UInt8.ofNat n ≠ 0x2B ∧ UInt8.ofNat n ≠ 0x2D ∧
    UInt8.ofNat n ≠ 0x5D ∧ UInt8.ofNat n ≠ 0x7D := by decide +kernel
  have := hd ⟨c.toNat, c.toNat_lt⟩
  simp only [UInt8.ofNat_toNat] at this
  exact this h

/-- no digit comes first -/
def NoDigit (r : Text) : Prop := ∀ c t, r = c :: t → isDigit c = false

theorem digits_pass {w : Text} (hne : w ≠ []) (hw : ∀ d ∈ w, Digit d) {r : Text} (hr : NoDigit r) : digits (w ++ r) = some r := by
  unfold digits
  have e : (w ++ r).dropWhile isDigit = r := by
    rw [dropWhile_all fun c hc => digit_isDigit (hw c hc)]
    cases r with
    | nil => rfl
    | cons c t => rw [List.dropWhile_cons, if_neg (by simp [hr c t rfl])]
  rw [e, if_neg]
  cases w with
  | nil => exact absurd rfl hne
  | cons c w => simp [digit_isDigit (hw c (by simp))]

theorem fraction_none {c : UInt8} (h : c ≠ 0x2E) (s : Text) : skipFraction (c :: s) = some (c :: s) := by
  unfold skipFraction; split
  · rename_i e; cases e; exact absurd rfl h
  · rfl

theorem stop_facts {r : Text} (h : Stop r) : NoDigit r ∧ skipFraction r = some r ∧ skipExponent r = some r := by
  rcases h with rfl | ⟨c, t, rfl, h⟩
  · exact ⟨fun c t h => (by simp at h), rfl, rfl⟩
  · have hc : isDigit c = false ∧ c ≠ 0x2E ∧ c ≠ 0x65 ∧ c ≠ 0x45 := by
      rcases h with (rfl | rfl | rfl | rfl) | rfl | rfl | rfl <;> decide
    refine ⟨fun d s e => ?_, fraction_none hc.2.1 t, ?_⟩
    · cases e; exact hc.1
    · simp [skipExponent, hc.2.2.1, hc.2.2.2]

theorem exponent_pass {e : Text} (he : Exponent e) {r : Text} (hr : Stop r) :
    NoDigit (e ++ r) ∧ skipFraction (e ++ r) = some (e ++ r) ∧ skipExponent (e ++ r) = some r := by
  rcases he with rfl | ⟨c, sign, ds, rfl, hc, hs, hne, hd⟩
  · exact stop_facts hr
  · have h1 : isDigit c = false ∧ c ≠ 0x2E := by rcases hc with rfl | rfl <;> decide
    refine ⟨fun d s h => ?_, fraction_none h1.2 _, ?_⟩
    · cases h; exact h1.1
    · rw [List.cons_append, skipExponent, if_pos hc]
      have : skipSign (sign ++ ds ++ r) = ds ++ r := by
        rcases hs with rfl | rfl | rfl
        · cases ds with
          | nil => exact absurd rfl hne
          | cons d ds =>
            have := digit_facts (hd d (by simp))
            simp [skipSign, this]
        · rfl
        · rfl
      rw [this, digits_pass hne hd (stop_facts hr).1]

theorem number_pass {x : Text} (hx : IsNumber x) {r : Text} (hr : Stop r) : skipNumber (x ++ r) = some r := by
  obtain ⟨sign, w, f, e, rfl, hs, hne, hw, -, hf, he⟩ := hx
  obtain ⟨e1, e2, e3⟩ := exponent_pass he hr
  unfold skipNumber
  have h1 : skipSign (skipWs (sign ++ w ++ f ++ e ++ r)) = w ++ (f ++ (e ++ r)) := by
    cases w with
    | nil => exact absurd rfl hne
    | cons d w =>
      have := digit_facts (hw d (by simp))
      rcases hs with rfl | rfl
      · simp only [List.nil_append, List.cons_append, List.append_assoc]
        rw [skipWs_of _ this.1]
        simp [skipSign, this]
      · simp only [List.nil_append, List.cons_append, List.append_assoc]
        rw [skipWs_of _ (by decide)]
        rfl
  rw [h1]
  rcases hf with rfl | ⟨ds, rfl, hdn, hds⟩
  · rw [List.nil_append, digits_pass hne hw e1]
    simp [e2, e3]
  · rw [digits_pass hne hw]
    · simp only [Option.bind_eq_bind, Option.bind_some, List.cons_append]
      rw [skipFraction, digits_pass hdn hds e1]
      simp [e3]
    · intro c t h; cases h; decide

/-- how the text of a value begins -/
structure Begins (c : UInt8) (v : Value) : Prop where
  space : isSpace c = false
  str : c = 0x22 ↔ IsStr v
  obj : c = 0x7B ↔ ∃ ms, v = .obj ms
  close : c ≠ 0x5D ∧ c ≠ 0x7D

theorem begins {x : Text} {v : Value} (h : Writes x v) : ∃ c t, x = c :: t ∧ Begins c v := by
  cases h with
  | null => exact ⟨_, _, rfl, by decide, by simp [IsStr], by simp, by decide⟩
  | true => exact ⟨_, _, rfl, by decide, by simp [IsStr], by simp, by decide⟩
  | false => exact ⟨_, _, rfl, by decide, by simp [IsStr], by simp, by decide⟩
  | num hx =>
    obtain ⟨sign, w, f, e, rfl, hs, hne, hw, -, hf, he⟩ := hx
    cases w with
    | nil => exact absurd rfl hne
    | cons d w =>
      have := digit_facts (hw d (by simp))
      rcases hs with rfl | rfl
      · exact ⟨d, _, rfl, this.1, by simp [IsStr, this], by simp [this], by simp [this]⟩
      · exact ⟨_, _, rfl, by decide, by simp [IsStr], by simp, by decide⟩
  | str h => exact ⟨_, _, rfl, by decide, by simp [IsStr], by simp, by decide⟩
  | arr0 h => exact ⟨_, _, rfl, by decide, by simp [IsStr], by simp, by decide⟩
  | arr h => exact ⟨_, _, rfl, by decide, by simp [IsStr], by simp, by decide⟩
  | obj0 h => exact ⟨_, _, rfl, by decide, by simp [IsStr], by simp, by decide⟩
  | obj h => exact ⟨_, _, rfl, by decide, by simp [IsStr], by simp, by decide⟩

theorem number_begins {x : Text} (hx : IsNumber x) : ∃ c t, x = c :: t ∧ isSpace c = false ∧ c ≠ 0x22 ∧ c ≠ 0x7B ∧ c ≠ 0x5B ∧ c ≠ 0x74 ∧
    c ≠ 0x66 ∧ c ≠ 0x6E := by
  obtain ⟨sign, w, f, e, rfl, hs, hne, hw, -, hf, he⟩ := hx
  cases w with
  | nil => exact absurd rfl hne
  | cons d w =>
    have := digit_facts (hw d (by simp))
    rcases hs with rfl | rfl
    · exact ⟨d, _, rfl, by simp [this]⟩
    · exact ⟨_, _, rfl, by decide⟩

/-! ### passing over a value -/

theorem val_spaces {a : Text} (ha : Spaces a) (fuel : Nat) (s : Text) : skipVal fuel (a ++ s) = skipVal fuel s := by
  cases fuel with
  | zero => rw [skipVal, skipVal]
  | succ fuel => rw [skipVal, skipVal, ws_spaces ha]

theorem items_begin {y : Text} {es : Elems} (h : Items y es) : ∃ a c t, y = a ++ c :: t ∧ Spaces a ∧ isSpace c = false ∧ c ≠ 0x5D := by
  cases h with
  | @one a x b v ha hx hb =>
    obtain ⟨c, t, rfl, hc⟩ := begins hx
    exact ⟨a, c, t ++ b, by simp, ha, hc.space, hc.close.1⟩
  | @more a x b v y es ha hx hb hy =>
    obtain ⟨c, t, rfl, hc⟩ := begins hx
    exact ⟨a, c, t ++ b ++ 0x2C :: y, by simp, ha, hc.space, hc.close.1⟩

theorem pairs_begin {y : Text} {ms : Members} (h : Pairs y ms) : ∃ a t, y = a ++ 0x22 :: t ∧ Spaces a := by
  cases h with
  | one ha => exact ⟨_, _, by rw [List.append_assoc, List.append_assoc]; rfl, ha⟩
  | more ha => exact ⟨_, _, by rw [List.append_assoc, List.append_assoc]; rfl, ha⟩

theorem consume_not {a : Text} (ha : Spaces a) {c d : UInt8} (hc : isSpace c = false) (hd : c ≠ d) (t : Text) :
    consume (a ++ c :: t) d = none := by rw [consume_spaces ha, consume_ne t hc hd]

theorem consume_hit {a : Text} (ha : Spaces a) {c : UInt8} (hc : isSpace c = false) (t : Text) :
    consume (a ++ c :: t) c = some t := by rw [consume_spaces ha, consume_of t hc]

theorem skip_all {x : Text} {v : Value} (h : Writes x v) :
    ∀ fuel, 2 * x.length ≤ fuel → ∀ rest, Stop rest → skipVal fuel (x ++ rest) = some rest := by
  refine Writes.rec
    (motive_1 := fun x _ _ => ∀ fuel, 2 * x.length ≤ fuel → ∀ rest, Stop rest → skipVal fuel (x ++ rest) = some rest)
    (motive_2 := fun y _ _ => ∀ fuel, 2 * y.length + 1 ≤ fuel → ∀ rest, skipElements fuel (y ++ 0x5D :: rest) = some rest)
    (motive_3 := fun y _ _ => ∀ fuel, 2 * y.length + 1 ≤ fuel → ∀ rest, skipMembers fuel (y ++ 0x7D :: rest) = some rest)
    ?_ ?_ ?_ ?_ ?_ ?_ ?_ ?_ ?_ ?_ ?_ ?_ ?_ h
  · intro fuel hf rest _
    obtain ⟨k, rfl⟩ : ∃ k, fuel = k + 1 := ⟨fuel - 1, by simp at hf; omega⟩
    rw [skipVal, List.cons_append, skipWs_of _ (by decide)]
    simp [skipLiteral, skipWs_of _ (show isSpace 0x6E = false by decide), matchLiteral]
  · intro fuel hf rest _
    obtain ⟨k, rfl⟩ : ∃ k, fuel = k + 1 := ⟨fuel - 1, by simp at hf; omega⟩
    rw [skipVal, List.cons_append, skipWs_of _ (by decide)]
    simp [skipLiteral, skipWs_of _ (show isSpace 0x74 = false by decide), matchLiteral]
  · intro fuel hf rest _
    obtain ⟨k, rfl⟩ : ∃ k, fuel = k + 1 := ⟨fuel - 1, by simp at hf; omega⟩
    rw [skipVal, List.cons_append, skipWs_of _ (by decide)]
    simp [skipLiteral, skipWs_of _ (show isSpace 0x66 = false by decide), matchLiteral]
  · intro x _ _ _ hx fuel hf rest hr
    have hn := number_pass hx hr
    obtain ⟨c, t, rfl, h0, h1, h2, h3, h4, h5, h6⟩ := number_begins hx
    obtain ⟨k, rfl⟩ : ∃ k, fuel = k + 1 := ⟨fuel - 1, by simp at hf; omega⟩
    rw [List.cons_append] at hn ⊢
    rw [skipVal, skipWs_of _ h0]
    simp only [if_neg h1, if_neg h2, if_neg h3, if_neg h4, if_neg h5, if_neg h6]
    exact hn
  · intro x s hx fuel hf rest hr
    obtain ⟨k, rfl⟩ : ∃ k, fuel = k + 1 := ⟨fuel - 1, by simp at hf; omega⟩
    obtain ⟨t, ht, -⟩ := string_chars hx
    rw [skipVal, List.cons_append, skipWs_of _ (by decide)]
    have := ht [] rest (by simp [Spaces])
    simp only [List.nil_append] at this
    simp only [if_pos, List.append_assoc, List.cons_append, List.nil_append, this, Option.map_some]
  · intro a ha fuel hf rest hr
    obtain ⟨k, rfl⟩ : ∃ k, fuel = k + 1 := ⟨fuel - 1, by simp at hf; omega⟩
    rw [skipVal, List.cons_append, skipWs_of _ (by decide)]
    have := consume_hit ha (show isSpace 0x5D = false by decide) rest
    simp [this]
  · intro y es hy ih fuel hf rest hr
    obtain ⟨k, rfl⟩ : ∃ k, fuel = k + 1 := ⟨fuel - 1, by simp at hf; omega⟩
    have ih := ih k (by simp at hf; omega) rest
    rw [skipVal, List.cons_append, skipWs_of _ (by decide)]
    obtain ⟨a, c, t, rfl, ha, hc, hc'⟩ := items_begin hy
    have := consume_not ha hc hc' (t ++ 0x5D :: rest)
    simp only [List.append_assoc, List.cons_append, List.nil_append] at ih ⊢
    simp [this, ih]
  · intro a ha fuel hf rest hr
    obtain ⟨k, rfl⟩ : ∃ k, fuel = k + 1 := ⟨fuel - 1, by simp at hf; omega⟩
    rw [skipVal, List.cons_append, skipWs_of _ (by decide)]
    have := consume_hit ha (show isSpace 0x7D = false by decide) rest
    simp [this]
  · intro y es hy ih fuel hf rest hr
    obtain ⟨k, rfl⟩ : ∃ k, fuel = k + 1 := ⟨fuel - 1, by simp at hf; omega⟩
    have ih := ih k (by simp at hf; omega) rest
    rw [skipVal, List.cons_append, skipWs_of _ (by decide)]
    obtain ⟨a, t, rfl, ha⟩ := pairs_begin hy
    have := consume_not ha (show isSpace 0x22 = false by decide) (show (0x22 : UInt8) ≠ 0x7D by decide) (t ++ 0x7D :: rest)
    simp only [List.append_assoc, List.cons_append, List.nil_append] at ih ⊢
    simp [this, ih]
  · intro a x b v ha hx hb ih fuel hf rest
    obtain ⟨k, rfl⟩ : ∃ k, fuel = k + 1 := ⟨fuel - 1, by omega⟩
    have ih := ih k (by simp at hf; omega) (b ++ 0x5D :: rest) (stop_of hb (by simp) rest)
    simp only [List.append_assoc]
    rw [skipElements, val_spaces ha, ih]
    simp only [consume_hit hb (show isSpace 0x5D = false by decide)]
  · intro a x b v y es ha hx hb hy ih ihy fuel hf rest
    obtain ⟨k, rfl⟩ : ∃ k, fuel = k + 1 := ⟨fuel - 1, by omega⟩
    have ih := ih k (by simp at hf; omega) (b ++ 0x2C :: (y ++ 0x5D :: rest)) (stop_of hb (by simp) _)
    have ihy := ihy k (by simp at hf; omega) rest
    simp only [List.append_assoc, List.cons_append]
    rw [skipElements, val_spaces ha, ih]
    simp only [consume_not hb (show isSpace 0x2C = false by decide) (show (0x2C : UInt8) ≠ 0x5D by decide),
      consume_hit hb (show isSpace 0x2C = false by decide), Option.bind_some, ihy]
  · intro a kx b c x d key v ha hk hb hc hx hd ih fuel hf rest
    obtain ⟨k, rfl⟩ : ∃ k, fuel = k + 1 := ⟨fuel - 1, by omega⟩
    have ih := ih k (by simp at hf; omega) (d ++ 0x7D :: rest) (stop_of hd (by simp) _)
    obtain ⟨t, ht, -⟩ := string_chars hk
    simp only [List.append_assoc, List.cons_append, List.nil_append]
    rw [skipMembers, ht _ _ ha]
    simp only [consume_hit hb (show isSpace 0x3A = false by decide), val_spaces hc, ih, consume_hit hd (show isSpace 0x7D = false by decide)]
  · intro a kx b c x d key v y ms ha hk hb hc hx hd hy ih ihy fuel hf rest
    obtain ⟨k, rfl⟩ : ∃ k, fuel = k + 1 := ⟨fuel - 1, by omega⟩
    have ih := ih k (by simp at hf; omega) (d ++ 0x2C :: (y ++ 0x7D :: rest)) (stop_of hd (by simp) _)
    have ihy := ihy k (by simp at hf; omega) rest
    obtain ⟨t, ht, -⟩ := string_chars hk
    simp only [List.append_assoc, List.cons_append, List.nil_append]
    rw [skipMembers, ht _ _ ha]
    simp only [consume_hit hb (show isSpace 0x3A = false by decide), val_spaces hc, ih,
      consume_not hd (show isSpace 0x2C = false by decide) (show (0x2C : UInt8) ≠ 0x7D by decide),
      consume_hit hd (show isSpace 0x2C = false by decide), Option.bind_some, ihy]

theorem skip_value {a x : Text} {v : Value} (ha : Spaces a) (h : Writes x v) {rest : Text} (hr : Stop rest) :
    skipValue (a ++ x ++ rest) = some rest := by
  unfold skipValue
  rw [List.append_assoc, val_spaces ha]
  exact skip_all h _ (by simp; omega) rest hr

end Verif.Member
