import Verif.Member.Read
/-
  Proofs about labels in any JSON (C82): what is written is JSON.
-/
namespace Verif.Member
open Verif.Text Verif.Label
open Verif.Json (Value Elems Members Space Spaces Digit Hex4 Chars hex escaped)

theorem escape_cases : ∀ n : Fin 256,
    (∃ e, escape (UInt8.ofNat n) = [0x5C, e] ∧ escaped e = some (UInt8.ofNat n)) ∨
    (∃ a b, escape (UInt8.ofNat n) = [0x5C, 0x75, 0x30, 0x30, a, b] ∧
      ∃ i j, hex a = some i ∧ hex b = some j ∧ i * 16 + j = n.val ∧ n.val < 0x20) ∨
    (escape (UInt8.ofNat n) = [UInt8.ofNat n] ∧ 0x20 ≤ UInt8.ofNat n ∧ UInt8.ofNat n ≠ 0x22 ∧ UInt8.ofNat n ≠ 0x5C) := by
  have h : ∀ n : Fin 256,
    (∃ e ∈ [0x22, 0x5C, 0x62, 0x66, 0x6E, 0x72, 0x74], escape (UInt8.ofNat n) = [0x5C, e] ∧ escaped e = some (UInt8.ofNat n)) ∨
    (escape (UInt8.ofNat n) = [0x5C, 0x75, 0x30, 0x30, hexDigit (UInt8.ofNat n / 16), hexDigit (UInt8.ofNat n % 16)] ∧
      hex (hexDigit (UInt8.ofNat n / 16)) = some (n.val / 16) ∧ hex (hexDigit (UInt8.ofNat n % 16)) = some (n.val % 16) ∧ n.val < 0x20) ∨
    (escape (UInt8.ofNat n) = [UInt8.ofNat n] ∧ 0x20 ≤ UInt8.ofNat n ∧ UInt8.ofNat n ≠ 0x22 ∧ UInt8.ofNat n ≠ 0x5C) := by decide +kernel
  intro n
  rcases h n with ⟨e, -, h1, h2⟩ | ⟨h1, h2, h3, h4⟩ | h
  · exact .inl ⟨e, h1, h2⟩
  · exact .inr (.inl ⟨_, _, h1, _, _, h2, h3, by omega, h4⟩)
  · exact .inr (.inr h)

/-- what is between the quotation marks denotes the string -/
theorem chars_escape : ∀ s : Text, Chars (s.flatMap escape) s
  | [] => .nil
  | c :: s => by
    have ih := chars_escape s
    have hc := escape_cases ⟨c.toNat, c.toNat_lt⟩
    simp only [UInt8.ofNat_toNat] at hc
    rw [List.flatMap_cons]
    rcases hc with ⟨e, h1, h2⟩ | ⟨a, b, h1, i, j, hi, hj, hn, hl⟩ | ⟨h1, h2, h3, h4⟩
    · rw [h1]; exact .short h2 ih
    · rw [h1]
      have h4 : Hex4 [0x30, 0x30, a, b] c.toNat :=
        ⟨0x30, 0x30, a, b, 0, 0, i, j, rfl, by decide, by decide, hi, hj, by omega⟩
      have := Chars.code h4 (.inl (by omega)) ih
      rw [encode_low (by omega), UInt8.ofNat_toNat] at this
      exact this
    · rw [h1]; exact .plain c h2 h3 h4 ih

theorem writes_quote (s : Text) : Writes (quote s) (.str s) := .str (chars_escape s)

/-- the parameters as the members of an object -/
def members : List (Text × Text) → Members
  | [] => .nil
  | (k, v) :: l => .cons k (.str v) (members l)

theorem spaces_of {a : Text} (h : a.all fun c => c == 0x20 || c == 0x0A) : Spaces a := by
  intro c hc
  have := List.all_eq_true.1 h c hc
  simp only [Bool.or_eq_true, beq_iff_eq] at this
  rcases this with rfl | rfl
  · exact .inl rfl
  · exact .inr (.inr (.inl rfl))

/-- between two parameters -/
theorem params_pairs : ∀ (l : List (Text × Text)) (k v a : Text), Spaces a →
    Pairs (a ++ quote k ++ [0x3A, 0x20] ++ quote v ++ (showParams false l ++ [0x0A, 0x20, 0x20])) (members ((k, v) :: l))
  | [], k, v, a, ha => by
    have := Pairs.one (b := []) (c := [0x20]) (d := [0x0A, 0x20, 0x20]) ha (chars_escape k) (spaces_of rfl) (spaces_of rfl) (writes_quote v) (spaces_of rfl)
    simpa [quote, showParams, members] using this
  | (k', v') :: l, k, v, a, ha => by
    have ih := params_pairs l k' v' [0x0A, 0x20, 0x20, 0x20, 0x20] (spaces_of rfl)
    have := Pairs.more (b := []) (c := [0x20]) (d := []) ha (chars_escape k) (spaces_of rfl) (spaces_of rfl) (writes_quote v) (spaces_of rfl) ih
    simpa [quote, showParams, members] using this

theorem params_writes (l : List (Text × Text)) :
    Writes (0x7B :: (0x0A :: (showParams true l ++ [0x0A, 0x20, 0x20]) ++ [0x7D])) (.obj (members l)) := by
  cases l with
  | nil => exact .obj0 (a := [0x0A, 0x0A, 0x20, 0x20]) (spaces_of rfl)
  | cons e l =>
    have := params_pairs l e.1 e.2 [0x0A, 0x20, 0x20, 0x20, 0x20] (spaces_of rfl)
    have := Writes.obj this
    simpa [quote, showParams, members] using this

theorem chars_plain {s : Text} (h : s.flatMap escape = s) : Chars s s := by
  have := chars_escape s
  rwa [h] at this

theorem label_writes (n t : Text) (ps : List (Text × Text)) :
    IsText (forager2json n t ps)
      (.obj (.cons name (.str n) (.cons tag (.str t) (.cons parameters (.obj (members ps)) .nil)))) := by
  have h3 := Pairs.one (a := [0x0A, 0x20, 0x20]) (b := []) (c := [0x20]) (d := [0x0A]) (spaces_of rfl)
    (chars_plain (s := parameters) (by decide)) (spaces_of rfl) (spaces_of rfl) (params_writes ps) (spaces_of rfl)
  have h2 := Pairs.more (a := [0x0A, 0x20, 0x20]) (b := []) (c := [0x20]) (d := []) (spaces_of rfl)
    (chars_plain (s := tag) (by decide)) (spaces_of rfl) (spaces_of rfl) (writes_quote t) (spaces_of rfl) h3
  have h1 := Pairs.more (a := [0x0A, 0x20, 0x20]) (b := []) (c := [0x20]) (d := []) (spaces_of rfl)
    (chars_plain (s := name) (by decide)) (spaces_of rfl) (spaces_of rfl) (writes_quote n) (spaces_of rfl) h2
  refine ⟨[], _, [0x0A], ?_, spaces_of rfl, Writes.obj h1, spaces_of rfl⟩
  simp [forager2json, quote, nameKey, tagKey, paramsKey, name, tag, parameters]

end Verif.Member
