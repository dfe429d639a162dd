import Verif.Json.Model
import Verif.Text.Clean
/-
  The texts that a document is stored as, the annotations made for it, and what turning the
  texts back gives.
-/
namespace Verif.Json
open Verif.Text Verif.Hopper

/-! ### turning stored texts back -/

def sp (pending : Bool) : Text := if pending then [0x20] else []

theorem isNext_ne {c : UInt8} (h : c ≠ 0xEF) (r : Text) (t : UInt8) : isNext (c :: r) t = false := by
  unfold isNext
  split
  · rename_i h1; injection h1 with h1 h2; subst h1
    simp [h]
  · rfl

theorem go_open_object (i p : Bool) (r : Text) :
    translateGo 0 i p (mark 0x90 ++ r) = sp p ++ 0x7B :: translateGo 0 i false r := by
  cases p <;> simp [translateGo, isNext, mark, sp]
theorem go_close_object (i p : Bool) (r : Text) :
    translateGo 0 i p (mark 0x91 ++ r) = sp p ++ 0x7D :: translateGo 0 i false r := by
  cases p <;> simp [translateGo, isNext, mark, sp]
theorem go_open_array (i p : Bool) (r : Text) :
    translateGo 0 i p (mark 0x92 ++ r) = sp p ++ 0x5B :: translateGo 0 i false r := by
  cases p <;> simp [translateGo, isNext, mark, sp]
theorem go_close_array (i p : Bool) (r : Text) :
    translateGo 0 i p (mark 0x93 ++ r) = sp p ++ 0x5D :: translateGo 0 i false r := by
  cases p <;> simp [translateGo, isNext, mark, sp]
theorem go_open_string (i p : Bool) (r : Text) :
    translateGo 0 i p (mark 0x94 ++ r) = sp p ++ 0x22 :: translateGo 0 true false r := by
  cases p <;> simp [translateGo, isNext, mark, sp]
theorem go_close_string (i p : Bool) (r : Text) :
    translateGo 0 i p (mark 0x95 ++ r) = sp p ++ 0x22 :: translateGo 0 false false r := by
  cases p <;> simp [translateGo, isNext, mark, sp]
theorem go_colon (i p : Bool) (r : Text) :
    translateGo 0 i p (mark 0x96 ++ r) = sp p ++ 0x3A :: translateGo 0 i false r := by
  cases p <;> simp [translateGo, isNext, mark, sp]
theorem go_comma (i p : Bool) (r : Text) :
    translateGo 0 i p (mark 0x97 ++ r) = sp p ++ 0x2C :: translateGo 0 i false r := by
  cases p <;> simp [translateGo, isNext, mark, sp]
theorem go_open_number (i p : Bool) (r : Text) :
    translateGo 0 i p (mark 0x98 ++ r) = sp p ++ translateGo 0 i false r := by
  cases p <;> simp [translateGo, isNext, mark, sp]
theorem go_close_number (i p : Bool) (r : Text) :
    translateGo 0 i p (mark 0x99 ++ r) = sp p ++ translateGo 0 i false r := by
  cases p <;> simp [translateGo, isNext, mark, sp]

theorem go_newline (i p : Bool) (r : Text) : translateGo 0 i p (0x0A :: r) = translateGo 0 i true r := by
  rw [translateGo.eq_def]
  simp only [isNext_ne (show (0x0A : UInt8) ≠ 0xEF by decide)]
  cases p <;> simp

theorem go_nil (k : Nat) (i p : Bool) : translateGo k i p [] = [] := by
  cases k <;> rfl

/-- a byte that is put out as it is, outside of strings -/
def Bare (c : UInt8) : Prop := c ≠ 0 ∧ c ≠ 0x20 ∧ c ≠ 0x0A ∧ c ≠ 0xEF

theorem go_bare {c : UInt8} (h : Bare c) (p : Bool) (r : Text) :
    translateGo 0 false p (c :: r) = sp p ++ c :: translateGo 0 false false r := by
  rw [translateGo.eq_def]
  simp only [isNext_ne h.2.2.2]
  cases p <;> simp [h.1, h.2.1, h.2.2.1, sp]

theorem go_word : ∀ {w : Text}, (∀ c ∈ w, Bare c) → ∀ r,
    translateGo 0 false false (w ++ r) = w ++ translateGo 0 false false r := by
  intro w
  induction w with
  | nil => intro _ r; rfl
  | cons c w ih =>
    intro h r
    rw [List.cons_append, go_bare (h c (List.mem_cons_self ..)),
      ih fun d hd => h d (List.mem_cons_of_mem _ hd)]
    rfl

/-- what is put out for the bytes of a string -/
def escapeByte (c : UInt8) : Text :=
  if c = 0x22 then [0x5C, 0x22] else if c = 0x5C then [0x5C, 0x5C] else [c]

theorem isNext_body {c : UInt8} {s r : Text} {t : UInt8} (h1 : 0x90 ≤ t) (h2 : t ≤ 0x99)
    (hf : ¬ [0xEF, 0xB7, t] <:+: c :: s) : isNext (c :: (s ++ (mark 0x95 ++ r))) t = false := by
  cases s with
  | nil => simp [isNext, mark]
  | cons b s =>
    cases s with
    | nil =>
      simp only [isNext, mark, List.cons_append, List.nil_append]
      have : ((0xEF : UInt8) == t) = false := by
        rw [beq_eq_false_iff_ne]; rintro rfl; revert h2; decide
      rw [this]; simp
    | cons d s =>
      simp only [isNext, List.cons_append]
      cases h : (c == 0xEF && b == 0xB7 && d == t) with
      | false => rfl
      | true =>
        simp only [Bool.and_eq_true, beq_iff_eq] at h
        obtain ⟨⟨rfl, rfl⟩, rfl⟩ := h
        exact absurd ⟨[], s, rfl⟩ hf

theorem go_body : ∀ {s : Text}, (∀ b ∈ s, (0x20 : UInt8) ≤ b) →
    (∀ t, (0x90 : UInt8) ≤ t → t ≤ 0x99 → ¬ [0xEF, 0xB7, t] <:+: s) → ∀ r,
    translateGo 0 true false (s ++ (mark 0x95 ++ r)) =
      (s.map escapeByte).flatten ++ 0x22 :: translateGo 0 false false r := by
  intro s
  induction s with
  | nil => intro _ _ r; rw [List.nil_append, go_close_string]; rfl
  | cons c s ih =>
    intro h1 h2 r
    have hc := h1 c (List.mem_cons_self ..)
    have hn : ∀ t, (0x90 : UInt8) ≤ t → t ≤ 0x99 → isNext (c :: (s ++ (mark 0x95 ++ r))) t = false :=
      fun t a b => isNext_body a b (h2 t a b)
    have c0 : c ≠ 0 := by rintro rfl; revert hc; decide
    have c1 : c ≠ 0x0A := by rintro rfl; revert hc; decide
    have i := ih (fun b hb => h1 b (List.mem_cons_of_mem _ hb))
      (fun t a b hx => h2 t a b (hx.trans (List.suffix_cons c s).isInfix)) r
    rw [List.cons_append, translateGo.eq_def]
    simp only [hn 0x90 (by decide) (by decide), hn 0x91 (by decide) (by decide),
      hn 0x92 (by decide) (by decide), hn 0x93 (by decide) (by decide),
      hn 0x94 (by decide) (by decide), hn 0x95 (by decide) (by decide),
      hn 0x96 (by decide) (by decide), hn 0x97 (by decide) (by decide),
      hn 0x98 (by decide) (by decide), hn 0x99 (by decide) (by decide), c0, c1]
    simp only [List.map_cons, List.flatten_cons, escapeByte]
    by_cases hq : c = 0x22
    · simp [hq, i]
    · by_cases hb : c = 0x5C
      · simp [hb, i]
      · simp [hq, hb, i]

/-- what is put out for a string writes it -/
theorem chars_escape : ∀ {s : Text}, (∀ b ∈ s, (0x20 : UInt8) ≤ b) → Chars (s.map escapeByte).flatten s := by
  intro s
  induction s with
  | nil => intro _; exact .nil
  | cons c s ih =>
    intro h
    have i := ih fun b hb => h b (List.mem_cons_of_mem _ hb)
    simp only [List.map_cons, List.flatten_cons, escapeByte]
    by_cases hq : c = 0x22
    · subst hq; exact .short rfl i
    · by_cases hb : c = 0x5C
      · subst hb; exact .short rfl i
      · rw [if_neg hq, if_neg hb]
        exact .plain c (h c (List.mem_cons_self ..)) hq hb i

/-! ### numbers -/

theorem value_append_one (w : Text) (d : UInt8) : value (w ++ [d]) = 10 * value w + (d.toNat - 48) := by
  simp [value, List.foldl_append]

theorem digit_of {n : Nat} (h : n < 10) : Digit (UInt8.ofNat (48 + n)) ∧ (UInt8.ofNat (48 + n)).toNat - 48 = n := by
  have e : (UInt8.ofNat (48 + n)).toNat = 48 + n := by
    rw [UInt8.toNat_ofNat']; exact Nat.mod_eq_of_lt (by omega)
  refine ⟨⟨?_, ?_⟩, by omega⟩
  · rw [UInt8.le_iff_toNat_le, e]; show 48 ≤ _; omega
  · rw [UInt8.le_iff_toNat_le, e]; show _ ≤ 57; omega

theorem decimalAux_spec : ∀ (f n : Nat), n < f → (∀ d ∈ decimalAux f n, Digit d) ∧
    value (decimalAux f n) = n ∧ decimalAux f n ≠ [] ∧
    ((decimalAux f n).head? = some 0x30 → decimalAux f n = [0x30]) ∧
    (0 < n → (decimalAux f n).head? ≠ some 0x30) := by
  intro f
  induction f with
  | zero => intro n h; omega
  | succ f ih =>
    intro n h
    unfold decimalAux
    split
    · rename_i hn
      obtain ⟨h1, h2⟩ := digit_of hn
      refine ⟨by intro d hd; rw [List.mem_singleton] at hd; subst hd; exact h1, ?_, by simp, ?_, ?_⟩
      · simp only [value, List.foldl_cons, List.foldl_nil, h2]; omega
      · intro hh; simp only [List.head?_cons, Option.some.injEq] at hh; rw [hh]
      · intro h0 hh
        simp only [List.head?_cons, Option.some.injEq] at hh
        rw [hh] at h2
        have : (0x30 : UInt8).toNat - 48 = 0 := rfl
        omega
    · rename_i hn
      obtain ⟨i1, i2, i3, i4, i5⟩ := ih (n / 10) (by omega)
      obtain ⟨h1, h2⟩ := digit_of (Nat.mod_lt n (show 0 < 10 by decide))
      have hh : (decimalAux f (n / 10) ++ [UInt8.ofNat (48 + n % 10)]).head? = (decimalAux f (n / 10)).head? := by
        cases hd : decimalAux f (n / 10) with
        | nil => exact absurd hd i3
        | cons a l => rfl
      refine ⟨?_, ?_, by simp, ?_, ?_⟩
      · intro d hd
        rw [List.mem_append, List.mem_singleton] at hd
        rcases hd with hd | rfl
        · exact i1 d hd
        · exact h1
      · rw [value_append_one, i2, h2]; omega
      · intro hx; rw [hh] at hx; exact absurd hx (i5 (by omega))
      · intro _; rw [hh]; exact i5 (by omega)

theorem decimal_spec (n : Nat) : (∀ d ∈ decimal n, Digit d) ∧ value (decimal n) = n ∧ decimal n ≠ [] ∧
    ((decimal n).head? = some 0x30 → decimal n = [0x30]) := by
  obtain ⟨h1, h2, h3, h4, -⟩ := decimalAux_spec (n + 1) n (by omega)
  exact ⟨h1, h2, h3, h4⟩

/-- the six decimals -/
def decimals (m : Nat) : Text :=
  [UInt8.ofNat (48 + m / 100000 % 10), UInt8.ofNat (48 + m / 10000 % 10),
   UInt8.ofNat (48 + m / 1000 % 10), UInt8.ofNat (48 + m / 100 % 10),
   UInt8.ofNat (48 + m / 10 % 10), UInt8.ofNat (48 + m % 10)]

theorem decimals_digits (m : Nat) : ∀ d ∈ decimals m, Digit d := by
  intro d hd
  simp only [decimals, List.mem_cons, List.not_mem_nil, or_false] at hd
  rcases hd with rfl | rfl | rfl | rfl | rfl | rfl <;>
    exact (digit_of (Nat.mod_lt _ (by decide))).1

theorem value_snoc6 (w : Text) (m : Nat) : value (w ++ decimals m) = value w * 10 ^ 6 + m % 10 ^ 6 := by
  have e : w ++ decimals m = w ++ [UInt8.ofNat (48 + m / 100000 % 10)] ++ [UInt8.ofNat (48 + m / 10000 % 10)] ++
      [UInt8.ofNat (48 + m / 1000 % 10)] ++ [UInt8.ofNat (48 + m / 100 % 10)] ++
      [UInt8.ofNat (48 + m / 10 % 10)] ++ [UInt8.ofNat (48 + m % 10)] := by
    simp [decimals]
  rw [e]
  simp only [value_append_one, (digit_of (Nat.mod_lt (m / 100000) (show 0 < 10 by decide))).2,
    (digit_of (Nat.mod_lt (m / 10000) (show 0 < 10 by decide))).2,
    (digit_of (Nat.mod_lt (m / 1000) (show 0 < 10 by decide))).2,
    (digit_of (Nat.mod_lt (m / 100) (show 0 < 10 by decide))).2,
    (digit_of (Nat.mod_lt (m / 10) (show 0 < 10 by decide))).2,
    (digit_of (Nat.mod_lt m (show 0 < 10 by decide))).2]
  have e1 : m / 10 / 10 = m / 100 := by omega
  omega

theorem number_printed (neg : Bool) (m : Nat) : Number (printed neg m) neg m := by
  obtain ⟨h1, h2, h3, h4⟩ := decimal_spec (m / 10 ^ 6)
  refine ⟨decimal (m / 10 ^ 6), decimals m, h1, decimals_digits m, h3, h4, ?_, ?_⟩
  · simp [printed, decimals]
  · rw [value_snoc6, h2]
    have := Nat.div_add_mod m (10 ^ 6)
    have e : (decimals m).length = 6 := rfl
    rw [e]
    congr 1
    omega

theorem digit_bare {d : UInt8} (h : Digit d) : Bare d := by
  obtain ⟨h1, h2⟩ := h
  refine ⟨?_, ?_, ?_, ?_⟩ <;> (rintro rfl; revert h1 h2; decide)

theorem printed_bare (neg : Bool) (m : Nat) : ∀ c ∈ printed neg m, Bare c := by
  obtain ⟨h1, -⟩ := decimal_spec (m / 10 ^ 6)
  intro c hc
  have e : printed neg m = (if neg then [0x2D] else []) ++ decimal (m / 10 ^ 6) ++ 0x2E :: decimals m := rfl
  rw [e, List.mem_append, List.mem_append, List.mem_cons] at hc
  rcases hc with (hc | hc) | rfl | hc
  · cases neg with
    | false => cases hc
    | true =>
      have : c = 0x2D := by simpa using hc
      subst this; unfold Bare; decide
  · exact digit_bare (h1 c hc)
  · unfold Bare; decide
  · exact digit_bare (decimals_digits m c hc)

/-! ### the texts of a document -/

mutual
/-- the texts that are appended for a value -/
def texts : Value → List Text
  | .null => [[0x6E, 0x75, 0x6C, 0x6C]]
  | .bool b => [if b then [0x74, 0x72, 0x75, 0x65] else [0x66, 0x61, 0x6C, 0x73, 0x65]]
  | .num _ neg m => [mark 0x98 ++ printed neg m ++ mark 0x99]
  | .str s => [mark 0x94 ++ s ++ mark 0x95]
  | .arr es => mark 0x92 :: (elemTexts true es ++ [mark 0x93])
  | .obj ms => mark 0x90 :: (memberTexts true ms ++ [mark 0x91])
def elemTexts : Bool → Elems → List Text
  | _, .nil => []
  | first, .cons v es => (if first then [] else [mark 0x97]) ++ texts v ++ elemTexts false es
def memberTexts : Bool → Members → List Text
  | _, .nil => []
  | first, .cons k v ms => (if first then [] else [mark 0x97]) ++
      (mark 0x94 ++ k ++ mark 0x95 ++ mark 0x96) :: (texts v ++ memberTexts false ms)
end

/-- what is stored for texts -/
def store (l : List Text) : Text := (l.map stored).flatten

theorem store_append (l r : List Text) : store (l ++ r) = store l ++ store r := by
  simp [store]

theorem store_cons (s : Text) (r : List Text) : store (s :: r) = stored s ++ store r := by
  simp [store]

theorem stored_mark (x : Text) {t : UInt8} (h : (0x80 : UInt8) ≤ t) : stored (x ++ mark t) = x ++ mark t ++ [0x0A] := by
  have e : (x ++ mark t).getLast? = some t := by
    rw [List.getLast?_append]; rfl
  have : separator t = false := by
    unfold separator
    rw [Bool.or_eq_false_iff, Bool.or_eq_false_iff]
    refine ⟨⟨?_, ?_⟩, ?_⟩ <;> (rw [beq_eq_false_iff_ne]; rintro rfl; revert h; decide)
  unfold stored ending
  rw [e]
  simp [this]

theorem stored_one {t : UInt8} (h : (0x80 : UInt8) ≤ t) : stored (mark t) = mark t ++ [0x0A] :=
  stored_mark [] h

theorem elemTexts_false (v : Value) (es : Elems) :
    elemTexts false (.cons v es) = mark 0x97 :: elemTexts true (.cons v es) := by
  simp [elemTexts]

theorem memberTexts_false (k : Text) (v : Value) (ms : Members) :
    memberTexts false (.cons k v ms) = mark 0x97 :: memberTexts true (.cons k v ms) := by
  simp [memberTexts]

theorem go_mark_line {t : UInt8} (h : (0x80 : UInt8) ≤ t) {o : UInt8}
    (hg : ∀ i p r, translateGo 0 i p (mark t ++ r) = sp p ++ o :: translateGo 0 i false r) (p : Bool) (r : Text) :
    translateGo 0 false p (stored (mark t) ++ r) = sp p ++ o :: translateGo 0 false true r := by
  rw [stored_one h, List.append_assoc, hg]
  rw [List.singleton_append, go_newline]

theorem spaces_nil : Spaces [] := fun b hb => by cases hb
theorem spaces_one : Spaces [0x20] := fun b hb => by rw [List.mem_singleton] at hb; exact Or.inl hb

mutual
/-- the stored texts of a value turn into a text that denotes it -/
theorem reads_value : (v : Value) → v.Fit → ∃ x, Denotes x v ∧
    ∀ p r, translateGo 0 false p (store (texts v) ++ r) = sp p ++ x ++ translateGo 0 false true r
  | .null, _ => ⟨_, .null, fun p r => by
      have : store (texts .null) = [0x6E, 0x75, 0x6C, 0x6C, 0x0A] := rfl
      rw [this]
      simp only [List.cons_append, List.nil_append]
      rw [go_bare (by unfold Bare; decide), go_bare (by unfold Bare; decide),
        go_bare (by unfold Bare; decide), go_bare (by unfold Bare; decide), go_newline]
      simp [sp]⟩
  | .bool true, _ => ⟨_, .true, fun p r => by
      have : store (texts (.bool true)) = [0x74, 0x72, 0x75, 0x65, 0x0A] := rfl
      rw [this]
      simp only [List.cons_append, List.nil_append]
      rw [go_bare (by unfold Bare; decide), go_bare (by unfold Bare; decide),
        go_bare (by unfold Bare; decide), go_bare (by unfold Bare; decide), go_newline]
      simp [sp]⟩
  | .bool false, _ => ⟨_, .false, fun p r => by
      have : store (texts (.bool false)) = [0x66, 0x61, 0x6C, 0x73, 0x65, 0x0A] := rfl
      rw [this]
      simp only [List.cons_append, List.nil_append]
      rw [go_bare (by unfold Bare; decide), go_bare (by unfold Bare; decide),
        go_bare (by unfold Bare; decide), go_bare (by unfold Bare; decide),
        go_bare (by unfold Bare; decide), go_newline]
      simp [sp]⟩
  | .num v neg m, _ => ⟨_, .num (number_printed neg m), fun p r => by
      have e : store (texts (.num v neg m)) = mark 0x98 ++ (printed neg m ++ (mark 0x99 ++ [0x0A])) := by
        show (([_] : List Text).map stored).flatten = _
        simp only [List.map_cons, List.map_nil, List.flatten_cons, List.flatten_nil, List.append_nil]
        rw [stored_mark _ (by decide)]
        simp only [List.append_assoc]
      rw [e, List.append_assoc, go_open_number, List.append_assoc, go_word (printed_bare neg m),
        List.append_assoc, go_close_number, List.singleton_append, go_newline]
      simp [sp]⟩
  | .str s, h => ⟨_, .str (chars_escape (s := s) (by simp only [Value.Fit] at h; exact h.printing)), fun p r => by
      simp only [Value.Fit] at h
      have e : store (texts (.str s)) = mark 0x94 ++ (s ++ (mark 0x95 ++ [0x0A])) := by
        show (([_] : List Text).map stored).flatten = _
        simp only [List.map_cons, List.map_nil, List.flatten_cons, List.flatten_nil, List.append_nil]
        rw [stored_mark _ (by decide)]
        simp only [List.append_assoc]
      rw [e, List.append_assoc, go_open_string, List.append_assoc, List.append_assoc, go_body h.printing h.free,
        List.singleton_append, go_newline]
      simp⟩
  | .arr .nil, _ => ⟨[0x5B, 0x20, 0x5D], .arr0 spaces_one, fun p r => by
      have e : store (texts (.arr .nil)) = stored (mark 0x92) ++ stored (mark 0x93) := by
        simp [texts, elemTexts, store]
      rw [e, List.append_assoc, go_mark_line (by decide) go_open_array, go_mark_line (by decide) go_close_array]
      simp [sp]⟩
  | .arr (.cons v es), h => by
      obtain ⟨x, hx, hr⟩ := reads_elems (.cons v es) (by simp) (by simp only [Value.Fit] at h; exact h)
      refine ⟨_, .arr (x := x ++ [0x20]) hx, fun p r => ?_⟩
      rw [texts, store_cons, store_append, List.append_assoc, go_mark_line (by decide) go_open_array,
        List.append_assoc, hr]
      have e : store [mark 0x93] = stored (mark 0x93) := by simp [store]
      rw [e, go_mark_line (by decide) go_close_array]
      simp [sp]
  | .obj .nil, _ => ⟨[0x7B, 0x20, 0x7D], .obj0 spaces_one, fun p r => by
      have e : store (texts (.obj .nil)) = stored (mark 0x90) ++ stored (mark 0x91) := by
        simp [texts, memberTexts, store]
      rw [e, List.append_assoc, go_mark_line (by decide) go_open_object, go_mark_line (by decide) go_close_object]
      simp [sp]⟩
  | .obj (.cons k v ms), h => by
      obtain ⟨x, hx, hr⟩ := reads_members (.cons k v ms) (by simp) (by simp only [Value.Fit] at h; exact h)
      refine ⟨_, .obj (x := x ++ [0x20]) hx, fun p r => ?_⟩
      rw [texts, store_cons, store_append, List.append_assoc, go_mark_line (by decide) go_open_object,
        List.append_assoc, hr]
      have e : store [mark 0x91] = stored (mark 0x91) := by simp [store]
      rw [e, go_mark_line (by decide) go_close_object]
      simp [sp]
theorem reads_elems : (es : Elems) → es ≠ .nil → es.Fit → ∃ x, Items (x ++ [0x20]) es ∧
    ∀ r, translateGo 0 false true (store (elemTexts true es) ++ r) = x ++ translateGo 0 false true r
  | .nil, h, _ => absurd rfl h
  | .cons v .nil, _, h => by
      simp only [Elems.Fit] at h
      obtain ⟨y, hy, hr⟩ := reads_value v h.1
      refine ⟨[0x20] ++ y, .one spaces_one hy spaces_one, fun r => ?_⟩
      have e : elemTexts true (.cons v .nil) = texts v := by simp [elemTexts]
      rw [e, hr]; rfl
  | .cons v (.cons w es), _, h => by
      simp only [Elems.Fit] at h
      obtain ⟨y, hy, hr⟩ := reads_value v h.1
      obtain ⟨z, hz, hs⟩ := reads_elems (.cons w es) (by simp) (by simp only [Elems.Fit]; exact h.2)
      refine ⟨[0x20] ++ y ++ [0x20] ++ 0x2C :: z, ?_, fun r => ?_⟩
      · have := Items.more spaces_one hy spaces_one hz
        simpa using this
      · have e : elemTexts true (.cons v (.cons w es)) = texts v ++ mark 0x97 :: elemTexts true (.cons w es) := by
          rw [← elemTexts_false]; rw [elemTexts]; simp
        rw [e, store_append, store_cons, List.append_assoc, hr, List.append_assoc (stored _),
          go_mark_line (by decide) go_comma, hs]
        simp [sp]
theorem reads_members : (ms : Members) → ms ≠ .nil → ms.Fit →
    ∃ x, Pairs (x ++ [0x20]) ms ∧
    ∀ r, translateGo 0 false true (store (memberTexts true ms) ++ r) = x ++ translateGo 0 false true r
  | .nil, h, _ => absurd rfl h
  | .cons k v .nil, _, h => by
      simp only [Members.Fit] at h
      obtain ⟨y, hy, hr⟩ := reads_value v h.2.1
      refine ⟨[0x20] ++ 0x22 :: ((k.map escapeByte).flatten ++ [0x22]) ++ 0x3A :: ([0x20] ++ y), ?_, fun r => ?_⟩
      · have := Pairs.one spaces_one (chars_escape h.1.printing) spaces_nil spaces_one hy spaces_one
        simpa using this
      · have e : memberTexts true (.cons k v .nil) = (mark 0x94 ++ k ++ mark 0x95 ++ mark 0x96) :: texts v := by
          simp [memberTexts]
        rw [e, store_cons, stored_mark _ (by decide)]
        simp only [List.append_assoc]
        rw [go_open_string, go_body h.1.printing h.1.free, go_colon, List.singleton_append, go_newline, hr]
        simp [sp]
  | .cons k v (.cons k' w ms), _, h => by
      simp only [Members.Fit] at h
      obtain ⟨y, hy, hr⟩ := reads_value v h.2.1
      obtain ⟨z, hz, hs⟩ := reads_members (.cons k' w ms) (by simp) (by simp only [Members.Fit]; exact h.2.2)
      refine ⟨[0x20] ++ 0x22 :: ((k.map escapeByte).flatten ++ [0x22]) ++ 0x3A :: ([0x20] ++ y ++ [0x20] ++ 0x2C :: z),
        ?_, fun r => ?_⟩
      · have := Pairs.more spaces_one (chars_escape h.1.printing) spaces_nil spaces_one hy spaces_one hz
        simpa using this
      · have e : memberTexts true (.cons k v (.cons k' w ms)) = (mark 0x94 ++ k ++ mark 0x95 ++ mark 0x96) ::
            (texts v ++ mark 0x97 :: memberTexts true (.cons k' w ms)) := by
          rw [← memberTexts_false]; rw [memberTexts]; simp
        rw [e, store_cons, store_append, store_cons, stored_mark _ (by decide)]
        simp only [List.append_assoc]
        rw [go_open_string, go_body h.1.printing h.1.free, go_colon, List.singleton_append, go_newline, hr]
        simp only [List.append_assoc]
        rw [go_mark_line (by decide) go_comma, hs]
        simp [sp]
end

end Verif.Json
