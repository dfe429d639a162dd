import Verif.Text.History
import Verif.Text.WordsProof
/-
  Which texts can be appended without their tokens running into those of the next text.
-/
namespace Verif.Text
open Verif.Hopper

theorem ascii_lawful (xml : Bool) : Lawful (ascii xml) :=
  ⟨fun s => ordered (ascii_follows xml) s, fun s => skips (ascii_follows xml) s⟩

theorem utf8_lawful (act : Nat → Action) : Lawful (utf8 act) :=
  ⟨fun s => ordered (utf8_follows act) s, fun s => skips (utf8_follows act) s⟩

/-- the three separators are no token characters -/
def Separates (act : Nat → Action) : Prop := act 0x20 = .non ∧ act 0x09 = .non ∧ act 0x0A = .non

theorem ascii_newline (xml : Bool) : NewlineGap (ascii xml) :=
  joins_of_breaks (ascii_follows xml) (ascii_breaks ⟨by decide, fun _ => rfl⟩ [])

theorem complete_nil : Complete [] := by
  intro c suf h
  have := h.length_le
  simp at this

theorem utf8_newline {act : Nat → Action} (h : Separates act) : NewlineGap (utf8 act) :=
  joins_of_breaks (utf8_follows act) (utf8_breaks (by decide) h.2.2 complete_nil)

/-- the text without the separator that ends it, if there is one -/
def body (s : Text) : Text :=
  match s.getLast? with
  | none => []
  | some c => if separator c then s.dropLast else s

/-- what `ending` and `body` say -/
theorem ending_cases (s : Text) : s = [] ∨ (ending s = [0x0A] ∧ body s = s) ∨
    ∃ c, (c = 0x20 ∨ c = 0x09 ∨ c = 0x0A) ∧ s = body s ++ [c] ∧ ending s = [] ∧ s.getLast? = some c := by
  unfold ending body
  cases h : s.getLast? with
  | none => left; exact List.getLast?_eq_none_iff.mp h
  | some c =>
    right
    simp only
    by_cases hc : separator c = true
    · right
      refine ⟨c, ?_, ?_, by rw [if_pos hc], rfl⟩
      · simp only [separator, Bool.or_eq_true, beq_iff_eq] at hc
        rcases hc with (h | h) | h
        · exact Or.inl h
        · exact Or.inr (Or.inl h)
        · exact Or.inr (Or.inr h)
      · rw [if_pos hc]
        obtain ⟨l, rfl⟩ := List.getLast?_eq_some_iff.mp h
        simp
    · left
      rw [if_neg hc, if_neg hc]; exact ⟨rfl, rfl⟩

theorem clean_nil {T : Tokenizer} (hT : Lawful T) : Clean T [] := whole_nil hT

theorem ascii_clean (s : Text) : Clean (ascii false) s := by
  rcases ending_cases s with rfl | ⟨h, -⟩ | ⟨c, hc, h1, h2, -⟩
  · exact clean_nil (ascii_lawful _)
  · unfold Clean; rw [h]
    exact joins_of_breaks (ascii_follows _) (ascii_breaks ⟨by decide, fun h => by cases h⟩ s)
  · unfold Clean; rw [h2, h1]
    refine joins_of_last (ascii_follows _) (ascii_breaks ⟨?_, fun h => by cases h⟩ _)
    rcases hc with rfl | rfl | rfl <;> decide

theorem xml_clean {s : Text} (hs : s.getLast? ≠ some 0x20 ∧ s.getLast? ≠ some 0x09) :
    Clean (ascii true) s := by
  rcases ending_cases s with rfl | ⟨h, -⟩ | ⟨c, hc, h1, h2, h3⟩
  · exact clean_nil (ascii_lawful _)
  · unfold Clean; rw [h]
    exact joins_of_breaks (ascii_follows _) (ascii_breaks ⟨by decide, fun _ => rfl⟩ s)
  · have hc' : c = 0x0A := by
      rcases hc with rfl | rfl | rfl
      · exact absurd h3 hs.1
      · exact absurd h3 hs.2
      · rfl
    subst hc'
    unfold Clean; rw [h2, h1]
    exact joins_of_last (ascii_follows _) (ascii_breaks ⟨by decide, fun _ => rfl⟩ _)

theorem utf8_clean {act : Nat → Action} (ha : Separates act) {s : Text} (hs : Complete (body s)) :
    Clean (utf8 act) s := by
  rcases ending_cases s with rfl | ⟨h, hb⟩ | ⟨c, hc, h1, h2, h3⟩
  · exact clean_nil (utf8_lawful _)
  · rw [hb] at hs
    unfold Clean; rw [h]
    exact joins_of_breaks (utf8_follows _) (utf8_breaks (by decide) ha.2.2 hs)
  · unfold Clean; rw [h2, h1]
    rcases hc with rfl | rfl | rfl
    · exact joins_of_last (utf8_follows _) (utf8_breaks (by decide) ha.1 hs)
    · exact joins_of_last (utf8_follows _) (utf8_breaks (by decide) ha.2.1 hs)
    · exact joins_of_last (utf8_follows _) (utf8_breaks (by decide) ha.2.2 hs)

/-! ### texts made of code points -/

theorem suffix_append {c : UInt8} {suf A B : Text} (h : c :: suf <:+ A ++ B) :
    c :: suf <:+ B ∨ ∃ suf', c :: suf' <:+ A ∧ suf = suf' ++ B := by
  obtain ⟨X, hX⟩ := h
  rcases List.append_eq_append_iff.mp hX with ⟨as, ha1, ha2⟩ | ⟨as, ha1, ha2⟩
  · cases as with
    | nil => left; exact ⟨[], by simpa using ha2⟩
    | cons d as =>
      simp only [List.cons_append] at ha2
      injection ha2 with i1 i2
      subst i1
      exact Or.inr ⟨as, ⟨X, ha1.symm⟩, i2⟩
  · exact Or.inl ⟨as, ha2.symm⟩

theorem need_low : ∀ n : Fin 256, n.val < 0xC0 → need (UInt8.ofNat n.val) = 1 := by decide +kernel
theorem need_2 : ∀ n : Fin 256, n.val < 0xE0 → need (UInt8.ofNat n.val) ≤ 2 := by decide +kernel
theorem need_3 : ∀ n : Fin 256, n.val < 0xF0 → need (UInt8.ofNat n.val) ≤ 3 := by decide +kernel
theorem need_4 : ∀ n : Fin 256, need (UInt8.ofNat n.val) ≤ 4 := by decide +kernel

theorem complete_one (a : Nat) (h : a < 0xC0) : Complete [UInt8.ofNat a] := by
  intro c suf hs
  have hn : need (UInt8.ofNat a) = 1 := need_low ⟨a, by omega⟩ h
  obtain ⟨X, hX⟩ := hs
  cases X with
  | nil => simp only [List.nil_append] at hX; injection hX with h1 h2; subst h1; omega
  | cons x X => have := congrArg List.length hX; simp at this

theorem complete_cons {a : Nat} {s : Text} (h : need (UInt8.ofNat a) ≤ s.length + 1) (hs : Complete s) :
    Complete (UInt8.ofNat a :: s) := by
  intro c suf hx
  obtain ⟨X, hX⟩ := hx
  cases X with
  | nil => simp only [List.nil_append] at hX; injection hX with h1 h2; subst h1; subst h2; exact h
  | cons x X =>
    simp only [List.cons_append] at hX
    injection hX with h1 h2
    exact hs c suf ⟨X, h2⟩

theorem complete_encode (c : Nat) : Complete (encode c) := by
  unfold encode
  split
  · exact complete_one _ (by omega)
  · split
    · refine complete_cons (need_2 ⟨_, ?_⟩ ?_) (complete_one _ ?_)
      · omega
      · simp only; omega
      · omega
    · split
      · refine complete_cons (need_3 ⟨_, ?_⟩ ?_) (complete_cons ?_ (complete_one _ ?_))
        · omega
        · simp only; omega
        · rw [need_low ⟨c / 64 % 64 + 0x80, by omega⟩ (by simp only; omega)]; simp
        · omega
      · split
        · refine complete_cons (need_4 ⟨_, ?_⟩) (complete_cons ?_ (complete_cons ?_ (complete_one _ ?_)))
          · omega
          · rw [need_low ⟨c / 4096 % 64 + 0x80, by omega⟩ (by simp only; omega)]; simp
          · rw [need_low ⟨c / 64 % 64 + 0x80, by omega⟩ (by simp only; omega)]; simp
          · omega
        · exact complete_one 0x20 (by decide)

theorem complete_append {A B : Text} (hA : Complete A) (hB : Complete B) : Complete (A ++ B) := by
  intro c suf h
  rcases suffix_append h with h1 | ⟨suf', h1, rfl⟩
  · exact hB c suf h1
  · have := hA c suf' h1
    simp; omega

/-- a text of code points is complete -/
theorem complete_text (cs : List Nat) : Complete (cs.map encode).flatten := by
  induction cs with
  | nil => exact complete_nil
  | cons c cs ih => exact complete_append (complete_encode c) ih

theorem encode_last (c : Nat) : ∃ l b, encode c = l ++ [b] ∧ (b < 0x80 → l = []) := by
  have hi : ∀ n : Nat, n < 256 → 0x80 ≤ n → ¬ UInt8.ofNat n < 0x80 := by
    intro n h1 h2
    rw [UInt8.lt_iff_toNat_lt]
    simp only [UInt8.toNat_ofNat']
    show ¬ n % 256 < 128
    omega
  unfold encode
  split
  · exact ⟨[], _, rfl, fun _ => rfl⟩
  · split
    · exact ⟨[_], _, rfl, fun h => absurd h (hi _ (by omega) (by omega))⟩
    · split
      · exact ⟨[_, _], _, rfl, fun h => absurd h (hi _ (by omega) (by omega))⟩
      · split
        · exact ⟨[_, _, _], _, rfl, fun h => absurd h (hi _ (by omega) (by omega))⟩
        · exact ⟨[], _, rfl, fun _ => rfl⟩

/-- and so it is without the separator at its end -/
theorem complete_body (cs : List Nat) : Complete (body (cs.map encode).flatten) := by
  rcases ending_cases (cs.map encode).flatten with h | ⟨-, h⟩ | ⟨c, hc, h1, -, h3⟩
  · rw [h]; exact complete_nil
  · rw [h]; exact complete_text cs
  · by_cases hne : cs = []
    · subst hne; cases h3
    · obtain ⟨l, d, rfl⟩ : ∃ l d, cs = l ++ [d] := ⟨_, _, (List.dropLast_concat_getLast hne).symm⟩
      obtain ⟨e, b, he, hb⟩ := encode_last d
      have hfl : ((l ++ [d]).map encode).flatten = (l.map encode).flatten ++ e ++ [b] := by
        simp [he]
      rw [hfl] at h1 h3 ⊢
      have hbc : b = c := by simpa using h3
      have hlt : b < 0x80 := by
        rw [hbc]; rcases hc with rfl | rfl | rfl <;> decide
      rw [hb hlt, List.append_nil] at h1 ⊢
      have := (List.append_inj' h1 rfl).1
      rw [← this]
      exact complete_text l

end Verif.Text
