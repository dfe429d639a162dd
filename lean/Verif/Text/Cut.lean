import Verif.Text.Clean
/-
  A text cut where a token starts: the tokens of the two parts are the tokens of the text.
-/
namespace Verif.Text

/-- cutting a text at the start of a token does not change its tokens -/
def Cuts (T : Tokenizer) : Prop := ∀ s n, T.At s n →
  T.addresses (s.take (T.skip s n)) = n ∧
  T.tokenize s = T.tokenize (s.take (T.skip s n)) ++
    (T.tokenize (s.drop (T.skip s n))).map (Tok.moved n (T.skip s n))

/-- an item depends only on the bytes it passes over -/
def Local (S : Scanner) : Prop := ∀ x y, x ≠ [] → (S.item (x ++ y)).1 ≤ x.length → S.item x = S.item (x ++ y)

theorem width_append_le (l r : List Item) : width l ≤ width (l ++ r) := by
  induction l with
  | nil => simp [width]
  | cons j l ih => simp only [List.cons_append, width]; omega

theorem items_split {S : Scanner} (hS : Local S) : ∀ (l r : List Item) (s : Text),
    S.items s.length s = l ++ r →
    S.items (s.take (width l)).length (s.take (width l)) = l ∧
    S.items (s.drop (width l)).length (s.drop (width l)) = r
  | [], r, s, h => by
    simp only [width, List.take_zero, List.drop_zero]
    exact ⟨rfl, by simpa using h⟩
  | i :: l, r, s, h => by
    cases s with
    | nil => simp [Scanner.items] at h
    | cons c cs =>
      rw [items_cons] at h
      simp only [List.cons_append] at h
      injection h with h1 h2
      obtain ⟨ih1, ih2⟩ := items_split hS l r _ h2
      have hp : 1 ≤ (S.item (c :: cs)).1 := S.pos c cs
      have hw := width_items S _ ((c :: cs).drop (S.item (c :: cs)).1) (Nat.le_refl _)
      rw [h2, List.length_drop] at hw
      have hwl : width l ≤ width (l ++ r) := width_append_le l r
      have hle : (S.item (c :: cs)).1 ≤ (c :: cs).length := S.le c cs
      subst h1
      have ew : width (S.item (c :: cs) :: l) = (S.item (c :: cs)).1 + width l := rfl
      rw [ew]
      have hx : ((c :: cs).take ((S.item (c :: cs)).1 + width l)) ≠ [] := by
        intro h0
        have := congrArg List.length h0
        simp only [List.length_take, List.length_nil] at this
        omega
      have hi : S.item ((c :: cs).take ((S.item (c :: cs)).1 + width l)) = S.item (c :: cs) := by
        have := hS ((c :: cs).take ((S.item (c :: cs)).1 + width l)) ((c :: cs).drop ((S.item (c :: cs)).1 + width l)) hx
          (by rw [List.take_append_drop, List.length_take]; omega)
        rw [this, List.take_append_drop]
      refine ⟨?_, ?_⟩
      · cases hy : (c :: cs).take ((S.item (c :: cs)).1 + width l) with
        | nil => exact absurd hy hx
        | cons d ds =>
          rw [items_cons, ← hy, hi]
          congr 1
          rw [List.drop_take]
          have : (S.item (c :: cs)).1 + width l - (S.item (c :: cs)).1 = width l := by omega
          rw [this]
          exact ih1
      · rw [← List.drop_drop]; exact ih2

theorem skipOf_split : ∀ {l : List Item} {n : Nat}, n < count l → ∃ a b, l = a ++ b ∧ skipOf l n = width a ∧ count a = n
  | [], n, h => by simp [count] at h
  | (k, []) :: r, n, h => by
    obtain ⟨a, b, h1, h2, h3⟩ := skipOf_split (l := r) (n := n) (by simpa [count] using h)
    exact ⟨(k, []) :: a, b, by rw [h1]; rfl, by simp only [skipOf, width, h2], by simpa [count] using h3⟩
  | (k, w :: ws) :: r, n, h => by
    cases n with
    | zero => exact ⟨[], (k, w :: ws) :: r, rfl, by simp [skipOf, width], rfl⟩
    | succ n =>
      obtain ⟨a, b, h1, h2, h3⟩ := skipOf_split (l := r) (n := n) (by simp [count] at h; omega)
      refine ⟨(k, w :: ws) :: a, b, by rw [h1]; rfl, ?_, by simp [count, h3]⟩
      simp only [skipOf, width]
      rw [if_neg (by omega)]
      have : ((n + 1 : Nat) : Int) - 1 = n := by omega
      rw [this, h2]

theorem cuts_of_local {S : Scanner} {T : Tokenizer} (h : Follows S T) (hS : Local S) : Cuts T := by
  intro s n hn
  rw [at_iff h] at hn
  obtain ⟨a, b, h1, h2, h3⟩ := skipOf_split hn
  obtain ⟨k1, k2⟩ := items_split hS a b s h1
  rw [h.skip, h2, addresses_eq h, h.tokenize, h.tokenize, h.tokenize, k1, k2, h1, tokensOf_append, h3]
  refine ⟨rfl, ?_⟩
  congr 1
  exact tokensOf_moved b 0 0 n (width a)

/-! ### ASCII -/

theorem tw_cut {p : UInt8 → Bool} {a b : Text} (h : ((a ++ b).takeWhile p).length < a.length ∨
    (a.takeWhile p).length < a.length) : (a ++ b).takeWhile p = a.takeWhile p := by
  rw [List.takeWhile_append] at h ⊢
  split
  · rename_i h1
    rw [if_pos h1] at h
    simp only [List.length_append] at h
    omega
  · rfl

theorem tw_cut_le {p : UInt8 → Bool} {a b : Text} (h : ((a ++ b).takeWhile p).length ≤ a.length) :
    (a ++ b).takeWhile p = a.takeWhile p := by
  rw [List.takeWhile_append] at h ⊢
  split
  · rename_i h1
    rw [if_pos h1] at h
    simp only [List.length_append] at h
    have h2 : b.takeWhile p = [] := List.length_eq_zero_iff.mp (by omega)
    rw [h2, List.append_nil]
    exact ((List.takeWhile_prefix p).eq_of_length h1).symm
  · rfl

theorem get_lt {x y : Text} {i : Nat} (h : i < x.length) : (x ++ y)[i]? = x[i]? := List.getElem?_append_left h

/-- what it means that a tag closes -/
theorem tagClose_iff {s : Text} {q q' r : Nat} : tagClose s q = some (q', r) ↔ q' = q ∧
    (∃ d, s[q]? = some d ∧ d ≠ 0x0A) ∧
    r = q + ((s.drop q).takeWhile fun c => c != 0x0A && c != 0x3E).length ∧ s[r]? = some 0x3E := by
  unfold tagClose
  cases h : s[q]? with
  | none => simp
  | some d =>
    simp only
    split
    · rename_i hd
      subst hd
      simp
    · rename_i hd
      split
      · rename_i hr
        constructor
        · intro e
          simp only [Option.some.injEq, Prod.mk.injEq] at e
          obtain ⟨rfl, rfl⟩ := e
          exact ⟨rfl, ⟨d, rfl, hd⟩, rfl, hr⟩
        · rintro ⟨rfl, -, rfl, -⟩; rfl
      · rename_i hr
        constructor
        · intro e; cases e
        · rintro ⟨-, -, rfl, h'⟩; exact absurd h' hr

theorem tagClose_cut {x y : Text} {q q' r : Nat} (hr : r < x.length) :
    tagClose (x ++ y) q = some (q', r) ↔ tagClose x q = some (q', r) := by
  rw [tagClose_iff, tagClose_iff]
  constructor
  · rintro ⟨rfl, ⟨d, h1, h2⟩, h3, h4⟩
    have hq : q' ≤ r := by omega
    rw [get_lt (by omega)] at h1
    rw [drop_le (by omega)] at h3
    rw [tw_cut (Or.inl (by rw [List.length_drop]; omega))] at h3
    rw [get_lt hr] at h4
    exact ⟨rfl, ⟨d, h1, h2⟩, h3, h4⟩
  · rintro ⟨rfl, ⟨d, h1, h2⟩, h3, h4⟩
    have hq : q' ≤ r := by omega
    refine ⟨rfl, ⟨d, by rw [get_lt (by omega)]; exact h1, h2⟩, ?_, by rw [get_lt hr]; exact h4⟩
    rw [drop_le (by omega), tw_cut (Or.inr (by rw [List.length_drop]; omega))]
    exact h3

theorem tagEnd_iff {s : Text} {q r : Nat} : tagEnd s = some (q, r) ↔
    ∃ k, k = (if s[1]? = some 0x2F then 2 else 1) ∧ (∃ c, s[k]? = some c ∧ tagInitial c = true) ∧
      tagClose s (k + 1 + ((s.drop (k + 1)).takeWhile tagCharacter).length) = some (q, r) := by
  unfold tagEnd
  simp only
  generalize (if s[1]? = some 0x2F then 2 else 1) = k
  cases h : s[k]? with
  | none => simp [h]
  | some c =>
    by_cases hc : tagInitial c = true
    · simp [h, hc]
    · simp [h, hc]

theorem tagEnd_cut {x y : Text} {q r : Nat} (hr : r < x.length) :
    tagEnd (x ++ y) = some (q, r) ↔ tagEnd x = some (q, r) := by
  rw [tagEnd_iff, tagEnd_iff]
  have hk : ∀ (s : Text), 1 ≤ (if s[1]? = some (0x2F : UInt8) then 2 else 1) := by intro s; split <;> omega
  constructor
  · rintro ⟨k, h1, ⟨c, h2, h3⟩, h4⟩
    have h5 := (tagClose_iff.mp h4)
    have h6 : k + 1 ≤ r := by omega
    have h7 : ((x ++ y).drop (k + 1)).takeWhile tagCharacter = (x.drop (k + 1)).takeWhile tagCharacter := by
      rw [drop_le (by omega)]
      apply tw_cut
      left
      rw [← drop_le (by omega), List.length_drop]
      omega
    have hk1 : 1 ≤ k := by rw [h1]; exact hk _
    rw [h7, tagClose_cut hr] at h4
    exact ⟨k, by rw [h1, get_lt (by omega)], ⟨c, by rw [← h2, get_lt (by omega)], h3⟩, h4⟩
  · rintro ⟨k, h1, ⟨c, h2, h3⟩, h4⟩
    have h5 := (tagClose_iff.mp h4)
    have h6 : k + 1 ≤ r := by omega
    have h7 : ((x ++ y).drop (k + 1)).takeWhile tagCharacter = (x.drop (k + 1)).takeWhile tagCharacter := by
      rw [drop_le (by omega)]
      apply tw_cut
      right
      rw [List.length_drop]
      omega
    have hk1 : 1 ≤ k := by rw [h1]; exact hk _
    refine ⟨k, by rw [h1, get_lt (by omega)], ⟨c, by rw [← h2, get_lt (by omega)], h3⟩, ?_⟩
    rw [h7, tagClose_cut hr]
    exact h4

theorem entityEnd_iff {s : Text} {q : Nat} : entityEnd s = some q ↔
    q = 1 + ((s.drop 1).takeWhile fun c => c != 0x20 && c != 0x0A && c != 0x3B).length ∧ s[q]? = some 0x3B := by
  unfold entityEnd
  simp only
  split
  · rename_i h
    constructor
    · intro e; cases e; exact ⟨rfl, h⟩
    · rintro ⟨rfl, -⟩; rfl
  · rename_i h
    constructor
    · intro e; cases e
    · rintro ⟨rfl, h'⟩; exact absurd h' h

theorem entityEnd_cut {x y : Text} {q : Nat} (hq : q < x.length) :
    entityEnd (x ++ y) = some q ↔ entityEnd x = some q := by
  rw [entityEnd_iff, entityEnd_iff]
  constructor
  · rintro ⟨h1, h2⟩
    rw [drop_le (by omega)] at h1
    rw [tw_cut (Or.inl (by rw [List.length_drop]; omega))] at h1
    exact ⟨h1, by rw [← h2, get_lt hq]⟩
  · rintro ⟨h1, h2⟩
    refine ⟨?_, by rw [get_lt hq]; exact h2⟩
    rw [drop_le (by omega), tw_cut (Or.inr (by rw [List.length_drop]; omega))]
    exact h1

theorem ascii_local (xml : Bool) : Local (asciiScan xml) := by
  intro x y hx h
  change asciiItem xml x = asciiItem xml (x ++ y)
  change (asciiItem xml (x ++ y)).1 ≤ x.length at h
  have hh : (x ++ y).headD 0 = x.headD 0 := by
    cases x with
    | nil => exact absurd rfl hx
    | cons c cs => rfl
  unfold asciiItem at h ⊢
  rw [hh] at h ⊢
  split
  · rename_i h1
    rw [if_pos h1] at h
    rw [tw_cut_le h]
  · rename_i h1
    rw [if_neg h1] at h
    split
    · rename_i h2
      rw [if_pos h2] at h
      cases ht : tagEnd (x ++ y) with
      | some qr =>
        obtain ⟨q, r⟩ := qr
        rw [ht] at h
        have hle := tagEnd_le ht
        rw [(tagEnd_cut h).mp ht]
        simp only
        rw [List.take_append_of_le_length (by simp only at h; omega)]
      | none =>
        cases ht' : tagEnd x with
        | none => rfl
        | some qr =>
          have := (tagEnd_cut (y := y) (tagEnd_lt ht')).mpr ht'
          rw [ht] at this
          cases this
    · rename_i h2
      rw [if_neg h2] at h
      split
      · rename_i h3
        rw [if_pos h3] at h
        cases ht : entityEnd (x ++ y) with
        | some q =>
          rw [ht] at h
          rw [(entityEnd_cut h).mp ht]
        | none =>
          cases ht' : entityEnd x with
          | none => rfl
          | some q =>
            have := (entityEnd_cut (y := y) (entityEnd_lt ht')).mpr ht'
            rw [ht] at this
            cases this
      · rfl

theorem ascii_cuts (xml : Bool) : Cuts (ascii xml) := cuts_of_local (ascii_follows xml) (ascii_local xml)

/-! ### UTF-8 -/

theorem decode_short {d : UInt8} {s : Text} (h : ¬ need d ≤ s.length + 1) : decode (d :: s) = (0x20, 1) := by
  unfold need at h
  have c0 : (d < 0xC0) ↔ d.toNat < 0xC0 := by rw [UInt8.lt_iff_toNat_lt]; rfl
  have c1 : (d < 0xE0) ↔ d.toNat < 0xE0 := by rw [UInt8.lt_iff_toNat_lt]; rfl
  have c2 : (d < 0xF0) ↔ d.toNat < 0xF0 := by rw [UInt8.lt_iff_toNat_lt]; rfl
  have c3 : (d < 0xF8) ↔ d.toNat < 0xF8 := by rw [UInt8.lt_iff_toNat_lt]; rfl
  simp only [c0, c1, c2, c3] at h
  have hd : (d :: s).getD 0 0 = d := rfl
  unfold decode
  simp only [hd, List.length_cons]
  split at h
  · omega
  · have a0 : ¬ d.toNat < 0x80 := by omega
    have a1 : 0xC0 ≤ d.toNat := by omega
    split at h
    · rename_i h1
      have : s.length + 1 < 2 := by omega
      simp [a0, a1, h1, this]
    · split at h
      · rename_i h1 h2
        have a2 : 0xE0 ≤ d.toNat := by omega
        have : s.length + 1 < 3 := by omega
        simp [a0, a1, a2, h1, h2, this]
      · split at h
        · rename_i h1 h2 h3
          have a2 : 0xF0 ≤ d.toNat := by omega
          have : s.length + 1 < 4 := by omega
          simp [a0, a2, h1, h2, h3, this]
        · omega

theorem decode_width {d : UInt8} {s : Text} (h : need d ≤ s.length + 1) : (decode (d :: s)).2 = need d := by
  unfold need at h ⊢
  have c0 : (d < 0xC0) ↔ d.toNat < 0xC0 := by rw [UInt8.lt_iff_toNat_lt]; rfl
  have c1 : (d < 0xE0) ↔ d.toNat < 0xE0 := by rw [UInt8.lt_iff_toNat_lt]; rfl
  have c2 : (d < 0xF0) ↔ d.toNat < 0xF0 := by rw [UInt8.lt_iff_toNat_lt]; rfl
  have c3 : (d < 0xF8) ↔ d.toNat < 0xF8 := by rw [UInt8.lt_iff_toNat_lt]; rfl
  simp only [c0, c1, c2, c3] at h ⊢
  have hd : (d :: s).getD 0 0 = d := rfl
  unfold decode
  simp only [hd, List.length_cons]
  by_cases h1 : d.toNat < 0xC0
  · have a1 : ¬ 0xC0 ≤ d.toNat := by omega
    have a2 : ¬ 0xE0 ≤ d.toNat := by omega
    have a3 : ¬ 0xF0 ≤ d.toNat := by omega
    simp only [h1, a1, a2, a3, decide_false, Bool.false_and, if_true]
    split <;> rfl
  · have a0 : ¬ d.toNat < 0x80 := by omega
    have a1 : 0xC0 ≤ d.toNat := by omega
    by_cases h2 : d.toNat < 0xE0
    · simp only [h1, h2, if_true, if_false] at h
      have : ¬ s.length + 1 < 2 := by omega
      simp [a0, a1, h1, h2, this]
    · by_cases h3 : d.toNat < 0xF0
      · simp only [h1, h2, h3, if_true, if_false] at h
        have a2 : 0xE0 ≤ d.toNat := by omega
        have : ¬ s.length + 1 < 3 := by omega
        simp [a0, a1, a2, h1, h2, h3, this]
      · by_cases h4 : d.toNat < 0xF8
        · simp only [h1, h2, h3, h4, if_true, if_false] at h
          have a2 : 0xF0 ≤ d.toNat := by omega
          have : ¬ s.length + 1 < 4 := by omega
          simp [a0, a2, h1, h2, h3, h4, this]
        · simp [a0, h1, h2, h3, h4]

theorem decode_cut {d : UInt8} {s y : Text} :
    decode (d :: s ++ y) = decode (d :: s) ∨
    (s.length + 1 < (decode (d :: s ++ y)).2 ∧ decode (d :: s) = (0x20, 1)) := by
  by_cases h : need d ≤ s.length + 1
  · exact Or.inl (decode_app y h)
  · have h1 := decode_short h
    by_cases h2 : need d ≤ (s ++ y).length + 1
    · right
      rw [List.cons_append, decode_width h2]
      exact ⟨by omega, h1⟩
    · left
      rw [List.cons_append, decode_short h2, h1]

variable {act : Nat → Action}

theorem runOf_zero {s : Text} (h : (runOf act s).1 = 0) : runOf act s = (0, []) := by
  cases s with
  | nil => rfl
  | cons c cs =>
    have h1 := decode_pos (c :: cs)
    rw [runOf_cons] at h ⊢
    split
    · rename_i e; simp only [e] at h; omega
    · rename_i e; simp only [e] at h; omega
    · rfl

theorem runOf_cut (ha : act 0x20 = .non) (y : Text) : ∀ (n : Nat) (x : Text), x.length ≤ n →
    (runOf act (x ++ y)).1 ≤ x.length → runOf act x = runOf act (x ++ y) := by
  intro n
  induction n with
  | zero =>
    intro x hx h
    have : x = [] := List.length_eq_zero_iff.mp (by omega)
    subst this
    rw [List.nil_append] at h ⊢
    rw [runOf_zero (s := y) (by simpa using h)]; rfl
  | succ n ih =>
    intro x hx h
    cases x with
    | nil =>
      rw [List.nil_append] at h ⊢
      rw [runOf_zero (s := y) (by simpa using h)]; rfl
    | cons d s =>
      have h1 := decode_pos (d :: s)
      have h2 := decode_le d s
      rw [List.cons_append, runOf_cons, ← List.cons_append] at h
      rw [List.cons_append, runOf_cons, runOf_cons, ← List.cons_append]
      rcases decode_cut (d := d) (s := s) (y := y) with e | ⟨e1, e2⟩
      · rw [e] at h ⊢
        rw [drop_le (by simpa using h2), List.take_append_of_le_length (by simpa using h2)] at *
        have key : (decode (d :: s)).2 + (runOf act ((d :: s).drop (decode (d :: s)).2 ++ y)).1 ≤ (d :: s).length →
            runOf act ((d :: s).drop (decode (d :: s)).2 ++ y) = runOf act ((d :: s).drop (decode (d :: s)).2) := by
          intro hk
          refine (ih _ ?_ ?_).symm
          · simp only [List.length_drop, List.length_cons] at hx ⊢; omega
          · simp only [List.length_drop] at hk ⊢; omega
        split
        · rename_i he; simp only [he] at h; rw [key h]
        · rename_i b he; simp only [he] at h; rw [key h]
        · rfl
      · rw [e2]
        simp only [ha]
        split
        · rename_i he; simp only [he, List.length_cons] at h; omega
        · rename_i b he; simp only [he, List.length_cons] at h; omega
        · rfl

theorem utf8_local (ha : act 0x20 = .non) : Local (utf8Scan act) := by
  intro x y hx h
  change utf8Item act x = utf8Item act (x ++ y)
  change (utf8Item act (x ++ y)).1 ≤ x.length at h
  cases x with
  | nil => exact absurd rfl hx
  | cons d s =>
    have hlen : (decode (d :: s ++ y)).2 ≤ (utf8Item act (d :: s ++ y)).1 := by
      unfold utf8Item
      split
      · exact Nat.le_refl _
      · exact Nat.le_refl _
      · rename_i h1 h2
        rw [List.cons_append, runOf_cons, ← List.cons_append]
        split
        · exact Nat.le_add_right _ _
        · exact Nat.le_add_right _ _
        · rename_i h3 h4
          cases e : act (decode (d :: s ++ y)).1 with
          | non => exact absurd e h1
          | uni => exact absurd e h2
          | tok => exact absurd e h3
          | fold b => exact absurd e (h4 b)
    rcases decode_cut (d := d) (s := s) (y := y) with e | ⟨e1, -⟩
    · have h2 := decode_le d s
      unfold utf8Item at h ⊢
      rw [e] at h ⊢
      split
      · rfl
      · rw [List.take_append_of_le_length (by simpa using h2)]
      · rename_i h3 h4
        split at h
        · rename_i h5; exact absurd h5 h3
        · rename_i h5; exact absurd h5 h4
        · rw [runOf_cut ha y _ (d :: s) (Nat.le_refl _) h]
    · simp only [List.length_cons] at h
      omega

theorem utf8_cuts (ha : act 0x20 = .non) : Cuts (utf8 act) := cuts_of_local (utf8_follows act) (utf8_local ha)

end Verif.Text
