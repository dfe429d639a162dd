import Verif.Text.AsciiProof
import Verif.Text.Utf8Proof
/-
  When texts can be put one after the other without changing their tokens.
-/
namespace Verif.Text

theorem tokensOf_append (l r : List Item) : ∀ a o,
    tokensOf (l ++ r) a o = tokensOf l a o ++ tokensOf r (a + count l) (o + width l) := by
  induction l with
  | nil => intro a o; simp [tokensOf, count, width]
  | cons i l ih =>
    intro a o
    obtain ⟨k, ws⟩ := i
    cases ws with
    | nil =>
      simp only [List.cons_append, tokensOf, count, width, ih]
      rw [Nat.add_assoc]
    | cons w ws =>
      simp only [List.cons_append, tokensOf, count, width, ih]
      rw [List.append_assoc, Nat.add_assoc, Nat.add_assoc, Nat.add_comm 1]

theorem tokensOf_moved (l : List Item) : ∀ a o a' o',
    tokensOf l (a + a') (o + o') = (tokensOf l a o).map (Tok.moved a' o') := by
  induction l with
  | nil => intro a o a' o'; rfl
  | cons i l ih =>
    intro a o a' o'
    obtain ⟨k, ws⟩ := i
    cases ws with
    | nil =>
      simp only [tokensOf]
      rw [← ih]; congr 1; omega
    | cons w ws =>
      simp only [tokensOf, List.map_append, List.map_map]
      rw [← ih]
      congr 1
      congr 1 <;> omega

variable {S : Scanner} {T : Tokenizer}

theorem addresses_eq (h : Follows S T) (s : Text) : T.addresses s = count (S.items s.length s) := by
  unfold Tokenizer.addresses
  have hs := (ordered h s).sorted
  have hat := at_iff h s
  split
  · rename_i he
    rw [List.getLast?_eq_none_iff] at he
    cases hc : count (S.items s.length s) with
    | zero => rfl
    | succ n =>
      obtain ⟨t, ht, -⟩ := (hat 0).mpr (by omega)
      rw [he] at ht; cases ht
  · rename_i t ht
    obtain ⟨l, hl⟩ := List.getLast?_eq_some_iff.mp ht
    have h1 : t.address < count (S.items s.length s) :=
      (hat t.address).mp ⟨t, by rw [hl]; simp, rfl⟩
    obtain ⟨u, hu, e⟩ := (hat (count (S.items s.length s) - 1)).mpr (by omega)
    rw [hl] at hu hs
    rw [List.mem_append, List.mem_singleton] at hu
    rcases hu with hu | rfl
    · have := (List.pairwise_append.mp hs).2.2 u hu t (by simp)
      omega
    · omega

/-- after `s`, the byte `c` is a gap whatever follows -/
def Breaks (S : Scanner) (s : Text) (c : UInt8) : Prop := ∀ b,
  S.items (s ++ c :: b).length (s ++ c :: b) = S.items s.length s ++ (1, []) :: S.items b.length b

theorem joins_of_breaks (h : Follows S T) {s : Text} {c : UInt8} (hb : Breaks S s c) :
    T.Joins s [c] := by
  intro b
  have e : s ++ [c] ++ b = s ++ c :: b := by simp
  rw [e, h.tokenize, hb b, tokensOf_append, h.tokenize, h.tokenize, addresses_eq h]
  simp only [tokensOf]
  have hw := width_items S s.length s (Nat.le_refl _)
  rw [hw]
  congr 1
  have := tokensOf_moved (S.items b.length b) 0 0 (count (S.items s.length s)) (s.length + 1)
  simpa [Nat.add_comm, Nat.add_left_comm] using this

/-- a text that ends in such a byte -/
theorem joins_of_last (h : Follows S T) {s : Text} {c : UInt8} (hb : Breaks S s c) :
    T.Joins (s ++ [c]) [] := by
  intro b
  have h1 := joins_of_breaks h hb b
  have h2 := joins_of_breaks h hb []
  have h3 : T.tokenize [] = [] := by rw [h.tokenize]; rfl
  rw [h3] at h2
  simp only [List.append_nil, List.map_nil] at h2
  simp only [List.append_nil]
  rw [h1, h2]
  have : T.addresses (s ++ [c]) = T.addresses s := by unfold Tokenizer.addresses; rw [h2]
  rw [this]

theorem takeWhile_stop {p : UInt8 → Bool} {c : UInt8} (hc : p c = false) (s b : Text) :
    (s ++ c :: b).takeWhile p = s.takeWhile p := by
  induction s with
  | nil => simp [hc]
  | cons d s ih => simp only [List.cons_append, List.takeWhile_cons, ih]

theorem get_le {s b : Text} {c : UInt8} {i : Nat} (h : i ≤ s.length) :
    (s ++ c :: b)[i]? = if i < s.length then s[i]? else some c := by
  split
  · rename_i h1; exact List.getElem?_append_left h1
  · have : i = s.length := by omega
    subst this
    simp

theorem drop_le {s x : Text} {i : Nat} (h : i ≤ s.length) : (s ++ x).drop i = s.drop i ++ x := by
  rw [List.drop_append]
  have : i - s.length = 0 := by omega
  rw [this]; rfl

theorem tagClose_line {s b : Text} {q : Nat} (h : q ≤ s.length) :
    tagClose (s ++ 0x0A :: b) q = tagClose s q := by
  unfold tagClose
  rw [get_le h]
  by_cases hq : q < s.length
  · rw [if_pos hq]
    cases s[q]? with
    | none => rfl
    | some d =>
      simp only
      split
      · rfl
      · rw [drop_le h, takeWhile_stop (by decide)]
        have hr : q + ((s.drop q).takeWhile fun c => c != 0x0A && c != 0x3E).length ≤ s.length := by
          have := takeWhile_len (fun c => c != 0x0A && c != 0x3E) (s.drop q)
          simp only [List.length_drop] at this; omega
        rw [get_le hr]
        split
        · rfl
        · rw [List.getElem?_eq_none (by omega)]
          simp
  · rw [if_neg hq, List.getElem?_eq_none (by omega)]
    rfl

theorem tagEnd_line {d : UInt8} {s b : Text} : tagEnd (d :: s ++ 0x0A :: b) = tagEnd (d :: s) := by
  unfold tagEnd
  simp only
  have e1 : (if (d :: s ++ 0x0A :: b)[1]? = some 0x2F then 2 else 1) =
      (if (d :: s)[1]? = some 0x2F then 2 else 1) := by
    rw [get_le (s := d :: s) (by simp)]
    by_cases h : 1 < (d :: s).length
    · rw [if_pos h]
    · rw [if_neg h, List.getElem?_eq_none (by omega)]; rfl
  rw [e1]
  have hq : (if (d :: s)[1]? = some 0x2F then 2 else 1) ≤ (d :: s).length := by
    split
    · rename_i h
      obtain ⟨h1, -⟩ := List.getElem?_eq_some_iff.mp h
      omega
    · simp
  generalize (if (d :: s)[1]? = some 0x2F then 2 else 1) = q at hq
  rw [get_le hq]
  by_cases h : q < (d :: s).length
  · rw [if_pos h]
    cases (d :: s)[q]? with
    | none => rfl
    | some c =>
      simp only
      rw [drop_le (by omega), takeWhile_stop (by decide)]
      split
      · apply tagClose_line
        have := takeWhile_len tagCharacter ((d :: s).drop (q + 1))
        rw [List.length_drop] at this; omega
      · rfl
  · rw [if_neg h, List.getElem?_eq_none (by omega)]
    rfl

theorem entityEnd_line {d : UInt8} {s b : Text} :
    entityEnd (d :: s ++ 0x0A :: b) = entityEnd (d :: s) := by
  unfold entityEnd
  simp only
  rw [drop_le (s := d :: s) (by simp), takeWhile_stop (by decide)]
  have hr : 1 + (((d :: s).drop 1).takeWhile fun c => c != 0x20 && c != 0x0A && c != 0x3B).length ≤
      (d :: s).length := by
    have := takeWhile_len (fun c => c != 0x20 && c != 0x0A && c != 0x3B) ((d :: s).drop 1)
    rw [List.length_drop] at this; simp only [List.length_cons] at *; omega
  rw [get_le hr]
  split
  · rfl
  · rw [List.getElem?_eq_none (by omega)]
    simp

/-- a byte that ends whatever may be open in the given mode -/
def Ends (xml : Bool) (c : UInt8) : Prop := alphanumeric c = false ∧ (xml = true → c = 0x0A)

theorem asciiItem_app {xml : Bool} {c : UInt8} (hc : Ends xml c) (d : UInt8) (s b : Text) :
    asciiItem xml (d :: s ++ c :: b) = asciiItem xml (d :: s) := by
  unfold asciiItem
  rw [takeWhile_stop hc.1]
  simp only [List.cons_append, List.headD_cons]
  cases xml with
  | false => simp
  | true =>
    have := hc.2 rfl
    subst this
    have e1 := tagEnd_line (d := d) (s := s) (b := b)
    have e2 := entityEnd_line (d := d) (s := s) (b := b)
    simp only [List.cons_append] at e1 e2
    rw [e1, e2]
    cases ht : tagEnd (d :: s) with
    | none => rfl
    | some qr =>
      obtain ⟨q, r⟩ := qr
      have h1 := tagEnd_le ht
      have h2 := tagEnd_lt ht
      have e3 : List.take q (d :: (s ++ 0x0A :: b)) = List.take q (d :: s) := by
        rw [← List.cons_append]
        exact List.take_append_of_le_length (by omega)
      simp only [e3]
      rfl

theorem asciiItem_end {xml : Bool} {c : UInt8} (hc : Ends xml c) (b : Text) :
    asciiItem xml (c :: b) = (1, []) := by
  unfold asciiItem
  simp only [List.headD_cons, hc.1, Bool.false_eq_true, if_false]
  cases xml with
  | false => simp
  | true => have := hc.2 rfl; subst this; rfl

/-- the tail of a scan does not depend on the rounds allowed -/
theorem items_cons (S : Scanner) (c : UInt8) (cs : Text) :
    S.items (c :: cs).length (c :: cs) = S.item (c :: cs) ::
      S.items ((c :: cs).drop (S.item (c :: cs)).1).length ((c :: cs).drop (S.item (c :: cs)).1) := by
  have h1 : 1 ≤ (S.item (c :: cs)).1 := S.pos c cs
  show S.item (c :: cs) :: S.items cs.length _ = _
  congr 1
  apply items_more <;> simp only [List.length_drop, List.length_cons] <;> omega

theorem breaks_of_item {S : Scanner} {P : Text → Prop} {c : UInt8}
    (hP : ∀ s k, P s → P (s.drop k))
    (happ : ∀ d s b, P (d :: s) → S.item (d :: s ++ c :: b) = S.item (d :: s))
    (hend : ∀ b, S.item (c :: b) = (1, [])) :
    ∀ (n : Nat) (s : Text), s.length ≤ n → P s → Breaks S s c := by
  intro n
  induction n with
  | zero =>
    intro s h _ b
    have : s = [] := List.length_eq_zero_iff.mp (by omega)
    subst this
    rw [List.nil_append, items_cons, hend]
    rfl
  | succ n ih =>
    intro s h hs b
    cases s with
    | nil => rw [List.nil_append, items_cons, hend]; rfl
    | cons d s =>
      have h1 : 1 ≤ (S.item (d :: s)).1 := S.pos d s
      have h2 : (S.item (d :: s)).1 ≤ s.length + 1 := S.le d s
      rw [List.cons_append, items_cons, ← List.cons_append, happ d s b hs, drop_le (by simpa using h2)]
      rw [ih _ (by simp only [List.length_drop, List.length_cons] at h ⊢; omega) (hP _ _ hs),
        items_cons S d s]
      rfl

theorem ascii_breaks {xml : Bool} {c : UInt8} (hc : Ends xml c) (s : Text) :
    Breaks (asciiScan xml) s c :=
  breaks_of_item (P := fun _ => True) (fun _ _ _ => trivial)
    (fun d s b _ => asciiItem_app hc d s b) (asciiItem_end hc) s.length s (Nat.le_refl _) trivial

/-! ### UTF-8 -/

theorem Complete.drop {s : Text} (h : Complete s) (k : Nat) : Complete (s.drop k) :=
  fun c suf hs => h c suf (hs.trans (List.drop_suffix _ _))

theorem decode_app {d : UInt8} {s : Text} (x : Text) (h : need d ≤ s.length + 1) :
    decode (d :: s ++ x) = decode (d :: s) := by
  unfold need at h
  have hlt : ∀ n : Nat, d < UInt8.ofNat n ↔ d.toNat < (UInt8.ofNat n).toNat := fun n => UInt8.lt_iff_toNat_lt
  have e : ∀ i, i < s.length + 1 → ((d :: s ++ x).getD i 0) = (d :: s).getD i 0 := by
    intro i hi
    simp only [List.getD_eq_getElem?_getD]
    rw [List.getElem?_append_left (by simpa using hi)]
  have e0 := e 0 (by omega)
  have hd : (d :: s).getD 0 0 = d := rfl
  unfold decode
  simp only [e0, hd, List.length_append, List.length_cons]
  have c0 : (d < 0xC0) ↔ d.toNat < 0xC0 := by rw [UInt8.lt_iff_toNat_lt]; rfl
  have c1 : (d < 0xE0) ↔ d.toNat < 0xE0 := by rw [UInt8.lt_iff_toNat_lt]; rfl
  have c2 : (d < 0xF0) ↔ d.toNat < 0xF0 := by rw [UInt8.lt_iff_toNat_lt]; rfl
  have c3 : (d < 0xF8) ↔ d.toNat < 0xF8 := by rw [UInt8.lt_iff_toNat_lt]; rfl
  simp only [c0, c1, c2, c3] at h
  by_cases h1 : d.toNat < 0x80
  · simp [h1]
  · by_cases h2 : d.toNat < 0xC0
    · have : ¬ 0xC0 ≤ d.toNat := by omega
      have : ¬ 0xE0 ≤ d.toNat := by omega
      have : ¬ 0xF0 ≤ d.toNat := by omega
      simp [*]
    · by_cases h3 : d.toNat < 0xE0
      · simp only [h2, h3, if_true, if_false] at h
        have a1 : 0xC0 ≤ d.toNat := by omega
        rw [e 1 (by omega)]
        have b1 : ¬ s.length + 1 + x.length < 2 := by omega
        have b2 : ¬ s.length + 1 < 2 := by omega
        simp [h1, h3, a1, b1, b2]
      · by_cases h4 : d.toNat < 0xF0
        · simp only [h2, h3, h4, if_true, if_false] at h
          have a1 : 0xE0 ≤ d.toNat := by omega
          rw [e 1 (by omega), e 2 (by omega)]
          have b1 : ¬ s.length + 1 + x.length < 3 := by omega
          have b2 : ¬ s.length + 1 < 3 := by omega
          simp [h1, h3, h4, a1, b1, b2]
        · by_cases h5 : d.toNat < 0xF8
          · simp only [h2, h3, h4, h5, if_true, if_false] at h
            have a1 : 0xF0 ≤ d.toNat := by omega
            rw [e 1 (by omega), e 2 (by omega), e 3 (by omega)]
            have b1 : ¬ s.length + 1 + x.length < 4 := by omega
            have b2 : ¬ s.length + 1 < 4 := by omega
            simp [h1, h3, h4, h5, a1, b1, b2]
          · simp [h1, h3, h4, h5]

theorem decode_low {c : UInt8} (hc : c < 0x80) (b : Text) : decode (c :: b) = (c.toNat, 1) := by
  have : c.toNat < 0x80 := by rw [UInt8.lt_iff_toNat_lt] at hc; exact hc
  unfold decode
  simp [this]

theorem Complete.head {d : UInt8} {s : Text} (h : Complete (d :: s)) : need d ≤ s.length + 1 :=
  h d s (List.suffix_refl _)

variable {act : Nat → Action}

theorem runOf_app {c : UInt8} (hc : c < 0x80) (ha : act c.toNat = .non) (b : Text) : ∀ (n : Nat) (s : Text),
    s.length ≤ n → Complete s → runOf act (s ++ c :: b) = runOf act s := by
  intro n
  have hnil : runOf act (c :: b) = (0, []) := by
    apply runOf_stop
    left; rw [decode_low hc]; exact ha
  induction n with
  | zero =>
    intro s h _
    have : s = [] := List.length_eq_zero_iff.mp (by omega)
    subst this
    exact hnil
  | succ n ih =>
    intro s h hs
    cases s with
    | nil => exact hnil
    | cons d s =>
      have hd := decode_app (c :: b) hs.head
      have h1 := decode_pos (d :: s)
      have h2 := decode_le d s
      have hih := ih ((d :: s).drop (decode (d :: s)).2)
        (by simp only [List.length_drop, List.length_cons] at h ⊢; omega) (hs.drop _)
      rw [List.cons_append, runOf_cons, runOf_cons, ← List.cons_append, hd,
        drop_le (by simpa using h2), hih,
        List.take_append_of_le_length (by simpa using h2)]

theorem utf8_breaks {c : UInt8} (hc : c < 0x80) (ha : act c.toNat = .non) {s : Text}
    (hs : Complete s) : Breaks (utf8Scan act) s c := by
  refine breaks_of_item (P := Complete) (fun s k h => h.drop k) ?_ ?_ s.length s (Nat.le_refl _) hs
  · intro d s b hs
    have h2 := decode_le d s
    show utf8Item act _ = utf8Item act _
    unfold utf8Item
    rw [decode_app _ hs.head, runOf_app hc ha b _ (d :: s) (Nat.le_refl _) hs,
      List.take_append_of_le_length (by simpa using h2)]
  · intro b
    show utf8Item act _ = _
    unfold utf8Item
    rw [decode_low hc]
    simp only [ha]

end Verif.Text
