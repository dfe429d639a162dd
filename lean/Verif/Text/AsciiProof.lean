import Verif.Text.Ascii
import Verif.Text.Scan
/-
  The ASCII tokenizer follows a scanner.
-/
namespace Verif.Text

/-- strings of a word -/
def wordStrs (w : Text) : List Text :=
  if (w.drop 1).any isUpper then [w, w.map lower] else [(w.take 1).map lower ++ w.drop 1]

def asciiItem (xml : Bool) (s : Text) : Item :=
  if alphanumeric (s.headD 0) then
    ((s.takeWhile alphanumeric).length, wordStrs (s.takeWhile alphanumeric))
  else if xml && s.headD 0 == 0x3C then
    match tagEnd s with
    | some (q, r) => (r + 1, [s.take q ++ [0x3E]])
    | none => (1, [])
  else if xml && s.headD 0 == 0x26 then
    match entityEnd s with
    | some q => (q + 1, [])
    | none => (1, [])
  else (1, [])

theorem takeWhile_len (p : UInt8 → Bool) (s : Text) : (s.takeWhile p).length ≤ s.length :=
  (List.takeWhile_sublist _).length_le

theorem tagClose_lt {s q q' r} (h : tagClose s q = some (q', r)) : q' = q ∧ r < s.length := by
  unfold tagClose at h
  split at h
  · simp at h
  · split at h
    · simp at h
    · simp only at h
      split at h
      · rename_i hr
        simp at h
        refine ⟨h.1.symm, ?_⟩
        obtain ⟨h1, -⟩ := List.getElem?_eq_some_iff.mp hr
        omega
      · simp at h

theorem tagEnd_lt {s q r} (h : tagEnd s = some (q, r)) : r < s.length := by
  unfold tagEnd at h
  simp only at h
  split at h <;> try simp at h
  exact (tagClose_lt h.2).2

theorem tagClose_le {s q q' r} (h : tagClose s q = some (q', r)) : q' ≤ r := by
  unfold tagClose at h
  split at h
  · simp at h
  · split at h
    · simp at h
    · simp only at h
      split at h
      · simp at h; omega
      · simp at h

theorem tagEnd_le {s q r} (h : tagEnd s = some (q, r)) : q ≤ r := by
  unfold tagEnd at h
  simp only at h
  split at h <;> try simp at h
  exact tagClose_le h.2

theorem entityEnd_lt {s q} (h : entityEnd s = some q) : q < s.length := by
  unfold entityEnd at h
  simp only at h
  split at h
  · rename_i hr
    obtain ⟨h1, -⟩ := List.getElem?_eq_some_iff.mp hr
    rw [← Option.some.inj h]; exact h1
  · simp at h

theorem asciiItem_pos (xml : Bool) (c : UInt8) (s : Text) : 1 ≤ (asciiItem xml (c :: s)).1 := by
  unfold asciiItem
  split
  · rename_i h
    simp only [List.headD_cons] at h
    simp [h]
  · split
    · split <;> simp
    · split
      · split <;> simp
      · simp

theorem asciiItem_le (xml : Bool) (c : UInt8) (s : Text) :
    (asciiItem xml (c :: s)).1 ≤ s.length + 1 := by
  unfold asciiItem
  split
  · exact takeWhile_len _ _
  · split
    · split
      · rename_i h; exact tagEnd_lt h
      · simp
    · split
      · split
        · rename_i h; exact entityEnd_lt h
        · simp
      · simp

def asciiScan (xml : Bool) : Scanner := ⟨asciiItem xml, asciiItem_pos xml, asciiItem_le xml⟩

theorem wordStrs_ne (w : Text) : ∃ v vs, wordStrs w = v :: vs := by
  unfold wordStrs; split <;> exact ⟨_, _, rfl⟩

theorem wordToks_eq (w : Text) (a o : Nat) :
    wordToks w a o = (wordStrs w).map fun v => ⟨v, a, o, w.length⟩ := by
  unfold wordToks wordStrs; split <;> simp

theorem tokensOf_cons_ne {k : Nat} {ws : List Text} {r : List Item} {a o : Nat} (h : ws ≠ []) :
    tokensOf ((k, ws) :: r) a o = ws.map (fun w => ⟨w, a, o, k⟩) ++ tokensOf r (a + 1) (o + k) := by
  cases ws with
  | nil => exact absurd rfl h
  | cons => rfl

theorem skipOf_cons_ne {k : Nat} {ws : List Text} {r : List Item} {n : Int} (h : ws ≠ []) :
    skipOf ((k, ws) :: r) n = if n ≤ 0 then 0 else k + skipOf r (n - 1) := by
  cases ws with
  | nil => exact absurd rfl h
  | cons => rfl

theorem wordStrs_ne' (w : Text) : wordStrs w ≠ [] := by
  obtain ⟨v, vs, h⟩ := wordStrs_ne w; rw [h]; simp

theorem asciiTokens_eq (xml : Bool) (n : Nat) : ∀ s a o,
    asciiTokens xml n s a o = tokensOf ((asciiScan xml).items n s) a o := by
  induction n with
  | zero => intro s a o; rfl
  | succ n ih =>
    intro s a o
    cases s with
    | nil => rfl
    | cons c cs =>
      simp only [asciiTokens, Scanner.items, asciiScan, asciiItem, List.headD_cons]
      simp only [ih]
      by_cases h1 : alphanumeric c
      · simp only [h1, if_true]
        rw [tokensOf_cons_ne (wordStrs_ne' _), wordToks_eq]; rfl
      · simp only [h1, Bool.false_eq_true, if_false]
        by_cases h2 : (xml && c == 0x3C) = true
        · simp only [h2, if_true]
          cases tagEnd (c :: cs) with
          | none => rfl
          | some qr => rfl
        · simp only [h2, Bool.false_eq_true, if_false]
          by_cases h3 : (xml && c == 0x26) = true
          · simp only [h3, if_true]
            cases entityEnd (c :: cs) with
            | none => rfl
            | some q => rfl
          · simp only [h3, Bool.false_eq_true, if_false]
            rfl

theorem asciiSkip_eq (xml : Bool) (f : Nat) : ∀ s n,
    asciiSkip xml f s n = skipOf ((asciiScan xml).items f s) n := by
  induction f with
  | zero => intro s n; rfl
  | succ f ih =>
    intro s n
    cases s with
    | nil => rfl
    | cons c cs =>
      simp only [asciiSkip, Scanner.items, asciiScan, asciiItem, List.headD_cons]
      simp only [ih]
      by_cases h1 : alphanumeric c
      · simp only [h1, if_true]
        rw [skipOf_cons_ne (wordStrs_ne' _)]; rfl
      · simp only [h1, Bool.false_eq_true, if_false]
        by_cases h2 : (xml && c == 0x3C) = true
        · simp only [h2, if_true]
          cases tagEnd (c :: cs) with
          | none => rfl
          | some qr => rfl
        · simp only [h2, Bool.false_eq_true, if_false]
          by_cases h3 : (xml && c == 0x26) = true
          · simp only [h3, if_true]
            cases entityEnd (c :: cs) with
            | none => rfl
            | some q => rfl
          · simp only [h3, Bool.false_eq_true, if_false]
            rfl

theorem splitOf_cons_head {k : Nat} {w : Text} {ws : List Text} {r : List Item}
    (h : ws.head? = some w) : splitOf ((k, ws) :: r) = w :: splitOf r := by
  cases ws with
  | nil => simp at h
  | cons => simp at h; subst h; rfl

theorem wordTerm_head (w : Text) : (wordStrs w).head? = some (wordTerm w) := by
  unfold wordStrs wordTerm; split <;> rfl

theorem asciiSplit_eq (xml : Bool) (n : Nat) : ∀ s,
    asciiSplit xml n s = splitOf ((asciiScan xml).items n s) := by
  induction n with
  | zero => intro s; rfl
  | succ n ih =>
    intro s
    cases s with
    | nil => rfl
    | cons c cs =>
      simp only [asciiSplit, Scanner.items, asciiScan, asciiItem, List.headD_cons]
      simp only [ih]
      by_cases h1 : alphanumeric c
      · simp only [h1, if_true]
        rw [splitOf_cons_head (wordTerm_head _)]; rfl
      · simp only [h1, Bool.false_eq_true, if_false]
        by_cases h2 : (xml && c == 0x3C) = true
        · simp only [h2, if_true]
          cases tagEnd (c :: cs) with
          | none => rfl
          | some qr => rfl
        · simp only [h2, Bool.false_eq_true, if_false]
          by_cases h3 : (xml && c == 0x26) = true
          · simp only [h3, if_true]
            cases entityEnd (c :: cs) with
            | none => rfl
            | some q => rfl
          · simp only [h3, Bool.false_eq_true, if_false]
            rfl

theorem ascii_follows (xml : Bool) : Follows (asciiScan xml) (ascii xml) :=
  ⟨fun _ => asciiTokens_eq xml _ _ _ _, fun _ _ => asciiSkip_eq xml _ _ _⟩

theorem ascii_split (xml : Bool) (s : Text) :
    (ascii xml).split s = splitOf ((asciiScan xml).items s.length s) := asciiSplit_eq xml _ s

end Verif.Text
