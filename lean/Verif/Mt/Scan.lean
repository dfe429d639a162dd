import Verif.Mt.Spec
/- The scanner finds the words of the specification. -/
namespace Verif.Mt

theorem digit_iff {c : Char} : isDigit c = true ↔ Digit c := by
  simp only [isDigit, Digit, Bool.and_eq_true, decide_eq_true_eq]
  exact Iff.rfl

theorem alpha_iff {c : Char} : isAlpha c = true ↔ Letter c := by
  simp only [isAlpha, Letter, Bool.and_eq_true, Bool.or_eq_true, decide_eq_true_eq]
  exact Iff.rfl

theorem alnum_iff {c : Char} : isAlnum c = true ↔ Letter c ∨ Digit c := by
  simp only [isAlnum, Bool.or_eq_true, alpha_iff, digit_iff]

theorem multi_iff {c : Char} : isMulti c = true ↔ Mark c := by
  simp [isMulti, Mark, or_assoc]

theorem space_iff {c : Char} : isSpace c = true ↔ Blank c := by
  simp [isSpace, Blank]

theorem letter_not_digit {c : Char} (h : Letter c) : ¬ Digit c := by
  have e1 : 'A'.toNat = 65 := rfl
  have e2 : 'Z'.toNat = 90 := rfl
  have e3 : 'a'.toNat = 97 := rfl
  have e4 : 'z'.toNat = 122 := rfl
  have e5 : '0'.toNat = 48 := rfl
  have e6 : '9'.toNat = 57 := rfl
  unfold Letter at h
  unfold Digit
  omega

theorem mark_not {c : Char} (h : Mark c) : ¬ Digit c ∧ ¬ Letter c ∧ ¬ Blank c ∧ c ≠ '"' := by
  unfold Mark at h
  simp only [List.mem_cons, List.not_mem_nil, or_false] at h
  rcases h with rfl | rfl | rfl | rfl <;>
    exact ⟨by unfold Digit; decide, by unfold Letter; decide, by unfold Blank; decide, by decide⟩

theorem blank_not {c : Char} (h : Blank c) : ¬ Digit c ∧ ¬ Letter c ∧ ¬ Mark c ∧ c ≠ '"' := by
  unfold Blank at h
  simp only [List.mem_cons, List.not_mem_nil, or_false] at h
  rcases h with rfl | rfl <;>
    exact ⟨by unfold Digit; decide, by unfold Letter; decide, by unfold Mark; decide, by decide⟩

theorem quote_not : ¬ Digit '"' ∧ ¬ Letter '"' ∧ ¬ Mark '"' ∧ ¬ Blank '"' :=
  ⟨by unfold Digit; decide, by unfold Letter; decide, by unfold Mark; decide, by unfold Blank; decide⟩

theorem dropSpace {a : List Char} (h : Gcl.Space a) (s : List Char) : (a ++ s).dropWhile isSpace = s.dropWhile isSpace := by
  induction a with
  | nil => rfl
  | cons c a ih =>
    have : isSpace c = true := by
      rcases h c (by simp) with rfl | rfl <;> decide
    rw [List.cons_append, List.dropWhile_cons_of_pos this]
    exact ih fun x hx => h x (by simp [hx])

theorem scan_space {a : List Char} (h : Gcl.Space a) (s : List Char) : scan (a ++ s) = scan s := by
  unfold scan
  rw [dropSpace h]

theorem scan_cons {c : Char} (h : ¬ Blank c) (s : List Char) : scan (c :: s) = token (c :: s) := by
  unfold scan
  rw [List.dropWhile_cons_of_neg (by rw [space_iff]; exact h)]

/-- the text that is left is blanks and then something that does not begin with one -/
theorem space_split (s : List Char) : ∃ a r, s = a ++ r ∧ Gcl.Space a ∧ scan s = token r ∧ ∀ c cs, r = c :: cs → ¬ Blank c := by
  induction s with
  | nil => exact ⟨[], [], rfl, (fun x hx => by cases hx), rfl, (fun c cs h => by cases h)⟩
  | cons c s ih =>
    by_cases h : Blank c
    · obtain ⟨a, r, h1, h2, h3, h4⟩ := ih
      refine ⟨c :: a, r, by rw [h1]; rfl, ?_, ?_, h4⟩
      · intro x hx
        rcases List.mem_cons.1 hx with rfl | hx
        · simpa [Blank] using h
        · exact h2 x hx
      · rw [← h3]
        unfold scan
        rw [List.dropWhile_cons_of_pos (space_iff.2 h)]
    · refine ⟨[], c :: s, rfl, (fun x hx => by cases hx), scan_cons h s, ?_⟩
      intro d ds e
      cases e
      exact h

/-! ### the word a token is -/

/-- the word of the specification that a token is -/
def wordOf (st : St) : Tok :=
  match st.kind with
  | .int _ => .num st.tok
  | .name => .name st.tok
  | .other =>
    match st.tok with
    | [] => .marks []
    | c :: cs => if isMulti c then .marks (c :: cs) else .punct c

theorem takeWhile_mem {p : Char → Bool} (l : List Char) : ∀ x ∈ l.takeWhile p, p x = true := Gcl.takeWhile_all

theorem dropWhile_head {p : Char → Bool} {l : List Char} : ∀ c r, l.dropWhile p = c :: r → p c = false := by
  induction l with
  | nil => intro c r h; cases h
  | cons d l ih =>
    intro c r h
    by_cases hd : p d = true
    · rw [List.dropWhile_cons_of_pos hd] at h
      exact ih c r h
    · rw [List.dropWhile_cons_of_neg hd] at h
      cases h
      simpa using hd

/-- what a token that is not the end and not a quote says about the text -/
theorem token_word {r : List Char} (hr : ∀ c cs, r = c :: cs → ¬ Blank c) (h0 : (token r).tok ≠ []) (hq : (token r).tok ≠ ['"']) :
    (wordOf (token r)).Ok ∧ (wordOf (token r)).text = (token r).tok ∧ (wordOf (token r)).Ends (token r).rest ∧
      r = (token r).tok ++ (token r).rest := by
  cases r with
  | nil => exact absurd rfl h0
  | cons c cs =>
    have hb := hr c cs rfl
    unfold token at h0 hq ⊢
    simp only at h0 hq ⊢
    split
    · rename_i hd
      refine ⟨⟨by simp, ?_⟩, rfl, ?_, by simp [List.takeWhile_append_dropWhile]⟩
      · intro x hx
        rcases List.mem_cons.1 hx with rfl | hx
        · exact digit_iff.1 hd
        · exact digit_iff.1 (takeWhile_mem _ x hx)
      · intro x r' e h
        have := dropWhile_head x r' e
        rw [digit_iff.2 h] at this
        cases this
    · rename_i hd
      split
      · rename_i ha
        refine ⟨⟨⟨c, _, rfl, alpha_iff.1 ha⟩, ?_⟩, rfl, ?_, by simp [List.takeWhile_append_dropWhile]⟩
        · intro x hx
          rcases List.mem_cons.1 hx with rfl | hx
          · exact .inl (alpha_iff.1 ha)
          · exact alnum_iff.1 (takeWhile_mem _ x hx)
        · intro x r' e
          have := dropWhile_head x r' e
          have hn : ¬ (Letter x ∨ Digit x) := by
            intro h
            rw [alnum_iff.2 h] at this
            cases this
          exact ⟨fun h => hn (.inl h), fun h => hn (.inr h)⟩
      · rename_i ha
        split
        · rename_i hm
          simp only [wordOf, hm, if_true]
          refine ⟨⟨by simp, ?_⟩, rfl, ?_, by simp [List.takeWhile_append_dropWhile]⟩
          · intro x hx
            rcases List.mem_cons.1 hx with rfl | hx
            · exact multi_iff.1 hm
            · exact multi_iff.1 (takeWhile_mem _ x hx)
          · intro x r' e h
            have := dropWhile_head x r' e
            rw [multi_iff.2 h] at this
            cases this
        · rename_i hm
          rw [if_neg hd, if_neg ha, if_neg hm] at hq
          simp only [wordOf, hm]
          refine ⟨⟨?_, ?_, ?_, hb, by simpa using hq⟩, rfl, trivial, rfl⟩
          · rw [← digit_iff]; exact hd
          · rw [← alpha_iff]; exact ha
          · rw [← multi_iff]; exact hm

/-- a token that is not the end and not a quote is the first word of the text -/
theorem scan_word {s : List Char} (h0 : (scan s).tok ≠ []) (hq : (scan s).tok ≠ ['"']) :
    Begins [wordOf (scan s)] s (scan s).rest := by
  obtain ⟨a, r, h1, h2, h3, h4⟩ := space_split s
  rw [h3] at h0 hq ⊢
  obtain ⟨w1, w2, w3, w4⟩ := token_word h4 h0 hq
  have := Begins.cons h2 w1 w3 .nil
  rw [w2, List.append_assoc, ← w4, ← h1] at this
  exact this

/-- at the end there is nothing but blanks -/
theorem scan_end {s : List Char} (h0 : (scan s).tok = []) : Gcl.Space s := by
  obtain ⟨a, r, h1, h2, h3, h4⟩ := space_split s
  cases r with
  | nil => rw [h1, List.append_nil]; exact h2
  | cons c cs =>
    exfalso
    rw [h3] at h0
    unfold token at h0
    simp only at h0
    split at h0
    · cases h0
    · split at h0
      · cases h0
      · split at h0 <;> cases h0

/-- a quote -/
theorem scan_quote {s : List Char} (hq : (scan s).tok = ['"']) : ∃ a, Gcl.Space a ∧ s = a ++ '"' :: (scan s).rest := by
  obtain ⟨a, r, h1, h2, h3, h4⟩ := space_split s
  refine ⟨a, h2, ?_⟩
  rw [h3] at hq ⊢
  rw [h1]
  congr 1
  cases r with
  | nil => cases hq
  | cons c cs =>
    have hc : c = '"' := by
      unfold token at hq
      simp only at hq
      split at hq
      · exact (List.cons.inj hq).1
      · split at hq
        · exact (List.cons.inj hq).1
        · split at hq
          · exact (List.cons.inj hq).1
          · exact (List.cons.inj hq).1
    subst hc
    rfl

/-! ### the other way -/

theorem takeWhile_ends {p : Char → Bool} {a b : List Char} (ha : ∀ x ∈ a, p x = true) (hb : ∀ c r, b = c :: r → p c = false) :
    (a ++ b).takeWhile p = a ∧ (a ++ b).dropWhile p = b := Gcl.takeWhile_app ha hb

/-- the state at a word -/
def atWord (t : Tok) (rest : List Char) : St :=
  match t with
  | .num ds => ⟨ds, .int (intValue ds), rest⟩
  | .name cs => ⟨cs, .name, rest⟩
  | .marks cs => ⟨cs, .other, rest⟩
  | .punct c => ⟨[c], .other, rest⟩
  | .quoted body => ⟨['"'], .other, body ++ '"' :: rest⟩

theorem token_at {t : Tok} {rest : List Char} (h : t.Ok) (he : t.Ends rest) :
    scan (t.text ++ rest) = atWord t rest := by
  cases t with
  | num ds =>
    obtain ⟨h1, h2⟩ := h
    cases ds with
    | nil => exact absurd rfl h1
    | cons c ds =>
      have hc := h2 c (by simp)
      obtain ⟨e1, e2⟩ := takeWhile_ends (p := isDigit) (a := ds) (b := rest) (fun x hx => digit_iff.2 (h2 x (by simp [hx])))
        (fun c r e => by simpa [← digit_iff] using he c r e)
      show scan (c :: (ds ++ rest)) = _
      rw [scan_cons (fun hb => (blank_not hb).1 hc)]
      simp only [token, digit_iff.2 hc, if_true, e1, e2, atWord]
  | name cs =>
    obtain ⟨⟨c, r, rfl, hc⟩, h2⟩ := h
    obtain ⟨e1, e2⟩ := takeWhile_ends (p := isAlnum) (a := r) (b := rest) (fun x hx => alnum_iff.2 (h2 x (by simp [hx])))
      (fun c r e => by
        have := he c r e
        have h : ¬ isAlnum c = true := by rw [alnum_iff]; exact fun h => h.elim this.1 this.2
        simpa using h)
    show scan (c :: (r ++ rest)) = _
    have hd : ¬ isDigit c = true := by rw [digit_iff]; exact letter_not_digit hc
    rw [scan_cons (fun hb => (blank_not hb).2.1 hc)]
    simp only [token, if_neg hd, alpha_iff.2 hc, if_true, e1, e2, atWord]
  | marks cs =>
    obtain ⟨h1, h2⟩ := h
    cases cs with
    | nil => exact absurd rfl h1
    | cons c r =>
      have hc := h2 c (by simp)
      obtain ⟨n1, n2, n3, n4⟩ := mark_not hc
      obtain ⟨e1, e2⟩ := takeWhile_ends (p := isMulti) (a := r) (b := rest) (fun x hx => multi_iff.2 (h2 x (by simp [hx])))
        (fun c r e => by simpa [← multi_iff] using he c r e)
      show scan (c :: (r ++ rest)) = _
      rw [scan_cons n3]
      rw [← digit_iff] at n1
      rw [← alpha_iff] at n2
      simp only [token, if_neg n1, if_neg n2, multi_iff.2 hc, if_true, e1, e2, atWord]
  | punct c =>
    obtain ⟨n1, n2, n3, n4, n5⟩ := h
    show scan (c :: rest) = _
    rw [scan_cons n4]
    rw [← digit_iff] at n1
    rw [← alpha_iff] at n2
    rw [← multi_iff] at n3
    simp only [token, if_neg n1, if_neg n2, if_neg n3, atWord]
  | quoted body =>
    have e : (Tok.quoted body).text ++ rest = '"' :: (body ++ '"' :: rest) := by simp [Tok.text]
    rw [e, scan_cons quote_not.2.2.2]
    rfl

/-- the words of a text, read -/
theorem spells_scan {t : Tok} {ts : List Tok} {s : List Char} (h : Spells (t :: ts) s) :
    ∃ rest, scan s = atWord t rest ∧ Spells ts rest ∧ t.Ok := by
  obtain ⟨e, h, hsp⟩ := h
  cases h with
  | @cons a _ _ rest _ ha ht he h =>
    refine ⟨rest, ?_, ⟨e, h, hsp⟩, ht⟩
    rw [List.append_assoc, scan_space ha, token_at ht he]

theorem spells_end {s : List Char} (h : Spells [] s) : (scan s).tok = [] := by
  obtain ⟨e, h, ha⟩ := h
  cases h with
  | nil =>
    have := scan_space ha []
    rw [List.append_nil] at this
    rw [this]
    rfl

/-! ### sizes -/

/-- how much text is left from the beginning of the token -/
def St.size (st : St) : Nat := st.tok.length + st.rest.length

theorem token_size (r : List Char) : (token r).size ≤ r.length := by
  cases r with
  | nil => exact Nat.le_refl _
  | cons c cs =>
    have key : ∀ p : Char → Bool, (cs.takeWhile p).length + (cs.dropWhile p).length = cs.length := by
      intro p
      rw [← List.length_append, List.takeWhile_append_dropWhile]
    have h1 := key isDigit
    have h2 := key isAlnum
    have h3 := key isMulti
    unfold token St.size
    simp only
    split
    · simp; omega
    · split
      · simp; omega
      · split <;> simp <;> omega

theorem dropWhile_le (p : Char → Bool) (l : List Char) : (l.dropWhile p).length ≤ l.length :=
  (List.dropWhile_sublist p).length_le

theorem scan_size (s : List Char) : (scan s).size ≤ s.length :=
  Nat.le_trans (token_size _) (dropWhile_le _ _)

/-! ### numerals -/

theorem valueOf_snoc (ds : List Char) (c : Char) : Gcl.valueOf (ds ++ [c]) = 10 * Gcl.valueOf ds + (c.toNat - 48) := by
  unfold Gcl.valueOf
  rw [List.foldl_append]
  rfl

theorem intValue_snoc (ds : List Char) (c : Char) : intValue (ds ++ [c]) =
    if intValue ds ≤ 429496728 then 10 * intValue ds + (c.toNat - 48) else 4294967295 := by
  unfold intValue
  rw [List.foldl_append]
  rfl

theorem intValue_aux (n : Nat) : ∀ ds : List Char, ds.length = n → (∀ c ∈ ds, Digit c) → intValue ds = numeral ds := by
  induction n with
  | zero =>
    intro ds h _
    rw [List.length_eq_zero_iff.1 h]
    rfl
  | succ n ih =>
    intro ds h hd
    have hne : ds ≠ [] := by intro e; rw [e] at h; cases h
    obtain ⟨ds', c, rfl⟩ : ∃ ds' c, ds = ds' ++ [c] := ⟨ds.dropLast, ds.getLast hne, (List.dropLast_concat_getLast hne).symm⟩
    have hl : ds'.length = n := by simpa using h
    have ih := ih ds' hl fun x hx => hd x (by simp [hx])
    have hc : Digit c := hd c (by simp)
    have e5 : '0'.toNat = 48 := rfl
    have e6 : '9'.toNat = 57 := rfl
    unfold Digit at hc
    rw [intValue_snoc, ih]
    unfold numeral
    rw [valueOf_snoc]
    split <;> split <;> split <;> omega

theorem intValue_eq {ds : List Char} (hd : ∀ c ∈ ds, Digit c) : intValue ds = numeral ds := intValue_aux _ ds rfl hd

end Verif.Mt
