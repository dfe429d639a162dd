import Verif.Judge.Proof
/-
  Model of `duplicates_TREC_CAst` (apps/collection.cc) and of what apps/treccast20.cc does with it: a file of groups of
  passages with the same text, each with the name that stands for all of them.

  A text is a list of characters, one for each byte.
-/
namespace Verif.Collect
open Verif.Judge (lines)

abbrev Text := List Char

/-- collection.cc 15 `isspace` -/
def blank (c : Char) : Bool := c == ' ' || c == '\t'

/-- collection.cc 34, 52: the characters at which a name does not end -/
def nameChar (c : Char) : Bool := !blank c && c != ':' && c != ','

/-- what `c_str` shows of a line (collection.cc 29): up to the first NUL -/
def cstr (l : Text) : Text := l.takeWhile (· != '\x00')

/-- collection.cc 43-64: what comes after the colon or a comma; the entries that are made, and whether there is no error.
The number bounds the commas. -/
def members (canon : Text) : Nat → Text → List (Text × Text) × Bool
  | 0, _ => ([], false)
  | fuel + 1, e =>
    let s := e.dropWhile blank
    if s = [] then ([], true)
    else if s.head? = some ':' ∨ s.head? = some ',' then ([], false)
    else
      let name := s.takeWhile nameChar
      let r := (s.dropWhile nameChar).dropWhile blank
      if r = [] then ([(name, canon)], true)
      else if r.head? = some ',' then
        let x := members canon fuel r.tail
        ((name, canon) :: x.1, x.2)
      else ([(name, canon)], false)

/-- collection.cc 27-64: one line -/
def readLine (l : Text) : List (Text × Text) × Bool :=
  let s := (cstr l).dropWhile blank
  if s = [] ∨ s.head? = some ':' ∨ s.head? = some ',' then ([], false)
  else
    let canon := s.takeWhile nameChar
    let r := (s.dropWhile nameChar).dropWhile blank
    if r.head? = some ':' then members canon (r.length + 1) r.tail else ([], false)

/-- collection.cc 26-65: the lines until one is refused -/
def readLines : List Text → List (Text × Text) × Bool
  | [] => ([], true)
  | l :: ls =>
    let x := readLine l
    if x.2 then
      let y := readLines ls
      (x.1 ++ y.1, y.2)
    else x

/-- collection.cc 17-67 `duplicates_TREC_CAst`, for a file that can be read: the entries in the order in which they are
made (a later one replaces an earlier one), and the answer -/
def duplicates (text : Text) : List (Text × Text) × Bool := readLines (lines text)

/-- `canonical.find` (treccast20.cc 161): the last entry for the name -/
def canonical (entries : List (Text × Text)) (pid : Text) : Option Text :=
  (entries.reverse.find? fun x => x.1 == pid).map (·.2)

/-- treccast20.cc 154-178: the names that are printed, with their ranks; `seen` and `rank` as in the code -/
def report (entries : List (Text × Text)) : List Text → List Text → Nat → List (Nat × Text)
  | [], _, _ => []
  | pid :: rest, seen, rank =>
    let pid := (canonical entries pid).getD pid
    if pid ∈ seen then report entries rest seen rank
    else (rank, pid) :: (if rank + 1 > 1000 then [] else report entries rest (pid :: seen) (rank + 1))

/-! ### specification -/

/-- a name of a passage: some characters without blanks, tabs, colons, commas, newlines and NULs -/
def Name (x : Text) : Prop := x ≠ [] ∧ ∀ c ∈ x, c ≠ ' ' ∧ c ≠ '\t' ∧ c ≠ ':' ∧ c ≠ ',' ∧ c ≠ '\n' ∧ c ≠ '\x00'

/-- blanks and tabs -/
def Blanks (x : Text) : Prop := ∀ c ∈ x, c = ' ' ∨ c = '\t'

/-- the text is a way to write the names, with commas between them, and perhaps one after the last -/
inductive WritesNames : Text → List Text → Prop
  | nil {a} : Blanks a → WritesNames a []
  | last {a x b} : Blanks a → Name x → Blanks b → WritesNames (a ++ x ++ b) [x]
  | cons {a x b text xs} : Blanks a → Name x → Blanks b → WritesNames text xs → WritesNames (a ++ x ++ b ++ ',' :: text) (x :: xs)

/-- a name and the names that it stands for -/
structure Group where
  canon : Text
  names : List Text

/-- the line is a way to write the group -/
inductive WritesGroup : Text → Group → Prop
  | mk {a x b text xs} : Blanks a → Name x → Blanks b → WritesNames text xs → WritesGroup (a ++ x ++ b ++ ':' :: text) ⟨x, xs⟩

/-- the file is a way to write the groups: a line for each, with a newline at the end of every line but perhaps the last -/
inductive WritesGroups : Text → List Group → Prop
  | nil : WritesGroups [] []
  | last {l g} : WritesGroup l g → WritesGroups l [g]
  | cons {l g text gs} : WritesGroup l g → WritesGroups text gs → WritesGroups (l ++ '\n' :: text) (g :: gs)

/-- the name that stands for `pid` in the last group that has it -/
def StandsFor (gs : List Group) (pid canon : Text) : Prop :=
  ∃ before g after, gs = before ++ g :: after ∧ pid ∈ g.names ∧ g.canon = canon ∧ ∀ h ∈ after, pid ∉ h.names

/-- the entries that a list of groups makes -/
def entriesOf (gs : List Group) : List (Text × Text) := gs.flatMap fun g => g.names.map fun x => (x, g.canon)

/-! ### proof: reading what was written -/

theorem dropWhile_blanks {a rest : Text} (h : Blanks a) : (a ++ rest).dropWhile blank = rest.dropWhile blank := by
  induction a with
  | nil => rfl
  | cons c a ih =>
    have hc : blank c = true := by rcases h c (by simp) with rfl | rfl <;> rfl
    rw [List.cons_append, List.dropWhile_cons_of_pos hc, ih fun d hd => h d (by simp [hd])]

theorem name_nameChar {x : Text} (h : Name x) : ∀ c ∈ x, nameChar c = true := by
  intro c hc
  obtain ⟨h1, h2, h3, h4, -, -⟩ := h.2 c hc
  simp [nameChar, blank, h1, h2, h3, h4]

theorem nameChar_blank {c : Char} (h : nameChar c = true) : blank c = false := by
  unfold nameChar at h; cases hb : blank c <;> simp_all

theorem dropWhile_name {x rest : Text} (h : Name x) : (x ++ rest).dropWhile blank = x ++ rest := by
  cases x with
  | nil => exact absurd rfl h.1
  | cons c x =>
    rw [List.cons_append, List.dropWhile_cons_of_neg]
    rw [nameChar_blank (name_nameChar h c (by simp))]; decide

theorem stop_cons {d : Char} (rest : Text) (hd : nameChar d = false) (x : Text) (h : ∀ c ∈ x, nameChar c = true) :
    (x ++ d :: rest).takeWhile nameChar = x ∧ (x ++ d :: rest).dropWhile nameChar = d :: rest := by
  induction x with
  | nil => simp [hd]
  | cons c x ih =>
    obtain ⟨i1, i2⟩ := ih fun e he => h e (by simp [he])
    have := h c (by simp)
    simp [this, i1, i2]

theorem stop_nil (x : Text) (h : ∀ c ∈ x, nameChar c = true) : x.takeWhile nameChar = x ∧ x.dropWhile nameChar = [] := by
  induction x with
  | nil => simp
  | cons c x ih =>
    obtain ⟨i1, i2⟩ := ih fun e he => h e (by simp [he])
    have := h c (by simp)
    simp [this, i1, i2]

/-- a name, blanks, and what does not go on with the name -/
theorem word_split {x b rest : Text} (hx : Name x) (hb : Blanks b) (hr : ∀ c, rest.head? = some c → nameChar c = false) :
    (x ++ b ++ rest).takeWhile nameChar = x ∧ ((x ++ b ++ rest).dropWhile nameChar).dropWhile blank = rest.dropWhile blank := by
  rw [List.append_assoc]
  cases hbr : b ++ rest with
  | nil =>
    have : rest = [] := by simp at hbr; exact hbr.2
    subst this
    rw [List.append_nil]
    obtain ⟨h1, h2⟩ := stop_nil x (name_nameChar hx)
    exact ⟨h1, by rw [h2]⟩
  | cons d rest' =>
    have hd : nameChar d = false := by
      cases b with
      | nil => exact hr d (by rw [List.nil_append] at hbr; rw [hbr]; rfl)
      | cons e b =>
        rw [List.cons_append] at hbr
        cases hbr
        rcases hb _ (List.mem_cons_self) with rfl | rfl <;> rfl
    obtain ⟨h1, h2⟩ := stop_cons rest' hd x (name_nameChar hx)
    exact ⟨h1, by rw [h2, ← hbr, dropWhile_blanks hb]⟩

theorem name_head {x rest : Text} (h : Name x) : (x ++ rest) ≠ [] ∧ (x ++ rest).head? ≠ some ':' ∧ (x ++ rest).head? ≠ some ',' := by
  cases x with
  | nil => exact absurd rfl h.1
  | cons c x =>
    obtain ⟨-, -, h3, h4, -⟩ := h.2 c (by simp)
    simp [h3, h4]

theorem dropWhile_blanks_nil {a : Text} (h : Blanks a) : a.dropWhile blank = [] := by
  have := dropWhile_blanks (rest := []) h
  rwa [List.append_nil] at this

theorem members_ok {canon text : Text} {xs : List Text} (h : WritesNames text xs) :
    ∀ fuel, text.length < fuel → members canon fuel text = (xs.map fun x => (x, canon), true) := by
  induction h with
  | nil ha =>
    intro fuel hf
    obtain ⟨fuel, rfl⟩ : ∃ n, fuel = n + 1 := ⟨fuel - 1, by omega⟩
    unfold members
    simp [dropWhile_blanks_nil ha]
  | @last a x b ha hx hb =>
    intro fuel hf
    obtain ⟨fuel, rfl⟩ : ∃ n, fuel = n + 1 := ⟨fuel - 1, by omega⟩
    unfold members
    have e : (a ++ x ++ b).dropWhile blank = x ++ b := by
      rw [List.append_assoc, dropWhile_blanks ha, dropWhile_name hx]
    obtain ⟨w1, w2⟩ := word_split (rest := []) hx hb (by simp)
    rw [List.append_nil] at w1 w2
    obtain ⟨n1, n2, n3⟩ := name_head (rest := b) hx
    simp only [e, n1, n2, n3, or_self, if_false, w1, w2, List.dropWhile_nil, if_true, List.map_cons, List.map_nil]
  | @cons a x b text xs ha hx hb _ ih =>
    intro fuel hf
    obtain ⟨fuel, rfl⟩ : ∃ n, fuel = n + 1 := ⟨fuel - 1, by omega⟩
    unfold members
    have e : (a ++ x ++ b ++ ',' :: text).dropWhile blank = x ++ b ++ ',' :: text := by
      rw [List.append_assoc, List.append_assoc, dropWhile_blanks ha, dropWhile_name hx, List.append_assoc]
    obtain ⟨w1, w2⟩ := word_split (rest := ',' :: text) hx hb (by intro c hc; cases hc; rfl)
    obtain ⟨n1, n2, n3⟩ := name_head (rest := b ++ ',' :: text) hx
    rw [← List.append_assoc] at n1 n2 n3
    have d : (',' :: text).dropWhile blank = ',' :: text := by rw [List.dropWhile_cons_of_neg (by decide)]
    have := ih fuel (by simp at hf; omega)
    simp only [e, n1, n2, n3, or_self, if_false, w1, w2, d, List.head?_cons, List.tail_cons, if_true, this, List.map_cons]
    simp

theorem blanks_plain {a : Text} (h : Blanks a) : ∀ c ∈ a, c ≠ '\x00' ∧ c ≠ '\n' := by
  intro c hc; rcases h c hc with rfl | rfl <;> decide

theorem names_plain {text : Text} {xs : List Text} (h : WritesNames text xs) : ∀ c ∈ text, c ≠ '\x00' ∧ c ≠ '\n' := by
  induction h with
  | nil ha => exact blanks_plain ha
  | last ha hx hb =>
    intro c hc
    simp only [List.mem_append] at hc
    rcases hc with (hc | hc) | hc
    · exact blanks_plain ha c hc
    · exact ⟨(hx.2 c hc).2.2.2.2.2, (hx.2 c hc).2.2.2.2.1⟩
    · exact blanks_plain hb c hc
  | cons ha hx hb _ ih =>
    intro c hc
    simp only [List.mem_append, List.mem_cons] at hc
    rcases hc with ((hc | hc) | hc) | rfl | hc
    · exact blanks_plain ha c hc
    · exact ⟨(hx.2 c hc).2.2.2.2.2, (hx.2 c hc).2.2.2.2.1⟩
    · exact blanks_plain hb c hc
    · decide
    · exact ih c hc

theorem group_plain {l : Text} {g : Group} (h : WritesGroup l g) : ∀ c ∈ l, c ≠ '\x00' ∧ c ≠ '\n' := by
  obtain ⟨ha, hx, hb, hn⟩ := h
  intro c hc
  simp only [List.mem_append, List.mem_cons] at hc
  rcases hc with ((hc | hc) | hc) | rfl | hc
  · exact blanks_plain ha c hc
  · exact ⟨(hx.2 c hc).2.2.2.2.2, (hx.2 c hc).2.2.2.2.1⟩
  · exact blanks_plain hb c hc
  · decide
  · exact names_plain hn c hc

theorem cstr_plain {l : Text} (h : ∀ c ∈ l, c ≠ '\x00') : cstr l = l := by
  unfold cstr
  induction l with
  | nil => rfl
  | cons c l ih =>
    rw [List.takeWhile_cons_of_pos (by simp [h c]), ih fun d hd => h d (by simp [hd])]

theorem readLine_ok {l : Text} {g : Group} (h : WritesGroup l g) : readLine l = (g.names.map fun x => (x, g.canon), true) := by
  have hp := cstr_plain fun c hc => (group_plain h c hc).1
  obtain ⟨ha, hx, hb, hn⟩ := h
  rename_i a x b text xs
  unfold readLine
  have e : (a ++ x ++ b ++ ':' :: text).dropWhile blank = x ++ b ++ ':' :: text := by
    rw [List.append_assoc, List.append_assoc, dropWhile_blanks ha, dropWhile_name hx, List.append_assoc]
  obtain ⟨w1, w2⟩ := word_split (rest := ':' :: text) hx hb (by intro c hc; cases hc; rfl)
  obtain ⟨n1, n2, n3⟩ := name_head (rest := b ++ ':' :: text) hx
  rw [← List.append_assoc] at n1 n2 n3
  have d : (':' :: text).dropWhile blank = ':' :: text := by rw [List.dropWhile_cons_of_neg (by decide)]
  rw [hp]
  simp only [e, n1, n2, n3, or_self, if_false, w1, w2, d, List.head?_cons, List.tail_cons, if_true]
  exact members_ok hn _ (by simp; omega)

theorem group_ne {l : Text} {g : Group} (h : WritesGroup l g) : l ≠ [] := by
  obtain ⟨ha, hx, hb, hn⟩ := h; simp

theorem duplicates_ok {text : Text} {gs : List Group} (h : WritesGroups text gs) : duplicates text = (entriesOf gs, true) := by
  unfold duplicates
  induction h with
  | nil => rfl
  | last h =>
    have hl := Judge.lines_one (fun hm => (group_plain h _ hm).2 rfl) (group_ne h)
    rw [hl]
    simp [readLines, readLine_ok h, entriesOf]
  | cons h _ ih =>
    rw [Judge.lines_cons (fun hm => (group_plain h _ hm).2 rfl)]
    simp [readLines, readLine_ok h, ih, entriesOf]

/-! ### proof: what is read was written -/

theorem takeWhile_blanks (s : Text) : Blanks (s.takeWhile blank) := by
  intro c hc
  have := List.all_takeWhile (l := s) (p := blank)
  rw [List.all_eq_true] at this
  have := this c hc
  unfold blank at this
  simpa using this

theorem takeWhile_name {s : Text} (h0 : s ≠ []) (hb : s.dropWhile blank = s) (h1 : s.head? ≠ some ':') (h2 : s.head? ≠ some ',')
    (hp : ∀ c ∈ s, c ≠ '\x00' ∧ c ≠ '\n') : Name (s.takeWhile nameChar) := by
  constructor
  · cases s with
    | nil => exact absurd rfl h0
    | cons c s =>
      have hc : blank c = false := by
        cases hbc : blank c with
        | false => rfl
        | true =>
          rw [List.dropWhile_cons_of_pos hbc] at hb
          have := (List.dropWhile_sublist (p := blank) (l := s)).length_le
          rw [hb] at this; simp at this; omega
      have hn : nameChar c = true := by
        simp only [List.head?_cons, ne_eq, Option.some.injEq] at h1 h2
        simp [nameChar, hc, h1, h2]
      rw [List.takeWhile_cons_of_pos hn]; simp
  · intro c hc
    have := List.all_takeWhile (l := s) (p := nameChar)
    rw [List.all_eq_true] at this
    have hn := this c hc
    have hm := (List.takeWhile_sublist nameChar).mem hc
    simp only [nameChar, blank, Bool.and_eq_true, Bool.not_eq_true', Bool.or_eq_false_iff, beq_eq_false_iff_ne, bne_iff_ne, ne_eq] at hn
    obtain ⟨⟨⟨g1, g2⟩, g3⟩, g4⟩ := hn
    exact ⟨g1, g2, g3, g4, (hp c hm).2, (hp c hm).1⟩

theorem dropWhile_idem (s : Text) : (s.dropWhile blank).dropWhile blank = s.dropWhile blank := by
  induction s with
  | nil => rfl
  | cons c s ih =>
    cases h : blank c with
    | true => rw [List.dropWhile_cons_of_pos h, ih]
    | false =>
      have : ¬ blank c = true := by simp [h]
      rw [List.dropWhile_cons_of_neg this, List.dropWhile_cons_of_neg this]

theorem split3 (s : Text) : s = s.takeWhile nameChar ++ ((s.dropWhile nameChar).takeWhile blank) ++ (s.dropWhile nameChar).dropWhile blank := by
  rw [List.append_assoc, List.takeWhile_append_dropWhile, List.takeWhile_append_dropWhile]

theorem members_sound {canon : Text} : ∀ (fuel : Nat) (e : Text), (∀ c ∈ e, c ≠ '\x00' ∧ c ≠ '\n') → (members canon fuel e).2 = true →
    ∃ xs, WritesNames e xs := by
  intro fuel
  induction fuel with
  | zero => intro e _ h; simp [members] at h
  | succ fuel ih =>
    intro e hp h
    unfold members at h
    have ee : e = e.takeWhile blank ++ e.dropWhile blank := (List.takeWhile_append_dropWhile).symm
    have hps : ∀ c ∈ e.dropWhile blank, c ≠ '\x00' ∧ c ≠ '\n' := fun c hc => hp c ((List.dropWhile_sublist blank).mem hc)
    have hid := dropWhile_idem e
    generalize hs : e.dropWhile blank = s at *
    have hab := takeWhile_blanks e
    generalize e.takeWhile blank = a at *
    by_cases h0 : s = []
    · subst h0; rw [ee, List.append_nil]; exact ⟨[], .nil hab⟩
    · simp only [h0, if_false] at h
      by_cases h1 : s.head? = some ':' ∨ s.head? = some ','
      · simp [h1] at h
      · simp only [h1, if_false] at h
        have hx := takeWhile_name h0 hid (fun g => h1 (.inl g)) (fun g => h1 (.inr g)) hps
        have hb := takeWhile_blanks (s.dropWhile nameChar)
        have e3 := split3 s
        have hsub : ∀ c ∈ (s.dropWhile nameChar).dropWhile blank, c ∈ s := fun c hc =>
          (List.dropWhile_sublist nameChar).mem ((List.dropWhile_sublist blank).mem hc)
        generalize (s.dropWhile nameChar).dropWhile blank = r at *
        by_cases hr : r = []
        · subst hr
          rw [List.append_nil] at e3
          refine ⟨[s.takeWhile nameChar], ?_⟩
          have := WritesNames.last hab hx hb
          rwa [List.append_assoc, ← e3, ← ee] at this
        · simp only [hr, if_false] at h
          by_cases hc : r.head? = some ','
          · simp only [hc, if_true] at h
            obtain ⟨rest, rfl⟩ : ∃ rest, r = ',' :: rest := by
              cases r with
              | nil => exact absurd rfl hr
              | cons d rest => simp at hc; subst hc; exact ⟨rest, rfl⟩
            obtain ⟨xs, hxs⟩ := ih rest (fun c hc => hps c (hsub c (by simp [hc]))) h
            refine ⟨s.takeWhile nameChar :: xs, ?_⟩
            have := WritesNames.cons hab hx hb hxs
            have e4 : a ++ s.takeWhile nameChar ++ (s.dropWhile nameChar).takeWhile blank ++ ',' :: rest = e := by
              rw [List.append_assoc, List.append_assoc, ← List.append_assoc (s.takeWhile nameChar), ← e3, ← ee]
            rwa [e4] at this
          · simp [hc] at h

theorem readLine_sound {l : Text} (hp : ∀ c ∈ l, c ≠ '\x00' ∧ c ≠ '\n') (h : (readLine l).2 = true) : ∃ g, WritesGroup l g := by
  unfold readLine at h
  rw [cstr_plain fun c hc => (hp c hc).1] at h
  have ee : l = l.takeWhile blank ++ l.dropWhile blank := (List.takeWhile_append_dropWhile).symm
  have hps : ∀ c ∈ l.dropWhile blank, c ≠ '\x00' ∧ c ≠ '\n' := fun c hc => hp c ((List.dropWhile_sublist blank).mem hc)
  have hid := dropWhile_idem l
  have hab := takeWhile_blanks l
  generalize l.dropWhile blank = s at *
  generalize l.takeWhile blank = a at *
  by_cases h0 : s = [] ∨ s.head? = some ':' ∨ s.head? = some ','
  · simp [h0] at h
  · simp only [h0, if_false] at h
    have hx := takeWhile_name (fun g => h0 (.inl g)) hid (fun g => h0 (.inr (.inl g))) (fun g => h0 (.inr (.inr g))) hps
    have hb := takeWhile_blanks (s.dropWhile nameChar)
    have e3 := split3 s
    have hsub : ∀ c ∈ (s.dropWhile nameChar).dropWhile blank, c ∈ s := fun c hc =>
      (List.dropWhile_sublist nameChar).mem ((List.dropWhile_sublist blank).mem hc)
    generalize (s.dropWhile nameChar).dropWhile blank = r at *
    by_cases hc : r.head? = some ':'
    · simp only [hc, if_true] at h
      obtain ⟨rest, rfl⟩ : ∃ rest, r = ':' :: rest := by
        cases r with
        | nil => simp at hc
        | cons d rest => simp at hc; subst hc; exact ⟨rest, rfl⟩
      obtain ⟨xs, hxs⟩ := members_sound _ rest (fun c hc => hps c (hsub c (by simp [hc]))) h
      refine ⟨⟨s.takeWhile nameChar, xs⟩, ?_⟩
      have := WritesGroup.mk hab hx hb hxs
      have e4 : a ++ s.takeWhile nameChar ++ (s.dropWhile nameChar).takeWhile blank ++ ':' :: rest = l := by
        rw [List.append_assoc, List.append_assoc, ← List.append_assoc (s.takeWhile nameChar), ← e3, ← ee]
      rwa [e4] at this
    · simp [hc] at h

/-- a text is one line, or a line and more lines -/
theorem lines_split (text : Text) : text = [] ∨ ('\n' ∉ text ∧ text ≠ []) ∨ ∃ l rest, '\n' ∉ l ∧ text = l ++ '\n' :: rest := by
  induction text with
  | nil => exact .inl rfl
  | cons c text ih =>
    right
    by_cases hc : c = '\n'
    · subst hc; exact .inr ⟨[], text, by simp, rfl⟩
    · rcases ih with rfl | ⟨h1, -⟩ | ⟨l, rest, h1, rfl⟩
      · left; simp [Ne.symm hc]
      · left; simp [Ne.symm hc, h1]
      · right; exact ⟨c :: l, rest, by simp [Ne.symm hc, h1], rfl⟩

theorem duplicates_sound : ∀ (n : Nat) (text : Text), text.length ≤ n → (∀ c ∈ text, c ≠ '\x00') → (duplicates text).2 = true →
    ∃ gs, WritesGroups text gs := by
  intro n
  induction n with
  | zero => intro text hn _ _; cases text with
    | nil => exact ⟨[], .nil⟩
    | cons => simp at hn
  | succ n ih =>
    intro text hn hp h
    unfold duplicates at h
    rcases lines_split text with rfl | ⟨h1, h2⟩ | ⟨l, rest, h1, rfl⟩
    · exact ⟨[], .nil⟩
    · rw [Judge.lines_one h1 h2] at h
      have hr : (readLine text).2 = true := by
        cases hh : (readLine text).2 with
        | true => rfl
        | false => simp [readLines, hh] at h
      obtain ⟨g, hg⟩ := readLine_sound (fun c hc => ⟨hp c hc, fun e => h1 (e ▸ hc)⟩) hr
      exact ⟨[g], .last hg⟩
    · rw [Judge.lines_cons h1] at h
      have hr : (readLine l).2 = true := by
        cases hh : (readLine l).2 with
        | true => rfl
        | false => simp [readLines, hh] at h
      simp only [readLines, hr, if_true] at h
      obtain ⟨g, hg⟩ := readLine_sound (fun c hc => ⟨hp c (by simp [hc]), fun e => h1 (e ▸ hc)⟩) hr
      obtain ⟨gs, hgs⟩ := ih rest (by simp at hn; omega) (fun c hc => hp c (by simp [hc])) h
      exact ⟨g :: gs, .cons hg hgs⟩

/-! ### proof: the map -/

theorem canonical_some {gs : List Group} {pid canon : Text} : canonical (entriesOf gs) pid = some canon ↔ StandsFor gs pid canon := by
  have key : ∀ gs : List Group, canonical (entriesOf gs) pid = (gs.reverse.find? fun g => decide (pid ∈ g.names)).map (·.canon) := by
    intro gs
    induction gs with
    | nil => rfl
    | cons g gs ih =>
      unfold canonical at ih ⊢
      have e : entriesOf (g :: gs) = (g.names.map fun x => (x, g.canon)) ++ entriesOf gs := rfl
      rw [e, List.reverse_append, List.find?_append, List.reverse_cons, List.find?_append]
      cases h1 : (entriesOf gs).reverse.find? fun x => x.1 == pid with
      | some y =>
        rw [h1] at ih
        cases h2 : gs.reverse.find? fun g => decide (pid ∈ g.names) with
        | none => rw [h2] at ih; cases ih
        | some z => rw [h2] at ih; exact ih
      | none =>
        rw [h1] at ih
        cases h2 : gs.reverse.find? fun g => decide (pid ∈ g.names) with
        | some z => rw [h2] at ih; cases ih
        | none =>
          simp only [Option.none_or, List.find?_cons, List.find?_nil]
          by_cases hm : pid ∈ g.names
          · simp only [hm, decide_true, Option.map_some]
            have : ∃ y, ((g.names.map fun x => (x, g.canon)).reverse.find? fun x => x.1 == pid) = some y := by
              rw [← Option.isSome_iff_exists, List.find?_isSome]
              exact ⟨(pid, g.canon), by simp [hm], by simp⟩
            obtain ⟨y, hy⟩ := this
            rw [hy]
            have := List.mem_of_find?_eq_some hy
            simp only [List.mem_reverse, List.mem_map] at this
            obtain ⟨x, -, rfl⟩ := this
            rfl
          · simp only [hm, decide_false]
            have : ((g.names.map fun x => (x, g.canon)).reverse.find? fun x => x.1 == pid) = none := by
              rw [List.find?_eq_none]
              intro y hy
              simp only [List.mem_reverse, List.mem_map] at hy
              obtain ⟨x, hx, rfl⟩ := hy
              simp only [beq_iff_eq]
              rintro rfl; exact hm hx
            rw [this]; rfl
  rw [key]
  constructor
  · intro h
    obtain ⟨g, h1, h2⟩ := Option.map_eq_some_iff.1 h
    obtain ⟨g1, as, bs, g2, g3⟩ := List.find?_eq_some_iff_append.1 h1
    refine ⟨bs.reverse, g, as.reverse, ?_, by simpa using g1, h2, ?_⟩
    · have := congrArg List.reverse g2
      simpa using this
    · intro x hx
      simpa using g3 x (by simpa using hx)
  · rintro ⟨before, g, after, rfl, h2, h3, h4⟩
    have : (before ++ g :: after).reverse.find? (fun g => decide (pid ∈ g.names)) = some g := by
      rw [List.find?_eq_some_iff_append]
      refine ⟨by simpa using h2, after.reverse, before.reverse, by simp, ?_⟩
      intro x hx
      simpa using h4 x (by simpa using hx)
    rw [this]; simp [h3]

end Verif.Collect
