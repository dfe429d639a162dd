import Verif.Working.Proof
/-
  Proofs for C81: listings and the scripts of `commit_all`.
-/
namespace Verif.Working

open Verif.Inhale (Bytes plain Legal cstr shellQuote quoted shellQuote_eq cstr_legal quoted_legal)

/-! ### Listings -/

theorem fgets_line : ∀ (n : Bytes) (room : Nat) (rest : Bytes), 10 ∉ n → n.length < room →
    fgets room (n ++ 10 :: rest) = (n ++ [10], rest)
  | [], room + 1, rest, _, _ => by simp [fgets]
  | [], 0, _, _, h => absurd h (by simp)
  | c :: n, 0, _, _, h => absurd h (by simp)
  | c :: n, room + 1, rest, h, hl => by
    simp only [List.mem_cons, not_or] at h
    rw [List.length_cons] at hl
    rw [List.cons_append, fgets, if_neg (fun e => h.1 e.symm), fgets_line n room rest h.2 (by omega)]
    rfl

theorem fgets_full : ∀ (n : Bytes) (rest : Bytes), 10 ∉ n → fgets n.length (n ++ rest) = (n, rest)
  | [], rest, _ => by simp [fgets]
  | c :: n, rest, h => by
    simp only [List.mem_cons, not_or] at h
    rw [List.cons_append, List.length_cons, fgets, if_neg (fun e => h.1 e.symm), fgets_full n rest h.2]

theorem takeWhile_line (n : Bytes) (h : 10 ∉ n) (t : Bytes) (ht : t = [] ∨ t = [10]) :
    (n ++ t).takeWhile (· ≠ 10) = n := by
  induction n with
  | nil => rcases ht with rfl | rfl <;> simp
  | cons c n ih =>
    simp only [List.mem_cons, not_or] at h
    rw [List.cons_append, List.takeWhile_cons, if_pos (by simpa using fun e => h.1 e.symm), ih h.2]

theorem begins_iff {pre n : Bytes} (hp : 10 ∉ pre) (t : Bytes) (ht : t = [] ∨ t = [10]) :
    beginsWith pre (n ++ t) = pre.isPrefixOf n := by
  rw [Bool.eq_iff_iff, List.isPrefixOf_iff_prefix]
  unfold beginsWith
  rw [beq_iff_eq, ← List.prefix_iff_eq_take.trans ⟨Eq.symm, Eq.symm⟩]
  constructor
  · rintro ⟨s, hs⟩
    rcases ht with rfl | rfl
    · exact ⟨s, by simpa using hs⟩
    · rcases List.eq_nil_or_concat s with rfl | ⟨s', c, rfl⟩
      · exfalso
        apply hp
        rw [List.append_nil] at hs
        rw [hs]
        simp
      · rw [List.concat_eq_append, ← List.append_assoc] at hs
        obtain ⟨h1, _⟩ := List.append_inj' hs rfl
        exact ⟨s', h1⟩
  · rintro ⟨s, rfl⟩
    exact ⟨s ++ t, by simp⟩

theorem lsLoop_lines {pre : Bytes} (hp : 10 ∉ pre) (hpn : pre ≠ []) : ∀ (listing : List Bytes) (fuel : Nat),
    (∀ n ∈ listing, n ≠ [] ∧ 10 ∉ n ∧ n.length ≤ 255) → (printed listing).length ≤ fuel →
    lsLoop pre fuel (printed listing) = listing.filter fun n => pre.isPrefixOf n
  | [], fuel, _, _ => by cases fuel <;> rfl
  | n :: l, fuel, h, hf => by
    have hn := h n (List.mem_cons_self ..)
    have hl : ∀ m ∈ l, m ≠ [] ∧ 10 ∉ m ∧ m.length ≤ 255 := fun m hm => h m (List.mem_cons_of_mem _ hm)
    have e : printed (n :: l) = n ++ 10 :: printed l := by simp [printed]
    rw [e] at hf ⊢
    rw [List.length_append, List.length_cons] at hf
    match n, hn with
    | c :: n, hn =>
    rw [List.length_cons] at hf
    obtain ⟨fuel, rfl⟩ : ∃ k, fuel = k + 2 := ⟨fuel - 2, by omega⟩
    by_cases h255 : (c :: n).length = 255
    · have e1 : fgets 255 ((c :: n) ++ 10 :: printed l) = (c :: n, 10 :: printed l) := by
        rw [← h255]; exact fgets_full _ _ hn.2.1
      have e2 : fgets 255 (10 :: printed l) = ([10], printed l) := by simp [fgets]
      have e3 : lsLoop pre (fuel + 1) (10 :: printed l) = lsLoop pre fuel (printed l) := by
        rw [lsLoop]
        simp only [e2]
        rw [if_neg]
        have := begins_iff (n := []) hp [10] (.inr rfl)
        rw [List.nil_append] at this
        rw [this]
        cases pre with
        | nil => exact absurd rfl hpn
        | cons _ _ => simp
      simp only [List.cons_append] at e1 ⊢
      rw [lsLoop]
      simp only [e1, e3]
      rw [lsLoop_lines hp hpn l fuel hl (by omega)]
      have b := begins_iff (n := c :: n) hp [] (.inl rfl)
      have t := takeWhile_line (c :: n) hn.2.1 [] (.inl rfl)
      rw [List.append_nil] at b t
      rw [b, t, List.filter_cons]
    · have e1 : fgets 255 ((c :: n) ++ 10 :: printed l) = ((c :: n) ++ [10], printed l) :=
        fgets_line _ _ _ hn.2.1 (by omega)
      simp only [List.cons_append] at e1 ⊢
      rw [lsLoop]
      simp only [e1]
      rw [lsLoop_lines hp hpn l (fuel + 1) hl (by omega)]
      have b := begins_iff (n := c :: n) hp [10] (.inr rfl)
      have t := takeWhile_line (c :: n) hn.2.1 [10] (.inr rfl)
      rw [List.cons_append] at b t
      rw [b, t, List.filter_cons]

theorem ls_lines {pre : Bytes} (hp : 10 ∉ pre) (hpn : pre ≠ []) (listing : List Bytes)
    (h : ∀ n ∈ listing, n ≠ [] ∧ 10 ∉ n ∧ n.length ≤ 255) :
    ls pre (printed listing) = listing.filter fun n => pre.isPrefixOf n :=
  lsLoop_lines hp hpn listing _ h (Nat.le_refl _)

/-! ### What one line of a script does -/

/-- the file gets its name, or is dropped if there is one of that name -/
def settle (x : Bytes × Bytes) (fs : FS) : FS := fun p =>
  if p = x.1 then none else if p = x.2 ∧ fs x.2 = none then fs x.1 else fs p

def settleAll : List (Bytes × Bytes) → FS → FS
  | [], fs => fs
  | x :: l, fs => settleAll l (settle x fs)

def lineCommands (x : Bytes × Bytes) : List (List Word) :=
  [[lit mvName, lit dashN, lit x.1, lit x.2], [lit rmName, lit dashF, lit x.1]]

theorem parse_devnull (ws : List Word) (hw : ws ≠ []) (rest : Bytes) :
    parse .blank [] ws ([0x32, 0x3E, 0x2F, 0x64, 0x65, 0x76, 0x2F, 0x6E, 0x75, 0x6C, 0x6C, 0x3B, 0x20, 0x72, 0x6D, 0x20, 0x2D, 0x66, 0x20] /- 2>/dev/null; rm -f -/ ++ rest) =
      (parse .blank [] [lit rmName, lit dashF] rest).map (ws :: ·) := by
  rw [show ([0x32, 0x3E, 0x2F, 0x64, 0x65, 0x76, 0x2F, 0x6E, 0x75, 0x6C, 0x6C, 0x3B, 0x20, 0x72, 0x6D, 0x20, 0x2D, 0x66, 0x20] /- 2>/dev/null; rm -f -/ : Bytes) ++ rest = [50] ++ 62 :: ([0x2F, 0x64, 0x65, 0x76, 0x2F, 0x6E, 0x75, 0x6C, 0x6C] /- /dev/null -/ ++ 59 :: 32 :: (rmName ++ 32 :: (dashF ++ 32 :: rest))) from rfl]
  rw [parse_blank_plain (by decide) (by decide), parse, if_neg (by decide), if_neg (by decide), if_neg (by decide),
    if_neg (by decide), if_pos rfl, if_pos ⟨rfl, hw⟩]
  have ht : ∀ (w rest : Bytes), w.all plain = true →
      parse .target [] ws (w ++ 59 :: rest) = (parse .blank [] [] rest).map (ws :: ·) := by
    intro w
    induction w with
    | nil => intro rest _; rw [List.nil_append, parse, if_neg (by decide), if_pos (by simp)]
    | cons c w ih =>
      intro rest h
      simp only [List.all_cons, Bool.and_eq_true] at h
      obtain ⟨h1, h2, h3, h4, h5, h6, h7, h8, h9, h10⟩ := plain_ne h.1
      rw [List.cons_append, parse, if_neg (by simp [h1, h2]), if_neg (by simp [h5, h6]), if_pos h.1, ih rest h.2]
  rw [ht _ _ (by decide)]
  rw [show parse .blank [] [] (32 :: (rmName ++ 32 :: (dashF ++ 32 :: rest))) =
    parse .blank [] [] (rmName ++ 32 :: (dashF ++ 32 :: rest)) from by rw [parse, if_pos (by simp)]]
  rw [parse_word (by decide) (by decide), parse_word (by decide) (by decide)]
  rfl

theorem parse_line (x : Bytes × Bytes) (rest : Bytes) :
    parse .blank [] [] (([0x6D, 0x76, 0x20, 0x2D, 0x6E, 0x20] /- mv -n -/ ++ shellQuote x.1 ++ [0x20] ++ shellQuote x.2 ++ [0x20, 0x32, 0x3E, 0x2F, 0x64, 0x65, 0x76, 0x2F, 0x6E, 0x75, 0x6C, 0x6C, 0x3B, 0x20, 0x72, 0x6D, 0x20, 0x2D, 0x66, 0x20] /- 2>/dev/null; rm -f -/ ++ shellQuote x.1)
      ++ 10 :: rest) = (parse .blank [] [] rest).map (lineCommands x ++ ·) := by
  rw [show ([0x6D, 0x76, 0x20, 0x2D, 0x6E, 0x20] /- mv -n -/ ++ shellQuote x.1 ++ [0x20] ++ shellQuote x.2 ++ [0x20, 0x32, 0x3E, 0x2F, 0x64, 0x65, 0x76, 0x2F, 0x6E, 0x75, 0x6C, 0x6C, 0x3B, 0x20, 0x72, 0x6D, 0x20, 0x2D, 0x66, 0x20] /- 2>/dev/null; rm -f -/ ++ shellQuote x.1) ++ 10 :: rest =
    mvName ++ 32 :: (dashN ++ 32 :: (shellQuote x.1 ++ 32 :: (shellQuote x.2 ++ 32 :: ([0x32, 0x3E, 0x2F, 0x64, 0x65, 0x76, 0x2F, 0x6E, 0x75, 0x6C, 0x6C, 0x3B, 0x20, 0x72, 0x6D, 0x20, 0x2D, 0x66, 0x20] /- 2>/dev/null; rm -f -/ ++
      (shellQuote x.1 ++ 10 :: rest))))) from by simp [mvName, dashN]]
  rw [parse_word (by decide) (by decide), parse_word (by decide) (by decide), parse_quote, parse_space, parse_quote,
    parse_space, parse_devnull _ (by simp), parse_quote, parse_newline, Option.map_map]
  rfl

theorem parse_comment : ∀ (s rest : Bytes), 10 ∉ s → parse .comment [] [] (s ++ 10 :: rest) = parse .blank [] [] rest
  | [], rest, _ => by rw [List.nil_append, parse, if_pos rfl, if_pos rfl]
  | c :: s, rest, h => by
    simp only [List.mem_cons, not_or] at h
    rw [List.cons_append, parse, if_neg (fun e => h.1 e.symm), parse_comment s rest h.2]

theorem parse_sheBang (rest : Bytes) : parse .blank [] [] (sheBang ++ rest) = parse .blank [] [] rest := by
  rw [show sheBang ++ rest = 35 :: ([0x21, 0x2F, 0x62, 0x69, 0x6E, 0x2F, 0x73, 0x68] /- !/bin/sh -/ ++ 10 :: rest) from rfl, parse, if_neg (by decide), if_neg (by decide),
    if_pos rfl, parse_comment _ _ (by decide)]

theorem getLast_quote (s : Bytes) (a : Bytes) : (a ++ shellQuote s).getLast? = some 39 := by
  rw [shellQuote_eq, show a ++ 39 :: (quoted s ++ [39]) = (a ++ 39 :: quoted s) ++ [39] from by simp, List.getLast?_concat]

theorem parse_lines (fs₀ : FS) : ∀ (pairs : List (Bytes × Bytes)), (∀ x ∈ pairs, fs₀ x.1 ≠ none) →
    parse .blank [] [] (scriptLines fs₀ pairs) = some (pairs.flatMap lineCommands)
  | [], _ => rfl
  | (r, f) :: l, h => by
    have hr : ¬ (fs₀ r).isNone = true := by simpa using h (r, f) (List.mem_cons_self ..)
    unfold scriptLines
    simp only [commitCommand, if_neg hr]
    rw [if_pos (.inr (by rw [getLast_quote]; decide))]
    rw [List.append_assoc, show ([10] : Bytes) ++ scriptLines fs₀ l = 10 :: scriptLines fs₀ l from rfl, parse_line (r, f),
      parse_lines fs₀ l fun x hx => h x (List.mem_cons_of_mem _ hx)]
    rfl

theorem line_effect {x : Bytes × Bytes} (h : x.1 ≠ x.2) (h1 : Proper x.1) (h2 : Proper x.2) {fs : FS}
    (hd : fs x.1 ≠ some .dir ∧ fs x.2 ≠ some .dir) : commands (lineCommands x) fs = some (settle x fs) := by
  have e : commands (lineCommands x) fs = (mv x.1 x.2 fs).bind fun fs' => some (rm [lit x.1] fs') := by
    show (command _ fs).bind _ = _
    have e1 : command [lit mvName, lit dashN, lit x.1, lit x.2] fs = mv x.1 x.2 fs := by
      unfold command
      have : [lit x.1, lit x.2].any dubious = false := by simp [dubious_lit h1.1 h1.2.1, dubious_lit h2.1 h2.2.1]
      simp only [this, Bool.false_eq_true, if_false]
      rw [if_neg (by
        rintro ⟨h | h, _⟩
        · exact absurd h (by decide)
        · exact absurd h (by decide)), if_neg (by rintro ⟨h, _⟩; exact absurd h (by decide)), if_pos (by simp)]
      simp only [literal_lit]
    rw [e1]
    congr 1
    funext fs'
    show (command _ fs').bind _ = _
    rw [(command_rm (by simp [dubious_lit h1.1 h1.2.1]) fs').2]
    rfl
  rw [e]
  have hrm : ∀ (g : FS) (p : Bytes), g x.1 ≠ some .dir → rm [lit x.1] g p = if p = x.1 then none else g p := by
    intro g p hg
    by_cases hp : p = x.1
    · subst hp
      rw [if_pos rfl]
      have := rm_cases [lit x.1] g x.1
      cases hx : g x.1 with
      | none => rw [this.2 (by rintro ⟨⟨b, y, hb⟩, _⟩; rw [hx] at hb; cases hb), hx]
      | some n =>
        cases n with
        | dir => exact absurd hx hg
        | file b y => exact this.1 ⟨⟨b, y, hx⟩, by simp [names_lit]⟩
    · rw [if_neg hp]
      exact (rm_cases [lit x.1] g p).2 (by simp [names_lit, hp])
  unfold mv settle
  obtain ⟨hd1, hd2⟩ := hd
  cases ha : fs x.1 with
  | none =>
    simp only [Option.bind_some, Option.some.injEq]
    funext p
    rw [hrm fs p hd1]
    by_cases hp : p = x.1
    · simp [hp]
    · rw [if_neg hp, if_neg hp]
      by_cases hp2 : p = x.2 ∧ fs x.2 = none
      · rw [if_pos hp2, hp2.1, hp2.2]
      · rw [if_neg hp2]
  | some n =>
    cases n with
    | dir => exact absurd ha hd1
    | file c y =>
      cases hb : fs x.2 with
      | none =>
        simp only [Option.bind_some, Option.some.injEq]
        funext p
        rw [hrm _ p (by simp [put])]
        by_cases hp : p = x.1
        · simp [hp]
        · rw [if_neg hp, if_neg hp]
          by_cases hp2 : p = x.2
          · have : ¬ x.2 = x.1 := fun e => h e.symm
            simp [put, hp2, this]
          · simp [put, hp, hp2]
      | some m =>
        cases m with
        | dir => exact absurd hb hd2
        | file c' y' =>
          simp only [Option.bind_some, Option.some.injEq]
          funext p
          rw [hrm fs p hd1]
          by_cases hp : p = x.1
          · simp [hp]
          · simp [hp]

theorem commands_append (a b : List (List Word)) (fs : FS) :
    commands (a ++ b) fs = (commands a fs).bind (commands b) := by
  induction a generalizing fs with
  | nil => rfl
  | cons c a ih =>
    show (command c fs).bind (commands (a ++ b)) = ((command c fs).bind (commands a)).bind (commands b)
    cases command c fs with
    | none => rfl
    | some fs' => exact ih fs'

theorem settle_dirs {x : Bytes × Bytes} {fs : FS} (h : fs x.1 ≠ some .dir) {p : Bytes} (hp : fs p ≠ some .dir) :
    settle x fs p ≠ some .dir := by
  unfold settle
  by_cases h1 : p = x.1
  · simp [h1]
  · rw [if_neg h1]
    by_cases h2 : p = x.2 ∧ fs x.2 = none
    · rw [if_pos h2]; exact h
    · rw [if_neg h2]; exact hp

theorem apart_cons {x : Bytes × Bytes} {l : List (Bytes × Bytes)} (h : Apart (x :: l)) :
    x.1 ≠ x.2 ∧ Proper x.1 ∧ Proper x.2 ∧ Apart l ∧ ∀ y ∈ l, x.1 ≠ y.1 ∧ x.1 ≠ y.2 ∧ x.2 ≠ y.1 ∧ x.2 ≠ y.2 := by
  obtain ⟨h1, h2⟩ := h
  rw [List.flatMap_cons] at h1
  have h3 : (x.1 :: x.2 :: l.flatMap fun x => [x.1, x.2]).Nodup := h1
  rw [List.nodup_cons, List.nodup_cons] at h3
  obtain ⟨h4, h5, h6⟩ := h3
  have hm : ∀ y ∈ l, y.1 ∈ (l.flatMap fun x => [x.1, x.2]) ∧ y.2 ∈ (l.flatMap fun x => [x.1, x.2]) := fun y hy =>
    ⟨List.mem_flatMap.2 ⟨y, hy, by simp⟩, List.mem_flatMap.2 ⟨y, hy, by simp⟩⟩
  refine ⟨fun e => h4 (by rw [e]; simp), (h2 x (by simp)).1, (h2 x (by simp)).2,
    ⟨h6, fun y hy => h2 y (List.mem_cons_of_mem _ hy)⟩, fun y hy => ⟨?_, ?_, ?_, ?_⟩⟩
  · intro e; exact h4 (List.mem_cons_of_mem _ (e ▸ (hm y hy).1))
  · intro e; exact h4 (List.mem_cons_of_mem _ (e ▸ (hm y hy).2))
  · intro e; exact h5 (e ▸ (hm y hy).1)
  · intro e; exact h5 (e ▸ (hm y hy).2)

theorem lines_effect : ∀ (pairs : List (Bytes × Bytes)) (fs : FS), Apart pairs → NoDirs pairs fs →
    commands (pairs.flatMap lineCommands) fs = some (settleAll pairs fs)
  | [], _, _, _ => rfl
  | x :: l, fs, ha, hd => by
    obtain ⟨h1, h2, h3, h4, h5⟩ := apart_cons ha
    have hx := hd x (List.mem_cons_self ..)
    rw [List.flatMap_cons, commands_append, line_effect h1 h2 h3 hx]
    refine lines_effect l (settle x fs) h4 fun y hy => ?_
    have hy := hd y (List.mem_cons_of_mem _ hy)
    exact ⟨settle_dirs hx.1 hy.1, settle_dirs hx.1 hy.2⟩

theorem settle_other {x : Bytes × Bytes} {fs : FS} {p : Bytes} (h1 : p ≠ x.1) (h2 : p ≠ x.2) : settle x fs p = fs p := by
  unfold settle
  rw [if_neg h1, if_neg (fun h => h2 h.1)]

theorem settleAll_other : ∀ (pairs : List (Bytes × Bytes)) (fs : FS) (p : Bytes),
    (∀ y ∈ pairs, p ≠ y.1 ∧ p ≠ y.2) → settleAll pairs fs p = fs p
  | [], _, _, _ => rfl
  | x :: l, fs, p, h => by
    have hx := h x (List.mem_cons_self ..)
    rw [settleAll, settleAll_other l _ p fun y hy => h y (List.mem_cons_of_mem _ hy), settle_other hx.1 hx.2]

theorem settleAll_moved : ∀ (pairs : List (Bytes × Bytes)) (fs : FS), Apart pairs → Moved pairs fs (settleAll pairs fs)
  | [], fs, _ => ⟨fun _ _ h => absurd h (by simp), fun _ _ => rfl⟩
  | x :: l, fs, ha => by
    obtain ⟨h1, h2, h3, h4, h5⟩ := apart_cons ha
    have ih := settleAll_moved l (settle x fs) h4
    refine ⟨?_, fun p hp => settleAll_other (x :: l) fs p fun y hy => hp y.1 y.2 hy⟩
    intro r f hm
    rcases List.mem_cons.1 hm with rfl | hm
    · have e1 : settleAll l (settle (r, f) fs) r = settle (r, f) fs r :=
        settleAll_other l _ r fun y hy => ⟨(h5 y hy).1, (h5 y hy).2.1⟩
      have e2 : settleAll l (settle (r, f) fs) f = settle (r, f) fs f :=
        settleAll_other l _ f fun y hy => ⟨(h5 y hy).2.2.1, (h5 y hy).2.2.2⟩
      have hfr : ¬ f = r := fun e => h1 e.symm
      unfold settleAll
      rw [e1, e2]
      refine ⟨by simp [settle], fun hn => by simp [settle, hfr, hn], fun hn => by simp [settle, hfr, hn]⟩
    · have hy := h5 (r, f) hm
      have e1 : settle x fs r = fs r := settle_other (fun e => hy.1 e.symm) (fun e => hy.2.2.1 e.symm)
      have e2 : settle x fs f = fs f := settle_other (fun e => hy.2.1 e.symm) (fun e => hy.2.2.2 e.symm)
      have := ih.1 r f hm
      rw [e1, e2] at this
      exact this

/-- what the shell makes of a script -/
theorem shell_script {fs₀ fs : FS} {pairs : List (Bytes × Bytes)} (ha : Apart pairs) (h0 : ∀ x ∈ pairs, fs₀ x.1 ≠ none)
    (hd : NoDirs pairs fs) : shell (script fs₀ pairs) fs = some (settleAll pairs fs) := by
  unfold shell script
  rw [parse_sheBang, parse_lines fs₀ pairs h0]
  exact lines_effect pairs fs ha hd

/-! ### Stopping in the middle of a script -/

theorem settle_still {x : Bytes × Bytes} {fs : FS} (h : fs x.1 = none) : settle x fs = fs := by
  funext p
  unfold settle
  by_cases h1 : p = x.1
  · rw [if_pos h1, h1, h]
  · rw [if_neg h1]
    by_cases h2 : p = x.2 ∧ fs x.2 = none
    · rw [if_pos h2, h, h2.1, h2.2]
    · rw [if_neg h2]

theorem settle_mv {x : Bytes × Bytes} (hne : x.1 ≠ x.2) {fs g : FS} (h : mv x.1 x.2 fs = some g) :
    settle x g = settle x fs ∧ ∀ p, p ≠ x.1 → p ≠ x.2 → g p = fs p := by
  unfold mv at h
  revert h
  cases ha : fs x.1 with
  | none => intro h; cases h; exact ⟨rfl, fun _ _ _ => rfl⟩
  | some n =>
    cases n with
    | dir => intro h; cases h
    | file c y =>
      cases hb : fs x.2 with
      | none =>
        intro h
        cases h
        have h2 : ¬ x.2 = x.1 := fun e => hne e.symm
        refine ⟨?_, fun p h1 h2 => by simp [put, h1, h2]⟩
        funext p
        unfold settle
        by_cases h1 : p = x.1
        · simp [h1]
        · by_cases hp : p = x.2
          · simp [hp, h2, put, hb, ha]
          · simp [h1, hp, put]
      | some m =>
        cases m with
        | dir => intro h; cases h
        | file c' y' => intro h; cases h; exact ⟨rfl, fun _ _ _ => rfl⟩

theorem command_mv {x : Bytes × Bytes} (h1 : Proper x.1) (h2 : Proper x.2) (fs : FS) :
    command [lit mvName, lit dashN, lit x.1, lit x.2] fs = mv x.1 x.2 fs := by
  unfold command
  have : [lit x.1, lit x.2].any dubious = false := by simp [dubious_lit h1.1 h1.2.1, dubious_lit h2.1 h2.2.1]
  simp only [this, Bool.false_eq_true, if_false]
  rw [if_neg (by
    rintro ⟨h | h, _⟩
    · exact absurd h (by decide)
    · exact absurd h (by decide)), if_neg (by rintro ⟨h, _⟩; exact absurd h (by decide)), if_pos (by simp)]
  simp only [literal_lit]

theorem settleAll_congr_first {x : Bytes × Bytes} {l : List (Bytes × Bytes)} {g fs : FS} (h : settle x g = settle x fs) :
    settleAll (x :: l) g = settleAll (x :: l) fs := by
  show settleAll l (settle x g) = settleAll l (settle x fs)
  rw [h]

theorem stopped : ∀ (pairs : List (Bytes × Bytes)) (fs : FS) (k : Nat) (g : FS), Apart pairs → NoDirs pairs fs →
    commands ((pairs.flatMap lineCommands).take k) fs = some g →
    settleAll pairs g = settleAll pairs fs ∧ NoDirs pairs g ∧ ∀ p, (∀ y ∈ pairs, p ≠ y.1 ∧ p ≠ y.2) → g p = fs p
  | [], fs, k, g, _, hd, h => by
    simp [commands] at h
    subst h
    exact ⟨rfl, hd, fun _ _ => rfl⟩
  | x :: l, fs, k, g, ha, hd, h => by
    obtain ⟨h1, h2, h3, h4, h5⟩ := apart_cons ha
    have hx := hd x (List.mem_cons_self ..)
    match k, h with
    | 0, h =>
      have : fs = g := Option.some.inj h
      subst this
      exact ⟨rfl, hd, fun _ _ => rfl⟩
    | 1, h =>
      have h : (command [lit mvName, lit dashN, lit x.1, lit x.2] fs).bind (commands []) = some g := h
      rw [command_mv h2 h3] at h
      have h : mv x.1 x.2 fs = some g := by
        cases hm : mv x.1 x.2 fs with
        | none => rw [hm] at h; cases h
        | some g' => rw [hm] at h; exact h
      obtain ⟨e1, e2⟩ := settle_mv h1 h
      refine ⟨settleAll_congr_first e1, ?_, fun p hp => e2 p (hp x (List.mem_cons_self ..)).1 (hp x (List.mem_cons_self ..)).2⟩
      intro y hy
      rcases List.mem_cons.1 hy with rfl | hy
      · unfold mv at h
        revert h
        cases hA : fs y.1 with
        | none => intro h; cases h; exact hx
        | some n =>
          cases n with
          | dir => exact absurd hA hx.1
          | file c z =>
            cases hB : fs y.2 with
            | none =>
              intro h
              cases h
              have h21 : ¬ y.2 = y.1 := fun e => h1 e.symm
              simp [put, h21]
            | some m =>
              cases m with
              | dir => exact absurd hB hx.2
              | file c' z' => intro h; cases h; exact hx
      · have hs := h5 y hy
        rw [e2 y.1 (fun e => hs.1 e.symm) (fun e => hs.2.2.1 e.symm), e2 y.2 (fun e => hs.2.1 e.symm) (fun e => hs.2.2.2 e.symm)]
        exact hd y (List.mem_cons_of_mem _ hy)
    | k + 2, h =>
      have e : ((x :: l).flatMap lineCommands).take (k + 2) = lineCommands x ++ (l.flatMap lineCommands).take k := rfl
      rw [e, commands_append, line_effect h1 h2 h3 hx] at h
      have hdl : NoDirs l (settle x fs) := fun y hy => by
        have hy := hd y (List.mem_cons_of_mem _ hy)
        exact ⟨settle_dirs hx.1 hy.1, settle_dirs hx.1 hy.2⟩
      obtain ⟨i1, i2, i3⟩ := stopped l (settle x fs) k g h4 hdl h
      have gx : g x.1 = none := by
        rw [i3 x.1 fun y hy => ⟨(h5 y hy).1, (h5 y hy).2.1⟩]
        simp [settle]
      refine ⟨?_, ?_, ?_⟩
      · show settleAll l (settle x g) = settleAll l (settle x fs)
        rw [settle_still gx, i1]
      · intro y hy
        rcases List.mem_cons.1 hy with rfl | hy
        · rw [gx, i3 y.2 fun z hz => ⟨(h5 z hz).2.2.1, (h5 z hz).2.2.2⟩]
          exact ⟨by simp, settle_dirs hx.1 hx.2⟩
        · exact i2 y hy
      · intro p hp
        have hpx := hp x (List.mem_cons_self ..)
        rw [i3 p fun y hy => hp y (List.mem_cons_of_mem _ hy), settle_other hpx.1 hpx.2]

theorem script_commands {fs₀ : FS} {pairs : List (Bytes × Bytes)} (h0 : ∀ x ∈ pairs, fs₀ x.1 ≠ none) :
    parse .blank [] [] (script fs₀ pairs) = some (pairs.flatMap lineCommands) := by
  unfold script
  rw [parse_sheBang, parse_lines fs₀ pairs h0]

/-! ### Recovery -/

theorem execute_script {path : Bytes} (hl : Legal path) (hs : 47 ∈ path) {fs₀ fs : FS} {pairs : List (Bytes × Bytes)}
    (ha : Apart pairs) (h0 : ∀ x ∈ pairs, fs₀ x.1 ≠ none) (hd : NoDirs pairs fs)
    (hp : fs path = some (.file (script fs₀ pairs) true)) :
    execute (shellQuote path) fs = some (settleAll pairs fs, true) := by
  unfold execute
  rw [cstr_legal (quoted_legal hl), show shellQuote path = shellQuote path ++ [] from by simp, parse_quote]
  simp only [parse, List.nil_append, literal_lit, if_pos hs, hp]
  rw [if_pos (by simp [script]), shell_script ha h0 hd]
  rfl

theorem scriptName_iff (n : Bytes) : isCommitScript n = true ↔ ScriptName n := by
  unfold isCommitScript ScriptName
  simp only [Bool.and_eq_true, decide_eq_true_eq, beq_iff_eq]
  constructor
  · rintro ⟨⟨h1, h2⟩, h3⟩
    refine ⟨(n.drop 7).take (n.length - 10), ?_, ?_⟩
    · intro e
      have := congrArg List.length e
      simp only [List.length_take, List.length_drop, List.length_nil] at this
      omega
    · rw [← h2, ← h3]
      have e : n.drop (n.length - 3) = (n.drop 7).drop (n.length - 10) := by
        rw [List.drop_drop]
        congr 1
        omega
      rw [e, List.append_assoc, List.take_append_drop, List.take_append_drop]
  · rintro ⟨mid, h, rfl⟩
    have : 0 < mid.length := List.length_pos_iff.2 h
    refine ⟨⟨by simp; omega, by simp⟩, ?_⟩
    rw [List.drop_left' (by simp)]

theorem finalize_none {dir : Bytes} : ∀ (l : List Bytes) (fs : FS), (∀ n ∈ l, ¬ ScriptName n) →
    finalizeCommits dir l fs = some (fs, true)
  | [], _, _ => rfl
  | n :: l, fs, h => by
    rw [finalizeCommits, if_neg fun hc => h n (List.mem_cons_self ..) ((scriptName_iff n).1 hc),
      finalize_none l fs fun m hm => h m (List.mem_cons_of_mem _ hm)]

theorem finalize_skip {dir : Bytes} : ∀ (l m : List Bytes) (fs : FS), (∀ n ∈ l, ¬ ScriptName n) →
    finalizeCommits dir (l ++ m) fs = finalizeCommits dir m fs
  | [], _, _, _ => rfl
  | n :: l, m, fs, h => by
    rw [List.cons_append, finalizeCommits, if_neg fun hc => h n (List.mem_cons_self ..) ((scriptName_iff n).1 hc),
      finalize_skip l m fs fun m hm => h m (List.mem_cons_of_mem _ hm)]

/-- one script among other names -/
theorem finalize_one {dir : Bytes} {l : List Bytes} (hn : l.Nodup) {cn : Bytes} (hm : cn ∈ l) (hc : ScriptName cn)
    (ho : ∀ n ∈ l, ScriptName n → n = cn) {fs fs' : FS}
    (he : execute (shellQuote (makeName dir cn)) fs = some (fs', true)) :
    finalizeCommits dir l fs = some (remove dir cn fs', true) := by
  obtain ⟨a, b, rfl⟩ := List.append_of_mem hm
  rw [List.nodup_append] at hn
  obtain ⟨_, h2, h3⟩ := hn
  rw [List.nodup_cons] at h2
  rw [finalize_skip a _ fs fun n hn hs => h3 n hn cn (by simp) (ho n (by simp [hn]) hs)]
  rw [finalizeCommits, if_pos ((scriptName_iff cn).2 hc), he]
  exact finalize_none b _ fun n hn hs => h2.1 (ho n (by simp [hn]) hs ▸ hn)

/-! ### Several scripts -/

/-- all that the scripts among these names move -/
def allPairs (content : Bytes → List (Bytes × Bytes)) (l : List Bytes) : List (Bytes × Bytes) :=
  (l.filter isCommitScript).flatMap content

theorem apart_append {a b : List (Bytes × Bytes)} (h : Apart (a ++ b)) :
    Apart a ∧ Apart b ∧ ∀ x ∈ a, ∀ y ∈ b, x.1 ≠ y.1 ∧ x.1 ≠ y.2 ∧ x.2 ≠ y.1 ∧ x.2 ≠ y.2 := by
  obtain ⟨h1, h2⟩ := h
  rw [List.flatMap_append, List.nodup_append] at h1
  obtain ⟨h3, h4, h5⟩ := h1
  have hm : ∀ (l : List (Bytes × Bytes)), ∀ y ∈ l, y.1 ∈ (l.flatMap fun x => [x.1, x.2]) ∧
      y.2 ∈ (l.flatMap fun x => [x.1, x.2]) := fun l y hy =>
    ⟨List.mem_flatMap.2 ⟨y, hy, by simp⟩, List.mem_flatMap.2 ⟨y, hy, by simp⟩⟩
  refine ⟨⟨h3, fun x hx => h2 x (List.mem_append_left _ hx)⟩, ⟨h4, fun x hx => h2 x (List.mem_append_right _ hx)⟩,
    fun x hx y hy => ?_⟩
  have hx := hm a x hx
  have hy := hm b y hy
  exact ⟨h5 _ hx.1 _ hy.1, h5 _ hx.1 _ hy.2, h5 _ hx.2 _ hy.1, h5 _ hx.2 _ hy.2⟩

theorem makeName_inj {dir a b : Bytes} (h : makeName dir a = makeName dir b) : a = b := by
  unfold makeName at h
  have := List.append_cancel_left h
  simpa using this

theorem finalize_many {dir : Bytes} (hld : Legal dir) (written : Bytes → FS) (content : Bytes → List (Bytes × Bytes)) :
    ∀ (l : List Bytes) (fs : FS), l.Nodup → (∀ n ∈ l, Legal n) →
    (∀ n ∈ l, ScriptName n → fs (makeName dir n) = some (.file (script (written n) (content n)) true)) →
    (∀ n ∈ l, ScriptName n → ∀ x ∈ content n, written n x.1 ≠ none) →
    Apart (allPairs content l) → NoDirs (allPairs content l) fs →
    (∀ n ∈ l, ScriptName n → ∀ x ∈ allPairs content l, makeName dir n ≠ x.1 ∧ makeName dir n ≠ x.2) →
    ∃ fs', finalizeCommits dir l fs = some (fs', true) ∧
      (∀ n ∈ l, ScriptName n → fs' (makeName dir n) = none) ∧
      (∀ x ∈ allPairs content l, fs' x.1 = none ∧ (fs x.2 ≠ none → fs' x.2 = fs x.2) ∧ (fs x.2 = none → fs' x.2 = fs x.1)) ∧
      (∀ p, (∀ n ∈ l, ScriptName n → p ≠ makeName dir n) → (∀ x ∈ allPairs content l, p ≠ x.1 ∧ p ≠ x.2) → fs' p = fs p)
  | [], fs, _, _, _, _, _, _, _ =>
    ⟨fs, rfl, fun _ h => absurd h (by simp), fun _ h => absurd h (by simp [allPairs]), fun _ _ _ => rfl⟩
  | n :: l, fs, hn, hl, hf, hw, ha, hd, hs => by
    rw [List.nodup_cons] at hn
    have tail : ∀ m ∈ l, m ∈ n :: l := fun m hm => List.mem_cons_of_mem _ hm
    by_cases hc : isCommitScript n = true
    · have hsn := (scriptName_iff n).1 hc
      have hself : n ∈ n :: l := List.mem_cons_self ..
      have e : allPairs content (n :: l) = content n ++ allPairs content l := by
        simp [allPairs, hc]
      rw [e] at ha hd hs ⊢
      obtain ⟨a1, a2, a3⟩ := apart_append ha
      have hd1 : NoDirs (content n) fs := fun x hx => hd x (List.mem_append_left _ hx)
      have hlp : Legal (makeName dir n) := legal_append hld (by
        intro hm
        rcases List.mem_cons.1 hm with e | hm
        · exact absurd e (by decide)
        · exact hl n hself hm)
      have hex := execute_script hlp (by simp [makeName]) a1 (hw n hself hsn) hd1 (hf n hself hsn)
      have mv := settleAll_moved (content n) fs a1
      let g : FS := remove dir n (settleAll (content n) fs)
      have gother : ∀ p, p ≠ makeName dir n → (∀ x ∈ content n, p ≠ x.1 ∧ p ≠ x.2) → g p = fs p := by
        intro p h1 h2
        show put _ _ _ _ = _
        rw [put, if_neg h1]
        exact mv.2 p fun r f hrf => h2 (r, f) hrf
      have gpair : ∀ x ∈ content n, g x.1 = none ∧ (fs x.2 ≠ none → g x.2 = fs x.2) ∧ (fs x.2 = none → g x.2 = fs x.1) := by
        intro x hx
        have hne := hs n hself hsn x (List.mem_append_left _ hx)
        have := mv.1 x.1 x.2 hx
        have e1 : g x.1 = settleAll (content n) fs x.1 := by
          show put _ _ _ _ = _
          rw [put, if_neg fun e => hne.1 e.symm]
        have e2 : g x.2 = settleAll (content n) fs x.2 := by
          show put _ _ _ _ = _
          rw [put, if_neg fun e => hne.2 e.symm]
        rw [e1, e2]
        exact this
      have grest : ∀ y ∈ allPairs content l, g y.1 = fs y.1 ∧ g y.2 = fs y.2 := by
        intro y hy
        have hne := hs n hself hsn y (List.mem_append_right _ hy)
        exact ⟨gother _ (fun e => hne.1 e.symm) fun x hx => ⟨fun e => (a3 x hx y hy).1 e.symm, fun e => (a3 x hx y hy).2.2.1 e.symm⟩,
          gother _ (fun e => hne.2 e.symm) fun x hx => ⟨fun e => (a3 x hx y hy).2.1 e.symm, fun e => (a3 x hx y hy).2.2.2 e.symm⟩⟩
      have gscript : ∀ m ∈ l, ScriptName m → g (makeName dir m) = fs (makeName dir m) := by
        intro m hm hsm
        refine gother _ (fun e => hn.1 (makeName_inj e ▸ hm)) fun x hx => ?_
        exact hs m (tail m hm) hsm x (List.mem_append_left _ hx)
      obtain ⟨fs', i1, i2, i3, i4⟩ := finalize_many hld written content l g hn.2 (fun m hm => hl m (tail m hm))
        (fun m hm hsm => by rw [gscript m hm hsm]; exact hf m (tail m hm) hsm)
        (fun m hm hsm => hw m (tail m hm) hsm) a2
        (fun y hy => by rw [(grest y hy).1, (grest y hy).2]; exact hd y (List.mem_append_right _ hy))
        (fun m hm hsm x hx => hs m (tail m hm) hsm x (List.mem_append_right _ hx))
      refine ⟨fs', ?_, ?_, ?_, ?_⟩
      · rw [finalizeCommits, if_pos hc, hex]
        exact i1
      · intro m hm hsm
        rcases List.mem_cons.1 hm with rfl | hm
        · rw [i4 _ (fun k hk hsk e => hn.1 (by rw [makeName_inj e]; exact hk)) fun x hx => hs m hself hsm x (List.mem_append_right _ hx)]
          show put _ _ _ _ = _
          rw [put, if_pos rfl]
        · exact i2 m hm hsm
      · intro x hx
        rcases List.mem_append.1 hx with hx | hx
        · have hp : ∀ p, p = x.1 ∨ p = x.2 → fs' p = g p := by
            intro p hp
            refine i4 p (fun k hk hsk e => ?_) fun y hy => ?_
            · have := hs k (tail k hk) hsk x (List.mem_append_left _ hx)
              rcases hp with rfl | rfl
              · exact this.1 e.symm
              · exact this.2 e.symm
            · have := a3 x hx y hy
              rcases hp with rfl | rfl
              · exact ⟨this.1, this.2.1⟩
              · exact ⟨this.2.2.1, this.2.2.2⟩
          rw [hp _ (.inl rfl), hp _ (.inr rfl)]
          exact gpair x hx
        · have := i3 x hx
          rw [(grest x hx).1, (grest x hx).2] at this
          exact this
      · intro p h1 h2
        rw [i4 p (fun m hm hsm => h1 m (tail m hm) hsm) fun x hx => h2 x (List.mem_append_right _ hx)]
        exact gother p (h1 n hself hsn) fun x hx => h2 x (List.mem_append_left _ hx)
    · have e : allPairs content (n :: l) = allPairs content l := by
        simp [allPairs, hc]
      rw [e] at ha hd hs ⊢
      have hns : ¬ ScriptName n := fun h => hc ((scriptName_iff n).2 h)
      obtain ⟨fs', i1, i2, i3, i4⟩ := finalize_many hld written content l fs hn.2 (fun m hm => hl m (tail m hm))
        (fun m hm hsm => hf m (tail m hm) hsm)
        (fun m hm hsm => hw m (tail m hm) hsm) ha hd
        (fun m hm hsm x hx => hs m (tail m hm) hsm x hx)
      refine ⟨fs', ?_, ?_, i3, ?_⟩
      · rw [finalizeCommits, if_neg hc]
        exact i1
      · intro m hm hsm
        rcases List.mem_cons.1 hm with rfl | hm
        · exact absurd hsm hns
        · exact i2 m hm hsm
      · intro p h1 h2
        exact i4 p (fun m hm hsm => h1 m (tail m hm) hsm) h2

end Verif.Working
