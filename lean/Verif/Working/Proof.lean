import Verif.Working.Spec
import Verif.Inhale.Proof
/-
  Proofs for C81.
-/
namespace Verif.Working

open Verif.Inhale (Bytes plain Legal cstr shellQuote quoted shellQuote_eq cstr_legal quoted_legal)

theorem plain_ne {c : UInt8} (h : plain c = true) :
    c ≠ 32 ∧ c ≠ 9 ∧ c ≠ 39 ∧ c ≠ 92 ∧ c ≠ 10 ∧ c ≠ 59 ∧ c ≠ 62 ∧ c ≠ 42 ∧ c ≠ 35 ∧ c ≠ 0 := by
  refine ⟨?_, ?_, ?_, ?_, ?_, ?_, ?_, ?_, ?_, ?_⟩ <;> (rintro rfl; exact absurd h (by decide))

theorem parse_bare_plain : ∀ (w : Bytes) (cur : Word) (ws : List Word) (rest : Bytes), w.all plain = true →
    parse .bare cur ws (w ++ rest) = parse .bare (cur ++ lit w) ws rest
  | [], cur, ws, rest, _ => by simp [lit]
  | c :: w, cur, ws, rest, h => by
    simp only [List.all_cons, Bool.and_eq_true] at h
    obtain ⟨h1, h2, h3, h4, h5, h6, h7, h8, h9, h10⟩ := plain_ne h.1
    rw [List.cons_append, parse, if_neg (by simp [h1, h2]), if_neg h3, if_neg h4, if_neg (by simp [h5, h6]), if_neg h7,
      if_neg h8, if_pos h.1, parse_bare_plain w _ _ _ h.2]
    simp [lit]

theorem parse_blank_plain {w : Bytes} (hw : w ≠ []) (h : w.all plain = true) (x : Word) (ws : List Word) (rest : Bytes) :
    parse .blank x ws (w ++ rest) = parse .bare (lit w) ws rest := by
  match w, hw with
  | c :: w, _ =>
    simp only [List.all_cons, Bool.and_eq_true] at h
    obtain ⟨h1, h2, h3, h4, h5, h6, h7, h8, h9, h10⟩ := plain_ne h.1
    rw [List.cons_append, parse, if_neg (by simp [h1, h2]), if_neg h3, if_neg h9, if_neg (by simp [h5]),
      if_neg (by simp [h6]), if_neg (by simp [h5, h6]), if_pos h.1, parse_bare_plain w _ _ _ h.2]
    simp [lit]

theorem parse_space (cur : Word) (ws : List Word) (rest : Bytes) :
    parse .bare cur ws (32 :: rest) = parse .blank [] (ws ++ [cur]) rest := by
  rw [parse, if_pos (by simp)]

theorem parse_semi (cur : Word) (ws : List Word) (rest : Bytes) :
    parse .bare cur ws (59 :: rest) = (parse .blank [] [] rest).map ((ws ++ [cur]) :: ·) := by
  rw [parse, if_neg (by decide), if_neg (by decide), if_neg (by decide), if_pos (by simp)]

theorem parse_newline (cur : Word) (ws : List Word) (rest : Bytes) :
    parse .bare cur ws (10 :: rest) = (parse .blank [] [] rest).map ((ws ++ [cur]) :: ·) := by
  rw [parse, if_neg (by decide), if_neg (by decide), if_neg (by decide), if_pos (by simp)]

/-- one plain word and a blank -/
theorem parse_word {w : Bytes} (hw : w ≠ []) (h : w.all plain = true) (ws : List Word) (rest : Bytes) :
    parse .blank [] ws (w ++ 32 :: rest) = parse .blank [] (ws ++ [lit w]) rest := by
  rw [parse_blank_plain hw h, parse_space]

theorem parse_single : ∀ (s : Bytes) (cur : Word) (ws : List Word) (rest : Bytes),
    parse .single cur ws (quoted s ++ 39 :: rest) = parse .bare (cur ++ lit s) ws rest
  | [], cur, ws, rest => by simp [quoted, lit, parse]
  | c :: s, cur, ws, rest => by
    have ih := parse_single s (cur ++ [some c]) ws rest
    by_cases h : c = 39
    · subst h
      have e : quoted (39 :: s) ++ 39 :: rest = 39 :: 92 :: 39 :: 39 :: (quoted s ++ 39 :: rest) := by simp [quoted]
      rw [e, parse, if_pos rfl, parse, if_neg (by decide), if_neg (by decide), if_pos rfl, parse, if_neg (by decide),
        parse, if_neg (by decide), if_pos rfl, ih]
      simp [lit]
    · have e : quoted (c :: s) ++ 39 :: rest = c :: (quoted s ++ 39 :: rest) := by simp [quoted, h]
      rw [e, parse, if_neg h, ih]
      simp [lit]

theorem parse_quote (s : Bytes) (ws : List Word) (rest : Bytes) :
    parse .blank [] ws (shellQuote s ++ rest) = parse .bare (lit s) ws rest := by
  rw [shellQuote_eq, show 39 :: (quoted s ++ [39]) ++ rest = 39 :: (quoted s ++ 39 :: rest) from by simp, parse,
    if_neg (by decide), if_pos rfl, parse_single]
  rfl

theorem literal_lit : ∀ s : Bytes, literal (lit s) = some s
  | [] => rfl
  | c :: s => by
    show (literal (lit s)).map (c :: ·) = _
    rw [literal_lit s]; rfl

theorem lit_inj {a b : Bytes} (h : lit a = lit b) : a = b := by
  have := literal_lit a
  rw [h, literal_lit] at this
  exact (Option.some.inj this).symm

theorem names_lit : ∀ (a p : Bytes), names (lit a) p = decide (p = a)
  | [], [] => rfl
  | [], _ :: _ => by simp [names, lit]
  | _ :: _, [] => by simp [names, lit]
  | c :: a, d :: p => by
    have := names_lit a p
    simp only [lit, List.map_cons, names] at this ⊢
    rw [this]
    by_cases h : c = d
    · subst h; simp
    · have : ¬ d = c := fun e => h e.symm
      simp [h, this]

theorem names_star : ∀ (a p : Bytes), names (lit a ++ [none]) p = true ↔ ∃ r, 47 ∉ r ∧ p = a ++ r
  | [], p => by
    simp only [lit, List.map_nil, List.nil_append, names]
    constructor
    · intro h
      refine ⟨p, ?_, rfl⟩
      intro hm
      have := List.all_eq_true.1 h 47 hm
      simp at this
    · rintro ⟨r, h, rfl⟩
      rw [List.all_eq_true]
      intro c hc
      simp only [decide_eq_true_eq]
      rintro rfl
      exact h hc
  | c :: a, [] => by
    simp [names, lit]
  | c :: a, d :: p => by
    have ih := names_star a p
    simp only [lit, List.map_cons, List.cons_append, names, Bool.and_eq_true, decide_eq_true_eq] at ih ⊢
    rw [ih]
    constructor
    · rintro ⟨rfl, r, h, rfl⟩; exact ⟨r, h, rfl⟩
    · rintro ⟨r, h, e⟩
      cases e
      exact ⟨rfl, r, h, rfl⟩

theorem dubious_lit {s : Bytes} (h1 : s ≠ []) (h2 : s.head? ≠ some 45) : dubious (lit s) = false := by
  match s, h1 with
  | c :: s, _ =>
    have : c ≠ 45 := by simpa using h2
    simp [dubious, lit, this]

theorem dubious_star {s : Bytes} (h1 : s ≠ []) (h2 : s.head? ≠ some 45) : dubious (lit s ++ [none]) = false := by
  match s, h1 with
  | c :: s, _ =>
    have : c ≠ 45 := by simpa using h2
    simp [dubious, lit, this]

/-! ### Opening and making a directory -/

theorem rm_cases (args : List Word) (fs : FS) (p : Bytes) :
    (IsFile fs p ∧ args.any (names · p) = true → rm args fs p = none) ∧
    (¬ (IsFile fs p ∧ args.any (names · p) = true) → rm args fs p = fs p) := by
  unfold rm
  constructor
  · rintro ⟨⟨b, x, h⟩, ha⟩
    simp only [h, ha, if_true]
  · intro hn
    cases h : fs p with
    | none => rfl
    | some n =>
      cases n with
      | dir => rfl
      | file b x =>
        have ha : ¬ (args.any (names · p) = true) := fun ha => hn ⟨⟨b, x, h⟩, ha⟩
        simp only [if_neg ha]

theorem plain_legal {s : Bytes} (h : s.all plain = true) : Legal s := by
  intro hm
  have := List.all_eq_true.1 h 0 hm
  exact absurd this (by decide)

theorem legal_append {a b : Bytes} (ha : Legal a) (hb : Legal b) : Legal (a ++ b) := by
  intro h
  rcases List.mem_append.1 h with h | h
  · exact ha h
  · exact hb h

theorem plain_append {a b : Bytes} (ha : a.all plain = true) (hb : b.all plain = true) : (a ++ b).all plain = true := by
  rw [List.all_append, ha, hb]; rfl

/-- the end of the command that cleans up -/
def tempStar : Bytes := [0x2F, 0x74, 0x65, 0x6D, 0x70, 0x2E, 0x2A] /- /temp.* -/

theorem parse_star {d : Bytes} (hd : d ≠ []) (hp : d.all plain = true) (ws : List Word) :
    parse .blank [] ws (d ++ tempStar) = some [ws ++ [lit (d ++ [0x2F, 0x74, 0x65, 0x6D, 0x70, 0x2E] /- /temp. -/) ++ [none]]] := by
  rw [show d ++ tempStar = (d ++ [0x2F, 0x74, 0x65, 0x6D, 0x70, 0x2E] /- /temp. -/) ++ [42] from by simp [tempStar]]
  rw [parse_blank_plain (by simp) (plain_append hp (by decide))]
  rw [parse, if_neg (by decide), if_neg (by decide), if_neg (by decide), if_neg (by decide), if_neg (by decide),
    if_pos rfl, if_pos ?_]
  · rfl
  · refine ⟨rfl, ?_⟩
    simp [lit]

theorem parse_clean {d : Bytes} (hd : d ≠ []) (hp : d.all plain = true) :
    parse .blank [] [] ([0x2F, 0x62, 0x69, 0x6E, 0x2F, 0x72, 0x6D, 0x20, 0x2D, 0x66, 0x20] /- /bin/rm -f -/ ++ d ++ tempStar) =
      some [[lit binRm, lit dashF, lit (d ++ [0x2F, 0x74, 0x65, 0x6D, 0x70, 0x2E] /- /temp. -/) ++ [none]]] := by
  rw [show ([0x2F, 0x62, 0x69, 0x6E, 0x2F, 0x72, 0x6D, 0x20, 0x2D, 0x66, 0x20] /- /bin/rm -f -/ : Bytes) ++ d ++ tempStar = binRm ++ 32 :: (dashF ++ 32 :: (d ++ tempStar)) from rfl]
  rw [parse_word (by decide) (by decide), parse_word (by decide) (by decide), parse_star hd hp]
  rfl

theorem command_rm {args : List Word} (h : args.any dubious = false) (fs : FS) :
    command (lit binRm :: lit dashF :: args) fs = some (rm args fs) ∧
    command (lit rmName :: lit dashF :: args) fs = some (rm args fs) := by
  constructor <;> (unfold command; simp only [h, Bool.false_eq_true, if_false]; rw [if_pos]; simp)

theorem system_clean {d : Bytes} (hd : PlainName d) (fs : FS) :
    system ([0x2F, 0x62, 0x69, 0x6E, 0x2F, 0x72, 0x6D, 0x20, 0x2D, 0x66, 0x20] /- /bin/rm -f -/ ++ d ++ tempStar) fs = some (rm [lit (d ++ [0x2F, 0x74, 0x65, 0x6D, 0x70, 0x2E] /- /temp. -/) ++ [none]] fs) := by
  obtain ⟨h1, h2, h3⟩ := hd
  unfold system shell
  rw [cstr_legal (legal_append (legal_append (by decide) (plain_legal h2)) (by decide)), parse_clean h1 h2]
  show (command _ fs).bind _ = _
  rw [(command_rm (by
    simp only [List.any_cons, List.any_nil, Bool.or_false]
    refine dubious_star (by simp) ?_
    match d, h1 with
    | c :: d, _ => simpa using h3) fs).1]
  rfl

theorem rm_temps (d : Bytes) (fs : FS) : Cleaned d fs (rm [lit (d ++ [0x2F, 0x74, 0x65, 0x6D, 0x70, 0x2E] /- /temp. -/) ++ [none]] fs) := by
  intro p
  have h := rm_cases [lit (d ++ [0x2F, 0x74, 0x65, 0x6D, 0x70, 0x2E] /- /temp. -/) ++ [none]] fs p
  have e : ([lit (d ++ [0x2F, 0x74, 0x65, 0x6D, 0x70, 0x2E] /- /temp. -/) ++ [none]] : List Word).any (names · p) = true ↔ Temporary d p := by
    simp only [List.any_cons, List.any_nil, Bool.or_false]
    exact names_star _ p
  exact ⟨fun ⟨ht, hf⟩ => h.1 ⟨hf, e.2 ht⟩, fun hn => h.2 fun ⟨hf, ha⟩ => hn ⟨e.1 ha, hf⟩⟩

theorem construct_false {d : Bytes} (hd : PlainName d) (fs : FS) :
    construct d false fs = some (rm [lit (d ++ [0x2F, 0x74, 0x65, 0x6D, 0x70, 0x2E] /- /temp. -/) ++ [none]] fs) := by
  unfold construct
  rw [if_neg (by decide)]
  exact system_clean hd fs

theorem parse_mkdir {d : Bytes} (hd : d ≠ []) (hp : d.all plain = true) :
    parse .blank [] [] ([0x2F, 0x62, 0x69, 0x6E, 0x2F, 0x6D, 0x6B, 0x64, 0x69, 0x72, 0x20, 0x2D, 0x70, 0x20] /- /bin/mkdir -p -/ ++ d) = some [[lit binMkdir, lit dashP, lit d]] := by
  rw [show ([0x2F, 0x62, 0x69, 0x6E, 0x2F, 0x6D, 0x6B, 0x64, 0x69, 0x72, 0x20, 0x2D, 0x70, 0x20] /- /bin/mkdir -p -/ : Bytes) ++ d = binMkdir ++ 32 :: (dashP ++ 32 :: d) from rfl]
  rw [parse_word (by decide) (by decide), parse_word (by decide) (by decide)]
  rw [show d = d ++ [] from by simp, parse_blank_plain hd hp]
  simp [parse]

theorem system_mkdir {d : Bytes} (hd : PlainName d) (fs : FS) :
    system ([0x2F, 0x62, 0x69, 0x6E, 0x2F, 0x6D, 0x6B, 0x64, 0x69, 0x72, 0x20, 0x2D, 0x70, 0x20] /- /bin/mkdir -p -/ ++ d) fs = some (mkdirs d fs) := by
  obtain ⟨h1, h2, h3⟩ := hd
  unfold system shell
  rw [cstr_legal (legal_append (by decide) (plain_legal h2)), parse_mkdir h1 h2]
  show (command _ fs).bind _ = _
  unfold command
  have : [lit d].any dubious = false := by simp [dubious_lit h1 h3]
  simp only [this, Bool.false_eq_true, if_false]
  rw [if_neg (by
    rintro ⟨h | h, _⟩
    · exact absurd h (by decide)
    · exact absurd h (by decide)), if_pos (by simp)]
  unfold mkdirAll
  rw [literal_lit]
  rfl

theorem mem_onTheWay : ∀ (s b q : Bytes), q ∈ onTheWay b s ↔
    q = b ++ s ∨ ∃ x y, s = x ++ 47 :: y ∧ q = b ++ x ∧ q ≠ []
  | [], b, q => by simp [onTheWay]
  | c :: s, b, q => by
    have ih := mem_onTheWay s (b ++ [c]) q
    unfold onTheWay
    by_cases h : c = 47 ∧ b ≠ []
    · rw [if_pos h, List.mem_cons, ih]
      obtain ⟨rfl, hb⟩ := h
      constructor
      · rintro (rfl | rfl | ⟨x, y, rfl, rfl, h⟩)
        · exact .inr ⟨[], s, rfl, by simp, hb⟩
        · exact .inl (by simp)
        · exact .inr ⟨47 :: x, y, by simp, by simp, h⟩
      · rintro (rfl | ⟨x, y, e, rfl, h⟩)
        · exact .inr (.inl (by simp))
        · match x, e with
          | [], e => exact .inl (by simp)
          | d :: x, e =>
            simp only [List.cons_append, List.cons.injEq] at e
            obtain ⟨rfl, rfl⟩ := e
            exact .inr (.inr ⟨x, y, rfl, by simp, h⟩)
    · rw [if_neg h, ih]
      constructor
      · rintro (rfl | ⟨x, y, rfl, rfl, hq⟩)
        · exact .inl (by simp)
        · exact .inr ⟨c :: x, y, by simp, by simp, hq⟩
      · rintro (rfl | ⟨x, y, e, rfl, hq⟩)
        · exact .inl (by simp)
        · match x, e with
          | [], e =>
            simp only [List.nil_append, List.cons.injEq] at e
            obtain ⟨rfl, rfl⟩ := e
            exact absurd ⟨rfl, by simpa using hq⟩ h
          | d :: x, e =>
            simp only [List.cons_append, List.cons.injEq] at e
            obtain ⟨rfl, rfl⟩ := e
            exact .inr ⟨x, y, rfl, by simp, hq⟩

theorem above_iff (q d : Bytes) : q ∈ onTheWay [] d ↔ Above q d := by
  rw [mem_onTheWay]
  unfold Above
  constructor
  · rintro (h | ⟨x, y, rfl, rfl, h⟩)
    · exact .inl (by simpa using h)
    · exact .inr ⟨h, y, by simp⟩
  · rintro (h | ⟨h, y, rfl⟩)
    · exact .inl (by simpa using h)
    · exact .inr ⟨q, y, rfl, by simp, h⟩

theorem mkdirs_cases {d : Bytes} {fs : FS} (h : ∀ q, Above q d → ¬ IsFile fs q) (q : Bytes) :
    (Above q d → mkdirs d fs q = some .dir) ∧ (¬ Above q d → mkdirs d fs q = fs q) := by
  have hn : ¬ ((onTheWay [] d).any fun q => isFile (fs q)) = true := by
    intro ha
    obtain ⟨q, hm, hq⟩ := List.any_eq_true.1 ha
    have := h q ((above_iff q d).1 hm)
    revert hq
    cases hf : fs q with
    | none => simp [isFile]
    | some n =>
      cases n with
      | dir => simp [isFile]
      | file b x => exact fun _ => this ⟨b, x, hf⟩
  unfold mkdirs
  rw [if_neg hn]
  constructor
  · intro ha
    show (if _ then _ else _) = _
    rw [if_pos ((above_iff q d).2 ha)]
  · intro ha
    show (if _ then _ else _) = _
    rw [if_neg fun hm => ha ((above_iff q d).1 hm)]

/-! ### Temporary names -/

theorem digits_val : ∀ (fuel n : Nat), n < fuel →
    (digits fuel n).foldl (fun v c => 10 * v + (c.toNat - 48)) 0 = n ∧ ∀ c ∈ digits fuel n, 48 ≤ c.toNat ∧ c.toNat ≤ 57
  | 0, _, h => absurd h (by omega)
  | fuel + 1, n, h => by
    unfold digits
    by_cases hn : n < 10
    · rw [if_pos hn]
      have e : (UInt8.ofNat (48 + n)).toNat = 48 + n := by
        rw [UInt8.toNat_ofNat']; omega
      simp only [List.foldl_cons, List.foldl_nil, e, List.mem_singleton, forall_eq]
      omega
    · rw [if_neg hn]
      obtain ⟨h1, h2⟩ := digits_val fuel (n / 10) (by omega)
      have e : (UInt8.ofNat (48 + n % 10)).toNat = 48 + n % 10 := by
        rw [UInt8.toNat_ofNat']; omega
      refine ⟨?_, ?_⟩
      · rw [List.foldl_append, h1]
        simp only [List.foldl_cons, List.foldl_nil, e]
        omega
      · intro c hc
        rcases List.mem_append.1 hc with hc | hc
        · exact h2 c hc
        · rw [List.mem_singleton.1 hc, e]; omega

theorem padded_val (n : Nat) : (padded n).foldl (fun v c => 10 * v + (c.toNat - 48)) 0 = n ∧
    ∀ c ∈ padded n, 48 ≤ c.toNat ∧ c.toNat ≤ 57 := by
  obtain ⟨h1, h2⟩ := digits_val (n + 1) n (by omega)
  have hz : ∀ k, (List.replicate k (48 : UInt8)).foldl (fun v c => 10 * v + (c.toNat - 48)) 0 = 0 := by
    intro k
    induction k with
    | zero => rfl
    | succ k ih => rw [List.replicate_succ, List.foldl_cons]; exact ih
  refine ⟨?_, ?_⟩
  · unfold padded
    rw [List.foldl_append, hz, h1]
  · intro c hc
    unfold padded at hc
    rcases List.mem_append.1 hc with hc | hc
    · rw [List.eq_of_mem_replicate hc]; decide
    · exact h2 c hc

/-- what follows the number does not begin with a digit -/
theorem split_digits : ∀ (a b s t : Bytes), (∀ c ∈ a, c ≠ 46) → (∀ c ∈ b, c ≠ 46) →
    (s = [] ∨ s.head? = some 46) → (t = [] ∨ t.head? = some 46) → a ++ s = b ++ t → a = b
  | [], [], _, _, _, _, _, _, _ => rfl
  | [], d :: b, s, t, _, hb, hs, _, e => by
    rcases hs with rfl | hs
    · simp at e
    · rw [List.nil_append] at e
      rw [e] at hs
      have := hb d (List.mem_cons_self ..)
      simp at hs
      exact absurd hs this
  | d :: a, [], s, t, ha, _, _, ht, e => by
    rcases ht with rfl | ht
    · simp at e
    · rw [List.nil_append] at e
      rw [← e] at ht
      have := ha d (List.mem_cons_self ..)
      simp at ht
      exact absurd ht this
  | c :: a, d :: b, s, t, ha, hb, hs, ht, e => by
    simp only [List.cons_append, List.cons.injEq] at e
    rw [e.1, split_digits a b s t (fun x h => ha x (List.mem_cons_of_mem _ h)) (fun x h => hb x (List.mem_cons_of_mem _ h))
      hs ht e.2]

theorem makeTemp_inj {d e e' : Bytes} {n m : Nat} (h : (makeTemp d e n).1 = (makeTemp d e' m).1) : n = m := by
  have hd : ∀ k, ∀ c ∈ padded k, c ≠ 46 := by
    intro k c hc
    rintro rfl
    have := (padded_val k).2 _ hc
    exact absurd this.1 (by decide)
  have hx : ∀ x : Bytes, (if x = [] then [] else 46 :: x : Bytes) = [] ∨
      (if x = [] then [] else 46 :: x : Bytes).head? = some 46 := by
    intro x
    by_cases hx : x = []
    · exact .inl (if_pos hx)
    · exact .inr (by rw [if_neg hx]; rfl)
  unfold makeTemp makeName at h
  simp only at h
  have h := List.append_cancel_left h
  simp only [List.cons.injEq, true_and, List.append_assoc] at h
  have h := List.append_cancel_left h
  have := split_digits _ _ _ _ (hd n) (hd m) (hx e) (hx e') h
  rw [← (padded_val n).1, ← (padded_val m).1, this]

theorem mem_temps {d : Bytes} : ∀ (es : List Bytes) (n : Nat) (x : Bytes), n + es.length ≤ 4294967296 → x ∈ temps d n es →
    ∃ k e, n ≤ k ∧ k < n + es.length ∧ e ∈ es ∧ x = (makeTemp d e k).1
  | [], _, _, _, h => absurd h (by simp [temps])
  | e :: es, n, x, hl, h => by
    unfold temps at h
    rw [List.length_cons] at hl
    rcases List.mem_cons.1 h with rfl | h
    · exact ⟨n, e, by omega, by simp, by simp, rfl⟩
    · by_cases hes : es = []
      · subst hes; exact absurd h (by simp [temps])
      · have : 0 < es.length := List.length_pos_iff.2 hes
        have hc : (makeTemp d e n).2 = n + 1 := by
          show (n + 1) % 4294967296 = n + 1
          omega
        rw [hc] at h
        obtain ⟨k, e', h1, h2, h3, h4⟩ := mem_temps es (n + 1) x (by omega) h
        exact ⟨k, e', by omega, by rw [List.length_cons]; omega, List.mem_cons_of_mem _ h3, h4⟩

theorem temps_nodup {d : Bytes} : ∀ (es : List Bytes) (n : Nat), n + es.length ≤ 4294967296 → (temps d n es).Nodup
  | [], _, _ => by simp [temps]
  | e :: es, n, hl => by
    unfold temps
    rw [List.length_cons] at hl
    by_cases hes : es = []
    · subst hes; simp [temps]
    · have : 0 < es.length := List.length_pos_iff.2 hes
      have hc : (makeTemp d e n).2 = n + 1 := by
        show (n + 1) % 4294967296 = n + 1
        omega
      rw [hc, List.nodup_cons]
      refine ⟨?_, temps_nodup es (n + 1) (by omega)⟩
      intro hm
      obtain ⟨k, e', h1, _, _, h4⟩ := mem_temps es (n + 1) _ (by omega) hm
      have := makeTemp_inj h4
      omega

theorem makeTemp_temporary {d e : Bytes} (he : 47 ∉ e) (n : Nat) : Temporary d (makeTemp d e n).1 := by
  refine ⟨padded n ++ (if e = [] then [] else 46 :: e), ?_, ?_⟩
  · intro h
    rcases List.mem_append.1 h with h | h
    · have := (padded_val n).2 _ h
      exact absurd this.1 (by decide)
    · by_cases hx : e = []
      · simp [hx] at h
      · rw [if_neg hx] at h
        rcases List.mem_cons.1 h with h | h
        · exact absurd h (by decide)
        · exact he h
  · unfold makeTemp makeName
    simp

theorem temps_getElem {d : Bytes} : ∀ (es : List Bytes) (n k : Nat), n < 4294967296 →
    (temps d n es)[k]? = (es[k]?).map fun e => (makeTemp d e ((n + k) % 4294967296)).1
  | [], _, _, _ => by simp [temps]
  | e :: es, n, 0, hn => by
    simp only [temps, List.getElem?_cons_zero, Option.map_some, Nat.add_zero]
    rw [Nat.mod_eq_of_lt hn]
  | e :: es, n, k + 1, hn => by
    have hc : (makeTemp d e n).2 = (n + 1) % 4294967296 := rfl
    simp only [temps, List.getElem?_cons_succ]
    rw [hc, temps_getElem es _ k (Nat.mod_lt _ (by decide))]
    have : ((n + 1) % 4294967296 + k) % 4294967296 = (n + (k + 1)) % 4294967296 := by omega
    rw [this]

end Verif.Working
