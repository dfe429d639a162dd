import Verif.Inhale.Spec
/-
  Lemmas for C74 and C75.
-/
namespace Verif.Inhale

theorem hasExtension_iff {name e : Bytes} : hasExtension name e = true ↔ ∃ stem, stem ≠ [] ∧ name = stem ++ e := by
  unfold hasExtension
  simp only [Bool.and_eq_true, decide_eq_true_eq, beq_iff_eq]
  constructor
  · rintro ⟨h1, h2⟩
    refine ⟨name.take (name.length - e.length), ?_, ?_⟩
    · intro h
      have := congrArg List.length h
      simp only [List.length_take, List.length_nil] at this
      omega
    · conv => lhs; rw [← List.take_append_drop (name.length - e.length) name]
      rw [h2]
  · rintro ⟨stem, h1, rfl⟩
    have : stem.length > 0 := List.length_pos_iff.2 h1
    refine ⟨by rw [List.length_append]; omega, ?_⟩
    rw [List.length_append, Nat.add_sub_cancel, List.drop_left]

theorem hasZcat_iff {name : Bytes} : hasZcatExtension name = true ↔ Compressed name := by
  unfold hasZcatExtension Compressed
  simp only [Bool.or_eq_true, hasExtension_iff, endings]
  constructor
  · rintro ((((((⟨s, h⟩ | ⟨s, h⟩) | ⟨s, h⟩) | ⟨s, h⟩) | ⟨s, h⟩) | ⟨s, h⟩) | ⟨s, h⟩)
    · exact ⟨s, ['.', 'z'], h.1, by simp, h.2⟩
    · exact ⟨s, ['.', 'Z'], h.1, by simp, h.2⟩
    · exact ⟨s, ['.', 'g', 'z'], h.1, by simp, h.2⟩
    · exact ⟨s, ['.', 'G', 'Z'], h.1, by simp, h.2⟩
    · exact ⟨s, ['.', '0', 'z'], h.1, by simp, h.2⟩
    · exact ⟨s, ['.', '1', 'z'], h.1, by simp, h.2⟩
    · exact ⟨s, ['.', '2', 'z'], h.1, by simp, h.2⟩
  · rintro ⟨s, e, h1, h2, h3⟩
    simp only [List.mem_cons, List.not_mem_nil, or_false] at h2
    rcases h2 with rfl | rfl | rfl | rfl | rfl | rfl | rfl
    · exact .inl (.inl (.inl (.inl (.inl (.inl ⟨s, h1, h3⟩)))))
    · exact .inl (.inl (.inl (.inl (.inl (.inr ⟨s, h1, h3⟩)))))
    · exact .inl (.inl (.inl (.inl (.inr ⟨s, h1, h3⟩))))
    · exact .inl (.inl (.inl (.inr ⟨s, h1, h3⟩)))
    · exact .inl (.inl (.inr ⟨s, h1, h3⟩))
    · exact .inl (.inr ⟨s, h1, h3⟩)
    · exact .inr ⟨s, h1, h3⟩

/-- the quoted text, byte by byte -/
def quoted (s : Bytes) : Bytes := s.flatMap fun c => if c = 39 then [39, 92, 39, 39] else [c]

theorem quoteLoop_eq : ∀ (s acc : Bytes), quoteLoop acc s = acc ++ quoted s
  | [], acc => by simp [quoteLoop, quoted]
  | c :: s, acc => by
    unfold quoteLoop
    by_cases h : c = 39
    · rw [if_pos h, quoteLoop_eq s]; simp [quoted, h]
    · rw [if_neg h, quoteLoop_eq s]; simp [quoted, h]

theorem shellQuote_eq (s : Bytes) : shellQuote s = 39 :: (quoted s ++ [39]) := by
  rw [shellQuote, quoteLoop_eq]; rfl

theorem words_quoted : ∀ (s cur : Bytes), shellWords .single cur (quoted s ++ [39]) = some [cur ++ s]
  | [], cur => by simp [quoted, shellWords]
  | c :: s, cur => by
    have ih := words_quoted s (cur ++ [c])
    by_cases h : c = 39
    · subst h
      have e : quoted (39 :: s) ++ [39] = 39 :: 92 :: 39 :: 39 :: (quoted s ++ [39]) := by simp [quoted]
      rw [e]
      rw [show shellWords .single cur (39 :: 92 :: 39 :: 39 :: (quoted s ++ [39])) =
        shellWords .single (cur ++ [39]) (quoted s ++ [39]) from by
          rw [shellWords, if_pos rfl, shellWords, if_neg (by decide), if_neg (by decide), if_neg (by decide),
            if_pos rfl, shellWords, if_neg (by decide), shellWords, if_neg (by decide), if_pos rfl]]
      rw [ih]; simp
    · have e : quoted (c :: s) ++ [39] = c :: (quoted s ++ [39]) := by simp [quoted, h]
      rw [e, shellWords, if_neg h, ih]; simp

theorem words_plain : ∀ (w cur : Bytes), w.all plain = true → ∀ rest,
    shellWords .bare cur (w ++ 32 :: rest) = (shellWords .blank [] rest).map ((cur ++ w) :: ·)
  | [], cur, _, rest => by simp [shellWords]
  | c :: w, cur, h, rest => by
    simp only [List.all_cons, Bool.and_eq_true] at h
    have h1 : ¬ (c = 32 ∨ c = 9) := by
      rintro (rfl | rfl)
      · exact absurd h.1 (by decide)
      · exact absurd h.1 (by decide)
    have h2 : c ≠ 39 := by
      rintro rfl
      exact absurd h.1 (by decide)
    rw [List.cons_append, shellWords, if_neg h1, if_neg h2, if_pos h.1, words_plain w _ h.2]
    simp

/-- The command has two words. -/
theorem words_command {path : Bytes} (hp : path ≠ []) (hpl : path.all plain = true) (name : Bytes) :
    shellWords .blank [] (path ++ [32] ++ shellQuote name) = some [path, name] := by
  match path, hp with
  | c :: w, _ =>
    simp only [List.all_cons, Bool.and_eq_true] at hpl
    have h1 : ¬ (c = 32 ∨ c = 9) := by
      rintro (rfl | rfl)
      · exact absurd hpl.1 (by decide)
      · exact absurd hpl.1 (by decide)
    have h2 : c ≠ 39 := by
      rintro rfl
      exact absurd hpl.1 (by decide)
    rw [List.append_assoc, List.cons_append, shellWords, if_neg h1, if_neg h2, if_pos hpl.1]
    rw [show w ++ ([32] ++ shellQuote name) = w ++ 32 :: shellQuote name from rfl, words_plain w _ hpl.2, shellQuote_eq,
      shellWords, if_neg (by decide), if_pos rfl, words_quoted]
    rfl

theorem cstr_legal {s : Bytes} (h : Legal s) : cstr s = s := by
  have : ∀ {l : Bytes}, 0 ∉ l → l.takeWhile (· ≠ 0) = l := by
    intro l
    induction l with
    | nil => intro _; rfl
    | cons c l ih =>
      intro h
      simp only [List.mem_cons, not_or] at h
      have hc : c ≠ 0 := fun e => h.1 e.symm
      rw [List.takeWhile_cons, if_pos (by simpa using hc), ih h.2]
  exact this h

theorem quoted_legal {s : Bytes} (h : Legal s) : Legal (shellQuote s) := by
  rw [shellQuote_eq]
  unfold Legal quoted at *
  simp only [List.mem_cons, List.mem_append, List.mem_flatMap, List.not_mem_nil, or_false, not_or, not_exists, not_and]
  refine ⟨by decide, ?_, by decide⟩
  intro c hc
  split
  · decide
  · intro h0
    rw [List.mem_singleton] at h0
    exact h (h0 ▸ hc)

theorem zcat_cases {W : World} (h : Unzips W) : zcat W = some usrBinZcat ∨ zcat W = some binZcat := by
  unfold zcat
  by_cases h' : (W.files usrBinZcat).isSome = true
  · exact .inl (if_pos h')
  · rcases h.1 with h | h
    · exact absurd h h'
    · rw [if_neg h', if_pos h]; exact .inr rfl

/-! ### Reading -/

theorem underflow_none {size : Nat} (hs : 0 < size) {b : Buffer} (h : underflow size b = none) : b.avail ++ b.file = [] := by
  unfold underflow at h
  split at h
  · cases h
  · rename_i he
    have he : b.avail = [] := Classical.byContradiction fun hh => he hh
    dsimp only at h
    split at h
    · rename_i h0
      rw [List.length_take] at h0
      rw [he]
      exact List.eq_nil_of_length_eq_zero (by simp only [List.nil_append]; omega)
    · cases h

theorem underflow_some {size : Nat} {b b' : Buffer} (h : underflow size b = some b') : b'.avail ≠ [] := by
  unfold underflow at h
  split at h
  · rename_i hh; cases h; exact hh
  · dsimp only at h
    split at h
    · cases h
    · rename_i hh; cases h
      intro h0
      exact hh (congrArg List.length h0)

/-- As many bytes as there are are read. -/
theorem sgetn_length {size : Nat} (hs : 0 < size) : ∀ (b : Buffer) (n : Nat),
    (sgetn size b n).1.length = min n b.left := by
  intro b n
  fun_induction sgetn size b n with
  | case1 => simp
  | case2 b n hn hu =>
    have := congrArg List.length (underflow_none hs hu)
    simp only [List.length_append, List.length_nil] at this
    simp only [List.length_nil, Buffer.left]; omega
  | case3 b n hn b' hu hk =>
    have := List.length_pos_iff.2 (underflow_some hu)
    omega
  | case4 b n hn b' hu hk r ih =>
    have hl := congrArg List.length (underflow_left hu)
    simp only [List.length_append] at hl
    simp only [List.length_append, List.length_take, r, ih, Buffer.left, List.length_drop]
    omega

theorem readLoop_eq {size : Nat} (hs : 0 < size) : ∀ (b : Buffer) (acc : Bytes),
    readLoop size hs b acc = acc ++ (b.avail ++ b.file) := by
  intro b acc
  fun_induction readLoop size hs b acc with
  | case1 b acc r h ih =>
    rw [ih, List.append_assoc]
    rw [sgetn_left size b size]
  | case2 b acc r h h' =>
    have h1 := sgetn_left size b size
    have h2 := sgetn_length hs b size
    have h3 := congrArg List.length h1
    simp only [List.length_append] at h3
    have h4 : r.1.length = (sgetn size b size).1.length := rfl
    have h5 : (sgetn size b size).2.avail ++ (sgetn size b size).2.file = [] := by
      apply List.eq_nil_of_length_eq_zero
      simp only [List.length_append]
      simp only [Buffer.left] at h2
      omega
    rw [← h1, h5, List.append_nil]
  | case3 b acc r h h' =>
    have h2 := sgetn_length hs b size
    have h4 : r.1.length = (sgetn size b size).1.length := rfl
    have h5 : b.avail ++ b.file = [] := by
      apply List.eq_nil_of_length_eq_zero
      simp only [List.length_append]
      simp only [Buffer.left] at h2
      omega
    rw [h5, List.append_nil]

theorem inhale_eq (W : World) (name : Bytes) : inhale W name = maybeZipped W name := by
  unfold inhale
  split
  · rename_i h; exact h.symm
  · rename_i f h
    rw [h, readLoop_eq]; rfl

/-- What is read from a compressed file. -/
theorem inhale_compressed {W : World} (hW : Unzips W) {name : Bytes} (hl : Legal name) (hc : Compressed name)
    {content : Bytes} {bad : Bool} (hf : W.files name = some (content, bad)) :
    inhale W name = some (if name.head? = some 45 then W.option name else (W.gunzip content).1) := by
  have hz := hasZcat_iff.2 hc
  have key : ∀ path, path = usrBinZcat ∨ path = binZcat →
      runCommand W (cstr (path ++ [32] ++ shellQuote name)) =
        if name.head? = some 45 then W.option name else (W.gunzip content).1 := by
    intro path hp
    have hpl : path ≠ [] ∧ path.all plain = true ∧ 0 ∉ path := by
      rcases hp with rfl | rfl <;> decide
    have hq : Legal (path ++ [32] ++ shellQuote name) := by
      unfold Legal
      simp only [List.mem_append, not_or]
      exact ⟨⟨hpl.2.2, by decide⟩, quoted_legal hl⟩
    unfold runCommand
    rw [cstr_legal hq, words_command hpl.1 hpl.2.1]
    simp only [if_pos hp, hf]
  rw [inhale_eq, maybeZipped, cstr_legal hl, hf]
  simp only [hz, Bool.true_eq_false, if_false]
  rcases zcat_cases hW with h | h
  · rw [h]; simp only [hW.2, if_true]
    rw [key _ (.inl rfl)]
  · rw [h]; simp only [hW.2, if_true]
    rw [key _ (.inr rfl)]

theorem inhale_plain {W : World} {name : Bytes} (hl : Legal name) (hc : ¬ Compressed name)
    {content : Bytes} {bad : Bool} (hf : W.files name = some (content, bad)) : inhale W name = some content := by
  have hz : hasZcatExtension name = false := by
    cases h : hasZcatExtension name with
    | false => rfl
    | true => exact absurd (hasZcat_iff.1 h) hc
  rw [inhale_eq, maybeZipped, cstr_legal hl, hf]
  simp only [hz, if_true]

/-! ### Builds -/

theorem performAll_append (I : Inner σ) : ∀ (xs ys : List Op) (b : Builder σ),
    performAll I b (xs ++ ys) =
      ((performAll I (performAll I b xs).1 ys).1, (performAll I b xs).2 ++ (performAll I (performAll I b xs).1 ys).2)
  | [], ys, b => rfl
  | x :: xs, ys, b => by
    simp only [List.cons_append, performAll]
    rw [performAll_append I xs ys]

theorem performAll_failed (I : Inner σ) {b : Builder σ} (h : b.failed = true) : ∀ ops : List Op,
    performAll I b ops = (b, ops.map fun _ => false)
  | [] => rfl
  | o :: os => by
    have : perform I b o = (b, false) := by rw [perform, if_pos h]
    simp only [performAll, this, performAll_failed I h os, List.map_cons]

theorem performAll_finalized (I : Inner σ) {b : Builder σ} (h : b.failed = false) (h' : b.finalized = true) : ∀ ops : List Op,
    performAll I b ops = (b, ops.map fun o => decide (o = .finalize))
  | [] => rfl
  | o :: os => by
    have : perform I b o = (b, decide (o = .finalize)) := by rw [perform, if_neg (by simp [h]), if_pos h']
    simp only [performAll, this, performAll_finalized I h h' os, List.map_cons]

theorem performAll_open (I : Inner σ) : ∀ (ops : List Op) (s s' : σ), Op.finalize ∉ ops → Carried I s ops s' →
    performAll I { inner := s } ops = ({ inner := s' }, ops.map fun _ => true)
  | [], s, s', _, h => by cases h; rfl
  | o :: os, s, s', hn, h => by
    obtain ⟨h1, h2⟩ := h
    simp only [List.mem_cons, not_or] at hn
    have hf : o ≠ .finalize := fun e => hn.1 e.symm
    have : perform I { inner := s } o = ({ inner := (I s o).1 }, true) := by
      rw [perform, if_neg (by simp), if_neg (by simp)]
      simp only [h1, Bool.not_true, hf, decide_false]
    simp only [performAll, this, performAll_open I os _ s' hn.2 h2, List.map_cons]

theorem carried_append (I : Inner σ) : ∀ (xs ys : List Op) (s s' : σ),
    Carried I s (xs ++ ys) s' ↔ ∃ m, Carried I s xs m ∧ Carried I m ys s'
  | [], ys, s, s' => by simp [Carried]
  | x :: xs, ys, s, s' => by
    simp only [List.cons_append, Carried, carried_append I xs ys]
    constructor
    · rintro ⟨h, m, h1, h2⟩; exact ⟨m, ⟨h, h1⟩, h2⟩
    · rintro ⟨m, ⟨h, h1⟩, h2⟩; exact ⟨h, m, h1, h2⟩

end Verif.Inhale
