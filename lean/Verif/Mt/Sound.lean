import Verif.Mt.Scan
/- What the parser accepts is in the grammar. -/
namespace Verif.Mt

theorem Begins.trans {ts us : List Tok} {s s' s'' : List Char} (h : Begins ts s s') (h' : Begins us s' s'') : Begins (ts ++ us) s s'' := by
  induction h with
  | nil => exact h'
  | cons ha ht he _ ih => exact .cons ha ht he (ih h')

/-- a word that is not a text in quotes -/
def Tok.Plain : Tok → Prop
  | .quoted _ => False
  | _ => True

theorem text_ne {t : Tok} (h : t.Ok) : t.text ≠ [] := by
  cases t with
  | num ds => exact h.1
  | name cs => obtain ⟨⟨c, r, rfl, _⟩, _⟩ := h; simp [Tok.text]
  | marks cs => exact h.1
  | punct c => simp [Tok.text]
  | quoted b => simp [Tok.text]

theorem text_head {t : Tok} (h : t.Ok) {c : Char} {r : List Char} (e : t.text = c :: r) :
    match t with
    | .num _ => Digit c
    | .name _ => Letter c
    | .marks _ => Mark c
    | .punct _ => ¬ Digit c ∧ ¬ Letter c ∧ ¬ Mark c ∧ ¬ Blank c ∧ c ≠ '"'
    | .quoted _ => c = '"' := by
  cases t with
  | num ds => exact h.2 c (by rw [show ds = c :: r from e]; simp)
  | name cs =>
    obtain ⟨⟨d, r', rfl, hd⟩, _⟩ := h
    cases e
    exact hd
  | marks cs => exact h.2 c (by rw [show cs = c :: r from e]; simp)
  | punct d =>
    cases e
    exact h
  | quoted b =>
    have : '"' :: (b ++ ['"']) = c :: r := e
    exact (List.cons.inj this).1.symm

/-- words are told apart by their text -/
theorem text_inj {t u : Tok} (ht : t.Ok) (hu : u.Ok) (e : t.text = u.text) : t = u := by
  have hne := text_ne ht
  match hx : t.text, hne with
  | c :: r, _ =>
    have h1 := text_head ht hx
    have h2 := text_head hu (e ▸ hx)
    have lq : ∀ {c}, Letter c → c ≠ '"' := fun h e => quote_not.2.1 (e ▸ h)
    have dq : ∀ {c}, Digit c → c ≠ '"' := fun h e => quote_not.1 (e ▸ h)
    cases t <;> cases u <;> simp only at h1 h2
    all_goals first
      | (congr 1; done)
      | (exact congrArg _ e; done)
      | skip
    case num.name => exact absurd h1 (letter_not_digit h2)
    case num.marks => exact absurd h1 (mark_not h2).1
    case num.punct => exact absurd h1 h2.1
    case num.quoted => exact absurd h2 (dq h1)
    case name.num => exact absurd h2 (letter_not_digit h1)
    case name.marks => exact absurd h1 (mark_not h2).2.1
    case name.punct => exact absurd h1 h2.2.1
    case name.quoted => exact absurd h2 (lq h1)
    case marks.num => exact absurd h2 (mark_not h1).1
    case marks.name => exact absurd h2 (mark_not h1).2.1
    case marks.punct => exact absurd h1 h2.2.2.1
    case marks.quoted => exact absurd h2 (mark_not h1).2.2.2
    case punct.num => exact absurd h2 h1.1
    case punct.name => exact absurd h2 h1.2.1
    case punct.marks => exact absurd h2 h1.2.2.1
    case punct.punct => simp only [Tok.text, List.cons.injEq, and_true] at e; rw [e]
    case punct.quoted => exact absurd h2 h1.2.2.2.2
    case quoted.num => exact absurd h1 (dq h2)
    case quoted.name => exact absurd h1 (lq h2)
    case quoted.marks => exact absurd h1 (mark_not h2).2.2.2
    case quoted.punct => exact absurd h1 h2.2.2.2.2
    case quoted.quoted =>
      simp only [Tok.text, List.cons_append, List.cons.injEq, true_and] at e
      rw [List.append_cancel_right e]

theorem scan_facts {s : List Char} (h0 : (scan s).tok ≠ []) (hq : (scan s).tok ≠ ['"']) :
    (wordOf (scan s)).Ok ∧ (wordOf (scan s)).text = (scan s).tok := by
  obtain ⟨a, r, h1, h2, h3, h4⟩ := space_split s
  rw [h3] at h0 hq ⊢
  obtain ⟨w1, w2, _, _⟩ := token_word h4 h0 hq
  exact ⟨w1, w2⟩

/-- at a known word -/
theorem at_lit {s : List Char} {t : Tok} (ht : t.Ok) (hp : t.Plain) (h : (scan s).tok = t.text) : Begins [t] s (scan s).rest := by
  have h0 : (scan s).tok ≠ [] := by rw [h]; exact text_ne ht
  have hq : (scan s).tok ≠ ['"'] := by
    rw [h]
    intro e
    have := text_head ht e
    cases t with
    | num => exact quote_not.1 this
    | name => exact quote_not.2.1 this
    | marks => exact quote_not.2.2.1 this
    | punct => exact this.2.2.2.2 rfl
    | quoted => exact hp
  obtain ⟨w1, w2⟩ := scan_facts h0 hq
  have := scan_word h0 hq
  rw [text_inj w1 ht (w2.trans h)] at this
  exact this

theorem kind_int {s : List Char} {n : Nat} (h : (scan s).kind = .int n) :
    n = numeral (scan s).tok ∧ Begins [.num (scan s).tok] s (scan s).rest := by
  have key : ∀ r, (token r).kind = .int n → (token r).tok ≠ [] ∧ (token r).tok ≠ ['"'] ∧ n = intValue (token r).tok := by
    intro r h
    cases r with
    | nil => cases h
    | cons c cs =>
      unfold token at h ⊢
      simp only at h ⊢
      split at h
      · rename_i hd
        rw [if_pos hd]
        refine ⟨by simp, ?_, ?_⟩
        · intro e
          have : c = '"' := (List.cons.inj e).1
          rw [this] at hd
          cases hd
        · cases h
          rfl
      · split at h
        · cases h
        · split at h <;> cases h
  obtain ⟨k1, k2, k3⟩ := key _ h
  have hw : wordOf (scan s) = .num (scan s).tok := by unfold wordOf; rw [h]
  have w1 : (wordOf (scan s)).Ok := (scan_facts k1 k2).1
  rw [hw] at w1
  refine ⟨k3.trans (intValue_eq w1.2), ?_⟩
  have := scan_word k1 k2
  rw [hw] at this
  exact this

theorem kind_name {s : List Char} (h : (scan s).kind = .name) : Begins [.name (scan s).tok] s (scan s).rest := by
  have key : ∀ r, (token r).kind = .name → (token r).tok ≠ [] ∧ (token r).tok ≠ ['"'] := by
    intro r h
    cases r with
    | nil => cases h
    | cons c cs =>
      unfold token at h ⊢
      simp only at h ⊢
      split at h
      · cases h
      · rename_i hd
        split at h
        · rename_i ha
          rw [if_neg hd, if_pos ha]
          refine ⟨by simp, ?_⟩
          intro e
          have : c = '"' := (List.cons.inj e).1
          rw [this] at ha
          cases ha
        · split at h <;> cases h
  obtain ⟨k1, k2⟩ := key _ h
  have hw : wordOf (scan s) = .name (scan s).tok := by unfold wordOf; rw [h]
  have := scan_word k1 k2
  rw [hw] at this
  exact this

/-! ### known words -/

instance (c : Char) : Decidable (Digit c) := by unfold Digit; infer_instance
instance (c : Char) : Decidable (Letter c) := by unfold Letter; infer_instance
instance (c : Char) : Decidable (Mark c) := by unfold Mark; infer_instance
instance (c : Char) : Decidable (Blank c) := by unfold Blank; infer_instance

theorem name_ok {c : Char} {r : List Char} (h : Letter c) (h' : ∀ x ∈ c :: r, Letter x ∨ Digit x) : (Tok.name (c :: r)).Ok :=
  ⟨⟨c, r, rfl, h⟩, h'⟩

theorem open_ok : (Tok.punct '(').Ok := by unfold Tok.Ok; decide
theorem close_ok : (Tok.punct ')').Ok := by unfold Tok.Ok; decide
theorem comma_ok : (Tok.punct ',').Ok := by unfold Tok.Ok; decide
theorem brack_ok : (Tok.punct '[').Ok := by unfold Tok.Ok; decide
theorem unbrack_ok : (Tok.punct ']').Ok := by unfold Tok.Ok; decide
theorem eq_ok : (Tok.punct '=').Ok := by unfold Tok.Ok; decide
theorem hat_ok : (Tok.punct '^').Ok := by unfold Tok.Ok; decide
theorem plus_ok : (Tok.punct '+').Ok := by unfold Tok.Ok; decide
theorem one_ok : (Tok.name ['o', 'n', 'e']).Ok := name_ok (by decide) (by decide)
theorem all_ok : (Tok.name ['a', 'l', 'l']).Ok := name_ok (by decide) (by decide)
theorem of_ok : (Tok.name ['o', 'f']).Ok := name_ok (by decide) (by decide)
theorem words_ok : (Tok.name ['w', 'o', 'r', 'd', 's']).Ok := name_ok (by decide) (by decide)
theorem and_ok : (Tok.name ['a', 'n', 'd']).Ok := name_ok (by decide) (by decide)
theorem or_ok : (Tok.name ['o', 'r']).Ok := name_ok (by decide) (by decide)
theorem in_ok : (Tok.name ['i', 'n']).Ok := name_ok (by decide) (by decide)
theorem not_ok : (Tok.name ['n', 'o', 't']).Ok := name_ok (by decide) (by decide)
theorem containing_ok : (Tok.name ['c', 'o', 'n', 't', 'a', 'i', 'n', 'i', 'n', 'g']).Ok := name_ok (by decide) (by decide)
theorem contained_ok : (Tok.name ['c', 'o', 'n', 't', 'a', 'i', 'n', 'e', 'd']).Ok := name_ok (by decide) (by decide)

theorem marks_ok {cs : List Char} (h : cs ≠ []) (h' : ∀ c ∈ cs, Mark c) : (Tok.marks cs).Ok := ⟨h, h'⟩

/-! ### operators -/

theorem one_step {s : List Char} {t : Tok} {op : BinOp} {st : St} (ht : t.Ok) (hp : t.Plain) (h : (scan s).tok = t.text)
    (ho : [t] ∈ spellings op) {op' : BinOp} (e : OpRes.found op (scan s) = .found op' st) :
    ∃ os, os ∈ spellings op' ∧ Begins os s st.rest := by
  cases e
  exact ⟨[t], ho, at_lit ht hp h⟩

theorem operator_sound {s : List Char} {op : BinOp} {st : St} (h : operator (scan s) = .found op st) :
    ∃ os, os ∈ spellings op ∧ Begins os s st.rest := by
  unfold operator at h
  split at h
  · rename_i e
    rcases e with e | e
    · exact one_step (t := .marks ['>', '>']) (marks_ok (by decide) (by decide)) trivial e (by decide) h
    · exact one_step (t := .marks ['>']) (marks_ok (by decide) (by decide)) trivial e (by decide) h
  split at h
  · rename_i e
    rcases e with e | e
    · exact one_step (t := .marks ['<', '<']) (marks_ok (by decide) (by decide)) trivial e (by decide) h
    · exact one_step (t := .marks ['<']) (marks_ok (by decide) (by decide)) trivial e (by decide) h
  split at h
  · rename_i e
    exact one_step (t := .marks ['/', '>']) (marks_ok (by decide) (by decide)) trivial e (by decide) h
  split at h
  · rename_i e
    exact one_step (t := .marks ['/', '<']) (marks_ok (by decide) (by decide)) trivial e (by decide) h
  split at h
  · rename_i e
    rcases e with e | e
    · exact one_step hat_ok trivial e (by decide) h
    · exact one_step and_ok trivial e (by decide) h
  split at h
  · rename_i e
    rcases e with e | e
    · exact one_step plus_ok trivial e (by decide) h
    · exact one_step or_ok trivial e (by decide) h
  split at h
  · rename_i e
    rcases e with e | e | e | e
    · exact one_step (t := .marks ['<', '>']) (marks_ok (by decide) (by decide)) trivial e (by decide) h
    · exact one_step (t := .marks ['.', '.']) (marks_ok (by decide) (by decide)) trivial e (by decide) h
    · exact one_step (t := .marks ['.', '.', '.']) (marks_ok (by decide) (by decide)) trivial e (by decide) h
    · exact one_step (t := .marks ['.', '.', '.', '.']) (marks_ok (by decide) (by decide)) trivial e (by decide) h
  split at h
  · rename_i e
    exact one_step containing_ok trivial e (by decide) h
  split at h
  · rename_i e
    unfold containedOp at h
    split at h
    · rename_i e'
      cases h
      exact ⟨_, by decide, (at_lit contained_ok trivial e).trans (at_lit in_ok trivial e')⟩
    · cases h
  split at h
  · rename_i e
    unfold notOp at h
    split at h
    · rename_i e'
      cases h
      exact ⟨_, by decide, (at_lit not_ok trivial e).trans (at_lit containing_ok trivial e')⟩
    · split at h
      · rename_i e'
        unfold notContainedOp at h
        split at h
        · rename_i e2
          cases h
          exact ⟨_, by decide, (at_lit not_ok trivial e).trans ((at_lit contained_ok trivial e').trans (at_lit in_ok trivial e2))⟩
        · cases h
      · cases h
  · cases h

/-! ### terms without recursion -/

theorem quoted_sound {s : List Char} {q : Q} {st : St} (hq : (scan s).tok = ['"']) (h : quoted (scan s).rest = .ok q st) (env : Env) :
    ∃ s' ts, st = scan s' ∧ Begins ts s s' ∧ Term env ts q := by
  obtain ⟨a, ha, hs⟩ := scan_quote hq
  generalize (scan s).rest = r at h hs
  unfold quoted at h
  split at h
  · cases h
  · rename_i c r' hd
    cases h
    have hc : c = '"' := by simpa using dropWhile_head c r' hd
    refine ⟨r', _, rfl, ?_, Term.quoted⟩
    have hok : (Tok.quoted (r.takeWhile (· != '"'))).Ok := by
      intro x hx
      simpa using takeWhile_mem _ x hx
    have := Begins.cons ha hok trivial (.nil (rest := r'))
    have e : s = a ++ (Tok.quoted (r.takeWhile (· != '"'))).text ++ r' := by
      have e2 := List.takeWhile_append_dropWhile (p := (· != '"')) (l := r)
      rw [hd, hc] at e2
      rw [hs]
      simp only [Tok.text, List.append_assoc, List.cons_append, List.nil_append]
      rw [e2]
    rw [e]
    exact this

theorem bracket_sound {s : List Char} {q : Q} {st : St} (hb : (scan s).tok = ['[']) (h : bracket (scan (scan s).rest) = .ok q st) (env : Env) :
    ∃ s' ts, st = scan s' ∧ Begins ts s s' ∧ Term env ts q := by
  unfold bracket at h
  split at h
  · rename_i n hk
    obtain ⟨k1, k2⟩ := kind_int hk
    unfold closeBracket at h
    split at h
    · rename_i hc
      split at h
      · cases h
      · rename_i hn
        cases h
        subst k1
        exact ⟨_, _, rfl, (at_lit brack_ok trivial hb).trans (k2.trans (at_lit unbrack_ok trivial hc)), Term.width hn⟩
    · cases h
  · cases h

/-! ### counts -/

/-- what a count is written as -/
inductive CountWords : Tok → Count → Prop
  | num {ds} : CountWords (.num ds) (.number (numeral ds))
  | one : CountWords (.name ['o', 'n', 'e']) .one
  | all : CountWords (.name ['a', 'l', 'l']) .all

theorem counter_sound {s : List Char} {c : Count} (h : counter (scan s) = some c) :
    ∃ t, CountWords t c ∧ Begins [t] s (scan s).rest := by
  unfold counter at h
  split at h
  · rename_i n hk
    cases h
    obtain ⟨k1, k2⟩ := kind_int hk
    subst k1
    exact ⟨_, .num, k2⟩
  · split at h
    · rename_i e
      cases h
      exact ⟨_, .one, at_lit one_ok trivial e⟩
    · split at h
      · rename_i e
        cases h
        exact ⟨_, .all, at_lit all_ok trivial e⟩
      · cases h

theorem combine_sound {env : Env} {c : Count} {t sep : Tok} {ts : List Tok} {es : List Q} {q : Q} {st st' : St}
    (hc : CountWords t c) (hs : sep ∈ ofWords) (h : Elements env ts es) (e : combine c es st = .ok q st') :
    st' = st ∧ Term env (t :: sep :: .punct '(' :: ts ++ [.punct ')']) q := by
  unfold combine at e
  cases hc with
  | num =>
    simp only at e
    split at e
    · cases e
    · rename_i hn
      cases e
      exact ⟨rfl, Term.some hs h (by omega)⟩
  | one =>
    simp only at e
    split at e
    · cases e
    · cases e
      exact ⟨rfl, Term.one hs h⟩
  | all =>
    cases e
    exact ⟨rfl, Term.all hs h⟩

theorem afterCount_elements {c : Count} {s : List Char} {st : St} (h : afterCount c (scan s) = .elements st) :
    ∃ s' sep, sep ∈ ofWords ∧ st = scan s' ∧ Begins [sep, .punct '('] s s' := by
  unfold afterCount at h
  split at h
  · rename_i e
    split at h
    · rename_i e'
      cases h
      rcases e with e | e
      · exact ⟨_, .punct '^', by decide, rfl, (at_lit hat_ok trivial e).trans (at_lit open_ok trivial e')⟩
      · exact ⟨_, .name ['o', 'f'], by decide, rfl, (at_lit of_ok trivial e).trans (at_lit open_ok trivial e')⟩
    · cases h
  · split at h <;> cases h

theorem afterCount_done {c : Count} {s : List Char} {q : Q} {st : St} (h : afterCount c (scan s) = .done (.ok q st)) {t : Tok}
    (hc : CountWords t c) (env : Env) :
    ∃ s' ts, st = scan s' ∧ Begins ts s s' ∧ Term env (t :: ts) q := by
  unfold afterCount at h
  split at h
  · split at h <;> cases h
  · split at h
    · rename_i e
      have hw : words c (scan (scan s).rest) = .ok q st := Next.done.inj h
      unfold words at hw
      cases hc with
      | num =>
        simp only at hw
        split at hw
        · cases hw
        · rename_i hn
          cases hw
          exact ⟨_, _, rfl, at_lit words_ok trivial e, Term.words hn⟩
      | one => cases hw
      | all => cases hw
    · cases h

/-! ### the parser -/

theorem parse_sound (env : Env) : ∀ n,
    (∀ s q st, parseQ n env (scan s) = .ok q st → ∃ s' ts, st = scan s' ∧ Begins ts s s' ∧ Expr env ts q) ∧
    (∀ s q st, parseTerm n env (scan s) = .ok q st → ∃ s' ts, st = scan s' ∧ Begins ts s s' ∧ Term env ts q) ∧
    (∀ s l q st ts0, parseLoop n env l (scan s) = .ok q st → Expr env ts0 l →
      ∃ s' ts, st = scan s' ∧ Begins ts s s' ∧ Expr env (ts0 ++ ts) q) ∧
    (∀ s es es' st, parseElements n env es (scan s) = .ok es' st →
      ∃ s' ts, st = scan s' ∧ Begins ts s s' ∧ (es = [] → Elements env ts es') ∧
        ∀ ts0, Elements env ts0 es → Elements env (ts0 ++ .punct ',' :: ts) es') := by
  intro n
  induction n with
  | zero =>
    refine ⟨?_, ?_, ?_, ?_⟩
    · intro s q st h; simp only [parseQ] at h; cases h
    · intro s q st h; simp only [parseTerm] at h; cases h
    · intro s l q st ts0 h; simp only [parseLoop] at h; cases h
    · intro s es es' st h; simp only [parseElements] at h; cases h
  | succ n ih =>
    obtain ⟨ihQ, ihT, ihL, ihE⟩ := ih
    refine ⟨?_, ?_, ?_, ?_⟩
    · intro s q st h
      simp only [parseQ] at h
      split at h
      · rename_i q1 st1 h1
        obtain ⟨s1, ts, rfl, hr, ht⟩ := ihT _ _ _ h1
        obtain ⟨s2, us, rfl, hr2, he⟩ := ihL _ _ _ _ _ h (.term ht)
        exact ⟨s2, _, rfl, hr.trans hr2, he⟩
      · cases h
      · cases h
    · intro s q st h
      simp only [parseTerm] at h
      split at h
      · rename_i c hc
        obtain ⟨t, ht, hr⟩ := counter_sound hc
        split at h
        · rename_i st1 h1
          obtain ⟨s1, sep, hsep, rfl, hr1⟩ := afterCount_elements h1
          unfold finishCount at h
          split at h
          · rename_i es st2 h2
            obtain ⟨s2, us, rfl, hr2, he, _⟩ := ihE _ _ _ _ h2
            split at h
            · rename_i e3
              obtain ⟨rfl, hT⟩ := combine_sound ht hsep (he rfl) h
              have := ((hr.trans hr1).trans hr2).trans (at_lit close_ok trivial e3)
              exact ⟨_, _, rfl, by simpa using this, hT⟩
            · cases h
          · cases h
          · cases h
        · rename_i r h1
          subst h
          obtain ⟨s1, us, rfl, hr1, hT⟩ := afterCount_done h1 ht env
          exact ⟨s1, _, rfl, hr.trans hr1, hT⟩
      · rename_i hc
        split at h
        · rename_i hk
          split at h
          · cases h
          · rename_i q1 hl
            cases h
            refine ⟨_, _, rfl, kind_name hk, Term.var ?_ ?_ hl⟩
            · intro e
              unfold counter at hc
              rw [hk] at hc
              simp only [e, if_true] at hc
              cases hc
            · intro e
              unfold counter at hc
              rw [hk] at hc
              simp only [e, if_true] at hc
              cases hc
        · split at h
          · rename_i e
            unfold closeParen at h
            split at h
            · rename_i q1 st1 h1
              obtain ⟨s1, us, rfl, hr1, he⟩ := ihQ _ _ _ h1
              split at h
              · rename_i e2
                cases h
                have := ((at_lit open_ok trivial e).trans hr1).trans (at_lit close_ok trivial e2)
                exact ⟨_, _, rfl, by simpa using this, Term.parens he⟩
              · cases h
            · rename_i hne
              exact absurd h (hne _ _)
          · split at h
            · rename_i e
              exact bracket_sound e h env
            · split at h
              · rename_i e
                exact quoted_sound e h env
              · cases h
    · intro s l q st ts0 h hl
      simp only [parseLoop] at h
      split at h
      · cases h
        exact ⟨s, [], rfl, .nil, by rw [List.append_nil]; exact hl⟩
      · cases h
      · rename_i op st1 ho
        obtain ⟨os, hos, hr⟩ := operator_sound ho
        split at h
        · rename_i r st2 h2
          obtain ⟨s2, us, rfl, hr2, hT⟩ := ihT _ _ _ h2
          obtain ⟨s3, vs, rfl, hr3, he⟩ := ihL _ _ _ _ _ h (.bin hl hos hT)
          exact ⟨s3, os ++ us ++ vs, rfl, (hr.trans hr2).trans hr3, by simpa using he⟩
        · cases h
        · cases h
    · intro s es es' st h
      simp only [parseElements] at h
      split at h
      · rename_i e st1 h1
        obtain ⟨s1, ts, rfl, hr, he⟩ := ihQ _ _ _ h1
        split at h
        · rename_i hcomma
          obtain ⟨s2, us, rfl, hr2, _, hE⟩ := ihE _ _ _ _ h
          refine ⟨s2, ts ++ .punct ',' :: us, rfl, ?_, ?_, ?_⟩
          · have := (hr.trans (at_lit comma_ok trivial hcomma)).trans hr2
            simpa using this
          · intro hes
            subst hes
            exact hE _ (.first he)
          · intro ts0 h0
            have := hE _ (.next h0 he)
            simpa using this
        · cases h
          exact ⟨s1, ts, rfl, hr, fun hes => by subst hes; exact .first he, fun ts0 h0 => .next h0 he⟩
      · cases h
      · cases h

end Verif.Mt
