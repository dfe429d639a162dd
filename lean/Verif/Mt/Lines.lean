import Verif.Mt.Grammar
/- Lines. -/
namespace Verif.Mt

theorem spells_of {ts : List Tok} {s s' : List Char} (h : Begins ts s s') (he : (scan s').tok = []) : Spells ts s :=
  ⟨s', h, scan_end he⟩

theorem scan_done {s : List Char} (h : (scan s).tok = []) : scan s = ⟨[], .other, []⟩ := by
  have := scan_space (scan_end h) []
  rw [List.append_nil] at this
  rw [this]
  rfl

theorem counter_none {st : St} (h : counter st = none) : st.tok ≠ ['o', 'n', 'e'] ∧ st.tok ≠ ['a', 'l', 'l'] := by
  unfold counter at h
  split at h
  · cases h
  · constructor
    · intro e
      rw [if_pos e] at h
      cases h
    · intro e
      rw [e] at h
      simp at h

/-- the line that an answer of the parser belongs to -/
theorem top_sound {env : Env} {n : Nat} {s : List Char} :
    (∀ q st, parseTop n env (scan s) = .query q st → ∃ s' ts, st = scan s' ∧ Begins ts s s' ∧ Expr env ts q) ∧
    (∀ env' st, parseTop n env (scan s) = .defined env' st → ∃ s' x ts q, st = scan s' ∧ x ≠ ['o', 'n', 'e'] ∧ x ≠ ['a', 'l', 'l'] ∧
      Begins (.name x :: .punct '=' :: ts) s s' ∧ Expr env ts q ∧ env' = define x q env) := by
  obtain ⟨pQ, pT, pL, _⟩ := parse_sound env n
  have ofRes : ∀ {r : Res Q} {q st}, Top.ofRes r = .query q st → r = .ok q st := by
    intro r q st h
    cases r <;> cases h
    rfl
  have ofResD : ∀ {r : Res Q} {e st}, Top.ofRes r ≠ .defined e st := by
    intro r e st h
    cases r <;> cases h
  constructor
  · intro q st h
    unfold parseTop at h
    split at h
    · rename_i hc
      obtain ⟨c1, c2⟩ := counter_none hc.1
      split at h
      · unfold definition at h
        split at h <;> cases h
      · split at h
        · cases h
        · rename_i q1 hl
          obtain ⟨s', ts, h1, h2, h3⟩ := pL _ _ _ _ [.name (scan s).tok] (ofRes h) (.term (.var c1 c2 hl))
          exact ⟨s', _, h1, (kind_name hc.2).trans h2, h3⟩
    · exact pQ _ _ _ (ofRes h)
  · intro env' st h
    unfold parseTop at h
    split at h
    · rename_i hc
      obtain ⟨c1, c2⟩ := counter_none hc.1
      split at h
      · rename_i e
        unfold definition at h
        split at h
        · rename_i q st1 h1
          cases h
          obtain ⟨s', ts, h1, h2, h3⟩ := pQ _ _ _ h1
          exact ⟨s', _, ts, q, h1, c1, c2, (kind_name hc.2).trans ((at_lit eq_ok trivial e).trans h2), h3, rfl⟩
        · cases h
        · cases h
      · split at h
        · cases h
        · exact absurd h ofResD
    · exact absurd h ofResD

/-- the answer of the parser for a whole expression -/
theorem expr_top {env : Env} {ts : List Tok} {q : Q} (h : Expr env ts q) {s : List Char} (hs : Spells ts s) {n : Nat}
    (hn : 3 * (scan s).size + 2 ≤ n) : ∃ s', (scan s').tok = [] ∧ parseQ n env (scan s) = .ok q (scan s') := by
  obtain ⟨s', hs', N, k, hp⟩ := expr_complete h [] s (by rw [List.append_nil]; exact hs)
  refine ⟨s', spells_end hs', ?_⟩
  have h1 := hp (N + 1) (by omega)
  rw [loop_stop stop_nil hs'] at h1
  have h2 := (parse_enough env n).1 _ hn
  have h3 := parseQ_le (k := N + 1 + k) h2
  have h4 : parseQ (N + 1 + k) env (scan s) ≠ .fuel := by rw [h1]; intro e; cases e
  have h5 := parseQ_le (k := n) h4
  rw [← h3, Nat.add_comm n, h5, h1]

theorem size_le (s : List Char) : 3 * (scan s).size + 2 ≤ 3 * s.length + 2 := by
  have := scan_size s
  omega

theorem infix_accepts {m m' : Mt} {text : List Char} (h : m.infix text = (true, m')) :
    ∃ ts o, Spells ts (cstr text) ∧ Line m.env ts o ∧ m' = m.after o := by
  unfold Mt.infix at h
  split at h
  · rename_i e
    cases h
    exact ⟨[], .empty, ⟨_, .nil, scan_end e⟩, .empty, rfl⟩
  · obtain ⟨t1, t2⟩ := top_sound (env := m.env) (n := 3 * (cstr text).length + 2) (s := cstr text)
    unfold Mt.finish at h
    split at h
    · rename_i q st hq
      split at h
      · rename_i e
        cases h
        obtain ⟨s', ts, rfl, h2, h3⟩ := t1 _ _ hq
        exact ⟨ts, .query q, spells_of h2 e, .query h3, rfl⟩
      · cases h
    · rename_i env st hq
      split at h
      · rename_i e
        cases h
        obtain ⟨s', x, ts, q, rfl, c1, c2, h2, h3, rfl⟩ := t2 _ _ hq
        exact ⟨_, .defined x q, spells_of h2 e, .defined c1 c2 h3, rfl⟩
      · cases h
    · cases h
    · cases h

theorem parseQ_end {env : Env} {n : Nat} {q : Q} {st : St} : parseQ n env ⟨[], .other, []⟩ ≠ .ok q st := by
  intro h
  cases n with
  | zero => simp only [parseQ] at h; cases h
  | succ n =>
    rw [parseQ] at h
    cases n with
    | zero => simp only [parseTerm] at h; cases h
    | succ n =>
      have : parseTerm (n + 1) env ⟨[], .other, []⟩ = .bad (some .unexpected) := rfl
      rw [this] at h
      cases h

theorem query_top {env : Env} {ts : List Tok} {q : Q} (h : Expr env ts q) {s : List Char} (hs : Spells ts s) :
    ∃ s', (scan s').tok = [] ∧ parseTop (3 * s.length + 2) env (scan s) = .query q (scan s') := by
  obtain ⟨s', he, hp⟩ := expr_top h hs (size_le s)
  refine ⟨s', he, ?_⟩
  unfold parseTop
  split
  · rename_i hc
    -- one more step shows what the term is
    have hp' : parseQ (3 * s.length + 2 + 1) env (scan s) = .ok q (scan s') := by
      rw [(parse_mono env _).1 _ (by rw [hp]; intro e; cases e), hp]
    rw [parseQ, parseTerm, hc.1] at hp'
    simp only [hc.2, if_true] at hp'
    cases hl : lookup env (scan s).tok with
    | none => rw [hl] at hp'; cases hp'
    | some q1 =>
      rw [hl] at hp'
      simp only at hp'
      split
      · rename_i eq
        exfalso
        have : operator (scan (scan s).rest) = .none := by
          unfold operator
          rw [eq]
          rfl
        rw [parseLoop, this] at hp'
        simp only at hp'
        obtain ⟨_, e2⟩ := Res.ok.inj hp'
        rw [← e2, eq] at he
        cases he
      · simp only
        rw [hp']
        rfl
  · rw [hp]
    rfl

theorem infix_reads {m : Mt} {text : List Char} {ts : List Tok} {o : Outcome} (hs : Spells ts (cstr text)) (h : Line m.env ts o) :
    m.infix text = (true, m.after o) := by
  unfold Mt.infix
  cases h with
  | empty =>
    rw [if_pos (spells_end hs)]
    rfl
  | @query ts q h =>
    obtain ⟨s', he, hp⟩ := query_top h hs
    have hne : (scan (cstr text)).tok ≠ [] := by
      intro e
      obtain ⟨s2, _, hq⟩ := expr_top h hs (size_le (cstr text))
      rw [scan_done e] at hq
      exact parseQ_end hq
    rw [if_neg hne, hp]
    unfold Mt.finish
    simp only
    rw [if_pos he]
    rfl
  | @defined x ts q h1 h2 h =>
    obtain ⟨r1, k1, k2, hok⟩ := spells_scan hs
    obtain ⟨r2, k3, k4, _⟩ := spells_scan k2
    have hsz : 3 * (scan r2).size + 2 ≤ 3 * (cstr text).length + 2 := by
      have a1 := scan_size (cstr text)
      have a2 := scan_size r1
      have a3 := scan_size r2
      rw [k1] at a1
      rw [k3] at a2
      simp only [atWord, St.size] at a1 a2
      unfold St.size at a3 ⊢
      omega
    obtain ⟨s', he, hp⟩ := expr_top h k4 hsz
    have hne : (scan (cstr text)).tok ≠ [] := by
      rw [k1]
      exact text_ne hok
    rw [if_neg hne, k1]
    have hc : counter (atWord (.name x) r1) = none := by
      unfold counter atWord
      simp only [h1, h2, if_false]
    unfold parseTop
    rw [if_pos ⟨hc, rfl⟩]
    have e1 : (atWord (.name x) r1).rest = r1 := rfl
    rw [e1, k3, if_pos (show (atWord (.punct '=') r2).tok = ['='] from rfl)]
    show m.finish (definition m.env x (parseQ _ m.env (scan r2))) = _
    rw [hp]
    unfold definition Mt.finish
    simp only
    rw [if_pos he]
    rfl

/-- what a line that is refused leaves -/
theorem infix_refuses {m m' : Mt} {text : List Char} (h : m.infix text = (false, m')) :
    m'.sExpression = m.sExpression ∧
    (m'.env = m.env ∨ ∃ x ts q rest, x ≠ ['o', 'n', 'e'] ∧ x ≠ ['a', 'l', 'l'] ∧
      Begins (.name x :: .punct '=' :: ts) (cstr text) rest ∧ ¬ Gcl.Space rest ∧ Expr m.env ts q ∧
      m'.env = define x q m.env ∧ m'.message = some .extra) := by
  have refuse : ∀ {m m' : Mt} {msg}, m.refuse msg = (false, m') → m'.sExpression = m.sExpression ∧ m'.env = m.env := by
    intro m m' msg h
    unfold Mt.refuse at h
    cases msg <;> cases h <;> exact ⟨rfl, rfl⟩
  unfold Mt.infix at h
  split at h
  · cases h
  · obtain ⟨t1, t2⟩ := top_sound (env := m.env) (n := 3 * (cstr text).length + 2) (s := cstr text)
    unfold Mt.finish at h
    split at h
    · split at h
      · cases h
      · obtain ⟨h1, h2⟩ := refuse h
        exact ⟨h1, .inl h2⟩
    · rename_i env st hq
      split at h
      · cases h
      · rename_i e
        obtain ⟨s', x, ts, q, rfl, c1, c2, h2, h3, rfl⟩ := t2 _ _ hq
        cases h
        refine ⟨rfl, .inr ⟨x, ts, q, s', c1, c2, h2, ?_, h3, rfl, rfl⟩⟩
        intro hsp
        exact e (spells_end ⟨s', .nil, hsp⟩)
    · obtain ⟨h1, h2⟩ := refuse h
      exact ⟨h1, .inl h2⟩
    · obtain ⟨h1, h2⟩ := refuse h
      exact ⟨h1, .inl h2⟩

/-! ### names -/

theorem lookup_replace {env : Env} {x y : List Char} {q : Q} :
    lookup (replace x q env) y = if y = x ∧ env.any (·.1 = x) then some q else lookup env y := by
  induction env with
  | nil => simp [replace, lookup]
  | cons z env ih =>
    unfold replace
    by_cases hz : z.1 = x
    · rw [if_pos hz]
      by_cases hy : y = x
      · subst hy
        simp [lookup, hz]
      · have hy' : ¬ x = y := fun e => hy e.symm
        simp [lookup, hy, hy', hz]
    · rw [if_neg hz]
      by_cases hzy : z.1 = y
      · have hy : y ≠ x := fun e => hz (hzy.trans e)
        simp [lookup, hzy, hy]
      · have e1 : lookup (z :: replace x q env) y = lookup (replace x q env) y := by simp [lookup, hzy]
        have e2 : lookup (z :: env) y = lookup env y := by simp [lookup, hzy]
        have e3 : (z :: env).any (fun w => decide (w.1 = x)) = env.any (fun w => decide (w.1 = x)) := by
          rw [List.any_cons, decide_eq_false hz, Bool.false_or]
        rw [e1, e2, ih, e3]

theorem lookup_define (env : Env) (x y : List Char) (q : Q) :
    lookup (define x q env) y = if y = x then some q else lookup env y := by
  unfold define
  split
  · rename_i h
    rw [lookup_replace]
    simp [h]
  · by_cases hy : y = x
    · subst hy
      simp [lookup]
    · have hy' : ¬ x = y := fun e => hy e.symm
      simp [lookup, hy, hy']

/-! ### the queries that are made -/

mutual
/-- what the parser makes: counts do not exceed the expressions, texts have no quote and no NUL, widths are positive -/
def Made : Q → Prop
  | .bin _ l r => Made l ∧ Made r
  | .some n es => n ≤ es.length ∧ 1 ≤ es.length ∧ MadeL es
  | .term t => ∀ c ∈ t, c ≠ '"' ∧ c ≠ '\x00'
  | .fixed n => 1 ≤ n ∧ n ≤ 4294967295
def MadeL : List Q → Prop
  | [] => True
  | e :: es => Made e ∧ MadeL es
end

def MadeEnv (env : Env) : Prop := ∀ x ∈ env, Made x.2

theorem lookup_made {env : Env} (h : MadeEnv env) {x : List Char} {q : Q} (e : lookup env x = some q) : Made q := by
  unfold lookup at e
  obtain ⟨y, hy, rfl⟩ := Option.map_eq_some_iff.1 e
  exact h y (List.mem_of_find?_eq_some hy)

/-- the texts in quotes are free of quotes and NULs -/
def CleanToks (ts : List Tok) : Prop := ∀ b, Tok.quoted b ∈ ts → ∀ c ∈ b, c ≠ '"' ∧ c ≠ '\x00'

theorem numeral_le (ds : List Char) : numeral ds ≤ 4294967295 := by
  unfold numeral
  split <;> omega

theorem elements_pos {env : Env} {ts : List Tok} {es : List Q} (h : Elements env ts es) : 1 ≤ es.length := by
  cases h <;> simp

mutual
theorem term_made {env : Env} (he : MadeEnv env) {ts : List Tok} {q : Q} (h : Term env ts q) (hc : CleanToks ts) : Made q := by
  match h with
  | .quoted => exact hc _ (by simp)
  | .var _ _ hl => exact lookup_made he hl
  | .parens h => exact expr_made he h fun b hb => hc b (by simp [hb])
  | .width (ds := ds) h => exact ⟨by have := h; omega, numeral_le ds⟩
  | .words (ds := ds) h => exact ⟨by have := h; omega, numeral_le ds⟩
  | .some hs h hn => exact ⟨hn, elements_pos h, elements_made he h fun b hb => hc b (by simp [hb])⟩
  | .one hs h => exact ⟨elements_pos h, elements_pos h, elements_made he h fun b hb => hc b (by simp [hb])⟩
  | .all hs h => exact ⟨Nat.le_refl _, elements_pos h, elements_made he h fun b hb => hc b (by simp [hb])⟩
theorem expr_made {env : Env} (he : MadeEnv env) {ts : List Tok} {q : Q} (h : Expr env ts q) (hc : CleanToks ts) : Made q := by
  match h with
  | .term h => exact term_made he h hc
  | .bin hl ho hr =>
    exact ⟨expr_made he hl fun b hb => hc b (by simp [hb]), term_made he hr fun b hb => hc b (by simp [hb])⟩
theorem elements_made {env : Env} (he : MadeEnv env) {ts : List Tok} {es : List Q} (h : Elements env ts es) (hc : CleanToks ts) : MadeL es := by
  match h with
  | .first h => exact ⟨expr_made he h hc, trivial⟩
  | .next hE h => exact ⟨expr_made he h fun b hb => hc b (by simp [hb]), elements_made he hE fun b hb => hc b (by simp [hb])⟩
end

theorem begins_chars {ts : List Tok} {s s' : List Char} (h : Begins ts s s') : ∀ b, Tok.quoted b ∈ ts → (∀ c ∈ b, c ≠ '"') ∧ ∀ c ∈ b, c ∈ s := by
  induction h with
  | nil => intro b hb; cases hb
  | @cons a t ts after rest ha ht he h ih =>
    intro b hb
    rcases List.mem_cons.1 hb with e | hb
    · subst e
      exact ⟨ht, fun c hc => by simp [Tok.text, hc]⟩
    · obtain ⟨h1, h2⟩ := ih b hb
      exact ⟨h1, fun c hc => by simp [h2 c hc]⟩

theorem clean_cstr {ts : List Tok} {text s' : List Char} (h : Begins ts (cstr text) s') : CleanToks ts := by
  intro b hb c hc
  obtain ⟨h1, h2⟩ := begins_chars h b hb
  refine ⟨h1 c hc, ?_⟩
  have := takeWhile_mem (p := (· != '\x00')) text c (h2 c hc)
  simpa using this

theorem define_made {env : Env} (h : MadeEnv env) {x : List Char} {q : Q} (hq : Made q) : MadeEnv (define x q env) := by
  have hr : ∀ env : Env, MadeEnv env → MadeEnv (replace x q env) := by
    intro env
    induction env with
    | nil => intro _ y hy; cases hy
    | cons z env ih =>
      intro h y hy
      unfold replace at hy
      split at hy
      · rcases List.mem_cons.1 hy with rfl | hy
        · exact hq
        · exact h y (by simp [hy])
      · rcases List.mem_cons.1 hy with rfl | hy
        · exact h _ (by simp)
        · exact ih (fun w hw => h w (by simp [hw])) y hy
  unfold define
  split
  · exact hr env h
  · intro y hy
    rcases List.mem_cons.1 hy with rfl | hy
    · exact hq
    · exact h y hy

theorem line_made {m m' : Mt} {text : List Char} {b : Bool} (hm : MadeEnv m.env) (h : m.infix text = (b, m')) : MadeEnv m'.env := by
  cases b with
  | true =>
    obtain ⟨ts, o, hs, hl, rfl⟩ := infix_accepts h
    cases hl with
    | empty => exact hm
    | query => exact hm
    | defined h1 h2 he =>
      obtain ⟨r, hb, _⟩ := hs
      exact define_made hm (expr_made hm he fun b hb' => clean_cstr hb b (by simp [hb']))
  | false =>
    obtain ⟨_, h⟩ := infix_refuses h
    rcases h with h | ⟨x, ts, q, rest, _, _, hb, _, he, h, _⟩
    · rw [h]; exact hm
    · rw [h]
      exact define_made hm (expr_made hm he fun b hb' => clean_cstr hb b (by simp [hb']))

theorem reached_made {m : Mt} (h : Reached m) : MadeEnv m.env := by
  induction h with
  | start => intro x hx; cases hx
  | line h text ih => exact line_made ih rfl

end Verif.Mt
