import Verif.Mt.Complete
/- What is in the grammar is accepted. -/
namespace Verif.Mt

theorem operator_complete {op : BinOp} {os us : List Tok} {s : List Char} (h : os ∈ spellings op) (hs : Spells (os ++ us) s) :
    ∃ s', Spells us s' ∧ ∃ st, operator (scan s) = .found op st ∧ st.rest = s' := by
  have one : ∀ t : Tok, os = [t] → (∀ rest, ∃ st, operator (atWord t rest) = .found op st ∧ st.rest = rest) →
      ∃ s', Spells us s' ∧ ∃ st, operator (scan s) = .found op st ∧ st.rest = s' := by
    intro t e k
    subst e
    obtain ⟨rest, h1, h2, _⟩ := spells_scan hs
    rw [h1]
    exact ⟨rest, h2, k rest⟩
  cases op with
  | containing =>
    simp only [spellings, List.mem_cons, List.not_mem_nil, or_false] at h
    rcases h with h | h | h <;> exact one _ h fun rest => ⟨_, rfl, rfl⟩
  | containedIn =>
    simp only [spellings, List.mem_cons, List.not_mem_nil, or_false] at h
    rcases h with h | h | h
    · exact one _ h fun rest => ⟨_, rfl, rfl⟩
    · exact one _ h fun rest => ⟨_, rfl, rfl⟩
    · subst h
      obtain ⟨r1, h1, h2, _⟩ := spells_scan hs
      obtain ⟨r2, h3, h4, _⟩ := spells_scan h2
      refine ⟨r2, h4, atWord (.name ['i', 'n']) r2, ?_, rfl⟩
      rw [h1]
      show containedOp (scan r1) = _
      rw [h3]
      rfl
  | notContaining =>
    simp only [spellings, List.mem_cons, List.not_mem_nil, or_false] at h
    rcases h with h | h
    · exact one _ h fun rest => ⟨_, rfl, rfl⟩
    · subst h
      obtain ⟨r1, h1, h2, _⟩ := spells_scan hs
      obtain ⟨r2, h3, h4, _⟩ := spells_scan h2
      refine ⟨r2, h4, atWord (.name ['c', 'o', 'n', 't', 'a', 'i', 'n', 'i', 'n', 'g']) r2, ?_, rfl⟩
      rw [h1]
      show notOp (scan r1) = _
      rw [h3]
      rfl
  | notContainedIn =>
    simp only [spellings, List.mem_cons, List.not_mem_nil, or_false] at h
    rcases h with h | h
    · exact one _ h fun rest => ⟨_, rfl, rfl⟩
    · subst h
      obtain ⟨r1, h1, h2, _⟩ := spells_scan hs
      obtain ⟨r2, h3, h4, _⟩ := spells_scan h2
      obtain ⟨r3, h5, h6, _⟩ := spells_scan h4
      refine ⟨r3, h6, atWord (.name ['i', 'n']) r3, ?_, rfl⟩
      rw [h1]
      show notOp (scan r1) = _
      rw [h3]
      show notContainedOp (scan r2) = _
      rw [h5]
      rfl
  | bothOf =>
    simp only [spellings, List.mem_cons, List.not_mem_nil, or_false] at h
    rcases h with h | h <;> exact one _ h fun rest => ⟨_, rfl, rfl⟩
  | oneOf =>
    simp only [spellings, List.mem_cons, List.not_mem_nil, or_false] at h
    rcases h with h | h <;> exact one _ h fun rest => ⟨_, rfl, rfl⟩
  | before =>
    simp only [spellings, List.mem_cons, List.not_mem_nil, or_false] at h
    rcases h with h | h | h | h <;> exact one _ h fun rest => ⟨_, rfl, rfl⟩

/-- an expression ends before these words -/
def Stop (us : List Tok) : Prop := ∀ s, Spells us s → operator (scan s) = .none

theorem stop_nil : Stop [] := by
  intro s h
  have e := spells_end h
  unfold operator
  rw [e]
  rfl

theorem stop_close (us : List Tok) : Stop (.punct ')' :: us) := by
  intro s h
  obtain ⟨r, h1, _, _⟩ := spells_scan h
  rw [h1]
  rfl

theorem stop_comma (us : List Tok) : Stop (.punct ',' :: us) := by
  intro s h
  obtain ⟨r, h1, _, _⟩ := spells_scan h
  rw [h1]
  rfl

/-- what is done after an element -/
def afterElement (n : Nat) (env : Env) (es : List Q) (st : St) : Res (List Q) :=
  if st.tok = [','] then parseElements n env es (scan st.rest) else .ok es st

theorem loop_stop {env : Env} {q : Q} {us : List Tok} {s : List Char} (h : Stop us) (hs : Spells us s) (n : Nat) :
    parseLoop (n + 1) env q (scan s) = .ok q (scan s) := by
  rw [parseLoop, h s hs]

theorem sep_next {c : Count} {sep : Tok} (h : sep ∈ ofWords) {us : List Tok} {s : List Char} (hs : Spells (sep :: .punct '(' :: us) s) :
    ∃ s', Spells us s' ∧ afterCount c (scan s) = .elements (scan s') := by
  obtain ⟨r1, h1, h2, _⟩ := spells_scan hs
  obtain ⟨r2, h3, h4, _⟩ := spells_scan h2
  refine ⟨r2, h4, ?_⟩
  rw [h1]
  unfold afterCount
  have e1 : (atWord sep r1).rest = r1 := by
    simp only [ofWords, List.mem_cons, List.not_mem_nil, or_false] at h
    rcases h with rfl | rfl <;> rfl
  have e2 : (atWord sep r1).tok = ['^'] ∨ (atWord sep r1).tok = ['o', 'f'] := by
    simp only [ofWords, List.mem_cons, List.not_mem_nil, or_false] at h
    rcases h with rfl | rfl
    · exact .inl rfl
    · exact .inr rfl
  rw [if_pos e2, e1, h3]
  rfl

theorem finish_close (c : Count) (n : Nat) (env : Env) (es : List Q) (r : List Char) :
    finishCount c (afterElement n env es (atWord (.punct ')') r)) = combine c es (scan r) := by
  have e : afterElement n env es (atWord (.punct ')') r) = .ok es (atWord (.punct ')') r) := rfl
  rw [e]
  rfl

mutual
theorem term_complete {env : Env} {ts : List Tok} {q : Q} (h : Term env ts q) : ∀ us s, Spells (ts ++ us) s →
    ∃ s', Spells us s' ∧ ∃ N, ∀ n, N ≤ n → parseTerm n env (scan s) = .ok q (scan s') := by
  intro us s hs
  have up : ∀ {N n : Nat}, N + 1 ≤ n → ∃ m, n = m + 1 ∧ N ≤ m := fun {N n} h => ⟨n - 1, by omega, by omega⟩
  match h with
  | .quoted (body := body) =>
    obtain ⟨r, h1, h2, h3⟩ := spells_scan hs
    refine ⟨r, h2, 1, fun n hn => ?_⟩
    obtain ⟨m, rfl, _⟩ := up hn
    rw [h1, parseTerm]
    show quoted (body ++ '"' :: r) = _
    have hb : ∀ c ∈ body, (c != '"') = true := fun c hc => by simpa using h3 c hc
    obtain ⟨e1, e2⟩ := takeWhile_ends (p := (· != '"')) (a := body) (b := '"' :: r) hb (fun c r' e => by cases e; rfl)
    unfold quoted
    rw [e2, e1]
  | .var (x := x) h1 h2 hl =>
    obtain ⟨r, k1, k2, _⟩ := spells_scan hs
    refine ⟨r, k2, 1, fun n hn => ?_⟩
    obtain ⟨m, rfl, _⟩ := up hn
    rw [k1, parseTerm]
    have hc : counter (atWord (.name x) r) = none := by
      unfold counter atWord
      simp only [h1, h2, if_false]
    rw [hc]
    simp only [atWord, if_true, hl]
  | .parens (ts := ts) he =>
    have hs' : Spells (.punct '(' :: (ts ++ (.punct ')' :: us))) s := by simpa using hs
    obtain ⟨r, k1, k2, _⟩ := spells_scan hs'
    obtain ⟨s1, hs1, N, k, hp⟩ := expr_complete he _ _ k2
    obtain ⟨r2, k3, k4, _⟩ := spells_scan hs1
    refine ⟨r2, k4, N + k + 2, fun n hn => ?_⟩
    obtain ⟨m, rfl, hm⟩ := up hn
    rw [k1, parseTerm]
    show closeParen (parseQ m env (scan r)) = _
    obtain ⟨j, rfl⟩ : ∃ j, m = (j + 1) + k := ⟨m - k - 1, by omega⟩
    rw [hp (j + 1) (by omega), loop_stop (stop_close us) hs1, k3]
    rfl
  | .width (ds := ds) hd =>
    obtain ⟨r1, k1, k2, _⟩ := spells_scan hs
    obtain ⟨r2, k3, k4, hok⟩ := spells_scan k2
    obtain ⟨r3, k5, k6, _⟩ := spells_scan k4
    refine ⟨r3, k6, 1, fun n hn => ?_⟩
    obtain ⟨m, rfl, _⟩ := up hn
    rw [k1, parseTerm]
    show bracket (scan r1) = _
    rw [k3]
    show closeBracket (intValue ds) (scan r2) = _
    rw [k5, intValue_eq hok.2]
    unfold closeBracket
    rw [if_pos (show (atWord (.punct ']') r3).tok = [']'] from rfl), if_neg hd]
    rfl
  | .words (ds := ds) hd =>
    obtain ⟨r1, k1, k2, hok⟩ := spells_scan hs
    obtain ⟨r2, k3, k4, _⟩ := spells_scan k2
    refine ⟨r2, k4, 1, fun n hn => ?_⟩
    obtain ⟨m, rfl, _⟩ := up hn
    rw [k1, parseTerm]
    have hc : counter (atWord (.num ds) r1) = some (.number (numeral ds)) := by
      rw [← intValue_eq hok.2]; rfl
    rw [hc]
    show (match afterCount _ (scan r1) with | .elements st => finishCount _ (parseElements m env [] st) | .done r => r) = _
    rw [k3]
    have : afterCount (.number (numeral ds)) (atWord (.name ['w', 'o', 'r', 'd', 's']) r2) = .done (.ok (.fixed (numeral ds)) (scan r2)) := by
      show Next.done (words _ (scan r2)) = _
      unfold words
      simp only [hd, if_false]
    rw [this]
  | .some (ds := ds) (sep := sep) (ts := ts) (es := es) hsep he hn' =>
    have hs' : Spells (.num ds :: (sep :: .punct '(' :: (ts ++ (.punct ')' :: us)))) s := by simpa using hs
    obtain ⟨r1, k1, k2, hok⟩ := spells_scan hs'
    obtain ⟨s1, hs1, ha⟩ := sep_next (c := .number (numeral ds)) hsep k2
    obtain ⟨s2, hs2, N, k, hp⟩ := elements_complete he _ _ (stop_close us) hs1
    obtain ⟨r3, k5, k6, _⟩ := spells_scan hs2
    refine ⟨r3, k6, N + k + 1, fun n hn => ?_⟩
    obtain ⟨m, rfl, hm⟩ := up hn
    rw [k1, parseTerm]
    have hc : counter (atWord (.num ds) r1) = some (.number (numeral ds)) := by
      rw [← intValue_eq hok.2]; rfl
    rw [hc]
    show (match afterCount _ (scan r1) with | .elements st => finishCount _ (parseElements m env [] st) | .done r => r) = _
    rw [ha]
    obtain ⟨j, rfl⟩ : ∃ j, m = j + k := ⟨m - k, by omega⟩
    simp only
    rw [hp j (by omega), k5, finish_close]
    unfold combine
    simp only
    rw [if_neg (by omega)]
  | .one (sep := sep) (ts := ts) (es := es) hsep he =>
    have hs' : Spells (.name ['o', 'n', 'e'] :: (sep :: .punct '(' :: (ts ++ (.punct ')' :: us)))) s := by simpa using hs
    obtain ⟨r1, k1, k2, hok⟩ := spells_scan hs'
    obtain ⟨s1, hs1, ha⟩ := sep_next (c := .one) hsep k2
    obtain ⟨s2, hs2, N, k, hp⟩ := elements_complete he _ _ (stop_close us) hs1
    obtain ⟨r3, k5, k6, _⟩ := spells_scan hs2
    refine ⟨r3, k6, N + k + 1, fun n hn => ?_⟩
    obtain ⟨m, rfl, hm⟩ := up hn
    rw [k1, parseTerm]
    show (match afterCount .one (scan r1) with | .elements st => finishCount .one (parseElements m env [] st) | .done r => r) = _
    rw [ha]
    obtain ⟨j, rfl⟩ : ∃ j, m = j + k := ⟨m - k, by omega⟩
    simp only
    rw [hp j (by omega), k5, finish_close]
    unfold combine
    simp only
    have hpos : 1 ≤ es.length := by cases he <;> simp
    rw [if_neg (by omega)]
  | .all (sep := sep) (ts := ts) (es := es) hsep he =>
    have hs' : Spells (.name ['a', 'l', 'l'] :: (sep :: .punct '(' :: (ts ++ (.punct ')' :: us)))) s := by simpa using hs
    obtain ⟨r1, k1, k2, hok⟩ := spells_scan hs'
    obtain ⟨s1, hs1, ha⟩ := sep_next (c := .all) hsep k2
    obtain ⟨s2, hs2, N, k, hp⟩ := elements_complete he _ _ (stop_close us) hs1
    obtain ⟨r3, k5, k6, _⟩ := spells_scan hs2
    refine ⟨r3, k6, N + k + 1, fun n hn => ?_⟩
    obtain ⟨m, rfl, hm⟩ := up hn
    rw [k1, parseTerm]
    show (match afterCount .all (scan r1) with | .elements st => finishCount .all (parseElements m env [] st) | .done r => r) = _
    rw [ha]
    obtain ⟨j, rfl⟩ : ∃ j, m = j + k := ⟨m - k, by omega⟩
    simp only
    rw [hp j (by omega), k5]
    rfl
theorem expr_complete {env : Env} {ts : List Tok} {q : Q} (h : Expr env ts q) : ∀ us s, Spells (ts ++ us) s →
    ∃ s', Spells us s' ∧ ∃ N k, ∀ n, N ≤ n → parseQ (n + k) env (scan s) = parseLoop n env q (scan s') := by
  intro us s hs
  match h with
  | .term ht =>
    obtain ⟨s', hs', N, hp⟩ := term_complete ht _ _ hs
    refine ⟨s', hs', N, 1, fun n hn => ?_⟩
    rw [parseQ, hp n hn]
  | .bin (ts := ts) (us := vs) (os := os) hl ho hr =>
    have hs0 : Spells (ts ++ (os ++ (vs ++ us))) s := by simpa using hs
    obtain ⟨s1, hs1, N, k, hp⟩ := expr_complete hl _ _ hs0
    obtain ⟨s2, hs2, st, h1, h2⟩ := operator_complete ho hs1
    obtain ⟨s3, hs3, M, hq⟩ := term_complete hr _ _ hs2
    refine ⟨s3, hs3, N + M, k + 1, fun n hn => ?_⟩
    rw [show n + (k + 1) = (n + 1) + k by omega, hp (n + 1) (by omega), parseLoop, h1]
    simp only
    rw [h2, hq n (by omega)]
theorem elements_complete {env : Env} {ts : List Tok} {es : List Q} (h : Elements env ts es) : ∀ us s, Stop us → Spells (ts ++ us) s →
    ∃ s', Spells us s' ∧ ∃ N k, ∀ n, N ≤ n → parseElements (n + k) env [] (scan s) = afterElement n env es (scan s') := by
  intro us s hstop hs
  match h with
  | .first he =>
    obtain ⟨s', hs', N, k, hp⟩ := expr_complete he _ _ hs
    refine ⟨s', hs', N + k + 1, 1, fun n hn => ?_⟩
    obtain ⟨j, rfl⟩ : ∃ j, n = (j + 1) + k := ⟨n - k - 1, by omega⟩
    rw [parseElements, hp (j + 1) (by omega), loop_stop hstop hs']
    rfl
  | .next (ts := ts) (us := vs) (es := es) hE he =>
    have hs0 : Spells (ts ++ (.punct ',' :: (vs ++ us))) s := by simpa using hs
    obtain ⟨s1, hs1, N, k, hp⟩ := elements_complete hE _ _ (stop_comma _) hs0
    obtain ⟨r, k1, k2, _⟩ := spells_scan hs1
    obtain ⟨s2, hs2, M, k', hq⟩ := expr_complete he _ _ k2
    refine ⟨s2, hs2, N + M + k' + 1, k + 1, fun n hn => ?_⟩
    rw [show n + (k + 1) = (n + 1) + k by omega, hp (n + 1) (by omega), k1]
    show parseElements (n + 1) env es (scan r) = _
    obtain ⟨j, rfl⟩ : ∃ j, n = (j + 1) + k' := ⟨n - k' - 1, by omega⟩
    rw [parseElements, hq (j + 1) (by omega), loop_stop hstop hs2]
    rfl
end

end Verif.Mt
