import Verif.Mt.Sound
/- What is in the grammar is accepted, and the parser always ends. -/
namespace Verif.Mt

/-! ### more steps change nothing -/

theorem parse_mono (env : Env) : ∀ n,
    (∀ st, parseQ n env st ≠ .fuel → parseQ (n + 1) env st = parseQ n env st) ∧
    (∀ st, parseTerm n env st ≠ .fuel → parseTerm (n + 1) env st = parseTerm n env st) ∧
    (∀ l st, parseLoop n env l st ≠ .fuel → parseLoop (n + 1) env l st = parseLoop n env l st) ∧
    (∀ es st, parseElements n env es st ≠ .fuel → parseElements (n + 1) env es st = parseElements n env es st) := by
  intro n
  induction n with
  | zero =>
    refine ⟨?_, ?_, ?_, ?_⟩
    · intro st h; simp only [parseQ] at h; exact absurd rfl h
    · intro st h; simp only [parseTerm] at h; exact absurd rfl h
    · intro l st h; simp only [parseLoop] at h; exact absurd rfl h
    · intro es st h; simp only [parseElements] at h; exact absurd rfl h
  | succ n ih =>
    obtain ⟨ihQ, ihT, ihL, ihE⟩ := ih
    refine ⟨?_, ?_, ?_, ?_⟩
    · intro st h
      rw [parseQ] at h ⊢
      rw [parseQ]
      have hT : parseTerm n env st ≠ .fuel := by intro e; rw [e] at h; exact h rfl
      rw [ihT _ hT]
      cases e : parseTerm n env st with
      | ok q st' =>
        rw [e] at h
        exact ihL _ _ h
      | bad m => rfl
      | fuel => rfl
    · intro st h
      rw [parseTerm] at h ⊢
      rw [parseTerm]
      cases hc : counter st with
      | some c =>
        rw [hc] at h
        simp only at h ⊢
        cases ha : afterCount c (scan st.rest) with
        | elements st' =>
          rw [ha] at h
          simp only at h ⊢
          have hE : parseElements n env [] st' ≠ .fuel := by intro e; rw [e] at h; exact h rfl
          rw [ihE _ _ hE]
        | done r => rfl
      | none =>
        rw [hc] at h
        simp only at h ⊢
        split
        · rfl
        · rename_i h1
          rw [if_neg h1] at h
          split
          · rename_i h2
            rw [if_pos h2] at h
            have hQ : parseQ n env (scan st.rest) ≠ .fuel := by intro e; rw [e] at h; exact h rfl
            rw [ihQ _ hQ]
          · rfl
    · intro l st h
      rw [parseLoop] at h ⊢
      rw [parseLoop]
      cases ho : operator st with
      | none => rfl
      | bad => rfl
      | found op st' =>
        rw [ho] at h
        simp only at h ⊢
        have hT : parseTerm n env (scan st'.rest) ≠ .fuel := by intro e; rw [e] at h; exact h rfl
        rw [ihT _ hT]
        cases e : parseTerm n env (scan st'.rest) with
        | ok q st2 =>
          rw [e] at h
          exact ihL _ _ h
        | bad m => rfl
        | fuel => rfl
    · intro es st h
      rw [parseElements] at h ⊢
      rw [parseElements]
      have hQ : parseQ n env st ≠ .fuel := by intro e; rw [e] at h; exact h rfl
      rw [ihQ _ hQ]
      cases e : parseQ n env st with
      | ok q st' =>
        rw [e] at h
        simp only at h ⊢
        split
        · rename_i hc
          rw [if_pos hc] at h
          exact ihE _ _ h
        · rfl
      | bad m => rfl
      | fuel => rfl

theorem parseQ_le {env : Env} {st : St} {n : Nat} : ∀ {k : Nat}, parseQ n env st ≠ .fuel → parseQ (n + k) env st = parseQ n env st := by
  intro k h
  induction k with
  | zero => rfl
  | succ k ih =>
    have h' : parseQ (n + k) env st ≠ .fuel := by rw [ih]; exact h
    rw [← ih]
    exact (parse_mono env (n + k)).1 _ h'

theorem parseLoop_le {env : Env} {st : St} {l : Q} {n : Nat} : ∀ {k : Nat}, parseLoop n env l st ≠ .fuel →
    parseLoop (n + k) env l st = parseLoop n env l st := by
  intro k h
  induction k with
  | zero => rfl
  | succ k ih =>
    have h' : parseLoop (n + k) env l st ≠ .fuel := by rw [ih]; exact h
    rw [← ih]
    exact (parse_mono env (n + k)).2.2.1 _ _ h'

/-! ### the end is reached -/

theorem operator_size {st st' : St} {op : BinOp} (h : operator st = .found op st') :
    st'.size ≤ st.size ∧ st'.tok ≠ [] := by
  have key : ∀ r, (scan r).size ≤ r.length := scan_size
  unfold operator at h
  have k1 := key st.rest
  have k2 := key (scan st.rest).rest
  have u : ∀ x : St, x.size = x.tok.length + x.rest.length := fun _ => rfl
  have u1 := u st
  have u2 := u (scan st.rest)
  have simple : ∀ {op1 : BinOp} {l : List Char}, st.tok = l → l ≠ [] → OpRes.found op1 st = .found op st' → st'.size ≤ st.size ∧ st'.tok ≠ [] := by
    intro op1 l e hl hh
    cases hh
    exact ⟨Nat.le_refl _, by rw [e]; exact hl⟩
  split at h
  · rename_i e
    rcases e with e | e <;> exact simple e (by simp) h
  split at h
  · rename_i e
    rcases e with e | e <;> exact simple e (by simp) h
  split at h
  · rename_i e; exact simple e (by simp) h
  split at h
  · rename_i e; exact simple e (by simp) h
  split at h
  · rename_i e
    rcases e with e | e <;> exact simple e (by simp) h
  split at h
  · rename_i e
    rcases e with e | e <;> exact simple e (by simp) h
  split at h
  · rename_i e
    rcases e with e | e | e | e <;> exact simple e (by simp) h
  split at h
  · rename_i e; exact simple e (by simp) h
  split at h
  · unfold containedOp at h
    split at h
    · rename_i e'
      cases h
      exact ⟨by omega, by rw [e']; simp⟩
    · cases h
  split at h
  · unfold notOp at h
    split at h
    · rename_i e'
      cases h
      exact ⟨by omega, by rw [e']; simp⟩
    · split at h
      · unfold notContainedOp at h
        split at h
        · rename_i e'
          cases h
          exact ⟨by omega, by rw [e']; simp⟩
        · cases h
      · cases h
  · cases h

theorem afterCount_size {c : Count} {st st' : St} (h : afterCount c st = .elements st') : st'.size + 1 ≤ st.size := by
  unfold afterCount at h
  have k1 := scan_size st.rest
  have k2 := scan_size (scan st.rest).rest
  have u : ∀ x : St, x.size = x.tok.length + x.rest.length := fun _ => rfl
  have u1 := u st
  have u2 := u (scan st.rest)
  split at h
  · split at h
    · rename_i e
      cases h
      rw [e] at u2
      simp only [List.length_cons, List.length_nil] at u2
      omega
    · cases h
  · split at h <;> cases h

theorem afterCount_done_size {c : Count} {st st' : St} {q : Q} (h : afterCount c st = .done (.ok q st')) : st'.size ≤ st.size := by
  unfold afterCount at h
  have k1 := scan_size st.rest
  have u1 : st.size = st.tok.length + st.rest.length := rfl
  split at h
  · split at h <;> cases h
  · split at h
    · have hw : words c (scan st.rest) = .ok q st' := Next.done.inj h
      unfold words at hw
      split at hw
      · split at hw
        · cases hw
        · cases hw; omega
      · cases hw
      · cases hw
    · cases h

theorem afterCount_not_fuel {c : Count} {st : St} : afterCount c st ≠ .done .fuel := by
  unfold afterCount
  split
  · split <;> (intro h; cases h)
  · split
    · intro h
      have hw : words c (scan st.rest) = .fuel := Next.done.inj h
      unfold words at hw
      split at hw
      · split at hw <;> cases hw
      · cases hw
      · cases hw
    · intro h; cases h

theorem combine_size {c : Count} {es : List Q} {st st' : St} {q : Q} (h : combine c es st = .ok q st') : st' = st := by
  unfold combine at h
  split at h
  · cases h; rfl
  · split at h
    · cases h
    · cases h; rfl
  · split at h
    · cases h
    · cases h; rfl

theorem combine_not_fuel {c : Count} {es : List Q} {st : St} : combine c es st ≠ .fuel := by
  unfold combine
  split
  · intro h; cases h
  · split <;> (intro h; cases h)
  · split <;> (intro h; cases h)

theorem quoted_size {r : List Char} {q : Q} {st : St} (h : quoted r = .ok q st) : st.size ≤ r.length := by
  unfold quoted at h
  split at h
  · cases h
  · rename_i c r' hd
    cases h
    have := dropWhile_le (· != '"') r
    rw [hd] at this
    have k := scan_size r'
    simp only [List.length_cons] at this
    omega

theorem bracket_size {st st' : St} {q : Q} (h : bracket st = .ok q st') : st'.size ≤ st.size := by
  have k1 := scan_size st.rest
  have k2 := scan_size (scan st.rest).rest
  have u : ∀ x : St, x.size = x.tok.length + x.rest.length := fun _ => rfl
  have u1 := u st
  have u2 := u (scan st.rest)
  unfold bracket closeBracket at h
  split at h
  · split at h
    · split at h
      · cases h
      · cases h; omega
    · cases h
  · cases h

theorem parse_size (env : Env) : ∀ n,
    (∀ st q st', parseQ n env st = .ok q st' → st'.size ≤ st.size) ∧
    (∀ st q st', parseTerm n env st = .ok q st' → st'.size ≤ st.size) ∧
    (∀ l st q st', parseLoop n env l st = .ok q st' → st'.size ≤ st.size) ∧
    (∀ es st es' st', parseElements n env es st = .ok es' st' → st'.size ≤ st.size) := by
  intro n
  have u : ∀ x : St, x.size = x.tok.length + x.rest.length := fun _ => rfl
  induction n with
  | zero =>
    refine ⟨?_, ?_, ?_, ?_⟩
    · intro st q st' h; simp only [parseQ] at h; cases h
    · intro st q st' h; simp only [parseTerm] at h; cases h
    · intro l st q st' h; simp only [parseLoop] at h; cases h
    · intro es st es' st' h; simp only [parseElements] at h; cases h
  | succ n ih =>
    obtain ⟨ihQ, ihT, ihL, ihE⟩ := ih
    refine ⟨?_, ?_, ?_, ?_⟩
    · intro st q st' h
      rw [parseQ] at h
      split at h
      · rename_i q1 st1 h1
        exact Nat.le_trans (ihL _ _ _ _ h) (ihT _ _ _ h1)
      · cases h
      · cases h
    · intro st q st' h
      rw [parseTerm] at h
      have u1 := u st
      have k1 := scan_size st.rest
      split at h
      · split at h
        · rename_i st1 h1
          have a1 := afterCount_size h1
          unfold finishCount at h
          split at h
          · rename_i es st2 h2
            have a2 := ihE _ _ _ _ h2
            split at h
            · rename_i e
              have a3 := combine_size h
              have k2 := scan_size st2.rest
              have u2 := u st2
              rw [a3]
              omega
            · cases h
          · cases h
          · cases h
        · rename_i h1
          subst h
          have a1 := afterCount_done_size h1
          omega
      · split at h
        · split at h
          · cases h
          · cases h; omega
        · split at h
          · unfold closeParen at h
            split at h
            · rename_i q1 st1 h1
              have a1 := ihQ _ _ _ h1
              have k2 := scan_size st1.rest
              have u2 := u st1
              split at h
              · cases h; omega
              · cases h
            · rename_i hne
              exact absurd h (hne _ _)
          · split at h
            · have a1 := bracket_size h
              omega
            · split at h
              · have a1 := quoted_size h
                omega
              · cases h
    · intro l st q st' h
      rw [parseLoop] at h
      split at h
      · cases h; exact Nat.le_refl _
      · cases h
      · rename_i op st1 ho
        have a1 := (operator_size ho).1
        have k1 := scan_size st1.rest
        have u1 := u st1
        split at h
        · rename_i r st2 h2
          have a2 := ihT _ _ _ h2
          have a3 := ihL _ _ _ _ h
          omega
        · cases h
        · cases h
    · intro es st es' st' h
      rw [parseElements] at h
      split at h
      · rename_i e st1 h1
        have a1 := ihQ _ _ _ h1
        have k1 := scan_size st1.rest
        have u1 := u st1
        split at h
        · have a2 := ihE _ _ _ _ h
          omega
        · cases h; exact a1
      · cases h
      · cases h

theorem parse_enough (env : Env) : ∀ n,
    (∀ st, 3 * st.size + 2 ≤ n → parseQ n env st ≠ .fuel) ∧
    (∀ st, 3 * st.size + 1 ≤ n → parseTerm n env st ≠ .fuel) ∧
    (∀ l st, 3 * st.size + 1 ≤ n → parseLoop n env l st ≠ .fuel) ∧
    (∀ es st, 3 * st.size + 3 ≤ n → parseElements n env es st ≠ .fuel) := by
  intro n
  have u : ∀ x : St, x.size = x.tok.length + x.rest.length := fun _ => rfl
  have pos : ∀ {l : List Char}, l ≠ [] → 1 ≤ l.length := fun h => List.length_pos_iff.2 h
  induction n with
  | zero => refine ⟨?_, ?_, ?_, ?_⟩ <;> intros <;> omega
  | succ n ih =>
    obtain ⟨ihQ, ihT, ihL, ihE⟩ := ih
    refine ⟨?_, ?_, ?_, ?_⟩
    · intro st h
      rw [parseQ]
      split
      · rename_i q1 st1 h1
        have := (parse_size env n).2.1 _ _ _ h1
        exact ihL _ _ (by omega)
      · intro e; cases e
      · rename_i h1
        exact absurd h1 (ihT _ (by omega))
    · intro st h
      rw [parseTerm]
      have u1 := u st
      have k1 := scan_size st.rest
      split
      · split
        · rename_i st1 h1
          have a1 := afterCount_size h1
          unfold finishCount
          split
          · split
            · exact combine_not_fuel
            · intro e; cases e
          · intro e; cases e
          · rename_i h2
            exact absurd h2 (ihE _ _ (by omega))
        · rename_i r h1
          intro e
          subst e
          exact afterCount_not_fuel h1
      · split
        · split <;> (intro e; cases e)
        · split
          · rename_i e
            rw [e] at u1
            simp only [List.length_cons, List.length_nil] at u1
            unfold closeParen
            split
            · split <;> (intro e; cases e)
            · intro e2
              exact absurd e2 (ihQ _ (by omega))
          · split
            · unfold bracket closeBracket
              split
              · split
                · split <;> (intro e; cases e)
                · intro e; cases e
              · intro e; cases e
            · split
              · unfold quoted
                split <;> (intro e; cases e)
              · intro e; cases e
    · intro l st h
      rw [parseLoop]
      split
      · intro e; cases e
      · intro e; cases e
      · rename_i op st1 ho
        obtain ⟨a1, a2⟩ := operator_size ho
        have k1 := scan_size st1.rest
        have u1 := u st1
        have p := pos a2
        split
        · rename_i r st2 h2
          have a3 := (parse_size env n).2.1 _ _ _ h2
          exact ihL _ _ (by omega)
        · intro e; cases e
        · rename_i h2
          exact absurd h2 (ihT _ (by omega))
    · intro es st h
      rw [parseElements]
      split
      · rename_i e st1 h1
        have a1 := (parse_size env n).1 _ _ _ h1
        have k1 := scan_size st1.rest
        have u1 := u st1
        split
        · rename_i hc
          rw [hc] at u1
          simp only [List.length_cons, List.length_nil] at u1
          exact ihE _ _ (by omega)
        · intro e; cases e
      · intro e; cases e
      · rename_i h1
        exact absurd h1 (ihQ _ (by omega))

end Verif.Mt
