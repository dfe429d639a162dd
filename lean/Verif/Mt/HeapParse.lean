import Verif.Mt.HeapProof
/-
  The parser in memory gives what the parser of values gives.
-/
namespace Verif.Mt

/-- decides permutations of lists put together -/
macro "perm_count" : tactic => `(tactic| (rw [List.perm_iff_count]; intro; simp only [List.count_append, List.count_cons, List.count_nil] at *; omega))

/-! ### definitions -/

/-- what `findEnv` finds: nothing, or the first definition, which can be replaced -/
def Found (h : Ptr → Option Cell) (e : Ptr) (env : Env) (fp : List Ptr) (name : List Char) (x : Ptr) : Prop :=
  (x = 0 ∧ lookup env name = none ∧ env.any (·.1 = name) = false) ∨
  (x ≠ 0 ∧ ∃ nx s p q fq A, h x = some (.env nx s p) ∧ Tree h p q fq ∧ lookup env name = some q ∧ env.any (·.1 = name) = true ∧
    fp.Perm (fq ++ x :: A) ∧
    ∀ (h' : Ptr → Option Cell) (p' : Ptr) (q' : Q) (G : List Ptr), (∀ y ∈ A, h' y = h y) → h' x = some (.env nx s p') → Tree h' p' q' G →
      ∃ fp', fp'.Perm (G ++ x :: A) ∧ EnvTree h' e (replace name q' env) fp')

theorem finds (k : Nat) : ∀ {m : Mem} {e : Ptr} {env : Env} {fp : List Ptr} (name : List Char), EnvTree m.heap e env fp → (∀ x ∈ fp, x ≠ 0) →
    fp.length < k → ∃ x, findEnv k e name m = some (x, m) ∧ Found m.heap e env fp name x := by
  induction k with
  | zero => exact fun _ _ _ h => absurd h (by omega)
  | succ k ih =>
    intro m e env fp name t h0 hl
    unfold findEnv
    cases t with
    | nil => rw [if_pos rfl]; exact ⟨0, rfl, Or.inl ⟨rfl, rfl, rfl⟩⟩
    | @cons _ nx s p name' q fq env efp e1 e2 t1 t2 =>
      rw [if_neg (h0 e (by simp)), bind_run (readEnv_run e1), bind_run (readText_run e2)]
      by_cases hn : name' = name
      · rw [if_pos hn]
        refine ⟨e, rfl, Or.inr ⟨h0 e (by simp), nx, s, p, q, fq, s :: efp, e1, t1, ?_, ?_, by perm_count, ?_⟩⟩
        · simp [lookup, List.find?, hn]
        · simp [hn]
        · intro h' p' q' G hA hx hT
          refine ⟨e :: s :: (G ++ efp), by perm_count, ?_⟩
          unfold replace
          rw [if_pos hn]
          exact .cons hx (by rw [hA s (by simp), e2, hn]) hT (t2.keep fun x hx => hA x (by simp [hx]))
      · rw [if_neg hn]
        simp only [List.length_cons, List.length_append] at hl
        obtain ⟨x, hx, hF⟩ := ih name t2 (fun x hx => h0 x (by simp [hx])) (by omega)
        refine ⟨x, hx, ?_⟩
        have el : lookup ((name', q) :: env) name = lookup env name := by simp [lookup, List.find?, hn]
        have ea : ((name', q) :: env).any (·.1 = name) = env.any (·.1 = name) := by simp [hn]
        unfold Found
        rw [el, ea]
        rcases hF with hF | ⟨hx0, nx', s', p', q', fq', A, a1, a2, a3, a4, a5, a6⟩
        · exact Or.inl hF
        · refine Or.inr ⟨hx0, nx', s', p', q', fq', e :: s :: (fq ++ A), a1, a2, a3, a4, ?_, ?_⟩
          · have h5 := List.perm_iff_count.1 a5
            rw [List.perm_iff_count]
            intro z
            have := h5 z
            simp only [List.count_append, List.count_cons] at *
            omega
          · intro h' p2 q2 G hA hx2 hT
            obtain ⟨fp', b1, b2⟩ := a6 h' p2 q2 G (fun y hy => hA y (by simp [hy])) hx2 hT
            refine ⟨e :: s :: (fq ++ fp'), ?_, ?_⟩
            · have h5 := List.perm_iff_count.1 b1
              rw [List.perm_iff_count]
              intro z
              have := h5 z
              simp only [List.count_append, List.count_cons] at *
              omega
            · unfold replace
              rw [if_neg hn]
              exact .cons (by rw [hA e (by simp)]; exact e1) (by rw [hA s (by simp)]; exact e2) (t1.keep fun x hx => hA x (by simp [hx])) b2

theorem lookEnv_run {m : Mem} {fl F : List Ptr} {e : Ptr} {env : Env} {fp : List Ptr} (h : Inv m fl F) (w : Within fp F) (t : EnvTree m.heap e env fp)
    (name : List Char) : ∃ x, lookEnv e name m = some (x, m) ∧ Found m.heap e env fp name x := by
  have h1 := h.len
  have h2 := w.len
  exact finds (m.next + 1) name t (fun x hx => h.ne (w.mem hx)) (by omega)

/-! ### the parser -/

/-- what a parsing function gives in memory -/
inductive Post : Res Q → Res Ptr → Mem → List Ptr → Prop
  | ok {q p st m G} : Tree m.heap p q G → Post (.ok q st) (.ok p st) m G
  | bad {x m G} : (x ≠ some .missingClose → G = []) → Post (.bad x) (.bad x) m G
  | fuel {m G} : Post .fuel .fuel m G

/-- what reading the elements of the combination at `q` gives in memory -/
inductive PostE (n : Nat) (q : Ptr) : Res (List Q) → Res Ptr → Mem → List Ptr → Prop
  | ok {es st m G} : Tree m.heap q (.some n es) G → PostE n q (.ok es st) (.ok q st) m G
  | bad {x m G} : (x ≠ some .missingClose → G = []) → PostE n q (.bad x) (.bad x) m G
  | fuel {m G} : PostE n q .fuel .fuel m G

theorem bad_gives {m : Mem} {fl G F : List Ptr} (h : Inv m fl (G ++ F)) (x : Option Msg)
    (hg : x ≠ some .missingClose → G = [] := by first | exact fun _ => rfl | exact fun h => absurd rfl h | assumption) :
    Gives (pure (.bad x)) m F (Post (.bad x)) := Gives.pure h (.bad hg)
theorem fuel_gives {m : Mem} {fl G F : List Ptr} (h : Inv m fl (G ++ F)) : Gives (pure .fuel) m F (Post .fuel) := Gives.pure h .fuel

/-- freeing a tree while there is memory that is lost -/
theorem drop_gives {m : Mem} {fl G fp F : List Ptr} {p : Ptr} {q : Q} (h : Inv m fl (G ++ (fp ++ F))) (t : Tree m.heap p q fp) :
    Gives (walk freeQ p) m F fun _ _ G' => G' = G :=
  (freeQ_gives (h.perm (by perm_count : (G ++ (fp ++ F)).Perm (fp ++ (G ++ F)))) t).frame fun _ _ G' _ h => ⟨G, by rw [h]; exact .refl _, rfl⟩

/-- freeing a tree, and then the error -/
theorem drop_bad {m : Mem} {fl G fp F : List Ptr} {p : Ptr} {q : Q} (h : Inv m fl (G ++ (fp ++ F))) (t : Tree m.heap p q fp) (x : Option Msg)
    (hg : x ≠ some .missingClose → G = [] := by first | exact fun _ => rfl | assumption) :
    Gives (do walk freeQ p; pure (.bad x)) m F (Post (.bad x)) :=
  (drop_gives h t).bind fun _ _ _ _ hi _ e => bad_gives hi x (by rw [e]; exact hg)

theorem number_gives {m : Mem} {fl F : List Ptr} (h : Inv m fl F) (n : Nat) (st : St) :
    Gives (do let q ← allocNumberQ .fixed n; pure (.ok q st)) m F (Post (.ok (.fixed n) st)) := by
  refine (allocNumberQ_gives h .fixed n).bind fun q m' fl' G hi hk hp => ?_
  obtain ⟨rfl, w, hq⟩ := hp
  exact Gives.pure hi (.ok (.fixed hq))

theorem hWords_gives {m : Mem} {fl F : List Ptr} (h : Inv m fl F) (c : Count) (st : St) : Gives (hWords c st) m F (Post (words c st)) := by
  cases c with
  | number n =>
    unfold hWords words
    simp only
    by_cases h0 : n = 0
    · rw [if_pos h0, if_pos h0]; exact bad_gives (G := []) h _
    · rw [if_neg h0, if_neg h0]; exact number_gives h n st
  | one => exact bad_gives (G := []) h _
  | all => exact bad_gives (G := []) h _

theorem hFinish_gives {m : Mem} {fl G F : List Ptr} {q : Ptr} {es : List Q} (h : Inv m fl (G ++ F)) (c : Count) (st : St)
    (t : Tree m.heap q (.some c.initial es) G) : Gives (hFinish c q st) m F (Post (finishCount c (.ok es st))) := by
  unfold hFinish finishCount
  by_cases h1 : st.tok = [')']
  · simp only [if_pos h1]
    cases t with
    | @nofm _ a n es n1 e t1 =>
      refine Gives.read (readNode_run e) ?_
      have hl := h.len
      simp only [List.length_append, List.length_cons] at hl
      refine Gives.read (a := es.length) (counts (m.next + 1) t1 (fun x hx => h.ne (by simp [hx])) (by omega)) ?_
      unfold combine
      cases c with
      | all =>
        simp only [if_true]
        refine ((writeNode_gives h e { type := .nofm, w0 := a, w1 := es.length }).frame (G := n1) (F := F)
          (R := fun _ m' G => Tree m'.heap q (.some es.length es) G) fun _ m' G hk hp => ?_).bind fun _ m' fl' G hi hk hp => Gives.pure hi (.ok hp)
        obtain ⟨rfl, hq⟩ := hp
        exact ⟨q :: n1, .refl _, .nofm hq (t1.keep fun x hx => hk x (by simp [hx]))⟩
      | one =>
        rw [if_neg (by intro h; cases h)]
        show Gives (if es.length < 1 then _ else _) m F (Post (if es.length < 1 then _ else _))
        by_cases h2 : es.length < 1
        · rw [if_pos h2, if_pos h2]
          exact drop_bad (G := []) h (.nofm e t1) _
        · rw [if_neg h2, if_neg h2]
          exact Gives.pure h (.ok (.nofm e t1))
      | number k =>
        rw [if_neg (by intro h; cases h)]
        show Gives (if es.length < k then _ else _) m F (Post (if es.length < k then _ else _))
        by_cases h2 : es.length < k
        · rw [if_pos h2, if_pos h2]
          exact drop_bad (G := []) h (.nofm e t1) _
        · rw [if_neg h2, if_neg h2]
          exact Gives.pure h (.ok (.nofm e t1))
  · simp only [if_neg h1]
    exact drop_bad (G := []) h t _

theorem hBracket_gives {m : Mem} {fl F : List Ptr} (h : Inv m fl F) (st : St) : Gives (hBracket st) m F (Post (bracket st)) := by
  unfold hBracket bracket
  cases st.kind with
  | int n =>
    show Gives (hBracketEnd n (scan st.rest)) m F (Post (closeBracket n (scan st.rest)))
    unfold hBracketEnd closeBracket
    by_cases h1 : (scan st.rest).tok = [']']
    · rw [if_pos h1, if_pos h1]
      by_cases h0 : n = 0
      · rw [if_pos h0, if_pos h0]; exact bad_gives (G := []) h _
      · rw [if_neg h0, if_neg h0]; exact number_gives h n _
    · rw [if_neg h1, if_neg h1]; exact bad_gives (G := []) h _
  | name => exact bad_gives (G := []) h _
  | other => exact bad_gives (G := []) h _

theorem hQuoted_gives {m : Mem} {fl F : List Ptr} (h : Inv m fl F) (rest : List Char) : Gives (hQuoted rest) m F (Post (quoted rest)) := by
  unfold hQuoted quoted
  cases rest.dropWhile (· != '"') with
  | nil => exact bad_gives (G := []) h _
  | cons c r =>
    refine (termCreate_gives h (rest.takeWhile (· != '"'))).bind fun t m1 fl1 G1 hi1 hk1 hx => ?_
    obtain ⟨r', rfl, ht, hr⟩ := hx
    refine ((allocTermQ_gives hi1 t).frame (R := fun p m' G => Tree m'.heap p (.term (rest.takeWhile (· != '"'))) G) fun z m3 G3 hk3 hz => ?_).bind
      fun z m3 fl3 G3 hi3 hk3 hz => Gives.pure hi3 (.ok hz)
    obtain ⟨rfl, w, hz⟩ := hz
    exact ⟨[z, t, r'], .refl _, .term hz (by rw [hk3 t (by simp)]; exact ht) (by rw [hk3 r' (by simp)]; exact hr)⟩

theorem within_found {fp fq A F : List Ptr} {x : Ptr} (h : Within fp F) (e : fp.Perm (fq ++ x :: A)) : Within fq F :=
  Within.trans ⟨x :: A, e⟩ h

theorem hName_gives {m : Mem} {fl F : List Ptr} {envp : Ptr} {env : Env} {efp : List Ptr} (h : Inv m fl F) (w : Within efp F)
    (t : EnvTree m.heap envp env efp) (st : St) : Gives (hName envp st) m F (Post (match lookup env st.tok with
      | none => .bad (some .undefined)
      | some q => .ok q (scan st.rest))) := by
  unfold hName
  obtain ⟨x, hx, hF⟩ := lookEnv_run h w t st.tok
  refine Gives.read hx ?_
  rcases hF with ⟨rfl, h1, -⟩ | ⟨h0, nx, s, p, q, fq, A, a1, a2, a3, -, a5, -⟩
  · rw [if_pos rfl, h1]; exact bad_gives (G := []) h _
  · rw [if_neg h0, a3]
    refine Gives.read (readEnv_run a1) ?_
    exact (copyQ_gives h (within_found w a5) a2).bind fun p' m' fl' G hi hk hp => Gives.pure hi (.ok hp)

theorem parses {envp : Ptr} {env : Env} {efp : List Ptr} (k : Nat) :
    (∀ {m : Mem} {fl F : List Ptr} (st : St), Inv m fl F → Within efp F → EnvTree m.heap envp env efp →
      Gives (hParseQ k envp st) m F (Post (parseQ k env st))) ∧
    (∀ {m : Mem} {fl F fp : List Ptr} {p : Ptr} {q : Q} (st : St), Inv m fl (fp ++ F) → Within efp F → EnvTree m.heap envp env efp →
      Tree m.heap p q fp → Gives (hParseLoop k envp p st) m F (Post (parseLoop k env q st))) ∧
    (∀ {m : Mem} {fl F : List Ptr} (st : St), Inv m fl F → Within efp F → EnvTree m.heap envp env efp →
      Gives (hParseTerm k envp st) m F (Post (parseTerm k env st))) ∧
    (∀ {m : Mem} {fl F fp : List Ptr} {p : Ptr} {n : Nat} {es : List Q} (st : St), Inv m fl (fp ++ F) → Within efp F → EnvTree m.heap envp env efp →
      Tree m.heap p (.some n es) fp → Gives (hParseElements k envp p st) m F (PostE n p (parseElements k env es st))) := by
  have stay : ∀ {m m' : Mem} {F : List Ptr}, EnvTree m.heap envp env efp → Within efp F → Keep F m m' → EnvTree m'.heap envp env efp :=
    fun t w k => t.keep fun x hx => k x (w.mem hx)
  induction k with
  | zero =>
    refine ⟨fun st h _ _ => ?_, fun st h _ _ _ => ?_, fun st h _ _ => ?_, fun st h _ _ _ => ?_⟩
    · rw [hParseQ, parseQ]; exact fuel_gives (G := []) h
    · rw [hParseLoop, parseLoop]; exact fuel_gives h
    · rw [hParseTerm, parseTerm]; exact fuel_gives (G := []) h
    · rw [hParseElements, parseElements]; exact Gives.pure h .fuel
  | succ k ih =>
    obtain ⟨ih1, ih2, ih3, ih4⟩ := ih
    refine ⟨fun {m fl F} st h w t => ?_, fun {m fl F fp p q} st h w t tp => ?_, fun {m fl F} st h w t => ?_, fun {m fl F fp p n es} st h w t tp => ?_⟩
    · rw [hParseQ, parseQ]
      refine (ih3 st h w t).bind fun r m' fl' G hi hk hp => ?_
      generalize parseTerm k env st = pr at hp ⊢
      cases hp with
      | ok tq => exact ih2 _ hi w (stay t w hk) tq
      | bad hg => exact bad_gives hi _
      | fuel => exact fuel_gives hi
    · rw [hParseLoop, parseLoop]
      cases operator st with
      | none => exact Gives.pure h (.ok tp)
      | bad => exact drop_bad (G := []) h tp _
      | found op st =>
        simp only
        obtain ⟨r, m', fl', G, e1, hi, hk, hp⟩ := ih3 (scan st.rest) h w.left t
        refine Gives.bind (P := fun r m' G' => ∃ G, G' = G ++ fp ∧ Keep (fp ++ F) m m' ∧ Post (parseTerm k env (scan st.rest)) r m' G)
          ⟨r, m', fl', G ++ fp, e1, by rw [List.append_assoc]; exact hi, hk.sub (by simp +contextual), G, rfl, hk, hp⟩ ?_
        intro r m' fl' G' hi hk hp
        obtain ⟨G, rfl, hk, hp⟩ := hp
        rw [List.append_assoc] at hi
        generalize parseTerm k env (scan st.rest) = pr at hp ⊢
        have tp' : Tree m'.heap p q fp := tp.keep fun x hx => hk x (by simp [hx])
        cases hp with
        | @ok right pr st2 _ _ tq =>
          simp only
          refine ((allocNode_gives (hi.perm (by perm_count : (G ++ (fp ++ F)).Perm ((fp ++ G) ++ F))) (.bin op) p pr).frame
            (R := fun z m2 G2 => Tree m2.heap z (.bin op q right) G2) fun z m2 G2 hk2 hz => ?_).bind fun z m2 fl2 G2 hi2 hk2 hz => ?_
          · obtain ⟨rfl, hz⟩ := hz
            exact ⟨z :: (fp ++ G), .refl _, .bin hz (tp'.keep fun x hx => hk2 x (by simp [hx])) (tq.keep fun x hx => hk2 x (by simp [hx]))⟩
          · exact ih2 _ hi2 w (stay (stay t w (hk.sub (by simp +contextual))) w hk2) hz
        | bad hg => exact drop_bad hi tp' _
        | fuel => exact fuel_gives (hi.perm (by perm_count : (G ++ (fp ++ F)).Perm ((G ++ fp) ++ F)))
    · rw [hParseTerm, parseTerm]
      cases counter st with
      | some c =>
        simp only [afterCount]
        by_cases h1 : (scan st.rest).tok = ['^'] ∨ (scan st.rest).tok = ['o', 'f']
        · rw [if_pos h1, if_pos h1]
          by_cases h2 : (scan (scan st.rest).rest).tok = ['(']
          · rw [if_pos h2, if_pos h2]
            refine (allocNode_gives h .nofm 0 c.initial).bind fun q m1 fl1 G1 hi1 hk1 hq => ?_
            obtain ⟨rfl, hq⟩ := hq
            refine (ih4 (n := c.initial) (es := []) (scan (scan (scan st.rest).rest).rest) hi1 w (stay t w hk1) (.nofm hq .nil)).bind
              fun r m2 fl2 G2 hi2 hk2 hp => ?_
            simp only
            generalize parseElements k env [] (scan (scan (scan st.rest).rest).rest) = pr at hp ⊢
            cases hp with
            | ok tq => exact hFinish_gives hi2 c _ tq
            | bad hg => exact bad_gives hi2 _
            | fuel => exact fuel_gives hi2
          · rw [if_neg h2, if_neg h2]; exact bad_gives (G := []) h _
        · rw [if_neg h1, if_neg h1]
          by_cases h2 : (scan st.rest).tok = ['w', 'o', 'r', 'd', 's']
          · rw [if_pos h2, if_pos h2]; exact hWords_gives h c _
          · rw [if_neg h2, if_neg h2]; exact bad_gives (G := []) h _
      | none =>
        simp only
        by_cases h1 : st.kind = .name
        · rw [if_pos h1, if_pos h1]; exact hName_gives h w t st
        · rw [if_neg h1, if_neg h1]
          by_cases h2 : st.tok = ['(']
          · rw [if_pos h2, if_pos h2]
            refine (ih1 (scan st.rest) h w t).bind fun r m' fl' G hi hk hp => ?_
            generalize parseQ k env (scan st.rest) = pr at hp ⊢
            cases hp with
            | @ok q p st2 _ _ tq =>
              unfold closeParen hClose
              simp only
              by_cases h3 : st2.tok = [')']
              · rw [if_pos h3, if_pos h3]; exact Gives.pure hi (.ok tq)
              · rw [if_neg h3, if_neg h3]; exact bad_gives hi _
            | bad hg => exact bad_gives hi _
            | fuel => exact fuel_gives hi
          · rw [if_neg h2, if_neg h2]
            by_cases h3 : st.tok = ['[']
            · rw [if_pos h3, if_pos h3]; exact hBracket_gives h _
            · rw [if_neg h3, if_neg h3]
              by_cases h4 : st.tok = ['"']
              · rw [if_pos h4, if_pos h4]; exact hQuoted_gives h _
              · rw [if_neg h4, if_neg h4]; exact bad_gives (G := []) h _
    · rw [hParseElements, parseElements]
      obtain ⟨r, m', fl', G, e1, hi, hk, hp⟩ := ih1 st h w.left t
      refine Gives.bind (P := fun r m' G' => ∃ G, G' = G ++ fp ∧ Keep (fp ++ F) m m' ∧ Post (parseQ k env st) r m' G)
        ⟨r, m', fl', G ++ fp, e1, by rw [List.append_assoc]; exact hi, hk.sub (by simp +contextual), G, rfl, hk, hp⟩ ?_
      intro r m' fl' G' hi hk hp
      obtain ⟨G, rfl, hk, hp⟩ := hp
      rw [List.append_assoc] at hi
      generalize parseQ k env st = pr at hp ⊢
      have tp' : Tree m'.heap p (.some n es) fp := tp.keep fun x hx => hk x (by simp [hx])
      cases hp with
      | @ok q e st2 _ _ tq =>
        simp only
        cases tp' with
        | @nofm _ a _ _ n1 ep tl =>
          refine Gives.read (readNode_run ep) ?_
          simp only
          refine ((allocNode_gives (hi.perm (by perm_count : (G ++ (p :: n1 ++ F)).Perm ((G ++ (p :: n1)) ++ F))) .element e a).frame
            (R := fun z m2 G2 => G2 = p :: (z :: (G ++ n1)) ∧ m2.heap p = some (.node ⟨.nofm, a, n⟩) ∧ TreeL m2.heap z (q :: es) (z :: (G ++ n1)))
            fun z m2 G2 hk2 hz => ?_).bind fun z m2 fl2 G2 hi2 hk2 hz => ?_
          · obtain ⟨rfl, hz⟩ := hz
            refine ⟨p :: (z :: (G ++ n1)), by perm_count, rfl, by rw [hk2 p (by simp)]; exact ep, ?_⟩
            exact .cons hz (tq.keep fun x hx => hk2 x (by simp [hx])) (tl.keep fun x hx => hk2 x (by simp [hx]))
          · obtain ⟨rfl, hp2, hz2⟩ := hz
            refine ((writeNode_gives hi2 hp2 { type := .nofm, w0 := z, w1 := n }).frame (G := z :: (G ++ n1)) (F := F)
              (R := fun _ m3 G3 => Tree m3.heap p (.some n (q :: es)) G3) fun _ m3 G3 hk3 hz => ?_).bind fun _ m3 fl3 G3 hi3 hk3 h3 => ?_
            · obtain ⟨rfl, hz⟩ := hz
              exact ⟨p :: (z :: (G ++ n1)), .refl _, .nofm hz (hz2.keep fun x hx => hk3 x (List.mem_append_left F hx))⟩
            · by_cases h4 : st2.tok = [',']
              · rw [if_pos h4, if_pos h4]
                exact ih4 _ hi3 w (stay (stay (stay t w (hk.sub (by simp +contextual))) w hk2) w hk3) h3
              · rw [if_neg h4, if_neg h4]
                exact Gives.pure hi3 (.ok h3)
      | bad hg => exact (drop_gives hi tp').bind fun _ _ _ _ hi _ e => Gives.pure hi (.bad (by rw [e]; exact hg))
      | fuel => exact Gives.pure (hi.perm (by perm_count : (G ++ (fp ++ F)).Perm ((G ++ fp) ++ F))) .fuel

end Verif.Mt
