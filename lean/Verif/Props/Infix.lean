import Verif.Mt.Print
import Verif.Props.Query
/-
  Properties of the infix notation for queries (C61).

  `Verif.Mt.Spec` has the words (`Spells`), the grammar (`Expr`, `Line`) and the meaning (`meaning`) of the
  notation; `Mt.infix` is the model of `Mt::infix_expression`.
-/
namespace Verif.Props
open Verif.Hopper Verif.Gcl Verif.Mt

/-! ### which lines are accepted -/

/-- **C61.** A line is accepted exactly when its words, up to a NUL, are a line of the grammar with the names
defined so far; and then it has the effect of that line. -/
theorem C61_grammar (m m' : Mt) (text : List Char) :
    m.infix text = (true, m') ↔ ∃ ts o, Spells ts (cstr text) ∧ Line m.env ts o ∧ m' = m.after o := by
  constructor
  · exact infix_accepts
  · rintro ⟨ts, o, hs, hl, rfl⟩
    exact infix_reads hs hl

/-- **C61.** No text is two different queries, however it is divided into words. -/
theorem C61_one_reading {env : Env} {ts us : List Tok} {s : List Char} {q q' : Q} (h : Expr env ts q) (h' : Expr env us q')
    (hs : Spells ts s) (hs' : Spells us s) : q = q' := by
  obtain ⟨s1, _, h1⟩ := expr_top h hs (size_le s)
  obtain ⟨s2, _, h2⟩ := expr_top h' hs' (size_le s)
  rw [h1] at h2
  exact (Res.ok.inj h2).1

/-- **C61.** After a definition the name stands for the query it was given, until it is defined again; other
names stand for what they did. -/
theorem C61_definition {m : Mt} {text : List Char} {x : List Char} {ts : List Tok} {q : Q}
    (hs : Spells (.name x :: .punct '=' :: ts) (cstr text)) (h1 : x ≠ ['o', 'n', 'e']) (h2 : x ≠ ['a', 'l', 'l'])
    (h : Expr m.env ts q) : (m.infix text).1 = true ∧ (m.infix text).2.sExpression = [] ∧
      ∀ y, lookup (m.infix text).2.env y = if y = x then some q else lookup m.env y := by
  rw [infix_reads hs (.defined h1 h2 h)]
  exact ⟨rfl, rfl, fun y => lookup_define _ _ _ _⟩

/-- **C61 (partial).** A line that is refused leaves the text of the last query.  It leaves the names too, or it
is a definition with something after it: what is missing is that such a line leaves them
(`C61_refused_defines`). -/
theorem C61_refused_partial {m m' : Mt} {text : List Char} (h : m.infix text = (false, m')) :
    m'.sExpression = m.sExpression ∧
    (m'.env = m.env ∨ ∃ x ts q rest, x ≠ ['o', 'n', 'e'] ∧ x ≠ ['a', 'l', 'l'] ∧
      Begins (.name x :: .punct '=' :: ts) (cstr text) rest ∧ ¬ Space rest ∧ Expr m.env ts q ∧
      m'.env = define x q m.env ∧ m'.message = some .extra) := infix_refuses h

/-- **C61 (violated).** `x = "a" )` is refused, and yet `x` is then `"a"`, so that the line `x` is accepted
after it and not before. -/
theorem C61_refused_defines :
    ((({} : Mt).infix ['x']).1, (({} : Mt).infix ['x', ' ', '=', ' ', '"', 'a', '"', ' ', ')']).1,
      ((({} : Mt).infix ['x', ' ', '=', ' ', '"', 'a', '"', ' ', ')']).2.infix ['x']).1) = (false, false, true) := by
  decide +kernel

/-- **C61 (violated).** A line that ends after `contained` or after `not` is refused without a message of its
own: the message that is reported is the one of an earlier line, or none. -/
theorem C61_message_stale (m : Mt) :
    m.infix ['"', 'a', '"', ' ', 'c', 'o', 'n', 't', 'a', 'i', 'n', 'e', 'd'] = (false, m) ∧
    m.infix ['"', 'a', '"', ' ', 'n', 'o', 't'] = (false, m) := ⟨rfl, rfl⟩

/-- **C61 (violated).** The text after a NUL is not looked at. -/
theorem C61_nul (m : Mt) (text after : List Char) (h : '\x00' ∉ text) : m.infix (text ++ '\x00' :: after) = m.infix text := by
  have hc : ∀ c ∈ text, (c != '\x00') = true := by
    intro c hc
    have : c ≠ '\x00' := fun e => h (e ▸ hc)
    simpa using this
  have e1 : cstr (text ++ '\x00' :: after) = text :=
    (takeWhile_ends (p := (· != '\x00')) hc (fun c r e => by cases e; rfl)).1
  have e2 : cstr text = text := by
    have := (takeWhile_ends (p := (· != '\x00')) (b := []) hc (fun c r e => by cases e)).1
    rwa [List.append_nil] at this
  unfold Mt.infix
  rw [e1, e2]

/-- **C61 (violated).** Every width from 4294967290 on is taken for 4294967295. -/
theorem C61_large_width (m : Mt) {ds : List Char} (hd : ds ≠ [] ∧ ∀ c ∈ ds, Digit c) (hv : 4294967290 ≤ valueOf ds) :
    m.infix ('[' :: ds ++ [']']) =
      (true, { m with sExpression := ['(', '#', ' ', '4', '2', '9', '4', '9', '6', '7', '2', '9', '5', ')'] }) := by
  have hn : numeral ds = 4294967295 := by
    unfold numeral
    rw [if_neg (by omega)]
  have hcl : ∀ c r, [']'] = c :: r → ¬ Digit c := by
    intro c r e
    cases e
    decide
  have sp : Space [] := fun c hc => by cases hc
  have hb : Begins [.punct '[', .num ds, .punct ']'] ('[' :: ds ++ [']']) [] := by
    have := Begins.cons (a := []) sp brack_ok trivial (Begins.cons (a := []) (t := .num ds) sp hd hcl
      (Begins.cons (a := []) sp unbrack_ok trivial (.nil (rest := []))))
    simpa [Tok.text] using this
  have hz : ∀ c ∈ '[' :: ds ++ [']'], (c != '\x00') = true := by
    intro c hc
    simp only [List.cons_append, List.mem_cons, List.mem_append, List.not_mem_nil, or_false] at hc
    rcases hc with rfl | hc | rfl
    · rfl
    · have := hd.2 c hc
      simp only [bne_iff_ne, ne_eq]
      rintro rfl
      revert this
      decide
    · rfl
  have e2 : cstr ('[' :: ds ++ [']']) = '[' :: ds ++ [']'] := by
    have := (takeWhile_ends (p := (· != '\x00')) (b := []) hz (fun c r e => by cases e)).1
    rwa [List.append_nil] at this
  have hT : Mt.Term m.env [.punct '[', .num ds, .punct ']'] (.fixed (numeral ds)) := .width (by rw [hn]; decide)
  rw [infix_reads (ts := [.punct '[', .num ds, .punct ']']) ⟨[], by rw [e2]; exact hb, sp⟩ (.query (.term hT)), hn]
  have hp : print (.fixed 4294967295) = ['(', '#', ' ', '4', '2', '9', '4', '9', '6', '7', '2', '9', '5', ')'] := by
    decide +kernel
  rw [Mt.after, hp]

/-- such a width -/
example : (['4', '2', '9', '4', '9', '6', '7', '2', '9', '0'] : List Char) ≠ [] ∧
    4294967290 ≤ valueOf ['4', '2', '9', '4', '9', '6', '7', '2', '9', '0'] := ⟨by decide, by decide⟩

/-! ### what an accepted query asks for -/

/-- **C61 (partial).** The text that an accepted query leaves is a query of the other notation, and that query
means what the infix query means.  What is missing: queries that ask for some, but more than one and not all, of
several expressions (`C61_combination_refused`), and texts in quotes that end with a backslash
(`C61_backslash_changes`). -/
theorem C61_query_partial {m : Mt} (hm : Reached m) {text : List Char} {ts : List Tok} {q : Q} (hs : Spells ts (cstr text))
    (h : Expr m.env ts q) (hw : Whole q) (hb : NoBackslash q) (hl : Short q) :
    (m.infix text).1 = true ∧ ∃ rest e, fromString (m.infix text).2.sExpression = .good rest e ∧ Legal e ∧
      ∀ T : List Char → GC, (∀ t, Wf (T t)) → den T e = meaning T q := by
  have hq : Made q := by
    obtain ⟨r, hbg, _⟩ := hs
    exact expr_made (reached_made hm) h (clean_cstr hbg)
  rw [infix_reads hs (.query h)]
  obtain ⟨rest, hp⟩ := fromString_toStr (sx_good q hq hb hl)
  refine ⟨rfl, rest, sx q, ?_, sx_legal q hq, fun T hT => sx_meaning hT q hq hw⟩
  rw [Mt.after, print_eq q hq hw]
  exact hp

/-- **C61 (violated).** Every other combination is accepted and leaves a text that is no query: `2 of ("a", "b",
"c")` gives `(2 "c" "b" "a")`. -/
theorem C61_combination_refused {m : Mt} (hm : Reached m) {text : List Char} {ts : List Tok} {q : Q} (hs : Spells ts (cstr text))
    (h : Expr m.env ts q) (hw : ¬ Whole q) (hb : NoBackslash q) (hl : Short q) :
    (m.infix text).1 = true ∧ ∃ rest, fromString (m.infix text).2.sExpression = .bad rest := by
  have hq : Made q := by
    obtain ⟨r, hbg, _⟩ := hs
    exact expr_made (reached_made hm) h (clean_cstr hbg)
  rw [infix_reads hs (.query h)]
  obtain ⟨r, hr⟩ := print_bad q hq hb hl hw (2 * (print q).length + 1) [] (Nat.le_refl _)
  rw [List.append_nil] at hr
  exact ⟨rfl, r, hr⟩

/-- what a term finds when texts in quotes are taken for phrases; C37 says what that is -/
def phraseSolutions (ix : Index) (split : List Char → List (List Char)) (t : List Char) : GC :=
  den ix.solutions (expandPhrases split '"' (.node .term t 0 []))

mutual
/-- terms have no operands -/
def Leafy : SExpr → Prop
  | .node k _ w sub => (k = .term → w = 0 ∧ sub = []) ∧ LeafyL sub
def LeafyL : List SExpr → Prop
  | [] => True
  | e :: es => Leafy e ∧ LeafyL es
end

theorem leafyL_iff (l : List SExpr) : LeafyL l ↔ ∀ e ∈ l, Leafy e := by
  induction l with
  | nil => simp [LeafyL]
  | cons e es ih => simp [LeafyL, ih]

theorem opMeaning_term {k : Op} (hk : k ≠ .term) (w : Int) (A B : GC) (Ss : List GC) : opMeaning k w A Ss = opMeaning k w B Ss := by
  match Ss with
  | [] => cases k <;> first | exact absurd rfl hk | rfl
  | [X] => cases k <;> rfl
  | X :: Y :: Ss => cases k <;> rfl

theorem expand_den (ix : Index) (split : List Char → List (List Char)) : ∀ e, Leafy e →
    den ix.solutions (expandPhrases split '"' e) = den (phraseSolutions ix split) e := by
  intro e
  induction e using SExpr.ind with
  | h k t w sub ih =>
    intro hl
    obtain ⟨h1, h2⟩ := hl
    rw [leafyL_iff] at h2
    by_cases hk : k = .term
    · subst hk
      obtain ⟨rfl, rfl⟩ := h1 rfl
      rfl
    · have e1 : expandPhrases split '"' (.node k t w sub) = .node k t w (expandPhrasesL split '"' sub) := by
        rw [expandPhrases]
        rw [if_neg (fun h => hk h.1)]
      rw [e1, den, den, denL_eq, denL_eq, expandPhrasesL_eq, List.map_map]
      rw [show sub.map (den ix.solutions ∘ expandPhrases split '"') = sub.map (den (phraseSolutions ix split)) from
        List.map_congr_left fun x hx => ih x hx (h2 x hx)]
      exact opMeaning_term hk _ _ _ _

theorem sx_leafy : ∀ q, Leafy (sx q) := by
  intro q
  induction q using Q.ind with
  | hb op l r ihl ihr => exact ⟨fun h => absurd h (kindOf_ne op).1, ihl, ihr, trivial⟩
  | hs n es ih =>
    simp only [sx]
    split
    · exact ⟨(fun h => by cases h), trivial⟩
    · refine ⟨fun h => ?_, ?_⟩
      · split at h <;> cases h
      · rw [leafyL_iff, sxL_eq]
        intro e he
        obtain ⟨x, hx, rfl⟩ := List.mem_map.1 he
        exact ih x hx
  | ht t => exact ⟨fun _ => ⟨rfl, rfl⟩, trivial⟩
  | hf n => exact ⟨(fun h => by cases h), trivial⟩

theorem splitsOk_all {split : List Char → List (List Char)}
    (hsp : ∀ body, (∀ x ∈ split body, GoodTerm x) ∧ (split body).length ≤ 4294967295) : ∀ e, SplitsOk split '"' e := by
  intro e
  induction e using SExpr.ind with
  | h k t w sub ih => exact ⟨fun _ _ => hsp _, (splitsOkL_iff sub).2 ih⟩

theorem phraseSolutions_wf (ix : Index) {split : List Char → List (List Char)}
    (hsp : ∀ body, (∀ x ∈ split body, GoodTerm x) ∧ (split body).length ≤ 4294967295) (t : List Char) :
    Wf (phraseSolutions ix split t) :=
  den_wf ix.wf _ (expand_legal _ ⟨rfl, trivial⟩ (splitsOk_all hsp _))

/-- **C61 (partial)**, from an infix query to answers: the text that an accepted query leaves gives a hopper over
any index, and every answer of that hopper, in every history, is the one that the meaning of the infix query
requires.  What is missing is as in `C61_query_partial`. -/
theorem C61_answers_partial {m : Mt} (hm : Reached m) {text : List Char} {ts : List Tok} {q : Q} (hs : Spells ts (cstr text))
    (h : Expr m.env ts q) (hw : Whole q) (hb : NoBackslash q) (hl : Short q)
    (ix : Index) (split : List Char → List (List Char)) (count : List Char → Int)
    (hsp : ∀ body, (∀ x ∈ split body, GoodTerm x) ∧ (split body).length ≤ 4294967295) :
    ∃ H, gclHopper ix split count (m.infix text).2.sExpression = some H ∧
      ∀ cs : List Call, (∀ c ∈ cs, InRange c.key) → ∃ as s, H.run cs H.init = some (as, s) ∧
        as.length = cs.length ∧ ∀ x ∈ cs.zip as, Right (meaning (phraseSolutions ix split) q) x.1 x.2 := by
  have hq : Made q := by
    obtain ⟨r, hbg, _⟩ := hs
    exact expr_made (reached_made hm) h (clean_cstr hbg)
  obtain ⟨rest, hp⟩ := fromString_toStr (sx_good q hq hb hl)
  rw [infix_reads hs (.query h), Mt.after]
  simp only
  rw [print_eq q hq hw, gclHopper, hp]
  simp only
  have hd : meaning (phraseSolutions ix split) q = den ix.solutions (expandPhrases split '"' (sx q)) := by
    rw [expand_den ix split _ (sx_leafy q), sx_meaning (phraseSolutions_wf ix hsp) q hq hw]
  rw [hd]
  exact C01_whole_history ix (some count) _ (expand_legal _ (sx_legal q hq) (splitsOk_all hsp _))

/-- **C61 (violated).** `"a\" + "b"` is accepted and leaves the text `(+ "a\" "b")`, which is read as another
query: it asks for `"a\" "` and for `b"`. -/
theorem C61_backslash_changes :
    (({} : Mt).infix ['"', 'a', '\\', '"', ' ', '+', ' ', '"', 'b', '"']).1 = true ∧
    (({} : Mt).infix ['"', 'a', '\\', '"', ' ', '+', ' ', '"', 'b', '"']).2.sExpression =
      ['(', '+', ' ', '"', 'a', '\\', '"', ' ', '"', 'b', '"', ')'] ∧
    fromString ['(', '+', ' ', '"', 'a', '\\', '"', ' ', '"', 'b', '"', ')'] =
      .good [')'] (.node .oneOf [] 0 [.node .term ['"', 'a', '\\', '"', ' ', '"'] 0 [], .node .term ['b', '"'] 0 []]) := by
  refine ⟨?_, ?_, ?_⟩
  · decide +kernel
  · decide +kernel
  · rfl

/-! ### the hypotheses are met -/

/-- `one of ( "a" , "b c" ) containing [ 3 ]` -/
def infixWords : List Tok :=
  [.name ['o', 'n', 'e'], .name ['o', 'f'], .punct '(', .quoted ['a'], .punct ',', .quoted ['b', ' ', 'c'], .punct ')',
    .name ['c', 'o', 'n', 't', 'a', 'i', 'n', 'i', 'n', 'g'], .punct '[', .num ['3'], .punct ']']

def infixText : List Char :=
  ['o', 'n', 'e', ' ', 'o', 'f', '(', '"', 'a', '"', ',', '"', 'b', ' ', 'c', '"', ')', ' ',
    'c', 'o', 'n', 't', 'a', 'i', 'n', 'i', 'n', 'g', '[', '3', ']']

def infixQuery : Q := .bin .containing (.some 1 [.term ['b', ' ', 'c'], .term ['a']]) (.fixed 3)

example : Expr [] infixWords infixQuery := by
  have h1 : Mt.Term [] [.name ['o', 'n', 'e'], .name ['o', 'f'], .punct '(', .quoted ['a'], .punct ',', .quoted ['b', ' ', 'c'], .punct ')']
      (.some 1 [.term ['b', ' ', 'c'], .term ['a']]) :=
    .one (sep := .name ['o', 'f']) (ts := [.quoted ['a'], .punct ',', .quoted ['b', ' ', 'c']]) (by decide)
      (.next (ts := [.quoted ['a']]) (us := [.quoted ['b', ' ', 'c']]) (.first (.term .quoted)) (.term .quoted))
  have h2 : Mt.Term [] [.punct '[', .num ['3'], .punct ']'] (.fixed 3) := .width (ds := ['3']) (by decide)
  exact .bin (op := .containing) (os := [.name ['c', 'o', 'n', 't', 'a', 'i', 'n', 'i', 'n', 'g']]) (.term h1) (by decide) h2

example : Spells infixWords infixText := by
  have sp0 : Space [] := fun c hc => by cases hc
  have sp1 : Space [' '] := fun c hc => by simp at hc; exact .inl hc
  refine ⟨[], ?_, sp0⟩
  have nm : ∀ (d : Char), ¬ Letter d → ¬ Digit d → ∀ rest : List Char, ∀ c r, d :: rest = c :: r → ¬ Letter c ∧ ¬ Digit c := by
    intro d h1 h2 rest c r e
    cases e
    exact ⟨h1, h2⟩
  exact Begins.cons (a := []) sp0 one_ok (nm ' ' (by decide) (by decide) _)
    (Begins.cons (a := [' ']) sp1 of_ok (nm '(' (by decide) (by decide) _)
    (Begins.cons (a := []) sp0 open_ok trivial
    (Begins.cons (a := []) (t := .quoted ['a']) sp0 (by intro c hc; simp at hc; subst hc; decide) trivial
    (Begins.cons (a := []) sp0 comma_ok trivial
    (Begins.cons (a := []) (t := .quoted ['b', ' ', 'c']) sp0 (by intro c hc; simp at hc; rcases hc with rfl | rfl | rfl <;> decide) trivial
    (Begins.cons (a := []) sp0 close_ok trivial
    (Begins.cons (a := [' ']) sp1 containing_ok (nm '[' (by decide) (by decide) _)
    (Begins.cons (a := []) sp0 brack_ok trivial
    (Begins.cons (a := []) (t := .num ['3']) sp0 ⟨by decide, by decide⟩ (by intro c r e; cases e; decide)
    (Begins.cons (a := []) sp0 unbrack_ok trivial .nil))))))))))

example : Whole infixQuery ∧ NoBackslash infixQuery ∧ Short infixQuery := by
  refine ⟨?_, ?_, ?_⟩
  · simp [infixQuery, Whole, WholeL]
  · simp [infixQuery, NoBackslash, NoBackslashL]
  · simp [infixQuery, Short, ShortL]

/-- the text that is left -/
example : (({} : Mt).infix infixText).2.sExpression =
    ['(', '>', '>', ' ', '(', '+', ' ', '"', 'b', ' ', 'c', '"', ' ', '"', 'a', '"', ')', ' ', '(', '#', ' ', '3', ')', ')'] := by
  decide +kernel

/-- names in a session: `x = "a"`, then `x = x or "b"`, then `x not contained in 2 words` -/
example : (((({} : Mt).infix ['x', '=', '"', 'a', '"']).2.infix ['x', '=', 'x', ' ', 'o', 'r', ' ', '"', 'b', '"']).2.infix
      ['x', ' ', 'n', 'o', 't', ' ', 'c', 'o', 'n', 't', 'a', 'i', 'n', 'e', 'd', ' ', 'i', 'n', ' ', '2', ' ', 'w', 'o', 'r', 'd', 's']).2.sExpression =
    ['(', '!', '<', ' ', '(', '+', ' ', '"', 'a', '"', ' ', '"', 'b', '"', ')', ' ', '(', '#', ' ', '2', ')', ')'] := by
  decide +kernel

/-- a combination that is not read again -/
example : (({} : Mt).infix ['2', '^', '(', '"', 'a', '"', ',', '"', 'b', '"', ',', '"', 'c', '"', ')']).2.sExpression =
    ['(', '2', ' ', '"', 'c', '"', ' ', '"', 'b', '"', ' ', '"', 'a', '"', ')'] ∧
    ¬ Whole (.some 2 [.term ['c'], .term ['b'], .term ['a']]) := by
  refine ⟨?_, ?_⟩
  · decide +kernel
  · simp [Whole]

/-- operators group from the left, whatever they are -/
example : (({} : Mt).infix ['"', 'a', '"', '+', '"', 'b', '"', '^', '"', 'c', '"']).2.sExpression =
    ['(', '^', ' ', '(', '+', ' ', '"', 'a', '"', ' ', '"', 'b', '"', ')', ' ', '"', 'c', '"', ')'] := by
  decide +kernel

end Verif.Props
