import Verif.Gcl.ParseProof
/-
  The written form of queries, and that the parser reads all of it.
-/
namespace Verif.Gcl
open Verif.Hopper

/-- the documented names of each operator -/
def names : Op → List (List Char)
  | .term => []
  | .fixed => [['#'], ['f','i','x','e','d','_','w','i','d','t','h']]
  | .oneOf => [['+'], ['o','n','e','_','o','f']]
  | .allOf => [['^'], ['a','l','l','_','o','f']]
  | .followedBy => [['.','.','.'], ['<','>'], ['f','o','l','l','o','w','e','d','_','b','y']]
  | .containedIn => [['<','<'], ['c','o','n','t','a','i','n','e','d','_','i','n']]
  | .containing => [['>','>'], ['c','o','n','t','a','i','n','i','n','g']]
  | .notContainedIn => [['!','<'], ['n','o','t','_','c','o','n','t','a','i','n','e','d','_','i','n']]
  | .notContaining => [['!','>'], ['n','o','t','_','c','o','n','t','a','i','n','i','n','g']]
  | .link => [['@'], ['l','i','n','k']]
  | .materialize => [['m','a','t','e','r','i','a','l','i','z','e']]

/-- how many operands an operator takes -/
def Takes (k : Op) (n : Nat) : Prop :=
  match k with
  | .term | .fixed => n = 0
  | .oneOf | .allOf | .followedBy => 1 ≤ n
  | .containedIn | .containing | .notContainedIn | .notContaining => 2 ≤ n
  | .link | .materialize => n = 1

/-- a term as it can be written: characters other than blank, tab and parentheses, the first
not a quote; or anything between two equal quotes, without that quote, a backslash or a NUL -/
def Word (t : List Char) : Prop :=
  (t ≠ [] ∧ (∀ c ∈ t, c ≠ ' ' ∧ c ≠ '\t' ∧ c ≠ '(' ∧ c ≠ ')' ∧ c ≠ '\x00') ∧
    ∀ c ∈ t.head?, c ≠ '"' ∧ c ≠ '\'' ∧ c ≠ '`') ∨
  (∃ q ∈ ['"', '\'', '`'], ∃ body, t = q :: body ++ [q] ∧ ∀ c ∈ body, c ≠ q ∧ c ≠ '\\' ∧ c ≠ '\x00')

/-- blanks and tabs -/
def Space (s : List Char) : Prop := ∀ c ∈ s, c = ' ' ∨ c = '\t'

/-- the value of a string of digits -/
def valueOf (s : List Char) : Nat := s.foldl (fun w c => 10 * w + (c.toNat - '0'.toNat)) 0

def Digits (s : List Char) : Prop := s ≠ [] ∧ ∀ c ∈ s, '0'.toNat ≤ c.toNat ∧ c.toNat ≤ '9'.toNat

mutual
/-- the text `s` is a way to write the query `e` -/
inductive Writes : List Char → SExpr → Prop
  | word {t} (h : Word t) : Writes t (.node .term t 0 [])
  | width {a name b ds c} (ha : Space a) (hn : name ∈ names .fixed) (hb : Space b) (hb0 : b ≠ []) (hd : Digits ds)
      (hv : (valueOf ds : Int) ≤ maxfinity) (hc : Space c) :
      Writes ('(' :: a ++ name ++ b ++ ds ++ c ++ [')']) (.node .fixed [] (valueOf ds) [])
  | op {k a name s es} (ha : Space a) (hn : name ∈ names k) (hk : k ≠ .fixed) (hs : WritesL s es)
      (hl : Takes k es.length) (hm : es.length < 2 ^ 32) :
      Writes ('(' :: a ++ name ++ s ++ [')']) (.node k [] 0 es)
/-- … operands, each after a blank or tab -/
inductive WritesL : List Char → List SExpr → Prop
  | nil {a} (ha : Space a) : WritesL a []
  | cons {a s e r es} (ha : Space a) (ha0 : a ≠ []) (h : Writes s e) (hr : WritesL r es) : WritesL (a ++ s ++ r) (e :: es)
end

/-! ### Proof -/

theorem names_op : ∀ {k : Op} {n : List Char}, n ∈ names k →
    opOf n = some k ∧ n ≠ [] ∧ (∀ c ∈ n, isTermChar c = true) ∧ k ≠ .term := by
  intro k n h
  cases k <;> simp only [names, List.mem_cons, List.not_mem_nil, or_false] at h
  all_goals (first | exact h.elim | (rcases h with rfl | rfl | rfl <;> decide) | (rcases h with rfl | rfl <;> decide) | (subst h; decide))

theorem takes_args {k : Op} {n : Nat} (h : Takes k n) (hm : n < 2 ^ 32) : minArgs k ≤ n ∧ n ≤ maxArgs k := by
  cases k <;> simp only [Takes, minArgs, maxArgs] at h ⊢ <;> omega

theorem space_ws {s : List Char} (h : Space s) : ∀ c ∈ s, isWs c = true := by
  intro c hc; rcases h c hc with rfl | rfl <;> decide

theorem dropWs_space {a : List Char} (h : Space a) (s : List Char) : dropWs (a ++ s) = dropWs s := by
  induction a with
  | nil => rfl
  | cons c a ih =>
    have : isWs c = true := space_ws h c (by simp)
    rw [List.cons_append]
    simp only [dropWs, List.dropWhile_cons, this, if_true]
    exact ih fun x hx => h x (by simp [hx])

theorem scanQ_plain {q : Char} {body : List Char} (h : ∀ c ∈ body, c ≠ q ∧ c ≠ '\\' ∧ c ≠ '\x00') :
    scanQ q false (body ++ [q]) = (body, [q]) := by
  induction body with
  | nil => simp [scanQ]
  | cons c body ih =>
    obtain ⟨h1, h2, h3⟩ := h c (by simp)
    have hb : (c == '\\') = false := by simpa using h2
    simp [scanQ, h1, h3, hb, ih fun x hx => h x (by simp [hx])]

theorem word_good {t : List Char} (h : Word t) : GoodTerm t := by
  rcases h with ⟨h1, h2, h3⟩ | ⟨q, hq, body, rfl, hb⟩
  · left
    cases t with
    | nil => exact absurd rfl h1
    | cons c cs =>
      refine ⟨c, cs, rfl, ?_, fun x hx => ?_⟩
      · obtain ⟨q1, q2, q3⟩ := h3 c (by simp)
        simp [isQuote, q1, q2, q3]
      · obtain ⟨q1, q2, q3, q4, q5⟩ := h2 x hx
        rw [isTermChar_iff]
        exact ⟨q1, q2, q4, q3, q5⟩
  · right
    refine ⟨q, body, ?_, rfl, scanQ_plain hb⟩
    simp only [List.mem_cons, List.not_mem_nil, or_false] at hq
    rcases hq with rfl | rfl | rfl <;> decide

theorem digit_of {c : Char} (h : '0'.toNat ≤ c.toNat ∧ c.toNat ≤ '9'.toNat) : isDigit c = true := by
  simp only [isDigit, Bool.and_eq_true, decide_eq_true_eq]; exact h

theorem not_digit_close : isDigit ')' = false := by decide
theorem not_digit_ws {c : Char} (h : isWs c = true) : isDigit c = false := by
  simp only [isWs, Bool.or_eq_true, beq_iff_eq] at h
  rcases h with rfl | rfl <;> decide

theorem fold_ge (s : List Char) (w : Nat) :
    w ≤ s.foldl (fun w c => 10 * w + (c.toNat - '0'.toNat)) w := by
  induction s generalizing w with
  | nil => exact Nat.le_refl _
  | cons c s ih => exact Nat.le_trans (show w ≤ 10 * w + (c.toNat - '0'.toNat) by omega) (ih _)

theorem parseDigits_run {ds : List Char} (hd : ∀ c ∈ ds, '0'.toNat ≤ c.toNat ∧ c.toNat ≤ '9'.toNat) :
    ∀ {w : Nat} {rest : List Char}, ds.foldl (fun w c => 10 * w + (c.toNat - '0'.toNat)) w ≤ 9223372036854775807 →
    (∀ c cs, rest = c :: cs → isDigit c = false) →
    parseDigits w (ds ++ rest) = some (ds.foldl (fun w c => 10 * w + (c.toNat - '0'.toNat)) w, rest) := by
  induction ds with
  | nil =>
    intro w rest _ hr
    cases rest with
    | nil => rfl
    | cons c cs => simp [parseDigits, hr c cs rfl]
  | cons c ds ih =>
    intro w rest hv hr
    rw [List.cons_append, parseDigits, if_pos (digit_of (hd c (by simp)))]
    have hge := fold_ge ds (10 * w + (c.toNat - '0'.toNat))
    simp only [List.foldl_cons] at hv ⊢
    have e : digitVal c = c.toNat - '0'.toNat := rfl
    rw [e, if_pos (by omega)]
    exact ih (fun x hx => hd x (by simp [hx])) hv hr

theorem parseWidth_run {ds c : List Char} (hd : Digits ds) (hv : (valueOf ds : Int) ≤ maxfinity) (hc : Space c)
    (rest : List Char) : parseWidth (ds ++ (c ++ ')' :: rest)) = .good (')' :: rest) (.node .fixed [] (valueOf ds) []) := by
  obtain ⟨h0, hd⟩ := hd
  cases ds with
  | nil => exact absurd rfl h0
  | cons d ds =>
    have hv' : valueOf (d :: ds) ≤ 9223372036854775807 := by omega
    have e : valueOf (d :: ds) = ds.foldl (fun w c => 10 * w + (c.toNat - '0'.toNat)) (digitVal d) := by
      simp [valueOf, digitVal]
    rw [e] at hv' ⊢
    rw [List.cons_append, parseWidth, if_pos (digit_of (hd d (by simp))),
      parseDigits_run (fun x hx => hd x (by simp [hx])) hv' (by
        intro x xs hx
        cases c with
        | nil => simp at hx; rw [← hx.1]; decide
        | cons y c => simp at hx; rw [← hx.1]; exact not_digit_ws (space_ws hc y (by simp)))]
    simp only [dropWs_space hc, dropWs_cons (show isWs ')' = false by decide)]

/-- the first character of a written query -/
theorem writes_head {s : List Char} {e : SExpr} (h : Writes s e) : ∃ c cs, s = c :: cs ∧
    ((e.kind ≠ .term ∧ c = '(') ∨ (e.kind = .term ∧ isTermChar c = true)) := by
  cases h with
  | word h =>
    rcases word_good h with ⟨c, cs, rfl, _, h2⟩ | ⟨q, body, hq, rfl, _⟩
    · exact ⟨c, cs, rfl, .inr ⟨rfl, h2 c (by simp)⟩⟩
    · exact ⟨q, body ++ [q], rfl, .inr ⟨rfl, (quote_term hq).1⟩⟩
  | width => exact ⟨'(', _, rfl, .inl ⟨by simp, rfl⟩⟩
  | op ha hn hk => exact ⟨'(', _, rfl, .inl ⟨(names_op hn).2.2.2, rfl⟩⟩

theorem parse_open (n : Nat) {k : Op} {a name X : List Char} (ha : Space a) (hn : name ∈ names k)
    (hX : ∀ c cs, X = c :: cs → isTermChar c = false) :
    parseExpr (n + 1) ('(' :: a ++ name ++ X) =
      if k = .fixed then parseWidth (dropWs X) else parseArgs n k (dropWs X) [] := by
  obtain ⟨h1, h2, h3, h4⟩ := names_op hn
  obtain ⟨e1, e2⟩ := takeWhile_app h3 hX
  have hd : dropWs (a ++ (name ++ X)) = name ++ X := by
    rw [dropWs_space ha]
    cases name with
    | nil => exact absurd rfl h2
    | cons c cs => exact dropWs_cons (not_ws_of_term (h3 c (by simp)))
  rw [show '(' :: a ++ name ++ X = '(' :: (a ++ (name ++ X)) by simp, parseExpr, dropWs_cons (by decide)]
  simp only [hd, e1, e2, h2, if_false, h1]

theorem writesL_delim {s : List Char} {es : List SExpr} (h : WritesL s es) (rest : List Char) :
    Delim (s ++ ')' :: rest) := by
  intro c cs hc
  cases h with
  | nil ha =>
    cases s with
    | nil => simp at hc; rw [← hc.1]; decide
    | cons x s =>
      simp at hc
      rcases ha x (by simp) with h | h <;> rw [← hc.1, h] <;> decide
  | @cons a s e r es ha ha0 =>
    cases a with
    | nil => exact absurd rfl ha0
    | cons x a =>
      simp at hc
      rcases ha x (by simp) with h | h <;> rw [← hc.1, h] <;> decide

mutual
theorem reads {s : List Char} {e : SExpr} (h : Writes s e) : ∀ n rest, 2 * s.length + 1 ≤ n →
    (e.kind = .term → Delim rest → parseExpr n (s ++ rest) = .good (dropWs rest) e) ∧
    (e.kind ≠ .term → parseExpr n (s ++ rest) = .good (')' :: rest) e) := by
  intro n rest hn
  obtain ⟨n, rfl⟩ : ∃ m, n = m + 1 := ⟨n - 1, by omega⟩
  match h with
  | .word (t := t) hw =>
    refine ⟨fun _ hd => ?_, fun hx => absurd rfl hx⟩
    have hg := word_good hw
    obtain ⟨c, cs, hc, hh⟩ := writes_head (Writes.word hw)
    have hct : isTermChar c = true := by rcases hh with ⟨h, _⟩ | ⟨_, h⟩ <;> simp_all
    have : t ++ rest = c :: (cs ++ rest) := by rw [hc]; rfl
    rw [parseExpr, this, dropWs_cons (not_ws_of_term hct)]
    split
    · rename_i heq
      simp only [List.cons.injEq] at heq
      rw [heq.1] at hct; simp [isTermChar] at hct
    · rw [← this]; exact parse_goodTerm hg hd
  | .width (a := a) (name := name) (b := b) (ds := ds) (c := c) ha hname hb hb0 hd hv hc =>
    refine ⟨fun hx => (by cases hx), fun _ => ?_⟩
    have hX : ∀ x xs, b ++ (ds ++ (c ++ ')' :: rest)) = x :: xs → isTermChar x = false := by
      intro x xs hx
      cases b with
      | nil => exact absurd rfl hb0
      | cons y b =>
        simp at hx
        rcases hb y (by simp) with h | h <;> rw [← hx.1, h] <;> decide
    have e : '(' :: a ++ name ++ b ++ ds ++ c ++ [')'] ++ rest = '(' :: a ++ name ++ (b ++ (ds ++ (c ++ ')' :: rest))) := by
      simp
    rw [e, parse_open n ha hname hX, if_pos rfl, dropWs_space hb]
    have hdd : dropWs (ds ++ (c ++ ')' :: rest)) = ds ++ (c ++ ')' :: rest) := by
      obtain ⟨h0, hd⟩ := hd
      cases ds with
      | nil => exact absurd rfl h0
      | cons d ds =>
        refine dropWs_cons ?_
        have := digit_of (hd d (by simp))
        cases hw : isWs d with
        | false => rfl
        | true => rw [not_digit_ws hw] at this; cases this
    rw [hdd]
    exact parseWidth_run hd hv hc rest
  | .op (k := k) (a := a) (name := name) (s := u) (es := es) ha hname hk hs hl hm =>
    refine ⟨fun hx => absurd hx (names_op hname).2.2.2, fun _ => ?_⟩
    have e : '(' :: a ++ name ++ u ++ [')'] ++ rest = '(' :: a ++ name ++ (u ++ ')' :: rest) := by simp
    rw [e, parse_open n ha hname (writesL_delim hs rest), if_neg hk]
    have hta := takes_args hl hm
    have := readsL hs (k := k) n [] rest (by simp at hn; omega) (by simpa using hta.1) (by simpa using hta.2)
    simpa using this
theorem readsL {s : List Char} {es : List SExpr} (h : WritesL s es) {k : Op} : ∀ n acc rest, 2 * s.length + 2 ≤ n →
    minArgs k ≤ acc.length + es.length → acc.length + es.length ≤ maxArgs k →
    parseArgs n k (dropWs (s ++ ')' :: rest)) acc = .good (')' :: rest) (.node k [] 0 (acc ++ es)) := by
  intro n acc rest hn h1 h2
  obtain ⟨n, rfl⟩ : ∃ m, n = m + 1 := ⟨n - 1, by omega⟩
  match h with
  | .nil ha =>
    rw [dropWs_space ha, dropWs_cons (by decide), parseArgs]
    rw [if_pos ⟨by simpa using h1, by simpa using h2⟩]
    simp
  | .cons (a := a) (s := t) (e := e) (r := r) (es := es) ha ha0 he hr =>
    have hlen : 2 * (t.length + r.length) + 2 ≤ n := by
      have : 1 ≤ a.length := by cases a <;> simp_all
      simp at hn; omega
    have ihes := readsL hr (k := k) n (acc ++ [e]) rest (by omega) (by simp at h1 ⊢; omega) (by simp at h2 ⊢; omega)
    obtain ⟨he1, he2⟩ := reads he n (r ++ ')' :: rest) (by omega)
    obtain ⟨c, cs, hc, hkind⟩ := writes_head he
    have hws : isWs c = false := by
      rcases hkind with ⟨_, rfl⟩ | ⟨_, h⟩
      · decide
      · exact not_ws_of_term h
    have hdw : dropWs (a ++ t ++ r ++ ')' :: rest) = c :: (cs ++ (r ++ ')' :: rest)) := by
      rw [List.append_assoc, List.append_assoc, dropWs_space ha, hc, List.cons_append]
      exact dropWs_cons hws
    rw [hdw]
    rcases hkind with ⟨hk, rfl⟩ | ⟨hk, hct⟩
    · have := he2 hk
      rw [hc, List.cons_append] at this
      rw [parseArgs, this]
      simp only [ihes]
      simp
    · have := he1 hk (writesL_delim hr rest)
      rw [hc, List.cons_append] at this
      have hct' := isTermChar_iff.1 hct
      rw [parseArgs.eq_def]
      simp only
      split
      · simp_all
      · simp_all
      · simp_all
      · rename_i heq
        simp only [List.cons.injEq] at heq
        obtain ⟨rfl, rfl⟩ := heq
        rw [if_pos hct, this]
        simp only [dropWs_idem, ihes]
        simp
end

end Verif.Gcl
