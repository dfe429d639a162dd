import Verif.Mt.Model
import Verif.Gcl.Grammar
/-
  Specification of the infix notation: its words, its grammar, and what a query in it asks for.
  Nothing here refers to the scanner or the parser; of the model only the trees (`Q`), the operators and the
  table of names (`lookup`) are used.
-/
namespace Verif.Mt
open Verif.Hopper

/-! ### words -/

inductive Tok where
  /-- a numeral -/
  | num (digits : List Char)
  /-- a word of letters and digits -/
  | name (letters : List Char)
  /-- a run of the characters `>`, `<`, `/`, `.` -/
  | marks (cs : List Char)
  /-- any other character -/
  | punct (c : Char)
  /-- a text between two double quotes -/
  | quoted (body : List Char)
deriving DecidableEq

def Tok.text : Tok → List Char
  | .num ds => ds
  | .name cs => cs
  | .marks cs => cs
  | .punct c => [c]
  | .quoted body => '"' :: body ++ ['"']

def Digit (c : Char) : Prop := '0'.toNat ≤ c.toNat ∧ c.toNat ≤ '9'.toNat
def Letter (c : Char) : Prop := ('A'.toNat ≤ c.toNat ∧ c.toNat ≤ 'Z'.toNat) ∨ ('a'.toNat ≤ c.toNat ∧ c.toNat ≤ 'z'.toNat)
def Mark (c : Char) : Prop := c ∈ ['>', '<', '/', '.']
def Blank (c : Char) : Prop := c ∈ [' ', '\t']

def Tok.Ok : Tok → Prop
  | .num ds => ds ≠ [] ∧ ∀ c ∈ ds, Digit c
  | .name cs => (∃ c r, cs = c :: r ∧ Letter c) ∧ ∀ c ∈ cs, Letter c ∨ Digit c
  | .marks cs => cs ≠ [] ∧ ∀ c ∈ cs, Mark c
  | .punct c => ¬ Digit c ∧ ¬ Letter c ∧ ¬ Mark c ∧ ¬ Blank c ∧ c ≠ '"'
  | .quoted body => ∀ c ∈ body, c ≠ '"'

/-- a word ends where the text goes on with a character that cannot belong to it -/
def Tok.Ends (t : Tok) (after : List Char) : Prop :=
  match t with
  | .num _ => ∀ c r, after = c :: r → ¬ Digit c
  | .name _ => ∀ c r, after = c :: r → ¬ Letter c ∧ ¬ Digit c
  | .marks _ => ∀ c r, after = c :: r → ¬ Mark c
  | .punct _ | .quoted _ => True

/-- the text begins with these words, with blanks and tabs before each; what follows is `rest` -/
inductive Begins : List Tok → List Char → List Char → Prop
  | nil {rest} : Begins [] rest rest
  | cons {a t ts after rest} (ha : Gcl.Space a) (ht : t.Ok) (he : t.Ends after) (h : Begins ts after rest) :
      Begins (t :: ts) (a ++ t.text ++ after) rest

/-- the text consists of these words -/
def Spells (ts : List Tok) (s : List Char) : Prop := ∃ rest, Begins ts s rest ∧ Gcl.Space rest

/-! ### the grammar -/

/-- the ways to write an operator -/
def spellings : BinOp → List (List Tok)
  | .containing => [[.marks ['>', '>']], [.marks ['>']], [.name ['c', 'o', 'n', 't', 'a', 'i', 'n', 'i', 'n', 'g']]]
  | .containedIn => [[.marks ['<', '<']], [.marks ['<']], [.name ['c', 'o', 'n', 't', 'a', 'i', 'n', 'e', 'd'], .name ['i', 'n']]]
  | .notContaining => [[.marks ['/', '>']], [.name ['n', 'o', 't'], .name ['c', 'o', 'n', 't', 'a', 'i', 'n', 'i', 'n', 'g']]]
  | .notContainedIn =>
    [[.marks ['/', '<']], [.name ['n', 'o', 't'], .name ['c', 'o', 'n', 't', 'a', 'i', 'n', 'e', 'd'], .name ['i', 'n']]]
  | .bothOf => [[.punct '^'], [.name ['a', 'n', 'd']]]
  | .oneOf => [[.punct '+'], [.name ['o', 'r']]]
  | .before => [[.marks ['<', '>']], [.marks ['.', '.']], [.marks ['.', '.', '.']], [.marks ['.', '.', '.', '.']]]

/-- the words between a number and the expressions it counts -/
def ofWords : List Tok := [.punct '^', .name ['o', 'f']]

/-- the number that digits stand for.  It is what the digits say below 4294967290, and 4294967295 from there. -/
def numeral (ds : List Char) : Nat := if Gcl.valueOf ds < 4294967290 then Gcl.valueOf ds else 4294967295

mutual
/-- the words are an operand, given the names that are defined -/
inductive Term (env : Env) : List Tok → Q → Prop
  | quoted {body} : Term env [.quoted body] (.term body)
  | var {x q} (h1 : x ≠ ['o', 'n', 'e']) (h2 : x ≠ ['a', 'l', 'l']) (h : lookup env x = some q) : Term env [.name x] q
  | parens {ts q} (h : Expr env ts q) : Term env (.punct '(' :: ts ++ [.punct ')']) q
  | width {ds} (h : numeral ds ≠ 0) : Term env [.punct '[', .num ds, .punct ']'] (.fixed (numeral ds))
  | words {ds} (h : numeral ds ≠ 0) : Term env [.num ds, .name ['w', 'o', 'r', 'd', 's']] (.fixed (numeral ds))
  | some {ds sep ts es} (hs : sep ∈ ofWords) (h : Elements env ts es) (hn : numeral ds ≤ es.length) :
      Term env (.num ds :: sep :: .punct '(' :: ts ++ [.punct ')']) (.some (numeral ds) es)
  | one {sep ts es} (hs : sep ∈ ofWords) (h : Elements env ts es) :
      Term env (.name ['o', 'n', 'e'] :: sep :: .punct '(' :: ts ++ [.punct ')']) (.some 1 es)
  | all {sep ts es} (hs : sep ∈ ofWords) (h : Elements env ts es) :
      Term env (.name ['a', 'l', 'l'] :: sep :: .punct '(' :: ts ++ [.punct ')']) (.some es.length es)
/-- … are an expression: operators group from the left -/
inductive Expr (env : Env) : List Tok → Q → Prop
  | term {ts q} (h : Term env ts q) : Expr env ts q
  | bin {ts us op os l r} (h : Expr env ts l) (ho : os ∈ spellings op) (hr : Term env us r) :
      Expr env (ts ++ os ++ us) (.bin op l r)
/-- … are expressions separated by commas; the list has them from the last to the first -/
inductive Elements (env : Env) : List Tok → List Q → Prop
  | first {ts e} (h : Expr env ts e) : Elements env ts [e]
  | next {ts us e es} (h : Elements env ts es) (he : Expr env us e) : Elements env (ts ++ .punct ',' :: us) (e :: es)
end

/-- what a line may be -/
inductive Outcome where
  | empty
  | query (q : Q)
  | defined (name : List Char) (q : Q)

/-- a line is nothing, a query, or the definition of a name other than `one` and `all` -/
inductive Line (env : Env) : List Tok → Outcome → Prop
  | empty : Line env [] .empty
  | query {ts q} (h : Expr env ts q) : Line env ts (.query q)
  | defined {x ts q} (h1 : x ≠ ['o', 'n', 'e']) (h2 : x ≠ ['a', 'l', 'l']) (h : Expr env ts q) :
      Line env (.name x :: .punct '=' :: ts) (.defined x q)

/-! ### meaning -/

/-- the intervals in which some `n` of the lists have a solution each -/
def coversSome (n : Nat) (Ss : List GC) (p q : Int) : Prop :=
  ∃ Ts : List GC, Ts.Sublist Ss ∧ Ts.length = n ∧ Gcl.coversAll Ts p q

/-- `n` of several lists: the shortest such intervals; one of one list is that list -/
def someOf (n : Nat) : List GC → GC
  | [S] => if n = 1 then S else minimal (coversSome n [S])
  | Ss => minimal (coversSome n Ss)

def binMeaning : BinOp → GC → GC → GC
  | .containing => containing
  | .containedIn => containedIn
  | .notContaining => notContaining
  | .notContainedIn => notContainedIn
  | .bothOf => allOf
  | .oneOf => oneOf
  | .before => followedBy

mutual
/-- what a query asks for, given the solutions of each quoted text -/
def meaning (T : List Char → GC) : Q → GC
  | .bin op l r => binMeaning op (meaning T l) (meaning T r)
  | .some n es => someOf n (meaningL T es)
  | .term t => T ('"' :: t ++ ['"'])
  | .fixed n => fixedWidth n
def meaningL (T : List Char → GC) : List Q → List GC
  | [] => []
  | e :: es => meaning T e :: meaningL T es
end

mutual
/-- no quoted text in the query ends with a backslash -/
def NoBackslash : Q → Prop
  | .bin _ l r => NoBackslash l ∧ NoBackslash r
  | .some _ es => NoBackslashL es
  | .term t => t.getLast? ≠ some '\\'
  | .fixed _ => True
def NoBackslashL : List Q → Prop
  | [] => True
  | e :: es => NoBackslash e ∧ NoBackslashL es
end

mutual
/-- every combination asks for none, one or all of its expressions.
What stands in a combination of which none is asked is not printed. -/
def Whole : Q → Prop
  | .bin _ l r => Whole l ∧ Whole r
  | .some n es => n = 0 ∨ ((n = 1 ∨ n = es.length) ∧ WholeL es)
  | .term _ => True
  | .fixed _ => True
def WholeL : List Q → Prop
  | [] => True
  | e :: es => Whole e ∧ WholeL es
end

mutual
/-- every combination has fewer than 2^32 expressions -/
def Short : Q → Prop
  | .bin _ l r => Short l ∧ Short r
  | .some _ es => es.length < 2 ^ 32 ∧ ShortL es
  | .term _ => True
  | .fixed _ => True
def ShortL : List Q → Prop
  | [] => True
  | e :: es => Short e ∧ ShortL es
end

/-- what a line that is accepted leaves: a query is there as text, after anything else there is no text -/
def Mt.after (m : Mt) : Outcome → Mt
  | .empty => { m with sExpression := [] }
  | .query q => { m with sExpression := print q }
  | .defined x q => { m with env := define x q m.env, sExpression := [] }

/-- the states of an object that has been given lines -/
inductive Reached : Mt → Prop
  | start : Reached {}
  | line {m} (h : Reached m) (text : List Char) : Reached (m.infix text).2

end Verif.Mt
