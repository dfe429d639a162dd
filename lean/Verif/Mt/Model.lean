import Verif.Gcl.ParseModel
/-
  Model of gcl/mt.cc: the infix notation for queries.

  A text is the list of its bytes, written as characters.  `isalpha` and `isalnum` are those of the C locale;
  the code passes them a `char`, which for a byte above 127 outside quotes is negative and which the standard
  leaves undefined, here it is no letter.  The scanner writes a NUL over the character after each token and
  puts it back later; here the token and what follows it are kept apart.  Nodes are values here, and memory
  does not run out; the memory is modelled in Mt/Heap.lean.
-/
namespace Verif.Mt

/-- gcl/mt.cc:23-30, the operators with two operands -/
inductive BinOp where
  | containing | containedIn | notContaining | notContainedIn | bothOf | oneOf | before
deriving DecidableEq, Repr

/-- gcl/mt.cc:39-57 `gcl_q`, with the elements of a combination in the order of their list -/
inductive Q where
  | bin (op : BinOp) (left right : Q)
  | some (n : Nat) (elements : List Q)
  | term (text : List Char)
  | fixed (n : Nat)

/-- gcl/mt.cc:76-80 `gcl_env` -/
abbrev Env := List (List Char × Q)

/-! ### printing -/

/-- gcl/mt.cc:294-314 -/
def symbol : BinOp → List Char
  | .containing => ['>', '>']
  | .containedIn => ['<', '<']
  | .notContaining => ['!', '>']
  | .notContainedIn => ['!', '<']
  | .bothOf => ['^']
  | .oneOf => ['+']
  | .before => ['.', '.', '.']

mutual
/-- gcl/mt.cc:289-342 `to_s_expression` -/
def print : Q → List Char
  | .bin op l r => '(' :: symbol op ++ ' ' :: print l ++ ' ' :: print r ++ [')']
  | .some n es =>
    if n = 0 then ['(', '#', ' ', '1', ')']
    else if n = 1 then '(' :: '+' :: printL es ++ [')']
    else if n = es.length then '(' :: '^' :: printL es ++ [')']
    else if n < es.length then '(' :: Gcl.decimal n ++ printL es ++ [')']
    else []
  | .term t => '"' :: t ++ ['"']
  | .fixed n => '(' :: '#' :: ' ' :: Gcl.decimal n ++ [')']
/-- gcl/mt.cc:330-332 -/
def printL : List Q → List Char
  | [] => []
  | e :: es => ' ' :: print e ++ printL es
end

/-! ### the scanner -/

/-- gcl/mt.cc:354 -/
def isSpace (c : Char) : Bool := c == ' ' || c == '\t'
/-- gcl/mt.cc:356 -/
def isDigit (c : Char) : Bool := 48 ≤ c.toNat && c.toNat ≤ 57
/-- gcl/mt.cc:355 -/
def isAlpha (c : Char) : Bool := (65 ≤ c.toNat && c.toNat ≤ 90) || (97 ≤ c.toNat && c.toNat ≤ 122)
/-- gcl/mt.cc:357 -/
def isAlnum (c : Char) : Bool := isAlpha c || isDigit c
/-- gcl/mt.cc:358 -/
def isMulti (c : Char) : Bool := c == '>' || c == '<' || c == '/' || c == '.'

/-- gcl/mt.cc:345-346: what the flags say about a token -/
inductive Kind where
  | int (n : Nat)
  | name
  | other
deriving DecidableEq, Repr

/-- gcl/mt.cc:344-346: the token, and the text after it -/
structure St where
  tok : List Char
  kind : Kind
  rest : List Char

/-- gcl/mt.cc:377-383: the value of digits, with `MAX_CVF` = 429496728 -/
def intValue (ds : List Char) : Nat :=
  ds.foldl (fun v c => if v ≤ 429496728 then 10 * v + (c.toNat - 48) else 4294967295) 0

/-- gcl/mt.cc:368-402, after the spaces -/
def token : List Char → St
  | [] => ⟨[], .other, []⟩
  | c :: cs =>
    if isDigit c then ⟨c :: cs.takeWhile isDigit, .int (intValue (c :: cs.takeWhile isDigit)), cs.dropWhile isDigit⟩
    else if isAlpha c then ⟨c :: cs.takeWhile isAlnum, .name, cs.dropWhile isAlnum⟩
    else if isMulti c then ⟨c :: cs.takeWhile isMulti, .other, cs.dropWhile isMulti⟩
    else ⟨[c], .other, cs⟩

/-- gcl/mt.cc:363-402 `scan`, on the text that has not been read; 404-408 `startScan`, on all of it -/
def scan (text : List Char) : St := token (text.dropWhile isSpace)

/-! ### the parser -/

/-- the messages; those of `malloc` are left out -/
inductive Msg where
  | missingOpen | missingClose | tooFew | zeroWords | afterAll | afterOne | notFollowed | undefined
  | zeroWidth | missingBracket | missingInteger | endOfQuote | unexpected | extra
deriving DecidableEq, Repr

/-- what a parsing function returns: a query and the token it stopped at, a syntax error with the message
that is set (`none`: the message is left as it was), or (never, see `parse_enough`) the model's recursion bound -/
inductive Res (α : Type) where
  | ok (q : α) (st : St)
  | bad (msg : Option Msg)
  | fuel

/-- gcl/mt.cc:651-692: which operator the token begins, with the token where it ends -/
inductive OpRes where
  | none
  | bad
  | found (op : BinOp) (st : St)

/-- gcl/mt.cc:679-686 -/
def notContainedOp (st : St) : OpRes :=
  if st.tok = ['i', 'n'] then .found .notContainedIn st else .bad

/-- gcl/mt.cc:676-690 -/
def notOp (st : St) : OpRes :=
  if st.tok = ['c', 'o', 'n', 't', 'a', 'i', 'n', 'i', 'n', 'g'] then .found .notContaining st
  else if st.tok = ['c', 'o', 'n', 't', 'a', 'i', 'n', 'e', 'd'] then notContainedOp (scan st.rest)
  else .bad

/-- gcl/mt.cc:667-674 -/
def containedOp (st : St) : OpRes :=
  if st.tok = ['i', 'n'] then .found .containedIn st else .bad

/-- gcl/mt.cc:651-692 -/
def operator (st : St) : OpRes :=
  if st.tok = ['>', '>'] ∨ st.tok = ['>'] then .found .containing st
  else if st.tok = ['<', '<'] ∨ st.tok = ['<'] then .found .containedIn st
  else if st.tok = ['/', '>'] then .found .notContaining st
  else if st.tok = ['/', '<'] then .found .notContainedIn st
  else if st.tok = ['^'] ∨ st.tok = ['a', 'n', 'd'] then .found .bothOf st
  else if st.tok = ['+'] ∨ st.tok = ['o', 'r'] then .found .oneOf st
  else if st.tok = ['<', '>'] ∨ st.tok = ['.', '.'] ∨ st.tok = ['.', '.', '.'] ∨ st.tok = ['.', '.', '.', '.'] then .found .before st
  else if st.tok = ['c', 'o', 'n', 't', 'a', 'i', 'n', 'i', 'n', 'g'] then .found .containing st
  else if st.tok = ['c', 'o', 'n', 't', 'a', 'i', 'n', 'e', 'd'] then containedOp (scan st.rest)
  else if st.tok = ['n', 'o', 't'] then notOp (scan st.rest)
  else .none

/-- gcl/mt.cc:456-470: how many of a combination are wanted -/
inductive Count where
  | number (n : Nat)
  | one
  | all
deriving DecidableEq

/-- gcl/mt.cc:455-470 -/
def counter (st : St) : Option Count :=
  match st.kind with
  | .int n => some (.number n)
  | _ =>
    if st.tok = ['o', 'n', 'e'] then some .one
    else if st.tok = ['a', 'l', 'l'] then some .all
    else none

/-- gcl/mt.cc:514-527, at the token after `words` -/
def words : Count → St → Res Q
  | .number n, st => if n = 0 then .bad (some .zeroWords) else .ok (.fixed n) st
  | .all, _ => .bad (some .afterAll)
  | .one, _ => .bad (some .afterOne)

/-- gcl/mt.cc:472-482, 512-532: the elements begin, or there are none -/
inductive Next where
  | elements (st : St)
  | done (r : Res Q)

/-- gcl/mt.cc:473-485, 512-532, at the token after the number -/
def afterCount (c : Count) (st : St) : Next :=
  if st.tok = ['^'] ∨ st.tok = ['o', 'f'] then
    if (scan st.rest).tok = ['('] then .elements (scan (scan st.rest).rest) else .done (.bad (some .missingOpen))
  else if st.tok = ['w', 'o', 'r', 'd', 's'] then .done (words c (scan st.rest))
  else .done (.bad (some .notFollowed))

/-- gcl/mt.cc:501-511 -/
def combine (c : Count) (es : List Q) (st : St) : Res Q :=
  match c with
  | .all => .ok (.some es.length es) st
  | .one => if es.length < 1 then .bad (some .tooFew) else .ok (.some 1 es) st
  | .number n => if es.length < n then .bad (some .tooFew) else .ok (.some n es) st

/-- gcl/mt.cc:493-511 -/
def finishCount (c : Count) : Res (List Q) → Res Q
  | .ok es st => if st.tok = [')'] then combine c es (scan st.rest) else .bad (some .missingClose)
  | .bad m => .bad m
  | .fuel => .fuel

/-- gcl/mt.cc:536-538, 588 -/
def lookup (env : Env) (name : List Char) : Option Q := (env.find? fun x => x.1 = name).map (·.2)

/-- gcl/mt.cc:594-599 -/
def closeParen : Res Q → Res Q
  | .ok q st => if st.tok = [')'] then .ok q (scan st.rest) else .bad (some .missingClose)
  | r => r

/-- gcl/mt.cc:605-616, at the token after the integer -/
def closeBracket (n : Nat) (st : St) : Res Q :=
  if st.tok = [']'] then
    if n = 0 then .bad (some .zeroWidth) else .ok (.fixed n) (scan st.rest)
  else .bad (some .missingBracket)

/-- gcl/mt.cc:602-620, at the token after the bracket -/
def bracket (st : St) : Res Q :=
  match st.kind with
  | .int n => closeBracket n (scan st.rest)
  | _ => .bad (some .missingInteger)

/-- gcl/mt.cc:410-438 `inhale` and `repair`, 622-634: the text up to the next quote -/
def quoted (rest : List Char) : Res Q :=
  match rest.dropWhile (· != '"') with
  | [] => .bad (some .endOfQuote)
  | _ :: r => .ok (.term (rest.takeWhile (· != '"'))) (scan r)

mutual
/-- gcl/mt.cc:643-702 `parseQ` with `topCall` 0 -/
def parseQ : Nat → Env → St → Res Q
  | 0, _, _ => .fuel
  | n + 1, env, st =>
    match parseTerm n env st with
    | .ok q st => parseLoop n env q st
    | .bad m => .bad m
    | .fuel => .fuel
/-- gcl/mt.cc:650-701: the loop -/
def parseLoop : Nat → Env → Q → St → Res Q
  | 0, _, _, _ => .fuel
  | n + 1, env, left, st =>
    match operator st with
    | .none => .ok left st
    | .bad => .bad none
    | .found op st =>
      match parseTerm n env (scan st.rest) with
      | .ok right st => parseLoop n env (.bin op left right) st
      | .bad m => .bad m
      | .fuel => .fuel
/-- gcl/mt.cc:452-641 `parseQTerm` with `topCall` 0 -/
def parseTerm : Nat → Env → St → Res Q
  | 0, _, _ => .fuel
  | n + 1, env, st =>
    match counter st with
    | some c =>
      match afterCount c (scan st.rest) with
      | .elements st => finishCount c (parseElements n env [] st)
      | .done r => r
    | none =>
      if st.kind = .name then
        match lookup env st.tok with
        | none => .bad (some .undefined)
        | some q => .ok q (scan st.rest)
      else if st.tok = ['('] then closeParen (parseQ n env (scan st.rest))
      else if st.tok = ['['] then bracket (scan st.rest)
      else if st.tok = ['"'] then quoted st.rest
      else .bad (some .unexpected)
/-- gcl/mt.cc:484-491: every element goes before those that were read -/
def parseElements : Nat → Env → List Q → St → Res (List Q)
  | 0, _, _, _ => .fuel
  | n + 1, env, es, st =>
    match parseQ n env st with
    | .ok e st => if st.tok = [','] then parseElements n env (e :: es) (scan st.rest) else .ok (e :: es) st
    | .bad m => .bad m
    | .fuel => .fuel
end

/-- gcl/mt.cc:536-538, 584-585: the first entry with the name gets another query -/
def replace (name : List Char) (q : Q) : Env → Env
  | [] => []
  | x :: env => if x.1 = name then (name, q) :: env else x :: replace name q env

/-- gcl/mt.cc:569-571, 584-585 -/
def define (name : List Char) (q : Q) (env : Env) : Env :=
  if env.any (·.1 = name) then replace name q env else (name, q) :: env

/-- what `parseQ` returns at the top: a definition (with the token it stopped at), a query, or an error -/
inductive Top where
  | defined (env : Env) (st : St)
  | query (q : Q) (st : St)
  | bad (msg : Option Msg)
  | fuel

/-- a query at the top -/
def Top.ofRes : Res Q → Top
  | .ok q st => .query q st
  | .bad m => .bad m
  | .fuel => .fuel

/-- gcl/mt.cc:563-573, 581-586, at the token after `=`.  The loop of `parseQ` that this returns to ends at once,
for the inner `parseQ` has ended at a token that is no operator. -/
def definition (env : Env) (name : List Char) : Res Q → Top
  | .ok q st => .defined (define name q env) st
  | .bad m => .bad m
  | .fuel => .fuel

/-- gcl/mt.cc:643-702 `parseQ` with `topCall` 1: only a name at the beginning is treated differently (533-589) -/
def parseTop (n : Nat) (env : Env) (st : St) : Top :=
  if counter st = none ∧ st.kind = .name then
    if (scan st.rest).tok = ['='] then definition env st.tok (parseQ n env (scan (scan st.rest).rest))
    else
      match lookup env st.tok with
      | none => .bad (some .undefined)
      | some q => Top.ofRes (parseLoop n env q (scan st.rest))
  else Top.ofRes (parseQ n env st)

/-! ### the object -/

/-- gcl/mt.h `Mt`, with the message, which is kept per thread (gcl/mt.cc:89) -/
structure Mt where
  env : Env := []
  sExpression : List Char := []
  message : Option Msg := none

/-- gcl/mt.cc:732: the text as a C string -/
def cstr (text : List Char) : List Char := text.takeWhile (· != '\x00')

/-- gcl/mt.cc:735-737 -/
def Mt.refuse (m : Mt) (msg : Option Msg) : Bool × Mt :=
  (false, match msg with
    | none => m
    | some x => { m with message := some x })

/-- gcl/mt.cc:704-722 `gcl_createQFromString` and 731-744 `infix_expression`, of a text that is not empty -/
def Mt.finish (m : Mt) : Top → Bool × Mt
  | .query q st => if st.tok = [] then (true, { m with sExpression := print q }) else m.refuse (some .extra)
  | .defined env st =>
    if st.tok = [] then (true, { m with env := env, sExpression := [] }) else Mt.refuse { m with env := env } (some .extra)
  | .bad msg => m.refuse msg
  | .fuel => m.refuse none

/-- gcl/mt.cc:731-744 `infix_expression`: what it returns and leaves -/
def Mt.infix (m : Mt) (text : List Char) : Bool × Mt :=
  if (scan (cstr text)).tok = [] then (true, { m with sExpression := [] })
  else m.finish (parseTop (3 * (cstr text).length + 2) m.env (scan (cstr text)))

end Verif.Mt
