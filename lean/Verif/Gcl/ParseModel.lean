import Verif.Gcl.Spec
/-
  Model of gcl/parse.cc: from_string, to_string, expand_phrases.

  A C string is the list of its bytes, written as characters; reading past the end gives
  the terminating NUL, and an embedded NUL ends the text exactly as in the code.
-/
namespace Verif.Gcl

/-- `gcl/parse.cc:76` -/
def isWs (c : Char) : Bool := c == ' ' || c == '\t'
/-- `gcl/parse.cc:78-80` -/
def isTermChar (c : Char) : Bool := !isWs c && c != ')' && c != '(' && c != '\x00'
/-- `gcl/parse.cc:82-84` -/
def isQuote (c : Char) : Bool := c == '"' || c == '\'' || c == '`'
/-- `gcl/parse.cc:86` -/
def isDigit (c : Char) : Bool := '0'.toNat ≤ c.toNat && c.toNat ≤ '9'.toNat
/-- `gcl/parse.cc:88` -/
def digitVal (c : Char) : Nat := c.toNat - 48

/-- `gcl/parse.cc:20-40` `gcl_operator_forward` -/
def forward : List (List Char × Op) :=
  [(['#'], .fixed),
   (['f','i','x','e','d','_','w','i','d','t','h'], .fixed),
   (['+'], .oneOf),
   (['o','n','e','_','o','f'], .oneOf),
   (['^'], .allOf),
   (['a','l','l','_','o','f'], .allOf),
   (['.','.','.'], .followedBy),
   (['<','>'], .followedBy),
   (['f','o','l','l','o','w','e','d','_','b','y'], .followedBy),
   (['<','<'], .containedIn),
   (['c','o','n','t','a','i','n','e','d','_','i','n'], .containedIn),
   (['>','>'], .containing),
   (['c','o','n','t','a','i','n','i','n','g'], .containing),
   (['!','<'], .notContainedIn),
   (['n','o','t','_','c','o','n','t','a','i','n','e','d','_','i','n'], .notContainedIn),
   (['!','>'], .notContaining),
   (['n','o','t','_','c','o','n','t','a','i','n','i','n','g'], .notContaining),
   (['@'], .link),
   (['l','i','n','k'], .link),
   (['m','a','t','e','r','i','a','l','i','z','e'], .materialize)]

/-- `gcl/parse.cc:133` -/
def opOf (name : List Char) : Option Op := (forward.find? fun x => x.1 == name).map (·.2)

/-- `gcl/parse.cc:42-53` `gcl_operator_reverse` -/
def nameOf : Op → List Char
  | .term => []
  | .fixed => ['#']
  | .oneOf => ['+']
  | .allOf => ['^']
  | .followedBy => ['.','.','.']
  | .containedIn => ['<','<']
  | .containing => ['>','>']
  | .notContainedIn => ['!','<']
  | .notContaining => ['!','>']
  | .link => ['@']
  | .materialize => ['m','a','t','e','r','i','a','l','i','z','e']

/-- `gcl/parse.cc:55-61` -/
def minArgs : Op → Nat
  | .term | .fixed => 0
  | .oneOf | .allOf | .followedBy | .link | .materialize => 1
  | .containedIn | .containing | .notContainedIn | .notContaining => 2
/-- `gcl/parse.cc:63-74`; the table is `unsigned`, so `maxfinity` becomes `2^32-1` -/
def maxArgs : Op → Nat
  | .term | .fixed => 0
  | .link | .materialize => 1
  | _ => 4294967295

/-- What `parse_expr` produces: not okay, okay with a tree (both with the place it stopped
at), signed overflow of a width (undefined behaviour), or (never, see `parse_total`)
the model's recursion bound. -/
inductive Res where
  | bad (rest : List Char)
  | good (rest : List Char) (e : SExpr)
  | overflow
  | fuel

/-- the loops `while (is_whitespace(*where)) where++` -/
def dropWs : List Char → List Char := List.dropWhile isWs

/-- `gcl/parse.cc:105-108`: text up to the closing quote (or the end), and the rest -/
def scanQ (q : Char) : Bool → List Char → List Char × List Char
  | _, [] => ([], [])
  | esc, c :: cs =>
    if c ≠ '\x00' ∧ (c ≠ q ∨ esc = true) then
      let r := scanQ q (c == '\\') cs
      (c :: r.1, r.2)
    else ([], c :: cs)

/-- `gcl/parse.cc:97-123`: a term (`width_` is 0, no operands) -/
def parseTerm : List Char → Res
  | [] => .bad []
  | c :: cs =>
    if isTermChar c then
      if isQuote c then
        match scanQ c false cs with
        | (_, []) => .bad []
        | (body, d :: rest) =>
          if d = c then .good (dropWs rest) (.node .term (c :: body ++ [c]) 0 [])
          else .bad (d :: rest)
      else .good (dropWs ((c :: cs).dropWhile isTermChar))
        (.node .term ((c :: cs).takeWhile isTermChar) 0 [])
    else .bad (c :: cs)

/-- `gcl/parse.cc:142-144`: the digits, accumulated in an `addr`; `none` is overflow -/
def parseDigits : Nat → List Char → Option (Nat × List Char)
  | w, c :: cs =>
    if isDigit c then
      if 10 * w + digitVal c ≤ 9223372036854775807 then parseDigits (10 * w + digitVal c) cs
      else none
    else some (w, c :: cs)
  | w, [] => some (w, [])

/-- `gcl/parse.cc:139-150` (`term_` keeps its default, the empty string) -/
def parseWidth : List Char → Res
  | [] => .bad []
  | c :: cs =>
    if isDigit c then
      match parseDigits (digitVal c) cs with
      | none => .overflow
      | some (w, rest) =>
        match dropWs rest with
        | ')' :: r => .good (')' :: r) (.node .fixed [] w [])
        | r => .bad r
    else .bad (c :: cs)

mutual
/-- `gcl/parse.cc:91-176` `parse_expr`.  On an operator, `width_` is left uninitialised by
the code and never read; it is 0 here. -/
def parseExpr : Nat → List Char → Res
  | 0, _ => .fuel
  | n + 1, cs =>
    match dropWs cs with
    | '(' :: r =>
      let r := dropWs r
      let name := r.takeWhile isTermChar
      if name = [] then .bad r
      else
        match opOf name with
        | none => .bad r
        | some k =>
          let r := dropWs (r.dropWhile isTermChar)
          if k = .fixed then parseWidth r else parseArgs n k r []
    | cs => parseTerm cs
/-- the loop `gcl/parse.cc:151-175`.  A term that fails here is an unterminated quote,
which stops at the NUL, where the loop ends without `okay`. -/
def parseArgs : Nat → Op → List Char → List SExpr → Res
  | 0, _, _, _ => .fuel
  | n + 1, k, cs, acc =>
    match cs with
    | [] => .bad []
    | ')' :: r =>
      if minArgs k ≤ acc.length ∧ acc.length ≤ maxArgs k then .good (')' :: r) (.node k [] 0 acc)
      else .bad (')' :: r)
    | '(' :: r =>
      match parseExpr n ('(' :: r) with
      | .good (')' :: r') e => parseArgs n k (dropWs r') (acc ++ [e])
      | .good r' _ => .bad r'
      | x => x
    | c :: r =>
      if isTermChar c then
        match parseExpr n (c :: r) with
        | .good r' e => parseArgs n k (dropWs r') (acc ++ [e])
        | x => x
      else .bad (c :: r)
end

/-- `gcl/parse.cc:178-188` `SExpression::from_string` -/
def fromString (s : List Char) : Res := parseExpr (2 * s.length + 1) s

/-- the digit `d` -/
def digitChar (d : Nat) : Char := Char.ofNat (48 + d)

/-- `std::to_string` of a non-negative number -/
def decimal (n : Nat) : List Char :=
  if n < 10 then [digitChar n] else decimal (n / 10) ++ [digitChar (n % 10)]
termination_by n

mutual
/-- `gcl/parse.cc:190-201` `SExpression::to_string` -/
def toStr : SExpr → List Char
  | .node k t w sub =>
    match k with
    | .term => t
    | .fixed => ['(', '#', ' '] ++ (if w < 0 then '-' :: decimal w.natAbs else decimal w.natAbs) ++ [')']
    | k => '(' :: nameOf k ++ toStrL sub ++ [')']
/-- the loop `gcl/parse.cc:196-199` -/
def toStrL : List SExpr → List Char
  | [] => []
  | e :: es => ' ' :: toStr e ++ toStrL es
end

/-- the string built at `gcl/parse.cc:217-223` -/
def phraseText (terms : List (List Char)) : List Char :=
  ['(', '>', '>', ' ', '(', '#', ' '] ++ decimal terms.length ++
    [')', ' ', '(', '.', '.', '.'] ++ terms.flatMap (fun t => ' ' :: t) ++ [')', ')']

mutual
/-- `gcl/parse.cc:203-237` `expand_phrases`; `split` stands for `tokenizer->split`. -/
def expandPhrases (split : List Char → List (List Char)) (marker : Char) : SExpr → SExpr
  | .node k t w sub =>
    let plain := SExpr.node k t w (expandPhrasesL split marker sub)
    if k = .term ∧ t.length > 2 ∧ t.head? = some marker ∧ t.getLast? = some marker then
      match split ((t.drop 1).take (t.length - 2)) with
      | [] => plain
      | [x] => .node k x 0 []
      | xs =>
        match fromString (phraseText xs) with
        | .good _ e => e
        | _ => plain
    else plain
def expandPhrasesL (split : List Char → List (List Char)) (marker : Char) :
    List SExpr → List SExpr
  | [] => []
  | e :: es => expandPhrases split marker e :: expandPhrasesL split marker es
end

end Verif.Gcl
