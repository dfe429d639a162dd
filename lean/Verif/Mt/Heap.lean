import Verif.Mt.Model
/-
  Model of the memory of gcl/mt.cc: nodes of queries that are allocated and go back to a list of free nodes,
  terms, and the definitions of a converter.

  Memory is a map from addresses to what `malloc` or `strdup` was asked for; 0 is the null pointer.  Addresses that
  were freed with `free` are not given out again, so that a program that uses one is always noticed: whatever the
  code does with memory that it does not have, or has as something else, is `none`.  Memory does not run out.  The
  two words of the union of a node (43-57) are kept as they lie in memory: `left`, `elements`, `element` and `term`
  are the first, `right`, `n` and `next` the second.  The four positions of a node (42), which nothing reads, are left
  out, and so is the copy of the text that is scanned (732, 734).  The arguments of a function are evaluated from left
  to right.  Recursion over a tree in memory is bounded by the number of addresses given out.
-/
namespace Verif.Mt

/-- an address -/
scoped notation "Ptr" => Nat

/-- gcl/mt.cc:23-37 `gcl_qnodeType` -/
inductive NodeType where
  | bin (op : BinOp)
  | nofm | element | term | fixed | parameter | null
deriving DecidableEq, Repr

/-- gcl/mt.cc:39-57 `gcl_qnodeStructure`, with the two words of its union -/
structure Node where
  type : NodeType
  w0 : Nat
  w1 : Nat
deriving DecidableEq, Repr

/-- what memory is allocated for: nodes, terms (gcl/mt.cc:102-105 `cgrepStructure`), definitions (76-80
`gcl_envStructure`) and strings -/
inductive Cell where
  | node (n : Node)
  | cgrep (regexp : Ptr)
  | env (next name q : Ptr)
  | text (s : List Char)
deriving DecidableEq, Repr

/-- the memory, the address that is given out next, and the list of free nodes of the thread (gcl/mt.cc:88) -/
structure Mem where
  heap : Ptr → Option Cell
  next : Ptr
  free : Ptr

/-- what a function does: it fails if it uses memory that it does not have -/
def H (α : Type) := Mem → Option (α × Mem)

/-- one after the other -/
def H.bind {α β : Type} (x : H α) (f : α → H β) : H β := fun m =>
  match x m with
  | none => none
  | some (a, m') => f a m'

instance : Monad H where
  pure a := fun m => some (a, m)
  bind := H.bind

/-- a write to the memory -/
def Mem.put (m : Mem) (p : Ptr) (c : Option Cell) : Mem := { m with heap := fun x => if x = p then c else m.heap x }

/-- C's `malloc`, and the first write to it -/
def malloc (c : Cell) : H Ptr := fun m => some (m.next, { m.put m.next (some c) with next := m.next + 1 })

/-- C's `free`, of memory that was allocated and not freed -/
def free (p : Ptr) : H Unit := fun m =>
  match m.heap p with
  | none => none
  | some _ => some ((), m.put p none)

/-- the node at an address -/
def readNode (p : Ptr) : H Node := fun m =>
  match m.heap p with
  | some (.node n) => some (n, m)
  | _ => none

/-- a write to a node -/
def writeNode (p : Ptr) (n : Node) : H Unit := fun m =>
  match m.heap p with
  | some (.node _) => some ((), m.put p (some (.node n)))
  | _ => none

/-- the term at an address -/
def readCgrep (p : Ptr) : H Ptr := fun m =>
  match m.heap p with
  | some (.cgrep r) => some (r, m)
  | _ => none

/-- the string at an address -/
def readText (p : Ptr) : H (List Char) := fun m =>
  match m.heap p with
  | some (.text s) => some (s, m)
  | _ => none

/-- the definition at an address: the next, the name and the query -/
def readEnv (p : Ptr) : H (Ptr × Ptr × Ptr) := fun m =>
  match m.heap p with
  | some (.env n s q) => some ((n, s, q), m)
  | _ => none

/-- a write to a definition -/
def writeEnv (p : Ptr) (next name q : Ptr) : H Unit := fun m =>
  match m.heap p with
  | some (.env ..) => some ((), m.put p (some (.env next name q)))
  | _ => none

/-- gcl/mt.cc:88 `freeQList`, of the thread -/
def getFree : H Ptr := fun m => some (m.free, m)
/-- gcl/mt.cc:88 `freeQList`, of the thread -/
def setFree (p : Ptr) : H Unit := fun m => some ((), { m with free := p })

/-! ### nodes and terms -/

/-- gcl/mt.cc:107-120 `term_create` -/
def termCreate (s : List Char) : H Ptr := do
  let r ← malloc (.text s)
  malloc (.cgrep r)

/-- gcl/mt.cc:122-129 `term_free`.  No term has a file. -/
def termFree (t : Ptr) : H Unit := do
  let r ← readCgrep t
  free r
  free t

/-- gcl/mt.cc:133-135 `term_to_string` -/
def termString (t : Ptr) : H (List Char) := do
  let r ← readCgrep t
  readText r

/-- gcl/mt.cc:131 `term_copy` -/
def termCopy (t : Ptr) : H Ptr := do
  let s ← termString t
  termCreate s

/-- gcl/mt.cc:137-153 `allocQNode`; new memory holds anything, here zeroes -/
def allocQNode : H Ptr := do
  let f ← getFree
  if f = 0 then malloc (.node ⟨.null, 0, 0⟩)
  else do
    let n ← readNode f
    setFree n.w1
    writeNode f { n with type := .null }
    pure f

/-- gcl/mt.cc:155-158 `freeQNode` -/
def freeQNode (q : Ptr) : H Unit := do
  let f ← getFree
  let n ← readNode q
  writeNode q { n with w1 := f }
  setFree q

/-- gcl/mt.cc:160-168 `allocBinaryQ`, 170-178 `allocNOfMQ`, 180-188 `allocNOfMElement`: both words are written -/
def allocNode (type : NodeType) (w0 w1 : Nat) : H Ptr := do
  let q ← allocQNode
  writeNode q ⟨type, w0, w1⟩
  pure q

/-- gcl/mt.cc:190-197 `allocTermQ`: the second word stays -/
def allocTermQ (term : Ptr) : H Ptr := do
  let q ← allocQNode
  let n ← readNode q
  writeNode q { n with type := .term, w0 := term }
  pure q

/-- gcl/mt.cc:199-206 `allocFixedQ`, 208-215 `allocParameterQ`: the first word stays -/
def allocNumberQ (type : NodeType) (n : Nat) : H Ptr := do
  let q ← allocQNode
  let x ← readNode q
  writeNode q { x with type := type, w1 := n }
  pure q

/-- gcl/mt.cc:217-250 `gcl_freeQ`.  The two nodes that stand for errors are not in memory here. -/
def freeQ : Nat → Ptr → H Unit
  | 0, _ => fun _ => none
  | k + 1, q =>
    if q = 0 then pure ()
    else do
      let n ← readNode q
      (match n.type with
        | .bin _ => do freeQ k n.w0; freeQ k n.w1
        | .nofm => freeQ k n.w0
        | .element => do freeQ k n.w0; freeQ k n.w1
        | .term => termFree n.w0
        | .fixed | .parameter | .null => pure () : H Unit)
      freeQNode q

/-- gcl/mt.cc:252-287 `gcl_copyQ` -/
def copyQ : Nat → Ptr → H Ptr
  | 0, _ => fun _ => none
  | k + 1, q =>
    if q = 0 then pure 0
    else do
      let n ← readNode q
      match n.type with
      | .bin op => do
        let l ← copyQ k n.w0
        let r ← copyQ k n.w1
        allocNode (.bin op) l r
      | .nofm => do
        let es ← copyQ k n.w0
        allocNode .nofm es n.w1
      | .element => do
        let e ← copyQ k n.w0
        let es ← copyQ k n.w1
        allocNode .element e es
      | .term => do
        let t ← termCopy n.w0
        allocTermQ t
      | .fixed => allocNumberQ .fixed n.w1
      | .parameter => allocNumberQ .parameter n.w1
      | .null => allocQNode

/-- gcl/mt.cc:320-322, 501-503: the length of a list of elements -/
def countElements : Nat → Ptr → H Nat
  | 0, _ => fun _ => none
  | k + 1, q =>
    if q = 0 then pure 0
    else do
      let n ← readNode q
      let i ← countElements k n.w1
      pure (i + 1)

/-- gcl/mt.cc:289-342 `to_s_expression` -/
def toS : Nat → Ptr → H (List Char)
  | 0, _ => fun _ => none
  | k + 1, q =>
    if q = 0 then pure []
    else do
      let n ← readNode q
      match n.type with
      | .bin op => do
        let l ← toS k n.w0
        let r ← toS k n.w1
        pure ('(' :: symbol op ++ ' ' :: l ++ ' ' :: r ++ [')'])
      | .nofm =>
        if n.w1 = 0 then pure ['(', '#', ' ', '1', ')']
        else if n.w1 = 1 then do
          let es ← toS k n.w0
          pure ('(' :: '+' :: es ++ [')'])
        else do
          let i ← countElements k n.w0
          if n.w1 = i then do
            let es ← toS k n.w0
            pure ('(' :: '^' :: es ++ [')'])
          else if n.w1 < i then do
            let es ← toS k n.w0
            pure ('(' :: Gcl.decimal n.w1 ++ es ++ [')'])
          else pure []
      | .element => do
        let e ← toS k n.w0
        let es ← toS k n.w1
        pure (' ' :: e ++ es)
      | .term => do
        let s ← termString n.w0
        pure ('"' :: s ++ ['"'])
      | .fixed => pure ('(' :: '#' :: ' ' :: Gcl.decimal n.w1 ++ [')'])
      | .parameter | .null => pure []

/-- a walk over a tree, as deep as there are addresses -/
def walk {α : Type} (f : Nat → Ptr → H α) (q : Ptr) : H α := fun m => f (m.next + 1) q m

/-! ### the parser -/

/-- gcl/mt.cc:536-538: the definition of a name, or null -/
def findEnv : Nat → Ptr → List Char → H Ptr
  | 0, _, _ => fun _ => none
  | k + 1, e, name =>
    if e = 0 then pure 0
    else do
      let x ← readEnv e
      let s ← readText x.2.1
      if s = name then pure e else findEnv k x.1 name

/-- the first definition of a name -/
def lookEnv (e : Ptr) (name : List Char) : H Ptr := fun m => findEnv (m.next + 1) e name m

/-- gcl/mt.cc:514-527, at the token after `words` -/
def hWords : Count → St → H (Res Ptr)
  | .number n, st =>
    if n = 0 then pure (.bad (some .zeroWords))
    else do
      let q ← allocNumberQ .fixed n
      pure (.ok q st)
  | .all, _ => pure (.bad (some .afterAll))
  | .one, _ => pure (.bad (some .afterOne))

/-- gcl/mt.cc:456-470: the number that a combination starts with -/
def Count.initial : Count → Nat
  | .number n => n
  | .one => 1
  | .all => 0

/-- gcl/mt.cc:493-511, at the token after the elements -/
def hFinish (c : Count) (q : Ptr) (st : St) : H (Res Ptr) :=
  if st.tok = [')'] then do
    let x ← readNode q
    let n ← walk countElements x.w0
    if c = .all then do
      writeNode q { x with w1 := n }
      pure (.ok q (scan st.rest))
    else if n < x.w1 then do
      walk freeQ q
      pure (.bad (some .tooFew))
    else pure (.ok q (scan st.rest))
  else do
    walk freeQ q
    pure (.bad (some .missingClose))

/-- gcl/mt.cc:594-599; what was read before a missing parenthesis is not freed -/
def hClose (q : Ptr) (st : St) : H (Res Ptr) :=
  if st.tok = [')'] then pure (.ok q (scan st.rest)) else pure (.bad (some .missingClose))

/-- gcl/mt.cc:605-616, at the token after the integer -/
def hBracketEnd (n : Nat) (st : St) : H (Res Ptr) :=
  if st.tok = [']'] then
    if n = 0 then pure (.bad (some .zeroWidth))
    else do
      let q ← allocNumberQ .fixed n
      pure (.ok q (scan st.rest))
  else pure (.bad (some .missingBracket))

/-- gcl/mt.cc:602-620, at the token after the bracket -/
def hBracket (st : St) : H (Res Ptr) :=
  match st.kind with
  | .int n => hBracketEnd n (scan st.rest)
  | _ => pure (.bad (some .missingInteger))

/-- gcl/mt.cc:621-634 -/
def hQuoted (rest : List Char) : H (Res Ptr) :=
  match rest.dropWhile (· != '"') with
  | [] => pure (.bad (some .endOfQuote))
  | _ :: r => do
    let t ← termCreate (rest.takeWhile (· != '"'))
    let q ← allocTermQ t
    pure (.ok q (scan r))

/-- gcl/mt.cc:536-541, 578, 588, with `topCall` 0 -/
def hName (env : Ptr) (st : St) : H (Res Ptr) := do
  let e ← lookEnv env st.tok
  if e = 0 then pure (.bad (some .undefined))
  else do
    let x ← readEnv e
    let q ← walk copyQ x.2.2
    pure (.ok q (scan st.rest))

mutual
/-- gcl/mt.cc:643-702 `parseQ` with `topCall` 0 -/
def hParseQ : Nat → Ptr → St → H (Res Ptr)
  | 0, _, _ => pure .fuel
  | n + 1, env, st => do
    let r ← hParseTerm n env st
    match r with
    | .ok q st => hParseLoop n env q st
    | .bad m => pure (.bad m)
    | .fuel => pure .fuel
/-- gcl/mt.cc:650-701: the loop -/
def hParseLoop : Nat → Ptr → Ptr → St → H (Res Ptr)
  | 0, _, _, _ => pure .fuel
  | n + 1, env, left, st =>
    match operator st with
    | .none => pure (.ok left st)
    | .bad => do
      walk freeQ left
      pure (.bad none)
    | .found op st => do
      let r ← hParseTerm n env (scan st.rest)
      match r with
      | .ok right st => do
        let q ← allocNode (.bin op) left right
        hParseLoop n env q st
      | .bad m => do
        walk freeQ left
        pure (.bad m)
      | .fuel => pure .fuel
/-- gcl/mt.cc:452-641 `parseQTerm` with `topCall` 0 -/
def hParseTerm : Nat → Ptr → St → H (Res Ptr)
  | 0, _, _ => pure .fuel
  | n + 1, env, st =>
    match counter st with
    | some c =>
      if (scan st.rest).tok = ['^'] ∨ (scan st.rest).tok = ['o', 'f'] then
        if (scan (scan st.rest).rest).tok = ['('] then do
          let q ← allocNode .nofm 0 c.initial
          let r ← hParseElements n env q (scan (scan (scan st.rest).rest).rest)
          match r with
          | .ok q st => hFinish c q st
          | .bad m => pure (.bad m)
          | .fuel => pure .fuel
        else pure (.bad (some .missingOpen))
      else if (scan st.rest).tok = ['w', 'o', 'r', 'd', 's'] then hWords c (scan (scan st.rest).rest)
      else pure (.bad (some .notFollowed))
    | none =>
      if st.kind = .name then hName env st
      else if st.tok = ['('] then do
        let r ← hParseQ n env (scan st.rest)
        match r with
        | .ok q st => hClose q st
        | .bad m => pure (.bad m)
        | .fuel => pure .fuel
      else if st.tok = ['['] then hBracket (scan st.rest)
      else if st.tok = ['"'] then hQuoted st.rest
      else pure (.bad (some .unexpected))
/-- gcl/mt.cc:484-491: the elements of the combination `q` -/
def hParseElements : Nat → Ptr → Ptr → St → H (Res Ptr)
  | 0, _, _, _ => pure .fuel
  | n + 1, env, q, st => do
    let r ← hParseQ n env st
    match r with
    | .ok e st => do
      let x ← readNode q
      let es ← allocNode .element e x.w0
      writeNode q { x with w0 := es }
      if st.tok = [','] then hParseElements n env q (scan st.rest) else pure (.ok q st)
    | .bad m => do
      walk freeQ q
      pure (.bad m)
    | .fuel => pure .fuel
end

/-- what `parseQ` returns at the top: a definition, with the first of the definitions after it, a query, or an error -/
inductive HTop where
  | defined (env : Ptr) (st : St)
  | query (q : Ptr) (st : St)
  | bad (msg : Option Msg)
  | fuel

/-- a query at the top -/
def HTop.ofRes : Res Ptr → HTop
  | .ok q st => .query q st
  | .bad m => .bad m
  | .fuel => .fuel

/-- gcl/mt.cc:540-573: a name that is not defined, at the beginning -/
def hDefine (n : Nat) (env : Ptr) (st : St) : H HTop := do
  let name ← malloc (.text st.tok)
  if (scan st.rest).tok = ['='] then do
    let e ← malloc (.env 0 name 0)
    let r ← hParseQ n env (scan (scan st.rest).rest)
    match r with
    | .ok q st => do
      writeEnv e env name q
      pure (.defined e st)
    | .bad m => do
      free name
      free e
      pure (.bad m)
    | .fuel => pure .fuel
  else do
    free name
    pure (.bad (some .undefined))

/-- gcl/mt.cc:578-589, 650-701: a name that is defined at `e`, at the beginning -/
def hRedefine (n : Nat) (env : Ptr) (e : Ptr) (st : St) : H HTop :=
  if (scan st.rest).tok = ['='] then do
    let r ← hParseQ n env (scan (scan st.rest).rest)
    match r with
    | .ok q st => do
      let x ← readEnv e
      walk freeQ x.2.2
      writeEnv e x.1 x.2.1 q
      pure (.defined env st)
    | .bad m => pure (.bad m)
    | .fuel => pure .fuel
  else do
    let x ← readEnv e
    let q ← walk copyQ x.2.2
    let r ← hParseLoop n env q (scan st.rest)
    pure (HTop.ofRes r)

/-- gcl/mt.cc:643-702 `parseQ` with `topCall` 1 -/
def hParseTop (n : Nat) (env : Ptr) (st : St) : H HTop :=
  if counter st = none ∧ st.kind = .name then do
    let e ← lookEnv env st.tok
    if e = 0 then hDefine n env st else hRedefine n env e st
  else do
    let r ← hParseQ n env st
    pure (HTop.ofRes r)

/-! ### converters -/

/-- gcl/mt.h `Mt` -/
structure HMt where
  env : Ptr := 0
  sExpression : List Char := []

/-- gcl/mt.cc:87, 735-737: the message of the thread after a refusal -/
def message (old : Option Msg) : Option Msg → Option Msg
  | none => old
  | some x => some x

/-- what a call of `infix_expression` gives: whether it was accepted, the message of the thread, the converter -/
abbrev HOut := Bool × Option Msg × HMt

/-- gcl/mt.cc:704-722 `gcl_createQFromString` and 731-744 `infix_expression`, of a text that is not empty -/
def hConclude (c : HMt) (msg : Option Msg) : HTop → H HOut
  | .query q st =>
    if st.tok = [] then do
      let s ← walk toS q
      walk freeQ q
      pure (true, msg, { c with sExpression := s })
    else do
      walk freeQ q
      pure (false, some .extra, c)
  | .defined env st =>
    if st.tok = [] then pure (true, msg, { c with env := env, sExpression := [] })
    else pure (false, some .extra, { c with env := env })
  | .bad x => pure (false, message msg x, c)
  | .fuel => pure (false, msg, c)

/-- gcl/mt.cc:731-744 `infix_expression` -/
def hInfix (c : HMt) (msg : Option Msg) (text : List Char) : H HOut :=
  if (scan (cstr text)).tok = [] then pure (true, msg, { c with sExpression := [] })
  else do
    let t ← hParseTop (3 * (cstr text).length + 2) c.env (scan (cstr text))
    hConclude c msg t

/-- gcl/mt.cc:440-448 `gcl_freeEnv`; the queries of the definitions are not freed -/
def freeEnv : Nat → Ptr → H Unit
  | 0, _ => fun _ => none
  | k + 1, e =>
    if e = 0 then pure ()
    else do
      let x ← readEnv e
      free x.2.1
      free e
      freeEnv k x.1

/-! ### threads and converters -/

/-- the memory, for each thread its list of free nodes and its message (gcl/mt.cc:85-89), and the converters, without
those that were destroyed -/
structure World where
  heap : Ptr → Option Cell
  next : Ptr
  threads : List (Ptr × Option Msg)
  mts : List (Option HMt)

/-- what a program does with converters.  Calls are made one after the other, in any thread. -/
inductive Op where
  /-- a new converter -/
  | create
  /-- `infix_expression` of a converter, in a thread -/
  | convert (thread mt : Nat) (text : List Char)
  /-- the end of a converter -/
  | destroy (mt : Nat)

/-- what the program sees: whether a text was accepted, the message if it was not, and `s_expression` -/
structure Seen where
  ok : Bool
  error : Option Msg
  sExpression : List Char
deriving DecidableEq, Repr

/-- gcl/mt.cc:731-743: what the caller sees -/
def seen (ok : Bool) (msg : Option Msg) (s : List Char) : Seen := ⟨ok, if ok then none else msg, s⟩

/-- gcl/mt.cc:725-744: one call; none if there is no such thread or converter, or for a misuse of memory -/
def World.step (w : World) : Op → Option (Option Seen × World)
  | .create => some (none, { w with mts := w.mts ++ [some {}] })
  | .convert t i text =>
    match w.threads[t]?, w.mts[i]? with
    | some (f, msg), some (some c) =>
      match hInfix c msg text ⟨w.heap, w.next, f⟩ with
      | none => none
      | some ((ok, msg', c'), m) =>
        some (some (seen ok msg' c'.sExpression),
          { heap := m.heap, next := m.next, threads := w.threads.set t (m.free, msg'), mts := w.mts.set i (some c') })
    | _, _ => none
  | .destroy i =>
    match w.mts[i]? with
    | some (some c) =>
      match freeEnv (w.next + 1) c.env ⟨w.heap, w.next, 0⟩ with
      | none => none
      | some (_, m) => some (none, { w with heap := m.heap, next := m.next, mts := w.mts.set i none })
    | _ => none

/-- calls one after the other -/
def World.run (w : World) : List Op → Option (List (Option Seen) × World)
  | [] => some ([], w)
  | op :: ops =>
    match w.step op with
    | none => none
    | some (s, w') =>
      match w'.run ops with
      | none => none
      | some (ss, w'') => some (s :: ss, w'')

/-- a program with this many threads, at its start -/
def World.start (n : Nat) : World := ⟨fun _ => none, 1, List.replicate n (0, none), []⟩

end Verif.Mt
