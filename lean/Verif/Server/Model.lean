import Verif.Judge.Model
import Verif.Rank.Model
/-
  Model of the search server apps/ssr-server.cc: sessions of clients, rankings handed out one passage at a time,
  snippets and documents.

  Bytes are written as characters, as in the model of the query language.  nlohmann's parser is a parameter (`parse`),
  and so is what its printer takes for UTF-8 (`utf8`); the strings of a parsed request are taken to pass.
  `json_translate` is a parameter (`untag`).  What is printed to the terminal and the times are left out.
-/
namespace Verif.Server
open Verif.Hopper Verif.Gcl Verif.Rank Verif.Props
open Verif.Paths (escape)
open Verif.Judge (trecDocno)

abbrev Text := List Char

/-- an opened warren, as the server uses it (ssr-server.cc 26-29).  `complaint` is what `hopper_from_gcl` leaves as an
error if it fails. -/
structure Collection where
  burrow : Text
  ix : Index
  split : Text → List Text
  count : Text → Int
  translate : Int → Int → Text
  complaint : Text → Text

/-- `hopper_from_gcl` -/
def Collection.hopper (c : Collection) (query : Text) : Option Obj := gclHopper c.ix c.split c.count query

/-- ssr-server.cc 31-35 `Result` -/
structure Found (σ : Type) where
  collection : Nat
  ranking : Result σ
  docno : Text

/-- a value in a request: only texts matter -/
inductive Val
  | str (s : Text)
  | other

/-- what `json::parse` makes of a line (ssr-server.cc 349): not JSON (with what the exception says), a value that is not
an object, or an object -/
inductive Parsed
  | bad (what : Text)
  | scalar
  | object (members : List (Text × Val))

/-- what the server was started with (ssr-server.cc 538-542), and the world around it -/
structure Settings (σ : Type) where
  container : Text
  content : Text
  docno : Text
  fields : List Text
  collections : List Collection
  sc : Scores σ
  sort : List (Result σ) → List (Result σ)
  hardware : Nat
  untag : Text → Text
  parse : Text → Parsed
  utf8 : Text → Bool

/-! ### texts -/

/-- ssr-server.cc 87-91 `clean_text` -/
def cleanText (s : Text) : Text := s.map fun c => if c = '\n' ∨ c = '\r' then ' ' else c

/-- ssr-server.cc 107-111 `strip_outer_quotes`, and 95-96 -/
def stripQuotes (s : Text) : Text :=
  if s.length ≥ 2 ∧ s.head? = some '"' ∧ s.getLast? = some '"' then (s.drop 1).take (s.length - 2) else s

/-- ssr-server.cc 93-105 `double_quote_if_needed` -/
def doubleQuote (s : Text) : Text := '"' :: escape (stripQuotes s) ++ ['"']

/-- ssr-server.cc 132 -/
def coverOpen : Text := ['<', 'c', 'o', 'v', 'e', 'r', '>']

/-- ssr-server.cc 134 -/
def coverClose : Text := ['<', '/', 'c', 'o', 'v', 'e', 'r', '>']

/-- ssr-server.cc 113-116 `translate` -/
def Collection.clean (c : Collection) (p q : Int) : Text := cleanText (c.translate p q)

/-- ssr-server.cc 122-138 `highlighted` -/
def highlighted (c : Collection) (start stop hs he : Int) : Text :=
  if hs < start ∨ he > stop ∨ hs > he then c.clean start stop
  else (if start < hs then c.clean start (hs - 1) else []) ++ coverOpen ++ c.clean hs he ++ coverClose ++
    (if he < stop then c.clean (he + 1) stop else [])

/-- ssr-server.cc 23 -/
abbrev window : Int := 200

/-- ssr-server.cc 140-170 `snippet` (addresses are integers) -/
def snippet {σ : Type} (c : Collection) (r : Result σ) : Text :=
  if r.cq - r.cp + 1 ≤ window then highlighted c r.cp r.cq r.p r.q
  else if r.q - r.p + 1 ≥ window then
    let stop := r.p + window - 1
    let stop := if stop > r.q then r.q else stop
    let stop := if stop > r.cq then r.cq else stop
    highlighted c r.p stop r.p stop
  else
    let extra := window - (r.q - r.p + 1)
    let start := r.p - extra / 2
    let stop := r.q + extra - extra / 2
    let stop := if start < r.cp then stop + (r.cp - start) else stop
    let start := if start < r.cp then r.cp else start
    let start := if stop > r.cq then start - (stop - r.cq) else start
    let start := if stop > r.cq then (if start < r.cp then r.cp else start) else start
    let stop := if stop > r.cq then r.cq else stop
    highlighted c start stop r.p r.q

/-! ### results -/

section
variable {σ : Type} (S : Settings σ)

/-- ssr-server.cc 181-192 `container_for`: the document (inner `none`: false); `none` if a hopper overflows -/
def containerFor (c : Collection) (r : Result σ) : Option (Option Ann) :=
  match c.hopper S.container with
  | none => some none
  | some H =>
    match H.rho r.q H.init with
    | none => none
    | some (a, _) => some (if a.p ≤ r.p ∧ r.q ≤ a.q then some a else none)

/-- ssr-server.cc 194-207 `docno_in` -/
def docnoIn (c : Collection) (d : Ann) : Option (Option Text) :=
  match c.hopper S.docno with
  | none => some none
  | some H =>
    match H.tau d.p H.init with
    | none => none
    | some (a, _) => some (if a.q > d.q then none else some (trecDocno (S.untag (c.translate a.p a.q))))

/-- ssr-server.cc 209-231 `make_result` -/
def makeResult (c : Collection) (i : Nat) (r : Result σ) : Option (Option (Found σ)) :=
  match containerFor S c r with
  | none => none
  | some none => some none
  | some (some d) =>
    match docnoIn S c d with
    | none => none
    | some none => some none
    | some (some n) => some (some ⟨i, r, n⟩)

/-- the loop ssr-server.cc 394-399 -/
def makeResults (c : Collection) (i : Nat) : List (Result σ) → Option (List (Found σ))
  | [] => some []
  | r :: rs =>
    match makeResult S c i r, makeResults c i rs with
    | some (some f), some fs => some (f :: fs)
    | some none, some fs => some fs
    | _, _ => none

/-- ssr-server.cc 233-243 `thread_budget` -/
def threadBudget (hardware collections : Nat) : List Nat :=
  let allowed := allowedThreads hardware 0
  let base := 2 * collections
  if collections = 0 ∨ allowed ≤ base then List.replicate collections 2
  else
    let extra := allowed - base
    (List.range collections).map fun i => 2 + (extra / collections + if i < extra % collections then 1 else 0)

/-- ssr-server.cc 24 -/
abbrev depth : Nat := 1000

/-- What is not determined by the request: the order in which the threads come to the lock (386), and whether the warren
of a collection could be cloned for a thread of `parallel_ssr`. -/
structure Schedule where
  order : List Nat
  cloned : Nat → Nat → Bool

/-- ssr-server.cc 383-400: the thread for a collection, which accepts the query -/
def worker (sched : Schedule) (query : Text) (c : Collection) (i : Nat) : Option (List (Found σ)) :=
  match parallelRanking S.sort depth (c.hopper query) (c.hopper S.content) S.hardware
      ((threadBudget S.hardware S.collections.length).getD i 0) (sched.cloned i)
      (ssrRanking S.sc S.sort depth (c.hopper query) (c.hopper S.content)) with
  | none => none
  | some R => makeResults S c i R

/-- ssr-server.cc 381-402: all threads -/
def workers (sched : Schedule) (query : Text) : List (Collection × Nat) → Option (List (List (Found σ)))
  | [] => some []
  | (c, i) :: rest =>
    match (if (c.hopper query).isNone then some [] else worker S sched query c i), workers sched query rest with
    | some fs, some per => some (fs :: per)
    | _, _ => none

/-- ssr-server.cc 384-389: the error that is kept, if there is one -/
def firstError (query : Text) : List Nat → Option Text
  | [] => none
  | i :: rest =>
    match S.collections[i]? with
    | none => firstError query rest
    | some c =>
      if (c.hopper query).isNone then
        some (if c.complaint query = [] then
          ['C', 'a', 'n', 'n', 'o', 't', ' ', 'p', 'a', 'r', 's', 'e', ' ', 'q', 'u', 'e', 'r', 'y'] else c.complaint query)
      else firstError query rest

/-- ssr-server.cc 405-412: the results of all collections, by `std::stable_sort` -/
def merge (per : List (List (Found σ))) : List (Found σ) :=
  per.flatten.mergeSort fun a b => !S.sc.gt b.ranking.score a.ranking.score

/-! ### requests -/

/-- the responses (ssr-server.cc 245-265, 417-423, 436-443, 463-470) -/
inductive Response
  | error (op error : Text)
  | done (op qid : Text)
  | result (op qid : Text) (rank : Nat) (burrow docno snippet : Text)
  | document (burrow docno text : Text)

/-- ssr-server.cc 43-46 -/
structure QueryState (σ : Type) where
  results : List (Found σ)
  next : Nat

/-- ssr-server.cc 543-544 -/
structure State (σ : Type) where
  queries : List (Text × QueryState σ) := []
  nextQid : Nat := 0

/-- `queries_[qid] = state` -/
def put (qid : Text) (x : QueryState σ) : List (Text × QueryState σ) → List (Text × QueryState σ)
  | [] => [(qid, x)]
  | y :: l => if y.1 = qid then (qid, x) :: l else y :: put qid x l

/-- `queries_.find(qid)` -/
def find (qid : Text) : List (Text × QueryState σ) → Option (QueryState σ)
  | [] => none
  | y :: l => if y.1 = qid then some y.2 else find qid l

def opQuery : Text := ['q', 'u', 'e', 'r', 'y']
def opNext : Text := ['n', 'e', 'x', 't']
def opDocument : Text := ['d', 'o', 'c', 'u', 'm', 'e', 'n', 't']
def opParse : Text := ['p', 'a', 'r', 's', 'e']
def keyOp : Text := ['o', 'p']
def keyQid : Text := ['q', 'i', 'd']
def keyDocno : Text := ['d', 'o', 'c', 'n', 'o']
def missingQuery : Text := ['M', 'i', 's', 's', 'i', 'n', 'g', ' ', 'q', 'u', 'e', 'r', 'y']
def unknownQid : Text := ['U', 'n', 'k', 'n', 'o', 'w', 'n', ' ', 'q', 'i', 'd']
def missingDocno : Text := ['M', 'i', 's', 's', 'i', 'n', 'g', ' ', 'd', 'o', 'c', 'n', 'o']
def unknownDocno : Text := ['U', 'n', 'k', 'n', 'o', 'w', 'n', ' ', 'd', 'o', 'c', 'n', 'o']
def ambiguousDocno : Text := ['A', 'm', 'b', 'i', 'g', 'u', 'o', 'u', 's', ' ', 'd', 'o', 'c', 'n', 'o']
def unknownOp : Text := ['U', 'n', 'k', 'n', 'o', 'w', 'n', ' ', 'o', 'p']

/-- ssr-server.cc 245-257 `result_response`; `none` if there is no such collection (never) -/
def resultResponse (op qid : Text) (rank : Nat) (f : Found σ) : Option Response :=
  match S.collections[f.collection]? with
  | none => none
  | some c => some (.result op qid rank c.burrow f.docno (snippet c f.ranking))

/-- the name of a query (ssr-server.cc 413) -/
def qidOf (n : Nat) : Text := 'q' :: decimal n

/-- ssr-server.cc 372-429 `query`; `none` if a hopper overflows -/
def query (sched : Schedule) (text : Text) (st : State σ) : Option (Response × State σ) :=
  if text = [] then some (.error opQuery missingQuery, st)
  else
    match workers S sched text S.collections.zipIdx with
    | none => none
    | some per =>
      match firstError S text sched.order with
      | some e => some (.error opQuery e, st)
      | none =>
        let merged := merge S per
        let qid := qidOf st.nextQid
        let n := (st.nextQid + 1) % 2 ^ 64
        match merged with
        | [] => some (.done opQuery qid, { queries := put qid ⟨[], 0⟩ st.queries, nextQid := n })
        | f :: fs =>
          match resultResponse S opQuery qid 1 f with
          | none => none
          | some r => some (r, { queries := put qid ⟨f :: fs, 1⟩ st.queries, nextQid := n })

/-- ssr-server.cc 431-449 `next` -/
def next (qid : Text) (st : State σ) : Option (Response × State σ) :=
  match find qid st.queries with
  | none => some (.error opNext unknownQid, st)
  | some x =>
    match x.results[x.next]? with
    | none => some (.done opNext qid, st)
    | some f =>
      match resultResponse S opNext qid (x.next + 1) f with
      | none => none
      | some r => some (r, { st with queries := put qid { x with next := x.next + 1 } st.queries })

/-- the query of ssr-server.cc 475-476 -/
def locateQuery (wanted : Text) : Text :=
  ['(', '>', '>', ' '] ++ S.container ++ [' ', '(', '>', '>', ' '] ++ S.docno ++ [' '] ++ doubleQuote wanted ++ [')', ')']

/-- what `locate_document` has so far: a document at most, or it has failed -/
inductive Located
  | nothing
  | one (collection : Nat) (doc : Ann)
  | failed (error : Text)

/-- ssr-server.cc 487-498 for one collection: the loop, which is left with the second match -/
def locateIn (H : Obj) (i : Nat) (sofar : Located) : Option Located :=
  match H.tau (minfinity + 1) H.init with
  | none => none
  | some (a, s) =>
    if a.p < maxfinity then
      match sofar with
      | .nothing =>
        if a.p + 1 ≤ maxfinity then
          match H.tau (a.p + 1) s with
          | none => none
          | some (b, _) => if b.p < maxfinity then some (.failed ambiguousDocno) else some (.one i a)
        else none
      | _ => some (.failed ambiguousDocno)
    else some sofar

/-- ssr-server.cc 173-178 `hopper`: the error if there is none.  `what` is the name given to it. -/
def hopperError (c : Collection) (text what : Text) : Text :=
  if c.complaint text = [] then ['C', 'a', 'n', 'n', 'o', 't', ' ', 'c', 'r', 'e', 'a', 't', 'e', ' ', 'h', 'o', 'p', 'p', 'e', 'r', ' ', 'f', 'o', 'r', ' '] ++ what
  else c.complaint text

/-- ssr-server.cc 478-499 -/
def locateLoop (wanted : Text) : List (Collection × Nat) → Located → Option Located
  | [], sofar => some sofar
  | (c, i) :: rest, sofar =>
    match c.hopper (locateQuery S wanted) with
    | none => some (.failed (hopperError c (locateQuery S wanted) opDocument))
    | some H =>
      match locateIn H i sofar with
      | none => none
      | some (.failed e) => some (.failed e)
      | some l => locateLoop wanted rest l

/-- ssr-server.cc 525-532: the loop over the places of a field -/
def fieldLoop {τ : Type} (tau : Int → M τ Ann) (cq : Int) (add : Text → Ann → Text) : Nat → Int → Text → M τ Text
  | 0, _, _ => ub
  | n + 1, k, text => do
    let r ← tau k
    if r.p < maxfinity ∧ r.p ≤ cq then do
      let k' ← ck (r.p + 1)
      fieldLoop tau cq add n k' (if r.q ≤ cq then add text r else text)
    else return text

/-- ssr-server.cc 527-529: what is added for a place -/
def addField (c : Collection) (text : Text) (a : Ann) : Text :=
  (if text = [] then [] else text ++ [' ', '.', '.', '.', ' ']) ++ stripQuotes (c.clean a.p a.q)

/-- ssr-server.cc 515-533: the loop over the fields; inner `error`: it fails -/
def fieldsLoop (c : Collection) (d : Ann) : List Text → Text → Option (Except Text Text)
  | [], text => some (.ok text)
  | field :: rest, text =>
    match c.hopper field with
    | none => some (.error (hopperError c field ['f', 'i', 'e', 'l', 'd']))
    | some H =>
      match fieldLoop H.tau d.q (addField c) loopFuel d.p text H.init with
      | none => none
      | some (text, _) => fieldsLoop c d rest text

/-- ssr-server.cc 507-536 `document_text` -/
def documentText (c : Collection) (d : Ann) : Option (Except Text Text) :=
  if S.fields = [] then some (.ok (cleanText (c.translate d.p d.q)))
  else match fieldsLoop c d S.fields [] with
    | none => none
    | some (.error e) => some (.error e)
    | some (.ok t) => some (.ok (cleanText t))

/-- ssr-server.cc 451-471 `document` -/
def document (wanted : Text) : Option Response :=
  if wanted = [] then some (.error opDocument missingDocno)
  else match locateLoop S wanted S.collections.zipIdx .nothing with
    | none => none
    | some .nothing => some (.error opDocument unknownDocno)
    | some (.failed e) => some (.error opDocument e)
    | some (.one i d) =>
      match S.collections[i]? with
      | none => none
      | some c =>
        match documentText S c d with
        | none => none
        | some (.error e) => some (.error opDocument e)
        | some (.ok t) => some (.document c.burrow wanted t)

/-! ### clients -/

/-- `request.value(key, "")` for an object; `none`: an exception, as the value is not a text -/
def value (members : List (Text × Val)) (key : Text) : Option Text :=
  match members.find? fun m => m.1 == key with
  | none => some []
  | some (_, .str s) => some s
  | some (_, .other) => none

/-- what becomes of the program with a line: undefined behaviour, the end of the program by an exception that nobody
catches, or a response -/
inductive Outcome (σ : Type)
  | undefined
  | uncaught
  | respond (r : Response) (st : State σ)

def Outcome.of {σ : Type} : Option (Response × State σ) → Outcome σ
  | none => .undefined
  | some (r, st) => .respond r st

/-- ssr-server.cc 349-366: the response to a line -/
def respond (sched : Schedule) (line : Text) (st : State σ) : Outcome σ :=
  match S.parse line with
  | .bad what => .respond (.error opParse what) st
  | .scalar => .uncaught
  | .object members =>
    match value members keyOp with
    | none => .uncaught
    | some op =>
      if op = opQuery then
        match value members opQuery with
        | none => .uncaught
        | some text => .of (query S sched text st)
      else if op = opNext then
        match value members keyQid with
        | none => .uncaught
        | some qid => .of (next S qid st)
      else if op = opDocument then
        match value members keyDocno with
        | none => .uncaught
        | some wanted => .of ((document S wanted).map fun r => (r, st))
      else .respond (.error op unknownOp) st

/-- the texts of a response -/
def Response.texts : Response → List Text
  | .error op e => [op, e]
  | .done op qid => [op, qid]
  | .result op qid _ burrow docno snippet => [op, qid, burrow, docno, snippet]
  | .document burrow docno text => [opDocument, burrow, docno, text]

/-- what `send` does with a record in the end (ssr-server.cc 267-278): all of it is taken, it fails, or the other end is
closed, in which case the program gets SIGPIPE, and ends, as it does not ask otherwise -/
inductive Sent
  | taken
  | failed
  | broken

/-- one turn of `handle`: the line, what happens meanwhile, and how sending the record goes -/
structure Turn where
  line : Text
  sched : Schedule
  sent : Sent

/-- the fate of the program after a connection: it goes on, it has ended, or its behaviour is undefined -/
inductive Fate
  | alive
  | ended
  | undefined
deriving DecidableEq

/-- a record (ssr-server.cc 282-286): the line, the response, and whether the client got it -/
structure Record where
  line : Text
  response : Response
  got : Bool

/-- what a connection leaves: the records that were made, the state and the fate -/
structure Served (σ : Type) where
  records : List Record
  state : State σ
  fate : Fate

/-- ssr-server.cc 342-369 `handle`: the lines of a client one after the other.  `record.dump()` (286) throws if a text is
not UTF-8.  After a line that is not JSON, a failed `send` is not noticed (354-355). -/
def handle : List Turn → State σ → Served σ
  | [], st => ⟨[], st, .alive⟩
  | t :: rest, st =>
    match respond S t.sched t.line st with
    | .undefined => ⟨[], st, .undefined⟩
    | .uncaught => ⟨[], st, .ended⟩
    | .respond r st' =>
      if r.texts.all S.utf8 then
        match t.sent with
        | .broken => ⟨[⟨t.line, r, false⟩], st', .ended⟩
        | .taken =>
          let x := handle rest st'
          { x with records := ⟨t.line, r, true⟩ :: x.records }
        | .failed =>
          match S.parse t.line with
          | .bad _ =>
            let x := handle rest st'
            { x with records := ⟨t.line, r, false⟩ :: x.records }
          | _ => ⟨[⟨t.line, r, false⟩], st', .alive⟩
      else ⟨[], st', .ended⟩

/-- ssr-server.cc 621-635: the clients one after the other -/
def serve : List (List Turn) → State σ → Served σ
  | [], st => ⟨[], st, .alive⟩
  | c :: rest, st =>
    let x := handle S c st
    match x.fate with
    | .alive =>
      let y := serve rest x.state
      { y with records := x.records ++ y.records }
    | _ => x

end

/-! ### lines -/

/-- ssr-server.cc 291-305 `read_line`, called until it returns false: the bytes that come, and whether receiving fails
in the end; `cur` is the line so far -/
def linesFrom (fails : Bool) (cur : Text) : Text → List Text
  | [] => if fails ∨ cur = [] then [] else [cur]
  | c :: cs =>
    if c = '\n' then cur :: linesFrom fails [] cs
    else linesFrom fails (if c = '\r' then cur else cur ++ [c]) cs

/-- the lines that the server sees -/
def lines (fails : Bool) (bytes : Text) : List Text := linesFrom fails [] bytes

end Verif.Server
