/-
Model of the dynamic index's transactions: `Bigwig` (src/bigwig.cc), `Fiver`
(src/fiver.cc), the shared `Fluffle` (src/fluffle.h), the background merge worker, the
files they keep in the burrow, and what is done with those files when a burrow is opened.

Granularity.  Everything the code does while it holds `fluffle->lock` is one step, and
every file-system call that can be followed by a crash is one step.  A file is first
written under a temporary name and then linked to its real name (fiver.cc 749-763,
1190-1216); the partial contents a temporary file may have are modelled by `Act.scribble`,
which may put anything in any temporary file at any time.  A crash is the end of the
process: what the calls before it did to the directory stays (no model of lost disk
caches).

What is inside a shard is a type parameter: `Ops` says how a shard is made from one
transaction, merged and converted.  Which annotations a merged shard has is modelled in
Verif/Store.
-/
namespace Verif.Txn

/-- How the program was compiled: `make building` keeps `assert`, `make fast` passes
`-DNDEBUG` (Makefile 5-21), which removes the text between the parentheses. -/
inductive Build | checked | fast
  deriving DecidableEq

/-- `Owsla::name()`: a transaction that is not committed, a dynamic shard, a static shard,
an aborted transaction.  fiver.h 81, fiver.cc 715, 736; hazel.cc. -/
inductive Kind | kitten | fiver | hazel | remove
  deriving DecidableEq

/-- What one transaction is known by: its sequence number and the address its text was
moved to (bigwig.cc 807-815), and what was in it. -/
structure Entry (τ : Type) where
  seq : Nat
  base : Nat
  txn : τ
  deriving DecidableEq

/-- The contents of shards, of type `α`, for transactions of type `τ`. -/
structure Ops (τ α : Type) where
  /-- how many addresses the transaction appended: `FiverAppender::appended` fiver.cc 108 -/
  size : τ → Nat
  /-- there are no annotations: fiver.cc 676 -/
  empty : τ → Bool
  /-- the shard of one transaction: `Fiver::ready_` fiver.cc 669-701 -/
  leaf : Entry τ → α
  /-- `Fiver::merge` fiver.cc 509-608, `Hazel::merge` hazel.cc 1911-2088 -/
  merge : List α → α
  /-- `Fiver::hazel` fiver.cc 1190-1263 -/
  convert : α → α
  /-- a shard with nothing left in it: `Fiver::abort_` fiver.cc 726-738 -/
  blank : α
  /-- the last address of `Txt::range`, if the shard has text: fiver.cc 319-334 -/
  last : α → Option Nat

/-- A shard in memory.  `Fiver` fiver.h, `Hazel` hazel.h: its name, its sequence range, its
contents. -/
structure Obj (α : Type) where
  kind : Kind
  lo : Nat
  hi : Nat
  body : α

/-- Kinds of file names: `kitten.<lo>.<hi>`, `fiver.<lo>.<hi>`, `hazel.<lo>.<hi>`
(fiver.cc 636-645, 755, owsla.cc 27-34), and `temp.*` (working.h `make_temp`). -/
inductive FKind | kitten | fiver | hazel | temp
  deriving DecidableEq

structure FName where
  kind : FKind
  lo : Nat
  hi : Nat
  deriving DecidableEq

/-- A commit script `commit.<pointer>.sh` and the sequence numbers it commits:
`Bigwig::commit_all` bigwig.cc 1364-1408. -/
structure Script where
  key : Nat
  seqs : List Nat
  deriving DecidableEq

/-- The burrow.  The contents of a file that is not completely written are `none`. -/
structure Disk (α : Type) where
  files : List (FName × Option α)
  scripts : List Script

namespace Disk
variable {α : Type}

/-- `access(name, F_OK) == 0` -/
def has (d : Disk α) (n : FName) : Bool := d.files.any fun f => f.1 = n

def get (d : Disk α) (n : FName) : Option (Option α) :=
  (d.files.find? fun f => f.1 = n).map (·.2)

/-- `link(temporary, name)` with complete contents, when `name` does not exist -/
def link (d : Disk α) (n : FName) (x : Option α) : Disk α := { d with files := (n, x) :: d.files }

/-- `std::remove(name)`; nothing happens if there is no such file -/
def rm (d : Disk α) (n : FName) : Disk α := { d with files := d.files.filter fun f => f.1 ≠ n }

end Disk

/-- Where the writer that owns one `Bigwig` clone is between `transaction()` and the end of
`commit()` or `abort()`. -/
inductive Client (τ : Type)
  | idle
  /-- after `transaction()`, with what was appended and annotated so far -/
  | opened (t : τ)
  /-- in `ready()`, after the lock was released: bigwig.cc 813 -/
  | numbered (id : Nat) (e : Entry τ)
  /-- `ready()` has returned -/
  | voted (id : Nat) (e : Entry τ) (vote : Bool)
  /-- in `commit_all`, after the script was linked: bigwig.cc 1403 -/
  | promised (id : Nat) (e : Entry τ) (key : Nat)
  /-- in `commit()`, before the old name is removed: fiver.cc 719 -/
  | linked (id : Nat) (e : Entry τ) (key : Option Nat)

/-- `enum class MergeAction` bigwig.cc 1093 -/
inductive Job | fiverMerge | hazelMerge | convert
  deriving DecidableEq

/-- Where a merge worker is: bigwig.cc 1200-1337 -/
inductive Worker
  | idle
  /-- it has put its selection into `merging` -/
  | grabbed (job : Job) (sel : List Nat)
  /-- it has its output, and has not yet taken the lock again -/
  | made (job : Job) (sel : List Nat) (out : Nat)
  /-- the output is installed, these are still to be discarded -/
  | discarding (rest : List Nat)

/-- A reader's snapshot: bigwig.cc 702-727.  `seen` is a history, which no step reads: the
transactions that were published when the reader started. -/
structure View (τ : Type) where
  shards : List Nat
  cache : Nat
  seen : List (Entry τ)

/-- The `Fluffle` and the threads.  `heap` holds the shard objects, shared by pointer;
`fresh` is the next pointer; `cache` numbers the `OwslaCache` objects. -/
structure Mem (τ α : Type) where
  address : Nat
  sequence : Nat
  heap : Nat → Obj α
  fresh : Nat
  warrens : List Nat
  merging : List Nat
  cache : Nat
  clients : Nat → Client τ
  workers : Nat → Worker
  readers : Nat → Option (View τ)
  /-- the clients each running `commit_all` was given, by the key of its script -/
  groups : Nat → List Nat

/-- The whole system.  `mem = none` when no process has the burrow open.
`durable` and `published` are histories, which no step reads: the transactions whose
commit point was passed (the call of `commit()`, or the script of `commit_all` being
complete), and those whose `commit()` has taken effect in memory. -/
structure Sys (τ α : Type) where
  mem : Option (Mem τ α)
  disk : Disk α
  durable : List (Entry τ)
  published : List (Entry τ)

def upd {β : Type} (f : Nat → β) (i : Nat) (b : β) : Nat → β := fun j => if j = i then b else f j

variable {τ α : Type}

def kittenName (n : Nat) : FName := ⟨.kitten, n, n⟩
def fiverName (n : Nat) : FName := ⟨.fiver, n, n⟩

/-- the file of a shard object: `name() + "." + recipe()` fiver.cc 740-746, hazel.cc 2215 -/
def Obj.file (o : Obj α) : FName :=
  ⟨match o.kind with | .hazel => .hazel | .fiver => .fiver | .kitten => .kitten | .remove => .temp,
   o.lo, o.hi⟩

/-! ### The writer -/

/-- `Bigwig::ready_`, under the lock.  bigwig.cc 807-814, fiver.cc 619-629. -/
def number (M : Ops τ α) (m : Mem τ α) (c : Nat) (t : τ) : Mem τ α :=
  let e : Entry τ := ⟨m.sequence, m.address, t⟩
  { m with
    address := m.address + M.size t
    sequence := m.sequence + 1
    heap := upd m.heap m.fresh ⟨.kitten, m.sequence, m.sequence, M.leaf e⟩
    fresh := m.fresh + 1
    warrens := m.warrens ++ [m.fresh]
    clients := upd m.clients c (.numbered m.fresh e) }

/-- The rest of `Fiver::ready_`: fiver.cc 676-700 and `pickle` 749-763.  `ok` says that the
writing succeeded.  A transaction without annotations writes no file (676). -/
def vote (M : Ops τ α) (d : Disk α) (id : Nat) (e : Entry τ) (ok : Bool) : Disk α × Client τ :=
  if M.empty e.txn then (d, .voted id e true)
  else if ok && !d.has (kittenName e.seq) then
    (d.link (kittenName e.seq) (some (M.leaf e)), .voted id e true)
  else (d, .voted id e false)

/-- In memory: `Bigwig::commit_` bigwig.cc 1352-1362, `Fiver::commit_` fiver.cc 703-724. -/
def commitMem (m : Mem τ α) (c id : Nat) (e : Entry τ) (key : Option Nat) : Mem τ α :=
  { m with
    heap := upd m.heap id { m.heap id with kind := .fiver }
    cache := m.cache + 1
    clients := upd m.clients c (.linked id e key) }

/-- On disk: fiver.cc 714-719, `assert(link(ready_name, final_name) == 0)`.  The result is
`none` if the assertion fails and ends the process; without assertions there is no link. -/
def commitDisk (b : Build) (d : Disk α) (n : Nat) : Option (Disk α) :=
  match b with
  | .fast => some d
  | .checked =>
    match d.get (kittenName n) with
    | none => none
    | some x => if d.has (fiverName n) then none else some (d.link (fiverName n) x)

/-- `Bigwig::abort_` bigwig.cc 1410-1419, `Fiver::abort_` fiver.cc 726-738. -/
def abortMem (M : Ops τ α) (m : Mem τ α) (c id : Nat) : Mem τ α :=
  { m with
    heap := upd m.heap id { m.heap id with kind := .remove, body := M.blank }
    clients := upd m.clients c .idle }

/-! ### The merge worker -/

/-- bigwig.cc 1215-1228: aborted transactions are taken out of the list -/
def sweep (m : Mem τ α) : Mem τ α :=
  { m with warrens := m.warrens.filter fun i => (m.heap i).kind ≠ .remove }

/-- each range starts where the one before it ended: bigwig.cc 1176-1180 -/
def adjacent : List (Obj α) → Bool
  | a :: b :: l => b.lo == a.hi + 1 && adjacent (b :: l)
  | _ => true

/-- `validate_fiver_conversion`, `validate_fiver_merge`, `validate_hazel_action` in this
order: bigwig.cc 1095-1198, 1252-1261. -/
def chooseJob (sel : List (Obj α)) : Option Job :=
  if sel.length = 1 && sel.all (fun o => o.kind = .fiver) then some .convert
  else if 2 ≤ sel.length && sel.all (fun o => o.kind = .fiver) then some .fiverMerge
  else if 2 ≤ sel.length && sel.all (fun o => o.kind = .hazel) && adjacent sel then some .hazelMerge
  else none

/-- Selecting the shards from `start` to `start + n - 1`: bigwig.cc 1229-1275.  Which ones
`find_merge_action` picks is left open: any choice may be made. -/
def grab (m : Mem τ α) (w start n : Nat) : Option (Mem τ α) :=
  let sel := (m.warrens.drop start).take n
  if sel.length = n && 0 < n && sel.all (fun i => !m.merging.contains i) then
    match chooseJob (sel.map m.heap) with
    | none => none
    | some job => some { m with merging := sel ++ m.merging, workers := upd m.workers w (.grabbed job sel) }
  else none

/-- The output has the sequence range from the first to the last source.
fiver.cc 597-598, hazel.cc 1951-1975. -/
def outObj (M : Ops τ α) (job : Job) (sel : List (Obj α)) : Obj α :=
  { kind := match job with | .fiverMerge => .fiver | _ => .hazel
    lo := match sel.head? with | some o => o.lo | none => 0
    hi := match sel.getLast? with | some o => o.hi | none => 0
    body := match job, sel with
      | .convert, o :: _ => M.convert o.body
      | _, _ => M.merge (sel.map (·.body)) }

/-- How producing the output ended: it is complete; something failed before the output
file got its name; the file got its name but could not be opened (fiver.cc 1213-1215). -/
inductive Outcome | ok | fail | late
  deriving DecidableEq

/-- put the selection back: bigwig.cc 1294-1299 -/
def release (m : Mem τ α) (w : Nat) (sel : List Nat) : Mem τ α :=
  { m with
    merging := m.merging.filter fun i => !sel.contains i
    workers := upd m.workers w .idle }

def putOut (m : Mem τ α) (w : Nat) (job : Job) (sel : List Nat) (o : Obj α) : Mem τ α :=
  { m with
    heap := upd m.heap m.fresh o
    fresh := m.fresh + 1
    workers := upd m.workers w (.made job sel m.fresh) }

/-- Producing the output: bigwig.cc 1277-1292.
 * Two or more dynamic shards: whether `merged->pickle()` could write the file is not
   looked at (1283-1287).
 * Static shards: if the output file exists it is used as it is (hazel.cc 1931-1935).
 * A dynamic shard made static: fiver.cc 1190-1216. -/
def makeOut (M : Ops τ α) (m : Mem τ α) (d : Disk α) (w : Nat) (job : Job) (sel : List Nat)
    (r : Outcome) : Mem τ α × Disk α :=
  let o := outObj M job (sel.map m.heap)
  match job with
  | .fiverMerge =>
    (putOut m w job sel o,
     if r ≠ .fail && !d.has o.file then d.link o.file (some o.body) else d)
  | .hazelMerge =>
    match d.get o.file with
    | some (some x) => if r = .ok then (putOut m w job sel { o with body := x }, d) else (release m w sel, d)
    | some none => (release m w sel, d)
    | none =>
      match r with
      | .ok => (putOut m w job sel o, d.link o.file (some o.body))
      | .fail => (release m w sel, d)
      | .late => (release m w sel, d.link o.file (some o.body))
  | .convert =>
    if r = .fail || d.has o.file then (release m w sel, d)
    else if r = .late then (release m w sel, d.link o.file (some o.body))
    else (putOut m w job sel o, d.link o.file (some o.body))

/-- the list with `sel` (from its first to its last member) replaced: bigwig.cc 1301-1330 -/
def spliceOut (l : List Nat) (sel : List Nat) (out : Nat) : Option (List Nat) :=
  match sel.head?, sel.getLast? with
  | some a, some z =>
    let pre := l.takeWhile (· ≠ a)
    let rest := (l.dropWhile (· ≠ a)).dropWhile (· ≠ z)
    match rest with
    | [] => none
    | _ :: post => some (pre ++ [out] ++ post)
  | _, _ => none

/-- Installing the output under the lock: bigwig.cc 1293-1332. -/
def install (m : Mem τ α) (w : Nat) (sel : List Nat) (out : Nat) : Mem τ α :=
  match spliceOut m.warrens sel out with
  | none => release m w sel
  | some l =>
    { m with
      warrens := l
      merging := m.merging.filter fun i => !sel.contains i
      workers := upd m.workers w (.discarding sel) }

/-! ### Readers -/

def shown (o : Obj α) : Bool := o.kind = .hazel || o.kind = .fiver

/-- `Bigwig::start_`, under the lock: bigwig.cc 702-727 -/
def snapshot (m : Mem τ α) (seen : List (Entry τ)) : View τ :=
  ⟨m.warrens.filter fun i => shown (m.heap i), m.cache, seen⟩

/-! ### Opening a burrow -/

/-- The file-system calls made while a burrow is opened. -/
inductive Op
  | rm (n : FName)
  /-- one line of a commit script: `mv -n kitten fiver; rm -f kitten`, fiver.cc 640-651 -/
  | mv (seq : Nat)
  | rmScript (key : Nat)
  deriving DecidableEq

/-- `mv -n`: does nothing if there is no source or the target exists -/
def Disk.mvn (d : Disk α) (n : Nat) : Disk α :=
  match d.get (kittenName n) with
  | none => d
  | some x => if d.has (fiverName n) then d else (d.link (fiverName n) x).rm (kittenName n)

def Disk.op (d : Disk α) : Op → Disk α
  | .rm n => d.rm n
  | .mv n => d.mvn n
  | .rmScript k => { d with scripts := d.scripts.filter fun s => s.key ≠ k }

def Disk.ops (d : Disk α) (l : List Op) : Disk α := l.foldl Disk.op d

/-- the names of one kind, `Working::ls` working.cc 341-371 -/
def Disk.names (d : Disk α) (k : FKind) : List FName := (d.files.map (·.1)).filter fun n => n.kind = k

/-- `/bin/rm -f temp.*` in the constructor of `Working` -/
def tempOps (d : Disk α) : List Op := (d.names .temp).map .rm

/-- `finalize_commits` bigwig.cc 366-381 -/
def scriptOps (d : Disk α) : List Op :=
  d.scripts.flatMap fun s =>
    (s.seqs.flatMap fun n => [.mv n, .rm (kittenName n)]) ++ [.rmScript s.key]

/-- the order of `normalize_shards`: by start, longest first.  fiver.cc 413-416 -/
def before (a b : FName) : Bool := a.lo < b.lo || (a.lo == b.lo && b.hi ≤ a.hi)

/-- `std::sort` -/
def insertSorted (le : FName → FName → Bool) (a : FName) : List FName → List FName
  | [] => [a]
  | b :: l => if le a b then a :: b :: l else b :: insertSorted le a l

def sortNames (le : FName → FName → Bool) (l : List FName) : List FName :=
  l.foldr (insertSorted le) []

/-- `owsla_range_contains` owsla.cc 72-74 -/
def contains (outer inner : FName) : Bool := outer.lo ≤ inner.lo && inner.hi ≤ outer.hi

/-- `owsla_ranges_overlap` owsla.cc 68-70 -/
def overlap (a b : FName) : Bool := a.lo ≤ b.hi && b.lo ≤ a.hi

/-- The loop of `normalize_shards`; `living` and `dead` are kept in reverse.
fiver.cc 419-429, hazel.cc 1562-1571. -/
def normalizeLoop : List FName → List FName → List FName → Option (List FName × List FName)
  | [], living, dead => some (living.reverse, dead.reverse)
  | s :: l, [], dead => normalizeLoop l [s] dead
  | s :: l, b :: living, dead =>
    if b.hi < s.lo then normalizeLoop l (s :: b :: living) dead
    else if s.hi ≤ b.hi then normalizeLoop l (b :: living) (s :: dead)
    else none

def normalize (found : List FName) : Option (List FName × List FName) :=
  normalizeLoop (sortNames before found) [] []

/-- `verify_dead_shards` fiver.cc 441-451, hazel.cc 1584-1593 -/
def verifyDead (living dead : List FName) : Bool :=
  dead.all fun x => living.any fun l => contains l x

/-- the found shards, or the error of `normalize_shards` or `verify_dead_shards` -/
def survey (found : List FName) : Option (List FName × List FName) :=
  match normalize found with
  | none => none
  | some (living, dead) => if verifyDead living dead then some (living, dead) else none

/-- `verify_shard_order` bigwig.cc 286-301 -/
def ordered : List FName → Bool
  | [] => true
  | [a] => a.lo ≤ a.hi
  | a :: b :: l => a.lo ≤ a.hi && a.hi < b.lo && ordered (b :: l)

/-- `while (hazel < size && hazels[hazel].end < fiver.start) hazel++` bigwig.cc 314-316 -/
def skipHazels (f : FName) (hazels : List FName) : List FName := hazels.dropWhile fun h => h.hi < f.lo

/-- The loop of `combine_shards`: the fivers that stay and those that are removed.
bigwig.cc 313-337. -/
def combineLoop : List FName → List FName → Option (List FName × List FName)
  | [], _ => some ([], [])
  | f :: fs, hazels =>
    let hs := skipHazels f hazels
    let keep := (combineLoop fs hs).map fun r => (f :: r.1, r.2)
    match hs with
    | [] => keep
    | h :: _ =>
      if overlap h f then
        if contains h f then (combineLoop fs hs).map fun r => (r.1, f :: r.2) else none
      else keep

/-- `OwslaShard::operator<` (or equal), owsla.h 53-57, the names compared last -/
def shardLe (a b : FName) : Bool :=
  a.lo < b.lo || (a.lo == b.lo && (a.hi < b.hi || (a.hi == b.hi && (a.kind = .fiver || b.kind = .hazel))))

/-- `combine_shards`: the fivers to be removed, and all shards in order.
bigwig.cc 303-347. -/
def combine (fivers hazels : List FName) : Option (List FName × List FName) :=
  if ordered fivers && ordered hazels then
    (combineLoop fivers hazels).map fun r => (r.2, sortNames shardLe (hazels ++ r.1))
  else none

/-- `sanitize` bigwig.cc 383-394, with `Fiver::sanitize` fiver.cc 475-507 and
`Hazel::sanitize` hazel.cc 1814-1909 (the files of interrupted static merges are modelled
in Verif/Hazel): all calls made, in order, and the shards found, or `none` if it reports an
error after those calls. -/
def sanitize (d : Disk α) : List Op × Option (List FName) :=
  let ops0 := tempOps d
  let d0 := d.ops ops0
  let ops1 := ops0 ++ scriptOps d0
  let d1 := d.ops ops1
  match survey (d1.names .fiver) with
  | none => (ops1, none)
  | some (fivers, deadF) =>
    let ops2 := ops1 ++ (d1.names .kitten).map .rm ++ deadF.map .rm
    match survey (d1.names .hazel) with
    | none => (ops2, none)
    | some (hazels, deadH) =>
      let ops3 := ops2 ++ deadH.map .rm
      match combine fivers hazels with
      | none => (ops3, none)
      | some (gone, shards) => (ops3 ++ gone.map .rm, some shards)

/-- reading one shard: `Fiver::unpickle` fiver.cc 816-929, `Hazel::make`; `none` if the file
is not there or is not complete -/
def loadShard (d : Disk α) (n : FName) : Option (Obj α) :=
  match d.get n with
  | some (some b) => some ⟨if n.kind = .hazel then .hazel else .fiver, n.lo, n.hi, b⟩
  | _ => none

def loadAll (d : Disk α) : List FName → Option (List (Obj α))
  | [] => some []
  | n :: l =>
    match loadShard d n, loadAll d l with
    | some o, some os => some (o :: os)
    | _, _ => none

/-- the address for the next transaction: one past the text of the last shard that has
any.  bigwig.cc 568-577 -/
def nextAddress (M : Ops τ α) : List (Obj α) → Nat
  | [] => 0
  | os => match os.reverse.findSome? fun o => M.last o.body with | none => 0 | some q => q + 1

/-- bigwig.cc 578 -/
def nextSequence (os : List (Obj α)) : Nat :=
  match os.getLast? with | none => 0 | some o => o.hi + 1

/-- a fresh `Fluffle` with the shards that were loaded: bigwig.cc 531-598 -/
def booted (M : Ops τ α) (os : List (Obj α)) : Mem τ α :=
  { address := nextAddress M os
    sequence := nextSequence os
    heap := fun i => match os[i]? with | some o => o | none => ⟨.remove, 0, 0, M.blank⟩
    fresh := os.length
    warrens := List.range os.length
    merging := []
    cache := 0
    clients := fun _ => .idle
    workers := fun _ => .idle
    readers := fun _ => none
    groups := fun _ => [] }

/-- `Bigwig::make` bigwig.cc 455-604 -/
def boot (M : Ops τ α) (d : Disk α) : Disk α × Option (Mem τ α) :=
  let r := sanitize d
  let d' := d.ops r.1
  match r.2 with
  | none => (d', none)
  | some names => (d', (loadAll d' names).map (booted M))

/-! ### The system -/

inductive Act (τ α : Type)
  | begin (c : Nat) (t : τ)
  | number (c : Nat)
  | vote (c : Nat) (ok : Bool)
  | commit (c : Nat)
  | unkitten (c : Nat)
  | abort (c : Nat) (junk : Nat)
  | script (key : Nat) (cs : List Nat)
  | unscript (key : Nat)
  | sweep
  | grab (w start n : Nat)
  | make (w : Nat) (r : Outcome)
  | install (w : Nat)
  | discard (w : Nat)
  | rstart (r : Nat)
  | rend (r : Nat)
  | clone (r r' : Nat)
  | scribble (n : Nat) (x : Option α)
  | crash
  /-- the process dies while it opens the burrow, after `k` calls -/
  | recrash (k : Nat)
  /-- the burrow is opened -/
  | reopen

/-- the entry of a client that has voted to commit -/
def votedYes (m : Mem τ α) (c : Nat) : Option (Nat × Entry τ) :=
  match m.clients c with
  | .voted id e true => some (id, e)
  | _ => none

/-- the entries of a list of clients, if each has voted to commit -/
def allVoted (m : Mem τ α) : List Nat → Option (List (Entry τ))
  | [] => some []
  | c :: cs =>
    match votedYes m c, allVoted m cs with
    | some (_, e), some es => some (e :: es)
    | _, _ => none

/-- what a client becomes when the script is complete -/
def Client.promise (key : Nat) : Client τ → Client τ
  | .voted id e true => .promised id e key
  | x => x

def promise (m : Mem τ α) (key : Nat) (cs : List Nat) : Mem τ α :=
  { m with
    clients := fun c => if c ∈ cs then (m.clients c).promise key else m.clients c
    groups := upd m.groups key cs }

/-- the client is not yet done with the script of this key -/
def busy (m : Mem τ α) (key : Nat) (c : Nat) : Bool :=
  match m.clients c with
  | .promised _ _ k => k == key
  | .linked _ _ (some k) => k == key
  | _ => false

def Sys.on (s : Sys τ α) (m : Mem τ α) : Sys τ α := { s with mem := some m }

/-- the effect of `commit()` on the whole system -/
def commitSys (b : Build) (s : Sys τ α) (m : Mem τ α) (c id : Nat) (e : Entry τ) (key : Option Nat) :
    Sys τ α :=
  match commitDisk b s.disk e.seq with
  | none => { s with mem := none }
  | some d =>
    { mem := some (commitMem m c id e key)
      disk := d
      durable := if key.isSome then s.durable else e :: s.durable
      published := e :: s.published }

/-- One step, `none` if it cannot be taken. -/
def step (M : Ops τ α) (b : Build) (s : Sys τ α) : Act τ α → Option (Sys τ α)
  | .scribble n x => some { s with disk := ((s.disk.rm ⟨.temp, n, n⟩).link ⟨.temp, n, n⟩ x) }
  | .crash => some { s with mem := none }
  | .recrash k =>
    match s.mem with
    | some _ => none
    | none => some { s with disk := s.disk.ops ((sanitize s.disk).1.take k) }
  | .reopen =>
    match s.mem with
    | some _ => none
    | none =>
      let r := boot M s.disk
      some { s with mem := r.2, disk := r.1, published := s.durable }
  | .begin c t =>
    match s.mem with
    | none => none
    | some m =>
      match m.clients c with
      | .idle => some (s.on { m with clients := upd m.clients c (.opened t) })
      | _ => none
  | .number c =>
    match s.mem with
    | none => none
    | some m =>
      match m.clients c with
      | .opened t => some (s.on (number M m c t))
      | _ => none
  | .vote c ok =>
    match s.mem with
    | none => none
    | some m =>
      match m.clients c with
      | .numbered id e =>
        let r := vote M s.disk id e ok
        some { s with mem := some { m with clients := upd m.clients c r.2 }, disk := r.1 }
      | _ => none
  | .commit c =>
    match s.mem with
    | none => none
    | some m =>
      match m.clients c with
      | .voted id e true => some (commitSys b s m c id e none)
      | .promised id e key => some (commitSys b s m c id e (some key))
      | _ => none
  | .unkitten c =>
    match s.mem with
    | none => none
    | some m =>
      match m.clients c with
      | .linked _ e _ =>
        some { s with mem := some { m with clients := upd m.clients c .idle },
                      disk := s.disk.rm (kittenName e.seq) }
      | _ => none
  | .abort c junk =>
    match s.mem with
    | none => none
    | some m =>
      match m.clients c with
      | .opened _ =>
        some { s with mem := some { m with clients := upd m.clients c .idle },
                      disk := s.disk.rm (kittenName junk) }
      | .voted id e _ => some { s with mem := some (abortMem M m c id), disk := s.disk.rm (kittenName e.seq) }
      | _ => none
  | .script key cs =>
    match s.mem with
    | none => none
    | some m =>
      match allVoted m cs with
      | none => none
      | some es =>
        if ¬ cs.Nodup || s.disk.scripts.any (fun x => x.key = key) then none
        else if es.any (fun e => !s.disk.has (kittenName e.seq)) then some { s with mem := none }
        else
          some { mem := some (promise m key cs)
                 disk := { s.disk with scripts := ⟨key, es.map (·.seq)⟩ :: s.disk.scripts }
                 durable := es ++ s.durable
                 published := s.published }
  | .unscript key =>
    match s.mem with
    | none => none
    | some m =>
      if (m.groups key).any (busy m key) then none
      else some { s with disk := s.disk.op (.rmScript key) }
  | .sweep =>
    match s.mem with
    | none => none
    | some m => some (s.on (sweep m))
  | .grab w start n =>
    match s.mem with
    | none => none
    | some m =>
      match m.workers w with
      | .idle => (grab m w start n).map s.on
      | _ => none
  | .make w r =>
    match s.mem with
    | none => none
    | some m =>
      match m.workers w with
      | .grabbed job sel =>
        let x := makeOut M m s.disk w job sel r
        some { s with mem := some x.1, disk := x.2 }
      | _ => none
  | .install w =>
    match s.mem with
    | none => none
    | some m =>
      match m.workers w with
      | .made _ sel out => some (s.on (install m w sel out))
      | _ => none
  | .discard w =>
    match s.mem with
    | none => none
    | some m =>
      match m.workers w with
      | .discarding [] => some (s.on { m with workers := upd m.workers w .idle })
      | .discarding (i :: l) =>
        some { s with mem := some { m with workers := upd m.workers w (.discarding l) },
                      disk := s.disk.rm (m.heap i).file }
      | _ => none
  | .rstart r =>
    match s.mem with
    | none => none
    | some m =>
      match m.readers r with
      | none => some (s.on { m with readers := upd m.readers r (some (snapshot m s.published)) })
      | some _ => none
  | .rend r =>
    match s.mem with
    | none => none
    | some m => some (s.on { m with readers := upd m.readers r none })
  | .clone r r' =>
    match s.mem with
    | none => none
    | some m =>
      match m.readers r, m.readers r' with
      | some v, none => some (s.on { m with readers := upd m.readers r' (some v) })
      | _, _ => none

end Verif.Txn
