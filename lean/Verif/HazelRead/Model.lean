import Verif.HazelRead.Spec
/-
  Model of how the index of a static shard is read by many threads (src/hazel.cc:161-312, 316-325; `OwslaCache`, src/owsla.h:99-135;
  `ArrayHopper::bind`, src/array_hopper.cc:189-218).  What `OwslaCache::get` does under its lock is one step.  A posting is filled by one
  thread: the caller of `posting` or a thread of its own for `hopper`; each annotation is pushed in a step of its own, so that everything
  half done can be seen, if anybody looks.  `wait` is possible when the gate is open (C57 is about the gate).
-/
namespace Verif.HazelRead

/-- `src/hazel.cc:174-179` -/
def bogus (n : Nat) : List Ann := (List.range n).map fun (i : Nat) => (minfinity + 1 + (i : Int), minfinity + 2 + (i : Int), 0)

/-- where the thread that fills a posting is: before reading, with so much to push still, done -/
inductive Phase
  | start
  | pushing (todo : List Ann)
  | done
deriving DecidableEq

/-- a `SimplePosting` in the cache, with the thread that fills it -/
structure Rec where
  feature : Int
  n : Nat
  data : List Ann
  phase : Phase
  opened : Bool
  /-- reading failed; not in the code -/
  failed : Bool
deriving DecidableEq

/-- `src/owsla.h:114-119`: a new posting, with a closed gate -/
def Rec.new (f : Int) (n : Nat) : Rec := ⟨f, n, [], .start, false, false⟩

/-- `src/hazel.cc:186-198`: what will be pushed; `ok`: the bytes could be read.  Without assertions. -/
def goal (s : Shard) (f : Int) (n : Nat) (ok : Bool) : List Ann × Bool :=
  match ok, s.postings f with
  | true, some (g, l) => if g = f ∧ l.length = n then (l, false) else (bogus n, true)
  | _, _ => (bogus n, true)

/-- a step of the thread that fills: `src/hazel.cc:181-199` -/
def Rec.step (s : Shard) (ok : Bool) (r : Rec) : Option Rec :=
  match r.phase with
  | .start => some { r with phase := .pushing (goal s r.feature r.n ok).1, failed := (goal s r.feature r.n ok).2 }
  | .pushing (x :: xs) => some { r with data := r.data ++ [x], phase := .pushing xs }
  | .pushing [] => some { r with opened := true, phase := .done }
  | .done => none

/-- A call: the posting it waits for (`none`: it needs none), and what it gave; for a hopper, what it shows when it is used. -/
structure Ask where
  feature : Int
  kind : Kind
  record : Option Nat
  got : Option Ans

structure Sys where
  shard : Shard
  recs : List Rec
  cache : Int → Option Nat
  /-- all calls so far; not in the code -/
  asks : List Ask
  /-- all features whose postings were read; not in the code -/
  reads : List Int

inductive Act
  /-- a thread calls `hopper` or `posting` -/
  | ask (k : Kind) (f : Int)
  /-- call `k` returns, or its hopper is used for the first time -/
  | use (k : Nat)
  /-- the thread that fills a posting makes a step; `ok`: reading succeeds, should it read -/
  | fill (r : Nat) (ok : Bool)

/-- `src/owsla.h:103-120` -/
def get (s : Sys) (f : Int) (n : Nat) : Nat × Sys :=
  match s.cache f with
  | some r => (r, s)
  | none => (s.recs.length, { s with
      recs := s.recs ++ [Rec.new f n]
      cache := fun g => if g = f then some s.recs.length else s.cache g })

/-- `src/hazel.cc:249-276` and `src/hazel.cc:287-315` -/
def ask (s : Sys) (k : Kind) (f : Int) : Sys :=
  match s.shard.directory f with
  | none => { s with asks := s.asks ++ [⟨f, k, none, some (if k = .posting then .null else .list [])⟩] }
  | some (.single p) => { s with asks := s.asks ++ [⟨f, k, none, some (.list [(p, p, 0)])⟩] }
  | some (.stored n) => { (get s f n).2 with asks := s.asks ++ [⟨f, k, some (get s f n).1, none⟩] }

/-- `entry->wait()` in `posting`, and `ArrayHopper::bind` -/
def use (s : Sys) (k : Nat) : Option Sys :=
  match s.asks[k]? with
  | none => none
  | some a =>
    match a.got, a.record with
    | none, some r =>
      match s.recs[r]? with
      | none => none
      | some x => if x.opened then some { s with asks := s.asks.set k { a with got := some (.list x.data) } } else none
    | _, _ => none

def fill (s : Sys) (r : Nat) (ok : Bool) : Option Sys :=
  match s.recs[r]? with
  | none => none
  | some x =>
    match x.step s.shard ok with
    | none => none
    | some y => some { s with
        recs := s.recs.set r y
        reads := if x.phase = .start then s.reads ++ [x.feature] else s.reads }

def step (s : Sys) : Act → Option Sys
  | .ask k f => some (ask s k f)
  | .use k => use s k
  | .fill r ok => fill s r ok

inductive Runs : Sys → List Act → Sys → Prop
  | nil (s) : Runs s [] s
  | snoc {s s' s'' : Sys} {l : List Act} {a : Act} : Runs s l s' → step s' a = some s'' → Runs s (l ++ [a]) s''

/-- `HazelIdx::make` -/
def Sys.new (shard : Shard) : Sys := ⟨shard, [], fun _ => none, [], []⟩

/-- `src/hazel.cc:316-324` -/
def count (s : Shard) (f : Int) : Nat :=
  match s.directory f with
  | none => 0
  | some (.single _) => 1
  | some (.stored n) => n

end Verif.HazelRead
