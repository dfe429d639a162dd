/-
  Model of the cache of `SimpleIdx` (src/simple_idx.cc 233-441, as compiled without ejection:
  src/simple_idx.h 4) and of the hopper that waits for it (src/array_hopper.cc 189-218).

  Any number of threads ask for hoppers and counts; each record is filled by a thread of its
  own, which has one more thread for the ends and one for the values.  What is done under
  `cache_lock_` is one step.  `wait` is possible when the gate is open (Verif/Cache/Gate.lean).
-/
namespace Verif.Cache

/-- what the file has for a feature: where its annotations begin, where they end (`none`: the same), and their values (`none`: all 0) -/
structure Posting where
  ps : List Int
  qs : Option (List Int)
  fs : Option (List Int)
deriving DecidableEq

/-- `.pst` with its directory `pst_map_`, by feature -/
abbrev File := Int → Option Posting

/-- an array: no memory yet, memory not yet written, written -/
inductive Cell
  | unset
  | raw
  | full (l : List Int)
deriving DecidableEq

/-- where the thread that runs `decompress_cache` is: at its beginning (274), decompressing the
beginnings (296), waiting for the ends (299-300), waiting for the values (301-302), before
`release` (303), done -/
inductive Main | start | starts | joinQ | joinF | release | done
deriving DecidableEq

/-- `CacheRecord` (array_hopper.h 15-23) with the threads that fill it -/
structure Rec where
  /-- the feature, and how many resets there were when it was made; not in the code -/
  feature : Int
  born : Nat
  /-- what was read from the file into `storage` (331-334) -/
  goal : Posting
  n : Nat
  p : Cell
  /-- `none`: the same array as the beginnings -/
  q : Option Cell
  /-- `none`: `nullptr` -/
  f : Option Cell
  main : Main
  /-- the threads of the ends and the values have something to do -/
  runQ : Bool
  runF : Bool
  opened : Bool
deriving DecidableEq

/-- 326-336: a new record -/
def Rec.new (feature : Int) (born : Nat) (x : Posting) : Rec :=
  ⟨feature, born, x, x.ps.length, .unset, some .unset, none, .start, false, false, false⟩

/-- the next step of the thread that fills the record, 268-304 -/
def Rec.step (r : Rec) : Option Rec :=
  match r.main with
  | .start => some { r with
      p := .raw
      q := match r.goal.qs with | none => none | some _ => some .raw
      runQ := r.goal.qs.isSome
      f := match r.goal.fs with | none => none | some _ => some .raw
      runF := r.goal.fs.isSome
      main := .starts }
  | .starts => some { r with p := .full r.goal.ps, main := .joinQ }
  | .joinQ => if r.runQ then none else some { r with main := .joinF }
  | .joinF => if r.runF then none else some { r with main := .release }
  | .release => some { r with opened := true, main := .done }
  | .done => none

/-- the thread of the ends, 283-285 -/
def Rec.stepQ (r : Rec) : Option Rec :=
  if r.runQ then some { r with q := r.goal.qs.map .full, runQ := false } else none

/-- the thread of the values, 291-293 -/
def Rec.stepF (r : Rec) : Option Rec :=
  if r.runF then some { r with f := r.goal.fs.map .full, runF := false } else none

/-- what a hopper shows -/
inductive Ans
  /-- `EmptyHopper` -/
  | empty
  | posting (x : Posting)
  /-- it has read memory that was not written, or not there -/
  | torn
deriving DecidableEq

/-- array_hopper.cc 207-217, simple_idx.cc 373-380: what is read when the gate was passed -/
def Rec.read (r : Rec) : Ans :=
  match r.p, r.q, r.f with
  | .full p, none, none => .posting ⟨p, none, none⟩
  | .full p, some (.full q), none => .posting ⟨p, some q, none⟩
  | .full p, none, some (.full f) => .posting ⟨p, none, some f⟩
  | .full p, some (.full q), some (.full f) => .posting ⟨p, some q, some f⟩
  | _, _, _ => .torn

/-- A call of `hopper`: the record it got (`none`: no record), and what its hopper showed, if it
was used. -/
structure Ask where
  feature : Int
  /-- the file when `load_cache` ran; not in the code -/
  seen : File
  record : Option Nat
  got : Option Ans

/-- A call of `count`, with the file when it ran and the answer. -/
structure Count where
  feature : Int
  seen : File
  answer : Nat

structure Sys where
  file : File
  /-- how many resets there were; not in the code -/
  resets : Nat
  recs : List Rec
  cache : Int → Option Nat
  counts : Int → Option Nat
  /-- all calls so far; not in the code -/
  asks : List Ask
  counted : List Count

inductive Act
  /-- a thread calls `hopper` -/
  | ask (f : Int)
  /-- the hopper of call `k` is used for the first time -/
  | bind (k : Nat)
  /-- a thread calls `count` -/
  | count (f : Int)
  /-- the threads that fill record `r` -/
  | fill (r : Nat)
  | fillQ (r : Nat)
  | fillF (r : Nat)
  /-- `reset`, after the file was changed -/
  | reset (file : File)

/-- 308-366 `load_cache` -/
def load (s : Sys) (f : Int) : Option Nat × Sys :=
  match s.cache f with
  | some r => (some r, s)
  | none =>
    match s.file f with
    | none => (none, s)
    | some x =>
      (some s.recs.length, { s with
        recs := s.recs ++ [Rec.new f s.resets x]
        cache := fun g => if g = f then some s.recs.length else s.cache g })

/-- 368-384 `hopper_`: without a record, or with an empty one, there is an `EmptyHopper` -/
def ask (s : Sys) (f : Int) : Sys :=
  let x := load s f
  let empty := match x.1 with
    | none => true
    | some r => match x.2.recs[r]? with | none => true | some c => c.n == 0
  { x.2 with asks := s.asks ++ [⟨f, s.file, x.1, if empty then some .empty else none⟩] }

/-- 386-417 `count_`: the answer and the counts that are remembered -/
def count (s : Sys) (f : Int) : Nat × Sys :=
  match s.counts f with
  | some n => (n, s)
  | none =>
    match s.cache f with
    | some r =>
      match s.recs[r]? with
      | some c => (c.n, { s with counts := fun g => if g = f then some c.n else s.counts g })
      | none => (0, s)
    | none =>
      match s.file f with
      | none => (0, s)
      | some x => (x.ps.length, { s with counts := fun g => if g = f then some x.ps.length else s.counts g })

/-- 233-259 `reset_` -/
def reset (s : Sys) (file : File) : Sys :=
  { s with file := file, resets := s.resets + 1, cache := fun _ => none, counts := fun _ => none }

def Sys.onRec (s : Sys) (r : Nat) (g : Rec → Option Rec) : Option Sys :=
  match s.recs[r]? with
  | none => none
  | some x =>
    match g x with
    | none => none
    | some y => some { s with recs := s.recs.set r y }

def step (s : Sys) : Act → Option Sys
  | .ask f => some (ask s f)
  | .bind k =>
    match s.asks[k]? with
    | none => none
    | some a =>
      match a.got, a.record with
      | none, some r =>
        match s.recs[r]? with
        | none => none
        | some x => if x.opened then some { s with asks := s.asks.set k { a with got := some x.read } } else none
      | _, _ => none
  | .count f =>
    let x := count s f
    some { x.2 with counted := s.counted ++ [⟨f, s.file, x.1⟩] }
  | .fill r => s.onRec r Rec.step
  | .fillQ r => s.onRec r Rec.stepQ
  | .fillF r => s.onRec r Rec.stepF
  | .reset file => some (reset s file)

inductive Runs : Sys → List Act → Sys → Prop
  | nil (s) : Runs s [] s
  | snoc {s s' s'' : Sys} {l : List Act} {a : Act} : Runs s l s' → step s' a = some s'' → Runs s (l ++ [a]) s''

/-- `SimpleIdx::make` -/
def Sys.new (file : File) : Sys := ⟨file, 0, [], fun _ => none, fun _ => none, [], []⟩

end Verif.Cache
