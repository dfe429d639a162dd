/-
Model of the background merging of a dynamic index: which shards a merge worker picks
(src/bigwig.cc 817-1198), how workers are started and retire (`merge_worker` 1200-1337,
`Bigwig::try_merge` 1340-1350), and when they are started (`commit_`, `abort_`).

What a merge does to the contents and the files is Verif/Txn; here a shard is what the choice
looks at.  Shards picked by one worker are adjacent in `fluffle->warrens`, and Verif/Txn proves
that its output replaces just them, so the list of shards is modelled as a list of blocks: a
shard that is not being merged, or the shards one worker is merging.  Each critical section is
one step.
-/
import Verif.Txn.Survey
import Verif.Sanitize.Model
namespace Verif.Sched
open Verif.Txn (Kind FName Job)
open Verif.Sanitize (Recovery top)

/-- `small_shard`, `medium_shard`, `large_shard` bigwig.cc 818-820 -/
def small : Int := 8 * 1024 * 1024
def medium : Int := 256 * 1024 * 1024
def large : Int := 2 * medium

/-- What the choice looks at: `name()`, `estimated_size()`, `get_sequence()`. -/
structure Shard where
  kind : Kind
  size : Int
  lo : Nat
  hi : Nat
  deriving DecidableEq

/-- A member of `fluffle->warrens`, and whether it is in `fluffle->merging`.  No member is
null: all of them come from `ready_`, `make` and `merge_worker`. -/
structure Item where
  shard : Shard
  busy : Bool
  deriving DecidableEq

/-- `eligible` bigwig.cc 877-880 -/
def Item.eligible (x : Item) : Bool := !x.busy

/-- `eligible(...) && name() == "fiver"` -/
def Item.fiver (x : Item) : Bool := x.eligible && x.shard.kind = .fiver

def Item.hazel (x : Item) : Bool := x.eligible && x.shard.kind = .hazel

/-- the variables of `find_sequence` bigwig.cc 823-826 -/
structure Scan where
  bestLen : Nat
  bestStart : Nat
  curStart : Nat
  curLen : Nat
  deriving DecidableEq

/-- `if (cur_len >= 3 && cur_len > best_len) ...` bigwig.cc 833-836, 840-843 -/
def Scan.close (s : Scan) : Scan :=
  if s.curLen ≥ 3 ∧ s.curLen > s.bestLen then { s with bestLen := s.curLen, bestStart := s.curStart } else s

/-- the loop of `find_sequence` bigwig.cc 827-839 -/
def scan (i : Nat) (s : Scan) : List Bool → Scan
  | [] => s
  | true :: l =>
    scan (i + 1) { s with curStart := if s.curLen = 0 then i else s.curStart, curLen := s.curLen + 1 } l
  | false :: l => scan (i + 1) { s.close with curLen := 0 } l

/-- `find_sequence` bigwig.cc 822-850 -/
def findSequence (a : List Bool) : Option (Nat × Nat) :=
  let s := (scan 0 ⟨0, 0, 0, 0⟩ a).close
  if s.bestLen ≥ 3 then some (s.bestStart, s.bestStart + s.bestLen - 1) else none

/-- The loop of `find_smallest_pair` 859-869 and of `find_smallest_fiver_pair` 907-924:
`sum` is the sum of the sizes of a pair that may be merged. -/
def pairLoop (sum : Item → Item → Option Int) (i : Nat) (best : Option (Nat × Int)) : List Item → Option (Nat × Int)
  | x :: y :: l =>
    match sum x y with
    | none => pairLoop sum (i + 1) best (y :: l)
    | some s =>
      match best with
      | none => pairLoop sum (i + 1) (some (i, s)) (y :: l)
      | some b => if s < b.2 then pairLoop sum (i + 1) (some (i, s)) (y :: l) else pairLoop sum (i + 1) (some b) (y :: l)
  | _ => best

def smallestPair (sum : Item → Item → Option Int) (v : List Item) : Option (Nat × Nat) :=
  match pairLoop sum 0 none v with
  | none => none
  | some b => some (b.1, b.1 + 1)

/-- `find_tiny_fiver_run` bigwig.cc 890-899 -/
def findTiny (v : List Item) : Option (Nat × Nat) :=
  findSequence (v.map fun x => x.fiver && x.shard.size < small)

/-- bigwig.cc 910-918 -/
def fiverSum (x y : Item) : Option Int :=
  if !x.fiver || !y.fiver then none
  else if x.shard.size < 0 || y.shard.size < 0 || x.shard.size ≥ medium || y.shard.size ≥ medium then none
  else some (x.shard.size + y.shard.size)

/-- `find_smallest_fiver_pair` bigwig.cc 901-932 -/
def findFiverPair (v : List Item) : Option (Nat × Nat) := smallestPair fiverSum v

/-- `find_stranded_fiver_conversion` bigwig.cc 934-954; `i` is the position of the first of the
three. -/
def strandedLoop (i : Nat) : List Item → Option (Nat × Nat)
  | x :: y :: z :: l =>
    if x.shard.kind = .hazel ∧ y.shard.kind = .fiver ∧ z.shard.kind = .hazel ∧ y.eligible = true then some (i + 1, i + 1)
    else strandedLoop (i + 1) (y :: z :: l)
  | _ => none

def findStranded (v : List Item) : Option (Nat × Nat) := strandedLoop 0 v

/-- `find_oldest_large_fiver_conversion` bigwig.cc 956-969 -/
def largeLoop (i : Nat) : List Item → Option (Nat × Nat)
  | [] => none
  | x :: l => if x.fiver = true ∧ x.shard.size ≥ medium then some (i, i) else largeLoop (i + 1) l

def findLarge (v : List Item) : Option (Nat × Nat) := largeLoop 0 v

/-- the variables of `find_lone_fiver_cleanup` bigwig.cc 1035-1039 -/
structure Lone where
  fiver : Option (Nat × Bool)
  hazels : Nat
  smallest : Int
  deriving DecidableEq

/-- its loop, `none` for `return false`: bigwig.cc 1040-1056 -/
def loneLoop (i : Nat) (s : Lone) : List Item → Option Lone
  | [] => some s
  | x :: l =>
    match x.shard.kind with
    | .fiver => if s.fiver.isSome then none else loneLoop (i + 1) { s with fiver := some (i, x.eligible) } l
    | .hazel =>
      loneLoop (i + 1)
        { s with smallest := if s.hazels = 0 ∨ x.shard.size < s.smallest then x.shard.size else s.smallest
                 hazels := s.hazels + 1 } l
    | _ => none

/-- `find_lone_fiver_cleanup` bigwig.cc 1033-1067 -/
def findLone (v : List Item) : Option (Nat × Nat) :=
  match loneLoop 0 ⟨none, 0, 0⟩ v with
  | none => none
  | some s =>
    match s.fiver with
    | some (i, true) => if s.hazels = 1 ∨ (s.hazels > 1 ∧ s.smallest > large) then some (i, i) else none
    | _ => none

/-- `find_fiver_action` bigwig.cc 1069-1082 -/
def findFiver (v : List Item) : Option (Nat × Nat) :=
  (findLone v).or ((findTiny v).or ((findStranded v).or ((findLarge v).or (findFiverPair v))))

/-- `hazel_merge_okay` bigwig.cc 882-888 -/
def hazelOkay (max : Nat) (v : List Item) : Bool :=
  (v.filter fun x => x.busy && x.shard.kind = .hazel).length + 1 < max

/-- bigwig.cc 988-993, with `same_sequence` 971-978 -/
def matchAt : List FName → List Item → Bool
  | [], _ => true
  | _ :: _, [] => false
  | s :: ss, x :: xs => x.hazel && (s.lo = x.shard.lo && s.hi = x.shard.hi) && matchAt ss xs

/-- bigwig.cc 985-1004 -/
def matchLoop (sources : List FName) (i : Nat) : List Item → Option (Nat × Nat)
  | [] => none
  | x :: l =>
    if matchAt sources (x :: l) then some (i, i + sources.length - 1) else matchLoop sources (i + 1) l

/-- `find_recovered_hazel_merge` bigwig.cc 980-1007 -/
def findRecovered : List Recovery → List Item → Option (Nat × Nat)
  | [], _ => none
  | r :: rs, v =>
    if r.sources.length < 2 then findRecovered rs v
    else match matchLoop r.sources 0 v with
      | some p => some p
      | none => findRecovered rs v

/-- `find_smallest_hazel_pair` bigwig.cc 1009-1018 and 865-867 -/
def hazelSum (x y : Item) : Option Int :=
  if x.hazel && y.hazel && x.shard.size ≥ 0 && y.shard.size ≥ 0 then some (x.shard.size + y.shard.size) else none

def findHazelPair (v : List Item) : Option (Nat × Nat) := smallestPair hazelSum v

/-- `find_hazel_action` bigwig.cc 1020-1031 -/
def findHazel (max : Nat) (recs : List Recovery) (v : List Item) : Option (Nat × Nat) :=
  if hazelOkay max v then (findRecovered recs v).or (findHazelPair v) else none

/-- `find_merge_action` bigwig.cc 1084-1091 -/
def findAction (max : Nat) (recs : List Recovery) (v : List Item) : Option (Nat × Nat) :=
  (findFiver v).or (findHazel max recs v)

/-- the loop of `validate_hazel_action` bigwig.cc 1169-1185 -/
def sequential (prev : Option Nat) : List Shard → Bool
  | [] => true
  | s :: l =>
    s.lo ≤ s.hi && (match prev with | none => true | some p => p != top && s.lo == p + 1) && sequential (some s.hi) l

/-- The three validations, bigwig.cc 1095-1198, in the order of 1256-1266.  `disk` says
whether there is a working directory. -/
def validate (disk : Bool) (sel : List Item) : Option Job :=
  if sel.length = 1 ∧ sel.all (·.fiver) = true then some .convert
  else if sel.length ≥ 2 ∧ sel.all (·.fiver) = true then some .fiverMerge
  else if disk = true ∧ sel.length ≥ 2 ∧ sel.all (·.hazel) = true ∧ sequential none (sel.map (·.shard)) = true then
    some .hazelMerge
  else none

/-- `hazel_recovery_conflicts` bigwig.cc 1133-1141 -/
def conflicts (lo hi : Nat) (r : Recovery) : Bool :=
  (r.lo ≤ hi && lo ≤ r.hi) || r.sources.any fun s => s.lo ≤ hi && lo ≤ s.hi

/-- What a worker decides to do: bigwig.cc 1228-1267. -/
structure Choice where
  job : Job
  start : Nat
  sel : List Item
  deriving DecidableEq

def choose (disk : Bool) (max : Nat) (recs : List Recovery) (v : List Item) : Option Choice :=
  match findAction max recs v with
  | none => none
  | some (i, j) =>
    if i > j ∨ j ≥ v.length then none
    else
      let sel := (v.drop i).take (j - i + 1)
      if sel.any (·.busy) then none
      else (validate disk sel).map fun job => ⟨job, i, sel⟩

/-- `clear_conflicting_hazel_recoveries`, called for static merges: bigwig.cc 1143-1151,
1195-1196 -/
def clearRecs (c : Choice) (recs : List Recovery) : List Recovery :=
  match c.job, c.sel.head?, c.sel.getLast? with
  | .hazelMerge, some a, some b => recs.filter fun r => !conflicts a.shard.lo b.shard.hi r
  | _, _, _ => recs

/-! ### The workers -/

inductive Block
  /-- a shard that nobody is merging -/
  | free (s : Shard)
  /-- the shards one worker is merging -/
  | busy (job : Job) (l : List Shard)
  deriving DecidableEq

def Block.shards : Block → List Shard
  | .free s => [s]
  | .busy _ l => l

def Block.items : Block → List Item
  | .free s => [⟨s, false⟩]
  | .busy _ l => l.map (⟨·, true⟩)

def Block.working : Block → Nat
  | .free _ => 0
  | .busy _ _ => 1

/-- `fluffle->warrens` and `fluffle->merging` -/
def view (bs : List Block) : List Item := bs.flatMap Block.items

/-- `fluffle->merging.insert` for the selection, which starts at position `i`: bigwig.cc
1272-1273 -/
def mark (job : Job) (n : Nat) : Nat → List Block → List Block
  | _, [] => []
  | 0, b :: bs => .busy job (((b :: bs).take n).flatMap Block.shards) :: (b :: bs).drop n
  | i + 1, .free s :: bs => .free s :: mark job n i bs
  | i + 1, .busy j l :: bs => .busy j l :: mark job n (i + 1 - l.length) bs

/-- The shard that takes the place of the merged ones: its kind and sequence range are as in
fiver.cc 597-598 and hazel.cc 1951-1975; its size is whatever it is. -/
def output (job : Job) (l : List Shard) (size : Int) : Shard :=
  { kind := match job with | .fiverMerge => .fiver | _ => .hazel
    size := size
    lo := match l.head? with | some s => s.lo | none => 0
    hi := match l.getLast? with | some s => s.hi | none => 0 }

/-- removal of aborted transactions: bigwig.cc 1216-1227 -/
def keepBlock : Block → Bool
  | .free s => s.kind ≠ .remove
  | .busy _ _ => true

/-- The whole system.  `idle` is the number of workers that run and have not yet chosen;
`owed` the number of writers that have committed or aborted and not yet called `try_merge`. -/
structure Sys where
  disk : Bool
  max : Nat
  blocks : List Block
  next : Nat
  recs : List Recovery
  idle : Nat
  owed : Nat

/-- `fluffle->workers` -/
def Sys.workers (s : Sys) : Nat := s.idle + (s.blocks.map Block.working).sum

inductive Label
  | ready | commit | abort | start | pick | retire | finish | fail
  deriving DecidableEq

inductive Step : Sys → Label → Sys → Prop
  /-- `Bigwig::ready_` bigwig.cc 807-815: the transaction gets its number and its place -/
  | ready {s : Sys} {n : Int} :
      Step s .ready { s with blocks := s.blocks ++ [.free ⟨.kitten, n, s.next, s.next⟩], next := s.next + 1 }
  /-- `Bigwig::commit_` bigwig.cc 1352-1357 -/
  | commit {s : Sys} {pre post : List Block} {x : Shard} {n : Int} (hx : x.kind = .kitten) (hn : 0 ≤ n)
      (h : s.blocks = pre ++ .free x :: post) :
      Step s .commit { s with blocks := pre ++ .free { x with kind := .fiver, size := n } :: post, owed := s.owed + 1 }
  /-- `Bigwig::abort_` bigwig.cc 1410-1414 -/
  | abort {s : Sys} {pre post : List Block} {x : Shard} (hx : x.kind = .kitten)
      (h : s.blocks = pre ++ .free x :: post) :
      Step s .abort { s with blocks := pre ++ .free { x with kind := .remove } :: post, owed := s.owed + 1 }
  /-- `Bigwig::try_merge` bigwig.cc 1340-1350 -/
  | start {s : Sys} (h : 0 < s.owed) :
      Step s .start { s with owed := s.owed - 1, idle := if s.workers < s.max then s.idle + 1 else s.idle }
  /-- a worker finds something to do: bigwig.cc 1214-1281 -/
  | pick {s : Sys} {c : Choice} (h : 0 < s.idle)
      (hc : choose s.disk s.max s.recs (view (s.blocks.filter keepBlock)) = some c) :
      Step s .pick
        { s with
          blocks := mark c.job c.sel.length c.start (s.blocks.filter keepBlock)
          recs := clearRecs c s.recs
          idle := s.idle - 1 + if s.workers < s.max then 1 else 0 }
  /-- a worker finds nothing to do: bigwig.cc 1230-1271 -/
  | retire {s : Sys} (h : 0 < s.idle)
      (hc : choose s.disk s.max s.recs (view (s.blocks.filter keepBlock)) = none) :
      Step s .retire { s with blocks := s.blocks.filter keepBlock, idle := s.idle - 1 }
  /-- a merge is done: bigwig.cc 1292-1335; the worker goes on -/
  | finish {s : Sys} {pre post : List Block} {job : Job} {l : List Shard} {n : Int} (hn : 0 ≤ n)
      (h : s.blocks = pre ++ .busy job l :: post) :
      Step s .finish { s with blocks := pre ++ .free (output job l n) :: post, idle := s.idle + 1 }
  /-- a merge has failed: bigwig.cc 1294-1299; the worker retires -/
  | fail {s : Sys} {pre post : List Block} {job : Job} {l : List Shard}
      (h : s.blocks = pre ++ .busy job l :: post) :
      Step s .fail { s with blocks := pre ++ l.map .free ++ post }

/-- any number of steps, with their labels -/
inductive Run : Sys → List Label → Sys → Prop
  | nil {s : Sys} : Run s [] s
  | cons {s t u : Sys} {a : Label} {as : List Label} (h : Step s a t) (r : Run t as u) : Run s (a :: as) u

end Verif.Sched
