/-
Model of `Hazel::sanitize` (src/hazel.cc 1814-1909): what is removed from the directory of
static shards when a burrow is opened, and which interrupted merges are reported as
restartable.

A directory is the list of its file names, in the order `Working::ls` lists them.  Names are
modelled by what the parsers read in them (Verif/Names has the parsers): simplified in that
one kind and one range have one name (the code writes zero-padded names only, owsla.cc 27-34).
The sort of `normalize_hazel_shards` and the check of the dead shards are those of
Verif/Txn/Model (`survey`).  Every removal is one step, so that the process may be
killed between any two, and a removal that fails is a process that stops there.
-/
import Verif.Txn.Survey
namespace Verif.Sanitize
open Verif.Txn

/-- The names in a burrow, as `Hazel::sanitize` tells them apart.
`shard`: `hazel.<lo>.<hi>`; `oldTmp`, `oldPst`, `oldDct`: `hazel.<lo>.<hi>.tmp` and so on
(`parse_old_hazel_sidecar` hazel.cc 1531-1542); `mrg`, `pst`, `dct`: `mrg.hazel.<lo>.<hi>`
and so on (`parse_hazel_sidecar` 1544-1551); `junk`: another name that starts with
`hazel`; `other`: any other name. -/
inductive What | shard | oldTmp | oldPst | oldDct | mrg | pst | dct | junk | other
  deriving DecidableEq

structure File where
  what : What
  lo : Nat
  hi : Nat
  deriving DecidableEq

/-- `numeric_limits<addr>::max()`, core.h -/
def top : Nat := 9223372036854775807

/-- a static shard as `OwslaShard` -/
def shardOf (f : File) : Option FName := if f.what = .shard then some ⟨.hazel, f.lo, f.hi⟩ else none

/-- the file of a shard -/
def fileOf (s : FName) : File := ⟨.shard, s.lo, s.hi⟩

/-- `found` hazel.cc 1825-1838 -/
def shards (dir : List File) : List FName := dir.filterMap shardOf

def isOld (f : File) : Bool := f.what = .oldTmp || f.what = .oldPst || f.what = .oldDct

/-- `old_sidecars` hazel.cc 1826-1835 -/
def olds (dir : List File) : List File := dir.filter isOld

def isSidecar (f : File) : Bool := f.what = .mrg || f.what = .pst || f.what = .dct

/-- a key of the map `sidecars`: `std::pair<addr, addr>` -/
abbrev Key := Nat × Nat

def keyLt (a b : Key) : Bool := a.1 < b.1 || (a.1 == b.1 && a.2 < b.2)

/-- `sidecars[key]`: `std::map` keeps its keys in order and each one once -/
def addKey (k : Key) : List Key → List Key
  | [] => [k]
  | x :: l => if keyLt k x then k :: x :: l else if k = x then x :: l else x :: addKey k l

/-- the keys of the map after the three calls of `add_sidecars` hazel.cc 1846-1867 -/
def keys (dir : List File) : List Key :=
  (((dir.filter fun f => f.what = .mrg) ++ (dir.filter fun f => f.what = .pst) ++
    (dir.filter fun f => f.what = .dct)).map fun f => (f.lo, f.hi)).foldl (fun l k => addKey k l) []

def has (dir : List File) (s : What) (k : Key) : Bool := dir.any fun f => f = ⟨s, k.1, k.2⟩

/-- `sidecar.names` of one key, those that start with `mrg.` -/
def mrgNames (dir : List File) (k : Key) : List File := dir.filter fun f => f = ⟨.mrg, k.1, k.2⟩

/-- `sidecar.names` of one key, the others, in the order they were added -/
def ckNames (dir : List File) (k : Key) : List File :=
  (dir.filter fun f => f = ⟨.pst, k.1, k.2⟩) ++ (dir.filter fun f => f = ⟨.dct, k.1, k.2⟩)

/-- `has_hazel` hazel.cc 1599-1604 -/
def hasHazel (living : List FName) (k : Key) : Bool := living.any fun h => h.lo = k.1 && h.hi = k.2

/-- The inner loop of `hazel_source_group` hazel.cc 1614-1629: `none` is `break` or the end
of the list, `some` is `return`. -/
def run (stop : Nat) : Nat → List FName → List FName → Option (Option (List FName))
  | _, [], _ => none
  | next, h :: l, group =>
    if h.lo ≠ next ∨ h.hi > stop then none
    else if h.hi = stop then
      if (group ++ [h]).length < 2 then some none else some (some (group ++ [h]))
    else if h.hi = top then none
    else run stop (h.hi + 1) l (group ++ [h])

/-- `hazel_source_group` hazel.cc 1606-1632 -/
def sourceGroup (start stop : Nat) : List FName → Option (List FName)
  | [] => none
  | h :: l =>
    if h.lo ≠ start then sourceGroup start stop l
    else match run stop start (h :: l) [] with
      | some r => r
      | none => sourceGroup start stop l

/-- `HazelMergeRecovery` owsla.h 59-65 -/
structure Recovery where
  lo : Nat
  hi : Nat
  sources : List FName
  deriving DecidableEq

/-- One turn of the loop over `sidecars` hazel.cc 1870-1895: what it removes and whether
the merge is restartable. -/
def turn (dir : List File) (living : List FName) (k : Key) : List File × Option Recovery :=
  if hasHazel living k then (mrgNames dir k ++ ckNames dir k, none)
  else match (if has dir .pst k && has dir .dct k then sourceGroup k.1 k.2 living else none) with
    | some sources => (mrgNames dir k, some ⟨k.1, k.2, sources⟩)
    | none => (mrgNames dir k ++ ckNames dir k, none)

/-- the order of `std::sort(restartable)`: by the target's start, then its end.
owsla.h 52-65 -/
def recLe (a b : Recovery) : Bool := a.lo < b.lo || (a.lo == b.lo && a.hi ≤ b.hi)

/-- `std::sort` -/
def insertRec (r : Recovery) : List Recovery → List Recovery
  | [] => [r]
  | x :: l => if recLe r x then r :: x :: l else x :: insertRec r l

structure Result where
  /-- the files removed, in order -/
  removed : List File
  living : List FName
  recoveries : List Recovery
  deriving DecidableEq

/-- `Hazel::sanitize` hazel.cc 1814-1909; `none` is a reported error, before anything was
removed. -/
def sanitize (dir : List File) : Option Result :=
  if dir.any fun f => f.what = .junk then none
  else match survey (shards dir) with
    | none => none
    | some (living, dead) =>
      let turns := (keys dir).map (turn dir living)
      some
        { removed := turns.flatMap (·.1) ++ dead.map fileOf ++ olds dir
          living := living
          recoveries := (turns.filterMap (·.2)).foldr insertRec [] }

/-- `Working::remove`, for each of the names -/
def without (dir gone : List File) : List File := dir.filter fun f => !gone.contains f

end Verif.Sanitize
