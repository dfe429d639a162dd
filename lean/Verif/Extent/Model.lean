import Verif.HazelText.Model
/-
  Model of what a text says about its size: `tokens` and `range` of `src/txt.h`, of the texts of
  dynamic shards (`src/fiver.cc`), of static shards (`src/hazel.cc`) and of a warren of both
  (`src/bigwig.cc`), of the texts that wrap another (`src/json_txt.cc`, `src/fastid_txt.cc`), and
  the address at which a burrow that is opened goes on (`src/bigwig.cc`).
-/
namespace Verif.Extent
open Verif.Hopper Verif.HazelText

/-- what a dynamic text remembers, src/fiver.cc 335-337: how many tokens, if it was asked
before (-1 if not), and the range, if it was asked before -/
structure Memo where
  count : Int := -1
  range : Option (Int × Int) := none

/-- src/fiver.cc 315-316: the loop of `FiverTxt::tokens_` that adds the lengths of the chunks;
`n` is what has been added so far.  The loop of the code has no bound; `fuel` has one more turn
than there are addresses. -/
def countFrom (H : Obj) : Nat → Int → Int → M H.σ Int
  | 0, _, _ => ub
  | fuel + 1, k, n => do
    let c ← H.tau k
    if c.p < maxfinity then countFrom H fuel (c.p + 1) (n + (c.q - c.p + 1)) else pure n

/-- src/fiver.cc 309-318 `FiverTxt::tokens_`, which holds the lock of the text throughout -/
def dynTokens (H : Obj) (m : Memo) : M H.σ (Int × Memo) :=
  if m.count ≥ 0 then pure (m.count, m)
  else do
    let n ← countFrom H loopFuel 0 0
    pure (n, { m with count := n })

/-- src/fiver.cc 324-328: the range is computed -/
def dynRange (H : Obj) : M H.σ (Int × Int) := do
  let a ← H.tau (minfinity + 1)
  if a.p < maxfinity then do
    let b ← H.uat (maxfinity - 1)
    pure (a.p, b.q)
  else pure (a.p, a.q)

/-- src/fiver.cc 319-334 `FiverTxt::range_`, called by one thread at a time (for more see
`Verif.Extent.Threads`): whether there is text, and the addresses put into `p` and `q` -/
def dynAskRange (H : Obj) (m : Memo) : M H.σ ((Bool × Int × Int) × Memo) :=
  match m.range with
  | some r => pure ((decide (r.1 < maxfinity), r.1, r.2), m)
  | none => do
    let r ← dynRange H
    pure ((decide (r.1 < maxfinity), r.1, r.2), { m with range := some r })

/-- src/hazel.cc 1052-1056 `HazelTxt::tokens_`; `range` is what `load_token_range` found -/
def staticTokens (range : Int × Int) : Int :=
  if range.1 = maxfinity then 0 else range.2 - range.1 + 1

/-- src/hazel.cc 1057-1066 `HazelTxt::range_` -/
def staticAskRange (range : Int × Int) : Bool × Int × Int :=
  if range.1 = maxfinity then (false, maxfinity, maxfinity) else (true, range.1, range.2)

/-- the text of a shard of a warren, with what it remembers if it is dynamic -/
structure Part where
  text : AnyReader
  memo : Memo := {}

/-- `Txt::tokens` of a shard -/
def Part.tokens (x : Part) : Option (Int × Part) :=
  match x.text with
  | .dynamic r => match dynTokens r.H x.memo r.state with
    | none => none
    | some ((n, m), s) => some (n, ⟨.dynamic { r with state := s }, m⟩)
  | .static r => some (staticTokens r.range, x)

/-- `Txt::range` of a shard -/
def Part.range (x : Part) : Option ((Bool × Int × Int) × Part) :=
  match x.text with
  | .dynamic r => match dynAskRange r.H x.memo r.state with
    | none => none
    | some ((a, m), s) => some (a, ⟨.dynamic { r with state := s }, m⟩)
  | .static r => some (staticAskRange r.range, x)

/-- src/bigwig.cc 246-251 `BigwigTxt::tokens_`; `n` is what has been added so far -/
def allTokens : Int → List Part → Option (Int × List Part)
  | n, [] => some (n, [])
  | n, x :: xs => match x.tokens with
    | none => none
    | some (k, x) => match allTokens (n + k) xs with
      | none => none
      | some (n, xs) => some (n, x :: xs)

/-- src/bigwig.cc 258-261: the first shard that has text.  Its range, the shards before it, with
it, and those after it. -/
def firstRange : List Part → Option (Option (Int × Int) × List Part × List Part)
  | [] => some (none, [], [])
  | x :: xs => match x.range with
    | none => none
    | some ((true, p, q), x) => some (some (p, q), [x], xs)
    | some ((false, _), x) => match firstRange xs with
      | none => none
      | some (r, before, after) => some (r, x :: before, after)

/-- src/bigwig.cc 268-270: the loop from the last shard down; of the shards of this list, last
first, the first that has text gives its last address -/
def lastRange : List Part → Option (Option Int × List Part)
  | [] => some (none, [])
  | x :: xs => match x.range with
    | none => none
    | some ((true, _, q), x) => some (some q, x :: xs)
    | some ((false, _), x) => match lastRange xs with
      | none => none
      | some (r, xs) => some (r, x :: xs)

/-- src/bigwig.cc 252-274 `BigwigTxt::range_` -/
def allRange (xs : List Part) : Option ((Bool × Int × Int) × List Part) :=
  match firstRange xs with
  | none => none
  | some (none, xs, _) => some ((false, maxfinity, maxfinity), xs)
  | some (some (p, q0), before, after) => match lastRange after.reverse with
    | none => none
    | some (none, after) => some ((true, p, q0), before ++ after.reverse)
    | some (some q, after) => some ((true, p, q), before ++ after.reverse)

/-- src/bigwig.cc 573-584: where the next transaction of a burrow goes that was opened with
these shards -/
def nextAddress (xs : List Part) : Option (Int × List Part) :=
  match lastRange xs.reverse with
  | none => none
  | some (none, xs) => some (0, xs.reverse)
  | some (some q, xs) => some (q + 1, xs.reverse)

/-- src/txt.h 48-55 `Txt::range_`, which texts use that have no other (`SimpleTxt`, `NullTxt`,
`FastidTxt`): `none` says that there is no text, and then `p` and `q` are left as they were -/
def plainRange (tokens : Int) : Option (Int × Int) :=
  if tokens = 0 then none else some (0, tokens - 1)

/-- a text that wraps another: src/json_txt.cc 95-97 hands both questions on,
src/fastid_txt.cc 153 only the first -/
inductive Wrapper | json | fastid

/-- `Txt::range` of a text that wraps one that answers `tokens` and `range` -/
def Wrapper.range (tokens : Int) (range : Option (Int × Int)) : Wrapper → Option (Int × Int)
  | .json => range
  | .fastid => plainRange tokens

end Verif.Extent
