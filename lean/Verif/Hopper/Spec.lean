/-
  Specification of solution lists ("GC-lists") and of the four lookups.

  This file is the independent specification: it mentions no state, no cursor and
  no model function.  A reader who knows the shortest-substring algebra can check it
  by eye.
-/

/-- `src/core.h:17` `constexpr addr maxfinity = INT64_MAX` -/
notation "maxfinity" => (9223372036854775807 : Int)
/-- `src/core.h:18` `constexpr addr minfinity = INT64_MIN` -/
notation "minfinity" => (-9223372036854775808 : Int)

namespace Verif.Hopper

/-- One annotation / solution: the interval `[p,q]` with value `v`.  The value of
type `fval` (`src/core.h:16`) is represented by its 64-bit pattern read as an
`addr`, so `0.0` is `0`. -/
structure Ann where
  p : Int
  q : Int
  v : Int
deriving DecidableEq, Repr

/-- A solution list, as the set of its elements. -/
abbrev GC := Ann → Prop

/-- What makes a set of annotations a solution list: every interval is non-empty and
lies strictly between the infinities; no interval is nested in (or equal to) another,
i.e. starts and ends increase together; and one interval carries one value. -/
structure Wf (S : GC) : Prop where
  lo : ∀ {a}, S a → minfinity < a.p
  hi : ∀ {a}, S a → a.q < maxfinity
  le : ∀ {a}, S a → a.p ≤ a.q
  mono : ∀ {a b}, S a → S b → a.p < b.p → a.q < b.q
  uniq : ∀ {a b}, S a → S b → a.p = b.p → a = b

/-- the answer "nothing before" -/
abbrev lowEnd : Ann := ⟨minfinity, minfinity, 0⟩
/-- the answer "nothing after" -/
abbrev highEnd : Ann := ⟨maxfinity, maxfinity, 0⟩

/-- `tau(k)`: the first solution starting at or after `k`, or the high end if there is
none; asked at `minfinity` it answers with the low end. -/
def TauSpec (S : GC) (k : Int) (r : Ann) : Prop :=
  (k = minfinity ∧ r = lowEnd) ∨
  (k ≠ minfinity ∧ S r ∧ k ≤ r.p ∧ ∀ a, S a → k ≤ a.p → r.p ≤ a.p) ∨
  (k ≠ minfinity ∧ (∀ a, S a → a.p < k) ∧ r = highEnd)

/-- `rho(k)`: the first solution ending at or after `k`. -/
def RhoSpec (S : GC) (k : Int) (r : Ann) : Prop :=
  (k = minfinity ∧ r = lowEnd) ∨
  (k ≠ minfinity ∧ S r ∧ k ≤ r.q ∧ ∀ a, S a → k ≤ a.q → r.q ≤ a.q) ∨
  (k ≠ minfinity ∧ (∀ a, S a → a.q < k) ∧ r = highEnd)

/-- `uat(k)`: the last solution ending at or before `k`. -/
def UatSpec (S : GC) (k : Int) (r : Ann) : Prop :=
  (k = maxfinity ∧ r = highEnd) ∨
  (k ≠ maxfinity ∧ S r ∧ r.q ≤ k ∧ ∀ a, S a → a.q ≤ k → a.q ≤ r.q) ∨
  (k ≠ maxfinity ∧ (∀ a, S a → k < a.q) ∧ r = lowEnd)

/-- `ohr(k)`: the last solution starting at or before `k`. -/
def OhrSpec (S : GC) (k : Int) (r : Ann) : Prop :=
  (k = maxfinity ∧ r = highEnd) ∨
  (k ≠ maxfinity ∧ S r ∧ r.p ≤ k ∧ ∀ a, S a → a.p ≤ k → a.p ≤ r.p) ∨
  (k ≠ maxfinity ∧ (∀ a, S a → k < a.p) ∧ r = lowEnd)

/-- `L(k)`: where the last solution ending at or before `k` starts. -/
def LSpec (S : GC) (k : Int) (l : Int) : Prop := ∃ r, UatSpec S k r ∧ l = r.p
/-- `R(k)`: where the first solution starting at or after `k` ends. -/
def RSpec (S : GC) (k : Int) (r : Int) : Prop := ∃ a, TauSpec S k a ∧ r = a.q

/-- k is a representable `addr` -/
abbrev InRange (k : Int) : Prop := minfinity ≤ k ∧ k ≤ maxfinity

/-! ### The operators, at set level -/

/-- The intervals of `X` that contain no other interval of `X`, with value `0.0`. -/
def minimal (X : Int → Int → Prop) : GC := fun r =>
  r.v = 0 ∧ X r.p r.q ∧ ∀ p q, X p q → r.p ≤ p → q ≤ r.q → p = r.p ∧ q = r.q

/-- intervals spanning a solution of `A` and a solution of `B` -/
def bothX (A B : GC) (p q : Int) : Prop :=
  ∃ a b, A a ∧ B b ∧ p = min a.p b.p ∧ q = max a.q b.q
/-- intervals of either -/
def eitherX (A B : GC) (p q : Int) : Prop := ∃ a, (A a ∨ B a) ∧ p = a.p ∧ q = a.q
/-- an `A` followed, without overlap, by a `B` -/
def beforeX (A B : GC) (p q : Int) : Prop :=
  ∃ a b, A a ∧ B b ∧ a.q < b.p ∧ p = a.p ∧ q = b.q

/-- `(^ A B)` -/
def allOf (A B : GC) : GC := minimal (bothX A B)
/-- `(+ A B)` -/
def oneOf (A B : GC) : GC := minimal (eitherX A B)
/-- `(... A B)` -/
def followedBy (A B : GC) : GC := minimal (beforeX A B)
/-- `a` lies inside `b` -/
def inside (a b : Ann) : Prop := b.p ≤ a.p ∧ a.q ≤ b.q
/-- `(<< A B)`: the `A`s lying inside some `B` -/
def containedIn (A B : GC) : GC := fun a => A a ∧ ∃ b, B b ∧ inside a b
/-- `(>> A B)`: the `A`s with some `B` inside -/
def containing (A B : GC) : GC := fun a => A a ∧ ∃ b, B b ∧ inside b a
/-- `(!< A B)` -/
def notContainedIn (A B : GC) : GC := fun a => A a ∧ ¬ ∃ b, B b ∧ inside a b
/-- `(!> A B)` -/
def notContaining (A B : GC) : GC := fun a => A a ∧ ¬ ∃ b, B b ∧ inside b a
/-- `(# w)`: every window of `w` consecutive addresses -/
def fixedWidth (w : Int) : GC := fun a =>
  minfinity < a.p ∧ a.q < maxfinity ∧ a.q = a.p + w - 1 ∧ a.v = 0
/-- two-way merge: the minimal intervals of the union; on equal intervals the value
comes from the left operand. -/
def mergeOf (A B : GC) : GC := fun r =>
  (A r ∨ (B r ∧ ¬ ∃ a, A a ∧ a.p = r.p ∧ a.q = r.q)) ∧
  ∀ a, (A a ∨ B a) → inside a r → a.p = r.p ∧ a.q = r.q
/-- `(@ A)`: the addresses stored as values of `A`'s solutions, as one-address
intervals. -/
def linkOf (A : GC) : GC := fun r =>
  r.q = r.p ∧ r.v = 0 ∧ minfinity < r.p ∧ r.p < maxfinity ∧ ∃ a, A a ∧ a.v = r.p
/-- union of several lists (one per shard, oldest first): minimal intervals of the
union; on equal intervals the value comes from the last list that has it. -/
def unionOf {n : Nat} (S : Fin n → GC) : GC := fun r =>
  (∃ i, S i r ∧ ∀ j a, i < j → S j a → ¬ (a.p = r.p ∧ a.q = r.q)) ∧
  ∀ j a, S j a → inside a r → a.p = r.p ∧ a.q = r.q

/-- What the C++ requires of the list behind an array hopper: starts and ends strictly
increase, and every interval is non-empty and strictly between the infinities. -/
structure Listing (l : List Ann) : Prop where
  sorted : l.Pairwise fun a b => a.p < b.p ∧ a.q < b.q
  bounds : ∀ a ∈ l, minfinity < a.p ∧ a.p ≤ a.q ∧ a.q < maxfinity

/-- list elements as a set -/
def ofList (l : List Ann) : GC := fun a => a ∈ l

end Verif.Hopper
