import Verif.Hopper.Spec
/-
  Model of the hopper classes: `src/hopper.h`, `src/hopper.cc`, `src/array_hopper.cc`,
  `gcl/gcl.cc`, `gcl/vector_hopper.cc`, `gcl/materialize.cc`.

  A hopper class is an object (`Obj`): a state type and its public methods, each a
  function `State → Option (Answer × State)`.  `none` stands for undefined behaviour:
  signed overflow, an array index out of range, or a loop that does not end within
  `loopFuel` iterations.  The theorems show that `none` is never produced.
-/
namespace Verif.Hopper

/-- state-passing computations that may go wrong -/
abbrev M (σ : Type) (α : Type) := StateT σ Option α

/-- undefined behaviour -/
def ub {σ α : Type} : M σ α := fun _ => none

/-- checked `int64` result of an addition or subtraction: signed overflow is undefined
behaviour -/
def ck {σ : Type} (x : Int) : M σ Int := fun s =>
  if minfinity ≤ x ∧ x ≤ maxfinity then some (x, s) else none

/-- Number of iterations allowed to a search loop: more than there are addresses. -/
abbrev loopFuel : Nat := 18446744073709551618

/-- The public interface of `class Hopper` (`src/hopper.h:8-124`).  The overloads
without a value (77-92) or with an `addr` value (64-75) only reinterpret the output. -/
structure Obj where
  σ : Type
  /-- state of a freshly constructed object -/
  init : σ
  tau : Int → M σ Ann
  rho : Int → M σ Ann
  uat : Int → M σ Ann
  ohr : Int → M σ Ann
  L : Int → M σ Int
  R : Int → M σ Int

/-- The memo fields `tau_k_, tau_p_, …, ohr_v_` with their initial values
(`src/hopper.h:101-123`). -/
structure Memo where
  tk : Int := minfinity
  tr : Ann := lowEnd
  rk : Int := minfinity
  rr : Ann := lowEnd
  uk : Int := maxfinity
  ur : Ann := highEnd
  ok : Int := maxfinity
  or : Ann := highEnd

/-- State of a hopper object: memo fields plus the members of the derived class. -/
structure St (τ : Type) where
  memo : Memo
  sub : τ

/-- `Hopper::tau` (`src/hopper.h:19-29`).  The C++ stores `tau_k_` before it calls
`tau_`, which then writes through pointers to the memo fields; no `tau_` below calls
`tau` on the same object, so storing all of it afterwards is the same. -/
def memoTau {τ} (body : Int → M (St τ) Ann) (k : Int) : M (St τ) Ann := fun s =>
  if k ≠ s.memo.tk then
    match body k s with
    | none => none
    | some (r, s') => some (r, { s' with memo := { s'.memo with tk := k, tr := r } })
  else some (s.memo.tr, s)

/-- `Hopper::rho` (`src/hopper.h:30-40`) -/
def memoRho {τ} (body : Int → M (St τ) Ann) (k : Int) : M (St τ) Ann := fun s =>
  if k ≠ s.memo.rk then
    match body k s with
    | none => none
    | some (r, s') => some (r, { s' with memo := { s'.memo with rk := k, rr := r } })
  else some (s.memo.rr, s)

/-- `Hopper::uat` (`src/hopper.h:41-51`) -/
def memoUat {τ} (body : Int → M (St τ) Ann) (k : Int) : M (St τ) Ann := fun s =>
  if k ≠ s.memo.uk then
    match body k s with
    | none => none
    | some (r, s') => some (r, { s' with memo := { s'.memo with uk := k, ur := r } })
  else some (s.memo.ur, s)

/-- `Hopper::ohr` (`src/hopper.h:52-62`) -/
def memoOhr {τ} (body : Int → M (St τ) Ann) (k : Int) : M (St τ) Ann := fun s =>
  if k ≠ s.memo.ok then
    match body k s with
    | none => none
    | some (r, s') => some (r, { s' with memo := { s'.memo with ok := k, or := r } })
  else some (s.memo.or, s)

/-- `Hopper::L_` (`src/hopper.cc:7-11`) -/
def defaultL {σ} (uat : Int → M σ Ann) (k : Int) : M σ Int := do return (← uat k).p
/-- `Hopper::R_` (`src/hopper.cc:13-17`) -/
def defaultR {σ} (tau : Int → M σ Ann) (k : Int) : M σ Int := do return (← tau k).q

/-! ### EmptyHopper, SingletonHopper, FixedWidthHopper -/

/-- `EmptyHopper` (`src/hopper.cc:19-45`) -/
def emptyObj : Obj where
  σ := St Unit
  init := ⟨{}, ()⟩
  tau := memoTau fun k => pure (if k = minfinity then lowEnd else highEnd)
  rho := memoRho fun k => pure (if k = minfinity then lowEnd else highEnd)
  uat := memoUat fun k => pure (if k = maxfinity then highEnd else lowEnd)
  ohr := memoOhr fun k => pure (if k = maxfinity then highEnd else lowEnd)
  L := defaultL (memoUat fun k => pure (if k = maxfinity then highEnd else lowEnd))
  R := defaultR (memoTau fun k => pure (if k = minfinity then lowEnd else highEnd))

/-- `SingletonHopper::tau_` (`src/hopper.cc:47-57`); the members `p_, q_, v_` never
change and are the parameter `a`. -/
def singleTau (a : Ann) (k : Int) : M (St Unit) Ann :=
  pure (if k = minfinity then lowEnd else if k ≤ a.p then a else highEnd)
/-- `SingletonHopper::rho_` (`src/hopper.cc:59-69`) -/
def singleRho (a : Ann) (k : Int) : M (St Unit) Ann :=
  pure (if k = minfinity then lowEnd else if k ≤ a.q then a else highEnd)
/-- `SingletonHopper::uat_` (`src/hopper.cc:71-81`) -/
def singleUat (a : Ann) (k : Int) : M (St Unit) Ann :=
  pure (if k = maxfinity then highEnd else if k ≥ a.q then a else lowEnd)
/-- `SingletonHopper::ohr_` (`src/hopper.cc:83-93`) -/
def singleOhr (a : Ann) (k : Int) : M (St Unit) Ann :=
  pure (if k = maxfinity then highEnd else if k ≥ a.p then a else lowEnd)

/-- `SingletonHopper` -/
def singleObj (a : Ann) : Obj where
  σ := St Unit
  init := ⟨{}, ()⟩
  tau := memoTau (singleTau a)
  rho := memoRho (singleRho a)
  uat := memoUat (singleUat a)
  ohr := memoOhr (singleOhr a)
  L := defaultL (memoUat (singleUat a))
  R := defaultR (memoTau (singleTau a))

/-- `FixedWidthHopper::tau_` (`src/hopper.cc:95-104`) -/
def fixedTau (w : Int) (k : Int) : M (St Unit) Ann := do
  if k = minfinity then return lowEnd
  let m ← ck (maxfinity - w)
  if k ≤ m then
    let t ← ck (k + w)
    let q ← ck (t - 1)
    return ⟨k, q, 0⟩
  else return highEnd
/-- `FixedWidthHopper::rho_` (`src/hopper.cc:106-118`) -/
def fixedRho (w : Int) (k : Int) : M (St Unit) Ann := do
  if k = minfinity then return lowEnd
  let m ← ck (minfinity + w)
  if k < m then return ⟨minfinity + 1, m, 0⟩
  else if k < maxfinity then
    let t ← ck (k - w)
    let p ← ck (t + 1)
    return ⟨p, k, 0⟩
  else return highEnd
/-- `FixedWidthHopper::uat_` (`src/hopper.cc:120-129`) -/
def fixedUat (w : Int) (k : Int) : M (St Unit) Ann := do
  if k = maxfinity then return highEnd
  let m ← ck (minfinity + w)
  if k ≥ m then
    let t ← ck (k - w)
    let p ← ck (t + 1)
    return ⟨p, k, 0⟩
  else return lowEnd
/-- `FixedWidthHopper::ohr_` (`src/hopper.cc:131-143`) -/
def fixedOhr (w : Int) (k : Int) : M (St Unit) Ann := do
  if k = maxfinity then return highEnd
  let m ← ck (maxfinity - w)
  if k ≥ m then return ⟨m, maxfinity - 1, 0⟩
  else if k > minfinity then
    let t ← ck (k + w)
    let q ← ck (t - 1)
    return ⟨k, q, 0⟩
  else return lowEnd

/-- `FixedWidthHopper` -/
def fixedObj (w : Int) : Obj where
  σ := St Unit
  init := ⟨{}, ()⟩
  tau := memoTau (fixedTau w)
  rho := memoRho (fixedRho w)
  uat := memoUat (fixedUat w)
  ohr := memoOhr (fixedOhr w)
  L := defaultL (memoUat (fixedUat w))
  R := defaultR (memoTau (fixedTau w))

/-! ### ArrayHopper -/

/-- `addrs[i]` for an array of length `xs.length`; reading outside is undefined. -/
def rd (xs : List Int) (i : Int) : Option Int :=
  if 0 ≤ i then xs[i.toNat]? else none

/-- `for (hop = 1; low + hop < n && test(addrs[low + hop]); hop *= 2);`
(`src/array_hopper.cc:23-24, 82-83`).  Returns the final `hop`. -/
def gallopUp (xs : List Int) (test : Int → Bool) (low : Int) : Nat → Int → Option Int
  | 0, _ => none
  | fuel + 1, hop =>
    if low + hop < xs.length then do
      let x ← rd xs (low + hop)
      if test x then gallopUp xs test low fuel (hop * 2) else some hop
    else some hop

/-- `for (hop = 1; high - hop >= 0 && test(addrs[high - hop]); hop *= 2);`
(`src/array_hopper.cc:40-41, 68-69`) -/
def gallopDown (xs : List Int) (test : Int → Bool) (high : Int) : Nat → Int → Option Int
  | 0, _ => none
  | fuel + 1, hop =>
    if high - hop ≥ 0 then do
      let x ← rd xs (high - hop)
      if test x then gallopDown xs test high fuel (hop * 2) else some hop
    else some hop

/-- The binary search `while (high - low > 1) …` (`src/array_hopper.cc:48-54, 93-99`);
`test` is the condition under which `low` moves. -/
def bisect (xs : List Int) (test : Int → Bool) : Nat → Int → Int → Option (Int × Int)
  | 0, _, _ => none
  | fuel + 1, low, high =>
    if high - low > 1 then do
      let probe := low + (high - low) / 2
      let x ← rd xs probe
      if test x then bisect xs test fuel probe high else bisect xs test fuel low probe
    else some (low, high)

/-- `hopping` (`src/array_hopper.cc:14-57`): the first element `≥ k`; returns the
answer and the new cursor.  The asserts are compiled out (`#define NDEBUG 1`, line 3). -/
def hopping (xs : List Int) (current k : Int) : Option (Int × Int) := do
  let n : Int := xs.length
  let c := current
  let xc ← rd xs c
  if xc < k then
    let last ← rd xs (n - 1)
    if last < k then some (maxfinity, current)
    else
      let low := c
      let hop ← gallopUp xs (· < k) low (xs.length + 1) 1
      let high := if low + hop ≥ n then n - 1 else low + hop
      let (_, high) ← bisect xs (· < k) (xs.length + 1) low high
      some (← rd xs high, high)
  else if xc > k then
    let first ← rd xs 0
    if first ≥ k then
      if k = minfinity then some (minfinity, current) else some (first, 0)
    else
      let high := c
      let hop ← gallopDown xs (· ≥ k) high (xs.length + 1) 1
      let low := if hop > high then 0 else high - hop
      let (_, high) ← bisect xs (· < k) (xs.length + 1) low high
      some (← rd xs high, high)
  else some (xc, current)

/-- `gnippoh` (`src/array_hopper.cc:59-102`): the last element `≤ k`. -/
def gnippoh (xs : List Int) (current k : Int) : Option (Int × Int) := do
  let n : Int := xs.length
  let c := current
  let xc ← rd xs c
  if xc > k then
    let first ← rd xs 0
    if first > k then some (minfinity, current)
    else
      let high := c
      let hop ← gallopDown xs (· > k) high (xs.length + 1) 1
      let low := if hop > high then 0 else high - hop
      let (low, _) ← bisect xs (· ≤ k) (xs.length + 1) low high
      some (← rd xs low, low)
  else if xc < k then
    let last ← rd xs (n - 1)
    if last ≤ k then
      if k = maxfinity then some (maxfinity, current) else some (last, n - 1)
    else
      let low := c
      let hop ← gallopUp xs (· ≤ k) low (xs.length + 1) 1
      let high := if low + hop ≥ n then n - 1 else low + hop
      let (low, _) ← bisect xs (· ≤ k) (xs.length + 1) low high
      some (← rd xs low, low)
  else some (xc, current)

/-- The bound arrays of an `ArrayHopper` after `bind()` (`src/array_hopper.cc:189-220`):
`postings_`, `qostings_` and, unless null, `fostings_`. -/
structure Arrays where
  ps : List Int
  qs : List Int
  vs : Option (List Int)

/-- `fostings_[current_]` if there are values (`src/array_hopper.cc:138-139`) -/
def Arrays.value (a : Arrays) (i : Int) : Option Int :=
  match a.vs with
  | none => some 0
  | some vs => rd vs i

/-- cursor access for array hoppers: run a search that may move `current_` -/
def withCursor {α : Type} (f : Int → Option (α × Int)) : M (St Int) α := fun s =>
  match f s.sub with
  | none => none
  | some (a, c) => some (a, { s with sub := c })

/-- `ArrayHopper::tau_` (`src/array_hopper.cc:129-142`) -/
def arrayTau (a : Arrays) (k : Int) : M (St Int) Ann := withCursor fun c => do
  let (p, c) ← hopping a.ps c k
  if p = maxfinity ∨ p = minfinity then some (⟨p, p, 0⟩, c)
  else some (⟨p, ← rd a.qs c, ← a.value c⟩, c)
/-- `ArrayHopper::rho_` (`src/array_hopper.cc:144-157`) -/
def arrayRho (a : Arrays) (k : Int) : M (St Int) Ann := withCursor fun c => do
  let (q, c) ← hopping a.qs c k
  if q = maxfinity ∨ q = minfinity then some (⟨q, q, 0⟩, c)
  else some (⟨← rd a.ps c, q, ← a.value c⟩, c)
/-- `ArrayHopper::uat_` (`src/array_hopper.cc:159-172`) -/
def arrayUat (a : Arrays) (k : Int) : M (St Int) Ann := withCursor fun c => do
  let (q, c) ← gnippoh a.qs c k
  if q = maxfinity ∨ q = minfinity then some (⟨q, q, 0⟩, c)
  else some (⟨← rd a.ps c, q, ← a.value c⟩, c)
/-- `ArrayHopper::ohr_` (`src/array_hopper.cc:174-187`) -/
def arrayOhr (a : Arrays) (k : Int) : M (St Int) Ann := withCursor fun c => do
  let (p, c) ← gnippoh a.ps c k
  if p = maxfinity ∨ p = minfinity then some (⟨p, p, 0⟩, c)
  else some (⟨p, ← rd a.qs c, ← a.value c⟩, c)
/-- `ArrayHopper::L_` (`src/array_hopper.cc:105-115`) -/
def arrayL (a : Arrays) (k : Int) : M (St Int) Int := withCursor fun c => do
  let (q, c) ← gnippoh a.qs c k
  if q = maxfinity then some (maxfinity, c)
  else if q = minfinity then some (minfinity, c)
  else some (← rd a.ps c, c)
/-- `ArrayHopper::R_` (`src/array_hopper.cc:117-127`) -/
def arrayR (a : Arrays) (k : Int) : M (St Int) Int := withCursor fun c => do
  let (p, c) ← hopping a.ps c k
  if p = maxfinity then some (maxfinity, c)
  else if p = minfinity then some (minfinity, c)
  else some (← rd a.qs c, c)

/-- `ArrayHopper`; the state is the cursor `current_`, initially 0. -/
def arrayObj (a : Arrays) : Obj where
  σ := St Int
  init := ⟨{}, 0⟩
  tau := memoTau (arrayTau a)
  rho := memoRho (arrayRho a)
  uat := memoUat (arrayUat a)
  ohr := memoOhr (arrayOhr a)
  L := arrayL a
  R := arrayR a

/-! ### Binary operators -/

/-- call a method of `left_` -/
def onL {α β γ : Type} (m : M α γ) : M (St (α × β)) γ := fun s =>
  match m s.sub.1 with
  | none => none
  | some (x, l) => some (x, { s with sub := (l, s.sub.2) })
/-- call a method of `right_` -/
def onR {α β γ : Type} (m : M β γ) : M (St (α × β)) γ := fun s =>
  match m s.sub.2 with
  | none => none
  | some (x, r) => some (x, { s with sub := (s.sub.1, r) })

/-- `Combinational::tau_` (`gcl/gcl.cc:55-57`) -/
def combTau {τ} (L R : Int → M (St τ) Int) (k : Int) : M (St τ) Ann := do
  let q ← R k
  let p ← L q
  return ⟨p, q, 0⟩
/-- `Combinational::uat_` (`gcl/gcl.cc:69-71`) -/
def combUat {τ} (L R : Int → M (St τ) Int) (k : Int) : M (St τ) Ann := do
  let p ← L k
  let q ← R p
  return ⟨p, q, 0⟩
/-- `Combinational::rho_` (`gcl/gcl.cc:59-67`) -/
def combRho {τ} (L : Int → M (St τ) Int) (tau : Int → M (St τ) Ann) (k : Int) :
    M (St τ) Ann := do
  if k = minfinity then return lowEnd
  let k1 ← ck (k - 1)
  let ll ← L k1
  if ll = maxfinity then return highEnd
  let l1 ← ck (ll + 1)
  tau l1
/-- `Combinational::ohr_` (`gcl/gcl.cc:73-81`) -/
def combOhr {τ} (R : Int → M (St τ) Int) (uat : Int → M (St τ) Ann) (k : Int) :
    M (St τ) Ann := do
  if k = maxfinity then return highEnd
  let k1 ← ck (k + 1)
  let rr ← R k1
  if rr = minfinity then return lowEnd
  let r1 ← ck (rr - 1)
  uat r1

/-- `class Combinational` for given `L_` and `R_` -/
def combObj {τ : Type} (init : τ) (L R : Int → M (St τ) Int) : Obj where
  σ := St τ
  init := ⟨{}, init⟩
  tau := memoTau (combTau L R)
  rho := memoRho (combRho L (memoTau (combTau L R)))
  uat := memoUat (combUat L R)
  ohr := memoOhr (combOhr R (memoUat (combUat L R)))
  L := L
  R := R

section
variable (A B : Obj)

/-- `And::L_` (`gcl/gcl.cc:83`) -/
def andL (k : Int) : M (St (A.σ × B.σ)) Int := do
  let l ← onL (A.L k)
  let r ← onR (B.L k)
  return min l r
/-- `And::R_` (`gcl/gcl.cc:85`) -/
def andR (k : Int) : M (St (A.σ × B.σ)) Int := do
  let l ← onL (A.R k)
  let r ← onR (B.R k)
  return max l r
/-- `gcl::And` -/
def andObj : Obj := combObj (A.init, B.init) (andL A B) (andR A B)

/-- `Or::L_` (`gcl/gcl.cc:87`) -/
def orL (k : Int) : M (St (A.σ × B.σ)) Int := do
  let l ← onL (A.L k)
  let r ← onR (B.L k)
  return max l r
/-- `Or::R_` (`gcl/gcl.cc:89`) -/
def orR (k : Int) : M (St (A.σ × B.σ)) Int := do
  let l ← onL (A.R k)
  let r ← onR (B.R k)
  return min l r
/-- `gcl::Or` -/
def orObj : Obj := combObj (A.init, B.init) (orL A B) (orR A B)

/-- `FollowedBy::L_` (`gcl/gcl.cc:91-100`) -/
def followedByL (k : Int) : M (St (A.σ × B.σ)) Int := do
  let ll ← onR (B.L k)
  if ll = minfinity then return minfinity
  if ll = maxfinity then return maxfinity
  let l1 ← ck (ll - 1)
  onL (A.L l1)
/-- `FollowedBy::R_` (`gcl/gcl.cc:102-111`) -/
def followedByR (k : Int) : M (St (A.σ × B.σ)) Int := do
  let rr ← onL (A.R k)
  if rr = minfinity then return minfinity
  if rr = maxfinity then return maxfinity
  let r1 ← ck (rr + 1)
  onR (B.R r1)
/-- `gcl::FollowedBy` -/
def followedByObj : Obj := combObj (A.init, B.init) (followedByL A B) (followedByR A B)

/-- the loop of `ContainedIn::tau_` (`gcl/gcl.cc:113-124`) -/
def cinTau : Nat → Int → M (St (A.σ × B.σ)) Ann
  | 0, _ => ub
  | fuel + 1, k => do
    let r ← onL (A.tau k)
    if r.p = maxfinity then return r
    let b ← onR (B.rho r.q)
    if b.p ≤ r.p then return r
    cinTau fuel b.p
/-- the loop of `ContainedIn::uat_` (`gcl/gcl.cc:132-143`) -/
def cinUat : Nat → Int → M (St (A.σ × B.σ)) Ann
  | 0, _ => ub
  | fuel + 1, k => do
    let r ← onL (A.uat k)
    if r.q = minfinity then return r
    let b ← onR (B.ohr r.p)
    if b.q ≥ r.q then return r
    cinUat fuel b.q
/-- `gcl::ContainedIn`; `rho_`, `ohr_` at `gcl/gcl.cc:126-130, 145-149` -/
def cinObj : Obj :=
  let tau := memoTau (cinTau A B loopFuel)
  let uat := memoUat (cinUat A B loopFuel)
  { σ := St (A.σ × B.σ)
    init := ⟨{}, (A.init, B.init)⟩
    tau := tau
    rho := memoRho fun k => do
      let r ← onL (A.rho k)
      tau r.p
    uat := uat
    ohr := memoOhr fun k => do
      let r ← onL (A.ohr k)
      uat r.q
    L := defaultL uat
    R := defaultR tau }

/-- the loop of `Containing::rho_` (`gcl/gcl.cc:157-168`) -/
def cgRho : Nat → Int → M (St (A.σ × B.σ)) Ann
  | 0, _ => ub
  | fuel + 1, k => do
    let r ← onL (A.rho k)
    if r.q = maxfinity then return r
    let b ← onR (B.tau r.p)
    if b.q ≤ r.q then return r
    cgRho fuel b.q
/-- the loop of `Containing::ohr_` (`gcl/gcl.cc:176-187`) -/
def cgOhr : Nat → Int → M (St (A.σ × B.σ)) Ann
  | 0, _ => ub
  | fuel + 1, k => do
    let r ← onL (A.ohr k)
    if r.p = minfinity then return r
    let b ← onR (B.uat r.q)
    if b.p ≥ r.p then return r
    cgOhr fuel b.p
/-- `gcl::Containing`; `tau_`, `uat_` at `gcl/gcl.cc:151-155, 170-174` -/
def cgObj : Obj :=
  let rho := memoRho (cgRho A B loopFuel)
  let ohr := memoOhr (cgOhr A B loopFuel)
  let tau := memoTau fun k => do
      let r ← onL (A.tau k)
      rho r.q
  let uat := memoUat fun k => do
      let r ← onL (A.uat k)
      ohr r.p
  { σ := St (A.σ × B.σ)
    init := ⟨{}, (A.init, B.init)⟩
    tau := tau
    rho := rho
    uat := uat
    ohr := ohr
    L := defaultL uat
    R := defaultR tau }

/-- the loop of `NotContainedIn::tau_` (`gcl/gcl.cc:193-201`), entered with the current
left solution `r` -/
def nciTauLoop : Nat → Ann → M (St (A.σ × B.σ)) Ann
  | 0, _ => ub
  | fuel + 1, r => do
    let b ← onR (B.rho r.q)
    if b.p > r.p then return r
    let k ← ck (b.q + 1)
    let r ← onL (A.rho k)
    if r.p = maxfinity then return r
    nciTauLoop fuel r
/-- `NotContainedIn::tau_` (`gcl/gcl.cc:189-202`) -/
def nciTau (k : Int) : M (St (A.σ × B.σ)) Ann := do
  let r ← onL (A.tau k)
  if r.p = maxfinity ∨ r.q = minfinity then return r
  nciTauLoop A B loopFuel r
/-- the loop of `NotContainedIn::uat_` (`gcl/gcl.cc:214-222`) -/
def nciUatLoop : Nat → Ann → M (St (A.σ × B.σ)) Ann
  | 0, _ => ub
  | fuel + 1, r => do
    let b ← onR (B.ohr r.p)
    if b.q < r.q then return r
    let k ← ck (b.p - 1)
    let r ← onL (A.ohr k)
    if r.q = minfinity then return r
    nciUatLoop fuel r
/-- `NotContainedIn::uat_` (`gcl/gcl.cc:210-223`) -/
def nciUat (k : Int) : M (St (A.σ × B.σ)) Ann := do
  let r ← onL (A.uat k)
  if r.q = minfinity ∨ r.p = maxfinity then return r
  nciUatLoop A B loopFuel r
/-- `gcl::NotContainedIn`; `rho_`, `ohr_` at `gcl/gcl.cc:204-208, 225-229` -/
def nciObj : Obj :=
  let tau := memoTau (nciTau A B)
  let uat := memoUat (nciUat A B)
  { σ := St (A.σ × B.σ)
    init := ⟨{}, (A.init, B.init)⟩
    tau := tau
    rho := memoRho fun k => do
      let r ← onL (A.rho k)
      tau r.p
    uat := uat
    ohr := memoOhr fun k => do
      let r ← onL (A.ohr k)
      uat r.q
    L := defaultL uat
    R := defaultR tau }

/-- the loop of `NotContaining::rho_` (`gcl/gcl.cc:241-249`) -/
def ncgRhoLoop : Nat → Ann → M (St (A.σ × B.σ)) Ann
  | 0, _ => ub
  | fuel + 1, r => do
    let b ← onR (B.tau r.p)
    if b.q > r.q then return r
    let k ← ck (b.p + 1)
    let r ← onL (A.tau k)
    if r.q = maxfinity then return r
    ncgRhoLoop fuel r
/-- `NotContaining::rho_` (`gcl/gcl.cc:237-250`) -/
def ncgRho (k : Int) : M (St (A.σ × B.σ)) Ann := do
  let r ← onL (A.rho k)
  if r.q = maxfinity ∨ r.p = minfinity then return r
  ncgRhoLoop A B loopFuel r
/-- the loop of `NotContaining::ohr_` (`gcl/gcl.cc:262-270`) -/
def ncgOhrLoop : Nat → Ann → M (St (A.σ × B.σ)) Ann
  | 0, _ => ub
  | fuel + 1, r => do
    let b ← onR (B.uat r.q)
    if b.p < r.p then return r
    let k ← ck (b.q - 1)
    let r ← onL (A.uat k)
    if r.p = minfinity then return r
    ncgOhrLoop fuel r
/-- `NotContaining::ohr_` (`gcl/gcl.cc:258-271`) -/
def ncgOhr (k : Int) : M (St (A.σ × B.σ)) Ann := do
  let r ← onL (A.ohr k)
  if r.p = minfinity ∨ r.q = maxfinity then return r
  ncgOhrLoop A B loopFuel r
/-- `gcl::NotContaining`; `tau_`, `uat_` at `gcl/gcl.cc:231-235, 252-256` -/
def ncgObj : Obj :=
  let rho := memoRho (ncgRho A B)
  let ohr := memoOhr (ncgOhr A B)
  let tau := memoTau fun k => do
      let r ← onL (A.tau k)
      rho r.q
  let uat := memoUat fun k => do
      let r ← onL (A.uat k)
      ohr r.p
  { σ := St (A.σ × B.σ)
    init := ⟨{}, (A.init, B.init)⟩
    tau := tau
    rho := rho
    uat := uat
    ohr := ohr
    L := defaultL uat
    R := defaultR tau }

/-- `Merge::tau_` (`gcl/gcl.cc:273-295`) -/
def mergeTau (k : Int) : M (St (A.σ × B.σ)) Ann := do
  let l ← onL (A.tau k)
  let r ← onR (B.tau k)
  return (if l.q < r.q then l else if l.q > r.q then r else if l.p < r.p then r else l)
/-- `Merge::uat_` (`gcl/gcl.cc:312-334`) -/
def mergeUat (k : Int) : M (St (A.σ × B.σ)) Ann := do
  let l ← onL (A.uat k)
  let r ← onR (B.uat k)
  return (if l.p > r.p then l else if r.p > l.p then r else if l.q < r.q then r else l)
/-- `gcl::Merge`; `rho_`, `ohr_` at `gcl/gcl.cc:297-310, 336-349` coincide with
`Combinational`'s, with the default `L_`/`R_`. -/
def mergeObj : Obj :=
  let tau := memoTau (mergeTau A B)
  let uat := memoUat (mergeUat A B)
  { σ := St (A.σ × B.σ)
    init := ⟨{}, (A.init, B.init)⟩
    tau := tau
    rho := memoRho (combRho (defaultL uat) tau)
    uat := uat
    ohr := memoOhr (combOhr (defaultR tau) uat)
    L := defaultL uat
    R := defaultR tau }
end

end Verif.Hopper
