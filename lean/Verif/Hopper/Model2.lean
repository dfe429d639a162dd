import Verif.Hopper.Model
/-
  Model, continued: enumeration, Materialize, Link, VectorHopper.
-/
namespace Verif.Hopper

/-! ### Enumeration loops -/

/-- `for (h->tau(k, …); p < maxfinity; h->tau(p + 1, …)) …` -- the loop by which
`materialize` (`gcl/materialize.cc:44-49`), `Link::tau_` (`gcl/gcl.cc:371-374`) and client
code enumerate solutions.  Returns the solutions seen, in order. -/
def tauAll {σ} (tau : Int → M σ Ann) : Nat → Int → M σ (List Ann)
  | 0, _ => ub
  | fuel + 1, k => do
    let r ← tau k
    if r.p < maxfinity then
      let k' ← ck (r.p + 1)
      let rest ← tauAll tau fuel k'
      return r :: rest
    else return []
/-- the loop of `Link::rho_` (`gcl/gcl.cc:385-388`) -/
def rhoAll {σ} (rho : Int → M σ Ann) : Nat → Int → M σ (List Ann)
  | 0, _ => ub
  | fuel + 1, k => do
    let r ← rho k
    if r.q < maxfinity then
      let k' ← ck (r.q + 1)
      let rest ← rhoAll rho fuel k'
      return r :: rest
    else return []
/-- the loop of `Link::uat_` (`gcl/gcl.cc:399-402`) -/
def uatAll {σ} (uat : Int → M σ Ann) : Nat → Int → M σ (List Ann)
  | 0, _ => ub
  | fuel + 1, k => do
    let r ← uat k
    if r.q > minfinity then
      let k' ← ck (r.q - 1)
      let rest ← uatAll uat fuel k'
      return r :: rest
    else return []
/-- the loop of `Link::ohr_` (`gcl/gcl.cc:413-416`) -/
def ohrAll {σ} (ohr : Int → M σ Ann) : Nat → Int → M σ (List Ann)
  | 0, _ => ub
  | fuel + 1, k => do
    let r ← ohr k
    if r.p > minfinity then
      let k' ← ck (r.p - 1)
      let rest ← ohrAll ohr fuel k'
      return r :: rest
    else return []

/-! ### Hoppers over lists -/

/-- `make_hopper` (`gcl/materialize.cc:14-33`).  The same three-way choice is made for a
posting list by `FiverIdx::hopper_` (`src/fiver.cc:219-233`); a posting list without
values reads as one whose values are all `0.0` (`src/array_hopper.cc:138-139`). -/
def listObj : List Ann → Obj
  | [] => emptyObj
  | [a] => singleObj a
  | l => arrayObj ⟨l.map (·.p), l.map (·.q), some (l.map (·.v))⟩

/-- `make_link_hopper` (`gcl/gcl.cc:352-364`); the `std::set` is an ascending list -/
def linkListObj : List Int → Obj
  | [] => emptyObj
  | [a] => singleObj ⟨a, a, 0⟩
  | l => arrayObj ⟨l, l, none⟩

/-- `std::set<addr>::insert` on an ascending list -/
def setInsert (x : Int) : List Int → List Int
  | [] => [x]
  | y :: ys => if x < y then x :: y :: ys else if x = y then y :: ys else y :: setInsert x ys

/-- the values collected by the loops of `Link` (`gcl/gcl.cc:370-375`) -/
def linkSet (l : List Ann) : List Int :=
  l.foldl (fun s a => if a.v > minfinity ∧ a.v < maxfinity then setInsert a.v s else s) []

/-! ### Materialize and Link -/

/-- `expr_` of `Materialize`: the original expression, or the hopper it was replaced by -/
abbrev MatSt (A : Obj) : Type := A.σ ⊕ (Σ l : List Ann, (listObj l).σ)

/-- `materialize(); expr_->method(k)` (`gcl/materialize.cc:37-73`) -/
def matRun (A : Obj) (f : (H : Obj) → M H.σ Ann) : M (St (MatSt A)) Ann := fun s =>
  match s.sub with
  | .inl a =>
    match tauAll A.tau loopFuel (minfinity + 1) a with
    | none => none
    | some (l, _) =>
      match f (listObj l) (listObj l).init with
      | none => none
      | some (x, t) => some (x, { s with sub := .inr ⟨l, t⟩ })
  | .inr ⟨l, t⟩ =>
    match f (listObj l) t with
    | none => none
    | some (x, t) => some (x, { s with sub := .inr ⟨l, t⟩ })

/-- `gcl::Materialize` -/
def matObj (A : Obj) : Obj :=
  let tau := memoTau fun k => matRun A fun H => H.tau k
  let uat := memoUat fun k => matRun A fun H => H.uat k
  { σ := St (MatSt A)
    init := ⟨{}, .inl A.init⟩
    tau := tau
    rho := memoRho fun k => matRun A fun H => H.rho k
    uat := uat
    ohr := memoOhr fun k => matRun A fun H => H.ohr k
    L := defaultL uat
    R := defaultR tau }

/-- `expr_` of `Link` -/
abbrev LinkSt (A : Obj) : Type := A.σ ⊕ (Σ l : List Int, (linkListObj l).σ)

/-- `if (!linked_) { …collect with the given loop… } return expr_->method(k)`
(`gcl/gcl.cc:367-421`) -/
def linkRun (A : Obj) (collect : M A.σ (List Ann)) (f : (H : Obj) → M H.σ Ann) :
    M (St (LinkSt A)) Ann := fun s =>
  match s.sub with
  | .inl a =>
    match collect a with
    | none => none
    | some (l, _) =>
      match f (linkListObj (linkSet l)) (linkListObj (linkSet l)).init with
      | none => none
      | some (x, t) => some (x, { s with sub := .inr ⟨linkSet l, t⟩ })
  | .inr ⟨l, t⟩ =>
    match f (linkListObj l) t with
    | none => none
    | some (x, t) => some (x, { s with sub := .inr ⟨l, t⟩ })

/-- `gcl::Link` -/
def linkObj (A : Obj) : Obj :=
  let tau := memoTau fun k => linkRun A (tauAll A.tau loopFuel (minfinity + 1)) fun H => H.tau k
  let uat := memoUat fun k => linkRun A (uatAll A.uat loopFuel (maxfinity - 1)) fun H => H.uat k
  { σ := St (LinkSt A)
    init := ⟨{}, .inl A.init⟩
    tau := tau
    rho := memoRho fun k =>
      linkRun A (rhoAll A.rho loopFuel (minfinity + 1)) fun H => H.rho k
    uat := uat
    ohr := memoOhr fun k =>
      linkRun A (ohrAll A.ohr loopFuel (maxfinity - 1)) fun H => H.ohr k
    L := defaultL uat
    R := defaultR tau }

/-! ### VectorHopper (InnerHopper) -/

/-- Members of an `InnerHopper` (`gcl/vector_hopper.h:26-33`,
`gcl/vector_hopper.cc:84-90`).  A priority queue always holds exactly one element per child
once it has been filled, so it is modelled by the element of each child; `none` is the empty
queue an object is constructed with. -/
structure VecSt {n : Nat} (H : Fin n → Obj) where
  subs : (i : Fin n) → (H i).σ
  tq : Option (Fin n → Ann) := none
  uq : Option (Fin n → Ann) := none
  tk : Int := maxfinity
  uk : Int := minfinity

section
variable {n : Nat}

/-- change one component -/
def setAt {α : Fin n → Type} (f : (i : Fin n) → α i) (i : Fin n) (x : α i) : (i : Fin n) → α i :=
  fun j => if h : j = i then h ▸ x else f j

variable (H : Fin n → Obj)

/-- call a method of `hoppers_[i]` -/
def onI {α : Type} (i : Fin n) (m : M (H i).σ α) : M (St (VecSt H)) α := fun s =>
  match m (s.sub.subs i) with
  | none => none
  | some (x, t) => some (x, { s with sub := { s.sub with subs := setAt s.sub.subs i t } })

/-- `a` is popped before `b`: the negation of `InnerTauCompare(a, b)`
(`gcl/vector_hopper.cc:50-58`) -/
def tauBefore (i : Fin n) (a : Ann) (j : Fin n) (b : Ann) : Bool :=
  a.q < b.q ∨ (a.q = b.q ∧ (a.p > b.p ∨ (a.p = b.p ∧ i > j)))
/-- the negation of `InnerUatCompare(a, b)` (`gcl/vector_hopper.cc:60-68`) -/
def uatBefore (i : Fin n) (a : Ann) (j : Fin n) (b : Ann) : Bool :=
  a.p > b.p ∨ (a.p = b.p ∧ (a.q < b.q ∨ (a.q = b.q ∧ i > j)))

/-- index of the element on top of the queue: the one popped before all others -/
def topIdx (before : Fin n → Ann → Fin n → Ann → Bool) (e : Fin n → Ann) : Option (Fin n) :=
  (List.finRange n).foldl (fun acc i =>
    match acc with
    | none => some i
    | some j => if before i (e i) j (e j) then some i else some j) none

/-- `for (i = 0; i < hoppers_.size(); i++) temp.emplace(hoppers_[i], i, k)`
(`gcl/vector_hopper.cc:101-103, 142-144`) -/
def fill (call : (i : Fin n) → M (H i).σ Ann) : List (Fin n) → (Fin n → Ann) →
    M (St (VecSt H)) (Fin n → Ann)
  | [], e => pure e
  | i :: is, e => do
    let r ← onI H i (call i)
    fill call is (fun j => if j = i then r else e j)

/-- `while (tau_queue_.top().p() < k) { pop; e.tau(k); push }`
(`gcl/vector_hopper.cc:106-111`); `stale` is the loop test and `call` the method. -/
def refresh (before : Fin n → Ann → Fin n → Ann → Bool) (stale : Ann → Bool)
    (call : (i : Fin n) → M (H i).σ Ann) : Nat → (Fin n → Ann) → M (St (VecSt H)) (Fin n → Ann)
  | 0, _ => ub
  | fuel + 1, e =>
    match topIdx before e with
    | none => ub
    | some i =>
      if stale (e i) then do
        let r ← onI H i (call i)
        refresh before stale call fuel (fun j => if j = i then r else e j)
      else pure e

/-- `InnerHopper::tau_` (`gcl/vector_hopper.cc:93-117`) -/
def vecTau (k : Int) : M (St (VecSt H)) Ann := fun s =>
  if k = maxfinity then some (highEnd, s)
  else
    let m : M (St (VecSt H)) (Fin n → Ann) :=
      if k < s.sub.tk then fill H (fun i => (H i).tau k) (List.finRange n) (fun _ => highEnd)
      else match s.sub.tq with
        | none => ub
        | some e => refresh H tauBefore (fun a => a.p < k) (fun i => (H i).tau k) (n + 1) e
    match m s with
    | none => none
    | some (e, s') =>
      match topIdx tauBefore e with
      | none => none
      | some i => some (e i, { s' with sub := { s'.sub with tq := some e, tk := k } })

/-- `InnerHopper::uat_` (`gcl/vector_hopper.cc:134-158`) -/
def vecUat (k : Int) : M (St (VecSt H)) Ann := fun s =>
  if k = minfinity then some (lowEnd, s)
  else
    let m : M (St (VecSt H)) (Fin n → Ann) :=
      if k > s.sub.uk then fill H (fun i => (H i).uat k) (List.finRange n) (fun _ => lowEnd)
      else match s.sub.uq with
        | none => ub
        | some e => refresh H uatBefore (fun a => a.q > k) (fun i => (H i).uat k) (n + 1) e
    match m s with
    | none => none
    | some (e, s') =>
      match topIdx uatBefore e with
      | none => none
      | some i => some (e i, { s' with sub := { s'.sub with uq := some e, uk := k } })

/-- `VectorHopper::L_` (`gcl/vector_hopper.cc:197-204`) -/
def vecL (k : Int) : List (Fin n) → Int → M (St (VecSt H)) Int
  | [], m => pure m
  | i :: is, m => do
    let l ← onI H i ((H i).L k)
    vecL k is (max m l)
/-- `VectorHopper::R_` (`gcl/vector_hopper.cc:206-213`) -/
def vecR (k : Int) : List (Fin n) → Int → M (St (VecSt H)) Int
  | [], m => pure m
  | i :: is, m => do
    let r ← onI H i ((H i).R k)
    vecR k is (min m r)

/-- `InnerHopper`; `rho_`, `ohr_` (`gcl/vector_hopper.cc:119-132, 160-173`) coincide with
`Combinational`'s. -/
def innerObj : Obj :=
  let L := fun k => vecL H k (List.finRange n) minfinity
  let R := fun k => vecR H k (List.finRange n) maxfinity
  { σ := St (VecSt H)
    init := ⟨{}, { subs := fun i => (H i).init }⟩
    tau := memoTau (vecTau H)
    rho := memoRho (combRho L (memoTau (vecTau H)))
    uat := memoUat (vecUat H)
    ohr := memoOhr (combOhr R (memoUat (vecUat H)))
    L := L
    R := R }
end

/-- `VectorHopper::make` (`gcl/vector_hopper.cc:180-195`) -/
def vectorObj : {n : Nat} → (Fin n → Obj) → Obj
  | 0, _ => emptyObj
  | 1, H => H 0
  | _ + 2, H => innerObj H

end Verif.Hopper
