/-
  Model of `src/read_gate.h`: threads that read ranges of a file, so many at a time.
-/
namespace Verif.Gate

/-- bytes of a file -/
abbrev Bytes := List UInt8

/-- a call of `read` -/
structure Call where
  offset : Int
  length : Int

/-- where a call is; the results are what `read` returns -/
inductive At where
  /-- not begun -/
  | start
  /-- in `condition_.wait`, not notified -/
  | asleep
  /-- in `condition_.wait`, about to test `available_` again -/
  | woken
  /-- with a permit and these bytes in the buffer -/
  | reading (got : Bytes)
  /-- with a permit, about to give it back -/
  | leaving (r : Option Bytes)
  /-- has given it back, about to notify -/
  | left (r : Option Bytes)
  | finished (r : Option Bytes)
  deriving DecidableEq

/-- the file, the calls, and whether `pread` can fail -/
structure Env where
  file : Bytes
  calls : List Call
  readers : Nat
  faulty : Bool

/-- the gate, and where each call is -/
structure State where
  available : Nat
  jobs : List At

/-- `read_gate.h:24-40`, `79`: a gate is made, and no call has begun -/
def start (E : Env) : State := ⟨E.readers, List.replicate E.calls.length .start⟩

/-- what a `pread` of at most `want` bytes at `offset` can give -/
def Gives (E : Env) (offset want : Nat) (b : Bytes) : Prop :=
  b.length ≤ want ∧ b <+: E.file.drop offset ∧ (b = [] → E.file.length ≤ offset)

/-- One step of one call: what it does under the lock, or between two uses of it.  That `pread` fails needs a faulty file. -/
inductive Step (E : Env) : State → State → Prop
  /-- `read_gate.h:52-55` -/
  | refuse {st : State} {i : Nat} {c : Call} : E.calls[i]? = some c → st.jobs[i]? = some .start → (c.offset < 0 ∨ c.length < 0) →
      Step E st { st with jobs := st.jobs.set i (.finished none) }
  /-- `read_gate.h:57`, `81-85`: there is a permit -/
  | enter {st : State} {i : Nat} {c : Call} : E.calls[i]? = some c → st.jobs[i]? = some .start → ¬ (c.offset < 0 ∨ c.length < 0) →
      0 < st.available → Step E st ⟨st.available - 1, st.jobs.set i (.reading [])⟩
  /-- `read_gate.h:57`, `81-85`: there is none -/
  | sleep {st : State} {i : Nat} {c : Call} : E.calls[i]? = some c → st.jobs[i]? = some .start → ¬ (c.offset < 0 ∨ c.length < 0) →
      ¬ 0 < st.available → Step E st { st with jobs := st.jobs.set i .asleep }
  /-- `read_gate.h:83-84`, after a wakeup -/
  | again {st : State} {i : Nat} : st.jobs[i]? = some .woken → 0 < st.available →
      Step E st ⟨st.available - 1, st.jobs.set i (.reading [])⟩
  /-- `read_gate.h:83`, after a wakeup -/
  | back {st : State} {i : Nat} : st.jobs[i]? = some .woken → ¬ 0 < st.available →
      Step E st { st with jobs := st.jobs.set i .asleep }
  /-- `read_gate.h:61`, `64-66` -/
  | fails {st : State} {i : Nat} {got : Bytes} {c : Call} : E.calls[i]? = some c → st.jobs[i]? = some (.reading got) →
      (got.length : Int) < c.length → E.faulty = true → Step E st { st with jobs := st.jobs.set i (.leaving none) }
  /-- `read_gate.h:68-71` -/
  | short {st : State} {i : Nat} {got : Bytes} {c : Call} : E.calls[i]? = some c → st.jobs[i]? = some (.reading got) →
      (got.length : Int) < c.length → Gives E (c.offset.toNat + got.length) (c.length.toNat - got.length) [] →
      Step E st { st with jobs := st.jobs.set i (.leaving none) }
  /-- `read_gate.h:60`, `72` -/
  | some {st : State} {i : Nat} {got b : Bytes} {c : Call} : E.calls[i]? = some c → st.jobs[i]? = some (.reading got) →
      (got.length : Int) < c.length → Gives E (c.offset.toNat + got.length) (c.length.toNat - got.length) b → b ≠ [] →
      Step E st { st with jobs := st.jobs.set i (.reading (got ++ b)) }
  /-- `read_gate.h:59`, `74` -/
  | done {st : State} {i : Nat} {got : Bytes} {c : Call} : E.calls[i]? = some c → st.jobs[i]? = some (.reading got) →
      ¬ (got.length : Int) < c.length → Step E st { st with jobs := st.jobs.set i (.leaving (some got)) }
  /-- `read_gate.h:88-91` -/
  | release {st : State} {i : Nat} {r : Option Bytes} : st.jobs[i]? = some (.leaving r) →
      Step E st ⟨st.available + 1, st.jobs.set i (.left r)⟩
  /-- `read_gate.h:92`: one that waits is notified … -/
  | notify {st : State} {i j : Nat} {r : Option Bytes} : st.jobs[i]? = some (.left r) → st.jobs[j]? = some .asleep →
      Step E st { st with jobs := (st.jobs.set j .woken).set i (.finished r) }
  /-- … if any does -/
  | silent {st : State} {i : Nat} {r : Option Bytes} : st.jobs[i]? = some (.left r) → (∀ j : Nat, st.jobs[j]? ≠ some .asleep) →
      Step E st { st with jobs := st.jobs.set i (.finished r) }

/-- What comes from outside and gets no call on. -/
inductive Noise : State → State → Prop
  /-- a call is woken without being notified -/
  | spurious {st : State} {i : Nat} : st.jobs[i]? = some .asleep → Noise st { st with jobs := st.jobs.set i .woken }
  /-- `read_gate.h:62-63`: a `pread` is interrupted -/
  | interrupted {st : State} {i : Nat} {got : Bytes} : st.jobs[i]? = some (.reading got) → Noise st st

/-- the states the calls can get to -/
inductive Reach (E : Env) : State → Prop
  | start : Reach E (start E)
  | step {st st' : State} : Reach E st → Step E st st' → Reach E st'
  | noise {st st' : State} : Reach E st → Noise st st' → Reach E st'

end Verif.Gate
