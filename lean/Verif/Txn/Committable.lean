/-
Model of `class Committable` (src/committable.h), the base of everything that takes part in
transactions.
-/
import Verif.Txn.Model
namespace Verif.Txn

/-- The private flags: committable.h 67-69. -/
structure Flags where
  started : Bool := false
  readied : Bool := false
  vote : Bool := false
  deriving DecidableEq

/-- A call, with what the derived class's own function will return if it is run:
`transaction_`, `ready_`.  committable.h 70-83. -/
inductive TCall
  | transaction (ok : Bool)
  | ready (ok : Bool)
  | commit
  | abort
  deriving DecidableEq

/-- The functions of the derived class, with what they returned. -/
inductive Hook
  | transaction (ok : Bool)
  | ready (ok : Bool)
  | commit
  | abort
  deriving DecidableEq

/-- One call under the lock: the flags after it, what it returns (`commit` and `abort`
return nothing, written as `true`), and the functions of the derived class it ran.
`none`: the assertion fails and the process ends.  committable.h 20-62. -/
def Flags.call (b : Build) (f : Flags) : TCall → Option (Flags × Bool × List Hook)
  | .transaction ok =>
    if f.started then some (f, false, [])
    else some ({ started := ok, readied := false, vote := false }, ok, [.transaction ok])
  | .ready ok =>
    if !f.started then some (f, false, [])
    else if f.readied then some (f, f.vote, [])
    else some ({ f with readied := true, vote := ok }, ok, [.ready ok])
  | .commit =>
    if b = .checked && !(f.started && f.vote) then none
    else some ({}, true, [.commit])
  | .abort => some ({}, true, if f.started then [.abort] else [])

/-- Calls one after the other (the lock makes every interleaving of calls such a sequence):
the results and the functions that were run, up to a failed assertion. -/
def Flags.calls (b : Build) (f : Flags) : List TCall → List Bool × List Hook × Bool
  | [] => ([], [], true)
  | c :: cs =>
    match f.call b c with
    | none => ([], [], false)
    | some (f', r, hs) =>
      let x := f'.calls b cs
      (r :: x.1, hs ++ x.2.1, x.2.2)

end Verif.Txn
