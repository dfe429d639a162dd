import Verif.Inhale.Model
import Verif.Extsort.Model
/-
  Model of scribes of builders: src/scribe.cc 98-211, 228-235, with the protocol of src/committable.h and what
  src/annotator.h, src/annotator.cc, src/appender.h and src/scribe.h do before they call them.

  The builder is that of `Verif.Inhale` (src/builder.h), with any steps (`Inner`).  The addresses that `append` sets are the
  builder's own and not part of this model.  Locks are left out: one thread.
-/
namespace Verif.BuilderScribe

open Verif.Inhale (Bytes Op Inner Builder perform)

/-- src/committable.h 73-75 -/
structure Flags where
  started : Bool := false
  readied : Bool := false
  vote : Bool := false
deriving DecidableEq, Repr

/-- src/committable.h 20-33 `transaction`, for the three classes here, whose `transaction_` says yes (scribe.cc 130, 169, 203) -/
def Flags.transaction (x : Flags) : Flags × Bool :=
  if x.started then (x, false) else (⟨true, false, false⟩, true)

/-- src/committable.h 34-51 `ready`; `ready_` says yes (scribe.cc 131, 170, 204) -/
def Flags.ready (x : Flags) : Flags × Bool :=
  if !x.started then (x, false)
  else if x.readied then (x, x.vote)
  else (⟨x.started, true, true⟩, true)

/-- src/scribe.cc 208-210, 135, 174: the builder; the flags of the scribe, of its annotator and of its appender; and whether
the annotator and the appender still have the builder -/
structure Scribe (σ : Type) where
  builder : Builder σ
  own : Flags := {}
  annotator : Flags := {}
  appender : Flags := {}
  annotates : Bool := true
  appends : Bool := true

/-- the scribe itself, or the annotator or the appender it hands out -/
inductive Part where
  | scribe
  | annotator
  | appender
deriving DecidableEq, Repr

/-- what a program can do with a scribe -/
inductive Call where
  /-- `appender()->append(text, &p, &q)` -/
  | append (text : Bytes)
  /-- `annotator()->annotate(feature, p, q, v)` -/
  | annotate (feature p q v : Int)
  /-- `annotator()->annotate(filename)`, where the file has this content; `none`: it cannot be opened -/
  | annotations (content : Option Bytes)
  /-- `annotator()->erase(p, q)` -/
  | erase (p q : Int)
  /-- `set(key, value)` -/
  | set (key value : Bytes)
  /-- `finalize()` -/
  | finalize
  | transaction (x : Part)
  | ready (x : Part)
  | commit (x : Part)
  | abort (x : Part)
deriving DecidableEq, Repr

/-- src/scribe.cc 228-235 and 179-182: a new scribe on a builder -/
def make (b : Builder σ) : Scribe σ := { builder := b }

def Scribe.flags (s : Scribe σ) : Part → Flags
  | .scribe => s.own
  | .annotator => s.annotator
  | .appender => s.appender

def Scribe.setFlags (s : Scribe σ) (f : Flags) : Part → Scribe σ
  | .scribe => { s with own := f }
  | .annotator => { s with annotator := f }
  | .appender => { s with appender := f }

/-- `commit_` and `abort_`: src/scribe.cc 205-206 (nothing), 132-133 and 171-172 (the builder is forgotten) -/
def Scribe.close (s : Scribe σ) : Part → Scribe σ
  | .scribe => s
  | .annotator => { s with annotates := false }
  | .appender => { s with appends := false }

/-- src/annotator.h 26-32 `annotate`, and src/scribe.cc 121-129 `annotate_`: what the builder says is not looked at -/
def annotate (I : Inner σ) (s : Scribe σ) (feature p q v : Int) : Scribe σ × Bool :=
  if feature ≤ 0 then (s, true)
  else if !s.annotates then (s, false)
  else ({ s with builder := (perform I s.builder (.feature feature p q v)).1 }, true)

/-- src/annotator.cc 67-72: the loop of `annotate_(filename)` -/
def annotateAll (I : Inner σ) : Scribe σ → List Verif.Extsort.Ann → Scribe σ × Bool
  | s, [] => (s, true)
  | s, a :: l =>
    if a.feature ≠ 0 then
      let r := annotate I s a.feature a.p a.q a.v
      if r.2 then annotateAll I r.1 l else (r.1, false)
    else annotateAll I s l

/-- One call.  The answer is `none` for a call that has none; the whole is `none` if `asserts` (a build without `NDEBUG`) and
the assertion of `commit` fails (src/committable.h 54). -/
def call (asserts : Bool) (I : Inner σ) (s : Scribe σ) : Call → Option (Scribe σ × Option Bool)
  -- src/appender.h 32-35, src/scribe.cc 161-168
  | .append text =>
    if !s.appends then some (s, some false)
    else
      let r := perform I s.builder (.text text)
      some ({ s with builder := r.1 }, some r.2)
  | .annotate feature p q v =>
    let r := annotate I s feature p q v
    some (r.1, some r.2)
  -- src/annotator.cc 58-75
  | .annotations none => some (s, some false)
  | .annotations (some bs) =>
    let r := annotateAll I s (Verif.Extsort.records bs)
    some (r.1, some r.2)
  -- src/annotator.cc 77-80
  | .erase _ _ => some (s, some false)
  -- src/scribe.cc 197-201
  | .set _ _ => some (s, some false)
  -- src/scribe.cc 202
  | .finalize =>
    let r := perform I s.builder .finalize
    some ({ s with builder := r.1 }, some r.2)
  | .transaction x => some (s.setFlags (s.flags x).transaction.1 x, some (s.flags x).transaction.2)
  | .ready x => some (s.setFlags (s.flags x).ready.1 x, some (s.flags x).ready.2)
  -- src/committable.h 52-58
  | .commit x =>
    if asserts && !((s.flags x).started && (s.flags x).vote) then none
    else some ((s.close x).setFlags {} x, none)
  -- src/committable.h 59-65
  | .abort x => some ((if (s.flags x).started then s.close x else s).setFlags {} x, none)

/-- a history of calls, with their answers -/
def calls (asserts : Bool) (I : Inner σ) : Scribe σ → List Call → Option (Scribe σ × List (Option Bool))
  | s, [] => some (s, [])
  | s, c :: cs =>
    match call asserts I s c with
    | none => none
    | some (s', a) =>
      match calls asserts I s' cs with
      | none => none
      | some (s'', as) => some (s'', a :: as)

end Verif.BuilderScribe
