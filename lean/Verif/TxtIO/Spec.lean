import Verif.TxtIO.Model

/-!
# What the text store should do

A store is one byte string; a transaction remembers the string it began with.
-/

namespace Verif.TxtIO

/-- The compressor gives back any text of at most `n` bytes. -/
def Codec.Restores (z : Codec) (n : Nat) : Prop := ∀ x, x.length ≤ n → z.tang (z.crush x) = x

/-- A longer text is not compressed to fewer bytes than its beginning. -/
def Codec.Grows (z : Codec) : Prop := ∀ x y, (z.crush x).length ≤ (z.crush (x ++ y)).length

/-- The string, the string when the running transaction began (with whether everything had been
flushed then), whether the transaction is ready, and whether anything was appended since the last
flush. -/
structure Plain where
  text : Bytes := []
  saved : Option (Bytes × Bool) := none
  ready : Bool := false
  dirty : Bool := false

/-- The bytes of a text from `start` on, at most `desired` of them; a negative start counts as 0. -/
def Plain.range (start desired : Int) (t : Bytes) : Bytes :=
  (t.drop start.toNat).take desired.toNat

/-- What a call does and answers. -/
def Plain.call (p : Plain) : Call → Plain × Answer
  | .append t => ({ p with text := p.text ++ t, dirty := p.dirty || !t.isEmpty }, .done)
  | .read a b => ({ p with dirty := false }, .text (Plain.range a b p.text))
  | .size => (p, .count p.text.length)
  | .flush => ({ p with dirty := false }, .done)
  | .transaction _ =>
    match p.saved with
    | none => ({ p with saved := some (p.text, !p.dirty), ready := false }, .yes true)
    | some _ => (p, .yes false)
  | .ready =>
    match p.saved with
    | none => (p, .yes false)
    | some _ => ({ p with ready := true, dirty := if p.ready then p.dirty else false }, .yes true)
  | .commit => ({ p with saved := none, ready := false }, .done)
  | .abort _ =>
    match p.saved with
    | none => ({ p with ready := false }, .done)
    | some (old, _) => ({ text := old }, .done)
  | .reopen =>
    match p.saved with
    | none => ({ text := p.text }, .done)
    | some (old, _) => ({ text := old }, .done)

/-- The string after some calls and the answers given. -/
def Plain.run (p : Plain) : List Call → Plain × List Answer
  | [] => (p, [])
  | c :: cs =>
    let r := p.call c
    let q := r.1.run cs
    (q.1, r.2 :: q.2)

/-- Calls as the code expects them: `commit` is only called on a transaction that is ready. A stream
whose last write is still in its buffer when the transaction is aborted is only allowed for
compressors that grow, and when everything was flushed as the transaction began. -/
def Careful (z : Codec) : Plain → List Call → Prop
  | _, [] => True
  | p, c :: cs =>
    (c = .commit → p.saved ≠ none ∧ p.ready = true) ∧
    (c = .abort true → z.Grows ∧ ∀ s ∈ p.saved, s.2 = true) ∧
    Careful z (p.call c).1 cs

/-! ## Crashes -/

/-- What a change of the files may leave behind when it is interrupted: a write may stop after any of
its bytes, a replaced map entry may hold anything, other changes happen or do not. -/
inductive Torn : Op → Disk → Disk → Prop
  | whole (o d) : Torn o d (o.run d)
  | write (pos b k d) : Torn (.write pos b) d ((Op.write pos (b.take k)).run d)
  | last (v v' d) : Torn (.last v) d ((Op.last v').run d)

/-- The files after some of the changes, each possibly interrupted. -/
inductive TornAll : List Op → Disk → Disk → Prop
  | nil (d) : TornAll [] d d
  | cons {o os d d' d''} : Torn o d d' → TornAll os d' d'' → TornAll (o :: os) d d''
  | skip {o os d d'} : TornAll os d d' → TornAll (o :: os) d d'

/-- Recoveries that were themselves interrupted, any number of them. -/
inductive Struggle (fast : Bool) (z : Codec) : Disk → Disk → Prop
  | none (d) : Struggle fast z d d
  | some {d d' d''} : TornAll (restore fast z d) d d' → Struggle fast z d' d'' → Struggle fast z d d''

end Verif.TxtIO
