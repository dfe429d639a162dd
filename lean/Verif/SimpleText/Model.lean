import Verif.Text.Fiver
/-
  Model of the text of a simple warren: `SimpleBuilder::add_text_` (src/simple_builder.cc),
  `SimpleAppender` (src/simple_appender.cc) and `SimpleTxt` (src/simple_txt.cc).

  The bytes are kept in a chunked store, `SimpleTxtIO`, which C29 shows to behave as one byte
  string: here it is that byte string.  Files fail to be opened or written only where said.
-/
namespace Verif.SimpleText
open Verif.Text

/-- `struct TxtRecord` (src/simple.h 63-67) -/
structure Rec where
  pq : Int
  start : Int
  stop : Int
deriving DecidableEq, Repr

/-- What is on disk between transactions: the text and the block map `txt`. -/
structure Disk where
  text : Text := []
  records : List Rec := []
deriving DecidableEq

/-- The fields of `SimpleBuilder` and of `SimpleAppender` in a transaction: the store, `address_`,
`offset_`, the block map written so far, and the annotations made for tokens. -/
structure Session where
  text : Text := []
  address : Nat := 0
  offset : Nat := 0
  records : List Rec := []
  notes : List (Text × Nat) := []

/-- The body of the loop over tokens.  src/simple_builder.cc 595-611 with `keep`, which sets
`last_pq` after a record; src/simple_appender.cc 145-166 without, which never does. -/
def Session.token (keep : Bool) (offset base : Nat) (st : Session × Int) (t : Tok) : Session × Int :=
  let a := t.address + base
  let s := { st.1 with notes := st.1.notes ++ [(t.str, a)] }
  if a % 1024 = 0 ∧ (a : Int) ≠ st.2 then
    ({ s with records := s.records ++ [⟨a, offset + t.offset, (offset : Int) + t.offset + t.length - 1⟩] },
      if keep then a else st.2)
  else (s, st.2)

/-- `add_text_` (src/simple_builder.cc 568-617) and `append_` (src/simple_appender.cc 105-174);
the range of addresses is returned as `(p, q)`. -/
def Session.append (keep : Bool) (T : Tokenizer) (st : Session) (s : Text) : Session × Int × Int :=
  if s = [] then (st, st.address + 1, st.address)
  else
    let b := stored s
    let st1 := { st with text := st.text ++ b }
    match (T.tokenize b).getLast? with
    | none => ({ st1 with offset := st.offset + b.length }, st.address + 1, st.address)
    | some l =>
      let last := st.address + l.address
      let st2 := ((T.tokenize b).foldl (Session.token keep st.offset st.address) (st1, -1)).1
      ({ st2 with address := last + 1, offset := st.offset + b.length }, st.address, last)

/-- the texts one after the other -/
def Session.all (keep : Bool) (T : Tokenizer) : Session → List Text → Session
  | st, [] => st
  | st, s :: l => Session.all keep T (st.append keep T s).1 l

/-- a `char *` read as a string: it ends at the first NUL (src/simple_appender.cc 291) -/
def cstring (s : Text) : Text := s.takeWhile (· ≠ 0)

/-- `transaction_` (src/simple_appender.cc 176-309), for files that can be opened: where the
addresses of the new texts start.  `none` for the errors of 266-276, 280-290 and 293-303. -/
def start (T : Tokenizer) (d : Disk) : Option Session :=
  let s : Session := { text := d.text, offset := d.text.length, records := d.records }
  match d.records.getLast? with
  | none => some { s with address := 0 }
  | some r =>
    if (d.text.length : Int) ≤ r.start then none
    else
      let tail := T.split (cstring (d.text.drop r.start.toNat))
      if tail = [] then none else some { s with address := (r.pq + tail.length).toNat }

/-- A transaction: texts appended, and committed (src/simple_appender.cc 321-335) or aborted
(337-351). -/
structure Txn where
  texts : List Text
  commit : Bool

/-- `none` if the transaction cannot be started -/
def transact (T : Tokenizer) (d : Disk) (t : Txn) : Option Disk :=
  match start T d with
  | none => none
  | some s =>
    let s := Session.all false T s t.texts
    some (if t.commit then ⟨s.text, s.records⟩ else d)

def transactAll (T : Tokenizer) : Disk → List Txn → Option Disk
  | d, [] => some d
  | d, t :: ts => match transact T d t with
    | none => none
    | some d => transactAll T d ts

/-- A warren built from texts (src/simple_builder.cc 568-617). -/
def build (T : Tokenizer) (texts : List Text) : Disk :=
  let s := Session.all true T {} texts
  ⟨s.text, s.records⟩

/-- The loop of `load_map` (src/simple_txt.cc 37-54): `last_pq` and `map_blocking_`; the result is
the final `map_blocking_`, `none` for a blocking error. -/
def blocks : Int → Int → List Rec → Option Int
  | _, b, [] => some b
  | last, b, r :: rs =>
    if last > -1 then
      if b > -1 then if r.pq - last ≠ b then none else blocks r.pq b rs
      else blocks r.pq (r.pq - last) rs
    else blocks r.pq b rs

/-- `memo_offset_`, `memo_skip_` and `memo_end_` while `memo_valid_` -/
structure Memo where
  offset : Int
  skip : Int
  stop : Int
deriving DecidableEq

/-- the fields of `SimpleTxt` (src/simple_txt.h 45-57) -/
structure Reader where
  text : Text
  map : List Int
  blocking : Int
  memo : Option Memo
  computed : Option Int

/-- `SimpleTxt::make` and `load_map` (src/simple_txt.cc 17-60, 87-121) -/
def load (d : Disk) : Option Reader :=
  match blocks (-1) (-1) d.records with
  | none => none
  | some b => some ⟨d.text, d.records.map Rec.start ++ [(d.text.length : Int)], b, none, none⟩

/-- bytes of the store (C29) -/
def readText (text : Text) (offset size : Int) : Text := (text.drop offset.toNat).take size.toNat

/-- src/simple_txt.cc 182-188: what is read from the store -/
structure Plan where
  offset : Int
  size : Int
  skip : Int
  count : Int
deriving DecidableEq

/-- `translate_` up to the lock (src/simple_txt.cc 165-185); `none` where the code divides by
zero, `some none` where it returns early with nothing -/
def plan (r : Reader) (p q : Int) : Option (Option Plan) :=
  let n : Int := r.map.length
  let pb := if r.blocking = -1 then 0 else p / r.blocking
  if r.blocking = 0 then none
  else if pb ≥ n - 1 then some none
  else
    let offset := r.map.getD pb.toNat 0
    let qb := if r.blocking = -1 then 1 else q / r.blocking + 1
    let qb := if qb ≥ n then n - 1 else qb
    some (some ⟨offset, r.map.getD qb.toNat 0 - offset, p - pb * r.blocking, q - p + 1⟩)

/-- src/simple_txt.cc 189-198: what the memo saves reading again, and `memo_end_` -/
def resume (r : Reader) (x : Plan) : Plan × Int :=
  match r.memo with
  | none => (x, 0)
  | some m =>
    if m.offset = x.offset ∧ m.skip ≤ x.skip ∧ m.stop ≤ x.size then
      (⟨x.offset + m.stop, x.size - m.stop, x.skip - m.skip, x.count⟩, m.stop)
    else (x, 0)

/-- src/simple_txt.cc 199-211 for the plan `x`, resumed as `y` with `memo_end_` at `done` -/
def fetch (T : Tokenizer) (r : Reader) (x y : Plan) (done : Int) : Reader × Text :=
  let buffer := readText r.text y.offset y.size
  if buffer = [] then ({ r with memo := none }, [])
  else
    let s := T.skip buffer y.skip
    if s ≥ buffer.length then ({ r with memo := none }, [])
    else
      let e := T.skip (buffer.drop s) y.count
      ({ r with memo := if s + e < buffer.length then
            some ⟨x.offset, x.skip + x.count, done + (s + e : Nat)⟩ else none },
        (buffer.drop s).take e)

/-- `translate_` (src/simple_txt.cc 165-211); `none` where the code divides by zero -/
def translate (T : Tokenizer) (r : Reader) (p q : Int) : Option (Reader × Text) :=
  if p = maxfinity then some (r, [])
  else
    let q := if q = maxfinity then q - 1 else q
    let p := if p < 0 then 0 else p
    if p > q then some (r, [])
    else
      match plan r p q with
      | none => none
      | some none => some (r, [])
      | some (some x) => some (fetch T r x (resume r x).1 (resume r x).2)

/-- `tokens_` (src/simple_txt.cc 213-229) -/
def tokens (T : Tokenizer) (r : Reader) : Option (Reader × Int) :=
  match r.computed with
  | some n => some (r, n)
  | none =>
    let full := if r.map.length < 3 then 0 else r.blocking * ((r.map.length : Int) - 2)
    match translate T r full maxfinity with
    | none => none
    | some (r, tail) =>
      let n := full + (T.split tail).length
      some ({ r with computed := some n }, n)

end Verif.SimpleText
