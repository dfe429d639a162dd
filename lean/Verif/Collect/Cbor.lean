/-
  Model of `collection_TREC_CAR` (apps/collection.cc): paragraphs from a file in CBOR.

  A file is a list of bytes (numbers below 256), and so are texts.  The builder is given by its answers: for each paragraph
  whether all of it was taken (what it keeps of one that it refuses is left out).  Memory and the stack do not run out.
-/
namespace Verif.Collect.Cbor

abbrev Bytes := List Nat

/-- collection.cc 205-262 `CBORBuild`, with the paragraphs that the builder took (name and content), and the answers that
it is going to give (`true` when the list has ended) -/
structure Build where
  pid : Bytes := []
  content : Bytes := []
  keywords : Bytes := []
  out : List (Bytes × Bytes) := []
  answers : List Bool := []

/-- collection.cc 212-218 `add_text` -/
def addText (t : Bytes) (s : Build) : Build :=
  if t = [] then s else { s with content := (if s.content = [] then [] else s.content ++ [32]) ++ t }

/-- collection.cc 219-227 `add_keyword` -/
def addKeyword (t : Bytes) (s : Build) : Build :=
  if t = [] then s else { s with keywords := (if s.keywords = [] then [62, 62, 62, 32] else s.keywords ++ [44, 32]) ++ t }

/-- collection.cc 228-231 `add_id`, without the assertion -/
def addId (t : Bytes) (s : Build) : Build := { s with pid := [67, 65, 82, 95] ++ t }

/-- collection.cc 232-255 `buildit`; its answer is not looked at (line 376) -/
def buildit (s : Build) : Build :=
  let content := if s.keywords = [] then s.content else (if s.content = [] then [] else s.content ++ [32]) ++ s.keywords
  if s.pid ≠ [] ∧ content ≠ [] then
    if s.answers.headD true then ⟨[], [], [], s.out ++ [(s.pid, content)], s.answers.tail⟩
    else { s with content := content, answers := s.answers.tail }
  else { s with pid := [], content := [], keywords := [] }

/-- big-endian numbers -/
def big : Bytes → Nat := fun l => l.foldl (fun n d => n * 256 + d) 0

/-- collection.cc 272-316 `CBOR_size`: the number, and the rest of the file -/
def size (c : Nat) (f : Bytes) : Option (Nat × Bytes) :=
  let wide (k : Nat) : Option (Nat × Bytes) := if f.length < k then none else some (big (f.take k), f.drop k)
  if c % 32 < 24 then some (c % 32, f)
  else if c % 32 = 27 then wide 8
  else if c % 32 = 26 then wide 4
  else if c % 32 = 25 then wide 2
  else if c % 32 = 24 then wide 1
  else none

/-- collection.cc 326-329: control characters and blanks become blanks -/
def clean (t : Bytes) : Bytes := t.map fun c => if c > 32 then c else 32

/-- collection.cc 318-332 `CBOR_text` -/
def text (c : Nat) (f : Bytes) : Option (Bytes × Bytes) :=
  match size c f with
  | none => none
  | some (n, f) => if f.length < n then none else some (clean (f.take n), f.drop n)

/-- collection.cc 358-363: what a text is for -/
def apply (mode : Nat) (t : Bytes) (s : Build) : Build :=
  if mode = 1 then addId t s else if mode = 2 then addText t s else if mode = 3 then addKeyword t s else s

/-- collection.cc 382-388: what an element of an array is for -/
def modeOf (depth mode n i : Nat) : Nat :=
  if mode = 2 ∧ depth = 4 ∧ i = 3 then 4 else if mode = 2 ∧ depth = 4 ∧ i = 1 then 3 else if mode = 0 ∧ depth = 1 ∧ n = 3 then 1 else mode

/-- what becomes of reading: what was built, the number of calls of `from_CBOR`, and, without an error, whether there was a
break and the rest of the file -/
structure Res where
  build : Build
  calls : Nat
  next : Option (Bool × Bytes)

/-- collection.cc 369-373: elements until a break; the number bounds the elements -/
def untilBreak (step : Bytes → Build → Res) : Nat → Bytes → Build → Res
  | 0, _, s => ⟨s, 0, none⟩
  | k + 1, f, s =>
    let r := step f s
    match r.next with
    | none => r
    | some (true, _) => r
    | some (false, f') =>
      let x := untilBreak step k f' r.build
      { x with calls := r.calls + x.calls }

/-- collection.cc 381-391: so many elements -/
def count (step : Nat → Bytes → Build → Res) : Nat → Nat → Bytes → Build → Res
  | 0, _, f, s => ⟨s, 0, some (false, f)⟩
  | n + 1, i, f, s =>
    let r := step i f s
    match r.next with
    | none => r
    | some (_, f') =>
      let x := count step n (i + 1) f' r.build
      { x with calls := r.calls + x.calls }

/-- collection.cc 334-416 `from_CBOR`; the first number bounds the nesting -/
def item : Nat → Nat → Nat → Bytes → Build → Res
  | 0, _, _, _, s => ⟨s, 0, none⟩
  | fuel + 1, depth, mode, f, s =>
    match f with
    | [] => ⟨s, 1, some (true, [])⟩
    | c :: f =>
      if c / 32 ≤ 1 then
        match size c f with
        | none => ⟨s, 1, none⟩
        | some (_, f) => ⟨s, 1, some (false, f)⟩
      else if c / 32 ≤ 3 then
        match text c f with
        | none => ⟨s, 1, none⟩
        | some (t, f) => ⟨apply mode t s, 1, some (false, f)⟩
      else if c / 32 = 4 then
        if c = 0x9f then
          let r := untilBreak (item fuel (depth + 1) (if mode = 1 then 2 else mode)) (f.length + 1) f s
          match r.next with
          | none => ⟨r.build, r.calls + 1, none⟩
          | some (_, f) => ⟨if mode = 1 then buildit r.build else r.build, r.calls + 1, some (false, f)⟩
        else
          match size c f with
          | none => ⟨s, 1, none⟩
          | some (n, f) =>
            let r := count (fun i => item fuel (depth + 1) (modeOf depth mode n i)) n 0 f s
            match r.next with
            | none => ⟨r.build, r.calls + 1, none⟩
            | some (_, f) => ⟨r.build, r.calls + 1, some (false, f)⟩
      else if c = 0xff then ⟨s, 1, some (true, f)⟩
      else ⟨s, 1, none⟩

/-- collection.cc 429-431: items until a break or an error; what was built, whether there was an error, and the calls -/
def items : Nat → Bytes → Build → Build × Bool × Nat
  | 0, _, s => (s, true, 0)
  | k + 1, f, s =>
    let r := item (f.length + 1) 0 0 f s
    match r.next with
    | none => (r.build, true, r.calls)
    | some (true, _) => (r.build, false, r.calls)
    | some (false, f') =>
      let x := items k f' r.build
      (x.1, x.2.1, r.calls + x.2.2)

/-- what `collection_TREC_CAR` leaves and says: the paragraphs, the answer, and whether `error` is set -/
structure Outcome where
  out : List (Bytes × Bytes)
  answer : Bool
  complains : Bool

/-- collection.cc 419-434 `collection_TREC_CAR`, for a file that can be read -/
def collection (f : Bytes) (answers : List Bool) : Outcome :=
  let x := items (f.length + 1) f { answers := answers }
  ⟨x.1.out, true, x.2.1⟩

/-! ### specification: CBOR -/

/-- what is in a file -/
inductive Tree
  | int (n : Nat)
  | str (t : Bytes)
  | arr (ts : List Tree)
  | indef (ts : List Tree)

/-- the number with so many bytes -/
def bigEndian : Nat → Nat → Bytes
  | 0, _ => []
  | k + 1, n => bigEndian k (n / 256) ++ [n % 256]

/-- the ways to write a number after one of the eight kinds (RFC 8949, 3) -/
inductive WritesSize (major n : Nat) : Bytes → Prop
  | short : n < 24 → WritesSize major n [major * 32 + n]
  | wide {k code} : (code = 24 ∧ k = 1) ∨ (code = 25 ∧ k = 2) ∨ (code = 26 ∧ k = 4) ∨ (code = 27 ∧ k = 8) → n < 256 ^ k →
      WritesSize major n ((major * 32 + code) :: bigEndian k n)

mutual
/-- the ways to write it: integers, byte strings and texts of known length, arrays of known and unknown length -/
inductive Writes : Bytes → Tree → Prop
  | int {m n b} : m = 0 ∨ m = 1 → WritesSize m n b → Writes b (.int n)
  | str {m t b} : m = 2 ∨ m = 3 → WritesSize m t.length b → Writes (b ++ t) (.str t)
  | arr {b bs ts} : WritesSize 4 ts.length b → WritesAll bs ts → Writes (b ++ bs) (.arr ts)
  | indef {bs ts} : WritesAll bs ts → Writes (0x9f :: (bs ++ [0xff])) (.indef ts)

/-- one after the other -/
inductive WritesAll : Bytes → List Tree → Prop
  | nil : WritesAll [] []
  | cons {b t bs ts} : Writes b t → WritesAll bs ts → WritesAll (b ++ bs) (t :: ts)
end

/-! ### specification: paragraphs -/

mutual
/-- all texts, in order -/
def leaves : Tree → List Bytes
  | .int _ => []
  | .str t => [t]
  | .arr ts => leavesAll ts
  | .indef ts => leavesAll ts

def leavesAll : List Tree → List Bytes
  | [] => []
  | t :: ts => leaves t ++ leavesAll ts
end

/-- the texts of an array within a part of a body, `(false, text)` for words of the paragraph and `(true, text)` for
keywords: the second element has keywords, the fourth is left out -/
def linkWords : Nat → List Tree → List (Bool × Bytes)
  | _, [] => []
  | i, t :: ts => (if i = 3 then [] else (leaves t).map fun x => (decide (i = 1), x)) ++ linkWords (i + 1) ts

/-- the texts of what is in a part of a body -/
def innerWords : Tree → List (Bool × Bytes)
  | .int _ => []
  | .str t => [(false, t)]
  | .arr ts => linkWords 0 ts
  | .indef ts => (leavesAll ts).map fun x => (false, x)

/-- the texts of a part of a body -/
def partWords : Tree → List (Bool × Bytes)
  | .int _ => []
  | .str t => [(false, t)]
  | .arr ts => ts.flatMap innerWords
  | .indef ts => ts.flatMap innerWords

/-- a paragraph: its name and its body -/
structure Para where
  tag : Nat
  id : Bytes
  body : List Tree

def Para.tree (p : Para) : Tree := .arr [.int p.tag, .str p.id, .indef p.body]

def Para.words (p : Para) : List (Bool × Bytes) := p.body.flatMap partWords

/-- the texts that have something in them, with something between them -/
def join (sep : Bytes) (xs : List Bytes) : Bytes := List.intercalate sep (xs.filter (· ≠ []))

/-- what a paragraph says: its texts with blanks between them, and its keywords after `>>> ` with commas between them -/
def Para.content (p : Para) : Bytes :=
  let texts := join [32] ((p.words.filter fun x => !x.1).map fun x => clean x.2)
  let keywords := join [44, 32] ((p.words.filter fun x => x.1).map fun x => clean x.2)
  join [32] [texts, if keywords = [] then [] else [62, 62, 62, 32] ++ keywords]

/-- what the builder should get: the paragraphs that say something -/
def wanted (ps : List Para) : List (Bytes × Bytes) :=
  (ps.filter fun p => p.content ≠ []).map fun p => ([67, 65, 82, 95] ++ clean p.id, p.content)

/-- something before the paragraphs that has none -/
inductive Header : Tree → Prop
  | int {n} : Header (.int n)
  | str {t} : Header (.str t)
  | arr {ts} : (∀ t ∈ ts, ∀ us, t = .arr us → us.length ≠ 3) → Header (.arr ts)

end Verif.Collect.Cbor
