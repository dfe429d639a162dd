import Verif.Stem.Spec
/-
  Model of src/porter.cc and src/porter.h.

  The buffer is a list of bytes; `k` and `j` are the members of that name, and `k0` is 0.  Reading
  or writing outside the buffer is undefined behaviour, `none`, but for reading the byte just
  before it: what that gives is the parameter `below`, and `none` there makes it undefined
  behaviour, too.  A C string with its length in the first byte is a list.
-/
namespace Verif.Stem.Code
open Verif.Stem

structure St where
  b : List UInt8
  k : Int
  j : Int

/-- `b[i]` -/
def rd (below : Option UInt8) (st : St) (i : Int) : Option UInt8 :=
  if i = -1 then below else if i < 0 then none else st.b[i.toNat]?

/-- porter.cc 60-66 `cons`, `i` at least `k0` -/
def cons (b : List UInt8) : Nat → Option Bool
  | 0 =>
    match b[0]? with
    | none => none
    | some c => if c = 0x61 ∨ c = 0x65 ∨ c = 0x69 ∨ c = 0x6F ∨ c = 0x75 then some false else some true
  | i + 1 =>
    match b[i + 1]? with
    | none => none
    | some c =>
      if c = 0x61 ∨ c = 0x65 ∨ c = 0x69 ∨ c = 0x6F ∨ c = 0x75 then some false
      else if c = 0x79 then (cons b i).map (!·)
      else some true

/-- `cons(i)` for any `i`; below `k0` it is not used -/
def consAt (b : List UInt8) (i : Int) : Option Bool := if i < 0 then none else cons b i.toNat

/-- porter.cc 80-104 `m`: the first loop (`.skip`), and the two loops within the other; `i` goes up to `j`, `d` letters are left -/
inductive Phase | skip | vowels | consonants

def mLoop (b : List UInt8) : (d : Nat) → (i : Nat) → Phase → (n : Nat) → Option Nat
  | 0, _, _, n => some n
  | d + 1, i, ph, n =>
    match cons b i with
    | none => none
    | some c =>
      match ph with
      | .skip => if !c then mLoop b d (i + 1) .vowels n else mLoop b d (i + 1) .skip n
      | .vowels => if c then mLoop b d (i + 1) .consonants (n + 1) else mLoop b d (i + 1) .vowels n
      | .consonants => if !c then mLoop b d (i + 1) .vowels n else mLoop b d (i + 1) .consonants n

def m (st : St) : Option Nat := mLoop st.b (st.j + 1).toNat 0 .skip 0

/-- porter.cc 108-111 `vowelinstem` -/
def vowelLoop (b : List UInt8) : (d : Nat) → (i : Nat) → Option Bool
  | 0, _ => some false
  | d + 1, i =>
    match cons b i with
    | none => none
    | some c => if !c then some true else vowelLoop b d (i + 1)

def vowelinstem (st : St) : Option Bool := vowelLoop st.b (st.j + 1).toNat 0

/-- porter.cc 116-120 `doublec` -/
def doublec (below : Option UInt8) (st : St) (j : Int) : Option Bool :=
  if j < 1 then some false
  else do
    let x ← rd below st j
    let y ← rd below st (j - 1)
    if x ≠ y then some false else consAt st.b j

/-- porter.cc 132-138 `cvc` -/
def cvc (below : Option UInt8) (st : St) (i : Int) : Option Bool :=
  if i < 2 then some false
  else do
    if !(← consAt st.b i) then some false
    else if (← consAt st.b (i - 1)) then some false
    else if !(← consAt st.b (i - 2)) then some false
    else
      let ch ← rd below st i
      if ch = 0x77 ∨ ch = 0x78 ∨ ch = 0x79 then some false else some true

/-- porter.cc 143-150 `ends` -/
def ends (below : Option UInt8) (s : Word) (st : St) : Option (Bool × St) := do
  let last ← s.getLast?
  let c ← rd below st st.k
  if last ≠ c then some (false, st)
  else if (s.length : Int) > st.k + 1 then some (false, st)
  else if (st.b.drop (st.k - s.length + 1).toNat).take s.length ≠ s then some (false, st)
  else some (true, { st with j := st.k - s.length })

/-- porter.cc 156-160 `setto` -/
def setto (s : Word) (st : St) : Option St :=
  if st.j + 1 < 0 ∨ st.j + 1 + s.length > st.b.length then none
  else some { st with
    b := st.b.take (st.j + 1).toNat ++ s ++ st.b.drop ((st.j + 1).toNat + s.length)
    k := st.j + s.length }

/-- porter.cc 164 `r` -/
def r (s : Word) (st : St) : Option St := do
  if 0 < (← m st) then setto s st else some st

/-- porter.cc 198-210: when `ed` or `ing` was removed -/
def mendCode (below : Option UInt8) (st : St) : Option St := do
  let (x, st) ← ends below w!"at" st
  if x then setto w!"ate" st
  else
    let (x, st) ← ends below w!"bl" st
    if x then setto w!"ble" st
    else
      let (x, st) ← ends below w!"iz" st
      if x then setto w!"ize" st
      else if ← doublec below st st.k then
        let ch ← rd below st (st.k - 1)
        if ch = 0x6C ∨ ch = 0x73 ∨ ch = 0x7A then some st else some { st with k := st.k - 1 }
      else if (← m st) = 1 then
        if ← cvc below st st.k then setto w!"e" st else some st
      else some st

/-- porter.cc 191-195 -/
def step1aCode (below : Option UInt8) (st : St) : Option St := do
  if (← rd below st st.k) = 0x73 then
    let (x, st) ← ends below w!"sses" st
    if x then some { st with k := st.k - 2 }
    else
      let (x, st) ← ends below w!"ies" st
      if x then setto w!"i" st
      else if (← rd below st (st.k - 1)) ≠ 0x73 then some { st with k := st.k - 1 } else some st
  else some st

/-- porter.cc 196-211 -/
def step1bCode (below : Option UInt8) (st : St) : Option St := do
  let (x, st) ← ends below w!"eed" st
  if x then
    if 0 < (← m st) then some { st with k := st.k - 1 } else some st
  else
    let (x, st) ← ends below w!"ed" st
    let (y, st) ← if x then some (true, st) else ends below w!"ing" st
    if y then
      if ← vowelinstem st then mendCode below { st with k := st.j } else some st
    else some st

/-- porter.cc 215 `step1c` -/
def step1cCode (below : Option UInt8) (st : St) : Option St := do
  let (x, st) ← ends below w!"y" st
  if x then
    if ← vowelinstem st then
      if st.k < 0 ∨ st.k ≥ st.b.length then none else some { st with b := st.b.set st.k.toNat 0x69 }
    else some st
  else some st

/-- the tests of one case of a `switch`, in order -/
def tries (below : Option UInt8) : List (Word × Word) → St → Option St
  | [], st => some st
  | (s, t) :: l, st => do
    let (x, st) ← ends below s st
    if x then r t st else tries below l st

/-- porter.cc 224-259 -/
def cases2 (c : UInt8) : List (Word × Word) :=
  if c = 0x61 then [(w!"ational", w!"ate"), (w!"tional", w!"tion")]
  else if c = 0x63 then [(w!"enci", w!"ence"), (w!"anci", w!"ance")]
  else if c = 0x65 then [(w!"izer", w!"ize")]
  else if c = 0x6C then [(w!"bli", w!"ble"), (w!"alli", w!"al"), (w!"entli", w!"ent"), (w!"eli", w!"e"), (w!"ousli", w!"ous")]
  else if c = 0x6F then [(w!"ization", w!"ize"), (w!"ation", w!"ate"), (w!"ator", w!"ate")]
  else if c = 0x73 then [(w!"alism", w!"al"), (w!"iveness", w!"ive"), (w!"fulness", w!"ful"), (w!"ousness", w!"ous")]
  else if c = 0x74 then [(w!"aliti", w!"al"), (w!"iviti", w!"ive"), (w!"biliti", w!"ble")]
  else if c = 0x67 then [(w!"logi", w!"log")]
  else []

/-- porter.cc 224-260 `step2` -/
def step2Code (below : Option UInt8) (st : St) : Option St := do
  tries below (cases2 (← rd below st (st.k - 1))) st

/-- porter.cc 266-279 -/
def cases3 (c : UInt8) : List (Word × Word) :=
  if c = 0x65 then [(w!"icate", w!"ic"), (w!"ative", []), (w!"alize", w!"al")]
  else if c = 0x69 then [(w!"iciti", w!"ic")]
  else if c = 0x6C then [(w!"ical", w!"ic"), (w!"ful", [])]
  else if c = 0x73 then [(w!"ness", [])]
  else []

/-- porter.cc 266-279 `step3` -/
def step3Code (below : Option UInt8) (st : St) : Option St := do
  tries below (cases3 (← rd below st st.k)) st

/-- porter.cc 286-308: the suffixes of one case, in order -/
def cases4 (c : UInt8) : List Word :=
  if c = 0x61 then [w!"al"]
  else if c = 0x63 then [w!"ance", w!"ence"]
  else if c = 0x65 then [w!"er"]
  else if c = 0x69 then [w!"ic"]
  else if c = 0x6C then [w!"able", w!"ible"]
  else if c = 0x6E then [w!"ant", w!"ement", w!"ment", w!"ent"]
  else if c = 0x6F then [w!"ion", w!"ou"]
  else if c = 0x73 then [w!"ism"]
  else if c = 0x74 then [w!"ate", w!"iti"]
  else if c = 0x75 then [w!"ous"]
  else if c = 0x76 then [w!"ive"]
  else if c = 0x7A then [w!"ize"]
  else []

/-- The tests of one case: with `ion`, the letter before it is looked at, too (299).  If one
holds, what follows the `switch` (310) is done. -/
def tries4 (below : Option UInt8) : List Word → St → Option St
  | [], st => some st
  | s :: l, st => do
    let (x, st) ← ends below s st
    let ok ← if x && s == w!"ion" then do
        let c ← rd below st st.j
        some (c = 0x73 ∨ c = 0x74 : Bool)
      else some x
    if ok then
      if 1 < (← m st) then some { st with k := st.j } else some st
    else tries4 below l st

/-- porter.cc 284-311 `step4` -/
def step4Code (below : Option UInt8) (st : St) : Option St := do
  tries4 below (cases4 (← rd below st (st.k - 1))) st

/-- porter.cc 317-320: the first half of `step5` -/
def step5aCode (below : Option UInt8) (st : St) : Option St := do
  let st := { st with j := st.k }
  if (← rd below st st.k) = 0x65 then
    let a ← m st
    let drop ← if 1 < a then some true
      else if a = 1 then (cvc below st (st.k - 1)).map (!·)
      else some false
    some (if drop then { st with k := st.k - 1 } else st)
  else some st

/-- porter.cc 321: the second half of `step5` -/
def step5bCode (below : Option UInt8) (st : St) : Option St := do
  if (← rd below st st.k) = 0x6C then
    if ← doublec below st st.k then
      if 1 < (← m st) then some { st with k := st.k - 1 } else some st
    else some st
  else some st

/-- porter.cc 315-322 `step5` -/
def step5Code (below : Option UInt8) (st : St) : Option St := do
  step5bCode below (← step5aCode below st)

/-- porter.cc 334-345 `porter(p, 0, j)`, with the stale member `j0` -/
def porter (below : Option UInt8) (b : List UInt8) (k j0 : Int) : Option St := do
  let st : St := ⟨b, k, j0⟩
  if k ≤ 1 then some st
  else
    let st ← step1aCode below st
    let st ← step1bCode below st
    let st ← step1cCode below st
    let st ← step2Code below st
    let st ← step3Code below st
    let st ← step4Code below st
    step5Code below st

/-! ### `stem_`, porter.h 36-61 -/

/-- `LETTER`, porter.h 16, in the C locale -/
def letter (c : UInt8) : Bool := (0x41 ≤ c && c ≤ 0x5A) || (0x61 ≤ c && c ≤ 0x7A)
/-- `tolower` -/
def lower (c : UInt8) : UInt8 := if 0x41 ≤ c && c ≤ 0x5A then c + 0x20 else c

/-- porter.h 43-51: the word is copied into the buffer, up to a NUL; `none` if there is a byte
that is not a letter.  `pos` is where it is written. -/
def copy : Word → (pos : Nat) → List UInt8 → Option (List UInt8)
  | [], _, b => some b
  | c :: w, pos, b => if c = 0 then some b else if letter c then copy w (pos + 1) (b.set pos (lower c)) else none

/-- the stemmer: its buffer of 33 bytes (porter.h 22-25, 63) and the stale `j` -/
structure Stemmer where
  b : List UInt8
  j : Int

/-- what `stem_` leaves in the buffer when it meets a byte that is not a letter -/
def copied : Word → (pos : Nat) → List UInt8 → List UInt8
  | [], _, b => b
  | c :: w, pos, b => if c = 0 then b else if letter c then copied w (pos + 1) (b.set pos (lower c)) else b

/-- porter.h 36-61 `stem_`: the result, whether it was stemmed, and the stemmer afterwards -/
def stemCode (below : Option UInt8) (word : Word) (x : Stemmer) : Option (Word × Bool × Stemmer) :=
  if word.length < 3 ∨ word.length > 32 then some (word, false, x)
  else
    match copy word 0 x.b with
    | none => some (word, false, { x with b := copied word 0 x.b })
    | some b => do
      let st ← porter below b ((word.length : Int) - 1) x.j
      some (w!"porter:" ++ st.b.take (st.k + 1).toNat, true, ⟨st.b, st.j⟩)

/-- porter.h 22-25: bytes that were never written, and a NUL -/
def fresh (x : Stemmer) : Prop := x.b.length = 33

end Verif.Stem.Code
