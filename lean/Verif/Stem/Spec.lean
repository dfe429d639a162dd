/-
  Specification of the Porter stemmer: the rules of the paper (M. F. Porter, 1980, An algorithm
  for suffix stripping, Program 14(3) 130-137), on words as lists of bytes, with the three
  departures that src/porter.cc states: words of one or two letters are kept (340), `bli`
  instead of `abli` (236), and `logi` (257).
-/
namespace Verif.Stem

/-- the bytes of a literal -/
macro:max "w!" s:str : term => do
  let bytes := s.getString.toUTF8.toList
  let elems : Array Lean.Term := (bytes.map fun b => ⟨Lean.Syntax.mkNumLit (toString b.toNat)⟩).toArray
  `(([$elems,*] : List UInt8))

abbrev Word := List UInt8

/-- Whether each letter is a consonant: a letter other than a, e, i, o, u, and other than y
after a consonant. -/
def kindsFrom (previous : Bool) : Word → List Bool
  | [] => []
  | c :: w =>
    let k := if c ∈ w!"aeiou" then false else if c = 0x79 then !previous else true
    k :: kindsFrom k w

def kinds (w : Word) : List Bool := kindsFrom false w

/-- how often a consonant follows a vowel -/
def turns : List Bool → Nat
  | [] => 0
  | [_] => 0
  | a :: b :: l => turns (b :: l) + if !a && b then 1 else 0

/-- `m`, where the word is [C](VC)^m[V] -/
def measure (w : Word) : Nat := turns (kinds w)

/-- `*v*`: the word has a vowel -/
def hasVowel (w : Word) : Bool := false ∈ kinds w

/-- `*d`: the word ends in a double consonant -/
def doubleC (w : Word) : Bool :=
  match w.reverse with
  | c :: d :: _ => c == d && (kinds w).getLast? == some true
  | _ => false

/-- `*o`: the word ends in consonant, vowel, consonant, and the last is not w, x or y -/
def cvc (w : Word) : Bool :=
  match (kinds w).reverse with
  | true :: false :: true :: _ =>
    match w.getLast? with
    | some c => !(c ∈ w!"wxy")
    | none => false
  | _ => false

/-- the word without that many letters at its end -/
def less (w : Word) (n : Nat) : Word := w.take (w.length - n)

/-- The first rule whose left side ends the word: the rules are given from the longest down.
If the rest of the word satisfies the condition, the right side replaces the left side. -/
def rewrite (rules : List (Word × Word)) (ok : Word → Word → Bool) (w : Word) : Word :=
  match rules.find? fun x => x.1.isSuffixOf w with
  | none => w
  | some x => if ok x.1 (less w x.1.length) then less w x.1.length ++ x.2 else w

def step1a (w : Word) : Word :=
  rewrite [(w!"sses", w!"ss"), (w!"ies", w!"i"), (w!"ss", w!"ss"), (w!"s", [])] (fun _ _ => true) w

/-- what is done when `ed` or `ing` was removed -/
def mend (w : Word) : Word :=
  if w!"at".isSuffixOf w || w!"bl".isSuffixOf w || w!"iz".isSuffixOf w then w ++ w!"e"
  else if doubleC w && !(w!"l".isSuffixOf w || w!"s".isSuffixOf w || w!"z".isSuffixOf w) then less w 1
  else if measure w == 1 && cvc w then w ++ w!"e"
  else w

def step1b (w : Word) : Word :=
  if w!"eed".isSuffixOf w then (if 0 < measure (less w 3) then less w 1 else w)
  else if w!"ed".isSuffixOf w then (if hasVowel (less w 2) then mend (less w 2) else w)
  else if w!"ing".isSuffixOf w then (if hasVowel (less w 3) then mend (less w 3) else w)
  else w

def step1c (w : Word) : Word := rewrite [(w!"y", w!"i")] (fun _ u => hasVowel u) w

def rules2 : List (Word × Word) :=
  [(w!"ational", w!"ate"), (w!"ization", w!"ize"), (w!"iveness", w!"ive"), (w!"fulness", w!"ful"), (w!"ousness", w!"ous"),
   (w!"tional", w!"tion"), (w!"biliti", w!"ble"),
   (w!"entli", w!"ent"), (w!"ousli", w!"ous"), (w!"ation", w!"ate"), (w!"alism", w!"al"), (w!"aliti", w!"al"), (w!"iviti", w!"ive"),
   (w!"enci", w!"ence"), (w!"anci", w!"ance"), (w!"izer", w!"ize"), (w!"alli", w!"al"), (w!"ator", w!"ate"), (w!"logi", w!"log"),
   (w!"bli", w!"ble"), (w!"eli", w!"e")]

def step2 (w : Word) : Word := rewrite rules2 (fun _ u => 0 < measure u) w

def rules3 : List (Word × Word) :=
  [(w!"icate", w!"ic"), (w!"ative", []), (w!"alize", w!"al"), (w!"iciti", w!"ic"),
   (w!"ical", w!"ic"), (w!"ness", []), (w!"ful", [])]

def step3 (w : Word) : Word := rewrite rules3 (fun _ u => 0 < measure u) w

def rules4 : List (Word × Word) :=
  [(w!"ement", []),
   (w!"ance", []), (w!"ence", []), (w!"able", []), (w!"ible", []), (w!"ment", []),
   (w!"ant", []), (w!"ent", []), (w!"ion", []), (w!"ism", []), (w!"ate", []), (w!"iti", []), (w!"ous", []), (w!"ive", []), (w!"ize", []),
   (w!"al", []), (w!"er", []), (w!"ic", []), (w!"ou", [])]

/-- `ion` is removed only after s or t -/
def step4 (w : Word) : Word :=
  rewrite rules4 (fun s u => 1 < measure u && (s != w!"ion" || w!"s".isSuffixOf u || w!"t".isSuffixOf u)) w

def step5a (w : Word) : Word :=
  rewrite [(w!"e", [])] (fun _ u => 1 < measure u || (measure u == 1 && !cvc u)) w

def step5b (w : Word) : Word :=
  if 1 < measure w && doubleC w && w!"l".isSuffixOf w then less w 1 else w

/-- up to step 3, and all steps -/
def early (w : Word) : Word := step3 (step2 (step1c (step1b (step1a w))))

def stem (w : Word) : Word := if w.length ≤ 2 then w else step5b (step5a (step4 (early w)))

/-! ### what the stemmer answers -/

def isUpper (c : UInt8) : Bool := 65 ≤ c.toNat && c.toNat ≤ 90
def isLower (c : UInt8) : Bool := 97 ≤ c.toNat && c.toNat ≤ 122
def small (c : UInt8) : UInt8 := if isUpper c then c + 32 else c

/-- three to thirty-two letters -/
def Stemmable (word : Word) : Prop := 3 ≤ word.length ∧ word.length ≤ 32 ∧ ∀ c ∈ word, isUpper c = true ∨ isLower c = true

instance (word : Word) : Decidable (Stemmable word) := by unfold Stemmable; infer_instance

/-- the answer, and whether the word was stemmed -/
def answer (word : Word) : Word × Bool :=
  if Stemmable word then (w!"porter:" ++ stem (word.map small), true) else (word, false)

end Verif.Stem
