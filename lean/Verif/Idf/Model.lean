import Verif.Idf.Spec
import Verif.Terms.Model
/-
  Model of `tf_idf_annotations` (src/ranking.cc), which annotates the weights of terms, and of `IdfStats` (src/idf_stats.cc), which
  reads them.
-/
namespace Verif.Idf
open Verif.Hopper Verif.Terms

section
variable {Word : Type} [DecidableEq Word]

/-- What the program uses: `read p q` is `tokenizer()->split(txt()->translate(p, q))`, `stem` is the stem of a token and `*stemmed`. -/
structure IdfEnv (Word : Type) where
  read : Int → Int → List Word
  stem : Word → Word × Bool
  log : Rat → Rat
  F : IdfFeatures Word

variable (E : IdfEnv Word)

/-- `src/ranking.cc:998-1022`: the counts of the terms of a document -/
def countTerms (unstemmed : Bool) : List Word → List (Word × Int) → List (Word × Int)
  | [], tf => tf
  | t :: ts, tf =>
    if unstemmed then
      let tf := bump t tf
      if (E.stem t).2 then countTerms unstemmed ts (bump (E.stem t).1 tf) else countTerms unstemmed ts tf
    else countTerms unstemmed ts (bump (E.stem t).1 tf)

/-- `src/ranking.cc:1023-1034`: they are written to a file, and each counts for `df` -/
def writeTerms (d : Ann) : List (Word × Int) → List (Word × Int) → List Wide → List (Word × Int) × List Wide
  | [], df, notes => (df, notes)
  | (w, n) :: tf, df, notes => writeTerms d tf (bump w df) (notes ++ [⟨E.F.tf w, d.p, d.q, .num n⟩])

/-- `src/ranking.cc:992-1035`: the documents -/
def idfLoop (unstemmed : Bool) : List Ann → Int → Int → List (Word × Int) → List Wide → Int × Int × List (Word × Int) × List Wide
  | [], n, length, df, notes => (n, length, df, notes)
  | d :: D, n, length, df, notes =>
    let r := writeTerms E d (countTerms E unstemmed (E.read d.p d.q) []) df notes
    idfLoop unstemmed D (n + 1) (length + (d.q - d.p + 1)) r.1 r.2

/-- `src/ranking.cc:1059-1077`: the weights of the terms -/
def writeWeights (idf rsj : Bool) (n : Int) : List (Word × Int) → List Wide → List Wide
  | [], notes => notes
  | (w, m) :: df, notes =>
    let notes := if idf then notes ++ [⟨E.F.idf w, 0, 0, .num (E.log (1 * n / m))⟩] else notes
    let weight := E.log (((n : Rat) - m + 1 / 2) / (m + 1 / 2))
    let notes := if rsj then (if weight > 0 then notes ++ [⟨E.F.rsj w, 0, 0, .num weight⟩] else notes) else notes
    writeWeights idf rsj n df notes

/-- `1.0 * total_length / N` of numbers that may be 0 -/
def ratio (length n : Int) : Val := if n = 0 then .nan else .num (1 * length / n)

/-- `src/ranking.cc:962-1108` `tf_idf_annotations`: what it commits; `some none` is that it returns without doing anything.  `C` is the
hopper of the containers.  The file of annotations, which is read back at once (`src/annotator.cc:58-75`), is a list; annotating
does not fail.  `none` would be that a hopper is stuck. -/
def tfIdfAnnotations (unstemmed idf rsj : Bool) (C : Obj) : Option (Option (List Wide)) :=
  if !(idf || rsj) then some none
  else match (tauAll C.tau loopFuel 0) C.init with
    | none => none
    | some (D, _) =>
      let r := idfLoop E unstemmed D 0 0 [] []
      let notes := writeWeights E idf rsj r.1 r.2.2.1 (r.2.2.2 ++ [⟨E.F.avgl, 0, 0, ratio r.2.1 r.1⟩])
      some (some (notes.filter fun n => 0 < n.feature))

end

/-! ### reading the statistics -/

/-- `src/idf_stats.cc:30-34`, `86-98` and `100-112`: the value of the first annotation; `some none`: there is none -/
def readFirst (H : Obj) : Option (Option Int) :=
  (H.tau (minfinity + 1) H.init).map fun r => if r.1.p = maxfinity then none else some r.1.v

/-- `src/idf_stats.cc:86-98` `rsj_` and `100-112` `idf_`: `zero` is how 0 is held -/
def weightOf (zero : Int) (H : Obj) : Option Int :=
  (readFirst H).map fun r => match r with
    | none => zero
    | some v => v

end Verif.Idf
