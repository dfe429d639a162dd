import Verif.Fields.Spec
import Verif.Terms.Model
import Verif.Rank.TfModel
import Verif.Recipe.Options
/-
  Model of statistics by fields: `tf_field_annotations` (src/ranking.cc), which makes them, and `FieldStats`
  (src/field_stats.cc), which reads them.
-/
namespace Verif.Fields
open Verif.Hopper Verif.Terms Verif.Rank

section
variable {Tok Stem : Type} [DecidableEq Stem]

/-- What the program uses: `read p q` is `tokenizer()->split(txt()->translate(p, q))`. -/
structure FieldEnv (Tok Stem : Type) where
  read : Int → Int → List Tok
  stem : Tok → Stem
  F : FieldFeatures Stem

/-- without the fields -/
def FieldEnv.base (E : FieldEnv Tok Stem) : Env Tok Stem := ⟨E.read, E.stem, E.F.toFeatures⟩

variable (E : FieldEnv Tok Stem)

/-- `src/ranking.cc:1717-1723`: the counts `ftf` of a field -/
def noteField (i : Nat) (p : Int) : List (Stem × Int) → List Note → List Note
  | [], notes => notes
  | (s, n) :: tf, notes => noteField i p tf (annotate (E.F.field i s) p n notes)

/-- `src/ranking.cc:1696-1725`: the fields of a document from field `i` on, given what their hoppers answered: `length`, `tf` and the
annotations.  Annotating does not fail. -/
def docFields (d : Ann) : Nat → List Ann → Int → List (Stem × Int) → List Note → Int × List (Stem × Int) × List Note
  | _, [], length, tf, notes => (length, tf, notes)
  | i, a :: as, length, tf, notes =>
    if a.q ≤ d.q then
      docFields d (i + 1) as (length + (a.q - a.p + 1)) ((E.read a.p a.q).foldl (fun tf t => bump (E.stem t) tf) tf)
        (noteField E i d.p ((E.read a.p a.q).foldl (fun tf t => bump (E.stem t) tf) []) notes)
    else docFields d (i + 1) as length tf notes

/-- `src/ranking.cc:1690-1742`: the loop over the documents.  `fs` are the hoppers of the fields (the weights with them are not
used); each is asked for its first solution from the start of the document on (1698). -/
def fieldLoop (fs : List (Rat × Obj)) : List Ann → Int → Int → List (Int × Int) → List Note → Sts fs →
    Option (Int × Int × List (Int × Int) × List Note)
  | [], items, length, df, notes, _ => some (items, length, df, notes)
  | d :: D, items, length, df, notes, ss => match askAll (fun H => H.tau) d.p fs ss with
    | none => none
    | some (as, ss) =>
      let r := docFields E d 0 (as.map Prod.snd) 0 [] notes
      let t := noteDoc E.base d.p r.2.1 df r.2.2
      fieldLoop fs D (items + 1) (length + r.1) t.1 (annotate E.F.len d.p r.1 t.2) ss

/-- `src/ranking.cc:1643-1773` `tf_field_annotations`, of the hoppers of the documents and of the fields: what it commits; `some none`
is `return false`.  The documents are asked for one after the other before anything else is done, which makes no difference to
their hopper. -/
def fieldAnnotations (C : Obj) (hoppers : List Obj) : Option (Option (List Note)) :=
  match (tauAll C.tau loopFuel 0) C.init with
  | none => none
  | some (D, _) =>
    match fieldLoop E (hoppers.map fun H => (1, H)) D 0 0 [] [] (Sts.init _) with
    | none => none
    | some (items, length, df, notes) =>
      if items = 0 then some none
      else some (some (annotate E.F.length 0 length (annotate E.F.items 0 items (noteDf 0 df notes))))

end

/-! ### reading the statistics -/

/-- `std::stof` -/
inductive Num
  | num (w : Rat)
  /-- `std::invalid_argument` -/
  | invalid
  /-- `std::out_of_range` -/
  | range

/-- what `FieldStats::make` does with the parameters -/
inductive Weighed
  /-- the fields it uses, with their weights -/
  | ok (l : List (Nat × Rat))
  | error
  /-- an exception leaves it -/
  | thrown
  /-- other statistics are used instead -/
  | plain

/-- `src/field_stats.cc:52-70`: the loop over the weights, from that of field `i` on -/
def weigh (stof : List UInt8 → Num) : Nat → List (List UInt8) → Weighed
  | _, [] => .ok []
  | i, s :: ss => match stof s with
    | .invalid => .error
    | .range => .thrown
    | .num w =>
      if w < 0 then .error
      else match weigh stof (i + 1) ss with
        | .ok l => if w > 0 then .ok ((i, w) :: l) else .ok l
        | r => r

/-- `src/field_stats.cc:26-74`: the parameters `fields` and `weights` -/
def fieldWeights (stof : List UInt8 → Num) (fields weights : List UInt8) : Weighed :=
  if (Recipe.pieces 9 fields).length = 0 then .error
  else if (Recipe.pieces 9 weights).length = 0 then .plain
  else if (Recipe.pieces 9 weights).length ≠ (Recipe.pieces 9 fields).length then .error
  else match weigh stof 0 (Recipe.pieces 9 weights) with
    | .ok [] => .error
    | r => r

/-- `src/field_stats.cc:138-147` `load_df`: the value of the first solution from 0 on -/
def loadDf (H : Obj) : Option Int := (H.tau 0 H.init).map fun r => r.1.v

/-- `src/field_stats.cc:150-158` `idf_` -/
def idf (log : Rat → Rat) (items df : Int) : Rat :=
  if df = 0 then 0
  else if log (items / df) < 0 then 0 else log (items / df)

end Verif.Fields
