import Verif.Server.Model
import Verif.Props.Judge
import Verif.Props.Ranking
/-
  What a search server promises (the specification of C86).
-/
namespace Verif.Server
open Verif.Hopper Verif.Gcl Verif.Rank Verif.Props
open Verif.Judge (trecDocno)

section
variable {σ : Type} (S : Settings σ)

/-! ### requests -/

/-- the line asks for the value `v` of `key` with the operation `op` -/
def Asks (line op key v : Text) : Prop :=
  ∃ members, S.parse line = .object members ∧ value members keyOp = some op ∧ value members key = some v

/-- the line asks for the next passage of `qid` -/
def asksNext (qid line : Text) : Bool :=
  match S.parse line with
  | .object members => value members keyOp == some opNext && value members keyQid == some qid
  | _ => false

/-- the passage number `n` (from 0) of the ranking `R`, or that there are no more -/
inductive Page (op qid : Text) (R : List (Found σ)) (n : Nat) : Response → Prop
  | done : R.length ≤ n → Page op qid R n (.done op qid)
  | passage {f c} : R[n]? = some f → S.collections[f.collection]? = some c →
      Page op qid R n (.result op qid (n + 1) c.burrow f.docno (snippet c f.ranking))

/-- the response is about the query `qid` -/
def Response.qid? : Response → Option Text
  | .done _ qid => some qid
  | .result _ qid _ _ _ _ => some qid
  | _ => none

/-! ### the ranking of a query -/

/-- the text is a way to write the query, in which the tokenizer finds no word that cannot be looked up -/
structure Reads (c : Collection) (text : Text) (e : SExpr) : Prop where
  writes : Writes text e
  legal : Legal (expandPhrases c.split '"' e)

/-- what a query means in a collection -/
def Collection.means (c : Collection) (e : SExpr) : GC := den c.ix.solutions (expandPhrases c.split '"' e)

/-- the first document with the passage in it -/
def DocOf (D : GC) (r : Result σ) (d : Ann) : Prop :=
  (D d ∧ d.p ≤ r.p ∧ r.q ≤ d.q) ∧ ∀ d', D d' → d'.p ≤ r.p → r.q ≤ d'.q → d.p ≤ d'.p

/-- the first number in the document -/
def NumOf (N : GC) (d n : Ann) : Prop := (N n ∧ inside n d) ∧ ∀ n', N n' → inside n' d → n.p ≤ n'.p

/-- the passages that are in a document with a number, with that number -/
inductive Numbered (c : Collection) (i : Nat) (D N : GC) : List (Result σ) → List (Found σ) → Prop
  | nil : Numbered c i D N [] []
  | keep {r d n rs fs} : DocOf D r d → NumOf N d n → Numbered c i D N rs fs →
      Numbered c i D N (r :: rs) (⟨i, r, trecDocno (S.untag (c.translate n.p n.q))⟩ :: fs)
  | skip {r rs fs} : (∀ d n, DocOf D r d → ¬ NumOf N d n) → Numbered c i D N rs fs → Numbered c i D N (r :: rs) fs

/-- what a collection contributes: of the best thousand parts of its content, those in a document with a number.
`q`, `k`, `d` and `n` are the queries for the topic, the content, the documents and the numbers. -/
def Contributes (q k d n : SExpr) (c : Collection) (i : Nat) (fs : List (Found σ)) : Prop :=
  ∃ L C all R, Lists L (c.means q) ∧ Lists C (c.means k) ∧ Results S.sc L (matching L C minfinity maxfinity) all ∧
    Top S.sc 1000 all R ∧ Numbered S c i (c.means d) (c.means n) R fs

/-- the ranking of a query: what the collections contribute, best first, and in the order of the collections if none is
better -/
structure BestOf (q k d n : SExpr) (R : List (Found σ)) (per : List (List (Found σ))) : Prop where
  size : per.length = S.collections.length
  each : ∀ i c fs, S.collections[i]? = some c → per[i]? = some fs → Contributes S q k d n c i fs
  all : R.Perm per.flatten
  sorted : R.Pairwise fun a b => S.sc.gt b.ranking.score a.ranking.score = false
  stable : ∀ a b, [a, b].Sublist per.flatten → S.sc.gt b.ranking.score a.ranking.score = false → [a, b].Sublist R

/-! ### the text of a document -/

/-- the pieces one after the other, with dots between them -/
def joined : List Text → Text
  | [] => []
  | p :: ps => if p = [] then joined ps else p ++ ps.flatMap fun x => [' ', '.', '.', '.', ' '] ++ x

/-- the places of the fields in a document, field by field and in order -/
inductive FieldPlaces (c : Collection) (d : Ann) : List SExpr → List Ann → Prop
  | nil : FieldPlaces c d [] []
  | cons {f fs L l} : Lists L (c.means f) → FieldPlaces c d fs l → FieldPlaces c d (f :: fs) (within L d ++ l)

/-- the text of a document: all of it, or its fields; on one line -/
inductive TextOf (c : Collection) (fields : List SExpr) (d : Ann) : Text → Prop
  | whole : fields = [] → TextOf c fields d (cleanText (c.translate d.p d.q))
  | parts {l} : fields ≠ [] → FieldPlaces c d fields l →
      TextOf c fields d (cleanText (joined (l.map fun a => stripQuotes (c.clean a.p a.q))))

/-! ### looking for a document -/

/-- the documents of every collection (`docs i` are those of collection `i`), and a number that can be looked up in it -/
structure Library (d n : SExpr) (wanted : Text) (docs : Nat → List NumberedDoc) : Prop where
  container : ∀ (i : Nat) c, S.collections[i]? = some c → Reads c S.container d
  docno : ∀ (i : Nat) c, S.collections[i]? = some c → Reads c S.docno n
  numbered : ∀ (i : Nat) c, S.collections[i]? = some c → DocsNumbered c.ix c.split d n (docs i)
  ask : ∀ (i : Nat) c, S.collections[i]? = some c → CanAsk c.ix c.split (stripQuotes wanted)

/-- the document at `a` of collection `i` has a number with the wanted words next to each other in it -/
def HitIn (docs : Nat → List NumberedDoc) (wanted : Text) (i : Nat) (a : Ann) : Prop :=
  ∃ c, S.collections[i]? = some c ∧ ∃ x ∈ docs i, x.span = a ∧ c.split (stripQuotes wanted) <:+: c.split x.docno

/-- the fields are well written for all collections -/
structure FieldsRead (fields : List SExpr) : Prop where
  length : S.fields.length = fields.length
  reads : ∀ c ∈ S.collections, ∀ x ∈ S.fields.zip fields, Reads c x.1 x.2

/-! ### requests that the server survives -/

/-- what the collections must be for their rankings to be right: the queries are well written, and the parts of the
content do not overlap (`C44_overlap`) -/
structure Fit (text : Text) (q k d n : SExpr) (c : Collection) : Prop where
  query : Reads c text q
  content : Reads c S.content k
  container : Reads c S.container d
  docno : Reads c S.docno n
  apart : ∀ a b, c.means k a → c.means k b → a.p < b.p → a.q < b.p
  span : ∀ a b, c.means k a → c.means k b → b.q + 1 - a.p ≤ maxfinity

/-- a line that is not JSON, or an object whose members are texts -/
inductive Sound (line : Text) : Prop
  | notJson {what} : S.parse line = .bad what → Sound line
  | query {text q k d n} : Asks S line opQuery opQuery text → (∀ c ∈ S.collections, Fit S text q k d n c) → Sound line
  | next {qid} : Asks S line opNext keyQid qid → Sound line
  | document {wanted d n docs fields} : Asks S line opDocument keyDocno wanted → Library S d n wanted docs →
      FieldsRead S fields → Sound line
  | other {key op v} : Asks S line op key v → op ≠ opQuery → op ≠ opNext → op ≠ opDocument → Sound line

/-! ### lines -/

/-- the text is a way to write the lines: each ends with a newline, with or without a carriage return -/
inductive WritesLines : Text → List Text → Prop
  | nil : WritesLines [] []
  | cons {l eol text ls} : '\n' ∉ l → '\r' ∉ l → eol = ['\n'] ∨ eol = ['\r', '\n'] → WritesLines text ls →
      WritesLines (l ++ eol ++ text) (l :: ls)

end
end Verif.Server
