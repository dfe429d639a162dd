import Verif.Parts.Model
import Verif.Dna.Spec
/-
  Specification for the parts of warrens (C78).
-/
namespace Verif.Parts
open Verif.Recipe Verif.Dna

/-- a tag that is just text, without a NUL, double quote, backslash or newline -/
def PlainTag (tag : Str) : Prop := cook tag = none ∧ ∀ c ∈ tag, c ≠ 0 ∧ c ≠ 0x22 ∧ c ≠ 0x5C ∧ c ≠ 0x0A

/-- All tags within the featurizer are just text. -/
def Featurizer.Plain : Featurizer → Prop
  | .hashing => True
  | .null => True
  | .tagging b tag => b.Plain ∧ PlainTag tag
  | .json w => w.Plain
  | .vocab w => w.Plain

/-- Two featurizers give every key the same feature. -/
def SameFeatures (f g : Featurizer) : Prop := ∀ key, f.featurize key = g.featurize key

/-- Two sets of parts do the same: the features of all keys, the tokens of all texts and the meaning of all stored bytes are the same. -/
def SameParts (p q : Parts) : Prop :=
  SameFeatures p.featurizer q.featurizer ∧ p.tokenizer = q.tokenizer ∧ p.text = q.text ∧ p.fvalue = q.fvalue ∧ p.posting = q.posting

/-- Recipes on a command line: there is no NUL, double quote or backslash in them. -/
def CleanRecipe (recipe : Str) : Prop := ∀ c ∈ recipe, c ≠ 0 ∧ c ≠ 0x22 ∧ c ≠ 0x5C

end Verif.Parts
