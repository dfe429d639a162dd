import Verif.Recipe.Spec
import Verif.Dna.Model
/-
  Which parameters a warren can keep (the specification of C69).
-/
namespace Verif.Dna
open Verif.Recipe

/-- A value that can be kept: a text without a NUL, double quote, backslash or newline, or a map of such values, nested to any depth. -/
inductive Keepable : Str → Prop
  | leaf {v : Str} : cook v = none → (∀ c ∈ v, c ≠ 0 ∧ c ≠ 0x22 ∧ c ≠ 0x5C ∧ c ≠ 0x0A) → Keepable v
  | node {v : Str} {p : Map} : cook v = some p → (∀ k w, find k p = some w → Keepable w) → Keepable v

/-- A name of a parameter: a word of letters, digits, `-`, `_` and `.`. -/
def Word (k : Str) : Prop := k ≠ [] ∧ ∀ c ∈ k, keyChar c = true

def AllKeepable (m : Map) : Prop := ∀ k v, find k m = some v → Keepable v

/-- two answers that mean the same -/
def SameAnswer (a b : Option Str) : Prop := (a = none ∧ b = none) ∨ ∃ w w', a = some w ∧ b = some w' ∧ Same w w'

/-- The file describes a warren, with values that can be kept: the settings, and the parameters among them. -/
def Describes (file : File) (settings parameters : Map) : Prop :=
  ∃ dna, readDna file = some dna ∧ cook dna = some settings ∧ AllKeepable settings ∧
    match find parametersKey settings with
    | none => parameters = []
    | some text => cook text = some parameters

/-- the value that was set last, of a parameter that was set -/
def latest (k : Str) : List (Str × Str) → Option Str
  | [] => none
  | (k', v) :: l => (latest k l).or (if k' = k then some v else none)

end Verif.Dna
