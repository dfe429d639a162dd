import Verif.HazelDna.Model
import Verif.Dna.Spec
/-
  Specification of the descriptions of merged static shards (C76).
-/
namespace Verif.HazelDna
open Verif.Recipe Verif.Dna

/-- what a shard says about itself under `hazel` -/
def Metadata (A M : Map) : Prop := ∃ text, find hazelKey A = some text ∧ cook text = some M

/-- Two shards may be merged: their settings mean the same, except for their parameters and for the ranges of their transactions. -/
def Compatible (A B : Map) : Prop :=
  (∀ k, k ≠ parametersKey → k ≠ hazelKey → SameAnswer (find k A) (find k B)) ∧
  ((find hazelKey A = none ∧ find hazelKey B = none) ∨
    ∃ M N, Metadata A M ∧ Metadata B N ∧ ∀ k, k ≠ startKey → k ≠ endKey → SameAnswer (find k M) (find k N))

/-- The shard says that it holds the transactions from `r.1` to `r.2`. -/
def HasRange (A : Map) (r : Int × Int) : Prop :=
  ∃ M a b, Metadata A M ∧ find startKey M = some a ∧ find endKey M = some b ∧ stoll a = some r.1 ∧ stoll b = some r.2 ∧ 0 ≤ r.1 ∧ r.1 ≤ r.2

/-- The shard says nothing about which transactions it holds. -/
def NoRange (A : Map) : Prop := find hazelKey A = none ∨ ∃ M, Metadata A M ∧ find startKey M = none ∧ find endKey M = none

/-- These are the ranges of the shards. -/
def AllRanges : List Map → List (Int × Int) → Prop
  | [], [] => True
  | A :: As, r :: rs => HasRange A r ∧ AllRanges As rs
  | _, _ => False

/-- Each range starts where the one before it ends. -/
def Consecutive : List (Int × Int) → Prop
  | a :: b :: l => b.1 = a.2 + 1 ∧ Consecutive (b :: l)
  | _ => True

/-- the description of a shard that can be kept -/
def Kept (A : Map) : Prop := GoodMap A ∧ AllKeepable A

/-- What can be made depends on what names and recipes mean, not on how they are written. -/
def Respects (makes : Str → Str → Str → Bool) (stems : Str → Bool) : Prop :=
  (∀ key n r n' r', Same n n' → Same r r' → makes key n r = true → makes key n' r' = true) ∧
  ∀ s s', Same s s' → stems s = true → stems s' = true

/-- the names of shards say these ranges -/
def Named : List (List Char × Map) → List (Nat × Nat) → Prop
  | [], [] => True
  | (name, _) :: l, r :: rs => Names.parseHazelName name = some r ∧ Named l rs
  | _, _ => False

/-- the ranges of names, one after the other -/
def Follow : List (Nat × Nat) → Prop
  | a :: b :: l => b.1 = a.2 + 1 ∧ Follow (b :: l)
  | _ => True

/-- What the shards say about their ranges agrees with what their names say. -/
def Agree : List (List Char × Map) → List (Nat × Nat) → Prop
  | (_, A) :: l, r :: rs => (NoRange A ∨ HasRange A ((r.1 : Int), (r.2 : Int))) ∧ Agree l rs
  | _, _ => True

end Verif.HazelDna
