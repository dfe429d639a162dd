import Verif.Hopper.Spec
/-
  What answering a set of topics is (the specification of C64).
-/
namespace Verif.Trec
open Verif.Hopper

/-- what is in `results`: what is stored for a topic -/
abbrev Results (T A : Type) := T → Option A

/-- every topic has its answer and nothing else has one; `answer j query` answers the `j`-th topic -/
structure Answered {T Q A : Type} (work : List (T × Q)) (answer : Nat → Q → A) (results : Results T A) : Prop where
  every : ∀ (j : Nat) topic query, work[j]? = some (topic, query) → results topic = some (answer j query)
  only : ∀ topic, (∀ x ∈ work, x.1 ≠ topic) → results topic = none

/-- what is stored is an answer, though perhaps not to every topic -/
def PartlyAnswered {T Q A : Type} (work : List (T × Q)) (answer : Nat → Q → A) (results : Results T A) : Prop :=
  ∀ topic a, results topic = some a → ∃ (j : Nat) (query : Q), work[j]? = some (topic, query) ∧ a = answer j query

/-- The identifier of a passage: of the identifiers that begin in or after it, the first, if it ends in the passage. -/
inductive Identifies (ids : List Ann) : Int × Int → Option Ann → Prop
  | found {p q a} : a ∈ ids → p ≤ a.p → (∀ b ∈ ids, p ≤ b.p → a.p ≤ b.p) → a.q ≤ q → Identifies ids (p, q) (some a)
  | beyond {p q a} : a ∈ ids → p ≤ a.p → (∀ b ∈ ids, p ≤ b.p → a.p ≤ b.p) → q < a.q → Identifies ids (p, q) none
  | last {p q} : (∀ b ∈ ids, b.p < p) → Identifies ids (p, q) none

/-- the identifiers of several passages, of those that have one -/
inductive IdentifiesAll (ids : List Ann) : List (Int × Int) → List Ann → Prop
  | nil : IdentifiesAll ids [] []
  | some {c cs a as} : Identifies ids c (some a) → IdentifiesAll ids cs as → IdentifiesAll ids (c :: cs) (a :: as)
  | none {c cs as} : Identifies ids c none → IdentifiesAll ids cs as → IdentifiesAll ids (c :: cs) as

end Verif.Trec
