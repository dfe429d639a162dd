/-
  What the measures of a ranking mean, without reference to how they are computed.
-/
namespace Verif.Eval

/-- the judgements as a function: the grade of an address that was judged, and zero elsewhere -/
structure Judges (qrels : List (Int × Rat)) (g : Int → Rat) : Prop where
  once : (qrels.map (·.1)).Nodup
  here : ∀ p x, (p, x) ∈ qrels → g p = x
  else0 : ∀ p, (∀ x, (p, x) ∉ qrels) → g p = 0

/-- how many of the first `k` are relevant -/
def hits (g : Int → Rat) (k : Nat) (l : List Int) : Nat := ((l.take k).filter fun p => g p > 0).length

/-- how many addresses are judged relevant -/
def relevant (qrels : List (Int × Rat)) : Nat := (qrels.filter fun x => x.2 > 0).length

/-- precision at the rank of every relevant passage, summed -/
def precisions (g : Int → Rat) (l : List Int) : Rat :=
  ((List.range l.length).map fun i =>
    if g (l.getD i 0) > 0 then (hits g (i + 1) l : Rat) / ((i + 1 : Nat) : Rat) else 0).sum

/-- the sum of `x₀ w(0) + x₁ w(1) + ...` -/
def weigh (w : Nat → Rat) : List Rat → Rat
  | [] => 0
  | x :: l => x * w 0 + weigh (fun i => w (i + 1)) l

/-- weights that do not grow with the rank and are positive -/
structure Weights (w : Nat → Rat) : Prop where
  pos : ∀ i, 0 < w i
  falls : ∀ i, w (i + 1) ≤ w i

/-- the first `k`, or all -/
def upTo : Option Nat → List Int → List Int
  | none, l => l
  | some k, l => l.take k

/-- the gain of a ranking at a depth -/
def gainAt (w : Nat → Rat) (g : Int → Rat) (depth : Option Nat) (l : List Int) : Rat :=
  weigh w ((upTo depth l).map g)

/-- `best` is the greatest gain that a ranking without duplicates can have at this depth -/
def BestGain (w : Nat → Rat) (g : Int → Rat) (depth : Option Nat) (best : Rat) : Prop :=
  (∀ l : List Int, l.Nodup → gainAt w g depth l ≤ best) ∧ ∃ l : List Int, l.Nodup ∧ gainAt w g depth l = best

/-- every grade is between zero and one -/
def Fractions (g : Int → Rat) : Prop := ∀ p, 0 ≤ g p ∧ g p ≤ 1

/-- `m` is the greatest difference between the scores of two rankings over all ways of grading -/
def GreatestDifference (score : (Int → Rat) → List Int → Rat) (one two : List Int) (m : Rat) : Prop :=
  (∀ g, Fractions g → score g one - score g two ≤ m ∧ score g two - score g one ≤ m) ∧
  ∃ g, Fractions g ∧ (score g one - score g two = m ∨ score g two - score g one = m)

/-- `std::sort` in descending order -/
def Descends (sort : List Rat → List Rat) : Prop := ∀ l, (sort l).Perm l ∧ (sort l).Pairwise (· ≥ ·)

end Verif.Eval
