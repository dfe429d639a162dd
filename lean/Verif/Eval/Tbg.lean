import Verif.Eval.Model
import Verif.Eval.Spec
/-
  Model of `tbg_eval` in src/eval.cc (time-biased gain).

  Numbers are exact; `decay t` is `exp(-t * log(2.0) / 224.0)`.
-/
namespace Verif.Eval

/-- eval.cc 302-315: the loop, with the gain and the time spent so far; a passage is `(p, q)` -/
def tbgLoop (decay : Rat → Rat) (qrels : Qrels) : List (Int × Int) → Rat → Rat → Rat
  | [], tbg, _ => tbg
  | (p, q) :: l, tbg, time =>
    let reading : Rat := 18 / 1000 * ((q : Rat) - (p : Rat) + 1) + 78 / 10
    if gradeAt qrels p = 0 then tbgLoop decay qrels l tbg (time + (44 / 10 + reading * (39 / 100)))
    else tbgLoop decay qrels l (tbg + 64 / 100 * (77 / 100) * decay time) (time + (44 / 10 + reading * (64 / 100)))

/-- eval.cc 288-317 `tbg_eval` -/
def tbgEval (decay : Rat → Rat) (qrels : Qrels) (results : List (Int × Int)) : Rat := tbgLoop decay qrels results 0 0

/-! ### what it computes -/

/-- the time that a passage takes: 4.4 seconds for its summary, and, if it is opened, 7.8 seconds and 0.018 for each address -/
def seconds (g : Int → Rat) (x : Int × Int) : Rat :=
  44 / 10 + (if g x.1 = 0 then 39 / 100 else 64 / 100) * (78 / 10 + 18 / 1000 * ((x.2 : Rat) - (x.1 : Rat) + 1))

/-- the time until the end of the passages -/
def spent (g : Int → Rat) (l : List (Int × Int)) : Rat := (l.map (seconds g)).sum

/-- the gain from the passages, if the first is reached after `t` seconds -/
def gained (decay : Rat → Rat) (g : Int → Rat) : Rat → List (Int × Int) → Rat
  | _, [] => 0
  | t, x :: l => (if g x.1 = 0 then 0 else 64 / 100 * (77 / 100) * decay t) + gained decay g (t + seconds g x) l

theorem gained_append (decay : Rat → Rat) (g : Int → Rat) : ∀ (a b : List (Int × Int)) (t : Rat),
    gained decay g t (a ++ b) = gained decay g t a + gained decay g (t + spent g a) b
  | [], b, t => by simp [gained, spent, Rat.add_zero, Rat.zero_add]
  | x :: a, b, t => by
    rw [List.cons_append, gained, gained, gained_append decay g a b, spent, spent, List.map_cons, List.sum_cons]
    rw [show t + (seconds g x + (a.map (seconds g)).sum) = t + seconds g x + (a.map (seconds g)).sum by grind]
    grind

theorem tbgLoop_eq (decay : Rat → Rat) {qrels : Qrels} {g : Int → Rat} (hg : ∀ p, gradeAt qrels p = g p) :
    ∀ (l : List (Int × Int)) (tbg time : Rat), tbgLoop decay qrels l tbg time = tbg + gained decay g time l
  | [], tbg, time => by simp [tbgLoop, gained, Rat.add_zero]
  | (p, q) :: l, tbg, time => by
    unfold tbgLoop gained seconds
    simp only [hg]
    by_cases h : g p = 0
    · rw [if_pos h, if_pos h, if_pos h, tbgLoop_eq decay hg l]
      rw [show time + (44 / 10 + (18 / 1000 * ((q : Rat) - (p : Rat) + 1) + 78 / 10) * (39 / 100)) =
        time + (44 / 10 + 39 / 100 * (78 / 10 + 18 / 1000 * ((q : Rat) - (p : Rat) + 1))) by grind]
      grind
    · rw [if_neg h, if_neg h, if_neg h, tbgLoop_eq decay hg l]
      rw [show time + (44 / 10 + (18 / 1000 * ((q : Rat) - (p : Rat) + 1) + 78 / 10) * (64 / 100)) =
        time + (44 / 10 + 64 / 100 * (78 / 10 + 18 / 1000 * ((q : Rat) - (p : Rat) + 1))) by grind]
      grind

theorem seconds_pos {g : Int → Rat} {x : Int × Int} (h : x.1 ≤ x.2) : 0 < seconds g x := by
  have h' : (x.1 : Rat) ≤ (x.2 : Rat) := by exact_mod_cast h
  unfold seconds
  split <;> grind

theorem spent_nonneg {g : Int → Rat} : ∀ {l : List (Int × Int)}, (∀ x ∈ l, x.1 ≤ x.2) → 0 ≤ spent g l
  | [], _ => by simp [spent]
  | x :: l, h => by
    have h1 := seconds_pos (g := g) (h x (by simp))
    have h2 := spent_nonneg (g := g) (l := l) fun y hy => h y (by simp [hy])
    unfold spent at h2 ⊢
    rw [List.map_cons, List.sum_cons]
    grind

end Verif.Eval
