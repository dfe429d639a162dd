import Verif.Eval.Tbg
import Verif.Props.Eval
/-
  C60: time-biased gain.
-/
namespace Verif.Props
open Verif.Eval

/-- what is used of the decay: it starts at one, is never negative, and never grows -/
structure Decays (decay : Rat → Rat) : Prop where
  start : decay 0 = 1
  nonneg : ∀ t, 0 ≤ t → 0 ≤ decay t
  falls : ∀ s t, 0 ≤ s → s ≤ t → decay t ≤ decay s

/-- passages end where they begin or later -/
def Ordered (results : List (Int × Int)) : Prop := ∀ x ∈ results, x.1 ≤ x.2

/-- the gain at the place `k` of a ranking: 0.64 times 0.77 for a relevant passage, decayed by the time that the ones before
it take -/
def gainAt (decay : Rat → Rat) (g : Int → Rat) (results : List (Int × Int)) (k : Nat) : Rat :=
  match results[k]? with
  | none => 0
  | some x => if g x.1 = 0 then 0 else 64 / 100 * (77 / 100) * decay ((results.take k).map (seconds g)).sum

theorem grade_of {qrels : List (Int × Rat)} {g : Int → Rat} (hg : Judges qrels g) (p : Int) : gradeAt qrels p = g p := gradeAt_eq hg p

theorem gained_sum (decay : Rat → Rat) (g : Int → Rat) (results : List (Int × Int)) : ∀ n, n ≤ results.length →
    gained decay g 0 (results.take n) = ((List.range n).map (gainAt decay g results)).sum
  | 0, _ => by simp [gained]
  | n + 1, h => by
    have hlt : n < results.length := by omega
    rw [List.range_succ, List.map_append, List.sum_append, ← gained_sum decay g results n (by omega)]
    rw [List.take_add_one, List.getElem?_eq_getElem hlt, Option.toList, gained_append]
    simp only [List.map_cons, List.map_nil, List.sum_cons, List.sum_nil, gainAt, List.getElem?_eq_getElem hlt, gained, spent]
    rw [show (0 : Rat) + ((results.take n).map (seconds g)).sum = ((results.take n).map (seconds g)).sum by grind]

/-- **C60.** The time-biased gain is the sum over the places of the ranking of 0.64 · 0.77 for each relevant passage, decayed
by the time that the summaries before it and the reading of those opened take.  It is not negative, and not more than 0.4928
for each relevant passage in the ranking. -/
theorem C60_tbg {decay : Rat → Rat} {qrels : List (Int × Rat)} {g : Int → Rat} (hg : Judges qrels g) (results : List (Int × Int)) :
    tbgEval decay qrels results = ((List.range results.length).map (gainAt decay g results)).sum ∧
    (Decays decay → Ordered results → 0 ≤ tbgEval decay qrels results ∧
      tbgEval decay qrels results ≤ 4928 / 10000 * (((results.filter fun x => decide (g x.1 ≠ 0)).length : Nat) : Rat)) := by
  have e : tbgEval decay qrels results = gained decay g 0 results := by
    unfold tbgEval; rw [tbgLoop_eq decay (grade_of hg)]; grind
  refine ⟨?_, fun hd ho => ?_⟩
  · rw [e, ← gained_sum decay g results _ (Nat.le_refl _), List.take_length]
  · rw [e]
    have key : ∀ (l : List (Int × Int)) (t : Rat), 0 ≤ t → (∀ x ∈ l, x.1 ≤ x.2) → 0 ≤ gained decay g t l ∧
        gained decay g t l ≤ 4928 / 10000 * (((l.filter fun x => decide (g x.1 ≠ 0)).length : Nat) : Rat) := by
      intro l
      induction l with
      | nil => intro t _ _; simp [gained]
      | cons x l ih =>
        intro t ht hl
        have hs := seconds_pos (g := g) (hl x (by simp))
        obtain ⟨i1, i2⟩ := ih (t + seconds g x) (by grind) fun y hy => hl y (by simp [hy])
        have h1 := hd.nonneg t ht
        have h2 := hd.falls 0 t (by simp) ht
        rw [hd.start] at h2
        rw [gained, List.filter_cons]
        by_cases h : g x.1 = 0
        · rw [if_pos h, if_neg (by simpa using h)]
          grind
        · rw [if_neg h, if_pos (by simpa using h), List.length_cons]
          have : ((((l.filter fun x => decide (g x.1 ≠ 0)).length + 1 : Nat)) : Rat) =
            (((l.filter fun x => decide (g x.1 ≠ 0)).length : Nat) : Rat) + 1 := by simp
          rw [this]
          grind
    exact key results 0 (by simp) ho

/-- **C60.** Moving a relevant passage before one that is not never lowers the time-biased gain. -/
theorem C60_tbg_swap {decay : Rat → Rat} (hd : Decays decay) {qrels : List (Int × Rat)} {g : Int → Rat} (hg : Judges qrels g)
    {before after : List (Int × Int)} {x y : Int × Int} (ho : Ordered (before ++ x :: y :: after)) (hx : g x.1 = 0) (hy : g y.1 ≠ 0) :
    tbgEval decay qrels (before ++ x :: y :: after) ≤ tbgEval decay qrels (before ++ y :: x :: after) := by
  have e : ∀ l, tbgEval decay qrels l = gained decay g 0 l := by
    intro l; unfold tbgEval; rw [tbgLoop_eq decay (grade_of hg)]; grind
  rw [e, e, gained_append, gained_append]
  simp only [gained]
  rw [if_pos hx, if_neg hy]
  have h0 : 0 ≤ spent g before := spent_nonneg fun z hz => ho z (by simp [hz])
  have h1 := seconds_pos (g := g) (ho x (by simp))
  have h2 := hd.falls (0 + spent g before) (0 + spent g before + seconds g x) (by grind) (by grind)
  rw [show 0 + spent g before + seconds g x + seconds g y = 0 + spent g before + seconds g y + seconds g x by grind]
  grind

/-- **C60.** A passage at the end never lowers it, and only which passages are relevant counts, not how much. -/
theorem C60_tbg_more {decay : Rat → Rat} (hd : Decays decay) {qrels qrels' : List (Int × Rat)} {g g' : Int → Rat} (hg : Judges qrels g)
    (hg' : Judges qrels' g') {results : List (Int × Int)} {x : Int × Int} (ho : Ordered results) :
    tbgEval decay qrels results ≤ tbgEval decay qrels (results ++ [x]) ∧
    ((∀ p, g p = 0 ↔ g' p = 0) → tbgEval decay qrels results = tbgEval decay qrels' results) := by
  have e : ∀ l, tbgEval decay qrels l = gained decay g 0 l := by
    intro l; unfold tbgEval; rw [tbgLoop_eq decay (grade_of hg)]; grind
  have e' : ∀ l, tbgEval decay qrels' l = gained decay g' 0 l := by
    intro l; unfold tbgEval; rw [tbgLoop_eq decay (grade_of hg')]; grind
  constructor
  · rw [e, e, gained_append]
    have h0 : 0 ≤ spent g results := spent_nonneg ho
    have h1 := hd.nonneg (0 + spent g results) (by grind)
    simp only [gained]
    split <;> grind
  · intro h
    rw [e, e']
    have key : ∀ (l : List (Int × Int)) (t : Rat), gained decay g t l = gained decay g' t l := by
      intro l
      induction l with
      | nil => intro t; rfl
      | cons x l ih =>
        intro t
        have hs : seconds g x = seconds g' x := by
          unfold seconds
          by_cases h1 : g x.1 = 0
          · rw [if_pos h1, if_pos ((h _).1 h1)]
          · rw [if_neg h1, if_neg fun h2 => h1 ((h _).2 h2)]
        rw [gained, gained, ih, hs]
        by_cases h1 : g x.1 = 0
        · rw [if_pos h1, if_pos ((h _).1 h1)]
        · rw [if_neg h1, if_neg fun h2 => h1 ((h _).2 h2)]
    exact key results 0

/-- a decay: `1 / (1 + t)` -/
theorem someDecay : Decays fun t => 1 / (1 + t) where
  start := by decide +kernel
  nonneg := by
    intro t ht
    exact div_nonneg' (by decide +kernel) (by grind)
  falls := by
    intro s t hs hst
    have h1 : (1 / (1 + t)) * (1 + t) = 1 := Rat.div_mul_cancel (by grind)
    have h2 : (1 / (1 + s)) * (1 + s) = 1 := Rat.div_mul_cancel (by grind)
    have hp : 0 ≤ 1 / (1 + t) := div_nonneg' (by decide +kernel) (by grind)
    refine Rat.le_of_mul_le_mul_right (c := 1 + s) ?_ (by grind)
    rw [h2]
    have : (1 / (1 + t)) * (1 + s) ≤ (1 / (1 + t)) * (1 + t) := Rat.mul_le_mul_of_nonneg_left (by grind) hp
    grind

/-- the hypotheses are met, and the better order gains more -/
example : Decays (fun t => 1 / (1 + t)) ∧ Judges someQrels someGrades ∧ Ordered ([(30, 34)] ++ (40, 41) :: (10, 12) :: []) ∧
    someGrades 40 = 0 ∧ someGrades 10 ≠ 0 ∧
    tbgEval (fun t => 1 / (1 + t)) someQrels [(30, 34), (40, 41), (10, 12)] < tbgEval (fun t => 1 / (1 + t)) someQrels [(30, 34), (10, 12), (40, 41)] :=
  ⟨someDecay, someJudges, by unfold Ordered; decide, by decide +kernel, by decide +kernel, by decide +kernel⟩

end Verif.Props
