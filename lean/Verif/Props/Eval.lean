import Verif.Eval.Med
import Verif.Eval.Mean
/-
  C60: the measures of a ranking.

  `Judges qrels g` gives the judgements as a function `g`; everything else here is said about `g` and the
  addresses of the ranking (Verif/Eval/Spec.lean).
-/
namespace Verif.Props
open Verif.Eval

/-! ### trec_eval -/

/-- **C60 (partial).** Precision at 5, 10 and 20, average precision, precision and recall are what their names
say, and none is below zero; for a ranking without duplicates none is above one.  What is missing: the
reciprocal rank, which is not what its name says (`C60_rr_is_ap`). -/
theorem C60_trec_partial {qrels : List (Int × Rat)} {g : Int → Rat} (hg : Judges qrels g) (results : List Int) :
    (trecEval qrels results).ap = precisions g results / (relevant qrels : Nat) ∧
    (trecEval qrels results).p05 = (hits g 5 results : Rat) / 5 ∧
    (trecEval qrels results).p10 = (hits g 10 results : Rat) / 10 ∧
    (trecEval qrels results).p20 = (hits g 20 results : Rat) / 20 ∧
    (trecEval qrels results).ret = (results.length : Nat) ∧
    (trecEval qrels results).rel = (relevant qrels : Nat) ∧
    (trecEval qrels results).relRet = (hits g results.length results : Nat) ∧
    (trecEval qrels results).precision = (hits g results.length results : Rat) / (results.length : Nat) ∧
    (trecEval qrels results).recall = (hits g results.length results : Rat) / (relevant qrels : Nat) ∧
    0 ≤ (trecEval qrels results).ap ∧ 0 ≤ (trecEval qrels results).precision ∧ (trecEval qrels results).precision ≤ 1 ∧
    0 ≤ (trecEval qrels results).recall ∧
    (results.Nodup → (trecEval qrels results).ap ≤ 1 ∧ (trecEval qrels results).recall ≤ 1) := by
  obtain ⟨h1, h2, h3, h4, h5, h6, h7, h8, h9⟩ := trecEval_ok hg results
  refine ⟨h1, h2, h3, h4, h5, h6, h7, h8, h9, ?_, ?_, ?_, ?_, ?_⟩
  · rw [h1, precisions_eq]
    exact div_nonneg' (precFrom_nonneg g results []) Rat.natCast_nonneg
  · rw [h8]; exact ratio_nonneg _ _
  · rw [h8]
    apply ratio_le_one
    rw [hits_all]
    exact List.length_filter_le _ _
  · rw [h9]; exact ratio_nonneg _ _
  · intro hn
    have hle := hits_le hg hn results.length
    refine ⟨?_, by rw [h9]; exact ratio_le_one hle⟩
    rw [h1, precisions_eq]
    have hp := precFrom_le g results []
    rw [← hits_all] at hp
    have hp2 : precFrom g [] results ≤ (relevant qrels : Nat) := Rat.le_trans hp (Rat.natCast_le_natCast.2 hle)
    rcases Nat.eq_zero_or_pos (relevant qrels) with h0 | h0
    · rw [h0]
      simp only [Rat.div_def]
      rw [show (((0 : Nat) : Rat))⁻¹ = 0 from Rat.inv_zero, Rat.mul_zero]
      decide
    · exact div_one_le (Rat.natCast_pos.2 h0) hp2

/-- two passages are relevant -/
def someQrels : List (Int × Rat) := [(10, 1), (20, 1 / 2), (30, 0)]

/-- their grades -/
def someGrades (p : Int) : Rat := if p = 10 then 1 else if p = 20 then 1 / 2 else 0

theorem someJudges : Judges someQrels someGrades := by
  refine ⟨by decide, ?_, ?_⟩
  · intro p x h
    simp only [someQrels, List.mem_cons, Prod.mk.injEq, List.not_mem_nil, or_false] at h
    rcases h with ⟨rfl, rfl⟩ | ⟨rfl, rfl⟩ | ⟨rfl, rfl⟩ <;> rfl
  · intro p h
    have h1 : p ≠ 10 := fun e => h 1 (by rw [e]; simp [someQrels])
    have h2 : p ≠ 20 := fun e => h (1 / 2) (by rw [e]; simp [someQrels])
    simp [someGrades, h1, h2]

/-- the hypotheses are met: a relevant passage second of three -/
example : Judges someQrels someGrades ∧ [30, 10, 40].Nodup ∧ (trecEval someQrels [30, 10, 40]).ap = 1 / 4 ∧
    (trecEval someQrels [30, 10, 40]).p05 = 1 / 5 := ⟨someJudges, by decide, by decide +kernel, by decide +kernel⟩

/-- the reciprocal of the first rank with a relevant passage -/
def ReciprocalRank (g : Int → Rat) (results : List Int) (rr : Rat) : Prop :=
  (∃ before p after, results = before ++ p :: after ∧ g p > 0 ∧ (∀ q ∈ before, ¬g q > 0) ∧ rr = 1 / ((before.length + 1 : Nat) : Rat)) ∨
  ((∀ q ∈ results, ¬g q > 0) ∧ rr = 0)

/-- **C60 (violated).** What is reported as the reciprocal rank is the average precision, for every ranking;
with two relevant passages of which one is first and the other is not found, it is 1/2 instead of 1. -/
theorem C60_rr_is_ap :
    (∀ qrels results, (trecEval qrels results).rr = (trecEval qrels results).ap) ∧
    Judges someQrels someGrades ∧ ReciprocalRank someGrades [10] 1 ∧ (trecEval someQrels [10]).rr = 1 / 2 ∧
    ¬ReciprocalRank someGrades [10] (trecEval someQrels [10]).rr := by
  have h : (trecEval someQrels [10]).rr = 1 / 2 := by decide +kernel
  refine ⟨fun _ _ => rfl, someJudges, .inl ⟨[], 10, [], rfl, by decide, (fun q hq => by cases hq), by decide +kernel⟩, h, ?_⟩
  rw [h]
  rintro (⟨b, p, a, h1, _, _, h4⟩ | ⟨h1, _⟩)
  · cases b with
    | nil => revert h4; decide +kernel
    | cons x b => simp at h1
  · exact h1 10 (by simp) (by decide)

/-- a passage returned twice counts twice: recall above one -/
example : (trecEval someQrels [10, 20, 10]).recall = 3 / 2 := by decide +kernel

/-! ### discounted gain -/

/-- what is reported at one depth -/
def NdcgAt (w : Nat → Rat) (log2 : Rat) (g : Int → Rat) (results : List Int) (depth : Option Nat) (dcg ndcg : Rat) : Prop :=
  dcg = log2 * gainAt w g depth results ∧
  ((∀ p, g p = 0) → ndcg = 0) ∧
  ((∃ p, g p ≠ 0) → ∃ best, 0 < best ∧ BestGain w g depth best ∧ ndcg = gainAt w g depth results / best) ∧
  0 ≤ ndcg ∧ (results.Nodup → ndcg ≤ 1)

/-- **C60.** At depths 5, 10 and 20 and over the whole ranking the discounted gain is the weighted sum of the
grades, and the normalized gain is its ratio to the greatest gain that any ranking without duplicates has
there; it is never below zero, never above one for a ranking without duplicates, and zero when nothing is
relevant.  The weights stand for `1 / log(i + 2)`: any positive ones that do not grow. -/
theorem C60_ndcg {sort : List Rat → List Rat} (hsort : Descends sort) {w : Nat → Rat} (hw : Weights w) (log2 : Rat)
    {qrels : List (Int × Rat)} {g : Int → Rat} (hg : Judges qrels g) (h0 : ∀ x ∈ qrels, 0 ≤ x.2) (results : List Int) :
    NdcgAt w log2 g results none (ndcgEval sort w log2 qrels results).dcg.score (ndcgEval sort w log2 qrels results).ndcg.score ∧
    NdcgAt w log2 g results (some 5) (ndcgEval sort w log2 qrels results).dcg.at05 (ndcgEval sort w log2 qrels results).ndcg.at05 ∧
    NdcgAt w log2 g results (some 10) (ndcgEval sort w log2 qrels results).dcg.at10 (ndcgEval sort w log2 qrels results).ndcg.at10 ∧
    NdcgAt w log2 g results (some 20) (ndcgEval sort w log2 qrels results).dcg.at20 (ndcgEval sort w log2 qrels results).ndcg.at20 := by
  have hd := dcg_ok hsort hw log2 hg h0 results
  by_cases hz : weigh w (sort (qrels.map (·.2))) = 0
  · obtain ⟨h1, h2⟩ := ndcgEval_zero hsort hw log2 hg h0 results hz
    have key : ∀ depth dcg, dcg = log2 * gainAt w g depth results → NdcgAt w log2 g results depth dcg 0 := by
      intro depth dcg h
      refine ⟨h, fun _ => rfl, ?_, Rat.le_refl, fun _ => by decide⟩
      rintro ⟨p, hp⟩
      exact absurd (h1 p) hp
    rw [hd, h2]
    exact ⟨key _ _ rfl, key _ _ rfl, key _ _ rfl, key _ _ rfl⟩
  · obtain ⟨hp, hs⟩ := hsort (qrels.map (·.2))
    have hs0 : ∀ x ∈ sort (qrels.map (·.2)), 0 ≤ x := by
      intro x hx
      obtain ⟨y, hy, rfl⟩ := List.mem_map.1 (hp.mem_iff.1 hx)
      exact h0 y hy
    have hgp := judges_nonneg hg h0
    obtain ⟨b0, bd⟩ := best_ok hw hg h0 hp hs
    have hnz : ¬∀ p, g p = 0 := by
      intro h
      apply hz
      apply weigh_zeros
      intro x hx
      obtain ⟨y, hy, rfl⟩ := List.mem_map.1 (hp.mem_iff.1 hx)
      rw [← hg.here y.1 y.2 hy]
      exact h y.1
    have hfirst : ∃ y s, sort (qrels.map (·.2)) = y :: s ∧ 0 < y := by
      cases e : sort (qrels.map (·.2)) with
      | nil => rw [e] at hz; exact absurd rfl hz
      | cons y s =>
        refine ⟨y, s, rfl, ?_⟩
        rw [e] at hs hs0 hz
        apply Classical.byContradiction
        intro hy
        apply hz
        apply weigh_zeros
        have hy0 : y = 0 := by have := hs0 y (List.mem_cons_self ..); grind
        intro x hx
        rcases List.mem_cons.1 hx with rfl | hx'
        · exact hy0
        · have h1 := (List.pairwise_cons.1 hs).1 x hx'
          have h2 := hs0 x hx
          grind
    obtain ⟨y, s, hys, hy⟩ := hfirst
    have key : ∀ depth best, 0 < best → BestGain w g depth best →
        NdcgAt w log2 g results depth (log2 * gainAt w g depth results) (gainAt w g depth results / best) := by
      intro depth best hb hB
      refine ⟨rfl, fun h => absurd h hnz, fun _ => ⟨best, hb, hB, rfl⟩, ?_, fun hn => div_one_le hb (hB.1 results hn)⟩
      refine div_nonneg' ?_ (Rat.le_of_lt hb)
      apply weigh_nonneg (w := w) _ w hw
      intro x hx
      obtain ⟨p, _, rfl⟩ := List.mem_map.1 hx
      exact hgp p
    have hpos : ∀ d, 0 < weigh w ((sort (qrels.map (·.2))).take (d + 1)) := by
      intro d
      rw [hys, List.take_succ_cons]
      refine weigh_pos hw hy fun z hz => hs0 z ?_
      rw [hys]
      exact List.mem_cons_of_mem _ (List.mem_of_mem_take hz)
    have hpos0 : 0 < weigh w (sort (qrels.map (·.2))) := by
      rw [hys] at hs0 ⊢
      exact weigh_pos hw hy fun z hz => hs0 z (List.mem_cons_of_mem _ hz)
    rw [ndcgEval_some log2 hg results hz]
    exact ⟨key _ _ hpos0 b0, key _ _ (hpos 4) (bd 5), key _ _ (hpos 9) (bd 10), key _ _ (hpos 19) (bd 20)⟩

/-- one place in a descending list -/
def place (x : Rat) : List Rat → List Rat
  | [] => [x]
  | y :: l => if y ≤ x then x :: y :: l else y :: place x l

/-- a descending sort -/
def descend : List Rat → List Rat
  | [] => []
  | x :: l => place x (descend l)

theorem place_perm (x : Rat) : ∀ l, (place x l).Perm (x :: l) := by
  intro l
  induction l with
  | nil => exact .refl _
  | cons y l ih =>
    rw [place]
    split
    · exact .refl _
    · exact (ih.cons y).trans (.swap ..)

theorem place_sorted (x : Rat) : ∀ l : List Rat, l.Pairwise (· ≥ ·) → (place x l).Pairwise (· ≥ ·) := by
  intro l
  induction l with
  | nil => intro _; simp [place]
  | cons y l ih =>
    intro h
    rw [place]
    have h' := List.pairwise_cons.1 h
    split
    · rename_i hxy
      refine List.pairwise_cons.2 ⟨?_, h⟩
      intro z hz
      rcases List.mem_cons.1 hz with rfl | hz
      · exact hxy
      · exact Rat.le_trans (h'.1 z hz) hxy
    · rename_i hxy
      refine List.pairwise_cons.2 ⟨?_, ih h'.2⟩
      intro z hz
      rcases List.mem_cons.1 ((place_perm x l).mem_iff.1 hz) with rfl | hz
      · show z ≤ y
        grind
      · exact h'.1 z hz

theorem descend_ok : Descends descend := by
  intro l
  induction l with
  | nil => exact ⟨.refl _, .nil⟩
  | cons x l ih => exact ⟨(place_perm x _).trans (ih.1.cons x), place_sorted x _ ih.2⟩

/-- weights 1, 1/2, 1/3, ... -/
def harmonic (i : Nat) : Rat := 1 / ((i + 1 : Nat) : Rat)

theorem harmonic_ok : Weights harmonic := by
  have hp : ∀ i, 0 < harmonic i := by
    intro i
    unfold harmonic
    rw [Rat.div_def, Rat.one_mul]
    exact Rat.inv_pos.2 (Rat.natCast_pos.2 (by omega))
  refine ⟨hp, fun i => ?_⟩
  have h1 : harmonic i * ((i + 1 : Nat) : Rat) = 1 := by
    unfold harmonic
    exact Rat.div_mul_cancel (by have := Rat.natCast_pos.2 (show 0 < i + 1 by omega); grind)
  have h2 : harmonic (i + 1) * ((i + 1 + 1 : Nat) : Rat) = 1 := by
    unfold harmonic
    exact Rat.div_mul_cancel (by have := Rat.natCast_pos.2 (show 0 < i + 1 + 1 by omega); grind)
  have hc : ((i + 1 + 1 : Nat) : Rat) = ((i + 1 : Nat) : Rat) + 1 := by simp
  rw [hc] at h2
  have hq : (0 : Rat) < ((i + 1 : Nat) : Rat) := Rat.natCast_pos.2 (by omega)
  have h3 : harmonic (i + 1) * ((i + 1 : Nat) : Rat) ≤ harmonic i * ((i + 1 : Nat) : Rat) := by
    have := hp (i + 1)
    grind
  exact Rat.le_of_mul_le_mul_right h3 hq

/-- the hypotheses are met: the better passage second -/
example : Descends descend ∧ Weights harmonic ∧ Judges someQrels someGrades ∧ (∀ x ∈ someQrels, 0 ≤ x.2) ∧
    (ndcgEval descend harmonic 1 someQrels [20, 10]).ndcg.at05 = 4 / 5 :=
  ⟨descend_ok, harmonic_ok, someJudges, by decide +kernel, by decide +kernel⟩

/-! ### rank-biased precision -/

/-- **C60.** Rank-biased precision with persistence 0.50 and 0.95 (and any other between zero and one) is
`(1 - r)` times the sum of the grades weighed with the powers of `r`; with grades between zero and one it is
between zero and one. -/
theorem C60_rbp {r : Rat} (hr0 : 0 < r) (hr1 : r ≤ 1) {qrels : List (Int × Rat)} {g : Int → Rat} (hg : Judges qrels g) (results : List Int) :
    rbpEval r qrels results = (1 - r) * weigh (fun i => r ^ i) (results.map g) ∧
    (Fractions g → 0 ≤ rbpEval r qrels results ∧ rbpEval r qrels results ≤ 1) := by
  have h := rbpEval_eq r hg results
  refine ⟨h, fun hf => ?_⟩
  rw [h]
  refine ⟨Rat.mul_nonneg (by grind) (weigh_nonneg (w := fun i => r ^ i) _ _ (weights_pow hr0 hr1) ?_), rbp_le hr0 hr1 _ ?_⟩
  · intro x hx
    obtain ⟨p, _, rfl⟩ := List.mem_map.1 hx
    exact (hf p).1
  · intro x hx
    obtain ⟨p, _, rfl⟩ := List.mem_map.1 hx
    exact (hf p).2

theorem someFractions : Fractions someGrades := by
  intro p
  unfold someGrades
  split
  · decide
  · split <;> decide +kernel

/-- the hypotheses are met -/
example : (0 : Rat) < 1 / 2 ∧ (1 / 2 : Rat) ≤ 1 ∧ Judges someQrels someGrades ∧ Fractions someGrades ∧ rbpEval (1 / 2) someQrels [20, 10] = 1 / 2 :=
  ⟨by decide +kernel, by decide +kernel, someJudges, someFractions, by decide +kernel⟩

/-! ### similarity -/

/-- the score that MED-DCG compares -/
def dcgScore (w : Nat → Rat) (log2 : Rat) (g : Int → Rat) (l : List Int) : Rat := log2 * weigh w (l.map g)

/-- the score that MED-RBP compares -/
def rbpScore (r : Rat) (g : Int → Rat) (l : List Int) : Rat := (1 - r) * weigh (fun i => r ^ i) (l.map g)

theorem greatest_of_halves {w : Nat → Rat} (hw : Weights w) {c : Rat} (hc : 0 ≤ c) {one two : List Int} (h1 : one.Nodup) (h2 : two.Nodup)
    {a b : Rat} (ha : a = c * weigh w (one.map (favour one two)) - c * weigh w (two.map (favour one two)))
    (hb : b = c * weigh w (two.map (favour two one)) - c * weigh w (one.map (favour two one))) :
    GreatestDifference (fun g l => c * weigh w (l.map g)) one two (max a b) := by
  refine ⟨fun g hg => ?_, ?_⟩
  · have e1 := Rat.mul_le_mul_of_nonneg_left (favour_best hw h1 h2 hg) hc
    have e2 := Rat.mul_le_mul_of_nonneg_left (favour_best hw h2 h1 hg) hc
    constructor
    · simp only []
      have : a ≤ max a b := by grind
      grind
    · simp only []
      have : b ≤ max a b := by grind
      grind
  · rcases (show max a b = a ∨ max a b = b by grind) with h | h
    · exact ⟨favour one two, favour_fractions one two, .inl (by rw [h, ha])⟩
    · exact ⟨favour two one, favour_fractions two one, .inr (by rw [h, hb])⟩

/-- **C60.** For two rankings without duplicates the three similarities are the greatest differences, in
discounted gain and in rank-biased precision with 0.50 and 0.95, that any grading of passages between zero
and one can make between them. -/
theorem C60_med {sort : List Rat → List Rat} (hsort : Descends sort) {w : Nat → Rat} (hw : Weights w) {log2 : Rat} (hl : 0 ≤ log2)
    {one two : List Int} (h1 : one.Nodup) (h2 : two.Nodup) :
    GreatestDifference (dcgScore w log2) one two (med sort w log2 one two).1.dcg ∧
    GreatestDifference (rbpScore (1 / 2)) one two (med sort w log2 one two).1.rbp50 ∧
    GreatestDifference (rbpScore (19 / 20)) one two (med sort w log2 one two).1.rbp95 := by
  obtain ⟨j1, n1⟩ := medQrels_judges one two
  obtain ⟨j2, n2⟩ := medQrels_judges two one
  refine ⟨?_, ?_, ?_⟩
  · refine greatest_of_halves hw hl h1 h2 ?_ ?_
    · simp only [medHalf, dcg_ok hsort hw log2 j1 n1, gainAt, upTo]
    · simp only [medHalf, dcg_ok hsort hw log2 j2 n2, gainAt, upTo]
  · refine greatest_of_halves (weights_pow (by decide +kernel) (by decide +kernel)) (by decide +kernel) h1 h2 ?_ ?_
    · simp only [medHalf, rbpEval_eq _ j1]
    · simp only [medHalf, rbpEval_eq _ j2]
  · refine greatest_of_halves (weights_pow (by decide +kernel) (by decide +kernel)) (by decide +kernel) h1 h2 ?_ ?_
    · simp only [medHalf, rbpEval_eq _ j1]
    · simp only [medHalf, rbpEval_eq _ j2]

/-- the hypotheses are met: two rankings that share their second half -/
example : Descends descend ∧ Weights harmonic ∧ (0 : Rat) ≤ 1 ∧ [1, 2, 3].Nodup ∧ [4, 2, 3].Nodup ∧
    (med descend harmonic 1 [1, 2, 3] [4, 2, 3]).1 = ⟨1, 1 / 2, 1 / 20⟩ :=
  ⟨descend_ok, harmonic_ok, by decide, by decide, by decide, by decide +kernel⟩

theorem medIdeal_eq (w : Nat → Rat) (log2 : Rat) (n : Nat) : medIdeal w log2 n = log2 * weigh w (List.replicate n 1) := by
  have : ∀ n, (List.range n).foldl (fun s i => s + w i) 0 = weigh w (List.replicate n 1) := by
    intro n
    induction n with
    | zero => rfl
    | succ n ih =>
      rw [List.range_succ, List.foldl_append, ih, List.replicate_succ', weigh_append]
      simp [Rat.one_mul]
  rw [medIdeal, this]

theorem sum_take_le : ∀ (l : List Rat) (n k : Nat), l.length ≤ n → (∀ x ∈ l, x ≤ 1) → (l.take k).sum ≤ ((List.replicate n (1 : Rat)).take k).sum := by
  intro l
  induction l with
  | nil =>
    intro n k _ _
    simp only [List.take_nil, List.sum_nil, List.take_replicate]
    generalize min k n = j
    induction j with
    | zero => exact Rat.le_refl
    | succ j ih => rw [List.replicate_succ, List.sum_cons]; grind
  | cons x l ih =>
    intro n k hn h
    obtain ⟨n, rfl⟩ : ∃ j, n = j + 1 := ⟨n - 1, by simp only [List.length_cons] at hn; omega⟩
    cases k with
    | zero => exact Rat.le_refl
    | succ k =>
      have h1 := ih n k (by simpa using hn) fun y hy => h y (List.mem_cons_of_mem _ hy)
      have h2 := h x (List.mem_cons_self ..)
      rw [List.replicate_succ, List.take_succ_cons, List.take_succ_cons, List.sum_cons, List.sum_cons]
      grind

/-- **C60 (partial).** Unless both rankings are empty, the normalized similarity of two rankings without
duplicates is a number between zero and one.  What is missing: two empty rankings
(`C60_med_empty_undefined`). -/
theorem C60_med_ndcg_partial {sort : List Rat → List Rat} (hsort : Descends sort) {w : Nat → Rat} (hw : Weights w) {log2 : Rat} (hl : 0 < log2)
    {one two : List Int} (h1 : one.Nodup) (h2 : two.Nodup) (hne : one ≠ [] ∨ two ≠ []) :
    ∃ x, (med sort w log2 one two).2 = some x ∧ 0 ≤ x ∧ x ≤ 1 ∧
      x = (med sort w log2 one two).1.dcg / (log2 * weigh w (List.replicate (max one.length two.length) 1)) := by
  obtain ⟨hall, g, hg, hat⟩ := (C60_med hsort hw (Rat.le_of_lt hl) h1 h2).1
  have hn : 0 < max one.length two.length := by
    rcases hne with h | h
    · have := List.length_pos_iff.2 h; omega
    · have := List.length_pos_iff.2 h; omega
  have hpos : 0 < medIdeal w log2 (max one.length two.length) := by
    rw [medIdeal_eq]
    obtain ⟨j, hj⟩ : ∃ j, max one.length two.length = j + 1 := ⟨max one.length two.length - 1, by omega⟩
    rw [hj, List.replicate_succ]
    exact Rat.mul_pos hl (weigh_pos hw (by decide) fun y hy => by rw [(List.mem_replicate.1 hy).2]; decide)
  have h0 : 0 ≤ (med sort w log2 one two).1.dcg := by
    have := (hall (fun _ => 0) fun _ => ⟨Rat.le_refl, show (0 : Rat) ≤ 1 by decide⟩).1
    simp only [dcgScore] at this
    rw [weigh_zeros (one.map fun _ => 0) w (by intro x hx; obtain ⟨_, _, rfl⟩ := List.mem_map.1 hx; rfl),
      weigh_zeros (two.map fun _ => 0) w (by intro x hx; obtain ⟨_, _, rfl⟩ := List.mem_map.1 hx; rfl)] at this
    grind
  have hscore : ∀ l : List Int, l.length ≤ max one.length two.length → 0 ≤ dcgScore w log2 g l ∧ dcgScore w log2 g l ≤ medIdeal w log2 (max one.length two.length) := by
    intro l hlen
    rw [dcgScore, medIdeal_eq]
    refine ⟨Rat.mul_nonneg (Rat.le_of_lt hl) (weigh_nonneg (w := w) _ w hw ?_), Rat.mul_le_mul_of_nonneg_left (weigh_le hw ?_ ?_) (Rat.le_of_lt hl)⟩
    · intro x hx
      obtain ⟨p, _, rfl⟩ := List.mem_map.1 hx
      exact (hg p).1
    · intro y hy
      rw [(List.mem_replicate.1 hy).2]
      decide
    · intro k
      refine sum_take_le _ _ k (by simpa using hlen) ?_
      intro x hx
      obtain ⟨p, _, rfl⟩ := List.mem_map.1 hx
      exact (hg p).2
  have hs1 := hscore one (by omega)
  have hs2 := hscore two (by omega)
  have hle : (med sort w log2 one two).1.dcg ≤ medIdeal w log2 (max one.length two.length) := by
    rcases hat with h | h
    · rw [← h]; grind
    · rw [← h]; grind
  have he : (med sort w log2 one two).2 = some ((med sort w log2 one two).1.dcg / medIdeal w log2 (max one.length two.length)) := by
    show (if _ then _ else _) = _
    rw [if_neg (by grind)]
    rfl
  exact ⟨_, he, div_nonneg' h0 (Rat.le_of_lt hpos), div_one_le hpos hle, by rw [medIdeal_eq]⟩

/-- the hypotheses are met: nothing in common -/
example : (med descend harmonic 1 [1] [2]).2 = some 1 := by decide +kernel

/-- **C60 (violated).** For two empty rankings the normalized similarity is zero divided by zero. -/
theorem C60_med_empty_undefined (sort : List Rat → List Rat) (w : Nat → Rat) (log2 : Rat) : (med sort w log2 [] []).2 = none := by
  show (if _ then _ else _) = _
  rw [if_pos]
  rw [medIdeal_eq]
  exact Rat.mul_zero _

/-! ### means -/

section
variable {κ : Type} [DecidableEq κ]

/-- **C60 (partial).** After measures have been averaged one ranking after the other, every measure of the
first is the arithmetic mean of its values, under the same names, and `n` is the number of rankings.  What is
missing: a ranking that lacks one of the measures (`C60_mean_undefined`). -/
theorem C60_mean_partial {first : List (κ × Rat)} (hk : (first.map (·.1)).Nodup) {rest : List (List (κ × Rat))}
    (h : ∀ m ∈ rest, ∀ x ∈ first, (metric m x.1).isSome) :
    ∃ means, meanAll (first :: rest) ([], none) = some (means, some (((first :: rest).length : Nat) : Rat)) ∧
      means.map (·.1) = first.map (·.1) ∧
      ∀ x ∈ means, x.2 = ((first :: rest).map fun m => (metric m x.1).getD 0).sum / (((first :: rest).length : Nat) : Rat) := by
  have hm : meanAll (first :: rest) ([], none) = meanAll rest (first, some ((1 : Nat) : Rat)) := by
    rw [meanAll, mean]
    rfl
  refine ⟨first.map fun x => (x.1, (x.2 * ((1 : Nat) : Rat) + (rest.map fun m => (metric m x.1).getD 0).sum) /
    (((first :: rest).length : Nat) : Rat)), ?_, ?_, ?_⟩
  · rw [hm, means_go rest first 1 (by decide) h, show 1 + rest.length = (first :: rest).length by simp; omega]
  · rw [List.map_map]
    rfl
  · intro x hx
    obtain ⟨y, hy, rfl⟩ := List.mem_map.1 hx
    simp only [List.map_cons, List.sum_cons, metric_of_mem hk hy, Option.getD_some]
    rw [show ((1 : Nat) : Rat) = 1 from rfl, Rat.mul_one]

/-- the hypotheses are met, and three rankings are averaged -/
example : meanAll [[(0, 1), (1, 0)], [(0, 1 / 2), (1, 1)], [(1, 1), (0, 0)]] (([] : List (Nat × Rat)), none) =
    some ([(0, 1 / 2), (1, 2 / 3)], some 3) := by decide +kernel

/-- **C60 (violated).** Averaging is undefined exactly when a later ranking lacks a measure of the first: the
measure is erased from the map that is being walked. -/
theorem C60_mean_undefined (first : List (κ × Rat)) (rest : List (List (κ × Rat))) :
    meanAll (first :: rest) ([], none) = none ↔ ∃ m ∈ rest, ∃ x ∈ first, metric m x.1 = none := by
  have hm : meanAll (first :: rest) ([], none) = meanAll rest (first, some ((1 : Nat) : Rat)) := by
    rw [meanAll, mean]
    rfl
  rw [hm]
  constructor
  · intro hn
    apply Classical.byContradiction
    intro hc
    rw [means_go rest first 1 (by decide)] at hn
    · cases hn
    · intro m hm x hx
      cases h : metric m x.1 with
      | none => exact absurd ⟨m, hm, x, hx, h⟩ hc
      | some v => rfl
  · exact meanAll_none rest first 1 (by decide)

/-- **C60.** Averaging may also begin with the measures of the first ranking as they are: the result is the same
as that of averaging from nothing. -/
theorem C60_mean_from_measures {first : List (κ × Rat)} (h : first ≠ []) (second : List (κ × Rat)) (rest : List (List (κ × Rat))) :
    meanAll (second :: rest) (first, none) = meanAll (first :: second :: rest) ([], none) := by
  have hm : meanAll (first :: second :: rest) ([], none) = meanAll (second :: rest) (first, some 1) := by
    rw [meanAll, mean]
  have two : (1 + 1 : Rat) = 2 := by decide +kernel
  have e : mean second (first, none) = mean second (first, some 1) := by
    cases first with
    | nil => exact absurd rfl h
    | cons x l =>
      have hf : (fun x v : Rat => (x + v) / 2) = fun x v => (x * 1 + v) / (1 + 1) := by
        funext x v
        rw [Rat.mul_one, two]
      simp only [mean, hf, two]
  rw [hm, meanAll, meanAll, e]

/-- two rankings, the measures of the first being there -/
example : meanAll [[(0, 1 / 2), (1, 1)]] ([((0 : Nat), (1 : Rat)), (1, 0)], none) = some ([(0, 3 / 4), (1, 1 / 2)], some 2) := by
  decide +kernel

/-- such a ranking -/
example : meanAll [[(0, 1), (1, 0)], [(0, 1 / 2)]] (([] : List (Nat × Rat)), none) = none := by decide +kernel

end

/-! ### the grades of a file -/

section
variable {τ : Type} [DecidableEq τ]

/-- the greatest level in the file -/
def TopLevel (lines : List ((τ × Int) × Rat)) (top : Rat) : Prop :=
  (∃ z ∈ lines, z.2 = top) ∧ ∀ z ∈ lines, z.2 ≤ top

theorem top_ok {lines : List ((τ × Int) × Rat)} {top : Rat} (ht : TopLevel lines top) (h0 : 0 < top) (q : List ((τ × Int) × Rat))
    (hq : (q.map (·.1)).Nodup) : (loadLines lines q 0).2 = top := by
  obtain ⟨_, _, h3, h4, h5⟩ := loadLines_facts lines q 0 hq
  obtain ⟨⟨z, hz, hzt⟩, hle⟩ := ht
  have h6 := h4 z hz
  rcases h5 with h | ⟨y, hy, h⟩
  · grind
  · have := hle y hy
    grind

/-- **C60 (partial).** Loading a file in which something is relevant into empty judgements gives every topic and
document of the file once, with the level of its last line, or zero if that is negative, divided by the
greatest level of the file: a number between zero and one.  What is missing: files in which nothing is relevant
(`C60_grades_zero_undefined`) and judgements that hold another file already (`C60_grades_again`). -/
theorem C60_grades_partial (pow : Rat → Rat) {lines : List ((τ × Int) × Rat)} {top : Rat} (ht : TopLevel lines top) (h0 : 0 < top) :
    ((loadQrels pow false [] lines).map (·.1)).Nodup ∧
    ∀ k y, (k, y) ∈ loadQrels pow false [] lines ↔
      ∃ v, LastLine lines k v ∧ y = some (max 0 v / top) ∧ 0 ≤ max 0 v / top ∧ max 0 v / top ≤ 1 := by
  obtain ⟨h1, h2, _, _, _⟩ := loadLines_facts lines [] 0 (by simp)
  have htop := top_ok ht h0 [] (by simp)
  refine ⟨?_, ?_⟩
  · rw [loadQrels, List.map_map]
    exact h1
  · intro k y
    have hr : ∀ x, rescale pow false top x = some (x / top) := by
      intro x
      unfold rescale
      rw [if_neg (by decide), if_neg (by grind)]
    constructor
    · intro h
      obtain ⟨⟨k', x⟩, hx, he⟩ := List.mem_map.1 h
      rw [htop, hr, Prod.mk.injEq] at he
      obtain ⟨rfl, rfl⟩ := he
      rcases (h2 k' x).1 hx with ⟨v, hv, rfl⟩ | ⟨_, hn⟩
      · have hv2 : v ≤ top := by
          obtain ⟨a, b, e, _⟩ := hv
          exact ht.2 (k', v) (by rw [e]; simp)
        exact ⟨v, hv, rfl, div_nonneg' (by grind) (Rat.le_of_lt h0), div_one_le h0 (by grind)⟩
      · cases hn
    · rintro ⟨v, hv, rfl, _, _⟩
      refine List.mem_map.2 ⟨(k, max 0 v), (h2 k _).2 (.inl ⟨v, hv, rfl⟩), ?_⟩
      rw [htop, hr]

/-- the hypotheses are met: a level that was corrected, and a negative one -/
example : TopLevel [(((0 : Nat), (10 : Int)), (1 : Rat)), ((0, 20), 2), ((0, 10), 2), ((1, 10), -1), ((1, 20), 1)] 2 ∧
    loadQrels id false [] [(((0 : Nat), (10 : Int)), (1 : Rat)), ((0, 20), 2), ((0, 10), 2), ((1, 10), -1), ((1, 20), 1)] =
      [((0, 10), some 1), ((0, 20), some 1), ((1, 10), some 0), ((1, 20), some (1 / 2))] :=
  ⟨⟨⟨((0, 20), 2), by simp, rfl⟩, by decide +kernel⟩, by decide +kernel⟩

/-- **C60.** In the other reading of grades, with a power function that is at least one and does not fall, a
grade is `(2^level - 1) / 2^top`, at least zero and less than one, for every file. -/
theorem C60_grades_powers {pow : Rat → Rat} (hp1 : ∀ x, 0 ≤ x → 1 ≤ pow x) (hpm : ∀ x y, 0 ≤ x → x ≤ y → pow x ≤ pow y)
    (lines : List ((τ × Int) × Rat)) :
    ∃ top, (TopLevel lines top ∨ ((∀ z ∈ lines, z.2 ≤ 0) ∧ top = 0)) ∧
    ∀ k y, (k, y) ∈ loadQrels pow true [] lines ↔
      ∃ v, LastLine lines k v ∧ y = some ((pow (max 0 v) - 1) / pow top) ∧ 0 ≤ (pow (max 0 v) - 1) / pow top ∧ (pow (max 0 v) - 1) / pow top < 1 := by
  obtain ⟨h1, h2, h3, h4, h5⟩ := loadLines_facts lines [] 0 (by simp)
  have hpt := hp1 _ h3
  have hr : ∀ x, rescale pow true (loadLines lines [] 0).2 x = some ((pow x - 1) / pow (loadLines lines [] 0).2) := by
    intro x
    unfold rescale
    rw [if_pos rfl, if_neg (by grind)]
  refine ⟨(loadLines lines [] 0).2, ?_, ?_⟩
  · by_cases hz : (loadLines lines [] 0).2 = 0
    · refine .inr ⟨fun z hz' => ?_, hz⟩
      have := h4 z hz'
      grind
    · rcases h5 with h | ⟨z, hz', h⟩
      · exact absurd h hz
      · refine .inl ⟨⟨z, hz', ?_⟩, fun y hy => ?_⟩
        · grind
        · have := h4 y hy
          grind
  · intro k y
    constructor
    · intro h
      obtain ⟨⟨k', x⟩, hx, he⟩ := List.mem_map.1 h
      rw [hr, Prod.mk.injEq] at he
      obtain ⟨rfl, rfl⟩ := he
      rcases (h2 k' x).1 hx with ⟨v, hv, rfl⟩ | ⟨_, hn⟩
      · have hle : max 0 v ≤ (loadLines lines [] 0).2 := by
          obtain ⟨a, b, e, _⟩ := hv
          exact h4 (k', v) (by rw [e]; simp)
        have hpv := hp1 (max 0 v) (by grind)
        have hpm' := hpm (max 0 v) _ (by grind) hle
        refine ⟨v, hv, rfl, div_nonneg' (by grind) (by grind), ?_⟩
        exact (Rat.div_lt_iff (by grind)).2 (by grind)
      · cases hn
    · rintro ⟨v, hv, rfl, _, _⟩
      refine List.mem_map.2 ⟨(k, max 0 v), (h2 k _).2 (.inl ⟨v, hv, rfl⟩), ?_⟩
      rw [hr]

/-- the hypotheses are met: a power function on the levels -/
example : (∀ x : Rat, 0 ≤ x → 1 ≤ x + 1) ∧ (∀ x y : Rat, 0 ≤ x → x ≤ y → x + 1 ≤ y + 1) ∧
    loadQrels (· + 1) true [] [(((0 : Nat), (10 : Int)), (1 : Rat)), ((0, 20), -1)] = [((0, 10), some (1 / 2)), ((0, 20), some 0)] :=
  ⟨fun x h => by grind, fun x y _ h => by grind, by decide +kernel⟩

/-- **C60 (violated).** When no line of a file is relevant, every grade is a division by zero. -/
theorem C60_grades_zero_undefined (pow : Rat → Rat) (lines q : List ((τ × Int) × Rat)) (hq : (q.map (·.1)).Nodup) (h : ∀ z ∈ lines, z.2 ≤ 0) :
    ∀ x ∈ loadQrels pow false q lines, x.2 = none := by
  obtain ⟨_, _, h3, _, h5⟩ := loadLines_facts lines q 0 hq
  have h0 : (loadLines lines q 0).2 = 0 := by
    rcases h5 with h' | ⟨z, hz, h'⟩
    · exact h'
    · have := h z hz
      grind
  intro x hx
  obtain ⟨y, _, rfl⟩ := List.mem_map.1 hx
  simp only [rescale, h0]
  rfl

/-- such a file -/
example : loadQrels id false [] [(((0 : Nat), (10 : Int)), (0 : Rat))] = [((0, 10), none)] := by decide +kernel

/-- **C60 (violated).** A second file loaded into the same judgements divides the grades of the first again, by
its own greatest level, although it says nothing about them. -/
theorem C60_grades_again (pow : Rat → Rat) {q lines : List ((τ × Int) × Rat)} (hq : (q.map (·.1)).Nodup) {top : Rat} (ht : TopLevel lines top)
    (h0 : 0 < top) {k : τ × Int} {x : Rat} (hk : ∀ z ∈ lines, z.1 ≠ k) (hx : (k, x) ∈ q) :
    (k, some (x / top)) ∈ loadQrels pow false q lines := by
  obtain ⟨_, h2, _, _, _⟩ := loadLines_facts lines q 0 hq
  refine List.mem_map.2 ⟨(k, x), (h2 k x).2 (.inr ⟨hk, hx⟩), ?_⟩
  rw [top_ok ht h0 q hq]
  unfold rescale
  rw [if_neg (by decide), if_neg (by grind)]

/-- such files: the passage that was fully relevant to topic 0 no longer is -/
example : loadQrels id false [(((0 : Nat), (10 : Int)), (1 : Rat))] [((1, 10), 2)] = [((0, 10), some (1 / 2)), ((1, 10), some 1)] := by
  decide +kernel

end

end Verif.Props
