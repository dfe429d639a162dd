import Verif.Feedback.Proof
import Verif.Feedback.Gaps
/-
  C72: feedback adds the best words of the texts that were found.
-/
namespace Verif.Props
open Verif Verif.Feedback
variable {Word : Type} [DecidableEq Word]

/-- the words of the containers of the first `depth` results -/
def rsjTexts (E : Env Word) (unstemmed : Bool) (depth : Nat) (ranking : List Result) : List (List Word) :=
  (ranking.take depth).map fun r => (E.split (E.translate r.cp r.cq)).map fun w => if unstemmed then w else E.stem w

/-- the words of the windows of the first `depth` containers (of one, if `depth` is 0) -/
def kldTexts (E : Env Word) (depth : Nat) (size : Int) (ranking : List Result) : List (List Word) :=
  ((firsts ranking).take (max 1 depth)).map fun r => E.split (E.translate (window size r).1 (window size r).2)

/-- C72 for `rsj` (what is missing: a container that is in the ranking twice counts twice, see `C72_rsj_twice`): the words returned are the
best, at most as many as asked for, of the words with positive weight that are in the texts, where the score is the weight times the
number of texts that have the word.  Each gains `gamma` in the query; nothing else changes. -/
theorem C72_rsj_partial {E : Env Word} (hE : Sorts E) (unstemmed : Bool) (expansions depth : Nat) (gamma : Rat) (ranking : List Result)
    (q : Query Word) :
    let n := holders (rsjTexts E unstemmed depth ranking)
    BestOf (fun w => E.rsj w * (n w : Rat)) expansions (fun w => 0 < n w ∧ 0 < E.rsj w)
      (rsjPrf E unstemmed expansions depth gamma ranking q).1 ∧
    Gains (rsjPrf E unstemmed expansions depth gamma ranking q).1 (fun _ => gamma) q
      (rsjPrf E unstemmed expansions depth gamma ranking q).2 := by
  intro n
  have ef : rsjFrequencies E unstemmed depth ranking =
      gather ((rsjTexts E unstemmed depth ranking).map fun t => (unseen [] t).map fun x => (x, (1 : Rat))) := by
    rw [rsjFrequencies, rsjTexts, List.map_map]; rfl
  have hget : ∀ w, get (rsjFrequencies E unstemmed depth ranking) w = if 0 < n w then some ((n w : Nat) : Rat) else none := fun w => by
    rw [ef]; exact frequencies_get _ w
  have hscore : (fun w => E.rsj w * (get (rsjFrequencies E unstemmed depth ranking) w).getD 0) = fun w => E.rsj w * ((n w : Nat) : Rat) := by
    funext w
    rw [hget]
    by_cases h : 0 < n w
    · simp [h]
    · have : n w = 0 := by omega
      simp [this]
  have hb : BestOf (fun w => E.rsj w * (n w : Rat)) expansions (fun w => 0 < n w ∧ 0 < E.rsj w)
      (rsjPrf E unstemmed expansions depth gamma ranking q).1 := by
    unfold rsjPrf
    dsimp only
    rw [hscore]
    refine best_of hE ?_ ?_
    · exact (by rw [ef]; exact gather_nodup _ : ((rsjFrequencies E unstemmed depth ranking).map (·.1)).Nodup).sublist List.filter_sublist
    · intro w
      rw [List.mem_filter]
      have hk : w ∈ (rsjFrequencies E unstemmed depth ranking).map (·.1) ↔ 0 < n w := by
        have := get_none_iff (rsjFrequencies E unstemmed depth ranking) w
        rw [hget] at this
        by_cases h : 0 < n w
        · simp only [h, if_true] at this ⊢
          simpa using this
        · simp only [h, if_false] at this ⊢
          simpa using this
      rw [hk]
      simp
  exact ⟨hb, expand_gains _ hb.distinct (fun _ => gamma) q⟩

/-- what of `kld_prf` does not divide -/
theorem kld_parts {E : Env Word} (hE : Sorts E) (expansions depth : Nat) (size : Int) (gamma : Rat) (ranking : List Result) (q : Query Word) :
    let texts := kldTexts E depth size ranking
    let score := fun w => (holders texts w : Rat) * E.log (holders texts w / expected E texts w)
    let l := (kldPrf E expansions depth size gamma ranking q).1
    BestOf score expansions (fun w => 2 ≤ holders texts w) l ∧
    ∃ l0 : List Word, (∀ w, w ∈ l0 ↔ 2 ≤ holders texts w) ∧
      (kldPrf E expansions depth size gamma ranking q).2 =
        if l ≠ [] ∧ maxScore score l0 = 0 then none else some (expand q (l.map fun w => (w, gamma * score w / maxScore score l0))) := by
  intro texts score l
  have hd : kldDocs E depth size ranking = texts.map fun t => (unseen [] t, t.length) := by
    show _ = (kldTexts E depth size ranking).map _
    rw [kldDocs, kldTexts, chosen_firsts, List.map_map]
    rfl
  have ht : kldTables E (kldDocs E depth size ranking) = (gather (texts.map fun t => (unseen [] t).map fun x => (x, (1 : Rat))),
      gather (texts.map fun t => (unseen [] t).map fun x => (x, expectation E x t.length))) := by
    rw [hd, kldTables, List.map_map, List.map_map]; rfl
  have hs : kldScore E (kldTables E (kldDocs E depth size ranking)).1 (kldTables E (kldDocs E depth size ranking)).2 = score := by
    funext w
    rw [ht, kldScore]
    dsimp only
    rw [expectations_get, frequencies_get]
    by_cases h : 0 < holders texts w
    · rw [if_pos h]; rfl
    · have h0 : holders texts w = 0 := by omega
      rw [if_neg h]
      show (0 : Rat) * _ = (holders texts w : Rat) * _
      rw [h0, Rat.zero_mul]; exact (Rat.zero_mul _).symm
  have hl0 : ∀ w, w ∈ (((kldTables E (kldDocs E depth size ranking)).1.filter fun x => decide (x.2 > 1)).map (·.1)) ↔ 2 ≤ holders texts w := by
    intro w
    rw [ht]
    dsimp only
    have hn := gather_nodup (texts.map fun t => (unseen [] t).map fun x => (x, (1 : Rat)))
    have hg := frequencies_get texts w
    generalize gather (texts.map fun t => (unseen [] t).map fun x => (x, (1 : Rat))) = m at hn hg
    rw [List.mem_map]
    constructor
    · rintro ⟨x, hx, rfl⟩
      rw [List.mem_filter] at hx
      rw [get_of_mem hn hx.1] at hg
      by_cases h : 0 < holders texts x.1
      · rw [if_pos h] at hg
        have h2 : x.2 > 1 := of_decide_eq_true hx.2
        rw [Option.some.inj hg] at h2
        have : ((1 : Nat) : Rat) < (holders texts x.1 : Nat) := h2
        rw [Rat.natCast_lt_natCast] at this
        omega
      · rw [if_neg h] at hg; cases hg
    · intro h
      rw [if_pos (by omega)] at hg
      have : w ∈ m.map (·.1) := by
        refine Decidable.byContradiction fun hn' => ?_
        rw [(get_none_iff m w).mpr hn'] at hg; cases hg
      obtain ⟨x, hx, rfl⟩ := List.mem_map.mp this
      refine ⟨x, List.mem_filter.mpr ⟨hx, ?_⟩, rfl⟩
      rw [get_of_mem hn hx] at hg
      rw [Option.some.inj hg]
      apply decide_eq_true
      show ((1 : Nat) : Rat) < _
      rw [Rat.natCast_lt_natCast]; omega
  have hnd : (((kldTables E (kldDocs E depth size ranking)).1.filter fun x => decide (x.2 > 1)).map (·.1)).Nodup := by
    refine List.Nodup.sublist (List.Sublist.map _ List.filter_sublist) ?_
    rw [ht]; exact gather_nodup _
  refine ⟨?_, _, hl0, ?_⟩
  · show BestOf score _ _ (best E _ _ _)
    rw [hs]
    exact best_of hE hnd hl0
  · show (if best E _ _ _ ≠ [] ∧ _ then _ else _) = _
    have hl : l = best E score expansions ((((kldTables E (kldDocs E depth size ranking)).1.filter fun x => decide (x.2 > 1)).map (·.1))) := by
      show best E _ _ _ = _
      rw [hs]
    rw [hl, hs]

/-- `0 < x ^ n` -/
theorem pow_pos {x : Rat} (h : 0 < x) : ∀ n : Nat, 0 < x ^ n
  | 0 => by rw [Rat.pow_zero]; decide
  | n + 1 => by rw [Rat.pow_succ]; exact Rat.mul_pos (pow_pos h n) h

theorem pow_lt {x : Rat} (h0 : 0 < x) (h : x < 1) : ∀ n : Nat, 0 < n → x ^ n < 1
  | 0, hn => by omega
  | n + 1, _ => by
    rw [Rat.pow_succ]
    have h1 : x ^ n ≤ 1 := by
      rcases Nat.eq_zero_or_pos n with e | e
      · subst e; rw [Rat.pow_zero]; exact Rat.le_refl
      · exact Rat.le_of_lt (pow_lt h0 h n e)
    have h2 : x ^ n * x ≤ 1 * x := Rat.mul_le_mul_of_nonneg_right h1 (Rat.le_of_lt h0)
    rw [Rat.one_mul] at h2
    grind

/-- fewer texts are expected to have a word than have it -/
theorem expected_lt {E : Env Word} {texts : List (List Word)} {w : Word}
    (hp : 0 < prob E w ∧ prob E w < 1) (h : 0 < holders texts w) :
    0 < expected E texts w ∧ expected E texts w < (holders texts w : Rat) := by
  have hx0 : 0 < 1 - prob E w := by grind
  have hx1 : 1 - prob E w < 1 := by grind
  have key : ∀ l : List (List Word), (∀ t ∈ l, 0 < t.length) → l ≠ [] →
      0 < (l.map fun t => 1 - (1 - prob E w) ^ t.length).sum ∧ (l.map fun t => 1 - (1 - prob E w) ^ t.length).sum < (l.length : Nat) := by
    intro l
    induction l with
    | nil => intro _ h; exact absurd rfl h
    | cons a l ih =>
      intro hl _
      have a1 := pow_pos hx0 a.length
      have a2 := pow_lt hx0 hx1 a.length (hl a (List.mem_cons_self ..))
      rw [List.map_cons, List.sum_cons]
      have e : ((a :: l).length : Nat) = ((l.length : Nat) : Rat) + 1 := by simp
      rw [e]
      cases l with
      | nil =>
        simp only [List.map_nil, List.sum_nil, List.length_nil]
        have : ((0 : Nat) : Rat) = 0 := rfl
        rw [this]
        constructor <;> grind
      | cons b l =>
        obtain ⟨i1, i2⟩ := ih (fun t ht => hl t (List.mem_cons_of_mem _ ht)) (by simp)
        constructor
        · grind
        · grind
  have := key (texts.filter fun t => t.contains w) (by
    intro t ht
    have := (List.mem_filter.mp ht).2
    rw [List.contains_iff_mem] at this
    exact List.length_pos_of_mem this) (by
    intro e
    rw [holders, e] at h
    cases h)
  exact this

/-- C72 for `kld` (what is missing: the window may reach beyond the container, see `C72_past`; in a collection that says one word only,
the new weights are not numbers, see `C72_nan`).  The texts are windows of the first `depth` different containers.  The words returned are
the best, at most as many as asked for, of the words that are in at least two texts, where the score compares the number of texts that
have the word with the number expected.  Each gains `gamma` times its score over the best score; nothing else changes. -/
theorem C72_kld_partial {E : Env Word} (hE : Sorts E) (hlog : ∀ x, 1 < x → 0 < E.log x) (hp : ∀ w, 0 < prob E w ∧ prob E w < 1)
    (expansions depth : Nat) (size : Int) (gamma : Rat) (ranking : List Result) (q : Query Word) :
    let texts := kldTexts E depth size ranking
    let score := fun w => (holders texts w : Rat) * E.log (holders texts w / expected E texts w)
    let l := (kldPrf E expansions depth size gamma ranking q).1
    BestOf score expansions (fun w => 2 ≤ holders texts w) l ∧ (∀ w ∈ l, 0 < score w) ∧
    ∃ q', (kldPrf E expansions depth size gamma ranking q).2 = some q' ∧
      ((l = [] ∧ q' = q) ∨ ∃ b l', l = b :: l' ∧ Gains l (fun w => gamma * score w / score b) q q') := by
  intro texts score l
  obtain ⟨h1, l0, h2, h3⟩ := kld_parts hE expansions depth size gamma ranking q
  have hpos : ∀ w, 2 ≤ holders texts w → 0 < score w := by
    intro w hw
    obtain ⟨e1, e2⟩ := expected_lt (hp w) (texts := texts) (by omega : 0 < holders texts w)
    have hh : (0 : Rat) < (holders texts w : Nat) := by
      have : ((0 : Nat) : Rat) < (holders texts w : Nat) := by rw [Rat.natCast_lt_natCast]; omega
      exact this
    refine Rat.mul_pos hh (hlog _ ?_)
    rw [Rat.lt_div_iff e1, Rat.one_mul]
    exact e2
  refine ⟨h1, fun w hw => hpos w (h1.worthy w hw), ?_⟩
  cases hl : l with
  | nil =>
    refine ⟨q, ?_, .inl ⟨rfl, rfl⟩⟩
    rw [h3, if_neg (fun h => h.1 hl)]
    rw [show (kldPrf E expansions depth size gamma ranking q).1 = [] from hl]
    rfl
  | cons b l' =>
    have hb : b ∈ l := by rw [hl]; exact List.mem_cons_self ..
    have hbp := hpos b (h1.worthy b hb)
    have hord : ∀ w ∈ l, score w ≤ score b := by
      intro w hw
      have ho : l.Pairwise fun a b => score b ≤ score a := h1.order
      rw [hl] at ho hw
      rcases List.mem_cons.mp hw with e | e
      · subst e; exact Rat.le_refl
      · exact (List.pairwise_cons.mp ho).1 w e
    have hm : maxScore score l0 = score b := by
      obtain ⟨m1, m2, m3⟩ := maxScore_ge score l0 0
      have hle : score b ≤ maxScore score l0 := m2 b ((h2 b).mpr (h1.worthy b hb))
      rcases m3 with m3 | ⟨w, hw, m3⟩
      · have : maxScore score l0 = 0 := m3
        rw [this] at hle
        exact absurd hbp (Rat.not_lt.mpr hle)
      · have hge : score w ≤ score b := by
          by_cases hwl : w ∈ l
          · exact hord w hwl
          · exact (h1.rest w ((h2 w).mp hw) hwl).2 b hb
        have : maxScore score l0 = score w := m3
        rw [this] at hle ⊢
        exact Rat.le_antisymm hge hle
    refine ⟨_, by rw [h3, if_neg]; rintro ⟨-, e⟩; rw [show maxScore score l0 = 0 from e] at hm; rw [← hm] at hbp; exact absurd hbp (by decide), .inr ⟨b, l', rfl, ?_⟩⟩
    have := expand_gains l h1.distinct (fun w => gamma * score w / score b) q
    rw [hl] at this
    rw [show (kldPrf E expansions depth size gamma ranking q).1 = b :: l' from hl]
    show Gains _ _ q (expand q ((b :: l').map fun w => (w, gamma * score w / maxScore score l0)))
    rw [hm]
    exact this

/-- Where a window lies, for a passage in its container: a container that is not longer than the window is read as a whole; of others what
is read starts in the container and has the passage in it.  It is as long as asked for, or one word longer at the start of a container, or
the passage where that is longer; and it ends in the container if there is room after the passage for all that is missing, and one more. -/
theorem C72_window_partial {size : Int} {r : Result} (hs : 0 < size) (h1 : r.cp ≤ r.p) (h2 : r.p ≤ r.q) (h3 : r.q ≤ r.cq) :
    (r.cq - r.cp + 1 ≤ size → window size r = (r.cp, r.cq)) ∧
    (size < r.cq - r.cp + 1 → r.cp ≤ (window size r).1 ∧ (window size r).1 ≤ r.p ∧ r.q ≤ (window size r).2 ∧
      (r.q - r.p + 1 < size → (window size r).2 - (window size r).1 + 1 = size ∨
        ((window size r).1 = r.cp ∧ (window size r).2 - (window size r).1 + 1 = size + 1)) ∧
      (size ≤ r.q - r.p + 1 → window size r = (r.p, r.q)) ∧
      (r.p + size ≤ r.cq → (window size r).2 ≤ r.cq)) := by
  unfold window
  refine ⟨fun h => by rw [if_pos h], fun h => ?_⟩
  rw [if_neg (by omega)]
  by_cases hq : r.q - r.p + 1 < size
  · rw [if_pos hq]
    dsimp only
    split
    · refine ⟨by simp, by omega, by omega, fun _ => .inr ⟨rfl, by omega⟩, by omega, by omega⟩
    · refine ⟨by omega, by omega, by omega, fun _ => .inl (by omega), by omega, by omega⟩
  · rw [if_neg hq]
    refine ⟨by omega, by omega, by omega, by omega, fun _ => rfl, by omega⟩

/-- Not C72: a window of six words around the last two words of a container of ten has two words of the text after it. -/
theorem C72_past : window 6 ⟨8, 9, 0, 9⟩ = (6, 11) := by decide

/-- Not C72: at the start of a container the window is a word longer than asked for. -/
theorem C72_longer : window 6 ⟨0, 1, 0, 9⟩ = (0, 6) := by decide

/-- words are numbers, the text at an address is `s`, which is cut into its bytes -/
def tiny (s : List UInt8) (count tokens vocab : Int) : Env UInt8 where
  translate p q := (s.drop p.toNat).take (q + 1 - p).toNat
  split t := t
  stem w := w
  rsj w := w.toNat
  count _ := count
  tokens := tokens
  vocab := vocab
  log x := x - 1
  sort score l := l.foldr (fun w l => l.takeWhile (fun v => decide (score w < score v)) ++ w :: l.dropWhile fun v => decide (score w < score v)) []

theorem tiny_sorts (s : List UInt8) (c t v : Int) : Sorts (tiny s c t v) := by
  intro score l
  show (l.foldr _ []).Perm l ∧ (l.foldr _ []).Pairwise _
  induction l with
  | nil => exact ⟨.nil, .nil⟩
  | cons a l ih =>
    obtain ⟨h1, h2⟩ := ih
    rw [List.foldr_cons]
    generalize List.foldr _ [] l = m at h1 h2
    refine ⟨?_, ?_⟩
    · refine List.perm_middle.trans ?_
      rw [List.takeWhile_append_dropWhile]
      exact h1.cons a
    · have hsub := h2
      rw [← List.takeWhile_append_dropWhile (p := fun v => decide (score a < score v)) (l := m), List.pairwise_append] at hsub
      rw [List.pairwise_append]
      have htake : ∀ v ∈ m.takeWhile (fun v => decide (score a < score v)), score a ≤ score v := fun v hv =>
        Rat.le_of_lt (of_decide_eq_true (List.all_eq_true.mp List.all_takeWhile v hv))
      have hdrop : ∀ v ∈ m.dropWhile (fun v => decide (score a < score v)), score v ≤ score a := by
        intro v hv
        have hp := hsub.2.1
        cases hm : m.dropWhile (fun v => decide (score a < score v)) with
        | nil => rw [hm] at hv; cases hv
        | cons b m' =>
          have hb : ¬ score a < score b := by
            have := List.head_dropWhile_not (l := m) (fun v => decide (score a < score v)) (by rw [hm]; simp)
            simp only [hm, List.head_cons] at this
            simpa using this
          rw [hm] at hv hp
          rcases List.mem_cons.mp hv with e | e
          · subst e; exact Rat.not_lt.mp hb
          · exact Rat.le_trans ((List.pairwise_cons.mp hp).1 v e) (Rat.not_lt.mp hb)
      refine ⟨hsub.1, List.pairwise_cons.mpr ⟨hdrop, hsub.2.1⟩, ?_⟩
      intro x hx y hy
      rcases List.mem_cons.mp hy with e | e
      · subst e; exact htake x hx
      · exact hsub.2.2 x hx y e

/-- Not C72: two passages of the first container make `rsj_prf` prefer its word 3 to the word 4, which is in as many documents. -/
theorem C72_rsj_twice : (rsjPrf (tiny [3, 4] 1 2 2) true 1 3 1 [⟨0, 0, 0, 0⟩, ⟨0, 0, 0, 0⟩, ⟨1, 1, 1, 1⟩] fun _ => none).1 = [3] ∧
    (rsjPrf (tiny [3, 4] 1 2 2) true 1 3 1 [⟨0, 0, 0, 0⟩, ⟨1, 1, 1, 1⟩] fun _ => none).1 = [4] := by decide +kernel

/-- Not C72: in a collection that says one word, `kld_prf` divides by zero. -/
theorem C72_nan : (kldPrf (tiny [7, 7] 2 2 1) 5 5 1 1 [⟨0, 0, 0, 0⟩, ⟨1, 1, 1, 1⟩] fun _ => none).1 = [7] ∧
    (kldPrf (tiny [7, 7] 2 2 1) 5 5 1 1 [⟨0, 0, 0, 0⟩, ⟨1, 1, 1, 1⟩] fun _ => none).2 = none := by
  constructor
  · decide +kernel
  · rw [← Option.isNone_iff_eq_none]; decide +kernel

/-- A depth of 0 is one text. -/
example : kldTexts (tiny [5, 6] 1 4 2) 0 2 [⟨0, 0, 0, 1⟩, ⟨0, 0, 1, 1⟩] = [[5, 6]] := by decide +kernel

theorem getElem_wordsAt {Word : Type} (word : Int → Word) (p q : Int) (j : Nat) (w : Word) :
    (wordsAt word p q)[j]? = some w ↔ (j : Int) ≤ q - p ∧ word (p + j) = w := by
  unfold wordsAt
  rw [List.getElem?_map]
  by_cases hj : j < (q - p + 1).toNat
  · rw [List.getElem?_range hj]
    simp only [Option.map_some, Option.some.injEq]
    constructor
    · exact fun e => ⟨by omega, e⟩
    · exact fun e => e.2
  · rw [List.getElem?_eq_none (by rw [List.length_range]; omega)]
    simp only [Option.map_none, reduceCtorEq, false_iff]
    omega

/-- The gap of a word near a passage inside of a container, in `qa_prf`: the least distance to the far end of the passage of the places
where the word stands, over the words before the passage, in it and after it, as far as the window goes.  Missing: distances are one too
small after the passage (`C72_qa_infinite`), and a passage at the very start or end of its container is left out. -/
theorem C72_qa_gaps_partial {Word : Type} [DecidableEq Word] (E : Env Word) (word : Int → Word)
    (size : Int) (hs : 1 ≤ size) (r : Result) (h : Reads E word r.cp r.cq) (h1 : r.cp < r.p) (h2 : r.p ≤ r.q) (h3 : r.q < r.cq) (w : Word) :
    Least (fun g => ∃ i, word i = w ∧ r.cp ≤ i ∧ i ≤ r.cq ∧
        ((r.p - size ≤ i ∧ i < r.p ∧ g = r.q - i) ∨ (r.p ≤ i ∧ i ≤ r.q ∧ g = r.q - r.p + 1) ∨
         (r.q < i ∧ i ≤ r.q + size ∧ g = i - r.p - 1)))
      (((qaRange E size r).find? fun x => x.1 = w).map (·.2)) := by
  show Least _ (gapOf (qaRange E size r) w)
  unfold qaRange
  simp only
  generalize hp1 : (if r.p - size < r.cp then r.cp else r.p - size) = p1
  generalize hq1 : (if r.p - 1 < r.cp then r.cp else r.p - 1) = q1
  generalize hp3 : (if r.q + 1 > r.cq then r.cq else r.q + 1) = p3
  generalize hq3 : (if r.q + size > r.cq then r.cq else r.q + size) = q3
  have e1 : p1 ≤ q1 := by split at hp1 <;> split at hq1 <;> omega
  have e3 : p3 ≤ q3 := by split at hp3 <;> split at hq3 <;> omega
  rw [if_pos e1, if_pos h2, if_pos e3, h p1 q1 (by split at hp1 <;> omega) e1 (by split at hq1 <;> omega),
    h _ _ (by omega) h2 (by omega), h p3 q3 (by split at hp3 <;> omega) e3 (by split at hq3 <;> omega)]
  have hl : ((wordsAt word p1 q1).length : Int) = q1 - p1 + 1 := by
    unfold wordsAt
    rw [List.length_map, List.length_range]
    omega
  have b0 : Least (fun _ => False) (gapOf ([] : List (Word × Int)) w) := fun _ => id
  have b1 := least_shortenAll (fun i => ((wordsAt word p1 q1).length : Int) - i + r.q - r.p) w (wordsAt word p1 q1) 0 _ _ b0
  have b2 := least_shortenAll (fun _ => r.q - r.p + 1) w (wordsAt word r.p r.q) 0 _ _ b1
  have b3 := least_shortenAll (fun i => r.q - r.p + i) w (wordsAt word p3 q3) 0 _ _ b2
  refine least_congr ?_ b3
  intro g
  simp only [getElem_wordsAt, hl, Nat.zero_add, false_or]
  constructor
  · rintro ((⟨j, ⟨hj, hw⟩, hg⟩ | ⟨j, ⟨hj, hw⟩, hg⟩) | ⟨j, ⟨hj, hw⟩, hg⟩)
    · refine ⟨p1 + j, hw, ?_, ?_, Or.inl ?_⟩
      · split at hp1 <;> omega
      · split at hp1 <;> split at hq1 <;> omega
      · split at hp1 <;> split at hq1 <;> omega
    · exact ⟨r.p + j, hw, by omega, by omega, Or.inr (Or.inl (by omega))⟩
    · refine ⟨p3 + j, hw, ?_, ?_, Or.inr (Or.inr ?_)⟩
      · split at hp3 <;> omega
      · split at hp3 <;> split at hq3 <;> omega
      · split at hp3 <;> split at hq3 <;> omega
  · rintro ⟨i, hw, ha, hb, (⟨hc, hd, hg⟩ | ⟨hc, hd, hg⟩ | ⟨hc, hd, hg⟩)⟩
    · have hi : p1 ≤ i ∧ i ≤ q1 := by split at hp1 <;> split at hq1 <;> omega
      refine Or.inl (Or.inl ⟨(i - p1).toNat, ⟨by omega, by rw [← hw]; congr 1; omega⟩, ?_⟩)
      split at hp1 <;> split at hq1 <;> omega
    · exact Or.inl (Or.inr ⟨(i - r.p).toNat, ⟨by omega, by rw [← hw]; congr 1; omega⟩, hg⟩)
    · have hi : p3 ≤ i ∧ i ≤ q3 := by split at hp3 <;> split at hq3 <;> omega
      refine Or.inr ⟨(i - p3).toNat, ⟨by omega, by rw [← hw]; congr 1; omega⟩, ?_⟩
      split at hp3 <;> split at hq3 <;> omega

/-- Met by a container of five words whose passage is the third. -/
example : Reads (tiny [4, 5, 6, 7, 5] 1 20 10) (fun i => [4, 5, 6, 7, 5].getD i.toNat 0) 0 4 := by
  intro p q h1 h2 h3
  have hp : p.toNat < 5 := by omega
  have hq : q.toNat < 5 := by omega
  obtain ⟨a, rfl⟩ : ∃ a : Nat, p = (a : Int) := ⟨p.toNat, by omega⟩
  obtain ⟨b, rfl⟩ : ∃ b : Nat, q = (b : Int) := ⟨q.toNat, by omega⟩
  have := (by decide : ∀ a : Fin 5, ∀ b : Fin 5, a ≤ b →
    (tiny [4, 5, 6, 7, 5] 1 20 10).split ((tiny [4, 5, 6, 7, 5] 1 20 10).translate (a.val : Int) (b.val : Int))
      = wordsAt (fun i => [4, 5, 6, 7, 5].getD i.toNat 0) (a.val : Int) (b.val : Int)) ⟨a, by omega⟩ ⟨b, by omega⟩
  exact this (show a ≤ b by omega)

/-- The score of a word in `qa_prf`: of the first results in the containers, as many as asked for, those near which the word is count; that
number is set against the one expected of so many words taken at random as the gaps are long.  Missing: where nothing is expected there is no
score (`C72_qa_infinite`). -/
theorem C72_qa_score_partial {Word : Type} [DecidableEq Word] (E : Env Word) (depth : Nat) (size : Int) (ranking : List Result) (w : Word) :
    let gap := fun r => ((qaRange E size r).find? fun x => x.1 = w).map (·.2)
    let near := ((firsts ranking).take (max 1 depth)).filter fun r => (gap r).isSome
    let expected := (near.map fun r => 1 - (1 - ((E.count w : Rat) + 1) / ((E.tokens : Rat) + E.vocab)) ^ ((gap r).getD 0).toNat).sum
    qaScore E depth size ranking w =
      if expected = 0 then none else some ((near.length : Rat) * E.log ((near.length : Rat) / expected)) := by
  intro gap near expected
  unfold qaScore
  rw [chosen_firsts]
  have e1 := sums_get E size ((firsts ranking).take (max 1 depth)) (fun _ _ => (1 : Rat)) w
  have e2 := sums_get E size ((firsts ranking).take (max 1 depth)) (fun w g => expectation E w g.toNat) w
  dsimp only
  rw [sum_ones] at e1
  rw [e1, e2]
  rfl

/-- Not C72, for `qa_prf`: the word right after a passage of one word is at gap 0, so that nothing is expected of it and its score is not a
number; the word right before it is at gap 1, and that of the passage too. -/
theorem C72_qa_infinite : qaRange (tiny [4, 5, 6] 1 20 10) 1 ⟨1, 1, 0, 2⟩ = [(4, 1), (5, 1), (6, 0)] ∧
    qaScore (tiny [4, 5, 6, 4, 5, 6] 1 20 10) 9 1 [⟨1, 1, 0, 2⟩, ⟨4, 4, 3, 5⟩] 6 = none ∧
    (qaScore (tiny [4, 5, 6, 4, 5, 6] 1 20 10) 9 1 [⟨1, 1, 0, 2⟩, ⟨4, 4, 3, 5⟩] 4).isSome = true := by decide +kernel

/-- The hypotheses of `C72_kld_partial` are met: three documents, and the word 5 in two of them. -/
example : Sorts (tiny [5, 6, 5, 7, 8] 1 20 10) ∧ (∀ x, 1 < x → 0 < (tiny [5, 6, 5, 7, 8] 1 20 10).log x) ∧
    (∀ w, 0 < prob (tiny [5, 6, 5, 7, 8] 1 20 10) w ∧ prob (tiny [5, 6, 5, 7, 8] 1 20 10) w < 1) ∧
    (kldPrf (tiny [5, 6, 5, 7, 8] 1 20 10) 9 9 2 1 [⟨0, 0, 0, 1⟩, ⟨0, 1, 0, 1⟩, ⟨2, 2, 2, 3⟩, ⟨4, 4, 4, 4⟩] fun _ => none).1 = [5] := by
  refine ⟨tiny_sorts _ _ _ _, ?_, ?_, by decide +kernel⟩
  · intro x hx
    show 0 < x - 1
    grind
  · intro w
    show (0 : Rat) < (1 + 1) / (20 + 10) ∧ ((1 : Rat) + 1) / (20 + 10) < 1
    decide +kernel

end Verif.Props
