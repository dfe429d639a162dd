import Verif.Eval.Gain
import Verif.Props.Combine
/-
  Normalized gains, rank-biased precision, and the similarity of rankings: lemmas.
-/
namespace Verif.Eval

/-! ### normalized gain -/

theorem judges_of_mem {qrels : Qrels} {g : Int → Rat} (hg : Judges qrels g) {c : Qrels} (hc : c.Perm qrels) :
    (c.map (·.1)).map g = c.map (·.2) := by
  rw [List.map_map]
  apply List.map_congr_left
  intro x hx
  exact hg.here x.1 x.2 (hc.mem_iff.1 hx)

/-- the gain of the descending grades is the greatest -/
theorem best_ok {w : Nat → Rat} (hw : Weights w) {qrels : Qrels} {g : Int → Rat} (hg : Judges qrels g) (h0 : ∀ x ∈ qrels, 0 ≤ x.2)
    {s : List Rat} (hp : s.Perm (qrels.map (·.2))) (hs : s.Pairwise (· ≥ ·)) :
    BestGain w g none (weigh w s) ∧ ∀ d, BestGain w g (some d) (weigh w (s.take d)) := by
  have hs0 : ∀ x ∈ s, 0 ≤ x := by
    intro x hx
    obtain ⟨y, hy, rfl⟩ := List.mem_map.1 (hp.mem_iff.1 hx)
    exact h0 y hy
  obtain ⟨c, hc, hsc⟩ := Verif.Props.perm_map_back (fun x : Int × Rat => x.2) hp
  have hnd : (c.map (·.1)).Nodup := (hc.map (·.1)).nodup_iff.2 hg.once
  have hcg : (c.map (·.1)).map g = s := by rw [judges_of_mem hg hc, hsc]
  refine ⟨⟨?_, c.map (·.1), hnd, ?_⟩, fun d => ⟨?_, c.map (·.1), hnd, ?_⟩⟩
  · intro l hl
    apply weigh_le hw hs0
    intro k
    rw [upTo, ← List.map_take]
    exact top_sum hg h0 hp hs (hl.sublist (List.take_sublist k l)) k (by simp; omega)
  · rw [gainAt, upTo, hcg]
  · intro l hl
    apply weigh_le hw fun y hy => hs0 y (List.mem_of_mem_take hy)
    intro k
    rw [upTo, ← List.map_take, List.take_take, List.take_take]
    exact top_sum hg h0 hp hs (hl.sublist (List.take_sublist _ l)) _ (by simp; omega)
  · rw [gainAt, upTo, List.map_take, hcg]

theorem ndcgEval_zero {sort : List Rat → List Rat} (hsort : Descends sort) {w : Nat → Rat} (hw : Weights w) (log2 : Rat) {qrels : Qrels}
    {g : Int → Rat} (hg : Judges qrels g) (h0 : ∀ x ∈ qrels, 0 ≤ x.2) (l : List Int) (hz : weigh w (sort (qrels.map (·.2))) = 0) :
    (∀ p, g p = 0) ∧ ndcgEval sort w log2 qrels l = ⟨{}, {}⟩ := by
  have hp := (hsort (qrels.map (·.2))).1
  refine ⟨?_, ?_⟩
  · intro p
    by_cases hx : ∃ x, (p, x) ∈ qrels
    · obtain ⟨x, hx⟩ := hx
      rw [hg.here p x hx]
      refine ideal_zero hw (hsort (qrels.map (·.2))).2 ?_ hz x (hp.mem_iff.2 (List.mem_map.2 ⟨_, hx, rfl⟩))
      intro y hy
      obtain ⟨z, hz, rfl⟩ := List.mem_map.1 (hp.mem_iff.1 hy)
      exact h0 z hz
    · exact hg.else0 p fun x hx' => hx ⟨x, hx'⟩
  · unfold ndcgEval
    simp only [gain_score, hz, if_true]

theorem ndcgEval_some {sort : List Rat → List Rat} {w : Nat → Rat} (log2 : Rat) {qrels : Qrels}
    {g : Int → Rat} (hg : Judges qrels g) (l : List Int) (hz : weigh w (sort (qrels.map (·.2))) ≠ 0) :
    ndcgEval sort w log2 qrels l =
      ⟨⟨log2 * gainAt w g none l, log2 * gainAt w g (some 5) l, log2 * gainAt w g (some 10) l, log2 * gainAt w g (some 20) l⟩,
       ⟨gainAt w g none l / weigh w (sort (qrels.map (·.2))), gainAt w g (some 5) l / weigh w ((sort (qrels.map (·.2))).take 5),
        gainAt w g (some 10) l / weigh w ((sort (qrels.map (·.2))).take 10), gainAt w g (some 20) l / weigh w ((sort (qrels.map (·.2))).take 20)⟩⟩ := by
  unfold ndcgEval
  simp only [gain_score, hz, if_false]
  rw [gains_eq _ _ _ rfl, gains_eq _ _ l.length (by simp), map_gradeAt hg]
  simp only [gainAt, upTo, List.map_take]

/-- the discounted gain is as defined, relevant passages or not -/
theorem dcg_ok {sort : List Rat → List Rat} (hsort : Descends sort) {w : Nat → Rat} (hw : Weights w) (log2 : Rat) {qrels : Qrels}
    {g : Int → Rat} (hg : Judges qrels g) (h0 : ∀ x ∈ qrels, 0 ≤ x.2) (l : List Int) :
    (ndcgEval sort w log2 qrels l).dcg =
      ⟨log2 * gainAt w g none l, log2 * gainAt w g (some 5) l, log2 * gainAt w g (some 10) l, log2 * gainAt w g (some 20) l⟩ := by
  by_cases hz : weigh w (sort (qrels.map (·.2))) = 0
  · obtain ⟨h1, h2⟩ := ndcgEval_zero hsort hw log2 hg h0 l hz
    have hg0 : ∀ d, gainAt w g d l = 0 := by
      intro d
      apply weigh_zeros
      intro x hx
      obtain ⟨p, _, rfl⟩ := List.mem_map.1 hx
      exact h1 p
    rw [h2]
    simp only [hg0, Rat.mul_zero]
  · rw [ndcgEval_some log2 hg l hz]

theorem div_one_le {a b : Rat} (hb : 0 < b) (h : a ≤ b) : a / b ≤ 1 := by
  rw [Rat.div_def]
  have h2 := Rat.mul_le_mul_of_nonneg_right h (Rat.le_of_lt (Rat.inv_pos.2 hb))
  rw [Rat.mul_inv_cancel _ (by grind)] at h2
  exact h2

theorem div_nonneg' {a b : Rat} (ha : 0 ≤ a) (hb : 0 ≤ b) : 0 ≤ a / b := by
  rcases (show b = 0 ∨ 0 < b by grind) with rfl | hb
  · rw [Rat.div_def, Rat.inv_zero, Rat.mul_zero]
    exact Rat.le_refl
  · rw [Rat.div_def]
    exact Rat.mul_nonneg ha (Rat.le_of_lt (Rat.inv_pos.2 hb))

/-! ### rank-biased precision -/

theorem rbpLoop_eq (r : Rat) : ∀ (l : List Rat) (sum prob : Rat), (rbpLoop r l (sum, prob)).1 = sum + prob * weigh (fun i => r ^ i) l := by
  intro l
  induction l with
  | nil => intro sum prob; simp only [rbpLoop, weigh]; grind
  | cons x l ih =>
    intro sum prob
    rw [rbpLoop, ih, weigh]
    have : weigh (fun i => r ^ (i + 1)) l = r * weigh (fun i => r ^ i) l := weigh_scale r l _ _ fun i => by rw [Rat.pow_succ, Rat.mul_comm]
    rw [this, Rat.pow_zero]
    grind
where
  weigh_scale (r : Rat) : ∀ (l : List Rat) (v w : Nat → Rat), (∀ i, v i = r * w i) → weigh v l = r * weigh w l := by
    intro l
    induction l with
    | nil => intro v w _; simp only [weigh, Rat.mul_zero]
    | cons x l ih =>
      intro v w h
      rw [weigh, weigh, h 0, ih _ _ fun i => h (i + 1)]
      grind

theorem rbpEval_eq (r : Rat) {qrels : Qrels} {g : Int → Rat} (hg : Judges qrels g) (l : List Int) :
    rbpEval r qrels l = (1 - r) * weigh (fun i => r ^ i) (l.map g) := by
  rw [rbpEval, rbpLoop_eq, map_gradeAt hg]
  grind

theorem weights_pow {r : Rat} (h0 : 0 < r) (h1 : r ≤ 1) : Weights fun i => r ^ i := by
  have hp : ∀ i : Nat, 0 < r ^ i := by
    intro i
    induction i with
    | zero => rw [Rat.pow_zero]; decide
    | succ i ih => rw [Rat.pow_succ]; exact Rat.mul_pos ih h0
  refine ⟨hp, fun i => ?_⟩
  have := Rat.mul_le_mul_of_nonneg_left h1 (Rat.le_of_lt (hp i))
  rw [Rat.pow_succ]
  grind

/-- the weights of rank-biased precision never sum to more than one -/
theorem rbp_le {r : Rat} (h0 : 0 < r) (h1 : r ≤ 1) : ∀ (l : List Rat), (∀ x ∈ l, x ≤ 1) → (1 - r) * weigh (fun i => r ^ i) l ≤ 1 := by
  intro l
  induction l with
  | nil => intro _; simp only [weigh, Rat.mul_zero]; decide
  | cons x l ih =>
    intro h
    have h2 := ih fun y hy => h y (List.mem_cons_of_mem _ hy)
    have h3 : weigh (fun i => r ^ (i + 1)) l = r * weigh (fun i => r ^ i) l :=
      rbpLoop_eq.weigh_scale r l _ _ fun i => by rw [Rat.pow_succ, Rat.mul_comm]
    rw [weigh, h3, Rat.pow_zero]
    have h4 := Rat.mul_le_mul_of_nonneg_left (h x (List.mem_cons_self ..)) (show 0 ≤ 1 - r by grind)
    have h5 := Rat.mul_le_mul_of_nonneg_left h2 (Rat.le_of_lt h0)
    grind

/-! ### the greatest difference -/

/-- the weight of the place of `p`, zero if it has none -/
def placeOf (w : Nat → Rat) : List Int → Int → Rat
  | [], _ => 0
  | a :: l, p => if p = a then w 0 else placeOf (fun i => w (i + 1)) l p

theorem placeOf_bound : ∀ (l : List Int) (w : Nat → Rat) (p : Int), Weights w → 0 ≤ placeOf w l p ∧ placeOf w l p ≤ w 0 := by
  intro l
  induction l with
  | nil => intro w p hw; have := hw.pos 0; rw [placeOf]; grind
  | cons a l ih =>
    intro w p hw
    have h1 := ih _ p hw.tail
    have h2 := hw.falls 0
    have h3 := hw.pos 0
    rw [placeOf]
    split <;> grind

theorem placeOf_not_mem : ∀ (l : List Int) (w : Nat → Rat) (p : Int), p ∉ l → placeOf w l p = 0 := by
  intro l
  induction l with
  | nil => intro w p _; rfl
  | cons a l ih =>
    intro w p h
    rw [List.mem_cons] at h
    rw [placeOf, if_neg fun e => h (.inl e)]
    exact ih _ p fun hm => h (.inr hm)

/-- the grades that favour the first ranking -/
def favour : List Int → List Int → Int → Rat
  | a :: l, b :: m, p => if p = a then 1 else if p = b then 0 else favour l m p
  | a :: l, [], p => if p = a then 1 else favour l [] p
  | [], _, _ => 0

theorem favour_cases : ∀ (l m : List Int) (w : Nat → Rat) (p : Int), Weights w →
    (favour l m p = 1 ∧ placeOf w m p ≤ placeOf w l p) ∨ (favour l m p = 0 ∧ placeOf w l p ≤ placeOf w m p) := by
  intro l
  induction l with
  | nil => intro m w p hw; exact .inr ⟨by cases m <;> rfl, (placeOf_bound m w p hw).1⟩
  | cons a l ih =>
    intro m w p hw
    have hb := placeOf_bound l _ p hw.tail
    have hf := hw.falls 0
    cases m with
    | nil =>
      have h1 := hw.pos 0
      rw [favour, placeOf, placeOf]
      by_cases h : p = a
      · rw [if_pos h, if_pos h]
        exact .inl ⟨rfl, Rat.le_of_lt h1⟩
      · rw [if_neg h, if_neg h]
        have := ih [] _ p hw.tail
        rw [placeOf] at this
        exact this
    | cons b m =>
      have hm := placeOf_bound m _ p hw.tail
      rw [favour, placeOf, placeOf]
      by_cases h : p = a
      · rw [if_pos h, if_pos h]
        refine .inl ⟨rfl, ?_⟩
        split <;> grind
      · rw [if_neg h, if_neg h]
        by_cases h2 : p = b
        · rw [if_pos h2, if_pos h2]
          refine .inr ⟨rfl, ?_⟩
          grind
        · rw [if_neg h2, if_neg h2]
          exact ih m _ p hw.tail

theorem favour_fractions (l m : List Int) : Fractions (favour l m) := by
  intro p
  rcases favour_cases l m (fun _ => 1) p ⟨fun _ => by decide, fun _ => Rat.le_refl⟩ with h | h
  · rw [h.1]; decide
  · rw [h.1]; decide

/-- a weighted sum, taken over the addresses instead of the places -/
theorem weigh_places (g : Int → Rat) (U : List Int) (hU : U.Nodup) : ∀ (l : List Int) (w : Nat → Rat), l.Nodup → (∀ p ∈ l, p ∈ U) →
    weigh w (l.map g) = (U.map fun p => g p * placeOf w l p).sum := by
  intro l
  induction l with
  | nil =>
    intro w _ _
    have : ∀ V : List Int, (V.map fun p => g p * placeOf w [] p).sum = 0 := by
      intro V
      induction V with
      | nil => rfl
      | cons a V ih => rw [List.map_cons, List.sum_cons, ih, placeOf]; grind
    rw [this]
    rfl
  | cons a l ih =>
    intro w hl hm
    rw [List.nodup_cons] at hl
    have h1 := ih (fun i => w (i + 1)) hl.2 fun p hp => hm p (List.mem_cons_of_mem _ hp)
    rw [List.map_cons, weigh, h1]
    have hz := placeOf_not_mem l (fun i => w (i + 1)) a hl.1
    have hp := List.perm_cons_erase (hm a (List.mem_cons_self ..))
    rw [sum_perm (hp.map fun p => g p * placeOf w (a :: l) p), sum_perm (hp.map fun p => g p * placeOf (fun i => w (i + 1)) l p)]
    simp only [List.map_cons, List.sum_cons, hz]
    have he : (U.erase a).map (fun p => g p * placeOf w (a :: l) p) = (U.erase a).map fun p => g p * placeOf (fun i => w (i + 1)) l p := by
      apply List.map_congr_left
      intro p hp
      rw [placeOf, if_neg fun e => by subst e; exact hU.not_mem_erase hp]
    rw [he, placeOf, if_pos rfl]
    grind

theorem sum_sub_le {f h : Int → Rat} : ∀ (U : List Int), (∀ p ∈ U, f p ≤ h p) → (U.map f).sum ≤ (U.map h).sum := by
  intro U
  induction U with
  | nil => intro _; exact Rat.le_refl
  | cons a U ih =>
    intro hf
    have h1 := hf a (List.mem_cons_self ..)
    have h2 := ih fun p hp => hf p (List.mem_cons_of_mem _ hp)
    simp only [List.map_cons, List.sum_cons]
    grind

theorem sum_sub (f h : Int → Rat) : ∀ (U : List Int), (U.map f).sum - (U.map h).sum = (U.map fun p => f p - h p).sum := by
  intro U
  induction U with
  | nil => simp; grind
  | cons a U ih =>
    simp only [List.map_cons, List.sum_cons, ← ih]
    grind

theorem favour_best {w : Nat → Rat} (hw : Weights w) {one two : List Int} (h1 : one.Nodup) (h2 : two.Nodup) {g : Int → Rat} (hg : Fractions g) :
    weigh w (one.map g) - weigh w (two.map g) ≤ weigh w (one.map (favour one two)) - weigh w (two.map (favour one two)) := by
  have hU : (one ++ two.filter fun p => p ∉ one).Nodup := by
    rw [List.nodup_append]
    refine ⟨h1, h2.filter _, ?_⟩
    intro a ha b hb e
    subst e
    have := (List.mem_filter.1 hb).2
    simp [ha] at this
  have hm1 : ∀ p ∈ one, p ∈ (one ++ two.filter fun p => p ∉ one) := fun p hp => List.mem_append_left _ hp
  have hm2 : ∀ p ∈ two, p ∈ (one ++ two.filter fun p => p ∉ one) := by
    intro p hp
    by_cases h : p ∈ one
    · exact List.mem_append_left _ h
    · exact List.mem_append_right _ (List.mem_filter.2 ⟨hp, by simp [h]⟩)
  generalize (one ++ two.filter fun p => p ∉ one) = U at hU hm1 hm2
  rw [weigh_places g U hU one w h1 hm1, weigh_places g U hU two w h2 hm2, weigh_places _ U hU one w h1 hm1, weigh_places _ U hU two w h2 hm2,
    sum_sub, sum_sub]
  apply sum_sub_le
  intro p _
  have hp := hg p
  rcases favour_cases one two w p hw with h | h
  · rw [h.1]
    have := Rat.mul_le_mul_of_nonneg_right hp.2 (show 0 ≤ placeOf w one p - placeOf w two p by grind)
    grind
  · rw [h.1]
    have := Rat.mul_nonneg hp.1 (show 0 ≤ placeOf w two p - placeOf w one p by grind)
    grind

/-! ### the judgements of `med_qrels` -/

theorem gradeAt_append (q : Qrels) (p : Int) (x : Rat) (a : Int) : gradeAt (q ++ [(a, x)]) p =
    if (q.find? fun y => y.1 == p) = none ∧ p = a then x else gradeAt q p := by
  unfold gradeAt
  rw [List.find?_append]
  cases h : q.find? fun y => y.1 == p with
  | some y => simp
  | none =>
    by_cases e : a = p
    · subst e; simp
    · simp [List.find?, show (a == p) = false by simpa using e, show ¬p = a from fun e' => e e'.symm]

theorem find_none_iff (q : Qrels) (p : Int) : (q.find? fun y => y.1 == p) = none ↔ p ∉ q.map (·.1) := by
  rw [List.find?_eq_none]
  constructor
  · intro h hm
    obtain ⟨y, hy, rfl⟩ := List.mem_map.1 hm
    have := h y hy
    simp at this
  · intro h y hy e
    simp only [beq_iff_eq] at e
    exact h (List.mem_map.2 ⟨y, hy, e⟩)

theorem judge_facts (q : Qrels) (a : Int) (x : Rat) :
    (∀ p, p ∈ (judge q a x).map (·.1) ↔ p ∈ q.map (·.1) ∨ p = a) ∧
    (∀ p, gradeAt (judge q a x) p = if p ∉ q.map (·.1) ∧ p = a then x else gradeAt q p) ∧
    ((q.map (·.1)).Nodup → ((judge q a x).map (·.1)).Nodup) ∧ (∀ y ∈ judge q a x, y ∈ q ∨ y.2 = x) := by
  unfold judge
  cases h : q.find? fun y => y.1 == a with
  | none =>
    have hn := (find_none_iff q a).1 h
    refine ⟨?_, ?_, ?_, ?_⟩
    · intro p; simp
    · intro p
      simp only [gradeAt_append, find_none_iff]
    · intro hq
      rw [List.map_append, List.nodup_append]
      refine ⟨hq, by simp, ?_⟩
      intro b hb c hc e
      simp only [List.map_cons, List.map_nil, List.mem_singleton] at hc
      subst hc; subst e
      exact hn hb
    · intro y hy
      rcases List.mem_append.1 hy with h | h
      · exact .inl h
      · rw [List.mem_singleton] at h; subst h; exact .inr rfl
  | some y =>
    have hm : a ∈ q.map (·.1) := by
      apply Classical.byContradiction
      intro hn
      rw [(find_none_iff q a).2 hn] at h
      cases h
    refine ⟨?_, ?_, id, fun y hy => .inl hy⟩
    · intro p
      constructor
      · exact .inl
      · rintro (h | rfl)
        · exact h
        · exact hm
    · intro p
      rw [if_neg]
      rintro ⟨h1, rfl⟩
      exact h1 hm

theorem medQrels_facts : ∀ (one two : List Int) (q : Qrels), (q.map (·.1)).Nodup → (∀ y ∈ q, 0 ≤ y.2) →
    ((medQrels q one two).map (·.1)).Nodup ∧ (∀ y ∈ medQrels q one two, 0 ≤ y.2) ∧
    ∀ p, gradeAt (medQrels q one two) p = if p ∈ q.map (·.1) then gradeAt q p else favour one two p := by
  intro one
  induction one with
  | nil =>
    intro two q hq h0
    rw [show medQrels q [] two = q by cases two <;> rfl]
    refine ⟨hq, h0, fun p => ?_⟩
    split
    · rfl
    · rename_i h
      unfold gradeAt
      rw [(find_none_iff q p).2 h]
      cases two <;> rfl
  | cons a one ih =>
    intro two q hq h0
    obtain ⟨a1, a2, a3, a4⟩ := judge_facts q a 1
    have h0a : ∀ y ∈ judge q a 1, 0 ≤ y.2 := by
      intro y hy
      rcases a4 y hy with h | h
      · exact h0 y h
      · rw [h]; decide
    cases two with
    | nil =>
      rw [medQrels]
      obtain ⟨i1, i2, i3⟩ := ih [] (judge q a 1) (a3 hq) h0a
      refine ⟨i1, i2, fun p => ?_⟩
      rw [i3, favour, a2]
      by_cases hp : p ∈ q.map (·.1)
      · rw [if_pos ((a1 p).2 (.inl hp)), if_pos hp, if_neg fun h => h.1 hp]
      · rw [if_neg hp]
        by_cases e : p = a
        · rw [if_pos ((a1 p).2 (.inr e)), if_pos ⟨hp, e⟩, if_pos e]
        · rw [if_neg (fun h => ((a1 p).1 h).elim hp e), if_neg e]
    | cons b two =>
      obtain ⟨b1, b2, b3, b4⟩ := judge_facts (judge q a 1) b 0
      rw [medQrels]
      obtain ⟨i1, i2, i3⟩ := ih two (judge (judge q a 1) b 0) (b3 (a3 hq)) (by
        intro y hy
        rcases b4 y hy with h | h
        · exact h0a y h
        · rw [h]; exact Rat.le_refl)
      refine ⟨i1, i2, fun p => ?_⟩
      rw [i3, favour, b2, a2]
      by_cases hp : p ∈ q.map (·.1)
      · rw [if_pos ((b1 p).2 (.inl ((a1 p).2 (.inl hp)))), if_pos hp, if_neg fun h => h.1 ((a1 p).2 (.inl hp)), if_neg fun h => h.1 hp]
      · rw [if_neg hp]
        by_cases e : p = a
        · rw [if_pos ((b1 p).2 (.inl ((a1 p).2 (.inr e)))), if_neg fun h => h.1 ((a1 p).2 (.inr e)), if_pos ⟨hp, e⟩, if_pos e]
        · rw [if_neg e]
          have hna : p ∉ (judge q a 1).map (·.1) := fun h => ((a1 p).1 h).elim hp e
          by_cases e2 : p = b
          · rw [if_pos ((b1 p).2 (.inr e2)), if_pos ⟨hna, e2⟩, if_pos e2]
          · rw [if_neg (fun h => ((b1 p).1 h).elim hna e2), if_neg e2]

theorem medQrels_judges (one two : List Int) : Judges (medQrels [] one two) (favour one two) ∧ ∀ y ∈ medQrels [] one two, 0 ≤ y.2 := by
  obtain ⟨h1, h2, h3⟩ := medQrels_facts one two [] (by simp) (by simp)
  have h3 : ∀ p, gradeAt (medQrels [] one two) p = favour one two p := by
    intro p; rw [h3]; simp
  refine ⟨⟨h1, ?_, ?_⟩, h2⟩
  · intro p x hx
    rw [← h3]
    unfold gradeAt
    cases h : (medQrels [] one two).find? fun y => y.1 == p with
    | none => exact absurd (List.mem_map.2 ⟨_, hx, rfl⟩) ((find_none_iff _ p).1 h)
    | some y =>
      have hy := List.mem_of_find?_eq_some h
      have hyp := List.find?_some h
      simp only [beq_iff_eq] at hyp
      exact nodup_key h1 hy hx hyp
  · intro p hn
    rw [← h3]
    unfold gradeAt
    rw [(find_none_iff _ p).2]
    intro hm
    obtain ⟨y, hy, rfl⟩ := List.mem_map.1 hm
    exact hn y.2 hy
where
  nodup_key {q : Qrels} (h : (q.map (·.1)).Nodup) {y : Int × Rat} {p : Int} {x : Rat} (hy : y ∈ q) (hx : (p, x) ∈ q) (e : y.1 = p) : y.2 = x := by
    induction q with
    | nil => cases hy
    | cons z q ih =>
      rw [List.map_cons, List.nodup_cons] at h
      rcases List.mem_cons.1 hy with rfl | hy'
      · rcases List.mem_cons.1 hx with hx | hx
        · rw [← hx]
        · exact absurd (List.mem_map.2 ⟨_, hx, e.symm⟩) h.1
      · rcases List.mem_cons.1 hx with rfl | hx
        · exact (h.1 (List.mem_map.2 ⟨_, hy', e⟩)).elim
        · exact ih h.2 hy' hx

end Verif.Eval
