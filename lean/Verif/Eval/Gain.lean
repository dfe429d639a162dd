import Verif.Eval.Proof
/-
  Gains: lemmas.
-/
namespace Verif.Eval

/-! ### weighted sums -/

theorem Weights.tail {w : Nat → Rat} (h : Weights w) : Weights fun i => w (i + 1) :=
  ⟨fun i => h.pos (i + 1), fun i => h.falls (i + 1)⟩

theorem weigh_nonneg {w : Nat → Rat} : ∀ (l : List Rat) (w : Nat → Rat), Weights w → (∀ x ∈ l, 0 ≤ x) → 0 ≤ weigh w l := by
  intro l
  induction l with
  | nil => intro w _ _; exact Rat.le_refl
  | cons x l ih =>
    intro w hw h
    have h1 := ih _ hw.tail fun y hy => h y (List.mem_cons_of_mem _ hy)
    have h2 := Rat.mul_nonneg (h x (List.mem_cons_self ..)) (Rat.le_of_lt (hw.pos 0))
    rw [weigh]
    grind

/-- if the beginnings of `xs` never sum to more than those of `ys`, weighing keeps it so -/
theorem weigh_le_go : ∀ (xs ys : List Rat) (w : Nat → Rat) (c : Rat), Weights w → (∀ y ∈ ys, 0 ≤ y) → 0 ≤ c →
    (∀ k, (xs.take k).sum ≤ c + (ys.take k).sum) → weigh w xs ≤ c * w 0 + weigh w ys := by
  intro xs
  induction xs with
  | nil =>
    intro ys w c hw hy hc _
    have h1 := weigh_nonneg (w := w) ys w hw hy
    have h2 := Rat.mul_nonneg hc (Rat.le_of_lt (hw.pos 0))
    rw [weigh]
    grind
  | cons x xs ih =>
    intro ys w c hw hy hc h
    cases ys with
    | nil =>
      have h1 := h 1
      simp only [List.take_succ_cons, List.take_zero, List.sum_cons, List.sum_nil, List.take_nil, Rat.add_zero] at h1
      have := ih [] _ (c - x) hw.tail (by intro y hy; cases hy) (by grind) (by
        intro k
        have := h (k + 1)
        simp only [List.take_succ_cons, List.sum_cons, List.take_nil, List.sum_nil] at this ⊢
        grind)
      have h3 := Rat.mul_le_mul_of_nonneg_left (hw.falls 0) (show 0 ≤ c - x by grind)
      simp only [weigh] at this ⊢
      grind
    | cons y ys =>
      have h1 := h 1
      simp only [List.take_succ_cons, List.take_zero, List.sum_cons, List.sum_nil, Rat.add_zero] at h1
      have := ih ys _ (c + y - x) hw.tail (fun z hz => hy z (List.mem_cons_of_mem _ hz)) (by grind) (by
        intro k
        have := h (k + 1)
        simp only [List.take_succ_cons, List.sum_cons] at this
        grind)
      have h3 := Rat.mul_le_mul_of_nonneg_left (hw.falls 0) (show 0 ≤ c + y - x by grind)
      simp only [weigh] at this ⊢
      grind

theorem weigh_le {w : Nat → Rat} (hw : Weights w) {xs ys : List Rat} (hy : ∀ y ∈ ys, 0 ≤ y)
    (h : ∀ k, (xs.take k).sum ≤ (ys.take k).sum) : weigh w xs ≤ weigh w ys := by
  have := weigh_le_go xs ys w 0 hw hy Rat.le_refl (by intro k; rw [Rat.zero_add]; exact h k)
  grind

/-! ### the greatest sum of `k` grades -/

/-- how much `x` exceeds `t` -/
def over (t x : Rat) : Rat := if t ≤ x then x - t else 0

theorem over_nonneg (t x : Rat) : 0 ≤ over t x := by unfold over; split <;> grind
theorem le_over (t x : Rat) : x ≤ t + over t x := by unfold over; split <;> grind

theorem sum_le_over (t : Rat) (h0 : 0 ≤ t) : ∀ (l : List Rat) (k : Nat), l.length ≤ k → l.sum ≤ (k : Rat) * t + (l.map (over t)).sum := by
  intro l
  induction l with
  | nil =>
    intro k _
    have := Rat.mul_nonneg (a := (k : Rat)) Rat.natCast_nonneg h0
    simp only [List.sum_nil, List.map_nil]
    grind
  | cons x l ih =>
    intro k hk
    obtain ⟨k, rfl⟩ : ∃ j, k = j + 1 := ⟨k - 1, by simp only [List.length_cons] at hk; omega⟩
    have h1 := ih k (by simp only [List.length_cons] at hk; omega)
    have h2 := le_over t x
    simp only [List.sum_cons, List.map_cons]
    have h3 : ((k + 1 : Nat) : Rat) = (k : Rat) + 1 := by simp
    rw [h3]
    grind

/-- the sum of the first `k` of a descending list, over a threshold between them and the rest -/
theorem sum_take_over (t : Rat) : ∀ (s : List Rat) (k : Nat), k ≤ s.length → (∀ x ∈ s.take k, t ≤ x) → (∀ x ∈ s.drop k, x ≤ t) →
    (s.take k).sum = (k : Rat) * t + (s.map (over t)).sum := by
  intro s
  induction s with
  | nil => intro k hk _ _; simp at hk; subst hk; simp [Rat.zero_mul, Rat.add_zero]
  | cons x s ih =>
    intro k hk h1 h2
    cases k with
    | zero =>
      have hx := h2 x (by simp)
      have := ih 0 (by omega) (by simp) (fun y hy => h2 y (by simp only [List.drop_zero] at hy ⊢; exact List.mem_cons_of_mem _ hy))
      simp only [List.take_zero, List.sum_nil, List.map_cons, List.sum_cons] at this ⊢
      have h3 : over t x = 0 := by unfold over; split <;> grind
      rw [h3, Rat.zero_add]
      exact this
    | succ k =>
      have hx := h1 x (by simp)
      have := ih k (by simpa using hk) (fun y hy => h1 y (by simp only [List.take_succ_cons]; exact List.mem_cons_of_mem _ hy))
        (fun y hy => h2 y (by simpa using hy))
      simp only [List.take_succ_cons, List.sum_cons, List.map_cons]
      have h3 : over t x = x - t := by unfold over; rw [if_pos hx]
      have h4 : ((k + 1 : Nat) : Rat) = (k : Rat) + 1 := by simp
      rw [h3, h4, this]
      grind

theorem threshold {s : List Rat} (hs : s.Pairwise (· ≥ ·)) (h0 : ∀ x ∈ s, 0 ≤ x) (k : Nat) :
    ∃ t, 0 ≤ t ∧ (∀ x ∈ s.take k, t ≤ x) ∧ (∀ x ∈ s.drop k, x ≤ t) ∧ (s.length < k → t = 0) := by
  cases hd : s.drop k with
  | nil =>
    refine ⟨0, Rat.le_refl, fun x hx => h0 x (List.mem_of_mem_take hx), (fun x hx => by cases hx), fun _ => rfl⟩
  | cons t r =>
    have hmem : t ∈ s := List.mem_of_mem_drop (by rw [hd]; exact List.mem_cons_self ..)
    have hp := hs
    rw [← List.take_append_drop k s, List.pairwise_append] at hp
    refine ⟨t, h0 t hmem, fun x hx => hp.2.2 x hx t (by rw [hd]; exact List.mem_cons_self ..), ?_, ?_⟩
    · intro x hx
      rcases List.mem_cons.1 hx with rfl | hx
      · exact Rat.le_refl
      · have := hp.2.1
        rw [hd, List.pairwise_cons] at this
        exact this.1 x hx
    · intro hlt
      rw [List.drop_eq_nil_of_le (by omega)] at hd
      cases hd

theorem top_sum {qrels : Qrels} {g : Int → Rat} (hg : Judges qrels g) (h0 : ∀ x ∈ qrels, 0 ≤ x.2) {s : List Rat}
    (hp : s.Perm (qrels.map (·.2))) (hs : s.Pairwise (· ≥ ·)) {l : List Int} (hl : l.Nodup) (k : Nat) (hk : l.length ≤ k) :
    (l.map g).sum ≤ (s.take k).sum := by
  have hs0 : ∀ x ∈ s, 0 ≤ x := by
    intro x hx
    obtain ⟨y, hy, rfl⟩ := List.mem_map.1 (hp.mem_iff.1 hx)
    exact h0 y hy
  obtain ⟨t, ht, h1, h2, h3⟩ := threshold hs hs0 k
  have hA := sum_le_over t ht (l.map g) k (by simpa using hk)
  have hB : ((l.map g).map (over t)).sum ≤ (s.map (over t)).sum := by
    rw [sum_perm (hp.map (over t)), List.map_map, List.map_map]
    have := sum_le_of_subset (fun p => over t (g p)) (fun p => over_nonneg t (g p)) l (qrels.map (·.1)) hl (by
      intro p _ hn
      have : g p = 0 := hg.else0 p fun x hx => hn (List.mem_map.2 ⟨_, hx, rfl⟩)
      rw [this]
      unfold over
      split <;> grind)
    rw [List.map_map] at this
    have he : qrels.map ((fun p => over t (g p)) ∘ fun x => x.1) = qrels.map (over t ∘ fun x => x.2) := by
      apply List.map_congr_left
      intro x hx
      simp only [Function.comp, hg.here x.1 x.2 hx]
    rw [he] at this
    exact this
  by_cases hk2 : k ≤ s.length
  · rw [sum_take_over t s k hk2 h1 h2]
    grind
  · have ht0 := h3 (by omega)
    subst ht0
    have := sum_take_over 0 s s.length (Nat.le_refl _) (by
      intro x hx; exact hs0 x (List.mem_of_mem_take hx)) (by intro x hx; simp at hx)
    rw [List.take_of_length_le (Nat.le_refl _)] at this
    rw [List.take_of_length_le (by omega), this]
    grind

/-! ### the loop of gains -/

theorem weigh_append (xs : List Rat) : ∀ (w : Nat → Rat) (x : Rat), weigh w (xs ++ [x]) = weigh w xs + x * w xs.length := by
  induction xs with
  | nil => intro w x; simp only [List.nil_append, weigh, List.length_nil]; grind
  | cons a xs ih =>
    intro w x
    simp only [List.cons_append, weigh, ih, List.length_cons]
    grind

/-- what is stored for depth `d` -/
def kept (w : Nat → Rat) (d : Nat) (pre l : List Rat) (old : Rat) : Rat :=
  if pre.length < d ∧ d ≤ (pre ++ l).length then weigh w ((pre ++ l).take d) else old

theorem kept_step (w : Nat → Rat) (d : Nat) (hd : 0 < d) (pre l : List Rat) (x old : Rat) :
    kept w d (pre ++ [x]) l (if pre.length = d - 1 then weigh w (pre ++ [x]) else old) = kept w d pre (x :: l) old := by
  unfold kept
  rw [List.append_assoc, List.cons_append, List.nil_append]
  by_cases h : pre.length = d - 1
  · rw [if_neg (by simp only [List.length_append, List.length_cons, List.length_nil]; omega), if_pos h,
      if_pos ⟨by omega, by simp only [List.length_append, List.length_cons]; omega⟩]
    have : (pre ++ x :: l).take d = pre ++ [x] := by
      rw [show pre ++ x :: l = (pre ++ [x]) ++ l by simp]
      exact take_of_length (by simp; omega)
    rw [this]
  · rw [if_neg h]
    by_cases h2 : pre.length < d ∧ d ≤ (pre ++ x :: l).length
    · rw [if_pos h2, if_pos ⟨by simp only [List.length_append, List.length_cons, List.length_nil]; omega, h2.2⟩]
    · rw [if_neg h2, if_neg fun h3 => h2 ⟨by have := h3.1; simp only [List.length_append, List.length_cons, List.length_nil] at this; omega, h3.2⟩]

theorem gainLoop_eq (w : Nat → Rat) : ∀ (l pre : List Rat) (s : Gain), s.score = weigh w pre →
    gainLoop w pre.length l s = ⟨weigh w (pre ++ l), kept w 5 pre l s.at05, kept w 10 pre l s.at10, kept w 20 pre l s.at20⟩ := by
  intro l
  induction l with
  | nil =>
    intro pre s hs
    have h0 : ∀ d old, kept w d pre [] old = old := by
      intro d old
      unfold kept
      rw [if_neg (by simp only [List.append_nil]; omega)]
    simp only [gainLoop, h0, List.append_nil, ← hs]
  | cons x l ih =>
    intro pre s hs
    have hsc : s.score + x * w pre.length = weigh w (pre ++ [x]) := by rw [weigh_append, hs]
    rw [gainLoop, hsc]
    have key := ih (pre ++ [x]) ⟨weigh w (pre ++ [x]), if pre.length = 4 then weigh w (pre ++ [x]) else s.at05,
      if pre.length = 9 then weigh w (pre ++ [x]) else s.at10, if pre.length = 19 then weigh w (pre ++ [x]) else s.at20⟩ rfl
    rw [show (pre ++ [x]).length = pre.length + 1 by simp] at key
    rw [key, ← kept_step w 5 (by decide) pre l x, ← kept_step w 10 (by decide) pre l x, ← kept_step w 20 (by decide) pre l x]
    simp only [List.append_assoc, List.cons_append, List.nil_append]

theorem kept_finish (w : Nat → Rat) (d : Nat) (hd : 0 < d) (l : List Rat) :
    (if l.length < d then weigh w l else kept w d [] l 0) = weigh w (l.take d) := by
  unfold kept
  rw [List.nil_append]
  by_cases h : l.length < d
  · rw [if_pos h, List.take_of_length_le (by omega)]
  · rw [if_neg h, if_pos ⟨by simpa using hd, by omega⟩]

theorem gains_eq (w : Nat → Rat) (l : List Rat) (n : Nat) (hn : n = l.length) : (gainLoop w 0 l {}).finish n =
    ⟨weigh w l, weigh w (l.take 5), weigh w (l.take 10), weigh w (l.take 20)⟩ := by
  subst hn
  have := gainLoop_eq w l [] {} rfl
  rw [List.length_nil, List.nil_append] at this
  rw [this]
  simp only [Gain.finish, kept_finish w 5 (by decide), kept_finish w 10 (by decide), kept_finish w 20 (by decide)]

theorem gain_score (w : Nat → Rat) (l : List Rat) : (gainLoop w 0 l {}).score = weigh w l := by
  have := gainLoop_eq w l [] {} rfl
  rw [List.length_nil, List.nil_append] at this
  rw [this]

/-! ### all grades zero -/

theorem weigh_pos {w : Nat → Rat} (hw : Weights w) {x : Rat} {l : List Rat} (hx : 0 < x) (h : ∀ y ∈ l, 0 ≤ y) : 0 < weigh w (x :: l) := by
  have h1 := weigh_nonneg (w := w) l _ hw.tail h
  have h2 := Rat.mul_pos hx (hw.pos 0)
  rw [weigh]
  grind

theorem weigh_zeros : ∀ (l : List Rat) (w : Nat → Rat), (∀ x ∈ l, x = 0) → weigh w l = 0 := by
  intro l
  induction l with
  | nil => intro w _; rfl
  | cons x l ih =>
    intro w h
    rw [weigh, h x (List.mem_cons_self ..), ih _ fun y hy => h y (List.mem_cons_of_mem _ hy)]
    grind

/-- what the ideal ranking gains is zero only when nothing is relevant -/
theorem ideal_zero {w : Nat → Rat} (hw : Weights w) {s : List Rat} (hs : s.Pairwise (· ≥ ·)) (h0 : ∀ x ∈ s, 0 ≤ x)
    (hz : weigh w s = 0) : ∀ x ∈ s, x = 0 := by
  cases s with
  | nil => intro x hx; cases hx
  | cons y s =>
    rw [List.pairwise_cons] at hs
    have hy := h0 y (List.mem_cons_self ..)
    have hy0 : y = 0 := by
      apply Classical.byContradiction
      intro hne
      have := weigh_pos hw (x := y) (l := s) (by grind) fun z hz => h0 z (List.mem_cons_of_mem _ hz)
      grind
    intro x hx
    rcases List.mem_cons.1 hx with rfl | hx
    · exact hy0
    · have h1 := hs.1 x hx
      have h2 := h0 x (List.mem_cons_of_mem _ hx)
      grind

end Verif.Eval
