import Verif.Eval.Model
import Verif.Eval.Spec
/-
  The measures of a ranking: lemmas.
-/
namespace Verif.Eval

/-! ### grades -/

theorem gradeAt_eq {qrels : Qrels} {g : Int → Rat} (hg : Judges qrels g) (p : Int) : gradeAt qrels p = g p := by
  unfold gradeAt
  cases h : qrels.find? fun x => x.1 == p with
  | none =>
    have := List.find?_eq_none.1 h
    refine (hg.else0 p fun x hx => ?_).symm
    have := this _ hx
    simp at this
  | some x =>
    have h1 := List.mem_of_find?_eq_some h
    have h2 := List.find?_some h
    simp only [beq_iff_eq] at h2
    subst h2
    exact (hg.here _ _ h1).symm

theorem map_gradeAt {qrels : Qrels} {g : Int → Rat} (hg : Judges qrels g) (l : List Int) :
    l.map (gradeAt qrels) = l.map g := List.map_congr_left fun p _ => gradeAt_eq hg p

theorem judges_nonneg {qrels : Qrels} {g : Int → Rat} (hg : Judges qrels g) (h0 : ∀ x ∈ qrels, 0 ≤ x.2) (p : Int) : 0 ≤ g p := by
  by_cases h : ∃ x, (p, x) ∈ qrels
  · obtain ⟨x, hx⟩ := h
    rw [hg.here p x hx]
    exact h0 _ hx
  · rw [hg.else0 p fun x hx => h ⟨x, hx⟩]
    exact Rat.le_refl

theorem countRels_go (qrels : Qrels) : ∀ c : Rat,
    qrels.foldl (fun count x => if x.2 > 0 then count + 1 else count) c = c + (relevant qrels : Nat) := by
  induction qrels with
  | nil => intro c; simp [relevant, Rat.add_zero]
  | cons x l ih =>
    intro c
    rw [List.foldl_cons, ih]
    by_cases hx : x.2 > 0
    · simp only [hx, if_true, relevant, List.filter_cons, decide_true, List.length_cons]
      grind
    · simp only [hx, if_false, relevant, List.filter_cons, decide_false]
      simp

theorem countRels_eq (qrels : Qrels) : countRels qrels = (relevant qrels : Nat) := by
  rw [countRels, countRels_go, Rat.zero_add]

/-! ### sums -/

theorem sum_le_of_subset {α : Type} [DecidableEq α] (f : α → Rat) (hf : ∀ a, 0 ≤ f a) : ∀ (l K : List α), l.Nodup →
    (∀ a ∈ l, a ∉ K → f a = 0) → (l.map f).sum ≤ (K.map f).sum := by
  intro l
  induction l with
  | nil =>
    intro K _ _
    induction K with
    | nil => exact Rat.le_refl
    | cons a K ih =>
      have := hf a
      simp only [List.map_cons, List.sum_cons, List.map_nil, List.sum_nil] at ih ⊢
      grind
  | cons a l ih =>
    intro K hl h
    rw [List.nodup_cons] at hl
    by_cases ha : a ∈ K
    · have hp := (List.perm_cons_erase ha).map f
      have hs : (K.map f).sum = f a + ((K.erase a).map f).sum := by
        rw [sum_perm hp]; simp
      rw [hs, List.map_cons, List.sum_cons]
      have := ih (K.erase a) hl.2 fun b hb hn => h b (List.mem_cons_of_mem _ hb) fun hk =>
        hn ((List.mem_erase_of_ne (fun e => hl.1 (by rw [← e]; exact hb))).2 hk)
      grind
    · have h0 := h a (List.mem_cons_self ..) ha
      rw [List.map_cons, List.sum_cons, h0, Rat.zero_add]
      exact ih K hl.2 fun b hb => h b (List.mem_cons_of_mem _ hb)
where
  sum_perm {l m : List Rat} (h : l.Perm m) : l.sum = m.sum := by
    induction h with
    | nil => rfl
    | cons x _ ih => simp [ih]
    | swap x y l => simp only [List.sum_cons]; grind
    | trans _ _ h1 h2 => rw [h1, h2]

theorem sum_perm {l m : List Rat} (h : l.Perm m) : l.sum = m.sum := sum_le_of_subset.sum_perm h

theorem sum_indicator {α : Type} (q : α → Prop) [DecidablePred q] (l : List α) :
    (l.map fun a => if q a then (1 : Rat) else 0).sum = ((l.filter fun a => q a).length : Nat) := by
  induction l with
  | nil => rfl
  | cons a l ih =>
    rw [List.map_cons, List.sum_cons, ih, List.filter_cons]
    by_cases h : q a
    · simp only [h, if_true, decide_true, List.length_cons]; grind
    · simp only [h, if_false, decide_false, Rat.zero_add]; simp

theorem relevant_eq {qrels : Qrels} {g : Int → Rat} (hg : Judges qrels g) :
    relevant qrels = ((qrels.map (·.1)).filter fun p => g p > 0).length := by
  rw [relevant, List.filter_map, List.length_map]
  congr 1
  apply List.filter_congr
  intro x hx
  simp only [Function.comp, hg.here x.1 x.2 hx]

theorem hits_le {qrels : Qrels} {g : Int → Rat} (hg : Judges qrels g) {l : List Int} (hl : l.Nodup) (k : Nat) :
    hits g k l ≤ relevant qrels := by
  have h := sum_le_of_subset (fun p => if g p > 0 then (1 : Rat) else 0) (by intro a; split <;> decide)
    (l.take k) (qrels.map (·.1)) (hl.sublist (List.take_sublist k l)) (by
      intro p _ hp
      have : g p = 0 := hg.else0 p fun x hx => hp (List.mem_map.2 ⟨_, hx, rfl⟩)
      simp [this])
  rw [sum_indicator (fun p => g p > 0), sum_indicator (fun p => g p > 0), ← relevant_eq hg] at h
  exact Rat.natCast_le_natCast.1 h

/-! ### the measures of trec_eval -/

/-- `hits` when `pre` was seen before -/
theorem hits_append (g : Int → Rat) (pre : List Int) (p : Int) :
    (((pre ++ [p]).filter fun p => g p > 0).length : Rat) =
      ((pre.filter fun p => g p > 0).length : Nat) + (if g p > 0 then (1 : Rat) else 0) := by
  rw [List.filter_append, List.length_append]
  by_cases h : g p > 0
  · simp [h]
  · simp [h, Rat.add_zero]

/-- the sum of precisions from place `pre.length` on -/
def precFrom (g : Int → Rat) : List Int → List Int → Rat
  | _, [] => 0
  | pre, p :: l => (if g p > 0 then (((pre ++ [p]).filter fun p => g p > 0).length : Rat) / ((pre.length + 1 : Nat) : Rat) else 0)
      + precFrom g (pre ++ [p]) l

theorem precFrom_eq (g : Int → Rat) : ∀ (l pre : List Int), precFrom g pre l =
    ((List.range l.length).map fun i => if g ((pre ++ l).getD (pre.length + i) 0) > 0
      then (hits g (pre.length + i + 1) (pre ++ l) : Rat) / ((pre.length + i + 1 : Nat) : Rat) else 0).sum := by
  intro l
  induction l with
  | nil => intro pre; rfl
  | cons p l ih =>
    intro pre
    rw [precFrom, ih, List.length_cons, List.range_succ_eq_map, List.map_cons, List.sum_cons, List.map_map]
    congr 1
    · simp only [Nat.add_zero, hits]
      have h1 : (pre ++ p :: l).getD pre.length 0 = p := by simp [List.getD]
      have h2 : (pre ++ p :: l).take (pre.length + 1) = pre ++ [p] := by
        rw [List.take_append, List.take_of_length_le (by omega)]; simp
      simp only [h1, h2]
    · congr 1
      apply List.map_congr_left
      intro i _
      simp only [Function.comp, List.length_append, List.length_cons, List.length_nil, List.append_assoc, List.cons_append, List.nil_append,
        Nat.zero_add, Nat.succ_eq_add_one]
      rw [show pre.length + 1 + i = pre.length + (i + 1) by omega]

theorem precisions_eq (g : Int → Rat) (l : List Int) : precisions g l = precFrom g [] l := by
  rw [precFrom_eq]
  simp [precisions]

theorem precFrom_nonneg (g : Int → Rat) : ∀ (l pre : List Int), 0 ≤ precFrom g pre l := by
  intro l
  induction l with
  | nil => intro pre; exact Rat.le_refl
  | cons p l ih =>
    intro pre
    have h1 := ih (pre ++ [p])
    have h2 : (0 : Rat) ≤ (((pre ++ [p]).filter fun p => g p > 0).length : Rat) / ((pre.length + 1 : Nat) : Rat) := by
      rw [Rat.div_def]
      exact Rat.mul_nonneg (Rat.natCast_nonneg) (Rat.le_of_lt (Rat.inv_pos.2 (Rat.natCast_pos.2 (by omega))))
    rw [precFrom]
    split <;> grind

theorem ratio_le_one {a b : Nat} (h : a ≤ b) : (a : Rat) / (b : Rat) ≤ 1 := by
  rcases Nat.eq_zero_or_pos b with rfl | hb
  · simp [Rat.div_def]
    decide
  · have hb' : (0 : Rat) < b := Rat.natCast_pos.2 hb
    rw [Rat.div_def]
    have h1 : (a : Rat) ≤ b := Rat.natCast_le_natCast.2 h
    have h2 := Rat.mul_le_mul_of_nonneg_right h1 (Rat.le_of_lt (Rat.inv_pos.2 hb'))
    rw [Rat.mul_inv_cancel _ (by grind)] at h2
    exact h2

theorem ratio_nonneg (a b : Nat) : (0 : Rat) ≤ (a : Rat) / (b : Rat) := by
  rcases Nat.eq_zero_or_pos b with rfl | hb
  · simp [Rat.div_def]
  · rw [Rat.div_def]
    exact Rat.mul_nonneg (Rat.natCast_nonneg) (Rat.le_of_lt (Rat.inv_pos.2 (Rat.natCast_pos.2 hb)))

theorem precFrom_le (g : Int → Rat) : ∀ (l pre : List Int), precFrom g pre l ≤ ((l.filter fun p => g p > 0).length : Nat) := by
  intro l
  induction l with
  | nil => intro pre; exact Rat.le_refl
  | cons p l ih =>
    intro pre
    have h1 := ih (pre ++ [p])
    have h2 : (((pre ++ [p]).filter fun p => g p > 0).length : Rat) / ((pre.length + 1 : Nat) : Rat) ≤ 1 := by
      apply ratio_le_one
      have := List.length_filter_le (fun p => decide (g p > 0)) (pre ++ [p])
      simpa using this
    rw [precFrom, List.filter_cons]
    by_cases h : g p > 0
    · simp only [h, if_true, decide_true, List.length_cons]
      grind
    · simp only [h, if_false, decide_false]
      simpa [Rat.zero_add] using h1


theorem take_of_length {α : Type} {l m : List α} {k : Nat} (h : l.length = k) : (l ++ m).take k = l := by
  rw [List.take_append, List.take_of_length_le (by omega)]
  simp [show k - l.length = 0 by omega]

/-- what is stored for depth `d` after `l`, when `pre` had been seen -/
def stored (g : Int → Rat) (d : Nat) (pre l : List Int) (old : Rat) : Rat :=
  if pre.length < d ∧ d ≤ (pre ++ l).length then (hits g d (pre ++ l) : Rat) / d else old

theorem stored_step (g : Int → Rat) (d : Nat) (pre l : List Int) (p : Int) (old seen : Rat)
    (hs : seen = (((pre ++ [p]).filter fun p => g p > 0).length : Nat)) :
    stored g d (pre ++ [p]) l (if pre.length + 1 = d then seen / d else old) = stored g d pre (p :: l) old := by
  unfold stored
  rw [List.append_assoc, List.cons_append, List.nil_append]
  by_cases h : pre.length + 1 = d
  · rw [if_neg (by simp only [List.length_append, List.length_cons, List.length_nil]; omega), if_pos h,
      if_pos ⟨by omega, by simp only [List.length_append, List.length_cons]; omega⟩, hs]
    have : (pre ++ p :: l).take d = pre ++ [p] := by
      rw [show pre ++ p :: l = (pre ++ [p]) ++ l by simp]
      exact take_of_length (by simpa using h)
    rw [hits, this]
  · rw [if_neg h]
    by_cases h2 : pre.length < d ∧ d ≤ (pre ++ p :: l).length
    · rw [if_pos h2, if_pos ⟨by simp only [List.length_append, List.length_cons, List.length_nil]; omega, h2.2⟩]
    · rw [if_neg h2, if_neg fun h3 => h2 ⟨by have := h3.1; simp only [List.length_append, List.length_cons, List.length_nil] at this; omega, h3.2⟩]

theorem trecLoop_eq {qrels : Qrels} {g : Int → Rat} (hg : Judges qrels g) : ∀ (l pre : List Int) (s : Trec),
    s.seen = ((pre.filter fun p => g p > 0).length : Nat) →
    (trecLoop qrels (pre.length + 1) l s).seen = (((pre ++ l).filter fun p => g p > 0).length : Nat) ∧
    (trecLoop qrels (pre.length + 1) l s).ap = s.ap + precFrom g pre l ∧
    (trecLoop qrels (pre.length + 1) l s).p05 = stored g 5 pre l s.p05 ∧
    (trecLoop qrels (pre.length + 1) l s).p10 = stored g 10 pre l s.p10 ∧
    (trecLoop qrels (pre.length + 1) l s).p20 = stored g 20 pre l s.p20 := by
  intro l
  induction l with
  | nil =>
    intro pre s hs
    have h0 : ∀ d old, stored g d pre [] old = old := by
      intro d old
      unfold stored
      rw [if_neg (by simp only [List.append_nil]; omega)]
    simp only [trecLoop, h0, precFrom, List.append_nil, Rat.add_zero, hs, and_self]
  | cons p l ih =>
    intro pre s hs
    have hrank : (pre ++ [p]).length = pre.length + 1 := by simp
    have hseen : (s.score (pre.length + 1) (g p)).seen = (((pre ++ [p]).filter fun p => g p > 0).length : Nat) := by
      rw [hits_append, ← hs]
      unfold Trec.score
      split
      · rfl
      · rw [Rat.add_zero]
    have hap : (s.score (pre.length + 1) (g p)).ap = s.ap +
        (if g p > 0 then (((pre ++ [p]).filter fun p => g p > 0).length : Rat) / ((pre.length + 1 : Nat) : Rat) else 0) := by
      rw [← hseen]
      unfold Trec.score
      split
      · rfl
      · rw [Rat.add_zero]
    have hp : (s.score (pre.length + 1) (g p)).p05 = s.p05 ∧ (s.score (pre.length + 1) (g p)).p10 = s.p10 ∧
        (s.score (pre.length + 1) (g p)).p20 = s.p20 := by
      unfold Trec.score
      split <;> exact ⟨rfl, rfl, rfl⟩
    have key := ih (pre ++ [p]) ((s.score (pre.length + 1) (g p)).cut (pre.length + 1)) hseen
    rw [hrank, List.append_assoc, List.cons_append, List.nil_append] at key
    rw [trecLoop, gradeAt_eq hg]
    refine ⟨key.1, ?_, ?_, ?_, ?_⟩
    · rw [key.2.1, precFrom, ← Rat.add_assoc, ← hap]
      rfl
    · rw [key.2.2.1, ← stored_step g 5 pre l p s.p05 _ hseen, ← hp.1]
      rfl
    · rw [key.2.2.2.1, ← stored_step g 10 pre l p s.p10 _ hseen, ← hp.2.1]
      rfl
    · rw [key.2.2.2.2, ← stored_step g 20 pre l p s.p20 _ hseen, ← hp.2.2]
      rfl

theorem stored_finish (g : Int → Rat) (d : Nat) (hd : 0 < d) (l : List Int) (seen : Rat)
    (hs : seen = ((l.filter fun p => g p > 0).length : Nat)) :
    (if l.length + 1 ≤ d then seen / d else stored g d [] l 0) = (hits g d l : Rat) / d := by
  unfold stored
  rw [List.nil_append]
  by_cases h : l.length + 1 ≤ d
  · rw [if_pos h, hs, hits, List.take_of_length_le (by omega)]
  · rw [if_neg h, if_pos ⟨by simpa using hd, by omega⟩]

theorem no_hits {qrels : Qrels} {g : Int → Rat} (hg : Judges qrels g) (h : relevant qrels = 0) (k : Nat) (l : List Int) : hits g k l = 0 := by
  rw [hits, List.length_eq_zero_iff, List.filter_eq_nil_iff]
  intro p _ hp
  rw [relevant, List.length_eq_zero_iff, List.filter_eq_nil_iff] at h
  by_cases hx : ∃ x, (p, x) ∈ qrels
  · obtain ⟨x, hx⟩ := hx
    have := h _ hx
    rw [hg.here p x hx] at hp
    exact this hp
  · rw [hg.else0 p fun x hx' => hx ⟨x, hx'⟩] at hp
    revert hp
    decide

theorem hits_all (g : Int → Rat) (l : List Int) : hits g l.length l = (l.filter fun p => g p > 0).length := by
  rw [hits, List.take_of_length_le (Nat.le_refl _)]

theorem precFrom_none {g : Int → Rat} : ∀ (l pre : List Int), (l.filter fun p => g p > 0).length = 0 → precFrom g pre l = 0 := by
  intro l pre h
  have h1 := precFrom_le g l pre
  have h2 := precFrom_nonneg g l pre
  rw [h] at h1
  exact Rat.le_antisymm h1 h2

theorem trecEval_ok {qrels : Qrels} {g : Int → Rat} (hg : Judges qrels g) (l : List Int) :
    (trecEval qrels l).ap = precisions g l / (relevant qrels : Nat) ∧
    (trecEval qrels l).p05 = (hits g 5 l : Rat) / 5 ∧
    (trecEval qrels l).p10 = (hits g 10 l : Rat) / 10 ∧
    (trecEval qrels l).p20 = (hits g 20 l : Rat) / 20 ∧
    (trecEval qrels l).ret = (l.length : Nat) ∧
    (trecEval qrels l).rel = (relevant qrels : Nat) ∧
    (trecEval qrels l).relRet = (hits g l.length l : Nat) ∧
    (trecEval qrels l).precision = (hits g l.length l : Rat) / (l.length : Nat) ∧
    (trecEval qrels l).recall = (hits g l.length l : Rat) / (relevant qrels : Nat) := by
  have hz : ∀ x : Rat, (0 : Rat) / x = 0 := fun x => by rw [Rat.div_def, Rat.zero_mul]
  unfold trecEval
  simp only [countRels_eq]
  by_cases h : (0 : Rat) < (relevant qrels : Nat) ∧ l.length > 0
  · have key := trecLoop_eq hg l [] {} (by rfl)
    simp only [List.length_nil, Nat.zero_add, List.nil_append, Rat.zero_add] at key
    obtain ⟨k1, k2, k3, k4, k5⟩ := key
    have hl : (0 : Rat) < (l.length : Nat) := Rat.natCast_pos.2 h.2
    have hR : (relevant qrels : Rat) > 0 := h.1
    rw [if_pos (show (relevant qrels : Rat) > 0 ∧ l.length > 0 from h), hits_all, precisions_eq]
    simp only [Trec.finish, if_pos hl, if_pos hR, k1, k2, k3, k4, k5, gt_iff_lt, true_and, and_true]
    refine ⟨?_, ?_, ?_⟩
    · exact stored_finish g 5 (by decide) l _ rfl
    · exact stored_finish g 10 (by decide) l _ rfl
    · exact stored_finish g 20 (by decide) l _ rfl
  · have hh : ∀ k, hits g k l = 0 := by
      intro k
      by_cases hR : relevant qrels = 0
      · exact no_hits hg hR k l
      · have : l.length = 0 := by
          apply Classical.byContradiction
          intro hl
          exact h ⟨Rat.natCast_pos.2 (by omega), by omega⟩
        rw [List.length_eq_zero_iff] at this
        subst this
        simp [hits]
    have hp : precisions g l = 0 := by
      rw [precisions_eq]
      exact precFrom_none l [] (by rw [← hits_all]; exact hh _)
    rw [if_neg (show ¬((relevant qrels : Rat) > 0 ∧ l.length > 0) from h)]
    have h00 : ((0 : Nat) : Rat) = 0 := rfl
    simp only [hh, hp, h00, hz, ite_self, and_self]

end Verif.Eval
