import Verif.Feedback.Spec
namespace Verif.Feedback
variable {Word : Type} [DecidableEq Word]

theorem get_bump (w : Word) (v : Rat) : ∀ (m : Table Word) (x : Word),
    get (bump m w v) x = if x = w then some ((get m w).getD 0 + v) else get m x
  | [], x => by
    by_cases h : x = w
    · subst h; simp [bump, get, Rat.zero_add]
    · have : ¬ w = x := fun e => h e.symm
      simp [bump, get, h, this]
  | a :: l, x => by
    have ih := get_bump w v l x
    unfold bump
    by_cases ha : a.1 = w
    · rw [if_pos ha]
      by_cases h : x = w
      · subst h; simp [get, ha]
      · have : ¬ a.1 = x := by rw [ha]; exact fun e => h e.symm
        simp [get, h, this]
    · rw [if_neg ha]
      by_cases h : a.1 = x
      · have hx : ¬ x = w := by rw [← h]; exact ha
        simp [get, h, hx]
      · have e1 : get (a :: bump l w v) x = get (bump l w v) x := by simp [get, h]
        have e2 : get (a :: l) x = get l x := by simp [get, h]
        have e3 : get (a :: l) w = get l w := by simp [get, ha]
        rw [e1, e2, e3, ih]

theorem keys_bump (w : Word) (v : Rat) : ∀ (m : Table Word),
    (bump m w v).map (·.1) = if w ∈ m.map (·.1) then m.map (·.1) else m.map (·.1) ++ [w]
  | [] => by simp [bump]
  | a :: l => by
    have ih := keys_bump w v l
    unfold bump
    by_cases ha : a.1 = w
    · simp [ha]
    · have : ¬ w = a.1 := fun e => ha e.symm
      rw [if_neg ha, List.map_cons, ih, List.map_cons]
      by_cases h : w ∈ l.map (·.1)
      · rw [if_pos h, if_pos (List.mem_cons_of_mem _ h)]
      · rw [if_neg h, if_neg (by rw [List.mem_cons]; rintro (e | e); exact this e; exact h e)]; rfl

theorem nodup_bump {m : Table Word} (h : (m.map (·.1)).Nodup) (w : Word) (v : Rat) : ((bump m w v).map (·.1)).Nodup := by
  rw [keys_bump]
  split
  · exact h
  · rename_i hn
    rw [List.nodup_append]
    refine ⟨h, by simp, ?_⟩
    intro a ha b hb e
    simp at hb; subst hb; subst e; exact hn ha

/-- the sum of the numbers for a word -/
def total (l : List (Word × Rat)) (w : Word) : Rat := ((l.filter fun x => x.1 = w).map (·.2)).sum

def addAll (m : Table Word) (l : List (Word × Rat)) : Table Word := l.foldl (fun m x => bump m x.1 x.2) m

theorem get_addAll : ∀ (l : List (Word × Rat)) (m : Table Word) (w : Word),
    get (addAll m l) w = if w ∈ l.map (·.1) then some ((get m w).getD 0 + total l w) else get m w
  | [], m, w => by simp [addAll]
  | a :: l, m, w => by
    show get (addAll (bump m a.1 a.2) l) w = _
    rw [get_addAll l, get_bump]
    by_cases h : w = a.1
    · subst h
      have ht : total (a :: l) a.1 = a.2 + total l a.1 := by simp [total]
      rw [ht]
      simp only [List.map_cons, List.mem_cons, true_or, if_true, Option.getD_some]
      by_cases hl : a.1 ∈ l.map (·.1)
      · rw [if_pos hl, Rat.add_assoc]
      · rw [if_neg hl]
        have h0 : total l a.1 = 0 := by
          unfold total
          rw [List.filter_eq_nil_iff.mpr]; rfl
          intro x hx
          simp only [decide_eq_true_eq]
          intro e; exact hl (List.mem_map.mpr ⟨x, hx, e⟩)
        rw [h0, Rat.add_zero]
    · have ht : total (a :: l) w = total l w := by
        have : ¬ a.1 = w := fun e => h e.symm
        simp [total, this]
      rw [ht, if_neg h]
      simp only [List.map_cons, List.mem_cons, h, false_or]

theorem nodup_addAll : ∀ (l : List (Word × Rat)) {m : Table Word}, (m.map (·.1)).Nodup → ((addAll m l).map (·.1)).Nodup
  | [], _, h => h
  | a :: l, _, h => nodup_addAll l (nodup_bump h a.1 a.2)

theorem gather_eq (docs : List (List (Word × Rat))) : gather docs = addAll [] docs.flatten := by
  unfold gather addAll
  rw [List.foldl_flatten]

theorem get_none_iff (m : Table Word) (w : Word) : get m w = none ↔ w ∉ m.map (·.1) := by
  simp only [get, Option.map_eq_none_iff, List.find?_eq_none, List.mem_map, decide_eq_true_eq]
  constructor
  · rintro h ⟨x, hx, e⟩; exact h x hx e
  · intro h x hx e; exact h ⟨x, hx, e⟩

theorem get_of_mem {m : Table Word} (h : (m.map (·.1)).Nodup) {x : Word × Rat} (hx : x ∈ m) : get m x.1 = some x.2 := by
  induction m with
  | nil => cases hx
  | cons a l ih =>
    rw [List.map_cons, List.nodup_cons] at h
    rcases List.mem_cons.mp hx with e | e
    · subst e; simp [get]
    · have : ¬ a.1 = x.1 := fun e' => h.1 (e' ▸ List.mem_map.mpr ⟨x, e, rfl⟩)
      have := ih h.2 e
      simp [get] at this ⊢
      simp [*]

theorem gather_get (docs : List (List (Word × Rat))) (w : Word) :
    get (gather docs) w = if w ∈ docs.flatten.map (·.1) then some (total docs.flatten w) else none := by
  rw [gather_eq, get_addAll]
  simp [get, Rat.zero_add]

theorem gather_nodup (docs : List (List (Word × Rat))) : ((gather docs).map (·.1)).Nodup := by
  rw [gather_eq]; exact nodup_addAll _ (by simp)

theorem mem_unseen : ∀ (l seen : List Word) (w : Word), w ∈ unseen seen l ↔ w ∈ l ∧ w ∉ seen
  | [], seen, w => by simp [unseen]
  | a :: l, seen, w => by
    unfold unseen
    split
    · rename_i h
      rw [mem_unseen l seen w, List.mem_cons]
      rw [List.contains_iff_mem] at h
      constructor
      · rintro ⟨h1, h2⟩; exact ⟨.inr h1, h2⟩
      · rintro ⟨h1 | h1, h2⟩
        · subst h1; exact absurd h h2
        · exact ⟨h1, h2⟩
    · rename_i h
      have h : ¬ a ∈ seen := by intro e; exact h (List.contains_iff_mem.mpr e)
      rw [List.mem_cons, mem_unseen l, List.mem_cons, List.mem_cons]
      constructor
      · rintro (h1 | ⟨h1, h2⟩)
        · subst h1; exact ⟨.inl rfl, h⟩
        · exact ⟨.inr h1, fun e => h2 (.inr e)⟩
      · rintro ⟨h1 | h1, h2⟩
        · exact .inl h1
        · by_cases e : w = a
          · exact .inl e
          · exact .inr ⟨h1, by rintro (e' | e'); exact e e'; exact h2 e'⟩

theorem nodup_unseen : ∀ (l seen : List Word), (unseen seen l).Nodup
  | [], _ => by simp [unseen]
  | a :: l, seen => by
    unfold unseen
    split
    · exact nodup_unseen l seen
    · rw [List.nodup_cons]
      exact ⟨fun h => ((mem_unseen _ _ _).mp h).2 (List.mem_cons_self ..), nodup_unseen l _⟩

theorem total_append (a b : List (Word × Rat)) (w : Word) : total (a ++ b) w = total a w + total b w := by
  simp [total, List.sum_append]

/-- the different words of a text each get a number: that of a word is there once -/
theorem total_doc (d : List Word) (hd : d.Nodup) (g : Word → Rat) (w : Word) :
    total (d.map fun x => (x, g x)) w = if w ∈ d then g w else 0 := by
  induction d with
  | nil => simp [total]
  | cons a l ih =>
    rw [List.nodup_cons] at hd
    have e : total ((a :: l).map fun x => (x, g x)) w = (if a = w then g a else 0) + total (l.map fun x => (x, g x)) w := by
      by_cases h : a = w
      · simp [total, h]
      · simp [total, h, Rat.zero_add]
    rw [e, ih hd.2]
    by_cases h : a = w
    · subst h; simp [hd.1, Rat.add_zero]
    · have : ¬ w = a := fun e => h e.symm
      simp [h, this, Rat.zero_add]

theorem total_docs {δ : Type} (words : δ → List Word) (hd : ∀ d, (words d).Nodup) (g : δ → Word → Rat) (w : Word) :
    ∀ docs : List δ, total (docs.map fun d => (words d).map fun x => (x, g d x)).flatten w =
      ((docs.filter fun d => (words d).contains w).map fun d => g d w).sum
  | [] => by simp [total]
  | d :: l => by
    rw [List.map_cons, List.flatten_cons, total_append, total_doc _ (hd d), total_docs words hd g w l]
    by_cases h : w ∈ words d
    · simp [h]
    · simp [h, Rat.zero_add]

theorem mem_docs {δ : Type} (words : δ → List Word) (g : δ → Word → Rat) (w : Word) (docs : List δ) :
    w ∈ (docs.map fun d => (words d).map fun x => (x, g d x)).flatten.map (·.1) ↔ ∃ d ∈ docs, w ∈ words d := by
  simp only [List.mem_map, List.mem_flatten]
  constructor
  · rintro ⟨x, ⟨y, ⟨d, hd, rfl⟩, hx⟩, rfl⟩
    obtain ⟨z, hz, rfl⟩ := List.mem_map.mp hx
    exact ⟨d, hd, hz⟩
  · rintro ⟨d, hd, hw⟩
    exact ⟨(w, g d w), ⟨_, ⟨d, hd, rfl⟩, List.mem_map.mpr ⟨w, hw, rfl⟩⟩, rfl⟩

theorem sum_ones {δ : Type} (l : List δ) : (l.map fun _ => (1 : Rat)).sum = (l.length : Nat) := by
  induction l with
  | nil => rfl
  | cons a l ih =>
    rw [List.map_cons, List.sum_cons, ih, List.length_cons]
    have : ((l.length + 1 : Nat) : Rat) = (l.length : Nat) + 1 := by simp
    rw [this, Rat.add_comm]

theorem filter_unseen (texts : List (List Word)) (w : Word) :
    (texts.filter fun t => (unseen [] t).contains w) = texts.filter fun t => t.contains w := by
  apply List.filter_congr
  intro t _
  rw [Bool.eq_iff_iff, List.contains_iff_mem, List.contains_iff_mem, mem_unseen]
  simp

theorem holders_pos {texts : List (List Word)} {w : Word} : 0 < holders texts w ↔ ∃ t ∈ texts, w ∈ t := by
  simp only [holders, List.length_pos_iff_exists_mem, List.mem_filter, List.contains_iff_mem]

/-- the table of frequencies -/
theorem frequencies_get (texts : List (List Word)) (w : Word) :
    get (gather (texts.map fun t => (unseen [] t).map fun x => (x, (1 : Rat)))) w =
      if 0 < holders texts w then some ((holders texts w : Nat) : Rat) else none := by
  rw [gather_get, total_docs (fun t => unseen [] t) (fun t => nodup_unseen _ _) (fun _ _ => (1 : Rat)) w texts, filter_unseen, sum_ones]
  have e := mem_docs (fun t => unseen [] t) (fun _ _ => (1 : Rat)) w texts
  have e2 : (∃ d ∈ texts, w ∈ unseen [] d) ↔ 0 < holders texts w := by
    rw [holders_pos]; simp [mem_unseen]
  by_cases h : 0 < holders texts w
  · rw [if_pos h, if_pos (e.mpr (e2.mpr h))]; rfl
  · rw [if_neg h, if_neg fun h' => h (e2.mp (e.mp h'))]

/-- the table of expectations -/
theorem expectations_get (E : Env Word) (texts : List (List Word)) (w : Word) :
    (get (gather (texts.map fun t => (unseen [] t).map fun x => (x, expectation E x t.length))) w).getD 0 = expected E texts w := by
  rw [gather_get, total_docs (fun t => unseen [] t) (fun t => nodup_unseen _ _) (fun t x => expectation E x t.length) w texts, filter_unseen]
  have e := mem_docs (fun t => unseen [] t) (fun t x => expectation E x t.length) w texts
  split
  · rfl
  · rename_i h
    have : texts.filter (fun t => t.contains w) = [] := by
      rw [List.filter_eq_nil_iff]
      intro t ht hc
      rw [List.contains_iff_mem] at hc
      exact h (e.mpr ⟨t, ht, by rw [mem_unseen]; exact ⟨hc, by simp⟩⟩)
    rw [expected, this]; rfl

theorem best_of {E : Env Word} (hE : Sorts E) {score : Word → Rat} {n : Nat} {good : Word → Prop} {l : List Word} (hl : l.Nodup)
    (hg : ∀ w, w ∈ l ↔ good w) : BestOf score n good (best E score n l) := by
  obtain ⟨h1, h2⟩ := hE score l
  refine ⟨((h1.nodup_iff).mpr hl).sublist (List.take_sublist ..), fun w hw => (hg w).mp (h1.mem_iff.mp (List.mem_of_mem_take hw)),
    by simp [best]; omega, h2.sublist (List.take_sublist ..), ?_⟩
  intro w hw hn
  have hm : w ∈ E.sort score l := h1.mem_iff.mpr ((hg w).mpr hw)
  have hd : w ∈ (E.sort score l).drop n := by
    rw [← List.take_append_drop n (E.sort score l), List.mem_append] at hm
    exact hm.resolve_left hn
  have hlen : n ≤ (E.sort score l).length := by
    rcases Nat.lt_or_ge (E.sort score l).length n with h | h
    · rw [List.drop_of_length_le (by omega)] at hd; cases hd
    · exact h
  refine ⟨by simp [best]; omega, fun v hv => ?_⟩
  have h3 := h2
  rw [← List.take_append_drop n (E.sort score l), List.pairwise_append] at h3
  exact h3.2.2 v hv w hd

theorem expand_gains : ∀ (l : List Word) (hl : l.Nodup) (extra : Word → Rat) (q : Query Word),
    Gains l extra q (expand q (l.map fun w => (w, extra w)))
  | [], _, extra, q => fun w => by simp [expand]
  | a :: l, hl, extra, q => by
    rw [List.nodup_cons] at hl
    intro w
    have ih := expand_gains l hl.2 extra
      (fun w => if w = a then some (match q a with | some v => v + extra a | none => extra a) else q w) w
    refine Eq.trans (show expand q ((a :: l).map fun w => (w, extra w)) w = _ from ih) ?_
    by_cases h : w = a
    · subst h
      simp only [hl.1, if_false, if_true, List.mem_cons, true_or]
      cases q w with
      | none => simp [Rat.zero_add]
      | some v => simp
    · simp [h]

theorem mem_firsts {l : List Result} {r : Result} (h : r ∈ firsts l) : r ∈ l := by
  induction l with
  | nil => cases h
  | cons a l ih =>
    rcases List.mem_cons.mp h with e | e
    · exact e ▸ List.mem_cons_self ..
    · exact List.mem_cons_of_mem _ (ih (List.mem_filter.mp e).1)

theorem firsts_filter (c : Int) : ∀ l : List Result, firsts (l.filter fun x => x.cp ≠ c) = (firsts l).filter fun x => x.cp ≠ c
  | [] => rfl
  | a :: l => by
    by_cases h : a.cp = c
    · have e : (a :: l).filter (fun x => decide (x.cp ≠ c)) = l.filter fun x => decide (x.cp ≠ c) := by simp [h]
      rw [e, firsts_filter c l, firsts]
      rw [List.filter_cons_of_neg (by simp [h]), List.filter_filter]
      apply List.filter_congr
      intro x _
      simp [h]
    · have e : (a :: l).filter (fun x => decide (x.cp ≠ c)) = a :: l.filter fun x => decide (x.cp ≠ c) := by simp [h]
      rw [e, firsts, firsts, firsts_filter c l, List.filter_cons_of_pos (by simp [h]), List.filter_filter, List.filter_filter]
      congr 1
      apply List.filter_congr
      intro x _
      rw [Bool.and_comm]

theorem chosen_eq (depth : Nat) : ∀ (l : List Result) (seen : List Int) (k : Nat), k < depth ∨ (k = 0 ∧ depth = 0) →
    chosen depth seen k l = ((firsts l).filter fun r => !seen.contains r.cp).take (max 1 depth - k)
  | [], seen, k, _ => by simp [chosen, firsts]
  | r :: l, seen, k, hk => by
    unfold chosen firsts
    by_cases hs : seen.contains r.cp = true
    · rw [if_pos hs, chosen_eq depth l seen k hk, List.filter_cons_of_neg (by simpa using hs)]
      congr 1
      rw [List.filter_filter]
      apply List.filter_congr
      intro x _
      by_cases e : x.cp = r.cp
      · rw [e, hs]; simp
      · simp [e]
    · rw [if_neg hs, List.filter_cons_of_pos (by simpa using hs)]
      have hm : 1 ≤ max 1 depth - k := by omega
      obtain ⟨m, hm'⟩ : ∃ m, max 1 depth - k = m + 1 := ⟨max 1 depth - k - 1, by omega⟩
      rw [hm', List.take_succ_cons]
      by_cases hd : k + 1 ≥ depth
      · rw [if_pos hd]
        have : m = 0 := by omega
        subst this; rfl
      · rw [if_neg hd, chosen_eq depth l (r.cp :: seen) (k + 1) (by omega)]
        have : max 1 depth - (k + 1) = m := by omega
        rw [this, List.filter_filter]
        congr 2
        apply List.filter_congr
        intro x _
        by_cases e : x.cp = r.cp
        · simp [e]
        · simp [e]

theorem chosen_firsts (depth : Nat) (l : List Result) : chosen depth [] 0 l = (firsts l).take (max 1 depth) := by
  rw [chosen_eq depth l [] 0 (by omega), List.filter_eq_self.mpr (fun r _ => by simp)]
  rfl

omit [DecidableEq Word] in
theorem maxScore_ge (score : Word → Rat) : ∀ (l : List Word) (m : Rat), m ≤ l.foldl (fun m w => max m (score w)) m ∧
    (∀ w ∈ l, score w ≤ l.foldl (fun m w => max m (score w)) m) ∧
    (l.foldl (fun m w => max m (score w)) m = m ∨ ∃ w ∈ l, l.foldl (fun m w => max m (score w)) m = score w)
  | [], m => ⟨Rat.le_refl, (by intro w h; cases h), .inl rfl⟩
  | a :: l, m => by
    obtain ⟨h1, h2, h3⟩ := maxScore_ge score l (max m (score a))
    have e1 : m ≤ max m (score a) := by grind
    have e2 : score a ≤ max m (score a) := by grind
    refine ⟨Rat.le_trans e1 h1, ?_, ?_⟩
    · intro w hw
      rcases List.mem_cons.mp hw with e | e
      · subst e; exact Rat.le_trans e2 h1
      · exact h2 w e
    · rcases h3 with h3 | ⟨w, hw, h3⟩
      · by_cases hc : score a ≤ m
        · left; show List.foldl _ (max m (score a)) l = m; rw [h3]; grind
        · right; exact ⟨a, List.mem_cons_self .., by show List.foldl _ (max m (score a)) l = _; rw [h3]; grind⟩
      · right; exact ⟨w, List.mem_cons_of_mem _ hw, h3⟩

end Verif.Feedback
