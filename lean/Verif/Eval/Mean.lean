import Verif.Eval.Proof
/-
  Means of measures, and the grades of a file: lemmas.
-/
namespace Verif.Eval

section
variable {κ : Type} [DecidableEq κ]

theorem meanLoop_some (f : Rat → Rat → Rat) (m : List (κ × Rat)) : ∀ means : List (κ × Rat), (∀ x ∈ means, (metric m x.1).isSome) →
    meanLoop f m means = some (means.map fun x => (x.1, f x.2 ((metric m x.1).getD 0))) := by
  intro means
  induction means with
  | nil => intro _; rfl
  | cons x l ih =>
    intro h
    obtain ⟨v, hv⟩ := Option.isSome_iff_exists.1 (h x (List.mem_cons_self ..))
    obtain ⟨k, y⟩ := x
    simp only [] at hv
    rw [meanLoop, hv, ih fun z hz => h z (List.mem_cons_of_mem _ hz)]
    simp [hv]

theorem meanLoop_none (f : Rat → Rat → Rat) (m : List (κ × Rat)) : ∀ means : List (κ × Rat), (∃ x ∈ means, metric m x.1 = none) →
    meanLoop f m means = none := by
  intro means
  induction means with
  | nil => rintro ⟨x, hx, _⟩; cases hx
  | cons x l ih =>
    rintro ⟨z, hz, hn⟩
    obtain ⟨k, y⟩ := x
    rw [meanLoop]
    cases hm : metric m k with
    | none => rfl
    | some v =>
      rcases List.mem_cons.1 hz with rfl | hz
      · rw [hm] at hn; cases hn
      · rw [ih ⟨z, hz, hn⟩]

theorem means_go : ∀ (rest : List (List (κ × Rat))) (means : List (κ × Rat)) (j : Nat), 0 < j →
    (∀ m ∈ rest, ∀ x ∈ means, (metric m x.1).isSome) →
    meanAll rest (means, some (j : Rat)) = some (means.map fun x =>
      (x.1, (x.2 * j + (rest.map fun m => (metric m x.1).getD 0).sum) / ((j + rest.length : Nat) : Rat)), some ((j + rest.length : Nat) : Rat)) := by
  intro rest
  induction rest with
  | nil =>
    intro means j hj _
    have hne : (j : Rat) ≠ 0 := by have := Rat.natCast_pos.2 hj; grind
    rw [meanAll]
    congr 2
    symm
    rw [List.map_congr_left (g := id), List.map_id]
    intro x _
    simp only [List.map_nil, List.sum_nil, List.length_nil, Nat.add_zero, Rat.add_zero, id]
    rw [Rat.mul_div_cancel hne]
  | cons m rest ih =>
    intro means j hj h
    have hne : ((j + 1 : Nat) : Rat) ≠ 0 := by have := Rat.natCast_pos.2 (show 0 < j + 1 by omega); grind
    have hc : ((j + 1 : Nat) : Rat) = (j : Rat) + 1 := by simp
    have hm : mean m (means, some (j : Rat)) = some (means.map fun x => (x.1, (x.2 * j + (metric m x.1).getD 0) / ((j + 1 : Nat) : Rat)), some ((j + 1 : Nat) : Rat)) := by
      rw [hc]
      simp only [mean]
      rw [meanLoop_some _ m means (h m (List.mem_cons_self ..))]
      rfl
    rw [meanAll, hm]
    simp only []
    rw [ih _ (j + 1) (by omega) (by
      intro m' hm' x hx
      obtain ⟨y, hy, rfl⟩ := List.mem_map.1 hx
      exact h m' (List.mem_cons_of_mem _ hm') y hy)]
    rw [List.map_map, show j + 1 + rest.length = j + (m :: rest).length by simp; omega]
    congr 2
    apply List.map_congr_left
    intro x _
    simp only [Function.comp, List.map_cons, List.sum_cons]
    rw [Rat.div_mul_cancel hne, Rat.add_assoc]

theorem meanAll_none : ∀ (rest : List (List (κ × Rat))) (means : List (κ × Rat)) (j : Nat), 0 < j →
    (∃ m ∈ rest, ∃ x ∈ means, metric m x.1 = none) → meanAll rest (means, some (j : Rat)) = none := by
  intro rest
  induction rest with
  | nil => rintro _ _ _ ⟨m, hm, _⟩; cases hm
  | cons m rest ih =>
    rintro means j hj ⟨m', hm', x, hx, hn⟩
    rw [meanAll]
    by_cases hc : ∃ y ∈ means, metric m y.1 = none
    · simp only [mean]
      rw [meanLoop_none _ m means hc]
      rfl
    · have hall : ∀ y ∈ means, (metric m y.1).isSome := by
        intro y hy
        cases h : metric m y.1 with
        | none => exact absurd ⟨y, hy, h⟩ hc
        | some v => rfl
      simp only [mean]
      rw [meanLoop_some _ m means hall]
      simp only [Option.map_some]
      have hj1 : ((j : Rat) + 1) = ((j + 1 : Nat) : Rat) := by simp
      rw [hj1]
      refine ih _ (j + 1) (by omega) ?_
      rcases List.mem_cons.1 hm' with rfl | hm'
      · exact absurd ⟨x, hx, hn⟩ hc
      · exact ⟨m', hm', _, List.mem_map.2 ⟨x, hx, rfl⟩, hn⟩

theorem metric_of_mem {m : List (κ × Rat)} (h : (m.map (·.1)).Nodup) {x : κ × Rat} (hx : x ∈ m) : metric m x.1 = some x.2 := by
  induction m with
  | nil => cases hx
  | cons y m ih =>
    rw [List.map_cons, List.nodup_cons] at h
    unfold metric
    rw [List.find?_cons]
    rcases List.mem_cons.1 hx with rfl | hx
    · simp
    · have : ¬y.1 = x.1 := fun e => h.1 (List.mem_map.2 ⟨x, hx, e.symm⟩)
      simp only [this, decide_false]
      exact ih h.2 hx

end

/-! ### the grades of a file -/

section
variable {τ : Type} [DecidableEq τ]

theorem record_facts (key : τ × Int) (level : Rat) : ∀ q : Graded τ, (q.map (·.1)).Nodup →
    ((record key level q).map (·.1)).Nodup ∧
    ∀ k x, (k, x) ∈ record key level q ↔ (k = key ∧ x = level) ∨ (k ≠ key ∧ (k, x) ∈ q) := by
  intro q
  induction q with
  | nil => intro _; exact ⟨by simp [record], fun k x => by simp [record]⟩
  | cons y q ih =>
    intro h
    have h' := h
    rw [List.map_cons, List.nodup_cons] at h
    rw [record]
    by_cases e : y.1 = key
    · rw [if_pos e]
      refine ⟨?_, ?_⟩
      · rw [List.map_cons, ← e]; exact h'
      · intro k x
        constructor
        · intro hm
          rcases List.mem_cons.1 hm with hm' | hm'
          · exact .inl ⟨congrArg Prod.fst hm', congrArg Prod.snd hm'⟩
          · refine .inr ⟨?_, List.mem_cons_of_mem _ hm'⟩
            rintro rfl
            exact h.1 (List.mem_map.2 ⟨(k, x), hm', e.symm⟩)
        · rintro (⟨rfl, rfl⟩ | ⟨hk, hm⟩)
          · exact List.mem_cons_self ..
          · rcases List.mem_cons.1 hm with rfl | hm
            · exact absurd e hk
            · exact List.mem_cons_of_mem _ hm
    · rw [if_neg e]
      obtain ⟨i1, i2⟩ := ih h.2
      refine ⟨?_, ?_⟩
      · rw [List.map_cons, List.nodup_cons]
        refine ⟨?_, i1⟩
        intro hm
        obtain ⟨⟨k, x⟩, hz, hzk⟩ := List.mem_map.1 hm
        rcases (i2 k x).1 hz with ⟨rfl, rfl⟩ | ⟨_, hq⟩
        · exact e hzk.symm
        · exact h.1 (List.mem_map.2 ⟨_, hq, hzk⟩)
      · intro k x
        rw [List.mem_cons, i2, List.mem_cons]
        constructor
        · rintro (rfl | h1 | h1)
          · exact .inr ⟨e, .inl rfl⟩
          · exact .inl h1
          · exact .inr ⟨h1.1, .inr h1.2⟩
        · rintro (h1 | ⟨h1, h2 | h2⟩)
          · exact .inr (.inl h1)
          · exact .inl h2
          · exact .inr (.inr ⟨h1, h2⟩)

/-- the last line for a topic and document -/
def LastLine (lines : Graded τ) (key : τ × Int) (level : Rat) : Prop :=
  ∃ before after, lines = before ++ (key, level) :: after ∧ ∀ z ∈ after, z.1 ≠ key

theorem loadLines_facts : ∀ (lines q : Graded τ) (top : Rat), (q.map (·.1)).Nodup →
    ((loadLines lines q top).1.map (·.1)).Nodup ∧
    (∀ k x, (k, x) ∈ (loadLines lines q top).1 ↔ (∃ v, LastLine lines k v ∧ x = max 0 v) ∨ ((∀ z ∈ lines, z.1 ≠ k) ∧ (k, x) ∈ q)) ∧
    top ≤ (loadLines lines q top).2 ∧ (∀ z ∈ lines, max 0 z.2 ≤ (loadLines lines q top).2) ∧
    ((loadLines lines q top).2 = top ∨ ∃ z ∈ lines, (loadLines lines q top).2 = max 0 z.2) := by
  intro lines
  induction lines with
  | nil =>
    intro q top hq
    rw [loadLines]
    refine ⟨hq, ?_, Rat.le_refl, (fun z hz => by cases hz), .inl rfl⟩
    intro k x
    constructor
    · intro h; exact .inr ⟨(fun z hz => by cases hz), h⟩
    · rintro (⟨v, ⟨a, b, h, _⟩, _⟩ | h)
      · simp at h
      · exact h.2
  | cons line lines ih =>
    intro q top hq
    obtain ⟨r1, r2⟩ := record_facts line.1 (max 0 line.2) q hq
    obtain ⟨i1, i2, i3, i4, i5⟩ := ih (record line.1 (max 0 line.2) q) (max (max 0 line.2) top) r1
    have hle : max 0 line.2 ≤ max (max 0 line.2) top := by grind
    have hle2 : top ≤ max (max 0 line.2) top := by grind
    rw [loadLines]
    refine ⟨i1, ?_, Rat.le_trans hle2 i3, ?_, ?_⟩
    · intro k x
      rw [i2]
      constructor
      · rintro (⟨v, ⟨a, b, h, hb⟩, hx⟩ | ⟨h1, h2⟩)
        · exact .inl ⟨v, ⟨line :: a, b, by rw [h]; rfl, hb⟩, hx⟩
        · rcases (r2 k x).1 h2 with ⟨rfl, rfl⟩ | ⟨hk, hm⟩
          · exact .inl ⟨line.2, ⟨[], lines, rfl, h1⟩, rfl⟩
          · refine .inr ⟨?_, hm⟩
            intro z hz
            rcases List.mem_cons.1 hz with rfl | hz
            · exact fun e => hk e.symm
            · exact h1 z hz
      · rintro (⟨v, ⟨a, b, h, hb⟩, hx⟩ | ⟨h1, h2⟩)
        · cases a with
          | nil =>
            rw [List.nil_append, List.cons.injEq] at h
            obtain ⟨rfl, rfl⟩ := h
            exact .inr ⟨hb, (r2 k x).2 (.inl ⟨rfl, hx⟩)⟩
          | cons y a =>
            rw [List.cons_append, List.cons.injEq] at h
            exact .inl ⟨v, ⟨a, b, h.2, hb⟩, hx⟩
        · exact .inr ⟨fun z hz => h1 z (List.mem_cons_of_mem _ hz), (r2 k x).2 (.inr ⟨(h1 line (List.mem_cons_self ..)).symm, h2⟩)⟩
    · intro z hz
      rcases List.mem_cons.1 hz with rfl | hz
      · exact Rat.le_trans hle i3
      · exact i4 z hz
    · rcases i5 with h | ⟨z, hz, h⟩
      · rcases (show max (max 0 line.2) top = max 0 line.2 ∨ max (max 0 line.2) top = top by grind) with h2 | h2
        · exact .inr ⟨line, List.mem_cons_self .., h.trans h2⟩
        · exact .inl (h.trans h2)
      · exact .inr ⟨z, List.mem_cons_of_mem _ hz, h⟩

end

end Verif.Eval
