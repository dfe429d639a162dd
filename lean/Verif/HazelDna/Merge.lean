import Verif.HazelDna.Merged
import Verif.Recipe.OptionsProof
/-
  Lemmas for C76: when shards are merged and what the new shard says about itself.
-/
namespace Verif.HazelDna
open Verif.Recipe Verif.Dna Verif.Hopper

theorem compatible_metadata {A B : Map} (h : Compatible A B) : ∃ x, normalize A = some x := by
  unfold normalize
  dsimp only
  rw [find_erase_ne (by decide)]
  rcases h.2 with ⟨h1, _⟩ | ⟨M, _, ⟨text, h1, h2⟩, _⟩
  · rw [h1]; exact ⟨_, rfl⟩
  · rw [h1]; dsimp only; rw [h2]; exact ⟨_, rfl⟩

theorem normalize_self {A : Map} (hA : Kept A) {x : Str} (h : normalize A = some x) : Compatible A A := (normalize_iff hA hA h).1 h

/-- where the parameters of the new shard come from -/
def newParameters (given : Option Map) (last : Map) : Option Str :=
  match given with
  | some g => some (freeze g)
  | none => find parametersKey last

/-- what `mergedDna` writes -/
theorem mergedDna_spec {first last : Map} {range : Option (Int × Int)} {given : Option Map} (hf : Kept first) (hl : Kept last)
    (hg : ∀ g, given = some g → Kept g) (hr : ∀ r, range = some r → 0 ≤ r.1 ∧ r.1 ≤ r.2 ∧ ∃ M, Metadata first M) :
    ∃ O, mergedDna first last range given = some (freeze O) ∧ Kept O ∧
      (∀ k, k ≠ parametersKey → k ≠ hazelKey → find k O = find k first) ∧
      find parametersKey O = newParameters given last ∧
      (match range with
        | none => find hazelKey O = find hazelKey first
        | some r => ∃ M, Metadata first M ∧
            find hazelKey O = some (freeze (put endKey (toString' r.2.toNat) (put startKey (toString' r.1.toNat) M)))) := by
  have pw : Word parametersKey := by unfold Word; decide
  have base : ∃ O, ranged first range = some O ∧ Kept O ∧
      (∀ k, k ≠ hazelKey → find k O = find k first) ∧
      (match range with
        | none => find hazelKey O = find hazelKey first
        | some r => ∃ M, Metadata first M ∧
            find hazelKey O = some (freeze (put endKey (toString' r.2.toNat) (put startKey (toString' r.1.toNat) M)))) := by
    cases range with
    | none => exact ⟨first, rfl, hf, fun _ _ => rfl, rfl⟩
    | some r =>
      obtain ⟨s, e⟩ := r
      obtain ⟨_, _, M, text, h1, h2⟩ := hr (s, e) rfl
      simp only [ranged, h1, h2]
      have hM : Kept M := meta_kept hf ⟨text, h1, h2⟩
      have hP := put_kept (put_kept hM start_word (toString_keepable s.toNat).1) end_word (toString_keepable e.toNat).1
      refine ⟨_, rfl, put_kept hf hazel_word (keepable_freeze hP.1 hP.2).1, fun k hk => find_put_ne hk .., M, ⟨text, h1, h2⟩, find_put_same ..⟩
  obtain ⟨O, e1, hO, h1, h2⟩ := base
  unfold mergedDna
  rw [e1]
  dsimp only
  have hne : hazelKey ≠ parametersKey := by decide
  cases given with
  | some g =>
    have hk := keepable_freeze (hg g rfl).1 (hg g rfl).2
    refine ⟨_, rfl, put_kept hO pw hk.1, fun k k1 k2 => ?_, find_put_same .., ?_⟩
    · rw [find_put_ne k1, h1 k k2]
    · cases range with
      | none => dsimp only; rw [find_put_ne hne]; exact h2
      | some r => obtain ⟨M, m1, m2⟩ := h2; exact ⟨M, m1, by rw [find_put_ne hne]; exact m2⟩
  | none =>
    simp only [newParameters]
    cases hp : find parametersKey last with
    | none =>
      refine ⟨_, rfl, erase_kept hO, fun k k1 k2 => ?_, find_erase_same .., ?_⟩
      · rw [find_erase_ne k1, h1 k k2]
      · cases range with
        | none => dsimp only; rw [find_erase_ne hne]; exact h2
        | some r => obtain ⟨M, m1, m2⟩ := h2; exact ⟨M, m1, by rw [find_erase_ne hne]; exact m2⟩
    | some v =>
      refine ⟨_, rfl, put_kept hO pw (hl.2 _ _ hp), fun k k1 k2 => ?_, find_put_same .., ?_⟩
      · rw [find_put_ne k1, h1 k k2]
      · cases range with
        | none => dsimp only; rw [find_put_ne hne]; exact h2
        | some r => obtain ⟨M, m1, m2⟩ := h2; exact ⟨M, m1, by rw [find_put_ne hne]; exact m2⟩

/-- the ranges of the shards, if they have them -/
def Ranged (As : List Map) (range : Option (Int × Int)) : Prop :=
  (range = none ∧ ∀ A ∈ As, NoRange A) ∨
  ∃ rs a z, AllRanges As rs ∧ Consecutive rs ∧ rs.head? = some a ∧ rs.getLast? = some z ∧ range = some (a.1, z.2)

theorem merge_eq {first : Map} {l : List Map} (hl : l ≠ []) (hk : ∀ A ∈ first :: l, Kept A) (given : Option Map) (o : Option Str) :
    (∃ range, (∀ A ∈ first :: l, Compatible first A) ∧ Ranged (first :: l) range ∧
      o = mergedDna first ((first :: l).getLast (by simp)) range given) ∨
    ((¬ ∃ range, (∀ A ∈ first :: l, Compatible first A) ∧ Ranged (first :: l) range) ∧ o = none) ↔ o = merge (first :: l) given := by
  have hf := hk first (by simp)
  -- what the answer of `merge` is, in either case
  have key : (∀ range, (∀ A ∈ first :: l, Compatible first A) → Ranged (first :: l) range →
        merge (first :: l) given = mergedDna first ((first :: l).getLast (by simp)) range given) ∧
      ((¬ ∃ range, (∀ A ∈ first :: l, Compatible first A) ∧ Ranged (first :: l) range) → merge (first :: l) given = none) := by
    obtain ⟨b, l, rfl⟩ : ∃ b l', l = b :: l' := by
      cases l with
      | nil => exact absurd rfl hl
      | cons b l' => exact ⟨b, l', rfl⟩
    have hkb : ∀ A ∈ b :: l, Kept A := fun A hA => hk A (List.mem_cons_of_mem _ hA)
    cases hn : normalize first with
    | none =>
      simp only [merge, hn]
      refine ⟨fun range hc _ => ?_, fun _ => trivial⟩
      obtain ⟨x, hx⟩ := compatible_metadata (hc first (by simp))
      rw [hn] at hx; cases hx
    | some x =>
      have hcompat : (∀ A ∈ b :: l, normalize A = some x) ↔ ∀ A ∈ first :: b :: l, Compatible first A := by
        constructor
        · intro h A hA
          rcases List.mem_cons.1 hA with rfl | hA
          · exact normalize_self hf hn
          · exact (normalize_iff hf (hkb A hA) hn).1 (h A hA)
        · intro h A hA
          exact (normalize_iff hf (hkb A hA) hn).2 (h A (List.mem_cons_of_mem _ hA))
      cases hs : sequenceRange first with
      | none =>
        simp only [merge, hn, hs]
        refine ⟨fun range _ hr => ?_, fun _ => trivial⟩
        rcases hr with ⟨_, h⟩ | ⟨rs, a, z, h, _⟩
        · have := range_no.2 (h first (by simp))
          rw [hs] at this; cases this
        · cases rs with
          | nil => exact h.elim
          | cons r rs =>
            have := range_has.2 h.1
            rw [hs] at this; cases this
      | some o' =>
        cases o' with
        | none =>
          simp only [merge, hn, hs]
          have cl := checkLoop_some x false (b :: l) 0
          simp only [Bool.false_eq_true, true_and, false_and, or_false] at cl
          constructor
          · intro range hc hr
            rcases hr with ⟨rfl, h⟩ | ⟨rs, a, z, h, _⟩
            · rw [(cl 0).2 ⟨hcompat.2 hc, rfl, fun A hA => range_no.2 (h A (List.mem_cons_of_mem _ hA))⟩]
            · cases rs with
              | nil => exact h.elim
              | cons r rs =>
                have := range_has.2 h.1
                rw [hs] at this; cases this
          · intro hno
            cases hcl : checkLoop x false 0 (b :: l) with
            | none => rfl
            | some e' =>
              obtain ⟨h1, _, h3⟩ := (cl e').1 hcl
              refine absurd ⟨none, hcompat.1 h1, .inl ⟨rfl, fun A hA => ?_⟩⟩ hno
              rcases List.mem_cons.1 hA with rfl | hA
              · exact range_no.1 hs
              · exact range_no.1 (h3 A hA)
        | some r =>
          obtain ⟨s, e⟩ := r
          simp only [merge, hn, hs]
          have cl := checkLoop_some x true (b :: l) e
          simp only [Bool.true_eq_false, true_and, false_and, false_or] at cl
          constructor
          · intro range hc hr
            rcases hr with ⟨_, h⟩ | ⟨rs, a, z, h1, h2, h3, h4, rfl⟩
            · have := range_no.2 (h first (by simp))
              rw [hs] at this; cases this
            · cases rs with
              | nil => exact h1.elim
              | cons r rs =>
                have h5 := range_has.2 h1.1
                rw [hs] at h5
                have h5 : (s, e) = r := by simpa using h5
                subst h5
                simp only [List.head?_cons, Option.some.injEq] at h3
                subst h3
                cases rs with
                | nil => exact h1.2.elim
                | cons r' rs =>
                  rw [(cl z.2).2 ⟨hcompat.2 hc, r' :: rs, ranges_all.2 h1.2, ⟨h2.1, h2.2⟩, by
                    rw [List.getLast?_cons_cons] at h4
                    rw [h4]; rfl⟩]
          · intro hno
            cases hcl : checkLoop x true e (b :: l) with
            | none => rfl
            | some e' =>
              obtain ⟨h1, rs, h2, h3, h4⟩ := (cl e').1 hcl
              cases rs with
              | nil => simp at h2
              | cons r' rs =>
                refine absurd ⟨some (s, ((r' :: rs).getLast (by simp)).2), hcompat.1 h1, .inr ⟨(s, e) :: r' :: rs, (s, e), (r' :: rs).getLast (by simp),
                  ⟨range_has.1 hs, ranges_all.1 h2⟩, ⟨h3.1, h3.2⟩, rfl, ?_, rfl⟩⟩ hno
                rw [List.getLast?_cons_cons, List.getLast?_eq_some_getLast (by simp)]
  constructor
  · rintro (⟨range, h1, h2, rfl⟩ | ⟨h, rfl⟩)
    · exact (key.1 range h1 h2).symm
    · exact (key.2 h).symm
  · rintro rfl
    by_cases h : ∃ range, (∀ A ∈ first :: l, Compatible first A) ∧ Ranged (first :: l) range
    · obtain ⟨range, h1, h2⟩ := h
      exact .inl ⟨range, h1, h2, key.1 range h1 h2⟩
    · exact .inr ⟨h, key.2 h⟩

theorem ranged_first {first : Map} {l : List Map} {range : Option (Int × Int)} (h : Ranged (first :: l) range) :
    ∀ r, range = some r → 0 ≤ r.1 ∧ r.1 ≤ r.2 ∧ ∃ M, Metadata first M := by
  rintro r rfl
  rcases h with ⟨h, _⟩ | ⟨rs, a, z, h1, h2, h3, h4, h5⟩
  · cases h
  · injection h5 with h5
    subst h5
    have le : ∀ (As : List Map) (rs : List (Int × Int)) a z, AllRanges As rs → Consecutive rs → rs.head? = some a → rs.getLast? = some z →
        a.1 ≤ z.2 := by
      intro As
      induction As with
      | nil =>
        intro rs a z h1 _ h3
        cases rs with
        | nil => cases h3
        | cons _ _ => exact h1.elim
      | cons A As ih =>
        intro rs a z h1 h2 h3 h4
        cases rs with
        | nil => cases h3
        | cons r rs =>
          simp only [List.head?_cons, Option.some.injEq] at h3
          subst h3
          obtain ⟨⟨M, x, y, m1, m2, m3, m4, m5, m6, m7⟩, h1⟩ := h1
          cases rs with
          | nil =>
            simp at h4
            subst h4; exact m7
          | cons r' rs =>
            rw [List.getLast?_cons_cons] at h4
            have := ih (r' :: rs) r' z h1 h2.2 rfl h4
            have := h2.1
            omega
    cases rs with
    | nil => cases h3
    | cons r rs =>
      have hle := le _ _ _ _ h1 h2 h3 h4
      simp only [List.head?_cons, Option.some.injEq] at h3
      subst h3
      obtain ⟨⟨M, x, y, m1, m2, m3, m4, m5, m6, m7⟩, h1⟩ := h1
      exact ⟨m6, hle, M, m1⟩

/-- ranges of shards that mean the same -/
theorem noRange_same {A B : Map} (h : SameAnswer (find hazelKey A) (find hazelKey B)) (hA : NoRange A) : NoRange B := by
  rcases hA with h1 | ⟨M, ⟨text, h1, h2⟩, h3, h4⟩
  · rcases h with ⟨_, h⟩ | ⟨w, w', g1, g2, _⟩
    · exact .inl h
    · rw [h1] at g1; cases g1
  · rcases h with ⟨g, _⟩ | ⟨w, w', g1, g2, g3⟩
    · rw [h1] at g; cases g
    · rw [h1] at g1
      injection g1 with g1
      subst g1
      obtain ⟨N, c, _⟩ := g3.cook_some h2
      have hs := same_maps g3 h2 c
      refine .inr ⟨N, ⟨w', g2, c⟩, ?_, ?_⟩
      · rcases hs.answer startKey with ⟨_, g⟩ | ⟨_, _, g, _⟩
        · exact g
        · rw [h3] at g; cases g
      · rcases hs.answer endKey with ⟨_, g⟩ | ⟨_, _, g, _⟩
        · exact g
        · rw [h4] at g; cases g

theorem same_leaf {v v' : Str} (h : Same v v') (hc : cook v = none) : v' = v := by
  cases h with
  | leaf _ => rfl
  | node e => rw [hc] at e; cases e

end Verif.HazelDna
