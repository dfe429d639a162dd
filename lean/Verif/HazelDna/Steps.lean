import Verif.HazelDna.Open
/-
  Lemmas for C76: merging in steps; names.
-/
namespace Verif.HazelDna
open Verif.Recipe Verif.Dna Verif.Hopper

theorem allRanges_append : ∀ {As Bs : List Map} {rs : List (Int × Int)}, AllRanges (As ++ Bs) rs ↔
    ∃ r1 r2, rs = r1 ++ r2 ∧ AllRanges As r1 ∧ AllRanges Bs r2
  | [], Bs, rs => by
    constructor
    · intro h; exact ⟨[], rs, rfl, trivial, h⟩
    · rintro ⟨r1, r2, rfl, h1, h2⟩
      cases r1 with
      | nil => exact h2
      | cons _ _ => exact h1.elim
  | A :: As, Bs, [] => by
    constructor
    · intro h; exact h.elim
    · rintro ⟨r1, r2, h, h1, _⟩
      cases r1 with
      | nil => exact h1.elim
      | cons _ _ => cases h
  | A :: As, Bs, r :: rs => by
    rw [List.cons_append]
    show HasRange A r ∧ AllRanges (As ++ Bs) rs ↔ _
    rw [allRanges_append]
    constructor
    · rintro ⟨h, r1, r2, rfl, h1, h2⟩
      exact ⟨r :: r1, r2, rfl, ⟨h, h1⟩, h2⟩
    · rintro ⟨r1, r2, h, h1, h2⟩
      cases r1 with
      | nil => exact h1.elim
      | cons r' r1 =>
        cases h
        exact ⟨h1.1, r1, r2, rfl, h1.2, h2⟩

theorem allRanges_inj : ∀ {As : List Map} {rs rs' : List (Int × Int)}, AllRanges As rs → AllRanges As rs' → rs = rs'
  | [], [], [], _, _ => rfl
  | [], _ :: _, _, h, _ => h.elim
  | [], [], _ :: _, _, h => h.elim
  | _ :: _, [], _, h, _ => h.elim
  | _ :: _, _ :: _, [], _, h => h.elim
  | A :: As, r :: rs, r' :: rs', h, h' => by
    rw [hasRange_inj h.1 h'.1, allRanges_inj h.2 h'.2]

theorem consecutive_head {a b : Int × Int} (h : a.2 = b.2) : ∀ {rs : List (Int × Int)}, Consecutive (a :: rs) ↔ Consecutive (b :: rs)
  | [] => by simp [Consecutive]
  | r :: rs => by unfold Consecutive; rw [h]

theorem consecutive_append : ∀ {r1 r2 : List (Int × Int)} {z : Int × Int}, r1.getLast? = some z →
    (Consecutive (r1 ++ r2) ↔ Consecutive r1 ∧ Consecutive (z :: r2))
  | [], _, _, h => by cases h
  | [a], r2, z, h => by
    simp at h
    subst h
    simp [Consecutive]
  | a :: b :: r1, r2, z, h => by
    rw [List.getLast?_cons_cons] at h
    have := consecutive_append (r2 := r2) h
    simp only [List.cons_append] at this ⊢
    show _ ∧ _ ↔ (_ ∧ _) ∧ _
    rw [this, and_assoc]

theorem getLast?_append_of {α : Type} {a b : List α} (h : b ≠ []) : (a ++ b).getLast? = b.getLast? := by
  rw [List.getLast?_append, List.getLast?_eq_some_getLast h]; rfl

/-- The ranges of shards of which the first ones were merged into one. -/
theorem ranged_steps {first : Map} {l m : List Map} {P : Map} {r0 : Option (Int × Int)} (hm : m ≠ []) (h0 : Ranged (first :: l) r0)
    (hP : sequenceRange P = some r0) (range : Option (Int × Int)) : Ranged (P :: m) range ↔ Ranged (first :: (l ++ m)) range := by
  rcases h0 with ⟨rfl, h0⟩ | ⟨rs0, a, z, a1, a2, a3, a4, rfl⟩
  · have hP := range_no.1 hP
    constructor
    · rintro (⟨h1, h2⟩ | ⟨rs, _, _, h, _⟩)
      · refine .inl ⟨h1, fun A hA => ?_⟩
        rw [← List.cons_append, List.mem_append] at hA
        rcases hA with hA | hA
        · exact h0 A hA
        · exact h2 A (List.mem_cons_of_mem _ hA)
      · cases rs with
        | nil => exact h.elim
        | cons r rs => exact (hasRange_no h.1 hP).elim
    · rintro (⟨h1, h2⟩ | ⟨rs, _, _, h, _⟩)
      · refine .inl ⟨h1, fun A hA => ?_⟩
        rcases List.mem_cons.1 hA with rfl | hA
        · exact hP
        · exact h2 A (by simp [hA])
      · cases rs with
        | nil => exact h.elim
        | cons r rs => exact (hasRange_no h.1 (h0 first (by simp))).elim
  · have hP := range_has.1 hP
    have hfirst : HasRange first a := by
      cases rs0 with
      | nil => exact a1.elim
      | cons r rs =>
        simp only [List.head?_cons, Option.some.injEq] at a3
        subst a3; exact a1.1
    constructor
    · rintro (⟨_, h2⟩ | ⟨rs, a', z', b1, b2, b3, b4, rfl⟩)
      · exact (hasRange_no hP (h2 P (by simp))).elim
      · cases rs with
        | nil => exact b1.elim
        | cons r rs =>
          have e := hasRange_inj b1.1 hP
          simp only [List.head?_cons, Option.some.injEq] at b3
          subst b3
          subst e
          have hne : rs ≠ [] := by
            rintro rfl
            cases m with
            | nil => exact hm rfl
            | cons _ _ => exact b1.2.elim
          refine .inr ⟨rs0 ++ rs, a, z', ?_, ?_, ?_, ?_, rfl⟩
          · rw [← List.cons_append]
            exact allRanges_append.2 ⟨rs0, rs, rfl, a1, b1.2⟩
          · exact (consecutive_append a4).2 ⟨a2, (consecutive_head (by rfl)).1 b2⟩
          · cases rs0 with
            | nil => cases a3
            | cons _ _ => exact a3
          · rw [getLast?_append_of hne]
            obtain ⟨c, rs', rfl⟩ : ∃ c rs', rs = c :: rs' := by
              cases rs with
              | nil => exact absurd rfl hne
              | cons c rs' => exact ⟨c, rs', rfl⟩
            rwa [List.getLast?_cons_cons] at b4
    · rintro (⟨_, h2⟩ | ⟨rs, a', z', b1, b2, b3, b4, rfl⟩)
      · exact (hasRange_no hfirst (h2 first (by simp))).elim
      · rw [← List.cons_append, allRanges_append] at b1
        obtain ⟨r1, r2, rfl, c1, c2⟩ := b1
        have e := allRanges_inj c1 a1
        subst e
        have hne : r2 ≠ [] := by
          rintro rfl
          cases m with
          | nil => exact hm rfl
          | cons _ _ => exact c2.elim
        rw [getLast?_append_of hne] at b4
        have e : a' = a := by
          cases r1 with
          | nil => cases a3
          | cons _ _ =>
            simp at a3 b3
            rw [← a3, ← b3]
        subst e
        refine .inr ⟨(a'.1, z.2) :: r2, (a'.1, z.2), z', ⟨hP, c2⟩, (consecutive_head (by rfl)).1 ((consecutive_append a4).1 b2).2, rfl, ?_, rfl⟩
        cases r2 with
        | nil => exact absurd rfl hne
        | cons c rs' => rw [List.getLast?_cons_cons]; exact b4

theorem same_of_maps {v v' : Str} {p p' : Map} (c : cook v = some p) (c' : cook v' = some p') (h : MapSame p p') : Same v v' :=
  .node c c' h.1 h.2

theorem mergedDna_steps {first P last : Map} {range : Option (Int × Int)} {given : Option Map} (hf : Kept first) (hP : Kept P)
    (hl : Kept last) (hg : ∀ g, given = some g → Kept g) (hc : Compatible first P)
    (hr : ∀ r, range = some r → 0 ≤ r.1 ∧ r.1 ≤ r.2) (hrf : ∀ r, range = some r → ∃ M, Metadata first M)
    (hno : range = none → NoRange first ∧ NoRange P) :
    mergedDna P last range given = mergedDna first last range given := by
  have hrP : ∀ r, range = some r → ∃ M, Metadata P M := by
    intro r hr'
    obtain ⟨M, text, m1, _⟩ := hrf r hr'
    rcases hc.2 with ⟨h, _⟩ | ⟨_, N, _, h, _⟩
    · rw [m1] at h; cases h
    · exact ⟨N, h⟩
  obtain ⟨O1, e1, k1, a1, b1, c1⟩ := mergedDna_spec (last := last) (given := given) (range := range) hP hl hg
    fun r h => ⟨(hr r h).1, (hr r h).2, hrP r h⟩
  obtain ⟨O2, e2, k2, a2, b2, c2⟩ := mergedDna_spec (last := last) (given := given) (range := range) hf hl hg
    fun r h => ⟨(hr r h).1, (hr r h).2, hrf r h⟩
  rw [e1, e2]
  refine congrArg some (freeze_same k1.1 k2.1 (mapSame_of k1.1 k2.1 fun k => ?_))
  by_cases hk1 : k = parametersKey
  · subst hk1; rw [b1, b2]; exact .refl _
  by_cases hk2 : k = hazelKey
  · subst hk2
    cases range with
    | none =>
      dsimp only at c1 c2
      rw [c1, c2]
      rcases hc.2 with ⟨h1, h2⟩ | ⟨M, N, ⟨t, m1, m2⟩, ⟨t', n1, n2⟩, h⟩
      · rw [h1, h2]; exact .refl _
      · obtain ⟨f1, f2⟩ := hno rfl
        have g1 : find startKey M = none ∧ find endKey M = none := by
          rcases f1 with f | ⟨M', ⟨u, u1, u2⟩, u3⟩
          · rw [m1] at f; cases f
          · rw [m1] at u1; cases u1; rw [m2] at u2; cases u2; exact u3
        have g2 : find startKey N = none ∧ find endKey N = none := by
          rcases f2 with f | ⟨M', ⟨u, u1, u2⟩, u3⟩
          · rw [n1] at f; cases f
          · rw [n1] at u1; cases u1; rw [n2] at u2; cases u2; exact u3
        rw [m1, n1]
        refine .inr ⟨_, _, rfl, rfl, same_of_maps n2 m2 (mapSame_of (cook_good n2).1 (cook_good m2).1 fun k => ?_)⟩
        by_cases h1 : k = startKey
        · subst h1; rw [g1.1, g2.1]; exact .refl _
        by_cases h2 : k = endKey
        · subst h2; rw [g1.2, g2.2]; exact .refl _
        exact sameAnswer_symm (h k h1 h2)
    | some r =>
      obtain ⟨N, n1, n2⟩ := c1
      obtain ⟨M, m1, m2⟩ := c2
      rw [n2, m2]
      have hMN : ∀ k, k ≠ startKey → k ≠ endKey → SameAnswer (find k N) (find k M) := by
        obtain ⟨t, m3, m4⟩ := m1
        obtain ⟨t', n3, n4⟩ := n1
        rcases hc.2 with ⟨h1, _⟩ | ⟨M', N', ⟨u, u1, u2⟩, ⟨u', w1, w2⟩, h⟩
        · rw [m3] at h1; cases h1
        · rw [m3] at u1; cases u1; rw [m4] at u2; cases u2
          rw [n3] at w1; cases w1; rw [n4] at w2; cases w2
          exact fun k h1 h2 => sameAnswer_symm (h k h1 h2)
      have q1 := put_kept (put_kept (meta_kept hP n1) start_word (toString_keepable r.1.toNat).1) end_word (toString_keepable r.2.toNat).1
      have q2 := put_kept (put_kept (meta_kept hf m1) start_word (toString_keepable r.1.toNat).1) end_word (toString_keepable r.2.toNat).1
      rw [freeze_same q1.1 q2.1 (mapSame_of q1.1 q2.1 fun k => ?_)]
      · exact .refl _
      · by_cases h2 : k = endKey
        · subst h2; rw [find_put_same, find_put_same]; exact .refl _
        rw [find_put_ne h2, find_put_ne h2]
        by_cases h1 : k = startKey
        · subst h1; rw [find_put_same, find_put_same]; exact .refl _
        rw [find_put_ne h1, find_put_ne h1]
        exact hMN k h1 h2
  · rw [a1 k hk1 hk2, a2 k hk1 hk2]
    exact sameAnswer_symm (hc.1 k hk1 hk2)

theorem merge_steps {first P : Map} {l m : List Map} {r0 : Option (Int × Int)} (hl : l ≠ []) (hm : m ≠ []) (hk : ∀ A ∈ first :: (l ++ m), Kept A) (hP : Kept P)
    (h0 : Ranged (first :: l) r0) (hPr : sequenceRange P = some r0) (hc : Compatible first P) (hcl : ∀ A ∈ first :: l, Compatible first A)
    {given : Option Map} (hg : ∀ g, given = some g → Kept g) : merge (P :: m) given = merge (first :: (l ++ m)) given := by
  have hf := hk first (by simp)
  have hkm : ∀ A ∈ m, Kept A := fun A hA => hk A (by simp [hA])
  obtain ⟨x, hx⟩ := compatible_metadata hc
  have hxP := (normalize_iff hf hP hx).2 hc
  have hcomp : (∀ A ∈ P :: m, Compatible P A) ↔ ∀ A ∈ first :: (l ++ m), Compatible first A := by
    constructor
    · intro h A hA
      rw [← List.cons_append, List.mem_append] at hA
      rcases hA with hA | hA
      · exact hcl A hA
      · exact (normalize_iff hf (hkm A hA) hx).1 ((normalize_iff hP (hkm A hA) hxP).2 (h A (List.mem_cons_of_mem _ hA)))
    · intro h A hA
      rcases List.mem_cons.1 hA with rfl | hA
      · exact normalize_self hP hxP
      · exact (normalize_iff hP (hkm A hA) hxP).1 ((normalize_iff hf (hkm A hA) hx).2 (h A (by simp [hA])))
  have hkP : ∀ A ∈ P :: m, Kept A := by
    intro A hA
    rcases List.mem_cons.1 hA with rfl | hA
    · exact hP
    · exact hkm A hA
  refine (merge_eq (by simp [hm]) hk given _).1 ?_
  rcases (merge_eq hm hkP given _).2 rfl with ⟨range, h1, h2, h3⟩ | ⟨h, h3⟩
  · have h2' := (ranged_steps hm h0 hPr range).1 h2
    refine .inl ⟨range, hcomp.1 h1, h2', h3.trans ?_⟩
    have e : (P :: m).getLast (by simp) = (first :: (l ++ m)).getLast (by simp) := by
      rw [List.getLast_cons hm, List.getLast_cons (by simp [hm]), List.getLast_append_of_ne_nil _ hm]
    rw [e]
    have hr := ranged_first h2'
    refine mergedDna_steps hf hP (hk _ (List.getLast_mem _)) hg hc (fun r h => ⟨(hr r h).1, (hr r h).2.1⟩) (fun r h => (hr r h).2.2) fun hn => ?_
    subst hn
    constructor
    · rcases h2' with ⟨_, h⟩ | ⟨_, _, _, _, _, _, _, h⟩
      · exact h first (by simp)
      · cases h
    · rcases h2 with ⟨_, h⟩ | ⟨_, _, _, _, _, _, _, h⟩
      · exact h P (by simp)
      · cases h
  · refine .inr ⟨fun ⟨range, g1, g2⟩ => h ⟨range, hcomp.2 g1, (ranged_steps hm h0 hPr range).2 g2⟩, h3⟩

/-! ### names -/

theorem hazelName_lt {name : List Char} {r : Nat × Nat} (h : Names.parseHazelName name = some r) :
    (r.1 : Int) ≤ 9223372036854775807 ∧ (r.2 : Int) ≤ 9223372036854775807 := by
  have st : ∀ {s : List Char} {v : Nat}, Names.stoll s = some v → v < 9223372036854775808 := by
    intro s v h
    unfold Names.stoll at h
    dsimp only at h
    split at h
    · injection h with h; omega
    · cases h
  unfold Names.parseHazelName Names.parseRange at h
  dsimp only at h
  split at h
  · cases h
  · split at h
    · cases h
    · split at h
      · split at h
        · rename_i h1 h2
          cases h
          have := st h1
          have := st h2
          dsimp only
          omega
        · cases h
      · cases h

/-- where what a shard says about its range agrees with its name -/
theorem agree_iff {A : Map} {s e : Nat} {o : Option (Int × Int)} (h : sequenceRange A = some o) :
    (NoRange A ∨ HasRange A ((s : Int), (e : Int))) ↔ ¬ (o.any fun x => decide (x.1 ≠ (s : Int) ∨ x.2 ≠ (e : Int))) = true := by
  cases o with
  | none => simp [range_no.1 h]
  | some x =>
    simp only [Option.any_some, decide_eq_true_eq]
    constructor
    · rintro (h' | h')
      · exact (hasRange_no (range_has.1 h) h').elim
      · have := hasRange_inj (range_has.1 h) h'
        subst this
        simp
    · intro h'
      refine .inr ?_
      have : x = ((s : Int), (e : Int)) := by
        have h1 : x.1 = s := by omega
        have h2 : x.2 = e := by omega
        rw [← h1, ← h2]
      rw [← this]
      exact range_has.1 h

theorem nameLoop_some : ∀ (l : List (List Char × Map)) (p : Nat) (e' : Nat),
    nameLoop p l = some e' ↔ ∃ rs, Named l rs ∧ Agree l rs ∧ Follow ((0, p) :: rs) ∧ e' = (rs.getLast?.map (·.2)).getD p
  | [], p, e' => by
    simp only [nameLoop, Option.some.injEq]
    constructor
    · rintro rfl; exact ⟨[], trivial, trivial, trivial, rfl⟩
    · rintro ⟨rs, h1, _, _, h4⟩
      cases rs with
      | nil => exact h4.symm
      | cons _ _ => exact h1.elim
  | (name, A) :: l, p, e' => by
    unfold nameLoop
    cases hn : Names.parseHazelName name with
    | none =>
      simp only [reduceCtorEq, false_iff]
      rintro ⟨rs, h1, _⟩
      cases rs with
      | nil => exact h1.elim
      | cons r rs =>
        have := h1.1
        rw [hn] at this; cases this
    | some r =>
      obtain ⟨s, e⟩ := r
      have hlt := hazelName_lt hn
      dsimp only at hlt ⊢
      by_cases hb : (p : Int) = maxfinity ∨ s ≠ p + 1
      · rw [if_pos hb]
        simp only [reduceCtorEq, false_iff]
        rintro ⟨rs, h1, _, h3, _⟩
        cases rs with
        | nil => exact h1.elim
        | cons r rs =>
          have h4 := h1.1
          rw [hn] at h4
          cases h4
          have h5 : s = p + 1 := h3.1
          omega
      · rw [if_neg hb]
        cases hr : sequenceRange A with
        | none =>
          simp only [reduceCtorEq, false_iff]
          rintro ⟨rs, h1, h2, _⟩
          cases rs with
          | nil => exact h1.elim
          | cons r rs =>
            rcases h2.1 with h | h
            · rw [range_no.2 h] at hr; cases hr
            · rw [range_has.2 h] at hr; cases hr
        | some o =>
          have tail : nameLoop e l = some e' ↔
              ∃ rs, Named l rs ∧ Agree l rs ∧ Follow ((s, e) :: rs) ∧ e' = (((s, e) :: rs).getLast?.map (·.2)).getD p := by
            rw [nameLoop_some l e e']
            constructor
            · rintro ⟨rs, h1, h2, h3, h4⟩
              refine ⟨rs, h1, h2, ?_, ?_⟩
              · cases rs with
                | nil => trivial
                | cons _ _ => exact h3
              · rw [h4]
                cases rs with
                | nil => rfl
                | cons _ _ => rw [List.getLast?_cons_cons]; simp [List.getLast?_cons]
            · rintro ⟨rs, h1, h2, h3, h4⟩
              refine ⟨rs, h1, h2, ?_, ?_⟩
              · cases rs with
                | nil => trivial
                | cons _ _ => exact h3
              · rw [h4]
                cases rs with
                | nil => rfl
                | cons _ _ => rw [List.getLast?_cons_cons]; simp [List.getLast?_cons]
          have wrap : (∃ rs, Named ((name, A) :: l) rs ∧ Agree ((name, A) :: l) rs ∧ Follow ((0, p) :: rs) ∧ e' = (rs.getLast?.map (·.2)).getD p) ↔
              (NoRange A ∨ HasRange A ((s : Int), (e : Int))) ∧ nameLoop e l = some e' := by
            rw [tail]
            constructor
            · rintro ⟨rs, h1, h2, h3, h4⟩
              cases rs with
              | nil => exact h1.elim
              | cons r rs =>
                have h5 := h1.1
                rw [hn] at h5
                cases h5
                exact ⟨h2.1, rs, h1.2, h2.2, h3.2, h4⟩
            · rintro ⟨h0, rs, h1, h2, h3, h4⟩
              exact ⟨(s, e) :: rs, ⟨hn, h1⟩, ⟨h0, h2⟩, ⟨by show s = p + 1; omega, h3⟩, h4⟩
          rw [wrap, agree_iff hr]
          cases o with
          | none => simp
          | some x =>
            obtain ⟨s', e''⟩ := x
            simp only [Option.any_some, decide_eq_true_eq]
            by_cases hx : s' ≠ (s : Int) ∨ e'' ≠ (e : Int)
            · rw [if_pos hx]; simp [hx]
            · rw [if_neg hx]; simp [hx]

end Verif.HazelDna
