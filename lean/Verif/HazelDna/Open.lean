import Verif.HazelDna.Merge
/-
  Lemmas for C76: opening the new shard; merging in steps; names.
-/
namespace Verif.HazelDna
open Verif.Recipe Verif.Dna Verif.Hopper

theorem _root_.Verif.Dna.SameAnswer.some_right {a : Str} {b : Option Str} (h : SameAnswer (some a) b) : ∃ b', b = some b' ∧ Same a b' := by
  rcases h with ⟨h, _⟩ | ⟨w, w', h1, h2, h3⟩
  · cases h
  · cases h1; exact ⟨w', h2, h3⟩

theorem _root_.Verif.Dna.SameAnswer.none_right {b : Option Str} (h : SameAnswer none b) : b = none := by
  rcases h with ⟨_, h⟩ | ⟨w, w', h1, _⟩
  · exact h
  · cases h1

theorem unwrap_same {v v' : Str} (h : Same v v') {n r : Str} (hu : unwrap v = some (n, r)) :
    ∃ n' r', unwrap v' = some (n', r') ∧ Same n n' ∧ Same r r' := by
  unfold unwrap at hu
  split at hu
  · cases hu
  · rename_i m hm
    obtain ⟨m', hm', hs⟩ := h.cook_some hm
    split at hu
    · cases hu
    · rename_i name h1
      split at hu
      · cases hu
      · rename_i recipe h2
        cases hu
        obtain ⟨n', g1, g2⟩ := SameMap.find_some hs h1
        obtain ⟨r', g3, g4⟩ := SameMap.find_some hs h2
        exact ⟨n', r', by unfold unwrap; simp only [hm', g1, g3], g2, g4⟩

theorem nameAndRecipe_same {A B : Map} {key : Str} (h : SameAnswer (find key A) (find key B)) {x : Str × Str}
    (hx : nameAndRecipe A key = some x) : ∃ y, nameAndRecipe B key = some y ∧ Same x.1 y.1 ∧ Same x.2 y.2 := by
  unfold nameAndRecipe at hx ⊢
  cases hf : find key A with
  | none => rw [hf] at hx; cases hx
  | some v =>
    rw [hf] at hx h
    obtain ⟨v', e, hs⟩ := h.some_right
    rw [e]
    obtain ⟨n', r', g1, g2, g3⟩ := unwrap_same hs hx
    exact ⟨_, g1, g2, g3⟩

theorem hazel_leaf : cook hazelKey = none := by decide

theorem settings_same {makes : Str → Str → Str → Bool} {stems : Str → Bool} (hr : Respects makes stems) {A B : Map}
    (h : ∀ k, k ≠ parametersKey → k ≠ hazelKey → SameAnswer (find k A) (find k B)) (hA : settingsFine makes A = true) :
    settingsFine makes B = true := by
  unfold settingsFine at hA ⊢
  rw [Bool.and_eq_true] at hA ⊢
  obtain ⟨h1, h2⟩ := hA
  constructor
  · have h1 : find warrenKey A = some hazelKey := by simpa using h1
    have hw := h warrenKey (by decide) (by decide)
    rw [h1] at hw
    obtain ⟨w, e, hs⟩ := hw.some_right
    rw [e, same_leaf hs hazel_leaf]
    simp
  · split at h2
    · rename_i f t i x hf ht hi hx
      obtain ⟨f', ef, f1, f2⟩ := nameAndRecipe_same (h featurizerKey (by decide) (by decide)) hf
      obtain ⟨t', et, t1, t2⟩ := nameAndRecipe_same (h tokenizerKey (by decide) (by decide)) ht
      obtain ⟨i', ei, i1, i2⟩ := nameAndRecipe_same (h idxKey (by decide) (by decide)) hi
      obtain ⟨x', ex, x1, x2⟩ := nameAndRecipe_same (h txtKey (by decide) (by decide)) hx
      simp only [ef, et, ei, ex]
      simp only [Bool.and_eq_true, decide_eq_true_eq] at h2 ⊢
      obtain ⟨⟨⟨a1, a2⟩, a3⟩, a4⟩ := h2
      rw [a1] at i1
      rw [a2] at x1
      exact ⟨⟨⟨same_leaf i1 hazel_leaf, same_leaf x1 hazel_leaf⟩, hr.1 _ _ _ _ _ f1 f2 a3⟩, hr.1 _ _ _ _ _ t1 t2 a4⟩
    · cases h2

theorem parameters_same {makes : Str → Str → Str → Bool} {stems : Str → Bool} (hr : Respects makes stems) {A B : Map}
    (h : SameAnswer (find parametersKey A) (find parametersKey B)) (hA : parametersFine stems A = true) : parametersFine stems B = true := by
  unfold parametersFine at hA ⊢
  cases hf : find parametersKey A with
  | none =>
    rw [hf] at h
    rw [h.none_right]
  | some text =>
    rw [hf] at h hA
    obtain ⟨text', e, hs⟩ := h.some_right
    rw [e]
    dsimp only at hA ⊢
    cases hc : cook text with
    | none => rw [hc] at hA; cases hA
    | some extra =>
      rw [hc] at hA
      obtain ⟨extra', hc', _⟩ := hs.cook_some hc
      have hm := same_maps hs hc hc'
      rw [hc']
      dsimp only at hA ⊢
      have ha := hm.answer stemmerKey
      cases hst : find stemmerKey extra with
      | none =>
        rw [hst] at ha
        rw [ha.none_right]
      | some st =>
        rw [hst] at ha hA
        obtain ⟨st', e', hs'⟩ := ha.some_right
        rw [e']
        dsimp only at hA ⊢
        rw [Bool.or_eq_true, decide_eq_true_eq] at hA ⊢
        rcases hA with rfl | hA
        · exact .inl (same_leaf hs' (by decide))
        · exact .inr (hr.2 _ _ hs' hA)

theorem getParameter_same {A B : Map} (h : SameAnswer (find parametersKey A) (find parametersKey B)) (key : Str) :
    SameAnswer (getParameter A key) (getParameter B key) := by
  unfold getParameter
  rcases h with ⟨h1, h2⟩ | ⟨w, w', h1, h2, hs⟩
  · rw [h1, h2]; exact .refl _
  · rw [h1, h2]
    dsimp only
    cases hc : cook w with
    | none =>
      rw [same_leaf hs hc, hc]
      exact .inl ⟨rfl, rfl⟩
    | some m =>
      obtain ⟨m', hc', _⟩ := hs.cook_some hc
      have hm := same_maps hs hc hc'
      rw [hc']
      dsimp only
      rcases hm.answer key with ⟨g1, g2⟩ | ⟨u, u', g1, g2, g3⟩
      · rw [g1, g2]; exact .refl _
      · rw [g1, g2]; exact .inr ⟨_, _, rfl, rfl, g3⟩

theorem allRanges_last : ∀ {As : List Map} {rs : List (Int × Int)} {z : Int × Int} (hne : As ≠ []), AllRanges As rs → rs.getLast? = some z →
    HasRange (As.getLast hne) z
  | [A], [r], z, _, h, hz => by
    simp at hz
    subst hz; exact h.1
  | [_], _ :: _ :: _, _, _, h, _ => h.2.elim
  | [], _, _, hne, _, _ => absurd rfl hne
  | _ :: _, [], _, _, h, _ => h.elim
  | _ :: _ :: _, [_], _, _, h, _ => h.2.elim
  | A :: B :: As, r :: r' :: rs, z, _, h, hz => by
    rw [List.getLast?_cons_cons] at hz
    rw [List.getLast_cons (by simp)]
    exact allRanges_last (by simp) h.2 hz

theorem hasRange_inj {A : Map} {r r' : Int × Int} (h : HasRange A r) (h' : HasRange A r') : r = r' := by
  have := (range_has.2 h).symm.trans (range_has.2 h')
  simpa using this

theorem hasRange_no {A : Map} {r : Int × Int} (h : HasRange A r) (h' : NoRange A) : False := by
  have := (range_has.2 h).symm.trans (range_no.2 h')
  simp at this

/-- what the description written by a merge says, when it is read again -/
theorem read_back {O : Map} (hO : Kept O) : ∃ P, cook (freeze O) = some P ∧ MapSame O P ∧ Kept P := by
  obtain ⟨hk, P, hc, hs⟩ := keepable_freeze hO.1 hO.2
  exact ⟨P, hc, hs, (cook_good hc).1, hO.2.same hs⟩

/-- the metadata of the new shard -/
theorem new_metadata {first O P M : Map} {s e : Int} (hs : 0 ≤ s) (hse : s ≤ e) (he : e ≤ 9223372036854775807) (hfk : Kept first)
    (hM : Metadata first M) (hO : find hazelKey O = some (freeze (put endKey (toString' e.toNat) (put startKey (toString' s.toNat) M))))
    (hP : MapSame O P) :
    HasRange P (s, e) ∧ ∃ N, Metadata P N ∧ ∀ k, k ≠ startKey → k ≠ endKey → SameAnswer (find k M) (find k N) := by
  have hMk : Kept M := meta_kept hfk hM
  have hp := put_kept (put_kept hMk start_word (toString_keepable s.toNat).1) end_word (toString_keepable e.toNat).1
  obtain ⟨N1, c1, s1, k1⟩ := read_back hp
  have ha := hP.answer hazelKey
  rw [hO] at ha
  obtain ⟨text, e1, e2⟩ := ha.some_right
  obtain ⟨N, c2, _⟩ := e2.cook_some c1
  have s2 := s1.trans (same_maps e2 c1 c2)
  have hmeta : Metadata P N := ⟨text, e1, c2⟩
  have a1 := s2.answer startKey
  rw [find_put_ne (by decide), find_put_same] at a1
  obtain ⟨a, a2, a3⟩ := a1.some_right
  have a4 := same_leaf a3 (toString_keepable s.toNat).2
  have b1 := s2.answer endKey
  rw [find_put_same] at b1
  obtain ⟨b, b2, b3⟩ := b1.some_right
  have b4 := same_leaf b3 (toString_keepable e.toNat).2
  subst a4 b4
  refine ⟨⟨N, _, _, hmeta, a2, b2, ?_, ?_, hs, hse⟩, N, hmeta, fun k h1 h2 => ?_⟩
  · rw [stoll_toString (by omega)]
    simp only [Option.some.injEq]; omega
  · rw [stoll_toString (by omega)]
    simp only [Option.some.injEq]; omega
  · have := s2.answer k
    rwa [find_put_ne h2, find_put_ne h1] at this

theorem compat_hazel {A B : Map} (h : SameAnswer (find hazelKey A) (find hazelKey B)) {x : Str} (hx : normalize A = some x) :
    (find hazelKey A = none ∧ find hazelKey B = none) ∨
    ∃ M N, Metadata A M ∧ Metadata B N ∧ ∀ k, k ≠ startKey → k ≠ endKey → SameAnswer (find k M) (find k N) := by
  rcases h with h | ⟨w, w', h1, h2, hs⟩
  · exact .inl h
  · unfold normalize at hx
    dsimp only at hx
    rw [find_erase_ne (by decide), h1] at hx
    dsimp only at hx
    cases hc : cook w with
    | none => rw [hc] at hx; cases hx
    | some M =>
      obtain ⟨N, hc', _⟩ := hs.cook_some hc
      exact .inr ⟨M, N, ⟨w, h1, hc⟩, ⟨w', h2, hc'⟩, fun k _ _ => (same_maps hs hc hc').answer k⟩

/-- the new description and what it means, in one place -/
theorem merged_read {first : Map} {l : List Map} (hl : l ≠ []) (hk : ∀ A ∈ first :: l, Kept A) {given : Option Map}
    (hg : ∀ g, given = some g → Kept g) {dna : Str} (hm : merge (first :: l) given = some dna) :
    ∃ O P range, dna = freeze O ∧ Kept O ∧ cook dna = some P ∧ Kept P ∧ MapSame O P ∧ (∀ A ∈ first :: l, Compatible first A) ∧
      Ranged (first :: l) range ∧ sequenceRange P = some range ∧ Compatible first P ∧
      SameAnswer (newParameters given ((first :: l).getLast (by simp))) (find parametersKey P) := by
  have hf := hk first (by simp)
  rcases (merge_eq hl hk given (some dna)).2 hm.symm with ⟨range, h1, h2, h3⟩ | ⟨_, h⟩
  · have hr := ranged_first h2
    obtain ⟨O, e1, hO, o1, o2, o3⟩ := mergedDna_spec hf (hk _ (List.getLast_mem (by simp))) hg hr
    rw [e1] at h3
    injection h3 with h3
    obtain ⟨P, c, hs, hP⟩ := read_back hO
    have hset : ∀ k, k ≠ parametersKey → k ≠ hazelKey → SameAnswer (find k first) (find k P) := by
      intro k k1 k2
      rw [← o1 k k1 k2]
      exact hs.answer k
    obtain ⟨x, hx⟩ := compatible_metadata (h1 first (by simp))
    refine ⟨O, P, range, h3, hO, by rw [h3]; exact c, hP, hs, h1, h2, ?_, ⟨hset, ?_⟩, ?_⟩
    · cases range with
      | none =>
        rcases h2 with ⟨_, h⟩ | ⟨_, _, _, _, _, _, _, h⟩
        · have ha := hs.answer hazelKey
          dsimp only at o3
          rw [o3] at ha
          exact range_no.2 (noRange_same ha (h first (by simp)))
        · cases h
      | some r =>
        obtain ⟨M, m1, m2⟩ := o3
        obtain ⟨r1, r2, _⟩ := hr r rfl
        have r3 : r.2 ≤ 9223372036854775807 := by
          rcases h2 with ⟨h, _⟩ | ⟨rs, a, z, g1, g2, g3, g4, g5⟩
          · cases h
          · injection g5 with g5
            rw [g5]
            obtain ⟨_, _, b, _, _, _, _, q, _⟩ := allRanges_last (by simp) g1 g4
            exact (stoll_le q).2
        exact range_has.2 (new_metadata r1 r2 r3 hf m1 m2 hs).1
    · cases range with
      | none =>
        have ha := hs.answer hazelKey
        dsimp only at o3
        rw [o3] at ha
        exact compat_hazel ha hx
      | some r =>
        obtain ⟨M, m1, m2⟩ := o3
        obtain ⟨r1, r2, _⟩ := hr r rfl
        have r3 : r.2 ≤ 9223372036854775807 := by
          rcases h2 with ⟨h, _⟩ | ⟨rs, a, z, g1, g2, g3, g4, g5⟩
          · cases h
          · injection g5 with g5
            rw [g5]
            obtain ⟨_, _, b, _, _, _, _, q, _⟩ := allRanges_last (by simp) g1 g4
            exact (stoll_le q).2
        obtain ⟨N, n1, n2⟩ := (new_metadata r1 r2 r3 hf m1 m2 hs).2
        exact .inr ⟨M, N, m1, n1, n2⟩
    · rw [← o2]
      exact hs.answer parametersKey
  · cases h

end Verif.HazelDna
