import Verif.HazelDna.Steps
/-
  Properties of the descriptions of merged static shards (C76).
-/
namespace Verif.Props
open Verif.Recipe Verif.Dna Verif.HazelDna

/-- **C76** Which shards are merged: two or more, whose settings all mean the same, and which either all say nothing about the transactions
they hold, or hold transactions that follow one another without a gap. -/
theorem C76_accepted {As : List Map} (hk : ∀ A ∈ As, Kept A) {given : Option Map} (hg : ∀ g, given = some g → Kept g) :
    (merge As given).isSome ↔ ∃ first l, As = first :: l ∧ l ≠ [] ∧ (∀ A ∈ As, Compatible first A) ∧
      ((∀ A ∈ As, NoRange A) ∨ ∃ rs, AllRanges As rs ∧ Consecutive rs) := by
  cases As with
  | nil =>
    simp only [merge, Option.isSome_none, Bool.false_eq_true, false_iff]
    rintro ⟨_, _, h, _⟩
    cases h
  | cons first l =>
    by_cases hl : l = []
    · subst hl
      simp only [merge, Option.isSome_none, Bool.false_eq_true, false_iff]
      rintro ⟨_, _, h, h', _⟩
      cases h
      exact h' rfl
    · have hf := hk first (by simp)
      rcases (merge_eq hl hk given _).2 rfl with ⟨range, h1, h2, h3⟩ | ⟨h, h3⟩
      · obtain ⟨O, e, _⟩ := mergedDna_spec hf (hk _ (List.getLast_mem (by simp))) hg (ranged_first h2)
        rw [h3, e]
        simp only [Option.isSome_some, true_iff]
        refine ⟨first, l, rfl, hl, h1, ?_⟩
        rcases h2 with ⟨_, h⟩ | ⟨rs, _, _, g1, g2, _⟩
        · exact .inl h
        · exact .inr ⟨rs, g1, g2⟩
      · rw [h3]
        simp only [Option.isSome_none, Bool.false_eq_true, false_iff]
        rintro ⟨_, _, e, _, h1, h2⟩
        cases e
        refine h ?_
        rcases h2 with h2 | ⟨rs, g1, g2⟩
        · exact ⟨none, h1, .inl ⟨rfl, h2⟩⟩
        · cases rs with
          | nil => exact g1.elim
          | cons r rs =>
            exact ⟨some (r.1, ((r :: rs).getLast (by simp)).2), h1, .inr ⟨r :: rs, r, (r :: rs).getLast (by simp), g1, g2, rfl,
              List.getLast?_eq_some_getLast (by simp), rfl⟩⟩

/-- **C76** The file that a merge writes can be opened: it holds the merged index and text, its settings mean what those of the first shard
mean, it holds the transactions from the first of the first shard to the last of the last shard, and its parameters are those that
were given, or else those of the last shard. -/
theorem C76_merged {makes : Str → Str → Str → Bool} {stems : Str → Bool} (hr : Respects makes stems) {first : Map} {l : List Map} (hl : l ≠ [])
    (hk : ∀ A ∈ first :: l, Kept A ∧ complete makes stems A = true) {given : Option Map}
    (hg : ∀ g, given = some g → Kept g ∧ ∀ s, find stemmerKey g = some s → s = [] ∨ stems s = true) {dna : Str}
    (hm : merge (first :: l) given = some dna) (idx txt : List UInt8)
    (hsz : (Hazel.hazelFile dna idx txt).length ≤ 9223372036854775807) :
    ∃ new, openHazel makes stems (Hazel.hazelFile dna idx txt) = some new ∧ new.idx = idx ∧ new.txt = txt ∧
      Kept new.parameters ∧ complete makes stems new.parameters = true ∧
      (∀ A ∈ first :: l, Compatible A new.parameters) ∧
      ((new.range = none ∧ NoRange new.parameters ∧ ∀ A ∈ first :: l, NoRange A) ∨
        ∃ s s' e e', HasRange first (s, e') ∧ HasRange ((first :: l).getLast (by simp)) (s', e) ∧ new.range = some (s, e) ∧
          HasRange new.parameters (s, e)) ∧
      ∀ key, SameAnswer (match given with
          | some g => some ((find key g).getD [])
          | none => getParameter ((first :: l).getLast (by simp)) key) (getParameter new.parameters key) := by
  have hkk : ∀ A ∈ first :: l, Kept A := fun A hA => (hk A hA).1
  obtain ⟨O, P, range, e1, hO, c, hP, hs, hc, hrg, hsr, hcP, hpar⟩ := merged_read hl hkk (fun g h => (hg g h).1) hm
  obtain ⟨lines, hlines⟩ := freeze_lines hO
  rw [← e1] at hlines
  have hlast := hk _ (List.getLast_mem (l := first :: l) (by simp))
  have hfine : parametersFine stems P = true := by
    cases given with
    | none =>
      have h2 : parametersFine stems ((first :: l).getLast (by simp)) = true := by
        have h := hlast.2
        unfold complete at h
        rw [Bool.and_eq_true] at h
        exact h.2
      exact parameters_same hr hpar h2
    | some g =>
      obtain ⟨g1, g2⟩ := hg g rfl
      unfold newParameters at hpar
      obtain ⟨text, t1, t2⟩ := hpar.some_right
      obtain ⟨G, cG, sG, _⟩ := read_back g1
      obtain ⟨G', cG', _⟩ := t2.cook_some cG
      have hmG := sG.trans (same_maps t2 cG cG')
      unfold parametersFine
      rw [t1]
      dsimp only
      rw [cG']
      dsimp only
      have ha := hmG.answer stemmerKey
      cases hst : find stemmerKey g with
      | none => rw [hst] at ha; rw [ha.none_right]
      | some st =>
        rw [hst] at ha
        obtain ⟨st', q1, q2⟩ := ha.some_right
        rw [q1]
        dsimp only
        rw [Bool.or_eq_true, decide_eq_true_eq]
        rcases g2 st hst with h | h
        · subst h; exact .inl (same_leaf q2 (by decide))
        · exact .inr (hr.2 _ _ q2 h)
  have hcomplete : complete makes stems P = true := by
    have h := (hk first (by simp)).2
    unfold complete at h ⊢
    rw [Bool.and_eq_true] at h ⊢
    exact ⟨settings_same hr hcP.1 h.1, hfine⟩
  obtain ⟨x, hx⟩ := compatible_metadata hcP
  refine ⟨⟨P, range, idx, txt⟩, ?_, rfl, rfl, hP, hcomplete, fun A hA => ?_, ?_, fun key => ?_⟩
  · unfold openHazel
    rw [fileDna_ok hlines]
    dsimp only
    rw [c]
    dsimp only
    rw [if_pos hcomplete, hsr, Hazel.openFile_ok hlines hsz]
  · have h1 := (normalize_iff (hkk first (by simp)) (hkk A hA) hx).2 (hc A hA)
    exact (normalize_iff (hkk A hA) hP h1).1 ((normalize_iff (hkk first (by simp)) hP hx).2 hcP)
  · rcases hrg with ⟨h1, h2⟩ | ⟨rs, a, z, h1, h2, h3, h4, h5⟩
    · subst h1
      exact .inl ⟨rfl, range_no.1 hsr, h2⟩
    · subst h5
      refine .inr ⟨a.1, z.1, z.2, a.2, ?_, allRanges_last (by simp) h1 h4, rfl, range_has.1 hsr⟩
      cases rs with
      | nil => cases h3
      | cons r rs =>
        simp only [List.head?_cons, Option.some.injEq] at h3
        subst h3
        exact h1.1
  · cases given with
    | none => exact getParameter_same hpar key
    | some g =>
      obtain ⟨g1, g2⟩ := hg g rfl
      unfold newParameters at hpar
      obtain ⟨text, t1, t2⟩ := hpar.some_right
      obtain ⟨G, cG, sG, _⟩ := read_back g1
      obtain ⟨G', cG', _⟩ := t2.cook_some cG
      have hmG := sG.trans (same_maps t2 cG cG')
      simp only [HazelDna.getParameter, t1, cG']
      rcases hmG.answer key with ⟨q1, q2⟩ | ⟨w, w', q1, q2, q3⟩
      · rw [q1, q2]; exact .refl _
      · rw [q1, q2]; exact .inr ⟨_, _, rfl, rfl, q3⟩

/-- **C76** Merging in steps or at once: if the first shards were merged into `X`, merging `X` with the others writes exactly the description
that merging all of them at once writes, and is refused exactly when that is refused. -/
theorem C76_steps {makes : Str → Str → Str → Bool} {stems : Str → Bool} {first : Map} {l m : List Map} (hl : l ≠ []) (hm : m ≠ [])
    (hk : ∀ A ∈ first :: (l ++ m), Kept A) {given given' : Option Map} (hg : ∀ g, given = some g → Kept g) (hg' : ∀ g, given' = some g → Kept g)
    {dna : Str} (h : merge (first :: l) given = some dna) {idx txt : List UInt8} {X : Opened}
    (hX : openHazel makes stems (Hazel.hazelFile dna idx txt) = some X) :
    merge (X.parameters :: m) given' = merge (first :: (l ++ m)) given' := by
  have hkl : ∀ A ∈ first :: l, Kept A := fun A hA => hk A (by
    rcases List.mem_cons.1 hA with rfl | hA
    · simp
    · simp [hA])
  obtain ⟨O, P, range, e1, hO, c, hP, hs, hc, hrg, hsr, hcP, _⟩ := merged_read hl hkl hg h
  obtain ⟨lines, hlines⟩ := freeze_lines hO
  rw [← e1] at hlines
  have e : X.parameters = P := by
    unfold openHazel at hX
    rw [fileDna_ok hlines] at hX
    dsimp only at hX
    rw [c] at hX
    dsimp only at hX
    split at hX
    · split at hX
      · cases hX; rfl
      · cases hX
    · cases hX
  rw [e]
  exact merge_steps hl hm hk hP hrg hsr hcP hc hg'

/-- **C76** Merging by name: it is done exactly if the names say ranges that follow one another without a gap, what the shards say about their
ranges agrees with their names, and the shards can be merged; the name of the new shard says the range from the start of the first to
the end of the last. -/
theorem C76_names {l : List (List Char × Map)} {p : Str} {name : List Char} {dna : Str} :
    mergeNames l p = some (name, dna) ↔ ∃ rs a z, Named l rs ∧ Agree l rs ∧ Follow rs ∧ rs.head? = some a ∧ rs.getLast? = some z ∧
      name = Names.shardName ['h', 'a', 'z', 'e', 'l'] a.1 z.2 ∧ merge (l.map (·.2)) none = some dna := by
  match l with
  | [] =>
    simp only [mergeNames, reduceCtorEq, false_iff]
    rintro ⟨rs, a, z, h1, _, _, h2, _⟩
    cases rs with
    | nil => cases h2
    | cons _ _ => exact h1.elim
  | [(n, A)] =>
    simp only [mergeNames, reduceCtorEq, false_iff]
    rintro ⟨rs, a, z, h1, _, _, _, _, _, h⟩
    simp [merge] at h
  | (n, A) :: b :: l =>
    simp only [mergeNames]
    cases hn : Names.parseHazelName n with
    | none =>
      simp only [reduceCtorEq, false_iff]
      rintro ⟨rs, a, z, h1, _⟩
      cases rs with
      | nil => exact h1.elim
      | cons r rs =>
        have := h1.1
        rw [hn] at this; cases this
    | some r =>
      obtain ⟨s, e⟩ := r
      dsimp only
      cases hr : sequenceRange A with
      | none =>
        simp only [reduceCtorEq, false_iff]
        rintro ⟨rs, a, z, h1, h2, _⟩
        cases rs with
        | nil => exact h1.elim
        | cons r rs =>
          rcases h2.1 with h | h
          · rw [range_no.2 h] at hr; cases hr
          · rw [range_has.2 h] at hr; cases hr
      | some o =>
        dsimp only
        have ag := agree_iff (s := s) (e := e) hr
        by_cases hb : (o.any fun x => decide (x.1 ≠ (s : Int) ∨ x.2 ≠ (e : Int))) = true
        · rw [if_pos hb]
          simp only [reduceCtorEq, false_iff]
          rintro ⟨rs, a, z, h1, h2, _⟩
          cases rs with
          | nil => exact h1.elim
          | cons r rs =>
            have h3 := h1.1
            rw [hn] at h3
            cases h3
            exact ag.1 h2.1 hb
        · rw [if_neg hb]
          have nl := nameLoop_some (b :: l) e
          rw [List.map_cons]
          constructor
          · intro h
            split at h
            · cases h
            · rename_i e' he
              split at h
              · cases h
              · rename_i d hd
                cases h
                obtain ⟨rs, h1, h2, h3, h4⟩ := (nl e').1 he
                cases rs with
                | nil => exact h1.elim
                | cons r rs =>
                  refine ⟨(s, e) :: r :: rs, (s, e), (r :: rs).getLast (by simp), ⟨hn, h1⟩, ⟨ag.2 hb, h2⟩, ⟨h3.1, h3.2⟩, rfl, ?_, ?_, hd⟩
                  · rw [List.getLast?_cons_cons, List.getLast?_eq_some_getLast (by simp)]
                  · rw [h4, List.getLast?_eq_some_getLast (by simp)]; rfl
          · rintro ⟨rs, a, z, h1, h2, h3, h4, h5, h6, h7⟩
            cases rs with
            | nil => exact h1.elim
            | cons r rs =>
              have h8 := h1.1
              rw [hn] at h8
              cases h8
              cases rs with
              | nil => exact h1.2.elim
              | cons r rs =>
                simp only [List.head?_cons, Option.some.injEq] at h4
                subst h4
                rw [List.getLast?_cons_cons] at h5
                rw [(nl z.2).2 ⟨r :: rs, h1.2, h2.2, ⟨h3.1, h3.2⟩, by rw [h5]; rfl⟩]
                simp only
                simp only [List.map_cons] at h7
                rw [h7, h6]

/-! ### these are not empty promises -/

/-- `featurizer`, `tokenizer`, … of a shard, by name -/
def pack (name : Str) : Str := freeze (put nameKey name (put recipeKey [] []))

/-- a shard with the transactions from `s` to `e`, and one parameter -/
def sample (s e : Nat) (p : Str) : Map :=
  put parametersKey (freeze (put [0x61] p [])) (put hazelKey (freeze (put endKey (toString' e) (put startKey (toString' s) [])))
    (put txtKey (pack hazelKey) (put idxKey (pack hazelKey) (put tokenizerKey (pack [0x78]) (put featurizerKey (pack [0x79]) (put warrenKey hazelKey []))))))

theorem nil_kept : Kept [] := ⟨⟨.nil, fun _ h => by cases h⟩, fun _ _ h => by cases h⟩

theorem pack_keepable {name : Str} (h : Keepable name) : Keepable (pack name) := by
  have k := put_kept (put_kept nil_kept (k := recipeKey) (by unfold Word; decide) (.leaf (v := []) (by decide) (by decide)))
    (k := nameKey) (by unfold Word; decide) h
  exact (keepable_freeze k.1 k.2).1

theorem sample_kept (s e : Nat) {p : Str} (hp : Keepable p) : Kept (sample s e p) := by
  have hh : Keepable hazelKey := .leaf (by decide) (by decide)
  have hx : Keepable [0x78] := .leaf (by decide) (by decide)
  have hy : Keepable [0x79] := .leaf (by decide) (by decide)
  have k1 := put_kept (put_kept nil_kept start_word (toString_keepable s).1) end_word (toString_keepable e).1
  have k2 := put_kept nil_kept (k := [0x61]) (by unfold Word; decide) hp
  refine put_kept (put_kept (put_kept (put_kept (put_kept (put_kept (put_kept nil_kept ?_ hh) ?_ (pack_keepable hy)) ?_ (pack_keepable hx)) ?_
    (pack_keepable hh)) ?_ (pack_keepable hh)) hazel_word (keepable_freeze k1.1 k1.2).1) ?_ (keepable_freeze k2.1 k2.2).1 <;> (unfold Word; decide)

/-- Shards 3-4, 5-5 and 6-9 can be merged; 3-4 and 6-9 cannot. -/
example : (merge [sample 3 4 [0x62], sample 5 5 [0x63], sample 6 9 [0x64]] none).isSome = true ∧
    merge [sample 3 4 [0x62], sample 6 9 [0x64]] none = none := by
  refine ⟨?_, ?_⟩ <;> decide +kernel

/-- The shard merged from them is opened, and has the range 3-9 and the parameters of the last. -/
example : (openHazel (fun _ _ _ => true) (fun _ => true)
      (Hazel.hazelFile ((merge [sample 3 4 [0x62], sample 5 5 [0x63], sample 6 9 [0x64]] none).getD []) [1, 2] [3])).map
        (fun o => (o.range, o.idx, o.txt, getParameter o.parameters [0x61])) =
    some (some (3, 9), [1, 2], [3], some [0x64]) := by
  decide +kernel

example : Respects (fun _ _ _ => true) (fun _ => true) := ⟨fun _ _ _ _ _ _ _ _ => rfl, fun _ _ _ _ => rfl⟩

example : ∀ A ∈ [sample 3 4 [0x62], sample 5 5 [0x63], sample 6 9 [0x64]], Kept A ∧ complete (fun _ _ _ => true) (fun _ => true) A = true := by
  intro A hA
  simp only [List.mem_cons, List.not_mem_nil, or_false] at hA
  rcases hA with rfl | rfl | rfl
  · exact ⟨sample_kept _ _ (.leaf (by decide) (by decide)), by decide +kernel⟩
  · exact ⟨sample_kept _ _ (.leaf (by decide) (by decide)), by decide +kernel⟩
  · exact ⟨sample_kept _ _ (.leaf (by decide) (by decide)), by decide +kernel⟩

/-- By name: the new name says the range of both. -/
example : (mergeNames [(['h', 'a', 'z', 'e', 'l', '.', '3', '.', '4'], sample 3 4 [0x62]),
    (['h', 'a', 'z', 'e', 'l', '.', '5', '.', '5'], sample 5 5 [0x63])] []).map (fun x => Names.parseHazelName x.1) = some (some (3, 5)) := by
  decide +kernel

/-- What **C76** does not promise: names whose numbers are in the wrong order are accepted, where the shards say nothing about their
ranges; the name of the new shard then is in the wrong order too. -/
theorem C76_backward : ∃ l name dna, mergeNames l [] = some (name, dna) ∧ Names.parseHazelName name = some (5, 3) := by
  refine ⟨[(['h', 'a', 'z', 'e', 'l', '.', '5', '.', '3'], []), (['h', 'a', 'z', 'e', 'l', '.', '4', '.', '3'], [])],
    Names.shardName ['h', 'a', 'z', 'e', 'l'] 5 3, (merge [[], []] none).getD [], by decide +kernel, by decide +kernel⟩

end Verif.Props
