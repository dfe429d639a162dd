import Verif.Parts.Spec
import Verif.HazelDna.Open
/-
  Lemmas on the parts of warrens (C78).
-/
namespace Verif.Parts
open Verif.Recipe Verif.Dna Verif.HazelDna

/-! ### nesting -/

theorem cook_nil : cook [] = none := by decide

theorem cook_pos {v : Str} {m : Map} (h : cook v = some m) : 0 < v.length := by
  cases v with
  | nil => rw [cook_nil] at h; cases h
  | cons => simp

theorem cook_shorter {v : Str} {m : Map} (h : cook v = some m) {k w : Str} (hf : find k m = some w) : w.length < v.length :=
  (cook_good h).2 _ (find_mem hf)

theorem tagging_shorter {recipe bn br tag : Str} (h : taggingParts recipe = some (bn, br, tag)) : br.length < recipe.length := by
  unfold taggingParts at h
  split at h
  · cases h
  · rename_i m hm
    split at h
    · cases h
    · split at h
      · cases h
      · simp only [Option.some.injEq, Prod.mk.injEq] at h
        obtain ⟨_, h, _⟩ := h
        subst h
        cases hr : find recipeKey m with
        | none => exact cook_pos hm
        | some r => exact cook_shorter hm hr

theorem vocab_shorter {recipe wn wr : Str} (hne : recipe ≠ []) (h : vocabParts recipe = some (wn, wr)) : wr.length < recipe.length := by
  unfold vocabParts at h
  rw [if_neg hne] at h
  split at h
  · rename_i m hm
    split at h
    · rename_i h1 h2
      cases h
      exact cook_shorter hm h2
    · cases h
  · cases h
    exact List.length_pos_iff.2 hne

theorem unwrap_shorter {recipe wn wr : Str} (h : unwrap recipe = some (wn, wr)) : wr.length < recipe.length := by
  unfold unwrap at h
  split at h
  · cases h
  · rename_i m hm
    split at h
    · cases h
    · split at h
      · cases h
      · rename_i h2
        cases h
        exact cook_shorter hm h2

theorem check_fuel : ∀ {n k : Nat} {name recipe : Str}, recipe.length + 2 ≤ n → recipe.length + 2 ≤ k →
    checkWith n name recipe = checkWith k name recipe := by
  intro n
  induction n with
  | zero => intro k name recipe h; omega
  | succ n ih =>
    intro k name recipe h1 h2
    cases k with
    | zero => omega
    | succ k =>
      unfold checkWith
      split
      · rfl
      · split
        · split
          · rfl
          · rename_i h
            have := tagging_shorter h
            exact ih (by omega) (by omega)
        · split
          · split
            · rfl
            · rename_i h
              by_cases hr : recipe = []
              · simp [hr]
              · have := vocab_shorter hr h
                rw [ih (k := k) (by omega) (by omega)]
          · split
            · split
              · rfl
              · rename_i h
                have := unwrap_shorter h
                exact ih (by omega) (by omega)
            · rfl

theorem make_fuel {dir : Option Bool} : ∀ {n k : Nat} {name recipe : Str}, recipe.length + 2 ≤ n → recipe.length + 2 ≤ k →
    makeWith dir n name recipe = makeWith dir k name recipe := by
  intro n
  induction n with
  | zero => intro k name recipe h; omega
  | succ n ih =>
    intro k name recipe h1 h2
    cases k with
    | zero => omega
    | succ k =>
      unfold makeWith
      split
      · rfl
      · split
        · split
          · rfl
          · rename_i h
            have := tagging_shorter h
            rw [ih (k := k) (by omega) (by omega)]
        · split
          · split
            · rfl
            · split
              · rfl
              · rename_i h
                by_cases hr : recipe = []
                · subst hr
                  have e : vocabParts [] = some (hashingName, []) := rfl
                  rw [e] at h
                  cases h
                  cases n with
                  | zero => simp at h1
                  | succ n => cases k with
                    | zero => simp at h2
                    | succ k => simp [makeWith]
                · have := vocab_shorter hr h
                  rw [ih (k := k) (by omega) (by omega)]
          · split
            · split
              · rfl
              · rename_i h
                have := unwrap_shorter h
                rw [ih (k := k) (by omega) (by omega)]
            · rfl

theorem make_eq {dir : Option Bool} {n : Nat} {name recipe : Str} (h : recipe.length + 2 ≤ n) :
    makeWith dir n name recipe = make dir name recipe := make_fuel h (Nat.le_refl _)

theorem check_eq {n : Nat} {name recipe : Str} (h : recipe.length + 2 ≤ n) : checkWith n name recipe = check name recipe :=
  check_fuel h (Nat.le_refl _)

theorem check_iff_aux (counted : Bool) : ∀ {n : Nat} {name recipe : Str}, recipe.length + 2 ≤ n →
    (makeWith (some counted) n name recipe).isSome = checkWith n name recipe := by
  intro n
  induction n with
  | zero => intro name recipe h; omega
  | succ n ih =>
    intro name recipe hn
    unfold makeWith checkWith
    split
    · split <;> simp_all
    · split
      · split
        · rfl
        · rename_i h
          have := tagging_shorter h
          rw [Option.isSome_map, ih (by omega)]
      · split
        · dsimp only
          split
          · rfl
          · rename_i wn wr h
            by_cases hr : recipe = []
            · subst hr
              have e : vocabParts [] = some (hashingName, []) := rfl
              rw [e] at h
              cases h
              cases n with
              | zero => simp at hn
              | succ n => simp [makeWith]
            · have := vocab_shorter hr h
              by_cases hc : check wn wr = true
              · simp only [hr, hc, or_true, if_true, Option.isSome_map, decide_false, Bool.false_or]
                exact ih (by omega)
              · simp only [hr, hc, false_or, if_false, decide_false, Bool.false_or]
                rw [check_eq (by omega)]
                simpa using hc
        · split
          · split
            · rfl
            · rename_i h
              have := unwrap_shorter h
              rw [Option.isSome_map, ih (by omega)]
          · split <;> simp_all

/-! ### what a featurizer is made from, written otherwise -/

theorem tagging_same {r r' : Str} (h : Same r r') {bn br tag : Str} (hp : taggingParts r = some (bn, br, tag)) :
    ∃ bn' br' tag', taggingParts r' = some (bn', br', tag') ∧ Same bn bn' ∧ Same br br' ∧ Same tag tag' := by
  unfold taggingParts at hp
  split at hp
  · cases hp
  · rename_i m hm
    obtain ⟨m', hm', hs⟩ := h.cook_some hm
    split at hp
    · cases hp
    · rename_i name h1
      split at hp
      · cases hp
      · rename_i t h2
        cases hp
        obtain ⟨n', g1, g2⟩ := SameMap.find_some hs h1
        obtain ⟨t', g3, g4⟩ := SameMap.find_some hs h2
        refine ⟨n', (find recipeKey m').getD [], t', by unfold taggingParts; simp only [hm', g1, g3], g2, ?_, g4⟩
        cases h3 : find recipeKey m with
        | none => rw [SameMap.find_none hs h3]; exact Dna.Same.refl _
        | some r0 =>
          obtain ⟨r1, g5, g6⟩ := SameMap.find_some hs h3
          rw [g5]
          exact g6

theorem vocab_same {r r' : Str} (h : Same r r') {wn wr : Str} (hp : vocabParts r = some (wn, wr)) :
    ∃ wn' wr', vocabParts r' = some (wn', wr') ∧ Same wn wn' ∧ Same wr wr' := by
  unfold vocabParts at hp
  split at hp
  · rename_i e
    subst e
    cases hp
    have := h.cook_none cook_nil
    subst this
    exact ⟨_, _, rfl, Dna.Same.refl _, Dna.Same.refl _⟩
  · rename_i e
    split at hp
    · rename_i m hm
      obtain ⟨m', hm', hs⟩ := h.cook_some hm
      split at hp
      · rename_i h1 h2
        cases hp
        obtain ⟨n', g1, g2⟩ := SameMap.find_some hs h1
        obtain ⟨r1, g3, g4⟩ := SameMap.find_some hs h2
        refine ⟨n', r1, ?_, g2, g4⟩
        unfold vocabParts
        rw [if_neg (by intro e; have := cook_pos hm'; rw [e] at this; cases this)]
        simp only [hm', g1, g3]
      · cases hp
    · rename_i hn
      cases hp
      have := h.cook_none hn
      subst this
      refine ⟨_, _, ?_, Dna.Same.refl _, Dna.Same.refl _⟩
      unfold vocabParts
      rw [if_neg e]
      simp only [hn]

theorem name_leaf {k : Str} (hk : cook k = none) {n n' : Str} (h : Same n n') (e : n = k) : n' = k := by
  subst e; exact h.cook_none hk

theorem make_same {dir dir' : Option Bool} (hd : dir.isSome → dir'.isSome) : ∀ {n : Nat} {name recipe name' recipe' : Str} {f : Featurizer},
    recipe.length + 2 ≤ n → makeWith dir n name recipe = some f → Same name name' → Same recipe recipe' → f.Plain →
    ∃ f', make dir' name' recipe' = some f' ∧ SameFeatures f f' ∧ f'.Plain := by
  intro n
  induction n with
  | zero => intro name recipe name' recipe' f h; omega
  | succ n ih =>
    intro name recipe name' recipe' f hn hm h1 h2 hp
    unfold makeWith at hm
    unfold make makeWith
    split at hm
    · rename_i hname
      have hname' : name' = [] ∨ name' = hashingName := by
        rcases hname with e | e
        · exact .inl (name_leaf cook_nil h1 e)
        · exact .inr (name_leaf (by decide) h1 e)
      rw [if_pos hname']
      split at hm
      · rename_i e
        cases hm
        rw [if_pos (name_leaf cook_nil h2 e)]
        exact ⟨_, rfl, fun _ => rfl, trivial⟩
      · cases hm
    · rename_i hnot
      split at hm
      · rename_i e
        have e' : name' = taggingName := name_leaf (by decide) h1 e
        rw [if_neg (by rw [e']; decide), if_pos e']
        split at hm
        · cases hm
        · rename_i bn br tag ht
          obtain ⟨bn', br', tag', t1, t2, t3, t4⟩ := tagging_same h2 ht
          have hl := tagging_shorter ht
          have hl' := tagging_shorter t1
          cases hb : makeWith dir n bn br with
          | none => rw [hb] at hm; cases hm
          | some b =>
            rw [hb] at hm
            cases hm
            obtain ⟨hpb, hpt⟩ := hp
            obtain ⟨b', m1, m2, m3⟩ := ih (by omega) hb t2 t3 hpb
            have := t4.cook_none hpt.1
            subst this
            simp only [t1]
            rw [make_eq (by omega), m1]
            exact ⟨_, rfl, fun key => by simp only [Featurizer.featurize]; exact m2 _, m3, hpt⟩
      · split at hm
        · rename_i e
          have e' : name' = vocabName := name_leaf (by decide) h1 e
          rw [if_neg (by rw [e']; decide), if_neg (by rw [e']; decide), if_pos e']
          split at hm
          · cases hm
          · rename_i counted
            obtain ⟨counted', rfl⟩ := Option.isSome_iff_exists.1 (hd rfl)
            split at hm
            · cases hm
            · rename_i wn wr hv
              obtain ⟨wn', wr', v1, v2, v3⟩ := vocab_same h2 hv
              simp only [v1]
              split at hm
              · rename_i hc
                cases hb : makeWith (some counted) n wn wr with
                | none => rw [hb] at hm; cases hm
                | some w =>
                  rw [hb] at hm
                  have hf : f = if counted then w else .vocab w := by simpa using hm.symm
                  have hpw : w.Plain := by
                    subst hf
                    cases counted
                    · exact hp
                    · exact hp
                  by_cases hr : recipe = []
                  · have hr' : recipe' = [] := name_leaf cook_nil h2 hr
                    subst hr hr'
                    have e1 : vocabParts [] = some (hashingName, []) := rfl
                    rw [e1] at hv v1
                    cases hv
                    cases v1
                    cases n with
                    | zero => simp at hn
                    | succ n =>
                      simp [makeWith] at hb
                      subst hb
                      subst hf
                      simp only [true_or, if_true, makeWith, List.length_nil]
                      refine ⟨_, rfl, fun key => ?_, ?_⟩
                      · cases counted <;> cases counted' <;> rfl
                      · cases counted' <;> trivial
                  · have hr' : recipe' ≠ [] := fun e => hr (name_leaf cook_nil (same_symm h2) e)
                    have hl := vocab_shorter hr hv
                    have hl' := vocab_shorter hr' v1
                    obtain ⟨w', m1, m2, m3⟩ := ih (by omega) hb v2 v3 hpw
                    have hck : check wn' wr' = true := by
                      have := check_iff_aux counted' (n := wr'.length + 2) (name := wn') (recipe := wr') (Nat.le_refl _)
                      rw [show makeWith (some counted') (wr'.length + 2) wn' wr' = some w' from m1] at this
                      exact this.symm
                    rw [if_pos (.inr hck), make_eq (by omega), m1]
                    refine ⟨_, rfl, fun key => ?_, ?_⟩
                    · subst hf
                      cases counted <;> cases counted' <;> exact m2 key
                    · cases counted' <;> exact m3
              · cases hm
        · split at hm
          · rename_i e
            have e' : name' = jsonName := name_leaf (by decide) h1 e
            rw [if_neg (by rw [e']; decide), if_neg (by rw [e']; decide), if_neg (by rw [e']; decide), if_pos e']
            split at hm
            · cases hm
            · rename_i wn wr hu
              obtain ⟨wn', wr', u1, u2, u3⟩ := unwrap_same h2 hu
              have hl := unwrap_shorter hu
              have hl' := unwrap_shorter u1
              cases hb : makeWith dir n wn wr with
              | none => rw [hb] at hm; cases hm
              | some w =>
                rw [hb] at hm
                cases hm
                obtain ⟨w', m1, m2, m3⟩ := ih (by omega) hb u2 u3 hp
                simp only [u1]
                rw [make_eq (by omega), m1]
                exact ⟨_, rfl, fun key => by simp only [Featurizer.featurize]; rw [m2 key], m3⟩
          · split at hm
            · rename_i e
              have e' : name' = nullName := name_leaf (by decide) h1 e
              rw [if_neg (by rw [e']; decide), if_neg (by rw [e']; decide), if_neg (by rw [e']; decide), if_neg (by rw [e']; decide), if_pos e']
              cases hm
              exact ⟨_, rfl, fun _ => rfl, trivial⟩
            · cases hm

/-! ### how a featurizer describes itself -/

theorem nil_kept' : Kept [] := ⟨⟨.nil, fun _ h => by cases h⟩, fun _ _ h => by cases h⟩

theorem leaf_keepable {v : Str} (h : cook v = none) (h' : ∀ c ∈ v, c ≠ 0 ∧ c ≠ 0x22 ∧ c ≠ 0x5C ∧ c ≠ 0x0A) : Keepable v := .leaf h h'

theorem name_word : Word nameKey := by unfold Word; decide
theorem recipe_word : Word recipeKey := by unfold Word; decide
theorem tag_word : Word tagKey := by unfold Word; decide

theorem package_kept {n r : Str} (hn : Keepable n) (hr : Keepable r) : Kept (put recipeKey r (put nameKey n [])) :=
  put_kept (put_kept nil_kept' name_word hn) recipe_word hr

theorem package_unwrap {n r : Str} (hn : Keepable n) (hr : Keepable r) :
    ∃ n' r', unwrap (freeze (put recipeKey r (put nameKey n []))) = some (n', r') ∧ Same n n' ∧ Same r r' := by
  obtain ⟨P, h1, h2, _⟩ := read_back (package_kept hn hr)
  have a := h2.answer nameKey
  rw [find_put_ne (by decide), find_put_same] at a
  obtain ⟨n', a1, a2⟩ := a.some_right
  have b := h2.answer recipeKey
  rw [find_put_same] at b
  obtain ⟨r', b1, b2⟩ := b.some_right
  exact ⟨n', r', by unfold unwrap; simp only [h1, a1, b1], a2, b2⟩

theorem name_keepable (f : Featurizer) : Keepable f.name ∧ cook f.name = none ∧ f.name ≠ [] := by
  induction f with
  | hashing => exact ⟨.leaf (by decide) (by decide), by decide, by decide⟩
  | null => exact ⟨.leaf (by decide) (by decide), by decide, by decide⟩
  | tagging => exact ⟨.leaf (v := taggingName) (by decide) (by decide), show cook taggingName = none by decide, show taggingName ≠ [] by decide⟩
  | json => exact ⟨.leaf (v := jsonName) (by decide) (by decide), show cook jsonName = none by decide, show jsonName ≠ [] by decide⟩
  | vocab w ih => exact ih

theorem recipe_keepable : ∀ {f : Featurizer}, f.Plain → Keepable f.recipe
  | .hashing, _ => .leaf (by decide) (by decide)
  | .null, _ => .leaf (by decide) (by decide)
  | .tagging b tag, h => by
    have k := put_kept (put_kept (put_kept nil_kept' tag_word (.leaf h.2.1 h.2.2)) name_word (name_keepable b).1) recipe_word (recipe_keepable h.1)
    exact (keepable_freeze k.1 k.2).1
  | .json w, h => by
    have k := package_kept (name_keepable w).1 (recipe_keepable (f := w) h)
    unfold Featurizer.recipe
    rw [if_neg (name_keepable w).2.2]
    exact (keepable_freeze k.1 k.2).1
  | .vocab w, h => recipe_keepable (f := w) h

theorem make_json (dir : Option Bool) {r wn wr : Str} (h : unwrap r = some (wn, wr)) : make dir jsonName r = (make dir wn wr).map .json := by
  have hl := unwrap_shorter h
  show makeWith dir (r.length + 1 + 1) jsonName r = _
  unfold makeWith
  rw [if_neg (by decide), if_neg (by decide), if_neg (by decide), if_pos rfl]
  simp only [h]
  rw [make_eq (by omega)]

theorem make_tagging (dir : Option Bool) {r bn br tag : Str} (h : taggingParts r = some (bn, br, tag)) :
    make dir taggingName r = (make dir bn br).map (.tagging · tag) := by
  have hl := tagging_shorter h
  show makeWith dir (r.length + 1 + 1) taggingName r = _
  unfold makeWith
  rw [if_neg (by decide), if_pos rfl]
  simp only [h]
  rw [make_eq (by omega)]

theorem remake (dir : Option Bool) : ∀ {f : Featurizer}, f.Plain → ∃ f', make dir f.name f.recipe = some f' ∧ SameFeatures f f' ∧ f'.Plain
  | .hashing, _ => ⟨.hashing, by cases dir with | none => decide | some c => cases c <;> decide, fun _ => rfl, trivial⟩
  | .null, _ => ⟨.null, by cases dir with | none => decide | some c => cases c <;> decide, fun _ => rfl, trivial⟩
  | .vocab w, h => by
    obtain ⟨f', h1, h2⟩ := remake dir (f := w) h
    exact ⟨f', h1, h2⟩
  | .json w, h => by
    obtain ⟨f', h1, h2, h3⟩ := remake dir (f := w) h
    obtain ⟨n', r', u1, u2, u3⟩ := package_unwrap (name_keepable w).1 (recipe_keepable (f := w) h)
    obtain ⟨f'', m1, m2, m3⟩ := make_same (dir := dir) (dir' := dir) id (Nat.le_refl _) h1 u2 u3 h3
    refine ⟨.json f'', ?_, fun key => ?_, m3⟩
    · unfold Featurizer.recipe
      rw [if_neg (name_keepable w).2.2]
      show make dir jsonName _ = _
      rw [make_json dir u1, m1]
      rfl
    · simp only [Featurizer.featurize]
      rw [h2 key, m2 key]
  | .tagging b tag, h => by
    obtain ⟨f', h1, h2, h3⟩ := remake dir h.1
    have k := put_kept (put_kept (put_kept nil_kept' tag_word (.leaf h.2.1 h.2.2)) name_word (name_keepable b).1) recipe_word (recipe_keepable h.1)
    obtain ⟨P, c1, c2, _⟩ := read_back k
    have a := c2.answer nameKey
    rw [find_put_ne (by decide), find_put_same] at a
    obtain ⟨n', a1, a2⟩ := a.some_right
    have r := c2.answer recipeKey
    rw [find_put_same] at r
    obtain ⟨r', r1, r2⟩ := r.some_right
    have g := c2.answer tagKey
    rw [find_put_ne (by decide), find_put_ne (by decide), find_put_same] at g
    obtain ⟨t', g1, g2⟩ := g.some_right
    have := g2.cook_none h.2.1
    subst this
    obtain ⟨f'', m1, m2, m3⟩ := make_same (dir := dir) (dir' := dir) id (Nat.le_refl _) h1 a2 r2 h3
    refine ⟨.tagging f'' t', ?_, fun key => ?_, m3, h.2⟩
    · have ht : taggingParts (Featurizer.tagging b t').recipe = some (n', r', t') := by
        unfold taggingParts Featurizer.recipe
        simp only [c1, a1, g1, r1, Option.getD_some]
      show make dir taggingName _ = _
      rw [make_tagging dir ht, m1]
      rfl
    · simp only [Featurizer.featurize]
      rw [h2, m2]

end Verif.Parts
