import Verif.Parts.Proof
/-
  Lemmas for C78: building and opening.
-/
namespace Verif.Parts
open Verif.Recipe Verif.Dna Verif.HazelDna

/-! ### parts whose names and recipes are written otherwise -/

theorem tokenizer_same {n r n' r' : Str} (h1 : Same n n') (h2 : Same r r') {t : Tokenizer} (h : makeTokenizer n r = .ok t) :
    makeTokenizer n' r' = .ok t := by
  have key : n' = n ∧ r' = r := by
    unfold makeTokenizer at h
    split at h
    · rename_i e
      have hn : n' = n := by
        rcases e with e | e
        · rw [name_leaf cook_nil h1 e, e]
        · rw [name_leaf (by decide) h1 e, e]
      refine ⟨hn, ?_⟩
      split at h
      · rename_i e
        rcases e with e | e
        · rw [name_leaf cook_nil h2 e, e]
        · rw [name_leaf (by decide) h2 e, e]
      · split at h
        · rename_i e
          rw [name_leaf (by decide) h2 e, e]
        · cases h
    · split at h
      · rename_i e
        split at h
        · rename_i e'
          exact ⟨by rw [name_leaf (by decide) h1 e, e], by rw [name_leaf cook_nil h2 e', e']⟩
        · cases h
      · cases h
  rw [key.1, key.2]
  exact h

theorem compressor_same {n r n' r' : Str} (h1 : Same n n') (h2 : Same r r') {c : Compressor} (h : checkedCompressor n r = some c) :
    checkedCompressor n' r' = some c := by
  unfold checkedCompressor at h
  split at h
  · rename_i hc
    unfold checkCompressor at hc
    split at hc
    · rename_i e
      have hn : n' = n := by
        rcases e with e | e | e | e
        · rw [name_leaf cook_nil h1 e, e]
        · rw [name_leaf (by decide) h1 e, e]
        · rw [name_leaf (by decide) h1 e, e]
        · rw [name_leaf (by decide) h1 e, e]
      have e' : r = [] := by simpa using hc
      have hr : r' = r := by rw [name_leaf cook_nil h2 e', e']
      rw [hn, hr]
      unfold checkedCompressor checkCompressor
      rw [if_pos e, if_pos hc]
      exact h
    · rename_i ne
      split at hc
      · rename_i e
        have hn : n' = n := by rw [name_leaf (by decide) h1 e, e]
        have hr : r' = r := by
          rcases (by simpa using hc : r = [] ∨ r = componentRecipe) with e' | e'
          · rw [name_leaf cook_nil h2 e', e']
          · rw [name_leaf (by decide) h2 e', e']
        rw [hn, hr]
        unfold checkedCompressor checkCompressor
        rw [if_neg ne, if_pos e, if_pos hc]
        exact h
      · have e : n = badName := by simpa using hc
        have e' : n' = badName := name_leaf (by decide) h1 e
        subst e e'
        have b : ∀ x, checkedCompressor badName x = some .bad := by
          intro x
          have k : checkCompressor badName x = true := by
            unfold checkCompressor
            rw [if_neg (by decide), if_neg (by decide)]
            decide
          unfold checkedCompressor makeCompressor
          rw [if_pos k, if_neg (by decide), if_neg (by decide), if_neg (by decide), if_neg (by decide), if_pos rfl]
        have b' : makeCompressor badName r = some .bad := by
          unfold makeCompressor
          rw [if_neg (by decide), if_neg (by decide), if_neg (by decide), if_neg (by decide), if_pos rfl]
        rw [b'] at h
        rw [b]
        exact h
  · cases h

theorem getD_same {m m' : Map} (h : SameMap m m') (k d : Str) : Same ((find k m).getD d) ((find k m').getD d) := by
  cases hf : find k m with
  | none => rw [SameMap.find_none h hf]; exact Dna.Same.refl _
  | some v =>
    obtain ⟨v', e, hs⟩ := SameMap.find_some h hf
    rw [e]
    exact hs

theorem txt_same {n r n' r' : Str} (h1 : Same n n') (h2 : Same r r') {c : Compressor} (h : makeTxt n r = some c) : makeTxt n' r' = some c := by
  unfold makeTxt at h ⊢
  split at h
  · rename_i e
    rw [if_pos (e.imp (name_leaf cook_nil h1) (name_leaf (by decide) h1))]
    unfold interpretTxt at h ⊢
    by_cases hr : r = []
    · rw [if_pos (name_leaf cook_nil h2 hr)]
      rw [if_pos hr] at h
      exact h
    · rw [if_neg hr] at h
      rw [if_neg (fun e => hr (name_leaf cook_nil (same_symm h2) e))]
      cases hc : cook r with
      | none => rw [hc] at h; cases h
      | some m =>
        obtain ⟨m', hm', hs⟩ := h2.cook_some hc
        rw [hc] at h
        rw [hm']
        exact compressor_same (getD_same hs _ _) (getD_same hs _ _) h
  · cases h

theorem idx_same {n r n' r' : Str} (h1 : Same n n') (h2 : Same r r') {c : Compressor × Compressor} (h : makeIdx n r = some c) :
    makeIdx n' r' = some c := by
  unfold makeIdx at h ⊢
  split at h
  · rename_i e
    rw [if_pos (e.imp (name_leaf cook_nil h1) (name_leaf (by decide) h1))]
    unfold interpretIdx at h ⊢
    by_cases hr : r = []
    · rw [if_pos (name_leaf cook_nil h2 hr)]
      rw [if_pos hr] at h
      exact h
    · rw [if_neg hr] at h
      rw [if_neg (fun e => hr (name_leaf cook_nil (same_symm h2) e))]
      cases hc : cook r with
      | none => rw [hc] at h; cases h
      | some m =>
        obtain ⟨m', hm', hs⟩ := h2.cook_some hc
        rw [hc] at h
        rw [hm']
        dsimp only at h ⊢
        split at h
        · cases h
        · rename_i f p hfp
          split at hfp
          · rename_i fn fr pn pr f1 f2 f3 f4
            cases hfp
            obtain ⟨_, g1, s1⟩ := SameMap.find_some hs f1
            obtain ⟨_, g2, s2⟩ := SameMap.find_some hs f2
            obtain ⟨_, g3, s3⟩ := SameMap.find_some hs f3
            obtain ⟨_, g4, s4⟩ := SameMap.find_some hs f4
            simp only [g1, g2, g3, g4]
            split at h
            · rename_i a b ha hb
              rw [compressor_same s1 s2 ha, compressor_same s3 s4 hb]
              exact h
            · cases h
          · cases hfp
  · cases h

/-! ### opening -/

theorem unwrap_cook {v n r : Str} (h : unwrap v = some (n, r)) : ∃ m, cook v = some m ∧ look nameKey m = n ∧ look recipeKey m = r := by
  unfold unwrap at h
  split at h
  · cases h
  · rename_i m hm
    split at h
    · cases h
    · rename_i h1
      split at h
      · cases h
      · rename_i h2
        cases h
        exact ⟨m, hm, by unfold look; rw [h1]; rfl, by unfold look; rw [h2]; rfl⟩

theorem nameAndRecipe_cook {m : Map} {key n r : Str} (h : nameAndRecipe m key = some (n, r)) :
    ∃ p, cook (look key m) = some p ∧ look nameKey p = n ∧ look recipeKey p = r := by
  unfold nameAndRecipe at h
  split at h
  · cases h
  · rename_i item hf
    have : look key m = item := by unfold look; rw [hf]; rfl
    rw [this]
    exact unwrap_cook h

/-- a description from which the parts can be made, as written and as read -/
theorem opened {file : File} {dna : Str} {m m' : Map} (hr : readDna file = some dna) (hc : cook dna = some m') (hs : MapSame m m')
    {f t x i : Str × Str} (hf : nameAndRecipe m featurizerKey = some f) (ht : nameAndRecipe m tokenizerKey = some t)
    (hx : nameAndRecipe m txtKey = some x) (hi : nameAndRecipe m idxKey = some i) {dir : Option Bool} {F : Featurizer}
    (mf : make dir f.1 f.2 = some F) (hp : F.Plain) {T : Tokenizer} (mt : makeTokenizer t.1 t.2 = .ok T) {X : Compressor}
    (mx : makeTxt x.1 x.2 = some X) {A B : Compressor} (mi : makeIdx i.1 i.2 = some (A, B)) (counted : Bool) :
    ∃ P, openSimple counted file = .ok P ∧ SameParts ⟨F, T, X, A, B⟩ P := by
  obtain ⟨f', f1, f2, f3⟩ := nameAndRecipe_same (hs.answer featurizerKey) hf
  obtain ⟨t', t1, t2, t3⟩ := nameAndRecipe_same (hs.answer tokenizerKey) ht
  obtain ⟨x', x1, x2, x3⟩ := nameAndRecipe_same (hs.answer txtKey) hx
  obtain ⟨i', i1, i2, i3⟩ := nameAndRecipe_same (hs.answer idxKey) hi
  obtain ⟨F', m1, m2, _⟩ := make_same (dir' := some counted) (fun _ => rfl) (Nat.le_refl _) mf f2 f3 hp
  obtain ⟨_, p1, p2, p3⟩ := nameAndRecipe_cook f1
  obtain ⟨_, q1, q2, q3⟩ := nameAndRecipe_cook t1
  obtain ⟨_, r1, r2, r3⟩ := nameAndRecipe_cook x1
  obtain ⟨_, s1, s2, s3⟩ := nameAndRecipe_cook i1
  refine ⟨⟨F', T, X, A, B⟩, ?_, m2, rfl, rfl, rfl, rfl⟩
  unfold openSimple
  simp only [hr, hc, p1, p2, p3, m1]
  unfold openTokenizer
  simp only [q1, q2, q3, tokenizer_same t2 t3 mt]
  unfold openTxt
  simp only [r1, r2, r3, txt_same x2 x3 mx]
  unfold openIdx
  simp only [s1, s2, s3, idx_same i2 i3 mi]

/-! ### options -/

theorem munchString_mem {q : UInt8} {s acc v r : Str} (h : munchString q s acc = (v, r)) :
    (∀ c ∈ v, c ∈ acc ∨ c ∈ s) ∧ ∀ c ∈ r, c ∈ s := by
  fun_induction munchString q s acc <;> grind

theorem munchMap_mem {o : Option UInt8} {n : Nat} {s acc v r : Str} (h : munchMap o n s acc = (v, r)) :
    (∀ c ∈ v, c ∈ acc ∨ c ∈ s) ∧ ∀ c ∈ r, c ∈ s := by
  fun_induction munchMap o n s acc <;> grind

theorem value_mem {s v r : Str} (h : value s = some (v, r)) : (∀ c ∈ v, c ∈ s) ∧ ∀ c ∈ r, c ∈ s := by
  unfold value at h
  cases s with
  | nil => cases h
  | cons q s =>
    simp only at h
    split at h
    · split at h
      · rename_i v' c r' hm
        split at h
        · have := munchString_mem hm
          obtain ⟨rfl, rfl⟩ : v' = v ∧ r' = r := by simpa using h
          grind
        · cases h
      · cases h
    · split at h
      · rename_i hq
        split at h
        · rename_i v' c r' hm
          split at h
          · rename_i hc
            have := munchMap_mem hm
            obtain ⟨h1, rfl⟩ : [0x5B] ++ v' ++ [0x5D] = v ∧ r' = r := by simpa using h
            subst h1 hq hc
            grind
          · cases h
        · cases h
      · cases h

theorem skipSpace_mem {s : Str} : ∀ c ∈ skipSpace s, c ∈ s := fun _ h => (List.dropWhile_sublist _).mem h

theorem items_mem : ∀ {fuel : Nat} {s : Str} {m m' : Map}, items fuel s m = some m' →
    ∀ kv ∈ m', kv ∈ m ∨ ∀ c ∈ kv.2, c ∈ s := by
  intro fuel
  induction fuel with
  | zero => intro s m m' h; cases h
  | succ fuel ih =>
    intro s m m' h
    unfold items at h
    have l0 := skipSpace_mem (s := s)
    split at h
    · cases h
    · rename_i c s1 e1
      rw [e1] at l0
      have hfin : ∀ {x : Str} {k : Map}, finish x k = some m' → k = m' := by
        intro x k h
        unfold finish at h
        split at h
        · simpa using h
        · cases h
      split at h
      · have := hfin h
        subst this
        exact fun kv hkv => Or.inl hkv
      · split at h
        · split at h
          · cases h
          · rename_i c2 s2 e2
            have l1 : ∀ c ∈ s1.dropWhile identifier, c ∈ s1 := fun _ h => (List.dropWhile_sublist _).mem h
            have l2 := skipSpace_mem (s := s1.dropWhile identifier)
            rw [e2] at l2
            have l2' : ∀ c ∈ s2, c ∈ s := fun c h => l0 c (List.mem_cons_of_mem _ (l1 c (l2 c (List.mem_cons_of_mem _ h))))
            split at h
            · split at h
              · cases h
              · rename_i v s3 e3
                have l3 := value_mem e3
                have l4 := skipSpace_mem (s := s2)
                have hv : ∀ c ∈ v, c ∈ s := fun c h => l2' c (l4 c (l3.1 c h))
                have hs3 : ∀ c ∈ s3, c ∈ s := fun c h => l2' c (l4 c (l3.2 c h))
                have hmem : ∀ kv ∈ put (c :: s1.takeWhile identifier) v m, kv ∈ m ∨ ∀ c ∈ kv.2, c ∈ s := by
                  intro kv hkv
                  rcases mem_put hkv with rfl | hkv
                  · exact .inr hv
                  · exact .inl hkv
                split at h
                · cases h
                · rename_i c4 s4 e4
                  have l5 := skipSpace_mem (s := s3)
                  rw [e4] at l5
                  split at h
                  · have := hfin h
                    subst this
                    exact hmem
                  · split at h
                    · intro kv hkv
                      rcases ih h kv hkv with h3 | h3
                      · exact hmem kv h3
                      · exact .inr fun c hc => hs3 c (l5 c (List.mem_cons_of_mem _ (h3 c hc)))
                    · cases h
            · cases h
        · cases h

theorem cook_mem {v : Str} {m : Map} (h : cook v = some m) : ∀ kv ∈ m, ∀ c ∈ kv.2, c ∈ v := by
  unfold cook parse at h
  have l0 := skipSpace_mem (s := v.takeWhile (· ≠ 0))
  split at h
  · cases h
  · rename_i c s e
    rw [e] at l0
    split at h
    · intro kv hkv c hc
      rcases items_mem h kv hkv with h3 | h3
      · cases h3
      · exact (List.takeWhile_sublist _).mem (l0 c (List.mem_cons_of_mem _ (h3 c hc)))
    · cases h

def Clean (v : Str) : Prop := ∀ c ∈ v, c ≠ 0 ∧ c ≠ 0x22 ∧ c ≠ 0x5C ∧ c ≠ 0x0A

theorem clean_keepable : ∀ {n : Nat} {v : Str}, v.length < n → Clean v → Keepable v := by
  intro n
  induction n with
  | zero => intro v h; omega
  | succ n ih =>
    intro v hl hc
    cases h : cook v with
    | none => exact .leaf h hc
    | some p =>
      refine .node h fun k w hw => ih ?_ fun c hcw => hc c (cook_mem h _ (find_mem hw) c hcw)
      have := cook_shorter h hw
      omega

theorem splitAt_mem (c : UInt8) : ∀ (s : Str), ∀ p ∈ splitAt c s, ∀ d ∈ p, d ∈ s := by
  intro s
  induction s with
  | nil => intro p hp d hd; simp [splitAt] at hp; subst hp; cases hd
  | cons a s ih =>
    intro p hp d hd
    unfold splitAt at hp
    split at hp
    · rcases List.mem_cons.1 hp with rfl | hp
      · cases hd
      · exact List.mem_cons_of_mem _ (ih p hp d hd)
    · split at hp
      · simp at hp; subst hp; simpa using Or.inl (by simpa using hd)
      · rename_i q qs e
        rw [e] at ih
        rcases List.mem_cons.1 hp with rfl | hp
        · rcases List.mem_cons.1 hd with rfl | hd
          · exact List.mem_cons_self
          · exact List.mem_cons_of_mem _ (ih q List.mem_cons_self d hd)
        · exact List.mem_cons_of_mem _ (ih p (List.mem_cons_of_mem _ hp) d hd)

theorem pieces_clean {c : UInt8} {s : Str} (h : Clean s) : ∀ p ∈ pieces c s, Keepable p := by
  intro p hp
  have hm : p ∈ splitAt c s := by
    unfold pieces at hp
    split at hp
    · rename_i q e
      rw [e]
      exact hp
    · split at hp
      · exact (List.dropLast_sublist _).mem hp
      · exact hp
  exact clean_keepable (Nat.lt_succ_self _) fun d hd => h d (splitAt_mem c s p hm d hd)

theorem options_clean : ∀ {s w : Str}, CleanRecipe s → Clean w → ∀ o ∈ options s w, Clean o := by
  intro s
  induction s with
  | nil => intro w _ hw o ho; simp [options] at ho; subst ho; exact hw
  | cons c s ih =>
    intro w hs hw o ho
    have hs' : CleanRecipe s := fun d hd => hs d (List.mem_cons_of_mem _ hd)
    unfold options at ho
    split at ho
    · rcases List.mem_cons.1 ho with rfl | ho
      · exact hw
      · exact ih hs' (fun _ h => by cases h) o ho
    · rename_i hsp
      refine ih hs' ?_ o ho
      intro d hd
      rcases List.mem_append.1 hd with hd | hd
      · exact hw d hd
      · have : d = c := by simpa using hd
        subst this
        obtain ⟨a, b, e⟩ := hs d List.mem_cons_self
        exact ⟨a, b, e, fun e => hsp (by rw [e]; decide)⟩

theorem found_word {v : Str} {m : Map} (h : cook v = some m) {k w : Str} (hf : find k m = some w) : Word k :=
  (cook_good h).1.words _ (find_mem hf)

theorem kept_find {m : Map} (h : Kept m) {k w : Str} (hf : find k m = some w) : Keepable w := h.2 k w hf

theorem kept_freeze {m : Map} (h : Kept m) : Keepable (freeze m) := (keepable_freeze h.1 h.2).1

theorem colon_kept {dna : Str} {P : Map} (hc : cook dna = some P) (hk : Kept P) {ps : List Str} (hp : ∀ p ∈ ps, Keepable p) {dna' : Str}
    (h : interpretColon P ps = .ok dna') : ∃ M, Kept M ∧ dna' = freeze M := by
  unfold interpretColon at h
  split at h
  · cases h
  · rename_i x rest
    split at h
    · cases h
    · rename_i item hf
      have hitem := kept_find hk hf
      have hx := found_word hc hf
      split at h
      · cases h
      · rename_i ip hi
        have hip : Kept ip := keepable_map hitem hi
        split at h
        · cases h
        · rename_i y
          cases h
          exact ⟨_, put_kept hk hx (kept_freeze (put_kept hip recipe_word (hp y (by simp)))), rfl⟩
        · rename_i y z _
          have hz := hp z (by simp)
          split at h
          · cases h
            exact ⟨_, put_kept hk hx (kept_freeze (put_kept (put_kept hip name_word hz) recipe_word (.leaf (by decide) (by decide)))), rfl⟩
          · split at h
            · cases h
            · rename_i ir hir
              split at h
              · cases h
              · rename_i l hl
                split at h
                · cases h
                · rename_i hy
                  cases h
                  have hlk : Kept l := keepable_map (kept_find hip hir) hl
                  exact ⟨_, put_kept hk hx (kept_freeze (put_kept hip recipe_word (kept_freeze (put_kept hlk (found_word hl hy) hz)))), rfl⟩

/-- a description as the builder has it -/
def Described (dna : Str) : Prop := dna = defaultDna ∨ ∃ M, Kept M ∧ dna = freeze M

def keepB : Nat → Str → Bool
  | 0, _ => false
  | n + 1, v => match cook v with
    | none => v.all fun c => c ≠ 0 ∧ c ≠ 0x22 ∧ c ≠ 0x5C ∧ c ≠ 0x0A
    | some p => p.all fun kv => keepB n kv.2

theorem keepB_sound : ∀ {n : Nat} {v : Str}, keepB n v = true → Keepable v := by
  intro n
  induction n with
  | zero => intro v h; cases h
  | succ n ih =>
    intro v h
    unfold keepB at h
    split at h
    · rename_i hc
      exact .leaf hc fun c hcv => by simpa using List.all_eq_true.1 h c hcv
    · rename_i p hc
      exact .node hc fun k w hw => ih (List.all_eq_true.1 h _ (find_mem hw))

theorem default_keepable : Keepable defaultDna := keepB_sound (n := 5) (by decide +kernel)

theorem Described.keepable {dna : Str} (h : Described dna) : Keepable dna := by
  rcases h with rfl | ⟨M, hk, rfl⟩
  · exact default_keepable
  · exact kept_freeze hk

theorem interpret_described {dna o dna' : Str} (hd : Described dna) (ho : Clean o) (h : interpret dna o = .ok dna') : Described dna' := by
  unfold interpret at h
  split at h
  · cases h; exact hd
  · split at h
    · cases h
    · rename_i P hP
      have hk : Kept P := keepable_map hd.keepable hP
      split at h
      · rename_i x y he
        split at h
        · cases h
        · rename_i item hf
          cases h
          have hy := pieces_clean ho y (by rw [he]; simp)
          exact .inr ⟨_, put_kept hk (found_word hP hf) (kept_freeze (put_kept (put_kept nil_kept' name_word hy) recipe_word (kept_find hk hf))), rfl⟩
      · exact .inr (colon_kept hP hk (pieces_clean ho) h)

theorem apply_described : ∀ {os : List Str} {dna dna' : Str}, Described dna → (∀ o ∈ os, Clean o) → applyOptions dna os = .ok dna' →
    Described dna' := by
  intro os
  induction os with
  | nil => intro dna dna' hd _ h; cases h; exact hd
  | cons o os ih =>
    intro dna dna' hd ho h
    unfold applyOptions at h
    split at h
    · cases h
    · cases h
    · rename_i d hi
      exact ih (interpret_described hd (ho o (by simp)) hi) (fun o' h' => ho o' (by simp [h'])) h

theorem default_read : ∃ m, cook defaultDna = some m ∧ ∃ s, readDna (some (header ++ [0x0A] ++ defaultDna)) = some s ∧ cook s = some m := by
  have h : (cook defaultDna).isSome = true ∧ (readDna (some (header ++ [0x0A] ++ defaultDna))).bind cook = cook defaultDna := by decide +kernel
  obtain ⟨m, hm⟩ := Option.isSome_iff_exists.1 h.1
  rw [hm] at h
  obtain ⟨s, h1, h2⟩ := Option.bind_eq_some_iff.1 h.2
  exact ⟨m, hm, s, h1, h2⟩

theorem Described.read {dna : Str} (h : Described dna) :
    ∃ m s m', cook dna = some m ∧ readDna (some (header ++ [0x0A] ++ dna)) = some s ∧ cook s = some m' ∧ MapSame m m' := by
  rcases h with rfl | ⟨M, hk, rfl⟩
  · obtain ⟨m, hm, s, h1, h2⟩ := default_read
    exact ⟨m, s, m, hm, h1, h2, rfl, fun k w w' h h' => by rw [h] at h'; cases h'; exact Dna.Same.refl _⟩
  · obtain ⟨P, c1, c2, _⟩ := read_back hk
    obtain ⟨m', d1, d2⟩ := cook_stored hk.1 hk.2
    exact ⟨P, _, m', c1, readDna_freeze M, d1, (mapSame_symm c2).trans d2⟩

/-! ### what is extracted and what is opened -/

theorem extract_spec {dna part key z : Str} {m : Map} (hc : cook dna = some m) {n r : Str} (hn : nameAndRecipe m part = some (n, r))
    (hp : pieces 0x3A (optionKey part key) = [part, key]) (hk : key ≠ nameKey) (h : extract dna (optionKey part key) = .ok z) :
    ∃ l, cook r = some l ∧ find key l = some z := by
  unfold extract at h
  rw [hc, hp] at h
  unfold nameAndRecipe at hn
  dsimp only at h
  split at hn
  · cases hn
  · rename_i item hf
    rw [hf] at h
    dsimp only at h
    unfold unwrap at hn
    split at hn
    · cases hn
    · rename_i ip hip
      rw [hip] at h
      dsimp only at h
      split at hn
      · cases hn
      · rename_i h1
        split at hn
        · cases hn
        · rename_i h2
          cases hn
          rw [h1, h2] at h
          dsimp only at h
          rw [if_neg hk] at h
          split at h
          · cases h
          · rename_i l hl
            split at h
            · cases h
            · rename_i hz
              cases h
              exact ⟨l, hl, hz⟩

theorem pair_spec {dna part key rkey : Str} {m : Map} (hc : cook dna = some m) {n r : Str} (hn : nameAndRecipe m part = some (n, r))
    (hp : pieces 0x3A (optionKey part key) = [part, key] ∧ key ≠ nameKey)
    (hp' : pieces 0x3A (optionKey part rkey) = [part, rkey] ∧ rkey ≠ nameKey) {x : Str × Str} (h : extractPair dna part key rkey = .ok x) :
    ∃ l, cook r = some l ∧ find key l = some x.1 ∧ find rkey l = some x.2 := by
  unfold extractPair at h
  split at h
  · cases h
  · cases h
  · rename_i a ha
    split at h
    · cases h
    · cases h
    · rename_i b hb
      cases h
      obtain ⟨l, h1, h2⟩ := extract_spec hc hn hp.1 hp.2 ha
      obtain ⟨l', h1', h2'⟩ := extract_spec hc hn hp'.1 hp'.2 hb
      rw [h1] at h1'
      cases h1'
      exact ⟨l, h1, h2, h2'⟩

/-- What a checked description says is what the builder uses and what can be opened. -/
theorem build_opens {counted : Bool} {dna : Str} (hd : Described dna) (hck : checkDna dna = true) {P : Parts} {dna' : Str}
    (h : buildDna counted dna = .ok (P, dna')) (hp : P.featurizer.Plain) (counted' : Bool) :
    dna' = dna ∧ ∃ Q, openSimple counted' (some (header ++ [0x0A] ++ dna)) = .ok Q ∧ SameParts P Q := by
  obtain ⟨m, s, m', hc, hr, hc', hs⟩ := hd.read
  unfold checkDna named at hck
  simp only [hc] at hck
  split at hck
  · rename_i t f i x ht hf hi hx
    simp only [Bool.and_eq_true, decide_eq_true_eq] at hck
    obtain ⟨⟨⟨⟨⟨_, _⟩, i1⟩, i2⟩, x1⟩, x2⟩ := hck
    unfold buildDna at h
    split at h
    · cases h
    · cases h
    · rename_i posting hpo
      split at h
      · cases h
      · cases h
      · rename_i fvalue hfv
        split at h
        · cases h
        · cases h
        · rename_i text htx
          obtain ⟨l, l1, l2, l3⟩ := pair_spec hc (n := i.1) (r := i.2) hi (by decide) (by decide) hpo
          obtain ⟨l', l1', l4, l5⟩ := pair_spec hc (n := i.1) (r := i.2) hi (by decide) (by decide) hfv
          obtain ⟨k, k1, k2, k3⟩ := pair_spec hc (n := x.1) (r := x.2) hx (by decide) (by decide) htx
          rw [l1] at l1'
          cases l1'
          unfold buildWith named at h
          simp only [hc, ht, hf] at h
          split at h
          · cases h
          · cases h
          · rename_i T hT
            split at h
            · cases h
            · rename_i F hF
              split at h
              · cases h
              · rename_i parts hparts
                cases h
                refine ⟨rfl, ?_⟩
                have ine : i.2 ≠ [] := fun e => by rw [e, cook_nil] at l1; cases l1
                have xne : x.2 ≠ [] := fun e => by rw [e, cook_nil] at k1; cases k1
                have hidx : interpretIdx i.2 = some (fvalue, posting) := by
                  unfold interpretIdx
                  rw [if_neg ine]
                  simp only [l1, l2, l3, l4, l5]
                have htxt : interpretTxt x.2 = some text := by
                  unfold interpretTxt
                  rw [if_neg xne]
                  simp only [k1, k2, k3, Option.getD_some]
                unfold checkIdx at i2
                rw [if_neg ine, hidx] at i2
                simp only [Bool.and_eq_true] at i2
                unfold checkTxt at x2
                rw [if_neg xne, htxt] at x2
                unfold buildParts at hparts
                split at hparts
                · cases hparts
                · rename_i c1 hc1
                  split at hparts
                  · cases hparts
                  · rename_i c2 hc2
                    split at hparts
                    · cases hparts
                    · rename_i c3 hc3
                      cases hparts
                      have mx : makeTxt x.1 x.2 = some c1 := by
                        unfold makeTxt
                        rw [if_pos (.inr x1), htxt]
                        unfold checkedCompressor
                        dsimp only
                        rw [if_pos x2, hc1]
                      have mi : makeIdx i.1 i.2 = some (c3, c2) := by
                        unfold makeIdx
                        rw [if_pos (.inr i1), hidx]
                        unfold checkedCompressor
                        dsimp only
                        rw [if_pos i2.1, if_pos i2.2, hc2, hc3]
                      exact opened hr hc' hs hf ht hx hi hF hp hT mx mi counted'
  · cases hck

end Verif.Parts
