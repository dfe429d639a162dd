import Verif.Parts.Build
/-
  Properties of how parts are made, described and made again (C78).
-/
namespace Verif.Props
open Verif.Recipe Verif.Dna Verif.HazelDna Verif.Parts

/-! ### making and checking -/

/-- **C78** With a working directory a featurizer is made of a name and a recipe exactly when they pass the check, whether or not the
directory has a vocabulary in it. -/
theorem C78_check (counted : Bool) (name recipe : Str) : (make (some counted) name recipe).isSome = check name recipe :=
  check_iff_aux counted (Nat.le_refl _)

/-- **C78** A tokenizer is made exactly when name and recipe pass the check; and then it is well defined. -/
theorem C78_tokenizer_check (name recipe : Str) : (∃ t, makeTokenizer name recipe = .ok t) ↔ checkTokenizer name recipe = true := by
  unfold makeTokenizer checkTokenizer
  split
  · split
    · rename_i h
      simp only [decide_eq_true_eq]
      exact ⟨fun _ => h.elim .inl fun h => .inr (.inr h), fun _ => ⟨_, rfl⟩⟩
    · split
      · rename_i h
        simp [h]
      · rename_i h1 h2
        simp only [decide_eq_true_eq]
        constructor
        · rintro ⟨_, h⟩; cases h
        · rintro (h | h | h)
          · exact absurd (.inl h) h1
          · exact absurd h h2
          · exact absurd (.inr h) h1
  · split
    · split
      · rename_i h; simp [h]
      · rename_i h
        simp only [decide_eq_true_eq]
        exact ⟨fun ⟨_, h''⟩ => (by cases h''), fun h' => absurd h' h⟩
    · exact ⟨fun ⟨_, h⟩ => (by cases h), fun h => (by cases h)⟩

/-- **C78** A compressor is made of whatever passes the check. -/
theorem C78_compressor_check {name recipe : Str} (h : checkCompressor name recipe = true) : (makeCompressor name recipe).isSome = true := by
  unfold checkCompressor at h
  unfold makeCompressor
  split
  · rfl
  · rename_i n1
    split
    · rfl
    · rename_i n2
      split
      · rfl
      · rename_i n3
        rw [if_neg (by rintro (e | e | e | e) <;> simp_all)] at h
        split
        · rename_i e
          rw [if_pos e] at h
          split
          · rfl
          · split
            · rfl
            · simp_all
        · rename_i e
          rw [if_neg e] at h
          rw [if_pos (by simpa using h)]
          rfl

/-- **C78** Not the other way round: a `zlib` compressor is made of a recipe that does not pass. -/
theorem C78_compressor_unchecked : makeCompressor zlibName [0x78] = some .zlib ∧ checkCompressor zlibName [0x78] = false := by decide

/-- **C78** Making a tokenizer of a recipe that it does not know is undefined (a null pointer is dereferenced). -/
theorem C78_tokenizer_undefined : makeTokenizer asciiName [0x78] = .undefined ∧ makeTokenizer utf8Name xmlRecipe = .undefined := by decide

/-! ### name and recipe -/

/-- **C78** The name and the recipe that a featurizer gives make, in any directory, a featurizer with the same feature for every key; and
these are texts that can be kept in a description.  The tags in it must be just text. -/
theorem C78_remade_partial {f : Featurizer} (hf : f.Plain) (dir : Option Bool) :
    (∃ f', make dir f.name f.recipe = some f' ∧ ∀ key, f'.featurize key = f.featurize key) ∧ Keepable f.name ∧ Keepable f.recipe := by
  obtain ⟨f', h1, h2, _⟩ := remake dir hf
  exact ⟨⟨f', h1, fun key => (h2 key).symm⟩, (name_keepable f).1, recipe_keepable hf⟩

/-- a featurizer in a featurizer in a featurizer, and the one made of its name and recipe -/
example : let f : Featurizer := .json (.tagging (.vocab (.tagging .hashing [0x61, 0x62] /- ab -/)) [0x63])
    f.Plain ∧ make none f.name f.recipe = some (.json (.tagging (.tagging .hashing [0x61, 0x62] /- ab -/) [0x63])) ∧
    f.featurize [0x78] = Feature.featurize [0x61, 0x62, 0x3A, 0x63, 0x3A, 0x78] /- ab:c:x -/ ∧ f.featurize [0xEF, 0xB7, 0x90] = 0 := by
  refine ⟨⟨⟨trivial, ?_⟩, ?_⟩, ?_, ?_, ?_⟩
  · exact ⟨by decide, by decide⟩
  · exact ⟨by decide, by decide⟩
  · decide +kernel
  · decide +kernel
  · decide +kernel

/-- **C78** A tag that can be read as a map is written otherwise in the recipe, so that the featurizer that is made of it has other
features. -/
theorem C78_tag : let f : Featurizer := .tagging .hashing [0x5B, 0x20, 0x5D] /- [ ] -/
    ∃ f', make none f.name f.recipe = some f' ∧ f'.featurize [0x78] ≠ f.featurize [0x78] := by
  have h : ((make none (Featurizer.tagging .hashing [0x5B, 0x20, 0x5D] /- [ ] -/).name (Featurizer.tagging .hashing [0x5B, 0x20, 0x5D] /- [ ] -/).recipe).map
      fun f' => decide (f'.featurize [0x78] ≠ (Featurizer.tagging .hashing [0x5B, 0x20, 0x5D] /- [ ] -/).featurize [0x78])) = some true := by decide +kernel
  obtain ⟨f', h1, h2⟩ := Option.map_eq_some_iff.1 h
  exact ⟨f', h1, of_decide_eq_true h2⟩

/-- **C78** The name and the recipe that a tokenizer gives make that tokenizer. -/
theorem C78_tokenizer_remade (t : Tokenizer) : makeTokenizer t.name t.recipe = .ok t := by
  cases t with
  | ascii xml => cases xml <;> decide
  | utf8 => decide

/-! ### building and opening -/

/-- the description of a part -/
theorem described_part {n r : Str} (hn : Keepable n) (hr : Keepable r) {M : Map} {key : Str}
    (hM : find key M = some (freeze (put recipeKey r (put nameKey n [])))) :
    ∃ n' r', nameAndRecipe M key = some (n', r') ∧ Same n n' ∧ Same r r' := by
  obtain ⟨n', r', h1, h2, h3⟩ := package_unwrap hn hr
  exact ⟨n', r', by unfold nameAndRecipe; rw [hM]; exact h1, h2, h3⟩

theorem compressor_name {n r : Str} (h : checkCompressor n r = true) : Keepable n := by
  have : n = [] ∨ n = zlibName ∨ n = nullName ∨ n = postName ∨ n = tfdfName ∨ n = badName := by
    unfold checkCompressor at h
    split at h
    · rename_i e
      rcases e with e | e | e | e <;> simp [e]
    · split at h
      · rename_i e; simp [e]
      · have : n = badName := by simpa using h
        simp [this]
  rcases this with e | e | e | e | e | e <;> subst e <;> exact .leaf (by decide) (by decide)

/-- A compressor that is described well: name and recipe pass the check, and the recipe can be kept. -/
def Fine (c : Str × Str) : Prop := checkCompressor c.1 c.2 = true ∧ Keepable c.2

/-- the compressor of the text, from the description -/
theorem txt_described {c : Str × Str} (hc : Fine c) {x : Compressor} (hm : makeCompressor c.1 c.2 = some x) :
    makeTxt simpleName (freeze (put compressorRecipeKey c.2 (put compressorKey c.1 []))) = some x ∧
    Keepable (freeze (put compressorRecipeKey c.2 (put compressorKey c.1 []))) := by
  have k := put_kept (put_kept nil_kept' (k := compressorKey) (by unfold Word; decide) (compressor_name hc.1))
    (k := compressorRecipeKey) (by unfold Word; decide) hc.2
  obtain ⟨P, h1, h2, _⟩ := read_back k
  refine ⟨?_, kept_freeze k⟩
  have a := h2.answer compressorKey
  rw [find_put_ne (by decide), find_put_same] at a
  obtain ⟨n', a1, a2⟩ := a.some_right
  have b := h2.answer compressorRecipeKey
  rw [find_put_same] at b
  obtain ⟨r', b1, b2⟩ := b.some_right
  unfold makeTxt interpretTxt
  rw [if_pos (.inr rfl), if_neg (fun e => by rw [e, cook_nil] at h1; cases h1)]
  simp only [h1, a1, b1, Option.getD_some]
  refine compressor_same a2 b2 ?_
  unfold checkedCompressor
  rw [if_pos hc.1, hm]

/-- the compressors of the index, from the description -/
theorem idx_described {f p : Str × Str} (hf : Fine f) (hp : Fine p) {a b : Compressor} (hm : makeCompressor f.1 f.2 = some a)
    (hm' : makeCompressor p.1 p.2 = some b) :
    makeIdx simpleName (freeze (put fvalueRecipeKey f.2 (put fvalueKey f.1 (put postingRecipeKey p.2 (put postingKey p.1 []))))) = some (a, b) ∧
    Keepable (freeze (put fvalueRecipeKey f.2 (put fvalueKey f.1 (put postingRecipeKey p.2 (put postingKey p.1 []))))) := by
  have k := put_kept (put_kept (put_kept (put_kept nil_kept' (k := postingKey) (by unfold Word; decide) (compressor_name hp.1))
    (k := postingRecipeKey) (by unfold Word; decide) hp.2) (k := fvalueKey) (by unfold Word; decide) (compressor_name hf.1))
    (k := fvalueRecipeKey) (by unfold Word; decide) hf.2
  obtain ⟨P, h1, h2, _⟩ := read_back k
  refine ⟨?_, kept_freeze k⟩
  have s1 := h2.answer fvalueKey
  rw [find_put_ne (by decide), find_put_same] at s1
  obtain ⟨_, a1, a2⟩ := s1.some_right
  have s2 := h2.answer fvalueRecipeKey
  rw [find_put_same] at s2
  obtain ⟨_, b1, b2⟩ := s2.some_right
  have s3 := h2.answer postingKey
  rw [find_put_ne (by decide), find_put_ne (by decide), find_put_ne (by decide), find_put_same] at s3
  obtain ⟨_, c1, c2⟩ := s3.some_right
  have s4 := h2.answer postingRecipeKey
  rw [find_put_ne (by decide), find_put_ne (by decide), find_put_same] at s4
  obtain ⟨_, d1, d2⟩ := s4.some_right
  have e1 := compressor_same a2 b2 (c := a) (by unfold checkedCompressor; rw [if_pos hf.1, hm])
  have e2 := compressor_same c2 d2 (c := b) (by unfold checkedCompressor; rw [if_pos hp.1, hm'])
  unfold makeIdx interpretIdx
  rw [if_pos (.inr rfl), if_neg (fun e => by rw [e, cook_nil] at h1; cases h1)]
  simp only [h1, a1, b1, c1, d1, e1, e2]

/-- **C78** A burrow that was built with given parts is opened with parts that do the same: the features of all keys, the tokenizer and the
compressors.  Missing: tags that can be read as maps, compressors that do not pass the check, and descriptions that are not written in
full. -/
theorem C78_built_partial {f : Featurizer} (hf : f.Plain) {t : Tokenizer} {text fvalue posting : Str × Str} (h1 : Fine text) (h2 : Fine fvalue)
    (h3 : Fine posting) {P : Parts} (hb : buildParts f t text fvalue posting = some P) (before : File) (counted : Bool) :
    ∃ Q, openSimple counted (writeDna .works (freeze (description f t text fvalue posting)) before).2 = .ok Q ∧ SameParts P Q := by
  unfold buildParts at hb
  split at hb
  · cases hb
  · rename_i x hx
    split at hb
    · cases hb
    · rename_i p hp
      split at hb
      · cases hb
      · rename_i v hv
        cases hb
        obtain ⟨m1, k1⟩ := txt_described h1 hx
        obtain ⟨m2, k2⟩ := idx_described h2 h3 hv hp
        have hs : Keepable simpleName := .leaf (by decide) (by decide)
        have ht : Keepable t.name ∧ Keepable t.recipe := by
          cases t with
          | ascii xml => cases xml <;> exact ⟨.leaf (by decide) (by decide), .leaf (by decide) (by decide)⟩
          | utf8 => exact ⟨.leaf (by decide) (by decide), .leaf (by decide) (by decide)⟩
        have kd : Kept (description f t text fvalue posting) := by
          unfold description
          refine put_kept (put_kept (put_kept (put_kept (put_kept nil_kept' ?_ hs) ?_ (kept_freeze (package_kept hs k1))) ?_
            (kept_freeze (package_kept hs k2))) ?_ (kept_freeze (package_kept ht.1 ht.2))) ?_
            (kept_freeze (package_kept (name_keepable f).1 (recipe_keepable hf))) <;> (unfold Word; decide)
        obtain ⟨fn, fr, f1, f2, f3⟩ := described_part (name_keepable f).1 (recipe_keepable hf) (M := description f t text fvalue posting)
          (key := featurizerKey) (by unfold description; exact find_put_same _ _ _)
        obtain ⟨tn, tr, t1, t2, t3⟩ := described_part ht.1 ht.2 (M := description f t text fvalue posting)
          (key := tokenizerKey) (by unfold description; dsimp only; rw [find_put_ne (by decide)]; exact find_put_same _ _ _)
        obtain ⟨xn, xr, x1, x2, x3⟩ := described_part hs k1 (M := description f t text fvalue posting)
          (key := txtKey) (by unfold description; dsimp only; rw [find_put_ne (by decide), find_put_ne (by decide), find_put_ne (by decide)]; exact find_put_same _ _ _)
        obtain ⟨iN, ir, i1, i2, i3⟩ := described_part hs k2 (M := description f t text fvalue posting)
          (key := idxKey) (by unfold description; dsimp only; rw [find_put_ne (by decide), find_put_ne (by decide)]; exact find_put_same _ _ _)
        obtain ⟨F, g1, g2, g3⟩ := remake (some counted) hf
        obtain ⟨F', g4, g5, g6⟩ := make_same (dir := some counted) (dir' := some counted) id (Nat.le_refl _) g1 f2 f3 g3
        obtain ⟨m', d1, d2⟩ := cook_stored kd.1 kd.2
        obtain ⟨Q, q1, q2⟩ := opened (readDna_freeze _) d1 d2 f1 t1 x1 i1 g4 g6 (tokenizer_same t2 t3 (C78_tokenizer_remade t))
          (txt_same x2 x3 m1) (idx_same i2 i3 m2) counted
        refine ⟨Q, q1, ?_, q2.2⟩
        intro key
        rw [show (⟨f, t, x, v, p⟩ : Parts).featurizer.featurize key = f.featurize key from rfl, g2 key, g5 key]
        exact q2.1 key

/-- the hypotheses are met by the defaults, and by a compressor with a recipe -/
example : Fine (zlibName, []) ∧ Fine (postName, []) ∧ Fine (tfdfName, componentRecipe) := by
  refine ⟨⟨by decide, .leaf (by decide) (by decide)⟩, ⟨by decide, .leaf (by decide) (by decide)⟩, ⟨by decide, .leaf (by decide) (by decide)⟩⟩

/-- a burrow with other parts than the default -/
example : ∃ Q, openSimple true (writeDna .works (freeze (description (.tagging .hashing [0x61, 0x62] /- ab -/) .utf8 (nullName, []) (tfdfName, componentRecipe)
    (postName, []))) none).2 = .ok Q ∧ Q.tokenizer = .utf8 ∧ Q.text = .null ∧ Q.fvalue = .tfdf true ∧ Q.posting = .post ∧
    Q.featurizer = .tagging .hashing [0x61, 0x62] /- ab -/ := by
  refine ⟨⟨.tagging .hashing [0x61, 0x62] /- ab -/, .utf8, .null, .tfdf true, .post⟩, ?_, rfl, rfl, rfl, rfl, rfl⟩
  decide +kernel

/-- **C78** A burrow can be built that cannot be opened: with a compressor whose recipe the builder does not look at. -/
theorem C78_unopened : buildParts .hashing (.ascii true) (zlibName, [0x78]) (zlibName, []) (postName, []) =
      some ⟨.hashing, .ascii true, .zlib, .zlib, .post⟩ ∧
    openSimple false (writeDna .works (freeze (description .hashing (.ascii true) (zlibName, [0x78]) (zlibName, []) (postName, []))) none).2 = .refused :=
  ⟨by decide +kernel, by decide +kernel⟩

/-- **C78** A burrow that was built from a recipe is opened with the parts that it was built with.  Missing: recipes with NUL, double quote
or backslash in them. -/
theorem C78_recipe_partial {recipe : Str} (hr : CleanRecipe recipe) {counted : Bool} {P : Parts} {dna : Str}
    (hb : buildRecipe counted recipe = .ok (P, dna)) (hp : P.featurizer.Plain) (before : File) (counted' : Bool) :
    ∃ Q, openSimple counted' (writeDna .works dna before).2 = .ok Q ∧ SameParts P Q := by
  unfold buildRecipe at hb
  split at hb
  · cases hb
  · cases hb
  · cases hb
  · rename_i hck
    split at hb
    · cases hb
    · cases hb
    · rename_i d hd
      unfold checkRecipe at hck
      rw [hd] at hck
      have hck : checkDna d = true := by simpa using hck
      obtain ⟨rfl, Q, h1, h2⟩ := build_opens (apply_described (.inl rfl) (options_clean hr (fun _ h => by cases h)) hd) hck hb hp counted'
      exact ⟨Q, h1, h2⟩

/-- **C78** Without options the parts are the default ones. -/
theorem C78_default (counted : Bool) : buildRecipe counted [] = .ok (⟨.hashing, .ascii true, .zlib, .zlib, .post⟩, defaultDna) := by
  cases counted <;> decide +kernel

/-- the parts that a builder uses -/
def partsOf : Outcome (Parts × Str) → Option Parts
  | .ok (p, _) => some p
  | _ => none

/-- recipes with several options -/
example : partsOf (buildRecipe false [0x74, 0x6F, 0x6B, 0x65, 0x6E, 0x69, 0x7A, 0x65, 0x72, 0x3A, 0x6E, 0x61, 0x6D, 0x65, 0x3A, 0x75, 0x74, 0x66, 0x38, 0x20, 0x66, 0x65, 0x61, 0x74, 0x75, 0x72, 0x69, 0x7A, 0x65, 0x72, 0x40, 0x6A, 0x73, 0x6F, 0x6E, 0x20, 0x20, 0x74, 0x78, 0x74, 0x3A, 0x63, 0x6F, 0x6D, 0x70, 0x72, 0x65, 0x73, 0x73, 0x6F, 0x72, 0x3A, 0x6E, 0x75, 0x6C, 0x6C] /- tokenizer:name:utf8 featurizer@json  txt:compressor:null -/) =
      some ⟨.json .hashing, .utf8, .null, .zlib, .post⟩ ∧
    partsOf (buildRecipe false [0x20, 0x66, 0x65, 0x61, 0x74, 0x75, 0x72, 0x69, 0x7A, 0x65, 0x72, 0x40, 0x76, 0x6F, 0x63, 0x61, 0x62, 0x20, 0x74, 0x6F, 0x6B, 0x65, 0x6E, 0x69, 0x7A, 0x65, 0x72, 0x3A, 0x6E, 0x6F, 0x78, 0x6D, 0x6C, 0x20, 0x69, 0x64, 0x78, 0x3A, 0x66, 0x76, 0x61, 0x6C, 0x75, 0x65, 0x5F, 0x63, 0x6F, 0x6D, 0x70, 0x72, 0x65, 0x73, 0x73, 0x6F, 0x72, 0x3A, 0x74, 0x66, 0x64, 0x66, 0x20, 0x69, 0x64, 0x78, 0x3A, 0x66, 0x76, 0x61, 0x6C, 0x75, 0x65, 0x5F, 0x63, 0x6F, 0x6D, 0x70, 0x72, 0x65, 0x73, 0x73, 0x6F, 0x72, 0x5F, 0x72, 0x65, 0x63, 0x69, 0x70, 0x65, 0x3A, 0x63, 0x6F, 0x6D, 0x70, 0x6F, 0x6E, 0x65, 0x6E, 0x74] /- featurizer@vocab tokenizer:noxml idx:fvalue_compressor:tfdf idx:fvalue_compressor_recipe:component -/) =
      some ⟨.vocab .hashing, .ascii false, .zlib, .tfdf true, .post⟩ ∧
    buildRecipe false [0x74, 0x78, 0x74, 0x3A, 0x63, 0x6F, 0x6D, 0x70, 0x72, 0x65, 0x73, 0x73, 0x6F, 0x72, 0x3A, 0x6C, 0x7A, 0x34] /- txt:compressor:lz4 -/ = .refused := by decide +kernel

/-- **C78** A recipe that passes the check can be refused all the same: the index is given the name that it has. -/
theorem C78_checked_refused : checkRecipe [0x69, 0x64, 0x78, 0x3A, 0x6E, 0x61, 0x6D, 0x65, 0x3A, 0x73, 0x69, 0x6D, 0x70, 0x6C, 0x65] /- idx:name:simple -/ = .ok true ∧ buildRecipe false [0x69, 0x64, 0x78, 0x3A, 0x6E, 0x61, 0x6D, 0x65, 0x3A, 0x73, 0x69, 0x6D, 0x70, 0x6C, 0x65] /- idx:name:simple -/ = .refused := by decide +kernel

/-- **C78** A recipe that passes the check can have undefined behaviour: the text is given an empty recipe. -/
theorem C78_checked_undefined : checkRecipe [0x74, 0x78, 0x74, 0x3A, 0x5B, 0x5D] /- txt:[] -/ = .ok true ∧ buildRecipe false [0x74, 0x78, 0x74, 0x3A, 0x5B, 0x5D] /- txt:[] -/ = .undefined := by decide +kernel

end Verif.Props
