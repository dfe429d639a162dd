import Verif.Burrow.Life
/-
  Lemmas for C80: what holds when a warren of shards is made.
-/
namespace Verif.Burrow
open Verif.Recipe Verif.Dna Verif.HazelDna Verif.Parts Verif.Props

/-! ### from options -/

theorem default_keepable : Keepable defaultDna := keepB_sound (n := 5) (by decide +kernel)

/-- a description as the options have it -/
def Described (dna : Str) : Prop := dna = defaultDna ∨ ∃ M, Kept M ∧ dna = freeze M

theorem Described.keepable {dna : Str} (h : Described dna) : Keepable dna := by
  rcases h with rfl | ⟨M, hk, rfl⟩
  · exact default_keepable
  · exact kept_freeze hk

theorem interpret_described {dna o dna' : Str} (hd : Described dna) (ho : Clean o) (h : interpret dna o = .ok dna') : Described dna' := by
  unfold interpret at h
  split at h
  · cases h; exact hd
  · split at h
    · cases h
    · rename_i P hP
      have hk : Kept P := keepable_map hd.keepable hP
      split at h
      · rename_i x y he
        split at h
        · cases h
        · rename_i item hf
          cases h
          have hy := pieces_clean ho y (by rw [he]; simp)
          exact .inr ⟨_, put_kept hk (found_word hP hf) (kept_freeze (put_kept (put_kept nil_kept' name_word hy) recipe_word (kept_find hk hf))), rfl⟩
      · exact .inr (colon_kept hP hk (pieces_clean ho) h)

theorem apply_described : ∀ {os : List Str} {dna dna' : Str}, Described dna → (∀ o ∈ os, Clean o) → applyOptions dna os = .ok dna' →
    Described dna' := by
  intro os
  induction os with
  | nil => intro dna dna' hd _ h; cases h; exact hd
  | cons o os ih =>
    intro dna dna' hd ho h
    unfold applyOptions at h
    split at h
    · cases h
    · cases h
    · rename_i d hi
      exact ih (interpret_described hd (ho o (by simp)) hi) (fun o' h' => ho o' (by simp [h'])) h

theorem default_read : ∃ s, readDna (some (header ++ [0x0A] ++ defaultDna)) = some s ∧ (cook s).isSome = true ∧ keepB 5 s = true := by
  refine ⟨(readDna (some (header ++ [0x0A] ++ defaultDna))).getD [], ?_⟩
  have h : (readDna (some (header ++ [0x0A] ++ defaultDna))).isSome = true := by decide +kernel
  refine ⟨?_, by decide +kernel, by decide +kernel⟩
  obtain ⟨x, hx⟩ := Option.isSome_iff_exists.1 h
  rw [hx]
  rfl

theorem Described.read {dna : Str} (h : Described dna) :
    ∃ s m, readDna (some (header ++ [0x0A] ++ dna)) = some s ∧ cook s = some m ∧ AllKeepable m := by
  rcases h with rfl | ⟨M, hk, rfl⟩
  · obtain ⟨s, h1, h2, h3⟩ := default_read
    obtain ⟨m, hm⟩ := Option.isSome_iff_exists.1 h2
    exact ⟨s, m, h1, hm, (keepable_map (keepB_sound h3) hm).2⟩
  · obtain ⟨m', d1, d2⟩ := cook_stored hk.1 hk.2
    exact ⟨_, m', readDna_freeze M, d1, hk.2.same d2⟩

theorem describes_opened {file : File} {s : Str} {S E : Map} (h1 : readDna file = some s) (h2 : cook s = some S) (h3 : AllKeepable S)
    (he : openExtra file = some E) : Describes file S E := by
  refine ⟨s, h1, h2, h3, ?_⟩
  unfold openExtra at he
  simp only [h1, h2] at he
  split at he
  · rename_i e
    rw [e]
    cases he
    rfl
  · rename_i text e
    rw [e]
    split at he
    · cases he
    · rename_i extra hx
      dsimp only
      split at he
      · cases he; exact hx
      · split at he
        · cases he
        · cases he; exact hx

/-- a warren that was opened, with a file that can be kept -/
theorem inv_opened {file : File} {s : Str} {S : Map} (h1 : readDna file = some s) (h2 : cook s = some S) (h3 : AllKeepable S)
    {counted : Bool} {o : Opened} (ho : openBigwig .works .works counted file = .ok o) (hp : o.parts.featurizer.Plain) :
    Inv o.parts o.json (setting warrenKey file) o.big := by
  have ho' := ho
  unfold openBigwig at ho'
  split at ho'
  · cases ho'
  · cases ho'
  · rename_i P j hP
    split at ho'
    · cases ho'
    · rename_i E hE
      have hd := describes_opened h1 h2 h3 hE
      have hf : P.featurizer.Plain := by cases ho'; exact hp
      have i : Inv P j (setting warrenKey file) ⟨file, E⟩ := by
        refine ⟨⟨S, E, hd, fun k => ?_⟩, .refl _, counted, P, hP, ⟨fun _ => rfl, rfl, rfl, rfl, rfl⟩, hf⟩
        unfold Big.get
        dsimp only
        cases find k E <;> exact Dna.Same.refl _
      have hb : ∀ k, (⟨file, E⟩ : Big).get k = look k E := by
        intro k
        unfold Big.get look
        dsimp only
        cases find k E <;> rfl
      cases hn : stemmerMade ((⟨file, E⟩ : Big).get stemmerKey) with
      | none =>
        have := inv_unopened i hn .works .works counted
        dsimp only at this
        rw [this] at ho
        cases ho
      | some n =>
        obtain ⟨o', e, _, hj, i', _⟩ := inv_open i hn counted
        dsimp only at e
        rw [e] at ho
        cases ho
        have e1 : o.parts = P := by cases ho'; rfl
        rw [e1, hj]
        exact i'

theorem inv_makeBigwig {counted : Bool} {recipe : Str} {file : File} {o : Opened} (hr : CleanRecipe recipe)
    (h : makeBigwig counted recipe file = .ok o) (hp : o.parts.featurizer.Plain) : ∃ w, Inv o.parts o.json w o.big := by
  unfold makeBigwig at h
  split at h
  · cases h
  · split at h
    · cases h
    · cases h
    · rename_i dna hd
      obtain ⟨s, m, r1, r2, r3⟩ := (apply_described (.inl rfl) (options_clean hr (fun _ h => by cases h)) hd).read
      exact ⟨_, inv_opened r1 r2 r3 h hp⟩

/-! ### from parts -/

theorem compressor_name_keepable {n r : Str} {c : Compressor} (h : makeCompressor n r = some c) : Keepable n := by
  have : n = [] ∨ n = zlibName ∨ n = nullName ∨ n = postName ∨ n = tfdfName ∨ n = badName := by
    unfold makeCompressor at h
    grind
  rcases this with e | e | e | e | e | e <;> subst e <;> exact .leaf (by decide) (by decide)

theorem look_some {k v : Str} {m : Map} (h : find k m = some v) : look k m = v := by unfold look; rw [h]; rfl

/-- what is kept, read back -/
theorem stored_look {O : Map} (hO : Kept O) {k v : Str} (hf : find k O = some v) {r' : Str} (hr : Same (freeze O) r') :
    ∃ m, cook r' = some m ∧ Same v (look k m) := by
  obtain ⟨P, h1, h2, _⟩ := read_back hO
  have a := h2.answer k
  rw [hf] at a
  obtain ⟨v', e, hs⟩ := a.some_right
  obtain ⟨m, h3, h4⟩ := hr.cook_some h1
  refine ⟨m, h3, Dna.Same.trans hs ?_⟩
  have := look_map h4 k
  rwa [look_some e] at this

theorem kept_txt {c : Str × Str} (h1 : Keepable c.1) (h2 : Keepable c.2) : Kept (put compressorRecipeKey c.2 (put compressorKey c.1 [])) :=
  put_kept (put_kept nil_kept' (by unfold Word; decide) h1) (by unfold Word; decide) h2

theorem kept_idx {f p : Str × Str} (h1 : Keepable f.1) (h2 : Keepable f.2) (h3 : Keepable p.1) (h4 : Keepable p.2) :
    Kept (put postingRecipeKey p.2 (put postingKey p.1 (put fvalueRecipeKey f.2 (put fvalueKey f.1 [])))) :=
  put_kept (put_kept (put_kept (put_kept nil_kept' (by unfold Word; decide) h1) (by unfold Word; decide) h2) (by unfold Word; decide) h3)
    (by unfold Word; decide) h4

theorem bigwig_keepable : Keepable bigwigName := .leaf (by decide) (by decide)

/-- the file that is written for given parts -/
theorem from_parts {f : Featurizer} (hf : f.Plain) {t : Tokenizer} {text fvalue posting : Str × Str} {x v p : Compressor}
    (hx : makeCompressor text.1 text.2 = some x) (hv : makeCompressor fvalue.1 fvalue.2 = some v)
    (hp : makeCompressor posting.1 posting.2 = some p) (k1 : Keepable text.2) (k2 : Keepable fvalue.2) (k3 : Keepable posting.2)
    {extra : Map} (e1 : GoodMap extra) (e2 : AllKeepable extra) :
    Inv ⟨f, t, x, v, p⟩ false (some bigwigName) ⟨some (header ++ [0x0A] ++ freeze (description f t text fvalue posting extra)), extra⟩ := by
  have n1 := compressor_name_keepable hx
  have n2 := compressor_name_keepable hv
  have n3 := compressor_name_keepable hp
  have kt := kept_txt n1 k1
  have ki := kept_idx n2 k2 n3 k3
  have ht : Keepable t.name ∧ Keepable t.recipe := by
    cases t with
    | ascii xml => cases xml <;> exact ⟨.leaf (by decide) (by decide), .leaf (by decide) (by decide)⟩
    | utf8 => exact ⟨.leaf (by decide) (by decide), .leaf (by decide) (by decide)⟩
  have kd : Kept (description f t text fvalue posting extra) := by
    unfold description
    refine put_kept (put_kept (put_kept (put_kept (put_kept (put_kept nil_kept' ?_ bigwig_keepable) ?_
      (kept_freeze (package_kept ht.1 ht.2))) ?_ (kept_freeze (package_kept (name_keepable f).1 (recipe_keepable hf)))) ?_
      (kept_freeze (package_kept bigwig_keepable (kept_freeze kt)))) ?_ (kept_freeze (package_kept bigwig_keepable (kept_freeze ki)))) ?_
      (kept_freeze ⟨e1, e2⟩) <;> (unfold Word; decide)
  obtain ⟨m', d1, d2⟩ := cook_stored kd.1 kd.2
  have hread := readDna_freeze (description f t text fvalue posting extra)
  have at_ : ∀ {k w : Str}, find k (description f t text fvalue posting extra) = some w → ∃ w', find k m' = some w' ∧ Same w w' := by
    intro k w h
    have a := d2.answer k
    rw [h] at a
    exact a.some_right
  -- the settings
  obtain ⟨wp, p1, p2⟩ := at_ (k := parametersKey) (by unfold description; exact find_put_same _ _ _)
  obtain ⟨wi, i1, i2⟩ := at_ (k := idxKey) (by unfold description; dsimp only; rw [find_put_ne (by decide)]; exact find_put_same _ _ _)
  obtain ⟨wx, x1, x2⟩ := at_ (k := txtKey) (by
    unfold description; dsimp only; rw [find_put_ne (by decide), find_put_ne (by decide)]; exact find_put_same _ _ _)
  obtain ⟨wf, f1, f2⟩ := at_ (k := featurizerKey) (by
    unfold description; dsimp only; rw [find_put_ne (by decide), find_put_ne (by decide), find_put_ne (by decide)]; exact find_put_same _ _ _)
  obtain ⟨wt, t1, t2⟩ := at_ (k := tokenizerKey) (by
    unfold description; dsimp only
    rw [find_put_ne (by decide), find_put_ne (by decide), find_put_ne (by decide), find_put_ne (by decide)]; exact find_put_same _ _ _)
  obtain ⟨ww, w1, w2⟩ := at_ (k := warrenKey) (by
    unfold description; dsimp only
    rw [find_put_ne (by decide), find_put_ne (by decide), find_put_ne (by decide), find_put_ne (by decide), find_put_ne (by decide)]
    exact find_put_same _ _ _)
  obtain ⟨E, q1, q2, _⟩ := read_back (O := extra) ⟨e1, e2⟩
  obtain ⟨E', q3, q4⟩ := p2.cook_some q1
  have hd : Describes (some (header ++ [0x0A] ++ freeze (description f t text fvalue posting extra))) m' E' := by
    refine ⟨_, hread, d1, kd.2.same d2, ?_⟩
    rw [p1]
    exact q3
  refine ⟨⟨m', E', hd, fun k => ?_⟩, ?_, true, ?_⟩
  · have a := q2.answer k
    unfold Big.get
    dsimp only
    cases hk : find k extra with
    | none =>
      rw [hk] at a
      have := a.none_right
      have g := getD_same q4 k []
      rw [this] at g
      exact g
    | some w =>
      rw [hk] at a
      obtain ⟨w', g1, g2⟩ := a.some_right
      have g := getD_same q4 k []
      rw [g1] at g
      exact Dna.Same.trans g2 g
  · rw [setting_some hread d1, w1]
    exact .inr ⟨_, _, rfl, rfl, w2⟩
  · obtain ⟨F, g1, g2, g3⟩ := remake (some true) hf
    have kf := package_kept (name_keepable f).1 (recipe_keepable hf)
    obtain ⟨fp, a1, a2⟩ := stored_look kf (k := nameKey) (by rw [find_put_ne (by decide)]; exact find_put_same _ _ _) f2
    obtain ⟨fp', a3, a4⟩ := stored_look kf (k := recipeKey) (find_put_same _ _ _) f2
    rw [a1] at a3; cases a3
    obtain ⟨F', g4, g5, g6⟩ := make_same (dir := some true) (dir' := some true) id (Nat.le_refl _) g1 a2 a4 g3
    have ktk := package_kept ht.1 ht.2
    obtain ⟨tp, b1, b2⟩ := stored_look ktk (k := nameKey) (by rw [find_put_ne (by decide)]; exact find_put_same _ _ _) t2
    obtain ⟨tp', b3, b4⟩ := stored_look ktk (k := recipeKey) (find_put_same _ _ _) t2
    rw [b1] at b3; cases b3
    have kip := package_kept bigwig_keepable (kept_freeze ki)
    obtain ⟨ip, c1, c2⟩ := stored_look kip (k := recipeKey) (find_put_same _ _ _) i2
    obtain ⟨ir, c3, c4⟩ := stored_look ki (k := postingRecipeKey) (find_put_same _ _ _) c2
    obtain ⟨ir1, c5, c6⟩ := stored_look ki (k := postingKey) (by rw [find_put_ne (by decide)]; exact find_put_same _ _ _) c2
    rw [c3] at c5; cases c5
    obtain ⟨ir2, c7, c8⟩ := stored_look ki (k := fvalueRecipeKey) (by
      rw [find_put_ne (by decide), find_put_ne (by decide)]; exact find_put_same _ _ _) c2
    rw [c3] at c7; cases c7
    obtain ⟨ir3, c9, c10⟩ := stored_look ki (k := fvalueKey) (by
      rw [find_put_ne (by decide), find_put_ne (by decide), find_put_ne (by decide)]; exact find_put_same _ _ _) c2
    rw [c3] at c9; cases c9
    have kxp := package_kept bigwig_keepable (kept_freeze kt)
    obtain ⟨xp, y1, y2⟩ := stored_look kxp (k := recipeKey) (find_put_same _ _ _) x2
    obtain ⟨xr, y3, y4⟩ := stored_look kt (k := compressorRecipeKey) (find_put_same _ _ _) y2
    obtain ⟨xr1, y5, y6⟩ := stored_look kt (k := compressorKey) (by rw [find_put_ne (by decide)]; exact find_put_same _ _ _) y2
    rw [y3] at y5; cases y5
    have nowrap : Clone.shouldWrap (look recipeKey xp) = false := by
      rw [← wrap_same y2]
      obtain ⟨T, z1, z2, _⟩ := read_back kt
      have hno : find Clone.jsonKey T = none := by
        have a := z2.answer Clone.jsonKey
        rw [find_put_ne (by decide), find_put_ne (by decide)] at a
        exact a.none_right
      unfold Clone.shouldWrap
      rw [if_neg (fun e => by rw [e] at z1; exact absurd z1 (by rw [show cook Clone.jsonKey = none by decide]; simp)), z1]
      dsimp only
      rw [hno]
    refine ⟨⟨F', t, x, v, p⟩, ?_, ⟨fun k => ?_, rfl, rfl, rfl, rfl⟩, g6⟩
    · unfold openParts
      simp only [hread, d1, look_some f1, a1, g4, look_some t1, b1, tokenizer_same b2 b4 (C78_tokenizer_remade t)]
      unfold openStores
      simp only [look_some i1, c1, c3, make_compressor_same c6 c4 hp, make_compressor_same c10 c8 hv, look_some x1, y1, y3,
        make_compressor_same y6 y4 hx, nowrap]
    · exact (g2 k).trans (g5 k)

end Verif.Burrow
