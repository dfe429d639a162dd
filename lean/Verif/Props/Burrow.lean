import Verif.Burrow.Made
/-
  Properties of how warrens of shards and meadows are made and opened (C80).
-/
namespace Verif.Props
open Verif.Recipe Verif.Dna Verif.Parts Verif.Burrow
open Verif.HazelDna hiding Opened

theorem set_file {b b' : Big} {k v : Str} (h : b.set .works k v = (true, b')) : setParameter .works k v b.file = (true, b'.file) := by
  unfold Big.set at h
  split at h
  · cases h
  · rename_i file e
    rw [e]
    cases h
    rfl

theorem meadow_clean : CleanRecipe meadowOptions := by unfold CleanRecipe; decide +kernel

theorem format_word : Word formatKey := by unfold Word; decide

theorem meadowlark_keepable : Keepable meadowlarkName := .leaf (by decide) (by decide)

theorem meant_given {c : Option (Str × Str)} {x : Compressor} (h : Meant c x) :
    makeCompressor (given c).1 (given c).2 = some x ∧ Keepable (given c).2 := by
  cases c with
  | none =>
    have h : x = .null := h
    subst h
    exact ⟨by decide, .leaf (by decide) (by decide)⟩
  | some c => exact h

theorem made_inv {p : Parts} {j : Bool} {b : Big} (h : Made p j b) (hp : p.featurizer.Plain) : ∃ w, Inv p j w b := by
  cases h with
  | options hr h => exact inv_makeBigwig hr h hp
  | parts hx hv hpo e1 e2 h =>
    unfold makeFrom at h
    split at h
    · cases h
    · cases h
      exact ⟨_, from_parts hp (meant_given hx).1 (meant_given hv).1 (meant_given hpo).1 (meant_given hx).2 (meant_given hv).2 (meant_given hpo).2 e1 e2⟩
  | meadow h =>
    unfold createMeadow at h
    split at h
    · cases h
    · cases h
    · rename_i o ho
      split at h
      · cases h
      · rename_i b' e
        cases h
        obtain ⟨w, i⟩ := inv_makeBigwig meadow_clean ho hp
        obtain ⟨b1, g1, g2, _⟩ := inv_set i format_word meadowlark_keepable
        rw [g1] at e
        cases e
        exact ⟨w, g2⟩

/-- **C80** However a warren of shards was made, and whatever parameters were set and however often it was opened since, it is opened with
the parts that it was made with, and with its parameters.  Missing: options with NUL, double quote or backslash in them, tags and recipes
that cannot be kept, and writing that fails. -/
theorem C80_life_partial {p : Parts} {j : Bool} {b b' : Big} (h : Made p j b) (hp : p.featurizer.Plain) (hl : Later (fun _ => True) b b')
    {n : Str} (hn : stemmerMade (b'.get stemmerKey) = some n) (counted : Bool) :
    ∃ o, openBigwig .works .works counted b'.file = .ok o ∧ SameParts p o.parts ∧ o.json = j ∧
      (∀ k, k ≠ stemmerKey → Same (b'.get k) (o.big.get k)) ∧ o.big.get stemmerKey = n := by
  obtain ⟨w, i⟩ := made_inv h hp
  obtain ⟨o, h1, h2, h3, _, h5, h6⟩ := inv_open (inv_later i hl) hn counted
  exact ⟨o, h1, h2, h3, h5, h6⟩

/-- the default options, and parts without compressors, with a parameter set -/
example : ∃ o : Opened, makeBigwig false [] none = .ok o ∧ o.parts = ⟨.hashing, .utf8, .null, .null, .null⟩ ∧ o.json = false := by
  have h : ((match makeBigwig false [] none with
    | .ok o => some (o.parts, o.json)
    | _ => none) = some (⟨.hashing, .utf8, .null, .null, .null⟩, false)) := by decide +kernel
  split at h
  · rename_i o e
    injection h with h
    injection h with h1 h2
    exact ⟨o, e, h1, h2⟩
  · cases h

example : ∃ b b' : Big, Made ⟨.json .hashing, .utf8, .zlib, .null, .tfdf true⟩ false b ∧
    Later (fun _ => True) b b' ∧ stemmerMade (b'.get stemmerKey) = some porterName ∧ b'.get containerKey = [0x3A] := by
  have mk : makeFrom (some (.json .hashing)) (some .utf8) (some (zlibName, [0x78])) none (some (tfdfName, componentRecipe)) [] none =
      .ok ⟨some (header ++ [0x0A] ++ freeze (description (.json .hashing) .utf8 (zlibName, [0x78]) (nullName, []) (tfdfName, componentRecipe) [])), []⟩ := rfl
  have m : Made ⟨.json .hashing, .utf8, .zlib, .null, .tfdf true⟩ false
      ⟨some (header ++ [0x0A] ++ freeze (description (.json .hashing) .utf8 (zlibName, [0x78]) (nullName, []) (tfdfName, componentRecipe) [])), []⟩ :=
    .parts (x := .zlib) (v := .null) (p := .tfdf true) (text := some (zlibName, [0x78])) (fvalue := none)
      (posting := some (tfdfName, componentRecipe)) ⟨by decide, .leaf (by decide) (by decide)⟩ rfl ⟨by decide, .leaf (by decide) (by decide)⟩ ⟨.nil, fun _ h => by cases h⟩ (fun _ _ h => by cases h) mk
  obtain ⟨w, i⟩ := made_inv m trivial
  obtain ⟨b1, e1, i1, g1, _⟩ := inv_set i (k := stemmerKey) (v := porterName) stemmer_word (.leaf (by decide) (by decide))
  obtain ⟨b2, e2, i2, g2, g3⟩ := inv_set i1 (k := containerKey) (v := [0x3A]) container_word (.leaf (by decide) (by decide))
  refine ⟨_, b2, m, .set (.set .here trivial stemmer_word (.leaf (by decide) (by decide)) e1) trivial container_word
    (.leaf (by decide) (by decide)) e2, ?_, g2⟩
  rw [g3 stemmerKey (by decide), g1]
  decide

theorem settled {o : Opened} {n : Str} (h : stemmerMade (o.big.get stemmerKey) = some n) : settle (.bigwig o) = .ok (.bigwig o) := by
  unfold settle Warren.get
  dsimp only
  rw [h]
  split <;> rfl

theorem open_as_bigwig {p : Parts} {j : Bool} {b : Big} (i : Inv p j (some bigwigName) b) {n : Str}
    (hn : stemmerMade (b.get stemmerKey) = some n) {counted : Bool} {o : Opened} (ho : openBigwig .works .works counted b.file = .ok o) :
    openWarren .works .works counted b.file = .ok (.bigwig o) := by
  obtain ⟨o', e, _, _, _, _, h6⟩ := inv_open i hn counted
  rw [ho] at e
  cases e
  obtain ⟨⟨S, P, hd, _⟩, hw, _⟩ := i
  obtain ⟨w, w1, w2⟩ := hw.some_right
  have w3 : w = bigwigName := name_leaf (by decide) w2 rfl
  rw [hd.setting, w3] at w1
  obtain ⟨dna, r1, r2, _⟩ := hd
  unfold openWarren
  simp only [r1, r2, w1, Option.getD_some]
  unfold openNamed
  rw [if_neg (by decide), if_pos rfl, ho]
  exact settled (by rw [h6]; exact made_again hn)

/-- **C80** A warren of shards that was made from parts is what the general way of opening a burrow opens. -/
theorem C80_warren_partial {f : Featurizer} (hf : f.Plain) {t : Tokenizer} {text fvalue posting : Option (Str × Str)} {x v p : Compressor}
    (hx : Meant text x) (hv : Meant fvalue v) (hp : Meant posting p) {extra : Map} (e1 : GoodMap extra)
    (e2 : AllKeepable extra) {file : File} {b b' : Big} (h : makeFrom (some f) (some t) text fvalue posting extra file = .ok b)
    (hl : Later (fun _ => True) b b') {n : Str} (hn : stemmerMade (b'.get stemmerKey) = some n) (counted : Bool) :
    ∃ o, openWarren .works .works counted b'.file = .ok (.bigwig o) ∧ SameParts ⟨f, t, x, v, p⟩ o.parts := by
  have i : Inv ⟨f, t, x, v, p⟩ false (some bigwigName) b := by
    unfold makeFrom at h
    split at h
    · cases h
    · cases h
      exact from_parts hf (meant_given hx).1 (meant_given hv).1 (meant_given hp).1 (meant_given hx).2 (meant_given hv).2 (meant_given hp).2 e1 e2
  have i' := inv_later i hl
  obtain ⟨o, h1, h2, _⟩ := inv_open i' hn counted
  exact ⟨o, open_as_bigwig i' hn h1, h2⟩

/-- **C80** Nothing is made where there is a description already, and none without a featurizer or tokenizer. -/
theorem C80_taken {file : File} {dna : Str} (h : readDna file = some dna) (counted : Bool) (recipe : Str) (f : Option Featurizer)
    (t : Option Tokenizer) (text fvalue posting : Option (Str × Str)) (extra : Map) :
    makeBigwig counted recipe file = .refused ∧ createMeadow counted file = .refused ∧ makeFrom f t text fvalue posting extra file = .refused := by
  have a : ∀ recipe, makeBigwig counted recipe file = .refused := fun recipe => by unfold makeBigwig; rw [h]
  refine ⟨a _, ?_, ?_⟩
  · unfold createMeadow; rw [a]
  · unfold makeFrom; rw [h]

/-! ### meadows -/

/-- what a meadow is made of -/
def meadowParts : Parts := ⟨.json .hashing, .utf8, .zlib, .zlib, .post⟩

def partsAndJson : Outcome Opened → Option (Parts × Bool × Option Str × Str)
  | .ok o => some (o.parts, o.json, setting warrenKey o.big.file, o.big.get stemmerKey)
  | _ => none

theorem meadow_none (counted : Bool) : partsAndJson (createMeadow counted none) = some (meadowParts, false, some bigwigName, []) := by
  cases counted <;> decide +kernel

theorem create_none {file : File} (h : readDna file = none) (counted : Bool) : createMeadow counted file = createMeadow counted none := by
  have : makeBigwig counted meadowOptions file = makeBigwig counted meadowOptions none := by
    unfold makeBigwig
    simp only [h, show readDna none = none from rfl, writeDna]
  unfold createMeadow
  rw [this]

/-- **C80** Where there is no description a meadow can be created, with its parts. -/
theorem C80_meadow_created {file : File} (h : readDna file = none) (counted : Bool) :
    ∃ o, createMeadow counted file = .ok o ∧ o.parts = meadowParts ∧ o.json = false ∧ isMeadow (.bigwig o) = true ∧ o.big.get stemmerKey = [] := by
  rw [create_none h]
  have hm := meadow_none counted
  cases e : createMeadow counted none with
  | refused => rw [e] at hm; cases hm
  | undefined => rw [e] at hm; cases hm
  | ok o =>
    rw [e] at hm
    unfold partsAndJson at hm
    simp only [Option.some.injEq, Prod.mk.injEq] at hm
    refine ⟨o, rfl, hm.1, hm.2.1, ?_, hm.2.2.2⟩
    unfold createMeadow at e
    split at e
    · cases e
    · cases e
    · split at e
      · cases e
      · rename_i b' hb
        cases e
        have : find formatKey b'.memory = some meadowlarkName := by
          unfold Big.set at hb
          split at hb
          · cases hb
          · cases hb; exact find_put_same _ _ _
        refine decide_eq_true ?_
        show some (b'.get formatKey) = _
        unfold Big.get
        rw [this]

/-- **C80** A meadow stays a meadow: whatever other parameters are set and however often it is opened, it can be opened as a meadow, with
the parts that all meadows have.  Missing: values that cannot be kept and writing that fails. -/
theorem C80_meadow_partial {file : File} (h : readDna file = none) {counted : Bool} {o : Opened} (ho : createMeadow counted file = .ok o)
    {b : Big} (hl : Later (fun k => k ≠ formatKey) o.big b) {n : Str} (hn : stemmerMade (b.get stemmerKey) = some n) (counted' : Bool) :
    ∃ o', openMeadow .works .works counted' b.file = .ok (.bigwig o') ∧ SameParts meadowParts o'.parts ∧ o'.json = false := by
  obtain ⟨o1, e1, e2, e3, e4, e5⟩ := C80_meadow_created h counted
  rw [ho] at e1
  cases e1
  have hp : o.parts.featurizer.Plain := by rw [e2]; trivial
  obtain ⟨w, i⟩ := made_inv (.meadow ho) hp
  have iw : Inv o.parts o.json (some bigwigName) o.big := by
    refine ⟨i.1, ?_, i.2.2⟩
    have hm := meadow_none counted
    rw [← create_none h, ho] at hm
    unfold partsAndJson at hm
    simp only [Option.some.injEq, Prod.mk.injEq] at hm
    rw [hm.2.2.1]
    exact .refl _
  have i' := inv_later iw hl
  have hget := later_get iw hl (k := formatKey) (fun c => c rfl) (by decide)
  have hfmt : o.big.get formatKey = meadowlarkName := by
    unfold isMeadow Warren.get at e4
    exact Option.some.inj (of_decide_eq_true e4)
  obtain ⟨o', h1, h2, h3, _, h5, h6⟩ := inv_open i' hn counted'
  refine ⟨o', ?_, by rw [← e2]; exact h2, by rw [h3, e3]⟩
  unfold openMeadow
  rw [open_as_bigwig i' hn h1]
  dsimp only
  have : o'.big.get formatKey = meadowlarkName := by
    refine name_leaf (by decide) ?_ rfl
    rw [← hfmt]
    exact Dna.Same.trans hget (h5 formatKey (by decide))
  unfold isMeadow Warren.get
  dsimp only
  rw [if_pos (decide_eq_true (by rw [this]))]

/-- a meadow in an empty place -/
example : ∃ o o', createMeadow false none = .ok o ∧ openMeadow .works .works true o.big.file = .ok (.bigwig o') ∧ SameParts meadowParts o'.parts := by
  obtain ⟨o, e1, _, _, _, e5⟩ := C80_meadow_created (file := none) rfl false
  obtain ⟨o', g1, g2, _⟩ := C80_meadow_partial rfl e1 .here (by rw [e5]; rfl) true
  exact ⟨o, o', e1, g1, g2⟩

/-! ### where it does not hold -/

/-- **C80** A burrow that cannot be opened is not refused by `open_meadow`: it uses a null pointer. -/
theorem C80_open_meadow_undefined (dev dev' : Device) (counted : Bool) {file : File} (h : readDna file = none) :
    openWarren dev dev' counted file = .refused ∧ openMeadow dev dev' counted file = .undefined := by
  have : openWarren dev dev' counted file = .refused := by unfold openWarren; rw [h]
  exact ⟨this, by unfold openMeadow; rw [this]⟩

/-- **C80** A parameter can be set with success after which the warren can never be opened: a stemmer that there is not. -/
theorem C80_unknown_stemmer {p : Parts} {j : Bool} {b b' : Big} (h : Made p j b) (hp : p.featurizer.Plain) (hl : Later (fun _ => True) b b')
    {v : Str} (hv : Keepable v) (hn : stemmerMade v = none) :
    ∃ b'', b'.set .works stemmerKey v = (true, b'') ∧ ∀ dev dev' counted, openBigwig dev dev' counted b''.file = .refused := by
  obtain ⟨w, i⟩ := made_inv h hp
  obtain ⟨b'', e, i', g, _⟩ := inv_set (inv_later i hl) stemmer_word hv
  exact ⟨b'', e, fun dev dev' counted => inv_unopened i' (by rw [g]; exact hn) dev dev' counted⟩

/-- there are such names -/
example : stemmerMade [0x6B, 0x72, 0x6F, 0x76, 0x65, 0x74, 0x7A] /- krovetz -/ = none ∧ Keepable [0x6B, 0x72, 0x6F, 0x76, 0x65, 0x74, 0x7A] /- krovetz -/ := ⟨by decide, .leaf (by decide) (by decide)⟩

/-- **C80** Opening is not free of effects on parameters: the stemmer called `null` is forgotten. -/
theorem C80_null_stemmer {p : Parts} {j : Bool} {b b' : Big} (h : Made p j b) (hp : p.featurizer.Plain) (hl : Later (fun _ => True) b b') (counted : Bool) :
    ∃ b'' o, b'.set .works stemmerKey nullName = (true, b'') ∧ openBigwig .works .works counted b''.file = .ok o ∧
      b''.get stemmerKey = nullName ∧ o.big.get stemmerKey = [] ∧ getParameter stemmerKey o.big.file = some [] := by
  obtain ⟨w, i⟩ := made_inv h hp
  obtain ⟨b'', e, i', g, _⟩ := inv_set (inv_later i hl) (k := stemmerKey) (v := nullName) stemmer_word (.leaf (by decide) (by decide))
  obtain ⟨o, h1, _, _, h4, _, h6⟩ := inv_open i' (n := []) (by rw [g]; decide) counted
  refine ⟨b'', o, e, h1, g, h6, ?_⟩
  obtain ⟨⟨S, P, hd, hm⟩, _⟩ := h4
  rw [hd.get]
  have := hm stemmerKey
  rw [h6] at this
  rw [same_text cook_nil this]

end Verif.Props
