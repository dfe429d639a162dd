import Verif.Feature.Murmur

/-!
# C31: features of keys

Property C31: keys shorter than eight bytes get distinct features, translating a feature gives back the
key, short and long keys never share a feature, and a key `#n` denotes the number `n`.

All of it is proved for keys that are not empty, hold no NUL and denote no number. The witnesses at the
end show what is not so outside of these: a literal has the feature of the word with the same bytes, and
NULs at the end of a key are lost.
-/

namespace Verif.Props
open Verif.Feature

/-- `abc`, a word. -/
def abc : Key := [0x61, 0x62, 0x63]

/-- `cottontail`, a word too long to be its own feature. -/
def cottontail : Key := [0x63, 0x6F, 0x74, 0x74, 0x6F, 0x6E, 0x74, 0x61, 0x69, 0x6C]

theorem not_denotes_of_head {c : UInt8} {cs : Key} (h : c ≠ 0x23) : ∀ n, ¬ Denotes (c :: cs) n := by
  rintro n ⟨ds, e, _⟩
  exact h (List.cons.inj e).1

theorem abc_word : Word abc := ⟨by decide, by decide, not_denotes_of_head (by decide)⟩
theorem cottontail_word : Word cottontail := ⟨by decide, by decide, not_denotes_of_head (by decide)⟩

/-- Different short words have different features. -/
theorem C31_distinct_partial {k k' : Key} (h : Word k) (h' : Word k') (hs : k.length < 8) (hs' : k'.length < 8)
    (e : featurize k = featurize k') : k = k' := by
  have e1 := (short_eq h.nonempty (literal_none h.plain) hs).1
  have e2 := (short_eq h'.nonempty (literal_none h'.plain) hs').1
  rw [e1, e2] at e
  exact strip_zeros (by omega) hs hs' (getLast_clean h.clean) (getLast_clean h'.clean)

/-- Translating the feature of a short word gives the word. -/
theorem C31_translate_partial {k : Key} (h : Word k) (hs : k.length < 8) : translate (featurize k) = k := by
  rw [(short_eq h.nonempty (literal_none h.plain) hs).1]
  exact translate_short h hs

example : translate (featurize abc) = abc := C31_translate_partial abc_word (by decide)
example : featurize abc = 6513249 := by decide

/-- A short key and a long one never have the same feature, NULs or not, if neither denotes a number. -/
theorem C31_short_long {k k' : Key} (h : ∀ n, ¬ Denotes k n) (h' : ∀ n, ¬ Denotes k' n)
    (hs : k.length < 8) (hl : 8 ≤ k'.length) : featurize k ≠ featurize k' := by
  obtain ⟨lo, t, h1, h2, h3, h4, _⟩ := long_eq (literal_none h') hl
  rw [h4]
  by_cases h0 : k = []
  · subst h0
    show (0 : Int) ≠ _
    unfold Verif.Store.signed64
    split <;> omega
  · obtain ⟨e, hlt⟩ := short_eq h0 (literal_none h) hs
    rw [e]
    unfold Verif.Store.signed64
    split <;> omega

example : featurize abc ≠ featurize cottontail :=
  C31_short_long abc_word.plain cottontail_word.plain (by decide) (by decide)

/-- A key that denotes a number has that number as its feature. -/
theorem C31_literal {k : Key} {n : Nat} (h : Denotes k n) : featurize k = n := by
  have hl := literal_iff.mpr h
  obtain ⟨ds, rfl, _⟩ := h
  unfold featurize
  rw [if_neg (by simp), hl]

/-- `#0042` -/
example : featurize [0x23, 0x30, 0x30, 0x34, 0x32] = 42 :=
  C31_literal ⟨[0x30, 0x30, 0x34, 0x32], rfl, by decide, by decide, by decide, by decide⟩

/-- The feature of a key that is not empty, holds no NUL and denotes no number is positive, unless the hash
of a long key is the one number that has no negation in 64 bits, on which the behaviour of the code is
undefined. -/
theorem C31_positive_partial {k : Key} (h : Word k) (hh : (hash k 588503011).toNat ≠ 2 ^ 63) :
    0 < featurize k ∧ featurize k < 2 ^ 63 := by
  by_cases hs : k.length < 8
  · obtain ⟨e, hlt⟩ := short_eq h.nonempty (literal_none h.plain) hs
    rw [e]
    refine ⟨?_, by omega⟩
    have : Verif.Store.leNat k ≠ 0 := by
      intro h0
      cases hk : k with
      | nil => exact h.nonempty hk
      | cons c cs =>
        have hc : c ∈ k := by rw [hk]; simp
        exact h.clean c hc (leNat_eq_zero h0 c hc)
    omega
  · obtain ⟨lo, t, h1, h2, h3, h4, h5⟩ := long_eq (literal_none h.plain) (by omega)
    have := h5 hh
    rw [h4]
    unfold Verif.Store.signed64
    rw [if_pos (by omega)]
    omega

/-- The feature of a long key that denotes no number is the published hash of its bytes, MurmurHash64A with
the seed of the code, without its sign and with bit 56 set: programs that use this hash agree on the feature
of every key. The hash that has no negation in 64 bits is again left out. -/
theorem C31_long_partial {k : Key} (h : ∀ n, ¬ Denotes k n) (hl : 8 ≤ k.length) (hb : k.length < 2 ^ 31)
    (hh : murmur k 588503011 ≠ 2 ^ 63) : featurize k = marked (magnitude (murmur k 588503011)) := by
  have e := toNat_hash k 588503011 (by omega)
  rw [show (588503011 : UInt64).toNat = 588503011 from by decide] at e
  rw [← e] at hh ⊢
  exact long_value (literal_none h) hl hh

example : featurize cottontail = marked (magnitude (murmur cottontail 588503011)) :=
  C31_long_partial cottontail_word.plain (by decide) (by decide) (by decide +kernel)

/-! Values of the published hash, computed apart from this model. -/
example : murmur [] 588503011 = 160684052718634602 := by decide +kernel
example : murmur cottontail 588503011 = 3425441637095967781 := by decide +kernel
example : murmur (cottontail ++ cottontail) 0 = 16675194775910950590 := by decide +kernel
example : murmur (cottontail ++ abc ++ abc) 42 = 13435247809091445288 := by decide +kernel

/-- Translating the feature of any word gives a key with the same feature: what a query prints can be
asked again. -/
theorem C31_translate_again_partial {k : Key} (h : Word k) (hh : (hash k 588503011).toNat ≠ 2 ^ 63) :
    featurize (translate (featurize k)) = featurize k := by
  by_cases hs : k.length < 8
  · rw [C31_translate_partial h hs]
  · obtain ⟨lo, t, h1, h2, h3, h4, h5⟩ := long_eq (literal_none h.plain) (by omega)
    have h6 := h5 hh
    have e : featurize k = ((lo + 256 ^ 7 * t : Nat) : Int) := by
      rw [h4]; unfold Verif.Store.signed64; rw [if_pos (by omega)]
    rw [e, translate_long (by omega) (by omega)]
    rw [Int.natAbs_natCast]
    exact featurize_digits (n := lo + 256 ^ 7 * t) (by omega) 0

example : featurize (translate (featurize cottontail)) = featurize cottontail :=
  C31_translate_again_partial cottontail_word (by decide +kernel)

/-- Short keys under tags: the tag and the key can be told from the feature, if tags hold no colon. -/
theorem C31_tags_partial {t t' k k' : Key} (ht : (0x3A : UInt8) ∉ t) (ht' : (0x3A : UInt8) ∉ t')
    (h : ∀ c ∈ t ++ k, c ≠ 0) (h' : ∀ c ∈ t' ++ k', c ≠ 0)
    (hs : t.length + k.length < 7) (hs' : t'.length + k'.length < 7)
    (e : tagged t k = tagged t' k') : t = t' ∧ k = k' := by
  have w : ∀ {t k : Key}, (∀ c ∈ t ++ k, c ≠ 0) → Word (t ++ [0x3A] ++ k) := by
    intro t k h
    refine ⟨by simp, ?_, not_denotes_colon⟩
    intro c hc
    simp only [List.mem_append, List.mem_cons, List.not_mem_nil, or_false] at hc
    rcases hc with (hc | rfl) | hc
    · exact h c (by simp [hc])
    · decide
    · exact h c (by simp [hc])
  exact split_colon ht ht' (C31_distinct_partial (w h) (w h') (by simp; omega) (by simp; omega) e)

/-- A short tagged key never has the feature of an untagged short word without a colon. -/
theorem C31_tagged_untagged_partial {t k w : Key} (hw : Word w) (hc : (0x3A : UInt8) ∉ w)
    (h : ∀ c ∈ t ++ k, c ≠ 0) (hs : t.length + k.length < 7) (hs' : w.length < 8) :
    tagged t k ≠ featurize w := by
  intro e
  have hw' : Word (t ++ [0x3A] ++ k) := by
    refine ⟨by simp, ?_, not_denotes_colon⟩
    intro c hc
    simp only [List.mem_append, List.mem_cons, List.not_mem_nil, or_false] at hc
    rcases hc with (hc | rfl) | hc
    · exact h c (by simp [hc])
    · decide
    · exact h c (by simp [hc])
  have := C31_distinct_partial hw' hw (by simp; omega) hs' e
  exact hc (by rw [← this]; simp)

/-- `a:bc` and `ab:c` -/
example : tagged [0x61] [0x62, 0x63] ≠ tagged [0x61, 0x62] [0x63] := by
  intro e
  have := (C31_tags_partial (by decide) (by decide) (by decide) (by decide) (by decide) (by decide) e).1
  exact absurd this (by decide)

/-- The JSON featurizer changes no feature of a key, but for three-byte keys that begin with the bytes of
the marks it uses for itself. -/
theorem C31_json_partial {k : Key} (h : ∀ c, k ≠ [0xEF, 0xB7, c]) : jsonFeaturize k = featurize k := by
  unfold jsonFeaturize
  rw [if_neg]
  intro hj
  unfold jsonInternal at hj
  split at hj
  · simp only [Bool.and_eq_true, beq_iff_eq] at hj
    exact h _ (by rw [hj.1.1, hj.1.2])
  · cases hj

/-- The marks of JSON have no feature, nor has any other key of three bytes with their first two, but for
those whose third byte lies between 0x80 and 0x8F, which keep theirs. -/
theorem C31_json_marks (c : UInt8) : jsonFeaturize [0xEF, 0xB7, c] =
    if 0x80 ≤ c ∧ c < 0x90 then featurize [0xEF, 0xB7, c] else 0 := by
  have h : ∀ n : Fin 256, jsonInternal [0xEF, 0xB7, UInt8.ofNat n.val]
      = !decide (0x80 ≤ UInt8.ofNat n.val ∧ UInt8.ofNat n.val < 0x90) := by decide +kernel
  have e := h ⟨c.toNat, c.toNat_lt⟩
  simp only [UInt8.ofNat_toNat] at e
  unfold jsonFeaturize
  rw [e]
  by_cases hc : 0x80 ≤ c ∧ c < 0x90 <;> simp [hc]

/-- A vocabulary featurizer gives the features of the one it wraps and counts, for each key, how often it
was asked for. -/
theorem C31_vocab (keys : List Key) :
    (∀ v : Vocab, ∀ k, (Vocab.featurize v k).2 = featurize k) ∧
    ∀ k, Vocab.count (keys.foldl (fun v k => (Vocab.featurize v k).1) []) k = occurrences keys k := by
  refine ⟨fun _ _ => rfl, fun k => ?_⟩
  have : ∀ (v : Vocab), Vocab.count (keys.foldl (fun v k => (Vocab.featurize v k).1) v) k = Vocab.count v k + occurrences keys k := by
    induction keys with
    | nil => intro v; rfl
    | cons x keys ih =>
      intro v
      rw [List.foldl_cons, ih]
      show Vocab.count (Vocab.add v x) k + _ = _
      rw [Vocab.count_add]
      unfold occurrences
      by_cases h : x = k
      · subst h; simp; omega
      · simp [h]
  have h := this []
  rw [h]
  show 0 + _ = _
  omega

/-- `#97` and `a` have the same feature. -/
theorem C31_literal_clash : featurize [0x23, 0x39, 0x37] = featurize [0x61] := by decide

/-- A NUL at the end of a key is lost: `a` and `a` followed by a NUL have the same feature. -/
theorem C31_nul_clash : featurize [0x61, 0] = featurize [0x61] := by decide

/-- A NUL cuts what translation gives: the key is `a`, NUL, `b`. -/
theorem C31_nul_cut : translate (featurize [0x61, 0, 0x62]) = [0x61] := by decide

/-- Not every number can be asked for again after translation: `#65536` translates to the empty key,
whose feature is the null feature. -/
theorem C31_literal_lost : translate (featurize [0x23, 0x36, 0x35, 0x35, 0x33, 0x36]) = [] ∧
    featurize [] = 0 := by decide

/-- Nor does every feature: `#3618595` has the bytes of `#77`, which denotes another feature. -/
theorem C31_literal_changed : translate (featurize [0x23, 0x33, 0x36, 0x31, 0x38, 0x35, 0x39, 0x35]) = [0x23, 0x37, 0x37] ∧
    featurize [0x23, 0x37, 0x37] ≠ featurize [0x23, 0x33, 0x36, 0x31, 0x38, 0x35, 0x39, 0x35] := by decide

/-- The JSON featurizer treats more than its own marks as marks: the comparison is of signed characters and
its two halves are the same way round. U+FDFD, a character of its own, has no feature. -/
theorem C31_json_ligature : jsonFeaturize [0xEF, 0xB7, 0xBD] = 0 ∧ featurize [0xEF, 0xB7, 0xBD] ≠ 0 := by decide

end Verif.Props
