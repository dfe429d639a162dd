import Verif.Burrow.Model
import Verif.Parts.Build
import Verif.Dna.Proof
/-
  Lemmas for C80.
-/
namespace Verif.Burrow
open Verif.Recipe Verif.Dna Verif.HazelDna Verif.Parts

/-! ### parts, from descriptions that mean the same -/

theorem look_same {m m' : Map} {k : Str} (h : SameAnswer (find k m) (find k m')) : Same (look k m) (look k m') := by
  unfold look
  rcases h with ⟨e, e'⟩ | ⟨w, w', e, e', g⟩
  · rw [e, e']; exact Dna.Same.refl _
  · rw [e, e']; exact g

theorem make_compressor_same {n r n' r' : Str} (h1 : Same n n') (h2 : Same r r') {c : Compressor} (h : makeCompressor n r = some c) :
    makeCompressor n' r' = some c := by
  unfold makeCompressor at h
  split at h
  · rename_i e
    have hn : n' = n := by
      rcases e with e | e
      · rw [name_leaf cook_nil h1 e, e]
      · rw [name_leaf (by decide) h1 e, e]
    unfold makeCompressor
    rw [hn, if_pos e]
    exact h
  · split at h
    · rename_i e0 e
      have hn : n' = n := by rw [name_leaf (by decide) h1 e, e]
      unfold makeCompressor
      rw [hn, if_neg e0, if_pos e]
      exact h
    · split at h
      · rename_i e0 e1 e
        have hn : n' = n := by rw [name_leaf (by decide) h1 e, e]
        unfold makeCompressor
        rw [hn, if_neg e0, if_neg e1, if_pos e]
        exact h
      · split at h
        · rename_i e0 e1 e2 e
          have hn : n' = n := by rw [name_leaf (by decide) h1 e, e]
          have hr : r' = r := by
            split at h
            · rename_i g; rw [name_leaf (by decide) h2 g, g]
            · split at h
              · rename_i g; rw [name_leaf cook_nil h2 g, g]
              · cases h
          unfold makeCompressor
          rw [hn, hr, if_neg e0, if_neg e1, if_neg e2, if_pos e]
          exact h
        · split at h
          · rename_i e0 e1 e2 e3 e
            have hn : n' = n := by rw [name_leaf (by decide) h1 e, e]
            unfold makeCompressor
            rw [hn, if_neg e0, if_neg e1, if_neg e2, if_neg e3, if_pos e]
            exact h
          · cases h

theorem okay_leaf {v : Str} (h : Clone.okay v = true) : cook v = none := by
  have : ∀ w ∈ ([[0x79], [0x79, 0x65, 0x73], [0x6F, 0x6E], [0x74, 0x72, 0x75, 0x65], [0x6F, 0x6B, 0x61, 0x79], [0x6F, 0x6B],
    [0x59], [0x59, 0x65, 0x73], [0x4F, 0x6E], [0x54, 0x72, 0x75, 0x65], [0x4F, 0x6B, 0x61, 0x79], [0x4F, 0x6B],
    [0x4F, 0x4B]] : List Str), cook w = none := by decide
  unfold Clone.okay at h
  exact this v (by simpa using h)

theorem okay_same {v v' : Str} (h : Same v v') : Clone.okay v = Clone.okay v' := by
  cases h with
  | leaf _ => rfl
  | node e e' _ _ =>
    have a : Clone.okay v ≠ true := fun k => by rw [okay_leaf k] at e; cases e
    have b : Clone.okay v' ≠ true := fun k => by rw [okay_leaf k] at e'; cases e'
    cases h1 : Clone.okay v <;> cases h2 : Clone.okay v' <;> simp_all

theorem wrap_same {r r' : Str} (h : Same r r') : Clone.shouldWrap r = Clone.shouldWrap r' := by
  cases hc : cook r with
  | none => rw [h.cook_none hc]
  | some m =>
    obtain ⟨m', hc', hs⟩ := h.cook_some hc
    have n1 : r ≠ Clone.jsonKey := fun e => by
      rw [e] at hc; exact absurd hc (by rw [show cook Clone.jsonKey = none by decide]; simp)
    have n2 : r' ≠ Clone.jsonKey := fun e => by
      rw [e] at hc'; exact absurd hc' (by rw [show cook Clone.jsonKey = none by decide]; simp)
    unfold Clone.shouldWrap
    rw [if_neg n1, if_neg n2, hc, hc']
    dsimp only
    cases hf : find Clone.jsonKey m with
    | none => rw [SameMap.find_none hs hf]
    | some v =>
      obtain ⟨v', e, g⟩ := SameMap.find_some hs hf
      rw [e]
      exact okay_same g

theorem look_map {m m' : Map} (h : SameMap m m') (k : Str) : Same (look k m) (look k m') := getD_same h k []

theorem stores_same {m m' : Map} (h1 : SameAnswer (find idxKey m) (find idxKey m')) (h2 : SameAnswer (find txtKey m) (find txtKey m'))
    {f : Featurizer} (f' : Featurizer) {t : Tokenizer} {P : Parts} {j : Bool} (h : openStores m f t = .ok (P, j)) :
    P.featurizer = f ∧ P.tokenizer = t ∧ openStores m' f' t = .ok (⟨f', t, P.text, P.fvalue, P.posting⟩, j) := by
  unfold openStores at h
  split at h
  · cases h
  · rename_i ip hip
    obtain ⟨ip', hip', sip⟩ := (look_same h1).cook_some hip
    split at h
    · cases h
    · rename_i ir hir
      obtain ⟨ir', hir', sir⟩ := (look_map sip recipeKey).cook_some hir
      split at h
      · cases h
      · rename_i posting hp
        split at h
        · cases h
        · rename_i fvalue hv
          split at h
          · cases h
          · rename_i xp hxp
            obtain ⟨xp', hxp', sxp⟩ := (look_same h2).cook_some hxp
            split at h
            · cases h
            · rename_i xr hxr
              obtain ⟨xr', hxr', sxr⟩ := (look_map sxp recipeKey).cook_some hxr
              split at h
              · cases h
              · rename_i text ht
                cases h
                refine ⟨rfl, rfl, ?_⟩
                unfold openStores
                simp only [hip', hir', hxp', hxr', make_compressor_same (look_map sir _) (look_map sir _) hp,
                  make_compressor_same (look_map sir _) (look_map sir _) hv, make_compressor_same (look_map sxr _) (look_map sxr _) ht,
                  ← wrap_same (look_map sxp recipeKey)]

theorem setting_some {file : File} {dna : Str} {m : Map} (h1 : readDna file = some dna) (h2 : cook dna = some m) (k : Str) :
    setting k file = find k m := by unfold setting; simp only [h1, h2]

/-- Files with the same settings are opened with the same parts. -/
theorem parts_same {file file' : File} {dna' : Str} {S' : Map} (h1 : readDna file' = some dna') (h2 : cook dna' = some S')
    (h : ∀ s, s ≠ parametersKey → SameAnswer (setting s file) (setting s file')) {counted : Bool} {P : Parts} {j : Bool}
    (ho : openParts counted file = .ok (P, j)) (hp : P.featurizer.Plain) (counted' : Bool) :
    ∃ Q, openParts counted' file' = .ok (Q, j) ∧ SameParts P Q ∧ Q.featurizer.Plain := by
  unfold openParts at ho
  split at ho
  · cases ho
  · rename_i dna hr
    split at ho
    · cases ho
    · rename_i S hc
      have key : ∀ s, s ≠ parametersKey → SameAnswer (find s S) (find s S') := by
        intro s hs
        have := h s hs
        rwa [setting_some hr hc, setting_some h1 h2] at this
      split at ho
      · cases ho
      · rename_i fp hfp
        obtain ⟨fp', hfp', sfp⟩ := (look_same (key featurizerKey (by decide))).cook_some hfp
        split at ho
        · cases ho
        · rename_i f hf
          split at ho
          · cases ho
          · rename_i tp htp
            obtain ⟨tp', htp', stp⟩ := (look_same (key tokenizerKey (by decide))).cook_some htp
            split at ho
            · cases ho
            · cases ho
            · rename_i t ht
              obtain ⟨e1, e2, _⟩ := stores_same (.refl _) (.refl _) f ho
              rw [e1] at hp
              obtain ⟨f', m1, m2, m3⟩ := make_same (dir' := some counted') (fun _ => rfl) (Nat.le_refl _) hf (look_map sfp nameKey) (look_map sfp recipeKey) hp
              obtain ⟨_, _, e3⟩ := stores_same (key idxKey (by decide)) (key txtKey (by decide)) f' ho
              refine ⟨⟨f', t, P.text, P.fvalue, P.posting⟩, ?_, ⟨?_, e2, rfl, rfl, rfl⟩, m3⟩
              · unfold openParts
                simp only [h1, h2, hfp', m1, htp', tokenizer_same (look_map stp _) (look_map stp _) ht]
                exact e3
              · intro k; rw [e1]; exact m2 k

end Verif.Burrow
