import Verif.Store.IndexProof
/-
  Replacing adjacent shards by their merge.
-/
namespace Verif.Store
open Verif.Hopper Verif.Gcl

/-- inside one of the minimal erased ranges of the shards, if there is more than one shard
(one shard is not rewritten) -/
def erasedIn (ixs : List Index) (a : Ann) : Prop :=
  2 ≤ ixs.length ∧ ∃ e, solutionsRaw ixs nullFeature e ∧ inside a e

theorem solutionsRaw_nil {ixs : List Index} {f : Int} (h : postingsOf ixs f = []) (a : Ann) :
    ¬ solutionsRaw ixs f a := by
  intro ha
  obtain ⟨L, hL, haL⟩ := unionL_mem ha
  obtain ⟨ix, hix, rfl⟩ := List.mem_map.1 hL
  unfold annsOf at haL
  cases hf : ix f with
  | none => rw [hf] at haL; simp at haL
  | some P =>
    have : P ∈ postingsOf ixs f := mem_postingsOf.2 ⟨ix, hix, hf⟩
    rw [h] at this; simp at this

/-- what is known of one posting of the merged shard -/
def PostOk (P : Option Posting) (f : Int) (S : Ann → Prop) : Prop :=
  match P with
  | none => ∀ a, ¬ S a
  | some R => R.Ok ∧ Listing R.anns ∧ R.anns ≠ [] ∧ R.feature = f ∧ (∀ a ∈ R.anns, plus0 a = a) ∧
    ∀ a, a ∈ R.anns ↔ S a

theorem merge_posting_ok {ixs : List Index} (h : ∀ ix ∈ ixs, GoodIx ix) (hne : ixs ≠ []) (f : Int) :
    ∃ P, mergeFeature ixs f = some P ∧
      PostOk P f fun a => solutionsRaw ixs f a ∧ ¬ (f ≠ nullFeature ∧ erasedIn ixs a) := by
  match ixs, hne with
  | [ix], _ =>
    refine ⟨ix f, rfl, ?_⟩
    have e : ∀ a, solutionsRaw [ix] f a ↔ a ∈ annsOf ix f :=
      fun a => unionL_single ((h ix (by simp)).annsOf_listing f) a
    have e2 : ∀ a, ¬ erasedIn [ix] a := fun a h => by simp [erasedIn] at h
    unfold PostOk
    unfold annsOf at e
    cases hf : ix f with
    | none =>
      rw [hf] at e
      rintro a ⟨ha, _⟩
      have := (e a).1 ha; simp at this
    | some R =>
      rw [hf] at e
      have g := h ix (by simp)
      refine ⟨g.ok f R hf, g.listing f R hf, g.nonempty f R hf, g.feature f R hf, g.zero f R hf, ?_⟩
      intro a
      exact ⟨fun ha => ⟨(e a).2 ha, fun h => e2 a h.2⟩, fun ha => (e a).1 ha.1⟩
  | ix :: ix' :: rest, _ =>
    generalize hixs : ix :: ix' :: rest = ixs at *
    have hlen : 2 ≤ ixs.length := by rw [← hixs]; simp
    have emf : mergeFeature ixs f = if f = nullFeature then some (mergedErasures ixs)
        else mergeExcluding (postingsOf ixs f) (mergedErasures ixs) := by
      rw [← hixs]; rfl
    -- merging without exclusions
    have plain : ∀ g, ∃ P, (if postingsOf ixs g = [] then none else mergePostings (postingsOf ixs g)) = P ∧
        PostOk P g (solutionsRaw ixs g) := by
      intro g
      by_cases hp : postingsOf ixs g = []
      · rw [if_pos hp]; exact ⟨none, rfl, fun a => solutionsRaw_nil hp a⟩
      · rw [if_neg hp]
        obtain ⟨R, r1, r2, r3, r4, r5, r6, r7⟩ := merge_feature_ok h g hp
        exact ⟨some R, r1, r2, r3, r4, r5, r6, r7⟩
    have merge_nil : mergePostings [] = none := rfl
    have plain' : ∀ g, PostOk (mergePostings (postingsOf ixs g)) g (solutionsRaw ixs g) := by
      intro g
      obtain ⟨P, e, hP⟩ := plain g
      by_cases hp : postingsOf ixs g = []
      · rw [if_pos hp] at e; rw [hp, merge_nil, e]; exact hP
      · rw [if_neg hp] at e; rw [e]; exact hP
    rw [emf]
    by_cases hf : f = nullFeature
    · rw [if_pos hf]
      refine ⟨_, rfl, ?_⟩
      have := plain' nullFeature
      subst hf
      unfold mergedErasures
      unfold postingsOf at this
      unfold PostOk at this ⊢
      cases hm : mergePostings (ixs.filterMap fun ix => ix nullFeature) with
      | none =>
        rw [hm] at this
        rintro a ⟨ha, _⟩; exact this a ha
      | some R =>
        rw [hm] at this
        obtain ⟨r1, r2, r3, r4, r5, r6⟩ := this
        refine ⟨r1, r2, r3, r4, r5, fun a => ?_⟩
        rw [r6]
        exact ⟨fun h => ⟨h, fun h => h.1 rfl⟩, fun h => h.1⟩
    · rw [if_neg hf]
      by_cases hp : postingsOf ixs f = []
      · refine ⟨none, by rw [hp]; rfl, ?_⟩
        rintro a ⟨ha, _⟩; exact solutionsRaw_nil hp a ha
      · have good : ∀ P ∈ postingsOf ixs f, ∃ ix ∈ ixs, ix f = some P :=
          fun P hP => mem_postingsOf.1 hP
        have ok : ∀ P ∈ postingsOf ixs f, P.Ok := fun P hP => by
          obtain ⟨ix, h1, h2⟩ := good P hP; exact (h ix h1).ok f P h2
        have hl : ∀ P ∈ postingsOf ixs f, Listing P.anns := fun P hP => by
          obtain ⟨ix, h1, h2⟩ := good P hP; exact (h ix h1).listing f P h2
        have hz : ∀ P ∈ postingsOf ixs f, ∀ a ∈ P.anns, plus0 a = a := fun P hP => by
          obtain ⟨ix, h1, h2⟩ := good P hP; exact (h ix h1).zero f P h2
        have hE := plain' nullFeature
        have eE : mergedErasures ixs = mergePostings (postingsOf ixs nullFeature) := rfl
        rw [eE]
        unfold PostOk at hE
        cases hm : mergePostings (postingsOf ixs nullFeature) with
        | none =>
          rw [hm] at hE
          refine ⟨mergePostings (postingsOf ixs f), ?_, ?_⟩
          · match hps : postingsOf ixs f, hp with
            | P :: Ps, _ => rfl
          · have := plain' f
            unfold PostOk at this ⊢
            have hno : ∀ a, ¬ (f ≠ nullFeature ∧ erasedIn ixs a) := by
              rintro a ⟨_, _, e, he, _⟩; exact hE e he
            cases hm' : mergePostings (postingsOf ixs f) with
            | none =>
              rw [hm'] at this
              rintro a ⟨ha, _⟩; exact this a ha
            | some R =>
              rw [hm'] at this
              obtain ⟨r1, r2, r3, r4, r5, r6⟩ := this
              refine ⟨r1, r2, r3, r4, r5, fun a => ?_⟩
              rw [r6]
              exact ⟨fun h => ⟨h, hno a⟩, fun h => h.1⟩
        | some E =>
          rw [hm] at hE
          obtain ⟨e1, e2, e3, _, _, e6⟩ := hE
          have hsol : ∀ a, notContainedIn (unionOf (views (postingsOf ixs f))) (ofList E.anns) a ↔
              solutionsRaw ixs f a ∧ ¬ (f ≠ nullFeature ∧ erasedIn ixs a) := by
            intro a
            unfold notContainedIn ofList erasedIn
            rw [views_eq hz, postings_anns h, unionL_filter]
            constructor
            · rintro ⟨h1, h2⟩
              exact ⟨h1, fun ⟨_, _, e, he, hin⟩ => h2 ⟨e, (e6 e).2 he, hin⟩⟩
            · rintro ⟨h1, h2⟩
              exact ⟨h1, fun ⟨e, he, hin⟩ => h2 ⟨hf, hlen, e, (e6 e).1 he, hin⟩⟩
          rcases mergeExcluding_ok hp ok hl e1 e2 e3 with ⟨m1, m2⟩ | ⟨R, m1, m2, _, m4, m5, m6, m7, m8⟩
          · refine ⟨none, m1, ?_⟩
            intro a ha
            exact m2 a ((hsol a).2 ha)
          · refine ⟨some R, m1, m2, m4, m5, ?_, m7, ?_⟩
            · match hps : postingsOf ixs f, hp with
              | P :: Ps, _ =>
                have hP' : P ∈ postingsOf ixs f := by rw [hps]; simp
                obtain ⟨ix, h1, h2⟩ := good P hP'
                rw [m6 P (by rw [hps]; rfl)]
                exact (h ix h1).feature f P h2
            · intro a
              simp only
              rw [← hsol, ← m8]
              unfold Posting.view
              have : R.anns.map plus0 = R.anns := by
                conv => rhs; rw [← List.map_id R.anns]
                exact List.map_congr_left fun a ha => m7 a ha
              rw [this]

/-- merging shards succeeds, and the merged shard is in good order -/
theorem merge_index_ok {ixs : List Index} (h : ∀ ix ∈ ixs, GoodIx ix) (hne : ixs ≠ []) :
    ∃ M : Index, (∀ f, mergeFeature ixs f = some (M f)) ∧ GoodIx M ∧
      ∀ f a, a ∈ annsOf M f ↔ solutionsRaw ixs f a ∧ ¬ (f ≠ nullFeature ∧ erasedIn ixs a) := by
  have hx := fun f => merge_posting_ok h hne f
  refine ⟨fun f => Classical.choose (hx f), fun f => (Classical.choose_spec (hx f)).1, ?_, ?_⟩
  · have sp := fun f => (Classical.choose_spec (hx f)).2
    constructor
    · intro f P hP; have := sp f; rw [hP] at this; exact this.1
    · intro f P hP; have := sp f; rw [hP] at this; exact this.2.1
    · intro f P hP; have := sp f; rw [hP] at this; exact this.2.2.1
    · intro f P hP; have := sp f; rw [hP] at this; exact this.2.2.2.2.1
    · intro f P hP; have := sp f; rw [hP] at this; exact this.2.2.2.1
  · intro f a
    have sp := (Classical.choose_spec (hx f)).2
    unfold annsOf
    simp only
    cases hc : Classical.choose (hx f) with
    | none =>
      rw [hc] at sp
      simp only [List.not_mem_nil, false_iff]
      exact sp a
    | some R => rw [hc] at sp; exact sp.2.2.2.2.2 a

section
variable {A G B : List Index} {M : Index} (h : ∀ ix ∈ A ++ G ++ B, GoodIx ix)
  (hM : ∀ f a, a ∈ annsOf M f ↔ solutionsRaw G f a ∧ ¬ (f ≠ nullFeature ∧ erasedIn G a))
include h

theorem good_G : ∀ L ∈ G.map fun ix => annsOf ix f, Listing L := by
  intro L hL
  obtain ⟨ix, hix, rfl⟩ := List.mem_map.1 hL
  exact (h ix (by simp [hix])).annsOf_listing f

include hM

theorem erasures_same (a : Ann) : solutionsRaw (A ++ G ++ B) nullFeature a ↔
    solutionsRaw (A ++ [M] ++ B) nullFeature a := by
  unfold solutionsRaw
  simp only [List.map_append, List.map_cons, List.map_nil]
  refine unionL_group (X := fun _ => False) (Y := fun _ => False) (good_G h) ?_ ?_ (fun _ h => h) a id
  · intro b; rw [hM]; simp [solutionsRaw]
  · intro _ _ _ _ _ _ _ _ _ h; exact h

/-- replacing shards by their merge, when whatever contains an annotation that the merge
drops is erased anyway -/
theorem merge_invisible (f : Int)
    (cover : ∀ ix ∈ A ++ G ++ B, ∀ r ∈ annsOf ix f, ∀ ix' ∈ G, ∀ s ∈ annsOf ix' f, inside s r →
      ∀ e, solutionsRaw G nullFeature e → inside s e →
      ∃ e', solutionsRaw (A ++ G ++ B) nullFeature e' ∧ inside r e') (a : Ann) :
    solutions (A ++ G ++ B) f a ↔ solutions (A ++ [M] ++ B) f a := by
  unfold solutions
  by_cases hf : f = nullFeature
  · subst hf; simp only [if_true]; exact erasures_same h hM a
  · rw [if_neg hf, if_neg hf]
    unfold notContainedIn
    have e0 := erasures_same h hM
    have key : ∀ r, (¬ ∃ e, solutionsRaw (A ++ G ++ B) nullFeature e ∧ inside r e) →
        (solutionsRaw (A ++ G ++ B) f r ↔ solutionsRaw (A ++ [M] ++ B) f r) := by
      intro r hr
      unfold solutionsRaw
      simp only [List.map_append, List.map_cons, List.map_nil]
      refine unionL_group (X := fun x => erasedIn G x ∧ ∃ g ∈ G, x ∈ annsOf g f) (Y := fun x =>
        ∃ e, solutionsRaw (A ++ G ++ B) nullFeature e ∧ inside x e) (good_G h) ?_ ?_ ?_ r hr
      · intro x
        rw [hM]
        simp only [solutionsRaw, ne_eq, hf, not_false_eq_true, true_and]
        constructor
        · rintro ⟨h1, h2⟩; exact ⟨h1, fun h3 => h2 h3.1⟩
        · rintro ⟨h1, h2⟩
          refine ⟨h1, fun h3 => h2 ⟨h3, ?_⟩⟩
          obtain ⟨L, hL, hx⟩ := unionL_mem h1
          obtain ⟨g, hg, rfl⟩ := List.mem_map.1 hL
          exact ⟨g, hg, hx⟩
      · intro L hL x hx L' hL' s hs hin ⟨⟨_, e, he, hse⟩, _⟩
        simp only [← List.map_append] at hL
        obtain ⟨ix, hix, rfl⟩ := List.mem_map.1 hL
        obtain ⟨ix', hix', rfl⟩ := List.mem_map.1 hL'
        exact cover ix hix x hx ix' hix' s hs hin e he hse
      · rintro x ⟨⟨_, e, he, hin⟩, g, hg, hx⟩
        exact cover g (by simp [hg]) x hx g hg x hx ⟨Int.le_refl _, Int.le_refl _⟩ e he hin
    constructor
    · rintro ⟨h1, h2⟩
      exact ⟨(key a h2).1 h1, fun ⟨e, he, hin⟩ => h2 ⟨e, (e0 e).2 he, hin⟩⟩
    · rintro ⟨h1, h2⟩
      have h3 : ¬ ∃ e, solutionsRaw (A ++ G ++ B) nullFeature e ∧ inside a e :=
        fun ⟨e, he, hin⟩ => h2 ⟨e, (e0 e).1 he, hin⟩
      exact ⟨(key a h3).2 h1, h3⟩

end

/-- an erased range with no other erased range inside counts -/
theorem erased_counts {ixs : List Index} (h : ∀ ix ∈ ixs, GoodIx ix) {ix : Index} (hix : ix ∈ ixs)
    {e : Ann} (he : e ∈ annsOf ix nullFeature)
    (nest : ∀ ix' ∈ ixs, ∀ e' ∈ annsOf ix' nullFeature, inside e' e → same e' e) :
    ∃ e', solutionsRaw ixs nullFeature e' ∧ same e' e := by
  obtain ⟨m, hm, hin⟩ := unionL_cover (Ls := ixs.map fun ix => annsOf ix nullFeature) (by
      intro L hL
      obtain ⟨ix, hix, rfl⟩ := List.mem_map.1 hL
      exact (h ix hix).annsOf_listing nullFeature) (List.mem_map.2 ⟨ix, hix, rfl⟩) he
  obtain ⟨L, hL, hmL⟩ := unionL_mem hm
  obtain ⟨ix', hix', rfl⟩ := List.mem_map.1 hL
  exact ⟨m, hm, nest ix' hix' m hmL hin⟩

end Verif.Store
