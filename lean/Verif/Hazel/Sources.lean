import Verif.Hazel.Shards
namespace Verif.Hazel
open Verif.Hopper Verif.Gcl Verif.Store Verif.Props

/-! ### one source -/

/-- the annotations a shard stores for a feature -/
def stored (l : List (Int × Posting)) (f : Int) : List Ann := (l.filter fun x => x.1 == f).flatMap fun x => x.2.anns

theorem find_unique {l : List (Int × Posting)} (h : l.Pairwise fun x y => x.1 < y.1) {x : Int × Posting} (hx : x ∈ l) :
    l.find? (fun y => y.1 == x.1) = some x ∧ l.filter (fun y => y.1 == x.1) = [x] := by
  induction l with
  | nil => simp at hx
  | cons y l ih =>
    have hp := List.pairwise_cons.1 h
    rcases List.mem_cons.1 hx with rfl | hx
    · refine ⟨by simp, ?_⟩
      have : l.filter (fun y => y.1 == x.1) = [] := by
        rw [List.filter_eq_nil_iff]
        intro z hz
        have := hp.1 z hz
        simp; omega
      simp [this]
    · have hlt := hp.1 x hx
      have hne : (y.1 == x.1) = false := by simp; omega
      simp [hne, ih hp.2 hx]

theorem find_none {l : List (Int × Posting)} {f : Int} (h : f ∉ l.map (·.1)) :
    l.find? (fun y => y.1 == f) = none ∧ l.filter (fun y => y.1 == f) = [] := by
  constructor
  · rw [List.find?_eq_none]
    intro x hx
    simp only [beq_iff_eq]
    rintro rfl
    exact h (List.mem_map.2 ⟨x, hx, rfl⟩)
  · rw [List.filter_eq_nil_iff]
    intro x hx
    simp only [beq_iff_eq]
    rintro rfl
    exact h (List.mem_map.2 ⟨x, hx, rfl⟩)

section
variable {l : List (Int × Posting)} (g : GoodShard l)
include g

theorem reread_same {x : Int × Posting} (hx : x ∈ l) : (reread x.2).anns = x.2.anns :=
  (reread_anns (g.columns x hx).ok).2.2.2.2.2 fun a ha => plus0_of (g.zero x hx a ha)

theorem ixOf_mem {x : Int × Posting} (hx : x ∈ l) : ixOf l x.1 = some (reread x.2) := by
  unfold ixOf
  rw [(find_unique g.sorted hx).1]; rfl

theorem ixOf_some {f : Int} {R : Posting} (h : ixOf l f = some R) : ∃ x ∈ l, x.1 = f ∧ R = reread x.2 := by
  unfold ixOf at h
  cases hf : l.find? (fun x => x.1 == f) with
  | none => rw [hf] at h; cases h
  | some x =>
    rw [hf] at h
    cases h
    exact ⟨x, List.mem_of_find?_eq_some hf, by simpa using List.find?_some hf, rfl⟩

theorem good_ix : GoodIx (ixOf l) := by
  refine ⟨?_, ?_, ?_, ?_, ?_⟩ <;> intro f R h <;> obtain ⟨x, hx, hf, rfl⟩ := ixOf_some g h
  · exact (reread_anns (g.columns x hx).ok).1
  · rw [reread_same g hx]; exact g.listing x hx
  · rw [reread_same g hx]; exact g.nonempty x hx
  · rw [reread_same g hx]; intro a ha; exact plus0_of (g.zero x hx a ha)
  · rw [(reread_anns (g.columns x hx).ok).2.1, g.feature x hx]; exact hf

theorem annsOf_stored (f : Int) : annsOf (ixOf l) f = stored l f := by
  by_cases hf : f ∈ l.map (·.1)
  · obtain ⟨x, hx, rfl⟩ := List.mem_map.1 hf
    unfold annsOf stored
    rw [ixOf_mem g hx, (find_unique g.sorted hx).2]
    simp [reread_same g hx]
  · unfold annsOf stored ixOf
    rw [(find_none hf).1, (find_none hf).2]
    rfl

theorem good_list {pc fc : Codec} (hst : Stores pc fc) : GoodList pc fc l := by
  refine ⟨g.sorted, g.feature, fun x hx => ?_⟩
  have c := g.columns x hx
  have hlen := c.count
  exact storable_of c.ok hst c.feature (by rw [anns_length c.ok]; exact hlen) (anns_in64 c.ok c) (g.listing x hx)
    (g.start x hx)

theorem opened_spec {pc fc : Codec} (hst : Stores pc fc) {H : HIdx} (ho : Opened pc fc l H) :
    H.dir.map (·.feature) = l.map (·.1) ∧ Sorted H.dir ∧
    ∀ f, (ixOf l f = none ∧ locate H.dir f = none) ∨
      ∃ i R, ixOf l f = some R ∧ locate H.dir f = some i ∧ H.postingAt pc fc i = some R := by
  obtain ⟨blob, h1, h2, h3⟩ := ho
  obtain ⟨H', a1, a2, a3, a4, a5, a6⟩ := posting_ok (good_list g hst) h1 h2
  rw [h3] at a1
  cases a1
  refine ⟨a3, a4, fun f => ?_⟩
  by_cases hf : f ∈ l.map (·.1)
  · obtain ⟨x, hx, rfl⟩ := List.mem_map.1 hf
    obtain ⟨_, _, ⟨i, i1, i2⟩, _⟩ := a5 x.1 x.2 hx
    exact Or.inr ⟨i, _, ixOf_mem g hx, i1, i2⟩
  · refine Or.inl ⟨?_, (a6 f hf).2.2.1⟩
    unfold ixOf
    rw [(find_none hf).1]; rfl

end

/-! ### all the sources -/

/-- the annotations of text chunks, their values moved by the lengths of the texts before -/
def chunksOf (tcf : Int) (shards : List (List (Int × Posting))) (lens : List Int) : List Ann :=
  (shards.zip (textBases 0 lens)).flatMap fun x => (stored x.1 tcf).map fun a => { a with v := a.v + x.2 }

/-- a merge of two or more good static shards -/
structure Sources (J : Job) (src : List (List (Int × Posting) × HIdx)) : Prop where
  idxs : J.idxs = src.map (·.2)
  two : 2 ≤ src.length
  good : ∀ x ∈ src, GoodShard x.1
  opened : ∀ x ∈ src, Opened J.pc J.fc x.1 x.2
  stores : Stores J.pc J.fc
  count : ((src.map fun x => (x.1.map fun y => y.2.anns.length).sum).sum ≤ 1000000000000000)
  lens : J.lens.length = src.length
  tcf : nullFeature < J.tcf ∧ J.tcf < maxfinity
  chunks : Listing (chunksOf J.tcf (src.map (·.1)) J.lens)
  values : ∀ a ∈ chunksOf J.tcf (src.map (·.1)) J.lens, 0 ≤ a.v ∧ a.v ≤ 9223372036854775807

section
variable {J : Job} {src : List (List (Int × Posting) × HIdx)}

theorem postingsFor_eq {pc fc : Codec} (hst : Stores pc fc) (f : Int) : ∀ {src : List (List (Int × Posting) × HIdx)},
    (∀ x ∈ src, GoodShard x.1) → (∀ x ∈ src, Opened pc fc x.1 x.2) →
    postingsFor pc fc (src.map (·.2)) f = some ((src.map fun x => ixOf x.1).filterMap fun ix => ix f) ∧
    hasFeature (src.map (·.2)) f = src.any fun x => (ixOf x.1 f).isSome := by
  intro src
  induction src with
  | nil => intros; exact ⟨rfl, rfl⟩
  | cons x src ih =>
    intro hg ho
    obtain ⟨i1, i2⟩ := ih (fun y hy => hg y (by simp [hy])) (fun y hy => ho y (by simp [hy]))
    have := (opened_spec (hg x (by simp)) hst (ho x (by simp))).2.2 f
    simp only [List.map_cons, postingsFor, List.filterMap_cons, hasFeature, List.any_cons]
    unfold hasFeature at i2
    rw [i2]
    rcases this with ⟨a1, a2⟩ | ⟨i, R, a1, a2, a3⟩
    · rw [a2, a1]
      exact ⟨i1, rfl⟩
    · rw [a2, a1]
      simp [a3, i1]

theorem pushChunks_eq {pc fc : Codec} (hst : Stores pc fc) (tcf : Int) : ∀ {src : List (List (Int × Posting) × HIdx)}
    {lens : List Int} {base : Int} {P : Posting},
    (∀ x ∈ src, GoodShard x.1) → (∀ x ∈ src, Opened pc fc x.1 x.2) → lens.length = src.length →
    pushChunks pc fc tcf ((src.map (·.2)).zip (textBases base lens)) P =
      some ((((src.map (·.1)).zip (textBases base lens)).flatMap fun x => (stored x.1 tcf).map fun a => { a with v := a.v + x.2 }).foldl
        Posting.push P) := by
  intro src
  induction src with
  | nil => intros; simp [pushChunks]
  | cons x src ih =>
    intro lens base P hg ho hl
    cases lens with
    | nil => simp at hl
    | cons n lens =>
      have i1 := fun P => ih (lens := lens) (base := base + n) (P := P) (fun y hy => hg y (by simp [hy]))
        (fun y hy => ho y (by simp [hy])) (by simpa using hl)
      have := (opened_spec (hg x (by simp)) hst (ho x (by simp))).2.2 tcf
      simp only [textBases, List.map_cons, List.zip_cons_cons, pushChunks, List.flatMap_cons, List.foldl_append]
      have e := annsOf_stored (hg x (by simp)) tcf
      unfold annsOf at e
      rcases this with ⟨a1, a2⟩ | ⟨i, R, a1, a2, a3⟩
      · rw [a2]
        rw [a1] at e
        rw [i1, ← e]
        rfl
      · rw [a2]
        rw [a1] at e
        simp only [a3, Option.bind_eq_bind, Option.bind_some]
        rw [i1, ← e, List.foldl_map]

theorem stored_le {l : List (Int × Posting)} (f : Int) : (stored l f).length ≤ (l.map fun y => y.2.anns.length).sum := by
  unfold stored
  induction l with
  | nil => simp
  | cons x l ih =>
    rw [List.filter_cons]
    split
    · simp only [List.flatMap_cons, List.length_append, List.map_cons, List.sum_cons]; omega
    · simp only [List.map_cons, List.sum_cons]; omega

theorem all_le (f : Int) : ∀ {src : List (List (Int × Posting) × HIdx)},
    (src.flatMap fun x => stored x.1 f).length ≤ (src.map fun x => (x.1.map fun y => y.2.anns.length).sum).sum := by
  intro src
  induction src with
  | nil => simp
  | cons x src ih =>
    have := stored_le (l := x.1) f
    simp only [List.flatMap_cons, List.length_append, List.map_cons, List.sum_cons]; omega

theorem chunks_le (f : Int) : ∀ {shards : List (List (Int × Posting))} {bs : List Int},
    ((shards.zip bs).flatMap fun x => (stored x.1 f).map fun a : Ann => { a with v := a.v + x.2 }).length ≤
      (shards.flatMap fun l => stored l f).length := by
  intro shards
  induction shards with
  | nil => simp
  | cons x shards ih =>
    intro bs
    cases bs with
    | nil => simp
    | cons b bs =>
      have := ih (bs := bs)
      simp only [List.zip_cons_cons, List.flatMap_cons, List.length_append, List.length_map]; omega

theorem stored_mem {l : List (Int × Posting)} {f : Int} {a : Ann} (h : a ∈ stored l f) : ∃ x ∈ l, a ∈ x.2.anns ∧ x.1 = f := by
  obtain ⟨x, hx, ha⟩ := List.mem_flatMap.1 h
  obtain ⟨h1, h2⟩ := List.mem_filter.1 hx
  exact ⟨x, h1, ha, by simpa using h2⟩

/-- the features of the directories are the features of the loop -/
theorem mem_features (f : Int) (n : Nat) : ∀ {rest : List (List Entry)}, (rest.map List.length).sum = n →
    (∀ d ∈ rest, Sorted d) → f < maxfinity → (f ∈ features rest ↔ ∃ d ∈ rest, ∃ e ∈ d, e.feature = f) := by
  induction n using Nat.strongRecOn with
  | ind n ih =>
    intro rest hn hs hf
    rw [features]
    split
    · rename_i h
      refine ⟨fun h => by simp at h, ?_⟩
      rintro ⟨d, hd, e, he, rfl⟩
      exfalso
      cases d with
      | nil => simp at he
      | cons x d =>
        have hx := nextFeature_head hd (e := x) rfl
        have hp := List.pairwise_cons.1 (hs _ hd)
        rcases List.mem_cons.1 he with rfl | he
        · omega
        · have := hp.1 e he; omega
    · rename_i h
      have hlt := advance_sum rest h
      have i := ih _ (hn ▸ hlt) (rest := advanceAll rest) rfl (by
        intro d hd
        obtain ⟨d', hd', rfl⟩ := List.mem_map.1 hd
        exact advance_sorted (hs d' hd')) hf
      rw [List.mem_cons, i]
      constructor
      · rintro (rfl | ⟨d, hd, e, he, rfl⟩)
        · obtain ⟨d, hd, e, he, hf⟩ := nextFeature_mem h
          exact ⟨d, hd, e, List.mem_of_mem_head? he, hf⟩
        · obtain ⟨d', hd', rfl⟩ := List.mem_map.1 hd
          refine ⟨d', hd', e, ?_, rfl⟩
          unfold advance at he
          cases d' with
          | nil => exact he
          | cons x d' =>
            simp only at he
            split at he
            · exact List.mem_cons_of_mem _ he
            · exact he
      · rintro ⟨d, hd, e, he, rfl⟩
        by_cases hfe : e.feature = nextFeature rest
        · left; exact hfe
        · right
          refine ⟨advance (nextFeature rest) d, List.mem_map.2 ⟨d, hd, rfl⟩, e, ?_, rfl⟩
          unfold advance
          cases d with
          | nil => exact he
          | cons x d =>
            simp only
            split
            · rename_i hx
              rcases List.mem_cons.1 he with rfl | he
              · exact absurd hx hfe
              · exact he
            · exact he

theorem mem_past {f : Int} {d : List Entry} (h : Sorted d) {e : Entry} : e ∈ past f d ↔ e ∈ d ∧ f < e.feature := by
  constructor
  · intro he
    exact ⟨(List.dropWhile_sublist _).subset he, past_gt h e he⟩
  · rintro ⟨he, hf⟩
    induction d with
    | nil => simp at he
    | cons x d ih =>
      have hp := List.pairwise_cons.1 h
      unfold past
      rw [List.dropWhile_cons]
      split
      · rename_i hx
        have hx : x.feature ≤ f := by simpa using hx
        rcases List.mem_cons.1 he with rfl | he
        · omega
        · exact ih hp.2 he
      · exact he


/-! #### the merged postings -/

/-- what the merged shard holds for a feature -/
def content (J : Job) (src : List (List (Int × Posting) × HIdx)) (f : Int) (a : Ann) : Prop :=
  if f = J.tcf then a ∈ chunksOf J.tcf (src.map (·.1)) J.lens
  else solutionsRaw (src.map fun x => ixOf x.1) f a ∧ ¬ (f ≠ nullFeature ∧ erasedIn (src.map fun x => ixOf x.1) a)

/-- a posting of the merged shard -/
structure Made (pc fc : Codec) (R : Posting) (f : Int) (S : Ann → Prop) : Prop where
  store : Storable pc fc R
  size : R.size ≠ 0
  feature : R.feature = f
  listing : Listing R.anns
  nonempty : R.anns ≠ []
  zero : ∀ a ∈ R.anns, plus0 a = a
  holds : ∀ a, a ∈ R.anns ↔ S a

theorem raw_mem (h : Sources J src) {f : Int} {a : Ann} (ha : solutionsRaw (src.map fun x => ixOf x.1) f a) :
    ∃ x ∈ src, a ∈ stored x.1 f := by
  obtain ⟨L, hL, haL⟩ := unionL_mem ha
  rw [List.map_map] at hL
  obtain ⟨x, hx, rfl⟩ := List.mem_map.1 hL
  simp only [Function.comp_apply, annsOf_stored (h.good x hx)] at haL
  exact ⟨x, hx, haL⟩

theorem stored_in64 (h : Sources J src) {x : List (Int × Posting) × HIdx} (hx : x ∈ src) {f : Int} {a : Ann}
    (ha : a ∈ stored x.1 f) : In64 a.p ∧ In64 a.q ∧ In64 a.v ∧ 0 ≤ a.p ∧ In64 f := by
  obtain ⟨y, hy, hay, hf⟩ := stored_mem ha
  have c := (h.good x hx).columns y hy
  obtain ⟨h1, h2, h3⟩ := anns_in64 c.ok c a hay
  have h4 := c.feature
  rw [(h.good x hx).feature y hy, hf] at h4
  exact ⟨h1, h2, h3, (h.good x hx).start y hy a hay, h4⟩

theorem size_of {R : Posting} (h : R.Ok) (hne : R.anns ≠ []) : R.size ≠ 0 := by
  intro h0
  apply hne
  apply List.eq_nil_of_length_eq_zero
  rw [anns_length h]; exact h0

/-- the merged posting of a feature other than the text chunks -/
theorem merged_posting (h : Sources J src) {f : Int} (hf : f ≠ J.tcf) :
    ∃ P, mergeFeature (src.map fun x => ixOf x.1) f = some P ∧
      match P with
      | none => ∀ a, ¬ content J src f a
      | some R => Made J.pc J.fc R f (content J src f) := by
  have hg : ∀ ix ∈ src.map (fun x => ixOf x.1), GoodIx ix := by
    intro ix hix
    obtain ⟨x, hx, rfl⟩ := List.mem_map.1 hix
    exact good_ix (h.good x hx)
  have hne : src.map (fun x => ixOf x.1) ≠ [] := by
    intro h0
    have := h.two
    simp only [List.map_eq_nil_iff] at h0
    subst h0; simp at this
  obtain ⟨P, h1, h2⟩ := merge_posting_ok hg hne f
  refine ⟨P, h1, ?_⟩
  have hc : content J src f = fun a => solutionsRaw (src.map fun x => ixOf x.1) f a ∧
      ¬ (f ≠ nullFeature ∧ erasedIn (src.map fun x => ixOf x.1) a) := by
    funext a; unfold content; rw [if_neg hf]
  rw [hc]
  cases P with
  | none => exact h2
  | some R =>
    obtain ⟨r1, r2, r3, r4, r5, r6⟩ := h2
    have hsrc : ∀ a ∈ R.anns, ∃ x ∈ src, a ∈ stored x.1 f := fun a ha => raw_mem h ((r6 a).1 ha).1
    refine ⟨storable_of r1 h.stores ?_ ?_ ?_ r2 ?_, size_of r1 r3, r4, r2, r3, r5, r6⟩
    · obtain ⟨a, ha⟩ := List.exists_mem_of_ne_nil _ r3
      obtain ⟨x, hx, hax⟩ := hsrc a ha
      rw [r4]
      exact (stored_in64 h hx hax).2.2.2.2
    · have := (listing_nodup r2).length_le_of_subset (l₂ := src.flatMap fun x => stored x.1 f) (by
        intro a ha
        obtain ⟨x, hx, hax⟩ := hsrc a ha
        exact List.mem_flatMap.2 ⟨x, hx, hax⟩)
      have h2 := all_le f (src := src)
      have h3 := h.count
      omega
    · intro a ha
      obtain ⟨x, hx, hax⟩ := hsrc a ha
      have := stored_in64 h hx hax
      exact ⟨this.1, this.2.1, this.2.2.1⟩
    · intro a ha
      obtain ⟨x, hx, hax⟩ := hsrc a ha
      exact (stored_in64 h hx hax).2.2.2.1

/-- the merged posting of the text chunks -/
theorem chunk_posting (h : Sources J src) (hne : chunksOf J.tcf (src.map (·.1)) J.lens ≠ []) :
    Made J.pc J.fc ((chunksOf J.tcf (src.map (·.1)) J.lens).foldl Posting.push { feature := J.tcf }) J.tcf (content J src J.tcf) := by
  obtain ⟨c1, c2, c3⟩ := pushAll_view h.chunks J.tcf
  have hz : ∀ a ∈ chunksOf J.tcf (src.map (·.1)) J.lens, plus0 a = a := fun a ha =>
    plus0_of (by have := h.values a ha; omega)
  have e : (chunksOf J.tcf (src.map (·.1)) J.lens).map plus0 = chunksOf J.tcf (src.map (·.1)) J.lens := by
    conv => rhs; rw [← List.map_id (chunksOf J.tcf (src.map (·.1)) J.lens)]
    exact List.map_congr_left hz
  rw [e] at c2
  have hmem : ∀ a ∈ chunksOf J.tcf (src.map (·.1)) J.lens, In64 a.p ∧ In64 a.q ∧ 0 ≤ a.p ∧ In64 J.tcf := by
    intro a ha
    obtain ⟨⟨l, b⟩, hx, ha⟩ := List.mem_flatMap.1 ha
    obtain ⟨a', ha', rfl⟩ := List.mem_map.1 ha
    obtain ⟨x, hxs, rfl⟩ := List.mem_map.1 (List.of_mem_zip hx).1
    have := stored_in64 h hxs ha'
    exact ⟨this.1, this.2.1, this.2.2.2.1, this.2.2.2.2⟩
  refine ⟨storable_of c1 h.stores ?_ ?_ ?_ ?_ ?_, size_of c1 (by rw [c2]; exact hne), c3, by rw [c2]; exact h.chunks,
    by rw [c2]; exact hne, by rw [c2]; exact hz, ?_⟩
  · obtain ⟨a, ha⟩ := List.exists_mem_of_ne_nil _ hne
    rw [c3]
    exact (hmem a ha).2.2.2
  · rw [c2]
    have h1 := chunks_le J.tcf (shards := src.map (·.1)) (bs := textBases 0 J.lens)
    have h2 := all_le J.tcf (src := src)
    have h3 := h.count
    rw [List.flatMap_map] at h1
    unfold chunksOf
    omega
  · rw [c2]
    intro a ha
    have := hmem a ha
    have hv := h.values a ha
    exact ⟨this.1, this.2.1, by unfold In64; omega⟩
  · rw [c2]; exact h.chunks
  · rw [c2]; intro a ha; exact (hmem a ha).2.2.1
  · intro a; rw [c2]; unfold content; rw [if_pos rfl]

theorem chunks_ne (h : Sources J src) {x : List (Int × Posting) × HIdx} (hx : x ∈ src) (hf : J.tcf ∈ x.1.map (·.1)) :
    chunksOf J.tcf (src.map (·.1)) J.lens ≠ [] := by
  obtain ⟨y, hy, hyf⟩ := List.mem_map.1 hf
  have hst : stored x.1 J.tcf ≠ [] := by
    unfold stored
    rw [← hyf, (find_unique (h.good x hx).sorted hy).2]
    simpa using (h.good x hx).nonempty y hy
  obtain ⟨a, ha⟩ := List.exists_mem_of_ne_nil _ hst
  obtain ⟨i, hi, hix⟩ := List.mem_iff_getElem.1 hx
  have hb : ∀ (ns : List Int) (b : Int), (textBases b ns).length = ns.length := by
    intro ns
    induction ns with
    | nil => intro b; rfl
    | cons n ns ih => intro b; simp [textBases, ih]
  have hl := hb J.lens 0
  have hlens := h.lens
  apply List.ne_nil_of_mem (a := { a with v := a.v + (textBases 0 J.lens)[i]'(by omega) })
  refine List.mem_flatMap.2 ⟨(x.1, (textBases 0 J.lens)[i]'(by omega)), ?_, List.mem_map.2 ⟨a, ha, rfl⟩⟩
  rw [List.mem_iff_getElem]
  refine ⟨i, by simp only [List.length_zip, List.length_map]; omega, ?_⟩
  rw [List.getElem_zip]
  simp [hix]

theorem chunks_none (h : Sources J src) (hf : ∀ x ∈ src, J.tcf ∉ x.1.map (·.1)) :
    chunksOf J.tcf (src.map (·.1)) J.lens = [] := by
  unfold chunksOf
  rw [List.flatMap_eq_nil_iff]
  intro y hy
  obtain ⟨x, hxs, e⟩ := List.mem_map.1 (List.of_mem_zip (a := y.1) (b := y.2) hy).1
  rw [← e]
  unfold stored
  rw [(find_none (hf x hxs)).2]
  rfl

/-- what the loop does for a feature of one of the shards -/
theorem feature_made (h : Sources J src) {f : Int} (hf : nullFeature < f) (hx : ∃ x ∈ src, f ∈ x.1.map (·.1)) :
    ∃ P, featurePosting J.pc J.fc J.idxs J.lens J.tcf (mergedErasures (src.map fun x => ixOf x.1)) f = some P ∧
      match P with
      | none => ∀ a, ¬ content J src f a
      | some R => Made J.pc J.fc R f (content J src f) := by
  unfold featurePosting
  by_cases ht : f = J.tcf
  · subst ht
    obtain ⟨x, hx, hxf⟩ := hx
    have hne := chunks_ne h hx hxf
    have hm := chunk_posting h hne
    refine ⟨some _, ?_, hm⟩
    rw [if_pos rfl, h.idxs, pushChunks_eq h.stores J.tcf h.good h.opened h.lens]
    simp only [Option.bind_eq_bind, Option.bind_some]
    exact if_neg hm.size
  · obtain ⟨P, h1, h2⟩ := merged_posting h ht
    refine ⟨P, ?_, h2⟩
    rw [if_neg ht, h.idxs, (postingsFor_eq h.stores f h.good h.opened).1]
    simp only [Option.bind_eq_bind, Option.bind_some]
    rw [← h1]
    match src, h.two with
    | x :: y :: rest, _ =>
      show _ = if f = nullFeature then _ else _
      rw [if_neg (by omega)]

theorem planOf_some {pc fc : Codec} {idxs : List HIdx} {lens : List Int} {tcf : Int} {E : Option Posting} :
    ∀ {fs : List Int}, (∀ f ∈ fs, ∃ P, featurePosting pc fc idxs lens tcf E f = some P) →
    ∃ m, planOf pc fc idxs lens tcf E fs = some m ∧
      ∀ f R, f ∈ fs → featurePosting pc fc idxs lens tcf E f = some (some R) → R.size ≠ 0 → (f, R) ∈ m := by
  intro fs
  induction fs with
  | nil => intro _; exact ⟨[], rfl, by simp⟩
  | cons f fs ih =>
    intro h
    obtain ⟨m, h1, h2⟩ := ih fun g hg => h g (by simp [hg])
    obtain ⟨P, hP⟩ := h f (by simp)
    unfold planOf
    rw [hP, h1]
    simp only [Option.bind_eq_bind, Option.bind_some]
    cases P with
    | none =>
      refine ⟨m, rfl, ?_⟩
      intro g R hg hR hs
      rcases List.mem_cons.1 hg with rfl | hg
      · rw [hP] at hR; cases hR
      · exact h2 g R hg hR hs
    | some Q =>
      dsimp only
      by_cases h0 : Q.size = 0
      · rw [if_pos h0]
        refine ⟨m, rfl, ?_⟩
        intro g R hg hR hs
        rcases List.mem_cons.1 hg with rfl | hg
        · rw [hP] at hR; cases hR; exact absurd h0 hs
        · exact h2 g R hg hR hs
      · rw [if_neg h0]
        refine ⟨_, rfl, ?_⟩
        intro g R hg hR hs
        rcases List.mem_cons.1 hg with rfl | hg
        · have hq := featurePosting_feature hP
          rw [hP] at hR; cases hR; rw [hq]; simp
        · exact List.mem_cons_of_mem _ (h2 g R hg hR hs)

/-- the merge of good shards has a plan, and what it says -/
theorem Sources.plan (h : Sources J src) : ∃ E l zs es, Plan J E l zs es ∧
    (∀ x ∈ l, Made J.pc J.fc x.2 x.1 (content J src x.1)) ∧
    ∀ f, nullFeature ≤ f → f < maxfinity → ∀ a, a ∈ stored l f ↔ content J src f a := by
  have hsorted : ∀ H ∈ J.idxs, Sorted H.dir := by
    rw [h.idxs]
    intro H hH
    obtain ⟨x, hx, rfl⟩ := List.mem_map.1 hH
    exact (opened_spec (h.good x hx) h.stores (h.opened x hx)).2.1
  have hfs : ∀ f, f < maxfinity → (f ∈ features (J.idxs.map fun H => past nullFeature H.dir) ↔
      nullFeature < f ∧ ∃ x ∈ src, f ∈ x.1.map (·.1)) := by
    intro f hf
    rw [mem_features f _ rfl (by
      intro d hd
      obtain ⟨H, hH, rfl⟩ := List.mem_map.1 hd
      exact past_sorted (hsorted H hH)) hf]
    constructor
    · rintro ⟨d, hd, e, he, rfl⟩
      obtain ⟨H, hH, rfl⟩ := List.mem_map.1 hd
      have he' := (mem_past (hsorted H hH)).1 he
      rw [h.idxs] at hH
      obtain ⟨x, hx, rfl⟩ := List.mem_map.1 hH
      refine ⟨he'.2, x, hx, ?_⟩
      rw [← (opened_spec (h.good x hx) h.stores (h.opened x hx)).1]
      exact List.mem_map.2 ⟨e, he'.1, rfl⟩
    · rintro ⟨hn, x, hx, hxf⟩
      rw [← (opened_spec (h.good x hx) h.stores (h.opened x hx)).1] at hxf
      obtain ⟨e, he, rfl⟩ := List.mem_map.1 hxf
      have hH : x.2 ∈ J.idxs := by rw [h.idxs]; exact List.mem_map.2 ⟨x, hx, rfl⟩
      exact ⟨past nullFeature x.2.dir, List.mem_map.2 ⟨x.2, hH, rfl⟩, e, (mem_past (hsorted _ hH)).2 ⟨he, hn⟩, rfl⟩
  have hlt : ∀ f ∈ features (J.idxs.map fun H => past nullFeature H.dir), f < maxfinity := by
    intro f hf
    refine ((features_gt (b := nullFeature) _ rfl ?_ ?_).2 f hf).2
    · intro d hd
      obtain ⟨H, hH, rfl⟩ := List.mem_map.1 hd
      exact past_sorted (hsorted H hH)
    · intro d hd
      obtain ⟨H, hH, rfl⟩ := List.mem_map.1 hd
      exact past_gt (hsorted H hH)
  have hplan : ∀ f ∈ features (J.idxs.map fun H => past nullFeature H.dir), ∃ P,
      featurePosting J.pc J.fc J.idxs J.lens J.tcf (mergedErasures (src.map fun x => ixOf x.1)) f = some P ∧
      match P with
      | none => ∀ a, ¬ content J src f a
      | some R => Made J.pc J.fc R f (content J src f) := by
    intro f hf
    obtain ⟨a, b⟩ := (hfs f (hlt f hf)).1 hf
    exact feature_made h a b
  obtain ⟨m, hm, hall⟩ := planOf_some (fun f hf => (hplan f hf).imp fun _ h => h.1)
  -- the erasures
  have htn : nullFeature ≠ J.tcf := by have := h.tcf.1; omega
  obtain ⟨E, hE, hEs⟩ := merged_posting h htn
  have hEe : E = mergedErasures (src.map fun x => ixOf x.1) := by
    have : mergeFeature (src.map fun x => ixOf x.1) nullFeature = some (mergedErasures (src.map fun x => ixOf x.1)) := by
      match src, h.two with
      | x :: y :: rest, _ => rfl
    rw [this] at hE
    exact (Option.some.inj hE).symm
  rw [← hEe] at hm hall hplan
  clear hE
  have hmade : ∀ x ∈ nullPart E ++ m, Made J.pc J.fc x.2 x.1 (content J src x.1) := by
    intro x hx
    rcases List.mem_append.1 hx with hx | hx
    · unfold nullPart at hx
      cases hE : E with
      | none => rw [hE] at hx; simp at hx
      | some Q =>
        rw [hE] at hx hEs
        dsimp only at hx hEs
        rw [if_neg hEs.size] at hx
        have : x = (Q.feature, Q) := by simpa using hx
        subst this
        rw [hEs.feature]
        exact hEs
    · obtain ⟨a1, a2, a3, a4⟩ := planOf_mem hm x hx
      obtain ⟨P, b1, b2⟩ := hplan x.1 a1
      rw [a4] at b1
      cases b1
      exact b2
  obtain ⟨⟨zs, es⟩, hput⟩ := putAll_some (pos := headerLen) fun x hx => (hmade x hx).store
  have hpf := postingsFor_eq h.stores nullFeature h.good h.opened
  have P : Plan J E (nullPart E ++ m) zs es := by
    refine ⟨hsorted, ?_, ?_, ⟨m, hm, rfl⟩, hput, ?_⟩
    · intro _
      rw [h.idxs]
      exact ⟨_, hpf.1, hEe⟩
    · intro hn
      rw [h.idxs, hpf.2] at hn
      rw [hEe]
      unfold mergedErasures
      have : (src.map fun x => ixOf x.1).filterMap (fun ix => ix nullFeature) = [] := by
        rw [List.filterMap_map, List.filterMap_eq_nil_iff]
        intro x hx
        rw [List.any_eq_false] at hn
        simpa using hn x hx
      rw [this]
      rfl
    · intro Q z e hQ hs hp rest
      rw [hQ] at hEs
      dsimp only at hEs
      refine checkpoint_reread hEs.store ?_ hp rest
      rw [hQ] at hEe
      refine reread_merged hEe.symm ?_
      intro R hR
      obtain ⟨ix, hix, hR⟩ := List.mem_filterMap.1 hR
      obtain ⟨x, hx, rfl⟩ := List.mem_map.1 hix
      obtain ⟨y, _, _, rfl⟩ := ixOf_some (h.good x hx) hR
      exact reread_reread _
  refine ⟨E, _, zs, es, P, hmade, ?_⟩
  intro f hf0 hfm a
  have hls := P.list_sorted.1
  by_cases hfl : f ∈ (nullPart E ++ m).map (·.1)
  · obtain ⟨x, hx, rfl⟩ := List.mem_map.1 hfl
    unfold stored
    rw [(find_unique hls hx).2]
    simp only [List.flatMap_cons, List.flatMap_nil, List.append_nil]
    exact (hmade x hx).holds a
  · unfold stored
    rw [(find_none hfl).2]
    simp only [List.flatMap_nil, List.not_mem_nil, false_iff]
    by_cases h0 : f = nullFeature
    · subst h0
      cases hE : E with
      | none => rw [hE] at hEs; exact hEs a
      | some Q =>
        exfalso
        rw [hE] at hEs hfl
        dsimp only at hEs
        apply hfl
        simp [nullPart, hEs.size, hEs.feature]
    · have hpos : nullFeature < f := by omega
      by_cases hx : ∃ x ∈ src, f ∈ x.1.map (·.1)
      · have hf := (hfs f hfm).2 ⟨hpos, hx⟩
        obtain ⟨P, b1, b2⟩ := hplan f hf
        cases P with
        | none => exact b2 a
        | some R =>
          exfalso
          apply hfl
          exact List.mem_map.2 ⟨(f, R), List.mem_append_right _ (hall f R hf b1 b2.size), rfl⟩
      · have hx' : ∀ x ∈ src, f ∉ x.1.map (·.1) := fun x hxs hxf => hx ⟨x, hxs, hxf⟩
        unfold content
        split
        · rename_i ht
          subst ht
          rw [chunks_none h hx']; simp
        · rintro ⟨hr, _⟩
          obtain ⟨x, hxs, hax⟩ := raw_mem h hr
          obtain ⟨y, hy, _, hyf⟩ := stored_mem hax
          exact hx' x hxs (List.mem_map.2 ⟨y, hy, hyf⟩)

end

end Verif.Hazel
