/-
The resumable merge of static shards (C26).
-/
import Verif.Hazel.Sources
import Verif.Props.Hazel
namespace Verif.Props
open Verif.Hopper Verif.Gcl Verif.Store Verif.Hazel

/-! ### the compressors -/

theorem faithful_stores {pc fc : Codec} (hp : Faithful pc) (hf : Faithful fc) : Stores pc fc :=
  fun _ h _ _ => columns_storable hp hf h

theorem post_stores {fc : Codec} (hf : Faithful fc) : Stores postCodec fc := by
  intro P h inv h0
  have h1 := h.count
  have h2 := qs_length h
  have h3 := fs_length h
  simp only [Posting.invariants, Bool.and_eq_true, decide_eq_true_eq] at inv
  obtain ⟨⟨⟨_, sp⟩, sq⟩, pq⟩ := inv
  have hq0 : ∀ a ∈ P.qs, 0 ≤ a := by
    intro a ha
    simp only [Bool.or_eq_true, beq_iff_eq, List.length_eq_zero_iff, List.all_eq_true,
      decide_eq_true_eq] at pq
    rcases pq with pq | pq
    · rw [pq] at ha; simp at ha
    · obtain ⟨i, hi, rfl⟩ := List.getElem_of_mem ha
      have hi' : i < P.ps.length := by omega
      have := pq (P.ps[i], P.qs[i]) (by
        rw [List.mem_iff_getElem]; exact ⟨i, by simp; omega, by simp⟩)
      have := h0 _ (List.getElem_mem hi')
      simp only at *; omega
  refine ⟨h.ok, h.feature, by omega, h.ps64, h.qs64, h.fs64,
    post_restores (by omega) ?_ sp, post_restores (by omega) ?_ sq, faithful_restores hf (by omega)⟩
  · intro a ha; have := h.ps64 a ha; unfold In64 at this; exact ⟨h0 a ha, by omega⟩
  · intro a ha; have := h.qs64 a ha; unfold In64 at this; exact ⟨hq0 a ha, by omega⟩

/-! ### C26 -/

/-- the file is shorter than 2^63 bytes -/
def Fits (J : Job) : Prop := ∀ file, (mergeRun J {}).fs.dst = some file → file.length ≤ 9223372036854775807

theorem idx_length {J : Job} {zs : List UInt8} {es : List Entry} : 45 + zs.length ≤ (finalFile J zs es).length := by
  simp only [finalFile, hazelFile, idxBlob, List.length_append, idxMagic_length, addrsBytes_length, List.length_cons,
    List.length_nil]
  omega

/-- **C26.** A merge of static shards can be killed at any point, any number of times, with any of its
appends half done (`Interrupted`: `killed`), and the machine may lose the ends of the
checkpoint files (`lost`).  Whatever is left, running the merge again succeeds and leaves
exactly the files an undisturbed merge leaves: the new shard, byte for byte, and nothing else.
In between there is no part of the new shard to be seen: it is not there or complete. -/
theorem C26_resume {J : Job} {src : List (List (Int × Posting) × HIdx)} (sources : Sources J src) (fits : Fits J)
    {s : FS} (left : Interrupted J s) :
    ∃ file, (mergeRun J {}).value = some () ∧ (mergeRun J {}).fs = { dst := some file } ∧
      (mergeRun J s).value = some () ∧ (mergeRun J s).fs = { dst := some file } ∧
      (s.dst = none ∨ s.dst = some file) := by
  obtain ⟨E, l, zs, es, hp, hm, _⟩ := sources.plan
  have h0 : Between J zs es {} := Or.inl ⟨rfl, (fun p hp => by cases hp), (fun p hp => by cases hp)⟩
  have clean := mergeRun_does hp h0 (Or.inl rfl)
  have hlen := fits (finalFile J zs es) (by rw [clean.2.2])
  have hin : ∀ e ∈ es, e.In64 := entries_in64 (fun x hx => (hm x hx).feature) (fun x hx => (hm x hx).store) hp.written
    (by have := idx_length (J := J) (zs := zs) (es := es); omega)
  have hb := interrupted_between hp hin left
  have again := mergeRun_does hp hb (Or.inr hin)
  refine ⟨finalFile J zs es, clean.2.1, clean.2.2, again.2.1, again.2.2, ?_⟩
  rcases hb with hb | hb
  · exact Or.inl hb.dst
  · exact Or.inr hb

/-- what the merged shard should hold for a feature: the shards' intervals together, less those inside
another and, where shards store the same interval, with the newer shard's value; less those inside
an erased range, unless the feature is that of the erasures itself -/
def mergedAnns (shards : List (List (Int × Posting))) (f : Int) (a : Ann) : Prop :=
  unionL (shards.map fun l => stored l f) a ∧
    ¬ (f ≠ 0 ∧ ∃ e, unionL (shards.map fun l => stored l 0) e ∧ e.p ≤ a.p ∧ a.q ≤ e.q)

theorem content_merged {J : Job} {src : List (List (Int × Posting) × HIdx)} (sources : Sources J src) {f : Int} (ht : f ≠ J.tcf)
    (a : Ann) : Hazel.content J src f a ↔ mergedAnns (src.map (·.1)) f a := by
  unfold Hazel.content mergedAnns
  rw [if_neg ht]
  have e : ∀ g, solutionsRaw (src.map fun x => ixOf x.1) g = unionL ((src.map (·.1)).map fun l => stored l g) := by
    intro g
    unfold solutionsRaw
    congr 1
    rw [List.map_map, List.map_map]
    apply List.map_congr_left
    intro x hx
    exact annsOf_stored (sources.good x hx) g
  have h2 := sources.two
  have ee : erasedIn (src.map fun x => ixOf x.1) a ↔
      ∃ e, unionL ((src.map (·.1)).map fun l => stored l 0) e ∧ e.p ≤ a.p ∧ a.q ≤ e.q := by
    unfold erasedIn inside
    rw [e, List.length_map]
    exact ⟨fun h => h.2, fun h => ⟨h2, h⟩⟩
  rw [e, ee]

/-- **C26.** … and that new shard holds what the merged shards held: it opens, and for each feature
the posting found and the hopper made are those of `mergedAnns`; the annotations of text chunks
are moved by the lengths of the texts before (`chunksOf`), and the text is the merged text. -/
theorem C26_contents {J : Job} {src : List (List (Int × Posting) × HIdx)} (sources : Sources J src) (fits : Fits J)
    {lines : List (List UInt8)} (hd : Lines J.dna lines) {s : FS} (left : Interrupted J s) :
    ∃ file idx H, (mergeRun J s).fs.dst = some file ∧ openFile file = some (idx, J.txt) ∧ openIdx idx = some H ∧
      (∀ f, 0 ≤ f → f < maxfinity → ∃ anns : List Ann,
        Listing anns ∧ Implements (H.obj J.pc J.fc f) (ofList anns) ∧ H.count f = anns.length ∧
        (f ≠ J.tcf → ∀ a, a ∈ anns ↔ mergedAnns (src.map (·.1)) f a) ∧
        (f = J.tcf → ∀ a, a ∈ anns ↔ a ∈ chunksOf J.tcf (src.map (·.1)) J.lens)) ∧
      (∀ f, ¬ (0 ≤ f ∧ f < maxfinity) → H.posting J.pc J.fc f = some none) := by
  obtain ⟨E, l, zs, es, hp, hm, hc⟩ := sources.plan
  have h0 : Between J zs es {} := Or.inl ⟨rfl, (fun p hp => by cases hp), (fun p hp => by cases hp)⟩
  have clean := mergeRun_does hp h0 (Or.inl rfl)
  have hlen := fits (finalFile J zs es) (by rw [clean.2.2])
  have hin : ∀ e ∈ es, e.In64 := entries_in64 (fun x hx => (hm x hx).feature) (fun x hx => (hm x hx).store) hp.written
    (by have := idx_length (J := J) (zs := zs) (es := es); omega)
  have again := mergeRun_does hp (interrupted_between hp hin left) (Or.inr hin)
  have hls := hp.list_sorted
  have g : Hazel.GoodList J.pc J.fc l := ⟨hls.1, fun x hx => (hm x hx).feature, fun x hx => (hm x hx).store⟩
  have hw : writeIdx J.pc J.fc l = some (idxBlob zs es) := by rw [writeIdx, hp.written]; rfl
  have hle : (idxBlob zs es).length ≤ 9223372036854775807 := by
    simp only [finalFile, hazelFile, List.length_append] at hlen; omega
  obtain ⟨H, a1, _, _, _, a5, a6⟩ := posting_ok g hw hle
  refine ⟨finalFile J zs es, idxBlob zs es, H, by rw [again.2.2], openFile_ok hd hlen, a1, ?_, ?_⟩
  · intro f hf0 hfm
    have hcf := hc f hf0 hfm
    refine ⟨stored l f, ?_⟩
    have key : Listing (stored l f) ∧ Implements (H.obj J.pc J.fc f) (ofList (stored l f)) ∧ H.count f = (stored l f).length := by
      by_cases hfl : f ∈ l.map (·.1)
      · obtain ⟨x, hx, rfl⟩ := List.mem_map.1 hfl
        have hs : stored l x.1 = x.2.anns := by
          unfold stored
          rw [(find_unique hls.1 hx).2]; simp
        have m := hm x hx
        have ⟨_, b2, _, b4⟩ := a5 x.1 x.2 hx
        have hr := (reread_anns m.store.ok).2.2.2.2.2 m.zero
        rw [hs]
        refine ⟨m.listing, ?_, ?_⟩
        · have := b4 m.listing m.nonempty
          rwa [hr] at this
        · rw [b2, anns_length m.store.ok]
      · have hs : stored l f = [] := by
          unfold stored
          rw [(find_none hfl).2]; rfl
        have ⟨_, b2, _, b4⟩ := a6 f hfl
        rw [hs]
        exact ⟨listing_nil, b4, b2⟩
    refine ⟨key.1, key.2.1, key.2.2, ?_, ?_⟩
    · intro ht a
      rw [hcf]
      exact content_merged sources ht a
    · intro ht a
      rw [hcf]
      unfold Hazel.content
      rw [if_pos ht]
  · intro f hf
    have hfl : f ∉ l.map (·.1) := by
      intro h
      obtain ⟨x, hx, rfl⟩ := List.mem_map.1 h
      have := hls.2 x hx
      exact hf ⟨by simpa using this.1, this.2.1⟩
    exact (a6 f hfl).1

/-! Such interruptions happen: in the middle of any record. -/

theorem crash_right {α β : Type} {Inv : FS → Prop} {m : W α} {k : α → W β} {s t : FS} {a : α} (h : Does Inv m s a t)
    {c : FS} (hc : c ∈ (k a t).crashes) : c ∈ ((m >>= k) s).crashes := by
  show c ∈ (W.bind m k s).crashes
  unfold W.bind
  simp only [h.2.1, h.2.2]
  exact List.mem_append_right _ hc

theorem crash_left {α β : Type} {m : W α} {k : α → W β} {s c : FS} (hc : c ∈ (m s).crashes) : c ∈ ((m >>= k) s).crashes := by
  show c ∈ (W.bind m k s).crashes
  unfold W.bind
  dsimp only
  split
  · exact hc
  · exact List.mem_append_left _ hc

/-- a first merge can leave the checkpoints cut anywhere, in the middle of a posting or of a directory
entry -/
theorem C26_torn_reachable {J : Job} {E : Option Posting} {l : List (Int × Posting)} {zs : List UInt8} {es : List Entry}
    (h : Plan J E l zs es) (i j : Nat) :
    Interrupted J { pst := some (zs.take i), dct := some ((dirBytes es).take j) } := by
  have h0 : Ck zs es {} := ⟨rfl, (fun p hp => by cases hp), (fun p hp => by cases hp)⟩
  refine Interrupted.lost (s := { pst := some zs, dct := some (dirBytes es), mrg := some ([] ++ (fileMagic ++ J.dna ++ [10] ++ blobDictionary [⟨idxName, 0, 0⟩, ⟨txtName, 0, 0⟩])) })
    (Interrupted.killed Interrupted.start ?_) ⟨?_, ?_, rfl⟩
  · unfold mergeRun
    refine crash_right (Does.see h0 _) ?_
    simp only [Option.isSome_none, Bool.false_eq_true, if_false]
    refine crash_right (Does.step h0 (h0.mrg none)) ?_
    refine crash_right (Does.step (h0.mrg none) (h0.mrg (some []))) ?_
    refine crash_right (appendMrg_does (h0.mrg (some [])) rfl) ?_
    refine crash_right (mergeIdx_does h (h0.mrg _) (Or.inl rfl)) ?_
    apply crash_left
    simp only [appendMrg, tornStates]
    refine List.mem_map.2 ⟨_, List.mem_map.2 ⟨0, by simp, ?_⟩, rfl⟩
    simp
  · intro p hp; cases hp; exact ⟨_, rfl, List.take_prefix _ _⟩
  · intro p hp; cases hp; exact ⟨_, rfl, List.take_prefix _ _⟩

/-! Two shards that meet the hypotheses: the first erases an interval and has two tokens of feature 5, one of
them erased, the second has one more and the same chunk feature. -/

def C26one : List (Int × Posting) :=
  [(0, { feature := 0, ps := [2], qs := [5] }),
   (5, { feature := 5, ps := [1, 4] }),
   (9, { feature := 9, ps := [0], qs := [9] })]

def C26two : List (Int × Posting) :=
  [(5, { feature := 5, ps := [12], fs := [7] }),
   (9, { feature := 9, ps := [10], qs := [19] })]

theorem C26one_good : GoodShard C26one := by
  refine ⟨by decide, by decide, ?_, ?_, by decide, by decide, by decide⟩
  · intro x hx
    simp only [C26one, List.mem_cons, List.not_mem_nil, or_false] at hx
    rcases hx with rfl | rfl | rfl <;>
      exact ⟨by simp [Posting.Ok], by simp [In64], by simp, by simp [In64], by simp [In64], by simp [In64]⟩
  · intro x hx
    simp only [C26one, List.mem_cons, List.not_mem_nil, or_false] at hx
    rcases hx with rfl | rfl | rfl <;> exact ⟨by decide, by decide⟩

theorem C26two_good : GoodShard C26two := by
  refine ⟨by decide, by decide, ?_, ?_, by decide, by decide, by decide⟩
  · intro x hx
    simp only [C26two, List.mem_cons, List.not_mem_nil, or_false] at hx
    rcases hx with rfl | rfl <;>
      exact ⟨by simp [Posting.Ok], by simp [In64], by simp, by simp [In64], by simp [In64], by simp [In64]⟩
  · intro x hx
    simp only [C26two, List.mem_cons, List.not_mem_nil, or_false] at hx
    rcases hx with rfl | rfl <;> exact ⟨by decide, by decide⟩

theorem null_stores : Stores nullCodec nullCodec := faithful_stores null_faithful null_faithful

theorem opened_of {l : List (Int × Posting)} (g : GoodShard l)
    (h : (writeIdx nullCodec nullCodec l).all (fun i => decide (i.length ≤ 1000)) = true) :
    ∃ H, Opened nullCodec nullCodec l H := by
  obtain ⟨blob, hb⟩ := C25_written (pc := nullCodec) (fc := nullCodec) (good_list g null_stores).store
  have hl := h
  rw [hb] at hl
  simp only [Option.all_some, decide_eq_true_eq] at hl
  obtain ⟨H, hH, _⟩ := posting_ok (good_list g null_stores) hb (by omega)
  exact ⟨H, blob, hb, by omega, hH⟩

example : ∃ J src, Sources J src ∧ src.map (·.1) = [C26one, C26two] ∧ J.lens = [100, 50] ∧
    Lines J.dna [[97, 58, 98], [99]] ∧
    mergedAnns [C26one, C26two] 5 ⟨1, 1, 0⟩ ∧ ¬ mergedAnns [C26one, C26two] 5 ⟨4, 4, 0⟩ ∧
    chunksOf 9 [C26one, C26two] [100, 50] = [⟨0, 9, 0⟩, ⟨10, 19, 100⟩] := by
  obtain ⟨H1, h1⟩ := opened_of C26one_good (by set_option maxRecDepth 4000 in decide)
  obtain ⟨H2, h2⟩ := opened_of C26two_good (by set_option maxRecDepth 4000 in decide)
  have e : chunksOf 9 [C26one, C26two] [100, 50] = [⟨0, 9, 0⟩, ⟨10, 19, 100⟩] := by decide
  refine ⟨⟨nullCodec, nullCodec, [H1, H2], [100, 50], 9, [97, 58, 98, 10, 99, 10], [1, 2, 3]⟩, [(C26one, H1), (C26two, H2)],
    ⟨rfl, Nat.le_refl _, ?_, ?_, null_stores, ?_, rfl, ⟨?_, ?_⟩, ?_, ?_⟩, rfl, rfl, ⟨rfl, by decide⟩, ?_, ?_, e⟩
  · intro x hx
    simp only [List.mem_cons, List.not_mem_nil, or_false] at hx
    rcases hx with rfl | rfl
    · exact C26one_good
    · exact C26two_good
  · intro x hx
    simp only [List.mem_cons, List.not_mem_nil, or_false] at hx
    rcases hx with rfl | rfl
    · exact h1
    · exact h2
  · show (C26one.map fun y => y.2.anns.length).sum + ((C26two.map fun y => y.2.anns.length).sum + 0) ≤ _
    decide
  · show (0 : Int) < 9
    decide
  · show (9 : Int) < maxfinity
    decide
  · show Listing (chunksOf 9 [C26one, C26two] [100, 50])
    rw [e]; exact ⟨by decide, by decide⟩
  · show ∀ a ∈ chunksOf 9 [C26one, C26two] [100, 50], _
    rw [e]; decide
  · unfold mergedAnns
    rw [unionL_iff]
    refine ⟨⟨?_, ?_⟩, ?_⟩
    · have : (⟨1, 1, 0⟩ : Ann) ∈ stored C26one 5 := by decide
      exact Or.inr ⟨this, by unfold same; decide⟩
    · unfold least same inside; decide
    · rintro ⟨_, e, he, h1, h2⟩
      obtain ⟨L, hL, heL⟩ := unionL_mem he
      have : ∀ L ∈ [C26one, C26two].map (fun l => stored l 0), ∀ e ∈ L, ¬ (e.p ≤ 1 ∧ 1 ≤ e.q) := by decide
      exact this L hL e heL ⟨h1, h2⟩
  · rintro ⟨_, h⟩
    apply h
    refine ⟨by decide, ⟨2, 5, 0⟩, ?_, by decide, by decide⟩
    rw [unionL_iff]
    refine ⟨?_, by unfold least same inside; decide⟩
    have : (⟨2, 5, 0⟩ : Ann) ∈ stored C26one 0 := by decide
    exact Or.inr ⟨this, by unfold same; decide⟩

/-! ### A feature the static merge loses -/

def C26top : List (Int × Posting) := [(maxfinity, { feature := maxfinity, ps := [3] })]

theorem C26top_good : GoodShard C26top := by
  refine ⟨by decide, by decide, ?_, ?_, by decide, by decide, by decide⟩
  · intro x hx
    simp only [C26top, List.mem_cons, List.not_mem_nil, or_false] at hx
    subst hx
    exact ⟨by simp [Posting.Ok], by simp [In64], by simp, by simp [In64], by simp [In64], by simp [In64]⟩
  · intro x hx
    simp only [C26top, List.mem_cons, List.not_mem_nil, or_false] at hx
    subst hx
    exact ⟨by decide, by decide⟩

/-- The loop over the features takes the largest address for "no more features", so a feature of that value is lost:
here one shard stores an annotation for it, and its merge with another, however it went, does not. -/
theorem C26_top_feature_lost : ∃ J src, Sources J src ∧ (∃ x ∈ src, x.1 = C26top ∧
    (x.2.posting J.pc J.fc maxfinity).map (Option.map Posting.anns) = some (some [⟨3, 3, 0⟩])) ∧
    (Fits J → ∀ s, Interrupted J s → ∃ file idx H, (mergeRun J s).fs.dst = some file ∧
      openFile file = some (idx, J.txt) ∧ openIdx idx = some H ∧ H.posting J.pc J.fc maxfinity = some none) := by
  obtain ⟨H1, h1⟩ := opened_of C26top_good (by set_option maxRecDepth 4000 in decide)
  obtain ⟨H2, h2⟩ := opened_of C26two_good (by set_option maxRecDepth 4000 in decide)
  have e : chunksOf 9 [C26top, C26two] [100, 50] = [⟨10, 19, 100⟩] := by decide
  have hs : Sources ⟨nullCodec, nullCodec, [H1, H2], [100, 50], 9, [97, 58, 98, 10, 99, 10], [1, 2, 3]⟩
      [(C26top, H1), (C26two, H2)] := by
    refine ⟨rfl, Nat.le_refl _, ?_, ?_, null_stores, ?_, rfl, ⟨?_, ?_⟩, ?_, ?_⟩
    · intro x hx
      simp only [List.mem_cons, List.not_mem_nil, or_false] at hx
      rcases hx with rfl | rfl
      · exact C26top_good
      · exact C26two_good
    · intro x hx
      simp only [List.mem_cons, List.not_mem_nil, or_false] at hx
      rcases hx with rfl | rfl
      · exact h1
      · exact h2
    · show (C26top.map fun y => y.2.anns.length).sum + ((C26two.map fun y => y.2.anns.length).sum + 0) ≤ _
      decide
    · show (0 : Int) < 9
      decide
    · show (9 : Int) < maxfinity
      decide
    · show Listing (chunksOf 9 [C26top, C26two] [100, 50])
      rw [e]; exact ⟨by decide, by decide⟩
    · show ∀ a ∈ chunksOf 9 [C26top, C26two] [100, 50], _
      rw [e]; decide
  refine ⟨_, _, hs, ⟨(C26top, H1), by simp, rfl, ?_⟩, ?_⟩
  · obtain ⟨blob, b1, b2, b3⟩ := h1
    obtain ⟨H, c1, _, _, _, c5, _⟩ := posting_ok (good_list C26top_good null_stores) b1 b2
    rw [b3] at c1
    cases c1
    rw [(c5 maxfinity { feature := maxfinity, ps := [3] } (by simp [C26top])).1]
    decide
  · intro fits s left
    obtain ⟨file, idx, H, r1, r2, r3, _, r5⟩ := C26_contents hs fits (lines := [[97, 58, 98], [99]]) ⟨rfl, by decide⟩ left
    exact ⟨file, idx, H, r1, r2, r3, r5 maxfinity (by decide)⟩

end Verif.Props
