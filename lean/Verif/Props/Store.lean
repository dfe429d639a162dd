import Verif.Props.Query
import Verif.Store.PostProof
import Verif.Store.TfdfProof
import Verif.Store.BuildProof
import Verif.Store.ShardMerge
/-
  Properties of stored annotations (C10-C15).
-/
namespace Verif.Props
open Verif.Hopper Verif.Gcl Verif.Store

/-! ### C10 -/

/-- **C10** (`post`).  A non-decreasing list of non-negative 64-bit addresses survives
compression and decompression, whatever its length and whatever room the decompressor is
given beyond the original size; the compressed form fits the advertised bound
`n + extra(n)`. -/
theorem C10_post {l : List Int} (h0 : ∀ a ∈ l, 0 ≤ a ∧ a ≤ 9223372036854775807)
    (hs : l.Pairwise (· ≤ ·)) :
    ∃ c, postCrush (addrsBytes l) = some c ∧
      c.length ≤ (addrsBytes l).length + postExtra (addrsBytes l).length ∧
      ∀ m ≥ (addrsBytes l).length, postTang c m = some (addrsBytes l) := by
  obtain ⟨c, h1, h2, _, h3⟩ := post_ok h0 hs
  exact ⟨c, h1, h2, h3⟩

/-- The bytes really are the list: nothing is lost in the conversion. -/
theorem C10_bytes {l : List Int} (h : ∀ a ∈ l, In64 a) :
    bytesAddrs l.length (addrsBytes l) = l := by
  have := bytesAddrs_addrsBytes h []
  rwa [List.append_nil] at this

theorem encodeAll_some : ∀ {l : List Int} {x : Int}, (encodeAll x l).isSome → Ascending x l := by
  intro l
  induction l with
  | nil => intro x _; exact trivial
  | cons a l ih =>
    intro x h
    unfold encodeAll at h
    split at h
    · cases h
    · rename_i hn
      exact ⟨by omega, ih (by simpa using h)⟩

/-- Outside its domain the `post` compressor does not finish: on every list that is not
non-decreasing and non-negative it writes for ever. -/
theorem C10_post_domain {l : List Int} (h64 : ∀ a ∈ l, In64 a)
    (h : ¬ ((∀ a ∈ l, 0 ≤ a) ∧ l.Pairwise (· ≤ ·))) : postCrush (addrsBytes l) = none := by
  have e : bytesAddrs ((addrsBytes l).length / 8) (addrsBytes l) = l := by
    rw [addrsBytes_length, Nat.mul_div_cancel_left _ (by decide)]; exact C10_bytes h64
  unfold postCrush
  rw [e]
  cases hc : encodeAll 0 l with
  | none => rfl
  | some c =>
    have := encodeAll_some (l := l) (x := 0) (by rw [hc]; rfl)
    rw [ascending_iff] at this
    exact absurd this h

/-- **C10** (tf/df, as created with an empty recipe): any 64-bit values are restored. -/
theorem C10_tfdf {l : List Int} (h : ∀ a ∈ l, In64 a) :
    ∃ c, tfdfCrush false (addrsBytes l) = some c ∧
      c.length ≤ (addrsBytes l).length + tfdfExtra (addrsBytes l).length ∧
      tfdfTang false c = some (addrsBytes l) :=
  tfdf_ok false h (by simp)

/-- **C10** (tf/df as a component of another compressor, no escape byte): values from 1 to
2^30 are restored.  Missing: other values, which the component form cannot hold. -/
theorem C10_tfdf_component_partial {l : List Int} (h : ∀ a ∈ l, 1 ≤ a ∧ a ≤ 1073741824) :
    ∃ c, tfdfCrush true (addrsBytes l) = some c ∧
      c.length ≤ (addrsBytes l).length + tfdfExtra (addrsBytes l).length ∧
      tfdfTang true c = some (addrsBytes l) :=
  tfdf_ok true (fun a ha => by have := h a ha; unfold In64; omega) fun _ => h

/-- The component form silently loses a 0 (`src/tfdf_compressor.cc`). -/
theorem C10_tfdf_component_loses :
    tfdfCrush true (addrsBytes [0]) = some [] ∧ tfdfTang true [] = some [] := by decide

example : ∃ c, postCrush (addrsBytes [3, 3, 200, 70000]) = some c ∧
    postTang c 32 = some (addrsBytes [3, 3, 200, 70000]) := by
  obtain ⟨c, h1, _, h3⟩ := C10_post (l := [3, 3, 200, 70000]) (by decide) (by decide)
  exact ⟨c, h1, h3 32 (by decide)⟩
example : ¬ ((∀ a ∈ [5, 3], (0 : Int) ≤ a) ∧ [(5 : Int), 3].Pairwise (· ≤ ·)) := by decide
example : ∀ a ∈ [(1 : Int), 9, 1073741824], 1 ≤ a ∧ a ≤ 1073741824 := by decide

/-! ### C11 -/

/-- a compressor that restores whatever bytes it is given (an assumption for the compressors
this model does not open: `zlib`) -/
def Faithful (c : Codec) : Prop := ∀ b, ∃ z, c.crush b = some z ∧ (z = [] → b = []) ∧
  z.length ≤ 2 * b.length + 1024 ∧ c.tang z b.length = some b

theorem faithful_restores {c : Codec} (h : Faithful c) {l : List Int}
    (hl : l.length ≤ 1000000000000000) : Restores c l := by
  obtain ⟨z, h1, h2, h3, h4⟩ := h (addrsBytes l)
  have e := addrsBytes_length l
  refine ⟨z, h1, ?_, by omega, by rw [e] at h4; exact h4⟩
  intro hz
  have h2 := congrArg List.length (h2 hz)
  rw [e] at h2
  exact List.eq_nil_of_length_eq_zero (by simp only [List.length_nil] at h2; omega)

theorem null_faithful : Faithful nullCodec := fun b =>
  ⟨b, rfl, id, by omega, by simp [nullCodec]⟩

theorem badTang_badCrush (b : List UInt8) : badTang (badCrush b) = some b := by
  induction b with
  | nil => rfl
  | cons x b ih =>
    have : badCrush (x :: b) = x :: x :: badCrush b := rfl
    rw [this, badTang, if_pos rfl, ih]; rfl

theorem badCrush_length (b : List UInt8) : (badCrush b).length = 2 * b.length := by
  induction b with
  | nil => rfl
  | cons x b ih =>
    have : badCrush (x :: b) = x :: x :: badCrush b := rfl
    rw [this]; simp [ih]; omega

theorem bad_faithful : Faithful badCodec := fun b => by
  have hl := badCrush_length b
  refine ⟨badCrush b, rfl, ?_, by omega, ?_⟩
  · intro h
    rw [h] at hl
    exact List.eq_nil_of_length_eq_zero (by simp at hl; omega)
  · unfold badCodec
    simp only
    rw [if_pos (by omega)]; exact badTang_badCrush b

/-- what any of the writers below needs: 64-bit contents, parallel columns -/
structure Columns (P : Posting) : Prop where
  ok : P.Ok
  feature : In64 P.feature
  count : P.ps.length ≤ 1000000000000000
  ps64 : ∀ a ∈ P.ps, In64 a
  qs64 : ∀ a ∈ P.qs, In64 a
  fs64 : ∀ a ∈ P.fs, In64 a

/-- all three readers of a written list give it back, whatever follows it in the file -/
def ReadsBack (pc fc : Codec) (P : Posting) : Prop :=
  ∃ bytes, P.write pc fc = some bytes ∧
    (∀ rest, readFile pc fc (bytes ++ rest) = some (P, rest)) ∧
    (∀ rest, readBlob pc fc (bytes ++ rest) = some P) ∧
    (∀ rest, readCache pc fc P.size (bytes ++ rest) = some P.arrays)

theorem qs_length {P : Posting} (h : Columns P) : P.qs.length ≤ P.ps.length := by
  rcases h.ok.1 with h | h <;> simp [h]
theorem fs_length {P : Posting} (h : Columns P) : P.fs.length ≤ P.ps.length := by
  rcases h.ok.2 with h | h <;> simp [h]

/-- **C11**, with any compressors that restore their input (`null`, `bad`; `zlib` if it
does): every posting list is read back as it was written. -/
theorem C11_faithful {pc fc : Codec} (hp : Faithful pc) (hf : Faithful fc) {P : Posting}
    (h : Columns P) : ReadsBack pc fc P := by
  have h1 := h.count
  have h2 := qs_length h
  have h3 := fs_length h
  exact write_read ⟨h.ok, h.feature, by omega, h.ps64, h.qs64, h.fs64,
    faithful_restores hp (by omega), faithful_restores hp (by omega), faithful_restores hf (by omega)⟩

theorem post_restores {l : List Int} (hl : l.length ≤ 1000000000000000)
    (h0 : ∀ a ∈ l, 0 ≤ a ∧ a ≤ 9223372036854775807) (hs : l.Pairwise (· ≤ ·)) :
    Restores postCodec l := by
  obtain ⟨c, h1, h2, h3, h4⟩ := post_ok h0 hs
  have e := addrsBytes_length l
  refine ⟨c, h1, h3, ?_, h4 _ (by omega)⟩
  have : postExtra (addrsBytes l).length ≤ (addrsBytes l).length + 2 := by unfold postExtra; omega
  omega

/-- **C11**, with the `post` compressor for addresses: every list of non-negative addresses that satisfies the posting invariants.
Missing: negative addresses, on which the compressor does not finish
(`C11_negative_never_written`). -/
theorem C11_post_partial {fc : Codec} (hf : Faithful fc) {P : Posting} (h : Columns P)
    (inv : P.invariants = true) (h0 : ∀ a ∈ P.ps, 0 ≤ a) : ReadsBack postCodec fc P := by
  have h1 := h.count
  have h2 := qs_length h
  have h3 := fs_length h
  simp only [Posting.invariants, Bool.and_eq_true, decide_eq_true_eq] at inv
  obtain ⟨⟨⟨_, sp⟩, sq⟩, pq⟩ := inv
  have hq0 : ∀ a ∈ P.qs, 0 ≤ a := by
    intro a ha
    simp only [Bool.or_eq_true, beq_iff_eq, List.length_eq_zero_iff, List.all_eq_true,
      decide_eq_true_eq] at pq
    rcases pq with pq | pq
    · rw [pq] at ha; simp at ha
    · obtain ⟨i, hi, rfl⟩ := List.getElem_of_mem ha
      have hi' : i < P.ps.length := by omega
      have := pq (P.ps[i], P.qs[i]) (by
        rw [List.mem_iff_getElem]; exact ⟨i, by simp; omega, by simp⟩)
      have := h0 _ (List.getElem_mem hi')
      simp only at *; omega
  refine write_read ⟨h.ok, h.feature, by omega, h.ps64, h.qs64, h.fs64,
    post_restores (by omega) ?_ sp, post_restores (by omega) ?_ sq, faithful_restores hf (by omega)⟩
  · intro a ha; have := h.ps64 a ha; unfold In64 at this; exact ⟨h0 a ha, by omega⟩
  · intro a ha; have := h.qs64 a ha; unfold In64 at this; exact ⟨hq0 a ha, by omega⟩

/-- A list with a negative address (nothing stops a user annotating one) is never written
with the `post` compressor: the compressor runs on. -/
theorem C11_negative_never_written (fc : Codec) :
    ({ feature := 7, ps := [-5] } : Posting).write postCodec fc = none := by
  have : postCodec.crush (addrsBytes [-5]) = none :=
    C10_post_domain (by intro a ha; simp at ha; subst ha; unfold In64; omega) (by decide)
  simp [Posting.write, this]

example : Columns { feature := 97, ps := [1, 4, 9], qs := [2, 4, 12], fs := [0, 5, 0] } ∧
    ({ feature := 97, ps := [1, 4, 9], qs := [2, 4, 12], fs := [0, 5, 0] } : Posting).invariants = true :=
  ⟨⟨by simp [Posting.Ok], by unfold In64; decide, by decide, by unfold In64; decide,
    by unfold In64; decide, by unfold In64; decide⟩, by decide⟩

/-! ### C12 -/

/-- the annotations of a transaction for one feature, at their final addresses -/
def atFinal (whereTo : Int) (added : List (Int × Ann)) (f : Int) : List Ann :=
  ofFeature f (added.map (relocate whereTo))

/-- the minimal ones: valid, and no other valid one strictly inside -/
def Minimal (l : List Ann) (a : Ann) : Prop :=
  a ∈ l ∧ a.p ≤ a.q ∧ ∀ b ∈ l, b.p ≤ b.q → inside b a → b.p = a.p ∧ b.q = a.q

/-- What the index really keeps, for any annotations in any order of arrival and any result
of the unstable sort: the valid annotations such that no valid one starts later and ends no
later.  (This is minimality, except among annotations with the same start.) -/
theorem C12_kept {added sorted : List (Int × Ann)} {whereTo : Int}
    (h : SortedFrom (added.map (relocate whereTo)) sorted) (f : Int) (a : Ann) :
    a ∈ (annsOf (indexOf sorted) f).map plus0 ↔ ∃ b ∈ atFinal whereTo added f, a = plus0 b ∧
      b.p ≤ b.q ∧ ∀ c ∈ atFinal whereTo added f, c.p ≤ c.q → c.q ≤ b.q → c.p ≤ b.p := by
  obtain ⟨h1, h2, h3⟩ := indexOf_ok h f
  unfold annsOf atFinal
  rw [h3]
  split
  · rename_i hn
    split at hn
    · rename_i he; simp [he]
    · cases hn
  · rename_i P hn
    split at hn
    · cases hn
    · cases hn
      have := (runPosting_ok f _ h2).2.1
      unfold Posting.view at this
      rw [this, List.mem_map]
      constructor
      · rintro ⟨b, hb, rfl⟩
        rw [List.mem_filter] at hb
        obtain ⟨hb, hk⟩ := hb
        obtain ⟨k1, k2⟩ := of_decide_eq_true hk
        exact ⟨b, h1.mem_iff.1 hb, rfl, k1, fun c hc => k2 c (h1.mem_iff.2 hc)⟩
      · rintro ⟨b, hb, rfl, k1, k2⟩
        refine ⟨b, ?_, rfl⟩
        rw [List.mem_filter]
        exact ⟨h1.mem_iff.2 hb, decide_eq_true ⟨k1, fun c hc => k2 c (h1.mem_iff.1 hc)⟩⟩

theorem listing_of_plus0 {l : List Ann} (h : Listing (l.map plus0)) : Listing l := by
  refine ⟨?_, ?_⟩
  · have := h.sorted; rw [List.pairwise_map] at this; exact this
  · intro a ha; exact h.bounds (plus0 a) (List.mem_map.2 ⟨a, ha, rfl⟩)

theorem kept_sorted {l : List Ann} (hs : l.Pairwise ordered)
    (hd : (l.filter fun a => a.p ≤ a.q).Pairwise fun a b => a.p ≠ b.p) :
    (l.filter fun a => decide (kept l a)).Pairwise fun a b => a.p < b.p ∧ a.q < b.q := by
  have e : (l.filter fun a => decide (kept l a)) =
      (l.filter fun a => a.p ≤ a.q).filter fun a => decide (kept l a) := by
    rw [List.filter_filter]
    apply List.filter_congr
    intro a _
    by_cases hk : kept l a
    · simp [hk, hk.1]
    · simp [hk]
  have h1 : (l.filter fun a => decide (kept l a)).Pairwise fun a b => a.p ≠ b.p := by
    rw [e]; exact hd.filter _
  refine List.Pairwise.imp_of_mem ?_ (h1.and (hs.filter _))
  rintro a b ha hb ⟨h2, h3⟩
  rw [List.mem_filter] at ha hb
  obtain ⟨ha, ka⟩ := ha
  obtain ⟨hb, kb⟩ := hb
  have ka := of_decide_eq_true ka
  have := (of_decide_eq_true kb).2 a ha ka.1
  unfold ordered at h3
  omega

/-- **C12**, when no two (valid) annotations of the feature start at the same address: the
index holds exactly the minimal ones, in strictly increasing order.  Missing: annotations
with equal starts (see `C12_equal_starts` and `C12_duplicates`). -/
theorem C12_minimal_partial {added sorted : List (Int × Ann)} {whereTo : Int}
    (h : SortedFrom (added.map (relocate whereTo)) sorted) (f : Int)
    (hd : ((atFinal whereTo added f).filter fun a => a.p ≤ a.q).Pairwise fun a b => a.p ≠ b.p)
    (hb : ∀ a ∈ atFinal whereTo added f, minfinity < a.p ∧ a.q < maxfinity) :
    Listing (annsOf (indexOf sorted) f) ∧
    ∀ a, a ∈ (annsOf (indexOf sorted) f).map plus0 ↔
      ∃ b, Minimal (atFinal whereTo added f) b ∧ a = plus0 b := by
  obtain ⟨h1, h2, h3⟩ := indexOf_ok h f
  have dist : ∀ a ∈ atFinal whereTo added f, ∀ b ∈ atFinal whereTo added f, a.p ≤ a.q → b.p ≤ b.q →
      a.p = b.p → a = b := by
    intro a ha b hb' va vb e
    have ma : a ∈ (atFinal whereTo added f).filter fun a => a.p ≤ a.q := by simp [ha, va]
    have mb : b ∈ (atFinal whereTo added f).filter fun a => a.p ≤ a.q := by simp [hb', vb]
    rcases pairwise_tri hd a ma b mb with h | h | h
    · exact absurd e h
    · exact h
    · exact absurd e.symm h
  refine ⟨?_, fun a => ?_⟩
  · unfold annsOf
    rw [h3]
    split
    · exact listing_nil
    · rename_i P hn
      split at hn
      · cases hn
      · cases hn
        apply listing_of_plus0
        have := (runPosting_ok f _ h2).2.1
        unfold Posting.view at this
        rw [this]
        apply listing_plus0
        refine ⟨kept_sorted h2 ?_, ?_⟩
        · exact ((h1.filter _).pairwise_iff (fun h => Ne.symm h)).2 hd
        · intro a ha
          rw [List.mem_filter] at ha
          have hv := (of_decide_eq_true ha.2).1
          have := hb a (h1.mem_iff.1 ha.1)
          exact ⟨this.1, hv, this.2⟩
  · rw [C12_kept h f a]
    constructor
    · rintro ⟨b, hb, rfl, h1, h2⟩
      refine ⟨b, ⟨hb, h1, fun c hc hv hin => ?_⟩, rfl⟩
      unfold inside at hin
      have := h2 c hc hv hin.2
      have := dist c hc b hb hv h1 (by omega)
      subst this; exact ⟨rfl, rfl⟩
    · rintro ⟨b, ⟨hb, h1, h2⟩, rfl⟩
      refine ⟨b, hb, rfl, h1, fun c hc hv hq => ?_⟩
      refine Int.not_lt.1 fun hlt => ?_
      have := h2 c hc hv ⟨by omega, hq⟩
      omega

/-- the sort of a list that is in order -/
theorem sorted_self {l : List (Int × Ann)} (h : l.Pairwise fun x y => annLess y x = false) :
    SortedFrom l l := ⟨List.Perm.refl _, h⟩

/-- The code does not have the full property (`src/simple_posting.cc:60` compares with `>=`):
of `[2,4]` and `[2,5]`, added in one transaction, the index keeps both … -/
theorem C12_equal_starts :
    ∃ sorted, SortedFrom [((7 : Int), (⟨2, 5, 0⟩ : Ann)), (7, ⟨2, 4, 0⟩)] sorted ∧
      annsOf (indexOf sorted) 7 = [⟨2, 4, 0⟩, ⟨2, 5, 0⟩] ∧
      ¬ Minimal [⟨2, 4, 0⟩, ⟨2, 5, 0⟩] ⟨2, 5, 0⟩ := by
  refine ⟨[(7, ⟨2, 4, 0⟩), (7, ⟨2, 5, 0⟩)], ⟨List.Perm.swap _ _ _, by decide⟩, by decide, fun h => ?_⟩
  have := h.2.2 ⟨2, 4, 0⟩ (by simp) (by decide) (by unfold inside; decide)
  simp at this

/-- … and of the same interval added twice with different values it keeps both, in an order
the unstable sort decides. -/
theorem C12_duplicates :
    (∃ sorted, SortedFrom [((7 : Int), (⟨2, 5, 1⟩ : Ann)), (7, ⟨2, 5, 3⟩)] sorted ∧
      annsOf (indexOf sorted) 7 = [⟨2, 5, 1⟩, ⟨2, 5, 3⟩]) ∧
    (∃ sorted, SortedFrom [((7 : Int), (⟨2, 5, 1⟩ : Ann)), (7, ⟨2, 5, 3⟩)] sorted ∧
      annsOf (indexOf sorted) 7 = [⟨2, 5, 3⟩, ⟨2, 5, 1⟩]) :=
  ⟨⟨[(7, ⟨2, 5, 1⟩), (7, ⟨2, 5, 3⟩)], ⟨List.Perm.refl _, by decide⟩, by decide⟩,
   ⟨[(7, ⟨2, 5, 3⟩), (7, ⟨2, 5, 1⟩)], ⟨List.Perm.swap _ _ _, by decide⟩, by decide⟩⟩

/-- nested and overlapping annotations in the transaction's own text and elsewhere -/
def sampleAdded : List (Int × Ann) :=
  [(7, ⟨2, 9, 0⟩), (7, ⟨3, 5, 8⟩), (8, ⟨1, 1, 0⟩), (7, ⟨staging + 1, staging + 2, 0⟩)]
example : ((atFinal 100 sampleAdded 7).filter fun a => a.p ≤ a.q).Pairwise (fun a b => a.p ≠ b.p) ∧
    atFinal 100 sampleAdded 7 = [⟨2, 9, 0⟩, ⟨3, 5, 8⟩, ⟨101, 102, 0⟩] := by decide
example : SortedFrom (sampleAdded.map (relocate 100))
    [(7, ⟨3, 5, 8⟩), (7, ⟨2, 9, 0⟩), (7, ⟨101, 102, 0⟩), (8, ⟨1, 1, 0⟩)] :=
  ⟨by decide, by decide⟩

/-! ### which indexes arise -/

/-- The annotations of a transaction are orderly: valid, in range, no two of one feature with
the same start, no negative zeros. -/
def Orderly (whereTo : Int) (added : List (Int × Ann)) : Prop :=
  ∀ f, (atFinal whereTo added f).Pairwise (fun a b => a.p ≠ b.p) ∧
    ∀ a ∈ atFinal whereTo added f, minfinity < a.p ∧ a.p ≤ a.q ∧ a.q < maxfinity ∧ plus0 a = a

/-- indexes built from transactions and by merging -/
inductive Arises : Store.Index → Prop
  | transaction {added sorted : List (Int × Ann)} {whereTo : Int} :
      Orderly whereTo added → SortedFrom (added.map (relocate whereTo)) sorted →
      Arises (indexOf sorted)
  | merge {ixs : List Store.Index} {M : Store.Index} : ixs ≠ [] → (∀ ix ∈ ixs, Arises ix) →
      (∀ f, mergeFeature ixs f = some (M f)) → Arises M

theorem txn_good {added sorted : List (Int × Ann)} {whereTo : Int} (ho : Orderly whereTo added)
    (h : SortedFrom (added.map (relocate whereTo)) sorted) : GoodIx (indexOf sorted) := by
  have key : ∀ f P, indexOf sorted f = some P → P.Ok ∧ Listing P.anns ∧ P.anns ≠ [] ∧
      (∀ a ∈ P.anns, plus0 a = a) ∧ P.feature = f := by
    intro f P hP
    obtain ⟨h1, h2, h3⟩ := indexOf_ok h f
    obtain ⟨o1, o2⟩ := ho f
    have hP' := hP
    rw [h3] at hP
    split at hP
    · cases hP
    · rename_i hne
      cases hP
      obtain ⟨r1, r2, r3, r4⟩ := runPosting_ok f _ h2
      have hz : ∀ a ∈ ofFeature f sorted, plus0 a = a := fun a ha => (o2 a (h1.mem_iff.1 ha)).2.2.2
      have hl := (C12_minimal_partial h f (o1.filter _) fun a ha =>
        ⟨(o2 a ha).1, (o2 a ha).2.2.1⟩).1
      unfold annsOf at hl
      rw [hP'] at hl
      have r5 := r4 hz
      refine ⟨r1, hl, ?_, ?_, r3⟩
      · -- the last of the shortest prefix … : some annotation is kept
        rw [r5]
        intro hemp
        have hne' : ofFeature f sorted ≠ [] := fun he => hne (by rw [he] at h1; exact h1.nil_eq.symm)
        obtain ⟨x, xs, hx⟩ := List.exists_cons_of_ne_nil hne'
        have hk : kept (ofFeature f sorted) x := by
          refine ⟨(o2 x (h1.mem_iff.1 (by rw [hx]; simp))).2.1, fun b hb _ hq => ?_⟩
          rw [hx] at hb h2
          rcases List.mem_cons.1 hb with rfl | hb
          · exact Int.le_refl _
          · have := (List.pairwise_cons.1 h2).1 b hb
            unfold ordered at this; omega
        have : x ∈ (ofFeature f sorted).filter fun a => decide (kept (ofFeature f sorted) a) := by
          rw [List.mem_filter]; exact ⟨by rw [hx]; simp, decide_eq_true hk⟩
        rw [hemp] at this
        simp at this
      · rw [r5]; intro a ha; exact hz a (List.mem_filter.1 ha).1
  exact ⟨fun f P hP => (key f P hP).1, fun f P hP => (key f P hP).2.1,
    fun f P hP => (key f P hP).2.2.1, fun f P hP => (key f P hP).2.2.2.1,
    fun f P hP => (key f P hP).2.2.2.2⟩

theorem annsOf_congr {M M' : Store.Index} (h : ∀ f, M f = M' f) : M = M' := funext h

/-- Every index that arises from orderly transactions, merged in whatever groups, is in the
good order the query properties (C01-C06) ask for. -/
theorem arises_good {ix : Store.Index} (h : Arises ix) : GoodIx ix := by
  induction h with
  | transaction ho hs => exact txn_good ho hs
  | merge hne _ hm ih =>
    obtain ⟨M', h1, h2, _⟩ := merge_index_ok ih hne
    have : ∀ f, _ = M' f := fun f => Option.some.inj ((hm f).symm.trans (h1 f))
    rw [funext this]; exact h2

/-- and merging such indexes never gets stuck -/
theorem arises_merge {ixs : List Store.Index} (h : ∀ ix ∈ ixs, Arises ix) (hne : ixs ≠ []) :
    ∃ M, (∀ f, mergeFeature ixs f = some (M f)) ∧ Arises M := by
  obtain ⟨M, h1, _⟩ := merge_index_ok (fun ix hix => arises_good (h ix hix)) hne
  exact ⟨M, h1, .merge hne h h1⟩

/-! ### C13 -/

theorem views_unionL (Ps : List Posting) (a : Ann) :
    unionOf (views Ps) a ↔ unionL (Ps.map Posting.view) a := by
  unfold unionL views unionOf
  constructor
  · rintro ⟨⟨i, hi, hj⟩, hm⟩
    refine ⟨⟨⟨i, by simp⟩, ?_, ?_⟩, ?_⟩
    · simpa using hi
    · rintro ⟨j, hj'⟩ b hij hb
      exact hj ⟨j, by simpa using hj'⟩ b hij (by simpa using hb)
    · rintro ⟨j, hj'⟩ b hb
      exact hm ⟨j, by simpa using hj'⟩ b (by simpa using hb)
  · rintro ⟨⟨⟨i, hi'⟩, hi, hj⟩, hm⟩
    refine ⟨⟨⟨i, by simpa using hi'⟩, ?_, ?_⟩, ?_⟩
    · simpa using hi
    · rintro ⟨j, hj'⟩ b hij hb
      exact hj ⟨j, by simpa using hj'⟩ b hij (by simpa using hb)
    · rintro ⟨j, hj'⟩ b hb
      exact hm ⟨j, by simpa using hj'⟩ b (by simpa using hb)

/-- a posting list in good order: parallel columns, strictly increasing, not empty -/
structure GoodList (P : Posting) : Prop where
  ok : P.Ok
  listing : Listing P.anns
  nonempty : P.anns ≠ []

/-- **C13.** Merging any number of non-empty posting lists gives the minimal intervals of the
union, in strictly increasing order, each with the value it has in the last list that has
it (`unionOf`).  Values are compared as numbers (`-0.0` counts as `0.0`).  Missing: empty
lists among them, see `C13_empty_list`. -/
theorem C13_merge_partial {Ps : List Posting} (hne : Ps ≠ []) (h : ∀ P ∈ Ps, GoodList P) :
    ∃ R, mergePostings Ps = some R ∧ GoodList R ∧
      ∀ a, a ∈ R.view ↔ unionOf (fun i : Fin Ps.length => ofList (Ps[i].anns.map plus0)) a := by
  obtain ⟨R, h1, h2, h3, h4, _, _, h5⟩ := mergePostings_ok hne (fun P hP => (h P hP).ok)
    (fun P hP => (h P hP).listing) (fun P hP => (h P hP).nonempty)
  refine ⟨R, h1, ⟨h2, h4, fun he => ?_⟩, h5⟩
  -- something is left
  obtain ⟨P, hP⟩ := List.exists_mem_of_ne_nil _ hne
  obtain ⟨x, hx⟩ := List.exists_mem_of_ne_nil _ (h P hP).nonempty
  obtain ⟨m, hm, _⟩ := unionL_cover (Ls := Ps.map Posting.view) (by
      intro L hL
      obtain ⟨P, hP, rfl⟩ := List.mem_map.1 hL
      exact listing_plus0 (h P hP).listing) (List.mem_map.2 ⟨P, hP, rfl⟩)
    (List.mem_map.2 ⟨x, hx, rfl⟩)
  have := (h5 m).2 ((views_unionL Ps m).2 hm)
  rw [Posting.view, he] at this
  simp at this

theorem listing_ext : ∀ {l m : List Ann}, Listing l → Listing m → (∀ a, a ∈ l ↔ a ∈ m) → l = m := by
  intro l m hl hm h
  have nd : ∀ {l : List Ann}, Listing l → l.Nodup := fun hl => hl.sorted.imp (by rintro a _ h rfl; omega)
  have hp : l.Perm m := (List.perm_ext_iff_of_nodup (nd hl) (nd hm)).2 h
  refine hp.eq_of_pairwise (le := fun a b => a.p < b.p ∧ a.q < b.q) ?_ hl.sorted hm.sorted
  intro a b _ _ h1 h2; omega

/-- **C13**, grouping: merging a run of the lists first gives the same list. -/
theorem C13_grouping_partial {A G B : List Posting} (hne : G ≠ [])
    (h : ∀ P ∈ A ++ G ++ B, GoodList P) :
    ∃ M R R', mergePostings G = some M ∧ mergePostings (A ++ G ++ B) = some R ∧
      mergePostings (A ++ [M] ++ B) = some R' ∧ R.view = R'.view := by
  obtain ⟨M, m1, m2, m3⟩ := C13_merge_partial hne (fun P hP => h P (by simp [hP]))
  obtain ⟨R, r1, r2, r3⟩ := C13_merge_partial (Ps := A ++ G ++ B) (by simp [hne]) h
  obtain ⟨R', s1, s2, s3⟩ := C13_merge_partial (Ps := A ++ [M] ++ B) (by simp) (by
    intro P hP
    simp only [List.append_assoc, List.mem_append, List.mem_singleton] at hP
    rcases hP with hP | rfl | hP
    · exact h P (by simp [hP])
    · exact m2
    · exact h P (by simp [hP]))
  refine ⟨M, R, R', m1, r1, s1, listing_ext (listing_plus0 r2.listing) (listing_plus0 s2.listing) ?_⟩
  intro a
  refine (r3 a).trans (Iff.trans ?_ (s3 a).symm)
  change unionOf (views _) a ↔ unionOf (views _) a
  rw [views_unionL, views_unionL]
  simp only [List.map_append, List.map_cons, List.map_nil]
  refine unionL_group (X := fun _ => False) (Y := fun _ => False) ?_ ?_ ?_ (fun _ h => h) a id
  · intro L hL
    obtain ⟨P, hP, rfl⟩ := List.mem_map.1 hL
    exact listing_plus0 (h P (by simp [hP])).listing
  · intro b
    have := m3 b
    change _ ↔ unionOf (views _) b at this
    rw [this, views_unionL]; simp
  · intro _ _ _ _ _ _ _ _ _ h; exact h

/-- With an empty list in the middle (a transaction whose only annotation of the feature has
its end before its start makes one) the merge concatenates without looking: the result is
not even in order. -/
theorem C13_empty_list :
    mergePostings [{ feature := 7, ps := [10] }, { feature := 7 }, { feature := 7, ps := [2] }] =
      some { feature := 7, ps := [10, 2] } ∧
    indexOf [(7, ⟨5, 4, 0⟩)] 7 = some { feature := 7 } := by decide

example : GoodList { feature := 7, ps := [2, 6], qs := [4, 9], fs := [0, 3] } :=
  ⟨by simp [Posting.Ok], ⟨by decide, by decide⟩, by decide⟩
/-- nested and equal intervals over three lists -/
example : mergePostings [{ feature := 7, ps := [2, 6], qs := [4, 9], fs := [5, 3] },
      { feature := 7, ps := [2], qs := [4], fs := [8] }, { feature := 7, ps := [7] }] =
    some { feature := 7, ps := [2, 7], qs := [4, 7], fs := [8, 0] } := by decide

/-! ### C14 -/

/-- **C14**, hiding.  An annotation inside an erased range `e` is not a solution of its
feature, if no other erased range lies strictly inside `e`.  Missing: nested erased ranges,
see `C14_nested_erase`. -/
theorem C14_hidden_partial {shards : List Store.Index} (good : ∀ ix ∈ shards, GoodIx ix) {f : Int}
    (hf : f ≠ 0) {ix : Store.Index} (hix : ix ∈ shards) {e : Ann} (he : e ∈ annsOf ix 0)
    (nest : ∀ ix' ∈ shards, ∀ e' ∈ annsOf ix' 0, inside e' e → e'.p = e.p ∧ e'.q = e.q)
    {a : Ann} (ha : inside a e) : ¬ Store.solutions shards f a := by
  obtain ⟨e', h1, h2⟩ := erased_counts good hix he nest
  unfold Store.solutions
  rw [if_neg hf]
  rintro ⟨_, h3⟩
  refine h3 ⟨e', h1, ?_⟩
  unfold same at h2; unfold inside at *; omega

/-- **C14**, the rest is unaffected: an annotation inside no erased range is a solution
exactly if it is one of the union of the shards. -/
theorem C14_unaffected {shards : List Store.Index} {f : Int} (hf : f ≠ 0) {a : Ann}
    (h : ∀ ix ∈ shards, ∀ e ∈ annsOf ix 0, ¬ inside a e) :
    Store.solutions shards f a ↔ solutionsRaw shards f a := by
  unfold Store.solutions
  rw [if_neg hf]
  refine ⟨fun h => h.1, fun h' => ⟨h', ?_⟩⟩
  rintro ⟨e, he, hin⟩
  obtain ⟨L, hL, heL⟩ := unionL_mem he
  obtain ⟨ix, hix, rfl⟩ := List.mem_map.1 hL
  exact h ix hix e heL hin

/-- The two together with C06: what the index's hopper answers, when no erased range lies
strictly inside another. -/
theorem C14_hopper_partial {shards : List Store.Index} (good : ∀ ix ∈ shards, GoodIx ix)
    (nest : ∀ ix ∈ shards, ∀ e ∈ annsOf ix 0, ∀ ix' ∈ shards, ∀ e' ∈ annsOf ix' 0, inside e' e →
      e'.p = e.p ∧ e'.q = e.q) {f : Int} (hf : f ≠ 0) :
    Implements (bigwigObj shards f) fun a =>
      solutionsRaw shards f a ∧ ¬ ∃ ix ∈ shards, ∃ e ∈ annsOf ix 0, inside a e := by
  refine Store.Implements.congr (bigwig_impl good f) fun a => ⟨fun h => ⟨?_, ?_⟩, ?_⟩
  · unfold Store.solutions at h; rw [if_neg hf] at h; exact h.1
  · rintro ⟨ix, hix, e, he, hin⟩
    exact C14_hidden_partial good hf hix he (nest ix hix e he) hin h
  · rintro ⟨h1, h2⟩
    exact (C14_unaffected hf fun ix hix e he hin => h2 ⟨ix, hix, e, he, hin⟩).2 h1

/-- erasing `[1,5]` and then `[2,3]`, over an annotation at `[4,4]` -/
def nestedErase : List (Int × Ann) := [(0, ⟨1, 5, 0⟩), (0, ⟨2, 3, 0⟩), (7, ⟨4, 4, 0⟩)]
def nestedEraseSorted : List (Int × Ann) := [(0, ⟨2, 3, 0⟩), (0, ⟨1, 5, 0⟩), (7, ⟨4, 4, 0⟩)]

/-- The code does not have the full property: after `erase(1,5)` and `erase(2,3)` in one
transaction, the outer range is dropped from the erasures as not minimal, and an annotation
at `[4,4]` is still a solution. -/
theorem C14_nested_erase :
    SortedFrom (nestedErase.map (relocate 0)) nestedEraseSorted ∧
    Store.solutions [indexOf nestedEraseSorted] 7 ⟨4, 4, 0⟩ ∧ inside ⟨4, 4, 0⟩ ⟨1, 5, 0⟩ := by
  have a7 : annsOf (indexOf nestedEraseSorted) 7 = [⟨4, 4, 0⟩] := by decide
  have a0 : annsOf (indexOf nestedEraseSorted) 0 = [⟨2, 3, 0⟩] := by decide
  refine ⟨⟨by decide, by decide⟩, ?_, by unfold inside; decide⟩
  unfold Store.solutions
  rw [if_neg (by decide)]
  unfold solutionsRaw nullFeature
  simp only [List.map_cons, List.map_nil, a7, a0]
  refine ⟨(unionL_single ⟨by decide, by decide⟩ _).2 (by simp), ?_⟩
  rintro ⟨e, he, hin⟩
  obtain ⟨L, hL, heL⟩ := unionL_mem he
  simp at hL; subst hL
  simp at heL; subst heL
  revert hin; unfold inside; decide

/-! ### C15 -/

/-- the same index with other shards -/
def Index.withShards (ix : Index) (shards : List Store.Index) (good : ∀ i ∈ shards, GoodIx i) : Index :=
  ⟨shards, ix.featurize, good⟩

/-- two indexes with the same solutions give the same answers to every query, in every
history of calls, whatever counts the optimizer sees -/
theorem same_answers (ix ix' : Index) (hs : ix.solutions = ix'.solutions)
    (c c' : Option (List Char → Int)) (e : SExpr) (h : Legal e) :
    ∃ H H', compile ix c e = some H ∧ compile ix' c' e = some H' ∧
      ∀ cs : List Call, (∀ c ∈ cs, InRange c.key) →
        ∃ as s s', H.run cs H.init = some (as, s) ∧ H'.run cs H'.init = some (as, s') := by
  obtain ⟨H, h1, h2⟩ := C01_whole_history ix c e h
  obtain ⟨H', h3, h4⟩ := C01_whole_history ix' c' e h
  refine ⟨H, H', h1, h3, fun cs hk => ?_⟩
  obtain ⟨as, s, r1, r2, r3⟩ := h2 cs hk
  obtain ⟨as', s', t1, t2, t3⟩ := h4 cs hk
  have : as = as' := by
    rw [← hs] at t3
    clear r1 t1 hk
    induction cs generalizing as as' with
    | nil =>
      cases as <;> cases as' <;> simp_all
    | cons x cs ih =>
      match as, as' with
      | a :: as, b :: as' =>
        simp only [List.zip_cons_cons, List.forall_mem_cons] at r3 t3
        rw [Right.unique (den_wf ix.wf e h) r3.1 t3.1]
        rw [ih as (by simpa using r2) r3.2 as' (by simpa using t2) t3.2]
      | [], _ => simp at r2
      | _ :: _, [] => simp at t2
  subst this
  exact ⟨as, s, s', r1, t1⟩

/-- **C15**, where it holds: replacing a run `G` of adjacent shards by their merge `M` changes
no solution of any feature, provided that whatever contains an annotation dropped by the
merge (one of `G` inside a range erased in `G`) is itself inside an effective erased range.
Missing: the other case, see `C15_merge_visible`. -/
theorem C15_merge_invisible_partial {A G B : List Store.Index} (good : ∀ ix ∈ A ++ G ++ B, GoodIx ix)
    (hne : G ≠ [])
    (cover : ∀ f, ∀ ix ∈ A ++ G ++ B, ∀ r ∈ annsOf ix f, ∀ ix' ∈ G, ∀ s ∈ annsOf ix' f, inside s r →
      ∀ e, solutionsRaw G 0 e → inside s e →
      ∃ e', solutionsRaw (A ++ G ++ B) 0 e' ∧ inside r e') :
    ∃ M : Store.Index, (∀ f, mergeFeature G f = some (M f)) ∧ GoodIx M ∧
      ∀ f a, Store.solutions (A ++ G ++ B) f a ↔ Store.solutions (A ++ [M] ++ B) f a := by
  obtain ⟨M, h1, h2, h3⟩ := merge_index_ok (fun ix hix => good ix (by simp [hix])) hne
  exact ⟨M, h1, h2, fun f a => merge_invisible good h3 f (cover f) a⟩

/-- **C15** without erasures in the merged shards: no condition is needed, and every query
gives the same answers in every history, before and after. -/
theorem C15_no_erasures {A G B : List Store.Index} (good : ∀ ix ∈ A ++ G ++ B, GoodIx ix)
    (hne : G ≠ []) (hG : ∀ ix ∈ G, annsOf ix 0 = []) (featurize : List Char → Int) :
    ∃ (M : Store.Index) (good' : ∀ ix ∈ A ++ [M] ++ B, GoodIx ix),
      (∀ f, mergeFeature G f = some (M f)) ∧
      ∀ (c c' : Option (List Char → Int)) (e : SExpr), Legal e →
        ∃ H H', compile ⟨A ++ G ++ B, featurize, good⟩ c e = some H ∧
          compile ⟨A ++ [M] ++ B, featurize, good'⟩ c' e = some H' ∧
          ∀ cs : List Call, (∀ c ∈ cs, InRange c.key) →
            ∃ as s s', H.run cs H.init = some (as, s) ∧ H'.run cs H'.init = some (as, s') := by
  obtain ⟨M, h1, h2, h3⟩ := C15_merge_invisible_partial good hne (by
    intro f ix _ r _ ix' _ s _ _ e he _
    obtain ⟨L, hL, heL⟩ := unionL_mem he
    obtain ⟨g, hg, rfl⟩ := List.mem_map.1 hL
    rw [show annsOf g 0 = [] from hG g hg] at heL
    simp at heL)
  have good' : ∀ ix ∈ A ++ [M] ++ B, GoodIx ix := by
    intro ix hix
    simp only [List.append_assoc, List.mem_append, List.mem_singleton] at hix
    rcases hix with hix | rfl | hix
    · exact good ix (by simp [hix])
    · exact h2
    · exact good ix (by simp [hix])
  refine ⟨M, good', h1, fun c c' e he => same_answers _ _ ?_ c c' e he⟩
  funext t a
  exact propext (h3 _ a)

/-- three shards: an outer annotation; an inner one; the inner one erased -/
def visA : Store.Index := indexOf [(7, ⟨4, 7, 0⟩)]
def visB : Store.Index := indexOf [(7, ⟨5, 6, 0⟩)]
def visC : Store.Index := indexOf [(0, ⟨5, 6, 0⟩)]

theorem vis_good : ∀ ix ∈ [visA, visB, visC], GoodIx ix := by
  have key : ∀ (f : Int) (a : Ann), minfinity < a.p → a.p ≤ a.q → a.q < maxfinity → plus0 a = a →
      a.p < staging → GoodIx (indexOf [(f, a)]) := by
    intro f a h1 h2 h3 h4 h5
    have e : [(f, a)].map (relocate 0) = [(f, a)] := by
      simp only [List.map_cons, List.map_nil, relocate]
      rw [if_neg (by omega)]
    refine txn_good (added := [(f, a)]) (whereTo := 0) ?_ (by rw [e]; exact sorted_self (by simp))
    intro g
    unfold atFinal
    rw [e]
    unfold ofFeature
    by_cases hg : f = g
    · subst hg; simp; exact ⟨h1, h2, h3, h4⟩
    · simp [hg]
  intro ix hix
  simp only [List.mem_cons, List.not_mem_nil, or_false] at hix
  rcases hix with rfl | rfl | rfl <;> exact key _ _ (by decide) (by decide) (by decide) (by decide) (by decide)

/-- The code does not have the full property: with `[4,7]` in the oldest shard, `[5,6]` in
the next and `erase(5,6)` in the third, a query for the feature finds nothing (the only
minimal interval is erased); after the two newer shards are merged it finds `[4,7]`. -/
theorem C15_merge_visible : ∃ M : Store.Index, (∀ f, mergeFeature [visB, visC] f = some (M f)) ∧
    ¬ Store.solutions [visA, visB, visC] 7 ⟨4, 7, 0⟩ ∧ Store.solutions [visA, M] 7 ⟨4, 7, 0⟩ := by
  obtain ⟨M, h1, h2, h3⟩ := merge_index_ok (ixs := [visB, visC])
    (fun ix hix => vis_good ix (List.mem_cons_of_mem _ hix)) (by simp)
  have a7 : annsOf visA 7 = [⟨4, 7, 0⟩] := by decide
  have b7 : annsOf visB 7 = [⟨5, 6, 0⟩] := by decide
  have c7 : annsOf visC 7 = [] := by decide
  have a0 : annsOf visA 0 = [] := by decide
  have b0 : annsOf visB 0 = [] := by decide
  have c0 : annsOf visC 0 = [⟨5, 6, 0⟩] := by decide
  have er : solutionsRaw [visB, visC] 0 ⟨5, 6, 0⟩ := by
    unfold solutionsRaw
    simp only [List.map_cons, List.map_nil, b0, c0]
    rw [unionL_iff]; simp [newest, least, inside, same]
  have m7 : annsOf M 7 = [] := by
    rw [List.eq_nil_iff_forall_not_mem]
    intro a ha
    obtain ⟨g1, g2⟩ := (h3 7 a).1 ha
    obtain ⟨L, hL, haL⟩ := unionL_mem g1
    simp only [List.map_cons, List.map_nil, b7, c7, List.mem_cons, List.not_mem_nil, or_false] at hL
    rcases hL with rfl | rfl
    · simp at haL; subst haL
      exact g2 ⟨by decide, by decide, ⟨5, 6, 0⟩, er, by simp [inside]⟩
    · simp at haL
  have m0 : ∀ a ∈ annsOf M 0, a = ⟨5, 6, 0⟩ := by
    intro a ha
    obtain ⟨L, hL, haL⟩ := unionL_mem ((h3 0 a).1 ha).1
    simp only [List.map_cons, List.map_nil, b0, c0, List.mem_cons, List.not_mem_nil, or_false] at hL
    rcases hL with rfl | rfl
    · simp at haL
    · simpa using haL
  refine ⟨M, h1, ?_, ?_⟩
  · unfold Store.solutions
    rw [if_neg (by decide)]
    rintro ⟨g, _⟩
    unfold solutionsRaw at g
    simp only [List.map_cons, List.map_nil, a7, b7, c7] at g
    rw [unionL_iff] at g
    have := g.2 [⟨5, 6, 0⟩] (by simp) ⟨5, 6, 0⟩ (by simp) (by simp [inside])
    simp [same] at this
  · unfold Store.solutions
    rw [if_neg (by decide)]
    unfold solutionsRaw
    simp only [List.map_cons, List.map_nil, a7, m7]
    refine ⟨by rw [unionL_iff]; simp [newest, least, inside, same], ?_⟩
    rintro ⟨e, he, hin⟩
    obtain ⟨L, hL, heL⟩ := unionL_mem he
    simp only [nullFeature, a0, List.mem_cons, List.not_mem_nil, or_false] at hL
    rcases hL with rfl | rfl
    · simp at heL
    · rw [m0 e heL] at hin; simp [inside] at hin

end Verif.Props
