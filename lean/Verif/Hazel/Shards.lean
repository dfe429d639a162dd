import Verif.Hazel.Resume
import Verif.Store.ShardMerge
import Verif.Props.Store
namespace Verif.Hazel
open Verif.Hopper Verif.Gcl Verif.Store Verif.Props

/-- the contents of a static shard in good order: postings in order of features, each list of
intervals sorted, not empty, at non-negative addresses, and without the value `-0.0` -/
structure GoodShard (l : List (Int × Posting)) : Prop where
  sorted : l.Pairwise fun x y => x.1 < y.1
  feature : ∀ x ∈ l, x.2.feature = x.1
  columns : ∀ x ∈ l, Columns x.2
  listing : ∀ x ∈ l, Listing x.2.anns
  nonempty : ∀ x ∈ l, x.2.anns ≠ []
  zero : ∀ x ∈ l, ∀ a ∈ x.2.anns, a.v ≠ minfinity
  start : ∀ x ∈ l, ∀ a ∈ x.2.anns, 0 ≤ a.p

/-- compressors that restore the columns of every list of intervals in good order -/
def Stores (pc fc : Codec) : Prop := ∀ P : Posting, Columns P → P.invariants = true → (∀ a ∈ P.ps, 0 ≤ a) →
  Storable pc fc P

/-- the index of a static shard with these contents, opened -/
def Opened (pc fc : Codec) (l : List (Int × Posting)) (H : HIdx) : Prop :=
  ∃ blob, writeIdx pc fc l = some blob ∧ blob.length ≤ 9223372036854775807 ∧ openIdx blob = some H

/-- a shard's postings as they are read -/
def ixOf (l : List (Int × Posting)) : Store.Index := fun f => (l.find? fun x => x.1 == f).map fun x => reread x.2

/-! ### postings and their annotations -/

section
variable {P : Posting} (h : P.Ok)
include h

theorem cols : P.anns.map (·.p) = P.ps ∧ P.anns.map (·.q) = P.ends ∧ P.anns.map (·.v) = P.vals := by
  rw [anns_eq h]; exact zip3_cols (ends_length h) (vals_length h)

theorem columns_of (hf : In64 P.feature) (hc : P.anns.length ≤ 1000000000000000)
    (h64 : ∀ a ∈ P.anns, In64 a.p ∧ In64 a.q ∧ In64 a.v) : Columns P := by
  obtain ⟨c1, c2, c3⟩ := cols h
  refine ⟨h, hf, by rw [anns_length h] at hc; exact hc, ?_, ?_, ?_⟩
  · intro x hx
    rw [← c1] at hx
    obtain ⟨a, ha, rfl⟩ := List.mem_map.1 hx
    exact (h64 a ha).1
  · intro x hx
    have : x ∈ P.ends := by
      unfold Posting.ends
      split
      · rename_i h0; rw [h0] at hx; simp at hx
      · exact hx
    rw [← c2] at this
    obtain ⟨a, ha, rfl⟩ := List.mem_map.1 this
    exact (h64 a ha).2.1
  · intro x hx
    have : x ∈ P.vals := by
      unfold Posting.vals
      split
      · rename_i h0; rw [h0] at hx; simp at hx
      · exact hx
    rw [← c3] at this
    obtain ⟨a, ha, rfl⟩ := List.mem_map.1 this
    exact (h64 a ha).2.2

theorem invariants_of (hl : Listing P.anns) : P.invariants = true := by
  obtain ⟨c1, c2, c3⟩ := cols h
  have sp : P.ps.Pairwise (· ≤ ·) := by
    rw [← c1, List.pairwise_map]
    exact hl.sorted.imp fun h => by omega
  have sq : P.ends.Pairwise (· ≤ ·) := by
    rw [← c2, List.pairwise_map]
    exact hl.sorted.imp fun h => by omega
  simp only [Posting.invariants, Bool.and_eq_true, Bool.or_eq_true, beq_iff_eq, decide_eq_true_eq, List.all_eq_true]
  obtain ⟨o1, o2⟩ := h
  refine ⟨⟨⟨⟨?_, ?_⟩, sp⟩, ?_⟩, ?_⟩
  · rcases o1 with o | o
    · left; rw [o]; rfl
    · right; exact o
  · rcases o2 with o | o
    · left; rw [o]; rfl
    · right; exact o
  · unfold Posting.ends at sq
    split at sq
    · rename_i h0; rw [h0]; simp
    · exact sq
  · by_cases hq : P.qs = []
    · left; rw [hq]; rfl
    · right
      have he : P.ends = P.qs := by unfold Posting.ends; rw [if_neg hq]
      rw [he] at c2
      rw [← c1, ← c2]
      intro x hx
      rw [List.zip_map] at hx
      obtain ⟨⟨a, b⟩, hab, rfl⟩ := List.mem_map.1 hx
      have : a = b := by
        have : ∀ (L : List Ann) (y : Ann × Ann), y ∈ L.zip L → y.1 = y.2 := by
          intro L
          induction L with
          | nil => intro y hy; simp at hy
          | cons c L ih =>
            intro y hy
            rw [List.zip_cons_cons] at hy
            rcases List.mem_cons.1 hy with rfl | hy
            · rfl
            · exact ih y hy
        exact this _ _ hab
      subst this
      have := hl.bounds a (List.of_mem_zip hab).1
      exact this.2.1

theorem storable_of {pc fc : Codec} (hst : Stores pc fc) (hf : In64 P.feature) (hc : P.anns.length ≤ 1000000000000000)
    (h64 : ∀ a ∈ P.anns, In64 a.p ∧ In64 a.q ∧ In64 a.v) (hl : Listing P.anns) (h0 : ∀ a ∈ P.anns, 0 ≤ a.p) :
    Storable pc fc P := by
  refine hst P (columns_of h hf hc h64) (invariants_of h hl) ?_
  intro x hx
  rw [← (cols h).1] at hx
  obtain ⟨a, ha, rfl⟩ := List.mem_map.1 hx
  exact h0 a ha

theorem anns_in64 (hc : Columns P) : ∀ a ∈ P.anns, In64 a.p ∧ In64 a.q ∧ In64 a.v := by
  obtain ⟨c1, c2, c3⟩ := cols h
  intro a ha
  have h1 : a.p ∈ P.ps := by rw [← c1]; exact List.mem_map.2 ⟨a, ha, rfl⟩
  have h2 : a.q ∈ P.ends := by rw [← c2]; exact List.mem_map.2 ⟨a, ha, rfl⟩
  have h3 : a.v ∈ P.vals := by rw [← c3]; exact List.mem_map.2 ⟨a, ha, rfl⟩
  refine ⟨hc.ps64 _ h1, ?_, ?_⟩
  · unfold Posting.ends at h2
    split at h2
    · exact hc.ps64 _ h2
    · exact hc.qs64 _ h2
  · unfold Posting.vals at h3
    split at h3
    · rw [List.eq_of_mem_replicate h3]; unfold In64; omega
    · exact hc.fs64 _ h3

end

theorem listing_nodup {l : List Ann} (h : Listing l) : l.Nodup := by
  refine List.Pairwise.imp ?_ h.sorted
  rintro a b hab rfl
  omega

theorem plus0_of {a : Ann} (h : a.v ≠ minfinity) : plus0 a = a := by
  unfold plus0 isZero
  cases a with
  | mk p q v =>
    simp only at h
    by_cases hv : v = 0
    · subst hv; simp
    · simp [hv, h]

theorem of_plus0 {a : Ann} (h : plus0 a = a) : a.v ≠ minfinity := by
  intro hv
  have := congrArg Ann.v h
  simp only [plus0, isZero, hv] at this
  simp at this

/-! ### what a posting read again looks like -/

theorem inline_pushed {f : Int} {L : List Ann} {p : Int} (h : inlineAt (L.foldl Posting.push { feature := f }) = some p) :
    L.foldl Posting.push { feature := f } = ({ feature := f } : Posting).push ⟨p, p, 0⟩ := by
  have hsz : ∀ (L : List Ann) (P : Posting), (L.foldl Posting.push P).size = P.size + L.length := by
    intro L
    induction L with
    | nil => intro P; rfl
    | cons a L ih => intro P; rw [List.foldl_cons, ih]; simp [Posting.push, Posting.size]; omega
  have h1 : L.length = 1 := by
    unfold inlineAt at h
    split at h
    · rename_i h0; rw [hsz] at h0; simpa [Posting.size] using h0
    · cases h
  match L, h1 with
  | [a], _ =>
    simp only [List.foldl_cons, List.foldl_nil] at h ⊢
    obtain ⟨p', q, v⟩ := a
    by_cases hpq : p' < q
    · exfalso
      by_cases hv : isZero v = true
      · simp [inlineAt, Posting.push, Posting.size, Posting.get, hpq, hv] at h; omega
      · simp [inlineAt, Posting.push, Posting.size, Posting.get, hpq, hv] at h
    · by_cases hv : isZero v = true
      · have h0 : isZero 0 = true := rfl
        simp [inlineAt, Posting.push, Posting.size, Posting.get, hpq, hv, h0] at h
        subst h
        simp [Posting.push, hpq, hv, h0]
      · exfalso
        simp [inlineAt, Posting.push, Posting.size, Posting.get, hpq, hv] at h

theorem reread_reread (P : Posting) : reread (reread P) = reread P := by
  cases h : inlineAt P with
  | none => unfold reread; simp [h]
  | some p =>
    have : reread P = [(⟨p, p, 0⟩ : Ann)].foldl Posting.push { feature := P.feature } := by simp [reread, h]
    rw [this]
    have h2 : inlineAt ([(⟨p, p, 0⟩ : Ann)].foldl Posting.push { feature := P.feature }) = some p := by
      simp [inlineAt, Posting.push, Posting.size, Posting.get, isZero]
    unfold reread
    rw [h2]
    simp [Posting.push]

theorem reread_pushed (f : Int) (L : List Ann) :
    reread (L.foldl Posting.push { feature := f }) = L.foldl Posting.push { feature := f } := by
  unfold reread
  split
  · rename_i p hp
    rw [pushAll_feature, inline_pushed hp]
  · rfl

theorem reread_merged {Ps : List Posting} {R : Posting} (h : mergePostings Ps = some R) (hP : ∀ P ∈ Ps, reread P = P) :
    reread R = R := by
  unfold mergePostings at h
  split at h
  · cases h
  · cases h; exact hP _ (by simp)
  · rename_i P _ _
    split at h
    · cases h
      have : ∀ (Qs : List Posting) (L : List Ann), Qs.foldl (fun acc Q => Q.anns.foldl Posting.push acc)
          (L.foldl Posting.push { feature := P.feature }) = (L ++ Qs.flatMap Posting.anns).foldl Posting.push { feature := P.feature } := by
        intro Qs
        induction Qs with
        | nil => intro L; simp
        | cons Q Qs ih => intro L; rw [List.foldl_cons, ← List.foldl_append, ih]; simp
      have := this (P :: by assumption) []
      simp only [List.foldl_nil, List.nil_append] at this
      rw [this]
      exact reread_pushed _ _
    · cases h
      rw [keepRising_eq]
      exact reread_pushed _ _

/-- the erasures are read back as they were merged -/
theorem checkpoint_reread {pc fc : Codec} {Q : Posting} (hs : Storable pc fc Q) (hr : reread Q = Q) {z : List UInt8} {e : Entry}
    (hp : put pc fc headerLen Q.feature Q = some (z, e)) (rest : List UInt8) :
    checkpointPosting pc fc (z ++ rest) e = some Q := by
  unfold put at hp
  cases hi : inlineAt Q with
  | some p =>
    rw [hi] at hp
    cases hp
    unfold checkpointPosting
    rw [if_pos rfl]
    conv => rhs; rw [← hr]
    simp [reread, hi]
  | none =>
    rw [hi] at hp
    simp only [Option.bind_eq_bind, Option.bind_eq_some_iff] at hp
    obtain ⟨w, hw, hp⟩ := hp
    obtain ⟨rfl, rfl⟩ : w = z ∧ (⟨Q.feature, headerLen + w.length, Q.size⟩ : Entry) = e := by simpa using hp
    have h40 := write_nonempty hw
    obtain ⟨b, hb, _, hread, _⟩ := write_read hs
    rw [hw] at hb
    cases hb
    unfold checkpointPosting
    rw [if_neg (by simp only; omega), if_neg (by simp only; omega), if_neg (by simp only [List.length_append]; omega)]
    have e1 : (w ++ rest).take ((headerLen + (w.length : Int) - headerLen).toNat) = w := by
      rw [List.take_left' (by omega)]
    have e2 := hread []
    rw [List.append_nil] at e2
    simp only [e1]
    split
    · rename_i D hD
      have : D = Q := Option.some.inj (hD.symm.trans e2)
      subst this
      rw [if_neg (by simp)]
    · rename_i hD
      rw [e2] at hD
      cases hD

end Verif.Hazel
