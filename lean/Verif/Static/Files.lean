import Verif.Static.Spec
import Verif.Store.BuildProof

/-!
# Files of postings: writing, reading and merging
-/

namespace Verif.Static
open Verif.Hopper Verif.Store Verif.Gcl

/-- A posting in good order, of at most `N` annotations. -/
structure GoodP (N : Nat) (P : Posting) : Prop where
  ok : P.Ok
  listing : Listing P.anns
  nonempty : P.anns ≠ []
  zero : ∀ a ∈ P.anns, plus0 a = a
  start : ∀ a ∈ P.anns, 0 ≤ a.p
  value : ∀ a ∈ P.anns, In64 a.v
  feature : In64 P.feature
  size : P.size ≤ N

theorem GoodP.mono {N M : Nat} {P : Posting} (h : GoodP N P) (hm : N ≤ M) : GoodP M P :=
  ⟨h.ok, h.listing, h.nonempty, h.zero, h.start, h.value, h.feature, Nat.le_trans h.size hm⟩

theorem cols {P : Posting} (h : P.Ok) : P.anns.map (·.p) = P.ps ∧ P.anns.map (·.q) = P.ends ∧
    P.anns.map (·.v) = P.vals := by
  rw [anns_eq h]; exact zip3_cols (ends_length h) (vals_length h)

theorem GoodP.storable {N : Nat} {pc fc : Codec} {P : Posting} (hc : Codecs N pc fc) (h : GoodP N P) :
    Storable pc fc P := by
  obtain ⟨c1, c2, c3⟩ := cols h.ok
  have bp : ∀ a ∈ P.ps, 0 ≤ a ∧ a ≤ 9223372036854775807 := by
    intro a ha
    rw [← c1] at ha
    obtain ⟨x, hx, rfl⟩ := List.mem_map.1 ha
    have := h.listing.bounds x hx
    have := h.start x hx
    constructor <;> omega
  have sp : P.ps.Pairwise (· ≤ ·) := by
    rw [← c1, List.pairwise_map]
    exact h.listing.sorted.imp fun h => by omega
  have be : ∀ a ∈ P.ends, 0 ≤ a ∧ a ≤ 9223372036854775807 := by
    intro a ha
    rw [← c2] at ha
    obtain ⟨x, hx, rfl⟩ := List.mem_map.1 ha
    have := h.listing.bounds x hx
    have := h.start x hx
    constructor <;> omega
  have se : P.ends.Pairwise (· ≤ ·) := by
    rw [← c2, List.pairwise_map]
    exact h.listing.sorted.imp fun h => by omega
  have hq : P.qs = [] ∨ P.qs = P.ends := by
    unfold Posting.ends; by_cases hq : P.qs = [] <;> simp [hq]
  have hv : P.fs = [] ∨ P.fs = P.vals := by
    unfold Posting.vals; by_cases hq : P.fs = [] <;> simp [hq]
  have bv : ∀ a ∈ P.vals, In64 a := by
    intro a ha
    rw [← c3] at ha
    obtain ⟨x, hx, rfl⟩ := List.mem_map.1 ha
    exact h.value x hx
  have hs := h.size
  have hsm := hc.small
  unfold Posting.size at hs
  have bq : ∀ a ∈ P.qs, 0 ≤ a ∧ a ≤ 9223372036854775807 := by
    rcases hq with hq | hq
    · rw [hq]; simp
    · rw [hq]; exact be
  have bf : ∀ a ∈ P.fs, In64 a := by
    rcases hv with hv | hv
    · rw [hv]; simp
    · rw [hv]; exact bv
  refine ⟨h.ok, h.feature, by omega, ?_, ?_, bf, hc.pc _ hs bp sp, ?_, ?_⟩
  · intro a ha; have := bp a ha; constructor <;> omega
  · intro a ha; have := bq a ha; constructor <;> omega
  · apply hc.pc _ _ bq
    · rcases hq with hq | hq
      · rw [hq]; exact List.Pairwise.nil
      · rw [hq]; exact se
    · rcases hq with hq | hq
      · rw [hq]; simp
      · rw [hq, ends_length h.ok]; exact hs
  · apply hc.fc _ _ bf
    rcases hv with hv | hv
    · rw [hv]; simp
    · rw [hv, vals_length h.ok]; exact hs

/-- Every stored posting starts with its header. -/
theorem write_header {pc fc : Codec} {P : Posting} {b : List UInt8} (h : P.write pc fc = some b) :
    ∃ x y z rest, b = addrsBytes [P.feature, P.size, x, y, z] ++ rest := by
  unfold Posting.write at h
  simp only at h
  by_cases hn : P.ps.length = 0
  · rw [if_pos hn] at h
    cases h
    refine ⟨0, 0, 0, [], ?_⟩
    unfold Posting.size
    rw [hn, List.append_nil]; rfl
  · rw [if_neg hn] at h
    simp only [Option.bind_eq_bind, Option.bind_eq_some_iff] at h
    obtain ⟨pz, _, qz, _, fz, _, h⟩ := h
    cases h
    exact ⟨pz.length, qz.length, fz.length, pz ++ qz ++ fz, by simp [Posting.size]⟩

theorem write_length {pc fc : Codec} {P : Posting} {b : List UInt8} (h : P.write pc fc = some b) :
    40 ≤ b.length := by
  obtain ⟨x, y, z, rest, rfl⟩ := write_header h
  rw [List.length_append, addrsBytes_length]; simp

/-! ## Files -/

/-- The bytes of postings written one after the other. -/
inductive Written (pc fc : Codec) : List Posting → List UInt8 → Prop
  | nil : Written pc fc [] []
  | cons {P b Ps r} : P.write pc fc = some b → Written pc fc Ps r → Written pc fc (P :: Ps) (b ++ r)

/-- Sorted by feature, no feature twice. -/
def Sorted (Ps : List Posting) : Prop := Ps.Pairwise fun P Q => P.feature < Q.feature

/-- A file being merged holds these postings still. -/
def Has (pc fc : Codec) (s : Src) (Ps : List Posting) : Prop :=
  s.cur = Ps.head? ∧ Written pc fc Ps.tail s.rest

section
variable {N : Nat} {pc fc : Codec} (hc : Codecs N pc fc)
include hc

theorem next_ok {Ps : List Posting} {r : List UInt8} (h : Written pc fc Ps r) (g : ∀ P ∈ Ps, GoodP N P) :
    ∃ s, Src.next pc fc r = some s ∧ Has pc fc s Ps := by
  unfold Src.next
  cases h with
  | nil => exact ⟨_, rfl, rfl, .nil⟩
  | @cons P b Ps r hw hr =>
    obtain ⟨b', h1, h2, _, _⟩ := write_read ((g P (by simp)).storable hc)
    rw [hw] at h1; cases h1
    have := write_length hw
    rw [if_neg (by rw [List.length_append]; omega), h2]
    exact ⟨_, rfl, rfl, hr⟩

/-- … for all files. -/
inductive HasAll (pc fc : Codec) : List Src → List (List Posting) → Prop
  | nil : HasAll pc fc [] []
  | cons {s Ps ss Ls} : Has pc fc s Ps → HasAll pc fc ss Ls → HasAll pc fc (s :: ss) (Ps :: Ls)

/-- Files and the postings in them. -/
inductive WrittenAll (pc fc : Codec) : List (List UInt8) → List (List Posting) → Prop
  | nil : WrittenAll pc fc [] []
  | cons {b Ps bs Ls} : Written pc fc Ps b → WrittenAll pc fc bs Ls → WrittenAll pc fc (b :: bs) (Ps :: Ls)

theorem openAll_ok : ∀ {fs : List (List UInt8)} {Ls : List (List Posting)}, WrittenAll pc fc fs Ls →
    (∀ L ∈ Ls, ∀ P ∈ L, GoodP N P) → ∃ srcs, openAll pc fc fs = some srcs ∧ HasAll pc fc srcs Ls := by
  intro fs Ls h
  induction h with
  | nil => intro _; exact ⟨[], rfl, .nil⟩
  | @cons b Ps bs Ls hw _ ih =>
    intro g
    obtain ⟨s, h1, h2⟩ := next_ok hc hw (g Ps (by simp))
    obtain ⟨ss, h3, h4⟩ := ih fun L hL => g L (by simp [hL])
    exact ⟨s :: ss, by rw [openAll, h1]; simp [h3], .cons h2 h4⟩

end

/-! ## The smallest feature -/

theorem smaller_ok (acc : Option Int) (P : Posting) : ∃ f0, smaller acc (some P) = some f0 ∧
    (acc = some f0 ∨ P.feature = f0) ∧ f0 ≤ P.feature ∧ ∀ g, acc = some g → f0 ≤ g := by
  cases acc with
  | none => exact ⟨_, rfl, Or.inr rfl, Int.le_refl _, by simp⟩
  | some g =>
    by_cases hlt : P.feature < g
    · exact ⟨P.feature, by simp [smaller, hlt], Or.inr rfl, Int.le_refl _, by intro g' hg'; cases hg'; omega⟩
    · exact ⟨g, by simp [smaller, hlt], Or.inl rfl, by omega, by intro g' hg'; cases hg'; omega⟩

theorem smallest_fold : ∀ (srcs : List Src) (acc : Option Int),
    (srcs.foldl (fun acc s => smaller acc s.cur) acc = none ↔ acc = none ∧ ∀ s ∈ srcs, s.cur = none) ∧
    ∀ f, srcs.foldl (fun acc s => smaller acc s.cur) acc = some f →
      (acc = some f ∨ ∃ s ∈ srcs, ∃ P, s.cur = some P ∧ P.feature = f) ∧
      (∀ g, acc = some g → f ≤ g) ∧ ∀ s ∈ srcs, ∀ P, s.cur = some P → f ≤ P.feature := by
  intro srcs
  induction srcs with
  | nil =>
    intro acc
    refine ⟨by simp, ?_⟩
    intro f hf
    refine ⟨Or.inl hf, fun g hg => ?_, by simp⟩
    rw [List.foldl_nil] at hf
    rw [hf] at hg; cases hg; exact Int.le_refl _
  | cons s srcs ih =>
    intro acc
    simp only [List.foldl_cons]
    cases hs : s.cur with
    | none =>
      have hm : smaller acc none = acc := by cases acc <;> rfl
      rw [hm]
      obtain ⟨i1, i2⟩ := ih acc
      refine ⟨i1.trans (by simp [hs]), ?_⟩
      intro f hf
      obtain ⟨j1, j2, j3⟩ := i2 f hf
      refine ⟨?_, j2, ?_⟩
      · rcases j1 with j1 | ⟨s', h1, h2⟩
        · exact Or.inl j1
        · exact Or.inr ⟨s', by simp [h1], h2⟩
      · intro s' hs' P hP
        rcases List.mem_cons.1 hs' with rfl | hs'
        · rw [hs] at hP; cases hP
        · exact j3 s' hs' P hP
    | some P =>
      obtain ⟨f0, hm, h0, h1, h2⟩ := smaller_ok acc P
      rw [hm]
      obtain ⟨i1, i2⟩ := ih (some f0)
      refine ⟨by rw [i1]; simp [hs], ?_⟩
      intro f hf
      obtain ⟨j1, j2, j3⟩ := i2 f hf
      have hle := j2 f0 rfl
      refine ⟨?_, ?_, ?_⟩
      · rcases j1 with j1 | ⟨s', g1, g2⟩
        · cases j1
          rcases h0 with h0 | h0
          · exact Or.inl h0
          · exact Or.inr ⟨s, by simp, P, hs, h0⟩
        · exact Or.inr ⟨s', by simp [g1], g2⟩
      · intro g hg; have := h2 g hg; omega
      · intro s' hs' Q hQ
        rcases List.mem_cons.1 hs' with rfl | hs'
        · rw [hs] at hQ; cases hQ; omega
        · exact j3 s' hs' Q hQ

theorem smallest_ok (srcs : List Src) : (smallest srcs = none ↔ ∀ s ∈ srcs, s.cur = none) ∧
    ∀ f, smallest srcs = some f → (∃ s ∈ srcs, ∃ P, s.cur = some P ∧ P.feature = f) ∧
      ∀ s ∈ srcs, ∀ P, s.cur = some P → f ≤ P.feature := by
  obtain ⟨h1, h2⟩ := smallest_fold srcs none
  refine ⟨by unfold smallest; rw [h1]; simp, ?_⟩
  intro f hf
  obtain ⟨j1, _, j3⟩ := h2 f hf
  refine ⟨?_, j3⟩
  rcases j1 with j1 | j1
  · cases j1
  · exact j1

/-! ## One turn of the merge -/

/-- The postings of a feature in several files. -/
def ofF (f : Int) (Ls : List (List Posting)) : List Posting := Ls.flatten.filter fun P => P.feature == f

/-- The files without the postings of a feature. -/
def without (f : Int) (Ls : List (List Posting)) : List (List Posting) :=
  Ls.map fun L => L.filter fun P => P.feature != f

theorem ofF_cons (f : Int) (L : List Posting) (Ls : List (List Posting)) :
    ofF f (L :: Ls) = L.filter (fun P => P.feature == f) ++ ofF f Ls := by
  simp [ofF]

theorem ofF_without (f g : Int) (Ls : List (List Posting)) :
    ofF g (without f Ls) = if g = f then [] else ofF g Ls := by
  induction Ls with
  | nil => simp [ofF, without]
  | cons L Ls ih =>
    have : without f (L :: Ls) = (L.filter fun P => P.feature != f) :: without f Ls := rfl
    rw [this, ofF_cons, ih, ofF_cons, List.filter_filter]
    by_cases hg : g = f
    · subst hg
      rw [if_pos rfl, if_pos rfl, List.append_nil, List.filter_eq_nil_iff]
      intro P _; simp
    · rw [if_neg hg, if_neg hg]
      congr 1
      apply List.filter_congr
      intro P _
      by_cases hP : P.feature = g
      · simp [hP, hg]
      · simp [hP]

theorem without_flatten (f : Int) (Ls : List (List Posting)) :
    (without f Ls).flatten = Ls.flatten.filter fun P => P.feature != f := by
  induction Ls with
  | nil => rfl
  | cons L Ls ih =>
    have : without f (L :: Ls) = (L.filter fun P => P.feature != f) :: without f Ls := rfl
    rw [this, List.flatten_cons, List.flatten_cons, List.filter_append, ih]

theorem split_length (f : Int) (l : List Posting) :
    (l.filter fun P => P.feature == f).length + (l.filter fun P => P.feature != f).length = l.length := by
  induction l with
  | nil => rfl
  | cons x l ih =>
    by_cases h : x.feature = f <;> simp [List.filter_cons, h] <;> omega

/-- In a sorted file a feature not above the first can only be the first. -/
theorem filter_head {L : List Posting} (hs : Sorted L) {f : Int} (hf : ∀ P ∈ L.head?, f ≤ P.feature) :
    L.filter (fun P => P.feature == f) = L.head?.toList.filter (fun P => P.feature == f) ∧
    L.filter (fun P => P.feature != f) =
      (if L.head?.any (fun P => P.feature == f) then L.tail else L) ∧ ∀ P ∈ L, f ≤ P.feature := by
  cases L with
  | nil => simp
  | cons P L =>
    obtain ⟨s1, s2⟩ := List.pairwise_cons.1 hs
    have hP : f ≤ P.feature := hf P (by simp)
    have hne : ∀ Q ∈ L, Q.feature ≠ f := fun Q hQ => by have := s1 Q hQ; omega
    have e1 : L.filter (fun P => P.feature == f) = [] := by
      rw [List.filter_eq_nil_iff]; intro Q hQ; simpa using hne Q hQ
    have e2 : L.filter (fun P => P.feature != f) = L := by
      rw [List.filter_eq_self]; intro Q hQ; simpa using hne Q hQ
    refine ⟨?_, ?_, ?_⟩
    · rw [List.filter_cons, e1]; simp [List.filter_cons]
    · rw [List.filter_cons, e2]
      by_cases h : P.feature = f <;> simp [h]
    · intro Q hQ
      rcases List.mem_cons.1 hQ with rfl | hQ
      · exact hP
      · have := s1 Q hQ; omega

section
variable {N : Nat} {pc fc : Codec} (hc : Codecs N pc fc)

theorem withFeature_ok {f : Int} : ∀ {srcs : List Src} {Ls : List (List Posting)}, HasAll pc fc srcs Ls →
    (∀ L ∈ Ls, Sorted L) → (∀ s ∈ srcs, ∀ P, s.cur = some P → f ≤ P.feature) →
    withFeature f srcs = ofF f Ls ∧ ∀ L ∈ Ls, ∀ P ∈ L, f ≤ P.feature := by
  intro srcs Ls h
  induction h with
  | nil => intro _ _; exact ⟨rfl, by simp⟩
  | @cons s Ps ss Ls hh _ ih =>
    intro hs hf
    obtain ⟨i1, i2⟩ := ih (fun L hL => hs L (by simp [hL])) (fun s' h' => hf s' (by simp [h']))
    obtain ⟨j1, _, j3⟩ := filter_head (L := Ps) (hs Ps (by simp)) (f := f)
      (fun P hP => hf s (by simp) P (hh.1.trans hP))
    refine ⟨?_, ?_⟩
    · rw [ofF_cons, j1, ← i1]
      unfold withFeature
      rw [List.filterMap_cons, hh.1]
      cases Ps.head? with
      | none => rfl
      | some P => by_cases h : P.feature = f <;> simp [List.filter_cons, h]
    · intro L hL
      rcases List.mem_cons.1 hL with rfl | hL
      · exact j3
      · exact i2 L hL

include hc in
theorem advance_ok {f : Int} : ∀ {srcs : List Src} {Ls : List (List Posting)}, HasAll pc fc srcs Ls →
    (∀ L ∈ Ls, Sorted L) → (∀ L ∈ Ls, ∀ P ∈ L, GoodP N P) →
    (∀ s ∈ srcs, ∀ P, s.cur = some P → f ≤ P.feature) →
    ∃ srcs', advance pc fc f srcs = some srcs' ∧ HasAll pc fc srcs' (without f Ls) := by
  intro srcs Ls h
  induction h with
  | nil => intro _ _ _; exact ⟨[], rfl, .nil⟩
  | @cons s Ps ss Ls hh _ ih =>
    intro hs g hf
    obtain ⟨ss', i1, i2⟩ := ih (fun L hL => hs L (by simp [hL])) (fun L hL => g L (by simp [hL]))
      (fun s' h' => hf s' (by simp [h']))
    obtain ⟨_, j2, _⟩ := filter_head (L := Ps) (hs Ps (by simp)) (f := f)
      (fun P hP => hf s (by simp) P (hh.1.trans hP))
    have hw : without f (Ps :: Ls) = (Ps.filter fun P => P.feature != f) :: without f Ls := rfl
    rw [advance, hw, j2]
    by_cases hh' : s.cur.any (fun P => P.feature == f) = true
    · have hh2 := hh'
      rw [hh.1] at hh2
      obtain ⟨s', n1, n2⟩ := next_ok hc hh.2 (fun P hP => g Ps (by simp) P (List.mem_of_mem_tail hP))
      simp only [hh', if_true, n1, hh2, i1]
      exact ⟨_, rfl, .cons n2 i2⟩
    · have hh2 := hh'
      rw [hh.1] at hh2
      simp only [hh', hh2, i1]
      exact ⟨_, rfl, .cons hh i2⟩

end

/-! ## The merge -/

/-- The two files after writing postings, the file `pst` being `base` bytes long before. -/
inductive Filed (pc fc : Codec) : Nat → List Posting → List UInt8 → List UInt8 → Prop
  | nil {base} : Filed pc fc base [] [] []
  | cons {base P b Ps i r} : P.write pc fc = some b → Filed pc fc (base + b.length) Ps i r →
      Filed pc fc base (P :: Ps) (record P.feature ((base + b.length : Nat) : Int) ++ i) (b ++ r)

theorem Filed.written {pc fc : Codec} : ∀ {base Ps i r}, Filed pc fc base Ps i r → Written pc fc Ps r := by
  intro base Ps i r h
  induction h with
  | nil => exact .nil
  | cons hw _ ih => exact .cons hw ih

/-- The outcome of a merge for one feature. -/
def Outcome (combine : Int → List Posting → Option Posting) (Ls : List (List Posting)) (Rs : List Posting)
    (f : Int) : Prop :=
  (ofF f Ls = [] → Rs.filter (fun P => P.feature == f) = []) ∧
  (ofF f Ls ≠ [] → ∃ R, combine f (ofF f Ls) = some R ∧ Rs.filter (fun P => P.feature == f) = [R])

section
variable {N : Nat} {pc fc : Codec} (hc : Codecs N pc fc)
include hc

theorem mergeLoop_ok {combine : Int → List Posting → Option Posting} : ∀ (n : Nat) {srcs : List Src}
    {Ls : List (List Posting)} (out : Files), HasAll pc fc srcs Ls → (∀ L ∈ Ls, Sorted L) →
    (∀ L ∈ Ls, ∀ P ∈ L, GoodP N P) → Ls.flatten.length < n →
    (∀ f, ofF f Ls ≠ [] → ∃ R, combine f (ofF f Ls) = some R ∧ GoodP N R ∧ R.feature = f) →
    ∃ Rs i r, mergeLoop pc fc combine n srcs out = some { idx := out.idx ++ i, pst := out.pst ++ r } ∧
      Filed pc fc out.pst.length Rs i r ∧ Sorted Rs ∧ (∀ R ∈ Rs, GoodP N R) ∧
      (∀ R ∈ Rs, ofF R.feature Ls ≠ []) ∧ ∀ f, Outcome combine Ls Rs f := by
  intro n
  induction n with
  | zero => intro srcs Ls out _ _ _ h; exact absurd h (Nat.not_lt_zero _)
  | succ n ih =>
    intro srcs Ls out hh hs hg hn hcomb
    rw [mergeLoop]
    obtain ⟨s1, s2⟩ := smallest_ok srcs
    cases hf : smallest srcs with
    | none =>
      have hnil : ∀ {srcs : List Src} {Ls : List (List Posting)}, HasAll pc fc srcs Ls →
          (∀ s ∈ srcs, s.cur = none) → Ls.flatten = [] := by
        intro srcs Ls h
        induction h with
        | nil => intro _; rfl
        | @cons s Ps ss Ls h1 _ ih =>
          intro h2
          have : Ps = [] := by
            have := h2 s (by simp)
            rw [h1.1] at this
            simpa using this
          rw [this, List.flatten_cons, ih fun s hs => h2 s (by simp [hs])]; rfl
      have he : ∀ f, ofF f Ls = [] := by
        intro f; unfold ofF; rw [hnil hh (s1.1 hf)]; rfl
      refine ⟨[], [], [], by simp, .nil, List.Pairwise.nil, by simp, by simp, ?_⟩
      intro f
      exact ⟨fun _ => rfl, fun h => absurd (he f) h⟩
    | some f =>
      simp only
      obtain ⟨⟨s, hsm, P, hP, hPf⟩, hle⟩ := s2 f hf
      obtain ⟨w1, w2⟩ := withFeature_ok hh hs hle
      have hne : ofF f Ls ≠ [] := by
        rw [← w1]
        apply List.ne_nil_of_mem (a := P)
        unfold withFeature
        rw [List.mem_filter, List.mem_filterMap]
        exact ⟨⟨s, hsm, hP⟩, by simp [hPf]⟩
      obtain ⟨R, c1, c2, c3⟩ := hcomb f hne
      obtain ⟨b, b1, _⟩ := write_read (c2.storable hc)
      obtain ⟨srcs', a1, a2⟩ := advance_ok hc hh hs hg hle
      rw [w1, c1]
      simp only [b1, a1]
      have hsw : ∀ L ∈ without f Ls, Sorted L := by
        intro L hL
        obtain ⟨L', hL', rfl⟩ := List.mem_map.1 hL
        exact (hs L' hL').filter _
      have hgw : ∀ L ∈ without f Ls, ∀ P ∈ L, GoodP N P := by
        intro L hL P hP
        obtain ⟨L', hL', rfl⟩ := List.mem_map.1 hL
        exact hg L' hL' P (List.mem_filter.1 hP).1
      have hlt : (without f Ls).flatten.length < n := by
        have e := without_flatten f Ls
        have h2 : 0 < (Ls.flatten.filter fun P => P.feature == f).length := by
          rw [List.length_pos_iff]; exact hne
        have h3 : (Ls.flatten.filter fun P => P.feature == f).length +
            (Ls.flatten.filter fun P => P.feature != f).length = Ls.flatten.length := split_length f _
        rw [e]; omega
      obtain ⟨Rs, i, r, m1, m2, m3, m4, m5, m6⟩ := ih
        { idx := out.idx ++ record f (out.pst ++ b).length, pst := out.pst ++ b } a2 hsw hgw hlt (by
          intro g hgn
          rw [ofF_without] at hgn ⊢
          by_cases hgf : g = f
          · rw [if_pos hgf] at hgn; exact absurd rfl hgn
          · rw [if_neg hgf] at hgn ⊢; exact hcomb g hgn)
      have hgt : ∀ Q ∈ Rs, f < Q.feature := by
        intro Q hQ
        have := m5 Q hQ
        rw [ofF_without] at this
        by_cases hq : Q.feature = f
        · rw [if_pos hq] at this; exact absurd rfl this
        · rw [if_neg hq] at this
          obtain ⟨P', hP'⟩ := List.exists_mem_of_ne_nil _ this
          obtain ⟨h1, h2⟩ := List.mem_filter.1 hP'
          obtain ⟨L, hL, h1⟩ := List.mem_flatten.1 h1
          have := w2 L hL P' h1
          have : P'.feature = Q.feature := by simpa using h2
          omega
      refine ⟨R :: Rs, record f ((out.pst.length + b.length : Nat) : Int) ++ i, b ++ r, ?_, ?_, ?_, ?_, ?_, ?_⟩
      · rw [m1]; simp
      · rw [← c3]
        refine .cons b1 ?_
        simpa using m2
      · exact List.pairwise_cons.2 ⟨fun Q hQ => by rw [c3]; exact hgt Q hQ, m3⟩
      · intro Q hQ
        rcases List.mem_cons.1 hQ with rfl | hQ
        · exact c2
        · exact m4 Q hQ
      · intro Q hQ
        rcases List.mem_cons.1 hQ with rfl | hQ
        · rw [c3]; exact hne
        · have := m5 Q hQ
          rw [ofF_without, if_neg (by have := hgt Q hQ; omega)] at this
          exact this
      · intro g
        by_cases hgf : g = f
        · subst hgf
          refine ⟨fun h => absurd h hne, fun _ => ⟨R, c1, ?_⟩⟩
          have : Rs.filter (fun P => P.feature == g) = [] := by
            rw [List.filter_eq_nil_iff]
            intro Q hQ
            have := hgt Q hQ
            simp only [beq_iff_eq]; omega
          rw [List.filter_cons, this]; simp [c3]
        · have := m6 g
          unfold Outcome at this ⊢
          rw [ofF_without, if_neg hgf] at this
          have he : (R :: Rs).filter (fun P => P.feature == g) = Rs.filter (fun P => P.feature == g) := by
            rw [List.filter_cons, if_neg]; simp only [beq_iff_eq]; omega
          rw [he]
          exact this

omit hc in
theorem written_length : ∀ {Ps : List Posting} {r : List UInt8}, Written pc fc Ps r → Ps.length ≤ r.length := by
  intro Ps r h
  induction h with
  | nil => exact Nat.le_refl _
  | cons hw _ ih =>
    have := write_length hw
    rw [List.length_append, List.length_cons]; omega

omit hc in
theorem writtenAll_length : ∀ {fs : List (List UInt8)} {Ls : List (List Posting)}, WrittenAll pc fc fs Ls →
    Ls.flatten.length ≤ (fs.map List.length).sum := by
  intro fs Ls h
  induction h with
  | nil => exact Nat.le_refl _
  | cons hw _ ih =>
    have := written_length hw
    rw [List.flatten_cons, List.length_append, List.map_cons, List.sum_cons]; omega

/-- Merging files of postings combines, feature by feature, the postings of the feature. -/
theorem mergeFiles_ok {combine : Int → List Posting → Option Posting} {fs : List (List UInt8)}
    {Ls : List (List Posting)} (hw : WrittenAll pc fc fs Ls) (hs : ∀ L ∈ Ls, Sorted L)
    (hg : ∀ L ∈ Ls, ∀ P ∈ L, GoodP N P)
    (hcomb : ∀ f, ofF f Ls ≠ [] → ∃ R, combine f (ofF f Ls) = some R ∧ GoodP N R ∧ R.feature = f) :
    ∃ Rs d, mergeFiles pc fc combine fs = some d ∧ Filed pc fc 0 Rs d.idx d.pst ∧ Sorted Rs ∧
      (∀ R ∈ Rs, GoodP N R) ∧ ∀ f, Outcome combine Ls Rs f := by
  unfold mergeFiles
  obtain ⟨srcs, h1, h2⟩ := openAll_ok hc hw hg
  rw [h1]
  have := writtenAll_length hw
  obtain ⟨Rs, i, r, m1, m2, m3, m4, _, m6⟩ := mergeLoop_ok hc ((fs.map List.length).sum + 1) {} h2 hs hg
    (by omega) hcomb
  exact ⟨Rs, _, m1, by simpa using m2, m3, m4, m6⟩

end
end Verif.Static
