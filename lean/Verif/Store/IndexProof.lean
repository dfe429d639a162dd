import Verif.Store.IndexModel
import Verif.Store.MergeProof
import Verif.Hopper.Contain
import Verif.Hopper.Enum
import Verif.Gcl.Proof
/-
  The index of a transaction, the index over several shards, and merging shards.
-/
namespace Verif.Store
open Verif.Hopper Verif.Gcl

/-! ### unions of lists of lists -/

/-- same interval -/
def same (a b : Ann) : Prop := a.p = b.p ∧ a.q = b.q

/-- the union of several lists, oldest first -/
def unionL (Ls : List (List Ann)) : GC := unionOf fun i : Fin Ls.length => ofList Ls[i]

/-- in one of the lists, its interval in no later one -/
def newest : List (List Ann) → Ann → Prop
  | [], _ => False
  | L :: Ls, r => newest Ls r ∨ (r ∈ L ∧ ∀ L' ∈ Ls, ∀ a ∈ L', ¬ same a r)

/-- contains no other interval of the lists -/
def least (Ls : List (List Ann)) (r : Ann) : Prop := ∀ L ∈ Ls, ∀ a ∈ L, inside a r → same a r

theorem newest_iff : ∀ (Ls : List (List Ann)) (r : Ann), newest Ls r ↔
    ∃ i : Fin Ls.length, r ∈ Ls[i] ∧ ∀ (j : Fin Ls.length) a, i < j → a ∈ Ls[j] → ¬ same a r := by
  intro Ls
  induction Ls with
  | nil => intro r; simp [newest]
  | cons L Ls ih =>
    intro r
    rw [newest, ih]
    constructor
    · rintro (⟨⟨i, hlt⟩, hi, hj⟩ | ⟨hr, hn⟩)
      · refine ⟨⟨i + 1, by simp only [List.length_cons]; omega⟩, by simpa using hi, ?_⟩
        rintro ⟨j, hj'⟩ a hij ha
        rw [Fin.lt_def] at hij
        cases j with
        | zero => simp at hij
        | succ j =>
          simp only [List.length_cons] at hj'
          exact hj ⟨j, by omega⟩ a (by rw [Fin.lt_def]; simp only at hij ⊢; omega) (by simpa using ha)
      · refine ⟨⟨0, by simp⟩, by simpa using hr, ?_⟩
        rintro ⟨j, hj'⟩ a hij ha
        rw [Fin.lt_def] at hij
        cases j with
        | zero => simp at hij
        | succ j => exact hn _ (List.getElem_mem _) a (by simpa using ha)
    · rintro ⟨⟨i, hlt⟩, hi, hj⟩
      cases i with
      | zero =>
        right
        refine ⟨by simpa using hi, ?_⟩
        intro L' hL' a ha
        obtain ⟨j, hj', rfl⟩ := List.getElem_of_mem hL'
        exact hj ⟨j + 1, by simp only [List.length_cons]; omega⟩ a (by simp [Fin.lt_def]) (by simpa using ha)
      | succ i =>
        left
        simp only [List.length_cons] at hlt
        refine ⟨⟨i, by omega⟩, by simpa using hi, ?_⟩
        rintro ⟨j, hj'⟩ a hij ha
        rw [Fin.lt_def] at hij
        exact hj ⟨j + 1, by simp only [List.length_cons]; omega⟩ a (by simp [Fin.lt_def] at hij ⊢; omega)
          (by simpa using ha)

theorem unionL_iff (Ls : List (List Ann)) (r : Ann) : unionL Ls r ↔ newest Ls r ∧ least Ls r := by
  rw [newest_iff]
  unfold unionL unionOf least same ofList
  constructor
  · rintro ⟨h1, h2⟩
    refine ⟨h1, ?_⟩
    intro L hL a ha
    obtain ⟨j, hj, rfl⟩ := List.getElem_of_mem hL
    exact h2 ⟨j, hj⟩ a ha
  · rintro ⟨h1, h2⟩
    exact ⟨h1, fun j a ha => h2 _ (List.getElem_mem _) a ha⟩

theorem newest_append (A B : List (List Ann)) (r : Ann) : newest (A ++ B) r ↔
    newest B r ∨ (newest A r ∧ ∀ L ∈ B, ∀ a ∈ L, ¬ same a r) := by
  induction A with
  | nil => simp [newest]
  | cons L A ih =>
    simp only [List.cons_append, newest, ih, List.forall_mem_append]
    constructor
    · rintro ((h | ⟨h1, h2⟩) | ⟨h, h1, h2⟩)
      · exact Or.inl h
      · exact Or.inr ⟨Or.inl h1, h2⟩
      · exact Or.inr ⟨Or.inr ⟨h, h1⟩, h2⟩
    · rintro (h | ⟨h1 | ⟨h, h1⟩, h2⟩)
      · exact Or.inl (Or.inl h)
      · exact Or.inl (Or.inr ⟨h1, h2⟩)
      · exact Or.inr ⟨h, h1, h2⟩

theorem newest_mem : ∀ {Ls : List (List Ann)} {r : Ann}, newest Ls r → ∃ L ∈ Ls, r ∈ L := by
  intro Ls
  induction Ls with
  | nil => intro r h; exact h.elim
  | cons L Ls ih =>
    rintro r (h | h)
    · obtain ⟨L', h1, h2⟩ := ih h; exact ⟨L', by simp [h1], h2⟩
    · exact ⟨L, by simp, h.1⟩

theorem newest_filter (Ls : List (List Ann)) (r : Ann) :
    newest (Ls.filter fun L => L ≠ []) r ↔ newest Ls r := by
  induction Ls with
  | nil => rfl
  | cons L Ls ih =>
    rw [List.filter_cons]
    by_cases h : L = []
    · subst h; rw [if_neg (by simp), ih]; simp [newest]
    · rw [if_pos (by simpa using h), newest, newest, ih]
      have : (∀ L' ∈ Ls.filter (fun L => L ≠ []), ∀ a ∈ L', ¬ same a r) ↔
          ∀ L' ∈ Ls, ∀ a ∈ L', ¬ same a r := by
        constructor
        · intro h L' hL' a ha
          exact h L' (List.mem_filter.2 ⟨hL', by simpa using List.ne_nil_of_mem ha⟩) a ha
        · intro h L' hL'; exact h L' (List.mem_filter.1 hL').1
      rw [this]

/-- empty lists do not matter -/
theorem unionL_filter (Ls : List (List Ann)) (r : Ann) :
    unionL (Ls.filter fun L => L ≠ []) r ↔ unionL Ls r := by
  rw [unionL_iff, unionL_iff, newest_filter]
  have : least (Ls.filter fun L => L ≠ []) r ↔ least Ls r := by
    constructor
    · intro h L hL a ha
      exact h L (List.mem_filter.2 ⟨hL, by simpa using List.ne_nil_of_mem ha⟩) a ha
    · intro h L hL; exact h L (List.mem_filter.1 hL).1
  rw [this]

theorem unionL_wf {Ls : List (List Ann)} (h : ∀ L ∈ Ls, Listing L) : Wf (unionL Ls) :=
  unionOf_wf fun _ => (h _ (List.getElem_mem _)).wf

/-- every interval of the lists contains one of the union -/
theorem unionL_cover {Ls : List (List Ann)} (h : ∀ L ∈ Ls, Listing L) {L : List Ann} (hL : L ∈ Ls)
    {a : Ann} (ha : a ∈ L) : ∃ m, unionL Ls m ∧ inside m a := by
  obtain ⟨i, hi, rfl⟩ := List.getElem_of_mem hL
  have hw := anyX_wf (S := fun i : Fin Ls.length => ofList Ls[i]) fun i => (h _ (List.getElem_mem _)).wf
  obtain ⟨b, hb, h1, h2⟩ := exists_minimal hw (p := a.p) (q := a.q) ⟨⟨i, hi⟩, a, ha, rfl, rfl⟩
  obtain ⟨y, hy, e1, e2⟩ := union_of_minimal hb
  exact ⟨y, hy, by omega, by omega⟩

theorem unionL_mem {Ls : List (List Ann)} {a : Ann} (h : unionL Ls a) : ∃ L ∈ Ls, a ∈ L :=
  newest_mem ((unionL_iff _ _).1 h).1

theorem unionL_single {L : List Ann} (h : Listing L) (a : Ann) : unionL [L] a ↔ a ∈ L := by
  rw [unionL_iff]
  constructor
  · rintro ⟨h1, _⟩
    obtain ⟨L', h2, h3⟩ := newest_mem h1
    rw [List.mem_singleton] at h2; subst h2; exact h3
  · intro ha
    refine ⟨Or.inr ⟨ha, by simp⟩, ?_⟩
    intro L' hL' b hb hin
    rw [List.mem_singleton] at hL'; subst hL'
    have hin : a.p ≤ b.p ∧ b.q ≤ a.q := hin
    have := h.wf.p_lt_iff (a := a) (b := b) ha hb
    have := h.wf.p_lt_iff (a := b) (b := a) hb ha
    unfold same; omega

/-- replacing adjacent lists by their union, less erased intervals, when an interval that
contains an erased one is erased itself -/
theorem unionL_group {A G B : List (List Ann)} {M : List Ann} {X Y : Ann → Prop}
    (hG : ∀ L ∈ G, Listing L) (hM : ∀ a, a ∈ M ↔ unionL G a ∧ ¬ X a)
    (hX : ∀ L ∈ A ++ G ++ B, ∀ r ∈ L, ∀ L' ∈ G, ∀ s ∈ L', inside s r → X s → Y r)
    (hXY : ∀ a, X a → Y a) (r : Ann) (hr : ¬ Y r) :
    unionL (A ++ G ++ B) r ↔ unionL (A ++ [M] ++ B) r := by
  have hMG : ∀ a ∈ M, ∃ L ∈ G, a ∈ L := fun a ha => unionL_mem ((hM a).1 ha).1
  have hMmem : ∀ {L'}, L' ∈ A ++ [M] ++ B → ∀ {a}, a ∈ L' → ∃ L ∈ A ++ G ++ B, a ∈ L := by
    intro L' hL' a ha
    simp only [List.mem_append, List.mem_singleton] at hL'
    rcases hL' with (h | rfl) | h
    · exact ⟨L', by simp [h], ha⟩
    · obtain ⟨L, h1, h2⟩ := hMG a ha; exact ⟨L, by simp [h1], h2⟩
    · exact ⟨L', by simp [h], ha⟩
  rw [unionL_iff, unionL_iff]
  constructor
  · rintro ⟨h1, h2⟩
    have hl : least (A ++ [M] ++ B) r := by
      intro L hL a ha hin
      obtain ⟨L', h3, h4⟩ := hMmem hL ha
      exact h2 L' h3 a h4 hin
    refine ⟨?_, hl⟩
    rw [newest_append, newest_append] at h1 ⊢
    rcases h1 with h | ⟨h | ⟨h, hn⟩, hn'⟩
    · exact Or.inl h
    · refine Or.inr ⟨Or.inl ?_, hn'⟩
      have : r ∈ M := (hM r).2 ⟨(unionL_iff _ _).2 ⟨h, fun L hL => h2 L (by simp [hL])⟩, fun h => hr (hXY r h)⟩
      exact Or.inr ⟨this, by simp⟩
    · refine Or.inr ⟨Or.inr ⟨h, ?_⟩, hn'⟩
      intro L hL a ha
      rw [List.mem_singleton] at hL; subst hL
      obtain ⟨L', h3, h4⟩ := hMG a ha
      exact hn L' h3 a h4
  · rintro ⟨h1, h2⟩
    -- r is one of the annotations
    obtain ⟨L0, hL0, hr0⟩ : ∃ L ∈ A ++ G ++ B, r ∈ L := by
      obtain ⟨L, h3, h4⟩ := newest_mem h1
      exact hMmem h3 h4
    have key : ∀ L ∈ G, ∀ g ∈ L, inside g r → ∃ m ∈ M, inside m g := by
      intro L hL g hg hin
      obtain ⟨m, hm, hmg⟩ := unionL_cover hG hL hg
      refine ⟨m, (hM m).2 ⟨hm, fun hx => ?_⟩, hmg⟩
      obtain ⟨L', h3, h4⟩ := unionL_mem hm
      refine hr (hX L0 hL0 r hr0 L' h3 m h4 ?_ hx)
      have hin : r.p ≤ g.p ∧ g.q ≤ r.q := hin
      have hmg : g.p ≤ m.p ∧ m.q ≤ g.q := hmg
      exact ⟨by omega, by omega⟩
    have hl : least (A ++ G ++ B) r := by
      intro L hL a ha hin
      simp only [List.mem_append] at hL
      rcases hL with (h | h) | h
      · exact h2 L (by simp [h]) a ha hin
      · obtain ⟨m, hm, hma⟩ := key L h a ha hin
        have hin : r.p ≤ a.p ∧ a.q ≤ r.q := hin
        have hma : a.p ≤ m.p ∧ m.q ≤ a.q := hma
        have := h2 M (by simp) m hm ⟨by omega, by omega⟩
        unfold same at *; omega
      · exact h2 L (by simp [h]) a ha hin
    refine ⟨?_, hl⟩
    rw [newest_append, newest_append] at h1 ⊢
    rcases h1 with h | ⟨h | ⟨h, hn⟩, hn'⟩
    · exact Or.inl h
    · refine Or.inr ⟨Or.inl ?_, hn'⟩
      have hrM : r ∈ M := by
        rcases h with h | h
        · exact h.elim
        · exact h.1
      exact ((unionL_iff _ _).1 ((hM r).1 hrM).1).1
    · refine Or.inr ⟨Or.inr ⟨h, ?_⟩, hn'⟩
      intro L hL a ha hs
      obtain ⟨m, hm, hma⟩ := key L hL a ha (by unfold same at hs; unfold inside; omega)
      refine hn M (by simp) m hm ?_
      have hma : a.p ≤ m.p ∧ m.q ≤ a.q := hma
      have := h2 M (by simp) m hm (by unfold same at hs; unfold inside; omega)
      exact this

/-! ### lookups -/

/-- the annotations of a feature in a shard -/
def annsOf (ix : Index) (f : Int) : List Ann :=
  match ix f with
  | none => []
  | some P => P.anns

/-- a shard's index in good order: postings well formed and not empty, under their own
feature; values not `-0.0` -/
structure GoodIx (ix : Index) : Prop where
  ok : ∀ f P, ix f = some P → P.Ok
  listing : ∀ f P, ix f = some P → Listing P.anns
  nonempty : ∀ f P, ix f = some P → P.anns ≠ []
  zero : ∀ f P, ix f = some P → ∀ a ∈ P.anns, plus0 a = a
  feature : ∀ f P, ix f = some P → P.feature = f

theorem GoodIx.annsOf_listing {ix : Index} (h : GoodIx ix) (f : Int) : Listing (annsOf ix f) := by
  unfold annsOf
  cases hf : ix f with
  | none => exact listing_nil
  | some P => exact h.listing f P hf

/-- the annotations of a feature over several shards -/
def solutionsRaw (ixs : List Index) (f : Int) : GC := unionL (ixs.map fun ix => annsOf ix f)

/-- … less those inside an erased range -/
def solutions (ixs : List Index) (f : Int) : GC :=
  if f = nullFeature then solutionsRaw ixs f
  else notContainedIn (solutionsRaw ixs f) (solutionsRaw ixs nullFeature)

theorem solutionsRaw_wf {ixs : List Index} (h : ∀ ix ∈ ixs, GoodIx ix) (f : Int) :
    Wf (solutionsRaw ixs f) := by
  apply unionL_wf
  intro L hL
  obtain ⟨ix, hix, rfl⟩ := List.mem_map.1 hL
  exact (h ix hix).annsOf_listing f

theorem count_pos {ix : Index} (h : GoodIx ix) (f : Int) : count ix f > 0 ↔ annsOf ix f ≠ [] := by
  unfold count annsOf
  cases hf : ix f with
  | none => simp
  | some P =>
    simp only
    rw [← anns_length (h.ok f P hf)]
    exact List.length_pos_iff

theorem fiver_impl {ix : Index} (h : GoodIx ix) (f : Int) :
    Implements (fiverObj ix f) (ofList (annsOf ix f)) := by
  unfold fiverObj annsOf
  cases hf : ix f with
  | none => exact ⟨_, list_impl listing_nil⟩
  | some P =>
    have ok := h.ok f P hf
    simp only
    by_cases h1 : P.size = 1
    · rw [if_pos h1]
      have hl := anns_length ok
      rw [h1] at hl
      match ha : P.anns, hl with
      | [a], _ =>
        have : P.get 0 = some a := by rw [get_eq ok, ← anns_eq ok, ha]; rfl
        rw [this]
        have hL := h.listing f P hf
        rw [ha] at hL
        exact ⟨_, list_impl hL⟩
    · rw [if_neg h1]
      exact ⟨_, array_impl (h.listing f P hf) (h.nonempty f P hf) (arrays_hold ok)⟩

/-- hoppers implement equal sets alike -/
theorem Implements.congr {H : Obj} {S T : GC} (h : Implements H S) (e : ∀ a, S a ↔ T a) :
    Implements H T := by
  have : S = T := funext fun a => propext (e a)
  rwa [← this]

theorem views_eq {Ps : List Posting} (hz : ∀ P ∈ Ps, ∀ a ∈ P.anns, plus0 a = a) (a : Ann) :
    unionOf (views Ps) a ↔ unionL (Ps.map Posting.anns) a := by
  have hv : ∀ P ∈ Ps, P.view = P.anns := by
    intro P hP
    unfold Posting.view
    conv => rhs; rw [← List.map_id P.anns]
    exact List.map_congr_left fun a ha => hz P hP a ha
  unfold unionL views unionOf
  constructor
  · rintro ⟨⟨i, hi, hj⟩, hm⟩
    refine ⟨⟨⟨i, by simp⟩, ?_, ?_⟩, ?_⟩
    · simpa [hv] using hi
    · rintro ⟨j, hj'⟩ b hij hb
      exact hj ⟨j, by simpa using hj'⟩ b hij (by simpa [hv] using hb)
    · rintro ⟨j, hj'⟩ b hb
      exact hm ⟨j, by simpa using hj'⟩ b (by simpa [hv] using hb)
  · rintro ⟨⟨⟨i, hi'⟩, hi, hj⟩, hm⟩
    refine ⟨⟨⟨i, by simpa using hi'⟩, ?_, ?_⟩, ?_⟩
    · simpa [hv] using hi
    · rintro ⟨j, hj'⟩ b hij hb
      exact hj ⟨j, by simpa using hj'⟩ b hij (by simpa [hv] using hb)
    · rintro ⟨j, hj'⟩ b hb
      exact hm ⟨j, by simpa using hj'⟩ b (by simpa [hv] using hb)

/-- the postings of a feature over shards -/
abbrev postingsOf (ixs : List Index) (f : Int) : List Posting := ixs.filterMap fun ix => ix f

theorem mem_postingsOf {ixs : List Index} {f : Int} {P : Posting} :
    P ∈ postingsOf ixs f ↔ ∃ ix ∈ ixs, ix f = some P := by
  simp [postingsOf, List.mem_filterMap]

theorem postings_anns {ixs : List Index} (h : ∀ ix ∈ ixs, GoodIx ix) (f : Int) :
    (postingsOf ixs f).map Posting.anns =
      (ixs.map fun ix => annsOf ix f).filter fun L => L ≠ [] := by
  induction ixs with
  | nil => rfl
  | cons ix ixs ih =>
    have ih := ih fun ix hix => h ix (by simp [hix])
    unfold postingsOf at *
    rw [List.filterMap_cons, List.map_cons, List.filter_cons]
    unfold annsOf at *
    cases hf : ix f with
    | none => simpa using ih
    | some P =>
      have := (h ix (by simp)).nonempty f P hf
      simp only [List.map_cons]
      rw [if_pos (by simpa using this), ih]

/-- merging the postings of a feature over shards gives the union -/
theorem merge_feature_ok {ixs : List Index} (h : ∀ ix ∈ ixs, GoodIx ix) (f : Int)
    (hne : postingsOf ixs f ≠ []) :
    ∃ R, mergePostings (postingsOf ixs f) = some R ∧ R.Ok ∧ Listing R.anns ∧ R.anns ≠ [] ∧
      R.feature = f ∧ (∀ a ∈ R.anns, plus0 a = a) ∧ ∀ a, a ∈ R.anns ↔ solutionsRaw ixs f a := by
  have good : ∀ P ∈ postingsOf ixs f, ∃ ix ∈ ixs, ix f = some P := fun P hP => mem_postingsOf.1 hP
  have hz : ∀ P ∈ postingsOf ixs f, ∀ a ∈ P.anns, plus0 a = a := by
    intro P hP; obtain ⟨ix, h1, h2⟩ := good P hP; exact (h ix h1).zero f P h2
  have hl : ∀ P ∈ postingsOf ixs f, Listing P.anns := by
    intro P hP; obtain ⟨ix, h1, h2⟩ := good P hP; exact (h ix h1).listing f P h2
  have hn : ∀ P ∈ postingsOf ixs f, P.anns ≠ [] := by
    intro P hP; obtain ⟨ix, h1, h2⟩ := good P hP; exact (h ix h1).nonempty f P h2
  obtain ⟨R, r1, r2, r3, r4, r5, r6, r7⟩ := mergePostings_ok hne
    (fun P hP => by obtain ⟨ix, h1, h2⟩ := good P hP; exact (h ix h1).ok f P h2) hl hn
  have rz := r6 hz
  have hv : R.view = R.anns := by
    unfold Posting.view
    conv => rhs; rw [← List.map_id R.anns]
    exact List.map_congr_left fun a ha => rz a ha
  have hm : ∀ a, a ∈ R.anns ↔ unionL ((postingsOf ixs f).map Posting.anns) a := by
    intro a
    rw [← hv, r7, views_eq hz]
  refine ⟨R, r1, r2, r4, ?_, ?_, rz, ?_⟩
  · match hP : postingsOf ixs f, hne with
    | P :: Ps, _ =>
      have hP' : P ∈ postingsOf ixs f := by rw [hP]; simp
      match hA : P.anns, hn P hP' with
      | a :: _, _ =>
        obtain ⟨m, hm', _⟩ := unionL_cover (Ls := (postingsOf ixs f).map Posting.anns) (by
          intro L hL
          obtain ⟨Q, hQ, rfl⟩ := List.mem_map.1 hL
          exact hl Q hQ) (List.mem_map.2 ⟨P, hP', rfl⟩) (a := a) (by rw [hA]; simp)
        exact List.ne_nil_of_mem ((hm m).2 hm')
  · match hP : postingsOf ixs f, hne with
    | P :: Ps, _ =>
      have hP' : P ∈ postingsOf ixs f := by rw [hP]; simp
      obtain ⟨ix, h1, h2⟩ := good P hP'
      rw [r5 P (by rw [hP]; rfl)]
      exact (h ix h1).feature f P h2
  · intro a
    rw [hm, postings_anns h, unionL_filter]; rfl

theorem contributors_lists {ixs : List Index} (h : ∀ ix ∈ ixs, GoodIx ix) (f : Int) :
    (contributors ixs f).map (fun ix => annsOf ix f) =
      (ixs.map fun ix => annsOf ix f).filter fun L => L ≠ [] := by
  unfold contributors
  induction ixs with
  | nil => rfl
  | cons ix ixs ih =>
    have ih := ih fun ix hix => h ix (by simp [hix])
    rw [List.filter_cons, List.map_cons, List.filter_cons]
    have c := count_pos (h ix (by simp)) f
    by_cases hc : annsOf ix f = []
    · rw [if_neg (by simpa [c] using hc), if_neg (by simpa using hc)]; exact ih
    · rw [if_pos (by simpa [c] using hc), if_pos (by simpa using hc), List.map_cons, ih]

theorem raw_impl {ixs : List Index} (h : ∀ ix ∈ ixs, GoodIx ix) (f : Int) :
    Implements (rawObj ixs f) (solutionsRaw ixs f) := by
  have hc := contributors_lists h f
  have hg : ∀ ix ∈ contributors ixs f, GoodIx ix := fun ix hix => h ix (List.mem_filter.1 hix).1
  have hp : ∀ ix ∈ contributors ixs f, annsOf ix f ≠ [] := fun ix hix =>
    (count_pos (hg ix hix) f).1 (by simpa using (List.mem_filter.1 hix).2)
  have e : ∀ a, unionL ((contributors ixs f).map fun ix => annsOf ix f) a ↔ solutionsRaw ixs f a := by
    intro a; rw [hc, unionL_filter]; rfl
  unfold rawObj
  match hcs : contributors ixs f with
  | [] =>
    simp only
    refine Implements.congr ⟨_, list_impl listing_nil⟩ (fun a => ?_)
    rw [← e, hcs]
    simp [ofList, unionL_iff, newest]
  | [ix] =>
    simp only
    have hix := hg ix (by rw [hcs]; simp)
    refine Implements.congr (fiver_impl hix f) (fun a => ?_)
    rw [← e, hcs]
    exact (unionL_single (hix.annsOf_listing f) a).symm
  | ix :: ix' :: cs =>
    simp only
    rw [hcs] at hg hp e
    have hne : postingsOf (ix :: ix' :: cs) f ≠ [] := by
      have := hp ix (by simp)
      unfold annsOf at this
      cases hf : ix f with
      | none => rw [hf] at this; simp at this
      | some P => exact List.ne_nil_of_mem (mem_postingsOf.2 ⟨ix, by simp, hf⟩)
    obtain ⟨R, r1, r2, r3, r4, r5, r6, r7⟩ := merge_feature_ok hg f hne
    unfold fillPosting
    rw [r1]
    simp only [Option.map_some]
    have ha : ((({ feature := f } : Posting).append R)).anns = R.anns := by
      rw [append_anns (empty_ok f) r2, empty_anns]; rfl
    have hok := append_ok (empty_ok f) r2
    have := array_impl (a := (({ feature := f } : Posting).append R).arrays) r3 r4 (by
      rw [← ha]; exact arrays_hold hok)
    refine Implements.congr ⟨_, this⟩ (fun a => ?_)
    rw [← e]
    exact r7 a

theorem not_erasing {ixs : List Index} (h : ∀ ix ∈ ixs, GoodIx ix) (he : erasing ixs = false) (a : Ann) :
    ¬ solutionsRaw ixs nullFeature a := by
  intro ha
  obtain ⟨L, hL, haL⟩ := unionL_mem ha
  obtain ⟨ix, hix, rfl⟩ := List.mem_map.1 hL
  have := (count_pos (h ix hix) nullFeature).2 (List.ne_nil_of_mem haL)
  unfold erasing at he
  rw [List.any_eq_false] at he
  have := he ix hix
  simp only [bne_iff_ne, ne_eq] at this
  omega

theorem bigwig_impl {ixs : List Index} (h : ∀ ix ∈ ixs, GoodIx ix) (f : Int) :
    Implements (bigwigObj ixs f) (solutions ixs f) := by
  unfold bigwigObj solutions
  by_cases hf : f = nullFeature
  · subst hf; simpa using raw_impl h nullFeature
  · rw [if_neg hf]
    by_cases he : erasing ixs
    · simp only [he, Bool.true_and, bne_iff_ne, ne_eq, hf, not_false_eq_true, if_true]
      obtain ⟨I, hI⟩ := raw_impl h f
      obtain ⟨J, hJ⟩ := raw_impl h nullFeature
      exact ⟨_, nci_impl (solutionsRaw_wf h f) (solutionsRaw_wf h nullFeature) hI hJ⟩
    · have he' : erasing ixs = false := by simpa using he
      simp only [he', Bool.false_and, Bool.false_eq_true, if_false]
      refine Implements.congr (raw_impl h f) (fun a => ?_)
      constructor
      · intro ha; exact ⟨ha, fun ⟨b, hb, _⟩ => not_erasing h he' b hb⟩
      · intro ha; exact ha.1

theorem solutions_wf {ixs : List Index} (h : ∀ ix ∈ ixs, GoodIx ix) (f : Int) : Wf (solutions ixs f) := by
  unfold solutions
  by_cases hf : f = nullFeature
  · rw [if_pos hf]; exact solutionsRaw_wf h f
  · rw [if_neg hf]; exact notContainedIn_wf _ (solutionsRaw_wf h f)

end Verif.Store
