import Verif.Props.Txn
import Verif.Props.Store
/-
  What a reader finds, in terms of the committed transactions only (C38): the transaction
  system of Verif/Txn with the indexes of Verif/Store in its shards.
-/
namespace Verif.Props
open Verif.Txn Verif.Store Verif.Hopper Verif.Gcl

/-- what one transaction adds: annotations (feature, interval, value), and how many addresses
of text -/
structure Content where
  added : List (Int × Ann)
  tokens : Nat

/-- the contents of shards: how each was made, see `Holds` for its index -/
abbrev burrowOps : Ops Content (Tree Content) := treeOps Content.tokens (fun t => t.added.isEmpty)

/-- a transaction's annotations at their final addresses -/
def placed (e : Entry Content) : List (Int × Ann) := e.txn.added.map (relocate e.base)

/-- The index of a shard that was made in this way: one transaction's index is built from its
annotations (fiver.cc 669-701); `Fiver::merge` (509-608) makes that of a merged shard; a
shard made static keeps its index; that of an aborted transaction is empty (never shown). -/
inductive Holds : Tree Content → Store.Index → Prop
  | leaf {e : Entry Content} {sorted : List (Int × Ann)} :
      SortedFrom (placed e) sorted → Holds (.leaf e) (indexOf sorted)
  | blank : Holds .blank Index.empty
  | merge {l : List (Tree Content × Store.Index)} {M : Store.Index} : (∀ x ∈ l, Holds x.1 x.2) →
      (∀ f, mergeFeature (l.map (·.2)) f = some (M f)) → Holds (.merge (l.map (·.1))) M
  | convert {t : Tree Content} {ix : Store.Index} : Holds t ix → Holds (.convert t) ix

/-! ### The specification -/

/-- inside some range erased by one of the transactions -/
def Erased (P : List (Entry Content)) (a : Ann) : Prop :=
  ∃ e ∈ P, ∃ x, (nullFeature, x) ∈ placed e ∧ inside a x

/-- of feature `f` and minimal: one of the transactions put it there, none of them put an
interval strictly inside it, and no later one put the same interval -/
def Shows (P : List (Entry Content)) (f : Int) (a : Ann) : Prop :=
  (∃ e ∈ P, (f, a) ∈ placed e ∧ ∀ e' ∈ P, e.seq < e'.seq → ∀ b, (f, b) ∈ placed e' → ¬ same b a) ∧
  ∀ e ∈ P, ∀ b, (f, b) ∈ placed e → inside b a → same b a

/-- What a reader should find for a feature: the minimal ones that are not erased.  (Feature
`0` holds the erased ranges themselves.) -/
def Visible (P : List (Entry Content)) (f : Int) (a : Ann) : Prop :=
  Shows P f a ∧ (f ≠ nullFeature → ¬ Erased P a)

/-- The transactions are tidy: each is orderly; no erased range lies strictly inside another;
and no erased annotation lies inside one of the same feature that is not erased. -/
structure Tidy (P : List (Entry Content)) : Prop where
  orderly : ∀ e ∈ P, Orderly e.base e.txn.added
  apart : ∀ e ∈ P, ∀ x, (nullFeature, x) ∈ placed e → ∀ e' ∈ P, ∀ y, (nullFeature, y) ∈ placed e' →
    inside x y → same x y
  cover : ∀ f, ∀ e ∈ P, ∀ s, (f, s) ∈ placed e → ∀ e' ∈ P, ∀ r, (f, r) ∈ placed e' → inside s r →
    Erased P s → Erased P r

/-! ### Proof -/

theorem Tidy.sub {P Q : List (Entry Content)} (h : Tidy Q) (hs : ∀ e ∈ P, e ∈ Q)
    (hc : ∀ f, ∀ e ∈ P, ∀ s, (f, s) ∈ placed e → ∀ e' ∈ P, ∀ r, (f, r) ∈ placed e' → inside s r →
      Erased P s → Erased P r) : Tidy P :=
  ⟨fun e he => h.orderly e (hs e he), fun e he x hx e' he' y hy => h.apart e (hs e he) x hx e' (hs e' he') y hy, hc⟩

theorem mem_atFinal {e : Entry Content} {f : Int} {a : Ann} :
    a ∈ atFinal e.base e.txn.added f ↔ (f, a) ∈ placed e := by
  unfold atFinal ofFeature placed
  rw [List.mem_map]
  constructor
  · rintro ⟨⟨g, b⟩, hx, rfl⟩
    rw [List.mem_filter] at hx
    have : g = f := by simpa using hx.2
    subst this
    exact hx.1
  · intro h
    exact ⟨(f, a), List.mem_filter.2 ⟨h, by simp⟩, rfl⟩

theorem newest_max {P : List (Entry Content)} {Q : Entry Content → Prop} (h : ∃ e ∈ P, Q e) :
    ∃ e ∈ P, Q e ∧ ∀ e' ∈ P, e.seq < e'.seq → ¬ Q e' := by
  induction P with
  | nil => obtain ⟨e, he, _⟩ := h; cases he
  | cons x P ih =>
    by_cases hP : ∃ e ∈ P, Q e
    · obtain ⟨e, he, hq, hn⟩ := ih hP
      by_cases hx : e.seq < x.seq ∧ Q x
      · refine ⟨x, by simp, hx.2, fun e' he' hlt => ?_⟩
        rcases List.mem_cons.1 he' with rfl | he'
        · omega
        · exact hn e' he' (by omega)
      · refine ⟨e, by simp [he], hq, fun e' he' hlt hq' => ?_⟩
        rcases List.mem_cons.1 he' with rfl | he'
        · exact hx ⟨hlt, hq'⟩
        · exact hn e' he' hlt hq'
    · obtain ⟨e, he, hq⟩ := h
      rcases List.mem_cons.1 he with rfl | he
      · refine ⟨e, by simp, hq, fun e' he' hlt hq' => ?_⟩
        rcases List.mem_cons.1 he' with rfl | he'
        · omega
        · exact hP ⟨e', he', hq'⟩
      · exact absurd ⟨e, he, hq⟩ hP

/-- below everything put there is something that shows -/
theorem shows_below {P : List (Entry Content)} (hv : ∀ e ∈ P, ∀ f a, (f, a) ∈ placed e → a.p ≤ a.q) {f : Int} :
    ∀ (n : Nat) (b : Ann), (∃ e ∈ P, (f, b) ∈ placed e) → b.q - b.p < n → ∃ a, Shows P f a ∧ inside a b := by
  intro n
  induction n with
  | zero => rintro b ⟨e, he, hb⟩ hn; have := hv e he f b hb; omega
  | succ n ih =>
    rintro b ⟨e, he, hb⟩ hn
    by_cases hx : ∃ e ∈ P, ∃ c, (f, c) ∈ placed e ∧ inside c b ∧ ¬ same c b
    · obtain ⟨e', he', c, hc, hin, hne⟩ := hx
      obtain ⟨a, ha, hab⟩ := ih c ⟨e', he', hc⟩ (by unfold inside same at *; omega)
      exact ⟨a, ha, by unfold inside at *; omega⟩
    · obtain ⟨m, hm, ⟨a, ha, hs⟩, hn⟩ := newest_max (P := P) (Q := fun e => ∃ a, (f, a) ∈ placed e ∧ same a b)
        ⟨e, he, b, hb, rfl, rfl⟩
      refine ⟨a, ⟨⟨m, hm, ha, fun e' he' hlt c hc hsc => hn e' he' hlt ⟨c, hc, ?_⟩⟩, ?_⟩, ?_⟩
      · unfold same at *; omega
      · intro e' he' c hc hin
        have h1 : inside c b := by unfold inside same at *; omega
        have h2 : same c b := Classical.byContradiction fun hn' => hx ⟨e', he', c, hc, h1, hn'⟩
        unfold same at *; omega
      · unfold inside same at *; omega

/-- The shard with the lists `L` of each feature shows what the transactions `P` show, where
`R` is what is really erased. -/
structure Tells (R : Ann → Prop) (P : List (Entry Content)) (ix : Store.Index) : Prop where
  good : GoodIx ix
  from_ : ∀ f, ∀ a ∈ annsOf ix f, ∃ e ∈ P, (f, a) ∈ placed e
  null : ∀ a, a ∈ annsOf ix nullFeature ↔ Shows P nullFeature a
  rest : ∀ f, ∀ a, ¬ R a → (a ∈ annsOf ix f ↔ Shows P f a)

/-- several shards together, for the annotations not in `R` -/
theorem together {R : Ann → Prop} (hR : ∀ a b, same a b → R a → R b) {f : Int}
    (l : List (List (Entry Content) × List Ann))
    (hseq : (l.flatMap (·.1)).Pairwise fun e e' => e.seq < e'.seq)
    (hv : ∀ e ∈ l.flatMap (·.1), ∀ f a, (f, a) ∈ placed e → a.p ≤ a.q)
    (hfrom : ∀ x ∈ l, ∀ a ∈ x.2, ∃ e ∈ x.1, (f, a) ∈ placed e)
    (hin : ∀ x ∈ l, ∀ a, ¬ R a → (a ∈ x.2 ↔ Shows x.1 f a))
    (cov : ∀ e ∈ l.flatMap (·.1), ∀ s, (f, s) ∈ placed e → ∀ e' ∈ l.flatMap (·.1), ∀ r, (f, r) ∈ placed e' →
      inside s r → R s → R r)
    {a : Ann} (ha : ¬ R a) : unionL (l.map (·.2)) a ↔ Shows (l.flatMap (·.1)) f a := by
  have mem : ∀ x ∈ l, ∀ e ∈ x.1, e ∈ l.flatMap (·.1) := fun x hx e he => List.mem_flatMap.2 ⟨x, hx, he⟩
  -- below anything put in one of the parts that lies in `a` is something in its list
  have below : (∃ e ∈ l.flatMap (·.1), (f, a) ∈ placed e) → ∀ x ∈ l, ∀ e ∈ x.1, ∀ b, (f, b) ∈ placed e →
      inside b a → ∃ c ∈ x.2, inside c b := by
    rintro ⟨ea, hea, hfa⟩ x hx e he b hb hba
    obtain ⟨c, hc, hcb⟩ := shows_below (P := x.1) (fun e he => hv e (mem x hx e he)) ((b.q - b.p).toNat + 1) b
      ⟨e, he, hb⟩ (by omega)
    refine ⟨c, (hin x hx c ?_).2 hc, hcb⟩
    obtain ⟨e', he', hce, _⟩ := hc.1
    exact fun hr => ha (cov e' (mem x hx e' he') c hce ea hea a hfa (by unfold inside at *; omega) hr)
  rw [unionL_iff]
  constructor
  · rintro ⟨h1, h2⟩
    have hp : ∃ e ∈ l.flatMap (·.1), (f, a) ∈ placed e := by
      obtain ⟨L, hL, haL⟩ := newest_mem h1
      obtain ⟨x, hx, rfl⟩ := List.mem_map.1 hL
      obtain ⟨e, he, hfa⟩ := hfrom x hx a haL
      exact ⟨e, mem x hx e he, hfa⟩
    have hleast : ∀ e ∈ l.flatMap (·.1), ∀ b, (f, b) ∈ placed e → inside b a → same b a := by
      intro e he b hb hba
      obtain ⟨x, hx, hex⟩ := List.mem_flatMap.1 he
      obtain ⟨c, hc, hcb⟩ := below hp x hx e hex b hb hba
      have := h2 x.2 (List.mem_map.2 ⟨x, hx, rfl⟩) c hc (by unfold inside at *; omega)
      unfold same inside at *; omega
    refine ⟨?_, hleast⟩
    -- the newest
    clear h2
    induction l with
    | nil => exact h1.elim
    | cons x l ih =>
      rw [List.flatMap_cons, List.pairwise_append] at hseq
      simp only [List.map_cons, newest] at h1
      rcases h1 with h1 | ⟨h1, h2⟩
      · have hp' : ∃ e ∈ l.flatMap (·.1), (f, a) ∈ placed e := by
          obtain ⟨L, hL, haL⟩ := newest_mem h1
          obtain ⟨y, hy, rfl⟩ := List.mem_map.1 hL
          obtain ⟨e, he, hfa⟩ := hfrom y (by simp [hy]) a haL
          exact ⟨e, List.mem_flatMap.2 ⟨y, hy, he⟩, hfa⟩
        have up : ∀ e ∈ l.flatMap (·.1), e ∈ (x :: l).flatMap (·.1) := by
          intro e he; rw [List.flatMap_cons]; exact List.mem_append.2 (.inr he)
        obtain ⟨e, he, hfa, hn⟩ := ih hseq.2.1 (fun e he => hv e (up e he)) (fun y hy => hfrom y (by simp [hy]))
          (fun y hy => hin y (by simp [hy])) (fun e he s hs e' he' => cov e (up e he) s hs e' (up e' he'))
          (fun y hy e he => List.mem_flatMap.2 ⟨y, hy, he⟩)
          (fun _ y hy e he b hb hba => below hp y (by simp [hy]) e he b hb hba) h1 hp'
          (fun e he => hleast e (up e he))
        refine ⟨e, up e he, hfa, fun e' he' hlt b hb => ?_⟩
        rw [List.flatMap_cons] at he'
        rcases List.mem_append.1 he' with he' | he'
        · have := hseq.2.2 e' he' e he; omega
        · exact hn e' he' hlt b hb
      · obtain ⟨⟨e, he, hfa, hn⟩, _⟩ := (hin x (by simp) a ha).1 h1
        refine ⟨e, by rw [List.flatMap_cons]; exact List.mem_append.2 (.inl he), hfa, fun e' he' hlt b hb hs => ?_⟩
        rw [List.flatMap_cons] at he'
        rcases List.mem_append.1 he' with he' | he'
        · exact hn e' he' hlt b hb hs
        · obtain ⟨y, hy, hey⟩ := List.mem_flatMap.1 he'
          obtain ⟨c, hc, hcb⟩ := below hp y (by simp [hy]) e' hey b hb (by unfold same inside at *; omega)
          obtain ⟨e2, he2, hfc⟩ := hfrom y (by simp [hy]) c hc
          have : same c a := hleast e2 (List.mem_flatMap.2 ⟨y, by simp [hy], he2⟩) c hfc
            (by unfold same inside at *; omega)
          exact h2 y.2 (List.mem_map.2 ⟨y, hy, rfl⟩) c hc this
  · rintro ⟨⟨e, he, hfa, hn⟩, hl⟩
    have hleast : least (l.map (·.2)) a := by
      intro L hL b hb hba
      obtain ⟨x, hx, rfl⟩ := List.mem_map.1 hL
      obtain ⟨e', he', hfb⟩ := hfrom x hx b hb
      exact hl e' (mem x hx e' he') b hfb hba
    refine ⟨?_, hleast⟩
    clear hleast below
    induction l with
    | nil => simp at he
    | cons x l ih =>
      rw [List.flatMap_cons, List.pairwise_append] at hseq
      have up : ∀ e ∈ l.flatMap (·.1), e ∈ (x :: l).flatMap (·.1) := by
        intro e he; rw [List.flatMap_cons]; exact List.mem_append.2 (.inr he)
      rw [List.flatMap_cons] at he
      simp only [List.map_cons, newest]
      rcases List.mem_append.1 he with he | he
      · right
        refine ⟨(hin x (by simp) a ha).2 ⟨⟨e, he, hfa, ?_⟩, ?_⟩, ?_⟩
        · exact fun e' he' => hn e' (mem x (by simp) e' he')
        · exact fun e' he' => hl e' (mem x (by simp) e' he')
        · intro L hL b hb hs
          obtain ⟨y, hy, rfl⟩ := List.mem_map.1 hL
          obtain ⟨e', he', hfb⟩ := hfrom y (by simp [hy]) b hb
          have hm : e' ∈ l.flatMap (·.1) := List.mem_flatMap.2 ⟨y, hy, he'⟩
          exact hn e' (up e' hm) (hseq.2.2 e he e' hm) b hfb hs
      · left
        exact ih hseq.2.1 (fun e he => hv e (up e he)) (fun y hy => hfrom y (by simp [hy]))
          (fun y hy => hin y (by simp [hy])) (fun e he s hs e' he' => cov e (up e he) s hs e' (up e' he'))
          (fun y hy e he => List.mem_flatMap.2 ⟨y, hy, he⟩) (fun e' he' => hl e' (up e' he')) he
          (fun e' he' => hn e' (up e' he'))

theorem placed_valid {e : Entry Content} (h : Orderly e.base e.txn.added) (f : Int) (a : Ann) (ha : (f, a) ∈ placed e) :
    a.p ≤ a.q := ((h f).2 a (mem_atFinal.2 ha)).2.1

theorem good_none {M : Store.Index} (h : ∀ f, M f = none) : GoodIx M := by
  constructor <;> intro f P hP <;> rw [h] at hP <;> cases hP

theorem tells_none {R : Ann → Prop} {M : Store.Index} (h : ∀ f, M f = none) : Tells R [] M := by
  have ha : ∀ f, annsOf M f = [] := fun f => by unfold annsOf; rw [h]
  have hs : ∀ f a, ¬ Shows [] f a := by rintro f a ⟨⟨e, he, _⟩, _⟩; cases he
  refine ⟨good_none h, ?_, ?_, ?_⟩
  · intro f a h; rw [ha] at h; cases h
  · intro a; simp [ha, hs]
  · intro f a _; simp [ha, hs]

theorem flatMap_map_fst {l : List (Tree Content × Store.Index)} :
    (l.map (·.1)).flatMap Tree.leaves = l.flatMap fun x => x.1.leaves := by
  induction l with
  | nil => rfl
  | cons x l ih => simp [List.flatMap_cons, ih]

theorem holds_tells {P : List (Entry Content)} (ht : Tidy P) {t : Tree Content} {ix : Store.Index} (h : Holds t ix) :
    (∀ e ∈ t.leaves, e ∈ P) → t.leaves.Pairwise (fun e e' => e.seq < e'.seq) →
    Tells (Erased P) t.leaves ix := by
  induction h with
  | @leaf e sorted hs =>
    intro hsub _
    simp only [Tree.leaves] at hsub ⊢
    have ho := ht.orderly e (hsub e (by simp))
    have hg := txn_good ho hs
    have key : ∀ f a, a ∈ annsOf (indexOf sorted) f ↔ Shows [e] f a := by
      intro f a
      obtain ⟨h1, h2⟩ := C12_minimal_partial hs f ((ho f).1.filter _) (fun a ha => ⟨((ho f).2 a ha).1, ((ho f).2 a ha).2.2.1⟩)
      have : a ∈ annsOf (indexOf sorted) f ↔ Minimal (atFinal e.base e.txn.added f) a := by
        constructor
        · intro hx
          obtain ⟨b, hb, hab⟩ := (h2 (plus0 a)).1 (List.mem_map.2 ⟨a, hx, rfl⟩)
          rw [((ho f).2 b hb.1).2.2.2] at hab
          have : plus0 a = a := by
            unfold annsOf at hx
            split at hx
            · cases hx
            · rename_i P hP; exact hg.zero f P hP a hx
          rw [this] at hab; subst hab; exact hb
        · intro hm
          obtain ⟨b, hb, hab⟩ := List.mem_map.1 ((h2 (plus0 a)).2 ⟨a, hm, rfl⟩)
          have : plus0 b = b := by
            have hb' := hb
            unfold annsOf at hb'
            split at hb'
            · cases hb'
            · rename_i P hP; exact hg.zero f P hP b hb'
          rw [this, ((ho f).2 a hm.1).2.2.2] at hab
          subst hab; exact hb
      rw [this]
      unfold Minimal Shows
      simp only [List.mem_singleton, forall_eq, exists_eq_left, mem_atFinal]
      constructor
      · rintro ⟨q1, q2, q3⟩
        exact ⟨⟨q1, fun hlt => by omega⟩, fun b hb => q3 b hb (placed_valid ho f b hb)⟩
      · rintro ⟨⟨q1, _⟩, q3⟩
        exact ⟨q1, placed_valid ho f a q1, fun b hb _ => q3 b hb⟩
    refine ⟨hg, fun f a ha => ?_, fun a => key _ a, fun f a _ => key f a⟩
    obtain ⟨⟨e', he', hfa, _⟩, _⟩ := (key f a).1 ha
    exact ⟨e', he', hfa⟩
  | blank =>
    intro _ _
    exact tells_none fun _ => rfl
  | @merge l M hl hM ih =>
    intro hsub hseq
    by_cases hne : l = []
    · subst hne
      have hM0 : ∀ f, M f = none := by
        intro f
        have := hM f
        simp only [List.map_nil, mergeFeature] at this
        split at this
        · exact (Option.some.inj this).symm
        · exact (Option.some.inj this).symm
      exact tells_none hM0
    simp only [Tree.leaves, Tree.leavesAll_eq, flatMap_map_fst] at hsub hseq ⊢
    have ih' : ∀ x ∈ l, Tells (Erased P) x.1.leaves x.2 := by
      intro x hx
      refine ih x hx (fun e he => hsub e (List.mem_flatMap.2 ⟨x, hx, he⟩)) ?_
      rw [List.pairwise_flatMap] at hseq
      exact hseq.1 x hx
    have hgood : ∀ ix ∈ l.map (·.2), GoodIx ix := by
      intro ix hix
      obtain ⟨x, hx, rfl⟩ := List.mem_map.1 hix
      exact (ih' x hx).good
    obtain ⟨M', g1, g2, g3⟩ := merge_index_ok hgood (by simpa using hne)
    have : M = M' := funext fun f => Option.some.inj ((hM f).symm.trans (g1 f))
    subst this
    have hraw : ∀ f, solutionsRaw (l.map (·.2)) f =
        unionL ((l.map fun x => (x.1.leaves, annsOf x.2 f)).map (·.2)) := by
      intro f; unfold solutionsRaw; rw [List.map_map, List.map_map]; rfl
    have hflat : ∀ f, (l.map fun x => (x.1.leaves, annsOf x.2 f)).flatMap (·.1) = l.flatMap fun x => x.1.leaves := by
      intro f; rw [List.flatMap_map]
    have hv : ∀ e ∈ l.flatMap (fun x => x.1.leaves), ∀ f a, (f, a) ∈ placed e → a.p ≤ a.q :=
      fun e he => placed_valid (ht.orderly e (hsub e he))
    have hT : ∀ (R : Ann → Prop) f, (∀ a b, same a b → R a → R b) →
        (∀ x ∈ l, ∀ a, ¬ R a → (a ∈ annsOf x.2 f ↔ Shows x.1.leaves f a)) →
        (∀ e ∈ l.flatMap (fun x => x.1.leaves), ∀ s, (f, s) ∈ placed e → ∀ e' ∈ l.flatMap (fun x => x.1.leaves), ∀ r,
          (f, r) ∈ placed e' → inside s r → R s → R r) →
        ∀ a, ¬ R a → (solutionsRaw (l.map (·.2)) f a ↔ Shows (l.flatMap fun x => x.1.leaves) f a) := by
      intro R f hR hin cov a ha
      rw [hraw, ← hflat f]
      refine together hR _ (by rw [hflat]; exact hseq) (by rw [hflat]; exact hv) ?_ ?_ (by rw [hflat]; exact cov) ha
      · intro y hy a ha
        obtain ⟨x, hx, rfl⟩ := List.mem_map.1 hy
        exact (ih' x hx).from_ f a ha
      · intro y hy a ha
        obtain ⟨x, hx, rfl⟩ := List.mem_map.1 hy
        exact hin x hx a ha
    have hnull : ∀ a, solutionsRaw (l.map (·.2)) nullFeature a ↔ Shows (l.flatMap fun x => x.1.leaves) nullFeature a := by
      intro a
      exact hT (fun _ => False) nullFeature (fun _ _ _ h => h) (fun x hx a _ => (ih' x hx).null a)
        (fun _ _ _ _ _ _ _ _ _ h => h) a (fun h => h)
    refine ⟨g2, ?_, ?_, ?_⟩
    · intro f a ha
      obtain ⟨L, hL, haL⟩ := unionL_mem ((g3 f a).1 ha).1
      obtain ⟨ix, hix, rfl⟩ := List.mem_map.1 hL
      obtain ⟨x, hx, rfl⟩ := List.mem_map.1 hix
      obtain ⟨e, he, hfa⟩ := (ih' x hx).from_ f a haL
      exact ⟨e, List.mem_flatMap.2 ⟨x, hx, he⟩, hfa⟩
    · intro a
      rw [g3, hnull]
      exact ⟨fun h => h.1, fun h => ⟨h, fun h' => h'.1 rfl⟩⟩
    · intro f a ha
      rw [g3, hT (Erased P) f ?_ (fun x hx a ha => (ih' x hx).rest f a ha) ?_ a ha]
      · refine ⟨fun h => h.1, fun h => ⟨h, ?_⟩⟩
        rintro ⟨_, _, e, he, hin⟩
        obtain ⟨⟨e', he', hx, _⟩, _⟩ := (hnull e).1 he
        exact ha ⟨e', hsub e' he', e, hx, hin⟩
      · rintro a b hab ⟨e, he, x, hx, hin⟩
        exact ⟨e, he, x, hx, by unfold same inside at *; omega⟩
      · intro e he s hs e' he' r hr hin hE
        exact ht.cover f e (hsub e he) s hs e' (hsub e' he') r hr hin hE
  | convert _ ih => simpa only [Tree.leaves] using ih

/-- what the raw solutions of shards are whose trees hold the transactions `P`, in order -/
theorem shards_raw {P : List (Entry Content)} (ht : Tidy P) {l : List (Tree Content × Store.Index)}
    (hl : ∀ x ∈ l, Holds x.1 x.2) (hmem : ∀ e, e ∈ (l.flatMap fun x => x.1.leaves) ↔ e ∈ P)
    (hseq : (l.flatMap fun x => x.1.leaves).Pairwise fun e e' => e.seq < e'.seq) :
    (∀ ix ∈ l.map (·.2), GoodIx ix) ∧
    (∀ a, solutionsRaw (l.map (·.2)) nullFeature a ↔ Shows P nullFeature a) ∧
    (∀ f a, ¬ Erased P a → (solutionsRaw (l.map (·.2)) f a ↔ Shows P f a)) := by
  have ih' : ∀ x ∈ l, Tells (Erased P) x.1.leaves x.2 := by
    intro x hx
    refine holds_tells ht (hl x hx) (fun e he => (hmem e).1 (List.mem_flatMap.2 ⟨x, hx, he⟩)) ?_
    rw [List.pairwise_flatMap] at hseq
    exact hseq.1 x hx
  have hgood : ∀ ix ∈ l.map (·.2), GoodIx ix := by
    intro ix hix
    obtain ⟨x, hx, rfl⟩ := List.mem_map.1 hix
    exact (ih' x hx).good
  have hraw : ∀ f, solutionsRaw (l.map (·.2)) f =
      unionL ((l.map fun x => (x.1.leaves, annsOf x.2 f)).map (·.2)) := by
    intro f; unfold solutionsRaw; rw [List.map_map, List.map_map]; rfl
  have hflat : ∀ f, (l.map fun x => (x.1.leaves, annsOf x.2 f)).flatMap (·.1) = l.flatMap fun x => x.1.leaves := by
    intro f; rw [List.flatMap_map]
  have hv : ∀ e ∈ l.flatMap (fun x => x.1.leaves), ∀ f a, (f, a) ∈ placed e → a.p ≤ a.q :=
    fun e he => placed_valid (ht.orderly e ((hmem e).1 he))
  have shows_congr : ∀ f a, Shows (l.flatMap fun x => x.1.leaves) f a ↔ Shows P f a := by
    intro f a; unfold Shows; simp only [hmem]
  have hT : ∀ (R : Ann → Prop) f, (∀ a b, same a b → R a → R b) →
      (∀ x ∈ l, ∀ a, ¬ R a → (a ∈ annsOf x.2 f ↔ Shows x.1.leaves f a)) →
      (∀ e ∈ P, ∀ s, (f, s) ∈ placed e → ∀ e' ∈ P, ∀ r, (f, r) ∈ placed e' → inside s r → R s → R r) →
      ∀ a, ¬ R a → (solutionsRaw (l.map (·.2)) f a ↔ Shows P f a) := by
    intro R f hR hin cov a ha
    rw [hraw, ← shows_congr, ← hflat f]
    refine together hR _ (by rw [hflat]; exact hseq) (by rw [hflat]; exact hv) ?_ ?_
      (by rw [hflat]; intro e he s hs e' he'; exact cov e ((hmem e).1 he) s hs e' ((hmem e').1 he')) ha
    · intro y hy a ha
      obtain ⟨x, hx, rfl⟩ := List.mem_map.1 hy
      exact (ih' x hx).from_ f a ha
    · intro y hy a ha
      obtain ⟨x, hx, rfl⟩ := List.mem_map.1 hy
      exact hin x hx a ha
  have hnull : ∀ a, solutionsRaw (l.map (·.2)) nullFeature a ↔ Shows P nullFeature a := fun a =>
    hT (fun _ => False) nullFeature (fun _ _ _ h => h) (fun x hx a _ => (ih' x hx).null a)
      (fun _ _ _ _ _ _ _ _ _ h => h) a (fun h => h)
  refine ⟨hgood, hnull, fun f => hT (Erased P) f ?_ (fun x hx a ha => (ih' x hx).rest f a ha) (ht.cover f)⟩
  rintro a b hab ⟨e, he, x, hx, hin⟩
  exact ⟨e, he, x, hx, by unfold same inside at *; omega⟩

/-- with `R0` the erased ranges and `R` the raw solutions of a feature, what is left -/
theorem visible_of_raw {P : List (Entry Content)} (ht : Tidy P) {f : Int} (hf : f ≠ nullFeature) {R0 R : GC}
    (h0 : ∀ a, R0 a ↔ Shows P nullFeature a) (hR : ∀ a, ¬ Erased P a → (R a ↔ Shows P f a)) (a : Ann) :
    notContainedIn R R0 a ↔ Visible P f a := by
  unfold Visible notContainedIn
  have hE : (∃ b, R0 b ∧ inside a b) ↔ Erased P a := by
    constructor
    · rintro ⟨b, hb, hin⟩
      obtain ⟨⟨e, he, hx, _⟩, _⟩ := (h0 b).1 hb
      exact ⟨e, he, b, hx, hin⟩
    · rintro ⟨e, he, x, hx, hin⟩
      obtain ⟨b, hb, hbx⟩ := shows_below (P := P) (fun e he => placed_valid (ht.orderly e he))
        ((x.q - x.p).toNat + 1) x ⟨e, he, hx⟩ (by omega)
      obtain ⟨⟨e', he', hb', _⟩, _⟩ := id hb
      have := ht.apart e' he' b hb' e he x hx hbx
      exact ⟨b, (h0 b).2 hb, by unfold same inside at *; omega⟩
  rw [hE]
  constructor
  · rintro ⟨h1, h2⟩; exact ⟨(hR a h2).1 h1, fun _ => h2⟩
  · rintro ⟨h1, h2⟩; exact ⟨(hR a (h2 hf)).2 h1, h2 hf⟩

/-- shards whose trees hold the transactions `P`, in order, have what is visible of `P` as
the solutions of each feature -/
theorem shards_visible {P : List (Entry Content)} (ht : Tidy P) {l : List (Tree Content × Store.Index)}
    (hl : ∀ x ∈ l, Holds x.1 x.2) (hmem : ∀ e, e ∈ (l.flatMap fun x => x.1.leaves) ↔ e ∈ P)
    (hseq : (l.flatMap fun x => x.1.leaves).Pairwise fun e e' => e.seq < e'.seq) :
    (∀ ix ∈ l.map (·.2), GoodIx ix) ∧
    ∀ f a, Store.solutions (l.map (·.2)) f a ↔ Visible P f a := by
  obtain ⟨h1, h2, h3⟩ := shards_raw ht hl hmem hseq
  refine ⟨h1, fun f a => ?_⟩
  unfold Store.solutions
  by_cases hf : f = nullFeature
  · subst hf
    unfold Visible
    rw [if_pos rfl, h2]
    exact ⟨fun h => ⟨h, fun h' => absurd rfl h'⟩, fun h => h.1⟩
  · rw [if_neg hf]
    exact visible_of_raw ht hf h2 (h3 f) a

theorem annLess_total (x y : Int × Ann) : (!annLess y x || !annLess x y) = true := by
  unfold annLess; simp; omega

theorem annLess_trans (x y z : Int × Ann) (h1 : (!annLess y x) = true) (h2 : (!annLess z y) = true) :
    (!annLess z x) = true := by
  unfold annLess at *; simp at *; omega

theorem sortedFrom_exists (l : List (Int × Ann)) : ∃ sorted, SortedFrom l sorted := by
  refine ⟨l.mergeSort fun x y => !annLess y x, List.mergeSort_perm _ _, ?_⟩
  exact (List.pairwise_mergeSort annLess_trans annLess_total l).imp fun h => by simpa using h

/-- every shard of orderly transactions has an index: neither building nor merging gets stuck -/
theorem holds_exists {P : List (Entry Content)} (ho : ∀ e ∈ P, Orderly e.base e.txn.added) :
    ∀ t : Tree Content, (∀ e ∈ t.leaves, e ∈ P) → ∃ ix, Holds t ix ∧ GoodIx ix
  | .leaf e, h => by
    obtain ⟨sorted, hs⟩ := sortedFrom_exists (placed e)
    exact ⟨_, .leaf hs, txn_good (ho e (h e (by simp [Tree.leaves]))) hs⟩
  | .blank, _ => ⟨_, .blank, good_none fun _ => rfl⟩
  | .convert t, h => by
    obtain ⟨ix, h1, h2⟩ := holds_exists ho t (by simpa only [Tree.leaves] using h)
    exact ⟨ix, .convert h1, h2⟩
  | .merge ts, h => by
    simp only [Tree.leaves, Tree.leavesAll_eq] at h
    have key : ∃ l : List (Tree Content × Store.Index), l.map (·.1) = ts ∧ ∀ x ∈ l, Holds x.1 x.2 ∧ GoodIx x.2 :=
      holds_exists_all ho ts h
    obtain ⟨l, rfl, hl⟩ := key
    by_cases hne : l = []
    · subst hne
      refine ⟨Index.empty, .merge (l := []) (by simp) ?_, good_none fun _ => rfl⟩
      intro f
      simp only [List.map_nil, mergeFeature]
      split <;> rfl
    · obtain ⟨M, g1, g2, _⟩ := merge_index_ok (ixs := l.map (·.2)) (by
        intro ix hix
        obtain ⟨x, hx, rfl⟩ := List.mem_map.1 hix
        exact (hl x hx).2) (by simpa using hne)
      exact ⟨M, .merge (fun x hx => (hl x hx).1) g1, g2⟩
where
  holds_exists_all {P : List (Entry Content)} (ho : ∀ e ∈ P, Orderly e.base e.txn.added) :
      ∀ ts : List (Tree Content), (∀ e ∈ ts.flatMap Tree.leaves, e ∈ P) →
      ∃ l : List (Tree Content × Store.Index), l.map (·.1) = ts ∧ ∀ x ∈ l, Holds x.1 x.2 ∧ GoodIx x.2
    | [], _ => ⟨[], rfl, by simp⟩
    | t :: ts, h => by
      rw [List.flatMap_cons] at h
      obtain ⟨ix, h1, h2⟩ := holds_exists ho t (fun e he => h e (List.mem_append.2 (.inl he)))
      obtain ⟨l, e1, e2⟩ := holds_exists_all ho ts (fun e he => h e (List.mem_append.2 (.inr he)))
      refine ⟨(t, ix) :: l, by simp [e1], ?_⟩
      intro x hx
      rcases List.mem_cons.1 hx with rfl | hx
      · exact ⟨h1, h2⟩
      · exact e2 x hx

/-! ### C38 -/

variable {b b' : Build} {s s' t u u' w : Sys Content (Tree Content)}

/-- **C38** (for tidy transactions; without, erasures and merges interfere: C14_nested_erase,
C15_merge_visible).  A reader starts; then anything happens except that it ends.  Give its shards
their indexes.  If the transactions published at its start are tidy, then the shards do have
indexes (no merge gets stuck), and the solutions of
every feature in the reader's index are exactly what is visible of those transactions: it
does not matter in which shards they are, in which order they were merged, or what has been
committed, aborted or merged since. -/
theorem C38_reader_sees_spec_partial (hs : Session burrowOps b s) (ht : Tidy s.published) {r : Nat}
    (h1 : step burrowOps b s (.rstart r) = some s') (h2 : Live burrowOps b (· ≠ .rend r) s' t) :
    ∃ m v, t.mem = some m ∧ m.readers r = some v ∧
      (∃ index : Nat → Store.Index, ∀ i ∈ v.shards, Holds (m.heap i).body (index i)) ∧
      ∀ index : Nat → Store.Index, (∀ i ∈ v.shards, Holds (m.heap i).body (index i)) →
        (∀ ix ∈ v.shards.map index, GoodIx ix) ∧
        ∀ f a, Store.solutions (v.shards.map index) f a ↔ Visible s.published f a := by
  obtain ⟨m, v, e1, e2, e3, e4⟩ := C17_reader (treeOps_lawful _ _) hs h1 h2
  refine ⟨m, v, e1, e2, ?_, fun index hi => ?_⟩
  · have key : ∀ i, ∃ ix, i ∈ v.shards → Holds (m.heap i).body ix := by
      intro i
      by_cases hi : i ∈ v.shards
      · obtain ⟨ix, h, _⟩ := holds_exists ht.orderly (m.heap i).body fun e he =>
          (e4 e).1 (List.mem_flatMap.2 ⟨i, hi, he⟩)
        exact ⟨ix, fun _ => h⟩
      · exact ⟨Index.empty, fun h => absurd h hi⟩
    exact ⟨fun i => Classical.choose (key i), fun i hi => Classical.choose_spec (key i) hi⟩
  have hm : (v.shards.map fun i => ((m.heap i).body, index i)).map (·.2) = v.shards.map index := by
    rw [List.map_map]; rfl
  have hf : ((v.shards.map fun i => ((m.heap i).body, index i)).flatMap fun x => x.1.leaves) =
      v.shards.flatMap fun i => (m.heap i).body.leaves := by
    rw [List.flatMap_map]
  have := shards_visible ht (l := v.shards.map fun i => ((m.heap i).body, index i)) (by
      intro x hx
      obtain ⟨i, hi', rfl⟩ := List.mem_map.1 hx
      exact hi i hi') (by rw [hf]; exact e4) (by rw [hf]; exact e3)
  rw [hm] at this
  exact this

/-- **C38** (for tidy transactions; without, erasures and merges interfere: C14_nested_erase,
C15_merge_visible).  Two readers, of the same process or of different ones, that started when the
same tidy transactions were published give the same answers to every query, in every history
of calls. -/
theorem C38_same_answers_partial (hs : Session burrowOps b s) (hs' : Session burrowOps b' u)
    (ht : Tidy s.published) (hp : ∀ e, e ∈ s.published ↔ e ∈ u.published) {r r' : Nat}
    (h1 : step burrowOps b s (.rstart r) = some s') (h2 : Live burrowOps b (· ≠ .rend r) s' t)
    (h1' : step burrowOps b' u (.rstart r') = some u') (h2' : Live burrowOps b' (· ≠ .rend r') u' w) :
    ∃ m v m' v', t.mem = some m ∧ m.readers r = some v ∧ w.mem = some m' ∧ m'.readers r' = some v' ∧
      ∀ index index' : Nat → Store.Index, (∀ i ∈ v.shards, Holds (m.heap i).body (index i)) →
        (∀ i ∈ v'.shards, Holds (m'.heap i).body (index' i)) →
        ∃ good good', ∀ (featurize : List Char → Int) (c c' : Option (List Char → Int)) (e : SExpr), Legal e →
          ∃ H H', compile ⟨v.shards.map index, featurize, good⟩ c e = some H ∧
            compile ⟨v'.shards.map index', featurize, good'⟩ c' e = some H' ∧
            ∀ cs : List Call, (∀ c ∈ cs, InRange c.key) →
              ∃ as s s', H.run cs H.init = some (as, s) ∧ H'.run cs H'.init = some (as, s') := by
  have ht' : Tidy u.published := by
    refine ⟨fun e he => ht.orderly e ((hp e).2 he), fun e he x hx e' he' => ht.apart e ((hp e).2 he) x hx e' ((hp e').2 he'), ?_⟩
    have hE : ∀ a, Erased u.published a ↔ Erased s.published a := by
      intro a; unfold Erased; simp only [hp]
    intro f e he s hs e' he' r hr hin
    rw [hE, hE]
    exact ht.cover f e ((hp e).2 he) s hs e' ((hp e').2 he') r hr hin
  obtain ⟨m, v, e1, e2, _, e3⟩ := C38_reader_sees_spec_partial hs ht h1 h2
  obtain ⟨m', v', g1, g2, _, g3⟩ := C38_reader_sees_spec_partial hs' ht' h1' h2'
  refine ⟨m, v, m', v', e1, e2, g1, g2, fun index index' hi hi' => ?_⟩
  obtain ⟨good, q⟩ := e3 index hi
  obtain ⟨good', q'⟩ := g3 index' hi'
  refine ⟨good, good', fun featurize c c' e he => same_answers _ _ ?_ c c' e he⟩
  funext x a
  refine propext ?_
  show Store.solutions _ _ a ↔ Store.solutions _ _ a
  rw [q, q']
  unfold Visible Shows Erased
  simp only [hp]

/-! ### A case that meets the hypotheses -/

/-- two annotations on the transaction's own text, and one elsewhere -/
def docOne : Content := ⟨[(7, ⟨staging, staging + 1, 3⟩), (7, ⟨staging + 2, staging + 4, 0⟩), (8, ⟨staging, staging + 4, 0⟩)], 5⟩
/-- another text, and the erasure of an interval of the first -/
def docTwo : Content := ⟨[(7, ⟨staging, staging, 0⟩), (0, ⟨0, 1, 0⟩)], 2⟩

def bothDocs : List (Act Content (Tree Content)) :=
  [.begin 0 docOne, .number 0, .vote 0 true, .commit 0, .unkitten 0,
   .begin 1 docTwo, .number 1, .vote 1 true, .commit 1, .unkitten 1, .grab 0 0 2, .make 0 .ok, .install 0]

/-- the state after some steps, if none is impossible and the process is alive after each -/
def stays {τ α : Type} (M : Ops τ α) (b : Build) (s : Sys τ α) : List (Act τ α) → Option (Sys τ α)
  | [] => some s
  | a :: l => match step M b s a with
    | none => none
    | some s' => if s'.mem.isSome then stays M b s' l else none

theorem live_stays {τ α : Type} {M : Ops τ α} {b : Build} {s t : Sys τ α} {l : List (Act τ α)}
    (h : stays M b s l = some t) : Live M b (fun _ => True) s t := by
  suffices ∀ s0, Live M b (fun _ => True) s0 s → Live M b (fun _ => True) s0 t from this s (.refl s)
  induction l generalizing s with
  | nil => intro s0 h0; simp only [stays] at h; cases h; exact h0
  | cons a l ih =>
    intro s0 h0
    simp only [stays] at h
    split at h
    · cases h
    · rename_i s' hs
      split at h
      · rename_i hm
        exact ih h s0 (.next a h0 trivial hs (by intro hn; rw [hn] at hm; cases hm))
      · cases h

theorem both_tidy : Tidy [⟨1, 5, docTwo⟩, ⟨0, 0, docOne⟩] := by
  have p1 : placed ⟨1, 5, docTwo⟩ = [(7, ⟨5, 5, 0⟩), (0, ⟨0, 1, 0⟩)] := by decide
  have p0 : placed ⟨0, 0, docOne⟩ = [(7, ⟨0, 1, 3⟩), (7, ⟨2, 4, 0⟩), (8, ⟨0, 4, 0⟩)] := by decide
  have hall : ∀ e ∈ [(⟨1, 5, docTwo⟩ : Entry Content), ⟨0, 0, docOne⟩], ∀ x, x ∈ placed e ↔
      (e.seq = 1 ∧ (x = (7, ⟨5, 5, 0⟩) ∨ x = (0, ⟨0, 1, 0⟩))) ∨
      (e.seq = 0 ∧ (x = (7, ⟨0, 1, 3⟩) ∨ x = (7, ⟨2, 4, 0⟩) ∨ x = (8, ⟨0, 4, 0⟩))) := by
    intro e he x
    simp only [List.mem_cons, List.not_mem_nil, or_false] at he
    rcases he with rfl | rfl
    · rw [p1]; simp
    · rw [p0]; simp
  refine ⟨?_, ?_, ?_⟩
  · intro e he
    simp only [List.mem_cons, List.not_mem_nil, or_false] at he
    have key : ∀ e : Entry Content, ∀ l, placed e = l → (∀ x ∈ l, ∀ y ∈ l, x.1 = y.1 → x.2.p = y.2.p → x = y) → l.Nodup →
        (∀ x ∈ l, minfinity < x.2.p ∧ x.2.p ≤ x.2.q ∧ x.2.q < maxfinity ∧ plus0 x.2 = x.2) → Orderly e.base e.txn.added := by
      intro e l hl h1 h2 h3 f
      constructor
      · unfold atFinal ofFeature
        rw [show e.txn.added.map (relocate e.base) = l from hl, List.pairwise_map]
        have := (h2.filter fun x => x.1 == f)
        refine (List.Pairwise.imp_of_mem ?_ this)
        intro x y hx hy hne heq
        rw [List.mem_filter] at hx hy
        have ex : x.1 = f := by simpa using hx.2
        have ey : y.1 = f := by simpa using hy.2
        exact hne (h1 x hx.1 y hy.1 (by rw [ex, ey]) heq)
      · intro a ha
        have := mem_atFinal.1 ha
        rw [hl] at this
        exact h3 _ this
    rcases he with rfl | rfl
    · exact key _ _ p1 (by decide) (by decide) (by decide)
    · exact key _ _ p0 (by decide) (by decide) (by decide)
  · intro e he x hx e' he' y hy hin
    rw [hall e he] at hx
    rw [hall e' he'] at hy
    simp [nullFeature] at hx hy
    obtain ⟨_, rfl⟩ := hx
    obtain ⟨_, rfl⟩ := hy
    exact ⟨rfl, rfl⟩
  · intro f e he a ha e' he' r hr hin hE
    obtain ⟨e2, he2, x, hx, hax⟩ := hE
    rw [hall e2 he2] at hx
    simp [nullFeature] at hx
    obtain ⟨_, rfl⟩ := hx
    refine ⟨⟨1, 5, docTwo⟩, by simp, ⟨0, 1, 0⟩, by rw [p1]; simp, ?_⟩
    rw [hall e he] at ha
    rw [hall e' he'] at hr
    unfold inside at *
    simp only [Prod.mk.injEq] at ha hr
    rcases ha with ⟨_, (⟨rfl, rfl⟩ | ⟨rfl, rfl⟩)⟩ | ⟨_, (⟨rfl, rfl⟩ | ⟨rfl, rfl⟩ | ⟨rfl, rfl⟩)⟩ <;>
      rcases hr with ⟨_, (⟨h1, rfl⟩ | ⟨h1, rfl⟩)⟩ | ⟨_, (⟨h1, rfl⟩ | ⟨h1, rfl⟩ | ⟨h1, rfl⟩)⟩ <;>
      simp_all

/-- a history with a merge, a tidy state, and a reader that can start -/
example : ∃ s s', Session burrowOps .checked s ∧ Tidy s.published ∧
    step burrowOps .checked s (.rstart 0) = some s' ∧ s.published = [⟨1, 5, docTwo⟩, ⟨0, 0, docOne⟩] := by
  cases h0 : step burrowOps .checked newBurrow .reopen with
  | none => cases h0
  | some s0 =>
    have h0' := h0
    cases h : stays burrowOps .checked s0 bothDocs with
    | none => cases h0; cases h
    | some s =>
      have hp : s.published = [⟨1, 5, docTwo⟩, ⟨0, 0, docOne⟩] := by cases h0; cases h; rfl
      have hr : ∃ s', step burrowOps .checked s (.rstart 0) = some s' := by cases h0; cases h; exact ⟨_, rfl⟩
      obtain ⟨s', hr⟩ := hr
      exact ⟨s, s', ⟨s0, ⟨newBurrow, .reopen, .refl _, rfl, h0'⟩, live_stays h⟩, by rw [hp]; exact both_tidy, hr, hp⟩

end Verif.Props
