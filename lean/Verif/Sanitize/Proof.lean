/-
Lemmas for Verif/Props/Sanitize.lean.
-/
import Verif.Sanitize.Spec
import Verif.Props.Recovery
namespace Verif.Sanitize
open Verif.Txn Verif.Props

/-! ### Runs of shards -/

theorem Covers.tail {lo hi : Nat} {a b : FName} {l : List FName} (h : Covers lo hi (a :: b :: l)) :
    a.lo = lo ∧ Covers (a.hi + 1) hi (b :: l) := h

theorem Covers.head {lo hi : Nat} {a : FName} {l : List FName} (h : Covers lo hi (a :: l)) : a.lo = lo := by
  cases l with
  | nil => exact h.1
  | cons b l => exact h.1

theorem Covers.bounds : ∀ {l : List FName} {lo hi : Nat}, (∀ a ∈ l, a.lo ≤ a.hi) → Covers lo hi l →
    ∀ a ∈ l, lo ≤ a.lo ∧ a.hi ≤ hi
  | [], _, _, _, h => h.elim
  | [a], lo, hi, _, h => by
    intro x hx
    rw [List.mem_singleton] at hx
    subst hx
    have := h.1; have := h.2
    omega
  | a :: b :: l, lo, hi, hr, h => by
    obtain ⟨h1, h2⟩ := h
    have ih := Covers.bounds (fun x hx => hr x (List.mem_cons_of_mem _ hx)) h2
    have ra := hr a (by simp)
    intro x hx
    rcases List.mem_cons.1 hx with e | hx
    · subst e
      have := ih b (by simp)
      have := hr b (by simp)
      omega
    · have := ih x hx
      omega

theorem Covers.range {l : List FName} {lo hi : Nat} (hr : ∀ a ∈ l, a.lo ≤ a.hi) (h : Covers lo hi l) : lo ≤ hi := by
  cases l with
  | nil => exact h.elim
  | cons a l =>
    have := h.bounds hr a (by simp)
    have := hr a (by simp)
    omega

theorem Covers.point : ∀ {l : List FName} {lo hi : Nat}, Covers lo hi l →
    ∀ n, lo ≤ n → n ≤ hi → ∃ a ∈ l, a.lo ≤ n ∧ n ≤ a.hi
  | [], _, _, h => h.elim
  | [a], lo, hi, h => by
    intro n h1 h2
    have := h.1; have := h.2
    exact ⟨a, by simp, by omega, by omega⟩
  | a :: b :: l, lo, hi, h => by
    intro n h1 h2
    obtain ⟨e1, e2⟩ := h
    by_cases hn : n ≤ a.hi
    · exact ⟨a, by simp, by omega, hn⟩
    · obtain ⟨c, hc, q⟩ := e2.point n (by omega) h2
      exact ⟨c, List.mem_cons_of_mem _ hc, q⟩

theorem run_sound (stop : Nat) : ∀ (l : List FName) (next : Nat) (g r : List FName),
    run stop next l g = some (some r) → ∃ c, r = g ++ c ∧ Covers next stop c ∧ (∀ a ∈ c, a ∈ l) ∧ 2 ≤ r.length := by
  intro l
  induction l with
  | nil => intro next g r h; cases h
  | cons a l ih =>
    intro next g r h
    unfold run at h
    by_cases c1 : a.lo ≠ next ∨ a.hi > stop
    · rw [if_pos c1] at h; cases h
    · rw [if_neg c1] at h
      have n1 : a.lo = next := by omega
      by_cases c2 : a.hi = stop
      · rw [if_pos c2] at h
        by_cases c3 : (g ++ [a]).length < 2
        · rw [if_pos c3] at h; cases h
        · rw [if_neg c3] at h
          cases h
          exact ⟨[a], rfl, ⟨n1, c2⟩, by simp, by omega⟩
      · rw [if_neg c2] at h
        by_cases c3 : a.hi = top
        · rw [if_pos c3] at h; cases h
        · rw [if_neg c3] at h
          obtain ⟨c, e, hc, hm, hlen⟩ := ih _ _ _ h
          refine ⟨a :: c, by rw [e]; simp, ?_, ?_, hlen⟩
          · cases c with
            | nil => exact hc.elim
            | cons b c => exact ⟨n1, hc⟩
          · intro x hx
            rcases List.mem_cons.1 hx with e | hx
            · simp [e]
            · exact List.mem_cons_of_mem _ (hm x hx)

theorem run_complete (stop : Nat) (hs : stop ≤ top) : ∀ (c l : List FName) (next : Nat) (g : List FName) (a : FName),
    (∀ x ∈ a :: l, x.lo ≤ x.hi) → (a :: l).Pairwise (fun x y => x.hi < y.lo) →
    Covers next stop (a :: c) → (∀ x ∈ a :: c, x ∈ a :: l) → 2 ≤ (g ++ a :: c).length →
    run stop next (a :: l) g = some (some (g ++ a :: c)) := by
  intro c
  induction c with
  | nil =>
    intro l next g a hr hp hc hm hlen
    unfold run
    have := hc.1; have := hc.2
    rw [if_neg (by omega), if_pos hc.2, if_neg (by simpa using hlen)]
  | cons b c ih =>
    intro l next g a hr hp hc hm hlen
    obtain ⟨h1, h2⟩ := hc
    have hp' := List.pairwise_cons.1 hp
    have hrc : ∀ x ∈ b :: c, x.lo ≤ x.hi := fun x hx => hr x (hm x (List.mem_cons_of_mem _ hx))
    have hbl := Covers.bounds hrc h2
    have hbb := hbl b (by simp)
    have hrb := hrc b (by simp)
    have hmem : ∀ x ∈ b :: c, x ∈ l := by
      intro x hx
      rcases List.mem_cons.1 (hm x (List.mem_cons_of_mem _ hx)) with e | hx'
      · subst e
        have := hbl x hx
        have := hr x (by simp)
        omega
      · exact hx'
    cases l with
    | nil => exact absurd (hmem b (by simp)) (by simp)
    | cons d l =>
      have hp2 := List.pairwise_cons.1 hp'.2
      have hd : d = b := by
        rcases List.mem_cons.1 (hmem b (by simp)) with e | e
        · exact e.symm
        · have := hp2.1 b e
          have := hp'.1 d (by simp)
          have := hr d (by simp)
          have := h2.head
          omega
      subst hd
      unfold run
      rw [if_neg (by omega), if_neg (by omega), if_neg (by omega)]
      have := ih l (a.hi + 1) (g ++ [a]) d (fun x hx => hr x (List.mem_cons_of_mem _ hx)) hp'.2 h2 hmem (by simpa using hlen)
      rw [this]
      simp

theorem sourceGroup_iff {lo hi : Nat} (hs : hi ≤ top) {srcs : List FName} : ∀ {l : List FName}, (∀ x ∈ l, x.lo ≤ x.hi) →
    l.Pairwise (fun x y => x.hi < y.lo) →
    (sourceGroup lo hi l = some srcs ↔ 2 ≤ srcs.length ∧ Covers lo hi srcs ∧ ∀ a ∈ srcs, a ∈ l) := by
  intro l
  induction l with
  | nil =>
    intro _ _
    constructor
    · intro h; cases h
    · rintro ⟨h1, h2, h3⟩
      cases srcs with
      | nil => exact h2.elim
      | cons a srcs => exact absurd (h3 a (by simp)) (by simp)
  | cons a l ih =>
    intro hr hp
    have hp' := List.pairwise_cons.1 hp
    have ih := ih (fun x hx => hr x (List.mem_cons_of_mem _ hx)) hp'.2
    constructor
    · intro h
      unfold sourceGroup at h
      by_cases c : a.lo ≠ lo
      · rw [if_pos c] at h
        obtain ⟨q1, q2, q3⟩ := ih.1 h
        exact ⟨q1, q2, fun x hx => List.mem_cons_of_mem _ (q3 x hx)⟩
      · rw [if_neg c] at h
        cases e : run hi lo (a :: l) [] with
        | none =>
          rw [e] at h
          obtain ⟨q1, q2, q3⟩ := ih.1 h
          exact ⟨q1, q2, fun x hx => List.mem_cons_of_mem _ (q3 x hx)⟩
        | some r =>
          rw [e] at h
          simp only at h
          subst h
          obtain ⟨c, e1, e2, e3, e4⟩ := run_sound hi _ _ _ _ e
          simp only [List.nil_append] at e1
          subst e1
          exact ⟨e4, e2, e3⟩
    · rintro ⟨h1, h2, h3⟩
      unfold sourceGroup
      cases srcs with
      | nil => exact h2.elim
      | cons b c =>
        by_cases hab : a.lo ≠ lo
        · rw [if_pos hab]
          refine ih.2 ⟨h1, h2, ?_⟩
          have hb : b ∈ l := by
            rcases List.mem_cons.1 (h3 b (by simp)) with e | e
            · subst e; exact absurd h2.head hab
            · exact e
          have hlt := hp'.1 b hb
          have hbd := h2.bounds (fun x hx => hr x (h3 x hx))
          intro x hx
          rcases List.mem_cons.1 (h3 x hx) with e | e
          · subst e
            have := hbd x hx
            have := hr x (by simp)
            have := h2.head
            omega
          · exact e
        · rw [if_neg hab]
          have hba : b = a := by
            rcases List.mem_cons.1 (h3 b (by simp)) with e | e
            · exact e
            · have := hp'.1 b e
              have := h2.head
              have := hr a (by simp)
              omega
          subst hba
          rw [run_complete hi hs c l lo [] b hr hp h2 h3 h1]
          rfl

/-! ### The map -/

theorem keyLt_iff {a b : Key} : keyLt a b = true ↔ a.1 < b.1 ∨ (a.1 = b.1 ∧ a.2 < b.2) := by
  simp [keyLt]

theorem mem_addKey {k x : Key} : ∀ {l : List Key}, x ∈ addKey k l ↔ x = k ∨ x ∈ l := by
  intro l
  induction l with
  | nil => simp [addKey]
  | cons y l ih =>
    unfold addKey
    by_cases c : keyLt k y = true
    · rw [if_pos c]; simp
    · rw [if_neg c]
      by_cases d : k = y
      · rw [if_pos d]; subst d; simp
      · rw [if_neg d]
        simp only [List.mem_cons, ih]
        constructor
        · rintro (h | h | h) <;> simp [h]
        · rintro (h | h | h) <;> simp [h]

theorem addKey_sorted {k : Key} : ∀ {l : List Key}, l.Pairwise (fun a b => keyLt a b = true) →
    (addKey k l).Pairwise (fun a b => keyLt a b = true) := by
  intro l
  induction l with
  | nil => intro _; simp [addKey]
  | cons y l ih =>
    intro h
    have p := List.pairwise_cons.1 h
    unfold addKey
    by_cases c : keyLt k y = true
    · rw [if_pos c]
      refine List.pairwise_cons.2 ⟨?_, h⟩
      intro x hx
      rcases List.mem_cons.1 hx with e | hx
      · subst e; exact c
      · have := p.1 x hx
        rw [keyLt_iff] at *
        omega
    · rw [if_neg c]
      by_cases d : k = y
      · rw [if_pos d]; exact h
      · rw [if_neg d]
        refine List.pairwise_cons.2 ⟨?_, ih p.2⟩
        intro x hx
        rcases mem_addKey.1 hx with e | hx
        · subst e
          rw [keyLt_iff] at *
          have : ¬(x.1 = y.1 ∧ x.2 = y.2) := fun q => d (Prod.ext q.1 q.2)
          omega
        · exact p.1 x hx

theorem foldl_keys : ∀ (l m : List Key), m.Pairwise (fun a b => keyLt a b = true) →
    (l.foldl (fun l k => addKey k l) m).Pairwise (fun a b => keyLt a b = true) ∧
    ∀ x, x ∈ l.foldl (fun l k => addKey k l) m ↔ x ∈ l ∨ x ∈ m := by
  intro l
  induction l with
  | nil => intro m h; exact ⟨h, by simp⟩
  | cons k l ih =>
    intro m h
    obtain ⟨h1, h2⟩ := ih (addKey k m) (addKey_sorted h)
    refine ⟨h1, fun x => ?_⟩
    rw [List.foldl_cons, h2, mem_addKey, List.mem_cons]
    constructor
    · rintro (h | h | h) <;> simp [h]
    · rintro ((h | h) | h) <;> simp [h]

theorem keys_sorted (dir : List File) : (keys dir).Pairwise (fun a b => keyLt a b = true) :=
  (foldl_keys _ [] .nil).1

theorem mem_keys {dir : List File} {k : Key} :
    k ∈ keys dir ↔ ⟨.mrg, k.1, k.2⟩ ∈ dir ∨ ⟨.pst, k.1, k.2⟩ ∈ dir ∨ ⟨.dct, k.1, k.2⟩ ∈ dir := by
  unfold keys
  rw [(foldl_keys _ [] .nil).2]
  simp only [List.not_mem_nil, or_false, List.mem_map, List.mem_append, List.mem_filter, decide_eq_true_eq]
  constructor
  · rintro ⟨⟨w, a, b⟩, h, e⟩
    subst e
    rcases h with (h | h) | h <;> (obtain ⟨h1, h2⟩ := h; simp only at h2; subst h2; simp [h1])
  · rintro (h | h | h)
    · exact ⟨_, .inl (.inl ⟨h, rfl⟩), rfl⟩
    · exact ⟨_, .inl (.inr ⟨h, rfl⟩), rfl⟩
    · exact ⟨_, .inr ⟨h, rfl⟩, rfl⟩

theorem has_iff {dir : List File} {w : What} {k : Key} : has dir w k = true ↔ ⟨w, k.1, k.2⟩ ∈ dir := by
  simp only [has, List.any_eq_true, decide_eq_true_eq]
  constructor
  · rintro ⟨x, hx, e⟩; rw [← e]; exact hx
  · intro h; exact ⟨_, h, rfl⟩

/-! ### Sorting what is sorted -/

theorem foldr_sorted : ∀ {l : List Recovery}, l.Pairwise (fun a b => recLe a b = true) → l.foldr insertRec [] = l := by
  intro l
  induction l with
  | nil => intro _; rfl
  | cons a l ih =>
    intro h
    have p := List.pairwise_cons.1 h
    rw [List.foldr_cons, ih p.2]
    cases l with
    | nil => rfl
    | cons b l =>
      unfold insertRec
      rw [if_pos (p.1 b (by simp))]

/-- the recovery of one key -/
def recOf (dir : List File) (living : List FName) (k : Key) : Option Recovery := (turn dir living k).2

theorem recOf_key {dir : List File} {living : List FName} {k : Key} {r : Recovery} (h : recOf dir living k = some r) :
    r.lo = k.1 ∧ r.hi = k.2 := by
  unfold recOf turn at h
  split at h
  · cases h
  · split at h
    · cases h; exact ⟨rfl, rfl⟩
    · cases h

theorem recOf_iff {dir : List File} {living : List FName} {k : Key} {r : Recovery} :
    recOf dir living k = some r ↔ hasHazel living k = false ∧ ⟨.pst, k.1, k.2⟩ ∈ dir ∧ ⟨.dct, k.1, k.2⟩ ∈ dir ∧
      r.lo = k.1 ∧ r.hi = k.2 ∧ sourceGroup k.1 k.2 living = some r.sources := by
  unfold recOf turn
  by_cases c : hasHazel living k = true
  · rw [if_pos c]; simp [c]
  · rw [if_neg c]
    have c' : hasHazel living k = false := by simpa using c
    rw [c', ← has_iff (w := .pst), ← has_iff (w := .dct)]
    by_cases d : (has dir .pst k && has dir .dct k) = true
    · rw [if_pos d]
      have d' := d
      rw [Bool.and_eq_true] at d'
      cases e : sourceGroup k.1 k.2 living with
      | none => simp
      | some s =>
        obtain ⟨lo, hi, srcs⟩ := r
        simp only [Option.some.injEq, Recovery.mk.injEq, d'.1, d'.2, true_and]
        constructor <;> rintro ⟨h1, h2, h3⟩ <;> simp [h1, h2, h3]
    · rw [if_neg d]
      rw [Bool.and_eq_true] at d
      simp only [reduceCtorEq, false_iff, true_and, not_and]
      intro h1 h2
      exact absurd ⟨h1, h2⟩ d

theorem recs_sorted (dir : List File) (living : List FName) :
    ((keys dir).filterMap (recOf dir living)).Pairwise (fun a b => a.lo < b.lo ∨ (a.lo = b.lo ∧ a.hi < b.hi)) := by
  rw [List.pairwise_filterMap]
  refine (keys_sorted dir).imp ?_
  intro k k' h r hr r' hr'
  rw [keyLt_iff] at h
  have := recOf_key hr
  have := recOf_key hr'
  omega

/-! ### One run -/

theorem sanitize_some {dir : List File} {R : Result} (h : sanitize dir = some R) :
    (∀ f ∈ dir, f.what ≠ .junk) ∧ ∃ dead, survey (shards dir) = some (R.living, dead) ∧
      R.removed = (keys dir).flatMap (fun k => (turn dir R.living k).1) ++ dead.map fileOf ++ olds dir ∧
      R.recoveries = (keys dir).filterMap (recOf dir R.living) := by
  unfold sanitize at h
  split at h
  · cases h
  · rename_i hj
    refine ⟨?_, ?_⟩
    · intro f hf e
      exact hj (List.any_eq_true.2 ⟨f, hf, by simp [e]⟩)
    · split at h
      · cases h
      · rename_i living dead hs
        cases h
        refine ⟨dead, hs, ?_, ?_⟩
        · simp only [List.flatMap_map]
        · simp only [List.filterMap_map]
          refine foldr_sorted ((recs_sorted dir living).imp ?_)
          intro a b hab
          simp only [recLe, Bool.or_eq_true, decide_eq_true_eq, Bool.and_eq_true, beq_iff_eq]
          omega

theorem mem_shards {dir : List File} {s : FName} : s ∈ shards dir ↔ s.kind = .hazel ∧ fileOf s ∈ dir := by
  unfold shards
  rw [List.mem_filterMap]
  constructor
  · rintro ⟨⟨w, a, b⟩, hf, e⟩
    unfold shardOf at e
    split at e
    · rename_i hw
      simp only at hw
      subst hw
      cases e
      exact ⟨rfl, hf⟩
    · cases e
  · rintro ⟨h1, h2⟩
    refine ⟨_, h2, ?_⟩
    obtain ⟨k, a, b⟩ := s
    simp only at h1
    subst h1
    rfl

theorem shards_listing {dir : List File} (h : Named dir) : Listing (shards dir) := by
  refine ⟨?_, ?_, ?_⟩
  · intro a ha
    exact h.range _ (mem_shards.1 ha).2
  · unfold shards List.Nodup
    rw [List.pairwise_filterMap]
    refine h.once.imp ?_
    intro f g hne a ha b hb e
    subst e
    obtain ⟨w, x, y⟩ := f
    obtain ⟨w', x', y'⟩ := g
    unfold shardOf at ha hb
    split at ha <;> split at hb
    · rename_i h1 h2
      simp only at h1 h2
      subst h1; subst h2
      cases ha; cases hb
      exact hne rfl
    · cases hb
    · cases ha
    · cases ha
  · intro a ha b hb h1 h2
    have ka := (mem_shards.1 ha).1
    have kb := (mem_shards.1 hb).1
    obtain ⟨k, x, y⟩ := a
    obtain ⟨k', x', y'⟩ := b
    simp only at *
    subst ka; subst kb; subst h1; subst h2; rfl

/-- what is kept of a directory -/
def Keep (dir : List File) (living : List FName) (f : File) : Prop :=
  f.what = .other ∨ (f.what = .shard ∧ ⟨.hazel, f.lo, f.hi⟩ ∈ living) ∨
    ((f.what = .pst ∨ f.what = .dct) ∧ ∃ r, recOf dir living (f.lo, f.hi) = some r)

theorem mem_turn {dir : List File} {living : List FName} {k : Key} {f : File} :
    f ∈ (turn dir living k).1 ↔ f ∈ dir ∧ (f.lo, f.hi) = k ∧
      (f.what = .mrg ∨ ((f.what = .pst ∨ f.what = .dct) ∧ recOf dir living k = none)) := by
  have hm : f ∈ mrgNames dir k ↔ f ∈ dir ∧ (f.lo, f.hi) = k ∧ f.what = .mrg := by
    obtain ⟨w, a, b⟩ := f
    obtain ⟨x, y⟩ := k
    simp only [mrgNames, List.mem_filter, decide_eq_true_eq, File.mk.injEq, Prod.mk.injEq]
    constructor
    · rintro ⟨h, h1, h2, h3⟩; exact ⟨h, ⟨h2, h3⟩, h1⟩
    · rintro ⟨h, ⟨h2, h3⟩, h1⟩; exact ⟨h, h1, h2, h3⟩
  have hc : f ∈ ckNames dir k ↔ f ∈ dir ∧ (f.lo, f.hi) = k ∧ (f.what = .pst ∨ f.what = .dct) := by
    obtain ⟨w, a, b⟩ := f
    obtain ⟨x, y⟩ := k
    simp only [ckNames, List.mem_append, List.mem_filter, decide_eq_true_eq, File.mk.injEq, Prod.mk.injEq]
    constructor
    · rintro (⟨h, h1, h2, h3⟩ | ⟨h, h1, h2, h3⟩)
      · exact ⟨h, ⟨h2, h3⟩, .inl h1⟩
      · exact ⟨h, ⟨h2, h3⟩, .inr h1⟩
    · rintro ⟨h, ⟨h2, h3⟩, h1 | h1⟩
      · exact .inl ⟨h, h1, h2, h3⟩
      · exact .inr ⟨h, h1, h2, h3⟩
  cases e : recOf dir living k with
  | none =>
    have : (turn dir living k).1 = mrgNames dir k ++ ckNames dir k := by
      unfold recOf at e
      unfold turn at *
      split
      · rfl
      · rename_i hh
        rw [if_neg hh] at e
        split
        · rename_i hs
          rw [hs] at e
          cases e
        · rfl
    rw [this, List.mem_append, hm, hc]
    constructor
    · rintro (⟨h1, h2, h3⟩ | ⟨h1, h2, h3⟩)
      · exact ⟨h1, h2, .inl h3⟩
      · exact ⟨h1, h2, .inr ⟨h3, rfl⟩⟩
    · rintro ⟨h1, h2, h3 | ⟨h3, _⟩⟩
      · exact .inl ⟨h1, h2, h3⟩
      · exact .inr ⟨h1, h2, h3⟩
  | some r =>
    have : (turn dir living k).1 = mrgNames dir k := by
      unfold recOf at e
      unfold turn at *
      split
      · rename_i hh
        rw [if_pos hh] at e
        cases e
      · rename_i hh
        rw [if_neg hh] at e
        split
        · rfl
        · rename_i hs
          rw [hs] at e
          cases e
    rw [this, hm]
    simp

theorem mem_removed {dir : List File} {R : Result} (hn : Named dir) (h : sanitize dir = some R) {f : File} :
    f ∈ R.removed ↔ f ∈ dir ∧ ¬ Keep dir R.living f := by
  obtain ⟨hj, dead, hs, hr, _⟩ := sanitize_some h
  have hl := shards_listing hn
  obtain ⟨k1, k2, k3, _⟩ := C24_kept hl hs
  have hdead : ∀ x, x ∈ dead ↔ x ∈ shards dir ∧ x ∉ R.living := by
    intro x
    obtain ⟨p1, _, _⟩ := survey_some hs
    have nd : (R.living ++ dead).Nodup := p1.nodup_iff.2 hl.once
    rw [← p1.mem_iff, List.mem_append]
    constructor
    · intro hx; exact ⟨.inr hx, fun hy => (List.nodup_append.1 nd).2.2 x hy x hx rfl⟩
    · rintro ⟨h1 | h1, h2⟩
      · exact absurd h1 h2
      · exact h1
  rw [hr, List.mem_append, List.mem_append, List.mem_flatMap, List.mem_map]
  obtain ⟨w, a, b⟩ := f
  constructor
  · rintro ((⟨k, hk, hf⟩ | ⟨s, hs', e⟩) | hf)
    · obtain ⟨q1, q2, q3⟩ := mem_turn.1 hf
      refine ⟨q1, ?_⟩
      simp only at q2
      subst q2
      rintro (e | ⟨e, _⟩ | ⟨e, r, hr'⟩)
      · simp only at e; subst e; simp at q3
      · simp only at e; subst e; simp at q3
      · rcases q3 with q3 | ⟨_, q3⟩
        · simp only at q3 e; subst q3; simp at e
        · rw [q3] at hr'; cases hr'
    · obtain ⟨q1, q2⟩ := (hdead s).1 hs'
      obtain ⟨m1, m2⟩ := mem_shards.1 q1
      rw [e] at m2
      refine ⟨m2, ?_⟩
      obtain ⟨k, x, y⟩ := s
      simp only at m1
      subst m1
      simp only [fileOf, File.mk.injEq] at e
      obtain ⟨e1, e2, e3⟩ := e
      subst e1; subst e2; subst e3
      rintro (e | ⟨_, e⟩ | ⟨e, _⟩)
      · cases e
      · exact q2 e
      · simp at e
    · simp only [olds, List.mem_filter] at hf
      refine ⟨hf.1, ?_⟩
      have h2 := hf.2
      rintro (e | ⟨e, _⟩ | ⟨e, _⟩)
      · simp only at e; subst e; simp [isOld] at h2
      · simp only at e; subst e; simp [isOld] at h2
      · simp only at e; rcases e with e | e <;> (subst e; simp [isOld] at h2)
  · rintro ⟨hf, hk⟩
    have hk1 : w ≠ .other := fun e => hk (.inl e)
    have hck : ∀ (_ : w = .pst ∨ w = .dct), recOf dir R.living (a, b) = none := by
      intro e
      cases e2 : recOf dir R.living (a, b) with
      | none => rfl
      | some r => exact absurd (.inr (.inr ⟨e, r, e2⟩)) hk
    cases w with
    | shard =>
      refine .inl (.inr ⟨⟨.hazel, a, b⟩, ?_, rfl⟩)
      refine (hdead _).2 ⟨mem_shards.2 ⟨rfl, hf⟩, fun hm => hk (.inr (.inl ⟨rfl, hm⟩))⟩
    | oldTmp => exact .inr (List.mem_filter.2 ⟨hf, rfl⟩)
    | oldPst => exact .inr (List.mem_filter.2 ⟨hf, rfl⟩)
    | oldDct => exact .inr (List.mem_filter.2 ⟨hf, rfl⟩)
    | mrg => exact .inl (.inl ⟨(a, b), mem_keys.2 (.inl hf), mem_turn.2 ⟨hf, rfl, .inl rfl⟩⟩)
    | pst => exact .inl (.inl ⟨(a, b), mem_keys.2 (.inr (.inl hf)), mem_turn.2 ⟨hf, rfl, .inr ⟨.inl rfl, hck (.inl rfl)⟩⟩⟩)
    | dct => exact .inl (.inl ⟨(a, b), mem_keys.2 (.inr (.inr hf)), mem_turn.2 ⟨hf, rfl, .inr ⟨.inr rfl, hck (.inr rfl)⟩⟩⟩)
    | junk => exact absurd rfl (hj _ hf)
    | other => exact absurd rfl hk1

theorem mem_recoveries {dir : List File} {R : Result} (h : sanitize dir = some R) {r : Recovery} :
    r ∈ R.recoveries ↔ recOf dir R.living (r.lo, r.hi) = some r := by
  obtain ⟨_, _, _, _, hr⟩ := sanitize_some h
  rw [hr, List.mem_filterMap]
  constructor
  · rintro ⟨k, _, e⟩
    obtain ⟨e1, e2⟩ := recOf_key e
    rw [e1, e2]
    exact e
  · intro e
    refine ⟨_, ?_, e⟩
    exact mem_keys.2 (.inr (.inl (recOf_iff.1 e).2.1))

theorem recoveries_ext {l m : List Recovery} (hl : l.Pairwise (fun a b => a.lo < b.lo ∨ (a.lo = b.lo ∧ a.hi < b.hi)))
    (hm : m.Pairwise (fun a b => a.lo < b.lo ∨ (a.lo = b.lo ∧ a.hi < b.hi))) (h : ∀ r, r ∈ l ↔ r ∈ m) : l = m := by
  have n1 : l.Nodup := hl.imp (fun {a b} q e => by subst e; omega)
  have n2 : m.Nodup := hm.imp (fun {a b} q e => by subst e; omega)
  refine List.Perm.eq_of_pairwise ?_ hl hm ((List.perm_ext_iff_of_nodup n1 n2).2 h)
  intro a b _ _ q1 q2
  omega

theorem living_range {dir : List File} {R : Result} (hn : Named dir) (h : sanitize dir = some R) :
    (∀ a ∈ R.living, a.lo ≤ a.hi ∧ a.hi ≤ top ∧ a.kind = .hazel ∧ fileOf a ∈ dir) ∧
    R.living.Pairwise (fun a b => a.hi < b.lo) ∧ ∀ a, a ∈ R.living ↔ Outermost (shards dir) a := by
  obtain ⟨_, dead, hs, _, _⟩ := sanitize_some h
  obtain ⟨k1, k2, _, _⟩ := C24_kept (shards_listing hn) hs
  refine ⟨?_, k2, k1⟩
  intro a ha
  obtain ⟨q1, q2⟩ := mem_shards.1 ((k1 a).1 ha).1
  exact ⟨hn.range _ q2, hn.small _ q2, q1, q2⟩

/-! ### Stopped runs -/

theorem named_without {dir g : List File} (h : Named dir) : Named (without dir g) := by
  refine ⟨h.once.sublist List.filter_sublist, fun f hf => h.range f (List.mem_filter.1 hf).1, fun f hf => h.small f (List.mem_filter.1 hf).1⟩

theorem mem_without {dir g : List File} {f : File} : f ∈ without dir g ↔ f ∈ dir ∧ f ∉ g := by
  simp [without, List.mem_filter]

theorem resumed {dir g : List File} {R : Result} (hn : Named dir) (h : sanitize dir = some R)
    (hg : ∀ f ∈ g, f ∈ R.removed) :
    ∃ R', sanitize (without dir g) = some R' ∧ R'.living = R.living ∧ R'.recoveries = R.recoveries ∧
      ∀ f, f ∈ R'.removed ↔ f ∈ R.removed ∧ f ∉ g := by
  have hn' : Named (without dir g) := named_without hn
  obtain ⟨hj, dead, hs, _, _⟩ := sanitize_some h
  have hl := shards_listing hn
  have hl' := shards_listing hn'
  obtain ⟨k1, k2, k3, _⟩ := C24_kept hl hs
  have sub : ∀ a, a ∈ shards (without dir g) → a ∈ shards dir := by
    intro a ha
    obtain ⟨q1, q2⟩ := mem_shards.1 ha
    exact mem_shards.2 ⟨q1, (mem_without.1 q2).1⟩
  have stay : ∀ a ∈ R.living, a ∈ shards (without dir g) := by
    intro a ha
    obtain ⟨q1, q2⟩ := mem_shards.1 ((k1 a).1 ha).1
    refine mem_shards.2 ⟨q1, mem_without.2 ⟨q2, fun hx => ?_⟩⟩
    obtain ⟨_, hk⟩ := (mem_removed hn h).1 (hg _ hx)
    refine hk (.inr (.inl ⟨rfl, ?_⟩))
    obtain ⟨k, x, y⟩ := a
    simp only at q1
    subst q1
    exact ha
  have hout : ∀ a, Outermost (shards (without dir g)) a ↔ a ∈ R.living := by
    intro a
    constructor
    · rintro ⟨ha, hm⟩
      apply Classical.byContradiction
      intro hna
      obtain ⟨p1, _, p3⟩ := survey_some hs
      have := p1.mem_iff.2 (sub a ha)
      rcases List.mem_append.1 this with h1 | h1
      · exact hna h1
      · obtain ⟨b, hb, q1, q2⟩ := p3 a h1
        obtain ⟨q3, q4⟩ := hm b (stay b hb) ⟨q1, q2⟩
        have := hl'.named a ha b (stay b hb) (by omega) (by omega)
        subst this
        exact hna hb
    · intro ha
      refine ⟨stay a ha, fun c hc hi => ((k1 a).1 ha).2 c (sub c hc) hi⟩
  have hs' : ∃ dead', survey (shards (without dir g)) = some (R.living, dead') := by
    cases e : survey (shards (without dir g)) with
    | none =>
      obtain ⟨a, b, ha, hb, q⟩ := (C24_rejected hl'.range).1 e
      have := (C24_rejected hl.range).2 ⟨a, b, (k1 a).1 ((hout a).1 ha), sub b hb, q⟩
      rw [this] at hs
      cases hs
    | some r =>
      obtain ⟨l, d⟩ := r
      obtain ⟨j1, j2, _, _⟩ := C24_kept hl' e
      have : l = R.living := sorted_ext (fun a ha => hl'.range a ((j1 a).1 ha).1) j2 k2 fun a => by rw [j1 a, hout a]
      subst this
      exact ⟨d, rfl⟩
  obtain ⟨dead', hs'⟩ := hs'
  obtain ⟨R', hR'⟩ : ∃ R', sanitize (without dir g) = some R' := by
    unfold sanitize
    rw [if_neg]
    · rw [hs']; exact ⟨_, rfl⟩
    · intro hx
      obtain ⟨f, hf, e⟩ := List.any_eq_true.1 hx
      exact hj f (mem_without.1 hf).1 (by simpa using e)
  have hliv : R'.living = R.living := by
    obtain ⟨_, d, e, _, _⟩ := sanitize_some hR'
    rw [hs'] at e
    have := (Prod.mk.inj (Option.some.inj e)).1
    exact this.symm
  have hrec : ∀ k, recOf (without dir g) R.living k = recOf dir R.living k := by
    intro k
    apply Option.ext
    intro r
    rw [recOf_iff, recOf_iff]
    constructor
    · rintro ⟨q1, q2, q3, q4⟩
      exact ⟨q1, (mem_without.1 q2).1, (mem_without.1 q3).1, q4⟩
    · rintro ⟨q1, q2, q3, q4⟩
      have hk : ∃ r, recOf dir R.living (k.1, k.2) = some r := ⟨r, recOf_iff.2 ⟨q1, q2, q3, q4⟩⟩
      refine ⟨q1, mem_without.2 ⟨q2, fun hx => ?_⟩, mem_without.2 ⟨q3, fun hx => ?_⟩, q4⟩
      · exact ((mem_removed hn h).1 (hg _ hx)).2 (.inr (.inr ⟨.inl rfl, hk⟩))
      · exact ((mem_removed hn h).1 (hg _ hx)).2 (.inr (.inr ⟨.inr rfl, hk⟩))
  refine ⟨R', hR', hliv, ?_, ?_⟩
  · have s1 := recs_sorted dir R.living
    have s2 := recs_sorted (without dir g) R'.living
    obtain ⟨_, _, _, _, e1⟩ := sanitize_some h
    obtain ⟨_, _, _, _, e2⟩ := sanitize_some hR'
    rw [← e1] at s1
    rw [← e2] at s2
    refine recoveries_ext s2 s1 fun r => ?_
    rw [mem_recoveries h, mem_recoveries hR', hliv, hrec]
  · intro f
    rw [mem_removed hn' hR', mem_removed hn h, hliv, mem_without]
    have : Keep (without dir g) R.living f ↔ Keep dir R.living f := by
      unfold Keep
      simp only [hrec]
    rw [this]
    constructor
    · rintro ⟨⟨h1, h2⟩, h3⟩; exact ⟨⟨h1, h3⟩, h2⟩
    · rintro ⟨⟨h1, h3⟩, h2⟩; exact ⟨⟨h1, h2⟩, h3⟩

/-! ### A finished merge -/

theorem installed {dir : List File} {R : Result} {r : Recovery} (hn : Named dir) (h : sanitize dir = some R)
    (hr : r ∈ R.recoveries) :
    ∃ R', sanitize (⟨.shard, r.lo, r.hi⟩ :: without dir R.removed) = some R' ∧
      Named (⟨.shard, r.lo, r.hi⟩ :: without dir R.removed) ∧
      R'.living.Pairwise (fun a b => a.hi < b.lo) ∧
      ∀ a, a ∈ R'.living ↔ a = ⟨.hazel, r.lo, r.hi⟩ ∨ (a ∈ R.living ∧ a ∉ r.sources) := by
  obtain ⟨l1, l2, l3⟩ := living_range hn h
  obtain ⟨g1, g2, g3, _, _, g6⟩ := recOf_iff.1 ((mem_recoveries h).1 hr)
  simp only at g2 g3 g6
  have hsm : r.hi ≤ top := hn.small _ g2
  have hlo : r.lo ≤ r.hi := hn.range _ g2
  obtain ⟨c1, c2, c3⟩ := (sourceGroup_iff hsm (fun x hx => (l1 x hx).1) l2).1 g6
  have crange : ∀ a ∈ r.sources, a.lo ≤ a.hi := fun a ha => (l1 a (c3 a ha)).1
  have disj : R.living.Pairwise fun a b => a.hi < b.lo ∨ b.hi < a.lo := l2.imp .inl
  have hnot : ∀ x y, (⟨.hazel, x, y⟩ : FName) ∈ R.living → x = r.lo → y = r.hi → False := by
    intro x y hm e1 e2
    subst e1; subst e2
    have : hasHazel R.living (r.lo, r.hi) = true := List.any_eq_true.2 ⟨_, hm, by simp⟩
    rw [this] at g1
    cases g1
  have hfresh : (⟨.shard, r.lo, r.hi⟩ : File) ∉ without dir R.removed := by
    intro hx
    obtain ⟨q1, q2⟩ := mem_without.1 hx
    apply q2
    refine (mem_removed hn h).2 ⟨q1, ?_⟩
    rintro (e | ⟨_, e⟩ | ⟨e, _⟩)
    · cases e
    · exact hnot _ _ e rfl rfl
    · simp at e
  have hn2 : Named (⟨.shard, r.lo, r.hi⟩ :: without dir R.removed) := by
    have := named_without (g := R.removed) hn
    refine ⟨List.nodup_cons.2 ⟨hfresh, this.once⟩, ?_, ?_⟩
    · intro f hf
      rcases List.mem_cons.1 hf with e | hf
      · subst e; exact hlo
      · exact this.range f hf
    · intro f hf
      rcases List.mem_cons.1 hf with e | hf
      · subst e; exact hsm
      · exact this.small f hf
  have hmem : ∀ a, a ∈ shards (⟨.shard, r.lo, r.hi⟩ :: without dir R.removed) ↔ a = ⟨.hazel, r.lo, r.hi⟩ ∨ a ∈ R.living := by
    intro a
    rw [mem_shards, List.mem_cons, mem_without]
    obtain ⟨k, x, y⟩ := a
    simp only [fileOf, File.mk.injEq, FName.mk.injEq, true_and]
    constructor
    · rintro ⟨e, ⟨e1, e2⟩ | ⟨q1, q2⟩⟩
      · exact .inl ⟨e, e1, e2⟩
      · subst e
        refine .inr (Classical.byContradiction fun hna => q2 ((mem_removed hn h).2 ⟨q1, ?_⟩))
        rintro (e | ⟨_, e⟩ | ⟨e, _⟩)
        · cases e
        · exact hna e
        · simp at e
    · rintro (⟨e, e1, e2⟩ | hm)
      · exact ⟨e, .inl ⟨e1, e2⟩⟩
      · obtain ⟨q1, q2, q3, q4⟩ := l1 _ hm
        simp only at q3
        subst q3
        refine ⟨rfl, .inr ⟨q4, fun hx => ?_⟩⟩
        exact ((mem_removed hn h).1 hx).2 (.inr (.inl ⟨rfl, hm⟩))
  have hor : ∀ a ∈ R.living, a ∈ r.sources ∨ a.hi < r.lo ∨ r.hi < a.lo := by
    intro a ha
    apply Classical.byContradiction
    intro hx
    have h1 : a ∉ r.sources := fun q => hx (.inl q)
    have ra := (l1 a ha).1
    obtain ⟨s, hs, q1, q2⟩ := c2.point (max a.lo r.lo) (by omega) (by omega)
    have hne : a ≠ s := fun e => h1 (e ▸ hs)
    have := pairwise_of (fun h => h.symm) disj ha (c3 s hs) hne
    omega
  have hl2 := shards_listing hn2
  obtain ⟨living, dead, hs, p1, p2, p3⟩ := survey_laminar hl2.range (by
    intro a ha b hb
    have hbd := c2.bounds crange
    rcases (hmem a).1 ha with ea | ha' <;> rcases (hmem b).1 hb with eb | hb'
    · subst ea; subst eb; exact .inl ⟨Nat.le_refl _, Nat.le_refl _⟩
    · subst ea
      rcases hor b hb' with q | q | q
      · have := hbd b q; exact .inl ⟨this.1, this.2⟩
      · exact .inr (.inr (.inr q))
      · exact .inr (.inr (.inl q))
    · subst eb
      rcases hor a ha' with q | q | q
      · have := hbd a q; exact .inr (.inl ⟨this.1, this.2⟩)
      · exact .inr (.inr (.inl q))
      · exact .inr (.inr (.inr q))
    · by_cases e : a = b
      · subst e; exact .inl ⟨Nat.le_refl _, Nat.le_refl _⟩
      · have := pairwise_of (fun h => h.symm) disj ha' hb' e
        omega)
  obtain ⟨R', hR'⟩ : ∃ R', sanitize (⟨.shard, r.lo, r.hi⟩ :: without dir R.removed) = some R' := by
    unfold sanitize
    rw [if_neg]
    · rw [hs]; exact ⟨_, rfl⟩
    · intro hx
      obtain ⟨f, hf, e⟩ := List.any_eq_true.1 hx
      rcases List.mem_cons.1 hf with e' | hf
      · subst e'; simp at e
      · exact (sanitize_some h).1 f (mem_without.1 hf).1 (by simpa using e)
  have hliv : R'.living = living := by
    obtain ⟨_, d, e, _, _⟩ := sanitize_some hR'
    rw [hs] at e
    cases e; rfl
  refine ⟨R', hR', hn2, by rw [hliv]; exact p1, ?_⟩
  intro a
  rw [hliv, living_outermost hl2 hs a]
  unfold Outermost
  rw [hmem]
  have hbd := c2.bounds crange
  constructor
  · rintro ⟨ha | ha, hm⟩
    · exact .inl ha
    · refine .inr ⟨ha, fun hx => ?_⟩
      have hb := hbd a hx
      obtain ⟨q1, q2⟩ := hm ⟨.hazel, r.lo, r.hi⟩ ((hmem _).2 (.inl rfl)) ⟨hb.1, hb.2⟩
      simp only at q1 q2
      have hk := (l1 a ha).2.2.1
      obtain ⟨k, x, y⟩ := a
      simp only at hk
      subst hk
      exact hnot x y ha (by simp only at *; omega) (by simp only at *; omega)
  · rintro (ha | ⟨ha, hx⟩)
    · refine ⟨.inl ha, ?_⟩
      intro c hc hi
      subst ha
      rcases (hmem c).1 hc with e | hc'
      · subst e; exact hi
      · obtain ⟨i1, i2⟩ := hi
        simp only at i1 i2
        rcases hor c hc' with q | q | q
        · have := hbd c q
          exact ⟨this.1, this.2⟩
        · omega
        · omega
    · refine ⟨.inr ha, ?_⟩
      intro c hc hi
      have ra := (l1 a ha).1
      obtain ⟨i1, i2⟩ := hi
      rcases (hmem c).1 hc with e | hc'
      · subst e
        simp only at i1 i2
        rcases hor a ha with q | q | q
        · exact absurd q hx
        · omega
        · omega
      · by_cases e : c = a
        · subst e; exact ⟨Nat.le_refl _, Nat.le_refl _⟩
        · have := pairwise_of (fun h => h.symm) disj hc' ha e
          omega

end Verif.Sanitize
