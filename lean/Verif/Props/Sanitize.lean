/-
What opening a burrow does with the files of static shards and of interrupted static merges
(C53).
-/
import Verif.Sanitize.Proof
namespace Verif.Props
open Verif.Txn Verif.Sanitize

/-- A merge into the range `lo … hi` can be restarted from `sources`: both of its checkpoint
files are there, and the sources are two or more shards, none of them inside another, whose
ranges follow one another from `lo` to `hi`. -/
def Restarts (dir : List File) (lo hi : Nat) (sources : List FName) : Prop :=
  ⟨.pst, lo, hi⟩ ∈ dir ∧ ⟨.dct, lo, hi⟩ ∈ dir ∧ 2 ≤ sources.length ∧ Covers lo hi sources ∧
    ∀ s ∈ sources, Outermost (shards dir) s

theorem recOf_restarts {dir : List File} {R : Result} (hn : Named dir) (h : sanitize dir = some R) {r : Recovery} :
    recOf dir R.living (r.lo, r.hi) = some r ↔ Restarts dir r.lo r.hi r.sources := by
  obtain ⟨l1, l2, l3⟩ := living_range hn h
  rw [recOf_iff]
  unfold Restarts
  simp only [true_and]
  constructor
  · rintro ⟨q1, q2, q3, q4⟩
    obtain ⟨c1, c2, c3⟩ := (sourceGroup_iff (hn.small _ q2) (fun x hx => (l1 x hx).1) l2).1 q4
    exact ⟨q2, q3, c1, c2, fun s hs => (l3 s).1 (c3 s hs)⟩
  · rintro ⟨q2, q3, c1, c2, c3⟩
    refine ⟨?_, q2, q3, (sourceGroup_iff (hn.small _ q2) (fun x hx => (l1 x hx).1) l2).2 ⟨c1, c2, fun s hs => (l3 s).2 (c3 s hs)⟩⟩
    cases e : hasHazel R.living (r.lo, r.hi) with
    | false => rfl
    | true =>
      exfalso
      obtain ⟨a, ha, e⟩ := List.any_eq_true.1 e
      simp only [Bool.and_eq_true, decide_eq_true_eq] at e
      have hrs : ∀ x ∈ r.sources, x.lo ≤ x.hi := fun x hx => (l1 x ((l3 x).2 (c3 x hx))).1
      have hall : ∀ s ∈ r.sources, s = a := by
        intro s hs
        have hb := c2.bounds hrs s hs
        have := hrs s hs
        have disj : R.living.Pairwise fun a b => a.hi < b.lo ∨ b.hi < a.lo := l2.imp .inl
        apply Classical.byContradiction
        intro hne
        have := pairwise_of (fun h => h.symm) disj ((l3 s).2 (c3 s hs)) ha hne
        omega
      revert c1 c2 hall
      cases r.sources with
      | nil => intro c1; simp at c1
      | cons x t =>
        cases t with
        | nil => intro c1; simp at c1
        | cons y t =>
          intro _ c2 hall
          have e1 := hall x (by simp)
          have e2 := hall y (by simp)
          subst e1
          subst e2
          have := c2.tail.2.head
          have := (l1 _ ha).1
          omega

/-- **C53.** When opening succeeds, the files that remain are exactly: the shards inside no
other, the two checkpoint files of every merge that can be restarted, and the files that are
none of its business.  What it reports are exactly those shards, in order, and exactly those
merges, each with its sources. -/
theorem C53_clean {dir : List File} {R : Result} (hn : Named dir) (h : sanitize dir = some R) :
    (∀ f, f ∈ without dir R.removed ↔ f ∈ dir ∧
      (f.what = .other ∨
       (f.what = .shard ∧ Outermost (shards dir) ⟨.hazel, f.lo, f.hi⟩) ∨
       ((f.what = .pst ∨ f.what = .dct) ∧ ∃ sources, Restarts dir f.lo f.hi sources))) ∧
    (∀ f ∈ R.removed, f ∈ dir) ∧
    (∀ a, a ∈ R.living ↔ Outermost (shards dir) a) ∧ R.living.Pairwise (fun a b => a.hi < b.lo) ∧
    (∀ r, r ∈ R.recoveries ↔ Restarts dir r.lo r.hi r.sources) ∧
    R.recoveries.Pairwise (fun a b => a.lo < b.lo ∨ (a.lo = b.lo ∧ a.hi < b.hi)) := by
  obtain ⟨l1, l2, l3⟩ := living_range hn h
  refine ⟨?_, fun f hf => ((mem_removed hn h).1 hf).1, l3, l2, fun r => by rw [mem_recoveries h, recOf_restarts hn h], ?_⟩
  · intro f
    rw [mem_without, mem_removed hn h]
    have hk : Keep dir R.living f ↔ (f.what = .other ∨
       (f.what = .shard ∧ Outermost (shards dir) ⟨.hazel, f.lo, f.hi⟩) ∨
       ((f.what = .pst ∨ f.what = .dct) ∧ ∃ sources, Restarts dir f.lo f.hi sources)) := by
      unfold Keep
      rw [l3]
      have : (∃ r, recOf dir R.living (f.lo, f.hi) = some r) ↔ ∃ sources, Restarts dir f.lo f.hi sources := by
        constructor
        · rintro ⟨r, hr⟩
          obtain ⟨e1, e2⟩ := recOf_key hr
          simp only at e1 e2
          rw [← e1, ← e2] at hr
          have := (recOf_restarts hn h).1 hr
          rw [e1, e2] at this
          exact ⟨_, this⟩
        · rintro ⟨sources, hs⟩
          exact ⟨⟨f.lo, f.hi, sources⟩, (recOf_restarts (r := ⟨f.lo, f.hi, sources⟩) hn h).2 hs⟩
      rw [this]
    rw [hk]
    constructor
    · rintro ⟨h1, h2⟩
      exact ⟨h1, Classical.byContradiction fun hx => h2 ⟨h1, hx⟩⟩
    · rintro ⟨h1, h2⟩
      exact ⟨h1, fun hx => hx.2 h2⟩
  · obtain ⟨_, _, _, _, e⟩ := sanitize_some h
    rw [e]
    exact recs_sorted dir R.living

/-- **C53.** No data is removed: every sequence number of a shard that was there is in a shard
that remains. -/
theorem C53_covered {dir : List File} {R : Result} (hn : Named dir) (h : sanitize dir = some R) (n : Nat) :
    (∃ f ∈ dir, f.what = .shard ∧ f.lo ≤ n ∧ n ≤ f.hi) ↔
    ∃ f ∈ without dir R.removed, f.what = .shard ∧ f.lo ≤ n ∧ n ≤ f.hi := by
  obtain ⟨_, dead, hs, _, _⟩ := sanitize_some h
  obtain ⟨k1, _, _, k4⟩ := C24_kept (shards_listing hn) hs
  constructor
  · rintro ⟨f, hf, hw, q1, q2⟩
    obtain ⟨a, ha, q3⟩ := (k4 n).1 ⟨⟨.hazel, f.lo, f.hi⟩, mem_shards.2 ⟨rfl, by
      obtain ⟨w, x, y⟩ := f
      simp only at hw
      subst hw
      exact hf⟩, q1, q2⟩
    have ho := (k1 a).1 ha
    obtain ⟨m1, m2⟩ := mem_shards.1 ho.1
    refine ⟨fileOf a, ((C53_clean hn h).1 _).2 ⟨m2, .inr (.inl ⟨rfl, ?_⟩)⟩, rfl, q3⟩
    obtain ⟨k, x, y⟩ := a
    simp only at m1
    subst m1
    exact ho
  · rintro ⟨f, hf, q⟩
    exact ⟨f, (mem_without.1 hf).1, q⟩

/-- **C53.** If the process is stopped after any number of removals, or a removal fails, then
opening the burrow again reports the same shards and the same restartable merges, removes
exactly what was left to remove, and leaves the same files. -/
theorem C53_interrupted {dir : List File} {R : Result} (hn : Named dir) (h : sanitize dir = some R) (k : Nat) :
    ∃ R', sanitize (without dir (R.removed.take k)) = some R' ∧ R'.living = R.living ∧ R'.recoveries = R.recoveries ∧
      without (without dir (R.removed.take k)) R'.removed = without dir R.removed := by
  have hg : ∀ f ∈ R.removed.take k, f ∈ R.removed := fun f hf => List.mem_of_mem_take hf
  obtain ⟨R', h1, h2, h3, h4⟩ := resumed hn h hg
  refine ⟨R', h1, h2, h3, ?_⟩
  unfold without
  rw [List.filter_filter]
  apply List.filter_congr
  intro f hf
  by_cases c : f ∈ R.removed
  · by_cases d : f ∈ R.removed.take k
    · simp [c, d]
    · have := (h4 f).2 ⟨c, d⟩
      simp [c, this]
  · have d : f ∉ R.removed.take k := fun d => c (hg f d)
    have e : f ∉ R'.removed := fun e => c ((h4 f).1 e).1
    simp [c, d, e]

/-- **C53.** Opening a burrow that was opened before removes nothing and reports the same. -/
theorem C53_again {dir : List File} {R : Result} (hn : Named dir) (h : sanitize dir = some R) :
    sanitize (without dir R.removed) = some ⟨[], R.living, R.recoveries⟩ := by
  obtain ⟨R', h1, h2, h3, h4⟩ := resumed hn h (fun f hf => hf)
  have : R'.removed = [] := by
    apply List.eq_nil_iff_forall_not_mem.2
    intro f hf
    obtain ⟨q1, q2⟩ := (h4 f).1 hf
    exact q2 q1
  rw [h1]
  obtain ⟨a, b, c⟩ := R'
  simp only at *
  subst h2; subst h3; subst this
  rfl

/-- **C53.** Opening reports an error, and removes nothing, exactly when there is a name that
begins like a static shard's and is none, or when a shard inside no other shares sequence
numbers with a shard that is not inside it. -/
theorem C53_rejected {dir : List File} (hn : Named dir) :
    sanitize dir = none ↔ (∃ f ∈ dir, f.what = .junk) ∨
      ∃ a b, Outermost (shards dir) a ∧ b ∈ shards dir ∧ Share a b ∧ ¬ Inside a b := by
  rw [← C24_rejected (shards_listing hn).range]
  unfold Verif.Sanitize.sanitize
  by_cases c : (dir.any fun f => f.what = .junk) = true
  · rw [if_pos c]
    obtain ⟨f, hf, e⟩ := List.any_eq_true.1 c
    simp only [true_iff]
    exact .inl ⟨f, hf, by simpa using e⟩
  · rw [if_neg c]
    have hno : ¬ ∃ f ∈ dir, f.what = .junk := by
      rintro ⟨f, hf, e⟩
      exact c (List.any_eq_true.2 ⟨f, hf, by simp [e]⟩)
    cases e : survey (shards dir) with
    | none => simp
    | some r =>
      obtain ⟨l, d⟩ := r
      simp only [reduceCtorEq, or_false, false_iff]
      exact hno

/-- **C53.** Once a restarted merge has put its shard in place, the next opening keeps that
shard instead of its sources, removes the sources and the merge's own files, and keeps every
other shard.  This holds at whatever point after the link the merge was stopped. -/
theorem C53_finished {dir : List File} {R : Result} {r : Recovery} (hn : Named dir) (h : sanitize dir = some R)
    (hr : r ∈ R.recoveries) :
    ∃ R', sanitize (⟨.shard, r.lo, r.hi⟩ :: without dir R.removed) = some R' ∧
      (∀ a, a ∈ R'.living ↔ a = ⟨.hazel, r.lo, r.hi⟩ ∨ (a ∈ R.living ∧ a ∉ r.sources)) ∧
      (∀ s ∈ r.sources, fileOf s ∈ R'.removed) ∧
      ⟨.pst, r.lo, r.hi⟩ ∈ R'.removed ∧ ⟨.dct, r.lo, r.hi⟩ ∈ R'.removed ∧
      ∀ r' ∈ R'.recoveries, (r'.lo, r'.hi) ≠ (r.lo, r.hi) := by
  obtain ⟨R', h1, hn', h3, h4⟩ := installed hn h hr
  obtain ⟨l1, l2, l3⟩ := living_range hn h
  have hres := ((C53_clean hn h).2.2.2.2.1 r).1 hr
  have hsrc : ∀ s ∈ r.sources, s ∈ R.living := fun s hs => (l3 s).2 (hres.2.2.2.2 s hs)
  have hliv : (⟨.hazel, r.lo, r.hi⟩ : FName) ∈ R'.living := (h4 _).2 (.inl rfl)
  have hnone : ∀ r', recOf (⟨.shard, r.lo, r.hi⟩ :: without dir R.removed) R'.living (r.lo, r.hi) ≠ some r' := by
    intro r' e
    have := (recOf_iff.1 e).1
    rw [show hasHazel R'.living (r.lo, r.hi) = true from List.any_eq_true.2 ⟨_, hliv, by simp⟩] at this
    cases this
  have hck : ∀ w, (w = What.pst ∨ w = What.dct) → ⟨w, r.lo, r.hi⟩ ∈ dir → ⟨w, r.lo, r.hi⟩ ∈ R'.removed := by
    intro w hw hm
    refine (mem_removed hn' h1).2 ⟨List.mem_cons_of_mem _ (((C53_clean hn h).1 _).2 ⟨hm, .inr (.inr ⟨hw, _, hres⟩)⟩), ?_⟩
    rintro (e | ⟨e, _⟩ | ⟨_, r', e⟩)
    · simp only at e; subst e; simp at hw
    · simp only at e; subst e; simp at hw
    · exact hnone r' e
  refine ⟨R', h1, h4, ?_, hck _ (.inl rfl) hres.1, hck _ (.inr rfl) hres.2.1, ?_⟩
  · intro s hs
    have hsl := hsrc s hs
    obtain ⟨q1, q2, q3, q4⟩ := l1 s hsl
    have hk : s = ⟨.hazel, s.lo, s.hi⟩ := by
      obtain ⟨k, x, y⟩ := s
      simp only at q3
      subst q3
      rfl
    refine (mem_removed hn' h1).2 ⟨List.mem_cons_of_mem _ (((C53_clean hn h).1 _).2 ⟨q4, .inr (.inl ⟨rfl, ?_⟩)⟩), ?_⟩
    · have := (l3 s).1 hsl
      rw [hk] at this
      exact this
    · rintro (e | ⟨_, e⟩ | ⟨e, _⟩)
      · cases e
      · have e' : s ∈ R'.living := by rw [hk]; exact e
        rcases (h4 s).1 e' with e1 | ⟨_, e1⟩
        · have ho : (⟨.hazel, r.lo, r.hi⟩ : FName) ∈ R.living := e1 ▸ hsl
          have := (recOf_iff.1 ((mem_recoveries h).1 hr)).1
          rw [show hasHazel R.living (r.lo, r.hi) = true from List.any_eq_true.2 ⟨_, ho, by simp⟩] at this
          cases this
        · exact e1 hs
      · simp [fileOf] at e
  · intro r' hr' e
    have := (mem_recoveries h1).1 hr'
    rw [e] at this
    exact hnone r' this

/-! ### The theorems apply -/

/-- three shards, an interrupted merge of all of them, a merge that was stopped before its
second file, a shard inside another, an old file, and a file of another kind -/
def litter : List File :=
  [⟨.shard, 0, 1⟩, ⟨.shard, 2, 2⟩, ⟨.shard, 3, 7⟩, ⟨.shard, 4, 5⟩, ⟨.oldTmp, 0, 1⟩, ⟨.mrg, 0, 7⟩, ⟨.pst, 0, 7⟩, ⟨.dct, 0, 7⟩,
   ⟨.pst, 0, 2⟩, ⟨.dct, 3, 7⟩, ⟨.other, 0, 0⟩]

theorem litter_named : Named litter := ⟨by decide, by decide, by decide⟩

example : sanitize litter = some
    ⟨[⟨.pst, 0, 2⟩, ⟨.mrg, 0, 7⟩, ⟨.dct, 3, 7⟩, ⟨.shard, 4, 5⟩, ⟨.oldTmp, 0, 1⟩],
     [⟨.hazel, 0, 1⟩, ⟨.hazel, 2, 2⟩, ⟨.hazel, 3, 7⟩],
     [⟨0, 7, [⟨.hazel, 0, 1⟩, ⟨.hazel, 2, 2⟩, ⟨.hazel, 3, 7⟩]⟩]⟩ := by decide +kernel

example : sanitize (⟨.shard, 0, 7⟩ :: without litter
      [⟨.pst, 0, 2⟩, ⟨.mrg, 0, 7⟩, ⟨.dct, 3, 7⟩, ⟨.shard, 4, 5⟩, ⟨.oldTmp, 0, 1⟩]) = some
    ⟨[⟨.pst, 0, 7⟩, ⟨.dct, 0, 7⟩, ⟨.shard, 0, 1⟩, ⟨.shard, 2, 2⟩, ⟨.shard, 3, 7⟩], [⟨.hazel, 0, 7⟩], []⟩ := by decide +kernel

example : sanitize [⟨.shard, 0, 2⟩, ⟨.shard, 1, 3⟩] = none ∧ sanitize [⟨.shard, 0, 2⟩, ⟨.junk, 0, 0⟩] = none := by
  refine ⟨?_, ?_⟩ <;> decide +kernel

/-- **C53, against the idea that a reported merge is one that was begun.** The sources are
worked out from the shards that are there now.  A merge of three shards is stopped; another
merge then joins the first two; the next opening reports the first merge again, with the joined
shard as a source, although its checkpoint was made from the three. -/
theorem C53_other_sources :
    (sanitize [⟨.shard, 0, 0⟩, ⟨.shard, 1, 1⟩, ⟨.shard, 2, 2⟩, ⟨.pst, 0, 2⟩, ⟨.dct, 0, 2⟩]).map (·.recoveries) =
      some [⟨0, 2, [⟨.hazel, 0, 0⟩, ⟨.hazel, 1, 1⟩, ⟨.hazel, 2, 2⟩]⟩] ∧
    (sanitize [⟨.shard, 0, 1⟩, ⟨.shard, 0, 0⟩, ⟨.shard, 1, 1⟩, ⟨.shard, 2, 2⟩, ⟨.pst, 0, 2⟩, ⟨.dct, 0, 2⟩]).map (·.recoveries) =
      some [⟨0, 2, [⟨.hazel, 0, 1⟩, ⟨.hazel, 2, 2⟩]⟩] := by
  refine ⟨?_, ?_⟩ <;> decide +kernel

/-- **C53, against the idea that all reported merges can be carried out.** Two reported merges
may share a shard.  After both are carried out, opening the burrow fails. -/
theorem C53_conflict :
    (sanitize [⟨.shard, 0, 0⟩, ⟨.shard, 1, 1⟩, ⟨.shard, 2, 2⟩, ⟨.pst, 0, 1⟩, ⟨.dct, 0, 1⟩, ⟨.pst, 1, 2⟩, ⟨.dct, 1, 2⟩]).map
        (·.recoveries) =
      some [⟨0, 1, [⟨.hazel, 0, 0⟩, ⟨.hazel, 1, 1⟩]⟩, ⟨1, 2, [⟨.hazel, 1, 1⟩, ⟨.hazel, 2, 2⟩]⟩] ∧
    sanitize [⟨.shard, 0, 1⟩, ⟨.shard, 1, 2⟩, ⟨.shard, 0, 0⟩, ⟨.shard, 1, 1⟩, ⟨.shard, 2, 2⟩] = none := by
  refine ⟨?_, ?_⟩ <;> decide +kernel

end Verif.Props
