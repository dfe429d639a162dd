/-
The cache of merged postings that readers share (src/owsla.h 88-121, src/bigwig.cc 183-208),
on top of the transaction system.
-/
import Verif.Txn.Live
import Verif.Store.IndexModel
namespace Verif.Txn
open Verif.Store

/-- A posting in the cache: the shards (heap numbers) from which it is filled, taken when
`OwslaCache::get` put it there, and whether the thread that fills it has released it.
owsla.h 92-110, bigwig.cc 197-206. -/
structure Slot where
  shards : List Nat
  done : Bool

/-- The system and all caches: `commit_` makes a new cache (bigwig.cc 1355), which is given
the next number; old ones live on with the readers that have them. -/
structure CSys (τ α : Type) where
  sys : Sys τ α
  slots : Nat → Int → Option Slot

inductive CAct (τ α : Type)
  | sys (a : Act τ α)
  /-- reader `r` asks for feature `f` -/
  | get (r : Nat) (f : Int)
  /-- the thread that fills a posting finishes -/
  | fill (g : Nat) (f : Int)

/-- `raw_hopper` uses the cache: at least two shards have the feature, and it is not that of
the text chunks.  bigwig.cc 184-196 -/
def usesCache (ixs : List Index) (chunk f : Int) : Bool :=
  2 ≤ (contributors ixs f).length && f != chunk

def CSys.put (c : CSys τ α) (g : Nat) (f : Int) (x : Slot) : CSys τ α :=
  { c with slots := fun g' f' => if g' = g ∧ f' = f then some x else c.slots g' f' }

/-- One step.  `index i` is the index of the shard with heap number `i`, `chunk` the feature
of the text chunks. -/
def cstep (M : Ops τ α) (b : Build) (index : Nat → Index) (chunk : Int) (c : CSys τ α) : CAct τ α → Option (CSys τ α)
  | .sys a => (step M b c.sys a).map fun s => { c with sys := s }
  | .get r f =>
    match c.sys.mem.bind fun m => m.readers r with
    | none => none
    | some v =>
      if usesCache (v.shards.map index) chunk f then
        match c.slots v.cache f with
        | some _ => some c
        | none => some (c.put v.cache f ⟨v.shards, false⟩)
      else some c
  | .fill g f =>
    match c.slots g f with
    | some ⟨l, false⟩ => some (c.put g f ⟨l, true⟩)
    | _ => none

open Verif.Hopper in
/-- The hopper `raw_hopper` gives to a reader, from the cache or from its own shards; `none`
if its calls would wait (cache_gate.h 30-36): the posting is not there or not released.
bigwig.cc 183-208 -/
def cachedRaw (index : Nat → Index) (chunk : Int) (slots : Nat → Int → Option Slot) (v : View τ) (f : Int) :
    Option Hopper.Obj :=
  if usesCache (v.shards.map index) chunk f then
    match slots v.cache f with
    | some ⟨l, true⟩ =>
      match fillPosting (contributors (l.map index) f) f with
      | some P => some (arrayObj P.arrays)
      | none => some failObj
    | _ => none
  else some (rawObj (v.shards.map index) f)

open Verif.Hopper in
/-- `BigwigIdx::hopper_` with the cache, bigwig.cc 127-134 -/
def cachedObj (index : Nat → Index) (chunk : Int) (slots : Nat → Int → Option Slot) (v : View τ) (f : Int) :
    Option Hopper.Obj :=
  if erasing (v.shards.map index) && f != nullFeature then do
    let A ← cachedRaw index chunk slots v f
    let B ← cachedRaw index chunk slots v nullFeature
    return nciObj A B
  else cachedRaw index chunk slots v f

variable {τ α : Type} {M : Ops τ α} {flat : α → List (Entry τ)} {m m' : Mem τ α} {b : Build}

/-- how the number of the cache, what is published, and the readers change in a step -/
theorem step_views {s s' : Sys τ α} {a : Act τ α} (hm : s.mem = some m) (hs : step M b s a = some s')
    (hm' : s'.mem = some m') :
    (m'.cache = m.cache + 1 ∨ (m'.cache = m.cache ∧ s'.published = s.published)) ∧
    ∀ r v, m'.readers r = some v → (∃ r', m.readers r' = some v) ∨
      (m'.cache = m.cache ∧ v.cache = m.cache ∧ v.seen = s.published) := by
  obtain ⟨mem, dd, du', pu'⟩ := s
  dsimp only at hm
  subst hm
  have same : ∀ {m1 : Mem τ α} {p : List (Entry τ)}, m1.cache = m.cache → m1.readers = m.readers → p = pu' →
      (m1.cache = m.cache + 1 ∨ (m1.cache = m.cache ∧ p = pu')) ∧
      ∀ r v, m1.readers r = some v → (∃ r', m.readers r' = some v) ∨
        (m1.cache = m.cache ∧ v.cache = m.cache ∧ v.seen = pu') := by
    intro m1 p h1 h2 h3
    exact ⟨.inr ⟨h1, h3⟩, fun r v hr => .inl ⟨r, by rw [← h2]; exact hr⟩⟩
  cases a <;> simp only [Txn.step, reduceCtorEq, Option.some.injEq] at hs
  case scribble n x => subst hs; cases hm'; exact same rfl rfl rfl
  case crash => subst hs; cases hm'
  case begin c t =>
    split at hs <;> simp only [reduceCtorEq, Option.some.injEq] at hs
    subst hs; cases hm'; exact same rfl rfl rfl
  case number c =>
    split at hs <;> simp only [reduceCtorEq, Option.some.injEq] at hs
    subst hs; cases hm'; exact same rfl rfl rfl
  case vote c ok =>
    split at hs <;> simp only [reduceCtorEq, Option.some.injEq] at hs
    subst hs; cases hm'; exact same rfl rfl rfl
  case commit c =>
    have key : ∀ id e k, commitSys b ⟨some m, dd, du', pu'⟩ m c id e k = s' →
        (m'.cache = m.cache + 1 ∨ (m'.cache = m.cache ∧ s'.published = pu')) ∧
        ∀ r v, m'.readers r = some v → (∃ r', m.readers r' = some v) ∨
          (m'.cache = m.cache ∧ v.cache = m.cache ∧ v.seen = pu') := by
      intro id e k hs
      unfold commitSys at hs
      split at hs
      · subst hs; cases hm'
      · subst hs; cases hm'; exact ⟨.inl rfl, fun r v hr => .inl ⟨r, hr⟩⟩
    split at hs <;> simp only [reduceCtorEq, Option.some.injEq] at hs
    · exact key _ _ _ hs
    · exact key _ _ _ hs
  case unkitten c =>
    split at hs <;> simp only [reduceCtorEq, Option.some.injEq] at hs
    subst hs; cases hm'; exact same rfl rfl rfl
  case abort c junk =>
    split at hs <;> simp only [reduceCtorEq, Option.some.injEq] at hs
    · subst hs; cases hm'; exact same rfl rfl rfl
    · subst hs; cases hm'; exact same rfl rfl rfl
  case script key cs =>
    split at hs
    · cases hs
    split at hs
    · cases hs
    split at hs
    · cases hs; cases hm'
    cases hs; cases hm'; exact same rfl rfl rfl
  case unscript key =>
    split at hs <;> simp only [reduceCtorEq, Option.some.injEq] at hs
    subst hs; cases hm'; exact same rfl rfl rfl
  case sweep => subst hs; cases hm'; exact same rfl rfl rfl
  case grab w start n =>
    split at hs
    case h_2 => cases hs
    rw [Option.map_eq_some_iff] at hs
    obtain ⟨m1, hg, rfl⟩ := hs
    cases hm'
    unfold grab at hg
    dsimp only at hg
    split at hg
    · split at hg
      · cases hg
      · cases hg; exact same rfl rfl rfl
    · cases hg
  case make w r =>
    split at hs <;> simp only [reduceCtorEq, Option.some.injEq] at hs
    rename_i job R hw
    subst hs; cases hm'
    unfold makeOut
    cases job with
    | fiverMerge => exact same rfl rfl rfl
    | hazelMerge =>
      dsimp only
      split
      · split <;> exact same rfl rfl rfl
      · exact same rfl rfl rfl
      · cases r <;> exact same rfl rfl rfl
    | convert =>
      dsimp only
      split
      · exact same rfl rfl rfl
      · split <;> exact same rfl rfl rfl
  case install w =>
    split at hs <;> simp only [reduceCtorEq, Option.some.injEq] at hs
    subst hs; cases hm'
    unfold install
    split <;> exact same rfl rfl rfl
  case discard w =>
    split at hs <;> simp only [reduceCtorEq, Option.some.injEq] at hs
    · subst hs; cases hm'; exact same rfl rfl rfl
    · subst hs; cases hm'; exact same rfl rfl rfl
  case rstart r' =>
    split at hs <;> simp only [reduceCtorEq, Option.some.injEq] at hs
    subst hs; cases hm'
    refine ⟨.inr ⟨rfl, rfl⟩, fun r v hr => ?_⟩
    dsimp only at hr
    by_cases hrr : r = r'
    · subst hrr; rw [upd_same] at hr; cases hr; exact .inr ⟨rfl, rfl, rfl⟩
    · rw [upd_ne _ _ hrr] at hr; exact .inl ⟨r, hr⟩
  case rend r' =>
    subst hs; cases hm'
    refine ⟨.inr ⟨rfl, rfl⟩, fun r v hr => ?_⟩
    dsimp only at hr
    by_cases hrr : r = r'
    · subst hrr; rw [upd_same] at hr; cases hr
    · rw [upd_ne _ _ hrr] at hr; exact .inl ⟨r, hr⟩
  case clone r1 r2 =>
    split at hs <;> simp only [reduceCtorEq, Option.some.injEq] at hs
    rename_i v1 hv1 _
    subst hs; cases hm'
    refine ⟨.inr ⟨rfl, rfl⟩, fun r v hr => ?_⟩
    dsimp only at hr
    by_cases hrr : r = r2
    · subst hrr; rw [upd_same] at hr; cases hr; exact .inl ⟨_, hv1⟩
    · rw [upd_ne _ _ hrr] at hr; exact .inl ⟨r, hr⟩

end Verif.Txn
