import Verif.Props.EndToEnd
import Verif.Txn.Cache
/-
  The cache of merged postings (C33).
-/
namespace Verif.Props
open Verif.Txn Verif.Store Verif.Hopper Verif.Gcl

/-- Steps of the burrow, lookups of readers and fillings of postings, in any order, while
the process is alive. -/
inductive CRun {τ α : Type} (M : Ops τ α) (b : Build) (index : Nat → Store.Index) (chunk : Int) :
    CSys τ α → CSys τ α → Prop
  | refl (c : CSys τ α) : CRun M b index chunk c c
  | next {c d e : CSys τ α} (a : CAct τ α) : CRun M b index chunk c d → cstep M b index chunk d a = some e →
      e.sys.mem ≠ none → CRun M b index chunk c e

/-- what is known of a posting in the cache with number `g` -/
def SlotOk {τ α : Type} (flat : α → List (Entry τ)) (m : Mem τ α) (pu : List (Entry τ)) (g : Nat) (x : Slot) : Prop :=
  ∃ seen : List (Entry τ), g ≤ m.cache ∧ (g = m.cache → ∀ e, e ∈ seen ↔ e ∈ pu) ∧
    (∀ r v, m.readers r = some v → v.cache = g → ∀ e, e ∈ v.seen ↔ e ∈ seen) ∧
    (∀ i ∈ x.shards, i < m.fresh ∧ shown (m.heap i) = true) ∧
    (x.shards.flatMap fun i => flat (m.heap i).body).Pairwise (fun e e' => e.seq < e'.seq) ∧
    ∀ e, (e ∈ x.shards.flatMap fun i => flat (m.heap i).body) ↔ e ∈ seen

section
variable {τ α : Type} {M : Ops τ α} {flat : α → List (Entry τ)} {b : Build} {index : Nat → Store.Index} {chunk : Int}

theorem slots_ok (hM : Lawful M flat) {s : Sys τ α} (hs : Session M b s) {c : CSys τ α}
    (h : CRun M b index chunk ⟨s, fun _ _ => none⟩ c) :
    Session M b c.sys ∧ ∃ m, c.sys.mem = some m ∧ ∀ g f x, c.slots g f = some x → SlotOk flat m c.sys.published g x := by
  induction h with
  | refl =>
    obtain ⟨m, e, _⟩ := hs.sess hM
    exact ⟨hs, m, e, fun g f x hx => by cases hx⟩
  | @next c c' a _ hst hne ih =>
    obtain ⟨h1, m, hm, h2⟩ := ih
    obtain ⟨d, du, hi⟩ := h1.inv hM hm
    cases a with
    | sys a =>
      simp only [cstep, Option.map_eq_some_iff] at hst
      obtain ⟨s1, hs1, rfl⟩ := hst
      dsimp only at hne ⊢
      cases hm1 : s1.mem with
      | none => exact absurd hm1 hne
      | some m1 =>
        refine ⟨h1.live (.next (P := fun _ => True) a (.refl _) trivial hs1 hne), m1, rfl, fun g f x hx => ?_⟩
        obtain ⟨seen, q1, q2, q3, q4, q5, q6⟩ := h2 g f x hx
        obtain ⟨w1, w2⟩ := step_views hm hs1 hm1
        have hfz : ∀ i ∈ x.shards, i < m1.fresh ∧ m1.heap i = m.heap i := fun i hx =>
          frozen hi hm hs1 hm1 (q4 i hx).1 (q4 i hx).2
        have hfl : (x.shards.flatMap fun i => flat (m1.heap i).body) = x.shards.flatMap fun i => flat (m.heap i).body :=
          flatMap_congr' fun i hi => by rw [(hfz i hi).2]
        refine ⟨seen, ?_, ?_, ?_, ?_, ?_, ?_⟩
        · rcases w1 with w | ⟨w, _⟩ <;> omega
        · intro hg
          rcases w1 with w | ⟨w, hp⟩
          · omega
          · rw [hp]; exact q2 (by omega)
        · intro r v hr hg
          rcases w2 r v hr with ⟨r', hr'⟩ | ⟨w3, w4, w5⟩
          · exact q3 r' v hr' hg
          · intro e; rw [w5]; exact (q2 (by omega) e).symm
        · intro i hi
          obtain ⟨z1, z2⟩ := hfz i hi
          exact ⟨z1, by rw [z2]; exact (q4 i hi).2⟩
        · rw [hfl]; exact q5
        · rw [hfl]; exact q6
    | get r f =>
      simp only [cstep] at hst
      split at hst
      · cases hst
      · rename_i v hv
        rw [hm] at hv
        simp only [Option.bind_some] at hv
        have : ∀ c'', some c'' = some c' → c'' = c' := fun _ h => Option.some.inj h
        split at hst
        · split at hst
          · cases hst; exact ⟨h1, m, hm, h2⟩
          · cases hst
            refine ⟨h1, m, hm, fun g f' x hx => ?_⟩
            simp only [CSys.put] at hx
            split at hx
            · rename_i hgf
              obtain ⟨rfl, rfl⟩ := hgf
              cases hx
              obtain ⟨g1, g2⟩ := hi.gens r v hv
              obtain ⟨v1, v2, v3⟩ := hi.view r v hv
              exact ⟨v.seen, g1, g2, fun r' v' hr' hc => hi.agree r' r v' v hr' hv hc, v1, v2.imp fun h => h.1, v3⟩
            · exact h2 g f' x hx
        · cases hst; exact ⟨h1, m, hm, h2⟩
    | fill g f =>
      simp only [cstep] at hst
      split at hst
      · rename_i l hl
        cases hst
        refine ⟨h1, m, hm, fun g' f' x hx => ?_⟩
        simp only [CSys.put] at hx
        split at hx
        · rename_i hgf
          obtain ⟨rfl, rfl⟩ := hgf
          cases hx
          exact (h2 g' f' _ hl : SlotOk flat m _ g' ⟨l, false⟩)
        · exact h2 g' f' x hx
      · cases hst

theorem slots_used {c0 c : CSys τ α} (h : CRun M b index chunk c0 c) (h0 : ∀ g f, c0.slots g f = none)
    {g : Nat} {f : Int} {x : Slot} (hx : c.slots g f = some x) : usesCache (x.shards.map index) chunk f = true := by
  induction h generalizing g f x with
  | refl => rw [h0] at hx; cases hx
  | @next d e a _ hst _ ih =>
    cases a with
    | sys a =>
      simp only [cstep, Option.map_eq_some_iff] at hst
      obtain ⟨s1, _, rfl⟩ := hst
      exact ih hx
    | get r f' =>
      simp only [cstep] at hst
      split at hst
      · cases hst
      · split at hst
        · rename_i hu
          split at hst
          · cases hst; exact ih hx
          · cases hst
            simp only [CSys.put] at hx
            split at hx
            · rename_i hgf; cases hx; rw [hgf.2]; exact hu
            · exact ih hx
        · cases hst; exact ih hx
    | fill g' f' =>
      simp only [cstep] at hst
      split at hst
      · rename_i l' hl
        cases hst
        simp only [CSys.put] at hx
        split at hx
        · rename_i hgf; cases hx; rw [hgf.2]; exact (ih hl : usesCache (l'.map index) chunk f' = true)
        · exact ih hx
      · cases hst

/-- **C33.**  A posting that has been filled stays in its cache as it is. -/
theorem C33_filled_for_good {c c' : CSys τ α} (h : CRun M b index chunk c c') {g : Nat} {f : Int} {l : List Nat}
    (hf : c.slots g f = some ⟨l, true⟩) : c'.slots g f = some ⟨l, true⟩ := by
  induction h with
  | refl => exact hf
  | @next d e a _ hst _ ih =>
    cases a with
    | sys a =>
      simp only [cstep, Option.map_eq_some_iff] at hst
      obtain ⟨s1, _, rfl⟩ := hst
      exact ih
    | get r f' =>
      simp only [cstep] at hst
      split at hst
      · cases hst
      · split at hst
        · split at hst
          · cases hst; exact ih
          · rename_i hn
            cases hst
            simp only [CSys.put]
            rw [if_neg]
            · exact ih
            · rintro ⟨rfl, rfl⟩; rw [ih] at hn; cases hn
        · cases hst; exact ih
    | fill g' f' =>
      simp only [cstep] at hst
      split at hst
      · rename_i l' hl
        cases hst
        simp only [CSys.put]
        rw [if_neg]
        · exact ih
        · rintro ⟨rfl, rfl⟩; rw [ih] at hl; cases hl
      · cases hst

/-- **C33.**  A lookup does not wait for ever: once a reader has asked for the feature (and,
if the burrow has erasures, for the erased ranges), every posting it waits for is in the
cache, and finishing its thread releases it. -/
theorem C33_progress {c c' : CSys τ α} {m : Mem τ α} {r : Nat} {v : View τ} (hm : c.sys.mem = some m)
    (hr : m.readers r = some v) {f : Int} (hg : cstep M b index chunk c (.get r f) = some c') :
    cachedRaw index chunk c'.slots v f ≠ none ∨
    ∃ c'', cstep M b index chunk c' (.fill v.cache f) = some c'' ∧ cachedRaw index chunk c''.slots v f ≠ none := by
  simp only [cstep, hm, Option.bind_some, hr] at hg
  by_cases hu : usesCache (v.shards.map index) chunk f = true
  · rw [if_pos hu] at hg
    have key : ∀ l, (cachedRaw index chunk (c'.put v.cache f ⟨l, true⟩).slots v f) ≠ none := by
      intro l
      unfold cachedRaw
      rw [if_pos hu]
      simp only [CSys.put, and_self, if_true]
      split <;> simp
    split at hg
    · rename_i x hx
      cases hg
      obtain ⟨l, done⟩ := x
      cases done with
      | true =>
        left
        unfold cachedRaw
        rw [if_pos hu, hx]
        dsimp only
        split <;> simp
      | false =>
        right
        exact ⟨_, by simp only [cstep, hx], key l⟩
    · cases hg
      right
      refine ⟨_, by simp only [cstep, CSys.put, and_self, if_true]; rfl, ?_⟩
      unfold cachedRaw
      rw [if_pos hu]
      simp only [and_self, if_true]
      split <;> simp
  · rw [if_neg hu] at hg
    cases hg
    left
    unfold cachedRaw
    rw [if_neg hu]
    simp

end

variable {b : Build} {s : Sys Content (Tree Content)} {index : Nat → Store.Index} {chunk : Int}

/-- **C33.**  In any order of commits, aborts, merges, readers, lookups and fillings: when a
lookup through the cache gives a hopper that does not wait, that hopper is right — it
implements exactly what is visible of the transactions `P` in the reader's own shards,
although the postings may have been filled by another reader, from other shards, before or
after merges, and that reader may have ended. -/
theorem C33_cache_partial (hs : Session burrowOps b s) {c : CSys Content (Tree Content)}
    (h : CRun burrowOps b index chunk ⟨s, fun _ _ => none⟩ c) {m : Mem Content (Tree Content)}
    (hm : c.sys.mem = some m) (hix : ∀ i, i < m.fresh → shown (m.heap i) = true → Holds (m.heap i).body (index i))
    {r : Nat} {v : View Content} (hr : m.readers r = some v) {P : List (Entry Content)} (ht : Tidy P)
    (hP : ∀ e, e ∈ P ↔ ∃ i ∈ v.shards, e ∈ (m.heap i).body.leaves) {f : Int} {H : Hopper.Obj}
    (hH : cachedObj index chunk c.slots v f = some H) : Implements H (Visible P f) := by
  obtain ⟨h1, m', hm', h2⟩ := slots_ok (treeOps_lawful Content.tokens fun t => t.added.isEmpty) hs h
  rw [hm] at hm'; cases hm'
  obtain ⟨d, du, hi⟩ := h1.inv (treeOps_lawful _ _) hm
  obtain ⟨v1, v2, v3⟩ := hi.view r v hr
  -- any list of shards with these transactions
  have good : ∀ l : List Nat, (∀ i ∈ l, i < m.fresh ∧ shown (m.heap i) = true) →
      (l.flatMap fun i => (m.heap i).body.leaves).Pairwise (fun e e' => e.seq < e'.seq) →
      (∀ e, (e ∈ l.flatMap fun i => (m.heap i).body.leaves) ↔ e ∈ P) →
      (∀ ix ∈ l.map index, GoodIx ix) ∧
      (∀ a, solutionsRaw (l.map index) nullFeature a ↔ Shows P nullFeature a) ∧
      (∀ f a, ¬ Erased P a → (solutionsRaw (l.map index) f a ↔ Shows P f a)) := by
    intro l l1 l2 l3
    have e1 : (l.map fun i => ((m.heap i).body, index i)).map (·.2) = l.map index := by rw [List.map_map]; rfl
    have e2 : ((l.map fun i => ((m.heap i).body, index i)).flatMap fun x => x.1.leaves) =
        l.flatMap fun i => (m.heap i).body.leaves := by rw [List.flatMap_map]
    have := shards_raw ht (l := l.map fun i => ((m.heap i).body, index i)) (by
      intro x hx
      obtain ⟨i, hi', rfl⟩ := List.mem_map.1 hx
      exact hix i (l1 i hi').1 (l1 i hi').2) (by rw [e2]; exact l3) (by rw [e2]; exact l2)
    rw [e1] at this
    exact this
  have vP : ∀ e, (e ∈ v.shards.flatMap fun i => (m.heap i).body.leaves) ↔ e ∈ P := by
    intro e; rw [hP, List.mem_flatMap]
  have own := good v.shards v1 (v2.imp fun h => h.1) vP
  -- the hopper of one feature implements the raw solutions of some such list
  have raw : ∀ g H, cachedRaw index chunk c.slots v g = some H → ∃ l : List Nat,
      (∀ ix ∈ l.map index, GoodIx ix) ∧
      (∀ a, solutionsRaw (l.map index) nullFeature a ↔ Shows P nullFeature a) ∧
      (∀ f a, ¬ Erased P a → (solutionsRaw (l.map index) f a ↔ Shows P f a)) ∧
      Implements H (solutionsRaw (l.map index) g) := by
    intro g H hH
    unfold cachedRaw at hH
    split at hH
    · rename_i hu
      split at hH
      · rename_i l hl
        obtain ⟨seen, q1, q2, q3, q4, q5, q6⟩ := h2 _ _ _ hl
        have lP : ∀ e, (e ∈ l.flatMap fun i => (m.heap i).body.leaves) ↔ e ∈ P := by
          intro e
          rw [q6 e, ← q3 r v hr rfl e, ← v3 e]
          exact vP e
        have fill := good l q4 q5 lP
        refine ⟨l, fill.1, fill.2.1, fill.2.2, ?_⟩
        have hraw := raw_impl fill.1 g
        -- the filler had at least two shards with the feature
        have hul := slots_used h (fun _ _ => rfl) hl
        have : rawObj (l.map index) g = H := by
          unfold usesCache at hul
          simp only [Bool.and_eq_true, decide_eq_true_eq] at hul
          unfold rawObj
          match hcs : contributors (l.map index) g with
          | [] => rw [hcs] at hul; simp at hul
          | [_] => rw [hcs] at hul; simp at hul
          | x :: y :: cs =>
            simp only
            rw [hcs] at hH
            split at hH
            · rename_i Q hQ; rw [hQ]; exact Option.some.inj hH
            · rename_i hQ; rw [hQ]; exact Option.some.inj hH
        rw [← this]
        exact hraw
      · cases hH
    · cases hH
      exact ⟨v.shards, own.1, own.2.1, own.2.2, raw_impl own.1 g⟩
  unfold cachedObj at hH
  by_cases hf : f = nullFeature
  · subst hf
    simp only [bne_self_eq_false, Bool.and_false, Bool.false_eq_true, if_false] at hH
    obtain ⟨l, _, q2, _, q4⟩ := raw _ _ hH
    refine Store.Implements.congr q4 fun a => ?_
    rw [q2]
    unfold Visible
    exact ⟨fun h => ⟨h, fun h' => absurd rfl h'⟩, fun h => h.1⟩
  · split at hH
    · cases hA : cachedRaw index chunk c.slots v f with
      | none => rw [hA] at hH; cases hH
      | some A =>
        cases hB : cachedRaw index chunk c.slots v nullFeature with
        | none => rw [hA, hB] at hH; cases hH
        | some B =>
          rw [hA, hB] at hH
          cases hH
          obtain ⟨l, g1, _, q3, I, hI⟩ := raw _ _ hA
          obtain ⟨l', g1', q2', _, J, hJ⟩ := raw _ _ hB
          refine Store.Implements.congr ⟨_, nci_impl (solutionsRaw_wf g1 f) (solutionsRaw_wf g1' nullFeature) hI hJ⟩ fun a => ?_
          exact visible_of_raw ht hf q2' (q3 f) a
    · rename_i he
      have he' : erasing (v.shards.map index) = false := by
        cases hE : erasing (v.shards.map index) with
        | false => rfl
        | true => rw [hE] at he; simp [hf] at he
      have hno : ∀ a, ¬ Shows P nullFeature a := fun a ha => not_erasing own.1 he' a ((own.2.1 a).2 ha)
      obtain ⟨l, _, _, q3, q4⟩ := raw _ _ hH
      refine Store.Implements.congr q4 fun a => ?_
      have := visible_of_raw ht hf (R0 := fun _ => False) (R := solutionsRaw (l.map index) f)
        (fun a => ⟨fun h => h.elim, fun h => hno a h⟩) (q3 f) a
      rw [← this]
      unfold notContainedIn
      simp

/-! ### A case that meets the hypotheses: a posting filled from three shards, served to a
reader that has two -/

def small (v : Int) : Content := ⟨[(7, ⟨staging, staging, v⟩)], 2⟩

def three : List (Act Content (Tree Content)) :=
  [.reopen, .begin 0 (small 3), .number 0, .vote 0 true, .commit 0, .unkitten 0,
   .begin 0 (small 4), .number 0, .vote 0 true, .commit 0, .unkitten 0,
   .begin 0 (small 5), .number 0, .vote 0 true, .commit 0, .unkitten 0, .rstart 0]

def threeThen : List (CAct Content (Tree Content)) :=
  three.map .sys ++ [.get 0 7, .sys (.grab 0 0 2), .sys (.make 0 .ok), .sys (.install 0), .sys (.rend 0),
    .sys (.rstart 1), .get 1 7, .fill 3 7]

def oneIx (n v : Int) : Store.Index := indexOf [(7, ⟨n, n, v⟩)]

def threeIndex : Nat → Store.Index
  | 0 => oneIx 0 3
  | 1 => oneIx 2 4
  | 2 => oneIx 4 5
  | _ => fun f => (mergeFeature [oneIx 0 3, oneIx 2 4] f).getD none

def csteps (c : CSys Content (Tree Content)) : List (CAct Content (Tree Content)) → Option (CSys Content (Tree Content))
  | [] => some c
  | a :: l => match cstep burrowOps .checked threeIndex 99 c a with
    | none => none
    | some c' => csteps c' l

example : ((csteps ⟨newBurrow, fun _ _ => none⟩ threeThen).map fun c =>
    (c.slots 3 7).map fun x => (x.shards, x.done)) = some (some ([0, 1, 2], true)) := by decide

example : ((csteps ⟨newBurrow, fun _ _ => none⟩ threeThen).bind fun c => c.sys.mem.bind fun m => (m.readers 1).map fun v =>
    (v.shards, v.cache, (cachedObj threeIndex 99 c.slots v 7).isSome)) = some ([3, 2], 3, true) := by decide

/-- the merged shard has the index `threeIndex` gives it -/
example : Holds (.merge [.leaf ⟨0, 0, small 3⟩, .leaf ⟨1, 2, small 4⟩]) (threeIndex 3) := by
  have h0 : Holds (.leaf ⟨0, 0, small 3⟩) (oneIx 0 3) := .leaf (by
    rw [show placed ⟨0, 0, small 3⟩ = [(7, ⟨0, 0, 3⟩)] by decide]; exact sorted_self (by decide))
  have h1 : Holds (.leaf ⟨1, 2, small 4⟩) (oneIx 2 4) := .leaf (by
    rw [show placed ⟨1, 2, small 4⟩ = [(7, ⟨2, 2, 4⟩)] by decide]; exact sorted_self (by decide))
  refine Holds.merge (l := [(.leaf ⟨0, 0, small 3⟩, oneIx 0 3), (.leaf ⟨1, 2, small 4⟩, oneIx 2 4)]) ?_ ?_
  · intro x hx
    simp only [List.mem_cons, List.not_mem_nil, or_false] at hx
    rcases hx with rfl | rfl
    · exact h0
    · exact h1
  · intro f
    have g : ∀ e : Entry Content, ∀ n v, placed e = [(7, ⟨n, n, v⟩)] → minfinity < n → n < maxfinity → plus0 ⟨n, n, v⟩ = ⟨n, n, v⟩ →
        Orderly e.base e.txn.added := by
      intro e n v hp h1 h2 h3 f
      unfold atFinal ofFeature
      rw [show e.txn.added.map (relocate e.base) = [(7, ⟨n, n, v⟩)] from hp]
      by_cases hf : (7 : Int) = f
      · subst hf; simp; exact ⟨h1, h2, h3⟩
      · simp [hf]
    have good : ∀ ix ∈ [oneIx 0 3, oneIx 2 4], GoodIx ix := by
      intro ix hix
      simp only [List.mem_cons, List.not_mem_nil, or_false] at hix
      rcases hix with rfl | rfl
      · exact txn_good (g ⟨0, 0, small 3⟩ 0 3 (by decide) (by decide) (by decide) (by decide))
          (by rw [show List.map (relocate ↑(⟨0, 0, small 3⟩ : Entry Content).base) (⟨0, 0, small 3⟩ : Entry Content).txn.added =
            [(7, ⟨0, 0, 3⟩)] by decide]; exact sorted_self (by decide))
      · exact txn_good (g ⟨1, 2, small 4⟩ 2 4 (by decide) (by decide) (by decide) (by decide))
          (by rw [show List.map (relocate ↑(⟨1, 2, small 4⟩ : Entry Content).base) (⟨1, 2, small 4⟩ : Entry Content).txn.added =
            [(7, ⟨2, 2, 4⟩)] by decide]; exact sorted_self (by decide))
    obtain ⟨M, hM, _⟩ := merge_index_ok good (by simp)
    show mergeFeature [oneIx 0 3, oneIx 2 4] f = some ((mergeFeature [oneIx 0 3, oneIx 2 4] f).getD none)
    rw [hM f]; rfl

end Verif.Props
