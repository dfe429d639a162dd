/-
C54: the background merging of a dynamic index picks only shards that nobody is merging, ends,
misses no work, and leaves at most three shards.
-/
import Verif.Sched.Runs
namespace Verif.Props
open Verif.Sched
open Verif.Txn (Kind FName Job)
open Verif.Sanitize (Recovery top)

/-! ### What is merged -/

/-- a shard that is a fiver and is not being merged -/
def FreeFiver (x : Item) : Prop := x.busy = false ∧ x.shard.kind = .fiver
/-- a static shard that is not being merged -/
def FreeStatic (x : Item) : Prop := x.busy = false ∧ x.shard.kind = .hazel

theorem free_fiver {x : Item} : x.fiver = true ↔ FreeFiver x := Item.fiver_iff x
theorem free_static {x : Item} : x.hazel = true ↔ FreeStatic x := Item.hazel_iff x

theorem findAction_cases {max : Nat} {recs : List Recovery} {v : List Item} {p : Nat × Nat} (h : findAction max recs v = some p) :
    findLone v = some p ∨ findTiny v = some p ∨ findStranded v = some p ∨ findLarge v = some p ∨
    findFiverPair v = some p ∨
    (findLarge v = none ∧ findFiverPair v = none ∧ hazelOkay max v = true ∧
      (findRecovered recs v = some p ∨ findHazelPair v = some p)) := by
  unfold findAction findFiver findHazel at h
  cases h1 : findLone v with
  | some q => rw [h1] at h; simp at h; simp [h]
  | none =>
    cases h2 : findTiny v with
    | some q => rw [h1, h2] at h; simp at h; simp [h]
    | none =>
      cases h3 : findStranded v with
      | some q => rw [h1, h2, h3] at h; simp at h; simp [h]
      | none =>
        cases h4 : findLarge v with
        | some q => rw [h1, h2, h3, h4] at h; simp at h; simp [h]
        | none =>
          cases h5 : findFiverPair v with
          | some q => rw [h1, h2, h3, h4, h5] at h; simp at h; simp [h]
          | none =>
            rw [h1, h2, h3, h4, h5] at h
            simp only [Option.or] at h
            split at h
            · rename_i hok
              cases h6 : findRecovered recs v with
              | some q => rw [h6] at h; simp at h; simp [h, hok]
              | none => rw [h6] at h; simp at h; simp [h, hok]
            · cases h

theorem split_view {v : List Item} {i n : Nat} : v = v.take i ++ (v.drop i).take n ++ v.drop (i + n) := by
  rw [List.append_assoc, ← List.drop_drop, List.take_append_drop, List.take_append_drop]

/-- **C54.** What a worker takes is a stretch of the list of shards, and none of it is being
merged by another worker. -/
theorem C54_picks {disk : Bool} {max : Nat} {recs : List Recovery} {v : List Item} {c : Choice}
    (h : choose disk max recs v = some c) :
    ∃ pre post, v = pre ++ c.sel ++ post ∧ pre.length = c.start ∧ c.sel ≠ [] ∧ ∀ x ∈ c.sel, x.busy = false := by
  obtain ⟨h1, h2, h3, h4, _⟩ := choose_some h
  refine ⟨v.take c.start, v.drop (c.start + c.sel.length), ?_, ?_, List.length_pos_iff.1 h1, h4⟩
  · conv => lhs; rw [@split_view v c.start c.sel.length]
    rw [← h3]
  · rw [List.length_take]; omega

theorem one_of {α : Type} {l : List α} (h : l.length = 1) : ∃ x, l = [x] := by
  match l, h with
  | [x], _ => exact ⟨x, rfl⟩

theorem getElem?_mid {pre post : List Item} {x : Item} : (pre ++ x :: post)[pre.length]? = some x := by simp

/-- **C54.** A fiver is written out as a static shard only if it has at least 256 MiB, or has a
static shard on both sides, or is the only shard that is not static. -/
theorem C54_converts {disk : Bool} {max : Nat} {recs : List Recovery} {v : List Item} {c : Choice}
    (h : choose disk max recs v = some c) (hj : c.job = .convert) :
    ∃ pre x post, v = pre ++ x :: post ∧ c.sel = [x] ∧ FreeFiver x ∧
      (256 * 1024 * 1024 ≤ x.shard.size ∨
       (∃ a b, pre.getLast? = some a ∧ post.head? = some b ∧ a.shard.kind = .hazel ∧ b.shard.kind = .hazel) ∨
       ((∀ y ∈ pre ++ post, y.shard.kind = .hazel) ∧ pre ++ post ≠ [])) := by
  obtain ⟨pre, post, hv, hl, _, _⟩ := C54_picks h
  obtain ⟨h1, h2, h3, h4, h5, h6⟩ := choose_some h
  rw [hj] at h5
  obtain ⟨x, hx, hxf⟩ := validate_convert h5
  have hn : c.sel.length = 1 := by rw [hx]; rfl
  rw [hn] at h6
  have hv' : v = pre ++ x :: post := by rw [hv, hx]; simp
  have hat : v[c.start]? = some x := by rw [hv', ← hl]; exact getElem?_mid
  refine ⟨pre, x, post, hv', hx, free_fiver.1 hxf, ?_⟩
  rcases findAction_cases h6 with h | h | h | h | h | ⟨_, _, _, h | h⟩
  · obtain ⟨_, y, hy, hyf, n1, hk, n2⟩ := findLone_some h
    right; right
    have hxk := (free_fiver.1 hxf).2
    have hsum : fivers v = fivers pre + fivers (x :: post) := by rw [hv']; simp [fivers]
    have hsum' : hazels v = hazels pre + hazels (x :: post) := by rw [hv']; simp [hazels]
    rw [fivers_cons, if_pos hxk] at hsum
    rw [hazels_cons, hxk, if_neg (by decide)] at hsum'
    have zero : ∀ l : List Item, fivers l = 0 → ∀ y ∈ l, y.shard.kind ≠ .fiver := by
      intro l hl y hy hk
      have : y ∈ l.filter fun x => x.shard.kind = .fiver := List.mem_filter.2 ⟨hy, by simpa using hk⟩
      rw [List.length_eq_zero_iff.1 hl] at this
      cases this
    refine ⟨?_, ?_⟩
    · intro y hy
      have hyv : y ∈ v := by
        rw [hv']
        rcases List.mem_append.1 hy with hy | hy
        · exact List.mem_append.2 (.inl hy)
        · exact List.mem_append.2 (.inr (List.mem_cons_of_mem _ hy))
      rcases hk y hyv with hyk | hyk
      · rcases List.mem_append.1 hy with hy | hy
        · exact absurd hyk (zero pre (by omega) y hy)
        · exact absurd hyk (zero post (by omega) y hy)
      · exact hyk
    · intro e
      obtain ⟨e1, e2⟩ := List.append_eq_nil_iff.1 e
      have e0 : hazels ([] : List Item) = 0 := rfl
      rw [e1, e2, e0] at hsum'
      rcases n2 with n2 | ⟨n2, _⟩ <;> omega
  · obtain ⟨n, hn, hj, _⟩ := findSequence_some h
    omega
  · obtain ⟨_, k, a, b, z, hk, ha, hb, hz, k1, k2, k3, _⟩ := strandedLoop_some _ _ _ _ h
    right; left
    have e : pre.length = k + 1 := by omega
    refine ⟨a, z, ?_, ?_, k1, k3⟩
    · rw [List.getLast?_eq_getElem?, e]
      rw [hv', List.getElem?_append_left (by omega)] at ha
      exact ha
    · rw [hv', List.getElem?_append_right (by omega)] at hz
      have e2 : k + 2 - pre.length = 1 := by omega
      rw [e2] at hz
      rw [List.head?_eq_getElem?]
      simpa using hz
  · obtain ⟨_, k, y, hk, hy, _, hs, _⟩ := largeLoop_some _ _ _ _ h
    left
    have e : c.start = k := by omega
    rw [← e, hat] at hy
    cases hy
    exact hs
  · have := (smallestPair_some h).1; omega
  · obtain ⟨r, _, hl, hj, _⟩ := findRecovered_some _ _ _ _ h
    omega
  · have := (smallestPair_some h).1; omega

/-- **C54.** Fivers are merged with each other only: either three or more neighbours of less
than 8 MiB each, and then as many as there are anywhere in the list; or two neighbours of less
than 256 MiB each, and then no two other neighbours are smaller together. -/
theorem C54_merges_fivers {disk : Bool} {max : Nat} {recs : List Recovery} {v : List Item} {c : Choice}
    (h : choose disk max recs v = some c) (hj : c.job = .fiverMerge) :
    (∀ x ∈ c.sel, FreeFiver x) ∧
    ((3 ≤ c.sel.length ∧ (∀ x ∈ c.sel, x.shard.size < 8 * 1024 * 1024) ∧
      ∀ pre run post, v = pre ++ run ++ post → (∀ x ∈ run, FreeFiver x ∧ x.shard.size < 8 * 1024 * 1024) →
        run.length ≤ c.sel.length) ∨
     (∃ x y, c.sel = [x, y] ∧ x.shard.size < 256 * 1024 * 1024 ∧ y.shard.size < 256 * 1024 * 1024 ∧
      ∀ pre a b post, v = pre ++ a :: b :: post → FreeFiver a → FreeFiver b → 0 ≤ a.shard.size → 0 ≤ b.shard.size →
        a.shard.size < 256 * 1024 * 1024 → b.shard.size < 256 * 1024 * 1024 →
        x.shard.size + y.shard.size ≤ a.shard.size + b.shard.size)) := by
  obtain ⟨h1, h2, h3, h4, h5, h6⟩ := choose_some h
  rw [hj] at h5
  obtain ⟨hlen, hall⟩ := validate_fiverMerge h5
  refine ⟨fun x hx => free_fiver.1 (hall x hx), ?_⟩
  rcases findAction_cases h6 with h | h | h | h | h | ⟨_, _, _, h | h⟩
  · have := (findLone_some h).1; omega
  · left
    obtain ⟨n, hn, hj, hr, hmost⟩ := findSequence_some h
    have e : n = c.sel.length := by omega
    subst e
    refine ⟨hn, ?_, ?_⟩
    · intro x hx
      rw [h3] at hx
      obtain ⟨k, hk⟩ := List.getElem?_of_mem hx
      rw [List.getElem?_take] at hk
      split at hk
      · rename_i hkn
        rw [List.getElem?_drop] at hk
        have := hr (c.start + k) (by omega) (by omega)
        rw [List.getElem?_map, hk] at this
        simp at this
        exact this.2
      · cases hk
    · intro pre run post e hrun
      refine (hmost pre.length run.length ?_).1
      intro k hk1 hk2
      rw [List.getElem?_map, e, List.append_assoc, List.getElem?_append_right hk1,
        List.getElem?_append_left (by omega), List.getElem?_eq_getElem (by omega)]
      have hm : run[k - pre.length]'(by omega) ∈ run := List.getElem_mem _
      obtain ⟨a1, a2⟩ := hrun _ hm
      show some (_ && decide (_ < small)) = some true
      rw [free_fiver.2 a1]
      have : (run[k - pre.length]'(by omega)).shard.size < small := a2
      simp [this]
  · have := (strandedLoop_some _ _ _ _ h).1; omega
  · have := (largeLoop_some _ _ _ _ h).1; omega
  · right
    obtain ⟨hj, x, y, s, hx, hy, hs, hmin⟩ := smallestPair_some h
    have hn : c.sel.length = 2 := by omega
    rw [hn] at h3
    rw [take_two hx hy] at h3
    obtain ⟨_, _, _, _, b1, b2, rfl⟩ := fiverSum_some hs
    refine ⟨x, y, h3, b1, b2, ?_⟩
    intro pre a b post e ha hb s1 s2 s3 s4
    exact hmin pre.length a b _ (by rw [e]; simp) (by rw [e]; simp) (fiverSum_eq (free_fiver.2 ha) (free_fiver.2 hb) s1 s2 s3 s4)
  · exfalso
    obtain ⟨r, _, hl, hj, hm⟩ := findRecovered_some _ _ _ _ h
    have e : r.sources.length = c.sel.length := by omega
    obtain ⟨_, m2, _⟩ := (matchAt_iff _ _).1 hm
    rw [e, ← h3] at m2
    match hsel : c.sel, h1 with
    | x :: l, _ =>
      have hx : x ∈ c.sel := by rw [hsel]; exact List.mem_cons_self ..
      have a1 := (free_fiver.1 (hall x hx)).2
      have a2 := (free_static.1 (m2 x hx)).2
      rw [a1] at a2; cases a2
  · exfalso
    obtain ⟨hj, x, y, s, hx, hy, hs, _⟩ := smallestPair_some h
    have hn : c.sel.length = 2 := by omega
    rw [hn, take_two hx hy] at h3
    have a1 := (free_fiver.1 (hall x (by rw [h3]; simp))).2
    have a2 := (free_static.1 (hazelSum_some hs).1).2
    rw [a1] at a2; cases a2

theorem sequential_tiles : ∀ (l : List Shard) (p : Nat), sequential (some p) l = true → ∃ b, Tiles (p + 1) l b := by
  intro l
  induction l with
  | nil => intro p _; exact ⟨_, rfl⟩
  | cons s l ih =>
    intro p h
    unfold sequential at h
    rw [Bool.and_eq_true, Bool.and_eq_true] at h
    obtain ⟨⟨h1, h2⟩, h3⟩ := h
    simp at h1 h2
    obtain ⟨b, hb⟩ := ih _ h3
    exact ⟨b, h2.2, h1, hb⟩

/-- **C54.** Static shards are merged with each other only, only in an index with a directory,
only if their numbers follow each other without a gap, only if no fivers wait to be written out
or merged in pairs, and only if a worker is left over: either the sources of a merge that was
reported when the index was opened, or two neighbours, and then no two others are smaller
together. -/
theorem C54_merges_static {disk : Bool} {max : Nat} {recs : List Recovery} {v : List Item} {c : Choice}
    (h : choose disk max recs v = some c) (hj : c.job = .hazelMerge) :
    disk = true ∧ 2 ≤ c.sel.length ∧ (∀ x ∈ c.sel, FreeStatic x) ∧ (∃ a b, Tiles a (c.sel.map (·.shard)) b) ∧
    (v.filter fun x => x.busy && x.shard.kind = .hazel).length + 1 < max ∧
    (∀ x ∈ v, FreeFiver x → x.shard.size < 256 * 1024 * 1024) ∧
    (∀ pre a b post, v = pre ++ a :: b :: post → FreeFiver a → FreeFiver b → a.shard.size < 0 ∨ b.shard.size < 0) ∧
    ((∃ r ∈ recs, c.sel.map (fun x => (x.shard.lo, x.shard.hi)) = r.sources.map fun s => (s.lo, s.hi)) ∨
     (∃ x y, c.sel = [x, y] ∧
      ∀ pre a b post, v = pre ++ a :: b :: post → FreeStatic a → FreeStatic b → 0 ≤ a.shard.size → 0 ≤ b.shard.size →
        x.shard.size + y.shard.size ≤ a.shard.size + b.shard.size)) := by
  obtain ⟨h1, h2, h3, h4, h5, h6⟩ := choose_some h
  rw [hj] at h5
  obtain ⟨hd, hlen, hall, hseq⟩ := validate_hazelMerge h5
  refine ⟨hd, hlen, fun x hx => free_static.1 (hall x hx), ?_, ?_⟩
  · generalize c.sel.map (·.shard) = l at hseq
    cases l with
    | nil => exact ⟨0, 0, rfl⟩
    | cons s l =>
      unfold sequential at hseq
      rw [Bool.and_eq_true, Bool.and_eq_true] at hseq
      obtain ⟨⟨b1, _⟩, b3⟩ := hseq
      obtain ⟨b, hb⟩ := sequential_tiles _ _ b3
      exact ⟨s.lo, b, rfl, by simpa using b1, hb⟩
  · have notFiver : ∀ x, x ∈ c.sel → x.fiver = true → False := by
      intro x hx hf
      have a1 := (free_fiver.1 hf).2
      have a2 := (free_static.1 (hall x hx)).2
      rw [a1] at a2; cases a2
    have key : (findLarge v = none ∧ findFiverPair v = none ∧ hazelOkay max v = true ∧
        (findRecovered recs v = some (c.start, c.start + c.sel.length - 1) ∨
         findHazelPair v = some (c.start, c.start + c.sel.length - 1))) := by
      rcases findAction_cases h6 with h | h | h | h | h | h
      · have := (findLone_some h).1; omega
      · exfalso
        obtain ⟨n, hn, hj, hr, _⟩ := findSequence_some h
        have := hr c.start (Nat.le_refl _) (by omega)
        rw [List.getElem?_map] at this
        cases hx : v[c.start]? with
        | none => rw [hx] at this; cases this
        | some x =>
          rw [hx] at this
          simp at this
          refine notFiver x ?_ this.1
          rw [h3]
          apply List.mem_of_getElem? (i := 0)
          rw [List.getElem?_take, if_pos h1, List.getElem?_drop]
          exact hx
      · have := (strandedLoop_some _ _ _ _ h).1; omega
      · have := (largeLoop_some _ _ _ _ h).1; omega
      · exfalso
        obtain ⟨hj, x, y, s, hx, hy, hs, _⟩ := smallestPair_some h
        have hn : c.sel.length = 2 := by omega
        rw [hn, take_two hx hy] at h3
        exact notFiver x (by rw [h3]; simp) (fiverSum_some hs).1
      · exact h
    obtain ⟨k1, k2, k3, k4⟩ := key
    have hlarge : ∀ x ∈ v, FreeFiver x → x.shard.size < 256 * 1024 * 1024 := by
      intro x hx hf
      apply Classical.byContradiction; intro hn
      exact largeLoop_none _ _ k1 x hx ⟨free_fiver.2 hf, by show (256 * 1024 * 1024 : Int) ≤ _; omega⟩
    refine ⟨by unfold hazelOkay at k3; simpa using k3, hlarge, ?_, ?_⟩
    · intro pre a b post e ha hb
      apply Classical.byContradiction; intro hn
      have := smallestPair_none k2 pre.length a b (by rw [e]; simp) (by rw [e]; simp)
      rw [fiverSum_eq (free_fiver.2 ha) (free_fiver.2 hb) (by omega) (by omega)
        (hlarge a (by rw [e]; simp) ha) (hlarge b (by rw [e]; simp) hb)] at this
      cases this
    · rcases k4 with h | h
      · left
        obtain ⟨r, hr, hl, hj, hm⟩ := findRecovered_some _ _ _ _ h
        have e : r.sources.length = c.sel.length := by omega
        obtain ⟨_, _, m3⟩ := (matchAt_iff _ _).1 hm
        rw [e, ← h3] at m3
        exact ⟨r, hr, m3⟩
      · right
        obtain ⟨hj, x, y, s, hx, hy, hs, hmin⟩ := smallestPair_some h
        have hn : c.sel.length = 2 := by omega
        rw [hn, take_two hx hy] at h3
        obtain ⟨_, _, _, _, rfl⟩ := hazelSum_some hs
        refine ⟨x, y, h3, ?_⟩
        intro pre a b post e ha hb s1 s2
        exact hmin pre.length a b _ (by rw [e]; simp) (by rw [e]; simp) (hazelSum_eq (free_static.2 ha) (free_static.2 hb) s1 s2)

/-- **C54.** A merge of static shards drops the reported merges that it overlaps, and no
others. -/
theorem C54_reports {s t : Sys} (h : Step s .pick t) (r : Recovery) (hr : r ∈ s.recs) (hne : r ∉ t.recs) :
    ∃ c, choose s.disk s.max s.recs (view (s.blocks.filter keepBlock)) = some c ∧ c.job = .hazelMerge ∧
      ∃ a b, c.sel.head? = some a ∧ c.sel.getLast? = some b ∧
        ((r.lo ≤ b.shard.hi ∧ a.shard.lo ≤ r.hi) ∨ ∃ q ∈ r.sources, q.lo ≤ b.shard.hi ∧ a.shard.lo ≤ q.hi) := by
  cases h with
  | @pick c h hc =>
    refine ⟨c, hc, ?_⟩
    dsimp only at hne
    unfold clearRecs at hne
    split at hne
    · rename_i a b h1 h2 h3
      refine ⟨h1, a, b, h2, h3, ?_⟩
      have : conflicts a.shard.lo b.shard.hi r = true := by
        cases hcf : conflicts a.shard.lo b.shard.hi r with
        | true => rfl
        | false => exact absurd (List.mem_filter.2 ⟨hr, by simp [hcf]⟩) hne
      unfold conflicts at this
      simpa using this
    · exact absurd hr hne

/-! ### The workers -/

/-- **C54.** There are never more workers than allowed. -/
theorem C54_workers {s t : Sys} {as : List Label} (h : Run s as t) (hv : Valid s.blocks) (hw : s.workers ≤ s.max) :
    t.workers ≤ t.max := by
  induction h with
  | nil => exact hw
  | cons h _ ih => exact ih (step_valid h hv) (step_workers h hv hw)

/-- **C54.** What a worker takes is marked, and nothing else changes its state: no shard is in
two merges. -/
theorem C54_marks {s t : Sys} (h : Step s .pick t) (hv : Valid s.blocks) :
    ∃ pre ss post job, s.blocks.filter keepBlock = pre ++ ss.map Block.free ++ post ∧
      t.blocks = pre ++ .busy job ss :: post ∧ JobOk job ss := by
  cases h with
  | @pick c h hc =>
    obtain ⟨pre, ss, post, e1, e2, _, e4, _⟩ := pick_blocks (hv.filter _) hc
    exact ⟨pre, ss, post, c.job, e1, e2, e4⟩

/-- **C54.** Merging ends: if nobody commits or aborts and no merge fails, the workers take at
most eight steps for each shard and three for each of them. -/
theorem C54_ends {s t : Sys} {as : List Label} (h : Run s as t) (hv : Valid s.blocks)
    (ha : ∀ a ∈ as, a = .start ∨ a = .pick ∨ a = .retire ∨ a = .finish) :
    as.length ≤ 8 * (view s.blocks).length + s.idle + 2 * s.owed := by
  have := run_worth h (fun a hm => by rcases ha a hm with rfl | rfl | rfl | rfl <;> rfl) hv
  have h2 := worths_le (bs := s.blocks)
  unfold Sys.worth at this
  omega

/-- **C54.** Until all is quiet somebody can go on, so it does become quiet. -/
theorem C54_settles (s : Sys) (hv : Valid s.blocks) :
    ∃ as t, Run s as t ∧ (∀ a ∈ as, a = .start ∨ a = .pick ∨ a = .retire ∨ a = .finish) ∧ Quiet t := by
  obtain ⟨as, t, h1, h2, h3⟩ := settles _ s (Nat.le_refl _) hv
  refine ⟨as, t, h1, fun a ha => ?_, h3⟩
  have := h2 a ha
  cases a <;> simp [Label.inner] at this ⊢

/-- **C54.** No work is missed: whatever the order in which writers and workers run, if no
merge fails then, when all is quiet after somebody has run, every aborted transaction is gone
and there is nothing left that could be merged. -/
theorem C54_nothing_missed {s t : Sys} {as : List Label} (h : Run s as t) (hv : Valid s.blocks) (hm : 0 < s.max)
    (hf : .fail ∉ as) (hs : ¬ Quiet s ∨ ¬ NoneOpen s) (hq : Quiet t) (ho : NoneOpen t) :
    (∀ x, .free x ∈ t.blocks → x.kind ≠ .remove) ∧ choose t.disk t.max t.recs (view t.blocks) = none := by
  have hl : Live s := by
    intro h1 h2
    rcases hs with hs | hs
    · exact absurd h2 hs
    · exact absurd h1 hs
  obtain ⟨d1, d2⟩ := run_live h hv hm hf hl ho hq
  refine ⟨fun x hx => ?_, d2⟩
  rw [← d1] at hx
  have := (List.mem_filter.1 hx).2
  simpa [keepBlock] using this

/-- **C54.** If no transaction is aborted and no merge fails, then an index with a directory
has at most three shards when all is quiet: none, one, or a static one between two others of
less than 256 MiB. -/
theorem C54_three_shards {s t : Sys} {as : List Label} (h : Run s as t) (hs : Solid s) (hd : s.disk = true) (hm : 2 ≤ s.max)
    (ha : .abort ∉ as) (hf : .fail ∉ as) (hstart : ¬ Quiet s ∨ ¬ NoneOpen s) (hq : Quiet t) (ho : NoneOpen t)
    (hn : t.next ≤ top) :
    (∃ l : List Shard, t.blocks = l.map .free ∧ (∀ x ∈ l, x.kind = .fiver → x.size < 256 * 1024 * 1024) ∧
      (l.map (·.kind) = [] ∨ l.map (·.kind) = [.fiver] ∨ l.map (·.kind) = [.hazel] ∨ l.map (·.kind) = [.fiver, .hazel, .fiver])) := by
  obtain ⟨_, ⟨a, htl⟩, hk, hz⟩ := run_solid h ha hs
  obtain ⟨_, hc⟩ := C54_nothing_missed h hs.valid (by omega) hf hstart hq ho
  obtain ⟨c1, c2⟩ := run_const h
  have hfree := quiet_free hq
  generalize t.blocks.flatMap Block.shards = l at htl hk hz hfree
  rw [hfree, view_of_free, c2, hd] at hc
  have hkitten : ∀ x ∈ l, x.kind ≠ .kitten := by
    intro x hx
    refine ho x ?_
    rw [hfree]
    exact List.mem_map.2 ⟨x, hx, rfl⟩
  have := choose_none_shape (max := t.max) (recs := t.recs) (v := l.map (⟨·, false⟩)) (by omega) ?_ ?_ ?_ ?_ ?_ ?_ hc
  · obtain ⟨h1, h2⟩ := this
    refine ⟨l, hfree, ?_, ?_⟩
    · intro x hx hxk
      exact h1 ⟨x, false⟩ (List.mem_map.2 ⟨x, hx, rfl⟩) hxk
    · have e : (l.map fun s => (⟨s, false⟩ : Item)).map (·.shard.kind) = l.map (·.kind) := by
        rw [List.map_map]; rfl
      rw [e] at h2
      exact h2
  · intro x hx; obtain ⟨y, _, rfl⟩ := List.mem_map.1 hx; rfl
  · intro x hx; obtain ⟨y, hy, rfl⟩ := List.mem_map.1 hx; exact hz y hy (hkitten y hy)
  · intro x hx; obtain ⟨y, hy, rfl⟩ := List.mem_map.1 hx; exact (tiles_mem _ _ _ htl y hy).1
  · intro x hx; obtain ⟨y, hy, rfl⟩ := List.mem_map.1 hx
    have := (tiles_mem _ _ _ htl y hy).2
    dsimp only; omega
  · intro k x y hx hy
    rw [List.getElem?_map] at hx hy
    cases hx' : l[k]? with
    | none => rw [hx'] at hx; cases hx
    | some x' =>
      cases hy' : l[k + 1]? with
      | none => rw [hy'] at hy; cases hy
      | some y' =>
        rw [hx'] at hx; rw [hy'] at hy
        cases hx; cases hy
        exact tiles_next _ _ _ htl k x' y' hx' hy'
  · intro x hx
    obtain ⟨y, hy, rfl⟩ := List.mem_map.1 hx
    have h1 := hk y hy
    have h2 := hkitten y hy
    dsimp only
    cases hyk : y.kind <;> simp_all

/-! ### The hypotheses are met, and the limits of the claims -/

/-- a shard with no number -/
def shard (k : Kind) (size : Int) (lo hi : Nat) : Shard := ⟨k, size, lo, hi⟩

/-- an index with a directory, four workers and nothing in it -/
def emptyIndex : Sys := ⟨true, 4, [], 0, [], 0, 0⟩

/-- two transactions in preparation in an empty index -/
def twoOpen : Sys :=
  { emptyIndex with blocks := [.free (shard .kitten 0 0 0), .free (shard .kitten 0 1 1)], next := 2 }

example : Run emptyIndex [.ready, .ready] twoOpen :=
  .cons (.ready (n := 0)) (.cons (.ready (n := 0)) .nil)

theorem twoOpen_solid : Solid twoOpen := by
  refine ⟨?_, ⟨0, ?_⟩, ?_, ?_⟩
  · intro j l hm; simp [twoOpen] at hm
  · simp [twoOpen, Tiles, Block.shards, shard, emptyIndex]
  · intro x hx; simp [twoOpen, Block.shards, shard] at hx; rcases hx with rfl | rfl <;> decide
  · intro x hx hk; simp [twoOpen, Block.shards, shard] at hx; rcases hx with rfl | rfl <;> simp at hk

/-- the end of a run: the two are merged into one -/
def oneShard : Sys := { emptyIndex with blocks := [.free (shard .fiver 15 0 1)], next := 2 }

theorem run_cons {s u : Sys} {as : List Label} (a : Label) (t : Sys) (h : Step s a t) (r : Run t as u) : Run s (a :: as) u := .cons h r

/-- Both commit; the first starts a worker that finds nothing to do and retires; the second
starts one that merges both. -/
theorem twoOpen_run :
    Run twoOpen [.commit, .start, .retire, .commit, .start, .pick, .finish, .retire, .retire] oneShard := by
  refine run_cons .commit { twoOpen with blocks := [.free (shard .fiver 10 0 0), .free (shard .kitten 0 1 1)], owed := 1 }
    (.commit (pre := []) (x := shard .kitten 0 0 0) (n := 10) rfl (by decide) rfl) ?_
  refine run_cons .start { twoOpen with blocks := [.free (shard .fiver 10 0 0), .free (shard .kitten 0 1 1)], idle := 1 }
    (.start (by decide)) ?_
  refine run_cons .retire { twoOpen with blocks := [.free (shard .fiver 10 0 0), .free (shard .kitten 0 1 1)] }
    (.retire (by decide) (by decide +kernel)) ?_
  refine run_cons .commit { twoOpen with blocks := [.free (shard .fiver 10 0 0), .free (shard .fiver 5 1 1)], owed := 1 }
    (.commit (pre := [.free (shard .fiver 10 0 0)]) (x := shard .kitten 0 1 1) (n := 5) rfl (by decide) rfl) ?_
  refine run_cons .start { twoOpen with blocks := [.free (shard .fiver 10 0 0), .free (shard .fiver 5 1 1)], idle := 1 }
    (.start (by decide)) ?_
  refine run_cons .pick { twoOpen with blocks := [.busy .fiverMerge [shard .fiver 10 0 0, shard .fiver 5 1 1]], idle := 1 }
    (.pick (c := ⟨.fiverMerge, 0, [⟨shard .fiver 10 0 0, false⟩, ⟨shard .fiver 5 1 1, false⟩]⟩) (by decide) (by decide +kernel)) ?_
  refine run_cons .finish { oneShard with idle := 2 } 
    (.finish (pre := []) (post := []) (job := .fiverMerge) (l := [shard .fiver 10 0 0, shard .fiver 5 1 1]) (n := 15) (by decide) rfl) ?_
  refine run_cons .retire { oneShard with idle := 1 } (.retire (by decide) (by decide +kernel)) ?_
  exact run_cons .retire oneShard (.retire (by decide) (by decide +kernel)) .nil

/-- the hypotheses of `C54_three_shards` and `C54_nothing_missed` are met by that run -/
example :=
  C54_three_shards twoOpen_run twoOpen_solid rfl (by decide) (by decide) (by decide)
    (.inr fun h => h (shard .kitten 0 0 0) (by simp [twoOpen]) rfl)
    ⟨rfl, rfl, fun j l hm => by simp [oneShard] at hm⟩
    (fun x hx => by simp [oneShard] at hx; rw [hx]; decide) (by decide)

/-- each kind of work is chosen -/
example :
    (choose true 4 [] [⟨shard .hazel 9 0 4, false⟩, ⟨shard .fiver 1 5 5, false⟩, ⟨shard .hazel 9 6 7, false⟩]).map (·.job) = some .convert ∧
    (choose true 4 [] [⟨shard .fiver (300 * 1024 * 1024) 0 0, false⟩]).map (·.job) = some .convert ∧
    (choose true 4 [] [⟨shard .hazel 9 0 4, false⟩, ⟨shard .fiver 1 5 5, false⟩]).map (·.job) = some .convert ∧
    (choose true 4 [] [⟨shard .fiver 9 0 4, true⟩, ⟨shard .fiver 1 5 5, false⟩, ⟨shard .fiver 2 6 6, false⟩, ⟨shard .fiver 3 7 7, false⟩]).map (·.start) = some 1 ∧
    (choose true 4 [] [⟨shard .hazel 9 0 4, false⟩, ⟨shard .hazel 8 5 5, false⟩, ⟨shard .hazel 7 6 6, false⟩]).map (fun c => (c.job, c.start)) =
      some (.hazelMerge, 1) ∧
    (choose true 4 [⟨0, 5, [⟨.hazel, 0, 4⟩, ⟨.hazel, 5, 5⟩]⟩]
      [⟨shard .hazel 9 0 4, false⟩, ⟨shard .hazel 8 5 5, false⟩, ⟨shard .hazel 7 6 6, false⟩]).map (fun c => (c.job, c.start)) =
      some (.hazelMerge, 0) := by
  refine ⟨?_, ?_, ?_, ?_, ?_, ?_⟩ <;> decide +kernel

/-- the third shape is one that stays: a static shard between two others -/
example : choose true 4 [] [⟨shard .fiver 9 0 4, false⟩, ⟨shard .hazel 8 5 5, false⟩, ⟨shard .fiver 7 6 6, false⟩] = none := by
  decide +kernel

/-! ### Where it fails -/

/-- three static shards, the first two parted by the number of an aborted transaction -/
def gap : List Shard := [shard .hazel 10 0 0, shard .hazel 10 2 2, shard .hazel 1000 3 3]

def gapIndex : Sys := ⟨true, 4, gap.map .free, 4, [], 0, 0⟩

/-- It comes about from an empty index by three commits and an abort. -/
theorem gap_run : Run emptyIndex
    [.ready, .commit, .start, .pick, .retire, .finish, .retire, .ready, .abort, .start, .retire, .ready, .commit, .start, .pick, .retire, .finish, .retire, .ready, .commit, .start, .pick, .retire, .finish, .retire] gapIndex := by
  refine run_cons .ready ⟨true, 4, [.free (shard .kitten 0 0 0)], 1, [], 0, 0⟩
    (.ready (n := 0)) ?_
  refine run_cons .commit ⟨true, 4, [.free (shard .fiver (300 * 1024 * 1024) 0 0)], 1, [], 0, 1⟩
    (.commit (pre := []) (post := []) (x := shard .kitten 0 0 0) (n := (300 * 1024 * 1024)) rfl (by decide) rfl) ?_
  refine run_cons .start ⟨true, 4, [.free (shard .fiver (300 * 1024 * 1024) 0 0)], 1, [], 1, 0⟩
    (.start (by decide)) ?_
  refine run_cons .pick ⟨true, 4, [.busy .convert [shard .fiver (300 * 1024 * 1024) 0 0]], 1, [], 1, 0⟩
    (.pick (c := ⟨.convert, 0, [⟨shard .fiver (300 * 1024 * 1024) 0 0, false⟩]⟩) (by decide) (by decide +kernel)) ?_
  refine run_cons .retire ⟨true, 4, [.busy .convert [shard .fiver (300 * 1024 * 1024) 0 0]], 1, [], 0, 0⟩
    (.retire (by decide) (by decide +kernel)) ?_
  refine run_cons .finish ⟨true, 4, [.free (shard .hazel 10 0 0)], 1, [], 1, 0⟩
    (.finish (pre := []) (post := []) (job := .convert) (l := [shard .fiver (300 * 1024 * 1024) 0 0]) (n := 10) (by decide) rfl) ?_
  refine run_cons .retire ⟨true, 4, [.free (shard .hazel 10 0 0)], 1, [], 0, 0⟩
    (.retire (by decide) (by decide +kernel)) ?_
  refine run_cons .ready ⟨true, 4, [.free (shard .hazel 10 0 0), .free (shard .kitten 0 1 1)], 2, [], 0, 0⟩
    (.ready (n := 0)) ?_
  refine run_cons .abort ⟨true, 4, [.free (shard .hazel 10 0 0), .free (shard .remove 0 1 1)], 2, [], 0, 1⟩
    (.abort (pre := [.free (shard .hazel 10 0 0)]) (post := []) (x := shard .kitten 0 1 1) rfl rfl) ?_
  refine run_cons .start ⟨true, 4, [.free (shard .hazel 10 0 0), .free (shard .remove 0 1 1)], 2, [], 1, 0⟩
    (.start (by decide)) ?_
  refine run_cons .retire ⟨true, 4, [.free (shard .hazel 10 0 0)], 2, [], 0, 0⟩
    (.retire (by decide) (by decide +kernel)) ?_
  refine run_cons .ready ⟨true, 4, [.free (shard .hazel 10 0 0), .free (shard .kitten 0 2 2)], 3, [], 0, 0⟩
    (.ready (n := 0)) ?_
  refine run_cons .commit ⟨true, 4, [.free (shard .hazel 10 0 0), .free (shard .fiver (300 * 1024 * 1024) 2 2)], 3, [], 0, 1⟩
    (.commit (pre := [.free (shard .hazel 10 0 0)]) (post := []) (x := shard .kitten 0 2 2) (n := (300 * 1024 * 1024)) rfl (by decide) rfl) ?_
  refine run_cons .start ⟨true, 4, [.free (shard .hazel 10 0 0), .free (shard .fiver (300 * 1024 * 1024) 2 2)], 3, [], 1, 0⟩
    (.start (by decide)) ?_
  refine run_cons .pick ⟨true, 4, [.free (shard .hazel 10 0 0), .busy .convert [shard .fiver (300 * 1024 * 1024) 2 2]], 3, [], 1, 0⟩
    (.pick (c := ⟨.convert, 1, [⟨shard .fiver (300 * 1024 * 1024) 2 2, false⟩]⟩) (by decide) (by decide +kernel)) ?_
  refine run_cons .retire ⟨true, 4, [.free (shard .hazel 10 0 0), .busy .convert [shard .fiver (300 * 1024 * 1024) 2 2]], 3, [], 0, 0⟩
    (.retire (by decide) (by decide +kernel)) ?_
  refine run_cons .finish ⟨true, 4, [.free (shard .hazel 10 0 0), .free (shard .hazel 10 2 2)], 3, [], 1, 0⟩
    (.finish (pre := [.free (shard .hazel 10 0 0)]) (post := []) (job := .convert) (l := [shard .fiver (300 * 1024 * 1024) 2 2]) (n := 10) (by decide) rfl) ?_
  refine run_cons .retire ⟨true, 4, [.free (shard .hazel 10 0 0), .free (shard .hazel 10 2 2)], 3, [], 0, 0⟩
    (.retire (by decide) (by decide +kernel)) ?_
  refine run_cons .ready ⟨true, 4, [.free (shard .hazel 10 0 0), .free (shard .hazel 10 2 2), .free (shard .kitten 0 3 3)], 4, [], 0, 0⟩
    (.ready (n := 0)) ?_
  refine run_cons .commit ⟨true, 4, [.free (shard .hazel 10 0 0), .free (shard .hazel 10 2 2), .free (shard .fiver (300 * 1024 * 1024) 3 3)], 4, [], 0, 1⟩
    (.commit (pre := [.free (shard .hazel 10 0 0), .free (shard .hazel 10 2 2)]) (post := []) (x := shard .kitten 0 3 3) (n := (300 * 1024 * 1024)) rfl (by decide) rfl) ?_
  refine run_cons .start ⟨true, 4, [.free (shard .hazel 10 0 0), .free (shard .hazel 10 2 2), .free (shard .fiver (300 * 1024 * 1024) 3 3)], 4, [], 1, 0⟩
    (.start (by decide)) ?_
  refine run_cons .pick ⟨true, 4, [.free (shard .hazel 10 0 0), .free (shard .hazel 10 2 2), .busy .convert [shard .fiver (300 * 1024 * 1024) 3 3]], 4, [], 1, 0⟩
    (.pick (c := ⟨.convert, 2, [⟨shard .fiver (300 * 1024 * 1024) 3 3, false⟩]⟩) (by decide) (by decide +kernel)) ?_
  refine run_cons .retire ⟨true, 4, [.free (shard .hazel 10 0 0), .free (shard .hazel 10 2 2), .busy .convert [shard .fiver (300 * 1024 * 1024) 3 3]], 4, [], 0, 0⟩
    (.retire (by decide) (by decide +kernel)) ?_
  refine run_cons .finish ⟨true, 4, [.free (shard .hazel 10 0 0), .free (shard .hazel 10 2 2), .free (shard .hazel 1000 3 3)], 4, [], 1, 0⟩
    (.finish (pre := [.free (shard .hazel 10 0 0), .free (shard .hazel 10 2 2)]) (post := []) (job := .convert) (l := [shard .fiver (300 * 1024 * 1024) 3 3]) (n := 1000) (by decide) rfl) ?_
  exact run_cons .retire ⟨true, 4, [.free (shard .hazel 10 0 0), .free (shard .hazel 10 2 2), .free (shard .hazel 1000 3 3)], 4, [], 0, 0⟩
    (.retire (by decide) (by decide +kernel)) .nil

/-- **C54, failure.** The gap that an aborted transaction leaves between the two smallest static
shards stops the merging of static shards altogether: the other two could be merged, and a
worker finds nothing to do, however many of them may run. -/
theorem C54_gap_blocks :
    (∃ as, Run emptyIndex as gapIndex ∧ .fail ∉ as) ∧
    (∀ k, choose true (2 + k) [] (view gapIndex.blocks) = none) ∧
    (choose true 4 [] ((view gapIndex.blocks).drop 1)).map (·.job) = some .hazelMerge := by
  refine ⟨⟨_, gap_run, by decide⟩, ?_, by decide +kernel⟩
  intro k
  have h0 : view gapIndex.blocks = gap.map (⟨·, false⟩) := rfl
  rw [h0]
  have h1 : findFiver (gap.map (⟨·, false⟩)) = none := by decide +kernel
  have h2 : findRecovered [] (gap.map (⟨·, false⟩)) = none := rfl
  have h3 : findHazelPair (gap.map (⟨·, false⟩)) = some (0, 1) := by decide +kernel
  have h4 : hazelOkay (2 + k) (gap.map (⟨·, false⟩)) = true := okay_of (by omega) (by
    intro x hx; obtain ⟨y, _, rfl⟩ := List.mem_map.1 hx; rfl)
  have h5 : findAction (2 + k) [] (gap.map (⟨·, false⟩)) = some (0, 1) := by
    unfold findAction findHazel
    rw [h1, h2, h3, h4]; rfl
  unfold choose
  rw [h5]
  decide +kernel

/-- **C54, failure.** In an index without a directory a fiver cannot be written out as a static
shard; one of at least 256 MiB is picked again and again, and the pair after it is never
merged. -/
theorem C54_memory_blocks :
    ∃ (s t : Sys), s.disk = false ∧ Step s .pick t ∧ (∃ u, Step t .fail u ∧ u.blocks = s.blocks) ∧
      (∀ c, choose s.disk s.max s.recs (view (s.blocks.filter keepBlock)) = some c → c.job = .convert ∧ c.start = 0) ∧
      (choose s.disk s.max s.recs ((view s.blocks).drop 1)).map (·.job) = some .fiverMerge := by
  refine ⟨⟨false, 4, [.free (shard .fiver (300 * 1024 * 1024) 0 0), .free (shard .fiver 1 1 1), .free (shard .fiver 2 2 2)], 3, [], 1, 0⟩,
    ⟨false, 4, [.busy .convert [shard .fiver (300 * 1024 * 1024) 0 0], .free (shard .fiver 1 1 1), .free (shard .fiver 2 2 2)], 3, [], 1, 0⟩,
    rfl, ?_, ?_, ?_, by decide +kernel⟩
  · exact .pick (c := ⟨.convert, 0, [⟨shard .fiver (300 * 1024 * 1024) 0 0, false⟩]⟩) (by decide) (by decide +kernel)
  · exact ⟨_, .fail (pre := []) rfl, rfl⟩
  · intro c hc
    have : choose false 4 [] (view ([.free (shard .fiver (300 * 1024 * 1024) 0 0), .free (shard .fiver 1 1 1), .free (shard .fiver 2 2 2)].filter keepBlock)) =
        some ⟨.convert, 0, [⟨shard .fiver (300 * 1024 * 1024) 0 0, false⟩]⟩ := by decide +kernel
    rw [show _ = _ from hc] at this
    cases this
    exact ⟨rfl, rfl⟩

/-- **C54, failure.** A merge that fails is not tried again until the next transaction: all is
quiet, and there is work. -/
theorem C54_failure_forgotten :
    ∃ (s t : Sys), Run s [.pick, .retire, .fail] t ∧ Quiet t ∧ NoneOpen t ∧
      (choose t.disk t.max t.recs (view t.blocks)).map (·.job) = some .fiverMerge := by
  refine ⟨⟨true, 4, [.free (shard .fiver 1 1 1), .free (shard .fiver 2 2 2)], 3, [], 1, 0⟩,
    ⟨true, 4, [.free (shard .fiver 1 1 1), .free (shard .fiver 2 2 2)], 3, [], 0, 0⟩, ?_,
    ⟨rfl, rfl, fun j l hm => by simp at hm⟩, fun x hx => by simp at hx; rcases hx with rfl | rfl <;> decide, by decide +kernel⟩
  refine run_cons .pick ⟨true, 4, [.busy .fiverMerge [shard .fiver 1 1 1, shard .fiver 2 2 2]], 3, [], 1, 0⟩
    (.pick (c := ⟨.fiverMerge, 0, [⟨shard .fiver 1 1 1, false⟩, ⟨shard .fiver 2 2 2, false⟩]⟩) (by decide) (by decide +kernel)) ?_
  refine run_cons .retire ⟨true, 4, [.busy .fiverMerge [shard .fiver 1 1 1, shard .fiver 2 2 2]], 3, [], 0, 0⟩
    (.retire (by decide) (by decide +kernel)) ?_
  exact run_cons .fail _ (.fail (pre := []) (post := []) rfl) .nil

end Verif.Props
