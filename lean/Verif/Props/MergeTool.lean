import Verif.MergeTool.Model
/-
  C91: the program that merges static shards makes one shard of those it is given, if they are a complete sequence.
-/
namespace Verif.Props
open Verif.MergeTool
open Verif.Names (shardName parseHazelName parseRange_name)

variable {α : Type}

theorem openAll_iff (disk : Disk α) : ∀ (ps : List Path) (ss : List (Shard α)), openAll disk ps = some ss ↔ Holds disk ps ss := by
  intro ps
  induction ps with
  | nil =>
    intro ss
    constructor
    · intro h; simp [openAll] at h; subst h; exact .nil
    · intro h; cases h; rfl
  | cons p ps ih =>
    intro ss
    constructor
    · intro h
      simp only [openAll] at h
      split at h
      · next s hp =>
        split at h
        · next rest hr => cases h; exact .cons hp ((ih rest).1 hr)
        · cases h
      · cases h
    · intro h
      cases h with
      | cons hp hr => simp only [openAll, hp, (ih _).2 hr]

def Within (ss : List (Shard α)) : Prop := ∀ s ∈ ss, ∀ a b, s.range = some (a, b) → a ≤ b ∧ b ≤ top

theorem within_of {disk : Disk α} (hs : Sound disk) {ps : List Path} {ss : List (Shard α)} (h : Holds disk ps ss) : Within ss := by
  induction h with
  | nil => intro s hm; cases hm
  | cons hp _ ih =>
    intro s hm
    rcases List.mem_cons.1 hm with rfl | hm
    · exact hs _ _ hp
    · exact ih s hm

theorem follow_iff : ∀ (ss : List (Shard α)) (a e hi : Nat), Within ss →
    (follow e ss = some hi ↔ ∃ rs, ss.map (·.range) = rs.map some ∧ Complete a hi ((a, e) :: rs)) := by
  intro ss
  induction ss with
  | nil =>
    intro a e hi _
    constructor
    · intro h; simp [follow] at h; subst h; exact ⟨[], rfl, .one⟩
    · rintro ⟨rs, h1, h2⟩
      have : rs = [] := by cases rs with | nil => rfl | cons => simp at h1
      subst this
      cases h2 with
      | one => rfl
      | more h => cases h
  | cons s ss ih =>
    intro a e hi ht
    have ht' : Within ss := fun x hx => ht x (by simp [hx])
    constructor
    · intro h
      simp only [follow] at h
      split at h
      · cases h
      · next b c hs =>
        split at h
        · cases h
        · next hn =>
          have hb : b = e + 1 := by omega
          subst hb
          obtain ⟨rs, h1, h2⟩ := (ih (e + 1) c hi ht').1 h
          exact ⟨(e + 1, c) :: rs, by simp [hs, h1], .more h2⟩
    · rintro ⟨rs, h1, h2⟩
      cases rs with
      | nil => simp at h1
      | cons r rs =>
        simp only [List.map_cons, List.cons.injEq] at h1
        obtain ⟨hr, h1⟩ := h1
        cases h2 with
        | more h2 =>
          obtain ⟨b, c⟩ := r
          have hb : b = e + 1 := by cases h2 <;> rfl
          subst hb
          have hf := (ih (e + 1) c hi ht').2 ⟨rs, h1, h2⟩
          have hc := ht s (by simp) _ _ hr
          have hn : ¬(e = top ∨ e + 1 ≠ e + 1) := by omega
          simp only [follow, hr]
          rw [if_neg hn, hf]

theorem rangeOf_iff (ss : List (Shard α)) (hw : Within ss) (lo hi : Nat) :
    rangeOf ss = some (lo, hi) ↔ ∃ rs, ss.map (·.range) = rs.map some ∧ Complete lo hi rs := by
  cases ss with
  | nil =>
    constructor
    · intro h; cases h
    · rintro ⟨rs, h1, h2⟩
      cases rs with
      | nil => cases h2
      | cons => simp at h1
  | cons s ss =>
    have hw' : Within ss := fun x hx => hw x (by simp [hx])
    constructor
    · intro h
      simp only [rangeOf] at h
      split at h
      · cases h
      · next a b hs =>
        cases hf : follow b ss with
        | none => rw [hf] at h; cases h
        | some e =>
          rw [hf] at h
          simp only [Option.map_some, Option.some.injEq, Prod.mk.injEq] at h
          obtain ⟨rfl, rfl⟩ := h
          obtain ⟨rs, h1, h2⟩ := (follow_iff ss a b e hw').1 hf
          exact ⟨(a, b) :: rs, by simp [hs, h1], h2⟩
    · rintro ⟨rs, h1, h2⟩
      cases rs with
      | nil => simp at h1
      | cons r rs =>
        obtain ⟨a, b⟩ := r
        simp only [List.map_cons, List.cons.injEq] at h1
        obtain ⟨hr, h1⟩ := h1
        have : a = lo := by cases h2 <;> rfl
        subst this
        have hf := (follow_iff ss a b hi hw').2 ⟨rs, h1, h2⟩
        simp only [rangeOf, hr, hf, Option.map_some]

theorem compatible_iff (ss : List (Shard α)) (hn : ss ≠ []) : compatible ss = true ↔ Alike ss := by
  cases ss with
  | nil => exact absurd rfl hn
  | cons s ss =>
    simp only [compatible, Alike, Bool.and_eq_true, List.all_eq_true, beq_iff_eq]
    constructor
    · rintro ⟨h1, h2⟩
      refine ⟨?_, ?_⟩
      · intro t ht
        rcases List.mem_cons.1 ht with rfl | ht
        · exact h1
        · exact (h2 t ht).1
      · have key : ∀ t ∈ s :: ss, t.dna = s.dna := by
          intro t ht
          rcases List.mem_cons.1 ht with rfl | ht
          · rfl
          · exact (h2 t ht).2
        intro t ht u hu
        rw [key t ht, key u hu]
    · rintro ⟨h1, h2⟩
      exact ⟨h1 s (by simp), fun t ht => ⟨h1 t (by simp [ht]), h2 t (by simp [ht]) s (by simp)⟩⟩

theorem sibling_dir {dir name path : Path} (h : InDir dir name path) (out : Path) : sibling path out = dir ++ out := by
  obtain ⟨rfl, h1, h2⟩ := h
  have hd : ∀ (l r : List Char), '/' ∉ l → (l ++ r).dropWhile (· != '/') = r.dropWhile (· != '/') := by
    intro l
    induction l with
    | nil => intro r _; rfl
    | cons c l ih =>
      intro r hm
      have hc : c ≠ '/' := fun e => hm (by simp [e])
      have := ih r (fun e => hm (by simp [e]))
      rw [List.cons_append, List.dropWhile_cons_of_pos (by simp [hc])]
      exact this
  unfold sibling
  rw [List.reverse_append, hd _ _ (by simpa using h1)]
  rcases h2 with rfl | h2
  · simp
  · have : ∃ l, dir.reverse = '/' :: l := by
      cases hr : dir.reverse with
      | nil => simp at hr; subst hr; simp at h2
      | cons c l =>
        have : dir = l.reverse ++ [c] := by rw [← List.reverse_reverse dir, hr]; simp
        rw [this] at h2
        simp at h2
        subst h2
        exact ⟨l, rfl⟩
    obtain ⟨l, hl⟩ := this
    rw [hl, List.dropWhile_cons_of_neg (by simp), ← hl, List.reverse_reverse]

/-- in a complete sequence every number between the first and the last is in just one of the ranges -/
theorem complete_bounds {lo hi : Nat} {rs : List (Nat × Nat)} (h : Complete lo hi rs) :
    (∀ r ∈ rs, r.1 ≤ r.2) → lo ≤ hi ∧ ∀ r ∈ rs, lo ≤ r.1 ∧ r.2 ≤ hi := by
  induction h with
  | one => intro hr; exact ⟨hr _ (List.mem_singleton.2 rfl), by simp⟩
  | more h ih =>
    intro hr
    have h0 := hr _ (List.mem_cons_self ..)
    have h1 := ih (fun r hm => hr r (by simp [hm]))
    simp only at h0
    refine ⟨by omega, ?_⟩
    intro r hm
    rcases List.mem_cons.1 hm with rfl | hm
    · simp only; omega
    · have := h1.2 r hm; omega

theorem complete_once {lo hi : Nat} {rs : List (Nat × Nat)} (h : Complete lo hi rs) (hr : ∀ r ∈ rs, r.1 ≤ r.2) (n : Nat) :
    rs.countP (fun r => decide (r.1 ≤ n) && decide (n ≤ r.2)) = if lo ≤ n ∧ n ≤ hi then 1 else 0 := by
  induction h with
  | one => simp [List.countP_cons]
  | more h ih =>
    next a b c rs =>
    have h0 := hr _ (List.mem_cons_self ..)
    have hr' : ∀ r ∈ rs, r.1 ≤ r.2 := fun r hm => hr r (by simp [hm])
    have h1 := (complete_bounds h hr').1
    simp only at h0
    rw [List.countP_cons, ih hr']
    by_cases x1 : a ≤ n <;> by_cases x2 : n ≤ b <;> by_cases x3 : b + 1 ≤ n <;> by_cases x4 : n ≤ c <;> simp [x1, x2, x3, x4] <;> omega

/-- **C91, partial.**  Let the program be given two or more files, and let each be a static shard, with ranges of sequence numbers
`rs` that follow each other from `lo` to `hi`, of the same configuration and with texts that are not wrapped.  Let there be
nothing in the directory of the first under the name that the merged shard would get.  Then the program succeeds; under that name
there is a shard with the numbers from `lo` to `hi`, with what is in the given shards, in turn, and nothing else; it has the
configuration of the given ones and the parameters of the last; its name is read as that range; and every other file is as before,
those given among them.  Missing: that there is nothing under that name (`C91_stale`), and files of one directory
(`C91_elsewhere`). -/
theorem C91_merged_partial (disk : Disk α) (hs : Sound disk) (dir name : Path) (p : Path) (ps : List Path) (s : Shard α) (ss : List (Shard α))
    (rs : List (Nat × Nat)) (lo hi : Nat)
    (hd : InDir dir name p) (h2 : ps ≠ []) (hh : Holds disk (p :: ps) (s :: ss)) (hr : (s :: ss).map (·.range) = rs.map some)
    (hc : Complete lo hi rs) (ha : Alike (s :: ss)) (hn : disk (dir ++ hazelName lo hi) = none) :
    (main (p :: ps) disk).1 = true
    ∧ (∃ m, (main (p :: ps) disk).2 (dir ++ hazelName lo hi) = some (.shard m) ∧ m.range = some (lo, hi)
        ∧ m.items = (s :: ss).flatMap (·.items) ∧ (∀ t ∈ s :: ss, m.dna = t.dna) ∧ m.plain = true
        ∧ m.params = ((s :: ss).getLast (by simp)).params)
    ∧ parseHazelName (hazelName lo hi) = some (lo, hi)
    ∧ (∀ q, q ≠ dir ++ hazelName lo hi → (main (p :: ps) disk).2 q = disk q)
    ∧ (∀ q ∈ p :: ps, (main (p :: ps) disk).2 q = disk q) := by
  have hw := within_of hs hh
  have ho := (openAll_iff disk _ _).2 hh
  have hg := (rangeOf_iff _ hw lo hi).2 ⟨rs, hr, hc⟩
  have hk := (compatible_iff (s :: ss) (by simp)).2 ha
  have hsib := sibling_dir hd (hazelName lo hi)
  have hlen : ¬(p :: ps).length < 2 := by
    cases ps with
    | nil => exact absurd rfl h2
    | cons => simp
  have hhelp : ¬(p :: ps = [['-', '-', 'h', 'e', 'l', 'p']]) := by
    intro e
    cases ps with
    | nil => exact h2 rfl
    | cons => simp at e
  have hm : main (p :: ps) disk
      = (true, fun q => if q = dir ++ hazelName lo hi then some (.shard (merged (s :: ss) lo hi)) else disk q) := by
    simp only [main]
    rw [if_neg hhelp, if_neg hlen, ho]
    simp only [hg, List.headD_cons, hsib, hn, hk, if_true]
  rw [hm]
  have hb : lo ≤ hi ∧ ∀ r ∈ rs, lo ≤ r.1 ∧ r.2 ≤ hi := by
    apply complete_bounds hc
    intro r hrm
    have : some r ∈ (s :: ss).map (·.range) := by rw [hr]; exact List.mem_map_of_mem hrm
    obtain ⟨t, ht, he⟩ := List.mem_map.1 this
    exact (hw t ht r.1 r.2 he).1
  have htop : hi ≤ top := by
    have : ∀ {a b : Nat} {l : List (Nat × Nat)}, Complete a b l → ∃ r ∈ l, r.2 = b := by
      intro a b l h
      induction h with
      | one => exact ⟨_, List.mem_singleton.2 rfl, rfl⟩
      | more _ ih => obtain ⟨r, hm, e⟩ := ih; exact ⟨r, by simp [hm], e⟩
    obtain ⟨r, hrm, rfl⟩ := this hc
    have : some r ∈ (s :: ss).map (·.range) := by rw [hr]; exact List.mem_map_of_mem hrm
    obtain ⟨t, ht, he⟩ := List.mem_map.1 this
    exact (hw t ht r.1 r.2 he).2
  have h63 : hi < 2 ^ 63 := by have : top = 2 ^ 63 - 1 := by decide
                               omega
  have h63' : lo < 2 ^ 63 := by omega
  refine ⟨rfl, ⟨_, if_pos rfl, rfl, rfl, ?_, rfl, ?_⟩, parseRange_name h63' h63, ?_, ?_⟩
  · intro t ht
    exact ha.2 s (by simp) t ht
  · simp only [merged, List.getLast?_eq_some_getLast (List.cons_ne_nil s ss), Option.bind_some]
  · intro q hq
    exact if_neg hq
  · intro q hq
    apply if_neg
    rintro rfl
    have : ∀ {l : List Path} {xs : List (Shard α)}, Holds disk l xs → ∀ x ∈ l, disk x ≠ none := by
      intro l xs h
      induction h with
      | nil => intro x hx; cases hx
      | cons hp _ ih =>
        intro x hx
        rcases List.mem_cons.1 hx with rfl | hx
        · rw [hp]; simp
        · exact ih x hx
    exact this hh _ hq hn

/-- every number from the first to the last is in just one of the ranges of a complete sequence, and no other number is in any: so the
merged shard has the numbers of the given ones, each once -/
theorem C91_once (lo hi : Nat) (rs : List (Nat × Nat)) (h : Complete lo hi rs) (hr : ∀ r ∈ rs, r.1 ≤ r.2) (n : Nat) :
    rs.countP (fun r => decide (r.1 ≤ n) && decide (n ≤ r.2)) = if lo ≤ n ∧ n ≤ hi then 1 else 0 :=
  complete_once h hr n

/-- when the program merges (it was not asked for help) it succeeds just if it has two or more files, all of them shards, with numbers that are a complete sequence, and
either a shard has the name of the merged one already or nothing has and the shards are alike -/
theorem C91_success_iff (disk : Disk α) (hs : Sound disk) (dir name p : Path) (ps : List Path) (hd : InDir dir name p) (hnh : p :: ps ≠ [['-', '-', 'h', 'e', 'l', 'p']]) :
    (main (p :: ps) disk).1 = true
      ↔ ps ≠ [] ∧ ∃ ss rs lo hi, Holds disk (p :: ps) ss ∧ ss.map (·.range) = rs.map some ∧ Complete lo hi rs
          ∧ ((∃ m, disk (dir ++ hazelName lo hi) = some (.shard m)) ∨ (disk (dir ++ hazelName lo hi) = none ∧ Alike ss)) := by
  simp only [main]
  rw [if_neg hnh]
  constructor
  · intro h
    split at h
    · cases h
    · next hlen =>
      refine ⟨by rintro rfl; simp at hlen, ?_⟩
      split at h
      · cases h
      · next ss ho =>
        have hh := (openAll_iff disk _ _).1 ho
        split at h
        · cases h
        · next lo hi hg =>
          obtain ⟨rs, h1, h2⟩ := (rangeOf_iff ss (within_of hs hh) lo hi).1 hg
          refine ⟨ss, rs, lo, hi, hh, h1, h2, ?_⟩
          simp only [List.headD_cons, sibling_dir hd] at h
          split at h
          · next m hm => exact .inl ⟨m, hm⟩
          · cases h
          · next hm =>
            split at h
            · next hk =>
              refine .inr ⟨hm, (compatible_iff ss ?_).1 hk⟩
              rintro rfl
              cases hh
            · cases h
  · rintro ⟨h2, ss, rs, lo, hi, hh, h1, hc, hx⟩
    have hlen : ¬(p :: ps).length < 2 := by
      cases ps with
      | nil => exact absurd rfl h2
      | cons => simp
    have ho := (openAll_iff disk _ _).2 hh
    have hg := (rangeOf_iff _ (within_of hs hh) lo hi).2 ⟨rs, h1, hc⟩
    rw [if_neg hlen, ho]
    simp only [hg, List.headD_cons, sibling_dir hd]
    rcases hx with ⟨m, hm⟩ | ⟨hm, ha⟩
    · simp only [hm]
    · have hne : ss ≠ [] := by rintro rfl; cases hh
      simp only [hm, (compatible_iff ss hne).2 ha, if_true]

/-- when the program fails no file has changed -/
theorem C91_refused (args : List Path) (disk : Disk α) (h : (main args disk).1 = false) : (main args disk).2 = disk := by
  revert h
  simp only [main]
  repeat' split
  all_goals first | (intro _; rfl) | (intro h; cases h)

/-- whatever happens, all that was there is still there and as it was: at most one file is new, in the directory of the first one given -/
theorem C91_kept (args : List Path) (disk : Disk α) (q : Path) (f : File α) (h : disk q = some f) : (main args disk).2 q = some f := by
  simp only [main]
  repeat' split
  all_goals first
    | exact h
    | skip
  next hn _ =>
    show (if q = _ then _ else disk q) = some f
    rw [if_neg, h]
    rintro rfl
    rw [h] at hn
    cases hn

/-- **The claim is false when there is a shard with the name of the merged one**: whatever is in it, and whatever its sequence
numbers and its configuration are, the program says that the shards were merged into it, and does nothing; even shards that
cannot be merged. -/
theorem C91_stale (disk : Disk α) (hs : Sound disk) (dir name p : Path) (ps : List Path) (ss : List (Shard α)) (rs : List (Nat × Nat)) (lo hi : Nat)
    (hd : InDir dir name p) (h2 : ps ≠ []) (hh : Holds disk (p :: ps) ss) (hr : ss.map (·.range) = rs.map some) (hc : Complete lo hi rs)
    (m : Shard α) (hm : disk (dir ++ hazelName lo hi) = some (.shard m)) : main (p :: ps) disk = (true, disk) := by
  have hlen : ¬(p :: ps).length < 2 := by
    cases ps with
    | nil => exact absurd rfl h2
    | cons => simp
  have hhelp : ¬(p :: ps = [['-', '-', 'h', 'e', 'l', 'p']]) := by
    intro e
    cases ps with
    | nil => exact h2 rfl
    | cons => simp at e
  have ho := (openAll_iff disk _ _).2 hh
  have hg := (rangeOf_iff _ (within_of hs hh) lo hi).2 ⟨rs, hr, hc⟩
  simp only [main]
  rw [if_neg hhelp, if_neg hlen, ho]
  simp only [hg, List.headD_cons, sibling_dir hd, hm]

/-! ### concrete cases -/

def dirA : Path := ['a', '/']
def dirB : Path := ['b', '/']

def firstShard : Shard Nat := ⟨some (0, 4), 7, true, none, [10, 11]⟩
def nextShard : Shard Nat := ⟨some (5, 9), 7, true, some 1, [12]⟩
def staleShard : Shard Nat := ⟨some (3, 3), 8, true, none, [99]⟩

def twoDirs : Disk Nat := fun p =>
  if p = ['a', '/', 'x'] then some (.shard firstShard)
  else if p = ['b', '/', 'y'] then some (.shard nextShard)
  else none

def staleDisk : Disk Nat := fun p => if p = dirA ++ hazelName 0 9 then some (.shard staleShard) else twoDirs p

theorem twoDirs_sound : Sound twoDirs := by
  intro p s h a b hr
  unfold twoDirs at h
  split at h
  · cases h; simp only [firstShard, Option.some.injEq, Prod.mk.injEq] at hr; simp only [top]; omega
  · split at h
    · cases h; simp only [nextShard, Option.some.injEq, Prod.mk.injEq] at hr; simp only [top]; omega
    · cases h

theorem staleDisk_sound : Sound staleDisk := by
  intro p s h a b hr
  unfold staleDisk at h
  split at h
  · cases h; simp only [staleShard, Option.some.injEq, Prod.mk.injEq] at hr; simp only [top]; omega
  · exact twoDirs_sound p s h a b hr

theorem twoDirs_fresh : twoDirs (dirA ++ hazelName 0 9) = none := by decide +kernel

/-- **Nothing says that the shards are of one directory, or of one index**: shards of two are merged into one in the directory of the
first, if their numbers happen to follow each other and their configurations are the same.  In an index the numbers of the transactions begin at the
same number, so this is easily so. -/
theorem C91_elsewhere : (main [['a', '/', 'x'], ['b', '/', 'y']] twoDirs).1 = true
    ∧ (main [['a', '/', 'x'], ['b', '/', 'y']] twoDirs).2 (dirA ++ hazelName 0 9) = some (.shard ⟨some (0, 9), 7, true, some 1, [10, 11, 12]⟩) := by
  decide +kernel

/-- the program is content with a shard that has nothing of those given -/
theorem C91_stale_case : (main [['a', '/', 'x'], ['b', '/', 'y']] staleDisk).1 = true
    ∧ (main [['a', '/', 'x'], ['b', '/', 'y']] staleDisk).2 (dirA ++ hazelName 0 9) = some (.shard staleShard) := by
  have hh : Holds staleDisk [['a', '/', 'x'], ['b', '/', 'y']] [firstShard, nextShard] :=
    .cons (by decide +kernel) (.cons (by decide +kernel) .nil)
  have h := C91_stale staleDisk staleDisk_sound dirA ['x'] ['a', '/', 'x'] [['b', '/', 'y']] [firstShard, nextShard] [(0, 4), (5, 9)] 0 9
    ⟨rfl, by decide, .inr rfl⟩ (by simp) hh rfl (.more .one) staleShard (if_pos rfl)
  rw [h]
  exact ⟨rfl, if_pos rfl⟩

example : (main [['a', '/', 'x'], ['b', '/', 'y']] twoDirs).1 = true :=
  (C91_merged_partial twoDirs twoDirs_sound dirA ['x'] ['a', '/', 'x'] [['b', '/', 'y']] firstShard [nextShard] [(0, 4), (5, 9)] 0 9
    ⟨rfl, by decide, .inr rfl⟩ (by simp) (.cons (by decide +kernel) (.cons (by decide +kernel) .nil)) rfl (.more .one)
    ⟨by simp [firstShard, nextShard], by simp [firstShard, nextShard]⟩ twoDirs_fresh).1

/-- the other way round they are no sequence -/
example : main [['b', '/', 'y'], ['a', '/', 'x']] twoDirs = (false, twoDirs) := by
  have h : (main [['b', '/', 'y'], ['a', '/', 'x']] twoDirs).1 = false := by decide +kernel
  have h2 := C91_refused _ _ h
  cases hm : main [['b', '/', 'y'], ['a', '/', 'x']] twoDirs with
  | mk a b => rw [hm] at h h2; simp only at h h2; rw [h, h2]

end Verif.Props
