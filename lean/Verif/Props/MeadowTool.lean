import Verif.MeadowTool.Model
/-
  C94: the command that appends files to a meadow appends each of them once, and says so.
-/
namespace Verif.Props
open Verif.MeadowTool
open Verif.Paths (normalized)

/-! ### arguments -/

theorem says_flag {a : Text} {k : Kind} (h : Says a k) : a.head? = some '-' := by cases h <;> rfl

theorem parse_says {a : Text} {k : Kind} (h : Says a k) (type : Option Kind) (as : List Text) : parse type false (a :: as) = parse (some k) true as := by
  cases h <;> simp [parse, tsvFlag, jsonlFlag, jsonFlag]

theorem file_flags {a : Text} (h : IsFile a) : a ≠ tsvFlag ∧ a ≠ jsonlFlag ∧ a ≠ jsonFlag := by
  refine ⟨?_, ?_, ?_⟩ <;> rintro rfl <;> exact h rfl

theorem parse_file {a : Text} (h : IsFile a) (k : Kind) (e : Bool) (as : List Text) : parse (some k) e (a :: as) = (parse (some k) false as).map ((k, a) :: ·) := by
  obtain ⟨h1, h2, h3⟩ := file_flags h
  rw [parse, if_neg h1, if_neg (by simp [h2, h3]), if_neg h]

theorem parse_files (k : Kind) : ∀ (fs : List Text), (∀ x ∈ fs, IsFile x) → ∀ rest, parse (some k) false (fs ++ rest) = (parse (some k) false rest).map ((fs.map fun x => (k, x)) ++ ·) := by
  intro fs
  induction fs with
  | nil => intro _ rest; simp
  | cons f fs ih =>
    intro h rest
    rw [List.cons_append, parse_file (h f (by simp)), ih (fun x hx => h x (by simp [hx]))]
    cases parse (some k) false rest <;> rfl

theorem groups_parse {args : List Text} {is : List (Kind × Text)} (h : Groups args is) : ∀ type, parse type false args = some is := by
  induction h with
  | nil => intro type; simp [parse]
  | group hs hf hfs _ ih =>
    intro type
    rw [parse_says hs, parse_file hf, parse_files _ _ hfs, ih]
    simp

theorem parse_groups : ∀ (args : List Text), (∀ is, parse none false args = some is → Groups args is)
    ∧ ∀ k e is, parse (some k) e args = some is → ∃ fs rest is', args = fs ++ rest ∧ (∀ x ∈ fs, IsFile x) ∧ is = (fs.map fun x => (k, x)) ++ is' ∧ Groups rest is' ∧ (e = true → fs ≠ []) := by
  intro args
  induction args with
  | nil =>
    refine ⟨?_, ?_⟩
    · intro is h
      simp [parse] at h
      subst h
      exact .nil
    · intro k e is h
      cases e with
      | true => simp [parse] at h
      | false =>
        simp [parse] at h
        subst h
        exact ⟨[], [], [], rfl, by simp, rfl, .nil, by simp⟩
  | cons a as ih =>
    have flag : ∀ k, Says a k → ∀ is, parse (some k) true as = some is → Groups (a :: as) is := by
      intro k hs is h
      obtain ⟨fs, rest, is', rfl, h2, rfl, h4, h5⟩ := ih.2 k true is h
      cases fs with
      | nil => exact absurd rfl (h5 rfl)
      | cons f fs => exact .group hs (h2 f (by simp)) (fun x hx => h2 x (by simp [hx])) h4
    have dec : (∃ k, Says a k) ∨ ¬(∃ k, Says a k) ∧ a.head? = some '-' ∨ IsFile a := by
      by_cases h : a.head? = some '-'
      · by_cases h' : ∃ k, Says a k
        · exact .inl h'
        · exact .inr (.inl ⟨h', h⟩)
      · exact .inr (.inr h)
    rcases dec with ⟨k, hs⟩ | ⟨hn, hd⟩ | hf
    · refine ⟨?_, ?_⟩
      · intro is h
        rw [parse_says hs] at h
        exact flag k hs is h
      · intro k' e is h
        cases e with
        | true => cases hs <;> simp [parse, tsvFlag, jsonlFlag, jsonFlag] at h
        | false =>
          rw [parse_says hs] at h
          exact ⟨[], a :: as, is, rfl, by simp, rfl, flag k hs is h, by simp⟩
    · have h1 : a ≠ tsvFlag := by rintro rfl; exact hn ⟨_, .tsv⟩
      have h2 : a ≠ jsonlFlag := by rintro rfl; exact hn ⟨_, .jsonl⟩
      have h3 : a ≠ jsonFlag := by rintro rfl; exact hn ⟨_, .json⟩
      have : ∀ type e, parse type e (a :: as) = none := by
        intro type e
        rw [parse.eq_def]
        simp only
        rw [if_neg h1, if_neg (by simp [h2, h3]), if_pos hd]
      refine ⟨?_, ?_⟩
      · intro is h
        rw [this] at h
        cases h
      · intro k e is h
        rw [this] at h
        cases h
    · refine ⟨?_, ?_⟩
      · intro is h
        obtain ⟨h1, h2, h3⟩ := file_flags hf
        rw [parse, if_neg h1, if_neg (by simp [h2, h3]), if_neg hf] at h
        cases h
      · intro k e is h
        rw [parse_file hf] at h
        cases hp : parse (some k) false as with
        | none => rw [hp] at h; cases h
        | some js =>
          rw [hp] at h
          simp only [Option.map_some, Option.some.injEq] at h
          obtain ⟨fs, rest, is', h1, h2, h3, h4, -⟩ := ih.2 k false js hp
          refine ⟨a :: fs, rest, is', by rw [h1]; rfl, ?_, by rw [← h, h3]; rfl, h4, by simp⟩
          intro x hx
          rcases List.mem_cons.1 hx with rfl | hx
          · exact hf
          · exact h2 x hx

/-- **C94** (arguments): the arguments are accepted exactly if they are groups of an option and one or more files, and the files have the types
of their groups -/
theorem C94_arguments (args : List Text) (is : List (Kind × Text)) : parse none false args = some is ↔ Groups args is :=
  ⟨(parse_groups args).1 is, fun h => groups_parse h none⟩

/-! ### appending -/

def allWhole : Nat → Outcome := fun _ => .whole

/-- what a file that goes well adds -/
def both (k : Kind) (f : Text) : List Item := [.path (normalized f), .content (normalized f) k]

theorem ask_all {bad : Text → Bool} {items : List Item} : ∀ {is : List (Kind × Text)}, (∀ x ∈ is, bad x.2 = false) →
    ask bad items is = some (is.map fun x => (x.1, x.2, decide (Item.path (normalized x.2) ∈ items))) := by
  intro is
  induction is with
  | nil => intro _; rfl
  | cons x xs ih =>
    intro h
    rw [ask, if_neg (by simp [h x (by simp)]), ih (fun y hy => h y (by simp [hy]))]
    rfl

theorem ask_some {bad : Text → Bool} {items : List Item} : ∀ {is : List (Kind × Text)} {marked}, ask bad items is = some marked →
    marked = is.map fun x => (x.1, x.2, decide (Item.path (normalized x.2) ∈ items)) := by
  intro is
  induction is with
  | nil => intro marked h; simp [ask] at h; exact h.symm ▸ rfl
  | cons x xs ih =>
    intro marked h
    rw [ask] at h
    split at h
    · cases h
    · cases hr : ask bad items xs with
      | none => rw [hr] at h; cases h
      | some m =>
        rw [hr] at h
        simp only [Option.map_some, Option.some.injEq] at h
        rw [← h, ih hr]
        rfl

theorem append_whole : ∀ (marked : List (Kind × Text × Bool)) (i : Nat) (items : List Item),
    appendAll allWhole i marked items = (true, items ++ (marked.filter fun x => !x.2.2).flatMap fun x => both x.1 x.2.1) := by
  intro marked
  induction marked with
  | nil => intro i items; simp [appendAll]
  | cons x xs ih =>
    intro i items
    rw [appendAll]
    cases hx : x.2.2 with
    | true => simp [hx, ih]
    | false => simp [hx, ih, allWhole, commits, both]

/-- the new files of a run -/
def newFiles (items : List Item) (is : List (Kind × Text)) : List (Kind × Text) := is.filter fun x => decide (Item.path (normalized x.2) ∉ items)

theorem work_whole {bad : Text → Bool} {name : Text} {args : List Text} {is : List (Kind × Text)} (hg : Groups args is) (hb : ∀ x ∈ is, bad x.2 = false)
    (items : List Item) (w : World) :
    work bad allWhole name args items w = (.zero, w.set name (.meadow (items ++ (newFiles items is).flatMap fun x => both x.1 x.2))) := by
  unfold work
  rw [groups_parse hg none]
  simp only [ask_all hb, append_whole, if_true]
  have : ((is.map fun x => (x.1, x.2, decide (Item.path (normalized x.2) ∈ items))).filter fun x => !x.2.2).flatMap (fun x => both x.1 x.2.1)
      = (newFiles items is).flatMap fun x => both x.1 x.2 := by
    unfold newFiles
    clear hg hb
    induction is with
    | nil => rfl
    | cons y ys ih =>
      rw [List.map_cons, List.filter_cons, List.filter_cons]
      by_cases h : Item.path (normalized y.2) ∈ items <;> simp [h, ih]
  rw [this]

theorem groups_head {args : List Text} {is : List (Kind × Text)} (h : Groups args is) (h0 : args ≠ []) : ∃ a as, args = a :: as ∧ (∃ k, Says a k) ∧ as ≠ [] := by
  cases h with
  | nil => exact absurd rfl h0
  | group hs _ _ _ => exact ⟨_, _, rfl, ⟨_, hs⟩, by simp⟩

theorem says_not {a : Text} {k : Kind} (h : Says a k) : ¬(a = minusC ∨ a = createFlag) ∧ ¬(a = minusM ∨ a = meadowFlag) ∧ a ≠ helpFlag := by
  cases h <;> decide

theorem main_named {bad : Text → Bool} {outcome : Nat → Outcome} {flag name : Text} (hf : flag = minusM ∨ flag = meadowFlag) (hn : name ≠ []) {args : List Text}
    {is : List (Kind × Text)} (hg : Groups args is) (h0 : args ≠ []) {w : World} {items : List Item} (hw : w name = .meadow items) :
    main bad outcome (flag :: name :: args) w = work bad outcome name args items w := by
  obtain ⟨a, as, rfl, ⟨k, hk⟩, -⟩ := groups_head hg h0
  unfold main
  rw [if_neg (by simp)]
  have e : meadowOf (flag :: name :: a :: as) = (name, a :: as) := if_pos hf
  have e' : placeOf name = name := if_neg hn
  simp only [e, e', hw]
  rw [if_neg (says_not hk).1]

/-- **C94** (what is appended): for every meadow and all groups of files that can be appended, the program ends with 0, and what it adds to the meadow is,
for each file that was not there, in order, its path and its lines; no other place is changed. -/
theorem C94_appended {bad : Text → Bool} {flag name : Text} (hf : flag = minusM ∨ flag = meadowFlag) (hn : name ≠ []) {args : List Text}
    {is : List (Kind × Text)} (hg : Groups args is) (h0 : args ≠ []) (hb : ∀ x ∈ is, bad x.2 = false) {w : World} {items : List Item} (hw : w name = .meadow items) :
    main bad allWhole (flag :: name :: args) w = (.zero, w.set name (.meadow (items ++ (newFiles items is).flatMap fun x => both x.1 x.2))) := by
  rw [main_named hf hn hg h0 hw, work_whole hg hb]

/-- **C94** (the default): without a name the meadow is `a.meadow`, and with `--create` it is made first -/
theorem C94_default {bad : Text → Bool} {args : List Text} {is : List (Kind × Text)} (hg : Groups args is) (hb : ∀ x ∈ is, bad x.2 = false) {w : World} :
    (∀ items, args ≠ [] → w defaultMeadow = .meadow items →
      main bad allWhole args w = (.zero, w.set defaultMeadow (.meadow (items ++ (newFiles items is).flatMap fun x => both x.1 x.2))))
    ∧ (w defaultMeadow = .nothing →
      main bad allWhole (createFlag :: args) w = (.zero, w.set defaultMeadow (.meadow (is.flatMap fun x => both x.1 x.2)))) := by
  refine ⟨?_, ?_⟩
  · intro items h0 hw
    obtain ⟨a, as, e, ⟨k, hk⟩, h1⟩ := groups_head hg h0
    subst e
    cases as with
    | nil => exact absurd rfl h1
    | cons b bs =>
      obtain ⟨n1, n2, -⟩ := says_not hk
      unfold main
      rw [if_neg (by simp)]
      have e : meadowOf (a :: b :: bs) = ([], a :: b :: bs) := if_neg n2
      have e' : placeOf [] = defaultMeadow := if_pos rfl
      simp only [e, e', hw]
      rw [if_neg n1, work_whole hg hb]
  · intro hw
    have e : meadowOf (createFlag :: args) = ([], createFlag :: args) := by
      cases args with
      | nil => rfl
      | cons b bs => simp [meadowOf, createFlag, minusM, meadowFlag]
    have e' : placeOf [] = defaultMeadow := if_pos rfl
    unfold main
    rw [if_neg (by intro h; exact absurd (congrArg (fun l => l.head?) h) (by simp [createFlag, helpFlag]))]
    simp only [e, e', hw]
    rw [if_pos (by simp), work_whole hg hb]
    have : newFiles [] is = is := by unfold newFiles; rw [List.filter_eq_self]; simp
    rw [this, List.nil_append]
    have : (w.set defaultMeadow (.meadow [])).set defaultMeadow (.meadow (is.flatMap fun x => both x.1 x.2)) = w.set defaultMeadow (.meadow (is.flatMap fun x => both x.1 x.2)) := by
      funext n
      simp only [World.set]
      split <;> rfl
    rw [this]

/-! ### histories -/

/-- no path is recorded twice, and no lines are there more often than their path -/
def NoneTwice (items : List Item) : Prop := ∀ p, items.countP (isLines p) ≤ items.count (.path p) ∧ items.count (.path p) ≤ 1

/-- the lines are there as often as their path -/
def Full (items : List Item) : Prop := ∀ p, items.countP (isLines p) = items.count (.path p)

theorem append_tidy (outcome : Nat → Outcome) : ∀ (marked : List (Kind × Text × Bool)) (i : Nat) (items : List Item), (marked.map fun x => normalized x.2.1).Nodup →
    (∀ x ∈ marked, x.2.2 = false → items.count (.path (normalized x.2.1)) = 0) → NoneTwice items →
    NoneTwice (appendAll outcome i marked items).2 ∧ ((∀ j, outcome j ≠ .part) → Full items → Full (appendAll outcome i marked items).2) := by
  intro marked
  induction marked with
  | nil => intro i items _ _ h; exact ⟨h, fun _ h => h⟩
  | cons x xs ih =>
    intro i items hn hz h
    simp only [List.map_cons, List.nodup_cons, List.mem_map, not_exists, not_and] at hn
    rw [appendAll]
    cases hx : x.2.2 with
    | true =>
      rw [if_pos rfl]
      exact ih (i + 1) items hn.2 (fun y hy => hz y (by simp [hy])) h
    | false =>
      have h0 := hz x (by simp) hx
      have hcp : ∀ p, (items ++ commits x.1 x.2.1 (outcome i)).count (.path p) = items.count (.path p) + (if outcome i ≠ .nothing ∧ normalized x.2.1 = p then 1 else 0) := by
        intro p
        rw [List.count_append]
        cases outcome i <;> simp [commits, List.count_cons]
      have hcc : ∀ p, (items ++ commits x.1 x.2.1 (outcome i)).countP (isLines p) = items.countP (isLines p) + (if outcome i = .whole ∧ normalized x.2.1 = p then 1 else 0) := by
        intro p
        rw [List.countP_append]
        cases outcome i <;> simp [commits, List.countP_cons, isLines]
      have ht : NoneTwice (items ++ commits x.1 x.2.1 (outcome i)) := by
        intro p
        rw [hcp, hcc]
        have := h p
        by_cases e : normalized x.2.1 = p
        · subst e
          have := (h (normalized x.2.1)).1
          cases outcome i <;> simp <;> omega
        · simp [e]; exact this
      have hfull : (∀ j, outcome j ≠ .part) → Full items → Full (items ++ commits x.1 x.2.1 (outcome i)) := by
        intro hp hf p
        rw [hcp, hcc, hf p]
        have := hp i
        cases ho : outcome i with
        | part => exact absurd ho this
        | whole => simp
        | nothing => simp
      simp only [Bool.false_eq_true, if_false]
      split
      · have := ih (i + 1) (items ++ commits x.1 x.2.1 (outcome i)) hn.2 (by
          intro y hy hy'
          rw [hcp, hz y (by simp [hy]) hy', if_neg (fun c => hn.1 y hy c.2.symm)]) ht
        exact ⟨this.1, fun hp hf => this.2 hp (hfull hp hf)⟩
      · exact ⟨ht, hfull⟩

theorem append_done (outcome : Nat → Outcome) : ∀ (marked : List (Kind × Text × Bool)) (i : Nat) (items : List Item), (appendAll outcome i marked items).1 = true →
    (∀ y ∈ items, y ∈ (appendAll outcome i marked items).2) ∧ ∀ x ∈ marked, x.2.2 = false → Item.path (normalized x.2.1) ∈ (appendAll outcome i marked items).2 := by
  intro marked
  induction marked with
  | nil => intro i items _; exact ⟨fun y hy => hy, by simp⟩
  | cons x xs ih =>
    intro i items h
    rw [appendAll] at h ⊢
    cases hx : x.2.2 with
    | true =>
      rw [hx, if_pos rfl] at h
      rw [if_pos rfl]
      obtain ⟨h1, h2⟩ := ih (i + 1) items h
      refine ⟨h1, ?_⟩
      intro y hy hy'
      rcases List.mem_cons.1 hy with e | hy
      · rw [e, hx] at hy'; cases hy'
      · exact h2 y hy hy'
    | false =>
      simp only [hx, Bool.false_eq_true, if_false] at h ⊢
      by_cases ho : outcome i = .whole
      · rw [if_pos ho] at h ⊢
        obtain ⟨h1, h2⟩ := ih (i + 1) _ h
        refine ⟨fun y hy => h1 y (by simp [hy]), ?_⟩
        intro y hy hy'
        rcases List.mem_cons.1 hy with e | hy
        · rw [e]; exact h1 _ (by simp [ho, commits])
        · exact h2 y hy hy'
      · rw [if_neg ho] at h; cases h

/-- no run names a file twice -/
def Careful (args : List Text) : Prop := ∀ pre suf is, args = pre ++ suf → Groups suf is → NamedOnce is

/-- what can be reached by runs of the program, when there is no meadow at first; each run ends as it may, with failures at any file -/
inductive Reached (ok : (Nat → Outcome) → Prop) : World → Prop
  | start {w} : (∀ n items, w n ≠ .meadow items) → Reached ok w
  | run {w outcome args} (bad : Text → Bool) : Reached ok w → ok outcome → Careful args → Reached ok (main bad outcome args w).2

def AllPlaces (P : List Item → Prop) (w : World) : Prop := ∀ n items, w n = .meadow items → P items

theorem allPlaces_set {P : List Item → Prop} {w : World} (h : AllPlaces P w) {name : Text} {items : List Item} (hi : P items) : AllPlaces P (w.set name (.meadow items)) := by
  intro n items' hn
  simp only [World.set] at hn
  split at hn
  · cases hn; exact hi
  · exact h n items' hn

theorem work_inv {bad : Text → Bool} {outcome : Nat → Outcome} {name : Text} {args : List Text} {items : List Item} {w : World} {P : List Item → Prop}
    (hc : ∀ is, Groups args is → NamedOnce is) (hw : AllPlaces P w)
    (step : ∀ marked, (marked.map fun x : Kind × Text × Bool => normalized x.2.1).Nodup → (∀ x ∈ marked, x.2.2 = false → items.count (.path (normalized x.2.1)) = 0) → P (appendAll outcome 0 marked items).2) :
    AllPlaces P (work bad outcome name args items w).2 := by
  unfold work
  cases hpa : parse none false args with
  | none => exact hw
  | some is =>
    simp only
    cases ha : ask bad items is with
    | none => exact hw
    | some marked =>
      simp only
      refine allPlaces_set hw (step marked ?_ ?_)
      · rw [ask_some ha, List.map_map]
        exact hc is ((C94_arguments _ _).1 hpa)
      · intro x hx hx'
        rw [ask_some ha] at hx
        obtain ⟨y, -, rfl⟩ := List.mem_map.1 hx
        simp only [decide_eq_false_iff_not] at hx'
        exact List.count_eq_zero.2 hx'

theorem main_inv {bad : Text → Bool} {outcome : Nat → Outcome} {args : List Text} {w : World} {P : List Item → Prop} (h0 : P []) (hc : Careful args) (hw : AllPlaces P w)
    (step : ∀ items marked, P items → (marked.map fun x : Kind × Text × Bool => normalized x.2.1).Nodup → (∀ x ∈ marked, x.2.2 = false → items.count (.path (normalized x.2.1)) = 0) → P (appendAll outcome 0 marked items).2) :
    AllPlaces P (main bad outcome args w).2 := by
  unfold main
  split
  · exact hw
  · have hsuf : ∃ pre, args = pre ++ (meadowOf args).2 := by
      match args with
      | [] => exact ⟨[], rfl⟩
      | [a] => exact ⟨[], rfl⟩
      | a :: b :: as =>
        by_cases hf : a = minusM ∨ a = meadowFlag
        · have e : meadowOf (a :: b :: as) = (b, as) := if_pos hf
          rw [e]; exact ⟨[a, b], rfl⟩
        · have e : meadowOf (a :: b :: as) = ([], a :: b :: as) := if_neg hf
          rw [e]; exact ⟨[], rfl⟩
    obtain ⟨pre, hpre⟩ := hsuf
    simp only
    generalize meadowOf args = m at hpre
    obtain ⟨name, rest⟩ := m
    cases rest with
    | nil => exact hw
    | cons a as =>
      simp only at hpre ⊢
      split
      · split
        · exact work_inv (fun is hg => hc (pre ++ [a]) as is (by rw [hpre]; simp) hg) (allPlaces_set hw h0) (fun marked => step [] marked h0)
        · exact hw
      · split
        · exact hw
        · exact hw
        · next items hi => exact work_inv (fun is hg => hc pre (a :: as) is hpre hg) hw (fun marked => step items marked (hw _ _ hi))

theorem tidy_nil : NoneTwice [] := fun _ => ⟨Nat.le_refl _, Nat.zero_le _⟩

/-- **C94, partial** (once): after any number of runs, whatever their arguments, as long as none names a file twice, and whichever files fail and however: in every
meadow each path is recorded at most once, and its lines are there at most once.  Missing: runs that name a file twice (`C94_twice`). -/
theorem C94_once_partial {w : World} (h : Reached (fun _ => True) w) {name : Text} {items : List Item} (hw : w name = .meadow items) (p : Text) :
    items.countP (isLines p) ≤ items.count (.path p) ∧ items.count (.path p) ≤ 1 := by
  have : AllPlaces NoneTwice w := by
    clear hw
    induction h with
    | start h => intro n items e; exact absurd e (h n items)
    | run bad _ _ hc ih => exact main_inv tidy_nil hc ih fun items marked ht hn hz => (append_tidy _ marked 0 items hn hz ht).1
  exact this name items hw p

/-- **C94, partial** (after failures): after any number of runs in which files fail or not, but a failure commits nothing (as of JSON: `C48_jsonl`), a run
that ends with 0 leaves each file that it names in the meadow, once, with its lines: what failed before is done again.  Missing: tables whose path is
committed although they fail (`C94_lost`), and files that are named twice. -/
theorem C94_complete_partial {w : World} (h : Reached (fun o => ∀ i, o i ≠ .part) w) {flag name : Text} (hf : flag = minusM ∨ flag = meadowFlag) (hn : name ≠ [])
    {args : List Text} {is : List (Kind × Text)} (hg : Groups args is) (h0 : args ≠ []) (hc : NamedOnce is) {old : List Item} (hw : w name = .meadow old)
    {bad : Text → Bool} {outcome : Nat → Outcome} (ho : ∀ i, outcome i ≠ .part) (hz : (main bad outcome (flag :: name :: args) w).1 = .zero) :
    ∃ items, (main bad outcome (flag :: name :: args) w).2 name = .meadow items ∧ ∀ x ∈ is, items.count (.path (normalized x.2)) = 1 ∧ items.countP (isLines (normalized x.2)) = 1 := by
  have inv : AllPlaces (fun items => NoneTwice items ∧ Full items) w := by
    clear hw hz
    induction h with
    | start h => intro n items e; exact absurd e (h n items)
    | run bad _ hp hc' ih => exact main_inv ⟨tidy_nil, fun _ => rfl⟩ hc' ih fun items marked ht hn hz =>
        ⟨(append_tidy _ marked 0 items hn hz ht.1).1, (append_tidy _ marked 0 items hn hz ht.1).2 hp ht.2⟩
  rw [main_named hf hn hg h0 hw] at hz ⊢
  unfold work at hz ⊢
  rw [groups_parse hg none] at hz ⊢
  simp only at hz ⊢
  cases ha : ask bad old is with
  | none => rw [ha] at hz; cases hz
  | some marked =>
    rw [ha] at hz
    simp only at hz ⊢
    have hm := ask_some ha
    have hnod : (marked.map fun x => normalized x.2.1).Nodup := by rw [hm, List.map_map]; exact hc
    have hzero : ∀ x ∈ marked, x.2.2 = false → old.count (.path (normalized x.2.1)) = 0 := by
      intro x hx hx'
      rw [hm] at hx
      obtain ⟨y, -, rfl⟩ := List.mem_map.1 hx
      simp only [decide_eq_false_iff_not] at hx'
      exact List.count_eq_zero.2 hx'
    obtain ⟨t1, t2⟩ := append_tidy outcome marked 0 old hnod hzero (inv name old hw).1
    have t3 := t2 ho (inv name old hw).2
    cases hr : (appendAll outcome 0 marked old).1 with
    | false => rw [hr] at hz; simp at hz
    | true =>
      obtain ⟨d1, d2⟩ := append_done outcome marked 0 old hr
      refine ⟨_, by simp [World.set]; rfl, ?_⟩
      intro x hx
      have hin : Item.path (normalized x.2) ∈ (appendAll outcome 0 marked old).2 := by
        by_cases hp : Item.path (normalized x.2) ∈ old
        · exact d1 _ hp
        · exact d2 (x.1, x.2, decide (Item.path (normalized x.2) ∈ old)) (by rw [hm]; exact List.mem_map.2 ⟨x, hx, rfl⟩) (by simpa using hp)
      have := List.count_pos_iff.2 hin
      have h1 := (t1 (normalized x.2)).2
      have h2 := t3 (normalized x.2)
      exact ⟨by omega, by omega⟩

/-- **C94** (refusals): arguments that are not groups of files change nothing in a meadow, and the program ends with 1; nor does anything change, but
for what was done before, when it cannot be asked whether a file is there -/
theorem C94_refused {bad : Text → Bool} {outcome : Nat → Outcome} {flag name : Text} (hf : flag = minusM ∨ flag = meadowFlag) (hn : name ≠ []) {args : List Text} (h0 : args ≠ [])
    (hc : args.head? ≠ some minusC ∧ args.head? ≠ some createFlag) {w : World} {items : List Item} (hw : w name = .meadow items)
    (hb : (∀ is, ¬ Groups args is) ∨ ∃ is, Groups args is ∧ ∃ x ∈ is, bad x.2 = true) :
    main bad outcome (flag :: name :: args) w = (.one, w) := by
  cases args with
  | nil => exact absurd rfl h0
  | cons a as =>
    unfold main
    rw [if_neg (by simp)]
    have e : meadowOf (flag :: name :: a :: as) = (name, a :: as) := if_pos hf
    have e' : placeOf name = name := if_neg hn
    simp only [e, e', hw]
    simp only [List.head?_cons, ne_eq, Option.some.injEq] at hc
    rw [if_neg (by simp [hc.1, hc.2])]
    unfold work
    rcases hb with hb | ⟨is, hg, x, hx, hbx⟩
    · cases hp : parse none false (a :: as) with
      | none => rfl
      | some is => exact absurd ((C94_arguments _ _).1 hp) (hb is)
    · rw [groups_parse hg none]
      have : ask bad items is = none := by
        clear hg
        induction is with
        | nil => cases hx
        | cons y ys ih =>
          rw [ask]
          split
          · rfl
          · next hny =>
            rcases List.mem_cons.1 hx with e | hx
            · rw [e] at hbx; exact absurd hbx hny
            · rw [ih hx]; rfl
      simp only [this]

/-! ### where it does not hold -/

/-- **A file that is named twice in one run is appended twice**, since all are looked up before the first is appended -/
theorem C94_twice {bad : Text → Bool} {name f : Text} (hn : name ≠ []) (hf : IsFile f) (hb : bad f = false) {w : World} {items : List Item} (hw : w name = .meadow items)
    (hnew : Item.path (normalized f) ∉ items) :
    main bad allWhole [meadowFlag, name, tsvFlag, f, f] w = (.zero, w.set name (.meadow (items ++ both .tsv f ++ both .tsv f))) := by
  have hg : Groups [tsvFlag, f, f] [(.tsv, f), (.tsv, f)] := Groups.group (fs := [f]) (rest := []) .tsv hf (by simpa using hf) .nil
  rw [C94_appended (.inr rfl) hn hg (by simp) (by simp [hb]) hw]
  simp [newFiles, hnew]

/-- **A table that fails is lost**: its path is recorded, and all later runs pass over it and end with 0 -/
theorem C94_lost {bad : Text → Bool} {name f : Text} (hn : name ≠ []) (hf : IsFile f) (hb : bad f = false) {w : World} {items : List Item} (hw : w name = .meadow items)
    (hnew : Item.path (normalized f) ∉ items) (outcome : Nat → Outcome) :
    main bad (fun _ => .part) [meadowFlag, name, tsvFlag, f] w = (.one, w.set name (.meadow (items ++ [.path (normalized f)])))
    ∧ main bad outcome [meadowFlag, name, tsvFlag, f] (w.set name (.meadow (items ++ [.path (normalized f)]))) = (.zero, (w.set name (.meadow (items ++ [.path (normalized f)])))) := by
  have hg : Groups [tsvFlag, f] [(.tsv, f)] := Groups.group (fs := []) (rest := []) .tsv hf (by simp) .nil
  refine ⟨?_, ?_⟩
  · rw [main_named (.inr rfl) hn hg (by simp) hw]
    unfold work
    rw [groups_parse hg none]
    simp [ask, hb, hnew, appendAll, commits]
  · rw [main_named (.inr rfl) hn hg (by simp) (items := items ++ [.path (normalized f)]) (by simp [World.set])]
    unfold work
    rw [groups_parse hg none]
    simp only [ask, hb, Option.map_some]
    simp [appendAll]
    funext n
    simp only [World.set]
    split <;> rfl

/-- **Arguments that are refused can make a meadow**: `--create --meadow x` makes `a.meadow` and then complains -/
theorem C94_created {bad : Text → Bool} {outcome : Nat → Outcome} {w : World} (hw : w defaultMeadow = .nothing) (x : Text) :
    main bad outcome [createFlag, meadowFlag, x] w = (.one, w.set defaultMeadow (.meadow [])) := by
  unfold main
  rw [if_neg (by simp)]
  have e : meadowOf [createFlag, meadowFlag, x] = ([], [createFlag, meadowFlag, x]) := by simp [meadowOf, createFlag, minusM, meadowFlag]
  have e' : placeOf [] = defaultMeadow := if_pos rfl
  simp only [e, e', hw]
  rw [if_pos (by simp)]
  unfold work
  have : parse none false [meadowFlag, x] = none := by
    rw [parse, if_neg (by decide), if_neg (by decide), if_pos (by decide)]
  rw [this]

/-- **Where there is no meadow the program is not refused but crashes** -/
theorem C94_crash {bad : Text → Bool} {outcome : Nat → Outcome} {flag name : Text} (hf : flag = minusM ∨ flag = meadowFlag) (hn : name ≠ []) {a : Text} {as : List Text}
    (ha : ¬(a = minusC ∨ a = createFlag)) {w : World} (hw : w name = .nothing) : main bad outcome (flag :: name :: a :: as) w = (.crash, w) := by
  unfold main
  rw [if_neg (by simp)]
  have e : meadowOf (flag :: name :: a :: as) = (name, a :: as) := if_pos hf
  have e' : placeOf name = name := if_neg hn
  simp only [e, e', hw]
  rw [if_neg ha]

/-! ### a case -/

def table94 : Text := ['t']
def jsonLines94 : Text := ['d', '/', 'l']

theorem twoGroups : Groups [tsvFlag, table94, jsonFlag, jsonLines94] [(.tsv, table94), (.jsonl, jsonLines94)] :=
  Groups.group (fs := []) (rest := [jsonFlag, jsonLines94]) .tsv (by unfold IsFile; decide) (by simp)
    (Groups.group (fs := []) (rest := []) .json (by unfold IsFile; decide) (by simp) .nil)

/-- a meadow is made, and two files are appended, of which the second fails; when this is done again, both are there once -/
example : ∃ w, Reached (fun o => ∀ i, o i ≠ .part) w ∧ w ['m'] = .meadow (both .tsv table94)
    ∧ main (fun _ => false) allWhole [minusM, ['m'], tsvFlag, table94, jsonFlag, jsonLines94] w
      = (.zero, w.set ['m'] (.meadow (both .tsv table94 ++ both .jsonl jsonLines94))) := by
  let o : Nat → Outcome := fun i => if i = 0 then .whole else .nothing
  let args := [minusM, ['m'], createFlag, tsvFlag, table94, jsonFlag, jsonLines94]
  let w := (main (fun _ => false) o args fun _ => .nothing).2
  have hc : Careful args := by
    intro pre suf is h hg
    have hp := groups_parse hg none
    have hs : suf = args.drop pre.length := by rw [h]; simp
    have hl : pre.length < 8 := by
      have := congrArg List.length h
      rw [List.length_append] at this
      have h7 : args.length = 7 := rfl
      omega
    have key : ∀ n : Fin 8, ∀ is ∈ parse none false (args.drop n.val), (is.map fun x => normalized x.2).Nodup := by decide
    exact key ⟨pre.length, hl⟩ is (by simp only [← hs, hp]; rfl)
  have hr : Reached (fun o => ∀ i, o i ≠ .part) w := .run _ (.start (by intro n items; simp)) (by intro i; simp only [o]; split <;> simp) hc
  have hw : w ['m'] = .meadow (both .tsv table94) := by decide
  refine ⟨w, hr, hw, ?_⟩
  rw [C94_appended (.inl rfl) (by simp) twoGroups (by simp) (by simp) hw]
  have : newFiles (both .tsv table94) [(.tsv, table94), (.jsonl, jsonLines94)] = [(.jsonl, jsonLines94)] := by decide
  rw [this]
  rfl

example : ¬ ∃ is, Groups [tsvFlag, jsonFlag, table94] is := by
  rintro ⟨is, h⟩
  have e : parse none false [tsvFlag, jsonFlag, table94] = none := by decide
  have := groups_parse h none
  rw [e] at this
  cases this

end Verif.Props
