import Verif.Collect.Duplicates
/-
  Properties of the list of duplicate passages (C88).
-/
namespace Verif.Props
open Verif.Collect

/-- the first of each, in order -/
def firsts : List Text → List Text
  | [] => []
  | x :: xs => x :: (firsts xs).filter (· ≠ x)

/-- numbers from `n` on -/
def ranked : Nat → List Text → List (Nat × Text)
  | _, [] => []
  | n, x :: xs => (n, x) :: ranked (n + 1) xs

theorem firsts_filter (p : Text → Bool) (l : List Text) : firsts (l.filter p) = (firsts l).filter p := by
  induction l with
  | nil => rfl
  | cons y l ih =>
    by_cases h : p y = true
    · rw [List.filter_cons_of_pos h]
      simp only [firsts]
      rw [List.filter_cons_of_pos h, ih, List.filter_filter, List.filter_filter]
      congr 1
      exact List.filter_congr fun z _ => Bool.and_comm _ _
    · rw [List.filter_cons_of_neg h, ih]
      simp only [firsts]
      rw [List.filter_cons_of_neg h, List.filter_filter]
      refine List.filter_congr fun z _ => ?_
      by_cases hz : z = y
      · subst hz; simp [h]
      · simp [hz]

theorem report_eq (entries : List (Text × Text)) : ∀ (pids seen : List Text) (rank : Nat), rank ≤ 1000 →
    report entries pids seen rank =
      ranked rank ((firsts ((pids.map fun p => (canonical entries p).getD p).filter fun y => decide (y ∉ seen))).take (1001 - rank)) := by
  intro pids
  induction pids with
  | nil => intro seen rank _; simp [report, firsts, ranked]
  | cons p pids ih =>
    intro seen rank hr
    unfold report
    simp only [List.map_cons]
    generalize (canonical entries p).getD p = x
    by_cases hs : x ∈ seen
    · rw [if_pos hs, ih _ _ hr, List.filter_cons_of_neg (by simp [hs])]
    · rw [if_neg hs, List.filter_cons_of_pos (by simp [hs])]
      have hn : 1001 - rank = (1000 - rank) + 1 := by omega
      simp only [firsts]
      rw [hn, List.take_succ_cons, ranked]
      congr 1
      by_cases h : rank + 1 > 1000
      · rw [if_pos h]
        have : 1000 - rank = 0 := by omega
        rw [this]; rfl
      · rw [if_neg h, ih _ _ (by omega)]
        have e : 1001 - (rank + 1) = 1000 - rank := by omega
        rw [e, firsts_filter, firsts_filter, List.filter_filter]
        congr 2
        refine List.filter_congr fun z _ => ?_
        by_cases h1 : z ∈ seen <;> by_cases h2 : z = x <;> simp [h1, h2]

/-- **C88.** A file of groups is read: a name is replaced by the name of the last group that it is in, and no other name is. -/
theorem C88_read {text : Text} {gs : List Group} (h : WritesGroups text gs) :
    (duplicates text).2 = true ∧ ∀ pid, (∀ canon, canonical (duplicates text).1 pid = some canon ↔ StandsFor gs pid canon) := by
  rw [duplicates_ok h]
  exact ⟨rfl, fun pid canon => canonical_some⟩

/-- **C88.** Nothing else is read: a file without NULs that is accepted is one of groups. -/
theorem C88_accepted {text : Text} (h : ∀ c ∈ text, c ≠ '\x00') : (duplicates text).2 = true ↔ ∃ gs, WritesGroups text gs :=
  ⟨duplicates_sound _ text (Nat.le_refl _) h, fun ⟨_, hg⟩ => (C88_read hg).1⟩

/-- **C88.** The run has every passage or the passage that stands for it once, where it comes first, with the ranks from 1
on, and at most a thousand. -/
theorem C88_run (entries : List (Text × Text)) (pids : List Text) :
    report entries pids [] 1 = ranked 1 ((firsts (pids.map fun p => (canonical entries p).getD p)).take 1000) := by
  rw [report_eq _ _ _ _ (by decide)]
  congr 3
  exact List.filter_eq_self.2 (by simp)

/-- `firsts` has everything once -/
theorem firsts_spec (l : List Text) : (firsts l).Nodup ∧ (∀ x, x ∈ firsts l ↔ x ∈ l) ∧ (firsts l).Sublist l := by
  induction l with
  | nil => simp [firsts]
  | cons x l ih =>
    obtain ⟨h1, h2, h3⟩ := ih
    refine ⟨?_, ?_, ?_⟩
    · simp only [firsts, List.nodup_cons]
      exact ⟨by simp, h1.filter _⟩
    · intro y
      simp only [firsts, List.mem_cons, List.mem_filter, h2]
      by_cases hy : y = x <;> simp [hy]
    · simp only [firsts]
      exact (List.filter_sublist.trans h3).cons_cons x

/-- a name in a group has a last group -/
theorem stands_some {p : Text} : ∀ {gs : List Group} {g : Group}, g ∈ gs → p ∈ g.names → ∃ c, StandsFor gs p c := by
  intro gs
  induction gs with
  | nil => intro g hg; cases hg
  | cons k gs ih =>
    intro g hg hgn
    by_cases hl : ∃ g ∈ gs, p ∈ g.names
    · obtain ⟨g', h1, h2⟩ := hl
      obtain ⟨c, b, g, a, e, r⟩ := ih h1 h2
      exact ⟨c, k :: b, g, a, by rw [e]; rfl, r⟩
    · rcases List.mem_cons.1 hg with rfl | hg
      · exact ⟨_, [], g, gs, rfl, hgn, rfl, fun x hx hp => hl ⟨x, hx, hp⟩⟩
      · exact absurd ⟨g, hg, hgn⟩ hl

/-- **C88.** No two lines of the run have the same name, and every name stands for a group with one of the passages in it, or
is one of the passages and in no group. -/
theorem C88_once {text : Text} {gs : List Group} (h : WritesGroups text gs) (pids : List Text) :
    ((report (duplicates text).1 pids [] 1).map (·.2)).Nodup ∧
    ∀ x ∈ (report (duplicates text).1 pids [] 1).map (·.2), (∃ g ∈ gs, ∃ p ∈ pids, p ∈ g.names ∧ x = g.canon) ∨
      (x ∈ pids ∧ ∀ g ∈ gs, x ∉ g.names) := by
  rw [C88_run]
  have hm : ∀ (l : List Text) n, (ranked n l).map (·.2) = l := by
    intro l
    induction l with
    | nil => intro n; rfl
    | cons x l ih => intro n; simp [ranked, ih]
  rw [hm]
  obtain ⟨h1, h2, -⟩ := firsts_spec (pids.map fun p => (canonical (duplicates text).1 p).getD p)
  refine ⟨h1.sublist (List.take_sublist _ _), fun x hx => ?_⟩
  have hx := (h2 x).1 ((List.take_sublist _ _).mem hx)
  obtain ⟨p, hp, rfl⟩ := List.mem_map.1 hx
  cases hc : canonical (duplicates text).1 p with
  | some c =>
    left
    obtain ⟨b, g, a, e, g1, g2, -⟩ := ((C88_read h).2 p c).1 hc
    exact ⟨g, by rw [e]; simp, p, hp, g1, g2.symm⟩
  | none =>
    right
    refine ⟨hp, fun g hg hgn => ?_⟩
    simp only [Option.getD_none] at hgn
    obtain ⟨c, hs⟩ := stands_some hg hgn
    rw [((C88_read h).2 p c).2 hs] at hc
    cases hc

/-- **C88 (violated).** A line with nothing in it ends the reading, and what comes after it is lost. -/
theorem C88_empty_line {before : Text} {gs : List Group} (h : WritesGroups before gs) (hb : before.getLast? = some '\n') (after : Text) :
    duplicates (before ++ '\n' :: after) = (entriesOf gs, false) := by
  have key : ∀ {t gs}, WritesGroups t gs → (t = [] ∨ t.getLast? = some '\n') → duplicates (t ++ '\n' :: after) = (entriesOf gs, false) := by
    intro t gs h
    induction h with
    | nil =>
      intro _
      unfold duplicates
      rw [List.nil_append, show ('\n' :: after) = [] ++ '\n' :: after from rfl, Judge.lines_cons (by simp)]
      simp [readLines, readLine, cstr, entriesOf]
    | last h =>
      intro hl
      rcases hl with rfl | hl
      · exact absurd rfl (group_ne h)
      · have := List.mem_of_getLast? hl
        exact absurd rfl (group_plain h _ this).2
    | @cons l g text gs h hw ih =>
      intro hl
      have hl' : text = [] ∨ text.getLast? = some '\n' := by
        cases text with
        | nil => exact .inl rfl
        | cons c text =>
          right
          rcases hl with hl | hl
          · simp at hl
          · simpa using hl
      have := ih hl'
      unfold duplicates at this ⊢
      rw [List.append_assoc, List.cons_append, Judge.lines_cons (fun hm => (group_plain h _ hm).2 rfl)]
      simp [readLines, readLine_ok h, this, entriesOf]
  exact key h (.inr hb)

/-- **C88 (violated).** In a file whose lines end with a carriage return, the last name of a group is read with it, and is
not replaced. -/
theorem C88_carriage_return {x y : Text} (hx : Name x) (hy : Name y) :
    canonical (duplicates (x ++ ':' :: ' ' :: (y ++ ['\r', '\n']))).1 y = none ∧
    canonical (duplicates (x ++ ':' :: ' ' :: (y ++ ['\r', '\n']))).1 (y ++ ['\r']) = some x := by
  have hy' : Name (y ++ ['\r']) := by
    refine ⟨by simp, fun c hc => ?_⟩
    rcases List.mem_append.1 hc with hc | hc
    · exact hy.2 c hc
    · simp at hc; subst hc; decide
  have hw : WritesGroups (x ++ ':' :: ' ' :: (y ++ ['\r', '\n'])) [⟨x, [y ++ ['\r']]⟩] := by
    have h1 : WritesNames (' ' :: (y ++ ['\r'])) [y ++ ['\r']] := by
      have := WritesNames.last (a := [' ']) (b := []) (by simp [Blanks]) hy' (by simp [Blanks])
      simpa using this
    have h2 := WritesGroup.mk (a := []) (b := []) (by simp [Blanks]) hx (by simp [Blanks]) h1
    have h3 := WritesGroups.cons h2 .nil
    simpa using h3
  rw [duplicates_ok hw]
  have hne : y ≠ y ++ ['\r'] := by intro e; have := congrArg List.length e; simp at this
  constructor
  · simp [canonical, entriesOf, Ne.symm hne]
  · simp [canonical, entriesOf]

/-- **C88 (violated).** Names are replaced once: if what stands for a name is itself one that another stands for, it is not
replaced again, and the two are both in the run. -/
theorem C88_chain {x y z : Text} (hx : Name x) (hy : Name y) (hz : Name z) (hxy : x ≠ y) (hxz : x ≠ z) :
    report (duplicates (x ++ ':' :: y ++ '\n' :: (y ++ ':' :: z))).1 [x, z] [] 1 = [(1, x), (2, y)] := by
  have hw : WritesGroups (x ++ ':' :: y ++ '\n' :: (y ++ ':' :: z)) [⟨x, [y]⟩, ⟨y, [z]⟩] := by
    have n : ∀ w, Name w → WritesNames w [w] := by
      intro w hw
      have := WritesNames.last (a := []) (b := []) (by simp [Blanks]) hw (by simp [Blanks])
      simpa using this
    have h1 := WritesGroup.mk (a := []) (b := []) (by simp [Blanks]) hx (by simp [Blanks]) (n y hy)
    have h2 := WritesGroup.mk (a := []) (b := []) (by simp [Blanks]) hy (by simp [Blanks]) (n z hz)
    have h3 := WritesGroups.cons h1 (.last h2)
    simpa using h3
  rw [duplicates_ok hw]
  have e1 : canonical (entriesOf [⟨x, [y]⟩, ⟨y, [z]⟩]) x = none := by simp [canonical, entriesOf, Ne.symm hxy, Ne.symm hxz]
  have e2 : canonical (entriesOf [⟨x, [y]⟩, ⟨y, [z]⟩]) z = some y := by simp [canonical, entriesOf]
  simp [report, e1, e2, Ne.symm hxy]

/-! ### the hypotheses are met -/

example : duplicates ['a', ' ', ':', 'b', ',', '\t', 'c', '\n', 'd', ':', 'b', ','] =
    ([(['b'], ['a']), (['c'], ['a']), (['b'], ['d'])], true) := by decide

example : canonical (duplicates ['a', ' ', ':', 'b', ',', '\t', 'c', '\n', 'd', ':', 'b', ',']).1 ['b'] = some ['d'] := by decide

theorem two_groups : WritesGroups ['a', ' ', ':', 'b', ',', '\t', 'c', '\n', 'd', ':', 'b', ','] [⟨['a'], [['b'], ['c']]⟩, ⟨['d'], [['b']]⟩] := by
  have nm : ∀ c, c ≠ ' ' ∧ c ≠ '\t' ∧ c ≠ ':' ∧ c ≠ ',' ∧ c ≠ '\n' ∧ c ≠ '\x00' → Name [c] := fun c h => ⟨by simp, by simpa using h⟩
  have b0 : Blanks [] := by simp [Blanks]
  exact .cons (l := ['a', ' ', ':', 'b', ',', '\t', 'c'])
    (.mk (a := []) (x := ['a']) (b := [' ']) b0 (nm _ (by decide)) (by simp [Blanks])
      (.cons (a := []) (x := ['b']) (b := []) b0 (nm _ (by decide)) b0 (.last (a := ['\t']) (x := ['c']) (b := []) (by simp [Blanks]) (nm _ (by decide)) b0)))
    (.last (.mk (a := []) (x := ['d']) (b := []) b0 (nm _ (by decide)) b0
      (.cons (a := []) (x := ['b']) (b := []) b0 (nm _ (by decide)) b0 (.nil b0))))

example : ∀ canon, canonical (duplicates ['a', ' ', ':', 'b', ',', '\t', 'c', '\n', 'd', ':', 'b', ',']).1 ['b'] = some canon ↔
    StandsFor [⟨['a'], [['b'], ['c']]⟩, ⟨['d'], [['b']]⟩] ['b'] canon := (C88_read two_groups).2 ['b']

/-- the second of two passages with the same text is left out -/
example : report [(['b'], ['a']), (['c'], ['a'])] [['c'], ['d'], ['b'], ['a'], ['e']] [] 1 = [(1, ['a']), (2, ['d']), (3, ['e'])] := by decide

example : report (duplicates (['a'] ++ ':' :: ['b'] ++ '\n' :: (['b'] ++ ':' :: ['c']))).1 [['a'], ['c']] [] 1 = [(1, ['a']), (2, ['b'])] :=
  C88_chain ⟨by decide, by decide⟩ ⟨by decide, by decide⟩ ⟨by decide, by decide⟩ (by decide) (by decide)

end Verif.Props
