import Verif.Browse.Model
/-
  C100: what is shown for a query is its first solutions, what is listed is all of them, and a run has no duplicates.
-/
namespace Verif.Props
open Verif.Browse

/-! ### solutions -/

theorem tau_after : ∀ (before after : List Solution) (k : Int), (∀ s ∈ before, s.p < k) → (∀ s ∈ after, k ≤ s.p) → tau (before ++ after) k = after.head? := by
  intro before after k h1 h2
  unfold tau
  rw [List.find?_append, List.find?_eq_none.2 (by intro s hs; have := h1 s hs; simp; omega), Option.none_or]
  cases after with
  | nil => rfl
  | cons s after => rw [List.find?_cons_of_pos (p := fun s : Solution => decide (k ≤ s.p)) (by simpa using h2 s (by simp))]; rfl

theorem visit_take : ∀ (n : Nat) (before after : List Solution) (k : Int), (before ++ after).Pairwise (fun a b => a.p < b.p) → (∀ s ∈ before, s.p < k) → (∀ s ∈ after, k ≤ s.p) →
    visit (before ++ after) n k = after.take n := by
  intro n
  induction n with
  | zero => intro before after k _ _ _; simp [visit]
  | succ n ih =>
    intro before after k hp h1 h2
    rw [visit, tau_after before after k h1 h2]
    cases after with
    | nil => rfl
    | cons s after =>
      simp only [List.head?_cons, List.take_succ_cons]
      congr 1
      have e : before ++ s :: after = (before ++ [s]) ++ after := by simp
      rw [e]
      rw [e] at hp
      have hs := h2 s (by simp)
      apply ih _ _ _ hp
      · intro x hx
        rcases List.mem_append.1 hx with hx | hx
        · have := h1 x hx
          omega
        · rw [List.mem_singleton.1 hx]
          omega
      · intro x hx
        have := (List.pairwise_append.1 hp).2.2 s (by simp) x hx
        omega

/-- **C100** (at the terminal): the first 24 solutions are shown, or all when there are fewer, in order -/
theorem C100_shown (solutions : List Solution) (h : Rising solutions) : shown solutions = solutions.take 24 := by
  unfold shown
  have := visit_take 24 [] solutions (minfinity + 1) h.1 (by simp) (by intro s hs; have := h.2 s hs; omega)
  exact this

/-- **C100** (the list): all solutions are listed, once and in order, and then no more, however long one waits -/
theorem C100_listed (solutions : List Solution) (h : Rising solutions) (turns : Nat) (ht : solutions.length ≤ turns) : listed solutions turns = solutions := by
  unfold listed
  have := visit_take turns [] solutions (minfinity + 1) h.1 (by simp) (by intro s hs; have := h.2 s hs; omega)
  rw [List.nil_append] at this
  rw [this, List.take_of_length_le ht]

/-! ### values -/

/-- **C100** (values), in part: a value that is not negative is printed as it is.  Missing: negative ones with a fraction. -/
theorem C100_value_partial (v : Rat) (h : 0 < v) : valueShown v = some v := by
  unfold valueShown truncate
  have h0 : v ≠ 0 := fun e => by rw [e] at h; exact absurd h (by decide)
  rw [if_neg h0, if_neg (Rat.not_lt.2 (Rat.le_of_lt h))]
  simp only
  split
  · rfl
  · rename_i hn
    have h1 : (v.floor : Rat) ≤ v := Rat.floor_le v
    have h2 : v ≤ v.floor := by
      rw [gt_iff_lt, Rat.not_lt] at hn
      grind
    rw [Rat.le_antisymm h1 h2]

/-- **C100** (values), in part: whole numbers are printed as they are, but for 0, which is not printed -/
theorem C100_whole_partial (n : Int) (h : n ≠ 0) : valueShown n = some n := by
  unfold valueShown
  have h0 : ((n : Int) : Rat) ≠ 0 := by
    intro e
    exact h (by exact_mod_cast e)
  have ht : truncate n = n := by
    unfold truncate
    split
    · rw [← Rat.intCast_neg, Rat.floor_intCast, Int.neg_neg]
    · exact Rat.floor_intCast n
  rw [if_neg h0, ht]
  simp only
  split <;> rfl

/-- **A negative value with a fraction is printed without it**: as the next whole number -/
theorem C100_negative (v : Rat) (h : v < 0) : ∃ n : Int, valueShown v = some (n : Rat) ∧ v ≤ n ∧ (n : Rat) < v + 1 := by
  have h1 : ((-v).floor : Rat) ≤ -v := Rat.floor_le (-v)
  have h2 : -v < ((-v).floor : Rat) + 1 := by
    have := Rat.lt_floor_add_one (-v)
    rwa [Rat.intCast_add] at this
  refine ⟨-(-v).floor, ?_, ?_, ?_⟩
  · unfold valueShown
    have h0 : v ≠ 0 := fun e => by rw [e] at h; exact absurd h (by decide)
    rw [if_neg h0]
    have ht : truncate v = -(-v).floor := by unfold truncate; rw [if_pos h]
    rw [ht]
    simp only
    rw [if_neg]
    rw [Rat.intCast_neg]
    grind
  · rw [Rat.intCast_neg]
    grind
  · rw [Rat.intCast_neg]
    grind

/-! ### texts -/

/-- **C100** (texts): a solution of at most 129 tokens is shown whole, of a longer one the first 65 tokens and the last 65, which are apart; newlines are blanks, so that it is one line -/
theorem C100_window (before inside after : List (List Char)) (h : inside ≠ []) :
    let line := fun s : List Char => s.map fun c => if c = '\n' then ' ' else c
    window (before ++ inside ++ after) before.length (before.length + inside.length - 1) =
      if inside.length ≤ 129 then line inside.flatten ++ ['\n'] else line (inside.take 65).flatten ++ ['.', '.', '.', ' '] ++ line (inside.drop (inside.length - 65)).flatten ++ ['\n'] := by
  intro line
  have hl : 0 < inside.length := List.length_pos_iff.2 h
  have slice : ∀ i n, i + n ≤ inside.length → ((before ++ inside ++ after).drop (before.length + i)).take n = (inside.drop i).take n := by
    intro i n hi
    rw [List.append_assoc, ← List.drop_drop, List.drop_left, List.drop_append_of_le_length (by omega), List.take_append_of_le_length (by rw [List.length_drop]; omega)]
  unfold window
  by_cases hc : inside.length ≤ 129
  · rw [if_pos (by omega), if_pos hc]
    unfold translate
    rw [show before.length + inside.length - 1 + 1 - before.length = inside.length from by omega]
    have := slice 0 inside.length (by omega)
    rw [Nat.add_zero] at this
    rw [this, List.drop_zero, List.take_length]
    rfl
  · rw [if_neg (by omega), if_neg hc]
    unfold translate
    have s1 := slice 0 65 (by omega)
    have s2 := slice (inside.length - 65) 65 (by omega)
    rw [Nat.add_zero, List.drop_zero] at s1
    rw [show before.length + 128 / 2 + 1 - before.length = 65 from by omega, s1, show before.length + inside.length - 1 - 128 / 2 = before.length + (inside.length - 65) from by omega,
      show before.length + inside.length - 1 + 1 - (before.length + (inside.length - 65)) = 65 from by omega, s2, List.take_of_length_le (l := inside.drop (inside.length - 65)) (by rw [List.length_drop]; omega)]
    rfl

/-- **C100** (lines of the list): a container is one line -/
theorem C100_oneline (s : List Char) : ∃ t, oneline s = t ++ ['\n'] ∧ t.length = s.length ∧ '\n' ∉ t ∧ '\r' ∉ t ∧ ∀ (i : Nat) c, s[i]? = some c → c ≠ '\n' → c ≠ '\r' → t[i]? = some c := by
  have hno : ∀ x, x = '\n' ∨ x = '\r' → x ∉ s.map (fun c => if c = '\n' ∨ c = '\r' then ' ' else c) := by
    intro x hx h
    obtain ⟨c, -, e⟩ := List.mem_map.1 h
    split at e
    · rw [← e] at hx; revert hx; decide
    · rename_i hn
      rw [e] at hn
      exact hn hx
  refine ⟨_, rfl, by simp, hno _ (.inl rfl), hno _ (.inr rfl), ?_⟩
  intro i c h h1 h2
  rw [List.getElem?_map, h]
  simp [h1, h2]

/-! ### runs without duplicates -/

theorem dedupe_firsts (canonical : List (List Char × List Char)) : ∀ (rs seen : List (List Char)) (rank : Nat), rank ≤ 1000 →
    dedupe canonical seen rank rs = (((firsts (rs.map (canon canonical))).filter fun x => !seen.contains x).take (1001 - rank)).zipIdx rank := by
  intro rs
  induction rs with
  | nil => intro seen rank _; simp [dedupe, firsts]
  | cons r rs ih =>
    intro seen rank hr
    rw [dedupe, List.map_cons, firsts]
    by_cases hs : canon canonical r ∈ seen
    · rw [if_pos hs, ih seen rank hr, List.filter_cons_of_neg (by simpa using hs), List.filter_filter]
      congr 2
      apply List.filter_congr
      intro x _
      by_cases hx : x ∈ seen
      · simp [hx]
      · have : x ≠ canon canonical r := fun e => hx (e ▸ hs)
        simp [hx, this]
    · rw [if_neg hs, List.filter_cons_of_pos (by simpa using hs), show 1001 - rank = (1000 - rank) + 1 from by omega, List.take_succ_cons, List.zipIdx_cons]
      congr 1
      by_cases hk : rank + 1 > 1000
      · rw [if_pos hk, show 1000 - rank = 0 from by omega]
        rfl
      · rw [if_neg hk, ih (canon canonical r :: seen) (rank + 1) (by omega), show 1001 - (rank + 1) = 1000 - rank from by omega, List.filter_filter]
        congr 2
        apply List.filter_congr
        intro x _
        by_cases hx : x = canon canonical r
        · simp [hx]
        · simp [hx]

/-- **C100** (runs): what is printed is the first 1000 different names of the ranking, each under the first name of its duplicates, in order, with the ranks from 1 on -/
theorem C100_run (canonical : List (List Char × List Char)) (ranking : List (List Char)) :
    castNames canonical ranking = ((firsts (ranking.map (canon canonical))).take 1000).zipIdx 1 := by
  unfold castNames
  rw [dedupe_firsts canonical ranking [] 1 (by decide)]
  congr 2
  apply List.filter_eq_self.2
  intro x _
  simp

theorem firsts_facts : ∀ (l : List (List Char)), (firsts l).Nodup ∧ (∀ x, x ∈ firsts l ↔ x ∈ l) ∧ (firsts l).Sublist l := by
  intro l
  induction l with
  | nil => exact ⟨by simp [firsts], by simp [firsts], by simp [firsts]⟩
  | cons a l ih =>
    obtain ⟨h1, h2, h3⟩ := ih
    rw [firsts]
    refine ⟨List.nodup_cons.2 ⟨by simp, h1.filter _⟩, ?_, (List.filter_sublist.trans h3).cons_cons a⟩
    intro x
    simp only [List.mem_cons, List.mem_filter, h2, bne_iff_ne, ne_eq]
    constructor
    · rintro (h | h)
      · exact .inl h
      · exact .inr h.1
    · rintro (h | h)
      · exact .inl h
      · by_cases e : x = a
        · exact .inl e
        · exact .inr ⟨h, e⟩

/-- **C100** (no duplicates): no name is printed twice, and with at most 1000 results every one is there under its name -/
theorem C100_distinct (canonical : List (List Char × List Char)) (ranking : List (List Char)) :
    ((castNames canonical ranking).map (·.1)).Nodup ∧ ((castNames canonical ranking).map (·.2)) = List.range' 1 (castNames canonical ranking).length ∧
      (ranking.length ≤ 1000 → ∀ r ∈ ranking, canon canonical r ∈ (castNames canonical ranking).map (·.1)) := by
  rw [C100_run]
  obtain ⟨h1, h2, h3⟩ := firsts_facts (ranking.map (canon canonical))
  rw [List.zipIdx_map_fst]
  refine ⟨h1.sublist (List.take_sublist _ _), by rw [List.zipIdx_map_snd, List.length_zipIdx], ?_⟩
  intro hl r hr
  have : (firsts (ranking.map (canon canonical))).length ≤ 1000 := by
    have := h3.length_le
    rw [List.length_map] at this
    omega
  rw [List.take_of_length_le this, h2]
  exact List.mem_map.2 ⟨r, hr, rfl⟩

/-- **A line without a blank ends the program with an exception** -/
theorem C100_no_blank (line : List Char) : castLine line = none ↔ ' ' ∉ line := by
  unfold castLine
  by_cases h : ' ' ∉ line
  · rw [if_pos h]
    exact ⟨fun _ => h, fun _ => rfl⟩
  · rw [if_neg h]
    simp only
    constructor
    · intro e
      split at e <;> cases e
    · intro e; exact absurd e h

/-- **C100** (lines of queries): a line is taken as its label and what comes from the first blank on -/
theorem C100_line (label query : List Char) (h0 : label ≠ []) (h : ' ' ∉ label) : castLine (label ++ ' ' :: query) = some (some (label, ' ' :: query)) := by
  have : (label ++ ' ' :: query).takeWhile (· != ' ') = label ∧ (label ++ ' ' :: query).dropWhile (· != ' ') = ' ' :: query := by
    clear h0
    induction label with
    | nil => exact ⟨rfl, rfl⟩
    | cons c a ih =>
      simp only [List.mem_cons, not_or] at h
      have hc : (c != ' ') = true := by simpa using fun e : c = ' ' => h.1 e.symm
      rw [List.cons_append, List.takeWhile_cons_of_pos (p := (· != ' ')) hc, List.dropWhile_cons_of_pos (p := (· != ' ')) hc, (ih h.2).1, (ih h.2).2]
      exact ⟨rfl, rfl⟩
  unfold castLine
  rw [if_neg (by simp), this.1, this.2]
  simp only
  rw [if_neg (by simp [h0])]

/-! ### examples -/

def threeSolutions : List Solution := [⟨-3, 2, 0⟩, ⟨0, 4, 1⟩, ⟨7, 7, 2⟩]
example : Rising threeSolutions := by unfold Rising minfinity threeSolutions; decide
example : shown threeSolutions = threeSolutions := by decide +kernel
example : valueShown (-3/2) = some (-1) := by decide +kernel
example : valueShown (3/2) = some (3/2) := by decide +kernel
example : window [['a', '\n'], ['b']] 0 1 = ['a', ' ', 'b', '\n'] := by decide +kernel
example : castNames [(['B'], ['A'])] [['C'], ['B'], ['A'], ['C'], ['D']] = [(['C'], 1), (['A'], 2), (['D'], 3)] := by decide +kernel

end Verif.Props
