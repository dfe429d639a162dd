import Verif.Rank.TiersModel
import Verif.Gcl.Grammar
/-
  Proofs about `build_tiers`.
-/
namespace Verif.Rank
open Verif.Gcl

section
variable {σ : Type} {sc : Scores σ}

/-! ### the terms -/

theorem distinct_mem {x : List Char} : ∀ {l seen : List (List Char)}, x ∈ distinctTerms seen l ↔ x ∈ l ∧ x ∉ seen
  | [], seen => by simp [distinctTerms]
  | t :: l, seen => by
    simp only [distinctTerms]
    split
    · rename_i h
      rw [distinct_mem, List.mem_cons]
      constructor
      · exact fun hx => ⟨Or.inr hx.1, hx.2⟩
      · rintro ⟨rfl | hx, hs⟩
        · exact absurd h hs
        · exact ⟨hx, hs⟩
    · rename_i h
      rw [List.mem_cons, distinct_mem, List.mem_cons, List.mem_cons]
      constructor
      · rintro (rfl | ⟨h1, h2⟩)
        · exact ⟨Or.inl rfl, h⟩
        · exact ⟨Or.inr h1, fun hc => h2 (Or.inr hc)⟩
      · rintro ⟨rfl | h1, h2⟩
        · exact Or.inl rfl
        · by_cases hx : x = t
          · exact Or.inl hx
          · exact Or.inr ⟨h1, fun hc => hc.elim hx h2⟩

theorem distinct_nodup : ∀ {l seen : List (List Char)}, (distinctTerms seen l).Nodup
  | [], _ => List.nodup_nil
  | t :: l, seen => by
    simp only [distinctTerms]
    split
    · exact distinct_nodup
    · rw [List.nodup_cons]
      exact ⟨fun hc => (distinct_mem.1 hc).2 (List.mem_cons_self ..), distinct_nodup⟩

/-! ### every choice of terms, once -/

section
variable {α : Type}

theorem chosen_sublist : ∀ (l : List α) (m : Nat), (chosen l m).Sublist l
  | [], _ => .slnil
  | t :: l, m => by
    simp only [chosen]
    split
    · exact (chosen_sublist l _).cons_cons t
    · exact (chosen_sublist l _).cons t

theorem chosen_all {s : List α} : ∀ {l : List α}, s.Sublist l → ∃ m, m < 2 ^ l.length ∧ chosen l m = s
  | _, .slnil => ⟨0, by simp, rfl⟩
  | _, .cons (l₂ := l) a h => by
    obtain ⟨m, h1, h2⟩ := chosen_all h
    refine ⟨2 * m, ?_, ?_⟩
    · rw [List.length_cons, Nat.pow_succ]; omega
    · simp only [chosen]
      rw [if_neg (by omega), show 2 * m / 2 = m by omega, h2]
  | _, .cons_cons (l₂ := l) a h => by
    obtain ⟨m, h1, h2⟩ := chosen_all h
    refine ⟨2 * m + 1, ?_, ?_⟩
    · rw [List.length_cons, Nat.pow_succ]; omega
    · simp only [chosen]
      rw [if_pos (by omega), show (2 * m + 1) / 2 = m by omega, h2]

theorem chosen_inj : ∀ {l : List α}, l.Nodup → ∀ {m m' : Nat}, m < 2 ^ l.length → m' < 2 ^ l.length → chosen l m = chosen l m' → m = m'
  | [], _, m, m', h, h', _ => by simp at h h'; omega
  | t :: l, hn, m, m', h, h', e => by
    rw [List.nodup_cons] at hn
    rw [List.length_cons, Nat.pow_succ] at h h'
    simp only [chosen] at e
    have no : ∀ k x, t :: x ≠ chosen l k := fun k x hc => hn.1 ((chosen_sublist l k).subset (hc ▸ List.mem_cons_self ..))
    split at e <;> split at e
    · have := chosen_inj hn.2 (m := m / 2) (m' := m' / 2) (by omega) (by omega) (List.cons.inj e).2
      omega
    · exact absurd e (no _ _)
    · exact absurd e.symm (no _ _)
    · have := chosen_inj hn.2 (m := m / 2) (m' := m' / 2) (by omega) (by omega) e
      omega

theorem chosen_zero : ∀ (l : List α), chosen l 0 = []
  | [] => rfl
  | t :: l => by simp only [chosen]; rw [if_neg (by omega)]; exact chosen_zero l

/-- all the choices, as they are made -/
def choices (l : List α) : List (List α) := ((List.range (2 ^ l.length)).drop 1).reverse.map (chosen l)

theorem mem_numbers {n m : Nat} : m ∈ ((List.range n).drop 1).reverse ↔ 0 < m ∧ m < n := by
  rw [List.mem_reverse]
  cases n with
  | zero => simp
  | succ n =>
    rw [List.range_succ_eq_map]
    simp only [List.drop_succ_cons, List.drop_zero, List.mem_map, List.mem_range]
    constructor
    · rintro ⟨a, h, rfl⟩; omega
    · rintro ⟨h1, h2⟩; exact ⟨m - 1, by omega, by omega⟩

theorem choices_mem {l s : List α} (hn : l.Nodup) : s ∈ choices l ↔ s.Sublist l ∧ s ≠ [] := by
  unfold choices
  rw [List.mem_map]
  constructor
  · rintro ⟨m, hm, rfl⟩
    rw [mem_numbers] at hm
    refine ⟨chosen_sublist l m, fun hc => ?_⟩
    have := chosen_inj hn hm.2 (Nat.two_pow_pos _) (by rw [hc, chosen_zero])
    omega
  · rintro ⟨h, hne⟩
    obtain ⟨m, h1, h2⟩ := chosen_all h
    refine ⟨m, ?_, h2⟩
    rw [mem_numbers]
    refine ⟨?_, h1⟩
    rcases Nat.eq_zero_or_pos m with rfl | h
    · rw [chosen_zero] at h2; exact absurd h2.symm hne
    · exact h

theorem choices_nodup {l : List α} (hn : l.Nodup) : (choices l).Nodup := by
  unfold choices
  have hr : ((List.range (2 ^ l.length)).drop 1).reverse.Nodup := by
    unfold List.Nodup
    rw [List.pairwise_reverse]
    exact (List.nodup_range.sublist (List.drop_sublist ..)).imp Ne.symm
  unfold List.Nodup at hr ⊢
  rw [List.pairwise_map]
  refine List.Pairwise.imp_of_mem (fun {a b} ha hb hab hc => hab ?_) hr
  rw [mem_numbers] at ha hb
  exact chosen_inj hn ha.2 hb.2 hc

end

/-! ### the groups -/

/-- The groups of consecutive subqueries that become tiers: each begins with the first one that is
not close to the beginning of the group before. -/
inductive Grouped (close : σ → σ → Bool) : List (List Char × σ) → List (List (List Char × σ)) → Prop
  | nil : Grouped close [] []
  | cons {x : List Char × σ} {g rest : List (List Char × σ)} {gs : List (List (List Char × σ))} :
      (∀ y ∈ g, close x.2 y.2 = true) → (∀ y ∈ rest.head?, close x.2 y.2 = false) → Grouped close rest gs →
      Grouped close (x :: g ++ rest) ((x :: g) :: gs)

theorem tierGroups_ok (close : σ → σ → Bool) : ∀ (l : List (List Char × σ)) (x : List Char × σ) (g : List (List Char × σ)),
    (∀ y ∈ g, close x.2 y.2 = true) →
    ∃ gs, Grouped close (x :: g ++ l) gs ∧ tierGroups close l ((x :: g).map (·.1)) x.2 = gs.map fun g => tierText (g.map (·.1))
  | [], x, g, h => by
    refine ⟨[x :: g], .cons h (by simp) .nil, ?_⟩
    simp [tierGroups]
  | y :: l, x, g, h => by
    rw [show y = (y.1, y.2) from rfl]
    simp only [tierGroups]
    rw [if_neg (by simp)]
    by_cases hc : close x.2 y.2 = true
    · rw [if_pos hc]
      obtain ⟨gs, h1, h2⟩ := tierGroups_ok close l x (g ++ [y]) (fun z hz => by
        rcases List.mem_append.1 hz with hz | hz
        · exact h z hz
        · rw [List.mem_singleton] at hz; subst hz; exact hc)
      refine ⟨gs, ?_, ?_⟩
      · simpa using h1
      · rw [← h2]; simp
    · rw [if_neg hc]
      obtain ⟨gs, h1, h2⟩ := tierGroups_ok close l y [] (by simp)
      refine ⟨(x :: g) :: gs, ?_, ?_⟩
      · refine .cons (rest := y :: l) h (fun z hz => ?_) (by simpa using h1)
        simp at hz
        subst hz
        simpa using hc
      · show _ = tierText ((x :: g).map (·.1)) :: gs.map _
        rw [← h2]
        rfl

theorem tierGroups_start (close : σ → σ → Bool) (z : σ) (l : List (List Char × σ)) :
    ∃ gs, Grouped close l gs ∧ tierGroups close l [] z = gs.map fun g => tierText (g.map (·.1)) := by
  cases l with
  | nil => exact ⟨[], .nil, rfl⟩
  | cons x l =>
    obtain ⟨gs, h1, h2⟩ := tierGroups_ok close l x [] (by simp)
    exact ⟨gs, by simpa using h1, by rw [← h2]; rfl⟩

theorem Grouped.flatten {close : σ → σ → Bool} {l : List (List Char × σ)} {gs : List (List (List Char × σ))} (h : Grouped close l gs) :
    gs.flatten = l := by
  induction h with
  | nil => rfl
  | cons _ _ _ ih => rw [List.flatten_cons, ih]

theorem Grouped.ne {close : σ → σ → Bool} {l : List (List Char × σ)} {gs : List (List (List Char × σ))} (h : Grouped close l gs) :
    ∀ g ∈ gs, g ≠ [] := by
  induction h with
  | nil => intro g hg; cases hg
  | cons _ _ _ ih =>
    intro g hg
    rcases List.mem_cons.1 hg with rfl | hg
    · simp
    · exact ih g hg

/-! ### the texts -/

def termTree (t : List Char) : SExpr := .node .term t 0 []

/-- all of the terms; a single one is to be found twice -/
def subqueryTree : List (List Char) → SExpr
  | [t] => .node .followedBy [] 0 [termTree t, termTree t]
  | s => .node .allOf [] 0 (s.map termTree)

/-- one of the subqueries -/
def tierTree : List (List (List Char)) → SExpr
  | [s] => subqueryTree s
  | l => .node .oneOf [] 0 (l.map subqueryTree)

theorem writesL_words : ∀ {l : List (List Char)} {tail : List Char}, Space tail → (∀ t ∈ l, Word t) →
    WritesL (l.flatMap (fun t => ' ' :: t) ++ tail) (l.map termTree)
  | [], tail, ht, _ => .nil ht
  | t :: l, tail, ht, h => by
    have := WritesL.cons (a := [' ']) (by intro c hc; simp at hc; exact Or.inl hc) (by simp) (.word (h t (List.mem_cons_self ..)))
      (writesL_words (tail := tail) ht fun u hu => h u (List.mem_cons_of_mem _ hu))
    simpa [termTree] using this

theorem space_nil : Space [] := by intro c hc; cases hc
theorem space_one : Space [' '] := by intro c hc; simp at hc; exact Or.inl hc

theorem writes_subquery {s : List (List Char)} (hne : s ≠ []) (hl : s.length < 2 ^ 32) (h : ∀ t ∈ s, Word t) :
    Writes (subqueryText s) (subqueryTree s) := by
  match s with
  | [t] =>
    have hw : ∀ u ∈ [t, t], Word u := fun u hu => by
      simp at hu; subst hu; exact h u (List.mem_cons_self ..)
    have := Writes.op (k := .followedBy) (a := []) (name := ['.', '.', '.']) space_nil (by simp [names]) (by simp)
      (writesL_words (l := [t, t]) space_nil hw) (by simp [Takes]) (by simp)
    simpa [subqueryText, subqueryTree] using this
  | t :: u :: l =>
    have := Writes.op (k := .allOf) (a := []) (name := ['^']) space_nil (by simp [names]) (by simp)
      (writesL_words (l := t :: u :: l) space_one h) (by simp [Takes]) (by simpa using hl)
    simpa [subqueryText, subqueryTree] using this

theorem writesL_subqueries : ∀ {l : List (List (List Char))}, (∀ s ∈ l, s ≠ [] ∧ s.length < 2 ^ 32 ∧ ∀ t ∈ s, Word t) →
    WritesL ((l.map subqueryText).flatMap (fun s => ' ' :: s)) (l.map subqueryTree)
  | [], _ => .nil space_nil
  | s :: l, h => by
    obtain ⟨h1, h2, h3⟩ := h s (List.mem_cons_self ..)
    have := WritesL.cons (a := [' ']) space_one (by simp) (writes_subquery h1 h2 h3)
      (writesL_subqueries fun u hu => h u (List.mem_cons_of_mem _ hu))
    simpa using this

theorem writes_tier {l : List (List (List Char))} (hne : l ≠ []) (hl : l.length < 2 ^ 32)
    (h : ∀ s ∈ l, s ≠ [] ∧ s.length < 2 ^ 32 ∧ ∀ t ∈ s, Word t) : Writes (tierText (l.map subqueryText)) (tierTree l) := by
  match l with
  | [s] =>
    obtain ⟨h1, h2, h3⟩ := h s (List.mem_cons_self ..)
    exact writes_subquery h1 h2 h3
  | s :: u :: l =>
    have := Writes.op (k := .oneOf) (a := []) (name := ['+']) space_nil (by simp [names]) (by simp)
      (writesL_subqueries (l := s :: u :: l) h) (by simp [Takes]) (by simpa using hl)
    simpa [tierText, tierTree] using this

end

end Verif.Rank
