import Verif.Rank.Model
/-
  Keeping the best: what may be thrown away before the end.
-/
namespace Verif.Rank
open Verif.Hopper

variable {σ : Type} {sc : Scores σ}

/-- how many of `R` are no worse than `x` -/
def rivals (sc : Scores σ) (x : Result σ) (R : List (Result σ)) : Nat := R.countP fun r => !sc.gt x.score r.score

/-- `R` is enough to find the best `d` of `all`: for whatever is missing there are `d` others
that are no worse -/
def Enough (sc : Scores σ) (d : Nat) (all R : List (Result σ)) : Prop :=
  ∃ rest, (R ++ rest).Perm all ∧ ∀ x ∈ rest, d ≤ rivals sc x R

theorem enough_self (d : Nat) (R : List (Result σ)) : Enough sc d R R :=
  ⟨[], by simp, fun x hx => by cases hx⟩

theorem enough_append {d : Nat} {A B R S : List (Result σ)} (h : Enough sc d A R) (h' : Enough sc d B S) :
    Enough sc d (A ++ B) (R ++ S) := by
  obtain ⟨r, h1, h2⟩ := h
  obtain ⟨s, h3, h4⟩ := h'
  refine ⟨r ++ s, ?_, ?_⟩
  · have : (R ++ S ++ (r ++ s)).Perm (R ++ r ++ (S ++ s)) := by
      simp only [List.append_assoc]
      refine List.Perm.append_left R ?_
      rw [← List.append_assoc, ← List.append_assoc]
      exact List.Perm.append_right s List.perm_append_comm
    exact this.trans (h1.append h3)
  · intro x hx
    unfold rivals
    rw [List.countP_append]
    rcases List.mem_append.1 hx with hx | hx
    · have := h2 x hx; unfold rivals at this; omega
    · have := h4 x hx; unfold rivals at this; omega

theorem enough_snoc {d : Nat} {A R : List (Result σ)} (h : Enough sc d A R) (x : Result σ) :
    Enough sc d (A ++ [x]) (R ++ [x]) := enough_append h (enough_self d [x])

theorem enough_drop {d : Nat} {A R : List (Result σ)} (h : Enough sc d A R) {x : Result σ} (hx : d ≤ rivals sc x R) :
    Enough sc d (A ++ [x]) R := by
  obtain ⟨r, h1, h2⟩ := h
  refine ⟨r ++ [x], ?_, ?_⟩
  · rw [← List.append_assoc]; exact h1.append_right [x]
  · intro y hy
    rcases List.mem_append.1 hy with hy | hy
    · exact h2 y hy
    · rw [List.mem_singleton.1 hy]; exact hx

theorem rivals_mono (x : Result σ) (R S : List (Result σ)) : rivals sc x R ≤ rivals sc x (R ++ S) := by
  unfold rivals; rw [List.countP_append]; omega

/-- everything in a list as good as something is a rival of it -/
theorem rivals_all {x : Result σ} {R : List (Result σ)} (h : ∀ r ∈ R, sc.gt x.score r.score = false) :
    rivals sc x R = R.length := by
  unfold rivals
  rw [List.countP_eq_length]
  intro r hr
  simp [h r hr]

theorem irrefl (hs : sc.Ordered) (a : σ) : sc.gt a a = false := by
  cases h : sc.gt a a with
  | false => rfl
  | true => rw [hs.asymm h] at h; cases h

/-- keeping the first `d` after sorting is enough -/
theorem enough_trim (hs : sc.Ordered) {sort : List (Result σ) → List (Result σ)} (hsort : SortsBy sc sort) {d : Nat}
    {all R : List (Result σ)} (h : Enough sc d all R) : Enough sc d all ((sort R).take d) := by
  obtain ⟨rest, h1, h2⟩ := h
  obtain ⟨s1, s2⟩ := hsort R
  generalize sort R = S at s1 s2
  have cross : ∀ y ∈ S.drop d, ∀ r ∈ S.take d, sc.gt y.score r.score = false := by
    intro y hy r hr
    rw [← List.take_append_drop d S, List.pairwise_append] at s2
    exact s2.2.2 r hr y hy
  refine ⟨S.drop d ++ rest, ?_, ?_⟩
  · rw [← List.append_assoc, List.take_append_drop]
    exact (s1.append_right rest).trans h1
  · intro x hx
    rcases List.mem_append.1 hx with hx | hx
    · -- dropped now
      have hl : (S.take d).length = d := by
        have : (S.drop d).length ≠ 0 := by
          intro h0; rw [List.eq_nil_of_length_eq_zero h0] at hx; cases hx
        rw [List.length_drop] at this
        rw [List.length_take]; omega
      rw [rivals_all (cross x hx), hl]
      exact Nat.le_refl _
    · -- dropped before
      have hc : d ≤ rivals sc x S := by
        have := h2 x hx
        unfold rivals at this ⊢
        rw [s1.countP_eq]; exact this
      by_cases hall : ∀ r ∈ S.take d, sc.gt x.score r.score = false
      · rw [rivals_all hall, List.length_take]
        have : rivals sc x S ≤ S.length := List.countP_le_length
        omega
      · exfalso
        simp only [Classical.not_forall] at hall
        obtain ⟨r', hr', hgt⟩ := hall
        have hgt : sc.gt x.score r'.score = true := by simpa using hgt
        -- the rivals of x are all better than r'
        have c1 : d ≤ S.countP fun t => sc.gt t.score r'.score := by
          refine Nat.le_trans hc ?_
          unfold rivals
          refine List.countP_mono_left ?_
          intro t _ ht
          rcases hs.split (b := t.score) hgt with h | h
          · rw [h] at ht; simp at ht
          · exact h
        rw [← List.take_append_drop d S, List.countP_append] at c1
        have c2 : (S.drop d).countP (fun t => sc.gt t.score r'.score) = 0 := by
          rw [List.countP_eq_zero]
          intro t ht
          simp [cross t ht r' hr']
        have c3 : (S.take d).countP (fun t => sc.gt t.score r'.score) = (S.take d).length := by
          have : (S.take d).countP (fun t => sc.gt t.score r'.score) ≤ (S.take d).length := List.countP_le_length
          have : (S.take d).length ≤ d := List.length_take_le d S
          omega
        rw [List.countP_eq_length] at c3
        have := c3 r' hr'
        rw [irrefl hs] at this; cases this

theorem enough_perm {d : Nat} {A B R : List (Result σ)} (h : Enough sc d A R) (hp : A.Perm B) : Enough sc d B R := by
  obtain ⟨r, h1, h2⟩ := h
  exact ⟨r, h1.trans hp, h2⟩

/-- enough, in order and no more than `d`: the best `d` -/
theorem top_of_enough {d : Nat} {all R : List (Result σ)} (h : Enough sc d all R) (hl : R.length ≤ d)
    (hs : R.Pairwise fun a b => sc.gt b.score a.score = false) : Top sc d all R := by
  obtain ⟨rest, h1, h2⟩ := h
  have hlen := h1.length_eq
  rw [List.length_append] at hlen
  have full : ∀ x ∈ rest, R.length = d ∧ rivals sc x R = R.length := by
    intro x hx
    have a1 := h2 x hx
    have a2 : rivals sc x R ≤ R.length := List.countP_le_length
    omega
  refine ⟨?_, hs, rest, h1, ?_⟩
  · match rest, full, hlen with
    | [], _, hlen => simp at hlen; omega
    | x :: rest, full, hlen => have := full x (List.mem_cons_self ..); simp at hlen; omega
  · intro x hx r hr
    have := (full x hx).2
    unfold rivals at this
    rw [List.countP_eq_length] at this
    simpa using this r hr

theorem enough_of_top {d : Nat} {all R : List (Result σ)} (h : Top sc d all R) : Enough sc d all R := by
  obtain ⟨h1, _, rest, h3, h4⟩ := h
  refine ⟨rest, h3, fun x hx => ?_⟩
  rw [rivals_all (h4 x hx)]
  have hlen := h3.length_eq
  rw [List.length_append] at hlen
  have : rest.length ≠ 0 := by intro h0; rw [List.eq_nil_of_length_eq_zero h0] at hx; cases hx
  omega

theorem top_take (hs : sc.Ordered) {sort : List (Result σ) → List (Result σ)} (hsort : SortsBy sc sort) {d : Nat}
    {all R : List (Result σ)} (h : Enough sc d all R) : Top sc d all ((sort R).take d) :=
  top_of_enough (enough_trim hs hsort h) (List.length_take_le d _) ((hsort R).2.sublist (List.take_sublist d _))

/-- Two rankings of the same results have the same scores, rank by rank. -/
theorem top_unique (hs : sc.Ordered) {d : Nat} {all R R' : List (Result σ)} (h : Top sc d all R) (h' : Top sc d all R')
    {i : Nat} {r r' : Result σ} (hr : R[i]? = some r) (hr' : R'[i]? = some r') : sc.gt r.score r'.score = false := by
  cases hg : sc.gt r.score r'.score with
  | false => rfl
  | true =>
    exfalso
    obtain ⟨_, s1, o1, p1, b1⟩ := h
    obtain ⟨_, s2, o2, p2, b2⟩ := h'
    obtain ⟨hi, rfl⟩ := List.getElem?_eq_some_iff.1 hr
    obtain ⟨hi', rfl⟩ := List.getElem?_eq_some_iff.1 hr'
    -- the first i + 1 of R are all better than R'[i]
    have c1 : i + 1 ≤ R.countP fun t => sc.gt t.score R'[i].score := by
      have hsub : (R.take (i + 1)).countP (fun t => sc.gt t.score R'[i].score) ≤
          R.countP fun t => sc.gt t.score R'[i].score := (List.take_sublist _ _).countP_le
      have hall : (R.take (i + 1)).countP (fun t => sc.gt t.score R'[i].score) = (R.take (i + 1)).length := by
        rw [List.countP_eq_length]
        intro t ht
        obtain ⟨j, hj, rfl⟩ := List.getElem_of_mem ht
        rw [List.length_take] at hj
        rw [List.getElem_take]
        by_cases hij : j = i
        · subst hij; exact hg
        · have := List.pairwise_iff_getElem.1 s1 j i (by omega) hi (by omega)
          rcases hs.split (b := R[j].score) hg with h | h
          · rw [this] at h; cases h
          · exact h
      rw [List.length_take] at hall
      omega
    have c2 : i + 1 ≤ all.countP fun t => sc.gt t.score R'[i].score := by
      rw [← p1.countP_eq, List.countP_append]; omega
    rw [← p2.countP_eq, List.countP_append] at c2
    have c3 : o2.countP (fun t => sc.gt t.score R'[i].score) = 0 := by
      rw [List.countP_eq_zero]
      intro t ht
      simp [b2 t ht R'[i] (List.getElem_mem hi')]
    -- but only those before it in R' can be
    have c6 : R'.countP (fun t => sc.gt t.score R'[i].score) = (R'.take i).countP (fun t => sc.gt t.score R'[i].score) +
        (R'.drop i).countP (fun t => sc.gt t.score R'[i].score) := by
      rw [← List.countP_append, List.take_append_drop]
    have c4 : (R'.drop i).countP (fun t => sc.gt t.score R'[i].score) = 0 := by
      rw [List.countP_eq_zero]
      intro t ht
      obtain ⟨j, hj, rfl⟩ := List.getElem_of_mem ht
      rw [List.getElem_drop]
      rw [List.length_drop] at hj
      by_cases hij : j = 0
      · subst hij; simp [irrefl hs]
      · have := List.pairwise_iff_getElem.1 s2 i (i + j) hi' (by omega) (by omega)
        simp [this]
    have c5 : (R'.take i).countP (fun t => sc.gt t.score R'[i].score) ≤ (R'.take i).length := List.countP_le_length
    rw [List.length_take] at c5
    omega

end Verif.Rank
