import Verif.Rank.Loop
/-
  Ranking in ranges.
-/
namespace Verif.Rank
open Verif.Hopper

variable {σ : Type} {sc : Scores σ} {sort : List (Result σ) → List (Result σ)} {depth : Nat}
  {L C : List Ann}

theorem results_append {cs cs' : List Ann} {rs rs' : List (Result σ)} (h : Results sc L cs rs) (h' : Results sc L cs' rs') :
    Results sc L (cs ++ cs') (rs ++ rs') := by
  induction h with
  | nil => exact h'
  | cons h1 _ ih => exact .cons h1 ih

/-- cut an ordered list -/
theorem filter_cut {l : List Ann} (hs : l.Pairwise fun a b => a.p < b.p) {a b c : Int} (h1 : a ≤ b) (h2 : b ≤ c)
    (P : Ann → Bool) : (l.filter fun x => decide (a ≤ x.p ∧ x.p < c) && P x) =
      (l.filter fun x => decide (a ≤ x.p ∧ x.p < b) && P x) ++ (l.filter fun x => decide (b ≤ x.p ∧ x.p < c) && P x) := by
  induction l with
  | nil => rfl
  | cons x l ih =>
    rw [List.pairwise_cons] at hs
    have ih := ih hs.2
    rcases Int.lt_or_le x.p b with g | g
    · have e : (decide (a ≤ x.p ∧ x.p < c)) = decide (a ≤ x.p ∧ x.p < b) := by rw [decide_eq_decide]; omega
      have e2 : (decide (b ≤ x.p ∧ x.p < c)) = false := by rw [decide_eq_false_iff_not]; omega
      simp only [List.filter_cons, e, e2, Bool.false_and, Bool.false_eq_true, if_false]
      split
      · rw [ih]; rfl
      · exact ih
    · have e : (decide (a ≤ x.p ∧ x.p < c)) = decide (b ≤ x.p ∧ x.p < c) := by rw [decide_eq_decide]; omega
      have e2 : (decide (a ≤ x.p ∧ x.p < b)) = false := by rw [decide_eq_false_iff_not]; omega
      have e3 : (l.filter fun x => decide (a ≤ x.p ∧ x.p < b) && P x) = [] := by
        rw [List.filter_eq_nil_iff]
        intro y hy hd
        have := hs.1 y hy
        simp only [Bool.and_eq_true, decide_eq_true_eq] at hd
        omega
      simp only [List.filter_cons, e, e2, Bool.false_and, Bool.false_eq_true, if_false]
      rw [e3] at ih ⊢
      split
      · rw [ih]; rfl
      · exact ih

theorem matching_cut (hC : Listing C) {a b c : Int} (h1 : a ≤ b) (h2 : b ≤ c) :
    matching L C a c = matching L C a b ++ matching L C b c :=
  filter_cut (hC.sorted.imp fun h => h.1) h1 h2 _

theorem matching_self {a : Int} : matching L C a a = [] := by
  rw [List.eq_nil_iff_forall_not_mem]
  intro x hx
  obtain ⟨_, m2, m3, _⟩ := mem_matching.1 hx
  omega

section
variable {start span d : Int} (hd : 0 < d) (hspan : 0 ≤ span)

theorem cutAt_zero : cutAt start span d 0 = start := by simp [cutAt]

include hd in
theorem cutAt_end : cutAt start span d d = start + span := by
  unfold cutAt
  rw [Int.mul_ediv_cancel _ (by omega), Int.add_assoc]
  congr 1
  have := Int.mul_ediv_add_emod span d
  rw [Int.mul_comm] at this
  exact this

include hd hspan in
theorem cutAt_mono {n m : Int} (h : n ≤ m) : cutAt start span d n ≤ cutAt start span d m := by
  unfold cutAt
  have h1 := Int.mul_le_mul_of_nonneg_left h (Int.ediv_nonneg hspan (Int.le_of_lt hd))
  have h2 := Int.mul_le_mul_of_nonneg_left h (Int.emod_nonneg span (by omega : d ≠ 0))
  have h3 := Int.ediv_le_ediv hd h2
  omega

end

/-- what is asked of a ranking algorithm: the best of each range -/
def Ranks (sc : Scores σ) (depth : Nat) (L C : List Ann) (alg : Int → Int → Option (List (Result σ))) : Prop :=
  ∀ a b, InRange a → InRange b → ∃ all R, alg a b = some R ∧ Results sc L (matching L C a b) all ∧ Top sc depth all R

theorem ranges_ok (hs : sc.Lawful) (hsort : SortsBy sc sort) (hC : Listing C) {alg : Int → Int → Option (List (Result σ))}
    (halg : Ranks sc depth L C alg) {start span : Int} {d : Nat} (hd : 0 < d) (hspan : 0 ≤ span)
    (h1 : minfinity ≤ start) (h2 : start + span ≤ maxfinity) (cloned : Nat → Bool) : ∀ (n i : Nat), i + n = d →
    ∃ rs, (((List.range' i n).map fun (i : Nat) => (cutAt start span d i, cutAt start span d (i + 1))).zipIdx i).mapM
        (fun r => if cloned r.2 then alg r.1.1 r.1.2 else some []) = some rs ∧
      ((∀ j, i ≤ j → j < d → cloned j = true) →
      ∃ all, Results sc L (matching L C (cutAt start span d i) (start + span)) all ∧
        ∀ done top, Top sc depth done top →
          Top sc depth (done ++ all) (rs.foldl (fun top r => topResults sort top r depth) top)) := by
  have hdi : (0 : Int) < d := by omega
  have hlow : ∀ j : Nat, start ≤ cutAt start span d j := by
    intro j
    have := cutAt_mono (start := start) hdi hspan (show (0 : Int) ≤ j by omega)
    rwa [cutAt_zero] at this
  have hhigh : ∀ j : Nat, j ≤ d → cutAt start span d j ≤ start + span := by
    intro j hj
    have := cutAt_mono (start := start) hdi hspan (show (j : Int) ≤ d by omega)
    rwa [cutAt_end hdi] at this
  intro n
  induction n with
  | zero =>
    intro i hi
    refine ⟨[], rfl, fun _ => ⟨[], ?_, fun done top h => ?_⟩⟩
    · have : i = d := by omega
      rw [this, cutAt_end hdi, matching_self]; exact .nil
    · simpa using h
  | succ n ih =>
    intro i hi
    obtain ⟨rs, e, hrs⟩ := ih (i + 1) (by omega)
    have l1 := hlow i
    have l2 := hhigh i (by omega)
    have l3 := hlow (i + 1)
    have l4 := hhigh (i + 1) (by omega)
    have hi1 : (((i + 1 : Nat) : Int)) = (i : Int) + 1 := by omega
    rw [hi1] at l3 l4 hrs
    obtain ⟨all, R, a1, a2, a3⟩ := halg (cutAt start span d i) (cutAt start span d (i + 1)) ⟨by omega, by omega⟩ ⟨by omega, by omega⟩
    refine ⟨(if cloned i then R else []) :: rs, ?_, fun hcl => ?_⟩
    · rw [List.range'_succ, List.map_cons, List.zipIdx_cons, List.mapM_cons, e]
      simp only
      split
      · rw [a1]; rfl
      · rfl
    · obtain ⟨all', b1, b2⟩ := hrs fun j h1 h2 => hcl j (by omega) h2
      rw [hcl i (Nat.le_refl _) (by omega), if_pos rfl]
      refine ⟨all ++ all', ?_, fun done top h => ?_⟩
      · rw [matching_cut hC (cutAt_mono hdi hspan (show (i : Int) ≤ i + 1 by omega)) l4]
        exact results_append a2 b1
      · rw [List.foldl_cons, ← List.append_assoc]
        refine b2 _ _ (top_take hs hsort ?_)
        exact enough_append (enough_of_top h) (enough_of_top a3)

/-- `src/ranking.cc:1778-1848`: whatever the number of threads, the best of all the containers -/
theorem parallel_ok (hs : sc.Lawful) (hsort : SortsBy sc sort) (hC : Listing C) {H K : Obj}
    {J : K.σ → Prop} (hK : Impl K J (ofList C)) {alg : Int → Int → Option (List (Result σ))}
    (halg : Ranks sc depth L C alg) (hspan : ∀ c ∈ C, ∀ d ∈ C, d.q + 1 - c.p ≤ maxfinity)
    (hardware threads : Nat) (cloned : Nat → Bool) :
    ∃ all R, parallelRanking sort depth (some H) (some K) hardware threads cloned alg = some R ∧
      Results sc L (matching L C minfinity maxfinity) all ∧
      ((∃ i, cloned i = false) ∧ R = [] ∨ Top sc depth all R) := by
  obtain ⟨all0, _, _, r0, _⟩ := halg minfinity maxfinity ⟨by omega, by omega⟩ ⟨by omega, by omega⟩
  unfold parallelRanking
  by_cases hd : depth = 0
  · rw [if_pos hd]
    exact ⟨all0, [], rfl, r0, .inr ⟨by rw [hd]; simp, .nil, all0, List.Perm.refl _, by simp⟩⟩
  rw [if_neg hd]
  obtain ⟨c, b, e, hb, hc⟩ := hK.tau (minfinity + 1) ⟨by omega, by omega⟩ K.init hK.init
  simp only [e, Option.bind_eq_bind, Option.bind_some]
  rcases hc with ⟨h1, _⟩ | ⟨_, h1, h2, h3⟩ | ⟨_, h1, rfl⟩
  · omega
  · have hcb := hC.bounds c h1
    rw [if_neg (by omega)]
    obtain ⟨z, b', e, hb', hz⟩ := hK.ohr (maxfinity - 1) ⟨by omega, by omega⟩ b hb
    simp only [e, Option.bind_some]
    rcases hz with ⟨g1, _⟩ | ⟨_, g1, g2, g3⟩ | ⟨_, g1, rfl⟩
    · omega
    · have hzb := hC.bounds z g1
      have hzc := hspan c h1 z g1
      rw [if_neg (by omega), if_neg (show ¬ z.q = maxfinity by omega)]
      have hcz : c.p ≤ z.p := g3 c h1 (by omega)
      rw [if_neg (by omega), if_neg (by omega)]
      have hm : matching L C minfinity maxfinity = matching L C c.p (z.q + 1) := by
        unfold matching
        apply List.filter_congr
        intro x hx
        congr 1
        rw [decide_eq_decide]
        have hxb := hC.bounds x hx
        have := h3 x hx (by omega)
        have := g3 x hx (by omega)
        omega
      rw [hm]
      generalize ht : min (allowedThreads hardware threads) (max 1 ((z.q + 1 - c.p) / 1000000).toNat) = T
      by_cases hT : T ≤ 1
      · rw [if_pos hT]
        obtain ⟨all, R, a1, a2, a3⟩ := halg c.p (z.q + 1) ⟨by omega, by omega⟩ ⟨by omega, by omega⟩
        exact ⟨all, R, a1, a2, .inr a3⟩
      · rw [if_neg hT]
        obtain ⟨rs, e1, e2⟩ := ranges_ok hs hsort hC halg (start := c.p) (span := z.q + 1 - c.p) (d := T) (by omega)
          (by omega) (by omega) (by omega) cloned T 0 (by omega)
        have er : (ranges c.p (z.q + 1 - c.p) T).zipIdx = ((List.range' 0 T).map fun (i : Nat) =>
            (cutAt c.p (z.q + 1 - c.p) T i, cutAt c.p (z.q + 1 - c.p) T (i + 1))).zipIdx 0 := by
          unfold ranges; rw [List.range_eq_range']
        simp only [er, e1, Option.bind_some]
        by_cases hcl : ((List.range T).any fun i => !cloned i) = true
        · rw [if_pos hcl]
          obtain ⟨i, _, hi⟩ := List.any_eq_true.1 hcl
          rw [hm] at r0
          exact ⟨all0, [], rfl, r0, .inl ⟨⟨i, by simpa using hi⟩, rfl⟩⟩
        · rw [if_neg hcl]
          have hcl' : ∀ j, 0 ≤ j → j < T → cloned j = true := by
            intro j _ hj
            rw [Bool.not_eq_true, List.any_eq_false] at hcl
            have := hcl j (List.mem_range.2 hj)
            simpa using this
          obtain ⟨all, a1, a2⟩ := e2 hcl'
          have a1 : Results sc L (matching L C (cutAt c.p (z.q + 1 - c.p) T 0) (c.p + (z.q + 1 - c.p))) all := a1
          rw [cutAt_zero, show c.p + (z.q + 1 - c.p) = z.q + 1 by omega] at a1
          exact ⟨all, _, rfl, a1, .inr (by simpa using a2 [] [] top_nil)⟩
    · have := g1 c h1; omega
  · rw [if_pos rfl]
    have : matching L C minfinity maxfinity = [] := by
      rw [List.eq_nil_iff_forall_not_mem]
      intro x hx
      obtain ⟨m1, _⟩ := mem_matching.1 hx
      have := h1 x m1
      have := hC.bounds x m1
      omega
    rw [this]
    exact ⟨[], [], rfl, .nil, .inr top_nil⟩

end Verif.Rank
