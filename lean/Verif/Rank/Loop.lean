import Verif.Rank.Ssr
/-
  The loop of ssr_ranking ends, and what it returns.
-/
namespace Verif.Rank
open Verif.Hopper

variable {σ : Type} {sc : Scores σ} {sort : List (Result σ) → List (Result σ)} {depth : Nat}
  {L C : List Ann} {start stop : Int} {H K : Obj} {I : H.σ → Prop} {J : K.σ → Prop}

theorem loop_ok (hs : sc.Lawful) (hsort : SortsBy sc sort) (hL : Listing L) (hC : Listing C) (hD : Disjoint C)
    (hH : Impl H I (ofList L)) (hK : Impl K J (ofList C)) : ∀ (n : Nat) (a : H.σ) (b : K.σ) (s : Vars σ),
    I a → J b → Inv sc depth L C start stop s → (maxfinity - s.p).toNat + (maxfinity - s.cq).toNat < n →
    ∃ t, ssrLoop sc sort depth H K stop n a b s = some t ∧ Inv sc depth L C start stop t ∧
      ¬ (t.p < maxfinity ∧ t.cq < maxfinity ∧ t.cp < stop) := by
  intro n
  induction n with
  | zero => intro _ _ _ _ _ _ h; omega
  | succ n ih =>
    intro a b s ha hb hi hn
    unfold ssrLoop
    by_cases hc : s.p < maxfinity ∧ s.cq < maxfinity ∧ s.cp < stop
    · rw [if_pos hc]
      have ht := inv_target hs hi
      have b1 := sol_bounds hL hi.sol
      have b2 := sol_bounds hC hi.con
      simp only
      by_cases h1 : s.p < s.cp
      · rw [if_pos h1]
        obtain ⟨x, a', e, ha', hx⟩ := hH.tau s.cp ⟨by omega, by omega⟩ a ha
        simp only [e]
        obtain ⟨g1, g2⟩ := step_skip hL hC ht h1 hx
        have := sol_bounds hL g1.sol
        exact ih a' b _ ha' hb g1 (by simp only at g2 this ⊢; omega)
      · rw [if_neg h1]
        by_cases h2 : s.q > s.cq
        · rw [if_pos h2]
          obtain ⟨x, b', e, hb', hx⟩ := hK.rho s.q ⟨by omega, by omega⟩ b hb
          simp only [e]
          obtain ⟨g1, g2⟩ := step_close hs hsort hL hC hD ht hc.2.1 hc.2.2 h2 hx
          obtain ⟨_, _, v3, _, _⟩ := close_vars (sc := sc) (depth := depth) sort
            ({ s with target := targetOf sc depth s.top } : Vars σ)
          have := sol_bounds hC g1.con
          exact ih a b' _ ha hb' g1 (by simp only at g2 this v3 ⊢; rw [v3]; omega)
        · rw [if_neg h2]
          obtain ⟨x, a', e, ha', hx⟩ := hH.tau (s.p + 1) ⟨by omega, by omega⟩ a ha
          simp only [e]
          obtain ⟨g1, g2⟩ := step_count hL ht hc.1 (by simp only; omega) (by simp only; omega) rfl hx
          have := sol_bounds hL g1.sol
          refine ih a' b _ ha' hb g1 ?_
          have e2 : ∀ u : Vars σ, (u.count sc).cq = u.cq := by
            intro u; unfold Vars.count; simp only; split <;> rfl
          simp only at g2 this ⊢
          rw [e2]; simp only; omega
    · rw [if_neg hc]
      exact ⟨s, rfl, hi, hc⟩

theorem top_nil : Top sc depth [] [] :=
  ⟨by simp, .nil, [], List.Perm.refl _, by simp⟩

/-- `src/ranking.cc:308-367`: the ranking of the containers that start in `[start, stop)` -/
theorem ssr_ok (hs : sc.Lawful) (hsort : SortsBy sc sort) (hL : Listing L) (hC : Listing C) (hD : Disjoint C)
    (hH : Impl H I (ofList L)) (hK : Impl K J (ofList C)) (h1 : InRange start) (h2 : InRange stop) :
    ∃ all R, ssrRanking sc sort depth (some H) (some K) start stop = some R ∧
      Results sc L (matching L C start stop) all ∧ Top sc depth all R := by
  have hm : matching L C start stop = matching L C (if start = minfinity then start + 1 else start) stop := by
    unfold matching
    apply List.filter_congr
    intro c hc
    congr 1
    rw [decide_eq_decide]
    have := hC.bounds c hc
    split <;> omega
  have hsome : ∀ cs : List Ann, (∀ c ∈ cs, (within L c).isEmpty = false) → ∃ all, Results sc L cs all := by
    intro cs
    induction cs with
    | nil => intro _; exact ⟨[], .nil⟩
    | cons c cs ih =>
      intro h
      obtain ⟨all, h'⟩ := ih fun c hc => h c (List.mem_cons_of_mem _ hc)
      have hne := h c (List.mem_cons_self ..)
      obtain ⟨a, ha⟩ := shortest_exists (within L c) (by intro e; rw [e] at hne; cases hne)
      exact ⟨⟨a.p, a.q, c.p, c.q, scoreOf sc (within L c)⟩ :: all, .cons ⟨rfl, rfl, rfl, a, ha, rfl, rfl⟩ h'⟩
  rw [hm]
  have hr : minfinity < (if start = minfinity then start + 1 else start) ∧
      (if start = minfinity then start + 1 else start) ≤ maxfinity := by split <;> omega
  unfold ssrRanking
  by_cases hd : depth = 0
  · rw [if_pos hd]
    obtain ⟨all, ha⟩ := hsome (matching L C (if start = minfinity then start + 1 else start) stop)
      fun c hc => (mem_matching.1 hc).2.2.2
    refine ⟨all, [], rfl, ha, by rw [hd]; simp, .nil, all, List.Perm.refl _, by simp⟩
  rw [if_neg hd]
  simp only
  generalize (if start = minfinity then start + 1 else start) = start at *
  by_cases hge : start ≥ stop
  · rw [if_pos hge]
    have : matching L C start stop = [] := by
      unfold matching
      rw [List.filter_eq_nil_iff]
      intro c _ h
      simp only [Bool.and_eq_true, decide_eq_true_eq] at h
      omega
    rw [this]
    exact ⟨[], [], rfl, .nil, top_nil⟩
  rw [if_neg hge]
  obtain ⟨c, b, e, hb, hc⟩ := hK.tau start ⟨by omega, by omega⟩ K.init hK.init
  simp only [e, Option.bind_eq_bind, Option.bind_some]
  have hnew : At C c.p c.q ∧ start ≤ c.p ∧ ∀ x ∈ C, start ≤ x.p → c.p ≤ x.p := by
    rcases hc with ⟨h1, _⟩ | ⟨_, h1, h2, h3⟩ | ⟨_, h1, rfl⟩
    · omega
    · exact ⟨.inl ⟨c, h1, rfl, rfl⟩, h2, fun x hx h => h3 x hx h⟩
    · exact ⟨.inr ⟨rfl, rfl⟩, hr.2, fun x hx h => by have := h1 x hx; omega⟩
  obtain ⟨n1, n2, n3⟩ := hnew
  by_cases hge : c.p ≥ stop
  · rw [if_pos hge]
    have : matching L C start stop = [] := by
      rw [List.eq_nil_iff_forall_not_mem]
      intro x hx
      obtain ⟨m1, m2, m3, _⟩ := mem_matching.1 hx
      have := n3 x m1 m2; omega
    rw [this]
    exact ⟨[], [], rfl, .nil, top_nil⟩
  rw [if_neg hge]
  have b2 := sol_bounds hC n1
  obtain ⟨x, a', e, ha', hx⟩ := hH.tau c.p ⟨by omega, by omega⟩ H.init hH.init
  simp only [e]
  have hsol : At L x.p x.q ∧ ∀ y ∈ L, y.p < x.p → y.p < c.p := by
    rcases hx with ⟨h1, _⟩ | ⟨_, h1, h2, h3⟩ | ⟨_, h1, rfl⟩
    · omega
    · refine ⟨.inl ⟨x, h1, rfl, rfl⟩, fun y hy h => ?_⟩
      rcases Int.lt_or_le y.p c.p with g | g
      · exact g
      · have := h3 y hy g; omega
    · exact ⟨.inr ⟨rfl, rfl⟩, fun y hy _ => h1 y hy⟩
  obtain ⟨s1, s2⟩ := hsol
  have b1 := sol_bounds hL s1
  have hu : used L ({ p := x.p, q := x.q, cp := c.p, cq := c.q, score := sc.zero, target := sc.zero } : Vars σ) = [] := by
    unfold used
    rw [List.filter_eq_nil_iff]
    intro y hy h
    have h := of_decide_eq_true h
    have := s2 y hy h.2.2
    simp only at h; omega
  have hf : finished L C start stop
      ({ p := x.p, q := x.q, cp := c.p, cq := c.q, score := sc.zero, target := sc.zero } : Vars σ) = [] := by
    unfold finished
    rw [List.filter_eq_nil_iff]
    intro y hy h
    have h := of_decide_eq_true h
    obtain ⟨m1, m2, m3, _⟩ := mem_matching.1 hy
    have h4 := n3 y m1 m2
    have h5 := hC.bounds y m1
    simp only at h
    rcases n1 with ⟨d, d1, d2, d3⟩ | ⟨d2, d3⟩
    · have := mono_p hC d1 m1 (by omega); omega
    · omega
  have hinv : Inv sc depth L C start stop
      ({ p := x.p, q := x.q, cp := c.p, cq := c.q, score := sc.zero, target := sc.zero } : Vars σ) := by
    refine ⟨s1, n1, fun y hy h => .inl (s2 y hy h), n2, by rw [hu]; rfl, .inl ⟨hu, rfl⟩, Nat.zero_le _, .nil, .inr hu,
      irrefl hs _, by simp, [], by rw [hf]; exact .nil, enough_self _ _⟩
  obtain ⟨t, t1, t2, t3⟩ := loop_ok hs hsort hL hC hD hH hK turns a' b _ ha' hb hinv (by
    simp only [turns, loopFuel]
    omega)
  simp only [Option.bind_some, t1]
  obtain ⟨all, r1, r2⟩ := finish hs hsort hL hC hD t2 t3
  exact ⟨all, _, rfl, r1, r2⟩

end Verif.Rank
