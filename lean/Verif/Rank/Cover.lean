import Verif.Rank.CoverSpec
import Verif.Rank.Combine
/-
  Proofs for the ranking by covers.
-/
namespace Verif.Rank
open Verif.Hopper

variable {σ : Type} {sc : Scores σ} {so : Sorts σ} {rho : Int → Ann} {depth : Nat}

/-! ### some of the terms -/

theorem Of.perm {T terms terms' : List (Weighed σ)} (h : Of T terms) (hp : terms.Perm terms') : Of T terms' := by
  obtain ⟨r, hr⟩ := h
  exact ⟨r, hr.trans hp⟩

theorem Of.trans {T U V : List (Weighed σ)} (h : Of T U) (h' : Of U V) : Of T V := by
  obtain ⟨r, hr⟩ := h
  obtain ⟨s, hs⟩ := h'
  refine ⟨r ++ s, ?_⟩
  rw [← List.append_assoc]
  exact (hr.append_right s).trans hs

theorem Of.mem {T terms : List (Weighed σ)} (h : Of T terms) {t : Weighed σ} (ht : t ∈ T) : t ∈ terms := by
  obtain ⟨r, hr⟩ := h
  exact hr.mem_iff.1 (List.mem_append_left _ ht)

theorem Of.refl {T : List (Weighed σ)} : Of T T := ⟨[], by rw [List.append_nil]⟩

theorem of_sublist : ∀ {T U : List (Weighed σ)}, T.Sublist U → Of T U
  | _, _, .slnil => Of.refl
  | _, _, .cons a h => by
    obtain ⟨r, hr⟩ := of_sublist h
    exact ⟨a :: r, (List.perm_middle).trans (hr.cons a)⟩
  | _, _, .cons_cons a h => by
    obtain ⟨r, hr⟩ := of_sublist h
    exact ⟨r, hr.cons a⟩

theorem Of.count {T terms : List (Weighed σ)} (h : Of T terms) (f : Weighed σ → Bool) : T.countP f ≤ terms.countP f := by
  obtain ⟨r, hr⟩ := h
  rw [← hr.countP_eq, List.countP_append]
  omega

/-- what the sorting routines do -/
structure Sorts.Good (sc : Scores σ) (so : Sorts σ) : Prop where
  light : ∀ l, (so.light l).Perm l
  position : ∀ l, (so.position l).Perm l ∧ (so.position l).Pairwise fun a b => a.2 ≤ b.2
  heavy : ∀ l, (so.heavy l).Perm l
  results : SortsBy sc so.results

/-! ### one cover -/

theorem tau_first {t : Weighed σ} {S : GC} (h : SolvedBy t S) {k : Int} (hk : minfinity < k) (hk' : k ≤ maxfinity) {a : Ann} (ha : S a) (hp : k ≤ a.p) :
    (t.tau k).q ≤ a.q := by
  obtain ⟨w, h⟩ := h
  rcases (h k ⟨by omega, hk'⟩).1 with ⟨e, -⟩ | ⟨-, h1, h2, h3⟩ | ⟨-, h1, -⟩
  · omega
  · by_cases e : (t.tau k).p = a.p
    · rw [w.uniq h1 ha e]; exact Int.le_refl _
    · have := w.mono h1 ha (by have := h3 a ha hp; omega)
      omega
  · have := h1 a ha; omega

theorem tau_found {t : Weighed σ} {S : GC} (h : SolvedBy t S) {k : Int} (hk : minfinity < k) (hk' : k ≤ maxfinity)
    (hq : (t.tau k).q < maxfinity) : S (t.tau k) ∧ k ≤ (t.tau k).p := by
  rcases (h.2 k ⟨by omega, hk'⟩).1 with ⟨e, -⟩ | ⟨-, h1, h2, h3⟩ | ⟨-, h1, e⟩
  · omega
  · exact ⟨h1, h2⟩
  · rw [e] at hq
    exact absurd hq (by decide)

theorem tau_le {t : Weighed σ} {S : GC} (h : SolvedBy t S) {k : Int} (hk : minfinity < k) (hk' : k ≤ maxfinity) : (t.tau k).q ≤ maxfinity := by
  rcases (h.2 k ⟨by omega, hk'⟩).1 with ⟨e, -⟩ | ⟨-, h1, h2, h3⟩ | ⟨-, h1, e⟩
  · omega
  · have := h.1.hi h1; omega
  · rw [e]; exact Int.le_refl _

/-- the last solution that ends by `q`, if there is one in `[k, q]` -/
theorem uat_last {t : Weighed σ} {S : GC} (h : SolvedBy t S) {k q : Int} (hq : q < maxfinity) {a : Ann} (ha : S a) (hp : k ≤ a.p) (haq : a.q ≤ q) :
    S (t.uat q) ∧ (t.uat q).q ≤ q ∧ ∀ b, S b → b.q ≤ q → b.p ≤ (t.uat q).p := by
  have w := h.1
  have h1 := w.lo ha
  have h2 := w.le ha
  rcases (h.2 q ⟨by omega, by omega⟩).2 with ⟨e, -⟩ | ⟨-, h1, h2, h3⟩ | ⟨-, h1, -⟩
  · omega
  · refine ⟨h1, h2, fun b hb hbq => ?_⟩
    have h4 := h3 b hb hbq
    by_cases hlt : (t.uat q).p < b.p
    · have := w.mono h1 hb hlt; omega
    · omega
  · have := h1 a ha; omega

theorem coverStart_eq (q : Int) : ∀ (others : List (Weighed σ)) (last : Weighed σ),
    (∀ t ∈ last :: others, coverStart q last others ≤ (t.uat q).p) ∧ ∃ t ∈ last :: others, coverStart q last others = (t.uat q).p := by
  intro others last
  unfold coverStart
  have gen : ∀ (l : List (Weighed σ)) (m : Int), (l.foldl (fun p t => min p (t.uat q).p) m ≤ m) ∧
      (∀ t ∈ l, l.foldl (fun p t => min p (t.uat q).p) m ≤ (t.uat q).p) ∧
      (l.foldl (fun p t => min p (t.uat q).p) m = m ∨ ∃ t ∈ l, l.foldl (fun p t => min p (t.uat q).p) m = (t.uat q).p) := by
    intro l
    induction l with
    | nil => intro m; exact ⟨Int.le_refl _, by simp, Or.inl rfl⟩
    | cons x l ih =>
      intro m
      simp only [List.foldl_cons]
      obtain ⟨h1, h2, h3⟩ := ih (min m (x.uat q).p)
      refine ⟨by omega, fun t ht => ?_, ?_⟩
      · rcases List.mem_cons.1 ht with rfl | ht
        · omega
        · exact h2 t ht
      · rcases h3 with h3 | ⟨t, ht, h3⟩
        · rw [h3]
          by_cases hm : m ≤ (x.uat q).p
          · left; omega
          · right; exact ⟨x, List.mem_cons_self .., by omega⟩
        · right; exact ⟨t, List.mem_cons_of_mem _ ht, h3⟩
  obtain ⟨h1, h2, h3⟩ := gen others (last.uat q).p
  refine ⟨fun t ht => ?_, ?_⟩
  · rcases List.mem_cons.1 ht with rfl | ht
    · exact h1
    · exact h2 t ht
  · rcases h3 with h3 | ⟨t, ht, h3⟩
    · exact ⟨last, List.mem_cons_self .., h3⟩
    · exact ⟨t, List.mem_cons_of_mem _ ht, h3⟩

section
variable {M : Weighed σ → GC} {C : GC} {terms : List (Weighed σ)}

/-- `n` terms in an interval after `k`: the `n`-th answer is not beyond it -/
theorem nth_le (hg : so.Good sc) (hM : ∀ t ∈ terms, SolvedBy t (M t)) {k : Int} (hk : minfinity < k) (hk' : k ≤ maxfinity) {n : Nat} (hn : 1 ≤ n)
    {last : Weighed σ} {q : Int} (hl : (so.position (terms.map fun t => (t, (t.tau k).q)))[n - 1]? = some (last, q))
    {u v : Int} (hu : k ≤ u) {T : List (Weighed σ)} (hT : T.length = n) (ho : Of T terms) (hin : AllIn M T u v) : q ≤ v := by
  obtain ⟨hp, hs⟩ := hg.position (terms.map fun t => (t, (t.tau k).q))
  generalize so.position (terms.map fun t => (t, (t.tau k).q)) = whs at hp hs hl
  apply Int.not_lt.1
  intro hlt
  have c1 : T.countP (fun t => decide ((t.tau k).q ≤ v)) = n := by
    rw [← hT, List.countP_eq_length]
    intro t ht
    obtain ⟨a, h1, h2, h3⟩ := hin t ht
    have := tau_first (hM t (ho.mem ht)) hk hk' h1 (by omega)
    simp only [decide_eq_true_eq]
    omega
  have c2 := ho.count (fun t => decide ((t.tau k).q ≤ v))
  have c3 : terms.countP (fun t => decide ((t.tau k).q ≤ v)) = whs.countP (fun x => decide (x.2 ≤ v)) := by
    rw [hp.countP_eq, List.countP_map]
    rfl
  have c4 : whs.countP (fun x => decide (x.2 ≤ v)) ≤ n - 1 := by
    rw [← List.take_append_drop (n - 1) whs, List.countP_append]
    have z : (whs.drop (n - 1)).countP (fun x => decide (x.2 ≤ v)) = 0 := by
      rw [List.countP_eq_zero]
      intro x hx
      obtain ⟨hi, he⟩ := List.getElem?_eq_some_iff.1 hl
      rw [List.drop_eq_getElem_cons hi, he] at hx
      simp only [decide_eq_true_eq]
      rcases List.mem_cons.1 hx with rfl | hx
      · simpa using hlt
      · rw [← List.take_append_drop n whs, List.pairwise_append] at hs
        have : (last, q) ∈ whs.take n := by
          rw [show n = (n - 1) + 1 by omega, List.take_succ, hl]
          simp
        rw [show n - 1 + 1 = n by omega] at hx
        have := hs.2.2 _ this _ hx
        omega
    have := List.countP_le_length (p := fun x : Weighed σ × Int => decide (x.2 ≤ v)) (l := whs.take (n - 1))
    rw [List.length_take] at this
    omega
  omega

theorem cover_ok (hg : so.Good sc) (hM : ∀ t ∈ terms, SolvedBy t (M t)) {k : Int} (hk : minfinity < k) (hk' : k ≤ maxfinity) {n : Nat} (hn : 1 ≤ n)
    {whs : List (Weighed σ × Int)} (hw : whs = so.position (terms.map fun t => (t, (t.tau k).q)))
    {last : Weighed σ} {q : Int} (hl : whs[n - 1]? = some (last, q)) (hq : q ≠ maxfinity)
    {others : List (Weighed σ)} (hoth : others = (whs.take (n - 1)).map (·.1)) {p : Int} (hp : p = coverStart q last others) :
    Of (last :: others) terms ∧ (last :: others).length = n ∧ Tight M (last :: others) p q ∧ k ≤ p ∧ p ≤ q ∧ q < maxfinity := by
  obtain ⟨g1, g2⟩ := hg.position (terms.map fun t => (t, (t.tau k).q))
  rw [← hw] at g1 g2
  have ofT : Of (last :: others) terms := by
    have h1 : (whs.take n).map (·.1) = others ++ [last] := by
      rw [show n = (n - 1) + 1 by omega, List.take_succ, hl, List.map_append, hoth]
      rfl
    have h2 : Of ((whs.take n).map (·.1)) (whs.map (·.1)) := of_sublist ((List.take_sublist ..).map _)
    have h3 : (whs.map (·.1)).Perm terms := by
      refine (g1.map _).trans ?_
      rw [List.map_map]
      simp [Function.comp_def]
    obtain ⟨r, hr⟩ := h2.perm h3
    rw [h1] at hr
    refine ⟨r, List.Perm.trans ?_ hr⟩
    rw [List.append_assoc]
    exact List.perm_middle.symm
  obtain ⟨hi, he⟩ := List.getElem?_eq_some_iff.1 hl
  have hlen : (last :: others).length = n := by
    rw [hoth, List.length_cons, List.length_map, List.length_take]; omega
  have pos : ∀ x ∈ whs, x.2 = (x.1.tau k).q := fun x hx => by
    obtain ⟨t, -, rfl⟩ := List.mem_map.1 (g1.mem_iff.1 hx)
    rfl
  have mt : ∀ t ∈ last :: others, SolvedBy t (M t) := fun t ht => hM t (ofT.mem ht)
  have lastq : (last.tau k).q = q := (pos _ (List.mem_of_getElem? hl)).symm
  have hqm : q < maxfinity := by
    have := tau_le (mt last (List.mem_cons_self ..)) hk hk'
    omega
  have ends : ∀ t ∈ last :: others, (t.tau k).q ≤ q := by
    intro t ht
    rcases List.mem_cons.1 ht with rfl | ht
    · omega
    · rw [hoth] at ht
      obtain ⟨x, hx, rfl⟩ := List.mem_map.1 ht
      rw [← pos x (List.mem_of_mem_take hx)]
      rw [← List.take_append_drop (n - 1) whs, List.pairwise_append] at g2
      refine g2.2.2 x hx (last, q) ?_
      rw [List.drop_eq_getElem_cons hi, he]
      exact List.mem_cons_self ..
  have found : ∀ t ∈ last :: others, M t (t.tau k) ∧ k ≤ (t.tau k).p ∧ (t.tau k).q ≤ q := fun t ht => by
    have h1 := ends t ht
    obtain ⟨h2, h3⟩ := tau_found (mt t ht) hk hk' (by omega)
    exact ⟨h2, h3, h1⟩
  have uat : ∀ t ∈ last :: others, M t (t.uat q) ∧ (t.uat q).q ≤ q ∧ ∀ b, M t b → b.q ≤ q → b.p ≤ (t.uat q).p := fun t ht => by
    obtain ⟨h1, h2, h3⟩ := found t ht
    exact uat_last (mt t ht) hqm h1 h2 h3
  obtain ⟨s1, t0, ht0, s2⟩ := coverStart_eq q others last
  rw [← hp] at s1 s2
  have u0 := uat t0 ht0
  have f0 := found t0 ht0
  have hkp : k ≤ p := by
    have := u0.2.2 _ f0.1 f0.2.2
    omega
  have hpq : p ≤ q := by
    have := (mt t0 ht0).1.le u0.1
    omega
  refine ⟨ofT, hlen, ⟨fun t ht => ⟨t.uat q, (uat t ht).1, s1 t ht, (uat t ht).2.1⟩, fun p' q' hp' hq' hin => ?_⟩, hkp, hpq, hqm⟩
  obtain ⟨a, a1, a2, a3⟩ := hin last (List.mem_cons_self ..)
  have e1 := tau_first (mt last (List.mem_cons_self ..)) hk hk' a1 (by omega)
  obtain ⟨b, b1, b2, b3⟩ := hin t0 ht0
  have e2 := u0.2.2 b b1 (by omega)
  exact ⟨by omega, by omega⟩

/-! ### the containers -/

theorem rho_first {q : Int} (hC : Wf C) (hr : RhoSpec C q (rho q)) (hq : minfinity < q) {p : Int} (hpq : p ≤ q) (hqm : q < maxfinity) :
    (rho q).p ≤ p ↔ ∃ c, C c ∧ c.p ≤ p ∧ q ≤ c.q := by
  rcases hr with ⟨e, -⟩ | ⟨-, h1, h2, h3⟩ | ⟨-, h1, e⟩
  · omega
  · constructor
    · intro h; exact ⟨rho q, h1, h, h2⟩
    · rintro ⟨c, c1, c2, c3⟩
      have := h3 c c1 c3
      by_cases hlt : c.p < (rho q).p
      · have := hC.mono c1 h1 hlt; omega
      · omega
  · rw [e]
    constructor
    · intro h
      have : (maxfinity : Int) ≤ p := h
      omega
    · rintro ⟨c, c1, c2, c3⟩
      have := h1 c c1; omega

theorem rho_mem {q : Int} (hr : RhoSpec C q (rho q)) (hq : minfinity < q) {p : Int} (hpq : p ≤ q) (hqm : q < maxfinity)
    (h : (rho q).p ≤ p) : C (rho q) ∧ q ≤ (rho q).q := by
  rcases hr with ⟨e, -⟩ | ⟨-, h1, h2, h3⟩ | ⟨-, h1, e⟩
  · omega
  · exact ⟨h1, h2⟩
  · rw [e] at h
    have : (maxfinity : Int) ≤ p := h
    omega

/-! ### what has been found so far -/

theorem targetAt_some (hd : 0 < depth) (top : List (Result σ)) : ∃ t, targetAt sc depth top = some t := by
  unfold targetAt
  split
  · rename_i h
    cases hl : top.getLast? with
    | none =>
      rw [List.getLast?_eq_none_iff] at hl
      subst hl
      simp at h
      omega
    | some r => exact ⟨_, rfl⟩
  · exact ⟨_, rfl⟩

theorem best_skip {A R : List (Result σ)} (h : BestContainers sc depth A R) (hd : R.length = depth) {x : Result σ}
    (hx : ∀ r ∈ R, sc.gt x.score r.score = false) : BestContainers sc depth (x :: A) R := by
  refine ⟨h.size, fun r hr => List.mem_cons_of_mem _ (h.mem r hr), h.apart, h.sorted, fun y hy => ?_⟩
  rcases List.mem_cons.1 hy with rfl | hy
  · exact Or.inr ⟨hd, hx⟩
  · exact h.best y hy

theorem best_grows {A A' R R' : List (Result σ)} (h : BestContainers sc depth A R) (h' : BestContainers sc depth A' R')
    (hs : ∀ x ∈ A, x ∈ A') (hl : R'.length < depth) : R.length ≤ R'.length := by
  have := nodup_length_le (m := R'.map (·.cp)) h.apart (fun c hc => by
    obtain ⟨r, hr, rfl⟩ := List.mem_map.1 hc
    rcases h'.best r (hs r (h.mem r hr)) with ⟨r', h1, h2, -⟩ | ⟨h1, -⟩
    · exact List.mem_map.2 ⟨r', h1, h2⟩
    · omega)
  simpa using this

/-- `A` are the candidates that the rows of `h.top` were chosen from -/
structure HeapOk (sc : Scores σ) (depth : Nat) (A : List (Result σ)) (h : Heap σ) : Prop where
  best : BestContainers sc depth A h.top
  room : h.current.length < depth
  target : targetAt sc depth h.top = some h.target

theorem target_bound (hs : sc.Lawful) {A : List (Result σ)} {h : Heap σ} (ho : HeapOk sc depth A h) {s : σ} (hg : sc.gt s h.target = false) :
    (h.top.length = depth ∧ ∀ r ∈ h.top, sc.gt s r.score = false) ∨ sc.gt s sc.zero = false := by
  have ht := ho.target
  unfold targetAt at ht
  split at ht
  · rename_i hl
    left
    refine ⟨Nat.le_antisymm ho.best.size hl, fun r hr => ?_⟩
    obtain ⟨x, hx, hxe⟩ := Option.map_eq_some_iff.1 ht
    rw [List.getLast?_eq_some_iff] at hx
    obtain ⟨l, hx⟩ := hx
    rw [← hxe] at hg
    rw [hx] at hr
    rcases List.mem_append.1 hr with hr | hr
    · have hp := ho.best.sorted
      rw [hx, List.pairwise_append] at hp
      exact gt_trans hs hg (hp.2.2 r hr x (by simp))
    · rw [List.mem_singleton] at hr
      rw [hr]; exact hg
  · right
    rw [← Option.some.inj ht] at hg
    exact hg

theorem offer_ok (hs : sc.Lawful) (hg : so.Good sc) (hd : 0 < depth) {A : List (Result σ)} {h : Heap σ} (ho : HeapOk sc depth A h) (r : Result σ) :
    ∃ h' A', h.offer sc so depth r = some h' ∧ HeapOk sc depth A' h' ∧ ∀ x, x ∈ A' ++ h'.current ↔ x ∈ A ++ h.current ∨ x = r := by
  unfold Heap.offer
  split
  · obtain ⟨t, ht⟩ := targetAt_some (sc := sc) hd (mergeResults so.results h.top (h.current ++ [r]) depth)
    simp only [ht, Option.map_some]
    refine ⟨_, A ++ (h.current ++ [r]), rfl, ⟨merge_ok hs hg.results ho.best, hd, ht⟩, fun x => ?_⟩
    simp [or_assoc]
  · rename_i hne
    refine ⟨_, A, rfl, ⟨ho.best, ?_, ho.target⟩, fun x => ?_⟩
    · have := ho.room
      rw [List.length_append, List.length_singleton] at hne ⊢
      omega
    · simp [or_assoc]

theorem add_ok (hs : sc.Lawful) (hg : so.Good sc) (hd : 0 < depth) {A : List (Result σ)} {h : Heap σ} (ho : HeapOk sc depth A h) (p q : Int) (s : σ) :
    ∃ h' A', h.add sc so rho depth p q s = some h' ∧ HeapOk sc depth A' h' ∧ (∀ x ∈ A ++ h.current, x ∈ A' ++ h'.current) ∧
      (∀ x ∈ A' ++ h'.current, x ∈ A ++ h.current ∨ (x = ⟨p, q, (rho q).p, (rho q).q, s⟩ ∧ (rho q).p ≤ p)) ∧
      ((rho q).p ≤ p → sc.gt s sc.zero = true → (⟨p, q, (rho q).p, (rho q).q, s⟩ : Result σ) ∈ A' ++ h'.current) := by
  unfold Heap.add
  by_cases h1 : sc.gt s h.target = true
  · rw [if_pos h1]
    by_cases h2 : (rho q).p ≤ p
    · rw [if_pos h2]
      obtain ⟨h', A', e, ok, iff⟩ := offer_ok hs hg hd ho ⟨p, q, (rho q).p, (rho q).q, s⟩
      exact ⟨h', A', e, ok, fun x hx => (iff x).2 (Or.inl hx), fun x hx => ((iff x).1 hx).imp id fun e => ⟨e, h2⟩,
        fun _ _ => (iff _).2 (Or.inr rfl)⟩
    · rw [if_neg h2]
      exact ⟨h, A, rfl, ho, fun x hx => hx, fun x hx => Or.inl hx, fun h => absurd h h2⟩
  · rw [if_neg h1]
    rcases target_bound hs ho (by simpa using h1) with ⟨t1, t2⟩ | t
    · by_cases h2 : (rho q).p ≤ p
      · refine ⟨h, ⟨p, q, (rho q).p, (rho q).q, s⟩ :: A, rfl, ⟨best_skip ho.best t1 t2, ho.room, ho.target⟩,
          fun x hx => List.mem_cons_of_mem _ hx, fun x hx => ?_, fun _ _ => List.mem_cons_self ..⟩
        rcases List.mem_cons.1 hx with rfl | hx
        · exact Or.inr ⟨rfl, h2⟩
        · exact Or.inl hx
      · exact ⟨h, A, rfl, ho, fun x hx => hx, fun x hx => Or.inl hx, fun h => absurd h h2⟩
    · exact ⟨h, A, rfl, ho, fun x hx => hx, fun x hx => Or.inl hx, fun _ h => by rw [t] at h; cases h⟩

theorem flush_ok (hs : sc.Lawful) (hg : so.Good sc) (hd : 0 < depth) {A : List (Result σ)} {h : Heap σ} (ho : HeapOk sc depth A h) :
    ∃ h', h.flush sc so depth = some h' ∧ BestContainers sc depth (A ++ h.current) h'.top ∧ targetAt sc depth h'.top = some h'.target := by
  unfold Heap.flush
  split
  · obtain ⟨t, ht⟩ := targetAt_some (sc := sc) hd (mergeResults so.results h.top h.current depth)
    simp only [ht, Option.map_some]
    exact ⟨_, rfl, merge_ok hs hg.results ho.best, ht⟩
  · rename_i hl
    have : h.current = [] := List.eq_nil_of_length_eq_zero (by omega)
    rw [this, List.append_nil]
    exact ⟨h, rfl, ho.best, ho.target⟩

/-! ### one pass -/

theorem worth_eq {p q : Int} {last : Weighed σ} {others : List (Weighed σ)} (h : others ≠ []) :
    coverScore sc so p q last others = worth sc so.penalty p q (last :: others) := by
  cases others with
  | nil => exact absurd rfl h
  | cons _ _ => rfl

/-- `Complete` after `k` -/
def FoundFrom (sc : Scores σ) (penalty : Nat → Int → σ → σ) (M : Weighed σ → GC) (C : GC) (terms : List (Weighed σ)) (n : Nat) (k : Int)
    (A : List (Result σ)) : Prop :=
  ∀ (u v : Int) (T' : List (Weighed σ)), k ≤ u → T'.length = n → Of T' terms → AllIn M T' u v →
    ∃ T p q, T.length = n ∧ Of T terms ∧ Tight M T p q ∧ u ≤ p ∧ q ≤ v ∧
      ((∃ c, C c ∧ c.p ≤ p ∧ q ≤ c.q) → sc.gt (worth sc penalty p q T) sc.zero = true →
        ∃ x ∈ A, x.p = p ∧ x.q = q ∧ x.score = worth sc penalty p q T)

theorem pass_ok (hs : sc.Lawful) (hg : so.Good sc) (hd : 0 < depth) (hC : Wf C) (hr : ∀ q, InRange q → RhoSpec C q (rho q)) {n : Nat} (hn : 2 ≤ n) :
    ∀ (turns : Nat) (k : Int) (terms : List (Weighed σ)) (A : List (Result σ)) (h : Heap σ), (∀ t ∈ terms, SolvedBy t (M t)) → n ≤ terms.length →
    minfinity < k → k ≤ maxfinity → (maxfinity - k).toNat < turns → HeapOk sc depth A h →
    ∃ terms' h' A', coverPass sc so rho depth n turns k terms h = some (terms', h') ∧ terms'.Perm terms ∧ HeapOk sc depth A' h' ∧
      (∀ x ∈ A ++ h.current, x ∈ A' ++ h'.current) ∧
      (∀ x ∈ A' ++ h'.current, x ∈ A ++ h.current ∨ Passage sc so.penalty M C terms x) ∧
      FoundFrom sc so.penalty M C terms n k (A' ++ h'.current) := by
  intro turns
  induction turns with
  | zero => intro k _ _ _ _ _ _ _ hf; omega
  | succ turns ih =>
    intro k terms A h hM hlen hk hk' hf ho
    unfold coverPass
    simp only []
    obtain ⟨g1, g2⟩ := hg.position (terms.map fun t => (t, (t.tau k).q))
    have hperm : ((so.position (terms.map fun t => (t, (t.tau k).q))).map (·.1)).Perm terms := by
      refine (g1.map _).trans ?_
      rw [List.map_map]
      simp [Function.comp_def]
    cases hl : (so.position (terms.map fun t => (t, (t.tau k).q)))[n - 1]? with
    | none =>
      rw [List.getElem?_eq_none_iff, g1.length_eq, List.length_map] at hl
      omega
    | some w =>
      obtain ⟨last, q⟩ := w
      simp only []
      by_cases hq : q = maxfinity
      · rw [if_pos hq]
        refine ⟨_, h, A, rfl, hperm, ho, fun x hx => hx, fun x hx => Or.inl hx, ?_⟩
        intro u v T hu hT hof hin
        have h1 := nth_le hg hM hk hk' (by omega) hl hu (v := min v (maxfinity - 1)) hT hof (fun t ht => by
          obtain ⟨a, a1, a2, a3⟩ := hin t ht
          have := (hM t (hof.mem ht)).1.hi a1
          exact ⟨a, a1, a2, by omega⟩)
        omega
      · rw [if_neg hq]
        obtain ⟨c1, c2, c3, c4, c5, c6⟩ := cover_ok hg hM hk hk' (by omega) rfl hl hq rfl rfl
        generalize hoth : ((so.position (terms.map fun t => (t, (t.tau k).q))).take (n - 1)).map (·.1) = others at c1 c2 c3 c4 c5
        generalize hp : coverStart q last others = p at c3 c4 c5
        have hne : others ≠ [] := by
          intro e; rw [e] at c2; simp at c2; omega
        rw [worth_eq hne]
        obtain ⟨h1, A1, e1, o1, m1, b1, f1⟩ := add_ok (rho := rho) hs hg hd ho p q (worth sc so.penalty p q (last :: others))
        rw [e1]
        simp only []
        obtain ⟨t2, h2, A2, e2, p2, o2, m2, b2, f2⟩ := ih (p + 1) _ A1 h1 (fun t ht => hM t (hperm.mem_iff.1 ht))
          (by rw [hperm.length_eq]; exact hlen) (by omega) (by omega) (by omega) o1
        refine ⟨t2, h2, A2, e2, p2.trans hperm, o2, fun x hx => m2 x (m1 x hx), fun x hx => ?_, ?_⟩
        · rcases b2 x hx with hx | ⟨⟨T, d1, d2, d3, d4⟩, d5⟩
          · rcases b1 x hx with hx | ⟨rfl, hx'⟩
            · exact Or.inl hx
            · right
              obtain ⟨r1, r2⟩ := rho_mem (hr q ⟨by omega, by omega⟩) (by omega) c5 c6 hx'
              exact ⟨⟨last :: others, by simp, c1, c3, rfl⟩, rho q, r1, rfl, rfl, hx', r2⟩
          · exact Or.inr ⟨⟨T, d1, d2.perm hperm, d3, d4⟩, d5⟩
        · intro u v T hu hT hof hin
          have hqv := nth_le hg hM hk hk' (by omega) hl hu hT hof hin
          by_cases hup : u ≤ p
          · refine ⟨last :: others, p, q, c2, c1, c3, hup, hqv, fun hc hpos => ?_⟩
            exact ⟨_, m2 _ (f1 ((rho_first hC (hr q ⟨by omega, by omega⟩) (by omega) c5 c6).2 hc) hpos), rfl, rfl, rfl⟩
          · obtain ⟨T1, p1, q1, x1, x2, x3⟩ := f2 u v T (by omega) hT (hof.perm hperm.symm) hin
            exact ⟨T1, p1, q1, x1, x2.perm hperm, x3⟩

/-! ### all passes -/

theorem dropLight_sublist (n : Nat) (target : σ) : ∀ l : List (Weighed σ), (dropLight sc n target l).Sublist l
  | [] => .slnil
  | t :: l => by
    unfold dropLight
    split
    · split
      · exact List.Sublist.refl _
      · exact (dropLight_sublist n target l).cons t
    · exact List.Sublist.refl _

theorem Passage.of {terms terms' : List (Weighed σ)} {penalty} {r : Result σ} (h : Passage sc penalty M C terms r) (ho : Of terms terms') :
    Passage sc penalty M C terms' r := by
  obtain ⟨⟨T, d1, d2, d3⟩, d4⟩ := h
  exact ⟨⟨T, d1, d2.trans ho, d3⟩, d4⟩

theorem FoundFrom.missed {penalty} {terms0 : List (Weighed σ)} {n : Nat} {A : List (Result σ)} (hM : ∀ t ∈ terms0, SolvedBy t (M t))
    (h : FoundFrom sc penalty M C terms n (minfinity + 1) A) (hp : terms.Perm terms0) : NothingMissed sc penalty M C terms0 n A := by
  intro u v T hT hof hin
  have hM' : ∀ t ∈ terms, SolvedBy t (M t) := fun t ht => hM t (hp.mem_iff.1 ht)
  obtain ⟨T1, p, q, x1, x2, x3, x4, x5⟩ := h (max u (minfinity + 1)) v T (by omega) hT (hof.perm hp.symm) (fun t ht => by
    obtain ⟨a, a1, a2, a3⟩ := hin t ht
    have := (hM t (hof.mem ht)).1.lo a1
    exact ⟨a, a1, by omega, a3⟩)
  exact ⟨T1, p, q, x1, x2.perm hp, x3, by omega, x5⟩

theorem NothingMissed.mono {penalty} {terms0 : List (Weighed σ)} {n : Nat} {A A' : List (Result σ)} (h : NothingMissed sc penalty M C terms0 n A)
    (hs : ∀ x ∈ A, x ∈ A') : NothingMissed sc penalty M C terms0 n A' := by
  intro u v T hT hof hin
  obtain ⟨T1, p, q, x1, x2, x3, x4, x5, x6⟩ := h u v T hT hof hin
  refine ⟨T1, p, q, x1, x2, x3, x4, x5, fun hc hpos => ?_⟩
  obtain ⟨x, hx, e⟩ := x6 hc hpos
  exact ⟨x, hs x hx, e⟩

theorem passes_ok (hs : sc.Lawful) (hg : so.Good sc) (hd : 0 < depth) (hC : Wf C) (hr : ∀ q, InRange q → RhoSpec C q (rho q)) {terms0 : List (Weighed σ)}
    (hM : ∀ t ∈ terms0, SolvedBy t (M t)) : ∀ (n : Nat) (terms : List (Weighed σ)) (A top : List (Result σ)) (target : σ),
    n ≤ terms0.length → Of terms terms0 → (top.length < depth → terms.Perm terms0) → BestContainers sc depth A top → targetAt sc depth top = some target →
    ∃ b terms' top' target' A', coverPasses sc so rho depth n terms top target = some (b, terms', top', target') ∧
      Of terms' terms0 ∧ BestContainers sc depth A' top' ∧ targetAt sc depth top' = some target' ∧ (∀ x ∈ A, x ∈ A') ∧
      (∀ x ∈ A', x ∈ A ∨ Passage sc so.penalty M C terms0 x) ∧
      (top.length < depth → 2 ≤ n → NothingMissed sc so.penalty M C terms0 n A') ∧
      (top'.length < depth → b = false ∧ terms'.Perm terms0 ∧ ∀ m, 2 ≤ m → m ≤ n → NothingMissed sc so.penalty M C terms0 m A') := by
  intro n
  induction n with
  | zero =>
    intro terms A top target _ ho hp hb ht
    exact ⟨false, terms, top, target, A, rfl, ho, hb, ht, fun x hx => hx, fun x hx => Or.inl hx, fun _ h => by omega,
      fun h => ⟨rfl, hp h, fun m h1 h2 => by omega⟩⟩
  | succ n ih =>
    intro terms A top target hn ho hp hb ht
    cases n with
    | zero =>
      exact ⟨false, terms, top, target, A, rfl, ho, hb, ht, fun x hx => hx, fun x hx => Or.inl hx, fun _ h => by omega,
        fun h => ⟨rfl, hp h, fun m h1 h2 => by omega⟩⟩
    | succ n =>
      unfold coverPasses
      rw [ht]
      simp only []
      generalize hpt : passTerms sc so depth (n + 1 + 1) target terms top = ts
      have ofts : Of ts terms0 := by
        rw [← hpt]
        unfold passTerms
        split
        · exact ((of_sublist (dropLight_sublist _ _ _)).perm (hg.light terms)).trans ho
        · exact ho
      have hpts : top.length < depth → ts.Perm terms0 := fun h => by
        rw [← hpt]
        unfold passTerms
        rw [if_neg (by omega)]
        exact hp h
      by_cases hstop : top.length ≥ depth ∧ ts.length < n + 2
      · rw [if_pos hstop]
        exact ⟨true, ts, top, target, A, rfl, ofts, hb, ht, fun x hx => hx, fun x hx => Or.inl hx, fun h => by omega, fun h => by omega⟩
      · rw [if_neg hstop]
        have hlen : n + 2 ≤ ts.length := by
          by_cases h : top.length ≥ depth
          · omega
          · rw [(hpts (by omega)).length_eq]; omega
        obtain ⟨t1, h1, A1, e1, p1, o1, m1, b1, f1⟩ := pass_ok (M := M) hs hg hd hC hr (n := n + 2) (by omega) loopFuel (minfinity + 1) ts A ⟨top, [], target⟩
          (fun t h => hM t (ofts.mem h)) hlen (by omega) (by omega) (by unfold loopFuel; omega) ⟨hb, hd, ht⟩
        rw [e1]
        simp only []
        obtain ⟨h2, e2, b2, t2⟩ := flush_ok hs hg hd o1
        rw [e2]
        simp only []
        have sub1 : ∀ x ∈ A, x ∈ A1 ++ h1.current := fun x hx => m1 x (List.mem_append_left _ hx)
        obtain ⟨b, t3, top3, target3, A3, e3, o3, b3, tg3, s3, p3, f3, g3⟩ := ih t1 (A1 ++ h1.current) h2.top h2.target (by omega)
          (by obtain ⟨r, hr⟩ := ofts; exact ⟨r, (p1.append_right r).trans hr⟩)
          (fun h => p1.trans (hpts (by have := best_grows hb b2 sub1 h; omega))) b2 t2
        refine ⟨b, t3, top3, target3, A3, e3, o3, b3, tg3, fun x hx => s3 x (sub1 x hx), fun x hx => ?_, fun h _ => ?_, fun h => ?_⟩
        · rcases p3 x hx with hx | hx
          · rcases b1 x hx with hx | hx
            · left; simpa using hx
            · exact Or.inr (hx.of ofts)
          · exact Or.inr hx
        · exact (f1.missed hM (hpts h)).mono s3
        · obtain ⟨g1, g2, g3⟩ := g3 h
          refine ⟨g1, g2, fun m hm1 hm2 => ?_⟩
          by_cases hm : m = n + 2
          · subst hm
            have i1 := best_grows b2 b3 s3 h
            have i2 := best_grows hb b2 sub1 (by omega)
            exact (f1.missed hM (hpts (by omega))).mono s3
          · exact g3 m hm1 (by omega)

/-! ### terms alone -/

theorem ones_ok {terms0 : List (Weighed σ)} (hr : ∀ q, InRange q → RhoSpec C q (rho q)) {t : Weighed σ} (ht : SolvedBy t (M t)) (ho : Of [t] terms0) {penalty} :
    ∀ (turns : Nat) (k : Int) (ones : List (Result σ)), minfinity < k → k ≤ maxfinity → (maxfinity - k).toNat < turns →
    (∀ x ∈ ones, Passage sc penalty M C terms0 x) →
    ∃ ones', onesOf rho depth t turns k ones = some ones' ∧ ∀ x ∈ ones', Passage sc penalty M C terms0 x := by
  intro turns
  induction turns with
  | zero => intro k _ _ _ hf; omega
  | succ turns ih =>
    intro k ones hk hk' hf hx
    unfold onesOf
    split
    · split
      · rename_i hq
        obtain ⟨f1, f2⟩ := tau_found ht hk hk' hq
        have l1 := ht.1.le f1
        have l2 := ht.1.lo f1
        refine ih _ _ (by omega) (by omega) (by omega) ?_
        split
        · rename_i hc
          intro x hmem
          rcases List.mem_append.1 hmem with hmem | hmem
          · exact hx x hmem
          · rw [List.mem_singleton] at hmem
            subst hmem
            obtain ⟨r1, r2⟩ := rho_mem (hr _ ⟨by omega, by omega⟩) (by omega) l1 hq hc
            refine ⟨⟨[t], by simp, ho, ⟨fun u hu => ?_, fun p' q' hp' hq' hin => ?_⟩, rfl⟩, _, r1, rfl, rfl, hc, r2⟩
            · rw [List.mem_singleton] at hu
              subst hu
              exact ⟨_, f1, Int.le_refl _, Int.le_refl _⟩
            · obtain ⟨a, a1, a2, a3⟩ := hin t (by simp)
              simp only at hp' hq'
              by_cases hlt : (t.tau k).p < a.p
              · have := ht.1.mono f1 a1 hlt; omega
              · have e : (t.tau k).p = a.p := by omega
                rw [← ht.1.uniq f1 a1 e] at a3
                simp only
                omega
        · exact hx
      · exact ⟨ones, rfl, hx⟩
    · exact ⟨ones, rfl, hx⟩

theorem onesLoop_ok {terms0 : List (Weighed σ)} (hM : ∀ t ∈ terms0, SolvedBy t (M t)) (hr : ∀ q, InRange q → RhoSpec C q (rho q)) {penalty} :
    ∀ (l : List (Weighed σ)) (k : Int) (ones : List (Result σ)), minfinity < k → k ≤ maxfinity → Of l terms0 →
    (∀ x ∈ ones, Passage sc penalty M C terms0 x) →
    ∃ ones', onesLoop rho depth k l ones = some ones' ∧ ∀ x ∈ ones', Passage sc penalty M C terms0 x
  | [], _, ones, _, _, _, hx => ⟨ones, rfl, hx⟩
  | t :: l, k, ones, hk, hk', ho, hx => by
    unfold onesLoop
    obtain ⟨o1, e1, x1⟩ := ones_ok (depth := depth) hr (hM t (ho.mem (List.mem_cons_self ..)))
      (Of.trans (of_sublist (by simp)) ho) loopFuel k ones hk hk' (by unfold loopFuel; omega) hx
    rw [e1]
    exact onesLoop_ok hM hr l (minfinity + 1) o1 (by omega) (by omega) (Of.trans (of_sublist (by simp)) ho) x1

theorem best_nil : BestContainers sc depth [] [] :=
  ⟨Nat.zero_le _, by simp, List.nodup_nil, .nil, by simp⟩

theorem icover_ok (hs : sc.Lawful) (hg : so.Good sc) (hd : 0 < depth) (hC : Wf C) (hr : ∀ q, InRange q → RhoSpec C q (rho q)) {terms : List (Weighed σ)}
    (hM : ∀ t ∈ terms, SolvedBy t (M t)) : ∃ A R, icoverRanking sc so rho depth terms = some R ∧ BestContainers sc depth A R ∧
      (∀ x ∈ A, Passage sc so.penalty M C terms x) ∧ (2 ≤ terms.length → NothingMissed sc so.penalty M C terms terms.length A) ∧
      (R.length < depth → ∀ m, 2 ≤ m → m ≤ terms.length → NothingMissed sc so.penalty M C terms m A) := by
  unfold icoverRanking
  by_cases h0 : terms = []
  · subst h0
    rw [if_pos rfl]
    exact ⟨[], [], rfl, best_nil, by simp, by simp, fun _ m h1 h2 => by simp at h2; omega⟩
  · rw [if_neg h0]
    obtain ⟨b, t1, top1, target1, A1, e1, o1, b1, tg1, -, p1, f1, g1⟩ := passes_ok (M := M) hs hg hd hC hr hM terms.length terms [] [] sc.zero
      (Nat.le_refl _) Of.refl (fun _ => .refl _) best_nil (by unfold targetAt; rw [if_neg (by simp; omega)])
    have p1' : ∀ x ∈ A1, Passage sc so.penalty M C terms x := fun x hx => (p1 x hx).resolve_left (by simp)
    rw [e1]
    cases b with
    | true =>
      simp only []
      exact ⟨A1, top1, rfl, b1, p1', fun h => f1 hd h, fun h => (g1 h).2.2⟩
    | false =>
      simp only []
      by_cases hst : top1.length ≥ depth ∧ oneTerms sc so depth target1 t1 top1 = []
      · rw [if_pos hst]
        exact ⟨A1, top1, rfl, b1, p1', fun h => f1 hd h, fun h => (g1 h).2.2⟩
      · rw [if_neg hst]
        have ofo : Of (so.heavy (oneTerms sc so depth target1 t1 top1)) terms := by
          have h1 : Of (oneTerms sc so depth target1 t1 top1) terms := by
            unfold oneTerms
            split
            · exact ((of_sublist (List.dropWhile_sublist _)).perm (hg.light t1)).trans o1
            · exact o1
          obtain ⟨r, hr⟩ := h1
          exact ⟨r, ((hg.heavy _).append_right r).trans hr⟩
        obtain ⟨ones, e2, x2⟩ := onesLoop_ok (sc := sc) (M := M) (depth := depth) (penalty := so.penalty) hM hr _ 0 [] (by omega) (by omega) ofo (by simp)
        rw [e2]
        have b2 := merge_ok (B := ones) hs hg.results b1
        have sub : ∀ x ∈ A1, x ∈ A1 ++ ones := fun x hx => List.mem_append_left _ hx
        refine ⟨A1 ++ ones, _, rfl, b2, fun x hx => ?_, fun h => (f1 hd h).mono sub, fun h m h1 h2 => ?_⟩
        · rcases List.mem_append.1 hx with hx | hx
          · exact p1' x hx
          · exact x2 x hx
        · have := best_grows b1 b2 sub h
          exact ((g1 (by omega)).2.2 m h1 h2).mono sub

end

end Verif.Rank
