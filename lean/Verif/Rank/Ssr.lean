import Verif.Rank.Top
import Verif.Hopper.Array
/-
  The loop of `ssr_ranking`.
-/
namespace Verif.Rank
open Verif.Hopper

variable {σ : Type} {sc : Scores σ}

/-- one more element passes the filter, after all that did -/
theorem filter_step {l : List Ann} {key : Ann → Int} (hs : l.Pairwise fun a b => key a < key b) {P Q : Ann → Bool}
    {x : Ann} (hx : x ∈ l) (hQ : ∀ y ∈ l, Q y = true ↔ (P y = true ∨ y = x)) (hlt : ∀ y ∈ l, P y = true → key y < key x) :
    l.filter Q = l.filter P ++ [x] := by
  induction l with
  | nil => cases hx
  | cons z l ih =>
    obtain ⟨h1, h2⟩ := List.pairwise_cons.1 hs
    have hPx : P x = false := by
      cases h : P x with
      | false => rfl
      | true => have := hlt x hx h; omega
    rcases List.mem_cons.1 hx with rfl | hx'
    · have hP : l.filter P = [] := by
        rw [List.filter_eq_nil_iff]
        intro y hy hp
        have := hlt y (List.mem_cons_of_mem _ hy) hp
        have := h1 y hy
        omega
      have hQl : l.filter Q = [] := by
        rw [List.filter_eq_nil_iff] at hP ⊢
        intro y hy hq
        rcases (hQ y (List.mem_cons_of_mem _ hy)).1 hq with h | h
        · exact hP y hy h
        · subst h; have := h1 y hy; omega
      rw [List.filter_cons, List.filter_cons, hP, hQl, hPx, (hQ x (List.mem_cons_self ..)).2 (.inr rfl)]
      rfl
    · have hne : z ≠ x := by intro h; subst h; have := h1 z hx'; omega
      have hz : Q z = P z := by
        have := hQ z (List.mem_cons_self ..)
        rw [Bool.eq_iff_iff, this]
        exact ⟨fun h => h.resolve_right hne, .inl⟩
      have := ih h2 hx' (fun y hy => hQ y (List.mem_cons_of_mem _ hy)) fun y hy => hlt y (List.mem_cons_of_mem _ hy)
      rw [List.filter_cons, List.filter_cons, hz, this]
      split <;> rfl

theorem results_snoc {L : List Ann} {cs : List Ann} {rs : List (Result σ)} (h : Results sc L cs rs) {c : Ann} {r : Result σ}
    (hr : Scored sc L c r) : Results sc L (cs ++ [c]) (rs ++ [r]) := by
  induction h with
  | nil => exact .cons hr .nil
  | cons h _ ih => exact .cons h ih

/-! ### the scores -/

/-- of some solutions, one is the first of the shortest -/
theorem shortest_exists : ∀ l : List Ann, l ≠ [] → ∃ a, Shortest l a
  | [], h => absurd rfl h
  | [a], _ => ⟨a, by simp, by simp⟩
  | a :: b :: l, _ => by
    obtain ⟨c, h1, h2⟩ := shortest_exists (b :: l) (by simp)
    by_cases h : a.q - a.p < c.q - c.p ∨ (a.q - a.p = c.q - c.p ∧ a.p ≤ c.p)
    · refine ⟨a, List.mem_cons_self .., fun x hx => ?_⟩
      rcases List.mem_cons.1 hx with rfl | hx
      · omega
      · have := h2 x hx; omega
    · refine ⟨c, List.mem_cons_of_mem _ h1, fun x hx => ?_⟩
      rcases List.mem_cons.1 hx with rfl | hx
      · omega
      · exact h2 x hx

theorem scoreOf_snoc (l : List Ann) (a : Ann) : scoreOf sc (l ++ [a]) = sc.add (scoreOf sc l) (sc.weight a.p a.q) := by
  simp [scoreOf]

theorem score_zero_or_pos (hs : sc.Lawful) {l : List Ann} (hl : ∀ a ∈ l, a.p ≤ a.q) :
    (l = [] ∧ scoreOf sc l = sc.zero) ∨ (l ≠ [] ∧ sc.gt (scoreOf sc l) sc.zero = true) := by
  have key : ∀ (n : Nat) (l : List Ann), l.length = n → (∀ a ∈ l, a.p ≤ a.q) →
      (l = [] ∧ scoreOf sc l = sc.zero) ∨ (l ≠ [] ∧ sc.gt (scoreOf sc l) sc.zero = true) := by
    intro n
    induction n with
    | zero => intro l h _; exact .inl ⟨List.eq_nil_of_length_eq_zero h, by rw [List.eq_nil_of_length_eq_zero h]; rfl⟩
    | succ n ih =>
      intro l h hv
      have hne : l ≠ [] := by intro h0; rw [h0] at h; simp at h
      obtain ⟨m, a, rfl⟩ : ∃ m a, l = m ++ [a] := ⟨l.dropLast, l.getLast hne, (List.dropLast_concat_getLast hne).symm⟩
      right
      refine ⟨hne, ?_⟩
      rw [scoreOf_snoc]
      refine hs.pos ?_ (hv a (by simp))
      rcases ih m (by simp at h; omega) (fun b hb => hv b (by simp [hb])) with h | h
      · exact .inl h.2
      · exact .inr h.2
  exact key l.length l rfl hl

/-! ### the invariant -/

/-- the solutions counted for the container so far -/
def used (L : List Ann) (s : Vars σ) : List Ann :=
  L.filter fun a => decide (s.cp ≤ a.p ∧ a.q ≤ s.cq ∧ a.p < s.p)

/-- the containers finished -/
def finished (L C : List Ann) (start stop : Int) (s : Vars σ) : List Ann :=
  (matching L C start stop).filter fun c => decide (c.q < s.cq)

/-- the answer is an element of the list, or the high end -/
def At (l : List Ann) (p q : Int) : Prop := (∃ a ∈ l, p = a.p ∧ q = a.q) ∨ (p = maxfinity ∧ q = maxfinity)

/-- containers do not overlap -/
def Disjoint (C : List Ann) : Prop := C.Pairwise fun c d => c.q < d.p

structure Inv (sc : Scores σ) (depth : Nat) (L C : List Ann) (start stop : Int) (s : Vars σ) : Prop where
  sol : At L s.p s.q
  con : At C s.cp s.cq
  seen : ∀ a ∈ L, a.p < s.p → a.p < s.cp ∨ (s.cp ≤ a.p ∧ a.q ≤ s.cq)
  from_ : start ≤ s.cp
  score : s.score = scoreOf sc (used L s)
  best : (used L s = [] ∧ s.bestP = maxfinity) ∨ ∃ a, Shortest (used L s) a ∧ s.bestP = a.p ∧ s.bestQ = a.q
  short : s.top.length ≤ depth
  sorted : s.top.Pairwise fun a b => sc.gt b.score a.score = false
  target : s.target = targetOf sc depth s.top ∨ used L s = []
  floor : sc.gt sc.zero s.target = false
  pos : ∀ r ∈ s.top ++ s.current, sc.gt r.score sc.zero = true
  kept : ∃ done, Results sc L (finished L C start stop s) done ∧ Enough sc depth done (s.top ++ s.current)

section
variable {L C : List Ann} (hL : Listing L) (hC : Listing C) (hD : Disjoint C) {start stop : Int} {depth : Nat}

include hL in
theorem sol_bounds {p q : Int} (h : At L p q) : minfinity < p ∧ p ≤ q ∧ q ≤ maxfinity := by
  rcases h with ⟨a, ha, rfl, rfl⟩ | ⟨rfl, rfl⟩
  · have := hL.bounds a ha; omega
  · omega

/-- of two disjoint containers, one is before the other -/
theorem disjoint_lt (hD : Disjoint C) {c d : Ann} (hc : c ∈ C) (hd : d ∈ C) (h : c.q < d.q) (hcl : c.p ≤ c.q) : c.q < d.p := by
  rcases List.mem_iff_getElem.1 hc with ⟨i, hi, rfl⟩
  rcases List.mem_iff_getElem.1 hd with ⟨j, hj, rfl⟩
  rcases Nat.lt_trichotomy i j with h' | h' | h'
  · exact List.pairwise_iff_getElem.1 hD i j hi hj h'
  · subst h'; omega
  · have := List.pairwise_iff_getElem.1 hD j i hj hi h'; omega

theorem target_floor (hs : sc.Ordered) {top : List (Result σ)} (h : ∀ r ∈ top, sc.gt r.score sc.zero = true) :
    sc.gt sc.zero (targetOf sc depth top) = false := by
  unfold targetOf
  split
  · split
    · rename_i r hr
      exact hs.asymm (h r (List.mem_of_getLast? hr))
    · exact irrefl hs _
  · exact irrefl hs _

theorem inv_target (hs : sc.Lawful) {s : Vars σ} (h : Inv sc depth L C start stop s) :
    Inv sc depth L C start stop { s with target := targetOf sc depth s.top } :=
  ⟨h.sol, h.con, h.seen, h.from_, h.score, h.best, h.short, h.sorted, .inl rfl,
    target_floor hs fun r hr => h.pos r (List.mem_append_left _ hr), h.pos, h.kept⟩

/-- something at most the target may be dropped -/
theorem rivals_target (hs : sc.Ordered) {top : List (Result σ)} (hl : top.length ≤ depth)
    (hsort : top.Pairwise fun a b => sc.gt b.score a.score = false) {x : Result σ}
    (hpos : sc.gt x.score sc.zero = true) (hx : sc.gt x.score (targetOf sc depth top) = false) :
    depth ≤ rivals sc x top := by
  unfold targetOf at hx
  split at hx
  · rename_i hd
    split at hx
    · rename_i r hr
      rw [rivals_all, hd]
      · exact Nat.le_refl _
      intro t ht
      cases hg : sc.gt x.score t.score with
      | false => rfl
      | true =>
        exfalso
        rcases hs.split (b := r.score) hg with h | h
        · rw [hx] at h; cases h
        · have hne : top ≠ [] := by intro h0; rw [h0] at hr; cases hr
          rw [List.getLast?_eq_some_getLast hne] at hr
          have hr := Option.some.inj hr
          obtain ⟨i, hi, rfl⟩ := List.getElem_of_mem ht
          rw [List.getLast_eq_getElem] at hr
          by_cases hi' : i = top.length - 1
          · subst hi'
            rw [← hr, irrefl hs] at h; cases h
          · have := List.pairwise_iff_getElem.1 hsort i (top.length - 1) hi (by omega) (by omega)
            rw [hr] at this
            rw [this] at h; cases h
    · rw [hpos] at hx; cases hx
  · rw [hpos] at hx; cases hx

/-- closing a container all of whose solutions are counted -/
theorem close_kept (hs : sc.Lawful) {sort : List (Result σ) → List (Result σ)} (hsort : SortsBy sc sort) (hLL : Listing L)
    {s : Vars σ} (h : Inv sc depth L C start stop s) {c : Ann} (hp : s.cp = c.p) (hq : s.cq = c.q)
    (hu : used L s = within L c) {done : List (Result σ)} {cs : List Ann} (hr : Results sc L cs done)
    (he : Enough sc depth done (s.top ++ s.current)) :
    ∃ done', Results sc L (cs ++ if (within L c).isEmpty then [] else [c]) done' ∧
      Enough sc depth done' ((s.close sc sort depth).top ++ (s.close sc sort depth).current) ∧
      (s.close sc sort depth).top.length ≤ depth ∧
      (s.close sc sort depth).top.Pairwise (fun a b => sc.gt b.score a.score = false) ∧
      (∀ r ∈ (s.close sc sort depth).top ++ (s.close sc sort depth).current, sc.gt r.score sc.zero = true) ∧
      ∃ done'', Results sc L (cs ++ if (within L c).isEmpty then [] else [c]) done'' ∧
        Enough sc depth done'' (s.top ++ (if sc.gt s.score s.target then
          s.current ++ [⟨s.bestP, s.bestQ, s.cp, s.cq, s.score⟩] else s.current)) := by
  have hv : ∀ a ∈ used L s, a.p ≤ a.q := fun a ha => by
    have := hLL.bounds a (List.mem_filter.1 ha).1; omega
  have key : ∃ done'', Results sc L (cs ++ if (within L c).isEmpty then [] else [c]) done'' ∧
        Enough sc depth done'' (s.top ++ (if sc.gt s.score s.target then
          s.current ++ [⟨s.bestP, s.bestQ, s.cp, s.cq, s.score⟩] else s.current)) := by
    rcases score_zero_or_pos hs hv with ⟨e1, e2⟩ | ⟨e1, e2⟩
    · -- nothing in it
      have hw : (within L c).isEmpty = true := by rw [← hu, e1]; rfl
      rw [hw]
      simp only [if_true, List.append_nil]
      have hz : s.score = sc.zero := by rw [h.score, e2]
      split
      · rename_i hg
        exfalso
        rw [hz, h.floor] at hg
        cases hg
      · exact ⟨done, hr, he⟩
    · have hw : (within L c).isEmpty = false := by
        rw [← hu]; cases hh : used L s with
        | nil => exact absurd hh e1
        | cons => rfl
      rw [hw]
      simp only [Bool.false_eq_true, if_false]
      have hsc : Scored sc L c ⟨s.bestP, s.bestQ, s.cp, s.cq, s.score⟩ := by
        refine ⟨hp, hq, by rw [← hu]; exact h.score, ?_⟩
        rcases h.best with ⟨b1, _⟩ | ⟨a, b1, b2, b3⟩
        · exact absurd b1 e1
        · exact ⟨a, by rw [← hu]; exact b1, b2, b3⟩
      refine ⟨done ++ [⟨s.bestP, s.bestQ, s.cp, s.cq, s.score⟩], results_snoc hr hsc, ?_⟩
      split
      · rw [← List.append_assoc]; exact enough_snoc he _
      · rename_i hg
        have ht : s.target = targetOf sc depth s.top := h.target.resolve_right e1
        refine enough_drop he (Nat.le_trans (rivals_target hs h.short h.sorted (x := ⟨s.bestP, s.bestQ, s.cp, s.cq, s.score⟩) ?_ ?_)
          (rivals_mono _ _ _))
        · simp only; rw [h.score]; exact e2
        · simp only; rw [← ht]; simpa using hg
  obtain ⟨done'', k1, k2⟩ := key
  have hpos : sc.gt s.score s.target = true → sc.gt s.score sc.zero = true := by
    intro hg
    rcases hs.split (b := sc.zero) hg with h' | h'
    · exact h'
    · rw [h.floor] at h'; cases h'
  refine ⟨done'', k1, ?_, ?_, ?_, ?_, done'', k1, k2⟩
  all_goals
    unfold Vars.close
    by_cases hg : sc.gt s.score s.target = true
    · rw [if_pos hg] at k2
      have hpc : ∀ r ∈ s.top ++ (s.current ++ [(⟨s.bestP, s.bestQ, s.cp, s.cq, s.score⟩ : Result σ)]),
          sc.gt r.score sc.zero = true := by
        intro r hr
        rw [← List.append_assoc] at hr
        rcases List.mem_append.1 hr with hr | hr
        · exact h.pos r hr
        · rw [List.mem_singleton.1 hr]; exact hpos hg
      simp only [hg, if_true]
      by_cases hd : (s.current ++ [(⟨s.bestP, s.bestQ, s.cp, s.cq, s.score⟩ : Result σ)]).length = depth
      · simp only [hd, if_true]
        first
          | (simp only [List.append_nil]; exact enough_trim hs hsort k2)
          | exact List.length_take_le _ _
          | exact (hsort _).2.sublist (List.take_sublist _ _)
          | (simp only [List.append_nil]
             exact fun r hr => hpc r ((hsort _).1.mem_iff.1 (List.mem_of_mem_take hr)))
      · simp only [hd, if_false]
        first
          | exact k2
          | exact h.short
          | exact h.sorted
          | exact hpc
    · rw [if_neg hg] at k2
      simp only [hg]
      first
        | exact k2
        | exact h.short
        | exact h.sorted
        | exact h.pos

theorem mono_p {l : List Ann} (h : Listing l) {a b : Ann} (ha : a ∈ l) (hb : b ∈ l) (hp : a.p ≤ b.p) : a.q ≤ b.q := by
  by_cases e : a.p = b.p
  · rw [h.wf.uniq ha hb e]; exact Int.le_refl _
  · have := h.wf.mono ha hb (by omega); omega

theorem mono_q {l : List Ann} (h : Listing l) {a b : Ann} (ha : a ∈ l) (hb : b ∈ l) (hq : a.q < b.q) : a.p < b.p := by
  rcases Int.lt_or_le a.p b.p with h1 | h1
  · exact h1
  · have := mono_p h hb ha h1; omega

/-- `src/ranking.cc:341-342` -/
theorem step_skip (hL : Listing L) (hC : Listing C) {s : Vars σ} (h : Inv sc depth L C start stop s) (hlt : s.p < s.cp)
    {a : Ann} (ha : TauSpec (ofList L) s.cp a) :
    Inv sc depth L C start stop { s with p := a.p, q := a.q } ∧ s.p < a.p := by
  have hb := sol_bounds hL h.sol
  have hnew : At L a.p a.q ∧ s.cp ≤ a.p ∧ ∀ x ∈ L, x.p < a.p → x.p < s.cp := by
    rcases ha with ⟨h1, _⟩ | ⟨_, h1, h2, h3⟩ | ⟨_, h1, rfl⟩
    · omega
    · refine ⟨.inl ⟨a, h1, rfl, rfl⟩, h2, fun x hx hxa => ?_⟩
      rcases Int.lt_or_le x.p s.cp with h | h
      · exact h
      · have := h3 x hx h; omega
    · refine ⟨.inr ⟨rfl, rfl⟩, ?_, fun x hx _ => h1 x hx⟩
      rcases h.con with ⟨c, hc, e, _⟩ | ⟨e, _⟩
      · have := hC.bounds c hc; simp only; omega
      · simp only; omega
  obtain ⟨n1, n2, n3⟩ := hnew
  have u0 : used L s = [] := by
    unfold used
    rw [List.filter_eq_nil_iff]
    intro x _ hx
    have := of_decide_eq_true hx; omega
  have u1 : used L { s with p := a.p, q := a.q } = [] := by
    unfold used
    rw [List.filter_eq_nil_iff]
    intro x hx hd
    have h1 := of_decide_eq_true hd
    simp only at h1
    have := n3 x hx h1.2.2; omega
  refine ⟨⟨n1, h.con, fun x hx hp => .inl (n3 x hx hp), h.from_, ?_, ?_, h.short, h.sorted, ?_, h.floor, h.pos, h.kept⟩,
    by omega⟩
  · rw [u1]; simp only; rw [h.score, u0]
  · rw [u1]
    left
    refine ⟨rfl, ?_⟩
    rcases h.best with ⟨_, b⟩ | ⟨b, ⟨b1, _⟩, _⟩
    · exact b
    · rw [u0] at b1; cases b1
  · exact .inr u1

/-- `src/ranking.cc:354-360` -/
theorem step_count (hL : Listing L) {s : Vars σ} (h : Inv sc depth L C start stop s) (hp : s.p < maxfinity)
    (hge : s.cp ≤ s.p) (hle : s.q ≤ s.cq) (ht : s.target = targetOf sc depth s.top) {a : Ann}
    (ha : TauSpec (ofList L) (s.p + 1) a) :
    Inv sc depth L C start stop { s.count sc with p := a.p, q := a.q } ∧ s.p < a.p := by
  have hb := sol_bounds hL h.sol
  have hnew : At L a.p a.q ∧ s.p < a.p ∧ ∀ x ∈ L, x.p < a.p → x.p ≤ s.p := by
    rcases ha with ⟨h1, _⟩ | ⟨_, h1, h2, h3⟩ | ⟨_, h1, rfl⟩
    · omega
    · refine ⟨.inl ⟨a, h1, rfl, rfl⟩, by omega, fun x hx hxa => ?_⟩
      rcases Int.lt_or_le s.p x.p with h | h
      · have := h3 x hx (by omega); omega
      · exact h
    · exact ⟨.inr ⟨rfl, rfl⟩, hp, fun x hx _ => by have := h1 x hx; omega⟩
  obtain ⟨n1, n2, n3⟩ := hnew
  obtain ⟨x, hx, x1, x2⟩ : ∃ x ∈ L, s.p = x.p ∧ s.q = x.q := by
    rcases h.sol with h | h
    · exact h
    · omega
  have inv : ∀ (t : Vars σ), t.p = a.p → t.q = a.q → t.cp = s.cp → t.cq = s.cq → t.top = s.top → t.current = s.current →
      t.target = s.target → t.score = sc.add s.score (sc.weight s.p s.q) →
      (∃ b, Shortest (used L s ++ [x]) b ∧ t.bestP = b.p ∧ t.bestQ = b.q) →
      Inv sc depth L C start stop t := by
    intro t t1 t2 t3 t4 t5 t6 t7 t8 t9
    have hu : used L t = used L s ++ [x] := by
      unfold used
      refine filter_step (key := Ann.p) (hL.sorted.imp fun h => h.1) hx ?_ ?_
      · intro y hy
        simp only [decide_eq_true_eq, t1, t3, t4]
        constructor
        · rintro ⟨y1, y2, y3⟩
          have := n3 y hy y3
          rcases Int.lt_or_eq_of_le this with h' | h'
          · exact .inl ⟨y1, y2, h'⟩
          · exact .inr (hL.wf.uniq hy hx (by omega))
        · rintro (⟨y1, y2, y3⟩ | rfl)
          · exact ⟨y1, y2, by omega⟩
          · exact ⟨by omega, by omega, by omega⟩
      · intro y _ hy
        have := of_decide_eq_true hy; omega
    refine ⟨by rw [t1, t2]; exact n1, by rw [t3, t4]; exact h.con, ?_, by rw [t3]; exact h.from_, ?_, ?_, by rw [t5]; exact h.short,
      by rw [t5]; exact h.sorted, .inl (by rw [t7, t5]; exact ht), by rw [t7]; exact h.floor, by rw [t5, t6]; exact h.pos, ?_⟩
    · intro y hy hyp
      rw [t1] at hyp
      rw [t3, t4]
      have := n3 y hy hyp
      rcases Int.lt_or_eq_of_le this with h' | h'
      · exact h.seen y hy h'
      · right
        rw [hL.wf.uniq hy hx (by omega)]
        omega
    · rw [hu, scoreOf_snoc, t8, h.score, x1, x2]
    · rw [hu]; exact .inr t9
    · have : finished L C start stop t = finished L C start stop s := by unfold finished; rw [t4]
      rw [this, t5, t6]; exact h.kept
  refine ⟨?_, n2⟩
  have hlast : ∀ y ∈ used L s, y.p < x.p := by
    intro y hy
    have := of_decide_eq_true (List.mem_filter.1 hy).2; omega
  have hmax : ∀ y ∈ used L s, y.p ≠ maxfinity := by
    intro y hy
    have := hL.bounds y (List.mem_filter.1 hy).1; omega
  unfold Vars.count
  by_cases hc : s.bestP = maxfinity ∨ s.q - s.p < s.bestQ - s.bestP
  · simp only [hc, if_true]
    refine inv _ rfl rfl rfl rfl rfl rfl rfl rfl ⟨x, ⟨by simp, ?_⟩, x1, x2⟩
    intro y hy
    rcases List.mem_append.1 hy with hy | hy
    · rcases h.best with ⟨b, _⟩ | ⟨b, ⟨b1, b2⟩, b3, b4⟩
      · rw [b] at hy; cases hy
      · have h1 := b2 y hy
        have h2 := hmax b b1
        have : s.q - s.p < s.bestQ - s.bestP := hc.resolve_left (by omega)
        omega
    · rw [List.mem_singleton.1 hy]; omega
  · simp only [hc, if_false]
    rcases h.best with ⟨_, b⟩ | ⟨b, ⟨b1, b2⟩, b3, b4⟩
    · exact absurd (.inl b) hc
    · refine inv _ rfl rfl rfl rfl rfl rfl rfl rfl ⟨b, ⟨by simp [b1], ?_⟩, b3, b4⟩
      intro y hy
      rcases List.mem_append.1 hy with hy | hy
      · exact b2 y hy
      · have := hlast b b1
        rw [List.mem_singleton.1 hy]
        omega

/-- when the next solution ends after the container, all in it are counted -/
theorem used_all (hL : Listing L) {s : Vars σ} (h : Inv sc depth L C start stop s) (hgt : s.q > s.cq) {c : Ann}
    (hp : s.cp = c.p) (hq : s.cq = c.q) : used L s = within L c := by
  unfold used within
  apply List.filter_congr
  intro x hx
  rw [decide_eq_decide, hp, hq]
  constructor
  · rintro ⟨h1, h2, _⟩; exact ⟨h1, h2⟩
  · rintro ⟨h1, h2⟩
    refine ⟨h1, h2, ?_⟩
    rcases h.sol with ⟨a, ha, e1, e2⟩ | ⟨e1, _⟩
    · rw [e1]; exact mono_q hL hx ha (by omega)
    · have := hL.bounds x hx; omega

/-- containers after this one, none of which can reach the next solution, have none -/
theorem none_between (hL : Listing L) (hC : Listing C) (hD : Disjoint C) {s : Vars σ} (h : Inv sc depth L C start stop s)
    {c d : Ann} (hc : c ∈ C) (hp : s.cp = c.p) (hq : s.cq = c.q) (hd : d ∈ C) (hlt : c.q < d.q) (hd2 : d.q < s.q) :
    (within L d).isEmpty = true := by
  rw [List.isEmpty_iff]
  unfold within
  rw [List.filter_eq_nil_iff]
  intro x hx hin
  have hin := of_decide_eq_true hin
  have hb := hL.bounds x hx
  have hcb := hC.bounds c hc
  have h1 := disjoint_lt hD hc hd hlt hcb.2.1
  have h2 : x.p < s.p := by
    rcases h.sol with ⟨a, ha, e1, e2⟩ | ⟨e1, _⟩
    · rw [e1]; exact mono_q hL hx ha (by omega)
    · omega
  have := h.seen x hx h2
  omega

theorem matching_sorted (hC : Listing C) : (matching L C start stop).Pairwise fun a b => a.q < b.q :=
  (hC.sorted.imp fun h => h.2).filter _

theorem mem_matching {d : Ann} : d ∈ matching L C start stop ↔
    d ∈ C ∧ start ≤ d.p ∧ d.p < stop ∧ (within L d).isEmpty = false := by
  unfold matching
  rw [List.mem_filter]
  simp only [Bool.and_eq_true, decide_eq_true_eq, Bool.not_eq_true', and_assoc]

/-- what is finished when the next container ends at `k` -/
theorem finished_next (hL : Listing L) (hC : Listing C) (hD : Disjoint C) {s : Vars σ} (h : Inv sc depth L C start stop s)
    {c : Ann} (hc : c ∈ C) (hp : s.cp = c.p) (hq : s.cq = c.q) (hstop : s.cp < stop) {t : Vars σ}
    (hlt : s.cq < t.cq) (hnone : ∀ d ∈ matching L C start stop, c.q < d.q → d.q < t.cq → d.q < s.q) :
    finished L C start stop t = finished L C start stop s ++ if (within L c).isEmpty then [] else [c] := by
  have hb : ∀ d ∈ matching L C start stop, c.q < d.q → d.q < t.cq → False := by
    intro d hd h1 h2
    obtain ⟨m1, _, _, m4⟩ := mem_matching.1 hd
    have := none_between hL hC hD h hc hp hq m1 h1 (hnone d hd h1 h2)
    rw [m4] at this; cases this
  unfold finished
  cases hw : (within L c).isEmpty with
  | true =>
    simp only [if_true, List.append_nil]
    apply List.filter_congr
    intro d hd
    rw [decide_eq_decide]
    obtain ⟨m1, _, _, m4⟩ := mem_matching.1 hd
    constructor
    · intro h1
      rcases Int.lt_trichotomy d.q c.q with h' | h' | h'
      · omega
      · have e : d = c := hC.wf.uniq m1 hc (by
          rcases Int.lt_trichotomy d.p c.p with g | g | g
          · have := hC.wf.mono m1 hc g; omega
          · exact g
          · have := hC.wf.mono hc m1 g; omega)
        rw [e, hw] at m4; cases m4
      · exact absurd h1 (fun h1 => hb d hd h' h1)
    · intro h1; omega
  | false =>
    simp only [Bool.false_eq_true, if_false]
    refine filter_step (key := Ann.q) (matching_sorted hC) (mem_matching.2 ⟨hc, by rw [← hp]; exact h.from_, by omega, hw⟩) ?_ ?_
    · intro d hd
      obtain ⟨m1, _, _, m4⟩ := mem_matching.1 hd
      simp only [decide_eq_true_eq]
      constructor
      · intro h1
        rcases Int.lt_trichotomy d.q c.q with h' | h' | h'
        · left; omega
        · right
          exact hC.wf.uniq m1 hc (by
            rcases Int.lt_trichotomy d.p c.p with g | g | g
            · have := hC.wf.mono m1 hc g; omega
            · exact g
            · have := hC.wf.mono hc m1 g; omega)
        · exact absurd h1 (fun h1 => hb d hd h' h1)
      · rintro (h1 | rfl)
        · omega
        · omega
    · intro d _ h1
      have := of_decide_eq_true h1; omega

theorem close_vars (sort : List (Result σ) → List (Result σ)) (s : Vars σ) :
    (s.close sc sort depth).score = sc.zero ∧ (s.close sc sort depth).bestP = maxfinity ∧
    (s.close sc sort depth).p = s.p ∧ (s.close sc sort depth).q = s.q ∧ (s.close sc sort depth).target = s.target := by
  unfold Vars.close
  by_cases hg : sc.gt s.score s.target = true
  · simp only [hg, if_true]
    by_cases hd : (s.current ++ [(⟨s.bestP, s.bestQ, s.cp, s.cq, s.score⟩ : Result σ)]).length = depth
    · simp only [hd, if_true]; trivial
    · simp only [hd, if_false]; trivial
  · simp only [hg]; trivial

/-- `src/ranking.cc:343-353` -/
theorem step_close (hs : sc.Lawful) {sort : List (Result σ) → List (Result σ)} (hsort : SortsBy sc sort)
    (hL : Listing L) (hC : Listing C) (hD : Disjoint C) {s : Vars σ} (h : Inv sc depth L C start stop s)
    (hcq : s.cq < maxfinity) (hstop : s.cp < stop) (hgt : s.q > s.cq) {d : Ann} (hd : RhoSpec (ofList C) s.q d) :
    Inv sc depth L C start stop { s.close sc sort depth with cp := d.p, cq := d.q } ∧ s.cq < d.q := by
  obtain ⟨c, hc, hp, hq⟩ : ∃ c ∈ C, s.cp = c.p ∧ s.cq = c.q := by
    rcases h.con with h | h
    · exact h
    · omega
  have hb := sol_bounds hL h.sol
  have hcb := hC.bounds c hc
  obtain ⟨v1, v2, v3, v4, v5⟩ := close_vars (sc := sc) (depth := depth) sort s
  have hnew : At C d.p d.q ∧ c.q < d.p ∧ c.q < d.q ∧ (∀ x ∈ C, x.q < d.q → x.q < s.q) := by
    rcases hd with ⟨h1, _⟩ | ⟨_, h1, h2, h3⟩ | ⟨_, h1, rfl⟩
    · omega
    · refine ⟨.inl ⟨d, h1, rfl, rfl⟩, disjoint_lt hD hc h1 (by omega) hcb.2.1, by omega, fun x hx hxd => ?_⟩
      rcases Int.lt_or_le x.q s.q with g | g
      · exact g
      · have := h3 x hx g; omega
    · exact ⟨.inr ⟨rfl, rfl⟩, hcb.2.2, hcb.2.2, fun x hx _ => h1 x hx⟩
  obtain ⟨n1, n2, n3, n4⟩ := hnew
  obtain ⟨done, r1, r2⟩ := h.kept
  obtain ⟨done', k1, k2, k3, k4, k5, _⟩ := close_kept hs hsort hL h hp hq (used_all hL h hgt hp hq) r1 r2
  have hseen : ∀ x ∈ L, x.p < s.p → x.p < d.p := by
    intro x hx hxp
    have := hL.bounds x hx
    have := h.seen x hx hxp
    omega
  have hu : used L { s.close sc sort depth with cp := d.p, cq := d.q } = [] := by
    unfold used
    rw [List.filter_eq_nil_iff]
    intro x hx hxd
    have h1 := of_decide_eq_true hxd
    simp only [v3] at h1
    have := hseen x hx h1.2.2; omega
  refine ⟨⟨by simp only [v3, v4]; exact h.sol, n1, ?_, ?_, ?_, ?_, k3, k4, .inr hu, by simp only [v5]; exact h.floor, k5, done', ?_, k2⟩,
    by omega⟩
  · intro x hx hxp
    simp only [v3] at hxp
    exact .inl (hseen x hx hxp)
  · have := h.from_; simp only; omega
  · rw [hu]; exact v1
  · rw [hu]; exact .inl ⟨rfl, v2⟩
  · rw [finished_next hL hC hD h hc hp hq hstop (by simp only; omega)
      fun x hx _ h2 => n4 x (mem_matching.1 hx).1 h2]
    exact k1

/-- the end of the loop, and what follows it (`src/ranking.cc:363-366`) -/
theorem finish (hs : sc.Lawful) {sort : List (Result σ) → List (Result σ)} (hsort : SortsBy sc sort)
    (hL : Listing L) (hC : Listing C) (hD : Disjoint C) {s : Vars σ} (h : Inv sc depth L C start stop s)
    (hend : ¬ (s.p < maxfinity ∧ s.cq < maxfinity ∧ s.cp < stop)) :
    ∃ all, Results sc L (matching L C start stop) all ∧
      Top sc depth all (topResults sort s.top (if sc.gt s.score s.target ∧ s.cq < maxfinity ∧ s.cp < stop
            then s.current ++ [⟨s.bestP, s.bestQ, s.cp, s.cq, s.score⟩] else s.current) depth) := by
  obtain ⟨done, r1, r2⟩ := h.kept
  have hb := sol_bounds hL h.sol
  by_cases hin : s.cq < maxfinity ∧ s.cp < stop
  · -- the solutions are exhausted
    have hpm : s.p = maxfinity := by omega
    obtain ⟨c, hc, hp, hq⟩ : ∃ c ∈ C, s.cp = c.p ∧ s.cq = c.q := by
      rcases h.con with h | h
      · exact h
      · omega
    obtain ⟨_, _, _, _, _, _, done', k1, k2⟩ := close_kept hs hsort hL h hp hq (used_all hL h (by omega) hp hq) r1 r2
    refine ⟨done', ?_, ?_⟩
    · have : matching L C start stop = finished L C start stop ({ s with cq := maxfinity } : Vars σ) := by
        unfold finished
        rw [List.filter_eq_self.2]
        intro d hd
        have := hC.bounds d (mem_matching.1 hd).1
        simp only [decide_eq_true_eq]; omega
      rw [this, finished_next hL hC hD h hc hp hq hin.2 hin.1 fun d hd _ _ => by
        have := hC.bounds d (mem_matching.1 hd).1; omega]
      exact k1
    · simp only [hin.1, hin.2, and_true]
      exact top_take hs hsort k2
  · refine ⟨done, ?_, ?_⟩
    · have : matching L C start stop = finished L C start stop s := by
        unfold finished
        rw [List.filter_eq_self.2]
        intro d hd
        obtain ⟨m1, _, m3, _⟩ := mem_matching.1 hd
        have hdb := hC.bounds d m1
        simp only [decide_eq_true_eq]
        rcases h.con with ⟨c, hc, hp, hq⟩ | ⟨hp, hq⟩
        · have := hC.bounds c hc
          have := hC.wf.mono m1 hc (by omega)
          omega
        · omega
      rw [this]; exact r1
    · rw [if_neg (fun hh => hin hh.2)]
      exact top_take hs hsort r2

end

end Verif.Rank
