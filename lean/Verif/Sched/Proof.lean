/- Lemmas about the scheduling of background merges. -/
import Verif.Sched.Model
namespace Verif.Sched
open Verif.Txn (Kind FName Job)
open Verif.Sanitize (Recovery top)

/-! ### Runs -/

/-- `n` true values from position `i` -/
def IsRun (a : List Bool) (i n : Nat) : Prop := ∀ k, i ≤ k → k < i + n → a[k]? = some true

structure ScanInv (a : List Bool) (p : Nat) (s : Scan) : Prop where
  le : s.curLen ≤ p
  tail : ∀ k, p - s.curLen ≤ k → k < p → a[k]? = some true
  stop : s.curLen < p → a[p - s.curLen - 1]? = some false
  start : 0 < s.curLen → s.curStart + s.curLen = p
  best : s.bestLen = 0 ∨ (3 ≤ s.bestLen ∧ IsRun a s.bestStart s.bestLen)
  most : ∀ i n, 3 ≤ n → IsRun a i n → i + n ≤ p - s.curLen → n ≤ s.bestLen ∧ (n = s.bestLen → s.bestStart ≤ i)
  before : 0 < s.bestLen → s.bestStart + s.bestLen ≤ p - s.curLen

/-- after the open run has been closed, all runs so far have been seen -/
structure Closed (a : List Bool) (p : Nat) (s : Scan) : Prop where
  best : s.bestLen = 0 ∨ (3 ≤ s.bestLen ∧ IsRun a s.bestStart s.bestLen)
  most : ∀ i n, 3 ≤ n → IsRun a i n → i + n ≤ p → n ≤ s.bestLen ∧ (n = s.bestLen → s.bestStart ≤ i)
  before : 0 < s.bestLen → s.bestStart + s.bestLen ≤ p

theorem close_closed {a : List Bool} {p : Nat} {s : Scan} (h : ScanInv a p s) : Closed a p s.close := by
  have split : ∀ i n, 3 ≤ n → IsRun a i n → i + n ≤ p → i + n ≤ p - s.curLen ∨ p - s.curLen ≤ i := by
    intro i n hn hr hp
    by_cases h1 : i + n ≤ p - s.curLen
    · exact .inl h1
    · by_cases h2 : p - s.curLen ≤ i
      · exact .inr h2
      · exfalso
        have := h.stop (by omega)
        rw [hr (p - s.curLen - 1) (by omega) (by omega)] at this
        cases this
  unfold Scan.close
  split
  · rename_i hc
    have hs := h.start (by omega)
    refine ⟨.inr ⟨hc.1, fun k h1 h2 => h.tail k (by dsimp only at h1; omega) (by dsimp only at h2; omega)⟩, ?_, ?_⟩
    · intro i n hn hr hp
      dsimp only
      rcases split i n hn hr hp with h1 | h1
      · have := h.most i n hn hr h1
        omega
      · omega
    · intro _; dsimp only; omega
  · rename_i hc
    refine ⟨h.best, ?_, fun hb => by have := h.before hb; omega⟩
    intro i n hn hr hp
    rcases split i n hn hr hp with h1 | h1
    · exact h.most i n hn hr h1
    · have hlt : n ≤ s.bestLen := by omega
      refine ⟨hlt, fun e => ?_⟩
      have := h.before (by omega)
      omega

theorem scan_inv {a : List Bool} (p : Nat) (s : Scan) (h : ScanInv a p s) :
    ScanInv a a.length (scan p s (a.drop p)) ∨ a.length < p := by
  generalize hl : a.drop p = l
  induction l generalizing p s with
  | nil =>
    have := List.drop_eq_nil_iff.1 hl
    by_cases e : a.length = p
    · left; rw [e]; exact h
    · right; omega
  | cons b l ih =>
    left
    have hp : p < a.length := by
      apply Classical.byContradiction; intro hn
      rw [List.drop_of_length_le (by omega)] at hl; cases hl
    have hb : a[p]? = some b := by
      have : (a.drop p)[0]? = some b := by rw [hl]; rfl
      rwa [List.getElem?_drop] at this
    have hl' : a.drop (p + 1) = l := by rw [← List.drop_drop, hl]; rfl
    cases b with
    | true =>
      unfold scan
      have := ih (p + 1) { s with curStart := if s.curLen = 0 then p else s.curStart, curLen := s.curLen + 1 } ?_ hl'
      · rcases this with h1 | h1
        · exact h1
        · omega
      · have hle := h.le
        refine ⟨?_, ?_, ?_, ?_, h.best, ?_, ?_⟩
        · dsimp only; omega
        · intro k h1 h2; dsimp only at h1
          by_cases e : k = p
          · rw [e]; exact hb
          · exact h.tail k (by omega) (by omega)
        · intro h1; dsimp only at h1 ⊢
          have e : p + 1 - (s.curLen + 1) - 1 = p - s.curLen - 1 := by omega
          rw [e]; exact h.stop (by omega)
        · intro _; dsimp only; split
          · omega
          · have := h.start (by omega); omega
        · intro i n hn hr h1; dsimp only at h1 ⊢; exact h.most i n hn hr (by omega)
        · intro h1; dsimp only at h1 ⊢; have := h.before h1; omega
    | false =>
      unfold scan
      have := ih (p + 1) { s.close with curLen := 0 } ?_ hl'
      · rcases this with h1 | h1
        · exact h1
        · omega
      · have hc := close_closed h
        refine ⟨by dsimp only; omega, ?_, ?_, ?_, hc.best, ?_, ?_⟩
        · intro k h1 h2; dsimp only at h1; omega
        · intro _; dsimp only; exact hb
        · intro h1; dsimp only at h1; omega
        · intro i n hn hr h1; dsimp only at h1
          refine hc.most i n hn hr ?_
          apply Classical.byContradiction; intro h2
          rw [hr p (by omega) (by omega)] at hb
          cases hb
        · intro h1; have := hc.before h1; dsimp only; omega

theorem scan_closed (a : List Bool) : Closed a a.length (scan 0 ⟨0, 0, 0, 0⟩ a).close := by
  have h : ScanInv a 0 ⟨0, 0, 0, 0⟩ :=
    ⟨Nat.le_refl _, fun k _ h2 => by omega, fun h => by simp at h, fun h => by simp at h, .inl rfl,
      fun i n hn _ h1 => by simp at h1; omega, fun h => by simp at h⟩
  have := scan_inv 0 _ h
  rw [List.drop_zero] at this
  rcases this with h1 | h1
  · exact close_closed h1
  · omega

theorem isRun_le {a : List Bool} {i n : Nat} (hn : 0 < n) (h : IsRun a i n) : i + n ≤ a.length := by
  have := h (i + n - 1) (by omega) (by omega)
  have := List.getElem?_eq_some_iff.1 this
  obtain ⟨h1, _⟩ := this
  omega

theorem findSequence_some {a : List Bool} {i j : Nat} (h : findSequence a = some (i, j)) :
    ∃ n, 3 ≤ n ∧ j + 1 = i + n ∧ IsRun a i n ∧
      ∀ i' n', IsRun a i' n' → n' ≤ n ∧ (n' = n → i ≤ i') := by
  unfold findSequence at h
  simp only [] at h
  split at h
  · rename_i hb
    have hc := scan_closed a
    obtain ⟨h1, h2⟩ := Prod.mk.inj (Option.some.inj h)
    rcases hc.best with h0 | ⟨_, hr⟩
    · omega
    · refine ⟨_, hb, by omega, h1 ▸ hr, ?_⟩
      intro i' n' hr'
      by_cases h3 : 3 ≤ n'
      · have := hc.most i' n' h3 hr' (isRun_le (by omega) hr')
        rw [h1] at this
        exact this
      · exact ⟨by omega, fun e => by omega⟩
  · cases h

theorem findSequence_none {a : List Bool} (h : findSequence a = none) : ∀ i, ¬ IsRun a i 3 := by
  intro i hr
  unfold findSequence at h
  simp only [] at h
  split at h
  · cases h
  · rename_i hb
    have := (scan_closed a).most i 3 (Nat.le_refl _) hr (isRun_le (by omega) hr)
    omega

/-! ### Pairs -/

/-- what the loop knows at the end -/
theorem pairLoop_spec (sum : Item → Item → Option Int) : ∀ (l : List Item) (i : Nat) (best : Option (Nat × Int)),
    (∀ m s, pairLoop sum i best l = some (m, s) →
      (best = some (m, s) ∨ ∃ (k : Nat) (x y : Item), m = i + k ∧ l[k]? = some x ∧ l[k + 1]? = some y ∧ sum x y = some s) ∧
      (∀ b, best = some b → s ≤ b.2) ∧
      ∀ (k : Nat) (x y : Item) (t : Int), l[k]? = some x → l[k + 1]? = some y → sum x y = some t → s ≤ t) ∧
    (pairLoop sum i best l = none →
      best = none ∧ ∀ (k : Nat) (x y : Item), l[k]? = some x → l[k + 1]? = some y → sum x y = none) := by
  intro l
  induction l with
  | nil =>
    intro i best
    unfold pairLoop
    refine ⟨fun m s h => ⟨.inl h, fun b hb => ?_, fun k x y t hx => by simp at hx⟩, fun h => ⟨h, fun k x y hx => by simp at hx⟩⟩
    rw [h] at hb; cases hb; exact Int.le_refl _
  | cons x l ih =>
    intro i best
    cases l with
    | nil =>
      unfold pairLoop
      refine ⟨fun m s h => ⟨.inl h, fun b hb => ?_, fun k x y t _ hy => by simp at hy⟩, fun h => ⟨h, fun k x y _ hy => by simp at hy⟩⟩
      rw [h] at hb; cases hb; exact Int.le_refl _
    | cons y l =>
      have key : ∀ best', (∀ b, best = some b → ∃ b', best' = some b' ∧ b'.2 ≤ b.2) →
          (∀ b', best' = some b' → best = some b' ∨ (b'.1 = i ∧ sum x y = some b'.2)) →
          (∀ t, sum x y = some t → ∃ b', best' = some b' ∧ b'.2 ≤ t) →
          (∀ m s, pairLoop sum (i + 1) best' (y :: l) = some (m, s) →
            (best = some (m, s) ∨ ∃ (k : Nat) (x' y' : Item), m = i + k ∧ (x :: y :: l)[k]? = some x' ∧ (x :: y :: l)[k + 1]? = some y' ∧ sum x' y' = some s) ∧
            (∀ b, best = some b → s ≤ b.2) ∧
            ∀ (k : Nat) (x' y' : Item) (t : Int), (x :: y :: l)[k]? = some x' → (x :: y :: l)[k + 1]? = some y' → sum x' y' = some t → s ≤ t) ∧
          (pairLoop sum (i + 1) best' (y :: l) = none →
            best = none ∧ ∀ (k : Nat) (x' y' : Item), (x :: y :: l)[k]? = some x' → (x :: y :: l)[k + 1]? = some y' → sum x' y' = none) := by
        intro best' h1 h2 h3
        obtain ⟨ih1, ih2⟩ := ih (i + 1) best'
        constructor
        · intro m s h
          obtain ⟨a1, a2, a3⟩ := ih1 m s h
          refine ⟨?_, ?_, ?_⟩
          · rcases a1 with a1 | ⟨k, x', y', e, hx, hy, hs⟩
            · rcases h2 _ a1 with e | ⟨e1, e2⟩
              · exact .inl e
              · exact .inr ⟨0, x, y, e1, rfl, rfl, e2⟩
            · exact .inr ⟨k + 1, x', y', by omega, hx, hy, hs⟩
          · intro b hb
            obtain ⟨b', hb', hle⟩ := h1 b hb
            exact Int.le_trans (a2 b' hb') hle
          · intro k x' y' t hx hy hs
            cases k with
            | zero =>
              simp at hx hy
              subst hx; subst hy
              obtain ⟨b', hb', hle⟩ := h3 t hs
              exact Int.le_trans (a2 b' hb') hle
            | succ k => exact a3 k x' y' t hx hy hs
        · intro h
          obtain ⟨a1, a2⟩ := ih2 h
          refine ⟨?_, ?_⟩
          · cases hb : best with
            | none => rfl
            | some b => obtain ⟨b', hb', _⟩ := h1 b hb; rw [a1] at hb'; cases hb'
          · intro k x' y' hx hy
            cases k with
            | zero =>
              simp at hx hy
              subst hx; subst hy
              cases hs : sum x y with
              | none => rfl
              | some t => obtain ⟨b', hb', _⟩ := h3 t hs; rw [a1] at hb'; cases hb'
            | succ k => exact a2 k x' y' hx hy
      unfold pairLoop
      split
      · rename_i hs
        exact key best (fun b hb => ⟨b, hb, Int.le_refl _⟩) (fun b' hb => .inl hb) (fun t ht => by rw [hs] at ht; cases ht)
      · rename_i s hs
        split
        · exact key (some (i, s)) (fun b hb => by cases hb) (fun b' hb => .inr (by cases hb; exact ⟨rfl, hs⟩))
            (fun t ht => by rw [hs] at ht; cases ht; exact ⟨_, rfl, Int.le_refl _⟩)
        · rename_i b
          split
          · rename_i hlt
            exact key (some (i, s)) (fun b' hb => by cases hb; exact ⟨_, rfl, Int.le_of_lt hlt⟩)
              (fun b' hb => .inr (by cases hb; exact ⟨rfl, hs⟩))
              (fun t ht => by rw [hs] at ht; cases ht; exact ⟨_, rfl, Int.le_refl _⟩)
          · rename_i hlt
            exact key (some b) (fun b' hb => by cases hb; exact ⟨_, rfl, Int.le_refl _⟩)
              (fun b' hb => .inl hb)
              (fun t ht => by rw [hs] at ht; cases ht; exact ⟨_, rfl, by omega⟩)

theorem smallestPair_some {sum : Item → Item → Option Int} {v : List Item} {i j : Nat}
    (h : smallestPair sum v = some (i, j)) :
    j = i + 1 ∧ ∃ (x y : Item) (s : Int), v[i]? = some x ∧ v[i + 1]? = some y ∧ sum x y = some s ∧
      ∀ (k : Nat) (x' y' : Item) (t : Int), v[k]? = some x' → v[k + 1]? = some y' → sum x' y' = some t → s ≤ t := by
  unfold smallestPair at h
  split at h
  · cases h
  · rename_i b hb
    obtain ⟨h1, h2⟩ := Prod.mk.inj (Option.some.inj h)
    obtain ⟨a1, _, a3⟩ := (pairLoop_spec sum v 0 none).1 b.1 b.2 hb
    rcases a1 with a1 | ⟨k, x, y, e, hx, hy, hs⟩
    · cases a1
    · have : k = i := by omega
      subst this
      exact ⟨by omega, x, y, b.2, hx, hy, hs, a3⟩

theorem smallestPair_none {sum : Item → Item → Option Int} {v : List Item} (h : smallestPair sum v = none) :
    ∀ (k : Nat) (x y : Item), v[k]? = some x → v[k + 1]? = some y → sum x y = none := by
  unfold smallestPair at h
  split at h
  · rename_i hb
    exact ((pairLoop_spec sum v 0 none).2 hb).2
  · cases h

/-! ### The other finders -/

theorem strandedLoop_some : ∀ (l : List Item) (i p q : Nat), strandedLoop i l = some (p, q) →
    q = p ∧ ∃ (k : Nat) (x y z : Item), p = i + k + 1 ∧ l[k]? = some x ∧ l[k + 1]? = some y ∧ l[k + 2]? = some z ∧
      x.shard.kind = .hazel ∧ y.shard.kind = .fiver ∧ z.shard.kind = .hazel ∧ y.busy = false := by
  intro l
  induction l with
  | nil => intro i p q h; simp [strandedLoop] at h
  | cons x l ih =>
    intro i p q h
    match l, ih, h with
    | [], _, h => simp [strandedLoop] at h
    | [y], _, h => simp [strandedLoop] at h
    | y :: z :: l, ih, h =>
      unfold strandedLoop at h
      split at h
      · rename_i hc
        obtain ⟨h1, h2⟩ := Prod.mk.inj (Option.some.inj h)
        refine ⟨by omega, 0, x, y, z, by omega, rfl, rfl, rfl, hc.1, hc.2.1, hc.2.2.1, ?_⟩
        have := hc.2.2.2
        unfold Item.eligible at this
        simpa using this
      · obtain ⟨h1, k, x', y', z', e, hx, hy, hz, hh⟩ := ih _ _ _ h
        exact ⟨h1, k + 1, x', y', z', by omega, hx, hy, hz, hh⟩

theorem strandedLoop_none : ∀ (l : List Item) (i : Nat), strandedLoop i l = none →
    ∀ (k : Nat) (x y z : Item), l[k]? = some x → l[k + 1]? = some y → l[k + 2]? = some z →
      x.shard.kind = .hazel → y.shard.kind = .fiver → z.shard.kind = .hazel → y.busy = true := by
  intro l
  induction l with
  | nil => intro i h k x y z hx; simp at hx
  | cons x l ih =>
    intro i h k x' y' z' hx hy hz k1 k2 k3
    match l, ih, h, hx, hy, hz with
    | [], _, h, hx, hy, hz => simp at hy
    | [y], _, h, hx, hy, hz => simp at hz
    | y :: z :: l, ih, h, hx, hy, hz =>
      unfold strandedLoop at h
      split at h
      · cases h
      · rename_i hc
        cases k with
        | zero =>
          simp at hx hy hz
          subst hx; subst hy; subst hz
          cases hb : y.busy with
          | true => rfl
          | false => exact absurd ⟨k1, k2, k3, by simp [Item.eligible, hb]⟩ hc
        | succ k => exact ih _ h k x' y' z' hx hy hz k1 k2 k3

theorem largeLoop_some : ∀ (l : List Item) (i p q : Nat), largeLoop i l = some (p, q) →
    q = p ∧ ∃ (k : Nat) (x : Item), p = i + k ∧ l[k]? = some x ∧ x.fiver = true ∧ medium ≤ x.shard.size ∧
      ∀ (k' : Nat) (y : Item), k' < k → l[k']? = some y → ¬ (y.fiver = true ∧ medium ≤ y.shard.size) := by
  intro l
  induction l with
  | nil => intro i p q h; simp [largeLoop] at h
  | cons x l ih =>
    intro i p q h
    unfold largeLoop at h
    split at h
    · rename_i hc
      obtain ⟨h1, h2⟩ := Prod.mk.inj (Option.some.inj h)
      exact ⟨by omega, 0, x, by omega, rfl, hc.1, hc.2, fun k' y hk => by omega⟩
    · rename_i hc
      obtain ⟨h1, k, x', e, hx, hf, hs, hfirst⟩ := ih _ _ _ h
      refine ⟨h1, k + 1, x', by omega, hx, hf, hs, ?_⟩
      intro k' y hk hy
      cases k' with
      | zero => simp at hy; subst hy; exact hc
      | succ k' => exact hfirst k' y (by omega) hy

theorem largeLoop_none : ∀ (l : List Item) (i : Nat), largeLoop i l = none →
    ∀ x, x ∈ l → ¬ (x.fiver = true ∧ medium ≤ x.shard.size) := by
  intro l
  induction l with
  | nil => intro i h x hx; cases hx
  | cons x l ih =>
    intro i h y hy
    unfold largeLoop at h
    split at h
    · cases h
    · rename_i hc
      rcases List.mem_cons.1 hy with rfl | hy
      · exact hc
      · exact ih _ h y hy

/-- the number of fivers -/
def fivers (v : List Item) : Nat := (v.filter fun x => x.shard.kind = .fiver).length
def hazels (v : List Item) : Nat := (v.filter fun x => x.shard.kind = .hazel).length

theorem fivers_cons (x : Item) (l : List Item) : fivers (x :: l) = (if x.shard.kind = .fiver then 1 else 0) + fivers l := by
  unfold fivers
  rw [List.filter_cons]
  split
  · rename_i h; rw [if_pos (by simpa using h)]; simp; omega
  · rename_i h; rw [if_neg (by simpa using h)]; omega

theorem hazels_cons (x : Item) (l : List Item) : hazels (x :: l) = (if x.shard.kind = .hazel then 1 else 0) + hazels l := by
  unfold hazels
  rw [List.filter_cons]
  split
  · rename_i h; rw [if_pos (by simpa using h)]; simp; omega
  · rename_i h; rw [if_neg (by simpa using h)]; omega

theorem loneLoop_some : ∀ (l : List Item) (i : Nat) (s t : Lone), loneLoop i s l = some t →
    (∀ x, x ∈ l → x.shard.kind = .fiver ∨ x.shard.kind = .hazel) ∧
    t.hazels = s.hazels + hazels l ∧
    ((t.fiver = s.fiver ∧ fivers l = 0) ∨
      (s.fiver = none ∧ fivers l = 1 ∧ ∃ (k : Nat) (x : Item), l[k]? = some x ∧ x.shard.kind = .fiver ∧ t.fiver = some (i + k, !x.busy))) ∧
    (0 < s.hazels → t.smallest ≤ s.smallest) ∧
    (∀ x, x ∈ l → x.shard.kind = .hazel → t.smallest ≤ x.shard.size) := by
  intro l
  induction l with
  | nil =>
    intro i s t h
    unfold loneLoop at h
    cases h
    exact ⟨fun x hx => (by cases hx), by simp [hazels], .inl ⟨rfl, rfl⟩, fun _ => Int.le_refl _, fun x hx => (by cases hx)⟩
  | cons x l ih =>
    intro i s t h
    unfold loneLoop at h
    split at h
    · rename_i hk
      split at h
      · cases h
      · rename_i hs
        have hs : s.fiver = none := by cases hf : s.fiver <;> simp_all
        obtain ⟨a1, a2, a3, a4, a5⟩ := ih _ _ _ h
        refine ⟨?_, ?_, .inr ?_, a4, ?_⟩
        · intro y hy
          rcases List.mem_cons.1 hy with rfl | hy
          · exact .inl hk
          · exact a1 y hy
        · rw [hazels_cons, if_neg (by rw [hk]; decide)]; simp at a2; omega
        · rcases a3 with ⟨e, f⟩ | ⟨e, _⟩
          · refine ⟨hs, ?_, 0, x, rfl, hk, ?_⟩
            · rw [fivers_cons, if_pos hk, f]
            · rw [e]; rfl
          · cases e
        · intro y hy hy'
          rcases List.mem_cons.1 hy with rfl | hy
          · rw [hk] at hy'; cases hy'
          · exact a5 y hy hy'
    · rename_i hk
      obtain ⟨a1, a2, a3, a4, a5⟩ := ih _ _ _ h
      refine ⟨?_, ?_, ?_, ?_, ?_⟩
      · intro y hy
        rcases List.mem_cons.1 hy with rfl | hy
        · exact .inr hk
        · exact a1 y hy
      · rw [hazels_cons, if_pos hk]; simp at a2; omega
      · rcases a3 with ⟨e, f⟩ | ⟨e, f, k, y, hy, hy', ht⟩
        · exact .inl ⟨e, by rw [fivers_cons, if_neg (by rw [hk]; decide), f]⟩
        · exact .inr ⟨e, by rw [fivers_cons, if_neg (by rw [hk]; decide), f], k + 1, y, hy, hy', by rw [ht, Nat.add_right_comm, Nat.add_assoc]⟩
      · intro hp
        have := a4 (by simp)
        dsimp only at this
        split at this <;> omega
      · intro y hy hy'
        rcases List.mem_cons.1 hy with rfl | hy
        · have := a4 (by simp)
          dsimp only at this
          split at this <;> omega
        · exact a5 y hy hy'
    · cases h

/-- on a list of fivers and static shards with at most one fiver the loop ends -/
theorem loneLoop_ends : ∀ (l : List Item) (i : Nat) (s : Lone),
    (∀ x, x ∈ l → x.shard.kind = .fiver ∨ x.shard.kind = .hazel) →
    (if s.fiver.isSome then 1 else 0) + fivers l ≤ 1 → (loneLoop i s l).isSome := by
  intro l
  induction l with
  | nil => intros; rfl
  | cons x l ih =>
    intro i s hk hn
    unfold loneLoop
    rw [fivers_cons] at hn
    have hl := fun y hy => hk y (List.mem_cons_of_mem _ hy)
    rcases hk x (List.mem_cons_self ..) with h | h
    · rw [h]
      simp only [h, if_true] at hn
      cases hf : s.fiver with
      | some f => rw [hf] at hn; simp only [Option.isSome_some, if_true] at hn; omega
      | none =>
        simp only [Option.isSome_none, Bool.false_eq_true, if_false]
        exact ih _ _ hl (by simp only [Option.isSome_some, if_true]; omega)
    · rw [h]
      simp only [h, reduceCtorEq, if_false, Nat.zero_add] at hn
      exact ih _ _ hl hn

theorem findLone_some {v : List Item} {i j : Nat} (h : findLone v = some (i, j)) :
    j = i ∧ ∃ x : Item, v[i]? = some x ∧ x.fiver = true ∧ fivers v = 1 ∧
      (∀ y, y ∈ v → y.shard.kind = .fiver ∨ y.shard.kind = .hazel) ∧
      (hazels v = 1 ∨ (1 < hazels v ∧ ∀ y, y ∈ v → y.shard.kind = .hazel → large < y.shard.size)) := by
  unfold findLone at h
  split at h
  · cases h
  · rename_i s hs
    split at h
    · rename_i i' hf
      split at h
      · rename_i hc
        obtain ⟨h1, h2⟩ := Prod.mk.inj (Option.some.inj h)
        obtain ⟨a1, a2, a3, _, a5⟩ := loneLoop_some v 0 _ s hs
        rcases a3 with ⟨e, _⟩ | ⟨_, hn, k, x, hx, hxk, ht⟩
        · rw [hf] at e; cases e
        · rw [hf] at ht
          obtain ⟨e1, e2⟩ := Prod.mk.inj (Option.some.inj ht)
          have ek : k = i := by omega
          subst ek
          refine ⟨by omega, x, hx, ?_, hn, a1, ?_⟩
          · simp only [Item.fiver, Item.eligible]; simp [← e2, hxk]
          · simp at a2
            rcases hc with hc | ⟨hc, hl⟩
            · left; omega
            · right
              exact ⟨by omega, fun y hy hk => by have := a5 y hy hk; omega⟩
      · cases h
    · cases h

/-- The last case is decided on a list with nothing else in it. -/
theorem findLone_pair {v : List Item} (hk : ∀ x, x ∈ v → x.shard.kind = .fiver ∨ x.shard.kind = .hazel)
    (hf : fivers v = 1) (hh : hazels v = 1) (hb : ∀ x, x ∈ v → x.busy = false) : (findLone v).isSome := by
  unfold findLone
  have he := loneLoop_ends v 0 ⟨none, 0, 0⟩ hk (by simp [hf])
  split
  · rename_i hs; rw [hs] at he; cases he
  · rename_i s hs
    obtain ⟨a1, a2, a3, _, _⟩ := loneLoop_some v 0 _ s hs
    rcases a3 with ⟨_, e⟩ | ⟨_, _, k, x, hx, hxk, ht⟩
    · omega
    · rw [ht, hb x (List.mem_of_getElem? hx)]
      simp only [Bool.not_false]
      rw [if_pos (.inl (by simp at a2; omega))]
      rfl

theorem matchAt_iff : ∀ (ss : List FName) (l : List Item), matchAt ss l = true ↔
    ss.length ≤ l.length ∧ (∀ x, x ∈ l.take ss.length → x.hazel = true) ∧
      (l.take ss.length).map (fun x => (x.shard.lo, x.shard.hi)) = ss.map fun s => (s.lo, s.hi) := by
  intro ss
  induction ss with
  | nil => intro l; simp [matchAt]
  | cons s ss ih =>
    intro l
    cases l with
    | nil => simp [matchAt]
    | cons x l =>
      unfold matchAt
      rw [Bool.and_eq_true, Bool.and_eq_true, ih]
      simp only [List.length_cons, List.take_succ_cons, List.map_cons, List.mem_cons, List.cons.injEq, Prod.mk.injEq]
      constructor
      · rintro ⟨⟨h1, h2⟩, h3, h4, h5⟩
        simp at h2
        refine ⟨by omega, ?_, ⟨h2.1.symm, h2.2.symm⟩, h5⟩
        rintro y (rfl | hy)
        · exact h1
        · exact h4 y hy
      · rintro ⟨h1, h2, ⟨h3, h4⟩, h5⟩
        refine ⟨⟨h2 x (.inl rfl), by simp [h3, h4]⟩, by omega, fun y hy => h2 y (.inr hy), h5⟩

theorem matchLoop_some (ss : List FName) : ∀ (l : List Item) (i p q : Nat), matchLoop ss i l = some (p, q) →
    q = p + ss.length - 1 ∧ ∃ k, p = i + k ∧ matchAt ss (l.drop k) = true := by
  intro l
  induction l with
  | nil => intro i p q h; simp [matchLoop] at h
  | cons x l ih =>
    intro i p q h
    unfold matchLoop at h
    split at h
    · rename_i hm
      obtain ⟨h1, h2⟩ := Prod.mk.inj (Option.some.inj h)
      exact ⟨by omega, 0, by omega, hm⟩
    · obtain ⟨h1, k, h2, h3⟩ := ih _ _ _ h
      exact ⟨h1, k + 1, by omega, h3⟩

theorem matchLoop_none (ss : List FName) (hss : ss ≠ []) : ∀ (l : List Item) (i : Nat), matchLoop ss i l = none →
    ∀ k, matchAt ss (l.drop k) = false := by
  intro l
  induction l with
  | nil =>
    intro i _ k
    rw [List.drop_nil]
    cases ss with
    | nil => exact absurd rfl hss
    | cons s ss => rfl
  | cons x l ih =>
    intro i h k
    unfold matchLoop at h
    split at h
    · cases h
    · rename_i hm
      cases k with
      | zero => simpa using hm
      | succ k => exact ih _ h k

theorem findRecovered_some : ∀ (recs : List Recovery) (v : List Item) (i j : Nat), findRecovered recs v = some (i, j) →
    ∃ r, r ∈ recs ∧ 2 ≤ r.sources.length ∧ j + 1 = i + r.sources.length ∧ matchAt r.sources (v.drop i) = true := by
  intro recs
  induction recs with
  | nil => intro v i j h; simp [findRecovered] at h
  | cons r recs ih =>
    intro v i j h
    unfold findRecovered at h
    split at h
    · obtain ⟨r', h1, h2⟩ := ih v i j h
      exact ⟨r', List.mem_cons_of_mem _ h1, h2⟩
    · rename_i hl
      split at h
      · rename_i p hp
        obtain ⟨h1, k, h2, h3⟩ := matchLoop_some _ _ _ _ _ (hp.trans h)
        have : k = i := by omega
        subst this
        exact ⟨r, List.mem_cons_self .., by omega, by omega, h3⟩
      · obtain ⟨r', h1, h2⟩ := ih v i j h
        exact ⟨r', List.mem_cons_of_mem _ h1, h2⟩

theorem findRecovered_none : ∀ (recs : List Recovery) (v : List Item), findRecovered recs v = none →
    ∀ r, r ∈ recs → 2 ≤ r.sources.length → ∀ k, matchAt r.sources (v.drop k) = false := by
  intro recs
  induction recs with
  | nil => intro v h r hr; cases hr
  | cons r recs ih =>
    intro v h r' hr hl k
    unfold findRecovered at h
    split at h
    · rename_i hlt
      rcases List.mem_cons.1 hr with rfl | hr
      · omega
      · exact ih v h r' hr hl k
    · split at h
      · cases h
      · rename_i hm
        rcases List.mem_cons.1 hr with rfl | hr
        · exact matchLoop_none _ (fun e => by rw [e] at hl; simp at hl) _ _ hm k
        · exact ih v h r' hr hl k

/-! ### Marking -/

theorem view_cons (b : Block) (bs : List Block) : view (b :: bs) = b.items ++ view bs := rfl
theorem view_append (a b : List Block) : view (a ++ b) = view a ++ view b := by simp [view]

theorem items_shards (b : Block) : b.items.map (·.shard) = b.shards := by
  cases b with
  | free s => rfl
  | busy j l =>
    show (l.map _).map _ = l
    rw [List.map_map]
    exact List.map_id' l

/-- free shards at the head of the view are free blocks -/
theorem view_free : ∀ (n : Nat) (bs : List Block), (∀ x, x ∈ (view bs).take n → x.busy = false) → n ≤ (view bs).length →
    (∀ b ∈ bs, b.shards ≠ []) →
    (bs.take n).flatMap Block.shards = ((view bs).take n).map (·.shard) ∧ view (bs.drop n) = (view bs).drop n ∧
      ∃ ss : List Shard, bs.take n = ss.map Block.free := by
  intro n
  induction n with
  | zero => intro bs _ _ _; exact ⟨by simp, by simp, [], by simp⟩
  | succ n ih =>
    intro bs h hl hne
    cases bs with
    | nil => simp [view] at hl
    | cons b bs =>
      cases b with
      | busy j l =>
        have hne0 := hne (.busy j l) (List.mem_cons_self ..)
        simp only [Block.shards] at hne0
        cases l with
        | nil => exact absurd rfl hne0
        | cons s l =>
          have := h ⟨s, true⟩ (by simp [view_cons, Block.items])
          cases this
      | free s =>
        have hv : view (.free s :: bs) = ⟨s, false⟩ :: view bs := rfl
        rw [hv] at h hl ⊢
        simp only [List.take_succ_cons, List.mem_cons, List.length_cons] at h hl
        obtain ⟨h1, h2, ss, h3⟩ := ih bs (fun x hx => h x (.inr hx)) (by omega) (fun b hb => hne b (List.mem_cons_of_mem _ hb))
        simp only [List.take_succ_cons, List.drop_succ_cons, List.map_cons, List.flatMap_cons]
        exact ⟨by rw [h1]; rfl, h2, s :: ss, by rw [h3]; rfl⟩

/-- Marking shards that are free takes the blocks of just those shards. -/
theorem mark_spec (job : Job) (n : Nat) (hn : 0 < n) : ∀ (bs : List Block) (i : Nat),
    (∀ x, x ∈ ((view bs).drop i).take n → x.busy = false) → i + n ≤ (view bs).length → (∀ b ∈ bs, b.shards ≠ []) →
    ∃ (pre : List Block) (ss : List Shard) (post : List Block), bs = pre ++ ss.map Block.free ++ post ∧ mark job n i bs = pre ++ .busy job ss :: post ∧
      ss = (((view bs).drop i).take n).map (·.shard) ∧ view pre = (view bs).take i ∧ view post = (view bs).drop (i + n) := by
  intro bs
  induction bs with
  | nil => intro i _ h _; simp [view] at h; omega
  | cons b bs ih =>
    intro i h hl hne
    cases i with
    | zero =>
      rw [List.drop_zero] at h
      obtain ⟨h1, h2, ss, h3⟩ := view_free n (b :: bs) h (by omega) hne
      have hss : (ss.map Block.free).flatMap Block.shards = ss := by
        clear h3
        induction ss with
        | nil => rfl
        | cons s ss ih => simp only [List.map_cons, List.flatMap_cons, ih]; rfl
      refine ⟨[], ss, (b :: bs).drop n, ?_, ?_, ?_, rfl, ?_⟩
      · rw [← h3]; simp
      · unfold mark
        rw [h3, hss]; rfl
      · rw [List.drop_zero, ← h1, h3, hss]
      · rw [h2]; simp
    | succ i =>
      have hne' : ∀ b ∈ bs, b.shards ≠ [] := fun b hb => hne b (List.mem_cons_of_mem _ hb)
      cases b with
      | free s =>
        have hv : view (.free s :: bs) = ⟨s, false⟩ :: view bs := rfl
        rw [hv] at h hl ⊢
        simp only [List.drop_succ_cons, List.length_cons] at h hl
        obtain ⟨pre, ss, post, h1, h2, h3, h4, h5⟩ := ih i h (by omega) hne'
        refine ⟨.free s :: pre, ss, post, by rw [h1]; rfl, ?_, by simpa using h3, ?_, ?_⟩
        · unfold mark; rw [h2]; rfl
        · rw [view_cons, h4]; rfl
        · rw [h5, Nat.add_right_comm]; rfl
      | busy j l =>
        have hv : view (.busy j l :: bs) = l.map (⟨·, true⟩) ++ view bs := rfl
        have hle : l.length ≤ i + 1 := by
          apply Classical.byContradiction; intro hlt
          have hx : i + 1 < l.length := by omega
          have : (⟨l[i + 1], true⟩ : Item) ∈ ((view (.busy j l :: bs)).drop (i + 1)).take n := by
            rw [hv]
            apply List.mem_of_getElem? (i := 0)
            rw [List.getElem?_take]
            rw [if_pos hn, List.getElem?_drop, List.getElem?_append_left (by simp; omega)]
            simp [hx]
          cases h _ this
        have hll : (l.map fun s => (⟨s, true⟩ : Item)).length = l.length := List.length_map ..
        rw [hv] at h hl ⊢
        rw [List.length_append, hll] at hl
        rw [List.drop_append, List.drop_of_length_le (by omega), List.nil_append, hll] at h ⊢
        obtain ⟨pre, ss, post, h1, h2, h3, h4, h5⟩ := ih (i + 1 - l.length) h (by omega) hne'
        refine ⟨.busy j l :: pre, ss, post, by rw [h1]; rfl, ?_, h3, ?_, ?_⟩
        · unfold mark; rw [h2]; rfl
        · rw [view_cons, h4, List.take_append, List.take_of_length_le (l := l.map fun s => (⟨s, true⟩ : Item)) (by omega), hll]; rfl
        · rw [h5, List.drop_append, List.drop_of_length_le (l := l.map fun s => (⟨s, true⟩ : Item)) (by omega), hll, List.nil_append]
          congr 1; omega

/-! ### What is chosen -/

theorem choose_some {disk : Bool} {max : Nat} {recs : List Recovery} {v : List Item} {c : Choice}
    (h : choose disk max recs v = some c) :
    0 < c.sel.length ∧ c.start + c.sel.length ≤ v.length ∧ c.sel = (v.drop c.start).take c.sel.length ∧
      (∀ x, x ∈ c.sel → x.busy = false) ∧ validate disk c.sel = some c.job ∧
      findAction max recs v = some (c.start, c.start + c.sel.length - 1) := by
  unfold choose at h
  split at h
  · cases h
  · rename_i i j hf
    split at h
    · cases h
    · rename_i hr
      simp only [] at h
      split at h
      · cases h
      · rename_i hb
        cases hv : validate disk ((v.drop i).take (j - i + 1)) with
        | none => rw [hv] at h; cases h
        | some job =>
          rw [hv] at h
          cases h
          have hl : ((v.drop i).take (j - i + 1)).length = j - i + 1 := by
            rw [List.length_take, List.length_drop]; omega
          refine ⟨by dsimp only; omega, by dsimp only; omega, by dsimp only; rw [hl], ?_, hv, ?_⟩
          · intro x hx
            cases hbx : x.busy with
            | false => rfl
            | true => exact absurd (List.any_eq_true.2 ⟨x, hx, hbx⟩) hb
          · dsimp only
            rw [hl, hf]
            congr 2; omega

theorem validate_convert {disk : Bool} {sel : List Item} (h : validate disk sel = some .convert) :
    ∃ x, sel = [x] ∧ x.fiver = true := by
  unfold validate at h
  split at h
  · rename_i hc
    match sel, hc with
    | [x], hc => exact ⟨x, rfl, by simpa using hc.2⟩
  · split at h
    · cases h
    · split at h <;> cases h

theorem validate_fiverMerge {disk : Bool} {sel : List Item} (h : validate disk sel = some .fiverMerge) :
    2 ≤ sel.length ∧ ∀ x, x ∈ sel → x.fiver = true := by
  unfold validate at h
  split at h
  · cases h
  · split at h
    · rename_i hc
      exact ⟨hc.1, List.all_eq_true.1 hc.2⟩
    · split at h <;> cases h

theorem validate_hazelMerge {disk : Bool} {sel : List Item} (h : validate disk sel = some .hazelMerge) :
    disk = true ∧ 2 ≤ sel.length ∧ (∀ x, x ∈ sel → x.hazel = true) ∧ sequential none (sel.map (·.shard)) = true := by
  unfold validate at h
  split at h
  · cases h
  · split at h
    · cases h
    · split at h
      · rename_i hc
        exact ⟨hc.1, hc.2.1, List.all_eq_true.1 hc.2.2.1, hc.2.2.2⟩
      · cases h

theorem validate_one {disk : Bool} {x : Item} (h : x.fiver = true) : validate disk [x] = some .convert := by
  unfold validate; rw [if_pos]; simp [h]

theorem validate_fivers {disk : Bool} {sel : List Item} (h : 2 ≤ sel.length) (hf : ∀ x, x ∈ sel → x.fiver = true) :
    validate disk sel = some .fiverMerge := by
  unfold validate
  rw [if_neg (by omega), if_pos ⟨h, List.all_eq_true.2 hf⟩]

theorem validate_hazels {sel : List Item} (h : 2 ≤ sel.length) (hf : ∀ x, x ∈ sel → x.hazel = true)
    (hs : sequential none (sel.map (·.shard)) = true) : validate true sel = some .hazelMerge := by
  unfold validate
  have : sel.all (·.fiver) = false := by
    match sel, h with
    | x :: l, _ =>
      have hx := hf x (List.mem_cons_self ..)
      unfold Item.hazel at hx
      simp at hx
      simp [Item.fiver, hx.2]
  rw [if_neg (by simp [this]), if_neg (by simp [this]), if_pos ⟨rfl, h, List.all_eq_true.2 hf, hs⟩]

theorem Item.fiver_iff (x : Item) : x.fiver = true ↔ x.busy = false ∧ x.shard.kind = .fiver := by
  simp [Item.fiver, Item.eligible]
theorem Item.hazel_iff (x : Item) : x.hazel = true ↔ x.busy = false ∧ x.shard.kind = .hazel := by
  simp [Item.hazel, Item.eligible]

theorem fiverSum_some {x y : Item} {s : Int} (h : fiverSum x y = some s) :
    x.fiver = true ∧ y.fiver = true ∧ 0 ≤ x.shard.size ∧ 0 ≤ y.shard.size ∧ x.shard.size < medium ∧ y.shard.size < medium ∧
      s = x.shard.size + y.shard.size := by
  unfold fiverSum at h
  split at h
  · cases h
  · rename_i h1
    split at h
    · cases h
    · rename_i h2
      simp at h1 h2
      cases h
      exact ⟨h1.1, h1.2, by omega, by omega, by omega, by omega, rfl⟩

theorem fiverSum_eq {x y : Item} (hx : x.fiver = true) (hy : y.fiver = true) (h1 : 0 ≤ x.shard.size) (h2 : 0 ≤ y.shard.size)
    (h3 : x.shard.size < medium) (h4 : y.shard.size < medium) : fiverSum x y = some (x.shard.size + y.shard.size) := by
  unfold fiverSum
  rw [if_neg (by simp [hx, hy]), if_neg]
  simp
  omega

theorem hazelSum_some {x y : Item} {s : Int} (h : hazelSum x y = some s) :
    x.hazel = true ∧ y.hazel = true ∧ 0 ≤ x.shard.size ∧ 0 ≤ y.shard.size ∧ s = x.shard.size + y.shard.size := by
  unfold hazelSum at h
  split at h
  · rename_i h1
    simp at h1
    cases h
    exact ⟨h1.1.1.1, h1.1.1.2, h1.1.2, h1.2, rfl⟩
  · cases h

theorem hazelSum_eq {x y : Item} (hx : x.hazel = true) (hy : y.hazel = true) (h1 : 0 ≤ x.shard.size) (h2 : 0 ≤ y.shard.size) :
    hazelSum x y = some (x.shard.size + y.shard.size) := by
  unfold hazelSum
  rw [if_pos]
  simp [hx, hy, h1, h2]

theorem take_two {v : List Item} {i : Nat} {x y : Item} (hx : v[i]? = some x) (hy : v[i + 1]? = some y) :
    (v.drop i).take 2 = [x, y] := by
  obtain ⟨h1, e1⟩ := List.getElem?_eq_some_iff.1 hx
  obtain ⟨h2, e2⟩ := List.getElem?_eq_some_iff.1 hy
  rw [List.drop_eq_getElem_cons h1, List.drop_eq_getElem_cons h2, e1, e2]
  rfl

theorem take_one {v : List Item} {i : Nat} {x : Item} (hx : v[i]? = some x) : (v.drop i).take 1 = [x] := by
  obtain ⟨h1, e1⟩ := List.getElem?_eq_some_iff.1 hx
  rw [List.drop_eq_getElem_cons h1, e1]
  rfl

/-- choosing in terms of what was found -/
theorem choose_of {disk : Bool} {max : Nat} {recs : List Recovery} {v : List Item} {i n : Nat} {job : Job}
    (hf : findAction max recs v = some (i, i + n - 1)) (hn : 0 < n) (hl : i + n ≤ v.length)
    (hb : ∀ x, x ∈ (v.drop i).take n → x.busy = false) (hv : validate disk ((v.drop i).take n) = some job) :
    choose disk max recs v = some ⟨job, i, (v.drop i).take n⟩ := by
  unfold choose
  rw [hf]
  simp only []
  have e : i + n - 1 - i + 1 = n := by omega
  rw [if_neg (by omega), e, if_neg, hv]
  · rfl
  · intro h
    obtain ⟨x, hx, hb'⟩ := List.any_eq_true.1 h
    rw [hb x hx] at hb'
    cases hb'

/-! ### A settled list -/

theorem sequential_chain : ∀ (l : List Shard) (p : Option Nat), (∀ s ∈ l, s.lo ≤ s.hi) → (∀ s ∈ l, s.hi < top) →
    (∀ (k : Nat) (x y : Shard), l[k]? = some x → l[k + 1]? = some y → y.lo = x.hi + 1) →
    (∀ q, p = some q → q < top ∧ ∀ s, l.head? = some s → s.lo = q + 1) → sequential p l = true := by
  intro l
  induction l with
  | nil => intros; rfl
  | cons s l ih =>
    intro p h1 h2 h3 h4
    unfold sequential
    rw [Bool.and_eq_true, Bool.and_eq_true]
    refine ⟨⟨by simpa using h1 s (List.mem_cons_self ..), ?_⟩, ?_⟩
    · cases p with
      | none => rfl
      | some q =>
        obtain ⟨h5, h6⟩ := h4 q rfl
        have := h6 s rfl
        simp; omega
    · refine ih _ (fun s hs => h1 s (List.mem_cons_of_mem _ hs)) (fun s hs => h2 s (List.mem_cons_of_mem _ hs))
        (fun k x y hx hy => h3 (k + 1) x y hx hy) ?_
      intro q hq
      cases hq
      refine ⟨h2 s (List.mem_cons_self ..), fun s' hs' => ?_⟩
      refine h3 0 s s' rfl ?_
      cases l with
      | nil => cases hs'
      | cons a l => simpa using hs'

/-- the shards of a list cover the numbers from `a` up to `b`, in order and without a gap -/
def Tiles : Nat → List Shard → Nat → Prop
  | a, [], b => a = b
  | a, s :: l, b => s.lo = a ∧ s.lo ≤ s.hi ∧ Tiles (s.hi + 1) l b

theorem tiles_append : ∀ (l l' : List Shard) (a b : Nat), Tiles a (l ++ l') b ↔ ∃ m, Tiles a l m ∧ Tiles m l' b := by
  intro l
  induction l with
  | nil => intro l' a b; simp [Tiles]
  | cons s l ih =>
    intro l' a b
    simp only [List.cons_append, Tiles, ih]
    constructor
    · rintro ⟨h1, h2, m, h3, h4⟩; exact ⟨m, ⟨h1, h2, h3⟩, h4⟩
    · rintro ⟨m, ⟨h1, h2, h3⟩, h4⟩; exact ⟨h1, h2, m, h3, h4⟩

theorem tiles_le : ∀ (l : List Shard) (a b : Nat), Tiles a l b → a ≤ b := by
  intro l
  induction l with
  | nil => intro a b h; simp [Tiles] at h; omega
  | cons s l ih => intro a b h; have := ih _ _ h.2.2; have := h.1; have := h.2.1; omega

theorem tiles_mem : ∀ (l : List Shard) (a b : Nat), Tiles a l b → ∀ s ∈ l, s.lo ≤ s.hi ∧ s.hi < b := by
  intro l
  induction l with
  | nil => intro a b h s hs; cases hs
  | cons x l ih =>
    intro a b h s hs
    rcases List.mem_cons.1 hs with rfl | hs
    · exact ⟨h.2.1, by have := tiles_le _ _ _ h.2.2; omega⟩
    · exact ih _ _ h.2.2 s hs

theorem tiles_next : ∀ (l : List Shard) (a b : Nat), Tiles a l b →
    ∀ (k : Nat) (x y : Shard), l[k]? = some x → l[k + 1]? = some y → y.lo = x.hi + 1 := by
  intro l
  induction l with
  | nil => intro a b h k x y hx; simp at hx
  | cons s l ih =>
    intro a b h k x y hx hy
    cases k with
    | zero =>
      cases l with
      | nil => simp at hy
      | cons s' l => simp at hx hy; subst hx; subst hy; exact h.2.2.1
    | succ k => exact ih _ _ h.2.2 k x y hx hy

theorem tiles_output {l : List Shard} {a b : Nat} {n : Int} (job : Job) (h : Tiles a l b) (hl : l ≠ []) :
    Tiles a [output job l n] b := by
  obtain ⟨s, l', rfl⟩ := List.exists_cons_of_ne_nil hl
  have hlo : (output job (s :: l') n).lo = a := h.1
  obtain ⟨pre, z, hz⟩ : ∃ pre z, s :: l' = pre ++ [z] := ⟨_, _, (List.dropLast_concat_getLast hl).symm⟩
  have hhi : (output job (s :: l') n).hi + 1 = b := by
    rw [hz] at h ⊢
    obtain ⟨m, _, h3⟩ := (tiles_append _ _ _ _).1 h
    show (match (pre ++ [z]).getLast? with | some s => s.hi | none => 0) + 1 = b
    rw [List.getLast?_append]
    exact h3.2.2
  refine ⟨hlo, ?_, hhi⟩
  have := tiles_le _ _ _ h
  have h1 := h.2.1
  have h2 := tiles_le _ _ _ h.2.2
  have := h.1
  omega

theorem okay_of {max : Nat} {v : List Item} (hm : 2 ≤ max) (hb : ∀ x, x ∈ v → x.busy = false) : hazelOkay max v = true := by
  unfold hazelOkay
  have : v.filter (fun x => x.busy && x.shard.kind = .hazel) = [] := by
    apply List.filter_eq_nil_iff.2
    intro x hx
    simp [hb x hx]
  rw [this]
  simp; omega

/-- what is left when nothing can be chosen: no two neighbours of one kind, no static shard on
both sides of a fiver, no large fiver, and not one fiver with one static shard -/
theorem choose_none {max : Nat} {recs : List Recovery} {v : List Item} (hm : 2 ≤ max)
    (hb : ∀ x, x ∈ v → x.busy = false) (hs : ∀ x, x ∈ v → 0 ≤ x.shard.size)
    (hlo : ∀ x, x ∈ v → x.shard.lo ≤ x.shard.hi) (hhi : ∀ x, x ∈ v → x.shard.hi < top)
    (hadj : ∀ (k : Nat) (x y : Item), v[k]? = some x → v[k + 1]? = some y → y.shard.lo = x.shard.hi + 1)
    (h : choose true max recs v = none) :
    findLone v = none ∧ (∀ x, x ∈ v → x.shard.kind = .fiver → x.shard.size < medium) ∧
    (∀ (k : Nat) (x y : Item), v[k]? = some x → v[k + 1]? = some y → ¬ (x.shard.kind = .fiver ∧ y.shard.kind = .fiver)) ∧
    (∀ (k : Nat) (x y : Item), v[k]? = some x → v[k + 1]? = some y → ¬ (x.shard.kind = .hazel ∧ y.shard.kind = .hazel)) ∧
    (∀ (k : Nat) (x y z : Item), v[k]? = some x → v[k + 1]? = some y → v[k + 2]? = some z →
      ¬ (x.shard.kind = .hazel ∧ y.shard.kind = .fiver ∧ z.shard.kind = .hazel)) := by
  have hsel : ∀ {i n : Nat} {x : Item}, x ∈ (v.drop i).take n → x ∈ v := fun hx => List.mem_of_mem_drop (List.mem_of_mem_take hx)
  have one : ∀ {i : Nat} {x : Item}, v[i]? = some x → x.fiver = true → findAction max recs v = some (i, i) → False := by
    intro i x hx hf ha
    have hl := (List.getElem?_eq_some_iff.1 hx).1
    have := choose_of (disk := true) (n := 1) (job := .convert) (i := i) (by simpa using ha) (by omega) (by omega)
      (fun x hx => hb x (hsel hx)) (by rw [take_one hx]; exact validate_one hf)
    rw [this] at h; cases h
  -- nothing is found
  have a1 : findLone v = none := by
    cases e : findLone v with
    | none => rfl
    | some p =>
      obtain ⟨i, j⟩ := p
      obtain ⟨rfl, x, hx, hf, _⟩ := findLone_some e
      exact (one hx hf (by unfold findAction findFiver; rw [e]; rfl)).elim
  have a2 : findTiny v = none := by
    cases e : findTiny v with
    | none => rfl
    | some p =>
      obtain ⟨i, j⟩ := p
      obtain ⟨n, hn, hj, hr, _⟩ := findSequence_some e
      exfalso
      have hl := isRun_le (by omega) hr
      rw [List.length_map] at hl
      have hall : ∀ x, x ∈ (v.drop i).take n → x.fiver = true := by
        intro x hx
        obtain ⟨k, hk⟩ := List.getElem?_of_mem hx
        rw [List.getElem?_take] at hk
        split at hk
        · rename_i hkn
          rw [List.getElem?_drop] at hk
          have := hr (i + k) (by omega) (by omega)
          rw [List.getElem?_map, hk] at this
          simp at this
          exact this.1
        · cases hk
      have := choose_of (disk := true) (n := n) (job := .fiverMerge) (i := i) (v := v) (recs := recs) (max := max)
        (by unfold findAction findFiver; rw [a1, e]; simp only [Option.or]; congr 2; omega)
        (by omega) (by omega) (fun x hx => hb x (hsel hx))
        (validate_fivers (by rw [List.length_take, List.length_drop]; omega) hall)
      rw [this] at h; cases h
  have a3 : findStranded v = none := by
    cases e : findStranded v with
    | none => rfl
    | some p =>
      obtain ⟨i, j⟩ := p
      obtain ⟨rfl, k, x, y, z, hi, hx, hy, hz, hk1, hk2, hk3, hyb⟩ := strandedLoop_some _ _ _ _ e
      have : j = k + 1 := by omega
      subst this
      exact (one hy ((Item.fiver_iff y).2 ⟨hyb, hk2⟩) (by unfold findAction findFiver; rw [a1, a2, e]; rfl)).elim
  have a4 : findLarge v = none := by
    cases e : findLarge v with
    | none => rfl
    | some p =>
      obtain ⟨i, j⟩ := p
      obtain ⟨rfl, k, x, hi, hx, hf, _⟩ := largeLoop_some _ _ _ _ e
      have : j = k := by omega
      subst this
      exact (one hx hf (by unfold findAction findFiver; rw [a1, a2, a3, e]; rfl)).elim
  have two : ∀ {i : Nat} {x y : Item} {job : Job}, v[i]? = some x → v[i + 1]? = some y → validate true [x, y] = some job →
      findAction max recs v = some (i, i + 1) → False := by
    intro i x y job hx hy hv ha
    have hl := (List.getElem?_eq_some_iff.1 hy).1
    have := choose_of (disk := true) (n := 2) (job := job) (i := i) (by simpa using ha) (by omega) (by omega)
      (fun x hx => hb x (hsel hx)) (by rw [take_two hx hy]; exact hv)
    rw [this] at h; cases h
  have a5 : findFiverPair v = none := by
    cases e : findFiverPair v with
    | none => rfl
    | some p =>
      obtain ⟨i, j⟩ := p
      obtain ⟨rfl, x, y, s, hx, hy, hsum, _⟩ := smallestPair_some e
      obtain ⟨f1, f2, _⟩ := fiverSum_some hsum
      refine (two hx hy (validate_fivers (by simp) ?_) (by unfold findAction findFiver; rw [a1, a2, a3, a4, e]; rfl)).elim
      intro z hz
      simp at hz
      rcases hz with rfl | rfl <;> assumption
  have af : findFiver v = none := by unfold findFiver; rw [a1, a2, a3, a4, a5]; rfl
  have hok := okay_of hm hb
  have seq : ∀ i n, sequential none (((v.drop i).take n).map (·.shard)) = true := by
    intro i n
    refine sequential_chain _ none ?_ ?_ ?_ (fun q hq => by cases hq)
    · intro s hs'
      obtain ⟨x, hx, rfl⟩ := List.mem_map.1 hs'
      exact hlo x (hsel hx)
    · intro s hs'
      obtain ⟨x, hx, rfl⟩ := List.mem_map.1 hs'
      exact hhi x (hsel hx)
    · intro k x y hx hy
      rw [List.getElem?_map] at hx hy
      cases hx' : ((v.drop i).take n)[k]? with
      | none => rw [hx'] at hx; cases hx
      | some x' =>
        cases hy' : ((v.drop i).take n)[k + 1]? with
        | none => rw [hy'] at hy; cases hy
        | some y' =>
          rw [hx'] at hx; rw [hy'] at hy
          cases hx; cases hy
          rw [List.getElem?_take] at hx' hy'
          split at hx'
          · split at hy'
            · rw [List.getElem?_drop] at hx' hy'
              exact hadj (i + k) x' y' hx' hy'
            · cases hy'
          · cases hx'
  have a6 : findRecovered recs v = none := by
    cases e : findRecovered recs v with
    | none => rfl
    | some p =>
      obtain ⟨i, j⟩ := p
      obtain ⟨r, _, hl, hj, hmat⟩ := findRecovered_some _ _ _ _ e
      obtain ⟨m1, m2, _⟩ := (matchAt_iff _ _).1 hmat
      rw [List.length_drop] at m1
      have := choose_of (disk := true) (n := r.sources.length) (job := .hazelMerge) (i := i) (v := v) (recs := recs) (max := max)
        (by unfold findAction findHazel; rw [af, hok, e]; simp only [Option.or, if_true]; congr 2; omega)
        (by omega) (by omega) (fun x hx => hb x (hsel hx))
        (validate_hazels (by rw [List.length_take, List.length_drop]; omega) m2 (seq _ _))
      rw [this] at h; cases h
  have a7 : findHazelPair v = none := by
    cases e : findHazelPair v with
    | none => rfl
    | some p =>
      obtain ⟨i, j⟩ := p
      obtain ⟨rfl, x, y, s, hx, hy, hsum, _⟩ := smallestPair_some e
      obtain ⟨f1, f2, _⟩ := hazelSum_some hsum
      refine (two hx hy (validate_hazels (by simp) ?_ (by rw [← take_two hx hy]; exact seq _ _))
        (by unfold findAction findHazel; rw [af, hok, a6, e]; rfl)).elim
      intro z hz
      simp at hz
      rcases hz with rfl | rfl <;> assumption
  have hsmall : ∀ x, x ∈ v → x.shard.kind = .fiver → x.shard.size < medium := by
    intro x hx hk
    have := largeLoop_none _ _ a4 x hx
    apply Classical.byContradiction; intro hn
    exact this ⟨(Item.fiver_iff x).2 ⟨hb x hx, hk⟩, by omega⟩
  refine ⟨a1, hsmall, ?_, ?_, ?_⟩
  · rintro k x y hx hy ⟨k1, k2⟩
    have mx := List.mem_of_getElem? hx
    have my := List.mem_of_getElem? hy
    have := smallestPair_none a5 k x y hx hy
    rw [fiverSum_eq ((Item.fiver_iff x).2 ⟨hb x mx, k1⟩) ((Item.fiver_iff y).2 ⟨hb y my, k2⟩) (hs x mx) (hs y my)
      (hsmall x mx k1) (hsmall y my k2)] at this
    cases this
  · rintro k x y hx hy ⟨k1, k2⟩
    have mx := List.mem_of_getElem? hx
    have my := List.mem_of_getElem? hy
    have := smallestPair_none a7 k x y hx hy
    rw [hazelSum_eq ((Item.hazel_iff x).2 ⟨hb x mx, k1⟩) ((Item.hazel_iff y).2 ⟨hb y my, k2⟩) (hs x mx) (hs y my)] at this
    cases this
  · rintro k x y z hx hy hz ⟨k1, k2, k3⟩
    have := strandedLoop_none _ _ a3 k x y z hx hy hz k1 k2 k3
    rw [hb y (List.mem_of_getElem? hy)] at this
    cases this

/-- so at most three shards are left -/
theorem choose_none_shape {max : Nat} {recs : List Recovery} {v : List Item} (hm : 2 ≤ max)
    (hb : ∀ x, x ∈ v → x.busy = false) (hs : ∀ x, x ∈ v → 0 ≤ x.shard.size)
    (hlo : ∀ x, x ∈ v → x.shard.lo ≤ x.shard.hi) (hhi : ∀ x, x ∈ v → x.shard.hi < top)
    (hadj : ∀ (k : Nat) (x y : Item), v[k]? = some x → v[k + 1]? = some y → y.shard.lo = x.shard.hi + 1)
    (hk : ∀ x, x ∈ v → x.shard.kind = .fiver ∨ x.shard.kind = .hazel)
    (h : choose true max recs v = none) :
    (∀ x, x ∈ v → x.shard.kind = .fiver → x.shard.size < medium) ∧
    (v.map (·.shard.kind) = [] ∨ v.map (·.shard.kind) = [.fiver] ∨ v.map (·.shard.kind) = [.hazel] ∨
      v.map (·.shard.kind) = [.fiver, .hazel, .fiver]) := by
  obtain ⟨a1, a2, a3, a4, a5⟩ := choose_none hm hb hs hlo hhi hadj h
  refine ⟨a2, ?_⟩
  have pair : ∀ x y, v = [x, y] → x.shard.kind ≠ y.shard.kind → False := by
    intro x y e hne
    have h2 : fivers v = 1 ∧ hazels v = 1 := by
      rw [e, fivers_cons, fivers_cons, hazels_cons, hazels_cons]
      rcases hk x (by simp [e]) with h1 | h1 <;> rcases hk y (by simp [e]) with h2 | h2 <;>
        simp [h1, h2, fivers, hazels] at hne ⊢
    have := findLone_pair hk h2.1 h2.2 hb
    rw [a1] at this
    cases this
  match v, hk, a3, a4, a5, pair with
  | [], _, _, _, _, _ => exact .inl rfl
  | [x], hk, _, _, _, _ =>
    rcases hk x (by simp) with h1 | h1 <;> simp [h1]
  | [x, y], hk, a3, a4, _, pair =>
    exfalso
    have b1 := a3 0 x y rfl rfl
    have b2 := a4 0 x y rfl rfl
    refine pair x y rfl ?_
    intro e
    rcases hk x (by simp) with h1 | h1
    · exact b1 ⟨h1, e ▸ h1⟩
    · exact b2 ⟨h1, e ▸ h1⟩
  | [x, y, z], hk, a3, a4, a5, _ =>
    have b1 := a3 0 x y rfl rfl
    have b2 := a4 0 x y rfl rfl
    have b3 := a3 1 y z rfl rfl
    have b4 := a4 1 y z rfl rfl
    have b5 := a5 0 x y z rfl rfl rfl
    rcases hk x (by simp) with h1 | h1 <;> rcases hk y (by simp) with h2 | h2 <;> rcases hk z (by simp) with h3 | h3 <;>
      simp_all
  | x :: y :: z :: w :: l, hk, a3, a4, a5, _ =>
    exfalso
    have b1 := a3 0 x y rfl rfl
    have b2 := a4 0 x y rfl rfl
    have b3 := a3 1 y z rfl rfl
    have b4 := a4 1 y z rfl rfl
    have b5 := a5 0 x y z rfl rfl rfl
    have b6 := a3 2 z w rfl rfl
    have b7 := a4 2 z w rfl rfl
    have b8 := a5 1 y z w rfl rfl rfl
    rcases hk x (by simp) with h1 | h1 <;> rcases hk y (by simp) with h2 | h2 <;> rcases hk z (by simp) with h3 | h3 <;>
      rcases hk w (by simp) with h4 | h4 <;>
      first
      | exact b1 ⟨h1, h2⟩ | exact b2 ⟨h1, h2⟩ | exact b3 ⟨h2, h3⟩ | exact b4 ⟨h2, h3⟩
      | exact b6 ⟨h3, h4⟩ | exact b7 ⟨h3, h4⟩ | exact b5 ⟨h1, h2, h3⟩ | exact b8 ⟨h2, h3, h4⟩

end Verif.Sched
