import Verif.Terms.Run
/-
  Reading documents and statistics through hoppers.
-/
namespace Verif.Terms
open Verif.Hopper

theorem filter_from {D : List Ann} (hD : D.Pairwise fun a b => a.p < b.p ∧ a.q < b.q) {k : Int} {r : Ann} (hr : r ∈ D)
    (hk : k ≤ r.p) (hm : ∀ b ∈ D, k ≤ b.p → r.p ≤ b.p) (stop : Int) :
    D.filter (fun d => decide (k ≤ d.p ∧ d.q < stop)) =
      if r.q < stop then r :: D.filter (fun d => decide (r.p + 1 ≤ d.p ∧ d.q < stop)) else [] := by
  induction D with
  | nil => simp at hr
  | cons d D ih =>
    obtain ⟨h1, h2⟩ := List.pairwise_cons.1 hD
    rcases List.mem_cons.1 hr with rfl | hr
    · have e : ∀ k', k' ≤ r.p + 1 → D.filter (fun d => decide (k' ≤ d.p ∧ d.q < stop)) = D.filter (fun d => decide (d.q < stop)) := by
        intro k' hk'
        apply List.filter_congr
        intro x hx
        have := h1 x hx
        simp only [decide_eq_decide]
        omega
      rw [List.filter_cons, List.filter_cons, e k (by omega), e (r.p + 1) (by omega)]
      have : ¬ (r.p + 1 ≤ r.p) := by omega
      by_cases hs : r.q < stop
      · simp [hs, hk, this]
      · simp only [hs, and_false, if_false, decide_false, Bool.false_eq_true]
        rw [List.filter_eq_nil_iff]
        intro x hx
        have := h1 x hx
        simp only [decide_eq_true_eq]
        omega
    · have hd := h1 r hr
      have hlt : d.p < k := by
        rcases Int.lt_or_le d.p k with h | h
        · exact h
        · have := hm d (List.mem_cons_self ..) h; omega
      have ih := ih h2 hr fun b hb => hm b (List.mem_cons_of_mem _ hb)
      have e1 : ¬ (k ≤ d.p) := by omega
      have e2 : ¬ (r.p + 1 ≤ d.p) := by omega
      simp only [List.filter_cons, e1, e2, false_and, decide_false, Bool.false_eq_true, if_false]
      exact ih

variable {σ : Type} {I : σ → Prop} {D : List Ann}

theorem collect_ok (hD : Listing D) {tau : Int → M σ Ann} (h : ∀ k, InRange k → Ok I (tau k) (TauSpec (ofList D) k))
    {stop : Int} (hs : stop ≤ maxfinity) :
    ∀ (fuel : Nat) (k : Int), InRange k → k ≠ minfinity → (maxfinity - k).toNat < fuel →
      Ok I (collect tau stop fuel k) fun l => l = (D.filter fun d => decide (k ≤ d.p ∧ d.q < stop)).map fun d => (d.p, d.q) := by
  intro fuel
  induction fuel with
  | zero => intro k _ _ h; omega
  | succ fuel ih =>
    intro k hk hk0 hf
    unfold collect
    refine Ok.bind (h k hk) fun r hr => ?_
    have w := hD.wf
    rcases hr with ⟨h1, _⟩ | ⟨_, h1, h2, h3⟩ | ⟨_, h1, rfl⟩
    · exact absurd h1 hk0
    · have := w.lo h1; have := w.hi h1; have := w.le h1
      have key := filter_from hD.sorted (k := k) h1 h2 (fun b hb hkb => by
        have := h3 b hb hkb
        rcases Int.lt_or_le b.p r.p with h | h
        · have := w.mono hb h1 h; omega
        · exact h) stop
      by_cases hq : r.q < stop
      · rw [if_pos hq] at key
        refine Ok.ite (fun _ => ?_) (fun h => absurd hq h)
        refine Ok.bind (Ok.ck (by omega) (by omega)) ?_
        rintro _ rfl
        refine Ok.bind (ih (r.p + 1) (by omega) (by omega) (by omega)) fun l hl => Ok.pure ?_
        rw [key, hl, List.map_cons]
      · rw [if_neg hq] at key
        refine Ok.ite (fun h => absurd h hq) (fun _ => Ok.pure ?_)
        rw [key, List.map_nil]
    · refine Ok.ite (fun h => absurd h (by simp only []; omega)) (fun _ => Ok.pure ?_)
      have : D.filter (fun d => decide (k ≤ d.p ∧ d.q < stop)) = [] := by
        rw [List.filter_eq_nil_iff]
        intro a ha
        have := h1 a ha
        simp only [decide_eq_true_eq]
        omega
      rw [this, List.map_nil]

theorem intervals_ok {H : Obj} {I : H.σ → Prop} (hD : Listing D) (hH : Impl H I (ofList D)) {start stop : Int}
    (h1 : InRange start) (h2 : stop ≤ maxfinity) :
    intervals H start stop = some ((D.filter fun d => decide (start ≤ d.p ∧ d.q ≤ stop)).map fun d => (d.p, d.q)) := by
  unfold intervals
  dsimp only
  have hk : InRange (if start = minfinity then minfinity + 1 else start) := by split <;> omega
  obtain ⟨l, s, e, _, hl⟩ := collect_ok hD hH.tau (stop := if stop < maxfinity then stop + 1 else maxfinity)
    (by split <;> omega) loopFuel _ hk (by split <;> omega) (fuel_hi hk) H.init hH.init
  rw [e, Option.map_some, hl]
  dsimp only
  congr 2
  apply List.filter_congr
  intro d hd
  have := hD.bounds d hd
  simp only [decide_eq_decide]
  constructor
  · rintro ⟨g1, g2⟩
    split at g1 <;> split at g2 <;> omega
  · rintro ⟨g1, g2⟩
    refine ⟨?_, ?_⟩ <;> split <;> omega

theorem sumAll_ok {H : Obj} {I : H.σ → Prop} (hD : Listing D) (hH : Impl H I (ofList D)) : sumAll H = some (D.map Ann.v).sum := by
  unfold sumAll
  obtain ⟨l, s, e, _, hl, hs⟩ := tauAll_ok hD.wf hH.tau loopFuel (minfinity + 1) (by omega) (by omega)
    (fuel_hi (by omega)) H.init hH.init
  rw [e, Option.map_some]
  have : l = D := by
    have hn : ∀ m : List Ann, (m.Pairwise fun a b => a.p < b.p ∧ a.q < b.q) → m.Nodup := fun m hm =>
      hm.imp fun {a b} h e => by subst e; omega
    have hp : l.Perm D := by
      rw [List.perm_ext_iff_of_nodup (hn l hs) (hn D hD.sorted)]
      intro a
      rw [hl a]
      constructor
      · exact fun h => h.1
      · intro h
        have := hD.bounds a h
        exact ⟨h, by omega⟩
    exact hp.eq_of_pairwise (le := fun a b => a.p < b.p ∧ a.q < b.q) (fun a b _ _ h1 h2 => by omega) hs hD.sorted
  rw [this]

/-- the annotations of a feature, as a list -/
theorem feature_perm {notes : List Note} (ho : (notes.map fun n => (n.feature, n.p)).Nodup) {f : Int} {l : List Ann}
    (hl : Listing l) (h : ∀ a, a ∈ l ↔ ∃ n ∈ notes, n.feature = f ∧ a = ⟨n.p, n.p, n.v⟩) :
    l.Perm ((notes.filter fun n => n.feature == f).map fun n => ⟨n.p, n.p, n.v⟩) := by
  have n1 : l.Nodup := hl.sorted.imp fun {a b} h e => by subst e; omega
  have n2 : ((notes.filter fun n => n.feature == f).map fun n => (⟨n.p, n.p, n.v⟩ : Ann)).Nodup := by
    unfold List.Nodup at ho ⊢
    rw [List.pairwise_map] at ho ⊢
    rw [List.pairwise_filter]
    refine ho.imp fun {a b} h ha hb e => h ?_
    simp only [beq_iff_eq] at ha hb
    injection e with e1
    rw [ha, hb, e1]
  rw [List.perm_ext_iff_of_nodup n1 n2]
  intro a
  rw [h a, List.mem_map]
  constructor
  · rintro ⟨n, hn, hf, rfl⟩
    exact ⟨n, List.mem_filter.2 ⟨hn, by simpa using hf⟩, rfl⟩
  · rintro ⟨n, hn, rfl⟩
    obtain ⟨g1, g2⟩ := List.mem_filter.1 hn
    exact ⟨n, g1, by simpa using g2, rfl⟩

end Verif.Terms
