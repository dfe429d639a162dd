import Verif.Hopper.Contain
/-
  Two-way merge (`gcl::Merge`).
-/
namespace Verif.Hopper

section
variable {SA SB : GC}

theorem mergeOf_mem {a : Ann} (h : mergeOf SA SB a) : SA a ∨ SB a :=
  h.1.imp id (fun x => x.1)

theorem mergeOf_wf (wA : Wf SA) (wB : Wf SB) : Wf (mergeOf SA SB) := by
  refine ⟨?_, ?_, ?_, ?_, ?_⟩
  · intro a h; rcases mergeOf_mem h with h | h
    · exact wA.lo h
    · exact wB.lo h
  · intro a h; rcases mergeOf_mem h with h | h
    · exact wA.hi h
    · exact wB.hi h
  · intro a h; rcases mergeOf_mem h with h | h
    · exact wA.le h
    · exact wB.le h
  · intro a b ha hb h
    by_cases hh : a.q < b.q
    · exact hh
    · have := ha.2 b (mergeOf_mem hb) ⟨by omega, by omega⟩; omega
  · intro a b ha hb h
    have hq : a.q = b.q := by
      by_cases hh : a.q ≤ b.q
      · exact (hb.2 a (mergeOf_mem ha) ⟨by omega, hh⟩).2
      · exact (ha.2 b (mergeOf_mem hb) ⟨by omega, by omega⟩).2.symm
    rcases ha.1 with ha1 | ⟨ha1, ha2⟩ <;> rcases hb.1 with hb1 | ⟨hb1, hb2⟩
    · exact wA.uniq ha1 hb1 h
    · exact absurd ⟨a, ha1, h, hq⟩ hb2
    · exact absurd ⟨b, hb1, h.symm, hq.symm⟩ ha2
    · exact wB.uniq ha1 hb1 h

theorem merge_tau_spec (wA : Wf SA) (wB : Wf SB) {k : Int} {l r : Ann}
    (hl : TauSpec SA k l) (hr : TauSpec SB k r) :
    TauSpec (mergeOf SA SB) k
      (if l.q < r.q then l else if l.q > r.q then r else if l.p < r.p then r else l) := by
  rcases hl with ⟨h1, rfl⟩ | ⟨h1, h2, h3, h4⟩ | ⟨h1, h2, rfl⟩ <;>
  rcases hr with ⟨g1, rfl⟩ | ⟨g1, g2, g3, g4⟩ | ⟨g1, g2, rfl⟩
  · simp; exact Or.inl ⟨h1, rfl⟩
  · omega
  · omega
  · omega
  · -- both have an answer
    have a1 : ∀ a, SA a → k ≤ a.p → l.p ≤ a.p ∧ l.q ≤ a.q := fun a ha hk => by
      have := h4 a ha hk; have := wA.p_lt_iff ha h2; omega
    have b1 : ∀ a, SB a → k ≤ a.p → r.p ≤ a.p ∧ r.q ≤ a.q := fun a ha hk => by
      have := g4 a ha hk; have := wB.p_lt_iff ha g2; omega
    have key : ∀ x, ((SA x ∧ (x.q < r.q ∨ (x.q = r.q ∧ r.p ≤ x.p)) ∧ x = l) ∨
        (SB x ∧ (x.q < l.q ∨ (x.q = l.q ∧ l.p < x.p)) ∧ x = r)) →
        TauSpec (mergeOf SA SB) k x := by
      rintro x (⟨hx, hq, rfl⟩ | ⟨hx, hq, rfl⟩)
      · refine Or.inr (Or.inl ⟨h1, ⟨Or.inl hx, ?_⟩, h3, ?_⟩)
        · rintro a (ha | ha) ⟨i1, i2⟩
          · have := a1 a ha (by omega)
            have := wA.eq_of_q ha hx (by omega); subst this; exact ⟨rfl, rfl⟩
          · have := b1 a ha (by omega)
            have := wB.eq_of_q ha g2 (by omega); subst this; omega
        · intro a ha hk
          by_cases hh : x.p ≤ a.p
          · exact hh
          · have hin : x.q ≤ a.q := by
              rcases mergeOf_mem ha with h | h
              · exact (a1 a h hk).2
              · have := (b1 a h hk).2; omega
            have := ha.2 x (Or.inl hx) ⟨by omega, hin⟩
            omega
      · refine Or.inr (Or.inl ⟨h1, ⟨Or.inr ⟨hx, ?_⟩, ?_⟩, g3, ?_⟩)
        · rintro ⟨a, ha, i1, i2⟩
          have := a1 a ha (by omega)
          have := wA.eq_of_q ha h2
          rcases hq with hq | ⟨hq, hq2⟩
          · omega
          · have := this (by omega); subst this; omega
        · rintro a (ha | ha) ⟨i1, i2⟩
          · have := a1 a ha (by omega)
            have := wA.eq_of_q ha h2
            rcases hq with hq | ⟨hq, hq2⟩
            · omega
            · have := this (by omega); subst this; omega
          · have := b1 a ha (by omega)
            have := wB.eq_of_q ha hx (by omega); subst this; exact ⟨rfl, rfl⟩
        · intro a ha hk
          by_cases hh : x.p ≤ a.p
          · exact hh
          · have hin : x.q ≤ a.q := by
              rcases mergeOf_mem ha with h | h
              · have := (a1 a h hk).2; omega
              · exact (b1 a h hk).2
            have := ha.2 x (Or.inr hx) ⟨by omega, hin⟩
            omega
    apply key
    split
    · exact Or.inl ⟨h2, Or.inl (by omega), rfl⟩
    · split
      · exact Or.inr ⟨g2, Or.inl (by omega), rfl⟩
      · split
        · exact Or.inr ⟨g2, Or.inr (by omega), rfl⟩
        · exact Or.inl ⟨h2, Or.inr (by omega), rfl⟩
  · -- only the left
    have := wA.hi h2
    rw [if_pos this]
    refine Or.inr (Or.inl ⟨h1, ⟨Or.inl h2, ?_⟩, h3, ?_⟩)
    · rintro a (ha | ha) ⟨i1, i2⟩
      · have := h4 a ha (by omega); have := wA.p_lt_iff ha h2
        have := wA.eq_of_q ha h2 (by omega); subst this; exact ⟨rfl, rfl⟩
      · have := g2 a ha; omega
    · intro a ha hk
      rcases mergeOf_mem ha with h | h
      · exact h4 a h hk
      · have := g2 a h; omega
  · omega
  · -- only the right
    have hb := wB.hi g2
    rw [if_neg (by simp only; omega), if_pos (by simp only; omega)]
    refine Or.inr (Or.inl ⟨h1, ⟨Or.inr ⟨g2, ?_⟩, ?_⟩, g3, ?_⟩)
    · rintro ⟨a, ha, i1, i2⟩
      have := h2 a ha; omega
    · rintro a (ha | ha) ⟨i1, i2⟩
      · have := h2 a ha; omega
      · have := g4 a ha (by omega); have := wB.p_lt_iff ha g2
        have := wB.eq_of_q ha g2 (by omega); subst this; exact ⟨rfl, rfl⟩
    · intro a ha hk
      rcases mergeOf_mem ha with h | h
      · have := h2 a h; omega
      · exact g4 a h hk
  · simp
    refine Or.inr (Or.inr ⟨h1, ?_, rfl⟩)
    intro a ha
    rcases mergeOf_mem ha with h | h
    · exact h2 a h
    · exact g2 a h

/-- No interval of one list shares its start but not its end with one of the other.
`Merge::uat_` needs this: on equal starts it prefers the *longer* interval. -/
def SameStarts (A B : GC) : Prop := ∀ a b, A a → B b → a.p = b.p → a.q = b.q

theorem merge_uat_spec (wA : Wf SA) (wB : Wf SB) (hc : SameStarts SA SB) {k : Int} {l r : Ann}
    (hl : UatSpec SA k l) (hr : UatSpec SB k r) :
    UatSpec (mergeOf SA SB) k
      (if l.p > r.p then l else if r.p > l.p then r else if l.q < r.q then r else l) := by
  rcases hl with ⟨h1, rfl⟩ | ⟨h1, h2, h3, h4⟩ | ⟨h1, h2, rfl⟩ <;>
  rcases hr with ⟨g1, rfl⟩ | ⟨g1, g2, g3, g4⟩ | ⟨g1, g2, rfl⟩
  · simp; exact Or.inl ⟨h1, rfl⟩
  · omega
  · omega
  · omega
  · -- both have an answer
    have a1 : ∀ a, SA a → a.q ≤ k → a.p ≤ l.p ∧ a.q ≤ l.q := fun a ha hk => by
      have := h4 a ha hk; have := wA.p_lt_iff h2 ha; omega
    have b1 : ∀ a, SB a → a.q ≤ k → a.p ≤ r.p ∧ a.q ≤ r.q := fun a ha hk => by
      have := g4 a ha hk; have := wB.p_lt_iff g2 ha; omega
    have hlr := hc l r h2 g2
    have key : ∀ x, ((SA x ∧ (r.p < x.p ∨ (x.q = r.q ∧ r.p = x.p)) ∧ x = l) ∨
        (SB x ∧ l.p < x.p ∧ x = r)) →
        UatSpec (mergeOf SA SB) k x := by
      rintro x (⟨hx, hq, rfl⟩ | ⟨hx, hq, rfl⟩)
      · refine Or.inr (Or.inl ⟨h1, ⟨Or.inl hx, ?_⟩, h3, ?_⟩)
        · rintro a (ha | ha) ⟨i1, i2⟩
          · have := a1 a ha (by omega)
            have := wA.uniq ha hx (by omega); subst this; exact ⟨rfl, rfl⟩
          · have := b1 a ha (by omega)
            have := wB.uniq ha g2 (by omega); subst this; omega
        · intro a ha hk
          by_cases hh : a.q ≤ x.q
          · exact hh
          · have hin : a.p ≤ x.p := by
              rcases mergeOf_mem ha with h | h
              · exact (a1 a h hk).1
              · have := (b1 a h hk).1; omega
            have := ha.2 x (Or.inl hx) ⟨hin, by omega⟩
            omega
      · refine Or.inr (Or.inl ⟨h1, ⟨Or.inr ⟨hx, ?_⟩, ?_⟩, g3, ?_⟩)
        · rintro ⟨a, ha, i1, i2⟩
          have := a1 a ha (by omega)
          omega
        · rintro a (ha | ha) ⟨i1, i2⟩
          · have := a1 a ha (by omega)
            omega
          · have := b1 a ha (by omega)
            have := wB.uniq ha hx (by omega); subst this; exact ⟨rfl, rfl⟩
        · intro a ha hk
          by_cases hh : a.q ≤ x.q
          · exact hh
          · have hin : a.p ≤ x.p := by
              rcases mergeOf_mem ha with h | h
              · have := (a1 a h hk).1; omega
              · exact (b1 a h hk).1
            have := ha.2 x (Or.inr hx) ⟨hin, by omega⟩
            omega
    apply key
    split
    · exact Or.inl ⟨h2, Or.inl (by omega), rfl⟩
    · split
      · exact Or.inr ⟨g2, by omega, rfl⟩
      · rw [if_neg (by omega)]
        exact Or.inl ⟨h2, Or.inr (by omega), rfl⟩
  · have := wA.lo h2
    rw [if_pos (by simp only; omega)]
    refine Or.inr (Or.inl ⟨h1, ⟨Or.inl h2, ?_⟩, h3, ?_⟩)
    · rintro a (ha | ha) ⟨i1, i2⟩
      · have := h4 a ha (by omega); have := wA.p_lt_iff ha h2
        have := wA.uniq ha h2 (by have := wA.p_lt_iff h2 ha; omega); subst this; exact ⟨rfl, rfl⟩
      · have := g2 a ha; omega
    · intro a ha hk
      rcases mergeOf_mem ha with h | h
      · exact h4 a h hk
      · have := g2 a h; omega
  · omega
  · have hb := wB.lo g2
    rw [if_neg (by simp only; omega), if_pos (by simp only; omega)]
    refine Or.inr (Or.inl ⟨h1, ⟨Or.inr ⟨g2, ?_⟩, ?_⟩, g3, ?_⟩)
    · rintro ⟨a, ha, i1, i2⟩
      have := h2 a ha; omega
    · rintro a (ha | ha) ⟨i1, i2⟩
      · have := h2 a ha; omega
      · have := g4 a ha (by omega); have := wB.p_lt_iff ha g2
        have := wB.uniq ha g2 (by have := wB.p_lt_iff g2 ha; omega); subst this; exact ⟨rfl, rfl⟩
    · intro a ha hk
      rcases mergeOf_mem ha with h | h
      · have := h2 a h; omega
      · exact g4 a h hk
  · simp
    refine Or.inr (Or.inr ⟨h1, ?_, rfl⟩)
    intro a ha
    rcases mergeOf_mem ha with h | h
    · exact h2 a h
    · exact g2 a h

/-- Without `SameStarts`, `Merge::uat_` still finds the right start. -/
theorem merge_L_spec (wA : Wf SA) (wB : Wf SB) {k : Int} {l r : Ann}
    (hl : UatSpec SA k l) (hr : UatSpec SB k r) :
    LSpec (mergeOf SA SB) k
      (if l.p > r.p then l else if r.p > l.p then r else if l.q < r.q then r else l).p := by
  have e : (if l.p > r.p then l else if r.p > l.p then r else if l.q < r.q then r else l).p
      = max l.p r.p := by
    split
    · omega
    · split
      · omega
      · split <;> omega
  rw [e]
  -- the last minimal interval among those ending by `k`
  have pick : ∀ x, (SA x ∨ SB x) → x.q ≤ k → k ≠ maxfinity →
      (∀ a, (SA a ∨ SB a) → a.q ≤ k → a.p ≤ x.p ∧ (a.p = x.p → x.q ≤ a.q)) →
      LSpec (mergeOf SA SB) k x.p := by
    intro x hx hxk hk hall
    have hmin : ∀ a, (SA a ∨ SB a) → inside a x → a.p = x.p ∧ a.q = x.q := by
      rintro a ha ⟨i1, i2⟩
      have := hall a ha (by omega); omega
    -- choose the left copy when both lists have the interval
    have : ∃ y, mergeOf SA SB y ∧ y.p = x.p ∧ y.q = x.q := by
      by_cases hA : ∃ a, SA a ∧ a.p = x.p ∧ a.q = x.q
      · obtain ⟨a, ha, e1, e2⟩ := hA
        refine ⟨a, ⟨Or.inl ha, fun b hb ⟨i1, i2⟩ => ?_⟩, e1, e2⟩
        have := hmin b hb ⟨by omega, by omega⟩; omega
      · rcases hx with h | h
        · exact absurd ⟨x, h, rfl, rfl⟩ hA
        · exact ⟨x, ⟨Or.inr ⟨h, hA⟩, hmin⟩, rfl, rfl⟩
    obtain ⟨y, hy, e1, e2⟩ := this
    refine ⟨y, Or.inr (Or.inl ⟨hk, hy, by omega, ?_⟩), e1.symm⟩
    intro a ha hak
    have h1 := hall a (mergeOf_mem ha) hak
    by_cases hh : a.q ≤ y.q
    · exact hh
    · have := ha.2 x hx ⟨by omega, by omega⟩; omega
  rcases hl with ⟨h1, rfl⟩ | ⟨h1, h2, h3, h4⟩ | ⟨h1, h2, rfl⟩ <;>
  rcases hr with ⟨g1, rfl⟩ | ⟨g1, g2, g3, g4⟩ | ⟨g1, g2, rfl⟩
  · exact ⟨highEnd, Or.inl ⟨h1, rfl⟩, by simp⟩
  · omega
  · omega
  · omega
  · have a1 : ∀ a, SA a → a.q ≤ k → a.p ≤ l.p ∧ a.q ≤ l.q := fun a ha hk => by
      have := h4 a ha hk; have := wA.p_lt_iff h2 ha; omega
    have b1 : ∀ a, SB a → a.q ≤ k → a.p ≤ r.p ∧ a.q ≤ r.q := fun a ha hk => by
      have := g4 a ha hk; have := wB.p_lt_iff g2 ha; omega
    by_cases hh : r.p < l.p ∨ (r.p = l.p ∧ l.q ≤ r.q)
    · have : max l.p r.p = l.p := by omega
      rw [this]
      refine pick l (Or.inl h2) h3 h1 ?_
      rintro a (ha | ha) hak
      · refine ⟨(a1 a ha hak).1, fun h => ?_⟩
        have := wA.uniq ha h2 h; subst this; omega
      · have := b1 a ha hak
        refine ⟨by omega, fun h => ?_⟩
        have := wB.uniq ha g2 (by omega); subst this; omega
    · have : max l.p r.p = r.p := by omega
      rw [this]
      refine pick r (Or.inr g2) g3 h1 ?_
      rintro a (ha | ha) hak
      · have := a1 a ha hak
        refine ⟨by omega, fun h => ?_⟩
        have := wA.uniq ha h2 (by omega); subst this; omega
      · refine ⟨(b1 a ha hak).1, fun h => ?_⟩
        have := wB.uniq ha g2 h; subst this; omega
  · have := wA.lo h2
    rw [show max l.p (lowEnd.p) = l.p by simp only; omega]
    refine pick l (Or.inl h2) h3 h1 ?_
    rintro a (ha | ha) hak
    · have := h4 a ha hak; have := wA.p_lt_iff h2 ha
      refine ⟨by omega, fun h => ?_⟩
      have := wA.uniq ha h2 h; subst this; omega
    · have := g2 a ha; omega
  · omega
  · have := wB.lo g2
    rw [show max (lowEnd.p) r.p = r.p by simp only; omega]
    refine pick r (Or.inr g2) g3 h1 ?_
    rintro a (ha | ha) hak
    · have := h2 a ha; omega
    · have := g4 a ha hak; have := wB.p_lt_iff g2 ha
      refine ⟨by omega, fun h => ?_⟩
      have := wB.uniq ha g2 h; subst this; omega
  · refine ⟨lowEnd, Or.inr (Or.inr ⟨h1, ?_, rfl⟩), by simp⟩
    intro a ha
    rcases mergeOf_mem ha with h | h
    · exact h2 a h
    · exact g2 a h

variable {A B : Obj} {IA : A.σ → Prop} {IB : B.σ → Prop}

theorem merge_impl (wA : Wf SA) (wB : Wf SB) (hc : SameStarts SA SB)
    (hA : Impl A IA SA) (hB : Impl B IB SB) :
    Impl (mergeObj A B) (NInv (mergeOf SA SB) (PInv IA IB)) (mergeOf SA SB) := by
  have w := mergeOf_wf wA wB
  have t : ∀ k, InRange k → Ok (NInv (mergeOf SA SB) (PInv IA IB))
      (memoTau (mergeTau A B) k) (TauSpec (mergeOf SA SB) k) :=
    fun k hk => Ok.memoTau (Ok.bind (Ok.onL (hA.tau k hk)) fun l hl =>
      Ok.bind (Ok.onR (hB.tau k hk)) fun r hr => Ok.pure (merge_tau_spec wA wB hl hr))
  have u : ∀ k, InRange k → Ok (NInv (mergeOf SA SB) (PInv IA IB))
      (memoUat (mergeUat A B) k) (UatSpec (mergeOf SA SB) k) :=
    fun k hk => Ok.memoUat (Ok.bind (Ok.onL (hA.uat k hk)) fun l hl =>
      Ok.bind (Ok.onR (hB.uat k hk)) fun r hr => Ok.pure (merge_uat_spec wA wB hc hl hr))
  exact ⟨⟨memoOk_init _, hA.init, hB.init⟩, t,
    fun k hk => Ok.memoRho (Ok.combRho w (fun k hk => (u k hk).defaultL) t hk), u,
    fun k hk => Ok.memoOhr (Ok.combOhr w (fun k hk => (t k hk).defaultR) u hk),
    fun k hk => (u k hk).defaultL, fun k hk => (t k hk).defaultR⟩
end
end Verif.Hopper
