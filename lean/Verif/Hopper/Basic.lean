import Verif.Hopper.Lemmas
/-
  Leaf hoppers without arrays, and the `Combinational` scheme.
-/
namespace Verif.Hopper

theorem InRange.mk' {k : Int} (h1 : minfinity ≤ k) (h2 : k ≤ maxfinity) : InRange k := ⟨h1, h2⟩

/-- no solutions -/
def emptyS : GC := fun _ => False

theorem empty_wf : Wf emptyS := ⟨fun h => h.elim, fun h => h.elim, fun h => h.elim,
  fun h => h.elim, fun h => h.elim⟩

theorem empty_impl (J : Unit → Prop) (hJ : J ()) : Impl emptyObj (NInv emptyS J) emptyS := by
  have t : ∀ k, Ok (NInv emptyS J)
      (memoTau (fun k => pure (if k = minfinity then lowEnd else highEnd)) k) (TauSpec emptyS k) := by
    intro k
    refine Ok.memoTau (Ok.pure ?_)
    by_cases h : k = minfinity
    · simp only [h, if_true]; exact Or.inl ⟨rfl, rfl⟩
    · simp only [h, if_false]; exact Or.inr (Or.inr ⟨h, fun _ h => h.elim, rfl⟩)
  have u : ∀ k, Ok (NInv emptyS J)
      (memoUat (fun k => pure (if k = maxfinity then highEnd else lowEnd)) k) (UatSpec emptyS k) := by
    intro k
    refine Ok.memoUat (Ok.pure ?_)
    by_cases h : k = maxfinity
    · simp only [h, if_true]; exact Or.inl ⟨rfl, rfl⟩
    · simp only [h, if_false]; exact Or.inr (Or.inr ⟨h, fun _ h => h.elim, rfl⟩)
  refine ⟨⟨memoOk_init _, hJ⟩, fun k _ => t k, fun k _ => ?_, fun k _ => u k, fun k _ => ?_, fun k _ => (u k).defaultL,
    fun k _ => (t k).defaultR⟩
  · show Ok (NInv emptyS J) (memoRho (fun k => pure (if k = minfinity then lowEnd else highEnd)) k) (RhoSpec emptyS k)
    refine Ok.memoRho (Ok.pure ?_)
    by_cases h : k = minfinity
    · simp only [h, if_true]; exact Or.inl ⟨rfl, rfl⟩
    · simp only [h, if_false]; exact Or.inr (Or.inr ⟨h, fun _ h => h.elim, rfl⟩)
  · show Ok (NInv emptyS J) (memoOhr (fun k => pure (if k = maxfinity then highEnd else lowEnd)) k) (OhrSpec emptyS k)
    refine Ok.memoOhr (Ok.pure ?_)
    by_cases h : k = maxfinity
    · simp only [h, if_true]; exact Or.inl ⟨rfl, rfl⟩
    · simp only [h, if_false]; exact Or.inr (Or.inr ⟨h, fun _ h => h.elim, rfl⟩)

/-- one solution -/
def singleS (a : Ann) : GC := fun b => b = a

theorem single_wf {a : Ann} (h1 : minfinity < a.p) (h2 : a.p ≤ a.q) (h3 : a.q < maxfinity) :
    Wf (singleS a) := by
  refine ⟨?_, ?_, ?_, ?_, ?_⟩
  · rintro _ rfl; exact h1
  · rintro _ rfl; exact h3
  · rintro _ rfl; exact h2
  · rintro _ _ rfl rfl h; exact absurd h (Int.lt_irrefl _)
  · rintro _ _ rfl rfl _; rfl

theorem single_impl (a : Ann) (J : Unit → Prop) (hJ : J ()) :
    Impl (singleObj a) (NInv (singleS a) J) (singleS a) := by
  have t : ∀ k, Ok (NInv (singleS a) J) (memoTau (singleTau a) k) (TauSpec (singleS a) k) := by
    intro k
    refine Ok.memoTau (Ok.pure ?_)
    split
    · exact Or.inl ⟨by assumption, rfl⟩
    · split
      · exact Or.inr (Or.inl ⟨by assumption, rfl, by assumption, fun b hb _ => by rw [hb]; omega⟩)
      · exact Or.inr (Or.inr ⟨by assumption, fun b hb => by rw [hb]; omega, rfl⟩)
  have u : ∀ k, Ok (NInv (singleS a) J) (memoUat (singleUat a) k) (UatSpec (singleS a) k) := by
    intro k
    refine Ok.memoUat (Ok.pure ?_)
    split
    · exact Or.inl ⟨by assumption, rfl⟩
    · split
      · exact Or.inr (Or.inl ⟨by assumption, rfl, by assumption, fun b hb _ => by rw [hb]; omega⟩)
      · exact Or.inr (Or.inr ⟨by assumption, fun b hb => by rw [hb]; omega, rfl⟩)
  refine ⟨⟨memoOk_init _, hJ⟩, fun k _ => t k, fun k _ => ?_, fun k _ => u k, fun k _ => ?_, fun k _ => (u k).defaultL,
    fun k _ => (t k).defaultR⟩
  · show Ok (NInv (singleS a) J) (memoRho (singleRho a) k) (RhoSpec (singleS a) k)
    refine Ok.memoRho (Ok.pure ?_)
    split
    · exact Or.inl ⟨by assumption, rfl⟩
    · split
      · exact Or.inr (Or.inl ⟨by assumption, rfl, by assumption, fun b hb _ => by rw [hb]; omega⟩)
      · exact Or.inr (Or.inr ⟨by assumption, fun b hb => by rw [hb]; omega, rfl⟩)
  · show Ok (NInv (singleS a) J) (memoOhr (singleOhr a) k) (OhrSpec (singleS a) k)
    refine Ok.memoOhr (Ok.pure ?_)
    split
    · exact Or.inl ⟨by assumption, rfl⟩
    · split
      · exact Or.inr (Or.inl ⟨by assumption, rfl, by assumption, fun b hb _ => by rw [hb]; omega⟩)
      · exact Or.inr (Or.inr ⟨by assumption, fun b hb => by rw [hb]; omega, rfl⟩)

theorem fixed_wf {w : Int} (hw : 1 ≤ w) : Wf (fixedWidth w) := by
  refine ⟨fun h => h.1, fun h => h.2.1, ?_, ?_, ?_⟩
  · rintro a ⟨_, _, h, _⟩; omega
  · rintro a b ⟨_, _, h, _⟩ ⟨_, _, h', _⟩; omega
  · rintro ⟨p, q, v⟩ ⟨p', q', v'⟩ ⟨_, _, h, h0⟩ ⟨_, _, h', h0'⟩ h2
    simp only at *
    simp only [Ann.mk.injEq]
    omega

theorem fixed_impl {w : Int} (hw : 1 ≤ w) (hw2 : w ≤ maxfinity) (J : Unit → Prop) (hJ : J ()) :
    Impl (fixedObj w) (NInv (fixedWidth w) J) (fixedWidth w) := by
  have t : ∀ k, InRange k → Ok (NInv (fixedWidth w) J) (memoTau (fixedTau w) k)
      (TauSpec (fixedWidth w) k) := by
    intro k hk
    refine Ok.memoTau ?_
    unfold fixedTau
    refine Ok.ite (fun h => Ok.pure (Or.inl ⟨h, rfl⟩)) (fun h => ?_)
    refine Ok.bind (Ok.ck (by omega) (by omega)) ?_
    rintro _ rfl
    refine Ok.ite (fun h1 => ?_) (fun h1 => ?_)
    · refine Ok.bind (Ok.ck (by omega) (by omega)) ?_
      rintro _ rfl
      refine Ok.bind (Ok.ck (by omega) (by omega)) ?_
      rintro _ rfl
      refine Ok.pure (Or.inr (Or.inl ⟨h, ?_, by simp, fun b hb hb2 => hb2⟩))
      exact ⟨by simp only; omega, by simp only; omega, by simp only, rfl⟩
    · refine Ok.pure (Or.inr (Or.inr ⟨h, ?_, rfl⟩))
      rintro a ⟨h1, h2, h3, h4⟩; omega
  have u : ∀ k, InRange k → Ok (NInv (fixedWidth w) J) (memoUat (fixedUat w) k)
      (UatSpec (fixedWidth w) k) := by
    intro k hk
    refine Ok.memoUat ?_
    unfold fixedUat
    refine Ok.ite (fun h => Ok.pure (Or.inl ⟨h, rfl⟩)) (fun h => ?_)
    refine Ok.bind (Ok.ck (by omega) (by omega)) ?_
    rintro _ rfl
    refine Ok.ite (fun h1 => ?_) (fun h1 => ?_)
    · refine Ok.bind (Ok.ck (by omega) (by omega)) ?_
      rintro _ rfl
      refine Ok.bind (Ok.ck (by omega) (by omega)) ?_
      rintro _ rfl
      refine Ok.pure (Or.inr (Or.inl ⟨h, ?_, by simp, fun b hb hb2 => hb2⟩))
      exact ⟨by simp only; omega, by simp only; omega, by simp only; omega, rfl⟩
    · refine Ok.pure (Or.inr (Or.inr ⟨h, ?_, rfl⟩))
      rintro a ⟨h1, h2, h3, h4⟩; omega
  refine ⟨⟨memoOk_init _, hJ⟩, t, fun k hk => ?_, u, fun k hk => ?_, fun k hk => (u k hk).defaultL,
    fun k hk => (t k hk).defaultR⟩
  · refine Ok.memoRho ?_
    unfold fixedRho
    refine Ok.ite (fun h => Ok.pure (Or.inl ⟨h, rfl⟩)) (fun h => ?_)
    refine Ok.bind (Ok.ck (by omega) (by omega)) ?_
    rintro _ rfl
    refine Ok.ite (fun h1 => ?_) (fun h1 => Ok.ite (fun h2 => ?_) (fun h2 => ?_))
    · refine Ok.pure (Or.inr (Or.inl ⟨h, ?_, by simp only; omega, ?_⟩))
      · exact ⟨by simp only; omega, by simp only; omega, by simp only; omega, rfl⟩
      · rintro a ⟨h1, h2, h3, h4⟩ _; simp only; omega
    · refine Ok.bind (Ok.ck (by omega) (by omega)) ?_
      rintro _ rfl
      refine Ok.bind (Ok.ck (by omega) (by omega)) ?_
      rintro _ rfl
      refine Ok.pure (Or.inr (Or.inl ⟨h, ?_, by simp, fun b hb hb2 => hb2⟩))
      exact ⟨by simp only; omega, by simp only; omega, by simp only; omega, rfl⟩
    · refine Ok.pure (Or.inr (Or.inr ⟨h, ?_, rfl⟩))
      rintro a ⟨h1, h2, h3, h4⟩; omega
  · refine Ok.memoOhr ?_
    unfold fixedOhr
    refine Ok.ite (fun h => Ok.pure (Or.inl ⟨h, rfl⟩)) (fun h => ?_)
    refine Ok.bind (Ok.ck (by omega) (by omega)) ?_
    rintro _ rfl
    refine Ok.ite (fun h1 => ?_) (fun h1 => Ok.ite (fun h2 => ?_) (fun h2 => ?_))
    · refine Ok.pure (Or.inr (Or.inl ⟨h, ?_, by simp only; omega, ?_⟩))
      · exact ⟨by simp only; omega, by simp only; omega, by simp only; omega, rfl⟩
      · rintro a ⟨h1, h2, h3, h4⟩ _; simp only; omega
    · refine Ok.bind (Ok.ck (by omega) (by omega)) ?_
      rintro _ rfl
      refine Ok.bind (Ok.ck (by omega) (by omega)) ?_
      rintro _ rfl
      refine Ok.pure (Or.inr (Or.inl ⟨h, ?_, by simp, fun b hb hb2 => hb2⟩))
      exact ⟨by simp only; omega, by simp only; omega, by simp only, rfl⟩
    · refine Ok.pure (Or.inr (Or.inr ⟨h, ?_, rfl⟩))
      rintro a ⟨h1, h2, h3, h4⟩; omega

/-! ### Combinational -/

theorem comb_tau_spec {S : GC} (w : Wf S) (hv : ∀ a, S a → a.v = 0) {k p q : Int}
    (hr : RSpec S k q) (hl : LSpec S q p) : TauSpec S k ⟨p, q, 0⟩ := by
  rcases hr.cases with ⟨rfl, rfl⟩ | ⟨hk, r, hrS, rfl, hkr, hmin⟩ | ⟨hk, hn, rfl⟩
  · rcases hl.cases with ⟨h, _⟩ | ⟨_, r, hrS, rfl, h1, _⟩ | ⟨_, _, rfl⟩
    · omega
    · have := w.lo hrS; have := w.le hrS; omega
    · exact Or.inl ⟨rfl, rfl⟩
  · rcases hl.cases with ⟨h, _⟩ | ⟨_, r', hr', rfl, h1, h2⟩ | ⟨_, h1, rfl⟩
    · have := w.hi hrS; omega
    · have h3 := h2 _ hrS (Int.le_refl _)
      have : r' = r := w.eq_of_q hr' hrS (by omega)
      subst this
      have h0 := hv _ hrS
      have : (⟨r'.p, r'.q, 0⟩ : Ann) = r' := by cases r'; simp only at h0; simp [h0]
      rw [this]
      exact Or.inr (Or.inl ⟨hk, hrS, hkr, hmin⟩)
    · have := h1 _ hrS; omega
  · rcases hl.cases with ⟨_, rfl⟩ | ⟨h, _⟩ | ⟨h, _⟩
    · exact Or.inr (Or.inr ⟨hk, hn, rfl⟩)
    · exact absurd rfl h
    · exact absurd rfl h

theorem comb_uat_spec {S : GC} (w : Wf S) (hv : ∀ a, S a → a.v = 0) {k p q : Int}
    (hl : LSpec S k p) (hr : RSpec S p q) : UatSpec S k ⟨p, q, 0⟩ := by
  rcases hl.cases with ⟨rfl, rfl⟩ | ⟨hk, r, hrS, rfl, hkr, hmin⟩ | ⟨hk, hn, rfl⟩
  · rcases hr.cases with ⟨h, _⟩ | ⟨_, r, hrS, rfl, h1, _⟩ | ⟨_, _, rfl⟩
    · omega
    · have := w.hi hrS; have := w.le hrS; omega
    · exact Or.inl ⟨rfl, rfl⟩
  · rcases hr.cases with ⟨h, _⟩ | ⟨_, r', hr', rfl, h1, h2⟩ | ⟨_, h1, rfl⟩
    · have := w.lo hrS; omega
    · have h3 := h2 _ hrS (Int.le_refl _)
      have : r' = r := w.uniq hr' hrS (by omega)
      subst this
      have h0 := hv _ hr'
      have : (⟨r'.p, r'.q, 0⟩ : Ann) = r' := by cases r'; simp only at h0; simp [h0]
      rw [this]
      exact Or.inr (Or.inl ⟨hk, hr', hkr, hmin⟩)
    · have := h1 _ hrS; omega
  · rcases hr.cases with ⟨_, rfl⟩ | ⟨h, _⟩ | ⟨h, _⟩
    · exact Or.inr (Or.inr ⟨hk, hn, rfl⟩)
    · exact absurd rfl h
    · exact absurd rfl h

/-- `tau(L(k-1)+1)` is `rho(k)` -/
theorem rho_of_L {S : GC} (w : Wf S) {k l : Int} {r : Ann} (hk : k ≠ minfinity) (hkr : InRange k)
    (hl : LSpec S (k - 1) l) (ht : TauSpec S (l + 1) r) : RhoSpec S k r := by
  rcases hl.cases with ⟨h, _⟩ | ⟨_, r0, hr0, rfl, h1, h2⟩ | ⟨_, h1, rfl⟩
  · omega
  · rcases ht with ⟨h, _⟩ | ⟨h3, h4, h5, h6⟩ | ⟨h3, h4, rfl⟩
    · have := w.lo hr0; omega
    · refine Or.inr (Or.inl ⟨hk, h4, ?_, ?_⟩)
      · have := w.mono hr0 h4 (by omega)
        by_cases hh : r.q ≤ k - 1
        · have := h2 _ h4 hh; omega
        · omega
      · intro a ha hka
        have h7 : r0.p < a.p := (w.p_lt_iff hr0 ha).2 (by omega)
        have := h6 _ ha (by omega)
        have := w.p_lt_iff ha h4
        omega
    · refine Or.inr (Or.inr ⟨hk, ?_, rfl⟩)
      intro a ha
      have := h4 _ ha
      have := w.p_lt_iff hr0 ha
      omega
  · rcases ht with ⟨h, _⟩ | ⟨h3, h4, h5, h6⟩ | ⟨h3, h4, rfl⟩
    · omega
    · refine Or.inr (Or.inl ⟨hk, h4, ?_, ?_⟩)
      · have := h1 _ h4; omega
      · intro a ha hka
        have := h6 _ ha (by have := w.lo ha; omega)
        have := w.p_lt_iff ha h4
        omega
    · refine Or.inr (Or.inr ⟨hk, ?_, rfl⟩)
      intro a ha
      have := h4 _ ha; have := w.lo ha; omega

/-- `uat(R(k+1)-1)` is `ohr(k)` -/
theorem ohr_of_R {S : GC} (w : Wf S) {k l : Int} {r : Ann} (hk : k ≠ maxfinity) (hkr : InRange k)
    (hl : RSpec S (k + 1) l) (ht : UatSpec S (l - 1) r) : OhrSpec S k r := by
  rcases hl.cases with ⟨h, _⟩ | ⟨_, r0, hr0, rfl, h1, h2⟩ | ⟨_, h1, rfl⟩
  · omega
  · rcases ht with ⟨h, _⟩ | ⟨h3, h4, h5, h6⟩ | ⟨h3, h4, rfl⟩
    · have := w.hi hr0; omega
    · refine Or.inr (Or.inl ⟨hk, h4, ?_, ?_⟩)
      · have := (w.p_lt_iff h4 hr0).2 (by omega)
        by_cases hh : k + 1 ≤ r.p
        · have := h2 _ h4 hh; omega
        · omega
      · intro a ha hka
        have h7 : a.q < r0.q := w.mono ha hr0 (by omega)
        have := h6 _ ha (by omega)
        have := w.p_lt_iff h4 ha
        omega
    · refine Or.inr (Or.inr ⟨hk, ?_, rfl⟩)
      intro a ha
      have := h4 _ ha
      have := w.p_lt_iff ha hr0
      omega
  · rcases ht with ⟨h, _⟩ | ⟨h3, h4, h5, h6⟩ | ⟨h3, h4, rfl⟩
    · omega
    · refine Or.inr (Or.inl ⟨hk, h4, ?_, ?_⟩)
      · have := h1 _ h4; omega
      · intro a ha hka
        have := h6 _ ha (by have := w.hi ha; omega)
        have := w.p_lt_iff h4 ha
        omega
    · refine Or.inr (Or.inr ⟨hk, ?_, rfl⟩)
      intro a ha
      have := h4 _ ha; have := w.hi ha; omega

theorem Ok.combRho {τ : Type} {S : GC} (w : Wf S) {I : St τ → Prop} {L : Int → M (St τ) Int}
    {tau : Int → M (St τ) Ann}
    (hL : ∀ k, InRange k → Ok I (L k) (LSpec S k))
    (hT : ∀ k, InRange k → Ok I (tau k) (TauSpec S k)) {k : Int} (hk : InRange k) :
    Ok I (combRho L tau k) (RhoSpec S k) := by
  unfold Hopper.combRho
  refine Ok.ite (fun h => Ok.pure (Or.inl ⟨h, rfl⟩)) (fun h => ?_)
  refine Ok.bind (Ok.ck (by omega) (by omega)) ?_
  rintro _ rfl
  refine Ok.bind (hL _ (by omega)) ?_
  intro l hl
  have hlr := hl.range w
  refine Ok.ite (fun h1 => ?_) (fun h1 => ?_)
  · exfalso
    rcases hl.cases with ⟨h, _⟩ | ⟨_, r0, hr0, rfl, _⟩ | ⟨_, _, rfl⟩
    · omega
    · have := w.hi hr0; have := w.le hr0; omega
    · omega
  · refine Ok.bind (Ok.ck (by omega) (by omega)) ?_
    rintro _ rfl
    exact (hT _ (by omega)).mono fun r hr => rho_of_L w h hk hl hr

theorem Ok.combOhr {τ : Type} {S : GC} (w : Wf S) {I : St τ → Prop} {R : Int → M (St τ) Int}
    {uat : Int → M (St τ) Ann}
    (hR : ∀ k, InRange k → Ok I (R k) (RSpec S k))
    (hU : ∀ k, InRange k → Ok I (uat k) (UatSpec S k)) {k : Int} (hk : InRange k) :
    Ok I (combOhr R uat k) (OhrSpec S k) := by
  unfold Hopper.combOhr
  refine Ok.ite (fun h => Ok.pure (Or.inl ⟨h, rfl⟩)) (fun h => ?_)
  refine Ok.bind (Ok.ck (by omega) (by omega)) ?_
  rintro _ rfl
  refine Ok.bind (hR _ (by omega)) ?_
  intro l hl
  have hlr := hl.range w
  refine Ok.ite (fun h1 => ?_) (fun h1 => ?_)
  · exfalso
    rcases hl.cases with ⟨h, _⟩ | ⟨_, r0, hr0, rfl, _⟩ | ⟨_, _, rfl⟩
    · omega
    · have := w.lo hr0; have := w.le hr0; omega
    · omega
  · refine Ok.bind (Ok.ck (by omega) (by omega)) ?_
    rintro _ rfl
    exact (hU _ (by omega)).mono fun r hr => ohr_of_R w h hk hl hr

theorem comb_impl {τ : Type} {S : GC} (w : Wf S) (hv : ∀ a, S a → a.v = 0) {J : τ → Prop}
    {init : τ} {L R : Int → M (St τ) Int} (hi : J init)
    (hL : ∀ k, InRange k → Ok (NInv S J) (L k) (LSpec S k))
    (hR : ∀ k, InRange k → Ok (NInv S J) (R k) (RSpec S k)) :
    Impl (combObj init L R) (NInv S J) S := by
  have t : ∀ k, InRange k → Ok (NInv S J) (memoTau (combTau L R) k) (TauSpec S k) := by
    intro k hk
    refine Ok.memoTau (Ok.bind (hR k hk) fun q hq => Ok.bind (hL q (hq.range w)) fun p hp => ?_)
    exact Ok.pure (comb_tau_spec w hv hq hp)
  have u : ∀ k, InRange k → Ok (NInv S J) (memoUat (combUat L R) k) (UatSpec S k) := by
    intro k hk
    refine Ok.memoUat (Ok.bind (hL k hk) fun q hq => Ok.bind (hR q (hq.range w)) fun p hp => ?_)
    exact Ok.pure (comb_uat_spec w hv hq hp)
  exact ⟨⟨memoOk_init _, hi⟩, t, fun k hk => Ok.memoRho (Ok.combRho w hL t hk), u,
    fun k hk => Ok.memoOhr (Ok.combOhr w hR u hk), hL, hR⟩

/-! ### minimal intervals of a set -/

/-- every interval of `X` is non-empty and strictly between the infinities -/
def XWf (X : Int → Int → Prop) : Prop :=
  ∀ p q, X p q → minfinity < p ∧ p ≤ q ∧ q < maxfinity

theorem minimal_v {X : Int → Int → Prop} (a : Ann) (h : minimal X a) : a.v = 0 := h.1

theorem minimal_wf {X : Int → Int → Prop} (hX : XWf X) : Wf (minimal X) := by
  refine ⟨fun h => (hX _ _ h.2.1).1, fun h => (hX _ _ h.2.1).2.2, fun h => (hX _ _ h.2.1).2.1, ?_, ?_⟩
  · intro a b ha hb h
    by_cases hh : a.q < b.q
    · exact hh
    · have := ha.2.2 _ _ hb.2.1 (by omega) (by omega); omega
  · intro a b ha hb h
    have h1 : a.q = b.q := by
      by_cases hh : a.q ≤ b.q
      · exact (hb.2.2 _ _ ha.2.1 (by omega) hh).2
      · exact ((ha.2.2 _ _ hb.2.1 (by omega) (by omega)).2).symm
    cases a; cases b
    have := ha.1; have := hb.1
    simp_all

/-- below every interval of `X` there is a minimal one -/
theorem exists_minimal {X : Int → Int → Prop} (hX : XWf X) {p q : Int} (h : X p q) :
    ∃ a, minimal X a ∧ p ≤ a.p ∧ a.q ≤ q := by
  generalize hn : (q - p).toNat = n
  induction n using Nat.strongRecOn generalizing p q with
  | _ n ih =>
    by_cases hm : ∀ p' q', X p' q' → p ≤ p' → q' ≤ q → p' = p ∧ q' = q
    · exact ⟨⟨p, q, 0⟩, ⟨rfl, h, hm⟩, Int.le_refl _, Int.le_refl _⟩
    · simp only [Classical.not_forall] at hm
      obtain ⟨p', q', h', hp, hq, hne⟩ := hm
      have := hX _ _ h; have := hX _ _ h'
      obtain ⟨a, ha, h1, h2⟩ := ih (q' - p').toNat (by omega) h' rfl
      exact ⟨a, ha, by omega, by omega⟩

/-- L on the minimal intervals: the largest start of an interval of `X` ending by `k` -/
theorem LSpec_minimal {X : Int → Int → Prop} (hX : XWf X) {k l : Int}
    (h : (k = maxfinity ∧ l = maxfinity) ∨
      (k ≠ maxfinity ∧ (∃ q, X l q ∧ q ≤ k) ∧ ∀ p q, X p q → q ≤ k → p ≤ l) ∨
      (k ≠ maxfinity ∧ (∀ p q, X p q → k < q) ∧ l = minfinity)) : LSpec (minimal X) k l := by
  rcases h with ⟨rfl, rfl⟩ | ⟨hk, ⟨q, hq, hqk⟩, hmax⟩ | ⟨hk, hn, rfl⟩
  · exact ⟨highEnd, Or.inl ⟨rfl, rfl⟩, rfl⟩
  · obtain ⟨a, ha, h1, h2⟩ := exists_minimal hX hq
    have h3 := hmax _ _ ha.2.1 (by omega)
    refine ⟨a, Or.inr (Or.inl ⟨hk, ha, by omega, ?_⟩), by omega⟩
    intro b hb hbk
    have h4 := hmax _ _ hb.2.1 hbk
    have := (minimal_wf hX).p_lt_iff ha hb
    omega
  · exact ⟨lowEnd, Or.inr (Or.inr ⟨hk, fun a ha => hn _ _ ha.2.1, rfl⟩), rfl⟩

theorem RSpec_minimal {X : Int → Int → Prop} (hX : XWf X) {k r : Int}
    (h : (k = minfinity ∧ r = minfinity) ∨
      (k ≠ minfinity ∧ (∃ p, X p r ∧ k ≤ p) ∧ ∀ p q, X p q → k ≤ p → r ≤ q) ∨
      (k ≠ minfinity ∧ (∀ p q, X p q → p < k) ∧ r = maxfinity)) : RSpec (minimal X) k r := by
  rcases h with ⟨rfl, rfl⟩ | ⟨hk, ⟨q, hq, hqk⟩, hmax⟩ | ⟨hk, hn, rfl⟩
  · exact ⟨lowEnd, Or.inl ⟨rfl, rfl⟩, rfl⟩
  · obtain ⟨a, ha, h1, h2⟩ := exists_minimal hX hq
    have h3 := hmax _ _ ha.2.1 (by omega)
    refine ⟨a, Or.inr (Or.inl ⟨hk, ha, by omega, ?_⟩), by omega⟩
    intro b hb hbk
    have h4 := hmax _ _ hb.2.1 hbk
    have := (minimal_wf hX).p_lt_iff hb ha
    omega
  · exact ⟨highEnd, Or.inr (Or.inr ⟨hk, fun a ha => hn _ _ ha.2.1, rfl⟩), rfl⟩

section ops
variable {A B : Obj} {IA : A.σ → Prop} {IB : B.σ → Prop} {SA SB : GC}

theorem bothX_wf (wA : Wf SA) (wB : Wf SB) : XWf (bothX SA SB) := by
  rintro p q ⟨a, b, ha, hb, rfl, rfl⟩
  have := wA.lo ha; have := wA.hi ha; have := wA.le ha
  have := wB.lo hb; have := wB.hi hb; have := wB.le hb
  omega
theorem eitherX_wf (wA : Wf SA) (wB : Wf SB) : XWf (eitherX SA SB) := by
  rintro p q ⟨a, ha | ha, rfl, rfl⟩
  · exact ⟨wA.lo ha, wA.le ha, wA.hi ha⟩
  · exact ⟨wB.lo ha, wB.le ha, wB.hi ha⟩
theorem beforeX_wf (wA : Wf SA) (wB : Wf SB) : XWf (beforeX SA SB) := by
  rintro p q ⟨a, b, ha, hb, h, rfl, rfl⟩
  have := wA.lo ha; have := wA.hi ha; have := wA.le ha
  have := wB.lo hb; have := wB.hi hb; have := wB.le hb
  omega

theorem and_impl (wA : Wf SA) (wB : Wf SB) (hA : Impl A IA SA) (hB : Impl B IB SB) :
    Impl (andObj A B) (NInv (allOf SA SB) (PInv IA IB)) (allOf SA SB) := by
  refine comb_impl (minimal_wf (bothX_wf wA wB)) minimal_v ⟨hA.init, hB.init⟩ (fun k hk => ?_) (fun k hk => ?_)
  · refine Ok.bind (Ok.onL (hA.L k hk)) fun l hl => Ok.bind (Ok.onR (hB.L k hk)) fun r hr => Ok.pure ?_
    apply LSpec_minimal (bothX_wf wA wB)
    rcases hl.cases with ⟨h1, h2⟩ | ⟨h1, a, ha, rfl, h2, h3⟩ | ⟨h1, h2, rfl⟩ <;>
    rcases hr.cases with ⟨g1, g2⟩ | ⟨g1, b, hb, rfl, g2, g3⟩ | ⟨g1, g2, rfl⟩
    · exact Or.inl ⟨h1, by omega⟩
    · omega
    · omega
    · omega
    · refine Or.inr (Or.inl ⟨h1, ⟨max a.q b.q, ⟨a, b, ha, hb, rfl, rfl⟩, by omega⟩, ?_⟩)
      rintro p q ⟨a', b', ha', hb', rfl, rfl⟩ hq
      have := h3 _ ha' (by omega); have := g3 _ hb' (by omega)
      have := wA.p_lt_iff ha ha'; have := wB.p_lt_iff hb hb'
      omega
    · refine Or.inr (Or.inr ⟨h1, ?_, by have := wA.lo ha; omega⟩)
      rintro p q ⟨a', b', ha', hb', rfl, rfl⟩
      have := g2 _ hb'; omega
    · omega
    · refine Or.inr (Or.inr ⟨h1, ?_, by have := wB.lo hb; omega⟩)
      rintro p q ⟨a', b', ha', hb', rfl, rfl⟩
      have := h2 _ ha'; omega
    · refine Or.inr (Or.inr ⟨h1, ?_, by omega⟩)
      rintro p q ⟨a', b', ha', hb', rfl, rfl⟩
      have := h2 _ ha'; omega
  · refine Ok.bind (Ok.onL (hA.R k hk)) fun l hl => Ok.bind (Ok.onR (hB.R k hk)) fun r hr => Ok.pure ?_
    apply RSpec_minimal (bothX_wf wA wB)
    rcases hl.cases with ⟨h1, h2⟩ | ⟨h1, a, ha, rfl, h2, h3⟩ | ⟨h1, h2, rfl⟩ <;>
    rcases hr.cases with ⟨g1, g2⟩ | ⟨g1, b, hb, rfl, g2, g3⟩ | ⟨g1, g2, rfl⟩
    · exact Or.inl ⟨h1, by omega⟩
    · omega
    · omega
    · omega
    · refine Or.inr (Or.inl ⟨h1, ⟨min a.p b.p, ⟨a, b, ha, hb, rfl, rfl⟩, by omega⟩, ?_⟩)
      rintro p q ⟨a', b', ha', hb', rfl, rfl⟩ hq
      have := h3 _ ha' (by omega); have := g3 _ hb' (by omega)
      have := wA.p_lt_iff ha' ha; have := wB.p_lt_iff hb' hb
      omega
    · refine Or.inr (Or.inr ⟨h1, ?_, by have := wA.hi ha; omega⟩)
      rintro p q ⟨a', b', ha', hb', rfl, rfl⟩
      have := g2 _ hb'; omega
    · omega
    · refine Or.inr (Or.inr ⟨h1, ?_, by have := wB.hi hb; omega⟩)
      rintro p q ⟨a', b', ha', hb', rfl, rfl⟩
      have := h2 _ ha'; omega
    · refine Or.inr (Or.inr ⟨h1, ?_, by omega⟩)
      rintro p q ⟨a', b', ha', hb', rfl, rfl⟩
      have := h2 _ ha'; omega

theorem or_impl (wA : Wf SA) (wB : Wf SB) (hA : Impl A IA SA) (hB : Impl B IB SB) :
    Impl (orObj A B) (NInv (oneOf SA SB) (PInv IA IB)) (oneOf SA SB) := by
  refine comb_impl (minimal_wf (eitherX_wf wA wB)) minimal_v ⟨hA.init, hB.init⟩ (fun k hk => ?_) (fun k hk => ?_)
  · refine Ok.bind (Ok.onL (hA.L k hk)) fun l hl => Ok.bind (Ok.onR (hB.L k hk)) fun r hr => Ok.pure ?_
    apply LSpec_minimal (eitherX_wf wA wB)
    rcases hl.cases with ⟨h1, h2⟩ | ⟨h1, a, ha, rfl, h2, h3⟩ | ⟨h1, h2, rfl⟩ <;>
    rcases hr.cases with ⟨g1, g2⟩ | ⟨g1, b, hb, rfl, g2, g3⟩ | ⟨g1, g2, rfl⟩
    · exact Or.inl ⟨h1, by omega⟩
    · omega
    · omega
    · omega
    · refine Or.inr (Or.inl ⟨h1, ?_, ?_⟩)
      · by_cases hh : b.p ≤ a.p
        · exact ⟨a.q, ⟨a, Or.inl ha, by omega, rfl⟩, h2⟩
        · exact ⟨b.q, ⟨b, Or.inr hb, by omega, rfl⟩, g2⟩
      · rintro p q ⟨a', ha' | ha', rfl, rfl⟩ hq
        · have := h3 _ ha' hq; have := wA.p_lt_iff ha ha'; omega
        · have := g3 _ ha' hq; have := wB.p_lt_iff hb ha'; omega
    · refine Or.inr (Or.inl ⟨h1, ⟨a.q, ⟨a, Or.inl ha, by have := wA.lo ha; omega, rfl⟩, h2⟩, ?_⟩)
      rintro p q ⟨a', ha' | ha', rfl, rfl⟩ hq
      · have := h3 _ ha' hq; have := wA.p_lt_iff ha ha'; omega
      · have := g2 _ ha'; omega
    · omega
    · refine Or.inr (Or.inl ⟨h1, ⟨b.q, ⟨b, Or.inr hb, by have := wB.lo hb; omega, rfl⟩, g2⟩, ?_⟩)
      rintro p q ⟨a', ha' | ha', rfl, rfl⟩ hq
      · have := h2 _ ha'; omega
      · have := g3 _ ha' hq; have := wB.p_lt_iff hb ha'; omega
    · refine Or.inr (Or.inr ⟨h1, ?_, by omega⟩)
      rintro p q ⟨a', ha' | ha', rfl, rfl⟩
      · have := h2 _ ha'; omega
      · have := g2 _ ha'; omega
  · refine Ok.bind (Ok.onL (hA.R k hk)) fun l hl => Ok.bind (Ok.onR (hB.R k hk)) fun r hr => Ok.pure ?_
    apply RSpec_minimal (eitherX_wf wA wB)
    rcases hl.cases with ⟨h1, h2⟩ | ⟨h1, a, ha, rfl, h2, h3⟩ | ⟨h1, h2, rfl⟩ <;>
    rcases hr.cases with ⟨g1, g2⟩ | ⟨g1, b, hb, rfl, g2, g3⟩ | ⟨g1, g2, rfl⟩
    · exact Or.inl ⟨h1, by omega⟩
    · omega
    · omega
    · omega
    · refine Or.inr (Or.inl ⟨h1, ?_, ?_⟩)
      · by_cases hh : a.q ≤ b.q
        · exact ⟨a.p, ⟨a, Or.inl ha, rfl, by omega⟩, h2⟩
        · exact ⟨b.p, ⟨b, Or.inr hb, rfl, by omega⟩, g2⟩
      · rintro p q ⟨a', ha' | ha', rfl, rfl⟩ hq
        · have := h3 _ ha' hq; have := wA.p_lt_iff ha' ha; omega
        · have := g3 _ ha' hq; have := wB.p_lt_iff ha' hb; omega
    · refine Or.inr (Or.inl ⟨h1, ⟨a.p, ⟨a, Or.inl ha, rfl, by have := wA.hi ha; omega⟩, h2⟩, ?_⟩)
      rintro p q ⟨a', ha' | ha', rfl, rfl⟩ hq
      · have := h3 _ ha' hq; have := wA.p_lt_iff ha' ha; omega
      · have := g2 _ ha'; omega
    · omega
    · refine Or.inr (Or.inl ⟨h1, ⟨b.p, ⟨b, Or.inr hb, rfl, by have := wB.hi hb; omega⟩, g2⟩, ?_⟩)
      rintro p q ⟨a', ha' | ha', rfl, rfl⟩ hq
      · have := h2 _ ha'; omega
      · have := g3 _ ha' hq; have := wB.p_lt_iff ha' hb; omega
    · refine Or.inr (Or.inr ⟨h1, ?_, by omega⟩)
      rintro p q ⟨a', ha' | ha', rfl, rfl⟩
      · have := h2 _ ha'; omega
      · have := g2 _ ha'; omega

theorem followedBy_impl (wA : Wf SA) (wB : Wf SB) (hA : Impl A IA SA) (hB : Impl B IB SB) :
    Impl (followedByObj A B) (NInv (followedBy SA SB) (PInv IA IB)) (followedBy SA SB) := by
  refine comb_impl (minimal_wf (beforeX_wf wA wB)) minimal_v ⟨hA.init, hB.init⟩ (fun k hk => ?_) (fun k hk => ?_)
  · refine Ok.bind (Ok.onR (hB.L k hk)) fun l hl => ?_
    have hlr := hl.range wB
    have red : ∀ x, LSpec (followedBy SA SB) k x = LSpec (minimal (beforeX SA SB)) k x := fun _ => rfl
    rcases hl.cases with ⟨h1, rfl⟩ | ⟨h1, b, hb, rfl, h2, h3⟩ | ⟨h1, h2, rfl⟩
    · refine Ok.ite (fun h => by omega) fun _ => Ok.ite (fun _ => Ok.pure ?_) (fun h => absurd rfl h)
      exact LSpec_minimal (beforeX_wf wA wB) (Or.inl ⟨h1, rfl⟩)
    · have hlo := wB.lo hb; have hhi := wB.hi hb; have hle := wB.le hb
      refine Ok.ite (fun h => by omega) fun _ => Ok.ite (fun h => by omega) fun _ => ?_
      refine Ok.bind (Ok.ck (by omega) (by omega)) ?_
      rintro _ rfl
      refine Ok.mono (Ok.onL (hA.L _ (by omega))) fun x hx => ?_
      apply LSpec_minimal (beforeX_wf wA wB)
      have key : ∀ b', SB b' → b'.q ≤ k → b'.p ≤ b.p := fun b' hb' hbk => by
        have := h3 _ hb' hbk; have := wB.p_lt_iff hb hb'; omega
      rcases hx.cases with ⟨g1, g2⟩ | ⟨g1, a, ha, rfl, g2, g3⟩ | ⟨g1, g2, rfl⟩
      · omega
      · refine Or.inr (Or.inl ⟨h1, ⟨b.q, ⟨a, b, ha, hb, by omega, rfl, rfl⟩, h2⟩, ?_⟩)
        rintro p q ⟨a', b', ha', hb', hlt, rfl, rfl⟩ hq
        have := key _ hb' hq
        have := g3 _ ha' (by omega)
        have := wA.p_lt_iff ha ha'; omega
      · refine Or.inr (Or.inr ⟨h1, ?_, rfl⟩)
        rintro p q ⟨a', b', ha', hb', hlt, rfl, rfl⟩
        have := g2 _ ha'
        by_cases hh : b'.q ≤ k
        · have := key _ hb' hh; omega
        · omega
    · refine Ok.ite (fun _ => Ok.pure ?_) (fun h => absurd rfl h)
      refine LSpec_minimal (beforeX_wf wA wB) (Or.inr (Or.inr ⟨h1, ?_, rfl⟩))
      rintro p q ⟨a', b', ha', hb', hlt, rfl, rfl⟩
      exact h2 _ hb'
  · refine Ok.bind (Ok.onL (hA.R k hk)) fun l hl => ?_
    have hlr := hl.range wA
    rcases hl.cases with ⟨h1, rfl⟩ | ⟨h1, a, ha, rfl, h2, h3⟩ | ⟨h1, h2, rfl⟩
    · refine Ok.ite (fun _ => Ok.pure ?_) (fun h => absurd rfl h)
      exact RSpec_minimal (beforeX_wf wA wB) (Or.inl ⟨h1, rfl⟩)
    · have hlo := wA.lo ha; have hhi := wA.hi ha; have hle := wA.le ha
      refine Ok.ite (fun h => by omega) fun _ => Ok.ite (fun h => by omega) fun _ => ?_
      refine Ok.bind (Ok.ck (by omega) (by omega)) ?_
      rintro _ rfl
      refine Ok.mono (Ok.onR (hB.R _ (by omega))) fun x hx => ?_
      apply RSpec_minimal (beforeX_wf wA wB)
      have key : ∀ a', SA a' → k ≤ a'.p → a.q ≤ a'.q := fun a' ha' hbk => by
        have := h3 _ ha' hbk; have := wA.p_lt_iff ha' ha; omega
      rcases hx.cases with ⟨g1, g2⟩ | ⟨g1, b, hb, rfl, g2, g3⟩ | ⟨g1, g2, rfl⟩
      · omega
      · refine Or.inr (Or.inl ⟨h1, ⟨a.p, ⟨a, b, ha, hb, by omega, rfl, rfl⟩, h2⟩, ?_⟩)
        rintro p q ⟨a', b', ha', hb', hlt, rfl, rfl⟩ hq
        have := key _ ha' hq
        have := g3 _ hb' (by omega)
        have := wB.p_lt_iff hb' hb; omega
      · refine Or.inr (Or.inr ⟨h1, ?_, rfl⟩)
        rintro p q ⟨a', b', ha', hb', hlt, rfl, rfl⟩
        have := g2 _ hb'
        by_cases hh : k ≤ a'.p
        · have := key _ ha' hh; omega
        · omega
    · refine Ok.ite (fun h => by omega) fun _ => Ok.ite (fun _ => Ok.pure ?_) (fun h => absurd rfl h)
      refine RSpec_minimal (beforeX_wf wA wB) (Or.inr (Or.inr ⟨h1, ?_, rfl⟩))
      rintro p q ⟨a', b', ha', hb', hlt, rfl, rfl⟩
      exact h2 _ ha'
end ops

end Verif.Hopper
