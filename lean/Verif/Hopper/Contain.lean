import Verif.Hopper.Basic
/-
  The containment operators and two-way merge.
-/
namespace Verif.Hopper

theorem Wf.sub {S T : GC} (w : Wf S) (h : ∀ a, T a → S a) : Wf T :=
  ⟨fun x => w.lo (h _ x), fun x => w.hi (h _ x), fun x => w.le (h _ x),
   fun x y => w.mono (h _ x) (h _ y), fun x y => w.uniq (h _ x) (h _ y)⟩

theorem containedIn_wf {SA : GC} (SB : GC) (w : Wf SA) : Wf (containedIn SA SB) := w.sub fun _ h => h.1
theorem containing_wf {SA : GC} (SB : GC) (w : Wf SA) : Wf (containing SA SB) := w.sub fun _ h => h.1
theorem notContainedIn_wf {SA : GC} (SB : GC) (w : Wf SA) : Wf (notContainedIn SA SB) :=
  w.sub fun _ h => h.1
theorem notContaining_wf {SA : GC} (SB : GC) (w : Wf SA) : Wf (notContaining SA SB) :=
  w.sub fun _ h => h.1

/-! move the key across a solution-free stretch -/

theorem TauSpec.move {S : GC} {k k' : Int} {x : Ann} (h : TauSpec S k' x) (hk : k ≠ minfinity)
    (hk' : k' ≠ minfinity) (hle : k ≤ k') (hfree : ∀ a, S a → k ≤ a.p → k' ≤ a.p) :
    TauSpec S k x := by
  rcases h with ⟨h, _⟩ | ⟨_, h2, h3, h4⟩ | ⟨_, h2, rfl⟩
  · exact absurd h hk'
  · exact Or.inr (Or.inl ⟨hk, h2, by omega, fun a ha hka => h4 a ha (hfree a ha hka)⟩)
  · refine Or.inr (Or.inr ⟨hk, fun a ha => ?_, rfl⟩)
    have := h2 a ha; have := hfree a ha; omega
theorem RhoSpec.move {S : GC} {k k' : Int} {x : Ann} (h : RhoSpec S k' x) (hk : k ≠ minfinity)
    (hk' : k' ≠ minfinity) (hle : k ≤ k') (hfree : ∀ a, S a → k ≤ a.q → k' ≤ a.q) :
    RhoSpec S k x := by
  rcases h with ⟨h, _⟩ | ⟨_, h2, h3, h4⟩ | ⟨_, h2, rfl⟩
  · exact absurd h hk'
  · exact Or.inr (Or.inl ⟨hk, h2, by omega, fun a ha hka => h4 a ha (hfree a ha hka)⟩)
  · refine Or.inr (Or.inr ⟨hk, fun a ha => ?_, rfl⟩)
    have := h2 a ha; have := hfree a ha; omega
theorem UatSpec.move {S : GC} {k k' : Int} {x : Ann} (h : UatSpec S k' x) (hk : k ≠ maxfinity)
    (hk' : k' ≠ maxfinity) (hle : k' ≤ k) (hfree : ∀ a, S a → a.q ≤ k → a.q ≤ k') :
    UatSpec S k x := by
  rcases h with ⟨h, _⟩ | ⟨_, h2, h3, h4⟩ | ⟨_, h2, rfl⟩
  · exact absurd h hk'
  · exact Or.inr (Or.inl ⟨hk, h2, by omega, fun a ha hka => h4 a ha (hfree a ha hka)⟩)
  · refine Or.inr (Or.inr ⟨hk, fun a ha => ?_, rfl⟩)
    have := h2 a ha; have := hfree a ha; omega
theorem OhrSpec.move {S : GC} {k k' : Int} {x : Ann} (h : OhrSpec S k' x) (hk : k ≠ maxfinity)
    (hk' : k' ≠ maxfinity) (hle : k' ≤ k) (hfree : ∀ a, S a → a.p ≤ k → a.p ≤ k') :
    OhrSpec S k x := by
  rcases h with ⟨h, _⟩ | ⟨_, h2, h3, h4⟩ | ⟨_, h2, rfl⟩
  · exact absurd h hk'
  · exact Or.inr (Or.inl ⟨hk, h2, by omega, fun a ha hka => h4 a ha (hfree a ha hka)⟩)
  · refine Or.inr (Or.inr ⟨hk, fun a ha => ?_, rfl⟩)
    have := h2 a ha; have := hfree a ha; omega

/-! a sublist's answer from the full list's answer by the other kind of lookup -/

theorem rho_via_tau {S T : GC} (w : Wf S) (hs : ∀ a, T a → S a) {k : Int} {r x : Ann}
    (hr : RhoSpec S k r) (hx : TauSpec T r.p x) : RhoSpec T k x := by
  rcases hr with ⟨rfl, rfl⟩ | ⟨hk, h1, h2, h3⟩ | ⟨hk, h1, rfl⟩
  · rcases hx with ⟨_, rfl⟩ | ⟨h, _⟩ | ⟨h, _⟩
    · exact Or.inl ⟨rfl, rfl⟩
    · exact absurd rfl h
    · exact absurd rfl h
  · have hlo := w.lo h1
    rcases hx with ⟨h, _⟩ | ⟨_, g1, g2, g3⟩ | ⟨_, g1, rfl⟩
    · omega
    · have hxs := hs _ g1
      have := w.p_lt_iff hxs h1
      refine Or.inr (Or.inl ⟨hk, g1, by omega, fun a ha hka => ?_⟩)
      have h4 := h3 _ (hs _ ha) hka
      have := w.p_lt_iff (hs _ ha) h1
      have := g3 _ ha (by omega)
      have := w.p_lt_iff (hs _ ha) hxs
      omega
    · refine Or.inr (Or.inr ⟨hk, fun a ha => ?_, rfl⟩)
      have := g1 _ ha
      have := w.p_lt_iff (hs _ ha) h1
      by_cases hh : k ≤ a.q
      · have := h3 _ (hs _ ha) hh; omega
      · omega
  · rcases hx with ⟨h, _⟩ | ⟨_, g1, g2, g3⟩ | ⟨_, g1, rfl⟩
    · simp at h
    · have := w.hi (hs _ g1); have := w.le (hs _ g1); simp only at g2; omega
    · exact Or.inr (Or.inr ⟨hk, fun a ha => h1 _ (hs _ ha), rfl⟩)

theorem tau_via_rho {S T : GC} (w : Wf S) (hs : ∀ a, T a → S a) {k : Int} {r x : Ann}
    (hr : TauSpec S k r) (hx : RhoSpec T r.q x) : TauSpec T k x := by
  rcases hr with ⟨rfl, rfl⟩ | ⟨hk, h1, h2, h3⟩ | ⟨hk, h1, rfl⟩
  · rcases hx with ⟨_, rfl⟩ | ⟨h, _⟩ | ⟨h, _⟩
    · exact Or.inl ⟨rfl, rfl⟩
    · exact absurd rfl h
    · exact absurd rfl h
  · have hlo := w.lo h1; have := w.le h1
    rcases hx with ⟨h, _⟩ | ⟨_, g1, g2, g3⟩ | ⟨_, g1, rfl⟩
    · omega
    · have hxs := hs _ g1
      have := w.p_lt_iff hxs h1
      refine Or.inr (Or.inl ⟨hk, g1, by omega, fun a ha hka => ?_⟩)
      have h4 := h3 _ (hs _ ha) hka
      have := w.p_lt_iff (hs _ ha) h1
      have := g3 _ ha (by omega)
      have := w.p_lt_iff (hs _ ha) hxs
      omega
    · refine Or.inr (Or.inr ⟨hk, fun a ha => ?_, rfl⟩)
      have := g1 _ ha
      have := w.p_lt_iff (hs _ ha) h1
      by_cases hh : k ≤ a.p
      · have := h3 _ (hs _ ha) hh; omega
      · omega
  · rcases hx with ⟨h, _⟩ | ⟨_, g1, g2, g3⟩ | ⟨_, g1, rfl⟩
    · simp at h
    · have := w.hi (hs _ g1); have := w.le (hs _ g1); simp only at g2; omega
    · exact Or.inr (Or.inr ⟨hk, fun a ha => h1 _ (hs _ ha), rfl⟩)

theorem ohr_via_uat {S T : GC} (w : Wf S) (hs : ∀ a, T a → S a) {k : Int} {r x : Ann}
    (hr : OhrSpec S k r) (hx : UatSpec T r.q x) : OhrSpec T k x := by
  rcases hr with ⟨rfl, rfl⟩ | ⟨hk, h1, h2, h3⟩ | ⟨hk, h1, rfl⟩
  · rcases hx with ⟨_, rfl⟩ | ⟨h, _⟩ | ⟨h, _⟩
    · exact Or.inl ⟨rfl, rfl⟩
    · exact absurd rfl h
    · exact absurd rfl h
  · have hlo := w.hi h1; have := w.le h1
    rcases hx with ⟨h, _⟩ | ⟨_, g1, g2, g3⟩ | ⟨_, g1, rfl⟩
    · omega
    · have hxs := hs _ g1
      have := w.p_lt_iff h1 hxs
      refine Or.inr (Or.inl ⟨hk, g1, by omega, fun a ha hka => ?_⟩)
      have h4 := h3 _ (hs _ ha) hka
      have := w.p_lt_iff h1 (hs _ ha)
      have := g3 _ ha (by omega)
      have := w.p_lt_iff hxs (hs _ ha)
      omega
    · refine Or.inr (Or.inr ⟨hk, fun a ha => ?_, rfl⟩)
      have := g1 _ ha
      have := w.p_lt_iff h1 (hs _ ha)
      by_cases hh : a.p ≤ k
      · have := h3 _ (hs _ ha) hh; omega
      · omega
  · rcases hx with ⟨h, _⟩ | ⟨_, g1, g2, g3⟩ | ⟨_, g1, rfl⟩
    · simp at h
    · have := w.lo (hs _ g1); have := w.le (hs _ g1); simp only at g2; omega
    · exact Or.inr (Or.inr ⟨hk, fun a ha => h1 _ (hs _ ha), rfl⟩)

theorem uat_via_ohr {S T : GC} (w : Wf S) (hs : ∀ a, T a → S a) {k : Int} {r x : Ann}
    (hr : UatSpec S k r) (hx : OhrSpec T r.p x) : UatSpec T k x := by
  rcases hr with ⟨rfl, rfl⟩ | ⟨hk, h1, h2, h3⟩ | ⟨hk, h1, rfl⟩
  · rcases hx with ⟨_, rfl⟩ | ⟨h, _⟩ | ⟨h, _⟩
    · exact Or.inl ⟨rfl, rfl⟩
    · exact absurd rfl h
    · exact absurd rfl h
  · have hlo := w.hi h1; have := w.le h1
    rcases hx with ⟨h, _⟩ | ⟨_, g1, g2, g3⟩ | ⟨_, g1, rfl⟩
    · omega
    · have hxs := hs _ g1
      have := w.p_lt_iff h1 hxs
      refine Or.inr (Or.inl ⟨hk, g1, by omega, fun a ha hka => ?_⟩)
      have h4 := h3 _ (hs _ ha) hka
      have := w.p_lt_iff h1 (hs _ ha)
      have := g3 _ ha (by omega)
      have := w.p_lt_iff hxs (hs _ ha)
      omega
    · refine Or.inr (Or.inr ⟨hk, fun a ha => ?_, rfl⟩)
      have := g1 _ ha
      have := w.p_lt_iff h1 (hs _ ha)
      by_cases hh : a.q ≤ k
      · have := h3 _ (hs _ ha) hh; omega
      · omega
  · rcases hx with ⟨h, _⟩ | ⟨_, g1, g2, g3⟩ | ⟨_, g1, rfl⟩
    · simp at h
    · have := w.lo (hs _ g1); have := w.le (hs _ g1); simp only at g2; omega
    · exact Or.inr (Or.inr ⟨hk, fun a ha => h1 _ (hs _ ha), rfl⟩)

section ops
variable {A B : Obj} {IA : A.σ → Prop} {IB : B.σ → Prop} {SA SB : GC}

/-! #### ContainedIn -/

theorem cinTau_ok (T : GC) (wA : Wf SA) (wB : Wf SB) (hA : Impl A IA SA) (hB : Impl B IB SB) :
    ∀ (fuel : Nat) (k : Int), InRange k → (maxfinity - k).toNat < fuel →
      Ok (NInv T (PInv IA IB)) (cinTau A B fuel k) (TauSpec (containedIn SA SB) k) := by
  intro fuel
  induction fuel with
  | zero => intro k _ h; omega
  | succ fuel ih =>
    intro k hk hf
    unfold cinTau
    refine Ok.bind (Ok.onL (hA.tau k hk)) fun r hr => ?_
    rcases hr with ⟨rfl, rfl⟩ | ⟨hk0, h1, h2, h3⟩ | ⟨hk0, h1, rfl⟩
    · refine Ok.ite (fun h => by simp at h) fun _ => ?_
      refine Ok.bind (Ok.onR (hB.rho minfinity (by decide))) fun b hb => ?_
      rcases hb with ⟨_, rfl⟩ | ⟨h, _⟩ | ⟨h, _⟩
      · exact Ok.ite (fun _ => Ok.pure (Or.inl ⟨rfl, rfl⟩)) (fun h => by simp at h)
      · exact absurd rfl h
      · exact absurd rfl h
    · have hlo := wA.lo h1; have hhi := wA.hi h1; have hle := wA.le h1
      refine Ok.ite (fun h => by omega) fun _ => ?_
      refine Ok.bind (Ok.onR (hB.rho r.q (by omega))) fun b hb => ?_
      rcases hb with ⟨h, _⟩ | ⟨_, g1, g2, g3⟩ | ⟨_, g1, rfl⟩
      · omega
      · have := wB.lo g1; have := wB.hi g1; have := wB.le g1
        refine Ok.ite (fun hbp => ?_) (fun hbp => ?_)
        · exact Ok.pure (Or.inr (Or.inl ⟨hk0, ⟨h1, b, g1, by omega, by omega⟩, h2,
            fun a ha hka => h3 a ha.1 hka⟩))
        · refine (ih b.p (by omega) (by omega)).mono fun x hx => ?_
          refine hx.move hk0 (by omega) (by omega) ?_
          rintro a ⟨ha, b', hb', h5, h6⟩ hka
          have := h3 _ ha hka
          have := wA.p_lt_iff ha h1
          have := g3 _ hb' (by omega)
          have := wB.p_lt_iff hb' g1
          omega
      · refine Ok.ite (fun h => by simp only at h; omega) fun _ => ?_
        refine (ih maxfinity (by decide) (by omega)).mono fun x hx => ?_
        refine hx.move hk0 (by omega) (by omega) ?_
        rintro a ⟨ha, b', hb', h5, h6⟩ hka
        have := h3 _ ha hka
        have := wA.p_lt_iff ha h1
        have := g1 _ hb'
        omega
    · exact Ok.ite (fun _ => Ok.pure (Or.inr (Or.inr ⟨hk0, fun a ha => h1 a ha.1, rfl⟩)))
        (fun h => absurd rfl h)

theorem cinUat_ok (T : GC) (wA : Wf SA) (wB : Wf SB) (hA : Impl A IA SA) (hB : Impl B IB SB) :
    ∀ (fuel : Nat) (k : Int), InRange k → (k - minfinity).toNat < fuel →
      Ok (NInv T (PInv IA IB)) (cinUat A B fuel k) (UatSpec (containedIn SA SB) k) := by
  intro fuel
  induction fuel with
  | zero => intro k _ h; omega
  | succ fuel ih =>
    intro k hk hf
    unfold cinUat
    refine Ok.bind (Ok.onL (hA.uat k hk)) fun r hr => ?_
    rcases hr with ⟨rfl, rfl⟩ | ⟨hk0, h1, h2, h3⟩ | ⟨hk0, h1, rfl⟩
    · refine Ok.ite (fun h => by simp at h) fun _ => ?_
      refine Ok.bind (Ok.onR (hB.ohr maxfinity (by decide))) fun b hb => ?_
      rcases hb with ⟨_, rfl⟩ | ⟨h, _⟩ | ⟨h, _⟩
      · exact Ok.ite (fun _ => Ok.pure (Or.inl ⟨rfl, rfl⟩)) (fun h => by simp at h)
      · exact absurd rfl h
      · exact absurd rfl h
    · have hlo := wA.lo h1; have hhi := wA.hi h1; have hle := wA.le h1
      refine Ok.ite (fun h => by omega) fun _ => ?_
      refine Ok.bind (Ok.onR (hB.ohr r.p (by omega))) fun b hb => ?_
      rcases hb with ⟨h, _⟩ | ⟨_, g1, g2, g3⟩ | ⟨_, g1, rfl⟩
      · omega
      · have := wB.lo g1; have := wB.hi g1; have := wB.le g1
        refine Ok.ite (fun hbp => ?_) (fun hbp => ?_)
        · exact Ok.pure (Or.inr (Or.inl ⟨hk0, ⟨h1, b, g1, by omega, by omega⟩, h2,
            fun a ha hka => h3 a ha.1 hka⟩))
        · refine (ih b.q (by omega) (by omega)).mono fun x hx => ?_
          refine hx.move hk0 (by omega) (by omega) ?_
          rintro a ⟨ha, b', hb', h5, h6⟩ hka
          have := h3 _ ha hka
          have := wA.p_lt_iff h1 ha
          have := g3 _ hb' (by omega)
          have := wB.p_lt_iff g1 hb'
          omega
      · refine Ok.ite (fun h => by simp only at h; omega) fun _ => ?_
        refine (ih minfinity (by decide) (by omega)).mono fun x hx => ?_
        refine hx.move hk0 (by omega) (by omega) ?_
        rintro a ⟨ha, b', hb', h5, h6⟩ hka
        have := h3 _ ha hka
        have := wA.p_lt_iff h1 ha
        have := g1 _ hb'
        omega
    · exact Ok.ite (fun _ => Ok.pure (Or.inr (Or.inr ⟨hk0, fun a ha => h1 a ha.1, rfl⟩)))
        (fun h => absurd rfl h)

theorem fuel_hi {k : Int} (h : InRange k) : (maxfinity - k).toNat < loopFuel := by
  unfold loopFuel; omega
theorem fuel_lo {k : Int} (h : InRange k) : (k - minfinity).toNat < loopFuel := by
  unfold loopFuel; omega

theorem cin_impl (wA : Wf SA) (wB : Wf SB) (hA : Impl A IA SA) (hB : Impl B IB SB) :
    Impl (cinObj A B) (NInv (containedIn SA SB) (PInv IA IB)) (containedIn SA SB) := by
  have t : ∀ k, InRange k → Ok (NInv (containedIn SA SB) (PInv IA IB))
      (memoTau (cinTau A B loopFuel) k) (TauSpec (containedIn SA SB) k) :=
    fun k hk => Ok.memoTau (cinTau_ok _ wA wB hA hB _ k hk (fuel_hi hk))
  have u : ∀ k, InRange k → Ok (NInv (containedIn SA SB) (PInv IA IB))
      (memoUat (cinUat A B loopFuel) k) (UatSpec (containedIn SA SB) k) :=
    fun k hk => Ok.memoUat (cinUat_ok _ wA wB hA hB _ k hk (fuel_lo hk))
  refine ⟨⟨memoOk_init _, hA.init, hB.init⟩, t, fun k hk => ?_, u, fun k hk => ?_, fun k hk => (u k hk).defaultL,
    fun k hk => (t k hk).defaultR⟩
  · refine Ok.memoRho (body := fun k => do let r ← onL (A.rho k); memoTau (cinTau A B loopFuel) r.p) ?_
    exact (Ok.bind (Ok.onL (hA.rho k hk)) fun r hr =>
      (t r.p (hr.range wA).1).mono fun x hx => rho_via_tau wA (fun _ h => h.1) hr hx)
  · refine Ok.memoOhr (body := fun k => do let r ← onL (A.ohr k); memoUat (cinUat A B loopFuel) r.q) ?_
    exact (Ok.bind (Ok.onL (hA.ohr k hk)) fun r hr =>
      (u r.q (hr.range wA).2).mono fun x hx => ohr_via_uat wA (fun _ h => h.1) hr hx)

/-! #### Containing -/

theorem cgRho_ok (T : GC) (wA : Wf SA) (wB : Wf SB) (hA : Impl A IA SA) (hB : Impl B IB SB) :
    ∀ (fuel : Nat) (k : Int), InRange k → (maxfinity - k).toNat < fuel →
      Ok (NInv T (PInv IA IB)) (cgRho A B fuel k) (RhoSpec (containing SA SB) k) := by
  intro fuel
  induction fuel with
  | zero => intro k _ h; omega
  | succ fuel ih =>
    intro k hk hf
    unfold cgRho
    refine Ok.bind (Ok.onL (hA.rho k hk)) fun r hr => ?_
    rcases hr with ⟨rfl, rfl⟩ | ⟨hk0, h1, h2, h3⟩ | ⟨hk0, h1, rfl⟩
    · refine Ok.ite (fun h => by simp at h) fun _ => ?_
      refine Ok.bind (Ok.onR (hB.tau minfinity (by decide))) fun b hb => ?_
      rcases hb with ⟨_, rfl⟩ | ⟨h, _⟩ | ⟨h, _⟩
      · exact Ok.ite (fun _ => Ok.pure (Or.inl ⟨rfl, rfl⟩)) (fun h => by simp at h)
      · exact absurd rfl h
      · exact absurd rfl h
    · have hlo := wA.lo h1; have hhi := wA.hi h1; have hle := wA.le h1
      refine Ok.ite (fun h => by omega) fun _ => ?_
      refine Ok.bind (Ok.onR (hB.tau r.p (by omega))) fun b hb => ?_
      rcases hb with ⟨h, _⟩ | ⟨_, g1, g2, g3⟩ | ⟨_, g1, rfl⟩
      · omega
      · have := wB.lo g1; have := wB.hi g1; have := wB.le g1
        refine Ok.ite (fun hbp => ?_) (fun hbp => ?_)
        · exact Ok.pure (Or.inr (Or.inl ⟨hk0, ⟨h1, b, g1, by omega, by omega⟩, h2,
            fun a ha hka => h3 a ha.1 hka⟩))
        · refine (ih b.q (by omega) (by omega)).mono fun x hx => ?_
          refine hx.move hk0 (by omega) (by omega) ?_
          rintro a ⟨ha, b', hb', h5, h6⟩ hka
          have := h3 _ ha hka
          have := wA.p_lt_iff ha h1
          have := g3 _ hb' (by omega)
          have := wB.p_lt_iff hb' g1
          omega
      · refine Ok.ite (fun h => by simp only at h; omega) fun _ => ?_
        refine (ih maxfinity (by decide) (by omega)).mono fun x hx => ?_
        refine hx.move hk0 (by omega) (by omega) ?_
        rintro a ⟨ha, b', hb', h5, h6⟩ hka
        have := h3 _ ha hka
        have := wA.p_lt_iff ha h1
        have := g1 _ hb'
        omega
    · exact Ok.ite (fun _ => Ok.pure (Or.inr (Or.inr ⟨hk0, fun a ha => h1 a ha.1, rfl⟩)))
        (fun h => absurd rfl h)

theorem cgOhr_ok (T : GC) (wA : Wf SA) (wB : Wf SB) (hA : Impl A IA SA) (hB : Impl B IB SB) :
    ∀ (fuel : Nat) (k : Int), InRange k → (k - minfinity).toNat < fuel →
      Ok (NInv T (PInv IA IB)) (cgOhr A B fuel k) (OhrSpec (containing SA SB) k) := by
  intro fuel
  induction fuel with
  | zero => intro k _ h; omega
  | succ fuel ih =>
    intro k hk hf
    unfold cgOhr
    refine Ok.bind (Ok.onL (hA.ohr k hk)) fun r hr => ?_
    rcases hr with ⟨rfl, rfl⟩ | ⟨hk0, h1, h2, h3⟩ | ⟨hk0, h1, rfl⟩
    · refine Ok.ite (fun h => by simp at h) fun _ => ?_
      refine Ok.bind (Ok.onR (hB.uat maxfinity (by decide))) fun b hb => ?_
      rcases hb with ⟨_, rfl⟩ | ⟨h, _⟩ | ⟨h, _⟩
      · exact Ok.ite (fun _ => Ok.pure (Or.inl ⟨rfl, rfl⟩)) (fun h => by simp at h)
      · exact absurd rfl h
      · exact absurd rfl h
    · have hlo := wA.lo h1; have hhi := wA.hi h1; have hle := wA.le h1
      refine Ok.ite (fun h => by omega) fun _ => ?_
      refine Ok.bind (Ok.onR (hB.uat r.q (by omega))) fun b hb => ?_
      rcases hb with ⟨h, _⟩ | ⟨_, g1, g2, g3⟩ | ⟨_, g1, rfl⟩
      · omega
      · have := wB.lo g1; have := wB.hi g1; have := wB.le g1
        refine Ok.ite (fun hbp => ?_) (fun hbp => ?_)
        · exact Ok.pure (Or.inr (Or.inl ⟨hk0, ⟨h1, b, g1, by omega, by omega⟩, h2,
            fun a ha hka => h3 a ha.1 hka⟩))
        · refine (ih b.p (by omega) (by omega)).mono fun x hx => ?_
          refine hx.move hk0 (by omega) (by omega) ?_
          rintro a ⟨ha, b', hb', h5, h6⟩ hka
          have := h3 _ ha hka
          have := wA.p_lt_iff h1 ha
          have := g3 _ hb' (by omega)
          have := wB.p_lt_iff g1 hb'
          omega
      · refine Ok.ite (fun h => by simp only at h; omega) fun _ => ?_
        refine (ih minfinity (by decide) (by omega)).mono fun x hx => ?_
        refine hx.move hk0 (by omega) (by omega) ?_
        rintro a ⟨ha, b', hb', h5, h6⟩ hka
        have := h3 _ ha hka
        have := wA.p_lt_iff h1 ha
        have := g1 _ hb'
        omega
    · exact Ok.ite (fun _ => Ok.pure (Or.inr (Or.inr ⟨hk0, fun a ha => h1 a ha.1, rfl⟩)))
        (fun h => absurd rfl h)

theorem cg_impl (wA : Wf SA) (wB : Wf SB) (hA : Impl A IA SA) (hB : Impl B IB SB) :
    Impl (cgObj A B) (NInv (containing SA SB) (PInv IA IB)) (containing SA SB) := by
  have r : ∀ k, InRange k → Ok (NInv (containing SA SB) (PInv IA IB))
      (memoRho (cgRho A B loopFuel) k) (RhoSpec (containing SA SB) k) :=
    fun k hk => Ok.memoRho (cgRho_ok _ wA wB hA hB _ k hk (fuel_hi hk))
  have o : ∀ k, InRange k → Ok (NInv (containing SA SB) (PInv IA IB))
      (memoOhr (cgOhr A B loopFuel) k) (OhrSpec (containing SA SB) k) :=
    fun k hk => Ok.memoOhr (cgOhr_ok _ wA wB hA hB _ k hk (fuel_lo hk))
  have t : ∀ k, InRange k → Ok (NInv (containing SA SB) (PInv IA IB))
      ((cgObj A B).tau k) (TauSpec (containing SA SB) k) :=
    fun k hk => Ok.memoTau (body := fun k => do let x ← onL (A.tau k); memoRho (cgRho A B loopFuel) x.q) (Ok.bind (Ok.onL (hA.tau k hk)) fun x hx =>
      (r x.q (hx.range wA).2).mono fun y hy => tau_via_rho wA (fun _ h => h.1) hx hy)
  have u : ∀ k, InRange k → Ok (NInv (containing SA SB) (PInv IA IB))
      ((cgObj A B).uat k) (UatSpec (containing SA SB) k) :=
    fun k hk => Ok.memoUat (body := fun k => do let x ← onL (A.uat k); memoOhr (cgOhr A B loopFuel) x.p) (Ok.bind (Ok.onL (hA.uat k hk)) fun x hx =>
      (o x.p (hx.range wA).1).mono fun y hy => uat_via_ohr wA (fun _ h => h.1) hx hy)
  exact ⟨⟨memoOk_init _, hA.init, hB.init⟩, t, r, u, o, fun k hk => (u k hk).defaultL, fun k hk => (t k hk).defaultR⟩

/-! #### NotContainedIn -/

theorem nciTauLoop_ok (T : GC) (wA : Wf SA) (wB : Wf SB) (hA : Impl A IA SA) (hB : Impl B IB SB) :
    ∀ (fuel : Nat) (r : Ann), SA r → (maxfinity - r.p).toNat < fuel →
      Ok (NInv T (PInv IA IB)) (nciTauLoop A B fuel r) (TauSpec (notContainedIn SA SB) r.p) := by
  intro fuel
  induction fuel with
  | zero => intro k _ h; omega
  | succ fuel ih =>
    intro r hr hf
    have hlo := wA.lo hr; have hhi := wA.hi hr; have hle := wA.le hr
    unfold nciTauLoop
    refine Ok.bind (Ok.onR (hB.rho r.q (by omega))) fun b hb => ?_
    rcases hb with ⟨h, _⟩ | ⟨_, g1, g2, g3⟩ | ⟨_, g1, rfl⟩
    · omega
    · have := wB.lo g1; have := wB.hi g1; have := wB.le g1
      refine Ok.ite (fun hbp => ?_) (fun hbp => ?_)
      · refine Ok.pure (Or.inr (Or.inl ⟨by omega, ⟨hr, ?_⟩, Int.le_refl _, fun a _ h => h⟩))
        rintro ⟨b', hb', h5, h6⟩
        have := g3 _ hb' h6
        have := wB.p_lt_iff hb' g1
        omega
      · refine Ok.bind (Ok.ck (by omega) (by omega)) ?_
        rintro _ rfl
        refine Ok.bind (Ok.onL (hA.rho (b.q + 1) (by omega))) fun r' hr' => ?_
        rcases hr' with ⟨h, _⟩ | ⟨_, k1, k2, k3⟩ | ⟨_, k1, rfl⟩
        · omega
        · have := wA.lo k1; have := wA.hi k1; have := wA.le k1
          have hlt := wA.p_lt_iff hr k1
          refine Ok.ite (fun h => by omega) fun _ => ?_
          refine (ih r' k1 (by omega)).mono fun x hx => ?_
          refine hx.move (by omega) (by omega) (by omega) ?_
          rintro a ⟨ha, hna⟩ hka
          by_cases hh : a.q ≤ b.q
          · exact absurd ⟨b, g1, by omega, hh⟩ hna
          · have := k3 _ ha (by omega)
            have := wA.p_lt_iff ha k1
            omega
        · refine Ok.ite (fun _ => Ok.pure ?_) (fun h => absurd rfl h)
          refine Or.inr (Or.inr ⟨by omega, ?_, rfl⟩)
          rintro a ⟨ha, hna⟩
          by_cases hh : r.p ≤ a.p
          · have := k1 _ ha
            exact absurd ⟨b, g1, by omega, by omega⟩ hna
          · omega
    · refine Ok.ite (fun _ => ?_) (fun h => by simp only at h; omega)
      refine Ok.pure (Or.inr (Or.inl ⟨by omega, ⟨hr, ?_⟩, Int.le_refl _, fun a _ h => h⟩))
      rintro ⟨b', hb', h5, h6⟩
      have := g1 _ hb'; omega

theorem nciUatLoop_ok (T : GC) (wA : Wf SA) (wB : Wf SB) (hA : Impl A IA SA) (hB : Impl B IB SB) :
    ∀ (fuel : Nat) (r : Ann), SA r → (r.q - minfinity).toNat < fuel →
      Ok (NInv T (PInv IA IB)) (nciUatLoop A B fuel r) (UatSpec (notContainedIn SA SB) r.q) := by
  intro fuel
  induction fuel with
  | zero => intro k _ h; omega
  | succ fuel ih =>
    intro r hr hf
    have hlo := wA.lo hr; have hhi := wA.hi hr; have hle := wA.le hr
    unfold nciUatLoop
    refine Ok.bind (Ok.onR (hB.ohr r.p (by omega))) fun b hb => ?_
    rcases hb with ⟨h, _⟩ | ⟨_, g1, g2, g3⟩ | ⟨_, g1, rfl⟩
    · omega
    · have := wB.lo g1; have := wB.hi g1; have := wB.le g1
      refine Ok.ite (fun hbp => ?_) (fun hbp => ?_)
      · refine Ok.pure (Or.inr (Or.inl ⟨by omega, ⟨hr, ?_⟩, Int.le_refl _, fun a _ h => h⟩))
        rintro ⟨b', hb', h5, h6⟩
        have := g3 _ hb' h5
        have := wB.p_lt_iff g1 hb'
        omega
      · refine Ok.bind (Ok.ck (by omega) (by omega)) ?_
        rintro _ rfl
        refine Ok.bind (Ok.onL (hA.ohr (b.p - 1) (by omega))) fun r' hr' => ?_
        rcases hr' with ⟨h, _⟩ | ⟨_, k1, k2, k3⟩ | ⟨_, k1, rfl⟩
        · omega
        · have := wA.lo k1; have := wA.hi k1; have := wA.le k1
          have hlt := wA.p_lt_iff k1 hr
          refine Ok.ite (fun h => by omega) fun _ => ?_
          refine (ih r' k1 (by omega)).mono fun x hx => ?_
          refine hx.move (by omega) (by omega) (by omega) ?_
          rintro a ⟨ha, hna⟩ hka
          by_cases hh : b.p ≤ a.p
          · exact absurd ⟨b, g1, by omega, by omega⟩ hna
          · have := k3 _ ha (by omega)
            have := wA.p_lt_iff k1 ha
            omega
        · refine Ok.ite (fun _ => Ok.pure ?_) (fun h => absurd rfl h)
          refine Or.inr (Or.inr ⟨by omega, ?_, rfl⟩)
          rintro a ⟨ha, hna⟩
          by_cases hh : a.q ≤ r.q
          · have := k1 _ ha
            exact absurd ⟨b, g1, by omega, by omega⟩ hna
          · omega
    · refine Ok.ite (fun _ => ?_) (fun h => by simp only at h; omega)
      refine Ok.pure (Or.inr (Or.inl ⟨by omega, ⟨hr, ?_⟩, Int.le_refl _, fun a _ h => h⟩))
      rintro ⟨b', hb', h5, h6⟩
      have := g1 _ hb'; omega

theorem nci_impl (wA : Wf SA) (wB : Wf SB) (hA : Impl A IA SA) (hB : Impl B IB SB) :
    Impl (nciObj A B) (NInv (notContainedIn SA SB) (PInv IA IB)) (notContainedIn SA SB) := by
  have t : ∀ k, InRange k → Ok (NInv (notContainedIn SA SB) (PInv IA IB))
      (memoTau (nciTau A B) k) (TauSpec (notContainedIn SA SB) k) := by
    intro k hk
    refine Ok.memoTau (Ok.bind (Ok.onL (hA.tau k hk)) fun r hr => ?_)
    rcases hr with ⟨h1, rfl⟩ | ⟨hk0, h1, h2, h3⟩ | ⟨hk0, h1, rfl⟩
    · exact Ok.ite (fun _ => Ok.pure (Or.inl ⟨h1, rfl⟩)) (fun h => absurd (Or.inr rfl) h)
    · have hlo := wA.lo h1; have hhi := wA.hi h1; have hle := wA.le h1
      refine Ok.ite (fun h => by omega) fun _ => ?_
      refine (nciTauLoop_ok _ wA wB hA hB _ r h1 (fuel_hi (by omega))).mono fun x hx => ?_
      exact hx.move hk0 (by omega) (by omega) fun a ha hka => h3 a ha.1 hka
    · exact Ok.ite (fun _ => Ok.pure (Or.inr (Or.inr ⟨hk0, fun a ha => h1 a ha.1, rfl⟩)))
        (fun h => absurd (Or.inl rfl) h)
  have u : ∀ k, InRange k → Ok (NInv (notContainedIn SA SB) (PInv IA IB))
      (memoUat (nciUat A B) k) (UatSpec (notContainedIn SA SB) k) := by
    intro k hk
    refine Ok.memoUat (Ok.bind (Ok.onL (hA.uat k hk)) fun r hr => ?_)
    rcases hr with ⟨h1, rfl⟩ | ⟨hk0, h1, h2, h3⟩ | ⟨hk0, h1, rfl⟩
    · exact Ok.ite (fun _ => Ok.pure (Or.inl ⟨h1, rfl⟩)) (fun h => absurd (Or.inr rfl) h)
    · have hlo := wA.lo h1; have hhi := wA.hi h1; have hle := wA.le h1
      refine Ok.ite (fun h => by omega) fun _ => ?_
      refine (nciUatLoop_ok _ wA wB hA hB _ r h1 (fuel_lo (by omega))).mono fun x hx => ?_
      exact hx.move hk0 (by omega) (by omega) fun a ha hka => h3 a ha.1 hka
    · exact Ok.ite (fun _ => Ok.pure (Or.inr (Or.inr ⟨hk0, fun a ha => h1 a ha.1, rfl⟩)))
        (fun h => absurd (Or.inl rfl) h)
  refine ⟨⟨memoOk_init _, hA.init, hB.init⟩, t, fun k hk => ?_, u, fun k hk => ?_, fun k hk => (u k hk).defaultL,
    fun k hk => (t k hk).defaultR⟩
  · refine Ok.memoRho (body := fun k => do let r ← onL (A.rho k); memoTau (nciTau A B) r.p) ?_
    exact (Ok.bind (Ok.onL (hA.rho k hk)) fun r hr =>
      (t r.p (hr.range wA).1).mono fun x hx => rho_via_tau wA (fun _ h => h.1) hr hx)
  · refine Ok.memoOhr (body := fun k => do let r ← onL (A.ohr k); memoUat (nciUat A B) r.q) ?_
    exact (Ok.bind (Ok.onL (hA.ohr k hk)) fun r hr =>
      (u r.q (hr.range wA).2).mono fun x hx => ohr_via_uat wA (fun _ h => h.1) hr hx)

/-! #### NotContaining -/

theorem ncgRhoLoop_ok (T : GC) (wA : Wf SA) (wB : Wf SB) (hA : Impl A IA SA) (hB : Impl B IB SB) :
    ∀ (fuel : Nat) (r : Ann), SA r → (maxfinity - r.q).toNat < fuel →
      Ok (NInv T (PInv IA IB)) (ncgRhoLoop A B fuel r) (RhoSpec (notContaining SA SB) r.q) := by
  intro fuel
  induction fuel with
  | zero => intro k _ h; omega
  | succ fuel ih =>
    intro r hr hf
    have hlo := wA.lo hr; have hhi := wA.hi hr; have hle := wA.le hr
    unfold ncgRhoLoop
    refine Ok.bind (Ok.onR (hB.tau r.p (by omega))) fun b hb => ?_
    rcases hb with ⟨h, _⟩ | ⟨_, g1, g2, g3⟩ | ⟨_, g1, rfl⟩
    · omega
    · have := wB.lo g1; have := wB.hi g1; have := wB.le g1
      refine Ok.ite (fun hbp => ?_) (fun hbp => ?_)
      · refine Ok.pure (Or.inr (Or.inl ⟨by omega, ⟨hr, ?_⟩, Int.le_refl _, fun a _ h => h⟩))
        rintro ⟨b', hb', h5, h6⟩
        have := g3 _ hb' h5
        have := wB.p_lt_iff hb' g1
        omega
      · refine Ok.bind (Ok.ck (by omega) (by omega)) ?_
        rintro _ rfl
        refine Ok.bind (Ok.onL (hA.tau (b.p + 1) (by omega))) fun r' hr' => ?_
        rcases hr' with ⟨h, _⟩ | ⟨_, k1, k2, k3⟩ | ⟨_, k1, rfl⟩
        · omega
        · have := wA.lo k1; have := wA.hi k1; have := wA.le k1
          have hlt := wA.p_lt_iff hr k1
          refine Ok.ite (fun h => by omega) fun _ => ?_
          refine (ih r' k1 (by omega)).mono fun x hx => ?_
          refine hx.move (by omega) (by omega) (by omega) ?_
          rintro a ⟨ha, hna⟩ hka
          by_cases hh : a.p ≤ b.p
          · exact absurd ⟨b, g1, hh, by omega⟩ hna
          · have := k3 _ ha (by omega)
            have := wA.p_lt_iff ha k1
            omega
        · refine Ok.ite (fun _ => Ok.pure ?_) (fun h => absurd rfl h)
          refine Or.inr (Or.inr ⟨by omega, ?_, rfl⟩)
          rintro a ⟨ha, hna⟩
          by_cases hh : r.q ≤ a.q
          · have := k1 _ ha
            exact absurd ⟨b, g1, by omega, by omega⟩ hna
          · omega
    · refine Ok.ite (fun _ => ?_) (fun h => by simp only at h; omega)
      refine Ok.pure (Or.inr (Or.inl ⟨by omega, ⟨hr, ?_⟩, Int.le_refl _, fun a _ h => h⟩))
      rintro ⟨b', hb', h5, h6⟩
      have := g1 _ hb'; omega

theorem ncgOhrLoop_ok (T : GC) (wA : Wf SA) (wB : Wf SB) (hA : Impl A IA SA) (hB : Impl B IB SB) :
    ∀ (fuel : Nat) (r : Ann), SA r → (r.p - minfinity).toNat < fuel →
      Ok (NInv T (PInv IA IB)) (ncgOhrLoop A B fuel r) (OhrSpec (notContaining SA SB) r.p) := by
  intro fuel
  induction fuel with
  | zero => intro k _ h; omega
  | succ fuel ih =>
    intro r hr hf
    have hlo := wA.lo hr; have hhi := wA.hi hr; have hle := wA.le hr
    unfold ncgOhrLoop
    refine Ok.bind (Ok.onR (hB.uat r.q (by omega))) fun b hb => ?_
    rcases hb with ⟨h, _⟩ | ⟨_, g1, g2, g3⟩ | ⟨_, g1, rfl⟩
    · omega
    · have := wB.lo g1; have := wB.hi g1; have := wB.le g1
      refine Ok.ite (fun hbp => ?_) (fun hbp => ?_)
      · refine Ok.pure (Or.inr (Or.inl ⟨by omega, ⟨hr, ?_⟩, Int.le_refl _, fun a _ h => h⟩))
        rintro ⟨b', hb', h5, h6⟩
        have := g3 _ hb' h6
        have := wB.p_lt_iff g1 hb'
        omega
      · refine Ok.bind (Ok.ck (by omega) (by omega)) ?_
        rintro _ rfl
        refine Ok.bind (Ok.onL (hA.uat (b.q - 1) (by omega))) fun r' hr' => ?_
        rcases hr' with ⟨h, _⟩ | ⟨_, k1, k2, k3⟩ | ⟨_, k1, rfl⟩
        · omega
        · have := wA.lo k1; have := wA.hi k1; have := wA.le k1
          have hlt := wA.p_lt_iff k1 hr
          refine Ok.ite (fun h => by omega) fun _ => ?_
          refine (ih r' k1 (by omega)).mono fun x hx => ?_
          refine hx.move (by omega) (by omega) (by omega) ?_
          rintro a ⟨ha, hna⟩ hka
          by_cases hh : b.q ≤ a.q
          · exact absurd ⟨b, g1, by omega, by omega⟩ hna
          · have := k3 _ ha (by omega)
            have := wA.p_lt_iff k1 ha
            omega
        · refine Ok.ite (fun _ => Ok.pure ?_) (fun h => absurd rfl h)
          refine Or.inr (Or.inr ⟨by omega, ?_, rfl⟩)
          rintro a ⟨ha, hna⟩
          by_cases hh : a.p ≤ r.p
          · have := k1 _ ha
            exact absurd ⟨b, g1, by omega, by omega⟩ hna
          · omega
    · refine Ok.ite (fun _ => ?_) (fun h => by simp only at h; omega)
      refine Ok.pure (Or.inr (Or.inl ⟨by omega, ⟨hr, ?_⟩, Int.le_refl _, fun a _ h => h⟩))
      rintro ⟨b', hb', h5, h6⟩
      have := g1 _ hb'; omega

theorem ncg_impl (wA : Wf SA) (wB : Wf SB) (hA : Impl A IA SA) (hB : Impl B IB SB) :
    Impl (ncgObj A B) (NInv (notContaining SA SB) (PInv IA IB)) (notContaining SA SB) := by
  have r : ∀ k, InRange k → Ok (NInv (notContaining SA SB) (PInv IA IB))
      (memoRho (ncgRho A B) k) (RhoSpec (notContaining SA SB) k) := by
    intro k hk
    refine Ok.memoRho (Ok.bind (Ok.onL (hA.rho k hk)) fun r hr => ?_)
    rcases hr with ⟨h1, rfl⟩ | ⟨hk0, h1, h2, h3⟩ | ⟨hk0, h1, rfl⟩
    · exact Ok.ite (fun _ => Ok.pure (Or.inl ⟨h1, rfl⟩)) (fun h => absurd (Or.inr rfl) h)
    · have hlo := wA.lo h1; have hhi := wA.hi h1; have hle := wA.le h1
      refine Ok.ite (fun h => by omega) fun _ => ?_
      refine (ncgRhoLoop_ok _ wA wB hA hB _ r h1 (fuel_hi (by omega))).mono fun x hx => ?_
      exact hx.move hk0 (by omega) (by omega) fun a ha hka => h3 a ha.1 hka
    · exact Ok.ite (fun _ => Ok.pure (Or.inr (Or.inr ⟨hk0, fun a ha => h1 a ha.1, rfl⟩)))
        (fun h => absurd (Or.inl rfl) h)
  have o : ∀ k, InRange k → Ok (NInv (notContaining SA SB) (PInv IA IB))
      (memoOhr (ncgOhr A B) k) (OhrSpec (notContaining SA SB) k) := by
    intro k hk
    refine Ok.memoOhr (Ok.bind (Ok.onL (hA.ohr k hk)) fun r hr => ?_)
    rcases hr with ⟨h1, rfl⟩ | ⟨hk0, h1, h2, h3⟩ | ⟨hk0, h1, rfl⟩
    · exact Ok.ite (fun _ => Ok.pure (Or.inl ⟨h1, rfl⟩)) (fun h => absurd (Or.inr rfl) h)
    · have hlo := wA.lo h1; have hhi := wA.hi h1; have hle := wA.le h1
      refine Ok.ite (fun h => by omega) fun _ => ?_
      refine (ncgOhrLoop_ok _ wA wB hA hB _ r h1 (fuel_lo (by omega))).mono fun x hx => ?_
      exact hx.move hk0 (by omega) (by omega) fun a ha hka => h3 a ha.1 hka
    · exact Ok.ite (fun _ => Ok.pure (Or.inr (Or.inr ⟨hk0, fun a ha => h1 a ha.1, rfl⟩)))
        (fun h => absurd (Or.inl rfl) h)
  have t : ∀ k, InRange k → Ok (NInv (notContaining SA SB) (PInv IA IB))
      ((ncgObj A B).tau k) (TauSpec (notContaining SA SB) k) :=
    fun k hk => Ok.memoTau (body := fun k => do let x ← onL (A.tau k); memoRho (ncgRho A B) x.q) (Ok.bind (Ok.onL (hA.tau k hk)) fun x hx =>
      (r x.q (hx.range wA).2).mono fun y hy => tau_via_rho wA (fun _ h => h.1) hx hy)
  have u : ∀ k, InRange k → Ok (NInv (notContaining SA SB) (PInv IA IB))
      ((ncgObj A B).uat k) (UatSpec (notContaining SA SB) k) :=
    fun k hk => Ok.memoUat (body := fun k => do let x ← onL (A.uat k); memoOhr (ncgOhr A B) x.p) (Ok.bind (Ok.onL (hA.uat k hk)) fun x hx =>
      (o x.p (hx.range wA).1).mono fun y hy => uat_via_ohr wA (fun _ h => h.1) hx hy)
  exact ⟨⟨memoOk_init _, hA.init, hB.init⟩, t, r, u, o, fun k hk => (u k hk).defaultL, fun k hk => (t k hk).defaultR⟩
end ops

end Verif.Hopper
