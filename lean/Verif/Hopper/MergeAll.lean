import Verif.Hopper.Merge
import Verif.Hopper.Calls
/-
  `Merge` over any operands: which of its answers are right, in any history of calls.
-/
namespace Verif.Hopper

/-- what `Merge` answers to a call: right, except that the backward calls `uat` and `ohr`
are only known to have the right start -/
def HalfRight (S : GC) : Call → Answer → Prop
  | .uat k, .ann a => LSpec S k a.p
  | .ohr k, .ann a => ∃ b, OhrSpec S k b ∧ a.p = b.p
  | c, a => Right S c a

structure HalfMemo (S : GC) (m : Memo) : Prop where
  tau : TauSpec S m.tk m.tr
  rho : RhoSpec S m.rk m.rr
  uat : LSpec S m.uk m.ur.p
  ohr : ∃ b, OhrSpec S m.ok b ∧ m.or.p = b.p

def HInv {τ : Type} (S : GC) (J : τ → Prop) (s : St τ) : Prop := HalfMemo S s.memo ∧ J s.sub

theorem halfMemo_init (S : GC) : HalfMemo S {} :=
  ⟨Or.inl ⟨rfl, rfl⟩, Or.inl ⟨rfl, rfl⟩, ⟨_, Or.inl ⟨rfl, rfl⟩, rfl⟩, ⟨_, Or.inl ⟨rfl, rfl⟩, rfl⟩⟩

section memo
variable {τ : Type} {S : GC} {J : τ → Prop} {body : Int → M (St τ) Ann} {k : Int}

theorem half_tau (h : Ok (HInv S J) (body k) (TauSpec S k)) :
    Ok (HInv S J) (memoTau body k) (TauSpec S k) := by
  intro s hs
  unfold Hopper.memoTau
  by_cases hk : k ≠ s.memo.tk
  · obtain ⟨a, s', h1, h2, h3⟩ := h s hs
    refine ⟨a, { s' with memo := { s'.memo with tk := k, tr := a } }, by simp [hk, h1], ?_, h3⟩
    exact ⟨⟨h3, h2.1.rho, h2.1.uat, h2.1.ohr⟩, h2.2⟩
  · have hk' : k = s.memo.tk := Classical.not_not.mp hk
    refine ⟨s.memo.tr, s, by simp [hk'], hs, ?_⟩
    rw [hk']; exact hs.1.tau

theorem half_rho (h : Ok (HInv S J) (body k) (RhoSpec S k)) :
    Ok (HInv S J) (memoRho body k) (RhoSpec S k) := by
  intro s hs
  unfold Hopper.memoRho
  by_cases hk : k ≠ s.memo.rk
  · obtain ⟨a, s', h1, h2, h3⟩ := h s hs
    refine ⟨a, { s' with memo := { s'.memo with rk := k, rr := a } }, by simp [hk, h1], ?_, h3⟩
    exact ⟨⟨h2.1.tau, h3, h2.1.uat, h2.1.ohr⟩, h2.2⟩
  · have hk' : k = s.memo.rk := Classical.not_not.mp hk
    refine ⟨s.memo.rr, s, by simp [hk'], hs, ?_⟩
    rw [hk']; exact hs.1.rho

theorem half_uat (h : Ok (HInv S J) (body k) (fun a => LSpec S k a.p)) :
    Ok (HInv S J) (memoUat body k) (fun a => LSpec S k a.p) := by
  intro s hs
  unfold Hopper.memoUat
  by_cases hk : k ≠ s.memo.uk
  · obtain ⟨a, s', h1, h2, h3⟩ := h s hs
    refine ⟨a, { s' with memo := { s'.memo with uk := k, ur := a } }, by simp [hk, h1], ?_, h3⟩
    exact ⟨⟨h2.1.tau, h2.1.rho, h3, h2.1.ohr⟩, h2.2⟩
  · have hk' : k = s.memo.uk := Classical.not_not.mp hk
    refine ⟨s.memo.ur, s, by simp [hk'], hs, ?_⟩
    rw [hk']; exact hs.1.uat

theorem half_ohr (h : Ok (HInv S J) (body k) (fun a => ∃ b, OhrSpec S k b ∧ a.p = b.p)) :
    Ok (HInv S J) (memoOhr body k) (fun a => ∃ b, OhrSpec S k b ∧ a.p = b.p) := by
  intro s hs
  unfold Hopper.memoOhr
  by_cases hk : k ≠ s.memo.ok
  · obtain ⟨a, s', h1, h2, h3⟩ := h s hs
    refine ⟨a, { s' with memo := { s'.memo with ok := k, or := a } }, by simp [hk, h1], ?_, h3⟩
    exact ⟨⟨h2.1.tau, h2.1.rho, h2.1.uat, h3⟩, h2.2⟩
  · have hk' : k = s.memo.ok := Classical.not_not.mp hk
    refine ⟨s.memo.or, s, by simp [hk'], hs, ?_⟩
    rw [hk']; exact hs.1.ohr
end memo

theorem half_onL {α β γ : Type} {S : GC} {I : α → Prop} {J : β → Prop} {m : M α γ}
    {Q : γ → Prop} (h : Ok I m Q) : Ok (HInv S (PInv I J)) (Hopper.onL m) Q := by
  intro s hs
  obtain ⟨a, s', h1, h2, h3⟩ := h s.sub.1 hs.2.1
  exact ⟨a, { s with sub := (s', s.sub.2) }, by simp [Hopper.onL, h1], ⟨hs.1, h2, hs.2.2⟩, h3⟩

theorem half_onR {α β γ : Type} {S : GC} {I : α → Prop} {J : β → Prop} {m : M β γ}
    {Q : γ → Prop} (h : Ok J m Q) : Ok (HInv S (PInv I J)) (Hopper.onR m) Q := by
  intro s hs
  obtain ⟨a, s', h1, h2, h3⟩ := h s.sub.2 hs.2.2
  exact ⟨a, { s with sub := (s.sub.1, s') }, by simp [Hopper.onR, h1], ⟨hs.1, hs.2.1, h2⟩, h3⟩

theorem half_combOhr {τ : Type} {S : GC} (w : Wf S) {I : St τ → Prop} {R : Int → M (St τ) Int}
    {uat : Int → M (St τ) Ann}
    (hR : ∀ k, InRange k → Ok I (R k) (RSpec S k))
    (hU : ∀ k, InRange k → Ok I (uat k) (fun a => LSpec S k a.p)) {k : Int} (hk : InRange k) :
    Ok I (combOhr R uat k) (fun a => ∃ b, OhrSpec S k b ∧ a.p = b.p) := by
  unfold Hopper.combOhr
  refine Ok.ite (fun h => Ok.pure ⟨_, Or.inl ⟨h, rfl⟩, rfl⟩) (fun h => ?_)
  refine Ok.bind (Ok.ck (by omega) (by omega)) ?_
  rintro _ rfl
  refine Ok.bind (hR _ (by omega)) ?_
  intro l hl
  have hlr := hl.range w
  refine Ok.ite (fun h1 => ?_) (fun h1 => ?_)
  · exfalso
    rcases hl.cases with ⟨h, _⟩ | ⟨_, r0, hr0, rfl, _⟩ | ⟨_, _, rfl⟩
    · omega
    · have := w.lo hr0; have := w.le hr0; omega
    · omega
  · refine Ok.bind (Ok.ck (by omega) (by omega)) ?_
    rintro _ rfl
    refine (hU _ (by omega)).mono fun r hr => ?_
    obtain ⟨b, hb, e⟩ := hr
    exact ⟨b, ohr_of_R w h hk hl hb, e⟩

section
variable {A B : Obj} {SA SB : GC} {IA : A.σ → Prop} {IB : B.σ → Prop}

theorem merge_half (wA : Wf SA) (wB : Wf SB) (hA : Impl A IA SA) (hB : Impl B IB SB) (c : Call) (hk : InRange c.key) :
    Ok (HInv (mergeOf SA SB) (PInv IA IB)) ((mergeObj A B).call c) (HalfRight (mergeOf SA SB) c) := by
  have w := mergeOf_wf wA wB
  have t : ∀ k, InRange k → Ok (HInv (mergeOf SA SB) (PInv IA IB))
      (memoTau (mergeTau A B) k) (TauSpec (mergeOf SA SB) k) :=
    fun k hk => half_tau (Ok.bind (half_onL (hA.tau k hk)) fun l hl =>
      Ok.bind (half_onR (hB.tau k hk)) fun r hr => Ok.pure (merge_tau_spec wA wB hl hr))
  have u : ∀ k, InRange k → Ok (HInv (mergeOf SA SB) (PInv IA IB))
      (memoUat (mergeUat A B) k) (fun a => LSpec (mergeOf SA SB) k a.p) :=
    fun k hk => half_uat (Ok.bind (half_onL (hA.uat k hk)) fun l hl =>
      Ok.bind (half_onR (hB.uat k hk)) fun r hr => Ok.pure (merge_L_spec wA wB hl hr))
  have uL : ∀ k, InRange k → Ok (HInv (mergeOf SA SB) (PInv IA IB))
      (defaultL (memoUat (mergeUat A B)) k) (LSpec (mergeOf SA SB) k) :=
    fun k hk => Ok.bind (u k hk) fun a ha => Ok.pure ha
  cases c with
  | tau k => exact Ok.bind (t k hk) fun a ha => Ok.pure ha
  | rho k => exact Ok.bind (half_rho (Ok.combRho w uL t hk)) fun a ha => Ok.pure ha
  | uat k => exact Ok.bind (u k hk) fun a ha => Ok.pure ha
  | ohr k => exact Ok.bind (half_ohr (half_combOhr w (fun k hk => (t k hk).defaultR) u hk)) fun a ha => Ok.pure ha
  | L k => exact Ok.bind (uL k hk) fun a ha => Ok.pure ha
  | R k => exact Ok.bind (t k hk).defaultR fun a ha => Ok.pure ha

theorem merge_half_run (wA : Wf SA) (wB : Wf SB) (hA : Impl A IA SA) (hB : Impl B IB SB) :
    ∀ cs : List Call, (∀ c ∈ cs, InRange c.key) → Ok (HInv (mergeOf SA SB) (PInv IA IB)) ((mergeObj A B).run cs) fun as =>
      as.length = cs.length ∧ ∀ x ∈ cs.zip as, HalfRight (mergeOf SA SB) x.1 x.2 := by
  intro cs
  induction cs with
  | nil => intro _; exact Ok.pure ⟨rfl, by simp⟩
  | cons c cs ih =>
    intro hk
    refine Ok.bind (merge_half wA wB hA hB c (hk c (by simp))) fun a ha =>
      Ok.bind (ih fun x hx => hk x (List.mem_cons_of_mem _ hx)) fun as has => Ok.pure ⟨by simp [has.1], ?_⟩
    intro x hx
    simp only [List.zip_cons_cons, List.mem_cons] at hx
    rcases hx with rfl | hx
    · exact ha
    · exact has.2 x hx
end

end Verif.Hopper
