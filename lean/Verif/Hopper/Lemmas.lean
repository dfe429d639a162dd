import Verif.Hopper.Model
/-
  Proof machinery for the hopper model: total-correctness triples with an object
  invariant, memo lemma, zooming into children.
-/
namespace Verif.Hopper

/-- From every state satisfying `I`, `m` succeeds, re-establishes `I`, and its answer
satisfies `Q`. -/
def Ok {σ α : Type} (I : σ → Prop) (m : M σ α) (Q : α → Prop) : Prop :=
  ∀ s, I s → ∃ a s', m s = some (a, s') ∧ I s' ∧ Q a

theorem Ok.bind {σ α β : Type} {I : σ → Prop} {m : M σ α} {f : α → M σ β}
    {P : α → Prop} {Q : β → Prop} (hm : Ok I m P) (hf : ∀ a, P a → Ok I (f a) Q) :
    Ok I (m >>= f) Q := by
  intro s hs
  obtain ⟨a, s', h1, h2, h3⟩ := hm s hs
  obtain ⟨b, s'', h4, h5, h6⟩ := hf a h3 s' h2
  refine ⟨b, s'', ?_, h5, h6⟩
  show StateT.bind m f s = _
  simp [StateT.bind, h1, h4]

theorem Ok.pure {σ α : Type} {I : σ → Prop} {a : α} {Q : α → Prop} (h : Q a) :
    Ok I (Pure.pure a) Q := fun s hs => ⟨a, s, rfl, hs, h⟩

theorem Ok.ck {σ : Type} {I : σ → Prop} {x : Int} (h1 : minfinity ≤ x) (h2 : x ≤ maxfinity) :
    Ok I (Hopper.ck x) (fun y => y = x) := by
  intro s hs
  exact ⟨x, s, by simp [Hopper.ck, h1, h2], hs, rfl⟩

theorem Ok.mono {σ α : Type} {I : σ → Prop} {m : M σ α} {P Q : α → Prop}
    (h : Ok I m P) (hpq : ∀ a, P a → Q a) : Ok I m Q := by
  intro s hs
  obtain ⟨a, s', h1, h2, h3⟩ := h s hs
  exact ⟨a, s', h1, h2, hpq a h3⟩

theorem Ok.ite {σ α : Type} {I : σ → Prop} {c : Prop} [Decidable c] {m n : M σ α}
    {Q : α → Prop} (h1 : c → Ok I m Q) (h2 : ¬ c → Ok I n Q) : Ok I (if c then m else n) Q := by
  by_cases h : c
  · simpa [h] using h1 h
  · simpa [h] using h2 h

/-- An object `H` with invariant `I` implements the solution list `S`. -/
structure Impl (H : Obj) (I : H.σ → Prop) (S : GC) : Prop where
  init : I H.init
  tau : ∀ k, InRange k → Ok I (H.tau k) (TauSpec S k)
  rho : ∀ k, InRange k → Ok I (H.rho k) (RhoSpec S k)
  uat : ∀ k, InRange k → Ok I (H.uat k) (UatSpec S k)
  ohr : ∀ k, InRange k → Ok I (H.ohr k) (OhrSpec S k)
  L : ∀ k, InRange k → Ok I (H.L k) (LSpec S k)
  R : ∀ k, InRange k → Ok I (H.R k) (RSpec S k)

/-- every memoised answer is right -/
structure MemoOk (S : GC) (m : Memo) : Prop where
  tau : TauSpec S m.tk m.tr
  rho : RhoSpec S m.rk m.rr
  uat : UatSpec S m.uk m.ur
  ohr : OhrSpec S m.ok m.or

/-- invariant of a hopper object: memo right, members fine -/
def NInv {τ : Type} (S : GC) (J : τ → Prop) (s : St τ) : Prop := MemoOk S s.memo ∧ J s.sub

theorem memoOk_init (S : GC) : MemoOk S {} :=
  ⟨Or.inl ⟨rfl, rfl⟩, Or.inl ⟨rfl, rfl⟩, Or.inl ⟨rfl, rfl⟩, Or.inl ⟨rfl, rfl⟩⟩

section memo
variable {τ : Type} {S : GC} {J : τ → Prop} {body : Int → M (St τ) Ann} {k : Int}

theorem Ok.memoTau (h : Ok (NInv S J) (body k) (TauSpec S k)) :
    Ok (NInv S J) (memoTau body k) (TauSpec S k) := by
  intro s hs
  unfold Hopper.memoTau
  by_cases hk : k ≠ s.memo.tk
  · obtain ⟨a, s', h1, h2, h3⟩ := h s hs
    refine ⟨a, { s' with memo := { s'.memo with tk := k, tr := a } }, ?_, ?_, h3⟩
    · simp [hk, h1]
    · exact ⟨⟨h3, h2.1.rho, h2.1.uat, h2.1.ohr⟩, h2.2⟩
  · have hk' : k = s.memo.tk := Classical.not_not.mp hk
    refine ⟨s.memo.tr, s, by simp [hk'], hs, ?_⟩
    rw [hk']; exact hs.1.tau

theorem Ok.memoRho (h : Ok (NInv S J) (body k) (RhoSpec S k)) :
    Ok (NInv S J) (memoRho body k) (RhoSpec S k) := by
  intro s hs
  unfold Hopper.memoRho
  by_cases hk : k ≠ s.memo.rk
  · obtain ⟨a, s', h1, h2, h3⟩ := h s hs
    refine ⟨a, { s' with memo := { s'.memo with rk := k, rr := a } }, ?_, ?_, h3⟩
    · simp [hk, h1]
    · exact ⟨⟨h2.1.tau, h3, h2.1.uat, h2.1.ohr⟩, h2.2⟩
  · have hk' : k = s.memo.rk := Classical.not_not.mp hk
    refine ⟨s.memo.rr, s, by simp [hk'], hs, ?_⟩
    rw [hk']; exact hs.1.rho

theorem Ok.memoUat (h : Ok (NInv S J) (body k) (UatSpec S k)) :
    Ok (NInv S J) (memoUat body k) (UatSpec S k) := by
  intro s hs
  unfold Hopper.memoUat
  by_cases hk : k ≠ s.memo.uk
  · obtain ⟨a, s', h1, h2, h3⟩ := h s hs
    refine ⟨a, { s' with memo := { s'.memo with uk := k, ur := a } }, ?_, ?_, h3⟩
    · simp [hk, h1]
    · exact ⟨⟨h2.1.tau, h2.1.rho, h3, h2.1.ohr⟩, h2.2⟩
  · have hk' : k = s.memo.uk := Classical.not_not.mp hk
    refine ⟨s.memo.ur, s, by simp [hk'], hs, ?_⟩
    rw [hk']; exact hs.1.uat

theorem Ok.memoOhr (h : Ok (NInv S J) (body k) (OhrSpec S k)) :
    Ok (NInv S J) (memoOhr body k) (OhrSpec S k) := by
  intro s hs
  unfold Hopper.memoOhr
  by_cases hk : k ≠ s.memo.ok
  · obtain ⟨a, s', h1, h2, h3⟩ := h s hs
    refine ⟨a, { s' with memo := { s'.memo with ok := k, or := a } }, ?_, ?_, h3⟩
    · simp [hk, h1]
    · exact ⟨⟨h2.1.tau, h2.1.rho, h2.1.uat, h3⟩, h2.2⟩
  · have hk' : k = s.memo.ok := Classical.not_not.mp hk
    refine ⟨s.memo.or, s, by simp [hk'], hs, ?_⟩
    rw [hk']; exact hs.1.ohr
end memo

theorem Ok.defaultL {σ : Type} {I : σ → Prop} {S : GC} {uat : Int → M σ Ann} {k : Int}
    (h : Ok I (uat k) (UatSpec S k)) : Ok I (Hopper.defaultL uat k) (LSpec S k) :=
  Ok.bind h fun a ha => Ok.pure ⟨a, ha, rfl⟩

theorem Ok.defaultR {σ : Type} {I : σ → Prop} {S : GC} {tau : Int → M σ Ann} {k : Int}
    (h : Ok I (tau k) (TauSpec S k)) : Ok I (Hopper.defaultR tau k) (RSpec S k) :=
  Ok.bind h fun a ha => Ok.pure ⟨a, ha, rfl⟩

/-- invariant on the pair of children -/
def PInv {α β : Type} (I : α → Prop) (J : β → Prop) (x : α × β) : Prop := I x.1 ∧ J x.2

theorem Ok.onL {α β γ : Type} {S : GC} {I : α → Prop} {J : β → Prop} {m : M α γ}
    {Q : γ → Prop} (h : Ok I m Q) : Ok (NInv S (PInv I J)) (Hopper.onL m) Q := by
  intro s hs
  obtain ⟨a, s', h1, h2, h3⟩ := h s.sub.1 hs.2.1
  exact ⟨a, { s with sub := (s', s.sub.2) }, by simp [Hopper.onL, h1], ⟨hs.1, h2, hs.2.2⟩, h3⟩

theorem Ok.onR {α β γ : Type} {S : GC} {I : α → Prop} {J : β → Prop} {m : M β γ}
    {Q : γ → Prop} (h : Ok J m Q) : Ok (NInv S (PInv I J)) (Hopper.onR m) Q := by
  intro s hs
  obtain ⟨a, s', h1, h2, h3⟩ := h s.sub.2 hs.2.2
  exact ⟨a, { s with sub := (s.sub.1, s') }, by simp [Hopper.onR, h1], ⟨hs.1, hs.2.1, h2⟩, h3⟩

/-! ### Determinism of the specifications -/

theorem TauSpec.unique {S : GC} (w : Wf S) {k r r'} (h : TauSpec S k r) (h' : TauSpec S k r') :
    r = r' := by
  rcases h with ⟨h1, h2⟩ | ⟨h1, h2, h3, h4⟩ | ⟨h1, h2, h3⟩ <;>
  rcases h' with ⟨g1, g2⟩ | ⟨g1, g2, g3, g4⟩ | ⟨g1, g2, g3⟩
  · rw [h2, g2]
  · exact absurd h1 g1
  · exact absurd h1 g1
  · exact absurd g1 h1
  · have := h4 _ g2 g3; have := g4 _ h2 h3
    exact w.uniq h2 g2 (by omega)
  · have := g2 _ h2; omega
  · exact absurd g1 h1
  · have := h2 _ g2; omega
  · rw [h3, g3]

/-- ends determine starts too -/
theorem Wf.p_lt_iff {S : GC} (w : Wf S) {a b} (ha : S a) (hb : S b) : a.p < b.p ↔ a.q < b.q := by
  constructor
  · exact w.mono ha hb
  · intro h
    rcases Int.lt_trichotomy a.p b.p with h1 | h1 | h1
    · exact h1
    · have := w.uniq ha hb h1; subst this; omega
    · have := w.mono hb ha h1; omega

theorem Wf.eq_of_q {S : GC} (w : Wf S) {a b} (ha : S a) (hb : S b) (h : a.q = b.q) : a = b := by
  have h1 := w.p_lt_iff ha hb
  have h2 := w.p_lt_iff hb ha
  exact w.uniq ha hb (by omega)

theorem RhoSpec.unique {S : GC} (w : Wf S) {k r r'} (h : RhoSpec S k r) (h' : RhoSpec S k r') :
    r = r' := by
  rcases h with ⟨h1, h2⟩ | ⟨h1, h2, h3, h4⟩ | ⟨h1, h2, h3⟩ <;>
  rcases h' with ⟨g1, g2⟩ | ⟨g1, g2, g3, g4⟩ | ⟨g1, g2, g3⟩
  · rw [h2, g2]
  · exact absurd h1 g1
  · exact absurd h1 g1
  · exact absurd g1 h1
  · have := h4 _ g2 g3; have := g4 _ h2 h3
    exact w.eq_of_q h2 g2 (by omega)
  · have := g2 _ h2; omega
  · exact absurd g1 h1
  · have := h2 _ g2; omega
  · rw [h3, g3]

theorem UatSpec.unique {S : GC} (w : Wf S) {k r r'} (h : UatSpec S k r) (h' : UatSpec S k r') :
    r = r' := by
  rcases h with ⟨h1, h2⟩ | ⟨h1, h2, h3, h4⟩ | ⟨h1, h2, h3⟩ <;>
  rcases h' with ⟨g1, g2⟩ | ⟨g1, g2, g3, g4⟩ | ⟨g1, g2, g3⟩
  · rw [h2, g2]
  · exact absurd h1 g1
  · exact absurd h1 g1
  · exact absurd g1 h1
  · have := h4 _ g2 g3; have := g4 _ h2 h3
    exact w.eq_of_q h2 g2 (by omega)
  · have := g2 _ h2; omega
  · exact absurd g1 h1
  · have := h2 _ g2; omega
  · rw [h3, g3]

theorem OhrSpec.unique {S : GC} (w : Wf S) {k r r'} (h : OhrSpec S k r) (h' : OhrSpec S k r') :
    r = r' := by
  rcases h with ⟨h1, h2⟩ | ⟨h1, h2, h3, h4⟩ | ⟨h1, h2, h3⟩ <;>
  rcases h' with ⟨g1, g2⟩ | ⟨g1, g2, g3, g4⟩ | ⟨g1, g2, g3⟩
  · rw [h2, g2]
  · exact absurd h1 g1
  · exact absurd h1 g1
  · exact absurd g1 h1
  · have := h4 _ g2 g3; have := g4 _ h2 h3
    exact w.uniq h2 g2 (by omega)
  · have := g2 _ h2; omega
  · exact absurd g1 h1
  · have := h2 _ g2; omega
  · rw [h3, g3]

/-! ### Answers are representable addresses -/

theorem TauSpec.range {S : GC} (w : Wf S) {k r} (h : TauSpec S k r) : InRange r.p ∧ InRange r.q := by
  rcases h with ⟨_, rfl⟩ | ⟨_, h, _⟩ | ⟨_, _, rfl⟩
  · decide
  · have := w.lo h; have := w.hi h; have := w.le h; omega
  · decide
theorem RhoSpec.range {S : GC} (w : Wf S) {k r} (h : RhoSpec S k r) : InRange r.p ∧ InRange r.q := by
  rcases h with ⟨_, rfl⟩ | ⟨_, h, _⟩ | ⟨_, _, rfl⟩
  · decide
  · have := w.lo h; have := w.hi h; have := w.le h; omega
  · decide
theorem UatSpec.range {S : GC} (w : Wf S) {k r} (h : UatSpec S k r) : InRange r.p ∧ InRange r.q := by
  rcases h with ⟨_, rfl⟩ | ⟨_, h, _⟩ | ⟨_, _, rfl⟩
  · decide
  · have := w.lo h; have := w.hi h; have := w.le h; omega
  · decide
theorem OhrSpec.range {S : GC} (w : Wf S) {k r} (h : OhrSpec S k r) : InRange r.p ∧ InRange r.q := by
  rcases h with ⟨_, rfl⟩ | ⟨_, h, _⟩ | ⟨_, _, rfl⟩
  · decide
  · have := w.lo h; have := w.hi h; have := w.le h; omega
  · decide
theorem LSpec.range {S : GC} (w : Wf S) {k l} (h : LSpec S k l) : InRange l := by
  obtain ⟨r, h1, rfl⟩ := h; exact (h1.range w).1
theorem RSpec.range {S : GC} (w : Wf S) {k l} (h : RSpec S k l) : InRange l := by
  obtain ⟨r, h1, rfl⟩ := h; exact (h1.range w).2

/-! ### L and R, unfolded -/

theorem LSpec.cases {S : GC} {k l} (h : LSpec S k l) :
    (k = maxfinity ∧ l = maxfinity) ∨
    (k ≠ maxfinity ∧ ∃ r, S r ∧ l = r.p ∧ r.q ≤ k ∧ ∀ a, S a → a.q ≤ k → a.q ≤ r.q) ∨
    (k ≠ maxfinity ∧ (∀ a, S a → k < a.q) ∧ l = minfinity) := by
  obtain ⟨r, h, rfl⟩ := h
  rcases h with ⟨h1, rfl⟩ | ⟨h1, h2, h3, h4⟩ | ⟨h1, h2, rfl⟩
  · exact Or.inl ⟨h1, rfl⟩
  · exact Or.inr (Or.inl ⟨h1, r, h2, rfl, h3, h4⟩)
  · exact Or.inr (Or.inr ⟨h1, h2, rfl⟩)

theorem RSpec.cases {S : GC} {k l} (h : RSpec S k l) :
    (k = minfinity ∧ l = minfinity) ∨
    (k ≠ minfinity ∧ ∃ r, S r ∧ l = r.q ∧ k ≤ r.p ∧ ∀ a, S a → k ≤ a.p → r.p ≤ a.p) ∨
    (k ≠ minfinity ∧ (∀ a, S a → a.p < k) ∧ l = maxfinity) := by
  obtain ⟨r, h, rfl⟩ := h
  rcases h with ⟨h1, rfl⟩ | ⟨h1, h2, h3, h4⟩ | ⟨h1, h2, rfl⟩
  · exact Or.inl ⟨h1, rfl⟩
  · exact Or.inr (Or.inl ⟨h1, r, h2, rfl, h3, h4⟩)
  · exact Or.inr (Or.inr ⟨h1, h2, rfl⟩)

end Verif.Hopper
