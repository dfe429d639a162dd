import Verif.Hopper.Model2
import Verif.Hopper.Array
/-
  Enumeration, hoppers over lists, Materialize and Link.
-/
namespace Verif.Hopper

section enum
variable {σ : Type} {I : σ → Prop} {S : GC}

theorem tauAll_ok (w : Wf S) {tau : Int → M σ Ann}
    (h : ∀ k, InRange k → Ok I (tau k) (TauSpec S k)) :
    ∀ (fuel : Nat) (k : Int), InRange k → k ≠ minfinity → (maxfinity - k).toNat < fuel →
      Ok I (tauAll tau fuel k) fun l =>
        (∀ a, a ∈ l ↔ S a ∧ k ≤ a.p) ∧ l.Pairwise fun a b => a.p < b.p ∧ a.q < b.q := by
  intro fuel
  induction fuel with
  | zero => intro k _ _ h; omega
  | succ fuel ih =>
    intro k hk hk0 hf
    unfold tauAll
    refine Ok.bind (h k hk) fun r hr => ?_
    rcases hr with ⟨h1, _⟩ | ⟨_, h1, h2, h3⟩ | ⟨_, h1, rfl⟩
    · exact absurd h1 hk0
    · have := w.lo h1; have := w.hi h1; have := w.le h1
      refine Ok.ite (fun _ => ?_) (fun h => by omega)
      refine Ok.bind (Ok.ck (by omega) (by omega)) ?_
      rintro _ rfl
      refine Ok.bind (ih (r.p + 1) (by omega) (by omega) (by omega)) fun l hl => Ok.pure ⟨?_, ?_⟩
      · intro a
        rw [List.mem_cons, hl.1 a]
        constructor
        · rintro (rfl | ⟨g1, g2⟩)
          · exact ⟨h1, h2⟩
          · exact ⟨g1, by omega⟩
        · rintro ⟨g1, g2⟩
          have := h3 a g1 g2
          by_cases he : a.p = r.p
          · exact Or.inl (w.uniq g1 h1 he)
          · exact Or.inr ⟨g1, by omega⟩
      · rw [List.pairwise_cons]
        refine ⟨fun a ha => ?_, hl.2⟩
        have := (hl.1 a).1 ha
        exact ⟨by omega, w.mono h1 this.1 (by omega)⟩
    · refine Ok.ite (fun h => absurd h (by simp)) (fun _ => Ok.pure ⟨?_, List.Pairwise.nil⟩)
      intro a
      constructor
      · intro h; simp at h
      · rintro ⟨g1, g2⟩; have := h1 a g1; omega

theorem rhoAll_ok (w : Wf S) {rho : Int → M σ Ann}
    (h : ∀ k, InRange k → Ok I (rho k) (RhoSpec S k)) :
    ∀ (fuel : Nat) (k : Int), InRange k → k ≠ minfinity → (maxfinity - k).toNat < fuel →
      Ok I (rhoAll rho fuel k) fun l =>
        (∀ a, a ∈ l ↔ S a ∧ k ≤ a.q) ∧ l.Pairwise fun a b => a.p < b.p ∧ a.q < b.q := by
  intro fuel
  induction fuel with
  | zero => intro k _ _ h; omega
  | succ fuel ih =>
    intro k hk hk0 hf
    unfold rhoAll
    refine Ok.bind (h k hk) fun r hr => ?_
    rcases hr with ⟨h1, _⟩ | ⟨_, h1, h2, h3⟩ | ⟨_, h1, rfl⟩
    · exact absurd h1 hk0
    · have := w.lo h1; have := w.hi h1; have := w.le h1
      refine Ok.ite (fun _ => ?_) (fun h => by omega)
      refine Ok.bind (Ok.ck (by omega) (by omega)) ?_
      rintro _ rfl
      refine Ok.bind (ih (r.q + 1) (by omega) (by omega) (by omega)) fun l hl => Ok.pure ⟨?_, ?_⟩
      · intro a
        rw [List.mem_cons, hl.1 a]
        constructor
        · rintro (rfl | ⟨g1, g2⟩)
          · exact ⟨h1, h2⟩
          · exact ⟨g1, by omega⟩
        · rintro ⟨g1, g2⟩
          have := h3 a g1 g2
          by_cases he : a.q = r.q
          · exact Or.inl (w.eq_of_q g1 h1 he)
          · exact Or.inr ⟨g1, by omega⟩
      · rw [List.pairwise_cons]
        refine ⟨fun a ha => ?_, hl.2⟩
        have := (hl.1 a).1 ha
        exact ⟨(w.p_lt_iff h1 this.1).2 (by omega), by omega⟩
    · refine Ok.ite (fun h => absurd h (by simp)) (fun _ => Ok.pure ⟨?_, List.Pairwise.nil⟩)
      intro a
      constructor
      · intro h; simp at h
      · rintro ⟨g1, g2⟩; have := h1 a g1; omega

theorem uatAll_ok (w : Wf S) {uat : Int → M σ Ann}
    (h : ∀ k, InRange k → Ok I (uat k) (UatSpec S k)) :
    ∀ (fuel : Nat) (k : Int), InRange k → k ≠ maxfinity → (k - minfinity).toNat < fuel →
      Ok I (uatAll uat fuel k) fun l =>
        (∀ a, a ∈ l ↔ S a ∧ a.q ≤ k) ∧ l.Pairwise fun a b => b.p < a.p ∧ b.q < a.q := by
  intro fuel
  induction fuel with
  | zero => intro k _ _ h; omega
  | succ fuel ih =>
    intro k hk hk0 hf
    unfold uatAll
    refine Ok.bind (h k hk) fun r hr => ?_
    rcases hr with ⟨h1, _⟩ | ⟨_, h1, h2, h3⟩ | ⟨_, h1, rfl⟩
    · exact absurd h1 hk0
    · have := w.lo h1; have := w.hi h1; have := w.le h1
      refine Ok.ite (fun _ => ?_) (fun h => by omega)
      refine Ok.bind (Ok.ck (by omega) (by omega)) ?_
      rintro _ rfl
      refine Ok.bind (ih (r.q - 1) (by omega) (by omega) (by omega)) fun l hl => Ok.pure ⟨?_, ?_⟩
      · intro a
        rw [List.mem_cons, hl.1 a]
        constructor
        · rintro (rfl | ⟨g1, g2⟩)
          · exact ⟨h1, h2⟩
          · exact ⟨g1, by omega⟩
        · rintro ⟨g1, g2⟩
          have := h3 a g1 g2
          by_cases he : a.q = r.q
          · exact Or.inl (w.eq_of_q g1 h1 he)
          · exact Or.inr ⟨g1, by omega⟩
      · rw [List.pairwise_cons]
        refine ⟨fun a ha => ?_, hl.2⟩
        have := (hl.1 a).1 ha
        exact ⟨(w.p_lt_iff this.1 h1).2 (by omega), by omega⟩
    · refine Ok.ite (fun h => absurd h (by simp)) (fun _ => Ok.pure ⟨?_, List.Pairwise.nil⟩)
      intro a
      constructor
      · intro h; simp at h
      · rintro ⟨g1, g2⟩; have := h1 a g1; omega

theorem ohrAll_ok (w : Wf S) {ohr : Int → M σ Ann}
    (h : ∀ k, InRange k → Ok I (ohr k) (OhrSpec S k)) :
    ∀ (fuel : Nat) (k : Int), InRange k → k ≠ maxfinity → (k - minfinity).toNat < fuel →
      Ok I (ohrAll ohr fuel k) fun l =>
        (∀ a, a ∈ l ↔ S a ∧ a.p ≤ k) ∧ l.Pairwise fun a b => b.p < a.p ∧ b.q < a.q := by
  intro fuel
  induction fuel with
  | zero => intro k _ _ h; omega
  | succ fuel ih =>
    intro k hk hk0 hf
    unfold ohrAll
    refine Ok.bind (h k hk) fun r hr => ?_
    rcases hr with ⟨h1, _⟩ | ⟨_, h1, h2, h3⟩ | ⟨_, h1, rfl⟩
    · exact absurd h1 hk0
    · have := w.lo h1; have := w.hi h1; have := w.le h1
      refine Ok.ite (fun _ => ?_) (fun h => by omega)
      refine Ok.bind (Ok.ck (by omega) (by omega)) ?_
      rintro _ rfl
      refine Ok.bind (ih (r.p - 1) (by omega) (by omega) (by omega)) fun l hl => Ok.pure ⟨?_, ?_⟩
      · intro a
        rw [List.mem_cons, hl.1 a]
        constructor
        · rintro (rfl | ⟨g1, g2⟩)
          · exact ⟨h1, h2⟩
          · exact ⟨g1, by omega⟩
        · rintro ⟨g1, g2⟩
          have := h3 a g1 g2
          by_cases he : a.p = r.p
          · exact Or.inl (w.uniq g1 h1 he)
          · exact Or.inr ⟨g1, by omega⟩
      · rw [List.pairwise_cons]
        refine ⟨fun a ha => ?_, hl.2⟩
        have := (hl.1 a).1 ha
        exact ⟨by omega, w.mono this.1 h1 (by omega)⟩
    · refine Ok.ite (fun h => absurd h (by simp)) (fun _ => Ok.pure ⟨?_, List.Pairwise.nil⟩)
      intro a
      constructor
      · intro h; simp at h
      · rintro ⟨g1, g2⟩; have := h1 a g1; omega
end enum

/-! ### list hoppers -/

theorem listing_nil : Listing [] := ⟨List.Pairwise.nil, fun _ h => by simp at h⟩

theorem list_impl_exists {l : List Ann} (h : Listing l) :
    ∃ I, Impl (listObj l) I (ofList l) := by
  match l, h with
  | [], _ =>
    have : ofList [] = emptyS := by funext a; simp [ofList, emptyS]
    rw [this]
    exact ⟨_, empty_impl (fun _ => True) trivial⟩
  | [a], _ =>
    have : ofList [a] = singleS a := by funext b; simp [ofList, singleS]
    rw [this]
    exact ⟨_, single_impl a (fun _ => True) trivial⟩
  | a :: b :: l, h =>
    exact ⟨_, array_impl h (by simp) ⟨rfl, rfl, Or.inl rfl⟩⟩

/-- the object invariant of `listObj l` -/
noncomputable def listInv {l : List Ann} (h : Listing l) : (listObj l).σ → Prop :=
  (list_impl_exists h).choose

theorem list_impl {l : List Ann} (h : Listing l) : Impl (listObj l) (listInv h) (ofList l) :=
  (list_impl_exists h).choose_spec

/-- a one-address interval -/
abbrev pt (x : Int) : Ann := ⟨x, x, 0⟩

theorem linkList_impl_exists {l : List Int} (h : Listing (l.map pt)) :
    ∃ I, Impl (linkListObj l) I (ofList (l.map pt)) := by
  match l, h with
  | [], _ =>
    have : ofList (List.map pt []) = emptyS := by funext a; simp [ofList, emptyS]
    rw [this]
    exact ⟨_, empty_impl (fun _ => True) trivial⟩
  | [a], _ =>
    have : ofList (List.map pt [a]) = singleS ⟨a, a, 0⟩ := by funext b; simp [ofList, singleS, pt]
    rw [this]
    exact ⟨_, single_impl _ (fun _ => True) trivial⟩
  | a :: b :: l, h =>
    refine ⟨_, array_impl h (by simp) ⟨?_, ?_, Or.inr ⟨rfl, ?_⟩⟩⟩
    · simp [Function.comp_def]
    · simp [Function.comp_def]
    · intro x hx
      obtain ⟨y, _, rfl⟩ := List.mem_map.1 hx
      rfl

noncomputable def linkListInv {l : List Int} (h : Listing (l.map pt)) : (linkListObj l).σ → Prop :=
  (linkList_impl_exists h).choose

theorem linkList_impl {l : List Int} (h : Listing (l.map pt)) :
    Impl (linkListObj l) (linkListInv h) (ofList (l.map pt)) :=
  (linkList_impl_exists h).choose_spec

/-! ### Materialize -/

section
variable {A : Obj} {IA : A.σ → Prop} {SA : GC}

/-- invariant of the member of a `Materialize` -/
def MatInv (IA : A.σ → Prop) (SA : GC) : MatSt A → Prop
  | .inl a => IA a
  | .inr ⟨l, t⟩ => ∃ h : Listing l, ofList l = SA ∧ listInv h t

theorem Ok.matRun (w : Wf SA) (hA : Impl A IA SA) {T : GC} {f : (H : Obj) → M H.σ Ann}
    {Q : Ann → Prop} (hf : ∀ H I, Impl H I SA → Ok I (f H) Q) :
    Ok (NInv T (MatInv IA SA)) (matRun A f) Q := by
  intro s hs
  obtain ⟨hm, hj⟩ := hs
  have run : ∀ l (h : Listing l) (t : (listObj l).σ), ofList l = SA → listInv h t →
      ∃ x t', f (listObj l) t = some (x, t') ∧ MatInv (A := A) IA SA (.inr ⟨l, t'⟩) ∧ Q x := by
    intro l h t he ht
    obtain ⟨x, t', e, i, q⟩ := hf (listObj l) (listInv h) (he ▸ list_impl h) t ht
    exact ⟨x, t', e, ⟨h, he, i⟩, q⟩
  unfold Hopper.matRun
  match hsub : s.sub with
  | .inl a =>
    rw [hsub] at hj
    obtain ⟨l, a', h1, _, h3, h4⟩ := tauAll_ok w hA.tau loopFuel (minfinity + 1) (by decide) (by decide)
      (by decide) a hj
    have hl : Listing l := ⟨h4, fun b hb => by
      have := (h3 b).1 hb; exact ⟨w.lo this.1, w.le this.1, w.hi this.1⟩⟩
    have he : ofList l = SA := by
      funext b
      refine propext ((h3 b).trans ⟨fun h => h.1, fun h => ⟨h, ?_⟩⟩)
      have := w.lo h; omega
    obtain ⟨x, t', e, i, q⟩ := run l hl _ he (list_impl hl).init
    exact ⟨x, { s with sub := .inr ⟨l, t'⟩ }, by simp only [h1, e], ⟨hm, i⟩, q⟩
  | .inr ⟨l, t⟩ =>
    rw [hsub] at hj
    obtain ⟨hl, he, ht⟩ := hj
    obtain ⟨x, t', e, i, q⟩ := run l hl t he ht
    exact ⟨x, { s with sub := .inr ⟨l, t'⟩ }, by simp [e], ⟨hm, i⟩, q⟩

theorem mat_impl (w : Wf SA) (hA : Impl A IA SA) :
    Impl (matObj A) (NInv SA (MatInv IA SA)) SA := by
  have t : ∀ k, InRange k → Ok (NInv SA (MatInv IA SA))
      (memoTau (fun k => matRun A fun H => H.tau k) k) (TauSpec SA k) :=
    fun k hk => Ok.memoTau (Ok.matRun w hA fun H I h => h.tau k hk)
  have u : ∀ k, InRange k → Ok (NInv SA (MatInv IA SA))
      (memoUat (fun k => matRun A fun H => H.uat k) k) (UatSpec SA k) :=
    fun k hk => Ok.memoUat (Ok.matRun w hA fun H I h => h.uat k hk)
  refine ⟨⟨memoOk_init _, hA.init⟩, t, ?_, u, ?_, fun k hk => (u k hk).defaultL,
    fun k hk => (t k hk).defaultR⟩
  · exact fun k hk => Ok.memoRho (body := fun k => matRun A fun H => H.rho k)
      (Ok.matRun w hA fun H I h => h.rho k hk)
  · exact fun k hk => Ok.memoOhr (body := fun k => matRun A fun H => H.ohr k)
      (Ok.matRun w hA fun H I h => h.ohr k hk)

/-! ### Link -/

theorem setInsert_mem (x y : Int) : ∀ s, y ∈ setInsert x s ↔ y = x ∨ y ∈ s := by
  intro s
  induction s with
  | nil => simp [setInsert]
  | cons z zs ih =>
    unfold setInsert
    by_cases h1 : x < z
    · simp [h1]
    · by_cases h2 : x = z
      · subst h2
        simp
      · simp only [h1, h2, if_false, List.mem_cons, ih]
        constructor
        · rintro (h | h | h)
          · exact Or.inr (Or.inl h)
          · exact Or.inl h
          · exact Or.inr (Or.inr h)
        · rintro (h | h | h)
          · exact Or.inr (Or.inl h)
          · exact Or.inl h
          · exact Or.inr (Or.inr h)

theorem setInsert_sorted (x : Int) : ∀ s : List Int, s.Pairwise (· < ·) →
    (setInsert x s).Pairwise (· < ·) := by
  intro s
  induction s with
  | nil => intro _; simp [setInsert]
  | cons z zs ih =>
    intro h
    have h' := h
    rw [List.pairwise_cons] at h'
    unfold setInsert
    by_cases h1 : x < z
    · rw [if_pos h1, List.pairwise_cons]
      refine ⟨fun y hy => ?_, h⟩
      rcases List.mem_cons.1 hy with rfl | hy
      · exact h1
      · have := h'.1 y hy; omega
    · by_cases h2 : x = z
      · subst h2; simpa using h
      · rw [if_neg h1, if_neg h2, List.pairwise_cons]
        refine ⟨fun y hy => ?_, ih h'.2⟩
        rcases (setInsert_mem x y zs).1 hy with rfl | hy
        · omega
        · exact h'.1 y hy

theorem linkSet_ok (l : List Ann) : (linkSet l).Pairwise (· < ·) ∧
    ∀ y, y ∈ linkSet l ↔ minfinity < y ∧ y < maxfinity ∧ ∃ a ∈ l, a.v = y := by
  have gen : ∀ (l : List Ann) (s : List Int), s.Pairwise (· < ·) →
      (∀ y ∈ s, minfinity < y ∧ y < maxfinity) →
      (l.foldl (fun s a => if a.v > minfinity ∧ a.v < maxfinity then setInsert a.v s else s) s).Pairwise (· < ·) ∧
      ∀ y, y ∈ l.foldl (fun s a => if a.v > minfinity ∧ a.v < maxfinity then setInsert a.v s else s) s ↔
        y ∈ s ∨ (minfinity < y ∧ y < maxfinity ∧ ∃ a ∈ l, a.v = y) := by
    intro l
    induction l with
    | nil => intro s h _; simp [h]
    | cons a l ih =>
      intro s h hb
      rw [List.foldl_cons]
      by_cases hc : a.v > minfinity ∧ a.v < maxfinity
      · rw [if_pos hc]
        have := ih (setInsert a.v s) (setInsert_sorted _ _ h) (by
          intro y hy
          rcases (setInsert_mem _ _ _).1 hy with rfl | hy
          · exact ⟨by omega, hc.2⟩
          · exact hb y hy)
        refine ⟨this.1, fun y => (this.2 y).trans ?_⟩
        rw [setInsert_mem]
        constructor
        · rintro ((rfl | h) | ⟨h1, h2, b, hb, e⟩)
          · exact Or.inr ⟨by omega, hc.2, a, List.mem_cons_self, rfl⟩
          · exact Or.inl h
          · exact Or.inr ⟨h1, h2, b, List.mem_cons_of_mem _ hb, e⟩
        · rintro (h | ⟨h1, h2, b, hb, e⟩)
          · exact Or.inl (Or.inr h)
          · rcases List.mem_cons.1 hb with rfl | hb
            · exact Or.inl (Or.inl e.symm)
            · exact Or.inr ⟨h1, h2, b, hb, e⟩
      · rw [if_neg hc]
        have := ih s h hb
        refine ⟨this.1, fun y => (this.2 y).trans ?_⟩
        constructor
        · rintro (h | ⟨h1, h2, b, hb, e⟩)
          · exact Or.inl h
          · exact Or.inr ⟨h1, h2, b, List.mem_cons_of_mem _ hb, e⟩
        · rintro (h | ⟨h1, h2, b, hb, e⟩)
          · exact Or.inl h
          · rcases List.mem_cons.1 hb with rfl | hb
            · omega
            · exact Or.inr ⟨h1, h2, b, hb, e⟩
  have := gen l [] List.Pairwise.nil (by simp)
  exact ⟨this.1, fun y => (this.2 y).trans (by simp)⟩

theorem link_listing {l : List Ann} (hl : ∀ a, a ∈ l ↔ SA a) :
    Listing ((linkSet l).map pt) ∧ ofList ((linkSet l).map pt) = linkOf SA := by
  obtain ⟨h1, h2⟩ := linkSet_ok l
  refine ⟨⟨?_, ?_⟩, ?_⟩
  · rw [List.pairwise_map]
    exact h1.imp fun h => ⟨h, h⟩
  · intro a ha
    obtain ⟨y, hy, rfl⟩ := List.mem_map.1 ha
    have := (h2 y).1 hy
    exact ⟨this.1, Int.le_refl _, this.2.1⟩
  · funext r
    apply propext
    unfold ofList linkOf
    rw [List.mem_map]
    constructor
    · rintro ⟨y, hy, rfl⟩
      obtain ⟨g1, g2, a, ha, e⟩ := (h2 y).1 hy
      exact ⟨rfl, rfl, g1, g2, a, (hl a).1 ha, e⟩
    · rintro ⟨e1, e2, g1, g2, a, ha, e⟩
      refine ⟨r.p, (h2 _).2 ⟨g1, g2, a, (hl a).2 ha, e⟩, ?_⟩
      cases r; simp only at e1 e2; subst e1 e2; rfl

theorem linkOf_wf (SA : GC) : Wf (linkOf SA) := by
  refine ⟨fun h => h.2.2.1, fun h => by have := h.1; have := h.2.2.2.1; omega,
    fun h => by have := h.1; omega, ?_, ?_⟩
  · intro a b ha hb h; have := ha.1; have := hb.1; omega
  · intro a b ha hb h
    have := ha.1; have := hb.1; have := ha.2.1; have := hb.2.1
    cases a; cases b; simp_all

/-- invariant of the member of a `Link` -/
def LinkInv (IA : A.σ → Prop) (SA : GC) : LinkSt A → Prop
  | .inl a => IA a
  | .inr ⟨l, t⟩ => ∃ h : Listing (l.map pt), ofList (l.map pt) = linkOf SA ∧ linkListInv h t

theorem Ok.linkRun {T : GC} {f : (H : Obj) → M H.σ Ann} {collect : M A.σ (List Ann)}
    {Q : Ann → Prop} (hc : Ok IA collect fun l => ∀ a, a ∈ l ↔ SA a)
    (hf : ∀ H I, Impl H I (linkOf SA) → Ok I (f H) Q) :
    Ok (NInv T (LinkInv IA SA)) (linkRun A collect f) Q := by
  intro s hs
  obtain ⟨hm, hj⟩ := hs
  have run : ∀ l (h : Listing (l.map pt)) (t : (linkListObj l).σ), ofList (l.map pt) = linkOf SA →
      linkListInv h t →
      ∃ x t', f (linkListObj l) t = some (x, t') ∧ LinkInv (A := A) IA SA (.inr ⟨l, t'⟩) ∧ Q x := by
    intro l h t he ht
    obtain ⟨x, t', e, i, q⟩ := hf (linkListObj l) (linkListInv h) (he ▸ linkList_impl h) t ht
    exact ⟨x, t', e, ⟨h, he, i⟩, q⟩
  unfold Hopper.linkRun
  match hsub : s.sub with
  | .inl a =>
    rw [hsub] at hj
    obtain ⟨l, a', h1, _, h3⟩ := hc a hj
    obtain ⟨hl, he⟩ := link_listing h3
    obtain ⟨x, t', e, i, q⟩ := run _ hl _ he (linkList_impl hl).init
    exact ⟨x, { s with sub := .inr ⟨linkSet l, t'⟩ }, by simp only [h1, e], ⟨hm, i⟩, q⟩
  | .inr ⟨l, t⟩ =>
    rw [hsub] at hj
    obtain ⟨hl, he, ht⟩ := hj
    obtain ⟨x, t', e, i, q⟩ := run l hl t he ht
    exact ⟨x, { s with sub := .inr ⟨l, t'⟩ }, by simp [e], ⟨hm, i⟩, q⟩

theorem link_impl (w : Wf SA) (hA : Impl A IA SA) :
    Impl (linkObj A) (NInv (linkOf SA) (LinkInv IA SA)) (linkOf SA) := by
  have ct : Ok IA (tauAll A.tau loopFuel (minfinity + 1)) fun l => ∀ a, a ∈ l ↔ SA a :=
    (tauAll_ok w hA.tau loopFuel (minfinity + 1) (by decide) (by decide) (by decide)).mono
      fun l h a => (h.1 a).trans ⟨fun h => h.1, fun h => ⟨h, by have := w.lo h; omega⟩⟩
  have cr : Ok IA (rhoAll A.rho loopFuel (minfinity + 1)) fun l => ∀ a, a ∈ l ↔ SA a :=
    (rhoAll_ok w hA.rho loopFuel (minfinity + 1) (by decide) (by decide) (by decide)).mono
      fun l h a => (h.1 a).trans ⟨fun h => h.1, fun h => ⟨h, by have := w.lo h; have := w.le h; omega⟩⟩
  have cu : Ok IA (uatAll A.uat loopFuel (maxfinity - 1)) fun l => ∀ a, a ∈ l ↔ SA a :=
    (uatAll_ok w hA.uat loopFuel (maxfinity - 1) (by decide) (by decide) (by decide)).mono
      fun l h a => (h.1 a).trans ⟨fun h => h.1, fun h => ⟨h, by have := w.hi h; omega⟩⟩
  have co : Ok IA (ohrAll A.ohr loopFuel (maxfinity - 1)) fun l => ∀ a, a ∈ l ↔ SA a :=
    (ohrAll_ok w hA.ohr loopFuel (maxfinity - 1) (by decide) (by decide) (by decide)).mono
      fun l h a => (h.1 a).trans ⟨fun h => h.1, fun h => ⟨h, by have := w.hi h; have := w.le h; omega⟩⟩
  have t : ∀ k, InRange k → Ok (NInv (linkOf SA) (LinkInv IA SA)) ((linkObj A).tau k)
      (TauSpec (linkOf SA) k) := fun k hk => Ok.memoTau
        (body := fun k => linkRun A (tauAll A.tau loopFuel (minfinity + 1)) fun H => H.tau k)
        (Ok.linkRun ct fun H I h => h.tau k hk)
  have u : ∀ k, InRange k → Ok (NInv (linkOf SA) (LinkInv IA SA)) ((linkObj A).uat k)
      (UatSpec (linkOf SA) k) := fun k hk => Ok.memoUat
        (body := fun k => linkRun A (uatAll A.uat loopFuel (maxfinity - 1)) fun H => H.uat k)
        (Ok.linkRun cu fun H I h => h.uat k hk)
  refine ⟨⟨memoOk_init _, hA.init⟩, t, ?_, u, ?_, fun k hk => (u k hk).defaultL,
    fun k hk => (t k hk).defaultR⟩
  · exact fun k hk => Ok.memoRho
      (body := fun k => linkRun A (rhoAll A.rho loopFuel (minfinity + 1)) fun H => H.rho k)
      (Ok.linkRun cr fun H I h => h.rho k hk)
  · exact fun k hk => Ok.memoOhr
      (body := fun k => linkRun A (ohrAll A.ohr loopFuel (maxfinity - 1)) fun H => H.ohr k)
      (Ok.linkRun co fun H I h => h.ohr k hk)
end

end Verif.Hopper
