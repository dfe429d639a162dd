import Verif.Hopper.Enum
/-
  VectorHopper: lazy priority queues over any number of children.
-/
namespace Verif.Hopper

section
variable {n : Nat} {S : Fin n → GC}

theorem unionOf_mem {a : Ann} (h : unionOf S a) : ∃ i, S i a := by
  obtain ⟨i, h, _⟩ := h.1; exact ⟨i, h⟩

theorem unionOf_wf (w : ∀ i, Wf (S i)) : Wf (unionOf S) := by
  refine ⟨?_, ?_, ?_, ?_, ?_⟩
  · intro a h; obtain ⟨i, h⟩ := unionOf_mem h; exact (w i).lo h
  · intro a h; obtain ⟨i, h⟩ := unionOf_mem h; exact (w i).hi h
  · intro a h; obtain ⟨i, h⟩ := unionOf_mem h; exact (w i).le h
  · intro a b ha hb h
    by_cases hh : a.q < b.q
    · exact hh
    · obtain ⟨j, hj⟩ := unionOf_mem hb
      have := ha.2 j b hj ⟨by omega, by omega⟩; omega
  · intro a b ha hb h
    have hq : a.q = b.q := by
      obtain ⟨j, hj⟩ := unionOf_mem hb
      obtain ⟨i, hi⟩ := unionOf_mem ha
      by_cases hh : a.q ≤ b.q
      · exact (hb.2 i a hi ⟨by omega, hh⟩).2
      · exact (ha.2 j b hj ⟨by omega, by omega⟩).2.symm
    obtain ⟨i, hi, hi2⟩ := ha.1
    obtain ⟨j, hj, hj2⟩ := hb.1
    rcases Nat.lt_trichotomy i.val j.val with hij | hij | hij
    · exact absurd ⟨h.symm, hq.symm⟩ (hi2 j b hij hj)
    · have : i = j := Fin.ext hij
      subst this; exact (w i).uniq hi hj h
    · exact absurd ⟨h, hq⟩ (hj2 i a hij hi)

/-- the intervals of any of the lists -/
def anyX (S : Fin n → GC) (p q : Int) : Prop := ∃ i a, S i a ∧ p = a.p ∧ q = a.q

theorem anyX_wf (w : ∀ i, Wf (S i)) : XWf (anyX S) := by
  rintro p q ⟨i, a, ha, rfl, rfl⟩
  exact ⟨(w i).lo ha, (w i).le ha, (w i).hi ha⟩

/-- a minimal interval is in the union, with the value of the last list that has it -/
theorem union_of_minimal {r : Ann} (h : minimal (anyX S) r) :
    ∃ y, unionOf S y ∧ y.p = r.p ∧ y.q = r.q := by
  obtain ⟨_, ⟨i, a, ha, hp, hq⟩, hmin⟩ := h
  have hall : ∀ (m : Nat) (i : Fin n) (a : Ann), n - i.val = m → S i a → r.p = a.p → r.q = a.q →
      ∃ y, unionOf S y ∧ y.p = r.p ∧ y.q = r.q := by
    intro m
    induction m using Nat.strongRecOn with
    | _ m ih =>
      intro i a hm ha hp hq
      by_cases hl : ∀ j b, i < j → S j b → ¬ (b.p = a.p ∧ b.q = a.q)
      · refine ⟨a, ⟨⟨i, ha, hl⟩, ?_⟩, hp.symm, hq.symm⟩
        rintro j b hb ⟨i1, i2⟩
        have := hmin b.p b.q ⟨j, b, hb, rfl, rfl⟩ (by omega) (by omega)
        omega
      · simp only [Classical.not_forall, Classical.not_not] at hl
        obtain ⟨j, b, hij, hb, e1, e2⟩ := hl
        have : i.val < j.val := hij
        exact ih (n - j.val) (by have := j.isLt; omega) j b rfl hb (by omega) (by omega)
  exact hall _ i a rfl ha hp hq

theorem LSpec_union (w : ∀ i, Wf (S i)) {k l : Int}
    (h : (k = maxfinity ∧ l = maxfinity) ∨
      (k ≠ maxfinity ∧ (∃ q, anyX S l q ∧ q ≤ k) ∧ ∀ p q, anyX S p q → q ≤ k → p ≤ l) ∨
      (k ≠ maxfinity ∧ (∀ p q, anyX S p q → k < q) ∧ l = minfinity)) : LSpec (unionOf S) k l := by
  rcases h with ⟨rfl, rfl⟩ | ⟨hk, ⟨q, hq, hqk⟩, hmax⟩ | ⟨hk, hn, rfl⟩
  · exact ⟨highEnd, Or.inl ⟨rfl, rfl⟩, rfl⟩
  · obtain ⟨a, ha, h1, h2⟩ := exists_minimal (anyX_wf w) hq
    have h3 := hmax _ _ ha.2.1 (by omega)
    obtain ⟨y, hy, e1, e2⟩ := union_of_minimal ha
    refine ⟨y, Or.inr (Or.inl ⟨hk, hy, by omega, ?_⟩), by omega⟩
    intro b hb hbk
    obtain ⟨j, hj⟩ := unionOf_mem hb
    have h4 := hmax _ _ ⟨j, b, hj, rfl, rfl⟩ hbk
    have := (unionOf_wf w).p_lt_iff hy hb
    omega
  · refine ⟨lowEnd, Or.inr (Or.inr ⟨hk, fun a ha => ?_, rfl⟩), rfl⟩
    obtain ⟨j, hj⟩ := unionOf_mem ha
    exact hn _ _ ⟨j, a, hj, rfl, rfl⟩

theorem RSpec_union (w : ∀ i, Wf (S i)) {k r : Int}
    (h : (k = minfinity ∧ r = minfinity) ∨
      (k ≠ minfinity ∧ (∃ p, anyX S p r ∧ k ≤ p) ∧ ∀ p q, anyX S p q → k ≤ p → r ≤ q) ∨
      (k ≠ minfinity ∧ (∀ p q, anyX S p q → p < k) ∧ r = maxfinity)) : RSpec (unionOf S) k r := by
  rcases h with ⟨rfl, rfl⟩ | ⟨hk, ⟨q, hq, hqk⟩, hmax⟩ | ⟨hk, hn, rfl⟩
  · exact ⟨lowEnd, Or.inl ⟨rfl, rfl⟩, rfl⟩
  · obtain ⟨a, ha, h1, h2⟩ := exists_minimal (anyX_wf w) hq
    have h3 := hmax _ _ ha.2.1 (by omega)
    obtain ⟨y, hy, e1, e2⟩ := union_of_minimal ha
    refine ⟨y, Or.inr (Or.inl ⟨hk, hy, by omega, ?_⟩), by omega⟩
    intro b hb hbk
    obtain ⟨j, hj⟩ := unionOf_mem hb
    have h4 := hmax _ _ ⟨j, b, hj, rfl, rfl⟩ hbk
    have := (unionOf_wf w).p_lt_iff hb hy
    omega
  · refine ⟨highEnd, Or.inr (Or.inr ⟨hk, fun a ha => ?_, rfl⟩), rfl⟩
    obtain ⟨j, hj⟩ := unionOf_mem ha
    exact hn _ _ ⟨j, a, hj, rfl, rfl⟩

/-! ### top of the queue -/

theorem topIdx_ok {before : Fin n → Ann → Fin n → Ann → Bool} (e : Fin n → Ann)
    (htot : ∀ i j, i ≠ j → before i (e i) j (e j) = true ∨ before j (e j) i (e i) = true)
    (htr : ∀ i j k, before i (e i) j (e j) = true → before j (e j) k (e k) = true →
      before i (e i) k (e k) = true) (hn : 0 < n) :
    ∃ i, topIdx before e = some i ∧ ∀ j, j ≠ i → before i (e i) j (e j) = true := by
  have gen : ∀ (l : List (Fin n)) (pre : List (Fin n)) (acc : Option (Fin n)),
      (acc = none → pre = []) →
      (∀ i, acc = some i → ∀ j ∈ pre, j ≠ i → before i (e i) j (e j) = true) →
      ∃ acc', l.foldl (fun acc i =>
        match acc with
        | none => some i
        | some j => if before i (e i) j (e j) then some i else some j) acc = acc' ∧
        (acc' = none → pre ++ l = []) ∧
        (∀ i, acc' = some i → ∀ j ∈ pre ++ l, j ≠ i → before i (e i) j (e j) = true) := by
    intro l
    induction l with
    | nil => intro pre acc h1 h2; exact ⟨acc, rfl, by simpa using h1, by simpa using h2⟩
    | cons x xs ih =>
      intro pre acc h1 h2
      rw [List.foldl_cons]
      have e1 : pre ++ x :: xs = (pre ++ [x]) ++ xs := by simp
      rw [e1]
      match acc, h1, h2 with
      | none, h1, _ =>
        apply ih
        · simp
        · intro i hi j hj hne
          cases hi
          rw [h1 rfl] at hj
          simp at hj; exact absurd hj hne
      | some y, _, h2 =>
        apply ih
        · by_cases hb : before x (e x) y (e y) = true <;> simp [hb]
        · intro i hi j hj hne
          by_cases hb : before x (e x) y (e y) = true
          · simp [hb] at hi
            subst hi
            rcases List.mem_append.1 hj with hj | hj
            · by_cases hjy : j = y
              · subst hjy; exact hb
              · exact htr _ _ _ hb (h2 y rfl j hj hjy)
            · simp at hj; exact absurd hj hne
          · simp [hb] at hi
            subst hi
            rcases List.mem_append.1 hj with hj | hj
            · exact h2 _ rfl j hj hne
            · simp at hj; subst hj
              rcases htot j y hne with h | h
              · exact absurd h hb
              · exact h
  obtain ⟨acc', h1, h2, h3⟩ := gen (List.finRange n) [] none (fun _ => rfl) (by simp)
  match acc', h1, h2, h3 with
  | none, _, h2, _ =>
    have := h2 rfl
    have hl : (List.finRange n).length = 0 := by simpa using congrArg List.length this
    rw [List.length_finRange] at hl; omega
  | some i, h1, _, h3 => exact ⟨i, h1, fun j hj => h3 i rfl j (by simp) hj⟩

theorem tauBefore_iff {i j : Fin n} {a b : Ann} : tauBefore i a j b = true ↔
    (a.q < b.q ∨ (a.q = b.q ∧ (a.p > b.p ∨ (a.p = b.p ∧ i > j)))) := by
  simp [tauBefore]
theorem uatBefore_iff {i j : Fin n} {a b : Ann} : uatBefore i a j b = true ↔
    (a.p > b.p ∨ (a.p = b.p ∧ (a.q < b.q ∨ (a.q = b.q ∧ i > j)))) := by
  simp [uatBefore]

theorem tauTop_ok (e : Fin n → Ann) (hn : 0 < n) : ∃ i, topIdx tauBefore e = some i ∧
    ∀ j, j ≠ i → tauBefore i (e i) j (e j) = true := by
  refine topIdx_ok e ?_ ?_ hn
  · intro i j hij
    rw [tauBefore_iff, tauBefore_iff]
    have : i.val ≠ j.val := fun h => hij (Fin.ext h)
    rw [gt_iff_lt (x := i), gt_iff_lt (x := j), Fin.lt_def, Fin.lt_def]
    omega
  · intro i j k
    rw [tauBefore_iff, tauBefore_iff, tauBefore_iff]
    rw [gt_iff_lt (x := i), gt_iff_lt (x := j), gt_iff_lt (x := i), Fin.lt_def, Fin.lt_def, Fin.lt_def]
    omega
theorem uatTop_ok (e : Fin n → Ann) (hn : 0 < n) : ∃ i, topIdx uatBefore e = some i ∧
    ∀ j, j ≠ i → uatBefore i (e i) j (e j) = true := by
  refine topIdx_ok e ?_ ?_ hn
  · intro i j hij
    rw [uatBefore_iff, uatBefore_iff]
    have : i.val ≠ j.val := fun h => hij (Fin.ext h)
    rw [gt_iff_lt (x := i), gt_iff_lt (x := j), Fin.lt_def, Fin.lt_def]
    omega
  · intro i j k
    rw [uatBefore_iff, uatBefore_iff, uatBefore_iff]
    rw [gt_iff_lt (x := i), gt_iff_lt (x := j), gt_iff_lt (x := i), Fin.lt_def, Fin.lt_def, Fin.lt_def]
    omega

/-! ### the answer on top is right, although other elements may be stale -/

theorem vec_tau_spec (w : ∀ i, Wf (S i)) {e : Fin n → Ann} {k : Int} (hk : InRange k)
    (he : ∀ i, ∃ k', minfinity ≤ k' ∧ k' ≤ k ∧ TauSpec (S i) k' (e i)) {i : Fin n}
    (hfresh : k ≤ (e i).p) (htop : ∀ j, j ≠ i → tauBefore i (e i) j (e j) = true) :
    TauSpec (unionOf S) k (e i) := by
  by_cases hk0 : k = minfinity
  · obtain ⟨k', h1, h2, h3⟩ := he i
    rcases h3 with ⟨_, h⟩ | ⟨h, _⟩ | ⟨h, _⟩
    · exact Or.inl ⟨hk0, h⟩
    · omega
    · omega
  have H : ∀ j a, S j a → k ≤ a.p → (e j).q ≤ a.q ∧ ((e j).q = a.q → e j = a) := by
    intro j a ha hka
    obtain ⟨k', h1, h2, h3⟩ := he j
    have := (w j).lo ha; have := (w j).le ha
    rcases h3 with ⟨_, h⟩ | ⟨_, h4, h5, h6⟩ | ⟨_, h4, _⟩
    · rw [h]; exact ⟨by simp only; omega, fun h => by simp only at h; omega⟩
    · have := h6 a ha (by omega)
      have := (w j).p_lt_iff ha h4
      exact ⟨by omega, fun h => (w j).eq_of_q h4 ha h⟩
    · have := h4 a ha; omega
  have top : ∀ j, (e i).q ≤ (e j).q := by
    intro j
    by_cases hji : j = i
    · subst hji; exact Int.le_refl _
    · have := htop j hji; rw [tauBefore_iff] at this; omega
  obtain ⟨k', h1, h2, h3⟩ := he i
  rcases h3 with ⟨_, h⟩ | ⟨_, h4, h5, h6⟩ | ⟨_, h4, h5⟩
  · rw [h] at hfresh; simp only at hfresh; omega
  · refine Or.inr (Or.inl ⟨hk0, ⟨⟨i, h4, ?_⟩, ?_⟩, hfresh, ?_⟩)
    · rintro j a hij ha ⟨e1, e2⟩
      have h7 := H j a ha (by omega)
      have h8 := top j
      have h9 := h7.2 (by omega)
      have hji : j ≠ i := fun h => by subst h; exact absurd hij (Fin.lt_irrefl _)
      have h10 := htop j hji
      rw [tauBefore_iff, h9] at h10
      have : i.val < j.val := hij
      rw [gt_iff_lt (x := i), Fin.lt_def] at h10
      omega
    · rintro j a ha ⟨i1, i2⟩
      have h7 := H j a ha (by omega)
      have h8 := top j
      have h9 := h7.2 (by omega)
      by_cases hji : j = i
      · subst hji; rw [h9]; exact ⟨rfl, rfl⟩
      · have h10 := htop j hji
        rw [tauBefore_iff, h9] at h10
        omega
    · intro a ha hka
      obtain ⟨j, hj⟩ := unionOf_mem ha
      have h7 := H j a hj hka
      have h8 := top j
      by_cases hlt : a.p < (e i).p
      · have := ha.2 i (e i) h4 ⟨by omega, by omega⟩; omega
      · omega
  · refine Or.inr (Or.inr ⟨hk0, ?_, h5⟩)
    intro a ha
    obtain ⟨j, hj⟩ := unionOf_mem ha
    by_cases hka : k ≤ a.p
    · have h7 := H j a hj hka
      have h8 := top j
      have := (w j).hi hj
      rw [h5] at h8; simp only at h8; omega
    · omega

theorem vec_uat_spec (w : ∀ i, Wf (S i)) {e : Fin n → Ann} {k : Int} (hk : InRange k)
    (he : ∀ i, ∃ k', k' ≤ maxfinity ∧ k ≤ k' ∧ UatSpec (S i) k' (e i)) {i : Fin n}
    (hfresh : (e i).q ≤ k) (htop : ∀ j, j ≠ i → uatBefore i (e i) j (e j) = true) :
    UatSpec (unionOf S) k (e i) := by
  by_cases hk0 : k = maxfinity
  · obtain ⟨k', h1, h2, h3⟩ := he i
    rcases h3 with ⟨_, h⟩ | ⟨h, _⟩ | ⟨h, _⟩
    · exact Or.inl ⟨hk0, h⟩
    · omega
    · omega
  have H : ∀ j a, S j a → a.q ≤ k → a.p ≤ (e j).p ∧ ((e j).p = a.p → e j = a) := by
    intro j a ha hka
    obtain ⟨k', h1, h2, h3⟩ := he j
    have := (w j).hi ha; have := (w j).le ha
    rcases h3 with ⟨_, h⟩ | ⟨_, h4, h5, h6⟩ | ⟨_, h4, _⟩
    · rw [h]; exact ⟨by simp only; omega, fun h => by simp only at h; omega⟩
    · have := h6 a ha (by omega)
      have := (w j).p_lt_iff h4 ha
      exact ⟨by omega, fun h => (w j).uniq h4 ha h⟩
    · have := h4 a ha; omega
  have top : ∀ j, (e j).p ≤ (e i).p := by
    intro j
    by_cases hji : j = i
    · subst hji; exact Int.le_refl _
    · have := htop j hji; rw [uatBefore_iff] at this; omega
  obtain ⟨k', h1, h2, h3⟩ := he i
  rcases h3 with ⟨_, h⟩ | ⟨_, h4, h5, h6⟩ | ⟨_, h4, h5⟩
  · rw [h] at hfresh; simp only at hfresh; omega
  · refine Or.inr (Or.inl ⟨hk0, ⟨⟨i, h4, ?_⟩, ?_⟩, hfresh, ?_⟩)
    · rintro j a hij ha ⟨e1, e2⟩
      have h7 := H j a ha (by omega)
      have h8 := top j
      have h9 := h7.2 (by omega)
      have hji : j ≠ i := fun h => by subst h; exact absurd hij (Fin.lt_irrefl _)
      have h10 := htop j hji
      rw [uatBefore_iff, h9] at h10
      have : i.val < j.val := hij
      rw [gt_iff_lt (x := i), Fin.lt_def] at h10
      omega
    · rintro j a ha ⟨i1, i2⟩
      have h7 := H j a ha (by omega)
      have h8 := top j
      have h9 := h7.2 (by omega)
      by_cases hji : j = i
      · subst hji; rw [h9]; exact ⟨rfl, rfl⟩
      · have h10 := htop j hji
        rw [uatBefore_iff, h9] at h10
        omega
    · intro a ha hka
      obtain ⟨j, hj⟩ := unionOf_mem ha
      have h7 := H j a hj hka
      have h8 := top j
      by_cases hlt : (e i).q < a.q
      · have := ha.2 i (e i) h4 ⟨by omega, by omega⟩; omega
      · omega
  · refine Or.inr (Or.inr ⟨hk0, ?_, h5⟩)
    intro a ha
    obtain ⟨j, hj⟩ := unionOf_mem ha
    by_cases hka : a.q ≤ k
    · have h7 := H j a hj hka
      have h8 := top j
      have := (w j).lo hj
      rw [h5] at h8; simp only at h8; omega
    · omega

/-! ### loops -/

variable {H : Fin n → Obj} {I : (i : Fin n) → (H i).σ → Prop}

/-- Invariant of the members: children fine; every queue element is the answer of its child
to some key no later than the last one. -/
structure VInv (I : (i : Fin n) → (H i).σ → Prop) (S : Fin n → GC) (s : VecSt H) : Prop where
  subs : ∀ i, I i (s.subs i)
  tq : s.tk = maxfinity ∨ ∃ e, s.tq = some e ∧
    ∀ i, ∃ k', minfinity ≤ k' ∧ k' ≤ s.tk ∧ TauSpec (S i) k' (e i)
  uq : s.uk = minfinity ∨ ∃ e, s.uq = some e ∧
    ∀ i, ∃ k', k' ≤ maxfinity ∧ s.uk ≤ k' ∧ UatSpec (S i) k' (e i)

/-- only the children moved -/
def SameQ (s s' : St (VecSt H)) : Prop :=
  s'.sub.tq = s.sub.tq ∧ s'.sub.uq = s.sub.uq ∧ s'.sub.tk = s.sub.tk ∧ s'.sub.uk = s.sub.uk ∧
  s'.memo = s.memo

/-- `m` succeeds, moves only the children, keeps their invariants -/
def Okc {α : Type} (I : (i : Fin n) → (H i).σ → Prop) (m : M (St (VecSt H)) α) (Q : α → Prop) :
    Prop :=
  ∀ s, (∀ i, I i (s.sub.subs i)) → ∃ a s', m s = some (a, s') ∧ (∀ i, I i (s'.sub.subs i)) ∧
    SameQ s s' ∧ Q a

theorem SameQ.trans {s s' s'' : St (VecSt H)} (h : SameQ s s') (h' : SameQ s' s'') : SameQ s s'' :=
  ⟨h'.1.trans h.1, h'.2.1.trans h.2.1, h'.2.2.1.trans h.2.2.1, h'.2.2.2.1.trans h.2.2.2.1,
   h'.2.2.2.2.trans h.2.2.2.2⟩

theorem Okc.bind {α β : Type} {m : M (St (VecSt H)) α} {f : α → M (St (VecSt H)) β}
    {P : α → Prop} {Q : β → Prop} (hm : Okc I m P) (hf : ∀ a, P a → Okc I (f a) Q) :
    Okc I (m >>= f) Q := by
  intro s hs
  obtain ⟨a, s', h1, h2, h3, h4⟩ := hm s hs
  obtain ⟨b, s'', g1, g2, g3, g4⟩ := hf a h4 s' h2
  refine ⟨b, s'', ?_, g2, h3.trans g3, g4⟩
  show StateT.bind m f s = _
  simp [StateT.bind, h1, g1]

theorem Okc.pure {α : Type} {a : α} {Q : α → Prop} (h : Q a) : Okc (H := H) I (Pure.pure a) Q :=
  fun s hs => ⟨a, s, rfl, hs, ⟨rfl, rfl, rfl, rfl, rfl⟩, h⟩

theorem Okc.onI {α : Type} {i : Fin n} {m : M (H i).σ α} {Q : α → Prop} (h : Ok (I i) m Q) :
    Okc I (onI H i m) Q := by
  intro s hs
  obtain ⟨a, t, h1, h2, h3⟩ := h _ (hs i)
  refine ⟨a, { s with sub := { s.sub with subs := setAt s.sub.subs i t } }, by simp [Hopper.onI, h1],
    ?_, ⟨rfl, rfl, rfl, rfl, rfl⟩, h3⟩
  intro j
  show I j (setAt s.sub.subs i t j)
  unfold setAt
  by_cases hj : j = i
  · subst hj; simpa using h2
  · simpa [hj] using hs j

theorem Okc.toOk {α : Type} {T : GC} {m : M (St (VecSt H)) α} {Q : α → Prop} (h : Okc I m Q) :
    Ok (NInv T (VInv I S)) m Q := by
  intro s hs
  obtain ⟨a, s', h1, h2, h3, h4⟩ := h s hs.2.subs
  obtain ⟨e1, e2, e3, e4, e5⟩ := h3
  refine ⟨a, s', h1, ⟨by rw [e5]; exact hs.1, h2, ?_, ?_⟩, h4⟩
  · rw [e1, e3]; exact hs.2.tq
  · rw [e2, e4]; exact hs.2.uq

theorem fill_ok {call : (i : Fin n) → M (H i).σ Ann} {Q : Fin n → Ann → Prop}
    (hc : ∀ i, Ok (I i) (call i) (Q i)) : ∀ (is : List (Fin n)) (e : Fin n → Ann),
      Okc I (fill H call is e) fun e' => ∀ j, (j ∈ is → Q j (e' j)) ∧ (j ∉ is → e' j = e j) := by
  intro is
  induction is with
  | nil => intro e; exact Okc.pure fun j => ⟨fun h => by simp at h, fun _ => rfl⟩
  | cons i is ih =>
    intro e
    unfold fill
    refine Okc.bind (Okc.onI (hc i)) fun r hr => ?_
    intro s hs
    obtain ⟨e', s', h1, h2, h3, h4⟩ := ih (fun j => if j = i then r else e j) s hs
    refine ⟨e', s', h1, h2, h3, fun j => ⟨fun hj => ?_, fun hj => ?_⟩⟩
    · by_cases hji : j ∈ is
      · exact (h4 j).1 hji
      · have hj2 : j = i := by simpa [hji] using hj
        rw [(h4 j).2 hji, if_pos hj2, hj2]; exact hr
    · rw [List.mem_cons, not_or] at hj
      rw [(h4 j).2 hj.2, if_neg hj.1]

theorem countP_lt {α : Type} {p q : α → Bool} : ∀ {l : List α} {i : α},
    (∀ j ∈ l, p j = true → q j = true) → i ∈ l → q i = true → p i = false →
    l.countP p < l.countP q := by
  intro l
  induction l with
  | nil => intro i _ h; simp at h
  | cons x xs ih =>
    intro i himp hi hq hp
    have hle : xs.countP p ≤ xs.countP q :=
      List.countP_mono_left fun j hj h => himp j (List.mem_cons_of_mem _ hj) h
    rw [List.countP_cons, List.countP_cons]
    rcases List.mem_cons.1 hi with rfl | hi
    · simp [hp, hq]; omega
    · have := ih (fun j hj => himp j (List.mem_cons_of_mem _ hj)) hi hq hp
      have h2 := himp x List.mem_cons_self
      by_cases hx : p x = true
      · simp [hx, h2 hx]; omega
      · simp [hx]; omega

theorem refresh_ok {before : Fin n → Ann → Fin n → Ann → Bool} {stale : Ann → Bool}
    {call : (i : Fin n) → M (H i).σ Ann} {Q E : Fin n → Ann → Prop}
    (hc : ∀ i, Ok (I i) (call i) (Q i)) (hQE : ∀ i a, Q i a → E i a ∧ stale a = false)
    (htop : ∀ e : Fin n → Ann, ∃ i, topIdx before e = some i) :
    ∀ (fuel : Nat) (e : Fin n → Ann), (∀ i, E i (e i)) →
      (List.finRange n).countP (fun i => stale (e i)) < fuel →
      Okc I (refresh H before stale call fuel e) fun e' =>
        (∀ i, E i (e' i)) ∧ ∃ i, topIdx before e' = some i ∧ stale (e' i) = false := by
  intro fuel
  induction fuel with
  | zero => intro e _ h; omega
  | succ fuel ih =>
    intro e he hf
    unfold refresh
    obtain ⟨i, hi⟩ := htop e
    rw [hi]
    simp only
    by_cases hs : stale (e i) = true
    · rw [if_pos hs]
      refine Okc.bind (Okc.onI (hc i)) fun r hr => ?_
      have := hQE i r hr
      apply ih
      · intro j
        by_cases hj : j = i
        · subst hj; simpa using this.1
        · simpa [hj] using he j
      · have : (List.finRange n).countP (fun j => stale (if j = i then r else e j)) <
            (List.finRange n).countP (fun i => stale (e i)) := by
          refine countP_lt (i := i) ?_ (by simp) hs (by simpa using this.2)
          intro j _ hj
          by_cases hji : j = i
          · subst hji; exact hs
          · simpa [hji] using hj
        omega
    · rw [if_neg hs]
      exact Okc.pure ⟨he, i, hi, by simpa using hs⟩

/-! ### the object -/

theorem vecTau_ok (hn : 0 < n) (w : ∀ i, Wf (S i)) (hH : ∀ i, Impl (H i) (I i) (S i)) {k : Int}
    (hk : InRange k) : Ok (NInv (unionOf S) (VInv I S)) (vecTau H k) (TauSpec (unionOf S) k) := by
  intro s hs
  obtain ⟨hm, hv⟩ := hs
  unfold vecTau
  by_cases hkm : k = maxfinity
  · rw [if_pos hkm]
    refine ⟨highEnd, s, rfl, ⟨hm, hv⟩, Or.inr (Or.inr ⟨by omega, fun a ha => ?_, rfl⟩)⟩
    obtain ⟨j, hj⟩ := unionOf_mem ha
    have := (w j).hi hj; have := (w j).le hj; omega
  rw [if_neg hkm]
  have fresh : ∀ i a, TauSpec (S i) k a → k ≤ a.p := by
    intro i a h
    rcases h with ⟨h1, rfl⟩ | ⟨_, _, h, _⟩ | ⟨_, _, rfl⟩
    · simp only; omega
    · exact h
    · simp only; omega
  -- finish from a filled queue
  have fin : ∀ (m : M (St (VecSt H)) (Fin n → Ann)), Okc I m (fun e =>
      (∀ i, ∃ k', minfinity ≤ k' ∧ k' ≤ k ∧ TauSpec (S i) k' (e i)) ∧
        ∃ i, topIdx tauBefore e = some i ∧ k ≤ (e i).p) →
      ∃ a s', (match m s with
        | none => none
        | some (e, s') =>
          match topIdx tauBefore e with
          | none => none
          | some i => some (e i, { s' with sub := { s'.sub with tq := some e, tk := k } })) =
          some (a, s') ∧ NInv (unionOf S) (VInv I S) s' ∧ TauSpec (unionOf S) k a := by
    intro m hmm
    obtain ⟨e, s', h1, h2, ⟨q1, q2, q3, q4, q5⟩, h4, i, h5, h6⟩ := hmm s hv.subs
    obtain ⟨i', g1, g2⟩ := tauTop_ok e hn
    have : i' = i := by rw [h5] at g1; exact (Option.some.inj g1).symm
    subst this
    refine ⟨e i', { s' with sub := { s'.sub with tq := some e, tk := k } }, by simp [h1, h5], ⟨?_, ?_⟩, ?_⟩
    · show MemoOk _ s'.memo; rw [q5]; exact hm
    · refine ⟨h2, Or.inr ⟨e, rfl, h4⟩, ?_⟩
      show s'.sub.uk = minfinity ∨ ∃ e, s'.sub.uq = some e ∧ _
      rw [q2, q4]; exact hv.uq
    · exact vec_tau_spec w hk h4 h6 g2
  by_cases hlt : k < s.sub.tk
  · rw [if_pos hlt]
    apply fin
    intro s0 hs0
    obtain ⟨e, s', h1, h2, h3, h4⟩ := fill_ok (fun i => (hH i).tau k hk) (List.finRange n)
      (fun _ => highEnd) s0 hs0
    obtain ⟨i, g1, _⟩ := tauTop_ok e hn
    have hall : ∀ j, TauSpec (S j) k (e j) := fun j => (h4 j).1 (by simp)
    exact ⟨e, s', h1, h2, h3, fun j => ⟨k, hk.1, Int.le_refl _, hall j⟩, i, g1, fresh i _ (hall i)⟩
  · rw [if_neg hlt]
    rcases hv.tq with h | ⟨e, he, hel⟩
    · omega
    · rw [he]
      apply fin
      intro s0 hs0
      have hr := refresh_ok (n := n) (H := H) (I := I) (before := tauBefore)
        (stale := fun a => decide (a.p < k))
        (Q := fun i => TauSpec (S i) k)
        (E := fun i a => ∃ k', minfinity ≤ k' ∧ k' ≤ k ∧ TauSpec (S i) k' a)
        (fun i => (hH i).tau k hk)
        (fun i a h => ⟨⟨k, hk.1, Int.le_refl _, h⟩, by have := fresh i a h; simpa using this⟩)
        (fun e => by obtain ⟨i, h, _⟩ := tauTop_ok e hn; exact ⟨i, h⟩)
        (n + 1) e (fun i => by
          obtain ⟨k', h1, h2, h3⟩ := hel i; exact ⟨k', h1, by omega, h3⟩)
        (by
          have := List.countP_le_length (p := fun i => decide ((e i).p < k)) (l := List.finRange n)
          rw [List.length_finRange] at this; omega)
      obtain ⟨e', s', h1, h2, h3, h4, i, h5, h6⟩ := hr s0 hs0
      exact ⟨e', s', h1, h2, h3, h4, i, h5, by simpa using h6⟩

theorem vecUat_ok (hn : 0 < n) (w : ∀ i, Wf (S i)) (hH : ∀ i, Impl (H i) (I i) (S i)) {k : Int}
    (hk : InRange k) : Ok (NInv (unionOf S) (VInv I S)) (vecUat H k) (UatSpec (unionOf S) k) := by
  intro s hs
  obtain ⟨hm, hv⟩ := hs
  unfold vecUat
  by_cases hkm : k = minfinity
  · rw [if_pos hkm]
    refine ⟨lowEnd, s, rfl, ⟨hm, hv⟩, Or.inr (Or.inr ⟨by omega, fun a ha => ?_, rfl⟩)⟩
    obtain ⟨j, hj⟩ := unionOf_mem ha
    have := (w j).lo hj; have := (w j).le hj; omega
  rw [if_neg hkm]
  have fresh : ∀ i a, UatSpec (S i) k a → a.q ≤ k := by
    intro i a h
    rcases h with ⟨h1, rfl⟩ | ⟨_, _, h, _⟩ | ⟨_, _, rfl⟩
    · simp only; omega
    · exact h
    · simp only; omega
  have fin : ∀ (m : M (St (VecSt H)) (Fin n → Ann)), Okc I m (fun e =>
      (∀ i, ∃ k', k' ≤ maxfinity ∧ k ≤ k' ∧ UatSpec (S i) k' (e i)) ∧
        ∃ i, topIdx uatBefore e = some i ∧ (e i).q ≤ k) →
      ∃ a s', (match m s with
        | none => none
        | some (e, s') =>
          match topIdx uatBefore e with
          | none => none
          | some i => some (e i, { s' with sub := { s'.sub with uq := some e, uk := k } })) =
          some (a, s') ∧ NInv (unionOf S) (VInv I S) s' ∧ UatSpec (unionOf S) k a := by
    intro m hmm
    obtain ⟨e, s', h1, h2, ⟨q1, q2, q3, q4, q5⟩, h4, i, h5, h6⟩ := hmm s hv.subs
    obtain ⟨i', g1, g2⟩ := uatTop_ok e hn
    have : i' = i := by rw [h5] at g1; exact (Option.some.inj g1).symm
    subst this
    refine ⟨e i', { s' with sub := { s'.sub with uq := some e, uk := k } }, by simp [h1, h5], ⟨?_, ?_⟩, ?_⟩
    · show MemoOk _ s'.memo; rw [q5]; exact hm
    · refine ⟨h2, ?_, Or.inr ⟨e, rfl, h4⟩⟩
      show s'.sub.tk = maxfinity ∨ ∃ e, s'.sub.tq = some e ∧ _
      rw [q1, q3]; exact hv.tq
    · exact vec_uat_spec w hk h4 h6 g2
  by_cases hlt : k > s.sub.uk
  · rw [if_pos hlt]
    apply fin
    intro s0 hs0
    obtain ⟨e, s', h1, h2, h3, h4⟩ := fill_ok (fun i => (hH i).uat k hk) (List.finRange n)
      (fun _ => lowEnd) s0 hs0
    obtain ⟨i, g1, _⟩ := uatTop_ok e hn
    have hall : ∀ j, UatSpec (S j) k (e j) := fun j => (h4 j).1 (by simp)
    exact ⟨e, s', h1, h2, h3, fun j => ⟨k, hk.2, Int.le_refl _, hall j⟩, i, g1, fresh i _ (hall i)⟩
  · rw [if_neg hlt]
    rcases hv.uq with h | ⟨e, he, hel⟩
    · omega
    · rw [he]
      apply fin
      intro s0 hs0
      have hr := refresh_ok (n := n) (H := H) (I := I) (before := uatBefore)
        (stale := fun a => decide (a.q > k))
        (Q := fun i => UatSpec (S i) k)
        (E := fun i a => ∃ k', k' ≤ maxfinity ∧ k ≤ k' ∧ UatSpec (S i) k' a)
        (fun i => (hH i).uat k hk)
        (fun i a h => ⟨⟨k, hk.2, Int.le_refl _, h⟩, by have := fresh i a h; simpa using this⟩)
        (fun e => by obtain ⟨i, h, _⟩ := uatTop_ok e hn; exact ⟨i, h⟩)
        (n + 1) e (fun i => by
          obtain ⟨k', h1, h2, h3⟩ := hel i; exact ⟨k', h1, by omega, h3⟩)
        (by
          have := List.countP_le_length (p := fun i => decide ((e i).q > k)) (l := List.finRange n)
          rw [List.length_finRange] at this; omega)
      obtain ⟨e', s', h1, h2, h3, h4, i, h5, h6⟩ := hr s0 hs0
      exact ⟨e', s', h1, h2, h3, h4, i, h5, by simpa using h6⟩

theorem vecL_ok (hH : ∀ i, Impl (H i) (I i) (S i)) {k : Int} (hk : InRange k) :
    ∀ (is : List (Fin n)) (m : Int), Okc I (vecL H k is m) fun r =>
      m ≤ r ∧ (∀ i ∈ is, ∃ l, LSpec (S i) k l ∧ l ≤ r) ∧ (r = m ∨ ∃ i ∈ is, LSpec (S i) k r) := by
  intro is
  induction is with
  | nil => intro m; exact Okc.pure ⟨Int.le_refl _, fun i h => by simp at h, Or.inl rfl⟩
  | cons i is ih =>
    intro m
    unfold vecL
    refine Okc.bind (Okc.onI ((hH i).L k hk)) fun l hl => ?_
    intro s hs
    obtain ⟨r, s', h1, h2, h3, h4, h5, h6⟩ := ih (max m l) s hs
    refine ⟨r, s', h1, h2, h3, by omega, ?_, ?_⟩
    · intro j hj
      rcases List.mem_cons.1 hj with rfl | hj
      · exact ⟨l, hl, by omega⟩
      · exact h5 j hj
    · rcases h6 with h6 | ⟨j, hj, h6⟩
      · by_cases hml : m ≤ l
        · exact Or.inr ⟨i, List.mem_cons_self, by rw [h6, show max m l = l by omega]; exact hl⟩
        · exact Or.inl (by omega)
      · exact Or.inr ⟨j, List.mem_cons_of_mem _ hj, h6⟩

theorem vecR_ok (hH : ∀ i, Impl (H i) (I i) (S i)) {k : Int} (hk : InRange k) :
    ∀ (is : List (Fin n)) (m : Int), Okc I (vecR H k is m) fun r =>
      r ≤ m ∧ (∀ i ∈ is, ∃ l, RSpec (S i) k l ∧ r ≤ l) ∧ (r = m ∨ ∃ i ∈ is, RSpec (S i) k r) := by
  intro is
  induction is with
  | nil => intro m; exact Okc.pure ⟨Int.le_refl _, fun i h => by simp at h, Or.inl rfl⟩
  | cons i is ih =>
    intro m
    unfold vecR
    refine Okc.bind (Okc.onI ((hH i).R k hk)) fun l hl => ?_
    intro s hs
    obtain ⟨r, s', h1, h2, h3, h4, h5, h6⟩ := ih (min m l) s hs
    refine ⟨r, s', h1, h2, h3, by omega, ?_, ?_⟩
    · intro j hj
      rcases List.mem_cons.1 hj with rfl | hj
      · exact ⟨l, hl, by omega⟩
      · exact h5 j hj
    · rcases h6 with h6 | ⟨j, hj, h6⟩
      · by_cases hml : l ≤ m
        · exact Or.inr ⟨i, List.mem_cons_self, by rw [h6, show min m l = l by omega]; exact hl⟩
        · exact Or.inl (by omega)
      · exact Or.inr ⟨j, List.mem_cons_of_mem _ hj, h6⟩

theorem vec_L_spec (hn : 0 < n) (w : ∀ i, Wf (S i)) {k r : Int}
    (h1 : ∀ i, ∃ l, LSpec (S i) k l ∧ l ≤ r) (h2 : r = minfinity ∨ ∃ i, LSpec (S i) k r) :
    LSpec (unionOf S) k r := by
  apply LSpec_union w
  by_cases hk : k = maxfinity
  · refine Or.inl ⟨hk, ?_⟩
    rcases h2 with h2 | ⟨i, h2⟩
    · obtain ⟨l, g1, g2⟩ := h1 ⟨0, hn⟩
      rcases g1.cases with ⟨_, g⟩ | ⟨g, _⟩ | ⟨g, _⟩
      · omega
      · exact absurd hk g
      · exact absurd hk g
    · rcases h2.cases with ⟨_, g⟩ | ⟨g, _⟩ | ⟨g, _⟩
      · exact g
      · exact absurd hk g
      · exact absurd hk g
  · have none : r = minfinity → ∀ p q, anyX S p q → k < q := by
      rintro hr p q ⟨i, a, ha, rfl, rfl⟩
      obtain ⟨l, g1, g2⟩ := h1 i
      rcases g1.cases with ⟨g, _⟩ | ⟨_, x, hx, hl, _⟩ | ⟨_, g, _⟩
      · exact absurd g hk
      · have := (w i).lo hx; omega
      · exact g a ha
    rcases h2 with h2 | ⟨i, h2⟩
    · exact Or.inr (Or.inr ⟨hk, none h2, h2⟩)
    · rcases h2.cases with ⟨g, _⟩ | ⟨_, x, hx, hl, hxk, _⟩ | ⟨_, g, hr⟩
      · exact absurd g hk
      · refine Or.inr (Or.inl ⟨hk, ⟨x.q, ⟨i, x, hx, hl, rfl⟩, hxk⟩, ?_⟩)
        rintro p q ⟨j, a, ha, rfl, rfl⟩ hq
        obtain ⟨l, g1, g2⟩ := h1 j
        rcases g1.cases with ⟨g, _⟩ | ⟨_, y, hy, hl', hyk, hmax⟩ | ⟨_, g, _⟩
        · exact absurd g hk
        · have := hmax a ha hq
          have := (w j).p_lt_iff hy ha
          omega
        · have := g a ha; omega
      · exact Or.inr (Or.inr ⟨hk, none hr, hr⟩)

theorem vec_R_spec (hn : 0 < n) (w : ∀ i, Wf (S i)) {k r : Int}
    (h1 : ∀ i, ∃ l, RSpec (S i) k l ∧ r ≤ l) (h2 : r = maxfinity ∨ ∃ i, RSpec (S i) k r) :
    RSpec (unionOf S) k r := by
  apply RSpec_union w
  by_cases hk : k = minfinity
  · refine Or.inl ⟨hk, ?_⟩
    rcases h2 with h2 | ⟨i, h2⟩
    · obtain ⟨l, g1, g2⟩ := h1 ⟨0, hn⟩
      rcases g1.cases with ⟨_, g⟩ | ⟨g, _⟩ | ⟨g, _⟩
      · omega
      · exact absurd hk g
      · exact absurd hk g
    · rcases h2.cases with ⟨_, g⟩ | ⟨g, _⟩ | ⟨g, _⟩
      · exact g
      · exact absurd hk g
      · exact absurd hk g
  · have none : r = maxfinity → ∀ p q, anyX S p q → p < k := by
      rintro hr p q ⟨i, a, ha, rfl, rfl⟩
      obtain ⟨l, g1, g2⟩ := h1 i
      rcases g1.cases with ⟨g, _⟩ | ⟨_, x, hx, hl, _⟩ | ⟨_, g, _⟩
      · exact absurd g hk
      · have := (w i).hi hx; omega
      · exact g a ha
    rcases h2 with h2 | ⟨i, h2⟩
    · exact Or.inr (Or.inr ⟨hk, none h2, h2⟩)
    · rcases h2.cases with ⟨g, _⟩ | ⟨_, x, hx, hl, hxk, _⟩ | ⟨_, g, hr⟩
      · exact absurd g hk
      · refine Or.inr (Or.inl ⟨hk, ⟨x.p, ⟨i, x, hx, rfl, hl⟩, hxk⟩, ?_⟩)
        rintro p q ⟨j, a, ha, rfl, rfl⟩ hq
        obtain ⟨l, g1, g2⟩ := h1 j
        rcases g1.cases with ⟨g, _⟩ | ⟨_, y, hy, hl', hyk, hmax⟩ | ⟨_, g, _⟩
        · exact absurd g hk
        · have := hmax a ha hq
          have := (w j).p_lt_iff ha hy
          omega
        · have := g a ha; omega
      · exact Or.inr (Or.inr ⟨hk, none hr, hr⟩)

theorem inner_impl (hn : 0 < n) (w : ∀ i, Wf (S i)) (hH : ∀ i, Impl (H i) (I i) (S i)) :
    Impl (innerObj H) (NInv (unionOf S) (VInv I S)) (unionOf S) := by
  have hL : ∀ k, InRange k → Ok (NInv (unionOf S) (VInv I S))
      (vecL H k (List.finRange n) minfinity) (LSpec (unionOf S) k) := fun k hk =>
    (vecL_ok hH hk (List.finRange n) minfinity).toOk.mono fun r ⟨_, h2, h3⟩ =>
      vec_L_spec hn w (fun i => h2 i (by simp)) (h3.imp id fun ⟨i, _, h⟩ => ⟨i, h⟩)
  have hR : ∀ k, InRange k → Ok (NInv (unionOf S) (VInv I S))
      (vecR H k (List.finRange n) maxfinity) (RSpec (unionOf S) k) := fun k hk =>
    (vecR_ok hH hk (List.finRange n) maxfinity).toOk.mono fun r ⟨_, h2, h3⟩ =>
      vec_R_spec hn w (fun i => h2 i (by simp)) (h3.imp id fun ⟨i, _, h⟩ => ⟨i, h⟩)
  have t : ∀ k, InRange k → Ok (NInv (unionOf S) (VInv I S)) (memoTau (vecTau H) k)
      (TauSpec (unionOf S) k) := fun k hk => Ok.memoTau (vecTau_ok hn w hH hk)
  have u : ∀ k, InRange k → Ok (NInv (unionOf S) (VInv I S)) (memoUat (vecUat H) k)
      (UatSpec (unionOf S) k) := fun k hk => Ok.memoUat (vecUat_ok hn w hH hk)
  have wU := unionOf_wf w
  refine ⟨⟨memoOk_init _, fun i => (hH i).init, Or.inl rfl, Or.inl rfl⟩, t, ?_, u, ?_, hL, hR⟩
  · exact fun k hk => Ok.memoRho (body := combRho (fun k => vecL H k (List.finRange n) minfinity)
      (memoTau (vecTau H))) (Ok.combRho wU hL t hk)
  · exact fun k hk => Ok.memoOhr (body := combOhr (fun k => vecR H k (List.finRange n) maxfinity)
      (memoUat (vecUat H))) (Ok.combOhr wU hR u hk)
end

theorem vector_impl : ∀ {n : Nat} {H : Fin n → Obj} {I : (i : Fin n) → (H i).σ → Prop}
    {S : Fin n → GC}, (∀ i, Wf (S i)) → (∀ i, Impl (H i) (I i) (S i)) →
    ∃ J, Impl (vectorObj H) J (unionOf S)
  | 0, H, I, S, _, _ => by
    have : unionOf S = emptyS := by
      funext a; apply propext
      refine ⟨fun h => ?_, fun h => h.elim⟩
      obtain ⟨i, _⟩ := unionOf_mem h; exact i.elim0
    rw [this]
    exact ⟨_, empty_impl (fun _ => True) trivial⟩
  | 1, H, I, S, w, hH => by
    have : unionOf S = S 0 := by
      funext a; apply propext
      refine ⟨fun h => ?_, fun h => ⟨⟨0, h, ?_⟩, ?_⟩⟩
      · obtain ⟨i, hi⟩ := unionOf_mem h
        have : i = 0 := Fin.ext (by omega)
        rw [this] at hi; exact hi
      · intro j b hj
        have : j = 0 := Fin.ext (by omega)
        rw [this] at hj; exact absurd hj (Fin.lt_irrefl _)
      · rintro j b hb ⟨i1, i2⟩
        have : j = 0 := Fin.ext (by omega)
        rw [this] at hb
        have h1 := (w 0).p_lt_iff h hb
        have h2 := (w 0).p_lt_iff hb h
        omega
    rw [this]
    exact ⟨_, hH 0⟩
  | n + 2, H, I, S, w, hH => ⟨_, inner_impl (by omega) w hH⟩

end Verif.Hopper
