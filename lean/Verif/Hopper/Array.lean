import Verif.Hopper.Merge
/-
  ArrayHopper: galloping plus bisection from any cursor position finds the right
  element, and the resulting object implements the list it holds.
-/
namespace Verif.Hopper

theorem pairwise_tri {α : Type} {R : α → α → Prop} : ∀ {l : List α}, l.Pairwise R →
    ∀ a ∈ l, ∀ b ∈ l, R a b ∨ a = b ∨ R b a := by
  intro l
  induction l with
  | nil => intro _ a ha; simp at ha
  | cons x xs ih =>
    intro h a ha b hb
    rw [List.pairwise_cons] at h
    rcases List.mem_cons.1 ha with h1 | h1 <;> rcases List.mem_cons.1 hb with h2 | h2
    · exact Or.inr (Or.inl (h1.trans h2.symm))
    · subst h1; exact Or.inl (h.1 _ h2)
    · subst h2; exact Or.inr (Or.inr (h.1 _ h1))
    · exact ih h.2 a h1 b h2

theorem Listing.wf {l : List Ann} (h : Listing l) : Wf (ofList l) := by
  refine ⟨fun ha => (h.bounds _ ha).1, fun ha => (h.bounds _ ha).2.2, fun ha => (h.bounds _ ha).2.1,
    ?_, ?_⟩
  · intro a b ha hb hp
    rcases pairwise_tri h.sorted a ha b hb with h1 | rfl | h1
    · exact h1.2
    · omega
    · omega
  · intro a b ha hb hp
    rcases pairwise_tri h.sorted a ha b hb with h1 | rfl | h1
    · omega
    · rfl
    · omega

/-! ### reading -/

theorem rd_eq {xs : List Int} {i : Int} {x : Int} :
    rd xs i = some x ↔ 0 ≤ i ∧ xs[i.toNat]? = some x := by
  unfold rd
  by_cases h : 0 ≤ i <;> simp [h]

theorem rd_lt {xs : List Int} {i x : Int} (h : rd xs i = some x) : 0 ≤ i ∧ i < xs.length := by
  rw [rd_eq] at h
  obtain ⟨h1, h2⟩ := h
  obtain ⟨h3, _⟩ := List.getElem?_eq_some_iff.1 h2
  omega

theorem rd_some {xs : List Int} {i : Int} (h0 : 0 ≤ i) (h1 : i < xs.length) :
    ∃ x, rd xs i = some x := by
  refine ⟨xs[i.toNat]'(by omega), ?_⟩
  rw [rd_eq]; exact ⟨h0, List.getElem?_eq_getElem _⟩

/-- strictly increasing -/
def Inc (xs : List Int) : Prop :=
  ∀ i j x y, i < j → rd xs i = some x → rd xs j = some y → x < y

theorem inc_of_pairwise {xs : List Int} (h : xs.Pairwise (· < ·)) : Inc xs := by
  intro i j x y hij hx hy
  rw [rd_eq] at hx hy
  obtain ⟨h1, h2⟩ := hx
  obtain ⟨h3, h4⟩ := hy
  obtain ⟨a1, a2⟩ := List.getElem?_eq_some_iff.1 h2
  obtain ⟨b1, b2⟩ := List.getElem?_eq_some_iff.1 h4
  rw [← a2, ← b2]
  exact List.pairwise_iff_getElem.1 h _ _ a1 b1 (by omega)

/-! ### galloping and bisection -/

theorem gallopUp_ok {xs : List Int} {test : Int → Bool} {low : Int} (hlow : 0 ≤ low) :
    ∀ (fuel : Nat) (hop : Int), 1 ≤ hop → (xs.length : Int) - low - hop < fuel →
      low < xs.length → 1 ≤ fuel → hop ≤ 2 * xs.length →
      ∃ h, gallopUp xs test low fuel hop = some h ∧ 1 ≤ h ∧ h ≤ 2 * xs.length ∧
        (low + h < xs.length → ∀ x, rd xs (low + h) = some x → test x = false) := by
  intro fuel
  induction fuel with
  | zero => intro hop _ _ _ h; omega
  | succ fuel ih =>
    intro hop h1 h2 h3 _ h5
    unfold gallopUp
    by_cases hc : low + hop < xs.length
    · rw [if_pos hc]
      obtain ⟨x, hx⟩ := rd_some (xs := xs) (i := low + hop) (by omega) hc
      simp only [hx, Option.bind_eq_bind, Option.bind_some]
      by_cases ht : test x = true
      · rw [if_pos ht]
        exact ih (hop * 2) (by omega) (by omega) h3 (by omega) (by omega)
      · rw [if_neg ht]
        refine ⟨hop, rfl, h1, h5, fun _ y hy => ?_⟩
        rw [hx] at hy; cases hy; simpa using ht
    · rw [if_neg hc]
      exact ⟨hop, rfl, h1, h5, fun h => absurd h hc⟩

theorem gallopDown_ok {xs : List Int} {test : Int → Bool} {high : Int} (hh : high < xs.length) :
    ∀ (fuel : Nat) (hop : Int), 1 ≤ hop → high - hop + 1 < fuel →
      1 ≤ fuel → 0 ≤ high → hop ≤ 2 * xs.length →
      ∃ h, gallopDown xs test high fuel hop = some h ∧ 1 ≤ h ∧ h ≤ 2 * xs.length ∧
        (0 ≤ high - h → ∀ x, rd xs (high - h) = some x → test x = false) := by
  intro fuel
  induction fuel with
  | zero => intro hop _ _ h; omega
  | succ fuel ih =>
    intro hop h1 h2 h3 h4 h5
    unfold gallopDown
    by_cases hc : high - hop ≥ 0
    · rw [if_pos hc]
      obtain ⟨x, hx⟩ := rd_some (xs := xs) (i := high - hop) (by omega) (by omega)
      simp only [hx, Option.bind_eq_bind, Option.bind_some]
      by_cases ht : test x = true
      · rw [if_pos ht]
        exact ih (hop * 2) (by omega) (by omega) (by omega) h4 (by omega)
      · rw [if_neg ht]
        refine ⟨hop, rfl, h1, h5, fun _ y hy => ?_⟩
        rw [hx] at hy; cases hy; simpa using ht
    · rw [if_neg hc]
      exact ⟨hop, rfl, h1, h5, fun h => absurd h hc⟩

theorem bisect_ok {xs : List Int} {test : Int → Bool} :
    ∀ (fuel : Nat) (low high : Int), 0 ≤ low → low < high → high < xs.length →
      high - low ≤ fuel →
      (∀ x, rd xs low = some x → test x = true) → (∀ x, rd xs high = some x → test x = false) →
      ∃ l h, bisect xs test fuel low high = some (l, h) ∧ 0 ≤ l ∧ h = l + 1 ∧ h < xs.length ∧
        (∀ x, rd xs l = some x → test x = true) ∧ (∀ x, rd xs h = some x → test x = false) := by
  intro fuel
  induction fuel with
  | zero => intro low high _ _ _ h; omega
  | succ fuel ih =>
    intro low high h0 h1 h2 h3 h4 h5
    unfold bisect
    by_cases hc : high - low > 1
    · rw [if_pos hc]
      obtain ⟨x, hx⟩ := rd_some (xs := xs) (i := low + (high - low) / 2) (by omega) (by omega)
      simp only [hx, Option.bind_eq_bind, Option.bind_some]
      by_cases ht : test x = true
      · rw [if_pos ht]
        refine ih _ high (by omega) (by omega) h2 (by omega) ?_ h5
        intro y hy; rw [hx] at hy; cases hy; exact ht
      · rw [if_neg ht]
        refine ih low _ h0 (by omega) (by omega) (by omega) h4 ?_
        intro y hy; rw [hx] at hy; cases hy; simpa using ht
    · rw [if_neg hc]
      exact ⟨low, high, rfl, h0, by omega, h2, h4, h5⟩

/-- The answer to "first element at or after `k`". -/
def HopSpec (xs : List Int) (k r c : Int) : Prop :=
  (k = minfinity ∧ r = minfinity) ∨
  (k ≠ minfinity ∧ rd xs c = some r ∧ k ≤ r ∧ ∀ i x, rd xs i = some x → i < c → x < k) ∨
  (k ≠ minfinity ∧ r = maxfinity ∧ ∀ i x, rd xs i = some x → x < k)

/-- The answer to "last element at or before `k`". -/
def PohSpec (xs : List Int) (k r c : Int) : Prop :=
  (k = maxfinity ∧ r = maxfinity) ∨
  (k ≠ maxfinity ∧ rd xs c = some r ∧ r ≤ k ∧ ∀ i x, rd xs i = some x → c < i → k < x) ∨
  (k ≠ maxfinity ∧ r = minfinity ∧ ∀ i x, rd xs i = some x → k < x)

theorem hopping_ok {xs : List Int} (hinc : Inc xs)
    (hb : ∀ i x, rd xs i = some x → minfinity < x ∧ x < maxfinity) {c k : Int}
    (hc0 : 0 ≤ c) (hc1 : c < xs.length) (hk : InRange k) :
    ∃ r c', hopping xs c k = some (r, c') ∧ 0 ≤ c' ∧ c' < xs.length ∧ HopSpec xs k r c' := by
  obtain ⟨xc, hxc⟩ := rd_some hc0 hc1
  obtain ⟨x0, hx0⟩ := rd_some (xs := xs) (i := 0) (by omega) (by omega)
  obtain ⟨xl, hxl⟩ := rd_some (xs := xs) (i := (xs.length : Int) - 1) (by omega) (by omega)
  unfold hopping
  simp only [hxc, Option.bind_eq_bind, Option.bind_some]
  have fin : ∀ l h : Int, 0 ≤ l → h = l + 1 → h < xs.length → k ≠ minfinity →
      (∀ x, rd xs l = some x → decide (x < k) = true) →
      (∀ x, rd xs h = some x → decide (x < k) = false) →
      ∃ r c', ((rd xs h).bind fun y => some (y, h)) = some (r, c') ∧ 0 ≤ c' ∧ c' < xs.length ∧
        HopSpec xs k r c' := by
    intro l h h1 h2 h3 hk0 h4 h5
    obtain ⟨y, hy⟩ := rd_some (xs := xs) (i := h) (by omega) h3
    refine ⟨y, h, by simp [hy], by omega, h3, Or.inr (Or.inl ⟨hk0, hy, ?_, ?_⟩)⟩
    · have := h5 y hy; simp at this; omega
    · intro i x hx hi
      obtain ⟨z, hz⟩ := rd_some (xs := xs) (i := l) h1 (by omega)
      have h6 := h4 z hz; simp at h6
      by_cases hil : i = l
      · subst hil; rw [hz] at hx; cases hx; exact h6
      · have := hinc i l x z (by omega) hx hz; omega
  by_cases h1 : xc < k
  · rw [if_pos h1]
    simp only [hxl, Option.bind_some]
    by_cases h2 : xl < k
    · rw [if_pos h2]
      refine ⟨maxfinity, c, rfl, hc0, hc1, Or.inr (Or.inr ⟨by have := hb _ _ hxc; omega, rfl, ?_⟩)⟩
      intro i x hx
      by_cases hi : i = (xs.length : Int) - 1
      · subst hi; rw [hxl] at hx; cases hx; exact h2
      · have := hinc i _ x xl (by have := rd_lt hx; omega) hx hxl; omega
    · rw [if_neg h2]
      obtain ⟨hop, g1, g2, _, g3⟩ := gallopUp_ok (xs := xs) (test := fun x => decide (x < k)) hc0
        (xs.length + 1) 1 (by omega) (by omega) hc1 (by omega) (by omega)
      simp only [g1, Option.bind_some]
      have hcl : c < (xs.length : Int) - 1 := by
        by_cases h : c = (xs.length : Int) - 1
        · rw [h, hxl] at hxc; cases hxc; omega
        · omega
      obtain ⟨l, h, b1, b2, b3, b4, b5, b6⟩ := bisect_ok (xs := xs) (test := fun x => decide (x < k))
        (xs.length + 1) c (if c + hop ≥ xs.length then (xs.length : Int) - 1 else c + hop) hc0
        (by split <;> omega) (by split <;> omega) (by split <;> omega)
        (by intro x hx; rw [hxc] at hx; cases hx; simpa using h1)
        (by
          split
          · intro x hx; rw [hxl] at hx; cases hx; simpa using h2
          · intro x hx; exact g3 (by omega) x hx)
      simp only [b1, Option.bind_some]
      exact fin l h b2 b3 b4 (by have := hb _ _ hxc; omega) b5 b6
  · rw [if_neg h1]
    by_cases h2 : xc > k
    · rw [if_pos h2]
      simp only [hx0, Option.bind_some]
      by_cases h3 : x0 ≥ k
      · rw [if_pos h3]
        by_cases h4 : k = minfinity
        · rw [if_pos h4]
          exact ⟨minfinity, c, rfl, hc0, hc1, Or.inl ⟨h4, rfl⟩⟩
        · rw [if_neg h4]
          exact ⟨x0, 0, rfl, by omega, by omega, Or.inr (Or.inl ⟨h4, hx0, h3, fun i x hx hi => by
            have := rd_lt hx; omega⟩)⟩
      · rw [if_neg h3]
        obtain ⟨hop, g1, g2, _, g3⟩ := gallopDown_ok (xs := xs) (test := fun x => decide (x ≥ k)) hc1
          (xs.length + 1) 1 (by omega) (by omega) (by omega) (by omega) (by omega)
        simp only [g1, Option.bind_some]
        have hcl : 0 < c := by
          by_cases h : c = 0
          · rw [h, hx0] at hxc; cases hxc; omega
          · omega
        obtain ⟨l, h, b1, b2, b3, b4, b5, b6⟩ := bisect_ok (xs := xs) (test := fun x => decide (x < k))
          (xs.length + 1) (if hop > c then 0 else c - hop) c
          (by split <;> omega) (by split <;> omega) (by omega) (by split <;> omega)
          (by
            split
            · intro x hx; rw [hx0] at hx; cases hx; simp; omega
            · intro x hx
              have := g3 (by omega) x hx
              simp at this; simpa using this)
          (by intro x hx; rw [hxc] at hx; cases hx; simp; omega)
        simp only [b1, Option.bind_some]
        exact fin l h b2 b3 b4 (by have := hb _ _ hx0; omega) b5 b6
    · rw [if_neg h2]
      have : xc = k := by omega
      subst this
      refine ⟨xc, c, rfl, hc0, hc1, Or.inr (Or.inl ⟨by have := hb _ _ hxc; omega, hxc, Int.le_refl _, ?_⟩)⟩
      intro i x hx hi
      exact hinc i c x xc hi hx hxc

theorem gnippoh_ok {xs : List Int} (hinc : Inc xs)
    (hb : ∀ i x, rd xs i = some x → minfinity < x ∧ x < maxfinity) {c k : Int}
    (hc0 : 0 ≤ c) (hc1 : c < xs.length) (hk : InRange k) :
    ∃ r c', gnippoh xs c k = some (r, c') ∧ 0 ≤ c' ∧ c' < xs.length ∧ PohSpec xs k r c' := by
  obtain ⟨xc, hxc⟩ := rd_some hc0 hc1
  obtain ⟨x0, hx0⟩ := rd_some (xs := xs) (i := 0) (by omega) (by omega)
  obtain ⟨xl, hxl⟩ := rd_some (xs := xs) (i := (xs.length : Int) - 1) (by omega) (by omega)
  unfold gnippoh
  simp only [hxc, Option.bind_eq_bind, Option.bind_some]
  have fin : ∀ l h : Int, 0 ≤ l → h = l + 1 → h < xs.length → k ≠ maxfinity →
      (∀ x, rd xs l = some x → decide (x ≤ k) = true) →
      (∀ x, rd xs h = some x → decide (x ≤ k) = false) →
      ∃ r c', ((rd xs l).bind fun y => some (y, l)) = some (r, c') ∧ 0 ≤ c' ∧ c' < xs.length ∧
        PohSpec xs k r c' := by
    intro l h h1 h2 h3 hk0 h4 h5
    obtain ⟨y, hy⟩ := rd_some (xs := xs) (i := l) h1 (by omega)
    refine ⟨y, l, by simp [hy], h1, by omega, Or.inr (Or.inl ⟨hk0, hy, ?_, ?_⟩)⟩
    · have := h4 y hy; simpa using this
    · intro i x hx hi
      obtain ⟨z, hz⟩ := rd_some (xs := xs) (i := h) (by omega) h3
      have h6 := h5 z hz; simp at h6
      by_cases hil : i = h
      · subst hil; rw [hz] at hx; cases hx; exact h6
      · have := hinc h i z x (by omega) hz hx; omega
  by_cases h1 : xc > k
  · rw [if_pos h1]
    simp only [hx0, Option.bind_some]
    by_cases h2 : x0 > k
    · rw [if_pos h2]
      refine ⟨minfinity, c, rfl, hc0, hc1, Or.inr (Or.inr ⟨by have := hb _ _ hxc; omega, rfl, ?_⟩)⟩
      intro i x hx
      by_cases hi : i = 0
      · subst hi; rw [hx0] at hx; cases hx; exact h2
      · have := hinc 0 _ x0 x (by have := rd_lt hx; omega) hx0 hx; omega
    · rw [if_neg h2]
      obtain ⟨hop, g1, g2, _, g3⟩ := gallopDown_ok (xs := xs) (test := fun x => decide (x > k)) hc1
          (xs.length + 1) 1 (by omega) (by omega) (by omega) (by omega) (by omega)
      simp only [g1, Option.bind_some]
      have hcl : 0 < c := by
        by_cases h : c = 0
        · rw [h, hx0] at hxc; cases hxc; omega
        · omega
      obtain ⟨l, h, b1, b2, b3, b4, b5, b6⟩ := bisect_ok (xs := xs) (test := fun x => decide (x ≤ k))
        (xs.length + 1) (if hop > c then 0 else c - hop) c
        (by split <;> omega) (by split <;> omega) (by omega) (by split <;> omega)
        (by
          split
          · intro x hx; rw [hx0] at hx; cases hx; simp; omega
          · intro x hx
            have := g3 (by omega) x hx
            simp at this; simpa using this)
        (by intro x hx; rw [hxc] at hx; cases hx; simp; omega)
      simp only [b1, Option.bind_some]
      exact fin l h b2 b3 b4 (by have := hb _ _ hxc; omega) b5 b6
  · rw [if_neg h1]
    by_cases h2 : xc < k
    · rw [if_pos h2]
      simp only [hxl, Option.bind_some]
      by_cases h3 : xl ≤ k
      · rw [if_pos h3]
        by_cases h4 : k = maxfinity
        · rw [if_pos h4]
          exact ⟨maxfinity, c, rfl, hc0, hc1, Or.inl ⟨h4, rfl⟩⟩
        · rw [if_neg h4]
          exact ⟨xl, _, rfl, by omega, by omega, Or.inr (Or.inl ⟨h4, hxl, h3, fun i x hx hi => by
            have := rd_lt hx; omega⟩)⟩
      · rw [if_neg h3]
        obtain ⟨hop, g1, g2, _, g3⟩ := gallopUp_ok (xs := xs) (test := fun x => decide (x ≤ k)) hc0
          (xs.length + 1) 1 (by omega) (by omega) hc1 (by omega) (by omega)
        simp only [g1, Option.bind_some]
        have hcl : c < (xs.length : Int) - 1 := by
          by_cases h : c = (xs.length : Int) - 1
          · rw [h, hxl] at hxc; cases hxc; omega
          · omega
        obtain ⟨l, h, b1, b2, b3, b4, b5, b6⟩ := bisect_ok (xs := xs) (test := fun x => decide (x ≤ k))
          (xs.length + 1) c (if c + hop ≥ xs.length then (xs.length : Int) - 1 else c + hop) hc0
          (by split <;> omega) (by split <;> omega) (by split <;> omega)
          (by intro x hx; rw [hxc] at hx; cases hx; simp; omega)
          (by
            split
            · intro x hx; rw [hxl] at hx; cases hx; simp; omega
            · intro x hx; exact g3 (by omega) x hx)
        simp only [b1, Option.bind_some]
        exact fin l h b2 b3 b4 (by have := hb _ _ hxl; omega) b5 b6
    · rw [if_neg h2]
      have : xc = k := by omega
      subst this
      refine ⟨xc, c, rfl, hc0, hc1, Or.inr (Or.inl ⟨by have := hb _ _ hxc; omega, hxc, Int.le_refl _, ?_⟩)⟩
      intro i x hx hi
      exact hinc c i xc x hi hxc hx

/-! ### the object -/

/-- The arrays hold the columns of `l` (values omitted only if all are zero). -/
structure Holds (a : Arrays) (l : List Ann) : Prop where
  ps : a.ps = l.map (·.p)
  qs : a.qs = l.map (·.q)
  vs : a.vs = some (l.map (·.v)) ∨ (a.vs = none ∧ ∀ x ∈ l, x.v = 0)

/-- the cursor is inside the list -/
def CInv (l : List Ann) (c : Int) : Prop := 0 ≤ c ∧ c < l.length

theorem rd_map {l : List Ann} {f : Ann → Int} {i x : Int} (h : rd (l.map f) i = some x) :
    ∃ a, l[i.toNat]? = some a ∧ 0 ≤ i ∧ x = f a := by
  rw [rd_eq] at h
  obtain ⟨h1, h2⟩ := h
  rw [List.getElem?_map] at h2
  cases h3 : l[i.toNat]? with
  | none => simp [h3] at h2
  | some a => simp [h3] at h2; exact ⟨a, rfl, h1, h2.symm⟩

theorem rd_map' {l : List Ann} {f : Ann → Int} {i : Int} {a : Ann} (h0 : 0 ≤ i)
    (h : l[i.toNat]? = some a) : rd (l.map f) i = some (f a) := by
  rw [rd_eq, List.getElem?_map, h]; exact ⟨h0, rfl⟩

theorem Holds.value {a : Arrays} {l : List Ann} (h : Holds a l) {i : Int} {x : Ann} (h0 : 0 ≤ i)
    (hx : l[i.toNat]? = some x) : a.value i = some x.v := by
  unfold Arrays.value
  rcases h.vs with hv | ⟨hv, hz⟩
  · rw [hv]; exact rd_map' h0 hx
  · rw [hv]; simp only; rw [hz x (List.mem_of_getElem? hx)]

theorem mem_idx {l : List Ann} {x : Ann} (h : x ∈ l) : ∃ i : Int, 0 ≤ i ∧ l[i.toNat]? = some x := by
  obtain ⟨n, hn, rfl⟩ := List.mem_iff_getElem.1 h
  exact ⟨n, by omega, by simp⟩

section
variable {l : List Ann} (hl : Listing l)
include hl

theorem ps_inc : Inc (l.map (·.p)) :=
  inc_of_pairwise (List.pairwise_map.2 (hl.sorted.imp fun h => h.1))
theorem qs_inc : Inc (l.map (·.q)) :=
  inc_of_pairwise (List.pairwise_map.2 (hl.sorted.imp fun h => h.2))
theorem ps_b (i x : Int) (h : rd (l.map (·.p)) i = some x) : minfinity < x ∧ x < maxfinity := by
  obtain ⟨a, h1, _, rfl⟩ := rd_map h
  have := hl.bounds a (List.mem_of_getElem? h1); omega
theorem qs_b (i x : Int) (h : rd (l.map (·.q)) i = some x) : minfinity < x ∧ x < maxfinity := by
  obtain ⟨a, h1, _, rfl⟩ := rd_map h
  have := hl.bounds a (List.mem_of_getElem? h1); omega
end

theorem Ok.withCursor {S : GC} {l : List Ann} {α : Type} {f : Int → Option (α × Int)}
    {Q : α → Prop} (h : ∀ c, CInv l c → ∃ a c', f c = some (a, c') ∧ CInv l c' ∧ Q a) :
    Ok (NInv S (CInv l)) (withCursor f) Q := by
  intro s hs
  obtain ⟨a, c', h1, h2, h3⟩ := h s.sub hs.2
  exact ⟨a, { s with sub := c' }, by simp [Hopper.withCursor, h1], ⟨hs.1, h2⟩, h3⟩

theorem array_impl {a : Arrays} {l : List Ann} (hl : Listing l) (hne : l ≠ []) (ha : Holds a l) :
    Impl (arrayObj a) (NInv (ofList l) (CInv l)) (ofList l) := by
  have lp : (l.map (·.p)).length = l.length := List.length_map _
  have lq : (l.map (·.q)).length = l.length := List.length_map _
  have w := hl.wf
  -- a found element, with the bounds it brings
  have elt : ∀ {i : Int} {x : Ann}, l[i.toNat]? = some x → ofList l x := fun h =>
    List.mem_of_getElem? h
  have hopP : ∀ c k, CInv l c → InRange k → ∃ r c', hopping a.ps c k = some (r, c') ∧ CInv l c' ∧
      ((r = minfinity ∧ k = minfinity) ∨
       (r = maxfinity ∧ TauSpec (ofList l) k highEnd) ∨
       (∃ x, l[c'.toNat]? = some x ∧ 0 ≤ c' ∧ r = x.p ∧ TauSpec (ofList l) k x)) := by
    intro c k hc hk
    rw [ha.ps]
    obtain ⟨r, c', h1, h2, h3, h4⟩ := hopping_ok (ps_inc hl) (ps_b hl) hc.1 (by rw [lp]; exact hc.2) hk
    refine ⟨r, c', h1, ⟨h2, by rw [lp] at h3; exact h3⟩, ?_⟩
    rcases h4 with ⟨h5, h6⟩ | ⟨h5, h6, h7, h8⟩ | ⟨h5, h6, h7⟩
    · exact Or.inl ⟨h6, h5⟩
    · obtain ⟨x, h9, _, rfl⟩ := rd_map h6
      refine Or.inr (Or.inr ⟨x, h9, h2, rfl, Or.inr (Or.inl ⟨h5, elt h9, h7, ?_⟩)⟩)
      intro y hy hky
      obtain ⟨j, hj0, hj⟩ := mem_idx hy
      have hjp := rd_map' (f := (·.p)) hj0 hj
      by_cases hjc : j < c'
      · have := h8 j _ hjp hjc; omega
      · by_cases hje : j = c'
        · subst hje; rw [h9] at hj; cases hj; exact Int.le_refl _
        · have := ps_inc hl c' j _ _ (by omega) h6 hjp; omega
    · refine Or.inr (Or.inl ⟨h6, Or.inr (Or.inr ⟨h5, ?_, rfl⟩)⟩)
      intro y hy
      obtain ⟨j, hj0, hj⟩ := mem_idx hy
      exact h7 j _ (rd_map' (f := (·.p)) hj0 hj)
  have hopQ : ∀ c k, CInv l c → InRange k → ∃ r c', hopping a.qs c k = some (r, c') ∧ CInv l c' ∧
      ((r = minfinity ∧ k = minfinity) ∨
       (r = maxfinity ∧ RhoSpec (ofList l) k highEnd) ∨
       (∃ x, l[c'.toNat]? = some x ∧ 0 ≤ c' ∧ r = x.q ∧ RhoSpec (ofList l) k x)) := by
    intro c k hc hk
    rw [ha.qs]
    obtain ⟨r, c', h1, h2, h3, h4⟩ := hopping_ok (qs_inc hl) (qs_b hl) hc.1 (by rw [lq]; exact hc.2) hk
    refine ⟨r, c', h1, ⟨h2, by rw [lq] at h3; exact h3⟩, ?_⟩
    rcases h4 with ⟨h5, h6⟩ | ⟨h5, h6, h7, h8⟩ | ⟨h5, h6, h7⟩
    · exact Or.inl ⟨h6, h5⟩
    · obtain ⟨x, h9, _, rfl⟩ := rd_map h6
      refine Or.inr (Or.inr ⟨x, h9, h2, rfl, Or.inr (Or.inl ⟨h5, elt h9, h7, ?_⟩)⟩)
      intro y hy hky
      obtain ⟨j, hj0, hj⟩ := mem_idx hy
      have hjp := rd_map' (f := (·.q)) hj0 hj
      by_cases hjc : j < c'
      · have := h8 j _ hjp hjc; omega
      · by_cases hje : j = c'
        · subst hje; rw [h9] at hj; cases hj; exact Int.le_refl _
        · have := qs_inc hl c' j _ _ (by omega) h6 hjp; omega
    · refine Or.inr (Or.inl ⟨h6, Or.inr (Or.inr ⟨h5, ?_, rfl⟩)⟩)
      intro y hy
      obtain ⟨j, hj0, hj⟩ := mem_idx hy
      exact h7 j _ (rd_map' (f := (·.q)) hj0 hj)
  have pohQ : ∀ c k, CInv l c → InRange k → ∃ r c', gnippoh a.qs c k = some (r, c') ∧ CInv l c' ∧
      ((r = maxfinity ∧ k = maxfinity) ∨
       (r = minfinity ∧ UatSpec (ofList l) k lowEnd) ∨
       (∃ x, l[c'.toNat]? = some x ∧ 0 ≤ c' ∧ r = x.q ∧ UatSpec (ofList l) k x)) := by
    intro c k hc hk
    rw [ha.qs]
    obtain ⟨r, c', h1, h2, h3, h4⟩ := gnippoh_ok (qs_inc hl) (qs_b hl) hc.1 (by rw [lq]; exact hc.2) hk
    refine ⟨r, c', h1, ⟨h2, by rw [lq] at h3; exact h3⟩, ?_⟩
    rcases h4 with ⟨h5, h6⟩ | ⟨h5, h6, h7, h8⟩ | ⟨h5, h6, h7⟩
    · exact Or.inl ⟨h6, h5⟩
    · obtain ⟨x, h9, _, rfl⟩ := rd_map h6
      refine Or.inr (Or.inr ⟨x, h9, h2, rfl, Or.inr (Or.inl ⟨h5, elt h9, h7, ?_⟩)⟩)
      intro y hy hky
      obtain ⟨j, hj0, hj⟩ := mem_idx hy
      have hjp := rd_map' (f := (·.q)) hj0 hj
      by_cases hjc : c' < j
      · have := h8 j _ hjp hjc; omega
      · by_cases hje : j = c'
        · subst hje; rw [h9] at hj; cases hj; exact Int.le_refl _
        · have := qs_inc hl j c' _ _ (by omega) hjp h6; omega
    · refine Or.inr (Or.inl ⟨h6, Or.inr (Or.inr ⟨h5, ?_, rfl⟩)⟩)
      intro y hy
      obtain ⟨j, hj0, hj⟩ := mem_idx hy
      exact h7 j _ (rd_map' (f := (·.q)) hj0 hj)
  have pohP : ∀ c k, CInv l c → InRange k → ∃ r c', gnippoh a.ps c k = some (r, c') ∧ CInv l c' ∧
      ((r = maxfinity ∧ k = maxfinity) ∨
       (r = minfinity ∧ OhrSpec (ofList l) k lowEnd) ∨
       (∃ x, l[c'.toNat]? = some x ∧ 0 ≤ c' ∧ r = x.p ∧ OhrSpec (ofList l) k x)) := by
    intro c k hc hk
    rw [ha.ps]
    obtain ⟨r, c', h1, h2, h3, h4⟩ := gnippoh_ok (ps_inc hl) (ps_b hl) hc.1 (by rw [lp]; exact hc.2) hk
    refine ⟨r, c', h1, ⟨h2, by rw [lp] at h3; exact h3⟩, ?_⟩
    rcases h4 with ⟨h5, h6⟩ | ⟨h5, h6, h7, h8⟩ | ⟨h5, h6, h7⟩
    · exact Or.inl ⟨h6, h5⟩
    · obtain ⟨x, h9, _, rfl⟩ := rd_map h6
      refine Or.inr (Or.inr ⟨x, h9, h2, rfl, Or.inr (Or.inl ⟨h5, elt h9, h7, ?_⟩)⟩)
      intro y hy hky
      obtain ⟨j, hj0, hj⟩ := mem_idx hy
      have hjp := rd_map' (f := (·.p)) hj0 hj
      by_cases hjc : c' < j
      · have := h8 j _ hjp hjc; omega
      · by_cases hje : j = c'
        · subst hje; rw [h9] at hj; cases hj; exact Int.le_refl _
        · have := ps_inc hl j c' _ _ (by omega) hjp h6; omega
    · refine Or.inr (Or.inl ⟨h6, Or.inr (Or.inr ⟨h5, ?_, rfl⟩)⟩)
      intro y hy
      obtain ⟨j, hj0, hj⟩ := mem_idx hy
      exact h7 j _ (rd_map' (f := (·.p)) hj0 hj)
  have qv : ∀ {i : Int} {x : Ann}, 0 ≤ i → l[i.toNat]? = some x → rd a.qs i = some x.q :=
    fun h0 hx => by rw [ha.qs]; exact rd_map' h0 hx
  have pv : ∀ {i : Int} {x : Ann}, 0 ≤ i → l[i.toNat]? = some x → rd a.ps i = some x.p :=
    fun h0 hx => by rw [ha.ps]; exact rd_map' h0 hx
  refine ⟨⟨memoOk_init _, ?_⟩, fun k hk => Ok.memoTau (Ok.withCursor fun c hc => ?_),
    fun k hk => Ok.memoRho (Ok.withCursor fun c hc => ?_),
    fun k hk => Ok.memoUat (Ok.withCursor fun c hc => ?_),
    fun k hk => Ok.memoOhr (Ok.withCursor fun c hc => ?_),
    fun k hk => (?_ : Ok (NInv (ofList l) (CInv l)) (arrayL a k) _),
    fun k hk => (?_ : Ok (NInv (ofList l) (CInv l)) (arrayR a k) _)⟩
  · cases l with
    | nil => exact absurd rfl hne
    | cons x xs => exact ⟨Int.le_refl _, by simp only [arrayObj, List.length_cons]; omega⟩
  · obtain ⟨r, c', h1, h2, h3⟩ := hopP c k hc hk
    rcases h3 with ⟨rfl, rfl⟩ | ⟨rfl, h4⟩ | ⟨x, h4, h5, rfl, h6⟩
    · exact ⟨lowEnd, c', by simp [h1], h2, Or.inl ⟨rfl, rfl⟩⟩
    · exact ⟨highEnd, c', by simp [h1], h2, h4⟩
    · have := w.lo (elt h4); have := w.hi (elt h4); have := w.le (elt h4)
      refine ⟨x, c', ?_, h2, h6⟩
      have hx : ¬ (x.p = maxfinity ∨ x.p = minfinity) := by omega
      simp [h1, hx, qv h5 h4, ha.value h5 h4]
  · obtain ⟨r, c', h1, h2, h3⟩ := hopQ c k hc hk
    rcases h3 with ⟨rfl, rfl⟩ | ⟨rfl, h4⟩ | ⟨x, h4, h5, rfl, h6⟩
    · exact ⟨lowEnd, c', by simp [h1], h2, Or.inl ⟨rfl, rfl⟩⟩
    · exact ⟨highEnd, c', by simp [h1], h2, h4⟩
    · have := w.lo (elt h4); have := w.hi (elt h4); have := w.le (elt h4)
      refine ⟨x, c', ?_, h2, h6⟩
      have hx : ¬ (x.q = maxfinity ∨ x.q = minfinity) := by omega
      simp [h1, hx, pv h5 h4, ha.value h5 h4]
  · obtain ⟨r, c', h1, h2, h3⟩ := pohQ c k hc hk
    rcases h3 with ⟨rfl, rfl⟩ | ⟨rfl, h4⟩ | ⟨x, h4, h5, rfl, h6⟩
    · exact ⟨highEnd, c', by simp [h1], h2, Or.inl ⟨rfl, rfl⟩⟩
    · exact ⟨lowEnd, c', by simp [h1], h2, h4⟩
    · have := w.lo (elt h4); have := w.hi (elt h4); have := w.le (elt h4)
      refine ⟨x, c', ?_, h2, h6⟩
      have hx : ¬ (x.q = maxfinity ∨ x.q = minfinity) := by omega
      simp [h1, hx, pv h5 h4, ha.value h5 h4]
  · obtain ⟨r, c', h1, h2, h3⟩ := pohP c k hc hk
    rcases h3 with ⟨rfl, rfl⟩ | ⟨rfl, h4⟩ | ⟨x, h4, h5, rfl, h6⟩
    · exact ⟨highEnd, c', by simp [h1], h2, Or.inl ⟨rfl, rfl⟩⟩
    · exact ⟨lowEnd, c', by simp [h1], h2, h4⟩
    · have := w.lo (elt h4); have := w.hi (elt h4); have := w.le (elt h4)
      refine ⟨x, c', ?_, h2, h6⟩
      have hx : ¬ (x.p = maxfinity ∨ x.p = minfinity) := by omega
      simp [h1, hx, qv h5 h4, ha.value h5 h4]
  · refine Ok.withCursor fun c hc => ?_
    obtain ⟨r, c', h1, h2, h3⟩ := pohQ c k hc hk
    rcases h3 with ⟨rfl, rfl⟩ | ⟨rfl, h4⟩ | ⟨x, h4, h5, rfl, h6⟩
    · exact ⟨maxfinity, c', by simp [h1], h2, highEnd, Or.inl ⟨rfl, rfl⟩, rfl⟩
    · exact ⟨minfinity, c', by simp [h1], h2, lowEnd, h4, rfl⟩
    · have := w.lo (elt h4); have := w.hi (elt h4); have := w.le (elt h4)
      have hx1 : ¬ (x.q = maxfinity) := by omega
      have hx2 : ¬ (x.q = minfinity) := by omega
      exact ⟨x.p, c', by simp [h1, hx1, hx2, pv h5 h4], h2, x, h6, rfl⟩
  · refine Ok.withCursor fun c hc => ?_
    obtain ⟨r, c', h1, h2, h3⟩ := hopP c k hc hk
    rcases h3 with ⟨rfl, rfl⟩ | ⟨rfl, h4⟩ | ⟨x, h4, h5, rfl, h6⟩
    · exact ⟨minfinity, c', by simp [h1], h2, lowEnd, Or.inl ⟨rfl, rfl⟩, rfl⟩
    · exact ⟨maxfinity, c', by simp [h1], h2, highEnd, h4, rfl⟩
    · have := w.lo (elt h4); have := w.hi (elt h4); have := w.le (elt h4)
      have hx1 : ¬ (x.p = maxfinity) := by omega
      have hx2 : ¬ (x.p = minfinity) := by omega
      exact ⟨x.q, c', by simp [h1, hx1, hx2, qv h5 h4], h2, x, h6, rfl⟩

end Verif.Hopper
