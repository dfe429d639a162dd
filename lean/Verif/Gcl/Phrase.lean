import Verif.Gcl.ParseProof
/-
  Quoted phrases.
-/
namespace Verif.Gcl
open Verif.Hopper

/-- the lists have one-address solutions at `p`, `p+1`, `p+2`, … in that order -/
def consecutive : List GC → Int → Prop
  | [], _ => True
  | S :: Ss, p => (∃ a, S a ∧ a.p = p) ∧ consecutive Ss (p + 1)

/-- the tree a phrase of several words stands for -/
def phraseTree (xs : List (List Char)) : SExpr :=
  .node .containing [] 0 [.node .fixed [] xs.length [], .node .followedBy [] 0
    (xs.map fun x => .node .term x 0 [])]

theorem inOrder_points : ∀ {Ss : List GC}, (∀ S ∈ Ss, ∀ a, S a → a.p = a.q) → ∀ {p q : Int},
    inOrder Ss p q → p + Ss.length - 1 ≤ q ∧ (q ≤ p + Ss.length - 1 → consecutive Ss p)
  | [], _, _, _, h => h.elim
  | [S], hS, p, q, h => by
    obtain ⟨a, ha, rfl, rfl⟩ := h
    have := hS S (by simp) a ha
    exact ⟨by simp; omega, fun _ => ⟨⟨a, ha, rfl⟩, trivial⟩⟩
  | S :: S' :: Ss, hS, p, q, h => by
    obtain ⟨a, p', ha, rfl, hlt, hr⟩ := h
    have h1 := hS S (by simp) a ha
    obtain ⟨h2, h3⟩ := inOrder_points (fun x hx => hS x (List.mem_cons_of_mem _ hx)) hr
    simp only [List.length_cons] at h2 h3 ⊢
    refine ⟨by omega, fun hq => ⟨⟨a, ha, rfl⟩, ?_⟩⟩
    have : p' = a.p + 1 := by omega
    rw [← this]; exact h3 (by omega)

theorem inOrder_of_consecutive : ∀ {Ss : List GC}, Ss ≠ [] → (∀ S ∈ Ss, ∀ a, S a → a.p = a.q) →
    ∀ {p : Int}, consecutive Ss p → inOrder Ss p (p + Ss.length - 1)
  | [], h, _, _, _ => absurd rfl h
  | [S], _, hS, p, h => by
    obtain ⟨⟨a, ha, rfl⟩, _⟩ := h
    have := hS S (by simp) a ha
    exact ⟨a, ha, rfl, by simp; omega⟩
  | S :: S' :: Ss, _, hS, p, h => by
    obtain ⟨⟨a, ha, rfl⟩, hr⟩ := h
    have h1 := hS S (by simp) a ha
    have := inOrder_of_consecutive (by simp) (fun x hx => hS x (List.mem_cons_of_mem _ hx)) hr
    refine ⟨a, a.p + 1, ha, rfl, by omega, ?_⟩
    simp only [List.length_cons] at this ⊢
    rw [show a.p + ((Ss.length + 1 + 1 : Nat) : Int) - 1 = a.p + 1 + ((Ss.length + 1 : Nat) : Int) - 1 by
      omega]
    exact this

theorem den_phraseTree {T : List Char → GC} (hT : ∀ t, Wf (T t))
    {xs : List (List Char)} (hp : ∀ t ∈ xs, ∀ a, T t a → a.p = a.q) (hx : 2 ≤ xs.length) (r : Ann) :
    den T (phraseTree xs) r ↔ r.v = 0 ∧ minfinity < r.p ∧ r.q < maxfinity ∧
      r.q = r.p + xs.length - 1 ∧ consecutive (xs.map T) r.p := by
  have hd : ∀ l : List (List Char), denL T (l.map fun x => .node .term x 0 []) = l.map T := by
    intro l; rw [denL_eq, List.map_map]
    apply List.map_congr_left
    intro x _; simp [den, denL, opMeaning]
  have hpts : ∀ S ∈ xs.map T, ∀ a, S a → a.p = a.q := by
    intro S hS a ha
    obtain ⟨t, ht, rfl⟩ := List.mem_map.1 hS
    exact hp t ht a ha
  have hwf : ∀ S ∈ xs.map T, Wf S := by
    intro S hS
    obtain ⟨t, _, rfl⟩ := List.mem_map.1 hS
    exact hT t
  have hfb : den T (.node .followedBy [] 0 (xs.map fun x => .node .term x 0 [])) =
      minimal (inOrder (xs.map T)) := by
    rw [den, hd]
    match xs, hx with
    | a :: b :: ss, _ => rfl
  have hfix : den T (.node .fixed [] xs.length []) = fixedWidth xs.length := by
    simp [den, denL, opMeaning]
  unfold phraseTree
  rw [den, denL, denL, denL, hfb, hfix]
  simp only [opMeaning, List.mem_singleton, forall_eq]
  constructor
  · rintro ⟨⟨h1, h2, h3, h4⟩, b, hb, h5, h6⟩
    obtain ⟨h7, h8⟩ := inOrder_points hpts hb.2.1
    rw [List.length_map] at h7 h8
    refine ⟨h4, h1, h2, h3, ?_⟩
    have : b.p = r.p := by omega
    rw [← this]
    exact h8 (by omega)
  · rintro ⟨h1, h2, h3, h4, h5⟩
    refine ⟨⟨h2, h3, h4, h1⟩, ?_⟩
    have hne : xs.map T ≠ [] := by
      intro h; have := congrArg List.length h; rw [List.length_map] at this; simp at this
      subst this; simp at hx
    have hX := inOrder_of_consecutive hne hpts h5
    rw [List.length_map, ← h4] at hX
    obtain ⟨b, hb, e1, e2⟩ := exists_minimal (inOrder_wf hwf) hX
    exact ⟨b, hb, e1, e2⟩

theorem phraseText_eq (xs : List (List Char)) : phraseText xs = toStr (phraseTree xs) := by
  have h : ∀ l : List (List Char), toStrL (l.map fun x => .node .term x 0 []) =
      l.flatMap fun t => ' ' :: t := by
    intro l
    induction l with
    | nil => rfl
    | cons x l ih => simp [toStrL, toStr, ih]
  simp only [phraseTree, phraseText]
  rw [toStr] <;> try (intro h; cases h)
  rw [toStrL, toStrL, toStrL, toStr, toStr] <;> try (intro h; cases h)
  rw [h]
  simp [nameOf]

theorem phraseTree_good {xs : List (List Char)} (hx : 2 ≤ xs.length) (hx2 : xs.length ≤ 4294967295)
    (h : ∀ t ∈ xs, GoodTerm t) : GoodTree (phraseTree xs) := by
  unfold phraseTree GoodTree
  simp only [minArgs, maxArgs, GoodTreeL]
  refine ⟨trivial, trivial, by simp, by simp, ?_, ?_, trivial⟩
  · unfold GoodTree; exact ⟨rfl, by simp, by omega, rfl⟩
  · unfold GoodTree
    refine ⟨rfl, rfl, by simp [minArgs]; omega, by simp [maxArgs]; omega, ?_⟩
    rw [goodTreeL_iff]
    intro e he
    obtain ⟨t, ht, rfl⟩ := List.mem_map.1 he
    rw [GoodTree]; exact ⟨h t ht, rfl, rfl⟩

end Verif.Gcl
