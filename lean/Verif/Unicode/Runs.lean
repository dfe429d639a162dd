import Verif.Unicode.Proof
/-
  Lemmas about writing a table as runs, and about cutting a text into words whatever the case of its letters.
-/
namespace Verif.Unicode
open Verif.Text

/-- the actions that runs stand for -/
def expand (rs : List (Nat × Nat)) : List Nat := rs.flatMap fun p => List.replicate p.1 p.2

/-- no run is empty, and neighbours differ -/
def Short : List (Nat × Nat) → Prop
  | [] => True
  | [p] => 0 < p.1
  | p :: q :: l => 0 < p.1 ∧ p.2 ≠ q.2 ∧ Short (q :: l)

theorem actionAt_expand : ∀ (rs : List (Nat × Nat)) (c : Nat), actionAt rs c = (expand rs)[c]?
  | [], c => by simp [actionAt, expand]
  | (n, a) :: l, c => by
    rw [actionAt, actionAt_expand l]
    show _ = (List.replicate n a ++ expand l)[c]?
    split
    · rename_i h
      rw [List.getElem?_append_left (by simpa using h)]
      simp [List.getElem?_replicate, h]
    · rename_i h
      rw [List.getElem?_append_right (by simpa using h)]
      simp

theorem runs_expand : ∀ (l : List Nat) (a j : Nat), expand (runs a j l) = List.replicate j a ++ l
  | [], a, j => by simp [runs, expand]
  | b :: l, a, j => by
    rw [runs]
    split
    · rename_i e
      rw [runs_expand l, List.replicate_succ', e]
      simp
    · show List.replicate j a ++ expand (runs b 1 l) = _
      rw [runs_expand l]
      rfl

theorem runs_head : ∀ (l : List Nat) (a j : Nat), ∃ n r, runs a j l = (n, a) :: r
  | [], a, j => ⟨_, _, rfl⟩
  | b :: l, a, j => by
    rw [runs]
    split
    · exact runs_head l a (j + 1)
    · exact ⟨_, _, rfl⟩

theorem runs_short : ∀ (l : List Nat) (a j : Nat), 0 < j → Short (runs a j l)
  | [], a, j, h => h
  | b :: l, a, j, h => by
    rw [runs]
    split
    · exact runs_short l a (j + 1) (by omega)
    · rename_i e
      obtain ⟨n, r, hr⟩ := runs_head l b 1
      have := runs_short l b 1 (by omega)
      rw [hr] at this ⊢
      exact ⟨h, fun e' => e e'.symm, this⟩

theorem runs_same (a : Nat) (l : List Nat) : ∀ (n j : Nat), runs a j (List.replicate n a ++ l) = runs a (j + n) l
  | 0, j => by simp
  | n + 1, j => by
    rw [List.replicate_succ, List.cons_append, runs, if_pos rfl, runs_same a l n, Nat.add_assoc, Nat.add_comm 1 n]

theorem runs_of_short : ∀ (l : List (Nat × Nat)) (n a : Nat), Short ((n, a) :: l) → ∀ j, runs a j (expand l) = (j, a) :: l
  | [], n, a, h, j => rfl
  | (m, b) :: l, n, a, h, j => by
    obtain ⟨-, h2, h3⟩ := h
    have hm : 0 < m := by
      cases l with
      | nil => exact h3
      | cons q l => exact h3.1
    obtain ⟨m, rfl⟩ := Nat.exists_eq_succ_of_ne_zero (Nat.ne_of_gt hm)
    show runs a j (List.replicate (m + 1) b ++ expand l) = _
    rw [List.replicate_succ, List.cons_append, runs, if_neg fun e => h2 e.symm, runs_same, runs_of_short l (m + 1) b h3,
      Nat.add_comm 1 m]

theorem compress_expand {l : List (Nat × Nat)} (hne : l ≠ []) (h : Short l) : compress (expand l) = some l := by
  cases l with
  | nil => exact absurd rfl hne
  | cons p l =>
    obtain ⟨n, a⟩ := p
    have hn : 0 < n := by
      cases l with
      | nil => exact h
      | cons q l => exact h.1
    obtain ⟨n, rfl⟩ := Nat.exists_eq_succ_of_ne_zero (Nat.ne_of_gt hn)
    show compress (List.replicate (n + 1) a ++ expand l) = _
    rw [List.replicate_succ, List.cons_append, compress, runs_same, runs_of_short l (n + 1) a h, Nat.add_comm 1 n]

/-- `Short`, computed -/
def short : List (Nat × Nat) → Bool
  | [] => true
  | [p] => decide (0 < p.1)
  | p :: q :: l => decide (0 < p.1) && (p.2 != q.2 && short (q :: l))

theorem short_spec : ∀ {l : List (Nat × Nat)}, short l = true → Short l
  | [], _ => trivial
  | [p], h => by
    rw [short, decide_eq_true_eq] at h
    exact h
  | p :: q :: l, h => by
    rw [short, Bool.and_eq_true, Bool.and_eq_true, decide_eq_true_eq, bne_iff_ne] at h
    exact ⟨h.1, h.2.1, short_spec h.2.2⟩

theorem actions_short : Short compressedActions := short_spec (by decide +kernel)

theorem expand_length : ∀ l : List (Nat × Nat), (expand l).length = written l
  | [] => rfl
  | (n, a) :: l => by
    show (List.replicate n a ++ expand l).length = n + written l
    rw [List.length_append, List.length_replicate, expand_length l]

/-! ### Texts that differ in code points with the same part in words -/

/-- `d` may stand for `c` -/
def Alike (act : Nat → Action) (c d : Nat) : Prop :=
  c = d ∨ (inWord act c = true ∧ inWord act d = true ∧ folded act c = folded act d)

theorem Alike.inWord {act : Nat → Action} {c d : Nat} (h : Alike act c d) : inWord act c = inWord act d := by
  rcases h with rfl | ⟨h1, h2, -⟩
  · rfl
  · rw [h1, h2]

theorem Alike.folded {act : Nat → Action} {c d : Nat} (h : Alike act c d) : folded act c = folded act d := by
  rcases h with rfl | ⟨-, -, h⟩
  · rfl
  · exact h

theorem cut_alike {act : Nat → Action} {f : Nat → Nat} {cs : List Nat} {ts : List Text} (hc : Cut act cs ts)
    (h : ∀ c ∈ cs, Alike act c (f c)) : Cut act (cs.map f) ts := by
  induction hc with
  | nil => exact Cut.nil
  | @gap c cs ts hn _ ih =>
    have e : c = f c := by
      rcases h c (List.mem_cons_self ..) with e | ⟨e, -⟩
      · exact e
      · rw [inWord_non _ hn] at e; cases e
    rw [List.map_cons, ← e]
    exact Cut.gap hn (ih fun d hd => h d (List.mem_cons_of_mem _ hd))
  | @alone c cs ts hn _ ih =>
    have e : c = f c := by
      rcases h c (List.mem_cons_self ..) with e | ⟨e, -⟩
      · exact e
      · rw [inWord_uni _ hn] at e; cases e
    rw [List.map_cons, ← e]
    exact Cut.alone hn (ih fun d hd => h d (List.mem_cons_of_mem _ hd))
  | @word w rest ts hne hw hr _ ih =>
    have hl : ∀ c ∈ w, Alike act c (f c) := fun c hc => h c (List.mem_append_left _ hc)
    have e : w.flatMap (Verif.Text.folded act) = (w.map f).flatMap (Verif.Text.folded act) := by
      clear hne hw h
      induction w with
      | nil => rfl
      | cons c w ih =>
        rw [List.map_cons, List.flatMap_cons, List.flatMap_cons, (hl c (List.mem_cons_self ..)).folded,
          ih fun c hc => hl c (List.mem_cons_of_mem _ hc)]
    rw [List.map_append, e]
    refine Cut.word (by simpa using hne) ?_ ?_ (ih fun d hd => h d (List.mem_append_right _ hd))
    · intro d hd
      obtain ⟨c, hc, rfl⟩ := List.mem_map.1 hd
      rw [← (hl c hc).inWord]; exact hw c hc
    · intro d hd
      cases rest with
      | nil => cases hd
      | cons c rest =>
        simp only [List.map_cons, List.head?_cons, Option.mem_some_iff] at hd
        subst hd
        rw [← (h c (List.mem_append_right _ (List.mem_cons_self ..))).inWord]
        exact hr c (by simp)

end Verif.Unicode
