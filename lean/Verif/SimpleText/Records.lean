import Verif.SimpleText.Model
import Verif.SimpleText.Spec
import Verif.Text.Cut
/-
  The block map that appending writes.
-/
namespace Verif.SimpleText
open Verif.Text

/-- the records of the items of a text that starts at address `a` and offset `o` -/
def recs : List Item → Nat → Nat → List Rec
  | [], _, _ => []
  | (k, []) :: r, a, o => recs r a (o + k)
  | (k, _ :: _) :: r, a, o =>
    (if a % 1024 = 0 then [⟨a, o, (o : Int) + k - 1⟩] else []) ++ recs r (a + 1) (o + k)

/-- what the loop leaves alone -/
theorem fold_rest (keep : Bool) (O B : Nat) : ∀ (l : List Tok) (st : Session × Int),
    (l.foldl (Session.token keep O B) st).1.text = st.1.text ∧
    (l.foldl (Session.token keep O B) st).1.notes = st.1.notes ++ l.map fun t => (t.str, t.address + B)
  | [], st => by simp
  | t :: l, st => by
    obtain ⟨h1, h2⟩ := fold_rest keep O B l (Session.token keep O B st t)
    have e : (Session.token keep O B st t).1.text = st.1.text ∧
        (Session.token keep O B st t).1.notes = st.1.notes ++ [(t.str, t.address + B)] := by
      unfold Session.token
      simp only
      split <;> exact ⟨rfl, rfl⟩
    rw [List.foldl_cons, h1, h2, e.1, e.2]
    exact ⟨rfl, by simp⟩

theorem token_no {keep : Bool} {O B : Nat} {st : Session × Int} {t : Tok}
    (h : (t.address + B) % 1024 ≠ 0 ∨ ((t.address + B : Nat) : Int) = st.2) :
    (Session.token keep O B st t).1.records = st.1.records ∧ (Session.token keep O B st t).2 = st.2 := by
  unfold Session.token
  simp only
  rw [if_neg (by rintro ⟨h1, h2⟩; rcases h with h | h; exact h h1; exact h2 h)]
  exact ⟨rfl, rfl⟩

theorem token_yes {keep : Bool} {O B : Nat} {st : Session × Int} {t : Tok}
    (h : (t.address + B) % 1024 = 0) (h' : ((t.address + B : Nat) : Int) ≠ st.2) :
    (Session.token keep O B st t).1.records = st.1.records ++
      [⟨(t.address + B : Nat), (O + t.offset : Nat), ((O + t.offset : Nat) : Int) + t.length - 1⟩] ∧
    (Session.token keep O B st t).2 = if keep then ((t.address + B : Nat) : Int) else st.2 := by
  unfold Session.token
  simp only
  rw [if_pos ⟨h, h'⟩]
  exact ⟨by simp, rfl⟩

/-- tokens of one address that has its record, or needs none -/
theorem fold_same {keep : Bool} {O B a : Nat} : ∀ (l : List Tok) (st : Session × Int),
    (∀ t ∈ l, t.address = a) → ((a + B) % 1024 ≠ 0 ∨ ((a + B : Nat) : Int) = st.2) →
    (l.foldl (Session.token keep O B) st).1.records = st.1.records ∧ (l.foldl (Session.token keep O B) st).2 = st.2
  | [], st, _, _ => ⟨rfl, rfl⟩
  | t :: l, st, h, h' => by
    have ht := h t (by simp)
    obtain ⟨e1, e2⟩ := token_no (keep := keep) (O := O) (st := st) (t := t) (B := B) (by rw [ht]; exact h')
    rw [List.foldl_cons]
    have := fold_same (keep := keep) (O := O) (B := B) l (Session.token keep O B st t)
      (fun u hu => h u (by simp [hu])) (by rw [e2]; exact h')
    rw [this.1, this.2, e1, e2]
    exact ⟨rfl, rfl⟩

/-- the builder writes one record for each block -/
theorem fold_keep (O B : Nat) : ∀ (l : List Item) (a o : Nat) (st : Session × Int), st.2 < ((a + B : Nat) : Int) →
    ((tokensOf l a o).foldl (Session.token true O B) st).1.records = st.1.records ++ recs l (a + B) (O + o)
  | [], a, o, st, _ => by simp [tokensOf, recs]
  | (k, []) :: r, a, o, st, h => by
    have := fold_keep O B r a (o + k) st h
    simpa only [tokensOf, recs, Nat.add_assoc] using this
  | (k, w :: ws) :: r, a, o, st, h => by
    have ih := fold_keep O B r (a + 1) (o + k)
    simp only [tokensOf, recs, List.map_cons, List.cons_append, List.foldl_cons, List.foldl_append]
    by_cases hm : (a + B) % 1024 = 0
    · obtain ⟨e1, e2⟩ := token_yes (keep := true) (O := O) (B := B) (st := st) (t := ⟨w, a, o, k⟩) hm
        (by simp only; omega)
      simp only [if_true] at e2
      obtain ⟨f1, f2⟩ := fold_same (keep := true) (O := O) (B := B) (a := a)
        (ws.map fun w => (⟨w, a, o, k⟩ : Tok)) (Session.token true O B st ⟨w, a, o, k⟩)
        (by intro t ht; obtain ⟨_, _, rfl⟩ := List.mem_map.mp ht; rfl) (Or.inr (by rw [e2]))
      rw [ih _ (by rw [f2, e2]; omega), f1, e1, if_pos hm]
      have e3 : a + 1 + B = a + B + 1 := by omega
      rw [e3, List.append_assoc, ← Nat.add_assoc O o k]
    · obtain ⟨e1, e2⟩ := token_no (keep := true) (O := O) (B := B) (st := st) (t := ⟨w, a, o, k⟩) (Or.inl hm)
      obtain ⟨f1, f2⟩ := fold_same (keep := true) (O := O) (B := B) (a := a)
        (ws.map fun w => (⟨w, a, o, k⟩ : Tok)) (Session.token true O B st ⟨w, a, o, k⟩)
        (by intro t ht; obtain ⟨_, _, rfl⟩ := List.mem_map.mp ht; rfl) (Or.inl hm)
      rw [ih _ (by rw [f2, e2]; omega), f1, e1, if_neg hm]
      have e3 : a + 1 + B = a + B + 1 := by omega
      rw [e3, List.nil_append, ← Nat.add_assoc O o k]

/-- the appender does so if no address of a block's start has two tokens -/
theorem fold_forget (O B : Nat) : ∀ (l : List Item) (a o : Nat) (st : Session × Int), st.2 = -1 →
    (∀ n, (n + B) % 1024 = 0 → (tokensOf l a o).countP (fun t => t.address = n) ≤ 1) →
    ((tokensOf l a o).foldl (Session.token false O B) st).1.records = st.1.records ++ recs l (a + B) (O + o)
  | [], a, o, st, _, _ => by simp [tokensOf, recs]
  | (k, []) :: r, a, o, st, h, hu => by
    have := fold_forget O B r a (o + k) st h (by simpa only [tokensOf] using hu)
    simpa only [tokensOf, recs, Nat.add_assoc] using this
  | (k, w :: ws) :: r, a, o, st, h, hu => by
    have ih := fold_forget O B r (a + 1) (o + k)
    have hu' : ∀ n, (n + B) % 1024 = 0 → (tokensOf r (a + 1) (o + k)).countP (fun t => t.address = n) ≤ 1 := by
      intro n hn
      have := hu n hn
      simp only [tokensOf, List.countP_append] at this
      omega
    simp only [tokensOf, recs, List.map_cons, List.cons_append, List.foldl_cons, List.foldl_append]
    by_cases hm : (a + B) % 1024 = 0
    · obtain ⟨e1, e2⟩ := token_yes (keep := false) (O := O) (B := B) (st := st) (t := ⟨w, a, o, k⟩) hm
        (by simp only; omega)
      have hws : ws = [] := by
        have := hu a hm
        simp only [tokensOf, List.map_cons, List.cons_append, List.countP_cons_of_pos (p := fun t : Tok => decide (t.address = a)) (a := ⟨w, a, o, k⟩) (l := _) (by simp),
          List.countP_append] at this
        cases ws with
        | nil => rfl
        | cons v vs =>
          simp only [List.map_cons] at this
          rw [List.countP_cons_of_pos (by simp)] at this
          omega
      subst hws
      simp only [List.map_nil, List.foldl_nil]
      rw [ih _ (by rw [e2, h]; rfl) hu', e1, if_pos hm]
      have e3 : a + 1 + B = a + B + 1 := by omega
      rw [e3, List.append_assoc, ← Nat.add_assoc O o k]
    · obtain ⟨e1, e2⟩ := token_no (keep := false) (O := O) (B := B) (st := st) (t := ⟨w, a, o, k⟩) (Or.inl hm)
      obtain ⟨f1, f2⟩ := fold_same (keep := false) (O := O) (B := B) (a := a)
        (ws.map fun w => (⟨w, a, o, k⟩ : Tok)) (Session.token false O B st ⟨w, a, o, k⟩)
        (by intro t ht; obtain ⟨_, _, rfl⟩ := List.mem_map.mp ht; rfl) (Or.inl hm)
      rw [ih _ (by rw [f2, e2, h]) hu', f1, e1, if_neg hm]
      have e3 : a + 1 + B = a + B + 1 := by omega
      rw [e3, List.nil_append, ← Nat.add_assoc O o k]

/-- which records these are -/
theorem recs_eq : ∀ (l : List Item) (a o : Nat), (recs l a o).map (fun r => (r.pq, r.start)) =
    ((List.range (count l)).filter fun n => (a + n) % 1024 = 0).map
      fun (n : Nat) => (((a + n : Nat) : Int), ((o + skipOf l n : Nat) : Int))
  | [], a, o => by simp [recs, count]
  | (k, []) :: r, a, o => by
    rw [recs, recs_eq r a (o + k)]
    simp only [count, skipOf, Nat.add_assoc]
  | (k, w :: ws) :: r, a, o => by
    rw [recs, List.map_append, recs_eq r (a + 1) (o + k)]
    simp only [count]
    rw [List.range_succ_eq_map, List.filter_cons, List.filter_map]
    have e : ((List.range (count r)).filter fun n => decide ((a + 1 + n) % 1024 = 0)) =
        (List.range (count r)).filter ((fun n => decide ((a + n) % 1024 = 0)) ∘ Nat.succ) := by
      apply List.filter_congr
      intro n _
      have : a + 1 + n = a + (n + 1) := by omega
      simp only [Function.comp, Nat.succ_eq_add_one, this]
    rw [e]
    have e2 : ∀ L : List Nat, (L.map fun (n : Nat) => (((a + 1 + n : Nat) : Int), ((o + k + skipOf r n : Nat) : Int))) =
        (L.map Nat.succ).map fun (n : Nat) => (((a + n : Nat) : Int), ((o + skipOf ((k, w :: ws) :: r) n : Nat) : Int)) := by
      intro L
      rw [List.map_map]
      apply List.map_congr_left
      intro n _
      simp only [Function.comp, skipOf, Nat.succ_eq_add_one]
      rw [if_neg (by omega)]
      have : ((n + 1 : Nat) : Int) - 1 = n := by omega
      rw [this]
      congr 1
      · congr 1; omega
      · congr 1; omega
    rw [e2]
    by_cases hm : a % 1024 = 0
    · rw [if_pos hm, if_pos (by simpa using hm)]
      simp [skipOf]
    · rw [if_neg hm, if_neg (by simpa using hm)]
      simp

end Verif.SimpleText
