import Verif.Unicode.Model
import Verif.Text.WordsProof
/-
  Lemmas about the tables of the UTF-8 tokenizer.
-/
namespace Verif.Unicode
open Verif.Text

theorem actionAt_append : ∀ (l r : List (Nat × Nat)) (c : Nat),
    actionAt (l ++ r) c = if c < written l then actionAt l c else actionAt r (c - written l)
  | [], r, c => by simp [written]
  | (n, a) :: l, r, c => by
    have hw : written ((n, a) :: l) = n + written l := rfl
    rw [List.cons_append, actionAt, actionAt_append l r, hw, actionAt]
    by_cases h : c < n
    · rw [if_pos h, if_pos (by omega), if_pos h]
    · rw [if_neg h]
      by_cases h' : c - n < written l
      · rw [if_pos h', if_pos (by omega), if_neg h]
      · rw [if_neg h', if_neg (by omega)]
        congr 1; omega

theorem actionAt_isSome : ∀ (l : List (Nat × Nat)) (c : Nat), (actionAt l c).isSome ↔ c < written l
  | [], c => by simp [actionAt, written]
  | (n, a) :: l, c => by
    have hw : written ((n, a) :: l) = n + written l := rfl
    rw [actionAt, hw]
    split
    · simp; omega
    · rw [actionAt_isSome l]; omega

theorem actionAt_mem : ∀ {l : List (Nat × Nat)} {c a : Nat}, actionAt l c = some a → ∃ p ∈ l, p.2 = a
  | [], c, a, h => by cases h
  | (n, b) :: l, c, a, h => by
    rw [actionAt] at h
    split at h
    · exact ⟨(n, b), List.mem_cons_self .., Option.some.inj h⟩
    · obtain ⟨p, hp, e⟩ := actionAt_mem h
      exact ⟨p, List.mem_cons_of_mem _ hp, e⟩

/-- a look-up by blocks of runs -/
def find : List (Nat × List (Nat × Nat)) → Nat → Option Nat
  | [], _ => none
  | (m, l) :: bs, c => if c < m then actionAt l c else find bs (c - m)

theorem find_eq : ∀ {bs : List (Nat × List (Nat × Nat))}, (∀ b ∈ bs, written b.2 = b.1) → ∀ c,
    find bs c = actionAt (bs.flatMap (·.2)) c
  | [], _, c => rfl
  | (m, l) :: bs, h, c => by
    have hm : written l = m := h (m, l) (List.mem_cons_self ..)
    rw [find, List.flatMap_cons, actionAt_append, hm, find_eq fun b hb => h b (List.mem_cons_of_mem _ hb)]

/-- the table, in blocks -/
def blocks : List (Nat × List (Nat × Nat)) := [
  (286, compressedActions0), (64, compressedActions1), (78, compressedActions2), (80, compressedActions3),
  (69, compressedActions4), (413, compressedActions5), (162, compressedActions6), (67, compressedActions7),
  (61, compressedActions8), (192, compressedActions9), (979, compressedActions10), (227, compressedActions11),
  (270, compressedActions12), (252, compressedActions13), (341, compressedActions14), (451, compressedActions15),
  (1016, compressedActions16), (1509, compressedActions17), (1174, compressedActions18), (60, compressedActions19),
  (60, compressedActions20), (66, compressedActions21), (75, compressedActions22), (354, compressedActions23),
  (348, compressedActions24), (2717, compressedActions25), (73, compressedActions26), (115, compressedActions27),
  (890, compressedActions28), (30130, compressedActions29), (196, compressedActions30), (71, compressedActions31),
  (75, compressedActions32), (439, compressedActions33), (20920, compressedActions34), (1295, compressedActions35),
  (1364, compressedActions36), (1164, compressedActions37), (1600, compressedActions38), (746, compressedActions39),
  (1391, compressedActions40), (1182, compressedActions41), (19890, compressedActions42), (20880, compressedActions43),
  (6278, compressedActions44), (2810, compressedActions45), (3617, compressedActions46), (138, compressedActions47),
  (3026, compressedActions48), (787843, compressedActions49), (1179648, compressedActions50)]

theorem blocks_ok : ∀ b ∈ blocks, written b.2 = b.1 := by decide +kernel

theorem blocks_flat : blocks.flatMap (·.2) = compressedActions := by
  simp only [blocks, List.flatMap_cons, List.flatMap_nil, List.append_nil]
  rfl

theorem find_blocks (c : Nat) : find blocks c = actionAt compressedActions c := by
  rw [find_eq blocks_ok, blocks_flat]

/-- the action of the table -/
theorem written_actions : written compressedActions = utf8Max := by decide +kernel

theorem actions_le : ∀ p ∈ compressedActions, p.2 ≤ 4 := by decide +kernel

/-- the code points, from `c` on, with an action -/
def points (a : Nat) : Nat → List (Nat × Nat) → List Nat
  | _, [] => []
  | c, (n, b) :: l => if b = a then (List.range n).map (c + ·) ++ points a (c + n) l else points a (c + n) l

theorem mem_points (a : Nat) : ∀ {l : List (Nat × Nat)} {c i : Nat}, actionAt l i = some a → c + i ∈ points a c l
  | [], c, i, h => by cases h
  | (n, b) :: l, c, i, h => by
    rw [actionAt] at h
    rw [points]
    by_cases hi : i < n
    · rw [if_pos hi] at h
      rw [if_pos (Option.some.inj h)]
      exact List.mem_append_left _ (List.mem_map.2 ⟨i, List.mem_range.2 hi, rfl⟩)
    · rw [if_neg hi] at h
      have := mem_points a (c := c + n) h
      rw [show c + n + (i - n) = c + i by omega] at this
      split
      · exact List.mem_append_right _ this
      · exact this

/-- every code point of the first list has an entry in the second, and what it is folded to is part of words as it is -/
def covers : List Nat → List (Nat × Nat) → Bool
  | [], _ => true
  | _ :: _, [] => false
  | p :: ps, (s, d) :: fs => if p = s then find blocks d == some 1 && covers ps fs else covers (p :: ps) fs

theorem covers_spec : ∀ {fs : List (Nat × Nat)} {ps : List Nat}, covers ps fs = true →
    ∀ p ∈ ps, ∃ d, (p, d) ∈ fs ∧ find blocks d = some 1
  | _, [], _, p, hp => by cases hp
  | [], q :: ps, h, p, hp => by cases h
  | (s, d) :: fs, q :: ps, h, p, hp => by
    rw [covers] at h
    split at h
    · rename_i e
      rw [Bool.and_eq_true, beq_iff_eq] at h
      rcases List.mem_cons.1 hp with hp | hp
      · exact ⟨d, by rw [hp, e]; exact List.mem_cons_self .., h.1⟩
      · obtain ⟨d', h1, h2⟩ := covers_spec h.2 p hp
        exact ⟨d', List.mem_cons_of_mem _ h1, h2⟩
    · obtain ⟨d', h1, h2⟩ := covers_spec h p hp
      exact ⟨d', List.mem_cons_of_mem _ h1, h2⟩

theorem folds_cover : covers (points 2 0 compressedActions) compressedFolds = true := by decide +kernel

theorem folds_sources : ∀ p ∈ compressedFolds, find blocks p.1 = some 2 ∨ (0x24B6 ≤ p.1 ∧ p.1 ≤ 0x24CF) := by decide +kernel

/-- sources go up -/
def rising : Nat → List (Nat × Nat) → Bool
  | _, [] => true
  | m, (s, _) :: l => decide (m < s) && rising s l

theorem rising_spec : ∀ {l : List (Nat × Nat)} {m : Nat}, rising m l = true → (∀ p ∈ l, m < p.1) ∧ l.Pairwise fun a b => a.1 < b.1
  | [], _, _ => ⟨by simp, List.Pairwise.nil⟩
  | (s, d) :: l, m, h => by
    rw [rising, Bool.and_eq_true, decide_eq_true_eq] at h
    obtain ⟨h1, h2⟩ := rising_spec h.2
    refine ⟨fun p hp => ?_, List.Pairwise.cons h1 h2⟩
    rcases List.mem_cons.1 hp with e | hp
    · rw [e]; exact h.1
    · exact Nat.lt_trans h.1 (h1 p hp)

theorem folds_rising : compressedFolds.Pairwise fun a b => a.1 < b.1 :=
  (rising_spec (m := 0) (by decide +kernel)).2

theorem folds_small : ∀ p ∈ compressedFolds, p.2 < 0x200000 := by decide +kernel

/-! ### reading what is folded -/

/-- the byte continues a sequence -/
def continues (b : UInt8) : Bool := b &&& 0xC0 == 0x80

theorem continues_of {n : Nat} (h : n < 64) : continues (UInt8.ofNat (n + 0x80)) = true :=
  (by decide +kernel : ∀ n : Fin 64, continues (UInt8.ofNat (n.val + 0x80)) = true) ⟨n, h⟩

theorem starts_of {n : Nat} (h : n < 256) (h' : n < 128 ∨ 192 ≤ n) : continues (UInt8.ofNat n) = false :=
  (by decide +kernel : ∀ n : Fin 256, n.val < 128 ∨ 192 ≤ n.val → continues (UInt8.ofNat n.val) = false) ⟨n, h⟩ h'

theorem encode_parts {d : Nat} (h : d < 0x200000) : ∃ b t, encode d = b :: t ∧ continues b = false ∧ ∀ x ∈ t, continues x = true := by
  unfold encode
  split
  · exact ⟨_, _, rfl, starts_of (by omega) (by omega), by simp⟩
  · split
    · refine ⟨_, _, rfl, starts_of (by omega) (by omega), ?_⟩
      simp only [List.mem_singleton, forall_eq]
      exact continues_of (by omega)
    · split
      · refine ⟨_, _, rfl, starts_of (by omega) (by omega), ?_⟩
        simp only [List.mem_cons, List.not_mem_nil, or_false, forall_eq_or_imp, forall_eq]
        exact ⟨continues_of (by omega), continues_of (by omega)⟩
      · split
        · refine ⟨_, _, rfl, starts_of (by omega) (by omega), ?_⟩
          simp only [List.mem_cons, List.not_mem_nil, or_false, forall_eq_or_imp, forall_eq]
          exact ⟨continues_of (by omega), continues_of (by omega), continues_of (by omega)⟩
        · omega

theorem readFold_encode {d : Nat} (h : d < 0x200000) {rest : Text} (hr : ∀ b ∈ rest.head?, continues b = false) :
    readFold (encode d ++ rest) = encode d := by
  obtain ⟨b, t, e, -, h2⟩ := encode_parts h
  rw [e, List.cons_append, readFold]
  congr 1
  show (t ++ rest).takeWhile continues = t
  rw [List.takeWhile_append_of_pos h2]
  cases rest with
  | nil => simp
  | cons x rest =>
    rw [List.takeWhile_cons_of_neg (by simp [hr x (by simp)])]
    simp

theorem foldTables_bytes : ∀ (l : List (Nat × Nat)) (acc : Text) (off : List (Nat × Nat)),
    (foldTables l acc off).1 = acc ++ l.flatMap fun p => encode p.2
  | [], acc, off => by simp [foldTables]
  | (s, d) :: l, acc, off => by
    rw [foldTables, foldTables_bytes l]; simp

theorem foldTables_other : ∀ (l : List (Nat × Nat)) (acc : Text) (off : List (Nat × Nat)) {c : Nat}, (∀ p ∈ l, p.1 ≠ c) →
    (foldTables l acc off).2.lookup c = off.lookup c
  | [], acc, off, c, _ => rfl
  | (s, d) :: l, acc, off, c, h => by
    rw [foldTables, foldTables_other l _ _ fun p hp => h p (List.mem_cons_of_mem _ hp)]
    have hs : s ≠ c := h (s, d) (List.mem_cons_self ..)
    rw [List.lookup_cons, show (c == s) = false by simpa using fun e : c = s => hs e.symm]

theorem foldTables_offset : ∀ (l r : List (Nat × Nat)) (acc : Text) (off : List (Nat × Nat)) {c d : Nat}, (∀ p ∈ r, p.1 ≠ c) →
    (foldTables (l ++ (c, d) :: r) acc off).2.lookup c = some (acc ++ l.flatMap fun p => encode p.2).length
  | [], r, acc, off, c, d, h => by
    rw [List.nil_append, foldTables, foldTables_other r _ _ h, List.lookup_cons, beq_self_eq_true]
    simp
  | (s, e) :: l, r, acc, off, c, d, h => by
    rw [List.cons_append, foldTables, foldTables_offset l r _ _ h]; simp

/-- what is stored for a code point that is folded is what it is folded to -/
theorem read_offset {fs : List (Nat × Nat)} (hs : fs.Pairwise fun a b => a.1 < b.1) (hd : ∀ p ∈ fs, p.2 < 0x200000) {c d : Nat}
    (h : (c, d) ∈ fs) : readFold ((foldBytes fs).drop (offsetOf fs c)) = encode d := by
  obtain ⟨l, r, rfl⟩ := List.append_of_mem h
  have hr : ∀ p ∈ r, p.1 ≠ c := fun p hp => by
    have := List.rel_of_pairwise_cons (List.pairwise_append.1 hs).2.1 hp
    simp only at this
    omega
  unfold foldBytes offsetOf
  rw [foldTables_offset l r _ _ hr, foldTables_bytes, Option.getD_some, List.nil_append, List.nil_append, List.flatMap_append,
    List.flatMap_cons, List.append_assoc, List.drop_left, List.append_assoc]
  refine readFold_encode (hd (c, d) (by simp)) ?_
  cases r with
  | nil => simp; decide
  | cons p r =>
    obtain ⟨b, t, e, h1, -⟩ := encode_parts (hd p (by simp))
    rw [List.flatMap_cons, e]
    simpa using h1

/-! ### the table -/

theorem table_of {c a : Nat} (h : actionAt compressedActions c = some a) : table c = (store compressedFolds c a).getD .non := by
  unfold table entry; rw [h]; rfl

theorem table_find {c a : Nat} (h : find blocks c = some a) : table c = (store compressedFolds c a).getD .non :=
  table_of ((find_blocks c).symm.trans h)

theorem table_folds {c d : Nat} (h : (c, d) ∈ compressedFolds) (h2 : find blocks c = some 2) : table c = .fold (encode d) := by
  rw [table_find h2]
  show Action.fold _ = _
  rw [read_offset folds_rising folds_small h]

/-- what is folded -/
theorem table_fold {c : Nat} {b : Text} (h : table c = .fold b) :
    ∃ d, (c, d) ∈ compressedFolds ∧ b = encode d ∧ table d = .tok ∧ find blocks c = some 2 := by
  unfold table entry at h
  cases ha : actionAt compressedActions c with
  | none => rw [ha] at h; cases h
  | some a =>
    rw [ha] at h
    have h2 : a = 2 := by
      have h' : (store compressedFolds c a).getD .non = .fold b := h
      unfold store at h'
      split at h' <;> first | rfl | cases h'
    subst h2
    have hp := mem_points 2 (c := 0) ha
    rw [Nat.zero_add] at hp
    obtain ⟨d, h1, h2⟩ := covers_spec folds_cover c hp
    have hb := table_folds h1 ((find_blocks c).trans ha)
    rw [table_of ha] at hb
    have h' : (store compressedFolds c 2).getD .non = .fold b := h
    rw [h'] at hb
    refine ⟨d, h1, Action.fold.inj hb, ?_, (find_blocks c).trans ha⟩
    rw [table_find h2]; rfl

/-- all code points of a range have an action -/
def constOn (a : Nat) : Nat → Nat → List (Nat × Nat) → Bool
  | lo, hi, [] => decide (hi ≤ lo)
  | lo, hi, (n, b) :: l =>
    if lo < n then b == a && (decide (hi ≤ n) || constOn a 0 (hi - n) l) else constOn a (lo - n) (hi - n) l

theorem constOn_spec {a : Nat} : ∀ {l : List (Nat × Nat)} {lo hi : Nat}, constOn a lo hi l = true → ∀ c, lo ≤ c → c < hi → actionAt l c = some a
  | [], lo, hi, h, c, h1, h2 => by
    rw [constOn, decide_eq_true_eq] at h; omega
  | (n, b) :: l, lo, hi, h, c, h1, h2 => by
    rw [constOn] at h
    rw [actionAt]
    split at h
    · rw [Bool.and_eq_true, Bool.or_eq_true, beq_iff_eq, decide_eq_true_eq] at h
      by_cases hc : c < n
      · rw [if_pos hc, h.1]
      · rw [if_neg hc]
        rcases h.2 with h | h
        · omega
        · exact constOn_spec h (c - n) (by omega) (by omega)
    · rw [if_neg (by omega)]
      exact constOn_spec h (c - n) (by omega) (by omega)

theorem table_const {a lo hi : Nat} (h : constOn a lo hi compressedActions = true) {c : Nat} (h1 : lo ≤ c) (h2 : c < hi) :
    table c = (store compressedFolds c a).getD .non := table_of (constOn_spec h c h1 h2)

end Verif.Unicode
