import Verif.Text.Utf8
import Verif.Text.Scan
/-
  The UTF-8 tokenizer follows a scanner.
-/
namespace Verif.Text

theorem decode_pos (s : Text) : 1 ≤ (decode s).2 := by
  unfold decode
  simp only
  repeat' split
  all_goals simp

theorem decode_le (c : UInt8) (s : Text) : (decode (c :: s)).2 ≤ s.length + 1 := by
  unfold decode
  simp only [List.length_cons]
  repeat' split
  all_goals simp <;> omega

variable (act : Nat → Action)

/-- bytes and term of the run of word characters at the head of `s` -/
def run : Nat → Text → Nat × Text
  | 0, _ => (0, [])
  | _ + 1, [] => (0, [])
  | n + 1, c :: cs =>
    let k := (decode (c :: cs)).2
    let r := run n ((c :: cs).drop k)
    match act (decode (c :: cs)).1 with
    | .tok => (k + r.1, (c :: cs).take k ++ r.2)
    | .fold b => (k + r.1, b ++ r.2)
    | _ => (0, [])

theorem run_more (n : Nat) : ∀ (s : Text) (m : Nat), s.length ≤ n → s.length ≤ m →
    run act n s = run act m s := by
  induction n with
  | zero =>
    intro s m hn hm
    have : s = [] := List.length_eq_zero_iff.mp (by omega)
    subst this; cases m <;> rfl
  | succ n ih =>
    intro s m hn hm
    cases s with
    | nil => cases m <;> rfl
    | cons c cs =>
      cases m with
      | zero => simp at hm
      | succ m =>
        simp only [run]
        have h1 := decode_pos (c :: cs)
        simp only [List.length_cons] at hn hm
        rw [ih ((c :: cs).drop (decode (c :: cs)).2) m] <;>
          simp only [List.length_drop, List.length_cons] <;> omega

/-- the run at the head of the whole of `s` -/
def runOf (s : Text) : Nat × Text := run act s.length s

theorem runOf_cons (c : UInt8) (cs : Text) : runOf act (c :: cs) =
    match act (decode (c :: cs)).1 with
    | .tok => ((decode (c :: cs)).2 + (runOf act ((c :: cs).drop (decode (c :: cs)).2)).1,
        (c :: cs).take (decode (c :: cs)).2 ++ (runOf act ((c :: cs).drop (decode (c :: cs)).2)).2)
    | .fold b => ((decode (c :: cs)).2 + (runOf act ((c :: cs).drop (decode (c :: cs)).2)).1,
        b ++ (runOf act ((c :: cs).drop (decode (c :: cs)).2)).2)
    | _ => (0, []) := by
  have h1 := decode_pos (c :: cs)
  have e : run act cs.length ((c :: cs).drop (decode (c :: cs)).2) =
      runOf act ((c :: cs).drop (decode (c :: cs)).2) := by
    unfold runOf
    apply run_more <;> simp only [List.length_drop, List.length_cons] <;> omega
  rw [← e]
  rfl

theorem run_le (n : Nat) : ∀ s : Text, (run act n s).1 ≤ s.length := by
  induction n with
  | zero => intro s; simp [run]
  | succ n ih =>
    intro s
    cases s with
    | nil => simp [run]
    | cons c cs =>
      have h1 := decode_le c cs
      have := ih ((c :: cs).drop (decode (c :: cs)).2)
      simp only [List.length_drop, List.length_cons] at this
      simp only [run, List.length_cons]
      split <;> simp only <;> omega

def utf8Item (s : Text) : Item :=
  match act (decode s).1 with
  | .non => ((decode s).2, [])
  | .uni => ((decode s).2, [s.take (decode s).2])
  | _ => ((runOf act s).1, [(runOf act s).2])

theorem utf8Item_pos (c : UInt8) (s : Text) : 1 ≤ (utf8Item act (c :: s)).1 := by
  have h1 := decode_pos (c :: s)
  unfold utf8Item
  have hr := runOf_cons act c s
  cases h : act (decode (c :: s)).1 with
  | non => exact h1
  | uni => exact h1
  | tok => simp only [h] at hr; simp only [hr]; omega
  | fold b => simp only [h] at hr; simp only [hr]; omega

theorem utf8Item_le (c : UInt8) (s : Text) : (utf8Item act (c :: s)).1 ≤ s.length + 1 := by
  have h1 := decode_le c s
  have h2 : (runOf act (c :: s)).1 ≤ s.length + 1 := run_le act _ _
  unfold utf8Item
  split
  · exact h1
  · exact h1
  · exact h2

def utf8Scan : Scanner := ⟨utf8Item act, utf8Item_pos act, utf8Item_le act⟩

/-- items of the whole of `s` -/
def itemsOf (s : Text) : List Item := (utf8Scan act).items s.length s

theorem itemsOf_cons (c : UInt8) (cs : Text) : itemsOf act (c :: cs) =
    utf8Item act (c :: cs) :: itemsOf act ((c :: cs).drop (utf8Item act (c :: cs)).1) := by
  have h1 := utf8Item_pos act c cs
  have e : (utf8Scan act).items cs.length ((c :: cs).drop (utf8Item act (c :: cs)).1) =
      itemsOf act ((c :: cs).drop (utf8Item act (c :: cs)).1) := by
    unfold itemsOf
    apply items_more <;> simp only [List.length_drop, List.length_cons] <;> omega
  rw [← e]
  rfl

theorem itemsOf_run {c : UInt8} {cs : Text} (h : (∃ b, act (decode (c :: cs)).1 = .fold b) ∨
    act (decode (c :: cs)).1 = .tok) : itemsOf act (c :: cs) =
    ((runOf act (c :: cs)).1, [(runOf act (c :: cs)).2]) ::
      itemsOf act ((c :: cs).drop (runOf act (c :: cs)).1) := by
  have e : utf8Item act (c :: cs) = ((runOf act (c :: cs)).1, [(runOf act (c :: cs)).2]) := by
    unfold utf8Item
    rcases h with ⟨b, h⟩ | h <;> simp only [h]
  rw [itemsOf_cons, e]

theorem itemsOf_non {c : UInt8} {cs : Text} (h : act (decode (c :: cs)).1 = .non) :
    itemsOf act (c :: cs) =
    ((decode (c :: cs)).2, []) :: itemsOf act ((c :: cs).drop (decode (c :: cs)).2) := by
  have e : utf8Item act (c :: cs) = ((decode (c :: cs)).2, []) := by
    unfold utf8Item; simp only [h]
  rw [itemsOf_cons, e]

theorem itemsOf_uni {c : UInt8} {cs : Text} (h : act (decode (c :: cs)).1 = .uni) :
    itemsOf act (c :: cs) =
    ((decode (c :: cs)).2, [(c :: cs).take (decode (c :: cs)).2]) ::
      itemsOf act ((c :: cs).drop (decode (c :: cs)).2) := by
  have e : utf8Item act (c :: cs) =
      ((decode (c :: cs)).2, [(c :: cs).take (decode (c :: cs)).2]) := by
    unfold utf8Item; simp only [h]
  rw [itemsOf_cons, e]

theorem runOf_stop {c : UInt8} {cs : Text} (h : act (decode (c :: cs)).1 = .non ∨
    act (decode (c :: cs)).1 = .uni) : runOf act (c :: cs) = (0, []) := by
  rw [runOf_cons]
  rcases h with h | h <;> simp only [h]

theorem runOf_tok {c : UInt8} {cs : Text} (h : act (decode (c :: cs)).1 = .tok) :
    runOf act (c :: cs) =
    ((decode (c :: cs)).2 + (runOf act ((c :: cs).drop (decode (c :: cs)).2)).1,
      (c :: cs).take (decode (c :: cs)).2 ++ (runOf act ((c :: cs).drop (decode (c :: cs)).2)).2) := by
  rw [runOf_cons]; simp only [h]

theorem runOf_fold {c : UInt8} {cs b : Text} (h : act (decode (c :: cs)).1 = .fold b) :
    runOf act (c :: cs) =
    ((decode (c :: cs)).2 + (runOf act ((c :: cs).drop (decode (c :: cs)).2)).1,
      b ++ (runOf act ((c :: cs).drop (decode (c :: cs)).2)).2) := by
  rw [runOf_cons]; simp only [h]

theorem drop_fits {n : Nat} (c : UInt8) (cs : Text) (h : (c :: cs).length < n + 1) :
    ((c :: cs).drop (decode (c :: cs)).2).length < n := by
  have h1 := decode_pos (c :: cs)
  simp only [List.length_drop, List.length_cons] at h ⊢; omega

theorem utf8Tokens_eq (n : Nat) : ∀ s : Text, s.length < n →
    (∀ a o, utf8Tokens act n s none a o = tokensOf (itemsOf act s) a o) ∧
    (∀ tk st a o, st ≤ o → utf8Tokens act n s (some (tk, st)) a o =
      ⟨tk ++ (runOf act s).2, a, st, o + (runOf act s).1 - st⟩ ::
        tokensOf (itemsOf act (s.drop (runOf act s).1)) (a + 1) (o + (runOf act s).1)) := by
  induction n with
  | zero => intro s h; omega
  | succ n ih =>
    intro s h
    cases s with
    | nil =>
      refine ⟨fun a o => rfl, fun tk st a o _ => ?_⟩
      simp [utf8Tokens, runOf, run, itemsOf, Scanner.items, tokensOf]
    | cons c cs =>
      obtain ⟨ih1, ih2⟩ := ih _ (drop_fits c cs h)
      cases ha : act (decode (c :: cs)).1 with
      | non =>
        refine ⟨fun a o => ?_, fun tk st a o _ => ?_⟩
        · rw [itemsOf_non act ha]
          simp only [utf8Tokens, ha, ih1, tokensOf]
        · rw [runOf_stop act (Or.inl ha), List.drop_zero, itemsOf_non act ha]
          simp only [utf8Tokens, ha, ih1, tokensOf]
          simp
      | uni =>
        refine ⟨fun a o => ?_, fun tk st a o _ => ?_⟩
        · rw [itemsOf_uni act ha]
          simp only [utf8Tokens, ha, ih1, tokensOf]
          rfl
        · rw [runOf_stop act (Or.inr ha), List.drop_zero, itemsOf_uni act ha]
          simp only [utf8Tokens, ha, ih1, tokensOf]
          simp
      | tok =>
        refine ⟨fun a o => ?_, fun tk st a o hst => ?_⟩
        · rw [itemsOf_run act (Or.inr ha), runOf_tok act ha]
          simp only [utf8Tokens, ha, tokensOf]
          rw [ih2 _ _ _ _ (by omega), List.drop_drop]
          simp [Nat.add_assoc]
        · rw [runOf_tok act ha]
          simp only [utf8Tokens, ha]
          rw [ih2 _ _ _ _ (by omega), List.drop_drop]
          simp [Nat.add_assoc]
      | fold b =>
        refine ⟨fun a o => ?_, fun tk st a o hst => ?_⟩
        · rw [itemsOf_run act (Or.inl ⟨b, ha⟩), runOf_fold act ha]
          simp only [utf8Tokens, ha, tokensOf]
          rw [ih2 _ _ _ _ (by omega), List.drop_drop]
          simp [Nat.add_assoc]
        · rw [runOf_fold act ha]
          simp only [utf8Tokens, ha]
          rw [ih2 _ _ _ _ (by omega), List.drop_drop]
          simp [Nat.add_assoc]

theorem utf8Skip_eq (f : Nat) : ∀ s : Text, s.length < f →
    (∀ n, utf8Skip act f s false n = skipOf (itemsOf act s) n) ∧
    (∀ n, 0 < n → utf8Skip act f s true n =
      (runOf act s).1 + skipOf (itemsOf act (s.drop (runOf act s).1)) (n - 1)) := by
  induction f with
  | zero => intro s h; omega
  | succ f ih =>
    intro s h
    cases s with
    | nil =>
      refine ⟨fun n => rfl, fun n _ => ?_⟩
      simp [utf8Skip, runOf, run, itemsOf, Scanner.items, skipOf]
    | cons c cs =>
      obtain ⟨ih1, ih2⟩ := ih _ (drop_fits c cs h)
      cases ha : act (decode (c :: cs)).1 with
      | non =>
        refine ⟨fun n => ?_, fun n _ => ?_⟩
        · rw [itemsOf_non act ha]
          simp only [utf8Skip, ha, ih1, skipOf]
        · rw [runOf_stop act (Or.inl ha), List.drop_zero, itemsOf_non act ha]
          simp only [utf8Skip, ha, ih1, skipOf]
          simp
      | uni =>
        refine ⟨fun n => ?_, fun n _ => ?_⟩
        · rw [itemsOf_uni act ha]
          simp only [utf8Skip, ha, ih1, skipOf]
        · rw [runOf_stop act (Or.inr ha), List.drop_zero, itemsOf_uni act ha]
          simp only [utf8Skip, ha, ih1, skipOf]
          simp
      | tok =>
        refine ⟨fun n => ?_, fun n hn => ?_⟩
        · rw [itemsOf_run act (Or.inr ha), runOf_tok act ha]
          simp only [utf8Skip, ha, skipOf]
          split
          · rfl
          · rw [ih2 _ (by omega), List.drop_drop]
            omega
        · rw [runOf_tok act ha]
          simp only [utf8Skip, ha]
          rw [ih2 _ hn, List.drop_drop]
          omega
      | fold b =>
        refine ⟨fun n => ?_, fun n hn => ?_⟩
        · rw [itemsOf_run act (Or.inl ⟨b, ha⟩), runOf_fold act ha]
          simp only [utf8Skip, ha, skipOf]
          split
          · rfl
          · rw [ih2 _ (by omega), List.drop_drop]
            omega
        · rw [runOf_fold act ha]
          simp only [utf8Skip, ha]
          rw [ih2 _ hn, List.drop_drop]
          omega

theorem utf8Split_eq (n : Nat) : ∀ s : Text, s.length < n → (∀ b ∈ s, b ≠ 0) →
    utf8Split act n s none = splitOf (itemsOf act s) ∧
    (∀ tk, utf8Split act n s (some tk) =
      (tk ++ (runOf act s).2) :: splitOf (itemsOf act (s.drop (runOf act s).1))) := by
  induction n with
  | zero => intro s h; omega
  | succ n ih =>
    intro s h h0
    cases s with
    | nil =>
      refine ⟨rfl, fun tk => ?_⟩
      simp [utf8Split, runOf, run, itemsOf, Scanner.items, splitOf]
    | cons c cs =>
      have hc : ¬ c = 0 := h0 c (List.mem_cons_self ..)
      obtain ⟨ih1, ih2⟩ := ih _ (drop_fits c cs h) (fun b hb => h0 b (List.mem_of_mem_drop hb))
      cases ha : act (decode (c :: cs)).1 with
      | non =>
        refine ⟨?_, fun tk => ?_⟩
        · rw [itemsOf_non act ha]
          simp only [utf8Split, ha, ih1, splitOf, hc, if_false]
        · rw [runOf_stop act (Or.inl ha), List.drop_zero, itemsOf_non act ha]
          simp only [utf8Split, ha, ih1, splitOf, hc, if_false]
          simp
      | uni =>
        refine ⟨?_, fun tk => ?_⟩
        · rw [itemsOf_uni act ha]
          simp only [utf8Split, ha, ih1, splitOf, hc, if_false]
        · rw [runOf_stop act (Or.inr ha), List.drop_zero, itemsOf_uni act ha]
          simp only [utf8Split, ha, ih1, splitOf, hc, if_false]
          simp
      | tok =>
        refine ⟨?_, fun tk => ?_⟩
        · rw [itemsOf_run act (Or.inr ha), runOf_tok act ha]
          simp only [utf8Split, ha, splitOf, hc, if_false]
          rw [ih2, List.drop_drop]
        · rw [runOf_tok act ha]
          simp only [utf8Split, ha, hc, if_false]
          rw [ih2, List.drop_drop]
          simp
      | fold b =>
        refine ⟨?_, fun tk => ?_⟩
        · rw [itemsOf_run act (Or.inl ⟨b, ha⟩), runOf_fold act ha]
          simp only [utf8Split, ha, splitOf, hc, if_false]
          rw [ih2, List.drop_drop]
        · rw [runOf_fold act ha]
          simp only [utf8Split, ha, hc, if_false]
          rw [ih2, List.drop_drop]
          simp

theorem utf8_follows : Follows (utf8Scan act) (utf8 act) :=
  ⟨fun s => (utf8Tokens_eq act _ s (Nat.lt_succ_self _)).1 0 0,
   fun s n => (utf8Skip_eq act _ s (Nat.lt_succ_self _)).1 n⟩

theorem utf8_split {s : Text} (h : ∀ b ∈ s, b ≠ 0) :
    (utf8 act).split s = splitOf ((utf8Scan act).items s.length s) :=
  (utf8Split_eq act _ s (Nat.lt_succ_self _) h).1

end Verif.Text
