import Verif.Names.Model
namespace Verif.Names

/-- exactly `w` digits -/
def fixed : Nat → Nat → List Char
  | 0, _ => []
  | w + 1, n => fixed w (n / 10) ++ [Char.ofNat (48 + n % 10)]

theorem fixed_length (w n : Nat) : (fixed w n).length = w := by
  induction w generalizing n with
  | zero => rfl
  | succ w ih => simp [fixed, ih]

theorem fixed_zero (w : Nat) : fixed w 0 = List.replicate w '0' := by
  induction w with
  | zero => rfl
  | succ w ih =>
    rw [fixed, show 0 / 10 = 0 from rfl, ih, List.replicate_succ']

theorem decimal_fixed (n : Nat) : ∀ w, n < 10 ^ w → (decimal n).length ≤ w ∨ w = 0 := by
  induction n using Nat.strongRecOn with
  | _ n ih =>
    intro w hw
    by_cases h0 : w = 0
    · exact .inr h0
    · left
      rw [decimal]
      split
      · simp; omega
      · obtain ⟨w, rfl⟩ : ∃ v, w = v + 1 := ⟨w - 1, by omega⟩
        rw [Nat.pow_succ] at hw
        have := ih (n / 10) (by omega) w (by omega)
        rcases this with h | h
        · simp; omega
        · subst h; omega

theorem pad_fixed (n : Nat) : ∀ w, n < 10 ^ w → 0 < w →
    List.replicate (w - (decimal n).length) '0' ++ decimal n = fixed w n := by
  induction n using Nat.strongRecOn with
  | _ n ih =>
    intro w hw h0
    obtain ⟨w, rfl⟩ : ∃ v, w = v + 1 := ⟨w - 1, by omega⟩
    rw [decimal, fixed]
    split
    · rename_i h
      rw [show n / 10 = 0 by omega, fixed_zero, show n % 10 = n by omega]
      simp
    · rename_i h
      rw [Nat.pow_succ] at hw
      by_cases hw0 : w = 0
      · subst hw0; omega
      · have := ih (n / 10) (by omega) w (by omega) (by omega)
        have hl := (decimal_fixed (n / 10) w (by omega)).resolve_right hw0
        rw [← List.append_assoc, ← this]
        simp

theorem seq2str_fixed {n : Nat} (h : n < 10 ^ 20) : seq2str n = fixed 20 n := pad_fixed n 20 h (by omega)

theorem digit_ok : ∀ d : Fin 10, isDigit (Char.ofNat (48 + d)) = true ∧ (Char.ofNat (48 + d.val)).toNat = 48 + d.val ∧
    Char.ofNat (48 + d) ≠ '.' := by decide

theorem digit_ok' (n : Nat) : isDigit (Char.ofNat (48 + n % 10)) = true ∧ (Char.ofNat (48 + n % 10)).toNat = 48 + n % 10 ∧
    Char.ofNat (48 + n % 10) ≠ '.' := digit_ok ⟨n % 10, by omega⟩

theorem fixed_digits (w n : Nat) : ∀ c ∈ fixed w n, isDigit c = true ∧ c ≠ '.' := by
  induction w generalizing n with
  | zero => intro c hc; cases hc
  | succ w ih =>
    intro c hc
    rw [fixed, List.mem_append] at hc
    rcases hc with hc | hc
    · exact ih _ c hc
    · simp at hc; subst hc
      exact ⟨(digit_ok' n).1, (digit_ok' n).2.2⟩

theorem fixed_value (w n : Nat) (h : n < 10 ^ w) : (fixed w n).foldl (fun w c => 10 * w + (c.toNat - 48)) 0 = n := by
  induction w generalizing n with
  | zero => simp at h; subst h; rfl
  | succ w ih =>
    rw [Nat.pow_succ] at h
    rw [fixed, List.foldl_append, ih _ (by omega)]
    simp only [List.foldl_cons, List.foldl_nil]
    rw [(digit_ok' n).2.1]
    omega

theorem takeWhile_dot {a b : List Char} (h : ∀ c ∈ a, c ≠ '.') :
    (a ++ '.' :: b).takeWhile (· ≠ '.') = a ∧ (a ++ '.' :: b).dropWhile (· ≠ '.') = '.' :: b := by
  induction a with
  | nil => simp
  | cons c a ih =>
    have := h c (by simp)
    have ih := ih fun x hx => h x (by simp [hx])
    simp_all

theorem seq_facts {n : Nat} (h : n < 2 ^ 63) : allDigits (seq2str n) = true ∧ stoll (seq2str n) = some n ∧
    ∀ c ∈ seq2str n, c ≠ '.' := by
  have h' : n < 10 ^ 20 := by omega
  rw [seq2str_fixed h']
  refine ⟨?_, ?_, fun c hc => (fixed_digits 20 n c hc).2⟩
  · simp only [allDigits, Bool.and_eq_true, List.all_eq_true]
    refine ⟨?_, fun c hc => (fixed_digits 20 n c hc).1⟩
    have := fixed_length 20 n
    cases hf : fixed 20 n with
    | nil => rw [hf] at this; cases this
    | cons => rfl
  · unfold stoll
    simp only [fixed_value 20 n h', h, if_true]

theorem parseRange_name {pre : List Char} {lo hi : Nat} (h1 : lo < 2 ^ 63) (h2 : hi < 2 ^ 63) :
    parseRange (shardName pre lo hi) pre = some (lo, hi) := by
  obtain ⟨a1, a2, a3⟩ := seq_facts h1
  obtain ⟨b1, b2, b3⟩ := seq_facts h2
  have e : shardName pre lo hi = (pre ++ ['.']) ++ (seq2str lo ++ '.' :: seq2str hi) := by simp [shardName]
  have td := takeWhile_dot (b := seq2str hi) a3
  unfold parseRange
  dsimp only
  rw [e, List.take_left' rfl, if_neg (by simp), List.drop_left' rfl, td.1, td.2]
  simp [a1, a2, b1, b2]

/-- what an accepted name looks like -/
theorem parseRange_some {name pre : List Char} {lo hi : Nat} (h : parseRange name pre = some (lo, hi)) :
    ∃ a b, name = pre ++ ['.'] ++ a ++ ['.'] ++ b ∧ allDigits a = true ∧ allDigits b = true ∧
      stoll a = some lo ∧ stoll b = some hi := by
  unfold parseRange at h
  dsimp only at h
  split at h
  · cases h
  · rename_i ht
    have ht : name.take (pre ++ ['.']).length = pre ++ ['.'] := Classical.not_not.1 ht
    split at h
    · cases h
    · rename_i c e hd
      split at h
      · rename_i hdig
        rw [Bool.and_eq_true] at hdig
        split at h
        · rename_i a b ha hb
          cases h
          refine ⟨_, _, ?_, hdig.1, hdig.2, ha, hb⟩
          have hc : c = '.' := by
            have := List.head?_dropWhile_not (p := fun x => decide (x ≠ '.')) (l := name.drop (pre ++ ['.']).length)
            rw [hd] at this
            simpa using this
          have : name = (pre ++ ['.']) ++ name.drop (pre ++ ['.']).length := by
            conv => lhs; rw [← List.take_append_drop (pre ++ ['.']).length name, ht]
          conv => lhs; rw [this, ← List.takeWhile_append_dropWhile (p := fun x => decide (x ≠ '.')) (l := name.drop (pre ++ ['.']).length), hd, hc]
          simp
        · cases h
      · cases h

/-! ### order -/

theorem lt_append_same {a b x y : List Char} (hl : a.length = b.length) :
    a ++ x < b ++ y ↔ a < b ∨ (a = b ∧ x < y) := by
  induction a generalizing b with
  | nil =>
    cases b with
    | nil => simp
    | cons => cases hl
  | cons c a ih =>
    cases b with
    | nil => cases hl
    | cons d b =>
      simp only [List.cons_append, List.cons_lt_cons_iff]
      rw [ih (by simpa using hl)]
      constructor
      · rintro (h | ⟨rfl, h | ⟨rfl, h⟩⟩)
        · exact .inl (.inl h)
        · exact .inl (.inr ⟨rfl, h⟩)
        · exact .inr ⟨rfl, h⟩
      · rintro ((h | ⟨rfl, h⟩) | ⟨h, h'⟩)
        · exact .inl h
        · exact .inr ⟨rfl, .inl h⟩
        · cases h; exact .inr ⟨rfl, .inr ⟨rfl, h'⟩⟩

theorem digit_lt : ∀ a b : Fin 10, Char.ofNat (48 + a.val) < Char.ofNat (48 + b.val) ↔ a < b := by decide

theorem fixed_inj (w : Nat) {n m : Nat} (hn : n < 10 ^ w) (hm : m < 10 ^ w) (h : fixed w n = fixed w m) : n = m := by
  rw [← fixed_value w n hn, h, fixed_value w m hm]

theorem fixed_lt (w : Nat) {n m : Nat} (hn : n < 10 ^ w) (hm : m < 10 ^ w) : fixed w n < fixed w m ↔ n < m := by
  induction w generalizing n m with
  | zero => simp at hn hm; subst hn hm; simp
  | succ w ih =>
    rw [Nat.pow_succ] at hn hm
    rw [fixed, fixed, lt_append_same (by rw [fixed_length, fixed_length]), ih (by omega) (by omega)]
    have hd := digit_lt ⟨n % 10, by omega⟩ ⟨m % 10, by omega⟩
    constructor
    · rintro (h | ⟨h1, h2⟩)
      · omega
      · have e := fixed_inj w (by omega) (by omega) h1
        rw [List.cons_lt_cons_iff] at h2
        rcases h2 with h2 | ⟨_, h2⟩
        · have := hd.1 h2
          simp only [Fin.lt_def] at this
          omega
        · exact absurd h2 (List.not_lt_nil _)
    · intro h
      by_cases hq : n / 10 < m / 10
      · exact .inl hq
      · right
        have e : n / 10 = m / 10 := by omega
        refine ⟨by rw [e], ?_⟩
        rw [List.cons_lt_cons_iff]
        exact .inl (hd.2 (by simp only [Fin.lt_def]; omega))

end Verif.Names
