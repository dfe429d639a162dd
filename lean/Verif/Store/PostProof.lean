import Verif.Store.PostModel
/-
  The variable-byte coder restores its input.
-/
namespace Verif.Store

theorem encode1_ne (d : Nat) : encode1 d ≠ [] := by
  rw [encode1]; split <;> simp

theorem encode1_length : ∀ (k d : Nat), d < 128 ^ k → (encode1 d).length ≤ k ∨ d = 0 := by
  intro k
  induction k with
  | zero => intro d h; right; simp at h; exact h
  | succ k ih =>
    intro d h
    rw [encode1]
    split
    · left; simp
    · left
      have : d / 128 < 128 ^ k := by
        rw [Nat.div_lt_iff_lt_mul (by decide)]; rw [Nat.pow_succ] at h; exact h
      rcases ih _ this with h1 | h1
      · simp; exact h1
      · omega

theorem encode1_le9 {d : Nat} (h : d ≤ 9223372036854775807) : (encode1 d).length ≤ 9 := by
  rcases encode1_length 9 d (by omega) with h | rfl
  · exact h
  · rw [encode1]; simp

theorem decode1_encode1 : ∀ (d shift working : Nat) (rest : List UInt8),
    (∃ k, d < 128 ^ k ∧ shift + 7 * k ≤ 63) → shift ≤ 56 →
    decode1 shift working (encode1 d ++ rest) = some (working + d * 2 ^ shift, rest) := by
  intro d
  induction d using Nat.strongRecOn with
  | _ d ih =>
    intro shift working rest hk hs
    rw [encode1]
    split
    · rename_i h0
      have : (UInt8.ofNat (d % 128)).toNat = d := by simp; omega
      rw [List.singleton_append, decode1, if_neg (by omega), this, if_pos (by omega),
        Nat.mod_eq_of_lt (by omega)]
    · rename_i h0
      have h1 : (UInt8.ofNat (d % 128 + 128)).toNat = d % 128 + 128 := by simp; omega
      rw [List.cons_append, decode1, if_neg (by omega), h1, if_neg (by omega)]
      obtain ⟨k, h2, h3⟩ := hk
      match k, h2, h3 with
      | 0, h2, _ => simp at h2; omega
      | 1, h2, _ => simp at h2; omega
      | k + 2, h2, h3 =>
        rw [ih (d / 128) (by omega) (shift + 7) _ rest ⟨k + 1, ?_, by omega⟩ (by omega)]
        · congr 2
          have h4 : (d % 128 + 128) % 128 = d % 128 := by omega
          rw [h4, Nat.add_assoc]
          congr 1
          rw [Nat.pow_add]
          have : d = d % 128 + d / 128 * 128 := by omega
          conv => rhs; rw [this, Nat.add_mul]
          congr 1
          rw [Nat.mul_assoc, Nat.mul_comm 128, Nat.mul_comm (2 ^ shift)]
        · rw [Nat.div_lt_iff_lt_mul (by decide)]
          rw [show k + 2 = (k + 1) + 1 from rfl, Nat.pow_succ] at h2; exact h2

/-- non-decreasing, starting no lower than `x` -/
def Ascending : Int → List Int → Prop
  | _, [] => True
  | x, a :: l => x ≤ a ∧ Ascending a l

theorem ascending_iff : ∀ {l : List Int} {x : Int},
    Ascending x l ↔ (∀ a ∈ l, x ≤ a) ∧ l.Pairwise (· ≤ ·)
  | [], x => by simp [Ascending]
  | a :: l, x => by
    rw [Ascending, ascending_iff, List.pairwise_cons]
    constructor
    · rintro ⟨h1, h2, h3⟩
      refine ⟨?_, h2, h3⟩
      intro b hb
      rcases List.mem_cons.1 hb with rfl | hb
      · exact h1
      · exact Int.le_trans h1 (h2 b hb)
    · rintro ⟨h1, h2, h3⟩
      exact ⟨h1 a (by simp), h2, h3⟩

theorem coder_ok : ∀ (l : List Int) (x : Int), 0 ≤ x → Ascending x l →
    (∀ a ∈ l, a ≤ 9223372036854775807) →
    ∃ c, encodeAll x l = some c ∧ c.length ≤ 9 * l.length ∧ (c = [] → l = []) ∧
      ∀ n, l.length ≤ n → decodeAll n x c = some l := by
  intro l
  induction l with
  | nil =>
    intro x _ _ _
    refine ⟨[], rfl, by simp, by simp, fun n _ => ?_⟩
    cases n <;> rfl
  | cons a l ih =>
    intro x hx ha hb
    obtain ⟨h1, h2⟩ := ha
    obtain ⟨c, e1, e2, e3, e4⟩ := ih a (by omega) h2 fun y hy => hb y (List.mem_cons_of_mem _ hy)
    have ha := hb a (by simp)
    refine ⟨encode1 (a - x).toNat ++ c, ?_, ?_, ?_, ?_⟩
    · rw [encodeAll, if_neg (by omega), e1]; rfl
    · have := encode1_le9 (d := (a - x).toNat) (by omega)
      simp only [List.length_append, List.length_cons]; omega
    · intro h; exact absurd (List.append_eq_nil_iff.1 h).1 (encode1_ne _)
    · intro n hn
      match n, hn with
      | n + 1, hn =>
        have hd := decode1_encode1 (a - x).toNat 0 0 c ⟨9, by omega, by omega⟩ (by omega)
        match hc : encode1 (a - x).toNat ++ c, hd with
        | [], _ => exact absurd (List.append_eq_nil_iff.1 hc).1 (encode1_ne _)
        | b :: bs, hd =>
          rw [decodeAll, hd]
          simp only [Nat.zero_add, Nat.pow_zero, Nat.mul_one]
          have : x + ((a - x).toNat : Int) = a := by omega
          rw [this, e4 n (by simp at hn; omega)]
          rfl

theorem post_ok {l : List Int} (h0 : ∀ a ∈ l, 0 ≤ a ∧ a ≤ 9223372036854775807)
    (hs : l.Pairwise (· ≤ ·)) :
    ∃ c, postCrush (addrsBytes l) = some c ∧
      c.length ≤ (addrsBytes l).length + postExtra (addrsBytes l).length ∧ (c = [] → l = []) ∧
      ∀ m, (addrsBytes l).length ≤ m → postTang c m = some (addrsBytes l) := by
  obtain ⟨c, e1, e2, e3, e4⟩ := coder_ok l 0 (by omega)
    (ascending_iff.2 ⟨fun a ha => (h0 a ha).1, hs⟩) fun a ha => (h0 a ha).2
  have hl := addrsBytes_length l
  refine ⟨c, ?_, ?_, e3, fun m hm => ?_⟩
  · have := bytesAddrs_addrsBytes (l := l) (fun a ha => ⟨by have := h0 a ha; omega, (h0 a ha).2⟩) []
    rw [List.append_nil] at this
    rw [postCrush, hl, Nat.mul_div_cancel_left _ (by decide), this, e1]
  · rw [hl, postExtra]; omega
  · rw [postTang, e4 _ (by rw [hl] at hm; omega)]; rfl

end Verif.Store
