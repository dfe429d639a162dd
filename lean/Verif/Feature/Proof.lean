import Verif.Feature.Model
import Verif.Feature.Spec

/-!
# Lemmas on featurizers
-/

namespace Verif.Feature
open Verif.Store

theorem leNat_append (a b : List UInt8) : leNat (a ++ b) = leNat a + 256 ^ a.length * leNat b := by
  induction a with
  | nil => simp [leNat]
  | cons x a ih =>
    simp only [List.cons_append, leNat, ih, List.length_cons, Nat.pow_succ]
    rw [Nat.mul_add, ← Nat.mul_assoc, Nat.mul_comm 256 (256 ^ a.length)]
    omega

theorem leNat_lt (a : List UInt8) : leNat a < 256 ^ a.length := by
  induction a with
  | nil => simp [leNat]
  | cons x a ih =>
    have := x.toNat_lt
    simp only [leNat, List.length_cons, Nat.pow_succ]
    omega

theorem leNat_zeros (n : Nat) : leNat (List.replicate n 0) = 0 := by
  induction n with
  | zero => rfl
  | succ n ih => simp [List.replicate_succ, leNat, ih]

theorem leNat_inj : ∀ {a b : List UInt8}, a.length = b.length → leNat a = leNat b → a = b
  | [], [], _, _ => rfl
  | [], _ :: _, h, _ => by simp at h
  | _ :: _, [], h, _ => by simp at h
  | x :: a, y :: b, h, e => by
    have hx := x.toNat_lt
    have hy := y.toNat_lt
    simp only [leNat] at e
    have e1 : x.toNat = y.toNat := by omega
    have e2 : leNat a = leNat b := by omega
    rw [UInt8.toNat_inj.mp e1, leNat_inj (by simpa using h) e2]

/-- The key filled up with NULs to eight bytes. -/
def pad (key : Key) : List UInt8 := key ++ List.replicate (8 - key.length) 0

theorem short_eq {key : Key} (h0 : key ≠ []) (hl : literal key = none) (h : key.length < 8) :
    featurize key = leNat key ∧ leNat key < 256 ^ 7 := by
  have h1 : leNat key < 256 ^ 7 :=
    Nat.lt_of_lt_of_le (leNat_lt key) (Nat.pow_le_pow_right (by decide) (by omega))
  refine ⟨?_, h1⟩
  unfold featurize
  rw [if_neg h0, hl]
  simp only
  rw [if_pos h]
  unfold bytesAddr
  rw [leNat_append, leNat_zeros, Nat.mul_zero, Nat.add_zero]
  unfold signed64
  rw [if_pos (by omega)]

theorem strip_zeros {a b : List UInt8} (h : leNat a = leNat b) (ha : a.length < 8) (hb : b.length < 8)
    (ha0 : ∀ c ∈ a.getLast?, c ≠ 0) (hb0 : ∀ c ∈ b.getLast?, c ≠ 0) : a = b := by
  have hp : pad a = pad b := by
    apply leNat_inj
    · simp [pad]; omega
    · simp only [pad, leNat_append, leNat_zeros]; simpa using h
  have key : ∀ {a b : List UInt8}, pad a = pad b → b.length < 8 → (∀ c ∈ b.getLast?, c ≠ 0) → a.length < 8 →
      b.length ≤ a.length := by
    intro a b hp hb hb0 ha
    apply Classical.byContradiction
    intro hlt
    have hne : b ≠ [] := by intro h; subst h; simp at hlt
    have h1 : (pad b)[b.length - 1]? = some (b.getLast hne) := by
      unfold pad
      rw [List.getElem?_append_left (by omega), List.getLast_eq_getElem]
      exact List.getElem?_eq_getElem _
    have h2 : (pad a)[b.length - 1]? = some 0 := by
      unfold pad
      rw [List.getElem?_append_right (by omega)]
      rw [List.getElem?_replicate]
      rw [if_pos (by omega)]
    rw [hp, h1] at h2
    exact hb0 _ (List.getLast?_eq_some_getLast hne) (Option.some.inj h2)
  have hl : a.length = b.length :=
    Nat.le_antisymm (key hp.symm ha ha0 hb) (key hp hb hb0 ha)
  exact leNat_inj hl h

theorem odd_or (b : UInt8) : (b ||| 1).toNat % 2 = 1 := by
  have h : ∀ n : Fin 256, (UInt8.ofNat n.val ||| 1).toNat % 2 = 1 := by decide +kernel
  have := h ⟨b.toNat, b.toNat_lt⟩
  simpa using this

theorem or_le (b : UInt8) : b.toNat < 128 → (b ||| 1).toNat < 128 := by
  have h : ∀ n : Fin 256, (UInt8.ofNat n.val).toNat < 128 → (UInt8.ofNat n.val ||| 1).toNat < 128 := by decide +kernel
  have := h ⟨b.toNat, b.toNat_lt⟩
  simpa using this

theorem eight {bs : List UInt8} (h : bs.length = 8) : ∃ t, bs = bs.take 7 ++ [t] ∧ (bs.take 7).length = 7 := by
  have h7 : (bs.drop 7).length = 1 := by simp [h]
  obtain ⟨t, ht⟩ := List.length_eq_one_iff.mp h7
  exact ⟨t, by rw [← ht, List.take_append_drop], by simp [h]⟩

/-- The number in marked bytes. -/
theorem mark_value {bs : List UInt8} (h : bs.length = 8) :
    ∃ lo t, lo < 256 ^ 7 ∧ t % 2 = 1 ∧ t < 256 ∧ leNat (mark bs) = lo + 256 ^ 7 * t ∧
      (leNat bs < 2 ^ 63 → t < 128) := by
  obtain ⟨x, hx, hl⟩ := eight h
  have hd : bs.drop 7 = [x] := by
    have h1 : bs.drop 7 = (bs.take 7 ++ [x]).drop 7 := congrArg (List.drop 7) hx
    rw [h1]
    exact List.drop_left' hl
  have h2 : leNat bs = leNat (bs.take 7) + 256 ^ 7 * leNat [x] := by
    have h3 := leNat_append (bs.take 7) [x]
    rwa [← hx, hl] at h3
  refine ⟨leNat (bs.take 7), (x ||| 1).toNat, ?_, odd_or x, (x ||| 1).toNat_lt, ?_, ?_⟩
  · have := leNat_lt (bs.take 7); rwa [hl] at this
  · unfold mark
    rw [hd, leNat_append, hl]
    simp [leNat]
  · intro h'
    apply or_le
    rw [h2] at h'
    simp only [leNat] at h'
    omega

theorem signed64_in (x : Nat) (h : x < 2 ^ 64) : In64 (signed64 x) := by
  unfold signed64; split <;> constructor <;> omega

/-- The feature of a long key has an odd highest byte; it is positive unless the hash is the one number
whose negation is not representable. -/
theorem long_eq {key : Key} (hl : literal key = none) (h : 8 ≤ key.length) :
    ∃ lo t, lo < 256 ^ 7 ∧ t % 2 = 1 ∧ t < 256 ∧ featurize key = signed64 (lo + 256 ^ 7 * t) ∧
      ((hash key 588503011).toNat ≠ 2 ^ 63 → t < 128) := by
  have h0 : key ≠ [] := by rintro rfl; simp at h
  unfold featurize
  rw [if_neg h0, hl]
  simp only
  rw [if_neg (by omega)]
  generalize (hash key 588503011) = x
  have hx := x.toNat_lt
  obtain ⟨lo, t, h1, h2, h3, h4, h5⟩ := mark_value (addrBytes_length (positive (signed64 x.toNat)))
  refine ⟨lo, t, h1, h2, h3, by unfold bytesAddr; rw [h4], ?_⟩
  intro hne
  apply h5
  unfold addrBytes
  rw [leNat_leBytes _ _ (by unfold unsigned64; omega)]
  unfold positive signed64 unsigned64
  generalize x.toNat = v at *
  split
  · split
    · omega
    · split <;> omega
  · split
    · omega
    · split <;> omega

theorem digit_of {d : Nat} (h : d < 10) : digit (UInt8.ofNat (0x30 + d)) = some d := by
  have : ∀ d : Fin 10, digit (UInt8.ofNat (0x30 + d.val)) = some d.val := by decide
  exact this ⟨d, h⟩

theorem literalFrom_digits (n : Nat) : n ≤ 9223372036854775807 → ∀ rest,
    literalFrom 0 (digits n ++ rest) = literalFrom n rest := by
  induction n using Nat.strongRecOn with
  | ind n ih =>
    intro hn rest
    rw [digits]
    split
    · rename_i h
      simp only [List.cons_append, List.nil_append, literalFrom, digit_of h]
      rw [if_pos (Or.inl (by omega))]
      simp
    · rename_i h
      rw [List.append_assoc, ih (n / 10) (by omega) (by omega)]
      simp only [List.cons_append, List.nil_append, literalFrom, digit_of (Nat.mod_lt n (by decide : 0 < 10))]
      rw [if_pos (by omega)]
      congr 1
      omega

theorem literalFrom_zeros (z : Nat) (rest : Key) :
    literalFrom 0 (List.replicate z 0x30 ++ rest) = literalFrom 0 rest := by
  induction z with
  | zero => rfl
  | succ z ih => simp only [List.replicate_succ, List.cons_append, literalFrom]; exact ih

theorem digits_ne (n : Nat) : digits n ≠ [] := by
  rw [digits]; split <;> simp

theorem literal_cons {ds : Key} (h : ds ≠ []) : literal (0x23 :: ds) = literalFrom 0 ds := by
  cases ds with
  | nil => exact absurd rfl h
  | cons c cs => rfl

theorem featurize_digits {n : Nat} (hn : n ≤ 9223372036854775807) (z : Nat) :
    featurize (0x23 :: (List.replicate z 0x30 ++ digits n)) = n := by
  have hne : List.replicate z 0x30 ++ digits n ≠ [] := by simp [digits_ne]
  have h : literal (0x23 :: (List.replicate z 0x30 ++ digits n)) = some n := by
    rw [literal_cons hne, literalFrom_zeros]
    have := literalFrom_digits n hn []
    simpa [literalFrom] using this
  unfold featurize
  rw [if_neg (by simp), h]

theorem digit_some {c : UInt8} {d : Nat} : digit c = some d ↔
    (0x30 ≤ c.toNat ∧ c.toNat ≤ 0x39) ∧ d = c.toNat - 0x30 := by
  unfold digit
  have h : (0x30 ≤ c ∧ c ≤ 0x39) ↔ (0x30 ≤ c.toNat ∧ c.toNat ≤ 0x39) := by
    rw [UInt8.le_iff_toNat_le, UInt8.le_iff_toNat_le]
    exact Iff.rfl
  rw [← h]
  clear h
  split
  · rename_i h
    constructor
    · intro e; exact ⟨h, (Option.some.inj e).symm⟩
    · rintro ⟨_, rfl⟩; rfl
  · rename_i h
    constructor
    · intro e; cases e
    · rintro ⟨h', _⟩; exact absurd h' h

theorem foldl_ge (ds : List UInt8) (v : Nat) :
    v ≤ ds.foldl (fun v c => 10 * v + (c.toNat - 0x30)) v := by
  induction ds generalizing v with
  | nil => exact Nat.le_refl _
  | cons c cs ih => exact Nat.le_trans (by show v ≤ 10 * v + _; omega) (ih _)

theorem literalFrom_iff (ds : Key) : ∀ {v n : Nat}, v ≤ 9223372036854775807 →
    (literalFrom v ds = some n ↔ (∀ c ∈ ds, 0x30 ≤ c.toNat ∧ c.toNat ≤ 0x39) ∧
      ds.foldl (fun v c => 10 * v + (c.toNat - 0x30)) v = n ∧ n ≤ 9223372036854775807) := by
  induction ds with
  | nil =>
    intro v n hv
    simp only [literalFrom, List.foldl_nil, Option.some.injEq]
    constructor
    · rintro rfl; exact ⟨by simp, rfl, hv⟩
    · rintro ⟨_, h, _⟩; exact h
  | cons c cs ih =>
    intro v n hv
    rw [literalFrom]
    cases hd : digit c with
    | none =>
      constructor
      · intro h; cases h
      · rintro ⟨h, _⟩
        have := digit_some.mpr ⟨h c (by simp), rfl⟩
        rw [hd] at this
        cases this
    | some d =>
      obtain ⟨hc, rfl⟩ := digit_some.mp hd
      simp only [List.foldl_cons, List.mem_cons, forall_eq_or_imp]
      split
      · rename_i hlt
        rw [ih (by omega)]
        constructor
        · rintro ⟨a, b, e⟩; exact ⟨⟨hc, a⟩, b, e⟩
        · rintro ⟨⟨_, a⟩, b, e⟩; exact ⟨a, b, e⟩
      · rename_i hge
        constructor
        · intro h; cases h
        · rintro ⟨_, h, hn⟩
          have := foldl_ge cs (10 * v + (c.toNat - 0x30))
          omega

theorem literal_iff {key : Key} {n : Nat} : literal key = some n ↔ Denotes key n := by
  constructor
  · intro h
    unfold literal at h
    split at h
    · obtain ⟨h1, h2, h3⟩ := (literalFrom_iff _ (by decide)).mp h
      exact ⟨_, rfl, by simp, h1, h2, h3⟩
    · cases h
  · rintro ⟨ds, rfl, h0, h1, h2, h3⟩
    rw [literal_cons h0]
    exact (literalFrom_iff ds (by decide)).mpr ⟨h1, h2, h3⟩

theorem literal_none {key : Key} (h : ∀ n, ¬ Denotes key n) : literal key = none := by
  cases hl : literal key with
  | none => rfl
  | some n => exact absurd (literal_iff.mp hl) (h n)

theorem getLast_clean {key : Key} (h : ∀ c ∈ key, c ≠ 0) : ∀ c ∈ key.getLast?, c ≠ 0 := by
  intro c hc
  exact h c (List.mem_of_getLast? hc)

theorem takeWhile_pad {key : Key} (h : ∀ c ∈ key, c ≠ 0) (hl : key.length < 8) :
    (pad key).takeWhile (· ≠ 0) = key := by
  unfold pad
  rw [List.takeWhile_append_of_pos (by intro c hc; simpa using h c hc)]
  obtain ⟨n, hn⟩ : ∃ n, 8 - key.length = n + 1 := ⟨7 - key.length, by omega⟩
  rw [hn, List.replicate_succ, List.takeWhile_cons]
  simp

theorem leNat_pad (key : Key) : leNat (pad key) = leNat key := by
  unfold pad; rw [leNat_append, leNat_zeros]; omega

theorem leBytes_leNat_pad {key : Key} (hl : key.length < 8) : leBytes 8 (leNat key) = pad key := by
  have h8 : (pad key).length = 8 := by simp [pad]; omega
  apply leNat_inj
  · rw [leBytes_length, h8]
  · rw [leNat_leBytes, leNat_pad]
    exact Nat.lt_of_lt_of_le (leNat_lt key) (Nat.pow_le_pow_right (by decide) (by omega))

theorem leNat_eq_zero {key : Key} (h : leNat key = 0) : ∀ c ∈ key, c = 0 := by
  induction key with
  | nil => simp
  | cons x k ih =>
    simp only [leNat] at h
    have hx : x.toNat = 0 := by omega
    intro c hc
    rcases List.mem_cons.mp hc with rfl | hc
    · exact UInt8.toNat_inj.mp hx
    · exact ih (by omega) c hc

theorem unsigned_ofNat {n : Nat} (h : n < 2 ^ 64) : unsigned64 (n : Int) = n := by
  unfold unsigned64; omega

theorem translate_short {key : Key} (h : Word key) (hl : key.length < 8) :
    translate (leNat key) = key := by
  have hlt : leNat key < 256 ^ 7 :=
    Nat.lt_of_lt_of_le (leNat_lt key) (Nat.pow_le_pow_right (by decide) (by omega))
  have h0 : leNat key ≠ 0 := by
    intro h'
    cases hk : key with
    | nil => exact h.nonempty hk
    | cons c cs =>
      have hc : c ∈ key := by rw [hk]; simp
      exact h.clean c hc (leNat_eq_zero h' c hc)
  unfold translate
  rw [if_neg (by omega)]
  simp only
  have hb : addrBytes ((leNat key : Nat) : Int) = pad key := by
    unfold addrBytes
    rw [unsigned_ofNat (by omega), leBytes_leNat_pad hl]
  rw [hb]
  have hd : (pad key).drop 7 = [0] := by
    unfold pad
    rw [List.drop_append, List.drop_eq_nil_of_le (by omega), List.drop_replicate, List.nil_append]
    have : 8 - key.length - (7 - key.length) = 1 := by omega
    rw [this]; rfl
  rw [if_neg (by rw [hd]; simp)]
  exact takeWhile_pad h.clean hl

theorem drop7_top {f : Int} (h0 : 0 ≤ f) (h1 : (256 : Int) ^ 7 ≤ f) (h2 : f < 2 ^ 63) :
    (addrBytes f).drop 7 ≠ [0] := by
  intro hd
  obtain ⟨t, ht, hl⟩ := eight (addrBytes_length f)
  have hz : leNat (addrBytes f) = leNat ((addrBytes f).take 7) + 256 ^ 7 * leNat ((addrBytes f).drop 7) := by
    have := leNat_append ((addrBytes f).take 7) ((addrBytes f).drop 7)
    rwa [List.take_append_drop, hl] at this
  rw [hd] at hz
  have h3 := leNat_lt ((addrBytes f).take 7)
  rw [hl] at h3
  have h4 : leNat (addrBytes f) = unsigned64 f := by
    unfold addrBytes; rw [leNat_leBytes]; unfold unsigned64; omega
  rw [h4] at hz
  unfold unsigned64 at hz
  simp only [leNat] at hz
  have h5 : (0 : UInt8).toNat = 0 := rfl
  rw [h5] at hz
  omega

theorem translate_long {f : Int} (h1 : (256 : Int) ^ 7 ≤ f) (h2 : f < 2 ^ 63) :
    translate f = 0x23 :: digits f.natAbs := by
  unfold translate
  rw [if_neg (by omega)]
  simp only
  rw [if_pos (drop7_top (by omega) h1 h2), if_neg (by omega)]
  rfl

theorem not_denotes_colon {a b : Key} : ∀ n, ¬ Denotes (a ++ [0x3A] ++ b) n := by
  rintro n ⟨ds, h, _, hd, _⟩
  cases a with
  | nil => simp at h
  | cons x a =>
    have : ds = a ++ [0x3A] ++ b := by simpa using (List.cons.inj h).2.symm
    have := hd 0x3A (by rw [this]; simp)
    revert this
    decide

theorem split_colon : ∀ {a b c d : Key}, (0x3A : UInt8) ∉ a → (0x3A : UInt8) ∉ c →
    a ++ [0x3A] ++ b = c ++ [0x3A] ++ d → a = c ∧ b = d
  | [], b, [], d, _, _, h => by simpa using h
  | [], b, y :: c, d, _, hc, h => by
    simp at h
    exact absurd (by simp [← h.1]) hc
  | x :: a, b, [], d, ha, _, h => by
    simp at h
    exact absurd (by simp [h.1]) ha
  | x :: a, b, y :: c, d, ha, hc, h => by
    simp only [List.cons_append, List.cons.injEq] at h
    have := split_colon (a := a) (c := c) (fun h' => ha (by simp [h'])) (fun h' => hc (by simp [h'])) h.2
    exact ⟨by rw [h.1, this.1], this.2⟩

/-- What the vocabulary counts for a key. -/
def Vocab.count (v : Vocab) (k : Key) : Nat :=
  match v.find? (fun e => e.1 = k) with
  | some e => e.2
  | none => 0

theorem Vocab.count_add (v : Vocab) (k k' : Key) :
    Vocab.count (Vocab.add v k) k' = Vocab.count v k' + (if k = k' then 1 else 0) := by
  induction v with
  | nil =>
    by_cases h : k = k' <;> simp [Vocab.add, Vocab.count, h]
  | cons e v ih =>
    obtain ⟨x, n⟩ := e
    unfold Vocab.add
    by_cases hx : x = k
    · rw [if_pos hx]
      by_cases hk : k = k'
      · subst hx; subst hk; simp [Vocab.count]
      · have : ¬ x = k' := by rw [hx]; exact hk
        simp [Vocab.count, this, hk]
    · rw [if_neg hx]
      by_cases hk : x = k'
      · have : ¬ k = k' := by intro h'; exact hx (by rw [hk, h'])
        simp [Vocab.count, hk, this]
      · simpa [Vocab.count, hk] using ih

end Verif.Feature
