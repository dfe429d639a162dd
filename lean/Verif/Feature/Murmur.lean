import Verif.Feature.Proof

/-!
# The hash of a key is MurmurHash64A
-/

namespace Verif.Feature
open Verif.Store

theorem byteValue_eq (bs : List UInt8) : byteValue bs = leNat bs := by
  induction bs with
  | nil => rfl
  | cons b bs ih => simp only [byteValue, List.foldr_cons, leNat] at ih ⊢; rw [ih]

theorem byteValue_lt (bs : List UInt8) (h : bs.length ≤ 8) : byteValue bs < 2 ^ 64 := by
  rw [byteValue_eq]
  refine Nat.lt_of_lt_of_le (leNat_lt bs) ?_
  exact Nat.le_trans (Nat.pow_le_pow_right (by decide) h) (by decide)

theorem m_toNat : (0xc6a4a7935bd1e995 : UInt64).toNat = murmurM := by decide

theorem toNat_times (a : UInt64) : (a * 0xc6a4a7935bd1e995).toNat = times a.toNat murmurM := by
  rw [UInt64.toNat_mul, m_toNat]; rfl

theorem toNat_fold47 (a : UInt64) : (a ^^^ (a >>> 47)).toNat = fold47 a.toNat := by
  rw [UInt64.toNat_xor, UInt64.toNat_shiftRight]
  unfold fold47
  rw [show (47 : UInt64).toNat % 64 = 47 from by decide, Nat.shiftRight_eq_div_pow]

theorem toNat_round (h k : UInt64) : (round h k).toNat = join h.toNat k.toNat := by
  unfold round join
  have e : ((k * (0xc6a4a7935bd1e995 : UInt64)) ^^^ ((k * (0xc6a4a7935bd1e995 : UInt64)) >>> (47 : UInt64))).toNat
      = fold47 (times k.toNat murmurM) := by rw [toNat_fold47, toNat_times]
  show ((h ^^^ ((k * (0xc6a4a7935bd1e995 : UInt64)) ^^^ ((k * (0xc6a4a7935bd1e995 : UInt64)) >>> (47 : UInt64)))
    * (0xc6a4a7935bd1e995 : UInt64)) * (0xc6a4a7935bd1e995 : UInt64)).toNat = _
  rw [toNat_times, UInt64.toNat_xor, toNat_times, e]

theorem toNat_rounds (n : Nat) (h : UInt64) (bs : Key) :
    (rounds n h bs).toNat = ((List.range n).map (wordOf bs)).foldl join h.toNat := by
  induction n generalizing h bs with
  | zero => rfl
  | succ n ih =>
    rw [rounds, ih, List.range_succ_eq_map, List.map_cons, List.foldl_cons, List.map_map, toNat_round]
    have e : (UInt64.ofNat (leNat (bs.take 8))).toNat = wordOf bs 0 := by
      unfold wordOf
      rw [← byteValue_eq, UInt64.toNat_ofNat']
      exact Nat.mod_eq_of_lt (byteValue_lt _ (by simp; omega))
    rw [e]
    congr 1
    refine List.map_congr_left fun i _ => ?_
    simp only [Function.comp, wordOf, List.drop_drop]
    congr 3
    omega

/-- The lowest byte laid over the others. -/
theorem low_xor (a b : Nat) (h : a < 256) : a + 256 * b = a ^^^ (b <<< 8) := by
  refine Nat.eq_of_testBit_eq fun i => ?_
  rw [Nat.testBit_xor, Nat.testBit_shiftLeft, show a + 256 * b = 2 ^ 8 * b + a from by omega,
    Nat.testBit_two_pow_mul_add b (i := 8) (by simpa using h)]
  by_cases hi : i < 8
  · rw [if_pos hi]
    have : ¬ 8 ≤ i := by omega
    simp [this]
  · rw [if_neg hi]
    have h8 : 8 ≤ i := by omega
    have : a.testBit i = false := Nat.testBit_lt_two_pow
      (Nat.lt_of_lt_of_le h (by exact Nat.pow_le_pow_right (n := 2) (by decide) h8))
    simp [this, h8]

theorem toNat_shifted (a : UInt8) (k : Nat) (hk : k ≤ 48) :
    (UInt64.ofNat a.toNat <<< UInt64.ofNat k).toNat = a.toNat <<< k := by
  have ha := a.toNat_lt
  rw [UInt64.toNat_shiftLeft, UInt64.toNat_ofNat', UInt64.toNat_ofNat',
    Nat.mod_eq_of_lt (a := a.toNat) (by omega), Nat.mod_eq_of_lt (a := k) (by omega),
    Nat.mod_eq_of_lt (a := k) (by omega), Nat.shiftLeft_eq]
  refine Nat.mod_eq_of_lt ?_
  have : 2 ^ k ≤ 2 ^ 48 := Nat.pow_le_pow_right (by decide) hk
  calc a.toNat * 2 ^ k ≤ 256 * 2 ^ 48 := Nat.mul_le_mul (by omega) this
    _ < 2 ^ 64 := by decide

theorem toNat_byte (a : UInt8) : (UInt64.ofNat a.toNat).toNat = a.toNat := by
  have := a.toNat_lt
  rw [UInt64.toNat_ofNat']
  exact Nat.mod_eq_of_lt (by omega)

theorem leNat_cons_xor (a : UInt8) (bs : List UInt8) : leNat (a :: bs) = a.toNat ^^^ (leNat bs <<< 8) := by
  rw [leNat]; exact low_xor _ _ a.toNat_lt

instance : Std.Associative (α := Nat) (· ^^^ ·) := ⟨Nat.xor_assoc⟩
instance : Std.Commutative (α := Nat) (· ^^^ ·) := ⟨Nat.xor_comm⟩

/-- The bytes, each at its place, laid over each other. -/
def laid : Nat → List UInt8 → Nat
  | _, [] => 0
  | k, a :: bs => (a.toNat <<< k) ^^^ laid (k + 8) bs

theorem laid_eq (k : Nat) (bs : List UInt8) : laid k bs = leNat bs <<< k := by
  induction bs generalizing k with
  | nil => simp [laid, leNat]
  | cons a bs ih =>
    rw [laid, ih, leNat_cons_xor, Nat.shiftLeft_xor_distrib, ← Nat.shiftLeft_add, Nat.add_comm 8 k]

theorem laid_zero (bs : List UInt8) : leNat bs = laid 0 bs := by rw [laid_eq]; rfl

theorem tail_1 (h : UInt64) (a : UInt8) :
    (tail h [a]).toNat = times (h.toNat ^^^ leNat [a]) murmurM := by
  show ((h ^^^ UInt64.ofNat a.toNat)
    * 0xc6a4a7935bd1e995).toNat = _
  have e : laid 0 [a] = a.toNat ^^^ (0) := by
    simp only [laid, Nat.shiftLeft_zero, Nat.reduceAdd]
  rw [toNat_times, laid_zero, e]
  refine congrArg (fun x => times x murmurM) ?_
  rw [UInt64.toNat_xor, toNat_byte, Nat.xor_zero]

theorem tail_2 (h : UInt64) (a b : UInt8) :
    (tail h [a, b]).toNat = times (h.toNat ^^^ leNat [a, b]) murmurM := by
  show (((h ^^^ (UInt64.ofNat b.toNat <<< 8)) ^^^ UInt64.ofNat a.toNat)
    * 0xc6a4a7935bd1e995).toNat = _
  have e : laid 0 [a, b] = a.toNat ^^^ ((b.toNat <<< 8) ^^^ (0)) := by
    simp only [laid, Nat.shiftLeft_zero, Nat.reduceAdd]
  have e1 := toNat_shifted b 8 (by decide)
  simp only [UInt64.reduceOfNat] at e1
  rw [toNat_times, laid_zero, e]
  generalize b.toNat <<< 8 = x1 at *
  refine congrArg (fun x => times x murmurM) ?_
  rw [UInt64.toNat_xor, UInt64.toNat_xor, toNat_byte, Nat.xor_zero, e1]
  ac_rfl

theorem tail_3 (h : UInt64) (a b c : UInt8) :
    (tail h [a, b, c]).toNat = times (h.toNat ^^^ leNat [a, b, c]) murmurM := by
  show ((((h ^^^ (UInt64.ofNat c.toNat <<< 16)) ^^^ (UInt64.ofNat b.toNat <<< 8)) ^^^ UInt64.ofNat a.toNat)
    * 0xc6a4a7935bd1e995).toNat = _
  have e : laid 0 [a, b, c] = a.toNat ^^^ ((b.toNat <<< 8) ^^^ ((c.toNat <<< 16) ^^^ (0))) := by
    simp only [laid, Nat.shiftLeft_zero, Nat.reduceAdd]
  have e1 := toNat_shifted b 8 (by decide)
  have e2 := toNat_shifted c 16 (by decide)
  simp only [UInt64.reduceOfNat] at e1 e2
  rw [toNat_times, laid_zero, e]
  generalize b.toNat <<< 8 = x1 at *
  generalize c.toNat <<< 16 = x2 at *
  refine congrArg (fun x => times x murmurM) ?_
  rw [UInt64.toNat_xor, UInt64.toNat_xor, UInt64.toNat_xor, toNat_byte, Nat.xor_zero, e1, e2]
  ac_rfl

theorem tail_4 (h : UInt64) (a b c d : UInt8) :
    (tail h [a, b, c, d]).toNat = times (h.toNat ^^^ leNat [a, b, c, d]) murmurM := by
  show (((((h ^^^ (UInt64.ofNat d.toNat <<< 24)) ^^^ (UInt64.ofNat c.toNat <<< 16)) ^^^ (UInt64.ofNat b.toNat <<< 8)) ^^^ UInt64.ofNat a.toNat)
    * 0xc6a4a7935bd1e995).toNat = _
  have e : laid 0 [a, b, c, d] = a.toNat ^^^ ((b.toNat <<< 8) ^^^ ((c.toNat <<< 16) ^^^ ((d.toNat <<< 24) ^^^ (0)))) := by
    simp only [laid, Nat.shiftLeft_zero, Nat.reduceAdd]
  have e1 := toNat_shifted b 8 (by decide)
  have e2 := toNat_shifted c 16 (by decide)
  have e3 := toNat_shifted d 24 (by decide)
  simp only [UInt64.reduceOfNat] at e1 e2 e3
  rw [toNat_times, laid_zero, e]
  generalize b.toNat <<< 8 = x1 at *
  generalize c.toNat <<< 16 = x2 at *
  generalize d.toNat <<< 24 = x3 at *
  refine congrArg (fun x => times x murmurM) ?_
  rw [UInt64.toNat_xor, UInt64.toNat_xor, UInt64.toNat_xor, UInt64.toNat_xor, toNat_byte, Nat.xor_zero, e1, e2, e3]
  ac_rfl

theorem tail_5 (h : UInt64) (a b c d f : UInt8) :
    (tail h [a, b, c, d, f]).toNat = times (h.toNat ^^^ leNat [a, b, c, d, f]) murmurM := by
  show ((((((h ^^^ (UInt64.ofNat f.toNat <<< 32)) ^^^ (UInt64.ofNat d.toNat <<< 24)) ^^^ (UInt64.ofNat c.toNat <<< 16)) ^^^ (UInt64.ofNat b.toNat <<< 8)) ^^^ UInt64.ofNat a.toNat)
    * 0xc6a4a7935bd1e995).toNat = _
  have e : laid 0 [a, b, c, d, f] = a.toNat ^^^ ((b.toNat <<< 8) ^^^ ((c.toNat <<< 16) ^^^ ((d.toNat <<< 24) ^^^ ((f.toNat <<< 32) ^^^ (0))))) := by
    simp only [laid, Nat.shiftLeft_zero, Nat.reduceAdd]
  have e1 := toNat_shifted b 8 (by decide)
  have e2 := toNat_shifted c 16 (by decide)
  have e3 := toNat_shifted d 24 (by decide)
  have e4 := toNat_shifted f 32 (by decide)
  simp only [UInt64.reduceOfNat] at e1 e2 e3 e4
  rw [toNat_times, laid_zero, e]
  generalize b.toNat <<< 8 = x1 at *
  generalize c.toNat <<< 16 = x2 at *
  generalize d.toNat <<< 24 = x3 at *
  generalize f.toNat <<< 32 = x4 at *
  refine congrArg (fun x => times x murmurM) ?_
  rw [UInt64.toNat_xor, UInt64.toNat_xor, UInt64.toNat_xor, UInt64.toNat_xor, UInt64.toNat_xor, toNat_byte, Nat.xor_zero, e1, e2, e3, e4]
  ac_rfl

theorem tail_6 (h : UInt64) (a b c d f g : UInt8) :
    (tail h [a, b, c, d, f, g]).toNat = times (h.toNat ^^^ leNat [a, b, c, d, f, g]) murmurM := by
  show (((((((h ^^^ (UInt64.ofNat g.toNat <<< 40)) ^^^ (UInt64.ofNat f.toNat <<< 32)) ^^^ (UInt64.ofNat d.toNat <<< 24)) ^^^ (UInt64.ofNat c.toNat <<< 16)) ^^^ (UInt64.ofNat b.toNat <<< 8)) ^^^ UInt64.ofNat a.toNat)
    * 0xc6a4a7935bd1e995).toNat = _
  have e : laid 0 [a, b, c, d, f, g] = a.toNat ^^^ ((b.toNat <<< 8) ^^^ ((c.toNat <<< 16) ^^^ ((d.toNat <<< 24) ^^^ ((f.toNat <<< 32) ^^^ ((g.toNat <<< 40) ^^^ (0)))))) := by
    simp only [laid, Nat.shiftLeft_zero, Nat.reduceAdd]
  have e1 := toNat_shifted b 8 (by decide)
  have e2 := toNat_shifted c 16 (by decide)
  have e3 := toNat_shifted d 24 (by decide)
  have e4 := toNat_shifted f 32 (by decide)
  have e5 := toNat_shifted g 40 (by decide)
  simp only [UInt64.reduceOfNat] at e1 e2 e3 e4 e5
  rw [toNat_times, laid_zero, e]
  generalize b.toNat <<< 8 = x1 at *
  generalize c.toNat <<< 16 = x2 at *
  generalize d.toNat <<< 24 = x3 at *
  generalize f.toNat <<< 32 = x4 at *
  generalize g.toNat <<< 40 = x5 at *
  refine congrArg (fun x => times x murmurM) ?_
  rw [UInt64.toNat_xor, UInt64.toNat_xor, UInt64.toNat_xor, UInt64.toNat_xor, UInt64.toNat_xor, UInt64.toNat_xor, toNat_byte, Nat.xor_zero, e1, e2, e3, e4, e5]
  ac_rfl

theorem tail_7 (h : UInt64) (a b c d f g i : UInt8) :
    (tail h [a, b, c, d, f, g, i]).toNat = times (h.toNat ^^^ leNat [a, b, c, d, f, g, i]) murmurM := by
  show ((((((((h ^^^ (UInt64.ofNat i.toNat <<< 48)) ^^^ (UInt64.ofNat g.toNat <<< 40)) ^^^ (UInt64.ofNat f.toNat <<< 32)) ^^^ (UInt64.ofNat d.toNat <<< 24)) ^^^ (UInt64.ofNat c.toNat <<< 16)) ^^^ (UInt64.ofNat b.toNat <<< 8)) ^^^ UInt64.ofNat a.toNat)
    * 0xc6a4a7935bd1e995).toNat = _
  have e : laid 0 [a, b, c, d, f, g, i] = a.toNat ^^^ ((b.toNat <<< 8) ^^^ ((c.toNat <<< 16) ^^^ ((d.toNat <<< 24) ^^^ ((f.toNat <<< 32) ^^^ ((g.toNat <<< 40) ^^^ ((i.toNat <<< 48) ^^^ (0))))))) := by
    simp only [laid, Nat.shiftLeft_zero, Nat.reduceAdd]
  have e1 := toNat_shifted b 8 (by decide)
  have e2 := toNat_shifted c 16 (by decide)
  have e3 := toNat_shifted d 24 (by decide)
  have e4 := toNat_shifted f 32 (by decide)
  have e5 := toNat_shifted g 40 (by decide)
  have e6 := toNat_shifted i 48 (by decide)
  simp only [UInt64.reduceOfNat] at e1 e2 e3 e4 e5 e6
  rw [toNat_times, laid_zero, e]
  generalize b.toNat <<< 8 = x1 at *
  generalize c.toNat <<< 16 = x2 at *
  generalize d.toNat <<< 24 = x3 at *
  generalize f.toNat <<< 32 = x4 at *
  generalize g.toNat <<< 40 = x5 at *
  generalize i.toNat <<< 48 = x6 at *
  refine congrArg (fun x => times x murmurM) ?_
  rw [UInt64.toNat_xor, UInt64.toNat_xor, UInt64.toNat_xor, UInt64.toNat_xor, UInt64.toNat_xor, UInt64.toNat_xor, UInt64.toNat_xor, toNat_byte, Nat.xor_zero, e1, e2, e3, e4, e5, e6]
  ac_rfl

theorem toNat_tail (h : UInt64) (d : Key) (hd : d.length < 8) :
    (tail h d).toNat = if d = [] then h.toNat else times (h.toNat ^^^ byteValue d) murmurM := by
  rw [byteValue_eq]
  match d, hd with
  | [], _ => rfl
  | [a], _ => rw [if_neg (by simp), tail_1]
  | [a, b], _ => rw [if_neg (by simp), tail_2]
  | [a, b, c], _ => rw [if_neg (by simp), tail_3]
  | [a, b, c, d], _ => rw [if_neg (by simp), tail_4]
  | [a, b, c, d, f], _ => rw [if_neg (by simp), tail_5]
  | [a, b, c, d, f, g], _ => rw [if_neg (by simp), tail_6]
  | [a, b, c, d, f, g, i], _ => rw [if_neg (by simp), tail_7]
  | _ :: _ :: _ :: _ :: _ :: _ :: _ :: _ :: l, hd => simp at hd; omega

theorem toNat_hash (key : Key) (seed : UInt64) (h : key.length < 2 ^ 64) :
    (hash key seed).toNat = murmur key seed.toNat := by
  unfold hash murmur
  simp only [toNat_fold47, toNat_times]
  have e : (seed ^^^ UInt64.ofNat key.length * 0xc6a4a7935bd1e995).toNat
      = seed.toNat ^^^ times key.length murmurM := by
    rw [UInt64.toNat_xor, toNat_times, UInt64.toNat_ofNat', Nat.mod_eq_of_lt h]
  rw [toNat_tail _ _ (by simp; omega), toNat_rounds, e, Nat.mul_comm (key.length / 8) 8]

theorem or_one (b : UInt8) : (b ||| 1).toNat = if b.toNat % 2 = 1 then b.toNat else b.toNat + 1 := by
  have h : ∀ n : Fin 256, (UInt8.ofNat n.val ||| 1).toNat
      = if (UInt8.ofNat n.val).toNat % 2 = 1 then (UInt8.ofNat n.val).toNat else (UInt8.ofNat n.val).toNat + 1 := by
    decide +kernel
  have := h ⟨b.toNat, b.toNat_lt⟩
  simpa using this

theorem mark_marked {bs : List UInt8} (h : bs.length = 8) : leNat (mark bs) = marked (leNat bs) := by
  obtain ⟨x, hx, hl⟩ := eight h
  have hd : bs.drop 7 = [x] := by
    have h1 : bs.drop 7 = (bs.take 7 ++ [x]).drop 7 := congrArg (List.drop 7) hx
    rw [h1]
    exact List.drop_left' hl
  have h2 : leNat bs = leNat (bs.take 7) + 256 ^ 7 * x.toNat := by
    have h3 := leNat_append (bs.take 7) [x]
    rw [← hx, hl] at h3
    simpa [leNat] using h3
  have h7 := leNat_lt (bs.take 7)
  rw [hl] at h7
  have hm : leNat (mark bs) = leNat (bs.take 7) + 256 ^ 7 * (x ||| 1).toNat := by
    unfold mark
    rw [hd, leNat_append, hl]
    simp [leNat]
  have hdiv : leNat bs / 2 ^ 56 = x.toNat := by omega
  rw [hm, or_one]
  unfold marked
  rw [hdiv]
  split <;> omega

/-- The feature of a long key, from its hash. -/
theorem long_value {key : Key} (hl : literal key = none) (h : 8 ≤ key.length)
    (hh : (hash key 588503011).toNat ≠ 2 ^ 63) :
    featurize key = marked (magnitude (hash key 588503011).toNat) := by
  have h0 : key ≠ [] := by rintro rfl; simp at h
  unfold featurize
  rw [if_neg h0, hl]
  simp only
  rw [if_neg (by omega)]
  generalize (hash key 588503011) = x at *
  have hx := x.toNat_lt
  unfold bytesAddr
  rw [mark_marked (addrBytes_length _)]
  have e : leNat (addrBytes (positive (signed64 x.toNat))) = magnitude x.toNat := by
    unfold addrBytes
    rw [leNat_leBytes _ _ (by unfold unsigned64; omega)]
    unfold positive signed64 unsigned64 magnitude
    generalize x.toNat = v at *
    split
    · split
      · omega
      · split <;> omega
    · split
      · omega
      · split <;> omega
  rw [e]
  have hm : magnitude x.toNat < 2 ^ 63 := by unfold magnitude; split <;> omega
  have hk : marked (magnitude x.toNat) < 2 ^ 63 := by unfold marked; split <;> omega
  unfold signed64
  rw [if_pos (by omega)]

end Verif.Feature
