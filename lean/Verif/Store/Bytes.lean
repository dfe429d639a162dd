/-
  Little-endian memory layout of 64-bit integers, as used whenever the code casts an
  `addr *` (or `fval *`, whose 64-bit pattern is used, see `Verif.Hopper.Ann`) to
  `char *`, for instance in `src/simple_posting.cc:530-532`.

  The machine is assumed little-endian with 8-byte `addr`; the code itself assumes that
  files move only between machines with the same layout.
-/
namespace Verif.Store

/-- the `k` low bytes of `x`, lowest first -/
def leBytes : Nat → Nat → List UInt8
  | 0, _ => []
  | k + 1, x => UInt8.ofNat (x % 256) :: leBytes k (x / 256)

/-- the number whose bytes, lowest first, are given -/
def leNat : List UInt8 → Nat
  | [] => 0
  | b :: bs => b.toNat + 256 * leNat bs

/-- two's complement reading of 64 bits -/
def signed64 (x : Nat) : Int :=
  if x < 9223372036854775808 then x else (x : Int) - 18446744073709551616

/-- two's complement 64 bits of an address -/
def unsigned64 (a : Int) : Nat := (a % 18446744073709551616).toNat

/-- the 8 bytes of an `addr` -/
def addrBytes (a : Int) : List UInt8 := leBytes 8 (unsigned64 a)

/-- the `addr` stored in 8 bytes -/
def bytesAddr (bs : List UInt8) : Int := signed64 (leNat bs)

/-- an array of `addr` as bytes -/
def addrsBytes : List Int → List UInt8
  | [] => []
  | a :: l => addrBytes a ++ addrsBytes l

/-- the first `n` elements of an array of `addr` -/
def bytesAddrs : Nat → List UInt8 → List Int
  | 0, _ => []
  | n + 1, bs => bytesAddr (bs.take 8) :: bytesAddrs n (bs.drop 8)

/-- representable in an `addr` -/
abbrev In64 (a : Int) : Prop := -9223372036854775808 ≤ a ∧ a ≤ 9223372036854775807

theorem leBytes_length (k x : Nat) : (leBytes k x).length = k := by
  induction k generalizing x with
  | zero => rfl
  | succ k ih => simp [leBytes, ih]

theorem leNat_leBytes (k x : Nat) (h : x < 256 ^ k) : leNat (leBytes k x) = x := by
  induction k generalizing x with
  | zero => simp at h; simp [leBytes, leNat, h]
  | succ k ih =>
    have h1 : x / 256 < 256 ^ k := by
      rw [Nat.div_lt_iff_lt_mul (by decide)]; rw [Nat.pow_succ] at h; exact h
    have h2 : (UInt8.ofNat (x % 256)).toNat = x % 256 := by simp
    rw [leBytes, leNat, ih _ h1, h2]
    omega

theorem addrBytes_length (a : Int) : (addrBytes a).length = 8 := leBytes_length _ _

theorem bytesAddr_addrBytes {a : Int} (h : In64 a) : bytesAddr (addrBytes a) = a := by
  unfold bytesAddr addrBytes
  rw [leNat_leBytes _ _ (by unfold unsigned64; omega)]
  unfold signed64 unsigned64
  split <;> omega

theorem addrsBytes_length (l : List Int) : (addrsBytes l).length = 8 * l.length := by
  induction l with
  | nil => rfl
  | cons a l ih => simp only [addrsBytes, List.length_append, addrBytes_length, ih, List.length_cons]; omega

theorem addrsBytes_append (l m : List Int) : addrsBytes (l ++ m) = addrsBytes l ++ addrsBytes m := by
  induction l with
  | nil => rfl
  | cons a l ih => simp [addrsBytes, ih]

theorem bytesAddrs_addrsBytes {l : List Int} (h : ∀ a ∈ l, In64 a) (rest : List UInt8) :
    bytesAddrs l.length (addrsBytes l ++ rest) = l := by
  induction l with
  | nil => rfl
  | cons a l ih =>
    have h8 := addrBytes_length a
    rw [List.length_cons, bytesAddrs, addrsBytes, List.append_assoc,
      List.take_left' h8, List.drop_left' h8, ih fun x hx => h x (List.mem_cons_of_mem _ hx),
      bytesAddr_addrBytes (h a (by simp))]

end Verif.Store
