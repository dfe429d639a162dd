/-
Names of shard files (C23).
-/
import Verif.Names.Proof
namespace Verif.Props
open Verif.Names

/-- **C23.** A shard name generated from a prefix and a range is parsed back to that range. -/
theorem C23_round_trip (pre : List Char) {lo hi : Nat} (h : lo ≤ hi) (hm : hi < 2 ^ 63) :
    parseName (shardName pre lo hi) pre = some (lo, hi) := by
  unfold parseName
  rw [parseRange_name (by omega) hm]
  dsimp only
  rw [if_neg (by omega)]

/-- … also by the second parser, which `Hazel::merge` uses. -/
theorem C23_round_trip_hazel {lo hi : Nat} (h : lo ≤ hi) (hm : hi < 2 ^ 63) :
    parseHazelName (shardName ['h', 'a', 'z', 'e', 'l'] lo hi) = some (lo, hi) :=
  parseRange_name (by omega) hm

/-- **C23.** Different shards have different names. -/
theorem C23_distinct (pre : List Char) {lo hi lo' hi' : Nat} (h1 : lo < 2 ^ 63) (h2 : hi < 2 ^ 63)
    (h3 : lo' < 2 ^ 63) (h4 : hi' < 2 ^ 63) (h : shardName pre lo hi = shardName pre lo' hi') :
    lo = lo' ∧ hi = hi' := by
  have e := parseRange_name (pre := pre) h1 h2
  rw [h, parseRange_name h3 h4] at e
  cases e; exact ⟨rfl, rfl⟩

/-- **C23.** Names of one kind are ordered, as strings, by start and then by end. -/
theorem C23_order (pre : List Char) {lo hi lo' hi' : Nat} (h1 : lo < 2 ^ 63) (h2 : hi < 2 ^ 63)
    (h3 : lo' < 2 ^ 63) (h4 : hi' < 2 ^ 63) :
    shardName pre lo hi < shardName pre lo' hi' ↔ lo < lo' ∨ (lo = lo' ∧ hi < hi') := by
  have b : ∀ n, n < 2 ^ 63 → n < 10 ^ 20 := by intro n h; omega
  have irr : ¬ (pre ++ ['.']) < (pre ++ ['.']) := List.lt_irrefl _
  have irr2 : ¬ (['.'] : List Char) < ['.'] := List.lt_irrefl _
  unfold shardName
  rw [seq2str_fixed (b _ h1), seq2str_fixed (b _ h2), seq2str_fixed (b _ h3), seq2str_fixed (b _ h4)]
  rw [show ∀ x y, pre ++ ['.'] ++ x ++ ['.'] ++ y = (pre ++ ['.']) ++ (x ++ (['.'] ++ y)) by simp,
    show ∀ x y, pre ++ ['.'] ++ x ++ ['.'] ++ y = (pre ++ ['.']) ++ (x ++ (['.'] ++ y)) by simp]
  rw [lt_append_same (a := pre ++ ['.']) rfl,
    lt_append_same (a := fixed 20 lo) (by rw [fixed_length, fixed_length]), lt_append_same (a := ['.']) rfl,
    fixed_lt 20 (b _ h1) (b _ h3), fixed_lt 20 (b _ h2) (b _ h4)]
  constructor
  · rintro (h | ⟨_, h | ⟨h, h' | ⟨_, h'⟩⟩⟩)
    · exact absurd h irr
    · exact .inl h
    · exact absurd h' irr2
    · exact .inr ⟨fixed_inj 20 (b _ h1) (b _ h3) h, h'⟩
  · rintro (h | ⟨rfl, h⟩)
    · exact .inr ⟨rfl, .inl h⟩
    · exact .inr ⟨rfl, .inr ⟨rfl, .inr ⟨rfl, h⟩⟩⟩

/-- **C23.** A name that is accepted is the prefix and two runs of digits, the range is not
empty, and the numbers fit an address. -/
theorem C23_accepted {name pre : List Char} {lo hi : Nat} (h : parseName name pre = some (lo, hi)) :
    lo ≤ hi ∧ hi < 2 ^ 63 ∧ ∃ a b, name = pre ++ ['.'] ++ a ++ ['.'] ++ b ∧
      (∀ c ∈ a ++ b, '0'.toNat ≤ c.toNat ∧ c.toNat ≤ '9'.toNat) := by
  unfold parseName at h
  split at h
  · rename_i a b hr
    split at h
    · cases h
    · cases h
      obtain ⟨x, y, e, hx, hy, _, sy⟩ := parseRange_some hr
      refine ⟨by omega, ?_, x, y, e, ?_⟩
      · unfold stoll at sy
        dsimp only at sy
        split at sy
        · cases sy; assumption
        · cases sy
      · intro c hc
        simp only [allDigits, Bool.and_eq_true, List.all_eq_true] at hx hy
        rcases List.mem_append.1 hc with hc | hc
        · have := hx.2 c hc; simpa [isDigit] using this
        · have := hy.2 c hc; simpa [isDigit] using this
  · cases h

/-- **C23.** The name of a shard of one kind is not taken for a shard of another kind. -/
theorem C23_kinds {pre pre' : List Char} (hd : ∀ c ∈ pre ++ pre', c ≠ '.') (hne : pre ≠ pre') (lo hi : Nat) :
    parseName (shardName pre lo hi) pre' = none := by
  cases h : parseName (shardName pre lo hi) pre' with
  | none => rfl
  | some r =>
    obtain ⟨a, b⟩ := r
    obtain ⟨_, _, x, y, e, _⟩ := C23_accepted h
    exfalso
    apply hne
    have e' : pre ++ '.' :: (seq2str lo ++ ['.'] ++ seq2str hi) = pre' ++ '.' :: (x ++ ['.'] ++ y) := by
      simpa [shardName] using e
    have t1 := (takeWhile_dot (a := pre) (b := seq2str lo ++ ['.'] ++ seq2str hi) fun c hc => hd c (by simp [hc])).1
    have t2 := (takeWhile_dot (a := pre') (b := x ++ ['.'] ++ y) fun c hc => hd c (by simp [hc])).1
    rw [e', t2] at t1
    exact t1.symm

/-- **C23.** The side files of a static merge are found again under its output's range, and are
not listed as shards. -/
theorem C23_sidecar (pre : List Char) {lo hi : Nat} (h : lo ≤ hi) (hm : hi < 2 ^ 63) :
    parseSidecar (sidecarName pre (shardName ['h', 'a', 'z', 'e', 'l'] lo hi)) pre = some (lo, hi) := by
  unfold parseSidecar sidecarName
  dsimp only
  rw [List.take_left' rfl, if_neg (by simp), List.drop_left' rfl]
  exact C23_round_trip _ h hm

/-- A name without the leading zeros is accepted too, so two files can claim the same range:
the text of a name is not determined by its range. -/
theorem C23_unpadded_accepted : parseName ['f', '.', '1', '.', '2'] ['f'] = some (1, 2) ∧
    ['f', '.', '1', '.', '2'] ≠ shardName ['f'] 1 2 := by
  refine ⟨by decide, ?_⟩
  intro h
  have := congrArg List.length h
  have l1 : (seq2str 1).length = 20 := by rw [seq2str_fixed (by omega), fixed_length]
  have l2 : (seq2str 2).length = 20 := by rw [seq2str_fixed (by omega), fixed_length]
  simp [shardName, l1, l2] at this

/-- The parser of `Hazel::merge` accepts a range that ends before it starts; the parser used
when a burrow is opened does not. -/
theorem C23_reversed_range : parseHazelName ['h', 'a', 'z', 'e', 'l', '.', '5', '.', '3'] = some (5, 3) ∧
    parseName ['h', 'a', 'z', 'e', 'l', '.', '5', '.', '3'] ['h', 'a', 'z', 'e', 'l'] = none := by decide

/-! ### Cases -/

example : parseName (shardName ['f', 'i', 'v', 'e', 'r'] 9 10) ['f', 'i', 'v', 'e', 'r'] = some (9, 10) :=
  C23_round_trip _ (by omega) (by omega)
example : shardName ['f'] 9 9 < shardName ['f'] 10 10 := (C23_order _ (by omega) (by omega) (by omega) (by omega)).2 (by omega)
/-- numbers that do not fit an address are refused -/
example : parseName ['f', '.', '0', '.', '9', '2', '2', '3', '3', '7', '2', '0', '3', '6', '8', '5', '4', '7', '7', '5', '8', '0', '8'] ['f'] = none := by decide
example : parseOldSidecar ['h', 'a', 'z', 'e', 'l', '.', '1', '.', '2', '.', 'p', 's', 't'] = some (1, 2) := by decide

end Verif.Props
