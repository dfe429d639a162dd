import Verif.Store.TfdfModel
/-
  The tf/df compressor restores its input.
-/
namespace Verif.Store

/-! ### bits and bytes -/

/-- `k` bits of `n`, lowest first -/
def toBits : Nat → Nat → List Bool
  | 0, _ => []
  | k + 1, n => (n % 2 == 1) :: toBits k (n / 2)

/-- the number with the given bits, lowest first -/
def ofBits : List Bool → Nat
  | [] => 0
  | b :: bs => b.toNat + 2 * ofBits bs

theorem toBits_length (k n : Nat) : (toBits k n).length = k := by
  induction k generalizing n with
  | zero => rfl
  | succ k ih => simp [toBits, ih]

theorem toBits_ofBits (l : List Bool) : toBits l.length (ofBits l) = l := by
  induction l with
  | nil => rfl
  | cons b l ih =>
    rw [List.length_cons, toBits, ofBits]
    have h1 : (b.toNat + 2 * ofBits l) / 2 = ofBits l := by cases b <;> simp <;> omega
    have h2 : ((b.toNat + 2 * ofBits l) % 2 == 1) = b := by cases b <;> simp
    rw [h1, h2, ih]

theorem ofBits_toBits (k n : Nat) (h : n < 2 ^ k) : ofBits (toBits k n) = n := by
  induction k generalizing n with
  | zero => simp at h; simp [toBits, ofBits, h]
  | succ k ih =>
    rw [toBits, ofBits, ih _ (by rw [Nat.div_lt_iff_lt_mul (by decide)]; rw [Nat.pow_succ] at h; exact h)]
    rcases Nat.mod_two_eq_zero_or_one n with h | h <;> simp [h] <;> omega

theorem ofBits_lt (l : List Bool) : ofBits l < 2 ^ l.length := by
  induction l with
  | nil => simp [ofBits]
  | cons b l ih =>
    rw [ofBits, List.length_cons, Nat.pow_succ]
    cases b <;> simp <;> omega

theorem ofBits_append (l m : List Bool) : ofBits (l ++ m) = ofBits l + 2 ^ l.length * ofBits m := by
  induction l with
  | nil => simp [ofBits]
  | cons b l ih =>
    rw [List.cons_append, ofBits, ofBits, ih, List.length_cons, Nat.pow_succ]
    rw [Nat.mul_add, Nat.mul_comm (2 ^ l.length) 2, Nat.mul_assoc]; omega

/-- all bits of some bytes -/
def allBits (l : List UInt8) : List Bool := l.flatMap fun b => toBits 8 b.toNat

theorem allBits_append (l m : List UInt8) : allBits (l ++ m) = allBits l ++ allBits m := by
  simp [allBits]

theorem allBits_length (l : List UInt8) : (allBits l).length = 8 * l.length := by
  induction l with
  | nil => rfl
  | cons b l ih =>
    have : allBits (b :: l) = toBits 8 b.toNat ++ allBits l := by simp [allBits]
    rw [this, List.length_append, toBits_length, ih, List.length_cons]; omega

/-! ### writing -/

/-- the bits pushed so far -/
def Wrote (b : BitsIn) (bs : List Bool) : Prop :=
  ∃ part, part.length < 8 ∧ bs = allBits b.out ++ part ∧ b.current = ofBits part ∧
    b.mask = 2 ^ part.length ∧ b.count = bs.length

theorem wrote_init : Wrote {} [] := ⟨[], by simp, by simp [allBits], rfl, rfl, rfl⟩

theorem Wrote.push {b : BitsIn} {bs : List Bool} (h : Wrote b bs) (x : Bool) :
    Wrote (b.push x) (bs ++ [x]) := by
  obtain ⟨part, h1, h2, h3, h4, h5⟩ := h
  have hcur : (if x then b.current ||| b.mask else b.current) = ofBits (part ++ [x]) := by
    rw [ofBits_append, h3, h4]
    cases x
    · simp [ofBits]
    · simp only [if_true, ofBits, Bool.toNat_true, Nat.mul_zero, Nat.add_zero, Nat.mul_one]
      have := Nat.two_pow_add_eq_or_of_lt (ofBits_lt part) 1
      rw [Nat.mul_one] at this
      rw [Nat.or_comm, ← this, Nat.add_comm]
  have hc : b.count % 8 = part.length := by
    rw [h5, h2, List.length_append, allBits_length]; omega
  unfold BitsIn.push
  simp only
  rw [hcur]
  split
  · rename_i h6
    have h7 : part.length = 7 := by omega
    refine ⟨[], by simp, ?_, rfl, by simp, by simp [h5]⟩
    rw [allBits_append, List.append_nil, h2, List.append_assoc]
    congr 1
    have h8 : (part ++ [x]).length = 8 := by simp [h7]
    have h9 := ofBits_lt (part ++ [x])
    rw [h8] at h9
    have h10 : (UInt8.ofNat (ofBits (part ++ [x]))).toNat = ofBits (part ++ [x]) := by
      simp; omega
    have := toBits_ofBits (part ++ [x])
    rw [h8] at this
    simp [allBits, h10, this]
  · rename_i h6
    refine ⟨part ++ [x], by simp; omega, by simp [h2], rfl, ?_, by simp [h5]⟩
    rw [h4, List.length_append, List.length_singleton, Nat.pow_succ]

theorem Wrote.pushAll {bs : List Bool} : ∀ (l : List Bool) {b : BitsIn}, Wrote b bs →
    Wrote (l.foldl BitsIn.push b) (bs ++ l) := by
  intro l
  induction l generalizing bs with
  | nil => intro b h; simpa using h
  | cons x l ih =>
    intro b h
    have := ih (h.push x)
    simpa using this

theorem Wrote.pad : ∀ (n : Nat) {b : BitsIn} {bs : List Bool}, Wrote b bs →
    (8 - b.count % 8) % 8 ≤ n →
    ∃ z, z < 8 ∧ Wrote (padBits n b) (bs ++ List.replicate z false) ∧ (padBits n b).count % 8 = 0 ∧
      z ≤ n := by
  intro n
  induction n with
  | zero => intro b bs h hn; exact ⟨0, by omega, by simpa [padBits] using h, by simp [padBits]; omega, by omega⟩
  | succ n ih =>
    intro b bs h hn
    rw [padBits]
    split
    · rename_i hc
      have hcount : (b.push false).count = b.count + 1 := by
        unfold BitsIn.push; simp only; split <;> rfl
      obtain ⟨z, h1, h2, h3, h4⟩ := ih (h.push false) (by rw [hcount]; omega)
      by_cases hz : z + 1 < 8
      · refine ⟨z + 1, hz, ?_, h3, by omega⟩
        rw [List.replicate_succ]; simpa using h2
      · exfalso
        obtain ⟨part, g1, g2, g3, g4, g5⟩ := h2
        obtain ⟨part', g1', g2', g3', g4', g5'⟩ := h
        rw [g5] at h3
        simp only [List.length_append, List.length_replicate, List.length_singleton] at h3
        omega
    · rename_i hc
      exact ⟨0, by omega, by simpa using h, by omega, by omega⟩

/-! ### reading -/

/-- the bits still to be read -/
def Left (o : BitsOut) (bs : List Bool) : Prop :=
  o.front + bs.length = o.count ∧ (bs = [] → o.current = 0) ∧
  (bs ≠ [] → ∃ part junk, part.length = 8 - o.front % 8 ∧ o.current = ofBits part ∧
    part ++ allBits o.next = bs ++ junk)

theorem Left.make {bytes : List UInt8} {bs junk : List Bool} (h : allBits bytes = bs ++ junk) :
    ∃ o, BitsOut.make bytes bs.length = some o ∧ Left o bs ∧ o.count = bs.length := by
  unfold BitsOut.make
  cases bs with
  | nil => exact ⟨_, rfl, ⟨rfl, fun _ => rfl, fun h => absurd rfl h⟩, rfl⟩
  | cons x bs =>
    rw [if_pos (by simp)]
    cases bytes with
    | nil => simp [allBits] at h
    | cons b bytes =>
      refine ⟨_, rfl, ⟨by simp, fun h => by simp at h, fun _ => ⟨toBits 8 b.toNat, junk, ?_, ?_, ?_⟩⟩, rfl⟩
      · simp [toBits_length]
      · exact (ofBits_toBits 8 _ b.toNat_lt).symm
      · rw [← h]; simp [allBits]

theorem Left.bit {o : BitsOut} {b : Bool} {bs : List Bool} (h : Left o (b :: bs)) : o.bit = b := by
  obtain ⟨h1, _, h3⟩ := h
  obtain ⟨part, junk, g1, g2, g3⟩ := h3 (by simp)
  match part, g1, g2, g3 with
  | [], g1, _, _ => simp at g1; omega
  | x :: part, g1, g2, g3 =>
    simp only [List.cons_append, List.cons.injEq] at g3
    rw [BitsOut.bit, g2, ofBits, g3.1]
    cases b <;> simp

theorem Left.empty {o : BitsOut} {bs : List Bool} (h : Left o bs) : o.empty = bs.isEmpty := by
  obtain ⟨h1, _⟩ := h
  unfold BitsOut.empty
  cases bs with
  | nil => simp at h1; simp [h1]
  | cons => simp at h1; simp; omega

theorem Left.pop {o : BitsOut} {b : Bool} {bs : List Bool} (h : Left o (b :: bs)) :
    ∃ o', o.pop = some o' ∧ Left o' bs ∧ o'.count = o.count := by
  obtain ⟨h1, _, h3⟩ := h
  obtain ⟨part, junk, g1, g2, g3⟩ := h3 (by simp)
  rw [List.length_cons] at h1
  unfold BitsOut.pop
  simp only
  by_cases he : bs = []
  · subst he
    simp at h1
    rw [if_pos (by omega)]
    exact ⟨_, rfl, ⟨by simpa using h1, fun _ => rfl, fun h => absurd rfl h⟩, rfl⟩
  · have : bs.length ≠ 0 := by simpa using he
    rw [if_neg (by omega)]
    match part, g1, g2, g3 with
    | [], g1, _, _ => simp at g1; omega
    | x :: part, g1, g2, g3 =>
      simp only [List.cons_append, List.cons.injEq] at g3
      rw [List.length_cons] at g1
      split
      · rename_i h8
        have : part = [] := by
          apply List.eq_nil_of_length_eq_zero; omega
        subst this
        rw [List.nil_append] at g3
        cases hn : o.next with
        | nil =>
          exfalso
          rw [hn] at g3
          have := g3.2
          simp [allBits] at this
          exact he this.1
        | cons c next =>
          refine ⟨_, rfl, ⟨by simp; omega, fun h => absurd h he, fun _ => ⟨toBits 8 c.toNat, junk, ?_, ?_, ?_⟩⟩, rfl⟩
          · simp [toBits_length, h8]
          · exact (ofBits_toBits 8 _ c.toNat_lt).symm
          · rw [← g3.2, hn]; simp [allBits]
      · rename_i h8
        refine ⟨_, rfl, ⟨by simp; omega, fun h => absurd h he, fun _ => ⟨part, junk, ?_, ?_, ?_⟩⟩, rfl⟩
        · simp; omega
        · simp only [g2, ofBits]
          cases x <;> simp; omega
        · exact g3.2

/-! ### one value -/

theorem topBit_spec {a : Nat} (h0 : 1 ≤ a) (h1 : a < 2 ^ 31) :
    2 ^ topBit a ≤ a ∧ a < 2 ^ (topBit a + 1) ∧ topBit a ≤ 30 := by
  have key : ∀ n, let t := (List.range n).foldl (fun j i => if a.testBit i then i else j) 0
      (a % 2 ^ n = 0 ∧ t = 0) ∨ (2 ^ t ≤ a % 2 ^ n ∧ a % 2 ^ n < 2 ^ (t + 1) ∧ t < n) := by
    intro n
    induction n with
    | zero => left; simp [Nat.mod_one]
    | succ n ih =>
      simp only [List.range_succ, List.foldl_append, List.foldl_cons, List.foldl_nil]
      have hm : a % 2 ^ (n + 1) = a % 2 ^ n + 2 ^ n * (a.testBit n).toNat := by
        rw [Nat.mod_pow_succ, Nat.testBit_eq_decide_div_mod_eq]
        rcases Nat.mod_two_eq_zero_or_one (a / 2 ^ n) with h | h <;> simp [h]
      have hlt : a % 2 ^ n < 2 ^ n := Nat.mod_lt _ (Nat.pow_pos (by decide))
      by_cases hb : a.testBit n = true
      · rw [if_pos hb]
        right
        rw [hm, hb]
        simp only [Bool.toNat_true, Nat.mul_one]
        refine ⟨by omega, ?_, by omega⟩
        rw [Nat.pow_succ]; omega
      · rw [if_neg hb]
        have hb' : a.testBit n = false := by simpa using hb
        rw [hm, hb']
        simp only [Bool.toNat_false, Nat.mul_zero, Nat.add_zero] at ih ⊢
        rcases ih with ⟨h, h'⟩ | ⟨h, h', h''⟩
        · exact Or.inl ⟨h, h'⟩
        · exact Or.inr ⟨h, h', by omega⟩
  have := key 31
  rw [Nat.mod_eq_of_lt h1] at this
  rcases this with ⟨h, _⟩ | ⟨h, h', h''⟩
  · omega
  · exact ⟨h, h', by unfold topBit; omega⟩

theorem gammaBits_length (j a : Nat) : (gammaBits j a).length = 2 * j + 1 := by
  induction j generalizing a with
  | zero => rfl
  | succ j ih => simp [gammaBits, ih]; omega

theorem gammaBits_last (j a : Nat) : ∃ l, gammaBits j a = l ++ [true] := by
  induction j generalizing a with
  | zero => exact ⟨[], rfl⟩
  | succ j ih =>
    obtain ⟨l, h⟩ := ih (a / 2)
    exact ⟨false :: (a % 2 == 1) :: l, by rw [gammaBits, h]; rfl⟩

theorem tangAddr_gamma : ∀ (j a : Nat), 2 ^ j ≤ a → a < 2 ^ (j + 1) → ∀ (n acc mask : Nat)
    (o : BitsOut) (rest : List Bool), j < n → Left o (gammaBits j a ++ rest) →
    ∃ o', tangAddr n acc mask o = some (acc + mask * a, o') ∧ Left o' rest ∧ o'.count = o.count := by
  intro j
  induction j with
  | zero =>
    intro a h1 h2 n acc mask o rest hn hl
    match n, hn with
    | n + 1, _ =>
      rw [gammaBits, List.singleton_append] at hl
      obtain ⟨o', e1, e2, e3⟩ := hl.pop
      have hb := hl.bit
      refine ⟨o', ?_, e2, e3⟩
      rw [tangAddr, hb, if_neg (by simp), e1]
      have : a = 1 := by simp at h1 h2; omega
      subst this
      simp
  | succ j ih =>
    intro a h1 h2 n acc mask o rest hn hl
    match n, hn with
    | n + 1, hn =>
      rw [gammaBits, List.cons_append, List.cons_append] at hl
      obtain ⟨o1, e1, e2, e3⟩ := hl.pop
      obtain ⟨o2, g1, g2, g3⟩ := e2.pop
      obtain ⟨o', k1, k2, k3⟩ := ih (a / 2)
        (by rw [Nat.le_div_iff_mul_le (by decide)]; rw [Nat.pow_succ] at h1; exact h1)
        (by rw [Nat.div_lt_iff_lt_mul (by decide)]; rw [Nat.pow_succ] at h2; exact h2)
        n (if o1.bit then acc + mask else acc) (mask * 2) o2 rest (by omega) g2
      refine ⟨o', ?_, k2, by rw [k3, g3, e3]⟩
      rw [tangAddr, hl.bit, if_pos rfl, e1]
      simp only [Option.bind_eq_bind, Option.bind_some, g1]
      rw [k1, e2.bit]
      congr 2
      have : a = a % 2 + 2 * (a / 2) := by omega
      conv => rhs; rw [this, Nat.mul_add, ← Nat.mul_assoc]
      rcases Nat.mod_two_eq_zero_or_one a with h | h <;> simp [h]; omega

/-! ### lists of values -/

/-- values the coder can represent -/
def Small (a : Int) : Prop := 1 ≤ a ∧ a ≤ 1073741824

theorem crushAddr_small {a : Int} (h : Small a) :
    crushAddr a = some (gammaBits (topBit a.toNat) a.toNat) := by
  unfold Small at h
  rw [crushAddr, if_neg (by omega)]

/-- the bits of a list of values -/
def listBits (l : List Int) : List Bool := l.flatMap fun a => gammaBits (topBit a.toNat) a.toNat

theorem listBits_cons (a : Int) (l : List Int) :
    listBits (a :: l) = gammaBits (topBit a.toNat) a.toNat ++ listBits l := by simp [listBits]

theorem crushVals_ok : ∀ (l : List Int), (∀ a ∈ l, Small a) → ∀ (b : BitsIn) (bs : List Bool),
    Wrote b bs → ∃ b', crushVals b l = some b' ∧ Wrote b' (bs ++ listBits l) := by
  intro l
  induction l with
  | nil => intro _ b bs h; exact ⟨b, rfl, by simpa [listBits] using h⟩
  | cons a l ih =>
    intro hs b bs h
    obtain ⟨b', h1, h2⟩ := ih (fun x hx => hs x (List.mem_cons_of_mem _ hx)) _ _
      (h.pushAll (gammaBits (topBit a.toNat) a.toNat))
    refine ⟨b', ?_, ?_⟩
    · rw [crushVals, crushAddr_small (hs a (by simp))]; exact h1
    · rw [listBits_cons, ← List.append_assoc]; exact h2

theorem crushVals_none : ∀ (l : List Int), (∃ a ∈ l, ¬ Small a) → ∀ b, crushVals b l = none := by
  intro l
  induction l with
  | nil => rintro ⟨a, ha, _⟩; simp at ha
  | cons x l ih =>
    rintro ⟨a, ha, hs⟩ b
    rw [crushVals]
    by_cases hx : Small x
    · rw [crushAddr_small hx]
      refine ih ⟨a, ?_, hs⟩ _
      rcases List.mem_cons.1 ha with rfl | ha
      · exact absurd hx hs
      · exact ha
    · rw [crushAddr, if_pos]
      unfold Small at hx; omega

theorem listBits_length (l : List Int) (h : ∀ a ∈ l, Small a) :
    l.length ≤ (listBits l).length ∧ (listBits l).length ≤ 61 * l.length := by
  induction l with
  | nil => simp [listBits]
  | cons a l ih =>
    have ha := h a (by simp)
    unfold Small at ha
    have := topBit_spec (a := a.toNat) (by omega) (by omega)
    have := ih fun x hx => h x (List.mem_cons_of_mem _ hx)
    rw [listBits_cons, List.length_append, gammaBits_length, List.length_cons]
    omega

theorem listBits_last {l : List Int} (h : l ≠ []) : ∃ m, listBits l = m ++ [true] := by
  induction l with
  | nil => exact absurd rfl h
  | cons a l ih =>
    rw [listBits_cons]
    by_cases hl : l = []
    · subst hl; obtain ⟨m, hm⟩ := gammaBits_last (topBit a.toNat) a.toNat
      exact ⟨m, by simp [hm, listBits]⟩
    · obtain ⟨m, hm⟩ := ih hl
      exact ⟨_ ++ m, by rw [hm, List.append_assoc]⟩

theorem tangVals_ok : ∀ (l : List Int), (∀ a ∈ l, Small a) → ∀ (n : Nat) (o : BitsOut),
    l.length ≤ n → Left o (listBits l) → tangVals n o = some l := by
  intro l
  induction l with
  | nil =>
    intro _ n o _ h
    have he := Left.empty h
    simp [listBits] at he
    cases n <;> simp [tangVals, he]
  | cons a l ih =>
    intro hs n o hn h
    match n, hn with
    | n + 1, hn =>
      have ha := hs a (by simp)
      unfold Small at ha
      obtain ⟨t1, t2, t3⟩ := topBit_spec (a := a.toNat) (by omega) (by omega)
      have he := Left.empty h
      rw [listBits_cons] at h he
      have hne : (gammaBits (topBit a.toNat) a.toNat ++ listBits l).isEmpty = false := by
        rw [List.isEmpty_eq_false_iff]
        intro hh
        have := congrArg List.length hh
        rw [List.length_append, gammaBits_length] at this
        simp at this
      rw [hne] at he
      have hcount : topBit a.toNat < o.count + 1 := by
        have h1 := h.1
        rw [List.length_append, gammaBits_length] at h1
        omega
      obtain ⟨o', k1, k2, k3⟩ := tangAddr_gamma _ _ t1 t2 (o.count + 1) 0 1 o _ hcount h
      rw [tangVals, he]
      simp only [Bool.false_eq_true, if_false, k1, Option.bind_eq_bind, Option.bind_some, Nat.one_mul,
        Nat.zero_add]
      rw [ih (fun x hx => hs x (List.mem_cons_of_mem _ hx)) n o' (by simp at hn; omega) k2]
      simp
      omega

/-! ### the last byte -/

theorem dropTop_ok : ∀ (i : Nat) (m : List Bool) (z count : Nat), m.length + 1 + z = i + 1 →
    dropTop (ofBits (m ++ [true] ++ List.replicate z false)) i count = count - z := by
  intro i
  have val : ∀ (m : List Bool) (z : Nat), ofBits (m ++ [true] ++ List.replicate z false) =
      ofBits m + 2 ^ m.length := by
    intro m z
    have : ofBits (List.replicate z false) = 0 := by
      induction z with
      | zero => rfl
      | succ z ih => rw [List.replicate_succ, ofBits, ih]; rfl
    rw [ofBits_append, ofBits_append, this]
    simp [ofBits]
  have tb : ∀ (m : List Bool) (z k : Nat), (ofBits (m ++ [true] ++ List.replicate z false)).testBit (m.length + k)
      = (k == 0) := by
    intro m z k
    rw [val]
    have hlt := ofBits_lt m
    cases k with
    | zero => 
      rw [Nat.add_zero, Nat.add_comm, Nat.testBit_two_pow_add_eq, Nat.testBit_lt_two_pow hlt]; rfl
    | succ k =>
      rw [Nat.testBit_lt_two_pow]
      · simp
      · have : 2 ^ (m.length + 1) ≤ 2 ^ (m.length + (k + 1)) := Nat.pow_le_pow_right (by decide) (by omega)
        rw [Nat.pow_succ] at this
        omega
  induction i with
  | zero =>
    intro m z count h
    have hm : m.length = 0 := by omega
    have hz : z = 0 := by omega
    have := tb m z 0
    rw [hm] at this
    rw [dropTop, this, hz]; rfl
  | succ i ih =>
    intro m z count h
    rw [dropTop]
    have := tb m z z
    rw [show m.length + z = i + 1 by omega] at this
    rw [this]
    cases z with
    | zero => simp
    | succ z =>
      have hv : ofBits (m ++ [true] ++ List.replicate (z + 1) false) =
          ofBits (m ++ [true] ++ List.replicate z false) := by rw [val, val]
      rw [hv, ih m z (count - 1) (by omega)]
      simp; omega

/-- the compressed form and what it decompresses to -/
theorem tfdf_ok (component : Bool) {l : List Int} (h64 : ∀ a ∈ l, In64 a)
    (hc : component = true → ∀ a ∈ l, Small a) :
    ∃ c, tfdfCrush component (addrsBytes l) = some c ∧
      c.length ≤ (addrsBytes l).length + tfdfExtra (addrsBytes l).length ∧
      tfdfTang component c = some (addrsBytes l) := by
  have hlen := addrsBytes_length l
  by_cases hne : l = []
  · subst hne; exact ⟨[], rfl, by simp, rfl⟩
  have hl0 : l.length ≠ 0 := by simpa using hne
  have hb : bytesAddrs ((addrsBytes l).length / 8) (addrsBytes l) = l := by
    have := bytesAddrs_addrsBytes h64 []
    rw [List.append_nil] at this
    rw [hlen, Nat.mul_div_cancel_left _ (by decide), this]
  by_cases hs : ∀ a ∈ l, Small a
  · obtain ⟨b, h1, h2⟩ := crushVals_ok l hs {} [] wrote_init
    rw [List.nil_append] at h2
    obtain ⟨z, hz, h3, h4, _⟩ := h2.pad 7 (by omega)
    obtain ⟨m, hm⟩ := listBits_last hne
    have hbits := listBits_length l hs
    obtain ⟨part, g1, g2, -, -, g5⟩ := h3
    generalize hout : (padBits 7 b).out = out at g2
    have hpart : part = [] := by
      apply List.eq_nil_of_length_eq_zero
      rw [g5, g2, List.length_append, allBits_length] at h4; omega
    subst hpart
    rw [List.append_nil] at g2
    have hol : (listBits l).length + z = 8 * out.length := by
      have := congrArg List.length g2
      rw [List.length_append, List.length_replicate, allBits_length] at this; exact this
    -- the last byte
    have hone : out ≠ [] := by
      intro h; subst h; simp only [List.length_nil] at hol; omega
    obtain ⟨init, last, rfl⟩ : ∃ init last, out = init ++ [last] :=
      ⟨out.dropLast, out.getLast hone, (List.dropLast_concat_getLast hone).symm⟩
    have hlast : ∃ m', m'.length + 1 + z = 8 ∧
        last.toNat = ofBits (m' ++ [true] ++ List.replicate z false) := by
      rw [hm, allBits_append, List.append_assoc] at g2
      have h5 := congrArg (List.drop (allBits init).length) g2
      rw [List.drop_left] at h5
      have hle : (allBits init).length ≤ m.length := by
        rw [allBits_length]
        rw [hm] at hol
        simp only [List.length_append, List.length_singleton] at hol
        omega
      rw [List.drop_append_of_le_length hle] at h5
      refine ⟨m.drop (allBits init).length, ?_, ?_⟩
      · have h6 := congrArg List.length h5
        simp only [List.length_append, List.length_replicate, List.length_singleton,
          allBits_length] at h6 ⊢
        omega
      · rw [List.append_assoc, h5]
        simp only [allBits, List.flatMap_cons, List.flatMap_nil, List.append_nil]
        exact (ofBits_toBits 8 _ last.toNat_lt).symm
    obtain ⟨m', hm1, hm2⟩ := hlast
    have hlne : last ≠ 0 := by
      intro h
      have h0 : last.toNat = 0 := by rw [h]; rfl
      rw [hm2, ofBits_append, ofBits_append] at h0
      simp [ofBits] at h0
    have hdrop := dropTop_ok 7 m' z (8 * (init ++ [last]).length) (by omega)
    rw [← hm2] at hdrop
    have hdrop' : dropTop last.toNat 7 (8 * (init ++ [last]).length) = (listBits l).length := by
      rw [hdrop]; omega
    -- decoding
    obtain ⟨o, k1, k2, k3⟩ := Left.make g2.symm
    have hv := tangVals_ok l hs (listBits l).length o hbits.1 k2
    have hg : (init ++ [last]).getLast? = some last := by simp
    have hd : tfdfDecode (init ++ [last]) = some (addrsBytes l) := by
      rw [tfdfDecode, hg]
      simp only
      rw [if_neg hlne, hdrop', k1]
      simp only
      rw [hv]; rfl
    have hdec : ∀ comp : Bool, tfdfTang comp (init ++ [last]) = some (addrsBytes l) ∨
        (comp = false ∧ (init ++ [last]).length % 8 = 0) := by
      intro comp
      by_cases h8 : comp = false ∧ (init ++ [last]).length % 8 = 0
      · exact Or.inr h8
      · left
        rw [tfdfTang, if_neg (by simp), if_neg (by cases comp <;> simp_all)]
        rw [if_neg (by rw [hg]; simp [hlne]), hd]
    have hcr : tfdfCrush component (addrsBytes l) =
        if component = false ∧ (init ++ [last]).length % 8 = 0 then some (init ++ [last] ++ [0])
        else some (init ++ [last]) := by
      rw [tfdfCrush, if_neg (by omega), if_neg (by omega), hb, h1]
      simp only [hout]
      cases component <;> simp
    have hsize : 8 * (init ++ [last]).length ≤ 61 * l.length + 7 := by omega
    rw [hcr]
    split
    · rename_i h8
      refine ⟨_, rfl, ?_, ?_⟩
      · rw [List.length_append, hlen, tfdfExtra]; simp only [List.length_singleton]; omega
      · have h9 : (init ++ [last] ++ [0]).length = (init ++ [last]).length + 1 := by simp
        rw [tfdfTang, if_neg (by omega), if_neg (by omega)]
        have hg0 : (init ++ [last] ++ [0]).getLast? = some 0 := by simp
        rw [if_pos ⟨by simp [h8.1], hg0⟩, List.dropLast_concat, hd]
    · rename_i h8
      refine ⟨_, rfl, by rw [hlen, tfdfExtra]; omega, ?_⟩
      rcases hdec component with h | h
      · exact h
      · exact absurd h h8
  · have hcf : component = false := by
      cases component with
      | false => rfl
      | true => exact absurd (hc rfl) hs
    subst hcf
    have : ∃ a ∈ l, ¬ Small a := by
      apply Classical.byContradiction
      intro h; apply hs; intro a ha
      apply Classical.byContradiction
      intro h'; exact h ⟨a, ha, h'⟩
    refine ⟨addrsBytes l, ?_, by omega, ?_⟩
    · rw [tfdfCrush, if_neg (by omega), if_neg (by omega), hb, crushVals_none l this]; rfl
    · rw [tfdfTang, if_neg (by omega), if_pos ⟨rfl, by omega⟩]

end Verif.Store
