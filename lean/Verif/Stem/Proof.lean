import Verif.Stem.Model
/-
  The stemmer does what the rules say.
-/
namespace Verif.Stem

/-! ### consonants and vowels -/

def kind (p : Bool) (c : UInt8) : Bool := if c ∈ w!"aeiou" then false else if c = 0x79 then !p else true

theorem kindsFrom_cons (p : Bool) (c : UInt8) (w : Word) : kindsFrom p (c :: w) = kind p c :: kindsFrom (kind p c) w := rfl

theorem kindsFrom_length : ∀ (w : Word) (p : Bool), (kindsFrom p w).length = w.length := by
  intro w
  induction w with
  | nil => intro p; rfl
  | cons c w ih => intro p; rw [kindsFrom_cons, List.length_cons, List.length_cons, ih]

theorem kinds_length (w : Word) : (kinds w).length = w.length := kindsFrom_length w false

theorem kindsFrom_zero (p : Bool) (w : Word) : (kindsFrom p w)[0]? = w[0]?.map (kind p) := by
  cases w with
  | nil => rfl
  | cons c w => simp [kindsFrom_cons]

theorem kindsFrom_succ : ∀ (w : Word) (p : Bool) (i : Nat), (kindsFrom p w)[i + 1]? =
    (kindsFrom p w)[i]?.bind fun k => w[i + 1]?.map (kind k) := by
  intro w
  induction w with
  | nil => intro p i; simp [kindsFrom]
  | cons c w ih =>
    intro p i
    rw [kindsFrom_cons]
    cases i with
    | zero => simp [kindsFrom_zero]
    | succ i => simp [ih]

theorem kindsFrom_append : ∀ (u v : Word) (p : Bool), (kindsFrom p (u ++ v)).take u.length = kindsFrom p u := by
  intro u
  induction u with
  | nil => intro v p; simp [kindsFrom]
  | cons c u ih => intro v p; simp [kindsFrom_cons, ih]

theorem kinds_take (u v : Word) : (kinds (u ++ v)).take u.length = kinds u := kindsFrom_append u v false

theorem kinds_prefix (u v : Word) : ∃ l, kinds (u ++ v) = kinds u ++ l ∧ l.length = v.length := by
  refine ⟨(kinds (u ++ v)).drop u.length, ?_, ?_⟩
  · rw [← kinds_take u v, List.take_append_drop]
  · rw [List.length_drop, kinds_length, List.length_append]; omega

theorem kind_vowel (p : Bool) (c : UInt8) (h : c = 0x61 ∨ c = 0x65 ∨ c = 0x69 ∨ c = 0x6F ∨ c = 0x75) : kind p c = false := by
  unfold kind
  rw [if_pos (by simpa using h)]

theorem kind_y (p : Bool) : kind p 0x79 = !p := by cases p <;> decide

theorem kind_other (p : Bool) (c : UInt8) (h : ¬(c = 0x61 ∨ c = 0x65 ∨ c = 0x69 ∨ c = 0x6F ∨ c = 0x75)) (hy : c ≠ 0x79) :
    kind p c = true := by
  unfold kind
  rw [if_neg (by simpa using h), if_neg hy]

theorem cons_eq (b : Word) : ∀ i, Code.cons b i = (kinds b)[i]? := by
  intro i
  induction i with
  | zero =>
    rw [Code.cons]
    unfold kinds
    rw [kindsFrom_zero]
    cases b[0]? with
    | none => rfl
    | some c =>
      simp only [Option.map_some]
      split
      · rename_i h; rw [kind_vowel _ _ h]
      · rename_i h
        by_cases hy : c = 0x79
        · rw [hy, kind_y]; rfl
        · rw [kind_other _ _ h hy]
  | succ i ih =>
    rw [Code.cons, ih]
    unfold kinds
    rw [kindsFrom_succ]
    cases hb : b[i + 1]? with
    | none => cases (kindsFrom false b)[i]? <;> rfl
    | some c =>
      have hlt : i < (kindsFrom false b).length := by
        rw [kindsFrom_length]
        have := (List.getElem?_eq_some_iff.1 hb).1
        omega
      rw [List.getElem?_eq_getElem hlt]
      simp only [Option.bind_some, Option.map_some]
      split
      · rename_i h; rw [kind_vowel _ _ h]
      · rename_i h
        split
        · rename_i hy; subst hy; rw [kind_y]
        · rename_i hy; rw [kind_other _ _ h hy]

theorem turns_true (l : List Bool) : turns (true :: l) = turns l := by
  cases l with
  | nil => rfl
  | cons a l => simp [turns]

theorem turns_cons (a b : Bool) (l : List Bool) : turns (a :: b :: l) = turns (b :: l) + if !a && b then 1 else 0 := rfl

theorem turns_snoc_false : ∀ l : List Bool, turns (l ++ [false]) = turns l
  | [] => rfl
  | [a] => by cases a <;> rfl
  | a :: b :: l => by
    rw [List.cons_append, List.cons_append, turns_cons, turns_cons, ← List.cons_append, turns_snoc_false (b :: l)]

theorem mLoop_eq (b : Word) : ∀ (L : List Bool) (i : Nat) (n : Nat), (∃ t, (kinds b).drop i = L ++ t) →
    Code.mLoop b L.length i .skip n = some (n + turns (true :: L)) ∧
    Code.mLoop b L.length i .vowels n = some (n + turns (false :: L)) ∧
    Code.mLoop b L.length i .consonants n = some (n + turns (true :: L)) := by
  intro L
  induction L with
  | nil => intro i n _; simp [Code.mLoop, turns]
  | cons a L ih =>
    intro i n ⟨t, ht⟩
    have h1 : Code.cons b i = some a := by
      rw [cons_eq]
      have := congrArg (·[0]?) ht
      simpa using this
    have h2 : ∃ t, (kinds b).drop (i + 1) = L ++ t := by
      refine ⟨t, ?_⟩
      have := congrArg (List.drop 1) ht
      simpa [Nat.add_comm] using this
    have ih1 := fun n => ih (i + 1) n h2
    simp only [List.length_cons, Code.mLoop, h1]
    cases a
    · simp [ih1, turns_cons]
    · simp [ih1, turns_cons, Nat.add_assoc, Nat.add_comm 1]

theorem vowelLoop_eq (b : Word) : ∀ (L : List Bool) (i : Nat), (∃ t, (kinds b).drop i = L ++ t) →
    Code.vowelLoop b L.length i = some (decide (false ∈ L)) := by
  intro L
  induction L with
  | nil => intro i _; simp [Code.vowelLoop]
  | cons a L ih =>
    intro i ⟨t, ht⟩
    have h1 : Code.cons b i = some a := by
      rw [cons_eq]
      have := congrArg (·[0]?) ht
      simpa using this
    have h2 : ∃ t, (kinds b).drop (i + 1) = L ++ t := by
      refine ⟨t, ?_⟩
      have := congrArg (List.drop 1) ht
      simpa [Nat.add_comm] using this
    simp only [List.length_cons, Code.vowelLoop, h1, ih _ h2]
    cases a <;> simp

/-! ### the buffer -/

/-- the first letters of the buffer of `N` bytes are the word -/
structure Rep (N : Nat) (st : Code.St) (w : Word) : Prop where
  buf : ∃ t, st.b = w ++ t ∧ w.length + t.length = N
  k : st.k = (w.length : Int) - 1
  ne : w ≠ []

/-- `j` is the end of the letters `u` of the buffer -/
structure Upto (st : Code.St) (u : Word) : Prop where
  pre : ∃ t, st.b = u ++ t
  j : st.j = (u.length : Int) - 1

theorem Upto.m {st : Code.St} {u : Word} (h : Upto st u) : Code.m st = some (measure u) := by
  obtain ⟨⟨t, ht⟩, hj⟩ := h
  have e : (st.j + 1).toNat = (kinds u).length := by rw [hj, kinds_length]; omega
  obtain ⟨l, hl, -⟩ := kinds_prefix u t
  unfold Code.m
  rw [e, (mLoop_eq st.b (kinds u) 0 0 ⟨l, by rw [ht, List.drop_zero, hl]⟩).1, turns_true, Nat.zero_add]
  rfl

theorem Upto.vowel {st : Code.St} {u : Word} (h : Upto st u) : Code.vowelinstem st = some (hasVowel u) := by
  obtain ⟨⟨t, ht⟩, hj⟩ := h
  have e : (st.j + 1).toNat = (kinds u).length := by rw [hj, kinds_length]; omega
  obtain ⟨l, hl, -⟩ := kinds_prefix u t
  unfold Code.vowelinstem
  rw [e, vowelLoop_eq st.b (kinds u) 0 ⟨l, by rw [ht, List.drop_zero, hl]⟩]
  rfl

theorem rd_at {st : Code.St} {w t : Word} (h : st.b = w ++ t) {below : Option UInt8} {i : Nat} (hi : i < w.length) :
    Code.rd below st (i : Int) = w[i]? := by
  unfold Code.rd
  rw [if_neg (by omega), if_neg (by omega), h, Int.toNat_natCast, List.getElem?_append_left hi]

theorem consAt_at {st : Code.St} {w t : Word} (h : st.b = w ++ t) {i : Nat} (hi : i < w.length) :
    Code.consAt st.b (i : Int) = (kinds w)[i]? := by
  unfold Code.consAt
  obtain ⟨l, hl, -⟩ := kinds_prefix w t
  rw [if_neg (by omega), cons_eq, Int.toNat_natCast, h, hl, List.getElem?_append_left (by rw [kinds_length]; exact hi)]

/-- the letter `i` places before the last -/
theorem Rep.rd {N : Nat} {st : Code.St} {w : Word} (h : Rep N st w) {below : Option UInt8} {i : Nat} (hi : i < w.length) :
    Code.rd below st (st.k - i) = w.reverse[i]? := by
  obtain ⟨⟨t, ht, -⟩, hk, -⟩ := h
  have e : st.k - i = ((w.length - 1 - i : Nat) : Int) := by rw [hk]; omega
  rw [e, rd_at ht (by omega), List.getElem?_reverse hi]

theorem Rep.rd0 {N : Nat} {st : Code.St} {w : Word} (h : Rep N st w) {below : Option UInt8} :
    Code.rd below st st.k = w.reverse[0]? := by
  have := h.rd (below := below) (i := 0) (List.length_pos_iff.2 h.ne)
  simpa using this

theorem Rep.le {N : Nat} {st : Code.St} {w : Word} (h : Rep N st w) : w.length ≤ N := by
  obtain ⟨⟨t, -, ht⟩, -, -⟩ := h; omega

theorem Rep.set_j {N : Nat} {st : Code.St} {w : Word} (h : Rep N st w) (j : Int) : Rep N { st with j := j } w :=
  ⟨h.buf, h.k, h.ne⟩

/-- cutting off letters -/
theorem Rep.cut {N : Nat} {st : Code.St} {w u v : Word} (h : Rep N st w) (e : w = u ++ v) (hu : u ≠ []) {k : Int}
    (hk : k = (u.length : Int) - 1) : Rep N { st with k := k } u := by
  obtain ⟨⟨t, ht, hN⟩, -, -⟩ := h
  subst e
  refine ⟨⟨v ++ t, by rw [← List.append_assoc]; exact ht, ?_⟩, hk, hu⟩
  rw [List.length_append] at hN ⊢; omega

theorem suffix_split {s w : Word} (h : s.isSuffixOf w = true) : w = less w s.length ++ s := by
  rw [List.isSuffixOf_iff_suffix] at h
  obtain ⟨u, rfl⟩ := h
  simp [less]

theorem less_length (w : Word) (n : Nat) : (less w n).length = w.length - n := by
  unfold less; rw [List.length_take]; omega

theorem ends_eq {N : Nat} {st : Code.St} {w : Word} (h : Rep N st w) {below : Option UInt8} {s : Word} (hs : s ≠ []) :
    Code.ends below s st = some (s.isSuffixOf w, if s.isSuffixOf w then { st with j := st.k - s.length } else st) := by
  obtain ⟨x, c, rfl⟩ : ∃ x c, w = x ++ [c] := ⟨w.dropLast, w.getLast h.ne, (List.dropLast_concat_getLast h.ne).symm⟩
  obtain ⟨y, d, rfl⟩ : ∃ y d, s = y ++ [d] := ⟨s.dropLast, s.getLast hs, (List.dropLast_concat_getLast hs).symm⟩
  have hr : Code.rd below st st.k = some c := by rw [h.rd0]; simp
  obtain ⟨t, ht, hN⟩ := h.buf
  have hk := h.k
  unfold Code.ends
  simp only [List.getLast?_concat, hr, bind, Option.bind_some]
  by_cases hd : d = c
  · subst hd
    rw [if_neg (by simp)]
    split
    · rename_i hl
      have : (y ++ [d]).isSuffixOf (x ++ [d]) = false := by
        rw [Bool.eq_false_iff]
        intro hh
        rw [List.isSuffixOf_iff_suffix] at hh
        have := hh.length_le
        omega
      rw [this]; rfl
    · rename_i hl
      have hle : (y ++ [d]).length ≤ (x ++ [d]).length := by omega
      have e : (st.k - (y ++ [d]).length + 1).toNat = (x ++ [d]).length - (y ++ [d]).length := by omega
      have e2 : (st.b.drop ((x ++ [d]).length - (y ++ [d]).length)).take (y ++ [d]).length =
          (x ++ [d]).drop ((x ++ [d]).length - (y ++ [d]).length) := by
        rw [ht, List.drop_append_of_le_length (by omega)]
        rw [List.take_append_of_le_length (by rw [List.length_drop]; omega)]
        rw [List.take_of_length_le (by rw [List.length_drop]; omega)]
      rw [e, e2]
      by_cases hh : (y ++ [d]).isSuffixOf (x ++ [d]) = true
      · have := suffix_split hh
        rw [if_neg, hh]
        · rfl
        · have h3 := congrArg (List.drop ((x ++ [d]).length - (y ++ [d]).length)) this
          rw [h3, List.drop_left' (less_length _ _)]
          simp
      · have hf := Bool.eq_false_iff.2 hh
        rw [if_pos, hf]
        · rfl
        · intro he
          apply hh
          rw [List.isSuffixOf_iff_suffix]
          refine ⟨(x ++ [d]).take ((x ++ [d]).length - (y ++ [d]).length), ?_⟩
          have h4 := List.take_append_drop ((x ++ [d]).length - (y ++ [d]).length) (x ++ [d])
          rw [he] at h4
          exact h4
  · rw [if_pos hd]
    have : (y ++ [d]).isSuffixOf (x ++ [c]) = false := by
      rw [Bool.eq_false_iff]
      intro hh
      rw [List.isSuffixOf_iff_suffix] at hh
      obtain ⟨z, hz⟩ := hh
      rw [← List.append_assoc] at hz
      have := (List.append_inj' hz rfl).2
      exact hd (by simpa using this)
    rw [this]; rfl

/-- after a suffix was found, `j` is the end of what precedes it -/
theorem found {N : Nat} {st : Code.St} {w : Word} (h : Rep N st w) {s : Word} (hs : s.isSuffixOf w = true) :
    Rep N { st with j := st.k - s.length } w ∧ Upto { st with j := st.k - s.length } (less w s.length) := by
  refine ⟨h.set_j _, ?_, ?_⟩
  · obtain ⟨t, ht, -⟩ := h.buf
    refine ⟨s ++ t, ?_⟩
    show st.b = _
    rw [ht, ← List.append_assoc, ← suffix_split hs]
  · show st.k - s.length = _
    rw [less_length, h.k]
    rw [List.isSuffixOf_iff_suffix] at hs
    have := hs.length_le
    omega

theorem setto_eq {N : Nat} {st : Code.St} {w : Word} (h : Rep N st w) {u r : Word} (hu : Upto st u) (hN : u.length + r.length ≤ N)
    (hne : u ++ r ≠ []) : ∃ st', Code.setto r st = some st' ∧ Rep N st' (u ++ r) := by
  obtain ⟨⟨t, ht, hl⟩, hk, -⟩ := h
  obtain ⟨⟨v, hv⟩, hj⟩ := hu
  have hlen : st.b.length = N := by rw [ht, List.length_append]; exact hl
  have hlen2 : u.length + v.length = N := by rw [← hlen, hv, List.length_append]
  unfold Code.setto
  rw [if_neg (by omega)]
  refine ⟨_, rfl, ⟨v.drop r.length, ?_, ?_⟩, ?_, hne⟩
  · have e : (st.j + 1).toNat = u.length := by omega
    simp only [e, hv, List.take_left', List.append_assoc]
    rw [List.drop_append, List.drop_of_length_le (by omega), List.nil_append]
    congr 3
    omega
  · rw [List.length_append, List.length_drop]; omega
  · show st.j + r.length = _
    rw [List.length_append, hj]; omega

theorem measure_ne {u : Word} (h : 0 < measure u) : 2 ≤ u.length := by
  unfold measure at h
  have hl := kinds_length u
  cases hk : kinds u with
  | nil => rw [hk] at h; exact absurd h (by decide)
  | cons a l =>
    cases l with
    | nil => rw [hk] at h; exact absurd h (by simp [turns])
    | cons b l => rw [← hl, hk]; simp

theorem hasVowel_ne {u : Word} (h : hasVowel u = true) : u ≠ [] := by
  rintro rfl; exact absurd h (by decide)

/-! ### looking up rules -/

theorem suffix_of_two {a b w : Word} (ha : a.isSuffixOf w = true) (hb : b.isSuffixOf w = true) :
    a.isSuffixOf b = true ∨ b.isSuffixOf a = true := by
  simp only [List.isSuffixOf_iff_suffix] at *
  rcases Nat.le_total a.length b.length with h | h
  · exact Or.inl (List.suffix_of_suffix_length_le ha hb h)
  · exact Or.inr (List.suffix_of_suffix_length_le hb ha h)

/-- no rule hides a later one -/
def Proper (l : List (Word × Word)) : Prop := l.Pairwise fun a b => a.1.isSuffixOf b.1 = false

theorem find_first {w : Word} : ∀ {l : List (Word × Word)} {x : Word × Word}, Proper l →
    l.find? (fun x => x.1.isSuffixOf w) = some x → ∀ y ∈ l, y.1.isSuffixOf w = true → y = x ∨ x.1.isSuffixOf y.1 = false := by
  intro l
  induction l with
  | nil => intro x _ h; cases h
  | cons a l ih =>
    intro x hp h y hy hw
    rw [Proper, List.pairwise_cons] at hp
    rw [List.find?_cons] at h
    split at h
    · cases h
      rw [List.mem_cons] at hy
      rcases hy with rfl | hy
      · exact Or.inl rfl
      · exact Or.inr (hp.1 y hy)
    · rename_i hf
      rw [List.mem_cons] at hy
      rcases hy with rfl | hy
      · rw [hw] at hf; cases hf
      · exact ih hp.2 h y hy hw

theorem find_eq {w : Word} {l l' : List (Word × Word)} (hp : Proper l) (hp' : Proper l')
    (h1 : ∀ x ∈ l, x.1.isSuffixOf w = true → x ∈ l') (h2 : ∀ x ∈ l', x ∈ l) :
    l.find? (fun x => x.1.isSuffixOf w) = l'.find? (fun x => x.1.isSuffixOf w) := by
  cases h : l.find? (fun x => x.1.isSuffixOf w) with
  | none =>
    symm
    rw [List.find?_eq_none] at h ⊢
    exact fun x hx => h x (h2 x hx)
  | some x =>
    have hx := List.find?_some h
    have hm := List.mem_of_find?_eq_some h
    cases h' : l'.find? (fun x => x.1.isSuffixOf w) with
    | none =>
      rw [List.find?_eq_none] at h'
      exact absurd hx (h' x (h1 x hm hx))
    | some y =>
      have hy := List.find?_some h'
      have hm' := List.mem_of_find?_eq_some h'
      have a := find_first hp h y (h2 y hm') hy
      have b := find_first hp' h' x (h1 x hm hx) hx
      rcases a with a | a
      · rw [a]
      · rcases b with b | b
        · rw [b]
        · rcases suffix_of_two hx hy with c | c
          · rw [a] at c; cases c
          · rw [b] at c; cases c

theorem key_suffix {s w : Word} (h : s.isSuffixOf w = true) {i : Nat} {c : UInt8} (hc : s.reverse[i]? = some c) :
    w.reverse[i]? = some c := by
  rw [List.isSuffixOf_iff_suffix] at h
  obtain ⟨u, rfl⟩ := h
  rw [List.reverse_append, List.getElem?_append_left (List.getElem?_eq_some_iff.1 hc).1, hc]

/-- the tests of a case, on words -/
theorem tries_eq {N : Nat} {below : Option UInt8} : ∀ {l : List (Word × Word)} {st : Code.St} {w : Word}, Rep N st w →
    (∀ x ∈ l, x.1 ≠ [] ∧ x.2.length ≤ x.1.length) →
    ∃ st', Code.tries below l st = some st' ∧
      Rep N st' (match l.find? (fun x => x.1.isSuffixOf w) with
        | none => w
        | some x => if 0 < measure (less w x.1.length) then less w x.1.length ++ x.2 else w) := by
  intro l
  induction l with
  | nil => intro st w h _; exact ⟨st, rfl, h⟩
  | cons a l ih =>
    intro st w h hl
    obtain ⟨s, t⟩ := a
    obtain ⟨hs, ht⟩ := hl (s, t) (List.mem_cons_self ..)
    rw [Code.tries, ends_eq h hs]
    simp only [bind, Option.bind_some, List.find?_cons]
    cases hx : s.isSuffixOf w with
    | false =>
      simp only [Bool.false_eq_true, if_false]
      exact ih h fun x hx => hl x (List.mem_cons_of_mem _ hx)
    | true =>
      simp only [if_true]
      obtain ⟨h1, h2⟩ := found h hx
      unfold Code.r
      simp only [h2.m, bind, Option.bind_some]
      by_cases hm : 0 < measure (less w s.length)
      · rw [if_pos hm, if_pos hm]
        have hlen := measure_ne hm
        refine setto_eq h1 h2 ?_ ?_
        · have := congrArg List.length (suffix_split hx)
          rw [List.length_append] at this
          have := h.le
          simp only at ht
          omega
        · intro e
          have := congrArg List.length e
          rw [List.length_append, List.length_nil] at this
          omega
      · rw [if_neg hm, if_neg hm]
        exact ⟨_, rfl, h1⟩

/-! ### the steps -/

theorem cases2_mem : ∀ c, (∀ x ∈ Code.cases2 c, x ∈ rules2) ∧ Proper (Code.cases2 c) ∧
    ∀ x ∈ Code.cases2 c, x.1 ≠ [] ∧ x.2.length ≤ x.1.length := by
  intro c
  unfold Code.cases2 Proper
  repeat' split
  all_goals decide

theorem rules2_mem : ∀ x ∈ rules2, ∃ c, x.1.reverse[1]? = some c ∧ x ∈ Code.cases2 c := by
  intro x hx
  have h : ∀ x ∈ rules2, (match x.1.reverse[1]? with | some c => decide (x ∈ Code.cases2 c) | none => false) = true := by decide
  have := h x hx
  split at this
  · rename_i c hc; exact ⟨c, hc, by simpa using this⟩
  · cases this

theorem rules2_proper : Proper rules2 := by unfold Proper; decide

theorem step2_eq {N : Nat} {below : Option UInt8} {st : Code.St} {w : Word} (h : Rep N st w) (hb : below.isSome ∨ 2 ≤ w.length) :
    ∃ st', Code.step2Code below st = some st' ∧ Rep N st' (step2 w) := by
  obtain ⟨c, hc, hw⟩ : ∃ c, Code.rd below st (st.k - 1) = some c ∧ (2 ≤ w.length → w.reverse[1]? = some c) := by
    by_cases h2 : 2 ≤ w.length
    · have := h.rd (below := below) (i := 1) h2
      have hl : 1 < w.reverse.length := by simp; omega
      rw [List.getElem?_eq_getElem hl] at this
      exact ⟨_, this, fun _ => List.getElem?_eq_getElem hl⟩
    · have h1 : w.length = 1 := by have := List.length_pos_iff.2 h.ne; omega
      rcases hb with hb | hb
      · obtain ⟨c, hc⟩ := Option.isSome_iff_exists.1 hb
        refine ⟨c, ?_, fun h => absurd h h2⟩
        unfold Code.rd
        rw [h.k, h1]
        exact hc
      · exact absurd hb h2
  obtain ⟨a1, a2, a3⟩ := cases2_mem c
  obtain ⟨st', e1, e2⟩ := tries_eq (below := below) h a3
  refine ⟨st', by unfold Code.step2Code; rw [hc]; exact e1, ?_⟩
  have hf : rules2.find? (fun x => x.1.isSuffixOf w) = (Code.cases2 c).find? (fun x => x.1.isSuffixOf w) := by
    refine find_eq rules2_proper a2 (fun x hx hs => ?_) a1
    obtain ⟨d, hd, hm⟩ := rules2_mem x hx
    have hd' := key_suffix hs hd
    have := (List.getElem?_eq_some_iff.1 hd').1
    rw [List.length_reverse] at this
    rw [hw this] at hd'
    cases hd'
    exact hm
  unfold step2 rewrite
  rw [hf]
  cases hx : (Code.cases2 c).find? (fun x => x.1.isSuffixOf w) with
  | none => rw [hx] at e2; exact e2
  | some x => rw [hx] at e2; simpa using e2

theorem step2_none {N : Nat} {st : Code.St} {w : Word} (h : Rep N st w) (hw : w.length = 1) : Code.step2Code none st = none := by
  unfold Code.step2Code Code.rd
  rw [h.k, hw]
  rfl

theorem cases3_mem : ∀ c, (∀ x ∈ Code.cases3 c, x ∈ rules3) ∧ Proper (Code.cases3 c) ∧
    ∀ x ∈ Code.cases3 c, x.1 ≠ [] ∧ x.2.length ≤ x.1.length := by
  intro c
  unfold Code.cases3 Proper
  repeat' split
  all_goals decide

theorem rules3_mem : ∀ x ∈ rules3, ∃ c, x.1.reverse[0]? = some c ∧ x ∈ Code.cases3 c := by
  intro x hx
  have h : ∀ x ∈ rules3, (match x.1.reverse[0]? with | some c => decide (x ∈ Code.cases3 c) | none => false) = true := by decide
  have := h x hx
  split at this
  · rename_i c hc; exact ⟨c, hc, by simpa using this⟩
  · cases this

theorem rules3_proper : Proper rules3 := by unfold Proper; decide

theorem step3_eq {N : Nat} {below : Option UInt8} {st : Code.St} {w : Word} (h : Rep N st w) :
    ∃ st', Code.step3Code below st = some st' ∧ Rep N st' (step3 w) := by
  have hl : 0 < w.reverse.length := by rw [List.length_reverse]; exact List.length_pos_iff.2 h.ne
  have hc := h.rd0 (below := below)
  rw [List.getElem?_eq_getElem hl] at hc
  obtain ⟨a1, a2, a3⟩ := cases3_mem (w.reverse[0])
  obtain ⟨st', e1, e2⟩ := tries_eq (below := below) h a3
  refine ⟨st', by unfold Code.step3Code; rw [hc]; exact e1, ?_⟩
  have hf : rules3.find? (fun x => x.1.isSuffixOf w) = (Code.cases3 (w.reverse[0])).find? (fun x => x.1.isSuffixOf w) := by
    refine find_eq rules3_proper a2 (fun x hx hs => ?_) a1
    obtain ⟨d, hd, hm⟩ := rules3_mem x hx
    have hd' := key_suffix hs hd
    rw [List.getElem?_eq_getElem hl] at hd'
    cases hd'
    exact hm
  unfold step3 rewrite
  rw [hf]
  cases hx : (Code.cases3 (w.reverse[0])).find? (fun x => x.1.isSuffixOf w) with
  | none => rw [hx] at e2; exact e2
  | some x => rw [hx] at e2; simpa using e2

theorem take_pair (w : Word) (h : 2 ≤ w.length) : ∃ v d c, w = v ++ [d, c] := by
  rw [← List.length_reverse] at h
  cases hr : w.reverse with
  | nil => rw [hr] at h; simp at h
  | cons c l =>
    cases l with
    | nil => rw [hr] at h; simp at h
    | cons d l =>
      refine ⟨l.reverse, d, c, ?_⟩
      have := congrArg List.reverse hr
      simpa using this

theorem suffix_one (a c : UInt8) (v : Word) : [a].isSuffixOf (v ++ [c]) = (a == c) := by
  unfold List.isSuffixOf
  rw [List.reverse_append]
  show (a == c && List.isPrefixOf [] v.reverse) = _
  simp [List.isPrefixOf]

theorem suffix_two (a b c d : UInt8) (v : Word) : [a, b].isSuffixOf (v ++ [c, d]) = (b == d && a == c) := by
  unfold List.isSuffixOf
  rw [List.reverse_append]
  show (b == d && (a == c && List.isPrefixOf [] v.reverse)) = _
  simp [List.isPrefixOf]

theorem less_append (u v : Word) : less (u ++ v) v.length = u := by simp [less]

theorem step1a_eq {N : Nat} {below : Option UInt8} {st : Code.St} {w : Word} (h : Rep N st w) (hw : 3 ≤ w.length) :
    ∃ st', Code.step1aCode below st = some st' ∧ Rep N st' (step1a w) := by
  obtain ⟨v, d, c, rfl⟩ := take_pair w (by omega)
  have h0 : Code.rd below st st.k = some c := by rw [h.rd0]; simp
  have h1 : Code.rd below st (st.k - 1) = some d := by
    have := h.rd (below := below) (i := 1) (by omega)
    simpa using this
  have hv : v ≠ [] := by rintro rfl; simp at hw
  unfold Code.step1aCode
  simp only [h0, bind, Option.bind_some]
  have hs1 : w!"s".isSuffixOf (v ++ [d, c]) = (0x73 == c) := by
    have := suffix_one 0x73 c (v ++ [d])
    rwa [List.append_assoc] at this
  have hs2 := suffix_two 0x73 0x73 d c v
  unfold step1a rewrite
  by_cases hc : c = 0x73
  · rw [if_pos hc, ends_eq h (by decide)]
    simp only [Option.bind_some, List.find?_cons]
    cases hx : w!"sses".isSuffixOf (v ++ [d, c]) with
    | true =>
      simp only [if_true]
      have e := suffix_split hx
      refine ⟨_, rfl, ?_⟩
      have hk := h.k
      have hl := congrArg List.length e
      generalize hu : less (v ++ [d, c]) w!"sses".length = u at *
      refine (h.set_j (st.k - (w!"sses".length : Nat))).cut (u := u ++ w!"ss") (v := w!"es") (by rw [List.append_assoc]; exact e) (by simp) ?_
      show st.k - 2 = _
      rw [hk, hl, List.length_append, List.length_append]
      simp only [List.length_cons, List.length_nil]
      omega
    | false =>
      simp only [Bool.false_eq_true, if_false]
      rw [ends_eq h (by decide)]
      simp only [Option.bind_some]
      cases hy : w!"ies".isSuffixOf (v ++ [d, c]) with
      | true =>
        simp only [if_true]
        obtain ⟨a1, a2⟩ := found h hy
        refine setto_eq a1 a2 ?_ (by simp)
        have := congrArg List.length (suffix_split hy)
        rw [List.length_append] at this
        have := h.le
        simp at *
        omega
      | false =>
        simp only [Bool.false_eq_true, if_false, h1, Option.bind_some]
        subst hc
        rw [hs2, hs1]
        by_cases hd : d = 0x73
        · subst hd
          refine ⟨st, by simp, ?_⟩
          show Rep N st (less (v ++ [(0x73 : UInt8), 0x73]) w!"ss".length ++ w!"ss")
          rw [less_append]
          exact h
        · refine ⟨{ st with k := st.k - 1 }, by simp [hd], ?_⟩
          have hdf : ((0x73 : UInt8) == d) = false := by
            rw [Bool.eq_false_iff]; intro hh; exact hd (eq_of_beq hh).symm
          rw [hdf]
          show Rep N _ (less (v ++ [d, (0x73 : UInt8)]) w!"s".length ++ [])
          have e : less (v ++ [d, (0x73 : UInt8)]) w!"s".length = v ++ [d] := by
            have := less_append (v ++ [d]) w!"s"
            rwa [List.append_assoc] at this
          rw [e, List.append_nil]
          refine h.cut (v := [0x73]) (by simp) (by simp) ?_
          rw [h.k]; simp; omega
  · rw [if_neg hc]
    refine ⟨st, rfl, ?_⟩
    have : List.find? (fun x : Word × Word => x.1.isSuffixOf (v ++ [d, c]))
        [(w!"sses", w!"ss"), (w!"ies", w!"i"), (w!"ss", w!"ss"), (w!"s", [])] = none := by
      rw [List.find?_eq_none]
      intro x hx hs
      have hl : x.1.reverse[0]? = some 0x73 := by
        have : ∀ x ∈ [(w!"sses", w!"ss"), (w!"ies", w!"i"), (w!"ss", w!"ss"), (w!"s", [])], x.1.reverse[0]? = some 0x73 := by decide
        exact this x hx
      have := key_suffix hs hl
      simp at this
      exact hc this
    rw [this]
    exact h

theorem step1c_eq {N : Nat} {below : Option UInt8} {st : Code.St} {w : Word} (h : Rep N st w) :
    ∃ st', Code.step1cCode below st = some st' ∧ Rep N st' (step1c w) := by
  unfold Code.step1cCode
  simp only [ends_eq h (s := w!"y") (by decide), bind, Option.bind_some]
  unfold step1c rewrite
  simp only [List.find?_cons, List.find?_nil]
  cases hx : w!"y".isSuffixOf w with
  | false => exact ⟨st, by simp, h⟩
  | true =>
    obtain ⟨a1, a2⟩ := found h hx
    simp only [if_true, a2.vowel, Option.bind_some]
    cases hv : hasVowel (less w w!"y".length) with
    | false => exact ⟨_, by simp, a1⟩
    | true =>
      simp only [if_true]
      have e := suffix_split hx
      obtain ⟨t, ht, hN⟩ := h.buf
      have hk := h.k
      have hpos := List.length_pos_iff.2 h.ne
      have hlen : st.b.length = N := by rw [ht, List.length_append]; exact hN
      rw [if_neg (by omega)]
      refine ⟨_, rfl, ⟨t, ?_, ?_⟩, ?_, by simp⟩
      · show st.b.set st.k.toNat 0x69 = _
        have hl := congrArg List.length e
        rw [List.length_append] at hl
        have e2 : st.k.toNat = (less w w!"y".length).length := by
          simp only [List.length_cons, List.length_nil] at hl ⊢; omega
        rw [ht, e2]
        generalize less w w!"y".length = u at *
        subst e
        rw [List.append_assoc, List.set_append_right _ _ (Nat.le_refl _)]
        simp
      · have hl := congrArg List.length e
        rw [List.length_append] at hl ⊢
        simp only [List.length_cons, List.length_nil] at *; omega
      · have hl := congrArg List.length e
        rw [List.length_append] at hl ⊢
        simp only [List.length_cons, List.length_nil] at *; omega

theorem step1c_length (w : Word) : (step1c w).length = w.length := by
  unfold step1c rewrite
  simp only [List.find?_cons, List.find?_nil]
  cases hx : w!"y".isSuffixOf w with
  | false => rfl
  | true =>
    have := congrArg List.length (suffix_split hx)
    rw [List.length_append] at this
    simp only []
    split
    · rw [List.length_append]; simpa using this.symm
    · rfl

end Verif.Stem
