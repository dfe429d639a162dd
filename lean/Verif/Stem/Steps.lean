import Verif.Stem.Proof
/-
  The steps with conditions on the end of the word, and the whole.
-/
namespace Verif.Stem

theorem Rep.doublec {N : Nat} {below : Option UInt8} {st : Code.St} {w : Word} (h : Rep N st w) :
    Code.doublec below st st.k = some (doubleC w) := by
  have hk := h.k
  have hpos := List.length_pos_iff.2 h.ne
  unfold Code.doublec
  by_cases h2 : 2 ≤ w.length
  · obtain ⟨v, d, c, rfl⟩ := take_pair w h2
    have h0 : Code.rd below st st.k = some c := by rw [h.rd0]; simp
    have h1 : Code.rd below st (st.k - 1) = some d := by
      have := h.rd (below := below) (i := 1) h2
      simpa using this
    obtain ⟨t, ht, -⟩ := h.buf
    have hc : Code.consAt st.b st.k = (kinds (v ++ [d, c])).getLast? := by
      have e : st.k = (((v ++ [d, c]).length - 1 : Nat) : Int) := by rw [hk]; omega
      rw [e, consAt_at ht (by omega), List.getLast?_eq_getElem?, kinds_length]
    rw [if_neg (by omega)]
    simp only [h0, h1, bind, Option.bind_some, hc]
    have hl : (kinds (v ++ [d, c])) ≠ [] := by
      intro e; have := congrArg List.length e; rw [kinds_length] at this; simp at this
    unfold doubleC
    simp only [List.reverse_append, List.reverse_cons, List.reverse_nil, List.nil_append, List.cons_append]
    rw [List.getLast?_eq_some_getLast hl]
    by_cases hcd : c = d
    · subst hcd; simp
    · simp [hcd]
  · rw [if_pos (by omega)]
    unfold doubleC
    cases w with
    | nil => exact absurd rfl h.ne
    | cons a l =>
      cases l with
      | nil => rfl
      | cons b l => simp at h2

theorem cvc_eq {below : Option UInt8} {st : Code.St} {u t : Word} (h : st.b = u ++ t) {i : Int} (hi : i = (u.length : Int) - 1) :
    Code.cvc below st i = some (cvc u) := by
  unfold Code.cvc
  by_cases h3 : 3 ≤ u.length
  · have hl : ∀ n, n < 3 → n < (kinds u).reverse.length := fun n hn => by
      rw [List.length_reverse, kinds_length]; omega
    have hc : ∀ n, n < 3 → Code.consAt st.b (i - (n : Nat)) = (kinds u).reverse[n]? := by
      intro n hn
      have e : i - (n : Nat) = ((u.length - 1 - n : Nat) : Int) := by omega
      rw [e, consAt_at h (by omega), List.getElem?_reverse (by rw [kinds_length]; omega), kinds_length]
    have hr : Code.rd below st i = u.getLast? := by
      have e : i = ((u.length - 1 : Nat) : Int) := by omega
      rw [e, rd_at h (by omega), List.getLast?_eq_getElem?]
    have c0 := hc 0 (by omega)
    have c1 := hc 1 (by omega)
    have c2 := hc 2 (by omega)
    simp only [Int.sub_zero, Int.natCast_zero, Int.natCast_one] at c0 c1 c2
    have hu : u ≠ [] := by rintro rfl; simp at h3
    rw [if_neg (by omega)]
    rw [List.getLast?_eq_some_getLast hu] at hr
    have e2 : ((2 : Nat) : Int) = 2 := rfl
    rw [e2] at c2
    simp only [c0, c1, c2, hr, bind, Option.bind_some]
    unfold cvc
    rw [List.getLast?_eq_some_getLast hu]
    match hm : (kinds u).reverse, hl 2 (by omega) with
    | a :: b :: c :: l, _ =>
      cases a <;> cases b <;> cases c <;> simp
      all_goals
        by_cases hx : u.getLast hu = 0x77 ∨ u.getLast hu = 0x78 ∨ u.getLast hu = 0x79
        · rcases hx with hx | hx | hx <;> simp [hx]
        · rw [if_neg hx]
          have := not_or.1 hx
          have h2 := not_or.1 this.2
          simp [this.1, h2.1, h2.2]
  · rw [if_pos (by omega)]
    unfold cvc
    have hl : (kinds u).reverse.length < 3 := by rw [List.length_reverse, kinds_length]; omega
    match hm : (kinds u).reverse with
    | [] => rfl
    | [a] => cases a <;> rfl
    | [a, b] => cases a <;> cases b <;> rfl
    | a :: b :: c :: l => rw [hm] at hl; simp at hl; omega

theorem plain_consonant {w : Word} {i : Nat} {c : UInt8} (h : w[i]? = some c) (hc : c ∈ w!"lsz") : (kinds w)[i]? = some true := by
  rw [← cons_eq]
  have hn : ¬(c = 0x61 ∨ c = 0x65 ∨ c = 0x69 ∨ c = 0x6F ∨ c = 0x75) ∧ c ≠ 0x79 := by
    simp only [List.mem_cons, List.not_mem_nil, or_false] at hc
    rcases hc with rfl | rfl | rfl <;> decide
  cases i with
  | zero => simp only [Code.cons, h]; rw [if_neg hn.1]
  | succ i => simp only [Code.cons, h]; rw [if_neg hn.1, if_neg hn.2]

theorem not_cvc {v : Word} {c : UInt8} (hc : c ∈ w!"lsz") : cvc (v ++ [c, c]) = false := by
  have h1 : (kinds (v ++ [c, c])).reverse[1]? = some true := by
    rw [List.getElem?_reverse (by rw [kinds_length]; simp), kinds_length]
    refine plain_consonant ?_ hc
    simp
  unfold cvc
  match hm : (kinds (v ++ [c, c])).reverse with
  | [] => rfl
  | [a] => cases a <;> rfl
  | [a, b] => cases a <;> cases b <;> rfl
  | a :: b :: d :: l =>
    rw [hm] at h1
    simp at h1
    subst h1
    cases a <;> rfl

theorem mend_eq {N : Nat} {below : Option UInt8} {st : Code.St} {w : Word} (h : Rep N st w) (hu : Upto st w) (hN : w.length + 1 ≤ N) :
    ∃ st', Code.mendCode below st = some st' ∧ Rep N st' (mend w) := by
  unfold Code.mendCode mend
  have grow : ∀ {s r : Word}, s.isSuffixOf w = true → r = s ++ w!"e" →
      ∃ st', Code.setto r { st with j := st.k - s.length } = some st' ∧ Rep N st' (w ++ w!"e") := by
    intro s r hs e
    obtain ⟨a1, a2⟩ := found h hs
    have hw := suffix_split hs
    have hl := congrArg List.length hw
    rw [List.length_append] at hl
    subst e
    have := setto_eq a1 a2 (r := s ++ w!"e") (by rw [List.length_append]; simp; omega) (by simp)
    rwa [← List.append_assoc, ← hw] at this
  simp only [ends_eq h (s := w!"at") (by decide), bind, Option.bind_some]
  cases h1 : w!"at".isSuffixOf w with
  | true => exact grow h1 rfl
  | false =>
    simp only [Bool.false_eq_true, if_false, Bool.false_or]
    simp only [ends_eq h (s := w!"bl") (by decide), Option.bind_some]
    cases h2 : w!"bl".isSuffixOf w with
    | true => exact grow h2 rfl
    | false =>
      simp only [Bool.false_eq_true, if_false, Bool.false_or]
      simp only [ends_eq h (s := w!"iz") (by decide), Option.bind_some]
      cases h3 : w!"iz".isSuffixOf w with
      | true => exact grow h3 rfl
      | false =>
        simp only [Bool.false_eq_true, if_false, h.doublec, Option.bind_some]
        cases hd : doubleC w with
        | false =>
          simp only [Bool.false_eq_true, if_false, Bool.false_and, hu.m, Option.bind_some]
          by_cases hm : measure w = 1
          · obtain ⟨t, ht, -⟩ := h.buf
            simp only [hm, if_true, cvc_eq ht h.k, Option.bind_some]
            cases hc : cvc w with
            | false => exact ⟨st, by simp, by simpa using h⟩
            | true =>
              simp only [if_true]
              have := setto_eq h hu (r := w!"e") (by simpa using hN) (by simp)
              simpa using this
          · rw [if_neg hm]
            have : (measure w == 1) = false := by simpa using hm
            rw [this]
            exact ⟨st, rfl, h⟩
        | true =>
          simp only [if_true, Bool.true_and]
          have h2l : 2 ≤ w.length := by
            unfold doubleC at hd
            match hr : w.reverse with
            | [] => rw [hr] at hd; cases hd
            | [a] => rw [hr] at hd; cases hd
            | a :: b :: l => rw [← List.length_reverse, hr]; simp
          obtain ⟨v, d, c, rfl⟩ := take_pair w h2l
          have hcd : c = d := by
            unfold doubleC at hd
            simp at hd
            exact hd.1
          subst hcd
          have hr : Code.rd below st (st.k - 1) = some c := by
            have := h.rd (below := below) (i := 1) h2l
            simpa using this
          have s1 : ∀ a : UInt8, [a].isSuffixOf (v ++ [c, c]) = (a == c) := by
            intro a
            have := suffix_one a c (v ++ [c])
            rwa [List.append_assoc] at this
          rw [s1, s1, s1]
          simp only [hr, Option.bind_some]
          by_cases hc : c = 0x6C ∨ c = 0x73 ∨ c = 0x7A
          · rw [if_pos hc]
            have hmem : c ∈ w!"lsz" := by simpa using hc
            have hb : (0x6C == c || 0x73 == c || 0x7A == c) = true := by
              rcases hc with rfl | rfl | rfl <;> decide
            rw [hb, not_cvc hmem]
            exact ⟨st, rfl, by simpa using h⟩
          · rw [if_neg hc]
            have hb : (0x6C == c || 0x73 == c || 0x7A == c) = false := by
              have a := not_or.1 hc
              have b := not_or.1 a.2
              simp [Ne.symm a.1, Ne.symm b.1, Ne.symm b.2]
            rw [hb]
            refine ⟨_, rfl, ?_⟩
            have e : less (v ++ [c, c]) 1 = v ++ [c] := by
              have := less_append (v ++ [c]) [c]
              rwa [List.append_assoc] at this
            simp only [Bool.not_false, if_true, e]
            refine h.cut (v := [c]) (by simp) (by simp) ?_
            rw [h.k]; simp; omega

theorem step1b_eq {N : Nat} {below : Option UInt8} {st : Code.St} {w : Word} (h : Rep N st w) :
    ∃ st', Code.step1bCode below st = some st' ∧ Rep N st' (step1b w) := by
  have drop : ∀ {s : Word}, s.isSuffixOf w = true → 2 ≤ s.length → ∃ st',
      (if hasVowel (less w s.length) then Code.mendCode below { ({ st with j := st.k - s.length } : Code.St) with k := st.k - s.length }
        else some { st with j := st.k - s.length }) = some st' ∧
      Rep N st' (if hasVowel (less w s.length) then mend (less w s.length) else w) := by
    intro s hs h2
    obtain ⟨a1, a2⟩ := found h hs
    cases hv : hasVowel (less w s.length) with
    | false => exact ⟨{ st with j := st.k - s.length }, by simp, by simpa using a1⟩
    | true =>
      simp only [if_true]
      have hw := suffix_split hs
      have hl := congrArg List.length hw
      rw [List.length_append] at hl
      refine mend_eq (a1.cut hw (hasVowel_ne hv) ?_) ⟨a2.pre, a2.j⟩ ?_
      · rw [h.k]; omega
      · have := h.le; omega
  unfold Code.step1bCode step1b
  simp only [ends_eq h (s := w!"eed") (by decide), bind, Option.bind_some]
  cases h1 : w!"eed".isSuffixOf w with
  | true =>
    simp only [if_true]
    obtain ⟨a1, a2⟩ := found h h1
    simp only [a2.m, Option.bind_some]
    have hw := suffix_split h1
    have hl := congrArg List.length hw
    rw [List.length_append] at hl
    simp only [List.length_cons, List.length_nil] at hl ⊢
    by_cases hm : 0 < measure (less w 3)
    · rw [if_pos hm, if_pos hm]
      refine ⟨_, rfl, ?_⟩
      have e : w = less w 1 ++ w!"d" := by
        refine suffix_split (s := w!"d") ?_
        rw [List.isSuffixOf_iff_suffix] at h1 ⊢
        exact List.IsSuffix.trans ⟨w!"ee", rfl⟩ h1
      refine a1.cut e ?_ ?_
      · intro hx
        have := congrArg List.length hx
        rw [less_length] at this
        simp only [List.length_nil] at this
        omega
      · show st.k - 1 = _
        rw [h.k, less_length]; omega
    · rw [if_neg hm, if_neg hm]
      exact ⟨_, rfl, a1⟩
  | false =>
    simp only [Bool.false_eq_true, if_false, ends_eq h (s := w!"ed") (by decide), Option.bind_some]
    cases h2 : w!"ed".isSuffixOf w with
    | true =>
      simp only [if_true, Option.bind_some, (found h h2).2.vowel]
      exact drop h2 (by decide)
    | false =>
      simp only [Bool.false_eq_true, if_false, ends_eq h (s := w!"ing") (by decide), Option.bind_some]
      cases h3 : w!"ing".isSuffixOf w with
      | true =>
        simp only [if_true, Option.bind_some, (found h h3).2.vowel]
        exact drop h3 (by decide)
      | false => exact ⟨st, by simp, by simpa using h⟩

/-! ### step 4 -/

def Good4 (l : List Word) : Prop := (∀ s ∈ l, (s, ([] : Word)) ∈ rules4) ∧ Proper (l.map fun s => (s, [])) ∧
    (∀ s ∈ l, s ≠ []) ∧ l.Nodup ∧
    ∀ s ∈ l, s.isSuffixOf w!"ion" = true ∨ w!"ion".isSuffixOf s = true → s = w!"ion"

theorem cases4_mem (c : UInt8) : Good4 (Code.cases4 c) := by
  have pick : ∀ {p : Prop} [Decidable p] {a b : List Word}, Good4 a → Good4 b → Good4 (if p then a else b) := by
    intro p _ a b ha hb
    split
    · exact ha
    · exact hb
  unfold Code.cases4
  repeat' apply pick
  all_goals (unfold Good4 Proper; decide)

theorem rules4_mem : ∀ x ∈ rules4, x.2 = [] ∧ ∃ c, x.1.reverse[1]? = some c ∧ x.1 ∈ Code.cases4 c := by
  intro x hx
  have h : ∀ x ∈ rules4, x.2 = [] ∧
      (match x.1.reverse[1]? with | some c => decide (x.1 ∈ Code.cases4 c) | none => false) = true := by decide
  obtain ⟨h1, h2⟩ := h x hx
  refine ⟨h1, ?_⟩
  split at h2
  · rename_i c hc; exact ⟨c, hc, by simpa using h2⟩
  · cases h2

theorem rules4_proper : Proper rules4 := by unfold Proper; decide

def ok4 (s u : Word) : Bool := 1 < measure u && (s != w!"ion" || w!"s".isSuffixOf u || w!"t".isSuffixOf u)

theorem tries4_none {N : Nat} {below : Option UInt8} : ∀ {l : List Word} {st : Code.St} {w : Word}, Rep N st w →
    (∀ s ∈ l, s ≠ [] ∧ s.isSuffixOf w = false) → Code.tries4 below l st = some st := by
  intro l
  induction l with
  | nil => intro st w _ _; rfl
  | cons s l ih =>
    intro st w h hl
    obtain ⟨a, b⟩ := hl s (List.mem_cons_self ..)
    rw [Code.tries4, ends_eq h a, b]
    simp only [bind, Option.bind_some, Bool.false_eq_true, if_false, Bool.false_and]
    exact ih h fun x hx => hl x (List.mem_cons_of_mem _ hx)

theorem ion_end {u : Word} {c : UInt8} (h : u.getLast? = some c) :
    (w!"s".isSuffixOf u || w!"t".isSuffixOf u) = decide (c = 0x73 ∨ c = 0x74) := by
  rw [List.getLast?_eq_some_iff] at h
  obtain ⟨v, rfl⟩ := h
  rw [suffix_one, suffix_one]
  by_cases h1 : c = 0x73
  · subst h1; decide
  · by_cases h2 : c = 0x74
    · subst h2; decide
    · simp [h1, h2, Ne.symm h1, Ne.symm h2]

theorem tries4_eq {N : Nat} {below : Option UInt8} : ∀ {l : List Word} {st : Code.St} {w : Word}, Rep N st w →
    (∀ s ∈ l, s ≠ []) → l.Nodup →
    (∀ s ∈ l, s.isSuffixOf w!"ion" = true ∨ w!"ion".isSuffixOf s = true → s = w!"ion") → (below.isSome ∨ w ≠ w!"ion") →
    ∃ st', Code.tries4 below l st = some st' ∧
      Rep N st' (match (l.map fun s => (s, ([] : Word))).find? (fun x => x.1.isSuffixOf w) with
        | none => w
        | some x => if ok4 x.1 (less w x.1.length) then less w x.1.length ++ x.2 else w) := by
  intro l
  induction l with
  | nil => intro st w h _ _ _ _; exact ⟨st, rfl, h⟩
  | cons s l ih =>
    intro st w h hl hn hi hb
    rw [List.nodup_cons] at hn
    rw [Code.tries4, ends_eq h (hl s (List.mem_cons_self ..))]
    simp only [bind, Option.bind_some, List.map_cons, List.find?_cons]
    cases hx : s.isSuffixOf w with
    | false =>
      simp only [Bool.false_eq_true, if_false, Bool.false_and, Option.bind_some]
      exact ih h (fun x hx => hl x (List.mem_cons_of_mem _ hx)) hn.2 (fun x hx => hi x (List.mem_cons_of_mem _ hx)) hb
    | true =>
      simp only [if_true, Bool.true_and]
      obtain ⟨a1, a2⟩ := found h hx
      have hw := suffix_split hx
      have hl' := congrArg List.length hw
      rw [List.length_append] at hl'
      have cut : ∀ (hm : 1 < measure (less w s.length)), Rep N { ({ st with j := st.k - s.length } : Code.St) with k := st.k - s.length }
          (less w s.length) := by
        intro hm
        refine a1.cut hw ?_ ?_
        · intro e; rw [e] at hm; exact absurd hm (by decide)
        · rw [h.k]; omega
      by_cases hs : s = w!"ion"
      · rw [if_pos (by simpa using hs)]
        have hrest : ∀ x ∈ l, x ≠ [] ∧ x.isSuffixOf w = false := by
          intro x hxl
          refine ⟨hl x (List.mem_cons_of_mem _ hxl), ?_⟩
          rw [Bool.eq_false_iff]
          intro hxw
          have := hi x (List.mem_cons_of_mem _ hxl) (by rw [← hs]; exact suffix_of_two hxw hx)
          exact hn.1 (by rw [hs, ← this]; exact hxl)
        have hj : st.k - (s.length : Nat) = ((less w s.length).length : Int) - 1 := a2.j
        cases hu : (less w s.length) with
        | nil =>
          have hwi : w = w!"ion" := by
            have := hw
            rw [hu, hs] at this
            simpa using this
          rcases hb with hb | hb
          · obtain ⟨c, hc⟩ := Option.isSome_iff_exists.1 hb
            have hr : Code.rd below { st with j := st.k - s.length } (st.k - s.length) = some c := by
              rw [hj, hu]
              exact hc
            simp only [hr, Option.bind_some]
            have hm := a2.m
            rw [hu] at hm
            have hok : ok4 s [] = false := by
              unfold ok4
              have : measure [] = 0 := by decide
              rw [this]; simp
            rw [hok]
            split
            · simp only [hm, Option.bind_some]
              exact ⟨_, rfl, a1⟩
            · rw [tries4_none a1 hrest]
              exact ⟨_, rfl, a1⟩
          · exact absurd hwi hb
        | cons a l2 =>
          rw [← hu]
          have hne : less w s.length ≠ [] := by rw [hu]; simp
          have hpos := List.length_pos_iff.2 hne
          have hr : Code.rd below { st with j := st.k - s.length } (st.k - s.length) = some ((less w s.length).getLast hne) := by
            obtain ⟨t, ht⟩ := a2.pre
            have e : st.k - (s.length : Nat) = (((less w s.length).length - 1 : Nat) : Int) := by omega
            have h1 := rd_at (below := below) (st := { st with j := st.k - s.length }) (i := (less w s.length).length - 1) ht (by omega)
            rw [← e, ← List.getLast?_eq_getElem?, List.getLast?_eq_some_getLast hne] at h1
            exact h1
          simp only [hr, Option.bind_some]
          have hend := ion_end (List.getLast?_eq_some_getLast hne)
          unfold ok4
          rw [show (s != w!"ion") = false by simpa using hs, Bool.false_or, hend]
          by_cases hc : (less w s.length).getLast hne = 0x73 ∨ (less w s.length).getLast hne = 0x74
          · rw [if_pos (by simpa using hc), decide_eq_true hc, Bool.and_true]
            simp only [a2.m, Option.bind_some, decide_eq_true_eq]
            split
            · rename_i hm
              exact ⟨_, rfl, by rw [List.append_nil]; exact cut hm⟩
            · exact ⟨_, rfl, a1⟩
          · rw [if_neg (by simpa using hc), decide_eq_false hc, Bool.and_false]
            rw [tries4_none a1 hrest]
            exact ⟨_, rfl, a1⟩
      · rw [if_neg (by simpa using hs)]
        simp only [Option.bind_some, if_true, a2.m]
        unfold ok4
        rw [show (s != w!"ion") = true by simpa using hs]
        simp only [Bool.true_or, Bool.and_true, decide_eq_true_eq]
        split
        · rename_i hm
          exact ⟨_, rfl, by rw [List.append_nil]; exact cut hm⟩
        · exact ⟨_, rfl, a1⟩

theorem step4_eq {N : Nat} {below : Option UInt8} {st : Code.St} {w : Word} (h : Rep N st w) (hb : below.isSome ∨ 2 ≤ w.length ∧ w ≠ w!"ion") :
    ∃ st', Code.step4Code below st = some st' ∧ Rep N st' (step4 w) := by
  obtain ⟨c, hc, hw⟩ : ∃ c, Code.rd below st (st.k - 1) = some c ∧ (2 ≤ w.length → w.reverse[1]? = some c) := by
    by_cases h2 : 2 ≤ w.length
    · have := h.rd (below := below) (i := 1) h2
      have hl : 1 < w.reverse.length := by simp; omega
      rw [List.getElem?_eq_getElem hl] at this
      exact ⟨_, this, fun _ => List.getElem?_eq_getElem hl⟩
    · have h1 : w.length = 1 := by have := List.length_pos_iff.2 h.ne; omega
      rcases hb with hb | hb
      · obtain ⟨c, hc⟩ := Option.isSome_iff_exists.1 hb
        refine ⟨c, ?_, fun h => absurd h h2⟩
        unfold Code.rd
        rw [h.k, h1]
        exact hc
      · exact absurd hb.1 h2
  obtain ⟨a1, a2, a3, a4, a5⟩ := cases4_mem c
  obtain ⟨st', e1, e2⟩ := tries4_eq (below := below) h a3 a4 a5 (hb.imp id And.right)
  refine ⟨st', by unfold Code.step4Code; rw [hc]; exact e1, ?_⟩
  have hf : rules4.find? (fun x => x.1.isSuffixOf w) =
      ((Code.cases4 c).map fun s => (s, ([] : Word))).find? (fun x => x.1.isSuffixOf w) := by
    refine find_eq rules4_proper a2 (fun x hx hs => ?_) ?_
    · obtain ⟨hx2, d, hd, hm⟩ := rules4_mem x hx
      have hd' := key_suffix hs hd
      have := (List.getElem?_eq_some_iff.1 hd').1
      rw [List.length_reverse] at this
      rw [hw this] at hd'
      cases hd'
      rw [List.mem_map]
      exact ⟨x.1, hm, by rw [← hx2]⟩
    · intro x hx
      rw [List.mem_map] at hx
      obtain ⟨s, hs, rfl⟩ := hx
      exact a1 s hs
  unfold step4 rewrite
  rw [hf]
  exact e2

theorem step4_none {N : Nat} {st : Code.St} (h : Rep N st w!"ion") : Code.step4Code none st = none := by
  have hc : Code.rd none st (st.k - 1) = some 0x6F := h.rd (below := none) (i := 1) (by decide)
  unfold Code.step4Code
  rw [hc]
  have e : Code.cases4 0x6F = [w!"ion", w!"ou"] := by decide
  simp only [bind, Option.bind_some, e]
  rw [Code.tries4, ends_eq h (by decide)]
  have e2 : w!"ion".isSuffixOf w!"ion" = true := by decide
  simp only [bind, Option.bind_some, e2, if_true]
  have hk := h.k
  have e3 : (w!"ion" == w!"ion") = true := by decide
  simp only [e3, Bool.true_and, if_true]
  have hr : Code.rd none { st with j := st.k - (w!"ion".length : Nat) } (st.k - (w!"ion".length : Nat)) = none := by
    unfold Code.rd
    rw [hk]
    rfl
  rw [hr]
  rfl

/-! ### step 5 -/

theorem measure_e {u : Word} {w : Word} (e : w = u ++ w!"e") : measure w = measure u := by
  subst e
  obtain ⟨l, hl, hn⟩ := kinds_prefix u w!"e"
  have : l = [false] := by
    match l, hn with
    | [a], _ =>
      have h1 : (kinds (u ++ w!"e"))[u.length]? = some a := by
        rw [hl, List.getElem?_append_right (by rw [kinds_length]; omega), kinds_length]; simp
      rw [← cons_eq] at h1
      have h2 : (u ++ w!"e")[u.length]? = some 0x65 := by simp
      cases hu : u.length with
      | zero => rw [hu] at h1 h2; simp only [Code.cons, h2] at h1; simpa using h1.symm
      | succ i => rw [hu] at h1 h2; simp only [Code.cons, h2] at h1; simpa using h1.symm
  unfold measure
  rw [hl, this, turns_snoc_false]

theorem step5b_half {N : Nat} {below : Option UInt8} {st : Code.St} {w : Word} (h : Rep N st w) (hm : Code.m st = some (measure w)) :
    ∃ st', Code.step5bCode below st = some st' ∧ Rep N st' (step5b w) := by
  obtain ⟨v, c, rfl⟩ : ∃ v c, w = v ++ [c] := ⟨w.dropLast, w.getLast h.ne, (List.dropLast_concat_getLast h.ne).symm⟩
  have hr : Code.rd below st st.k = some c := by rw [h.rd0]; simp
  unfold Code.step5bCode
  simp only [hr, bind, Option.bind_some, h.doublec, hm]
  unfold step5b
  rw [suffix_one]
  by_cases hc : c = 0x6C
  · subst hc
    simp only [if_true, beq_self_eq_true, Bool.and_true]
    cases hd : doubleC (v ++ [0x6C]) with
    | false => exact ⟨st, by simp, by simpa using h⟩
    | true =>
      simp only [if_true, Bool.and_true, decide_eq_true_eq]
      split
      · rename_i hm1
        refine ⟨_, rfl, ?_⟩
        have hl := measure_ne (u := v ++ [0x6C]) (by omega)
        have e : less (v ++ [(0x6C : UInt8)]) 1 = v := less_append v [0x6C]
        rw [e]
        refine h.cut (v := [0x6C]) rfl ?_ ?_
        · rintro rfl; simp at hl
        · rw [h.k]; simp
      · exact ⟨st, rfl, h⟩
  · rw [if_neg hc]
    have : ((0x6C : UInt8) == c) = false := by
      rw [Bool.eq_false_iff]; intro hh; exact hc (eq_of_beq hh).symm
    rw [this, Bool.and_false]
    exact ⟨st, rfl, h⟩

theorem step5_eq {N : Nat} {below : Option UInt8} {st : Code.St} {w : Word} (h : Rep N st w) :
    ∃ st', Code.step5Code below st = some st' ∧ Rep N st' (step5b (step5a w)) := by
  obtain ⟨t, ht, hN⟩ := h.buf
  have h0 := h.set_j st.k
  have u0 : Upto { st with j := st.k } w := ⟨⟨t, ht⟩, h.k⟩
  have last : ∃ v c, w = v ++ [c] := ⟨w.dropLast, w.getLast h.ne, (List.dropLast_concat_getLast h.ne).symm⟩
  obtain ⟨v, c, rfl⟩ := last
  have hr : Code.rd below { st with j := st.k } st.k = some c := by
    have := h0.rd0 (below := below); simpa using this
  unfold Code.step5Code Code.step5aCode
  simp only [hr, bind, Option.bind_some, u0.m]
  unfold step5a rewrite
  simp only [List.find?_cons, List.find?_nil, suffix_one]
  by_cases hc : c = 0x65
  · subst hc
    have hm := measure_e (u := v) (w := v ++ [0x65]) rfl
    have hcv : Code.cvc below { st with j := st.k } (st.k - 1) = some (cvc v) := by
      refine cvc_eq (t := [0x65] ++ t) (u := v) ?_ ?_
      · show st.b = _; rw [ht]; simp
      · rw [h.k]; simp
    have hle : less (v ++ [(0x65 : UInt8)]) 1 = v := less_append v [0x65]
    simp only [beq_self_eq_true, if_true, hcv, Option.map_some, List.length_cons, List.length_nil, Nat.zero_add, hle, hm]
    have key : ∀ g : Bool, g = (decide (1 < measure v) || (measure v == 1 && !cvc v)) →
        ∃ st', Code.step5bCode below (if g = true then { b := st.b, k := st.k - 1, j := st.k } else { b := st.b, k := st.k, j := st.k }) = some st' ∧
          Rep N st' (step5b (if g = true then v ++ [] else v ++ [0x65])) := by
      intro g hd
      cases g with
      | true =>
        simp only [if_true, List.append_nil]
        have hmv : 0 < measure v := by
          have := hd.symm
          simp at this; omega
        have hl := measure_ne hmv
        have hv : v ≠ [] := by rintro rfl; simp at hl
        have hrep : Rep N { ({ st with j := st.k } : Code.St) with k := st.k - 1 } v := by
          refine h0.cut (v := [0x65]) rfl hv ?_
          show st.k - 1 = _
          rw [h.k]; simp
        refine step5b_half hrep ?_
        have : Code.m { ({ st with j := st.k } : Code.St) with k := st.k - 1 } = Code.m { st with j := st.k } := rfl
        rw [this, u0.m, hm]
      | false =>
        simp only [Bool.false_eq_true, if_false]
        exact step5b_half h0 u0.m
    obtain ⟨st', x1, x2⟩ := key _ rfl
    refine ⟨st', ?_, x2⟩
    rw [← x1]
    by_cases h1 : 1 < measure v
    · simp [h1]
    · by_cases h2 : measure v = 1
      · simp [h2]
      · simp [h1, h2]
  · rw [if_neg hc]
    have : ((0x65 : UInt8) == c) = false := by
      rw [Bool.eq_false_iff]; intro hh; exact hc (eq_of_beq hh).symm
    rw [this]
    simp only [Option.bind_some]
    exact step5b_half h0 u0.m

/-! ### the whole -/

/-- nothing before the buffer is read -/
def Safe (w : Word) : Prop := w.length ≤ 2 ∨ 2 ≤ (step1b (step1a w)).length ∧ early w ≠ w!"ion"

theorem rewrite_two {l : List (Word × Word)} {w : Word} (h : 2 ≤ w.length) :
    2 ≤ (rewrite l (fun _ u => 0 < measure u) w).length := by
  unfold rewrite
  split
  · exact h
  · split
    · rename_i hm
      have := measure_ne (by simpa using hm)
      rw [List.length_append]; omega
    · exact h

theorem porter_eq {N : Nat} {below : Option UInt8} {b : List UInt8} {w : Word} {k j : Int} (h : Rep N ⟨b, k, j⟩ w)
    (hs : below.isSome ∨ Safe w) : ∃ st', Code.porter below b k j = some st' ∧ Rep N st' (stem w) := by
  have hk : k = (w.length : Int) - 1 := h.k
  unfold Code.porter stem
  by_cases h2 : w.length ≤ 2
  · rw [if_pos h2]
    simp only []
    rw [if_pos (by omega)]
    exact ⟨_, rfl, h⟩
  · rw [if_neg h2]
    simp only [bind]
    rw [if_neg (by omega)]
    obtain ⟨s1, e1, r1⟩ := step1a_eq (below := below) h (by omega)
    obtain ⟨s2, e2, r2⟩ := step1b_eq (below := below) r1
    obtain ⟨s3, e3, r3⟩ := step1c_eq (below := below) r2
    have hs' : below.isSome ∨ 2 ≤ (step1b (step1a w)).length ∧ early w ≠ w!"ion" := by
      rcases hs with hs | hs | hs
      · exact Or.inl hs
      · exact absurd hs h2
      · exact Or.inr hs
    obtain ⟨s4, e4, r4⟩ := step2_eq (below := below) r3 (hs'.imp id fun x => by rw [step1c_length]; exact x.1)
    obtain ⟨s5, e5, r5⟩ := step3_eq (below := below) r4
    obtain ⟨s6, e6, r6⟩ := step4_eq (below := below) r5 (hs'.imp id fun x =>
      ⟨rewrite_two (rewrite_two (by rw [step1c_length]; exact x.1)), x.2⟩)
    obtain ⟨s7, e7, r7⟩ := step5_eq (below := below) r6
    simp only [e1, e2, e3, e4, e5, e6, Option.bind_some]
    exact ⟨s7, e7, r7⟩

theorem porter_none {N : Nat} {b : List UInt8} {w : Word} {k j : Int} (h : Rep N ⟨b, k, j⟩ w) (hs : ¬Safe w) :
    Code.porter none b k j = none := by
  have hk : k = (w.length : Int) - 1 := h.k
  have h2 : ¬w.length ≤ 2 := fun h => hs (Or.inl h)
  unfold Code.porter
  simp only [bind]
  rw [if_neg (by omega)]
  obtain ⟨s1, e1, r1⟩ := step1a_eq (below := none) h (by omega)
  obtain ⟨s2, e2, r2⟩ := step1b_eq (below := none) r1
  obtain ⟨s3, e3, r3⟩ := step1c_eq (below := none) r2
  simp only [e1, e2, e3, Option.bind_some]
  by_cases hl : 2 ≤ (step1b (step1a w)).length
  · obtain ⟨s4, e4, r4⟩ := step2_eq (below := none) r3 (Or.inr (by rw [step1c_length]; exact hl))
    obtain ⟨s5, e5, r5⟩ := step3_eq (below := none) r4
    have hion : early w = w!"ion" := Decidable.byContradiction fun hne => hs (Or.inr ⟨hl, hne⟩)
    have r6 : Rep N s5 w!"ion" := by rw [← hion]; exact r5
    simp only [e4, e5, Option.bind_some, step4_none r6]
    rfl
  · have hpos := List.length_pos_iff.2 r2.ne
    rw [step2_none r3 (by rw [step1c_length]; omega)]
    rfl

end Verif.Stem
