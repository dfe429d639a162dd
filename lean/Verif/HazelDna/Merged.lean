import Verif.HazelDna.Proof
import Verif.Names.Proof
/-
  Lemmas for C76: ranges, and the file with the new description.
-/
namespace Verif.HazelDna
open Verif.Recipe Verif.Dna Verif.Hopper

/-! ### numbers -/

theorem digits_ascii : ∀ d, d < 10 → ∃ c : UInt8, UInt8.ofNat (Char.ofNat (48 + d)).toNat = c ∧ isDigit c = true ∧ c.toNat - 48 = d ∧ isSpace c = false ∧
    c ≠ 0x2D ∧ c ≠ 0x2B ∧ c ≠ 0 ∧ c ≠ 0x22 ∧ c ≠ 0x5C ∧ c ≠ 0x0A ∧ c ≠ 0x5B := by
  intro d hd
  refine ⟨_, rfl, ?_⟩
  have : d = 0 ∨ d = 1 ∨ d = 2 ∨ d = 3 ∨ d = 4 ∨ d = 5 ∨ d = 6 ∨ d = 7 ∨ d = 8 ∨ d = 9 := by omega
  rcases this with rfl | rfl | rfl | rfl | rfl | rfl | rfl | rfl | rfl | rfl <;> decide

/-- a byte of a number -/
def Digit (c : UInt8) : Prop := isDigit c = true ∧ isSpace c = false ∧ c ≠ 0x2D ∧ c ≠ 0x2B ∧ c ≠ 0 ∧ c ≠ 0x22 ∧ c ≠ 0x5C ∧ c ≠ 0x0A ∧ c ≠ 0x5B

theorem toString_spec (n : Nat) : toString' n ≠ [] ∧ (∀ c ∈ toString' n, Digit c) ∧ number (toString' n) = n := by
  induction n using Nat.strongRecOn with
  | _ n ih =>
    have one : ∀ d, d < 10 → ∃ c, UInt8.ofNat (Char.ofNat (48 + d)).toNat = c ∧ Digit c ∧ c.toNat - 48 = d := by
      intro d hd
      obtain ⟨c, h1, h2, h3, h4, h5⟩ := digits_ascii d hd
      exact ⟨c, h1, ⟨h2, h4, h5⟩, h3⟩
    unfold toString'
    rw [Names.decimal]
    split
    · rename_i h
      obtain ⟨c, h1, h2, h3⟩ := one n h
      simp only [List.map_cons, List.map_nil, h1]
      refine ⟨by simp, ?_, ?_⟩
      · intro d hd
        rw [List.mem_singleton] at hd
        subst hd; exact h2
      · simp only [number, List.foldl_cons, List.foldl_nil]; omega
    · rename_i h
      obtain ⟨i1, i2, i3⟩ := ih (n / 10) (by omega)
      obtain ⟨c, h1, h2, h3⟩ := one (n % 10) (by omega)
      simp only [List.map_append, List.map_cons, List.map_nil, h1]
      refine ⟨by simp, ?_, ?_⟩
      · intro d hd
        rcases List.mem_append.1 hd with hd | hd
        · exact i2 d hd
        · rw [List.mem_singleton] at hd
          subst hd; exact h2
      · unfold number toString' at *
        rw [List.foldl_append, i3]
        simp only [List.foldl_cons, List.foldl_nil]
        omega

theorem takeWhile_all {p : UInt8 → Bool} : ∀ {s : Str}, (∀ c ∈ s, p c = true) → s.takeWhile p = s
  | [], _ => rfl
  | c :: s, h => by
    rw [List.takeWhile_cons, if_pos (h c (by simp)), takeWhile_all fun d hd => h d (by simp [hd])]

theorem stoll_toString {n : Nat} (h : (n : Int) ≤ 9223372036854775807) : stoll (toString' n) = some (n : Int) := by
  obtain ⟨h1, h2, h3⟩ := toString_spec n
  cases hs : toString' n with
  | nil => exact absurd hs h1
  | cons c s =>
    have hc := h2 c (by rw [hs]; simp)
    have hd : (c :: s).dropWhile isSpace = c :: s := by rw [List.dropWhile_cons, if_neg (by simp [hc.2.1])]
    have ht : (c :: s).takeWhile isDigit = c :: s := takeWhile_all fun d hd => (h2 d (by rw [hs]; exact hd)).1
    unfold stoll
    simp only [hd, List.head?_cons, Option.some.injEq, hc.2.2.1, hc.2.2.2.1, or_false, if_false, ht]
    rw [← hs, if_neg h1, h3]
    have : (some c == some (45 : UInt8)) = false := by simpa using hc.2.2.1
    rw [this]
    simp only [Bool.false_eq_true, if_false]
    rw [if_pos ⟨by omega, h⟩]

theorem toString_keepable (n : Nat) : Keepable (toString' n) ∧ cook (toString' n) = none := by
  obtain ⟨h1, h2, _⟩ := toString_spec n
  have hc : cook (toString' n) = none := by
    cases hs : toString' n with
    | nil => exact absurd hs h1
    | cons c s =>
      have hc := h2 c (by rw [hs]; simp)
      unfold cook
      rw [takeWhile_all (fun d hd => by simpa using (h2 d (by rw [hs]; exact hd)).2.2.2.2.1)]
      unfold parse skipSpace
      rw [List.dropWhile_cons, if_neg (by simp [hc.2.1])]
      simp only
      rw [if_neg hc.2.2.2.2.2.2.2.2]
  exact ⟨.leaf hc fun c hcc => ⟨(h2 c hcc).2.2.2.2.1, (h2 c hcc).2.2.2.2.2.1, (h2 c hcc).2.2.2.2.2.2.1, (h2 c hcc).2.2.2.2.2.2.2.1⟩, hc⟩

/-! ### ranges -/

/-- `sequenceRange` looks at what the metadata say, up to what means the same. -/
theorem stoll_le {s : Str} {v : Int} (h : stoll s = some v) : -9223372036854775808 ≤ v ∧ v ≤ 9223372036854775807 := by
  unfold stoll at h
  dsimp only at h
  generalize (if (List.dropWhile isSpace s).head? = some 0x2D ∨ (List.dropWhile isSpace s).head? = some 0x2B then
    (List.dropWhile isSpace s).drop 1 else List.dropWhile isSpace s) = t at h
  generalize (List.takeWhile isDigit t) = ds at h
  by_cases h1 : ds = []
  · rw [if_pos h1] at h; simp at h
  · rw [if_neg h1] at h
    generalize (if ((List.dropWhile isSpace s).head? == some 0x2D) = true then -(number ds : Int) else (number ds : Int)) = w at h
    by_cases h2 : -9223372036854775808 ≤ w ∧ w ≤ 9223372036854775807
    · rw [if_pos h2] at h
      injection h with h
      rw [← h]; exact h2
    · rw [if_neg h2] at h; simp at h

theorem range_has {A : Map} {r : Int × Int} : sequenceRange A = some (some r) ↔ HasRange A r := by
  constructor
  · intro h
    unfold sequenceRange at h
    split at h
    · cases h
    · rename_i text h1
      split at h
      · cases h
      · rename_i M h2
        split at h
        · cases h
        · rename_i a b h3 h4
          split at h
          · rename_i s e h5 h6
            split at h
            · cases h
            · cases h
              exact ⟨M, a, b, ⟨text, h1, h2⟩, h3, h4, h5, h6, by omega⟩
          · cases h
        · cases h
  · rintro ⟨M, a, b, ⟨text, h1, h2⟩, h3, h4, h5, h6, h7⟩
    unfold sequenceRange
    simp only [h1, h2, h3, h4, h5, h6]
    rw [if_neg (by omega)]

theorem range_no {A : Map} : sequenceRange A = some none ↔ NoRange A := by
  constructor
  · intro h
    unfold sequenceRange at h
    split at h
    · rename_i h1; exact .inl h1
    · rename_i text h1
      split at h
      · cases h
      · rename_i M h2
        split at h
        · rename_i h3 h4; exact .inr ⟨M, ⟨text, h1, h2⟩, h3, h4⟩
        · rename_i a b h3 h4
          split at h
          · split at h <;> cases h
          · cases h
        · cases h
  · rintro (h | ⟨M, ⟨text, h1, h2⟩, h3, h4⟩)
    · unfold sequenceRange
      simp only [h]
    · unfold sequenceRange
      simp only [h1, h2, h3, h4]

theorem ranges_all : ∀ {As : List Map} {rs : List (Int × Int)}, As.map sequenceRange = rs.map (fun r => some (some r)) ↔ AllRanges As rs
  | [], [] => by simp [AllRanges]
  | [], _ :: _ => by simp [AllRanges]
  | _ :: _, [] => by simp [AllRanges]
  | A :: As, r :: rs => by
    rw [List.map_cons, List.map_cons, List.cons.injEq, range_has, ranges_all]; rfl

theorem range_le {A : Map} {s e : Int} (h : sequenceRange A = some (some (s, e))) : 0 ≤ s ∧ s ≤ e ∧ e ≤ 9223372036854775807 := by
  unfold sequenceRange at h
  split at h
  · cases h
  · split at h
    · cases h
    · split at h
      · cases h
      · split at h
        · rename_i s' e' h1 h2
          split at h
          · cases h
          · cases h
            have := stoll_le h2
            omega
        · cases h
      · cases h

theorem checkLoop_some (x : Str) (present : Bool) : ∀ (l : List Map) (prev : Int) (e' : Int),
    checkLoop x present prev l = some e' ↔
      (∀ A ∈ l, normalize A = some x) ∧
      ((present = false ∧ e' = prev ∧ ∀ A ∈ l, sequenceRange A = some none) ∨
       (present = true ∧ ∃ rs, l.map sequenceRange = rs.map (fun r => some (some r)) ∧ Consecutive ((0, prev) :: rs) ∧
          e' = (rs.getLast?.map (·.2)).getD prev)) := by
  intro l
  induction l with
  | nil =>
    intro prev e'
    simp only [checkLoop, Option.some.injEq, List.not_mem_nil, false_implies, implies_true, true_and, List.map_nil, and_true]
    cases present with
    | false =>
      simp only [true_and, Bool.false_eq_true, false_and, or_false]
      exact ⟨fun h => h.symm, fun h => h.symm⟩
    | true =>
      simp only [Bool.true_eq_false, false_and, true_and, false_or]
      constructor
      · intro h
        exact ⟨[], rfl, trivial, h.symm⟩
      · rintro ⟨rs, h1, h2, h3⟩
        cases rs with
        | nil => exact h3.symm
        | cons _ _ => simp at h1
  | cons A l ih =>
    intro prev e'
    unfold checkLoop
    cases hn : normalize A with
    | none =>
      simp only [reduceCtorEq, false_iff]
      rintro ⟨h, _⟩
      have := h A (by simp)
      rw [hn] at this; cases this
    | some cur =>
      simp only
      by_cases hx : cur = x
      · subst hx
        rw [if_neg (by simp)]
        cases hr : sequenceRange A with
        | none =>
          simp only [reduceCtorEq, false_iff]
          rintro ⟨_, h | ⟨_, rs, h, _⟩⟩
          · have := h.2.2 A (by simp)
            rw [hr] at this; cases this
          · cases rs with
            | nil => simp at h
            | cons r rs =>
              simp only [List.map_cons, List.cons.injEq] at h
              rw [hr] at h; cases h.1
        | some o =>
          cases o with
          | none =>
            simp only
            cases present with
            | true =>
              simp only [if_true, reduceCtorEq, Bool.true_eq_false, false_and, true_and, false_or, false_iff]
              rintro ⟨_, rs, h, _⟩
              cases rs with
              | nil => simp at h
              | cons r rs =>
                simp only [List.map_cons, List.cons.injEq] at h
                rw [hr] at h
                have := h.1
                simp at this
            | false =>
              simp only [Bool.false_eq_true, if_false, false_and, or_false, true_and]
              rw [ih prev e']
              simp only [Bool.false_eq_true, false_and, or_false, true_and, List.forall_mem_cons, hn, hr]
          | some r =>
            obtain ⟨s, e⟩ := r
            simp only
            cases present with
            | false =>
              simp only [if_true, reduceCtorEq, Bool.false_eq_true, false_and, true_and, or_false, false_iff]
              rintro ⟨_, _, h⟩
              have := h A (by simp)
              rw [hr] at this; cases this
            | true =>
              simp only [Bool.true_eq_false, if_false, false_and, true_and, false_or]
              have hle := range_le hr
              by_cases hb : prev = maxfinity ∨ s ≠ prev + 1
              · rw [if_pos hb]
                simp only [reduceCtorEq, false_iff]
                rintro ⟨_, rs, h1, h2, _⟩
                cases rs with
                | nil => simp at h1
                | cons r rs =>
                  simp only [List.map_cons, List.cons.injEq] at h1
                  rw [hr] at h1
                  have h3 : r = (s, e) := by have := h1.1; simp at this; exact this.symm
                  have h4 : r.1 = prev + 1 := h2.1
                  rw [h3] at h4
                  simp only at h4
                  omega
              · rw [if_neg hb, ih e e']
                simp only [Bool.true_eq_false, false_and, true_and, false_or, List.forall_mem_cons, hn]
                constructor
                · rintro ⟨h1, rs, h2, h3, h4⟩
                  refine ⟨h1, (s, e) :: rs, ?_, ⟨?_, ?_⟩, ?_⟩
                  · rw [List.map_cons, List.map_cons, hr, h2]
                  · simp only; omega
                  · cases rs with
                    | nil => trivial
                    | cons r rs => exact h3
                  · rw [h4]
                    cases rs with
                    | nil => rfl
                    | cons r rs => rw [List.getLast?_cons_cons]; simp [List.getLast?_cons]
                · rintro ⟨h1, rs, h2, h3, h4⟩
                  cases rs with
                  | nil => simp at h2
                  | cons r rs =>
                    simp only [List.map_cons, List.cons.injEq] at h2
                    rw [hr] at h2
                    have h5 : r = (s, e) := by have := h2.1; simp at this; exact this.symm
                    subst h5
                    refine ⟨h1, rs, h2.2, ?_, ?_⟩
                    · cases rs with
                      | nil => trivial
                      | cons r rs => exact h3.2
                    · rw [h4]
                      cases rs with
                      | nil => rfl
                      | cons r rs => rw [List.getLast?_cons_cons]; simp [List.getLast?_cons]
      · rw [if_pos hx]
        simp only [reduceCtorEq, false_iff]
        rintro ⟨h, _⟩
        have := h A (by simp)
        rw [hn] at this
        injection this with this
        exact hx this

/-! ### a description has no empty line -/

/-- no line is empty; the first argument says whether a line begins -/
def noBlank : Bool → Str → Bool
  | _, [] => true
  | b, c :: s => if c = 10 then !b && noBlank true s else noBlank false s

/-- whether a line begins after the text -/
def atStart : Bool → Str → Bool
  | b, [] => b
  | _, c :: s => atStart (c == 10) s

theorem noBlank_append : ∀ (b : Bool) (s t : Str), noBlank b (s ++ t) = (noBlank b s && noBlank (atStart b s) t)
  | b, [], t => by simp [noBlank, atStart]
  | b, c :: s, t => by
    rw [List.cons_append, noBlank, noBlank]
    by_cases h : c = 10
    · rw [if_pos h, if_pos h, noBlank_append true s t]
      simp [atStart, h, Bool.and_assoc]
    · rw [if_neg h, if_neg h, noBlank_append false s t]
      have : (c == 10) = false := by simpa using h
      simp [atStart, this]

theorem atStart_append : ∀ (b : Bool) (s t : Str), atStart b (s ++ t) = atStart (atStart b s) t
  | b, [], t => rfl
  | b, c :: s, t => by rw [List.cons_append, atStart, atStart, atStart_append]

theorem noBlank_plain : ∀ {s : Str} {b : Bool}, 10 ∉ s → noBlank b s = true
  | [], b, _ => rfl
  | c :: s, b, h => by
    simp only [List.mem_cons, not_or] at h
    rw [noBlank, if_neg (fun e => h.1 e.symm)]
    exact noBlank_plain h.2

theorem atStart_plain : ∀ {s : Str} {b : Bool}, 10 ∉ s → s ≠ [] → atStart b s = false
  | [c], b, h, _ => by
    have : (c == 10) = false := by simpa using fun e : c = 10 => h (by simp [e])
    simp [atStart, this]
  | c :: d :: s, b, h, _ => by
    rw [atStart]
    exact atStart_plain (fun e => h (List.mem_cons_of_mem _ e)) (by simp)

/-- A text after which no line begins, without empty lines, which does not begin with a newline. -/
def Solid (s : Str) : Prop := noBlank true s = true ∧ noBlank false s = true ∧ s ≠ [] ∧ ∀ b, atStart b s = false

theorem indent_plain (d : Nat) : 10 ∉ indent d := by
  intro h
  have := indent_mem h
  exact absurd this (by decide)

theorem dumpWith_solid {f : Str → Str} {m : Map} (hk : ∀ kv ∈ m, kv.1 ≠ [] ∧ 10 ∉ kv.1) (hf : ∀ kv ∈ m, Solid (f kv.2)) (d : Nat) :
    Solid (dumpWith f m d) := by
  have body : ∀ l : Map, (∀ kv ∈ l, kv.1 ≠ [] ∧ 10 ∉ kv.1) → (∀ kv ∈ l, Solid (f kv.2)) →
      noBlank true (l.flatMap (fun kv => indent (d + 1) ++ kv.1 ++ [0x3A] ++ f kv.2 ++ [0x0A])) = true ∧
      atStart true (l.flatMap (fun kv => indent (d + 1) ++ kv.1 ++ [0x3A] ++ f kv.2 ++ [0x0A])) = true := by
    intro l
    induction l with
    | nil => intro _ _; exact ⟨rfl, rfl⟩
    | cons x l ih =>
      intro h1 h2
      obtain ⟨i1, i2⟩ := ih (fun kv hkv => h1 kv (List.mem_cons_of_mem _ hkv)) (fun kv hkv => h2 kv (List.mem_cons_of_mem _ hkv))
      have hx := h1 x (List.mem_cons_self ..)
      have hs := h2 x (List.mem_cons_self ..)
      have hpre : 10 ∉ indent (d + 1) ++ x.1 ++ [0x3A] := by
        simp only [List.mem_append, List.mem_singleton, not_or]
        exact ⟨⟨indent_plain _, hx.2⟩, by decide⟩
      have a1 : atStart true (indent (d + 1) ++ x.1 ++ [0x3A]) = false := atStart_plain hpre (by simp)
      have n1 : noBlank true (indent (d + 1) ++ x.1 ++ [0x3A]) = true := noBlank_plain hpre
      rw [List.flatMap_cons]
      generalize indent (d + 1) ++ x.1 ++ [0x3A] = pre at a1 n1
      have e10 : ∀ b, atStart b [0x0A] = true := fun b => by cases b <;> decide
      simp only [noBlank_append, atStart_append, a1, hs.2.2.2 false, n1, hs.2.1, e10, i1, i2]
      exact ⟨by decide, trivial⟩
  unfold dumpWith
  split
  · refine ⟨by decide, by decide, by simp, fun b => by cases b <;> decide⟩
  · obtain ⟨b1, b2⟩ := body m hk hf
    have tailp : 10 ∉ indent d ++ [0x5D] := by
      simp only [List.mem_append, List.mem_singleton, not_or]
      exact ⟨indent_plain _, by decide⟩
    have e : ∀ b, noBlank b ([0x5B, 0x0A] ++ m.flatMap (fun kv => indent (d + 1) ++ kv.1 ++ [0x3A] ++ f kv.2 ++ [0x0A]) ++ indent d ++ [0x5D]) = true := by
      intro b
      rw [List.append_assoc, noBlank_append, noBlank_append, noBlank_plain tailp]
      have : atStart b [0x5B, 0x0A] = true := by cases b <;> decide
      rw [this, b1]
      cases b <;> decide
    have e2 : ∀ b, atStart b ([0x5B, 0x0A] ++ m.flatMap (fun kv => indent (d + 1) ++ kv.1 ++ [0x3A] ++ f kv.2 ++ [0x0A]) ++ indent d ++ [0x5D]) = false := by
      intro b
      rw [List.append_assoc, atStart_append]
      exact atStart_plain tailp (by simp)
    exact ⟨e true, e false, by simp, e2⟩

theorem ident_line {k : Str} (h : ∀ c ∈ k, keyChar c = true) : 10 ∉ k := by
  intro hm
  have := h _ hm
  exact absurd this (by decide)

theorem dumpVal_solid {v : Str} (h : Keepable v) : ∀ {n d : Nat}, v.length < n → Solid (dumpVal n v d) := by
  induction h with
  | @leaf v e hq =>
    intro n d hn
    cases n with
    | zero => omega
    | succ n =>
      unfold dumpVal
      rw [e]
      have : 10 ∉ [0x22] ++ v ++ [0x22] ++ [0x2C] := by
        simp only [List.mem_append, List.mem_singleton, not_or]
        exact ⟨⟨⟨by decide, fun hm => (hq _ hm).2.2.2 rfl⟩, by decide⟩, by decide⟩
      exact ⟨noBlank_plain this, noBlank_plain this, by simp, fun b => atStart_plain this (by simp)⟩
  | @node v p e hp ih =>
    intro n d hn
    cases n with
    | zero => omega
    | succ n =>
      unfold dumpVal
      rw [e]
      have g := cook_good e
      have s := dumpWith_solid (f := fun w => dumpVal n w (d + 1)) (m := p)
        (fun kv hkv => ⟨(g.1.words kv hkv).1, ident_line (g.1.words kv hkv).2⟩)
        (fun kv hkv => ih kv.1 kv.2 (mem_find g.1 hkv) (by have := g.2 kv hkv; omega)) d
      have a : 10 ∉ [(0x2C : UInt8)] := by decide
      refine ⟨?_, ?_, by simp, fun b => ?_⟩
      · simp only [noBlank_append, s.1, noBlank_plain a, Bool.and_self]
      · simp only [noBlank_append, s.2.1, noBlank_plain a, Bool.and_self]
      · simp only [atStart_append]
        exact atStart_plain a (by simp)

theorem freeze_solid {m : Map} (h : Kept m) : ∃ s, freeze m = s ++ [10] ∧ Solid s := by
  refine ⟨_, rfl, dumpWith_solid (fun kv hkv => ⟨(h.1.words kv hkv).1, ident_line (h.1.words kv hkv).2⟩) (fun kv hkv => ?_) 0⟩
  exact dumpVal_solid (h.2 kv.1 kv.2 (mem_find h.1 hkv)) (by omega)

/-- a text without empty lines, in lines -/
theorem lines_of : ∀ (s cur : Str), 10 ∉ cur → noBlank (cur = []) s = true → (s = [] → cur ≠ []) → atStart false s = false →
    ∃ lines, Hazel.Lines (cur ++ s ++ [10]) lines
  | [], cur, hc, _, hne, _ => ⟨[cur], by simp, by
      intro x hx
      rw [List.mem_singleton] at hx
      subst hx
      exact ⟨hne rfl, hc⟩⟩
  | c :: s, cur, hc, hb, _, ha => by
    rw [noBlank] at hb
    by_cases h : c = 10
    · subst h
      rw [if_pos rfl, Bool.and_eq_true] at hb
      have hcne : cur ≠ [] := by
        intro e; simp [e] at hb
      have hs : s ≠ [] := by
        rintro rfl
        simp [atStart] at ha
      obtain ⟨lines, h1, h2⟩ := lines_of s [] (by simp) (by simpa using hb.2) (fun e => absurd e hs) (by
        rw [atStart] at ha
        cases s with
        | nil => exact absurd rfl hs
        | cons d s => exact ha)
      refine ⟨cur :: lines, ?_, ?_⟩
      · rw [List.flatMap_cons, ← h1]; simp
      · intro x hx
        rcases List.mem_cons.1 hx with rfl | hx
        · exact ⟨hcne, hc⟩
        · exact h2 x hx
    · rw [if_neg h] at hb
      obtain ⟨lines, h1, h2⟩ := lines_of s (cur ++ [c]) (by
          simp only [List.mem_append, List.mem_singleton, not_or]; exact ⟨hc, fun e => h e.symm⟩)
        (by simpa using hb) (fun _ => by simp) (by
          rw [atStart] at ha
          have : (c == 10) = false := by simpa using h
          rwa [this] at ha)
      exact ⟨lines, by rw [← h1]; simp, h2⟩

theorem freeze_lines {m : Map} (h : Kept m) : ∃ lines, Hazel.Lines (freeze m) lines := by
  obtain ⟨s, h1, h2⟩ := freeze_solid h
  obtain ⟨lines, h3⟩ := lines_of s [] (by simp) (by simpa using h2.1) (fun e => absurd e h2.2.2.1) (h2.2.2.2 false)
  exact ⟨lines, by rw [h1]; simpa using h3⟩

theorem dnaLines_line : ∀ {x cur dna s : Str}, 10 ∉ x → (cur ++ x ≠ []) →
    dnaLines cur dna (x ++ 10 :: s) = dnaLines [] (dna ++ (cur ++ x ++ [10])) s
  | [], cur, dna, s, _, h => by
    rw [List.nil_append, dnaLines, if_pos rfl, if_neg (by simpa using h), List.append_nil]
  | c :: x, cur, dna, s, hx, h => by
    simp only [List.mem_cons, not_or] at hx
    rw [List.cons_append, dnaLines, if_neg (fun e => hx.1 e.symm), dnaLines_line hx.2 (by simp)]
    simp

theorem dnaLines_dna : ∀ {lines : List Str} {dna s : Str}, (∀ x ∈ lines, x ≠ [] ∧ 10 ∉ x) →
    dnaLines [] dna (lines.flatMap (· ++ [10]) ++ 10 :: s) = some (dna ++ lines.flatMap (· ++ [10]))
  | [], dna, s, _ => by simp [dnaLines]
  | x :: lines, dna, s, h => by
    have hx := h x (by simp)
    simp only [List.flatMap_cons, List.append_assoc, List.cons_append, List.nil_append]
    rw [dnaLines_line hx.2 (by simpa using hx.1), dnaLines_dna fun y hy => h y (by simp [hy])]
    simp

theorem fileDna_ok {dna idx txt : List UInt8} {lines : List (List UInt8)} (h : Hazel.Lines dna lines) :
    fileDna (Hazel.hazelFile dna idx txt) = some dna := by
  obtain ⟨bd, e⟩ : ∃ bd, Hazel.hazelFile dna idx txt = Hazel.fileMagic ++ (dna ++ 10 :: (bd ++ idx ++ txt)) := by
    unfold Hazel.hazelFile
    dsimp only
    exact ⟨_, by simp only [List.append_assoc, List.cons_append, List.nil_append]; rfl⟩
  rw [e]
  unfold fileDna
  rw [List.take_left' (show Hazel.fileMagic.length = 12 from rfl), if_neg (by simp),
    List.drop_left' (show Hazel.fileMagic.length = 12 from rfl), h.1, dnaLines_dna h.2]
  simp

end Verif.HazelDna
