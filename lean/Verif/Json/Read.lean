import Verif.Json.Places
import Verif.Text.Clean
/-
  What reading the part of a document gives, and what `sanitize` does.
-/
namespace Verif.Json
open Verif.Text Verif.Hopper

theorem space_bytes {b : UInt8} (h : Space b) : b ≠ 0 ∧ b ≠ 0xEF := by
  rcases h with rfl | rfl | rfl | rfl <;> decide

theorem go_spaces : ∀ {P : Text}, Spaces P → ∀ (p : Bool) (r : Text), ∃ P' p', Spaces P' ∧
    translateGo 0 false p (P ++ r) = P' ++ translateGo 0 false p' r := by
  intro P
  induction P with
  | nil => intro _ p r; exact ⟨[], p, spaces_nil, rfl⟩
  | cons c P ih =>
    intro h p r
    have hc := h c (List.mem_cons_self ..)
    obtain ⟨h0, h1⟩ := space_bytes hc
    have hP : Spaces P := fun b hb => h b (List.mem_cons_of_mem _ hb)
    rw [List.cons_append, translateGo.eq_def]
    simp only [isNext_ne h1, h0]
    by_cases hn : c = 0x0A
    · subst hn
      obtain ⟨P', p', e1, e2⟩ := ih hP true r
      exact ⟨P', p', e1, by simpa using e2⟩
    · by_cases hb : c = 0x20
      · subst hb
        obtain ⟨P', p', e1, e2⟩ := ih hP p r
        refine ⟨0x20 :: P', p', ?_, by simpa using e2⟩
        intro b hb; rw [List.mem_cons] at hb
        rcases hb with rfl | hb
        · exact Or.inl rfl
        · exact e1 b hb
      · obtain ⟨P', p', e1, e2⟩ := ih hP false r
        refine ⟨sp p ++ c :: P', p', ?_, ?_⟩
        · intro b hb
          rw [List.mem_append, List.mem_cons] at hb
          rcases hb with hb | rfl | hb
          · cases p with
            | false => cases hb
            | true => exact spaces_one b hb
          · exact hc
          · exact e1 b hb
        · cases p <;> simp [hn, hb, sp, e2]

/-- a stored value between white space turns into JSON -/
theorem json_between {P Q : Text} (hP : Spaces P) (hQ : Spaces Q) {v : Value} (hv : v.Fit) :
    IsJson (jsonTranslate (P ++ store (texts v) ++ Q)) v := by
  obtain ⟨x, hx, hr⟩ := reads_value v hv
  obtain ⟨P', p', h1, h2⟩ := go_spaces hP false (store (texts v) ++ Q)
  obtain ⟨Q', q', h3, h4⟩ := go_spaces hQ true []
  rw [go_nil, List.append_nil, List.append_nil] at h4
  refine ⟨P' ++ sp p', x, Q', ?_, ?_, hx, h3⟩
  · unfold jsonTranslate
    rw [List.append_assoc, h2, hr, h4]
    simp only [List.append_assoc]
  · intro b hb
    rw [List.mem_append] at hb
    rcases hb with hb | hb
    · exact h1 b hb
    · cases p' with
      | false => cases hb
      | true => exact spaces_one b hb

mutual
theorem tagged_fit : {path : Text} → {v : Value} → {tag : Text} → {m : Mark} → {w : Value} →
    Tagged path v tag m w → v.Fit → w.Fit
  | _, _, _, _, _, .self _ _, h => h
  | _, _, _, _, _, .element hi hw, h => tagged_fit hw (elem_fit (by simpa only [Value.Fit] using h) hi)
  | _, _, _, _, _, .member hi hw, h => tagged_fit hw (member_fit (by simpa only [Value.Fit] using h) hi)
  | _, _, _, _, _, .key hi, h => member_fit (by simpa only [Value.Fit] using h) hi
theorem elem_fit : {es : Elems} → es.Fit → {i : Nat} → {w : Value} → es.toList[i]? = some w → w.Fit
  | .nil, _, _, _, hi => by simp [Elems.toList] at hi
  | .cons v es, h, 0, w, hi => by
      simp only [Elems.toList, List.getElem?_cons_zero, Option.some.injEq] at hi
      simp only [Elems.Fit] at h
      rw [← hi]; exact h.1
  | .cons v es, h, i + 1, w, hi => by
      simp only [Elems.toList, List.getElem?_cons_succ] at hi
      simp only [Elems.Fit] at h
      exact elem_fit h.2 hi
theorem member_fit : {ms : Members} → ms.Fit → {k : Text} → {w : Value} → (k, w) ∈ ms.toList → w.Fit
  | .nil, _, _, _, hi => by simp [Members.toList] at hi
  | .cons k v ms, h, k', w, hi => by
      simp only [Members.toList, List.mem_cons, Prod.mk.injEq] at hi
      simp only [Members.Fit] at h
      rcases hi with ⟨-, rfl⟩ | hi
      · exact h.2.1
      · exact member_fit h.2.2 hi
end

/-! ### `sanitize` -/

/-- a byte that is replaced after `EF B7` -/
def Bad (c : UInt8) : Prop := c ≠ 0 ∧ (c < 0x80 ∨ 0x90 ≤ c)

theorem noncharNext_iff (a b c : UInt8) (r : Text) :
    noncharNext (a :: b :: c :: r) = true ↔ a = 0xEF ∧ b = 0xB7 ∧ Bad c := by
  have key : ∀ n : Fin 256, ((decide (signed (UInt8.ofNat n.val) ≥ signed 0x90) ||
      decide (signed (UInt8.ofNat n.val) ≥ signed 0xAF)) = true) ↔
      (UInt8.ofNat n.val < 0x80 ∨ 0x90 ≤ UInt8.ofNat n.val) := by decide +kernel
  have hk := key ⟨c.toNat, c.toNat_lt⟩
  simp only [UInt8.ofNat_toNat] at hk
  simp only [noncharNext, Bool.and_eq_true, beq_iff_eq, bne_iff_ne, hk, Bad, and_assoc]

theorem sanitize_id : ∀ {s : Text}, (0 : UInt8) ∉ s → (∀ c, Bad c → ¬ [0xEF, 0xB7, c] <:+: s) →
    sanitizeGo 0 s = s := by
  intro s
  induction s with
  | nil => intro _ _; rfl
  | cons a s ih =>
    intro h0 h1
    have ha : a ≠ 0 := fun h => h0 (by rw [h]; exact List.mem_cons_self ..)
    have hn : noncharNext (a :: s) = false := by
      cases hx : noncharNext (a :: s) with
      | false => rfl
      | true =>
        match s, hx with
        | b :: c :: r, hx =>
          obtain ⟨rfl, rfl, hc⟩ := (noncharNext_iff a b c r).mp hx
          exact absurd ⟨[], r, rfl⟩ (h1 c hc)
    rw [sanitizeGo, if_neg ha, hn, ih (fun h => h0 (List.mem_cons_of_mem _ h))
      (fun c hc hx => h1 c hc (hx.trans (List.suffix_cons a s).isInfix))]
    rfl

theorem sanitize_head {r : Text} {b : UInt8} {o : Text} (h : sanitizeGo 0 r = b :: o) (hb : b ≠ 0xEF) :
    ∃ r', r = b :: r' ∧ o = sanitizeGo 0 r' := by
  cases r with
  | nil => cases h
  | cons c r =>
    rw [sanitizeGo] at h
    split at h
    · cases h
    · split at h
      · injection h with h _; exact absurd h.symm hb
      · injection h with h h'; subst h; exact ⟨r, rfl, h'.symm⟩

/-- no byte sequence that is replaced is in the result -/
theorem sanitize_free : ∀ (s : Text) (k : Nat) (c : UInt8), Bad c → ¬ [0xEF, 0xB7, c] <:+: sanitizeGo k s := by
  intro s
  induction s with
  | nil =>
    intro k c _ h
    have := h.length_le
    cases k <;> simp [sanitizeGo] at this
  | cons a s ih =>
    intro k c hc
    cases k with
    | succ k => exact ih k c hc
    | zero =>
      rw [sanitizeGo]
      split
      · intro h; have := h.length_le; simp at this
      · split
        · intro h
          -- not at the replacement character, and not after it
          rw [show [0xEF, 0xBF, 0xBD] ++ sanitizeGo 2 s = 0xEF :: 0xBF :: 0xBD :: sanitizeGo 2 s from rfl] at h
          rw [List.infix_cons_iff] at h
          rcases h with h | h
          · obtain ⟨t, ht⟩ := h
            simp at ht
          · rw [List.infix_cons_iff] at h
            rcases h with h | h
            · obtain ⟨t, ht⟩ := h
              simp at ht
            · rw [List.infix_cons_iff] at h
              rcases h with h | h
              · obtain ⟨t, ht⟩ := h
                simp at ht
              · exact ih 2 c hc h
        · rename_i hn
          intro h
          rw [List.infix_cons_iff] at h
          rcases h with h | h
          · obtain ⟨t, ht⟩ := h
            simp only [List.cons_append, List.nil_append] at ht
            injection ht with h1 h2
            subst h1
            obtain ⟨r1, rfl, e1⟩ := sanitize_head h2.symm (by decide)
            by_cases hce : c = 0xEF
            · subst hce
              cases r1 with
              | nil => cases e1
              | cons d r2 =>
                apply hn
                rw [noncharNext_iff]
                refine ⟨rfl, rfl, ?_⟩
                rw [sanitizeGo] at e1
                split at e1
                · cases e1
                · rename_i hd
                  split at e1
                  · rename_i hx
                    match r2, hx with
                    | x :: y :: r3, hx =>
                      have := ((noncharNext_iff d x y r3).mp hx).1
                      rw [this]; exact hc
                  · injection e1 with e1 _
                    rw [← e1]; exact hc
            · obtain ⟨r2, rfl, -⟩ := sanitize_head e1.symm hce
              exact hn ((noncharNext_iff _ _ _ _).mpr ⟨rfl, rfl, hc⟩)
          · exact ih 0 c hc h

/-- a text in which something is found has `EF B7` in it -/
theorem contains_infix : ∀ (s : Text), (containsGo 0 s = true → [0xEF, 0xB7] <:+: s) ∧
    (containsGo 1 s = true → s.head? = some 0xB7 ∨ [0xEF, 0xB7] <:+: s) := by
  intro s
  induction s with
  | nil => exact ⟨fun h => by simp [containsGo] at h, fun h => by simp [containsGo] at h⟩
  | cons c s ih =>
    constructor
    · intro h
      rw [containsGo] at h
      split at h
      · cases h
      · rw [if_pos rfl] at h
        by_cases hc : c = 0xEF
        · rw [if_pos hc] at h
          rcases ih.2 h with h1 | h1
          · cases s with
            | nil => cases h1
            | cons d s =>
              simp only [List.head?_cons, Option.some.injEq] at h1
              subst h1; subst hc
              exact ⟨[], s, rfl⟩
          · exact h1.trans (List.suffix_cons c s).isInfix
        · rw [if_neg hc] at h
          exact (ih.1 h).trans (List.suffix_cons c s).isInfix
    · intro h
      rw [containsGo] at h
      split at h
      · cases h
      · rw [if_neg (by decide), if_pos rfl] at h
        by_cases hc : c = 0xB7
        · left; rw [hc]; rfl
        · rw [if_neg hc] at h
          right
          exact (ih.1 h).trans (List.suffix_cons c s).isInfix

/-! ### `json_encode` -/

/-- the escape of a control character -/
def escapeFine (c : UInt8) (x : Text) : Bool :=
  match x with
  | [a, e] => a == 0x5C && escaped e == some c
  | [a, u, y, z, i, j] => a == 0x5C && u == 0x75 && hex y == some 0 && hex z == some 0 &&
      hex i == some (c.toNat / 16) && hex j == some (c.toNat % 16)
  | _ => false

theorem encode_control : ∀ n : Fin 32, escapeFine (UInt8.ofNat n.val) (encodeByte (UInt8.ofNat n.val)) = true := by
  decide +kernel

theorem chars_byte (c : UInt8) {x s : Text} (h : Chars x s) : Chars (encodeByte c ++ x) (c :: s) := by
  by_cases hq : c = 0x22
  · subst hq; exact .short rfl h
  · by_cases hb : c = 0x5C
    · subst hb; exact .short rfl h
    · by_cases hc : c < 0x20
      · have hlt : c.toNat < 32 := by rw [UInt8.lt_iff_toNat_lt] at hc; exact hc
        have hk := encode_control ⟨c.toNat, hlt⟩
        simp only [UInt8.ofNat_toNat] at hk
        generalize encodeByte c = y at hk
        unfold escapeFine at hk
        split at hk
        · simp only [Bool.and_eq_true, beq_iff_eq] at hk
          obtain ⟨rfl, h2⟩ := hk
          exact .short h2 h
        · simp only [Bool.and_eq_true, beq_iff_eq] at hk
          obtain ⟨⟨⟨⟨⟨rfl, rfl⟩, h3⟩, h4⟩, h5⟩, h6⟩ := hk
          rename_i y z i j
          have hh : Hex4 [y, z, i, j] c.toNat :=
            ⟨y, z, i, j, 0, 0, c.toNat / 16, c.toNat % 16, rfl, h3, h4, h5, h6, by omega⟩
          have := Chars.code hh (Or.inl (by omega)) h
          have e : encode c.toNat = [c] := by
            unfold encode; rw [if_pos (by omega)]; simp
          rw [e] at this
          exact this
        · cases hk
      · have e : encodeByte c = [c] := by
          have h1 : c ≠ 0x08 := by rintro rfl; exact hc (by decide)
          have h2 : c ≠ 0x0C := by rintro rfl; exact hc (by decide)
          have h3 : c ≠ 0x0A := by rintro rfl; exact hc (by decide)
          have h4 : c ≠ 0x0D := by rintro rfl; exact hc (by decide)
          have h5 : c ≠ 0x09 := by rintro rfl; exact hc (by decide)
          simp [encodeByte, hq, hb, h1, h2, h3, h4, h5, hc]
        rw [e]
        exact .plain c (UInt8.not_lt.mp hc) hq hb h

theorem chars_encode (s : Text) : Chars (s.map encodeByte).flatten s := by
  induction s with
  | nil => exact .nil
  | cons c s ih =>
    rw [List.map_cons, List.flatten_cons]
    exact chars_byte c ih

/-! ### texts that are no JSON -/

/-- a text that starts with a quotation mark and ends in no white space is JSON only as a
string -/
theorem json_string {r : Text} {v : Value} (h : IsJson (0x22 :: r) v)
    (hl : ∀ b, (0x22 :: r).getLast? = some b → ¬ Space b) : ∃ k s, 0x22 :: r = 0x22 :: (k ++ [0x22]) ∧ Chars k s := by
  obtain ⟨a, y, b, e, ha, hy, hb⟩ := h
  have e0 : a = [] := by
    cases a with
    | nil => rfl
    | cons c a =>
      simp only [List.cons_append] at e
      injection e with e1 _
      have := ha c (List.mem_cons_self ..)
      rw [← e1] at this
      rcases this with h | h | h | h <;> simp at h
  subst e0
  have e1 : b = [] := by
    rcases List.eq_nil_or_concat b with h | ⟨b', c, h⟩
    · exact h
    · exfalso
      rw [List.concat_eq_append] at h
      subst h
      refine hl c ?_ (hb c (by simp))
      rw [e]; simp
  subst e1
  rw [List.nil_append, List.append_nil] at e
  subst e
  cases hy with
  | num hx =>
    obtain ⟨w, f, h1, h2, h3, h4, h5, -⟩ := hx.parts
    rename_i neg m
    cases neg with
    | true => simp at h5
    | false =>
      cases w with
      | nil => exact absurd rfl h3
      | cons d w =>
        simp at h5
        have := h1 d (List.mem_cons_self ..)
        rw [← h5.1] at this
        exact absurd this.1 (by decide)
  | str hx => exact ⟨_, _, rfl, hx⟩

end Verif.Json
