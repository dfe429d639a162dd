import Verif.Json.Notes
/-
  Which annotations are made, and which texts they are on.
-/
namespace Verif.Json
open Verif.Text Verif.Hopper

variable {T : Tokenizer}

/-- the part `w` is all of `v`, or there are texts on both sides -/
def Sides (w v : Value) (A B : List Text) : Prop := A = [] ∧ B = [] ∧ w = v ∨ A ≠ [] ∧ B ≠ []

/-- an annotation on texts that start at address `n` -/
def On (T : Tokenizer) (x : Note) (n : Nat) (l : List Text) : Prop :=
  x.p = n ∧ x.q = (n : Int) + cnt T l - 1

theorem own_on (v : Value) (path : Text) (n : Nat) : On T (ownNote T v path n) n (texts v) := ⟨rfl, rfl⟩

theorem elem_place : ∀ {es : Elems} {i : Nat} {w : Value}, es.toList[i]? = some w → ∀ (j : Nat) (path : Text),
    ∃ A B, elemTexts (j == 0) es = A ++ texts w ++ B ∧
      ∀ n, ∀ x ∈ notesOf T w (elemPath path (j + i)) (n + cnt T A), x ∈ elemNotes T es j path n
  | .nil, i, w, h, _, _ => by simp [Elems.toList] at h
  | .cons v es, 0, w, h, j, path => by
      simp only [Elems.toList, List.getElem?_cons_zero, Option.some.injEq] at h
      subst h
      refine ⟨comma (j == 0), elemTexts false es, by rw [elemTexts_cons, List.append_assoc], fun n x hx => ?_⟩
      rw [elemNotes]; exact List.mem_append_left _ hx
  | .cons v es, i + 1, w, h, j, path => by
      simp only [Elems.toList, List.getElem?_cons_succ] at h
      obtain ⟨A, B, e, hn⟩ := elem_place h (j + 1) path
      refine ⟨comma (j == 0) ++ texts v ++ A, B, ?_, fun n x hx => ?_⟩
      · have : elemTexts false es = A ++ texts w ++ B := e
        rw [elemTexts_cons, this]; simp
      · rw [elemNotes]
        refine List.mem_append_right _ (hn _ x ?_)
        have e1 : j + 1 + i = j + (i + 1) := by omega
        have e2 : n + cnt T (comma (j == 0)) + cnt T (texts v) + cnt T A = n + cnt T (comma (j == 0) ++ texts v ++ A) := by
          simp only [cnt_append]; omega
        rw [e1, e2]; exact hx

theorem member_place : ∀ {ms : Members} {k : Text} {w : Value}, (k, w) ∈ ms.toList → ∀ (first : Bool) (path : Text),
    ∃ A B, memberTexts first ms = A ++ texts w ++ B ∧
      ∀ n, (∀ x ∈ notesOf T w (path ++ k ++ [0x3A]) (n + cnt T A), x ∈ memberNotes T ms first path n) ∧
        ⟨k ++ [0x3A], (n + cnt T A : Nat), ((n + cnt T A : Nat) : Int) + cnt T (texts w) - 1, .zero⟩ ∈
          memberNotes T ms first path n
  | .nil, k, w, h, _, _ => by simp [Members.toList] at h
  | .cons k' v ms, k, w, h, first, path => by
      simp only [Members.toList, List.mem_cons, Prod.mk.injEq] at h
      rcases h with ⟨rfl, rfl⟩ | h
      · refine ⟨comma first ++ [keyText k], memberTexts false ms, by rw [memberTexts_cons]; simp, fun n => ?_⟩
        have e : n + cnt T (comma first ++ [keyText k]) = n + cnt T (comma first) + T.addresses (keyText k) := by
          simp only [cnt_append, cnt_cons, cnt_nil]; omega
        rw [memberNotes, e]
        refine ⟨fun x hx => List.mem_append_left _ hx, List.mem_append_right _ (List.mem_cons_self ..)⟩
      · obtain ⟨A, B, e, hn⟩ := member_place h false path
        refine ⟨comma first ++ keyText k' :: (texts v ++ A), B, ?_, fun n => ?_⟩
        · rw [memberTexts_cons, e]; simp
        · have e2 : n + cnt T (comma first ++ keyText k' :: (texts v ++ A)) =
              n + cnt T (comma first) + T.addresses (keyText k') + cnt T (texts v) + cnt T A := by
            simp only [cnt_append, cnt_cons]; omega
          rw [memberNotes, e2]
          refine ⟨fun x hx => ?_, ?_⟩
          · exact List.mem_append_right _ (List.mem_cons_of_mem _ ((hn _).1 x hx))
          · exact List.mem_append_right _ (List.mem_cons_of_mem _ (hn _).2)

theorem own_mem (v : Value) (path : Text) (n : Nat) : ownNote T v path n ∈ notesOf T v path n := by
  cases v <;> simp [notesOf]

theorem tagged_place {path : Text} {v : Value} {tag : Text} {m : Mark} {w : Value} (h : Tagged path v tag m w) :
    ∃ A B, texts v = A ++ texts w ++ B ∧ Sides w v A B ∧
      ∀ n, ∃ x ∈ notesOf T v path n, x.tag = tag ∧ x.v = m ∧ On T x (n + cnt T A) (texts w) := by
  induction h with
  | self path v =>
    exact ⟨[], [], by simp, Or.inl ⟨rfl, rfl, rfl⟩, fun n => ⟨_, own_mem v path n, rfl, rfl, own_on v path n⟩⟩
  | @element path es i w tag m u hi _ ih =>
    obtain ⟨A, B, e, -, hn⟩ := ih
    obtain ⟨C, D, e', hm⟩ := elem_place (T := T) hi 0 path
    refine ⟨mark 0x92 :: (C ++ A), B ++ D ++ [mark 0x93], ?_, Or.inr ⟨by simp, by simp⟩, fun n => ?_⟩
    · have : elemTexts true es = C ++ texts w ++ D := e'
      rw [texts, this, e]; simp
    · obtain ⟨x, hx, h1, h2, h3⟩ := hn (n + T.addresses (mark 0x92) + cnt T C)
      refine ⟨x, ?_, h1, h2, ?_⟩
      · rw [notesOf]
        refine List.mem_append_left _ (hm _ x ?_)
        rw [Nat.zero_add]; exact hx
      · have : n + cnt T (mark 0x92 :: (C ++ A)) = n + T.addresses (mark 0x92) + cnt T C + cnt T A := by
          simp only [cnt_cons, cnt_append]; omega
        rw [this]; exact h3
  | @member path ms k w tag m u hi _ ih =>
    obtain ⟨A, B, e, -, hn⟩ := ih
    obtain ⟨C, D, e', hm⟩ := member_place (T := T) hi true path
    refine ⟨mark 0x90 :: (C ++ A), B ++ D ++ [mark 0x91], ?_, Or.inr ⟨by simp, by simp⟩, fun n => ?_⟩
    · rw [texts, e', e]; simp
    · obtain ⟨x, hx, h1, h2, h3⟩ := hn (n + T.addresses (mark 0x90) + cnt T C)
      refine ⟨x, ?_, h1, h2, ?_⟩
      · rw [notesOf]
        exact List.mem_append_left _ ((hm _).1 x hx)
      · have : n + cnt T (mark 0x90 :: (C ++ A)) = n + T.addresses (mark 0x90) + cnt T C + cnt T A := by
          simp only [cnt_cons, cnt_append]; omega
        rw [this]; exact h3
  | @key path ms k w hi =>
    obtain ⟨C, D, e', hm⟩ := member_place (T := T) hi true path
    refine ⟨mark 0x90 :: C, D ++ [mark 0x91], ?_, Or.inr ⟨by simp, by simp⟩, fun n => ?_⟩
    · rw [texts, e']; simp
    · refine ⟨_, List.mem_append_left _ (hm (n + T.addresses (mark 0x90))).2, rfl, rfl, ?_, ?_⟩
      · rw [cnt_cons]
        show ((n + T.addresses (mark 0x90) + cnt T C : Nat) : Int) = _
        omega
      · rw [cnt_cons]
        show ((n + T.addresses (mark 0x90) + cnt T C : Nat) : Int) + cnt T (texts w) - 1 = _
        omega

mutual
/-- every annotation made for a value is of one of its parts -/
theorem notes_place : (v : Value) → (path : Text) → (n : Nat) → ∀ x ∈ notesOf T v path n,
    ∃ w A B, Tagged path v x.tag x.v w ∧ texts v = A ++ texts w ++ B ∧ Sides w v A B ∧ On T x (n + cnt T A) (texts w)
  | .null, path, n, x, hx => by
      rw [notesOf, List.mem_singleton] at hx; subst hx
      exact ⟨_, [], [], .self _ _, by simp, Or.inl ⟨rfl, rfl, rfl⟩, own_on _ _ _⟩
  | .bool b, path, n, x, hx => by
      rw [notesOf, List.mem_singleton] at hx; subst hx
      exact ⟨_, [], [], .self _ _, by simp, Or.inl ⟨rfl, rfl, rfl⟩, own_on _ _ _⟩
  | .num v neg m, path, n, x, hx => by
      rw [notesOf, List.mem_singleton] at hx; subst hx
      exact ⟨_, [], [], .self _ _, by simp, Or.inl ⟨rfl, rfl, rfl⟩, own_on _ _ _⟩
  | .str s, path, n, x, hx => by
      rw [notesOf, List.mem_singleton] at hx; subst hx
      exact ⟨_, [], [], .self _ _, by simp, Or.inl ⟨rfl, rfl, rfl⟩, own_on _ _ _⟩
  | .arr es, path, n, x, hx => by
      rw [notesOf, List.mem_append, List.mem_singleton] at hx
      rcases hx with hx | rfl
      · obtain ⟨i, w0, w, A, B, h1, h2, h3, h4⟩ := elemNotes_place es 0 path _ x hx
        refine ⟨w, mark 0x92 :: A, B ++ [mark 0x93], .element h1 ?_, ?_, Or.inr ⟨by simp, by simp⟩, ?_⟩
        · rw [Nat.zero_add] at h2; exact h2
        · have : elemTexts true es = A ++ texts w ++ B := h3
          rw [texts, this]; simp
        · rw [cnt_cons, ← Nat.add_assoc]; exact h4
      · exact ⟨_, [], [], .self _ _, by simp, Or.inl ⟨rfl, rfl, rfl⟩, own_on _ _ _⟩
  | .obj ms, path, n, x, hx => by
      rw [notesOf, List.mem_append, List.mem_singleton] at hx
      rcases hx with hx | rfl
      · obtain ⟨k, w0, w, A, B, h1, h2, h3, h4⟩ := memberNotes_place ms true path _ x hx
        refine ⟨w, mark 0x90 :: A, B ++ [mark 0x91], ?_, ?_, Or.inr ⟨by simp, by simp⟩, ?_⟩
        · rcases h2 with h2 | ⟨e1, e2, rfl⟩
          · exact .member h1 h2
          · rw [e1, e2]; exact .key h1
        · rw [texts, h3]; simp
        · rw [cnt_cons, ← Nat.add_assoc]; exact h4
      · exact ⟨_, [], [], .self _ _, by simp, Or.inl ⟨rfl, rfl, rfl⟩, own_on _ _ _⟩
theorem elemNotes_place : (es : Elems) → (j : Nat) → (path : Text) → (n : Nat) → ∀ x ∈ elemNotes T es j path n,
    ∃ i w0 w A B, es.toList[i]? = some w0 ∧ Tagged (elemPath path (j + i)) w0 x.tag x.v w ∧
      elemTexts (j == 0) es = A ++ texts w ++ B ∧ On T x (n + cnt T A) (texts w)
  | .nil, _, _, _, x, hx => by rw [elemNotes] at hx; cases hx
  | .cons v es, j, path, n, x, hx => by
      rw [elemNotes, List.mem_append] at hx
      rcases hx with hx | hx
      · obtain ⟨w, A, B, h1, h2, -, h3⟩ := notes_place v _ _ x hx
        refine ⟨0, v, w, comma (j == 0) ++ A, B ++ elemTexts false es, rfl, h1, ?_, ?_⟩
        · rw [elemTexts_cons, h2]; simp
        · rw [cnt_append, ← Nat.add_assoc]; exact h3
      · obtain ⟨i, w0, w, A, B, h1, h2, h3, h4⟩ := elemNotes_place es (j + 1) path _ x hx
        refine ⟨i + 1, w0, w, comma (j == 0) ++ texts v ++ A, B, h1, ?_, ?_, ?_⟩
        · have : j + (i + 1) = j + 1 + i := by omega
          rw [this]; exact h2
        · have : elemTexts false es = A ++ texts w ++ B := h3
          rw [elemTexts_cons, this]; simp
        · rw [cnt_append, cnt_append, ← Nat.add_assoc, ← Nat.add_assoc]; exact h4
theorem memberNotes_place : (ms : Members) → (first : Bool) → (path : Text) → (n : Nat) →
    ∀ x ∈ memberNotes T ms first path n,
    ∃ k w0 w A B, (k, w0) ∈ ms.toList ∧
      (Tagged (path ++ k ++ [0x3A]) w0 x.tag x.v w ∨ x.tag = k ++ [0x3A] ∧ x.v = .zero ∧ w = w0) ∧
      memberTexts first ms = A ++ texts w ++ B ∧ On T x (n + cnt T A) (texts w)
  | .nil, _, _, _, x, hx => by rw [memberNotes] at hx; cases hx
  | .cons k v ms, first, path, n, x, hx => by
      rw [memberNotes, List.mem_append, List.mem_cons] at hx
      rcases hx with hx | rfl | hx
      · obtain ⟨w, A, B, h1, h2, -, h3⟩ := notes_place v _ _ x hx
        refine ⟨k, v, w, comma first ++ keyText k :: A, B ++ memberTexts false ms, List.mem_cons_self ..,
          Or.inl h1, ?_, ?_⟩
        · rw [memberTexts_cons, h2]; simp
        · rw [cnt_append, cnt_cons, ← Nat.add_assoc, ← Nat.add_assoc]; exact h3
      · refine ⟨k, v, v, comma first ++ [keyText k], memberTexts false ms, List.mem_cons_self ..,
          Or.inr ⟨rfl, rfl, rfl⟩, ?_, ?_⟩
        · rw [memberTexts_cons]; simp
        · rw [cnt_append, cnt_cons, cnt_nil, ← Nat.add_assoc]; exact ⟨rfl, rfl⟩
      · obtain ⟨k', w0, w, A, B, h1, h2, h3, h4⟩ := memberNotes_place ms false path _ x hx
        refine ⟨k', w0, w, comma first ++ keyText k :: (texts v ++ A), B, List.mem_cons_of_mem _ h1, h2, ?_, ?_⟩
        · rw [memberTexts_cons, h3]; simp
        · have : n + cnt T (comma first ++ keyText k :: (texts v ++ A)) =
              n + cnt T (comma first) + T.addresses (keyText k) + cnt T (texts v) + cnt T A := by
            simp only [cnt_append, cnt_cons]; omega
          rw [this]; exact h4
end

/-! ### the UTF-8 tokenizer -/

/-- The table of the UTF-8 tokenizer, as far as documents depend on it: the separators are no
token characters (`Separates`), the ten noncharacters are tokens (src/utf8_tokenizer.cc
170-175) and so are the first letters of `null`, `true` and `false`, or parts of tokens. -/
structure JsonTable (act : Nat → Action) : Prop where
  separates : Separates act
  marks : ∀ n, n < 10 → act (0xFDD0 + n) ≠ .non
  letters : act 0x6E ≠ .non ∧ act 0x74 ≠ .non ∧ act 0x66 ≠ .non

/-- the text begins with a token, whatever follows it -/
def Begins (T : Tokenizer) (s : Text) : Prop := s ≠ [] ∧ ∀ F, T.skip (s ++ F) 0 = 0

theorem utf8_begins {act : Nat → Action} {c : UInt8} {r : Text} (h : ∀ F, act (decode (c :: r ++ F)).1 ≠ .non) :
    Begins (utf8 act) (c :: r) := by
  refine ⟨by simp, fun F => ?_⟩
  have hF := h F
  show utf8Skip act _ (c :: r ++ F) false 0 = 0
  rw [List.cons_append, List.length_cons, utf8Skip.eq_def]
  rw [List.cons_append] at hF
  simp only
  split
  · rename_i hx; exact absurd hx hF
  · rfl
  · rfl
  · rfl

theorem begins_mark {act : Nat → Action} (hA : JsonTable act) {t : UInt8} (h1 : 0x90 ≤ t) (h2 : t ≤ 0x99) (r : Text) :
    Begins (utf8 act) (mark t ++ r) := by
  refine utf8_begins fun F => ?_
  show act (decode (0xEF :: ([0xB7, t] ++ r) ++ F)).1 ≠ .non
  have e : (decode (0xEF :: ([0xB7, t] ++ r) ++ F)).1 = 15 * 4096 + 55 * 64 + t.toNat % 64 := by
    simp only [decode, List.cons_append, List.nil_append, List.length_cons]
    rw [if_neg (by simp), if_neg (by simp), if_pos (by simp), if_neg (by omega)]
    simp
  rw [e]
  rw [UInt8.le_iff_toNat_le] at h1 h2
  have h1' : 144 ≤ t.toNat := h1
  have h2' : t.toNat ≤ 153 := h2
  have := hA.marks (t.toNat - 144) (by omega)
  rw [show 0xFDD0 + (t.toNat - 144) = 15 * 4096 + 55 * 64 + t.toNat % 64 by omega] at this
  exact this

theorem begins_low {act : Nat → Action} {c : UInt8} (h : c < 0x80) (ha : act c.toNat ≠ .non) (r : Text) :
    Begins (utf8 act) (c :: r) := by
  refine utf8_begins fun F => ?_
  have e : (decode (c :: r ++ F)).1 = c.toNat := by
    rw [UInt8.lt_iff_toNat_lt] at h
    have : c.toNat < 128 := h
    simp [decode, this]
  rw [e]; exact ha

theorem begins_addresses {T : Tokenizer} (hT : Lawful T) {s : Text} (h : Begins T s) : 0 < T.addresses s := by
  rw [← at_lt hT]
  apply Classical.byContradiction
  intro hn
  have h1 := (hT.skips s).past 0 hn
  have h2 := h.2 []
  rw [List.append_nil] at h2
  rw [show ((0 : Nat) : Int) = 0 from rfl, h2] at h1
  exact h.1 (List.eq_nil_of_length_eq_zero h1.symm)

theorem complete_mark {t : UInt8} (h : t < 0xC0) : Complete (mark t) := by
  have e : mark t = UInt8.ofNat 0xEF :: UInt8.ofNat 0xB7 :: [UInt8.ofNat t.toNat] := by simp [mark]
  rw [e]
  rw [UInt8.lt_iff_toNat_lt] at h
  exact complete_cons (show need 0xEF ≤ 3 by decide) (complete_cons (show need 0xB7 ≤ 2 by decide) (complete_one _ h))

theorem complete_low {s : Text} (h : ∀ c ∈ s, c < 0xC0) : Complete s := by
  induction s with
  | nil => exact complete_nil
  | cons c s ih =>
    have hc := h c (List.mem_cons_self ..)
    rw [UInt8.lt_iff_toNat_lt] at hc
    have e : c = UInt8.ofNat c.toNat := by simp
    rw [e]
    refine complete_cons ?_ (ih fun d hd => h d (List.mem_cons_of_mem _ hd))
    rw [need_low ⟨c.toNat, c.toNat_lt⟩ hc]; omega

theorem body_mark (x : Text) {t : UInt8} (h : (0x80 : UInt8) ≤ t) : body (x ++ mark t) = x ++ mark t := by
  have e : (x ++ mark t).getLast? = some t := by
    rw [List.getLast?_append]; rfl
  have : separator t = false := by
    unfold separator
    rw [Bool.or_eq_false_iff, Bool.or_eq_false_iff]
    refine ⟨⟨?_, ?_⟩, ?_⟩ <;> (rw [beq_eq_false_iff_ne]; rintro rfl; revert h; decide)
  unfold body
  rw [e]
  simp [this]

/-- a text of a document -/
def Good (act : Nat → Action) (s : Text) : Prop := Begins (utf8 act) s ∧ Complete (body s)

section
variable {act : Nat → Action} (hA : JsonTable act)
include hA

theorem good_mark {t : UInt8} (h1 : 0x90 ≤ t) (h2 : t ≤ 0x99) : Good act (mark t) := by
  refine ⟨by have := begins_mark hA h1 h2 []; simpa using this, ?_⟩
  have h80 : (0x80 : UInt8) ≤ t := UInt8.le_trans (by decide) h1
  have hC0 : t < 0xC0 := UInt8.lt_of_le_of_lt h2 (by decide)
  have := body_mark [] h80
  rw [List.nil_append] at this
  rw [this]; exact complete_mark hC0

theorem good_around {s : Text} {a b : UInt8} (a1 : 0x90 ≤ a) (a2 : a ≤ 0x99) (b1 : 0x90 ≤ b) (b2 : b ≤ 0x99)
    (hs : Complete s) : Good act (mark a ++ s ++ mark b) := by
  have h80 : (0x80 : UInt8) ≤ b := UInt8.le_trans (by decide) b1
  have aC0 : a < 0xC0 := UInt8.lt_of_le_of_lt a2 (by decide)
  have bC0 : b < 0xC0 := UInt8.lt_of_le_of_lt b2 (by decide)
  refine ⟨by rw [List.append_assoc]; exact begins_mark hA a1 a2 _, ?_⟩
  rw [body_mark _ h80]
  exact complete_append (complete_append (complete_mark aC0) hs) (complete_mark bC0)

theorem good_key {k : Text} (hk : Complete k) : Good act (keyText k) := by
  have : keyText k = mark 0x94 ++ (k ++ mark 0x95) ++ mark 0x96 := by simp [keyText]
  rw [this]
  exact good_around hA (by decide) (by decide) (by decide) (by decide)
    (complete_append hk (complete_mark (by decide)))

theorem good_comma (first : Bool) : ∀ s ∈ comma first, Good act s := by
  cases first with
  | true => intro s hs; cases hs
  | false =>
    intro s hs
    have : s = mark 0x97 := by simpa [comma] using hs
    rw [this]; exact good_mark hA (by decide) (by decide)

omit hA in
theorem printed_low (neg : Bool) (m : Nat) : ∀ c ∈ printed neg m, c < 0xC0 := by
  obtain ⟨h1, -⟩ := decimal_spec (m / 10 ^ 6)
  have hd : ∀ d, Digit d → d < 0xC0 := fun d hd => UInt8.lt_of_le_of_lt hd.2 (by decide)
  intro c hc
  have e : printed neg m = (if neg then [0x2D] else []) ++ decimal (m / 10 ^ 6) ++ 0x2E :: decimals m := rfl
  rw [e, List.mem_append, List.mem_append, List.mem_cons] at hc
  rcases hc with (hc | hc) | rfl | hc
  · cases neg with
    | false => cases hc
    | true =>
      have : c = 0x2D := by simpa using hc
      subst this; decide
  · exact hd c (h1 c hc)
  · decide
  · exact hd c (decimals_digits m c hc)

mutual
theorem texts_good : (v : Value) → v.Fit → ∀ s ∈ texts v, Good act s
  | .null, _, s, hs => by
      rw [texts, List.mem_singleton] at hs; subst hs
      exact ⟨begins_low (by decide) hA.letters.1 _, complete_low (by decide)⟩
  | .bool true, _, s, hs => by
      rw [texts, List.mem_singleton] at hs; subst hs
      exact ⟨begins_low (by decide) hA.letters.2.1 _, complete_low (by decide)⟩
  | .bool false, _, s, hs => by
      rw [texts, List.mem_singleton] at hs; subst hs
      exact ⟨begins_low (by decide) hA.letters.2.2 _, complete_low (by decide)⟩
  | .num v neg m, _, s, hs => by
      rw [texts, List.mem_singleton] at hs; subst hs
      exact good_around hA (by decide) (by decide) (by decide) (by decide) (complete_low (printed_low neg m))
  | .str x, h, s, hs => by
      rw [texts, List.mem_singleton] at hs; subst hs
      simp only [Value.Fit] at h
      exact good_around hA (by decide) (by decide) (by decide) (by decide) h.complete
  | .arr es, h, s, hs => by
      rw [texts, List.mem_cons, List.mem_append, List.mem_singleton] at hs
      simp only [Value.Fit] at h
      rcases hs with rfl | hs | rfl
      · exact good_mark hA (by decide) (by decide)
      · exact elemTexts_good es h true s hs
      · exact good_mark hA (by decide) (by decide)
  | .obj ms, h, s, hs => by
      rw [texts, List.mem_cons, List.mem_append, List.mem_singleton] at hs
      simp only [Value.Fit] at h
      rcases hs with rfl | hs | rfl
      · exact good_mark hA (by decide) (by decide)
      · exact memberTexts_good ms h true s hs
      · exact good_mark hA (by decide) (by decide)
theorem elemTexts_good : (es : Elems) → es.Fit → ∀ first, ∀ s ∈ elemTexts first es, Good act s
  | .nil, _, _, s, hs => by rw [elemTexts] at hs; cases hs
  | .cons v es, h, first, s, hs => by
      simp only [Elems.Fit] at h
      rw [elemTexts_cons, List.mem_append, List.mem_append] at hs
      rcases hs with hs | hs | hs
      · exact good_comma hA first s hs
      · exact texts_good v h.1 s hs
      · exact elemTexts_good es h.2 false s hs
theorem memberTexts_good : (ms : Members) → ms.Fit → ∀ first, ∀ s ∈ memberTexts first ms, Good act s
  | .nil, _, _, s, hs => by rw [memberTexts] at hs; cases hs
  | .cons k v ms, h, first, s, hs => by
      simp only [Members.Fit] at h
      rw [memberTexts_cons, List.mem_append, List.mem_cons, List.mem_append] at hs
      rcases hs with hs | rfl | hs | hs
      · exact good_comma hA first s hs
      · exact good_key hA h.1.complete
      · exact texts_good v h.2.1 s hs
      · exact memberTexts_good ms h.2.2 false s hs
end

theorem Good.ok {s : Text} (h : Good act s) : Ok (utf8 act) s :=
  ⟨utf8_clean hA.separates h.2, begins_addresses (utf8_lawful act) h.1⟩
end

/-! ### reading the texts of a part -/

theorem texts_ne (v : Value) : texts v ≠ [] := by
  cases v <;> simp [texts]

/-- the slice of the stored text that belongs to some of the texts -/
theorem slice_texts (hT : Lawful T) {l M : List Text} {F : Text} (hl : ∀ u ∈ l, Clean T u) (hM : ∀ u ∈ M, Clean T u)
    (h0 : T.skip (store M ++ F) 0 = 0) {i st : Nat} (hi : i = cnt T l)
    (hst : st = if i = 0 then 0 else T.skip (store l ++ (store M ++ F)) i) :
    ((store l ++ (store M ++ F)).drop st).take (T.skip (store l ++ (store M ++ F)) (i + cnt T M : Nat) - st) =
      (if i = 0 then store l else []) ++ store M ++ F.take (T.skip F 0) := by
  have key : ∀ {k : List Text}, (∀ u ∈ k, Clean T u) → Whole T (store k) ∧ T.addresses (store k) = cnt T k := by
    intro k hk
    obtain ⟨i1, i2, i3⟩ := all_inv hT (start_inv hT) hk
    have eA : (App.all T {} k).text = store k := by rw [i2]; rfl
    refine ⟨by rw [← eA]; exact i1.whole, ?_⟩
    rw [← eA, i1.address, i3]; simp [cnt]
  obtain ⟨wl, nl⟩ := key hl
  obtain ⟨wM, nM⟩ := key hM
  have eE : T.skip (store l ++ (store M ++ F)) (i + cnt T M : Nat) = (store l).length + ((store M).length + T.skip F 0) := by
    rw [hi, ← nl, skip_append hT wl]
    congr 1
    have := skip_append hT wM F 0
    rw [nM] at this
    exact this
  rw [eE]
  by_cases hz : i = 0
  · rw [if_pos hz] at hst ⊢
    subst hst
    rw [List.drop_zero, Nat.sub_zero, take_add_append, take_add_append, List.append_assoc]
  · rw [if_neg hz] at hst ⊢
    have e0 : st = (store l).length := by
      have := skip_append hT wl (store M ++ F) 0
      rw [nl, ← hi] at this
      rw [hst, show ((i : Nat) : Int) = ((i + 0 : Nat) : Int) from rfl, this]
      rw [show ((0 : Nat) : Int) = 0 from rfl, h0]; rfl
    rw [e0, List.drop_left, Nat.add_sub_cancel_left, take_add_append]; rfl

end Verif.Json
