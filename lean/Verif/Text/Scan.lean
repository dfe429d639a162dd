import Verif.Text.Spec
/-
  Theory of scanners: a text is passed over in items, each of which is either a gap or
  the strings of one address.  Both tokenizers are scanners (AsciiProof, Utf8Proof).
-/
namespace Verif.Text

/-- bytes passed, and the strings annotated there (none for a gap) -/
abbrev Item := Nat × List Text

structure Scanner where
  item : Text → Item
  pos : ∀ c s, 1 ≤ (item (c :: s)).1
  le : ∀ c s, (item (c :: s)).1 ≤ s.length + 1

variable (S : Scanner)

def Scanner.items : Nat → Text → List Item
  | 0, _ => []
  | _ + 1, [] => []
  | n + 1, c :: cs => S.item (c :: cs) :: Scanner.items n ((c :: cs).drop (S.item (c :: cs)).1)

def tokensOf : List Item → Nat → Nat → List Tok
  | [], _, _ => []
  | (k, []) :: r, a, o => tokensOf r a (o + k)
  | (k, w :: ws) :: r, a, o => (w :: ws).map (fun w => ⟨w, a, o, k⟩) ++ tokensOf r (a + 1) (o + k)

def skipOf : List Item → Int → Nat
  | [], _ => 0
  | (k, []) :: r, n => k + skipOf r n
  | (k, _ :: _) :: r, n => if n ≤ 0 then 0 else k + skipOf r (n - 1)

def splitOf : List Item → List Text
  | [] => []
  | (_, []) :: r => splitOf r
  | (_, w :: _) :: r => w :: splitOf r

/-- number of addresses -/
def count : List Item → Nat
  | [] => 0
  | (_, []) :: r => count r
  | (_, _ :: _) :: r => count r + 1

/-- number of bytes -/
def width : List Item → Nat
  | [] => 0
  | (k, _) :: r => k + width r

theorem items_more (n : Nat) : ∀ (s : Text) (m : Nat), s.length ≤ n → s.length ≤ m →
    S.items n s = S.items m s := by
  induction n with
  | zero =>
    intro s m hn hm
    have : s = [] := List.length_eq_zero_iff.mp (by omega)
    subst this; cases m <;> rfl
  | succ n ih =>
    intro s m hn hm
    cases s with
    | nil => cases m <;> rfl
    | cons c cs =>
      cases m with
      | zero => simp at hm
      | succ m =>
        simp only [Scanner.items]
        congr 1
        have h1 := S.pos c cs
        simp only [List.length_cons] at hn hm
        apply ih <;> simp only [List.length_drop, List.length_cons] <;> omega

theorem width_items (n : Nat) : ∀ s : Text, s.length ≤ n → width (S.items n s) = s.length := by
  induction n with
  | zero => intro s h; have : s = [] := List.length_eq_zero_iff.mp (by omega); subst this; rfl
  | succ n ih =>
    intro s h
    cases s with
    | nil => rfl
    | cons c cs =>
      have h1 : 1 ≤ (S.item (c :: cs)).1 := S.pos c cs
      have h2 : (S.item (c :: cs)).1 ≤ cs.length + 1 := S.le c cs
      show (S.item (c :: cs)).1 + width (S.items n ((c :: cs).drop (S.item (c :: cs)).1)) = _
      simp only [List.length_cons] at h
      rw [ih] <;> simp only [List.length_drop, List.length_cons] <;> omega

/-! ### item lists -/

theorem tok_addr {l : List Item} : ∀ {a o t}, t ∈ tokensOf l a o →
    a ≤ t.address ∧ t.address < a + count l ∧ o ≤ t.offset ∧ t.offset + t.length ≤ o + width l := by
  induction l with
  | nil => intro a o t h; simp [tokensOf] at h
  | cons i r ih =>
    intro a o t h
    obtain ⟨k, ws⟩ := i
    cases ws with
    | nil =>
      simp only [tokensOf] at h
      have := ih h
      simp only [count, width]; omega
    | cons w ws =>
      simp only [tokensOf, List.mem_append, List.mem_map] at h
      simp only [count, width]
      rcases h with ⟨w', _, rfl⟩ | h
      · simp
      · have := ih h; omega

theorem tok_exists {l : List Item} : ∀ {a o n}, n < count l → ∃ t ∈ tokensOf l a o, t.address = a + n := by
  induction l with
  | nil => intro a o n h; simp [count] at h
  | cons i r ih =>
    intro a o n h
    obtain ⟨k, ws⟩ := i
    cases ws with
    | nil => simp only [count] at h; simp only [tokensOf]; exact ih h
    | cons w ws =>
      simp only [count] at h
      simp only [tokensOf]
      cases n with
      | zero => exact ⟨⟨w, a, o, k⟩, by simp, by simp⟩
      | succ n =>
        obtain ⟨t, ht, h2⟩ := ih (a := a + 1) (o := o + k) (n := n) (by omega)
        exact ⟨t, List.mem_append_right _ ht, by omega⟩

theorem tok_place {l : List Item} : ∀ {a o}, ∀ t ∈ tokensOf l a o, ∀ u ∈ tokensOf l a o,
    t.address = u.address → t.offset = u.offset ∧ t.length = u.length := by
  induction l with
  | nil => intro a o t h; simp [tokensOf] at h
  | cons i r ih =>
    intro a o t ht u hu e
    obtain ⟨k, ws⟩ := i
    cases ws with
    | nil => simp only [tokensOf] at ht hu; exact ih t ht u hu e
    | cons w ws =>
      simp only [tokensOf, List.mem_append, List.mem_map] at ht hu
      rcases ht with ⟨w1, _, rfl⟩ | ht <;> rcases hu with ⟨w2, _, rfl⟩ | hu
      · simp
      · have := tok_addr hu; simp at e; omega
      · have := tok_addr ht; simp at e; omega
      · exact ih t ht u hu e

theorem tok_mono {l : List Item} : ∀ {a o}, ∀ t ∈ tokensOf l a o, ∀ u ∈ tokensOf l a o,
    t.address < u.address → t.offset + t.length ≤ u.offset := by
  induction l with
  | nil => intro a o t h; simp [tokensOf] at h
  | cons i r ih =>
    intro a o t ht u hu e
    obtain ⟨k, ws⟩ := i
    cases ws with
    | nil => simp only [tokensOf] at ht hu; exact ih t ht u hu e
    | cons w ws =>
      simp only [tokensOf, List.mem_append, List.mem_map] at ht hu
      rcases ht with ⟨w1, _, rfl⟩ | ht <;> rcases hu with ⟨w2, _, rfl⟩ | hu
      · simp at e
      · have := tok_addr hu; simp at e ⊢; omega
      · have := tok_addr ht; simp at e; omega
      · exact ih t ht u hu e

theorem tok_sorted {l : List Item} : ∀ {a o},
    (tokensOf l a o).Pairwise fun t u => t.address ≤ u.address := by
  induction l with
  | nil => intro a o; simp [tokensOf]
  | cons i r ih =>
    intro a o
    obtain ⟨k, ws⟩ := i
    cases ws with
    | nil => simp only [tokensOf]; exact ih
    | cons w ws =>
      simp only [tokensOf]
      rw [List.pairwise_append]
      refine ⟨?_, ih, ?_⟩
      · rw [List.pairwise_map]; exact List.pairwise_of_forall (fun _ _ => Nat.le_refl _)
      · intro t ht u hu
        rw [List.mem_map] at ht
        obtain ⟨_, _, rfl⟩ := ht
        have := tok_addr hu
        simp only; omega

theorem tok_pos {l : List Item} (hl : ∀ i ∈ l, 1 ≤ i.1) : ∀ {a o}, ∀ t ∈ tokensOf l a o, 0 < t.length := by
  induction l with
  | nil => intro a o t h; simp [tokensOf] at h
  | cons i r ih =>
    intro a o t ht
    obtain ⟨k, ws⟩ := i
    have h1 := hl _ (List.mem_cons_self ..)
    have ih := fun {a o} => ih (fun i hi => hl i (List.mem_cons_of_mem _ hi)) (a := a) (o := o)
    cases ws with
    | nil => simp only [tokensOf] at ht; exact ih t ht
    | cons w ws =>
      simp only [tokensOf, List.mem_append, List.mem_map] at ht
      rcases ht with ⟨w1, _, rfl⟩ | ht
      · exact h1
      · exact ih t ht

theorem items_pos (n : Nat) : ∀ s : Text, ∀ i ∈ S.items n s, 1 ≤ i.1 := by
  induction n with
  | zero => intro s i h; simp [Scanner.items] at h
  | succ n ih =>
    intro s i h
    cases s with
    | nil => simp [Scanner.items] at h
    | cons c cs =>
      simp only [Scanner.items, List.mem_cons] at h
      rcases h with rfl | h
      · exact S.pos c cs
      · exact ih _ i h

theorem skip_tok {l : List Item} : ∀ {a o}, ∀ t ∈ tokensOf l a o,
    o + skipOf l ((t.address : Int) - a) = t.offset := by
  induction l with
  | nil => intro a o t h; simp [tokensOf] at h
  | cons i r ih =>
    intro a o t ht
    obtain ⟨k, ws⟩ := i
    cases ws with
    | nil =>
      simp only [tokensOf] at ht
      have := ih t ht
      simp only [skipOf]; omega
    | cons w ws =>
      simp only [tokensOf, List.mem_append, List.mem_map] at ht
      simp only [skipOf]
      rcases ht with ⟨w1, _, rfl⟩ | ht
      · simp
      · have h1 := tok_addr ht
        have h2 := ih t ht
        rw [if_neg (by omega)]
        have e : (t.address : Int) - a - 1 = (t.address : Int) - ((a + 1 : Nat) : Int) := by omega
        rw [e]; omega

theorem skip_past {l : List Item} : ∀ {n : Int}, (count l : Int) ≤ n → skipOf l n = width l := by
  induction l with
  | nil => intro n h; rfl
  | cons i r ih =>
    intro n h
    obtain ⟨k, ws⟩ := i
    cases ws with
    | nil => simp only [count] at h; simp only [skipOf, width]; rw [ih h]
    | cons w ws =>
      simp only [count] at h
      simp only [skipOf, width]
      rw [if_neg (by omega), ih (by omega)]

theorem skip_neg {l : List Item} : ∀ {n : Int}, n ≤ 0 → skipOf l n = skipOf l 0 := by
  induction l with
  | nil => intro n h; rfl
  | cons i r ih =>
    intro n h
    obtain ⟨k, ws⟩ := i
    cases ws with
    | nil => simp only [skipOf]; rw [ih h]
    | cons w ws => simp only [skipOf]; rw [if_pos h, if_pos (by omega)]

theorem split_len {l : List Item} : (splitOf l).length = count l := by
  induction l with
  | nil => rfl
  | cons i r ih =>
    obtain ⟨k, ws⟩ := i
    cases ws with
    | nil => simpa only [splitOf, count] using ih
    | cons w ws => simp [splitOf, count, ih]

theorem split_str {l : List Item} : ∀ {a o n w}, (splitOf l)[n]? = some w →
    ∃ t ∈ tokensOf l a o, t.address = a + n ∧ t.str = w := by
  induction l with
  | nil => intro a o n w h; simp [splitOf] at h
  | cons i r ih =>
    intro a o n w h
    obtain ⟨k, ws⟩ := i
    cases ws with
    | nil => simp only [splitOf] at h; simp only [tokensOf]; exact ih h
    | cons w' ws =>
      simp only [splitOf] at h
      simp only [tokensOf]
      cases n with
      | zero =>
        simp at h; subst h
        exact ⟨⟨w', a, o, k⟩, by simp, by simp, rfl⟩
      | succ n =>
        simp at h
        obtain ⟨t, ht, h2, h3⟩ := ih (a := a + 1) (o := o + k) h
        exact ⟨t, List.mem_append_right _ ht, by omega, h3⟩

/-- skipping twice -/
theorem skip_add (f : Nat) : ∀ (s : Text) (n m : Int), s.length ≤ f → 0 ≤ n → 0 ≤ m →
    skipOf (S.items f s) n +
      skipOf (S.items (s.drop (skipOf (S.items f s) n)).length (s.drop (skipOf (S.items f s) n))) m =
    skipOf (S.items f s) (n + m) := by
  induction f with
  | zero =>
    intro s n m h _ _
    have : s = [] := List.length_eq_zero_iff.mp (by omega)
    subst this; rfl
  | succ f ih =>
    intro s n m h hn hm
    cases s with
    | nil => rfl
    | cons c cs =>
      have h1 := S.pos c cs
      simp only [List.length_cons] at h
      rcases hi : S.item (c :: cs) with ⟨k, ws⟩
      rw [hi] at h1
      have hd : ((c :: cs).drop k).length ≤ f := by
        simp only [List.length_drop, List.length_cons]; simp at h1; omega
      have e : S.items (f + 1) (c :: cs) = (k, ws) :: S.items f ((c :: cs).drop k) := by
        simp only [Scanner.items, hi]
      cases ws with
      | nil =>
        rw [e]
        simp only [skipOf]
        have := ih ((c :: cs).drop k) n m hd hn hm
        rw [List.drop_drop] at this
        omega
      | cons w ws =>
        by_cases h0 : n = 0
        · subst h0
          have e0 : skipOf (S.items (f + 1) (c :: cs)) 0 = 0 := by rw [e]; simp [skipOf]
          rw [e0, List.drop_zero, items_more S _ _ (f + 1) (Nat.le_refl _) (by simpa using h)]
          simp
        · rw [e]
          simp only [skipOf]
          rw [if_neg (by omega), if_neg (by omega)]
          have := ih ((c :: cs).drop k) (n - 1) m hd (by omega) hm
          rw [List.drop_drop] at this
          have e2 : n - 1 + m = n + m - 1 := by omega
          rw [e2] at this
          omega

/-! ### a tokenizer that follows a scanner -/

structure Follows (T : Tokenizer) : Prop where
  tokenize : ∀ s, T.tokenize s = tokensOf (S.items s.length s) 0 0
  skip : ∀ s n, T.skip s n = skipOf (S.items s.length s) n

variable {S} {T : Tokenizer}

theorem at_iff (h : Follows S T) (s : Text) (n : Nat) : T.At s n ↔ n < count (S.items s.length s) := by
  unfold Tokenizer.At
  rw [h.tokenize]
  constructor
  · rintro ⟨t, ht, rfl⟩
    have := tok_addr ht; omega
  · intro hn
    obtain ⟨t, ht, e⟩ := tok_exists (a := 0) (o := 0) hn
    exact ⟨t, ht, by omega⟩

theorem ordered (h : Follows S T) (s : Text) : T.Ordered s := by
  have hw := width_items S s.length s (Nat.le_refl _)
  refine ⟨?_, ?_, ?_, ?_, ?_⟩
  · rw [h.tokenize]; exact tok_sorted
  · intro n m h1 h2
    rw [at_iff h] at h1 ⊢; omega
  · rw [h.tokenize]; exact tok_place
  · rw [h.tokenize]; exact tok_mono
  · rw [h.tokenize]
    intro t ht
    have := tok_addr ht
    exact ⟨tok_pos (items_pos S _ _) t ht, by omega⟩

theorem skips (h : Follows S T) (s : Text) : T.Skips s := by
  have hw := width_items S s.length s (Nat.le_refl _)
  refine ⟨?_, ?_, ?_, ?_⟩
  · intro t ht
    rw [h.tokenize] at ht
    have := skip_tok t ht
    rw [h.skip]
    simpa using this
  · intro n hn
    rw [at_iff h] at hn
    rw [h.skip, skip_past (by omega), hw]
  · intro n hn; rw [h.skip, h.skip]; exact skip_neg hn
  · intro n m hn hm
    simp only [h.skip]
    exact skip_add S _ s n m (Nat.le_refl _) hn hm

theorem splits (h : Follows S T) {s : Text} (hs : T.split s = splitOf (S.items s.length s)) :
    T.Splits s := by
  refine ⟨?_, ?_⟩
  · intro n w hw
    rw [hs] at hw
    obtain ⟨t, ht, e1, e2⟩ := split_str (a := 0) (o := 0) hw
    exact ⟨t, by rw [h.tokenize]; exact ht, by omega, e2⟩
  · intro n hn
    rw [at_iff h] at hn
    rw [hs, split_len]; exact hn

end Verif.Text
