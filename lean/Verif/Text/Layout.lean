import Verif.Text.Fiver
import Verif.Hopper.Array
/-
  The chunks of a shard point at the right places of its text.
-/
namespace Verif.Text
open Verif.Hopper

/-- a tokenizer whose functions agree (C28) -/
structure Lawful (T : Tokenizer) : Prop where
  ordered : ∀ s, T.Ordered s
  skips : ∀ s, T.Skips s

/-- a text that can be followed by any text -/
def Whole (T : Tokenizer) (A : Text) : Prop := T.Joins A []

variable {T : Tokenizer}

section
variable (hT : Lawful T)
include hT

theorem tokenize_nil : T.tokenize [] = [] := by
  cases h : T.tokenize [] with
  | nil => rfl
  | cons t l =>
    have := (hT.ordered []).inside t (by rw [h]; exact List.mem_cons_self ..)
    simp at this; omega

theorem at_lt (s : Text) (n : Nat) : T.At s n ↔ n < T.addresses s := by
  have ho := hT.ordered s
  unfold Tokenizer.addresses
  split
  · rename_i he
    rw [List.getLast?_eq_none_iff] at he
    constructor
    · rintro ⟨t, ht, -⟩; rw [he] at ht; cases ht
    · intro h; omega
  · rename_i t ht
    obtain ⟨l, hl⟩ := List.getLast?_eq_some_iff.mp ht
    have hm : t ∈ T.tokenize s := by rw [hl]; simp
    constructor
    · rintro ⟨u, hu, rfl⟩
      have hs := ho.sorted
      rw [hl] at hu hs
      rw [List.mem_append, List.mem_singleton] at hu
      rcases hu with hu | rfl
      · have := (List.pairwise_append.mp hs).2.2 u hu t (by simp); omega
      · omega
    · intro h
      by_cases e : n = t.address
      · exact ⟨t, hm, e.symm⟩
      · exact ho.dense t.address n ⟨t, hm, rfl⟩ (by omega)

theorem skip_mono (s : Text) (n m : Nat) : T.skip s n ≤ T.skip s (n + m : Nat) := by
  have := (hT.skips s).add n m (by omega) (by omega)
  have e : ((n + m : Nat) : Int) = (n : Int) + m := by omega
  rw [e]; omega

theorem skip_le (s : Text) (n : Nat) : T.skip s n ≤ s.length := by
  have h := skip_mono hT s n (T.addresses s)
  have := (hT.skips s).past (n + T.addresses s) (by rw [at_lt hT]; omega)
  omega
end

theorem whole_eq {A : Text} (h : Whole T A) (b : Text) : T.tokenize (A ++ b) =
    T.tokenize A ++ (T.tokenize b).map (Tok.moved (T.addresses A) A.length) := by
  have := h b
  simpa using this

theorem addresses_of {s : Text} {l : List Tok} (h : T.tokenize s = l) : T.addresses s =
    match l.getLast? with | none => 0 | some t => t.address + 1 := by
  unfold Tokenizer.addresses; rw [h]; rfl

theorem addresses_append {A : Text} (h : Whole T A) (b : Text) :
    T.addresses (A ++ b) = T.addresses A + T.addresses b := by
  rw [addresses_of (whole_eq h b)]
  unfold Tokenizer.addresses
  rw [List.getLast?_append, List.getLast?_map]
  cases (T.tokenize b).getLast? with
  | none => simp; rfl
  | some t => simp [Tok.moved]; omega

section
variable (hT : Lawful T)
include hT

theorem whole_nil : Whole T [] := by
  intro b
  have h0 := tokenize_nil hT
  have h1 : T.addresses [] = 0 := by rw [addresses_of h0]; rfl
  rw [h1, h0]
  have e : Tok.moved 0 ([] ++ [] : Text).length = id := rfl
  rw [e]; simp

theorem skip_append {A : Text} (h : Whole T A) (b : Text) (n : Nat) :
    T.skip (A ++ b) (T.addresses A + n : Nat) = A.length + T.skip b n := by
  by_cases hn : T.At b n
  · obtain ⟨t, ht, rfl⟩ := hn
    have hm : t.moved (T.addresses A) A.length ∈ T.tokenize (A ++ b) := by
      rw [whole_eq h]; exact List.mem_append_right _ (List.mem_map_of_mem ht)
    have h1 := (hT.skips _).start _ hm
    have h2 := (hT.skips b).start t ht
    simp only [Tok.moved] at h1
    rw [h2, Nat.add_comm A.length, ← h1, Nat.add_comm]
  · have h2 := (hT.skips b).past n hn
    rw [h2, (hT.skips _).past]
    · simp
    · rw [at_lt hT, addresses_append h]
      rw [at_lt hT] at hn; omega

theorem whole_append {A B : Text} (hA : Whole T A) (hB : Whole T B) : Whole T (A ++ B) := by
  intro b
  have e1 : A ++ B ++ [] ++ b = A ++ (B ++ b) := by simp
  rw [e1, whole_eq hA, whole_eq hB, whole_eq hA, addresses_append hA]
  simp only [List.map_append, List.map_map, List.append_assoc, List.append_nil]
  congr 2
  apply List.map_congr_left
  intro t _
  simp only [Function.comp, Tok.moved, List.length_append]
  congr 1 <;> omega

/-- a text with its ending -/
theorem clean_stored {s e : Text} (h : T.Joins s e) :
    T.tokenize (s ++ e) = T.tokenize s ∧ T.addresses (s ++ e) = T.addresses s ∧ Whole T (s ++ e) := by
  have h0 := h []
  rw [tokenize_nil hT] at h0
  simp only [List.append_nil, List.map_nil] at h0
  have h1 : T.addresses (s ++ e) = T.addresses s := by
    unfold Tokenizer.addresses; rw [h0]
  refine ⟨h0, h1, ?_⟩
  intro b
  have := h b
  simp only [List.append_nil]
  rw [this, h0, h1]
end

/-! ### places in a text -/

/-- `v` is a place of `text` just before its address `g`: the boundary between two texts, or
the place of that token -/
def Starts (T : Tokenizer) (text : Text) (g v : Nat) : Prop :=
  (∃ A B, text = A ++ B ∧ A.length = v ∧ Whole T A ∧ T.addresses A = g) ∨
  (∃ t ∈ T.tokenize text, t.address = g ∧ t.offset = v)

theorem Starts.right {text : Text} {g v : Nat} (h : Starts T text g v) (hw : Whole T text) (b : Text) :
    Starts T (text ++ b) g v := by
  rcases h with ⟨A, B, rfl, h1, h2, h3⟩ | ⟨t, ht, h1, h2⟩
  · exact Or.inl ⟨A, B ++ b, by simp, h1, h2, h3⟩
  · exact Or.inr ⟨t, by rw [whole_eq hw]; exact List.mem_append_left _ ht, h1, h2⟩

section
variable (hT : Lawful T)
include hT

theorem Starts.left {text : Text} {g v : Nat} (h : Starts T text g v) {X : Text} (hX : Whole T X) :
    Starts T (X ++ text) (T.addresses X + g) (X.length + v) := by
  rcases h with ⟨A, B, rfl, rfl, h2, rfl⟩ | ⟨t, ht, rfl, rfl⟩
  · exact Or.inl ⟨X ++ A, B, by simp, by simp, whole_append hT hX h2, addresses_append hX A⟩
  · refine Or.inr ⟨t.moved (T.addresses X) X.length, ?_, ?_, ?_⟩
    · rw [whole_eq hX]; exact List.mem_append_right _ (List.mem_map_of_mem ht)
    · simp [Tok.moved]; omega
    · simp [Tok.moved]; omega

theorem Starts.le {text : Text} {g v : Nat} (h : Starts T text g v) : v ≤ text.length := by
  rcases h with ⟨A, B, rfl, rfl, h2, rfl⟩ | ⟨t, ht, rfl, rfl⟩
  · simp
  · have := ((hT.ordered _).inside t ht).2; omega

/-- skipping from such a place counts from its address -/
theorem Starts.skip {text : Text} {g v : Nat} (h : Starts T text g v) (n : Nat) :
    v + T.skip (text.drop v) n = T.skip text (g + n : Nat) := by
  rcases h with ⟨A, B, rfl, rfl, h2, rfl⟩ | ⟨t, ht, rfl, rfl⟩
  · rw [List.drop_left, skip_append hT h2]
  · have h1 := (hT.skips _).start t ht
    have h2 := (hT.skips text).add t.address n (by omega) (by omega)
    rw [h1] at h2
    have e : ((t.address + n : Nat) : Int) = (t.address : Int) + n := by omega
    rw [e]; exact h2
end

/-- number of addresses of a chunk -/
def Ann.len (c : Ann) : Nat := (c.q - c.p + 1).toNat

def covered (l : List Ann) : Nat := (l.map Ann.len).sum

/-- the chunks, from the one that starts at address number `g` of the text -/
def Laid (T : Tokenizer) (text : Text) : Nat → List Ann → Prop
  | _, [] => True
  | g, c :: l => Starts T text g c.v.toNat ∧ 0 ≤ c.v ∧ c.p ≤ c.q ∧ Laid T text (g + Ann.len c) l

theorem Laid.right {text : Text} (hw : Whole T text) (b : Text) : ∀ {l : List Ann} {g : Nat},
    Laid T text g l → Laid T (text ++ b) g l := by
  intro l
  induction l with
  | nil => intro g _; trivial
  | cons c l ih => intro g h; exact ⟨h.1.right hw b, h.2.1, h.2.2.1, ih h.2.2.2⟩

theorem laid_append {text : Text} : ∀ {l r : List Ann} {g : Nat},
    Laid T text g (l ++ r) ↔ Laid T text g l ∧ Laid T text (g + covered l) r := by
  intro l
  induction l with
  | nil => intro r g; simp [Laid, covered]
  | cons c l ih =>
    intro r g
    simp only [List.cons_append, Laid, ih, covered, List.map_cons, List.sum_cons, Nat.add_assoc,
      and_assoc]

theorem covered_append (l r : List Ann) : covered (l ++ r) = covered l + covered r := by
  simp [covered]

theorem covered_move (b : Int) (o : Nat) (l : List Ann) : covered (l.map (moveChunk b o)) = covered l := by
  unfold covered
  rw [List.map_map]
  congr 1
  apply List.map_congr_left
  intro c _
  simp only [Function.comp, Ann.len, moveChunk]
  congr 1; omega

theorem Laid.left (hT : Lawful T) {X : Text} (hX : Whole T X) {text : Text} (b : Int) :
    ∀ {l : List Ann} {g : Nat}, Laid T text g l →
    Laid T (X ++ text) (T.addresses X + g) (l.map (moveChunk b X.length)) := by
  intro l
  induction l with
  | nil => intro g _; trivial
  | cons c l ih =>
    intro g h
    refine ⟨?_, ?_, ?_, ?_⟩
    · have := h.1.left hT hX
      have hv := h.2.1
      have e : (moveChunk b X.length c).v.toNat = X.length + c.v.toNat := by simp [moveChunk]; omega
      rw [e]; exact this
    · have hv := h.2.1; simp [moveChunk]; omega
    · have := h.2.2.1; simp only [moveChunk]; omega
    · have := ih h.2.2.2
      have e : Ann.len (moveChunk b X.length c) = Ann.len c := by
        simp only [Ann.len, moveChunk]; congr 1; omega
      show Laid T (X ++ text) (T.addresses X + g + Ann.len (moveChunk b X.length c)) _
      rw [e, Nat.add_assoc]; exact this

theorem Laid.move {text : Text} (b : Int) : ∀ {l : List Ann} {g : Nat}, Laid T text g l →
    Laid T text g (l.map (moveChunk b 0)) := by
  intro l
  induction l with
  | nil => intro g _; trivial
  | cons c l ih =>
    intro g h
    have e : Ann.len (moveChunk b 0 c) = Ann.len c := by
      simp only [Ann.len, moveChunk]; congr 1; omega
    refine ⟨by simpa [moveChunk] using h.1, by simpa [moveChunk] using h.2.1, ?_, ?_⟩
    · have := h.2.2.1; simp only [moveChunk]; omega
    · show Laid T text (g + Ann.len (moveChunk b 0 c)) _
      rw [e]; exact ih h.2.2.2

/-! ### appending -/

/-- the chunks are one after the other, from address `a` up to address `b` -/
def Tiles : Int → List Ann → Int → Prop
  | a, [], b => a = b
  | a, c :: l, b => c.p = a ∧ c.p ≤ c.q ∧ Tiles (c.q + 1) l b

theorem tiles_append : ∀ {l r : List Ann} {a b c : Int}, Tiles a l b → Tiles b r c → Tiles a (l ++ r) c := by
  intro l
  induction l with
  | nil => intro r a b c h1 h2; simp only [Tiles] at h1; subst h1; exact h2
  | cons d l ih => intro r a b c h1 h2; exact ⟨h1.1, h1.2.1, ih h1.2.2 h2⟩

theorem tiles_covered : ∀ {l : List Ann} {a b : Int}, Tiles a l b → (covered l : Int) = b - a := by
  intro l
  induction l with
  | nil => intro a b h; simp only [Tiles] at h; simp [covered]; omega
  | cons c l ih =>
    intro a b h
    have := ih h.2.2
    obtain ⟨h1, h2, _⟩ := h
    simp only [covered, List.map_cons, List.sum_cons, Ann.len] at this ⊢
    omega

theorem tiles_ge : ∀ {l : List Ann} {a b : Int}, Tiles a l b → ∀ c ∈ l, a ≤ c.p ∧ c.p ≤ c.q ∧ c.q < b := by
  intro l
  induction l with
  | nil => intro a b _ c hc; cases hc
  | cons d l ih =>
    intro a b h c hc
    obtain ⟨h1, h2, h3⟩ := h
    have hb : d.q + 1 ≤ b := by have := tiles_covered h3; omega
    rw [List.mem_cons] at hc
    rcases hc with rfl | hc
    · omega
    · have := ih h3 c hc; omega

theorem tiles_pairwise : ∀ {l : List Ann} {a b : Int}, Tiles a l b →
    l.Pairwise fun c d => c.q < d.p := by
  intro l
  induction l with
  | nil => intro a b _; exact List.Pairwise.nil
  | cons c l ih =>
    intro a b h
    refine List.Pairwise.cons ?_ (ih h.2.2)
    intro d hd
    have := tiles_ge h.2.2 d hd
    omega

theorem tiles_move (x : Int) : ∀ {l : List Ann} {a b : Int}, Tiles a l b →
    Tiles (a + x) (l.map (moveChunk x 0)) (b + x) := by
  intro l
  induction l with
  | nil => intro a b h; simp only [Tiles] at h; subst h; exact rfl
  | cons c l ih =>
    intro a b h
    obtain ⟨h1, h2, h3⟩ := h
    refine ⟨by simp only [moveChunk]; omega, by simp only [moveChunk]; omega, ?_⟩
    have := ih h3
    have e : (moveChunk x 0 c).q + 1 = c.q + 1 + x := by simp only [moveChunk]; omega
    show Tiles ((moveChunk x 0 c).q + 1) _ _
    rw [e]; exact this

/-- a chunk that is not the first starts at a token -/
def AtTokens (T : Tokenizer) (text : Text) (l : List Ann) : Prop :=
  ∀ c ∈ l, c.p = 0 ∧ c.v = 0 ∨ c.p ≠ 0 ∧ ∃ t ∈ T.tokenize text, (t.address : Int) = c.p ∧ (t.offset : Int) = c.v

/-- state of the appender between two texts -/
structure AppInv (T : Tokenizer) (st : App) : Prop where
  whole : Whole T st.text
  address : T.addresses st.text = st.address
  laid : Laid T st.text 0 st.chunks
  tiles : Tiles 0 st.chunks st.chunkAddress
  open_ : Starts T st.text st.chunkAddress st.chunkOffset
  tokens : AtTokens T st.text st.chunks
  first : (st.chunkAddress = 0 ∧ st.chunkOffset = 0) ∨ st.chunkAddress ≠ 0 ∧
    ∃ t ∈ T.tokenize st.text, t.address = st.chunkAddress ∧ t.offset = st.chunkOffset
  lt : st.chunkAddress < st.address ∨ (st.chunkAddress = 0 ∧ st.address = 0)
  notes : st.notes = (T.tokenize st.text).map fun t => (t.str, t.address)

/-- state of the appender within the loop over the tokens; `text` is the whole text -/
structure LoopInv (T : Tokenizer) (text : Text) (st : App) : Prop where
  laid : Laid T text 0 st.chunks
  tiles : Tiles 0 st.chunks st.chunkAddress
  open_ : Starts T text st.chunkAddress st.chunkOffset
  tokens : AtTokens T text st.chunks
  first : (st.chunkAddress = 0 ∧ st.chunkOffset = 0) ∨ st.chunkAddress ≠ 0 ∧
    ∃ t ∈ T.tokenize text, t.address = st.chunkAddress ∧ t.offset = st.chunkOffset

theorem token_step {text : Text} {st : App} (h : LoopInv T text st) {offset base : Nat} {t : Tok}
    (ht : t.moved base offset ∈ T.tokenize text) (hle : st.chunkAddress ≤ t.address + base) :
    LoopInv T text (st.token offset base t) ∧ (st.token offset base t).chunkAddress ≤ t.address + base ∧
    (st.token offset base t).text = st.text ∧
    (st.token offset base t).notes = st.notes ++ [(t.str, t.address + base)] := by
  unfold App.token
  simp only
  split
  · rename_i hgt
    refine ⟨⟨?_, ?_, ?_, ?_, ?_⟩, Nat.le_refl _, rfl, rfl⟩
    · simp only
      rw [laid_append]
      refine ⟨h.laid, ?_, by simp, by simp only; omega, trivial⟩
      have := tiles_covered h.tiles
      have e : 0 + covered st.chunks = st.chunkAddress := by omega
      rw [e]
      simpa using h.open_
    · simp only
      exact tiles_append h.tiles ⟨rfl, by simp only; omega, by simp only [Tiles]; omega⟩
    · exact Or.inr ⟨_, ht, rfl, by simp [Tok.moved]; omega⟩
    · intro c hc
      simp only [List.mem_append, List.mem_singleton] at hc
      rcases hc with hc | rfl
      · exact h.tokens c hc
      · rcases h.first with ⟨h1, h2⟩ | ⟨h0, u, hu, h1, h2⟩
        · left; simp [h1, h2]
        · right; exact ⟨by simp only; omega, u, hu, by simp [h1], by simp [h2]⟩
    · exact Or.inr ⟨by simp only; omega, _, ht, rfl, by simp [Tok.moved]; omega⟩
  · exact ⟨⟨h.laid, h.tiles, h.open_, h.tokens, h.first⟩, hle, rfl, rfl⟩

theorem token_loop {text : Text} {offset base : Nat} : ∀ {l : List Tok} {st : App}, LoopInv T text st →
    (∀ t ∈ l, t.moved base offset ∈ T.tokenize text) → (∀ t ∈ l, st.chunkAddress ≤ t.address + base) →
    l.Pairwise (fun t u => t.address ≤ u.address) →
    LoopInv T text (l.foldl (App.token offset base) st) ∧
    (∀ u, l.getLast? = some u → (l.foldl (App.token offset base) st).chunkAddress ≤ u.address + base) ∧
    (l.foldl (App.token offset base) st).text = st.text ∧
    (l.foldl (App.token offset base) st).notes = st.notes ++ l.map fun t => (t.str, t.address + base) := by
  intro l
  induction l with
  | nil => intro st h _ _ _; exact ⟨h, by simp, rfl, by simp⟩
  | cons t l ih =>
    intro st h hm hle hs
    obtain ⟨h1, h2, h3, h4⟩ := token_step h (hm t (List.mem_cons_self ..)) (hle t (List.mem_cons_self ..))
    rw [List.pairwise_cons] at hs
    obtain ⟨i1, i2, i3, i4⟩ := ih (st := st.token offset base t) h1
      (fun u hu => hm u (List.mem_cons_of_mem _ hu))
      (fun u hu => Nat.le_trans h2 (by have := hs.1 u hu; omega)) hs.2
    refine ⟨i1, ?_, by rw [List.foldl_cons, i3, h3], ?_⟩
    · intro u hu
      rw [List.foldl_cons]
      cases l with
      | nil =>
        simp at hu; subst hu
        exact h2
      | cons v l =>
        rw [List.getLast?_cons_cons] at hu
        exact i2 u hu
    · rw [List.foldl_cons, i4, h4]; simp

/-- a text may be appended: with its ending it can be followed by any text -/
def Clean (T : Tokenizer) (s : Text) : Prop := T.Joins s (ending s)

section
variable (hT : Lawful T)
include hT

theorem append_inv {st : App} (h : AppInv T st) {s : Text} (hs : Clean T s) :
    AppInv T (st.append T s).1 ∧ (st.append T s).1.text = st.text ++ stored s ∧
    (st.append T s).1.address = st.address + T.addresses s ∧
    (T.addresses s = 0 → (st.append T s).2 = ((st.address : Int) + 1, (st.address : Int))) ∧
    (0 < T.addresses s → (st.append T s).2 =
      ((st.address : Int), (st.address : Int) + T.addresses s - 1)) := by
  unfold App.append
  by_cases h0 : s = []
  · subst h0
    have h1 := tokenize_nil hT
    have h2 : T.addresses [] = 0 := by rw [addresses_of h1]; rfl
    rw [if_pos rfl]
    exact ⟨h, by simp [stored, ending], by simp [h2], fun _ => rfl, fun h => by omega⟩
  · rw [if_neg h0]
    obtain ⟨c1, c2, c3⟩ := clean_stored hT hs
    have hw : Whole T (st.text ++ stored s) := whole_append hT h.whole c3
    have haddr : T.addresses (st.text ++ stored s) = st.address + T.addresses s := by
      rw [addresses_append h.whole, h.address]; unfold stored; rw [c2]
    have htoks : T.tokenize (st.text ++ stored s) = T.tokenize st.text ++
        (T.tokenize s).map (Tok.moved st.address st.text.length) := by
      rw [whole_eq h.whole, h.address]; unfold stored; rw [c1]
    have hkeep : ∀ {c : Ann}, (∃ t ∈ T.tokenize st.text, (t.address : Int) = c.p ∧ (t.offset : Int) = c.v) →
        ∃ t ∈ T.tokenize (st.text ++ stored s), (t.address : Int) = c.p ∧ (t.offset : Int) = c.v := by
      rintro c ⟨t, ht, h1, h2⟩
      exact ⟨t, by rw [htoks]; exact List.mem_append_left _ ht, h1, h2⟩
    have hloop : LoopInv T (st.text ++ stored s) { st with text := st.text ++ stored s } := by
      refine ⟨h.laid.right h.whole _, h.tiles, h.open_.right h.whole _, ?_, ?_⟩
      · intro c hc
        rcases h.tokens c hc with h1 | h1
        · exact Or.inl h1
        · exact Or.inr ⟨h1.1, hkeep h1.2⟩
      · rcases h.first with h1 | ⟨h0, t, ht, h1, h2⟩
        · exact Or.inl h1
        · exact Or.inr ⟨h0, t, by rw [htoks]; exact List.mem_append_left _ ht, h1, h2⟩
    have hcl : st.chunkAddress ≤ st.address := by have := h.lt; omega
    simp only
    cases hl : (T.tokenize s).getLast? with
    | none =>
      have ha : T.addresses s = 0 := by unfold Tokenizer.addresses; rw [hl]
      have hn : T.tokenize s = [] := List.getLast?_eq_none_iff.mp hl
      refine ⟨⟨hw, by rw [haddr, ha]; rfl, hloop.laid, hloop.tiles, hloop.open_, hloop.tokens,
        hloop.first, h.lt, ?_⟩, rfl, by simp [ha], fun _ => rfl, fun h => by omega⟩
      simp only [htoks, hn, List.map_nil, List.append_nil]
      exact h.notes
    | some l =>
      have ha : T.addresses s = l.address + 1 := by unfold Tokenizer.addresses; rw [hl]
      obtain ⟨i1, i2, i3, i4⟩ := token_loop (offset := st.text.length) (base := st.address) hloop
        (l := T.tokenize s)
        (fun t ht => by rw [htoks]; exact List.mem_append_right _ (List.mem_map_of_mem ht))
        (fun t ht => by show st.chunkAddress ≤ _; omega) (hT.ordered s).sorted
      refine ⟨⟨?_, ?_, ?_, i1.tiles, ?_, ?_, ?_, ?_, ?_⟩, i3, ?_, fun h => by omega, fun _ => ?_⟩
      · show Whole T _; rw [i3]; exact hw
      · show T.addresses _ = _
        rw [i3]
        show T.addresses (st.text ++ stored s) = _
        rw [haddr, ha]; simp only; omega
      · show Laid T _ _ _; rw [i3]; exact i1.laid
      · show Starts T _ _ _; rw [i3]; exact i1.open_
      · show AtTokens T _ _; rw [i3]; exact i1.tokens
      · show _ ∨ _ ∧ ∃ t ∈ T.tokenize _, _
        rw [i3]; exact i1.first
      · have := i2 l hl
        left
        exact Nat.lt_succ_of_le (Nat.le_trans this (by omega))
      · simp only
        rw [i4, i3]
        show st.notes ++ _ = List.map _ (T.tokenize (st.text ++ stored s))
        rw [htoks, h.notes, List.map_append, List.map_map]
        rfl
      · show st.address + l.address + 1 = _
        omega
      · simp only [Prod.mk.injEq, true_and]
        omega

theorem start_inv : AppInv T ({} : App) := by
  have h1 := tokenize_nil hT
  have h2 : T.addresses [] = 0 := by rw [addresses_of h1]; rfl
  exact ⟨whole_nil hT, h2, trivial, rfl, Or.inl ⟨[], [], rfl, rfl, whole_nil hT, h2⟩,
    (fun c hc => by cases hc), Or.inl ⟨rfl, rfl⟩, Or.inr ⟨rfl, rfl⟩, by
      show [] = List.map _ (T.tokenize []); rw [h1]; rfl⟩

theorem all_inv : ∀ {texts : List Text} {st : App}, AppInv T st → (∀ s ∈ texts, Clean T s) →
    AppInv T (App.all T st texts) ∧ (App.all T st texts).text = st.text ++ (texts.map stored).flatten ∧
    (App.all T st texts).address = st.address + (texts.map T.addresses).sum := by
  intro texts
  induction texts with
  | nil => intro st h _; exact ⟨h, by simp [App.all], by simp [App.all]⟩
  | cons s l ih =>
    intro st h hc
    obtain ⟨h1, h2, h3, -⟩ := append_inv hT h (hc s (List.mem_cons_self ..))
    obtain ⟨i1, i2, i3⟩ := ih h1 (fun u hu => hc u (List.mem_cons_of_mem _ hu))
    refine ⟨i1, ?_, ?_⟩
    · show (App.all T _ l).text = _; rw [i2, h2]; simp
    · show (App.all T _ l).address = _; rw [i3, h3]; simp; omega
end

/-! ### shards -/

/-- what is known of a shard's text and chunks -/
structure GoodShard (T : Tokenizer) (x : Shard) : Prop where
  whole : Whole T x.text
  laid : Laid T x.text 0 x.chunks
  covers : covered x.chunks = T.addresses x.text
  newline : x.text = [] ∨ x.text.getLast? = some 0x0A
  sorted : x.chunks.Pairwise fun a b => a.q < b.p

/-- the newline that `ready` may add to a text -/
def lineEnd (s : Text) : Text :=
  match s.getLast? with
  | none => []
  | some c => if c ≠ 0x0A then [0x0A] else []

theorem ready_text (st : App) : st.ready.text = st.text ++ lineEnd st.text := by
  unfold App.ready lineEnd
  cases st.text.getLast? with
  | none => simp
  | some c => simp only; split <;> simp

theorem lineEnd_last (s : Text) : s ++ lineEnd s = [] ∨ (s ++ lineEnd s).getLast? = some 0x0A := by
  unfold lineEnd
  cases h : s.getLast? with
  | none => left; simpa using List.getLast?_eq_none_iff.mp h
  | some c =>
    right
    simp only
    split
    · simp
    · rename_i hc
      have : c = 0x0A := Classical.not_not.mp hc
      subst this; simpa using h

/-- the newline is a gap -/
def NewlineGap (T : Tokenizer) : Prop := T.Joins [] [0x0A]

section
variable (hT : Lawful T) (hnl : NewlineGap T)
include hT hnl

theorem lineEnd_whole (s : Text) : Whole T (lineEnd s) ∧ T.tokenize (lineEnd s) = [] ∧
    T.addresses (lineEnd s) = 0 := by
  have h0 := tokenize_nil hT
  have h1 : T.addresses [] = 0 := by rw [addresses_of h0]; rfl
  obtain ⟨c1, c2, c3⟩ := clean_stored hT hnl
  simp only [List.nil_append] at c1 c2 c3
  unfold lineEnd
  cases s.getLast? with
  | none => exact ⟨whole_nil hT, h0, h1⟩
  | some c =>
    simp only
    split
    · exact ⟨c3, by rw [c1, h0], by rw [c2, h1]⟩
    · exact ⟨whole_nil hT, h0, h1⟩

/-- what a transaction leaves -/
theorem ready_good {st : App} (h : AppInv T st) :
    Whole T st.ready.text ∧ Laid T st.ready.text 0 st.ready.chunks ∧
    T.addresses st.ready.text = st.address ∧ Tiles 0 st.ready.chunks st.address ∧
    AtTokens T st.ready.text st.ready.chunks ∧
    (st.ready.text = [] ∨ st.ready.text.getLast? = some 0x0A) ∧
    T.tokenize st.ready.text = T.tokenize st.text ∧ st.ready.notes = st.notes := by
  rw [ready_text]
  obtain ⟨l1, l2, l3⟩ := lineEnd_whole hT hnl st.text
  have htok : T.tokenize (st.text ++ lineEnd st.text) = T.tokenize st.text := by
    rw [whole_eq h.whole, l2]; simp
  have hall : ∀ {c : Ann}, (c ∈ st.chunks ∨ c = ⟨st.chunkAddress, (st.address : Int) - 1, st.chunkOffset⟩) →
      c.p = 0 ∧ c.v = 0 ∨ c.p ≠ 0 ∧ ∃ t ∈ T.tokenize (st.text ++ lineEnd st.text),
        (t.address : Int) = c.p ∧ (t.offset : Int) = c.v := by
    rintro c (hc | rfl)
    · rw [htok]; exact h.tokens c hc
    · rw [htok]
      rcases h.first with ⟨h1, h2⟩ | ⟨h0, u, hu, h1, h2⟩
      · left; simp [h1, h2]
      · right; exact ⟨by simp only; omega, u, hu, by simp [h1], by simp [h2]⟩
  refine ⟨whole_append hT h.whole l1, ?_, ?_, ?_, ?_, lineEnd_last _, htok, rfl⟩
  · apply Laid.right h.whole
    unfold App.ready
    simp only
    split
    · rename_i hgt
      rw [laid_append]
      refine ⟨h.laid, ?_, by simp, by simp only; omega, trivial⟩
      have := tiles_covered h.tiles
      have e : 0 + covered st.chunks = st.chunkAddress := by omega
      rw [e]; simpa using h.open_
    · exact h.laid
  · rw [addresses_append h.whole, l3, h.address]; rfl
  · unfold App.ready
    simp only
    split
    · rename_i hgt
      exact tiles_append h.tiles ⟨rfl, by simp only; omega, by simp only [Tiles]; omega⟩
    · rename_i hle
      have : st.chunkAddress = st.address := by have := h.lt; omega
      rw [← this]; exact h.tiles
  · intro c hc
    unfold App.ready at hc
    simp only at hc
    split at hc
    · rw [List.mem_append, List.mem_singleton] at hc; exact hall hc
    · exact hall (Or.inl hc)
end

/-- the text of a transaction -/
def txnText (texts : List Text) : Text :=
  (texts.map stored).flatten ++ lineEnd (texts.map stored).flatten

section
variable (hT : Lawful T) (hnl : NewlineGap T)
include hT hnl

theorem single_good {base : Nat} {texts : List Text} (hc : ∀ s ∈ texts, Clean T s) :
    GoodShard T (single T base texts) ∧ (single T base texts).text = txnText texts ∧
    T.addresses (txnText texts) = (texts.map T.addresses).sum ∧
    Tiles base (single T base texts).chunks ((base : Int) + (texts.map T.addresses).sum) ∧
    (∀ c ∈ (single T base texts).chunks, c.p = base ∧ c.v = 0 ∨
      c.p ≠ base ∧ ∃ t ∈ T.tokenize (txnText texts), (t.address : Int) = c.p - base ∧ (t.offset : Int) = c.v) := by
  obtain ⟨h1, h2, h3⟩ := all_inv hT (start_inv hT) hc
  obtain ⟨r1, r2, r3, r4, r5, r6, r7, r8⟩ := ready_good hT hnl h1
  have e : (App.all T {} texts).ready.text = txnText texts := by
    rw [ready_text, h2]; rfl
  have e3 : (App.all T {} texts).address = (texts.map T.addresses).sum := by rw [h3]; simp
  rw [e] at r1 r2 r3 r5 r6
  rw [e3] at r3 r4
  have ht : Tiles base (single T base texts).chunks ((base : Int) + (texts.map T.addresses).sum) := by
    have := tiles_move base r4
    simp only [single]
    have e1 : (0 : Int) + base = base := by omega
    have e2 : (((texts.map T.addresses).sum : Nat) : Int) + base = base + (texts.map T.addresses).sum := by omega
    rw [e1, e2] at this
    exact this
  refine ⟨⟨?_, ?_, ?_, ?_, tiles_pairwise ht⟩, e, r3, ht, ?_⟩
  · simp only [single]; rw [e]; exact r1
  · simp only [single]; rw [e]; exact r2.move _
  · have := tiles_covered ht
    show _ = T.addresses (App.all T {} texts).ready.text
    rw [e, r3]; omega
  · simp only [single]; rw [e]; exact r6
  · intro c hc
    simp only [single, List.mem_map] at hc
    obtain ⟨d, hd, rfl⟩ := hc
    rcases r5 d hd with ⟨h1, h2⟩ | ⟨h0, t, ht, h1, h2⟩
    · left; simp [moveChunk, h1, h2]
    · right; exact ⟨by simp only [moveChunk]; omega, t, ht, by simp only [moveChunk]; omega, by simp only [moveChunk]; omega⟩
end

theorem good_empty {x : Shard} (h : GoodShard T x) (hT : Lawful T) (he : x.text = []) : x.chunks = [] := by
  have h1 := h.covers
  rw [he, addresses_of (tokenize_nil hT)] at h1
  cases hc : x.chunks with
  | nil => rfl
  | cons c l =>
    have := h.laid
    rw [hc] at this h1
    have h2 := this.2.2.1
    simp only [covered, List.map_cons, List.sum_cons, Ann.len, List.getLast?_nil] at h1
    omega

/-- the shards are in the order of their addresses -/
def Before (x y : Shard) : Prop := ∀ a ∈ x.chunks, ∀ b ∈ y.chunks, a.q < b.p

theorem addShard_eq (hT : Lawful T) {acc x : Shard} (hnl : acc.text = [] ∨ acc.text.getLast? = some 0x0A)
    (hx : GoodShard T x) : addShard acc x =
    ⟨acc.text ++ x.text, acc.chunks ++ x.chunks.map (moveChunk 0 acc.text.length)⟩ := by
  unfold addShard
  split
  · split
    · have e : (match acc.text.getLast? with
        | none => acc.text
        | some c => if c ≠ 0x0A then acc.text ++ [0x0A] else acc.text) = acc.text := by
        rcases hnl with h | h
        · rw [h]; rfl
        · rw [h]; simp
      rcases hnl with h | h
      · rw [h]; rfl
      · rw [h]; rfl
    · rename_i h
      have h' : x.chunks = [] := Classical.not_not.mp h
      rw [h']; simp
  · rename_i h
    have h0 : x.text = [] := List.length_eq_zero_iff.mp (by omega)
    rw [good_empty hx hT h0, h0]; simp

theorem addShard_good (hT : Lawful T) {acc x : Shard} (ha : GoodShard T acc) (hx : GoodShard T x)
    (hb : Before acc x) : GoodShard T (addShard acc x) := by
  rw [addShard_eq hT ha.newline hx]
  refine ⟨whole_append hT ha.whole hx.whole, ?_, ?_, ?_, ?_⟩
  · rw [laid_append]
    refine ⟨ha.laid.right ha.whole _, ?_⟩
    rw [Nat.zero_add, ha.covers]
    have := hx.laid.left hT ha.whole 0
    rwa [Nat.add_zero] at this
  · rw [covered_append, covered_move, ha.covers, hx.covers, addresses_append ha.whole]
  · rcases hx.newline with h | h
    · simp only [h, List.append_nil]; exact ha.newline
    · right
      simp only [List.getLast?_append, h]; rfl
  · simp only
    rw [List.pairwise_append, List.pairwise_map]
    refine ⟨ha.sorted, ?_, ?_⟩
    · refine hx.sorted.imp ?_
      intro a b h; simp only [moveChunk]; omega
    · intro a h1 b h2
      rw [List.mem_map] at h2
      obtain ⟨c, hc, rfl⟩ := h2
      have := hb a h1 c hc
      simp only [moveChunk]; omega

theorem laid_le {text : Text} : ∀ {l : List Ann} {g : Nat}, Laid T text g l → ∀ c ∈ l, c.p ≤ c.q ∧ 0 ≤ c.v := by
  intro l
  induction l with
  | nil => intro g _ c h; cases h
  | cons d l ih =>
    intro g h c hm
    rw [List.mem_cons] at hm
    rcases hm with rfl | hm
    · exact ⟨h.2.2.1, h.2.1⟩
    · exact ih h.2.2.2 c hm

/-- the addresses of the chunks are storable and non-negative -/
def InBounds (x : Shard) : Prop := ∀ c ∈ x.chunks, 0 ≤ c.p ∧ c.q < maxfinity

theorem GoodShard.listing {x : Shard} (h : GoodShard T x) (hb : InBounds x) : Listing x.chunks := by
  have hle := laid_le h.laid
  refine ⟨?_, ?_⟩
  · refine List.Pairwise.imp_of_mem ?_ h.sorted
    intro a b ha hb' h
    have := (hle a ha).1
    have := (hle b hb').1
    omega
  · intro a ha
    have := (hle a ha).1
    have := hb a ha
    omega

/-! ### reading -/

/-- Address `a` is address number `n` of the text, in some chunk, and reading from it starts
at `s`. -/
def Place (T : Tokenizer) (x : Shard) (a : Int) (n s : Nat) : Prop :=
  ∃ pre c post, x.chunks = pre ++ c :: post ∧ c.p ≤ a ∧ a ≤ c.q ∧
    n = covered pre + (a - c.p).toNat ∧ s = if a = c.p then c.v.toNat else T.skip x.text n

/-- The first chunk that ends at or after `a`, and where reading from `a` starts. -/
def Begin (T : Tokenizer) (x : Shard) (a : Int) (c : Ann) (s : Nat) : Prop :=
  ∃ pre post, x.chunks = pre ++ c :: post ∧ (∀ d ∈ pre, d.q < a) ∧ a ≤ c.q ∧
    s = if a ≤ c.p then c.v.toNat else T.skip x.text (covered pre + (a - c.p).toNat : Nat)

theorem Place.begin {x : Shard} (h : GoodShard T x) {a : Int} {n s : Nat} (hp : Place T x a n s) :
    ∃ c, Begin T x a c s ∧ c.p ≤ a := by
  obtain ⟨pre, c, post, e, h1, h2, h3, h4⟩ := hp
  refine ⟨c, ⟨pre, post, e, ?_, h2, ?_⟩, h1⟩
  · intro d hd
    have := h.sorted
    rw [e, List.pairwise_append] at this
    have := this.2.2 d hd c (List.mem_cons_self ..)
    omega
  · rw [h4, h3]
    by_cases ha : a = c.p
    · rw [if_pos ha, if_pos (by omega)]
    · rw [if_neg ha, if_neg (by omega)]

theorem Begin.rho {x : Shard} (h : Listing x.chunks) {a : Int} {c : Ann} {s : Nat} (hb : Begin T x a c s)
    (ha : a ≠ minfinity) {r : Ann} (hr : RhoSpec (ofList x.chunks) a r) : r = c := by
  obtain ⟨pre, post, e, h1, h2, -⟩ := hb
  have hc : c ∈ x.chunks := by rw [e]; simp
  rcases hr with ⟨h3, -⟩ | ⟨-, h3, h4, h5⟩ | ⟨-, h3, -⟩
  · exact absurd h3 ha
  · have h6 := h5 c hc h2
    have hr : r ∈ x.chunks := h3
    rw [e, List.mem_append, List.mem_cons] at hr
    rcases hr with hr | hr | hr
    · have := h1 r hr; omega
    · exact hr
    · have := h.sorted
      rw [e, List.pairwise_append, List.pairwise_cons] at this
      have := this.2.1.1 r hr
      omega
  · have := h3 c hc; omega

section
variable (hT : Lawful T)
include hT

/-- the places of a text where reading starts and ends, for the chunks of `p` and `q` -/
theorem cut_facts {text : Text} {chunks : List Ann} (hL : Laid T text 0 chunks)
    (hdis : chunks.Pairwise fun a b => a.q < b.p) {p q : Int} {pre post pre' post' : List Ann} {c c1 : Ann}
    (e0 : chunks = pre ++ c :: post) (b1 : ∀ d ∈ pre, d.q < p) (b2 : p ≤ c.q) {s n : Nat}
    (b3 : s = if p ≤ c.p then c.v.toNat else T.skip text (covered pre + (p - c.p).toNat : Nat))
    (hc : c.p ≤ q) (hpq : p ≤ q) (e1 : chunks = pre' ++ c1 :: post') (d1 : c1.p ≤ q) (d2 : q ≤ c1.q)
    (d3 : n = covered pre' + (q - c1.p).toNat) :
    (if c.p < p then c.v.toNat + T.skip (text.drop c.v.toNat) (p - c.p) else c.v.toNat) = s ∧
    c1.v.toNat + T.skip (text.drop c1.v.toNat) (q - c1.p + 1) = T.skip text (n + 1 : Nat) ∧
    s ≤ T.skip text (n + 1 : Nat) ∧
    (c.q = c1.q → s + T.skip (text.drop s) (q - (if c.p < p then p else c.p) + 1) = T.skip text (n + 1 : Nat)) ∧
    ((pre = pre' ∧ c = c1) ∨ (c.q ≠ c1.q ∧ covered pre + Ann.len c ≤ covered pre')) ∧
    Starts T text (covered pre) c.v.toNat ∧ Starts T text (covered pre') c1.v.toNat ∧ c.v.toNat ≤ s := by
  have hd : c1 ∈ chunks := by rw [e1]; simp
  have hcm : c ∈ chunks := by rw [e0]; simp
  have hle := laid_le hL
  have hL0 := hL
  rw [e0, laid_append] at hL0
  have st0 : Starts T text (covered pre) c.v.toNat := by
    have := hL0.2.1; rwa [Nat.zero_add] at this
  have hL1 := hL
  rw [e1, laid_append] at hL1
  have st1 : Starts T text (covered pre') c1.v.toNat := by
    have := hL1.2.1; rwa [Nat.zero_add] at this
  -- the chunk of `p` is at or before the chunk of `q`
  have horder : (pre = pre' ∧ c = c1) ∨ (c.q ≠ c1.q ∧ covered pre + Ann.len c ≤ covered pre') := by
    have key := e0.symm.trans e1
    rcases List.append_eq_append_iff.mp key with ⟨as, ha1, ha2⟩ | ⟨as, ha1, ha2⟩
    · cases as with
      | nil =>
        simp only [List.append_nil, List.nil_append] at ha1 ha2
        injection ha2 with i1 i2
        exact Or.inl ⟨ha1.symm, i1⟩
      | cons a as =>
        right
        simp only [List.cons_append] at ha2
        injection ha2 with i1 i2
        subst i1
        rw [e0, List.pairwise_append, List.pairwise_cons] at hdis
        have hm : c1 ∈ post := by rw [i2]; simp
        have := hdis.2.1.1 c1 hm
        have h1 := (hle c hcm).1
        have h2 := (hle c1 hd).1
        refine ⟨by omega, ?_⟩
        rw [ha1, covered_append]
        simp only [covered, List.map_cons, List.sum_cons]; omega
    · cases as with
      | nil =>
        simp only [List.append_nil, List.nil_append] at ha1 ha2
        injection ha2 with i1 i2
        exact Or.inl ⟨ha1, i1.symm⟩
      | cons a as =>
        simp only [List.cons_append] at ha2
        injection ha2 with i1 i2
        subst i1
        have hm : c1 ∈ pre := by rw [ha1]; simp
        have := b1 c1 hm
        omega
  -- where reading starts
  have hstart : (if c.p < p then c.v.toNat + T.skip (text.drop c.v.toNat) (p - c.p) else c.v.toNat) = s := by
    rw [b3]
    by_cases hp : p ≤ c.p
    · rw [if_pos hp, if_neg (by omega)]
    · rw [if_neg hp, if_pos (by omega)]
      have := st0.skip hT (p - c.p).toNat
      have e : (((p - c.p).toNat : Nat) : Int) = p - c.p := by omega
      rw [e] at this
      exact this
  -- where it ends
  have hend : c1.v.toNat + T.skip (text.drop c1.v.toNat) (q - c1.p + 1) = T.skip text (n + 1 : Nat) := by
    have := st1.skip hT ((q - c1.p).toNat + 1)
    have e : (((q - c1.p).toNat + 1 : Nat) : Int) = q - c1.p + 1 := by omega
    rw [e] at this
    rw [this, d3]; rfl
  -- from a place of the text to the end
  have hsS : ∃ m k, Starts T text m s ∧ m + k = n + 1 ∨
      (s = T.skip text m ∧ m + k = n + 1) := by
    by_cases hp : p ≤ c.p
    · rw [if_pos hp] at b3
      rcases horder with ⟨rfl, rfl⟩ | ⟨-, h2⟩
      · exact ⟨covered pre, (q - c.p).toNat + 1, Or.inl ⟨by rw [b3]; exact st0, by omega⟩⟩
      · exact ⟨covered pre, n + 1 - covered pre, Or.inl ⟨by rw [b3]; exact st0, by omega⟩⟩
    · rw [if_neg hp] at b3
      rcases horder with ⟨rfl, rfl⟩ | ⟨-, h2⟩
      · exact ⟨covered pre + (p - c.p).toNat, (q - p).toNat + 1, Or.inr ⟨b3, by omega⟩⟩
      · have : (p - c.p).toNat ≤ Ann.len c := by simp only [Ann.len]; omega
        exact ⟨covered pre + (p - c.p).toNat, n + 1 - (covered pre + (p - c.p).toNat),
          Or.inr ⟨b3, by omega⟩⟩
  have hle' : s ≤ T.skip text (n + 1 : Nat) := by
    obtain ⟨m, k, h1 | h1⟩ := hsS
    · have := h1.1.skip hT k
      rw [h1.2] at this; omega
    · have := skip_mono hT text m k
      rw [h1.2] at this; omega
  refine ⟨hstart, hend, hle', ?_, horder, st0, st1, ?_⟩
  · intro hsame
    have hcc : pre = pre' ∧ c = c1 := by
      rcases horder with h1 | ⟨h1, -⟩
      · exact h1
      · exact absurd hsame h1
    obtain ⟨rfl, rfl⟩ := hcc
    by_cases hp : p ≤ c.p
    · rw [if_neg (by omega)]
      rw [if_pos hp] at b3
      rw [b3]; exact hend
    · rw [if_pos (by omega)]
      rw [if_neg hp] at b3
      have h1 := (hT.skips text).add (covered pre + (p - c.p).toNat : Nat) (q - p + 1) (by omega) (by omega)
      rw [← b3] at h1
      rw [h1]
      congr 1
      omega
  · rw [← hstart]; split <;> omega

/-- reading within a shard, up to the address of a token -/
theorem cut_in {x : Shard} (h : GoodShard T x) {p q : Int} {c : Ann} {s n e : Nat} (hb : Begin T x p c s)
    (hc : c.p ≤ q) (hpq : p ≤ q) (hq : Place T x q n e) {c1 : Ann} (hl : Listing x.chunks)
    (hq' : q ≠ maxfinity) (ho : OhrSpec (ofList x.chunks) q c1) :
    cutText T x.text p q c c1 = some ((x.text.drop s).take (T.skip x.text (n + 1 : Nat) - s)) ∧
    s ≤ T.skip x.text (n + 1 : Nat) := by
  obtain ⟨pre, post, e0, b1, b2, b3⟩ := hb
  obtain ⟨pre', d, post', e1, d1, d2, d3, -⟩ := hq
  have hd : d ∈ x.chunks := by rw [e1]; simp
  have hcm : c ∈ x.chunks := by rw [e0]; simp
  have hs := hl.sorted
  have hle := laid_le h.laid
  -- `ohr` finds the chunk of `q`
  have hc1 : c1 = d := by
    rcases ho with ⟨h3, -⟩ | ⟨-, h3, h4, h5⟩ | ⟨-, h3, -⟩
    · exact absurd h3 hq'
    · have h6 := h5 d hd d1
      have hr : c1 ∈ x.chunks := h3
      have hdis := h.sorted
      rw [e1] at hr hs hdis
      rw [List.pairwise_append, List.pairwise_cons] at hs hdis
      rw [List.mem_append, List.mem_cons] at hr
      rcases hr with hr | hr | hr
      · have := hs.2.2 c1 hr d (List.mem_cons_self ..); omega
      · exact hr
      · have := hdis.2.1.1 c1 hr; omega
    · have := h3 d hd; omega
  subst hc1
  obtain ⟨hstart, hend, hle', hfin, -, st0, st1, -⟩ := cut_facts hT h.laid h.sorted e0 b1 b2 b3 hc hpq e1 d1 d2 d3
  have v0 := (hle c hcm).2
  have v1 := (hle c1 hd).2
  have l0 := st0.le hT
  have l1 := st1.le hT
  refine ⟨?_, hle'⟩
  unfold cutText
  rw [if_neg (by omega)]
  simp only [hstart]
  rw [if_neg (by omega)]
  by_cases hsame : c.q = c1.q
  · rw [if_pos hsame]
    have := hfin hsame
    congr 2
    omega
  · rw [if_neg hsame, if_neg (by omega)]
    simp only [hend]
    rw [if_neg (by omega)]

/-- reading within a shard, past a chunk but before the next one -/
theorem cut_gap {x : Shard} (h : GoodShard T x) {p q : Int} {c c1 : Ann} {s : Nat} (hb : Begin T x p c s)
    (hq : c1.q < q) : cutText T x.text p q c c1 = some (x.text.drop s) := by
  obtain ⟨pre, post, e0, b1, b2, b3⟩ := hb
  have hcm : c ∈ x.chunks := by rw [e0]; simp
  have hL0 := h.laid
  rw [e0, laid_append] at hL0
  have st0 : Starts T x.text (covered pre) c.v.toNat := by
    have := hL0.2.1; rwa [Nat.zero_add] at this
  have v0 := (laid_le h.laid c hcm).2
  have l0 := st0.le hT
  unfold cutText
  rw [if_neg (by omega)]
  simp only
  rw [if_pos (by omega)]
  congr 2
  rw [b3]
  by_cases hp : p ≤ c.p
  · rw [if_pos hp, if_neg (by omega)]
  · rw [if_neg hp, if_pos (by omega)]
    have := st0.skip hT (p - c.p).toNat
    have e : (((p - c.p).toNat : Nat) : Int) = p - c.p := by omega
    rw [e] at this
    exact this
end

end Verif.Text
