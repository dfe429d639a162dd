import Verif.Recipe.Spec
/-
  Lemmas on reading and writing parameter maps.
-/
namespace Verif.Recipe

/-! ### the map -/

theorem keyChar_eq : keyChar = identifier := by
  funext c
  have h : ∀ n : Fin 256, keyChar (UInt8.ofNat n.val) = identifier (UInt8.ofNat n.val) := by
    decide +kernel
  have := h ⟨c.toNat, c.toNat_lt⟩
  simpa using this

theorem GoodMap.keys {m : Map} (h : GoodMap m) : ∀ kv ∈ m, kv.1 ≠ [] ∧ ∀ c ∈ kv.1, identifier c = true :=
  keyChar_eq ▸ h.words

theorem GoodMap.of {m : Map} (hs : m.Pairwise fun a b => less a.1 b.1 = true)
    (hk : ∀ kv ∈ m, kv.1 ≠ [] ∧ ∀ c ∈ kv.1, identifier c = true) : GoodMap m :=
  ⟨hs, keyChar_eq ▸ hk⟩

theorem less_irrefl (s : Str) : less s s = false := by
  induction s with
  | nil => rfl
  | cons a s ih => simp [less, ih, UInt8.lt_irrefl]

theorem less_trans : ∀ {a b c : Str}, less a b = true → less b c = true → less a c = true := by
  intro a
  induction a with
  | nil =>
    intro b c h1 h2
    cases b with
    | nil => cases h1
    | cons y b => cases c with
      | nil => cases h2
      | cons z c => rfl
  | cons x a ih =>
    intro b c h1 h2
    cases b with
    | nil => cases h1
    | cons y b =>
      cases c with
      | nil => cases h2
      | cons z c =>
        simp only [less, Bool.or_eq_true, Bool.and_eq_true, decide_eq_true_eq, beq_iff_eq] at h1 h2 ⊢
        rcases h1 with h1 | ⟨rfl, h1⟩
        · rcases h2 with h2 | ⟨rfl, h2⟩
          · exact Or.inl (UInt8.lt_trans h1 h2)
          · exact Or.inl h1
        · rcases h2 with h2 | ⟨rfl, h2⟩
          · exact Or.inl h2
          · exact Or.inr ⟨rfl, ih h1 h2⟩

theorem less_total : ∀ {a b : Str}, less a b = false → a ≠ b → less b a = true := by
  intro a
  induction a with
  | nil =>
    intro b h1 h2
    cases b with
    | nil => exact absurd rfl h2
    | cons y b => cases h1
  | cons x a ih =>
    intro b h1 h2
    cases b with
    | nil => rfl
    | cons y b =>
      simp only [less, Bool.or_eq_false_iff, Bool.and_eq_false_iff, decide_eq_false_iff_not,
        beq_eq_false_iff_ne] at h1
      simp only [less, Bool.or_eq_true, Bool.and_eq_true, decide_eq_true_eq, beq_iff_eq]
      by_cases e : x = y
      · subst e
        right
        refine ⟨rfl, ih ?_ (fun e => h2 (by rw [e]))⟩
        rcases h1.2 with h | h
        · exact absurd rfl h
        · exact h
      · left
        have := h1.1
        rw [UInt8.lt_iff_toNat_lt] at this ⊢
        have : x.toNat ≠ y.toNat := fun h => e (UInt8.toNat_inj.mp h)
        omega

theorem mem_put {k v : Str} {m : Map} {x : Str × Str} (h : x ∈ put k v m) : x = (k, v) ∨ x ∈ m := by
  induction m with
  | nil => simpa [put] using h
  | cons y m ih =>
    obtain ⟨k', v'⟩ := y
    unfold put at h
    split at h
    · simpa using h
    · split at h
      · rcases List.mem_cons.mp h with h | h
        · exact Or.inl h
        · exact Or.inr (List.mem_cons_of_mem _ h)
      · rcases List.mem_cons.mp h with h | h
        · exact Or.inr (by rw [h]; exact List.mem_cons_self ..)
        · rcases ih h with h | h
          · exact Or.inl h
          · exact Or.inr (List.mem_cons_of_mem _ h)

theorem put_sorted {k v : Str} {m : Map} (h : m.Pairwise fun a b => less a.1 b.1 = true) :
    (put k v m).Pairwise fun a b => less a.1 b.1 = true := by
  induction m with
  | nil => simp [put]
  | cons y m ih =>
    obtain ⟨k', v'⟩ := y
    rw [List.pairwise_cons] at h
    unfold put
    split
    · rename_i hl
      rw [List.pairwise_cons, List.pairwise_cons]
      refine ⟨?_, h⟩
      intro x hx
      rcases List.mem_cons.mp hx with rfl | hx
      · exact hl
      · exact less_trans hl (h.1 x hx)
    · rename_i hl
      split
      · rename_i e
        subst e
        rw [List.pairwise_cons]
        exact ⟨h.1, h.2⟩
      · rename_i e
        rw [List.pairwise_cons]
        refine ⟨?_, ih h.2⟩
        intro x hx
        rcases mem_put hx with rfl | hx
        · exact less_total (by simpa using hl) e
        · exact h.1 x hx

theorem put_last {k v : Str} {m : Map} (h : ∀ x ∈ m, less x.1 k = true) : put k v m = m ++ [(k, v)] := by
  induction m with
  | nil => rfl
  | cons y m ih =>
    obtain ⟨k', v'⟩ := y
    have h0 : less k' k = true := h (k', v') (List.mem_cons_self ..)
    have h1 : less k k' = false := by
      cases hc : less k k' with
      | false => rfl
      | true => have := less_trans hc h0; rw [less_irrefl] at this; cases this
    have h2 : k ≠ k' := by
      rintro rfl; rw [less_irrefl] at h0; cases h0
    unfold put
    rw [if_neg (by simp [h1]), if_neg h2, ih (fun x hx => h x (List.mem_cons_of_mem _ hx))]
    rfl

/-! ### reading: lengths and keys -/

theorem munchString_length {q : UInt8} {s acc v r : Str} (h : munchString q s acc = (v, r)) :
    v.length + r.length ≤ acc.length + s.length := by
  fun_induction munchString q s acc <;>
    first
    | (cases h; simp; done)
    | (cases h; simp; omega)
    | (rename_i ih; have := ih h; simp at this ⊢; omega)

theorem munchMap_length {o : Option UInt8} {n : Nat} {s acc v r : Str} (h : munchMap o n s acc = (v, r)) :
    v.length + r.length ≤ acc.length + s.length := by
  fun_induction munchMap o n s acc <;>
    first
    | (cases h; simp; done)
    | (cases h; simp; omega)
    | (rename_i ih; have := ih h; simp at this ⊢; omega)

theorem value_length {s v r : Str} (h : value s = some (v, r)) : v.length + r.length ≤ s.length := by
  unfold value at h
  cases s with
  | nil => cases h
  | cons q s =>
    simp only at h
    split at h
    · split at h
      · rename_i v' c r' hm
        split at h
        · have := munchString_length hm
          obtain ⟨rfl, rfl⟩ : v' = v ∧ r' = r := by simpa using h
          simp at this ⊢; omega
        · cases h
      · cases h
    · split at h
      · split at h
        · rename_i v' c r' hm
          split at h
          · have := munchMap_length hm
            obtain ⟨h1, rfl⟩ : [0x5B] ++ v' ++ [0x5D] = v ∧ r' = r := by simpa using h
            subst h1
            simp at this ⊢; omega
          · cases h
        · cases h
      · cases h

theorem skipSpace_length (s : Str) : (skipSpace s).length ≤ s.length :=
  (List.dropWhile_sublist _).length_le

theorem items_good : ∀ {fuel : Nat} {s : Str} {m m' : Map}, items fuel s m = some m' → GoodMap m →
    GoodMap m' ∧ ∀ kv ∈ m', kv ∈ m ∨ kv.2.length < s.length := by
  intro fuel
  induction fuel with
  | zero => intro s m m' h; cases h
  | succ fuel ih =>
    intro s m m' h hg
    unfold items at h
    have l0 := skipSpace_length s
    split at h
    · cases h
    · rename_i c s1 e1
      rw [e1] at l0
      simp only [List.length_cons] at l0
      have hfin : ∀ {x : Str} {k : Map}, finish x k = some m' → k = m' := by
        intro x k h
        unfold finish at h
        split at h
        · simpa using h
        · cases h
      split at h
      · have := hfin h
        subst this
        exact ⟨hg, fun kv hkv => Or.inl hkv⟩
      · split at h
        · rename_i hid
          split at h
          · cases h
          · rename_i c2 s2 e2
            have l1 : (s1.dropWhile identifier).length ≤ s1.length := (List.dropWhile_sublist _).length_le
            have l2 := skipSpace_length (s1.dropWhile identifier)
            rw [e2] at l2
            simp only [List.length_cons] at l2
            split at h
            · split at h
              · cases h
              · rename_i v s3 e3
                have l3 := value_length e3
                have l4 := skipSpace_length s2
                have hp : GoodMap (put (c :: s1.takeWhile identifier) v m) := by
                  refine GoodMap.of (put_sorted hg.sorted) ?_
                  intro kv hkv
                  rcases mem_put hkv with rfl | hkv
                  · refine ⟨by simp, ?_⟩
                    intro x hx
                    rcases List.mem_cons.mp hx with rfl | hx
                    · exact hid
                    · exact List.all_eq_true.mp (List.all_takeWhile ..) x hx
                  · exact hg.keys kv hkv
                have hmem : ∀ kv ∈ put (c :: s1.takeWhile identifier) v m,
                    kv ∈ m ∨ kv.2.length < s.length := by
                  intro kv hkv
                  rcases mem_put hkv with rfl | hkv
                  · right; simp only; omega
                  · exact Or.inl hkv
                split at h
                · cases h
                · rename_i c4 s4 e4
                  have l5 := skipSpace_length s3
                  rw [e4] at l5
                  simp only [List.length_cons] at l5
                  split at h
                  · have := hfin h
                    subst this
                    exact ⟨hp, hmem⟩
                  · split at h
                    · obtain ⟨h1, h2⟩ := ih h hp
                      refine ⟨h1, ?_⟩
                      intro kv hkv
                      rcases h2 kv hkv with h3 | h3
                      · exact hmem kv h3
                      · right; omega
                    · cases h
            · cases h
        · cases h

theorem cook_good {v : Str} {m : Map} (h : cook v = some m) :
    GoodMap m ∧ ∀ kv ∈ m, kv.2.length < v.length := by
  unfold cook parse at h
  have l0 := skipSpace_length (v.takeWhile (· ≠ 0))
  have l1 : (v.takeWhile (· ≠ 0)).length ≤ v.length := (List.takeWhile_sublist _).length_le
  split at h
  · cases h
  · rename_i c s e
    rw [e] at l0
    simp only [List.length_cons] at l0
    split at h
    · obtain ⟨h1, h2⟩ := items_good h ⟨List.Pairwise.nil, fun kv h => by cases h⟩
      refine ⟨h1, ?_⟩
      intro kv hkv
      rcases h2 kv hkv with h3 | h3
      · cases h3
      · omega
    · cases h

theorem dumpWith_congr {f g : Str → Str} {m : Map} (h : ∀ kv ∈ m, f kv.2 = g kv.2) (d : Nat) :
    dumpWith f m d = dumpWith g m d := by
  unfold dumpWith
  split
  · rfl
  · congr 3
    have : ∀ (l : Map), (∀ kv ∈ l, f kv.2 = g kv.2) →
        l.flatMap (fun kv => indent (d + 1) ++ kv.1 ++ [0x3A] ++ f kv.2 ++ [0x0A]) =
        l.flatMap (fun kv => indent (d + 1) ++ kv.1 ++ [0x3A] ++ g kv.2 ++ [0x0A]) := by
      intro l
      induction l with
      | nil => intro _; rfl
      | cons x l ih =>
        intro hl
        rw [List.flatMap_cons, List.flatMap_cons, hl x (List.mem_cons_self ..),
          ih (fun kv hkv => hl kv (List.mem_cons_of_mem _ hkv))]
    exact this m h

/-- the bound on the depth does not matter -/
theorem dumpVal_more : ∀ {n k : Nat} {v : Str} {d : Nat}, v.length < n → v.length < k →
    dumpVal n v d = dumpVal k v d := by
  intro n
  induction n with
  | zero => intro k v d h; omega
  | succ n ih =>
    intro k v d hn hk
    cases k with
    | zero => omega
    | succ k =>
      unfold dumpVal
      cases hc : cook v with
      | none => rfl
      | some m =>
        have := (cook_good hc).2
        simp only
        rw [dumpWith_congr (g := fun w => dumpVal k w (d + 1))]
        intro kv hkv
        have := this kv hkv
        exact ih (by omega) (by omega)

/-! ### reading what was written -/

/-- a text that `munch_map` passes over -/
def Neutral (w : Str) : Prop := ∀ n acc r, munchMap none n (w ++ r) acc = munchMap none n r (acc ++ w)

theorem Neutral.nil : Neutral [] := by intro n acc r; simp

theorem Neutral.append {a b : Str} (ha : Neutral a) (hb : Neutral b) : Neutral (a ++ b) := by
  intro n acc r
  rw [List.append_assoc, ha, hb, List.append_assoc]

theorem munchMap_nil (o : Option UInt8) (n : Nat) (acc : Str) : munchMap o n [] acc = ([], []) := by
  cases o <;> rfl

theorem Neutral.plain {c : UInt8} (h : c ≠ 0x5D ∧ c ≠ 0x5B ∧ c ≠ 0x27 ∧ c ≠ 0x22) : Neutral [c] := by
  intro n acc r
  show munchMap none n (c :: r) acc = _
  rw [munchMap.eq_def]; simp only; rw [if_neg h.1, if_neg h.2.1, if_neg (by intro e; rcases e with e | e; exact h.2.2.1 e; exact h.2.2.2 e)]

theorem Neutral.plains {w : Str} (h : ∀ c ∈ w, c ≠ 0x5D ∧ c ≠ 0x5B ∧ c ≠ 0x27 ∧ c ≠ 0x22) : Neutral w := by
  induction w with
  | nil => exact .nil
  | cons c w ih =>
    exact (Neutral.plain (h c (List.mem_cons_self ..))).append (ih fun d hd => h d (List.mem_cons_of_mem _ hd))

theorem inQuotes {v : Str} (h : Quotable v) : ∀ n acc r,
    munchMap (some 0x22) n (v ++ [0x22] ++ r) acc = munchMap none n r (acc ++ v ++ [0x22]) := by
  induction v with
  | nil => intro n acc r; show munchMap (some 0x22) n (0x22 :: r) acc = _; rw [munchMap.eq_def]; simp
  | cons c v ih =>
    intro n acc r
    have hc := h c (List.mem_cons_self ..)
    show munchMap (some 0x22) n (c :: (v ++ [0x22] ++ r)) acc = _
    rw [munchMap.eq_def]; simp only; rw [if_neg hc.2.1, if_neg hc.2.2, ih fun d hd => h d (List.mem_cons_of_mem _ hd)]
    simp

theorem Neutral.quoted {v : Str} (h : Quotable v) : Neutral ([0x22] ++ v ++ [0x22]) := by
  intro n acc r
  show munchMap none n (0x22 :: (v ++ [0x22] ++ r)) acc = _
  rw [munchMap.eq_def]; simp only; rw [if_neg (by decide), if_neg (by decide), if_pos (by decide), inQuotes h]
  simp

theorem Neutral.bracketed {w : Str} (h : Neutral w) : Neutral ([0x5B] ++ w ++ [0x5D]) := by
  intro n acc r
  have e : [0x5B] ++ w ++ [0x5D] ++ r = 0x5B :: (w ++ (0x5D :: r)) := by simp
  rw [e, munchMap.eq_def]; simp only; rw [if_neg (by decide), if_pos trivial, h]
  rw [munchMap.eq_def]; simp only; rw [if_pos trivial]
  simp

theorem munchString_plain {v : Str} (h : Quotable v) : ∀ acc r,
    munchString 0x22 (v ++ 0x22 :: r) acc = (acc ++ v, 0x22 :: r) := by
  induction v with
  | nil => intro acc r; show munchString 0x22 (0x22 :: r) acc = _; rw [munchString.eq_def]; simp
  | cons c v ih =>
    intro acc r
    have hc := h c (List.mem_cons_self ..)
    show munchString 0x22 (c :: (v ++ 0x22 :: r)) acc = _
    rw [munchString.eq_def]; simp only; rw [if_neg hc.2.1, if_neg hc.2.2, ih fun d hd => h d (List.mem_cons_of_mem _ hd)]
    simp

/-- `b` is read as the value `v` -/
structure Reads (b v : Str) : Prop where
  neutral : Neutral b
  noNul : ∀ c ∈ b, c ≠ 0
  first : ∃ c s, b = c :: s ∧ isSpace c = false
  read : ∀ r, value (b ++ r) = some (v, r)

theorem Reads.quoted {v : Str} (h : Quotable v) : Reads ([0x22] ++ v ++ [0x22]) v := by
  refine ⟨.quoted h, ?_, ⟨0x22, v ++ [0x22], rfl, by decide⟩, ?_⟩
  · intro c hc
    simp only [List.cons_append, List.nil_append, List.mem_cons, List.mem_append, List.not_mem_nil,
      or_false] at hc
    rcases hc with rfl | hc | rfl
    · decide
    · exact (h c hc).1
    · decide
  · intro r
    have e : [0x22] ++ v ++ [0x22] ++ r = 0x22 :: (v ++ 0x22 :: r) := by simp
    rw [e, value, if_pos (Or.inr rfl), munchString_plain h]
    simp

theorem Reads.map {w : Str} (h : Neutral w) (h0 : ∀ c ∈ w, c ≠ 0) :
    Reads ([0x5B] ++ w ++ [0x5D]) ([0x5B] ++ w ++ [0x5D]) := by
  refine ⟨h.bracketed, ?_, ⟨0x5B, w ++ [0x5D], rfl, by decide⟩, ?_⟩
  · intro c hc
    simp only [List.cons_append, List.nil_append, List.mem_cons, List.mem_append, List.not_mem_nil,
      or_false] at hc
    rcases hc with rfl | hc | rfl
    · decide
    · exact h0 c hc
    · decide
  · intro r
    have e : [0x5B] ++ w ++ [0x5D] ++ r = 0x5B :: (w ++ (0x5D :: r)) := by simp
    have hm : munchMap none 0 (w ++ (0x5D :: r)) [] = (w, 0x5D :: r) := by
      rw [h, munchMap.eq_def]; simp
    rw [e, value, if_neg (by decide), if_pos rfl, hm]
    simp

/-- one item of a map -/
def itemText (d : Nat) (f : Str → Str) (kv : Str × Str) : Str :=
  indent (d + 1) ++ kv.1 ++ [0x3A] ++ f kv.2 ++ [0x0A]

theorem dumpWith_cons (f : Str → Str) (kv : Str × Str) (m : Map) (d : Nat) :
    dumpWith f (kv :: m) d = [0x5B] ++ ([0x0A] ++ (kv :: m).flatMap (itemText d f) ++ indent d) ++ [0x5D] := by
  have : itemText d f = fun kv => indent (d + 1) ++ kv.1 ++ [0x3A] ++ f kv.2 ++ [0x0A] := rfl
  rw [this]; simp [dumpWith]

theorem indent_mem {d : Nat} {c : UInt8} (h : c ∈ indent d) : c = 0x20 := List.eq_of_mem_replicate h

theorem ident_plain {c : UInt8} (h : identifier c = true) :
    (c ≠ 0x5D ∧ c ≠ 0x5B ∧ c ≠ 0x27 ∧ c ≠ 0x22) ∧ c ≠ 0 ∧ c ≠ 0x3A ∧ isSpace c = false := by
  refine ⟨⟨?_, ?_, ?_, ?_⟩, ?_, ?_, ?_⟩
  · rintro rfl; revert h; decide
  · rintro rfl; revert h; decide
  · rintro rfl; revert h; decide
  · rintro rfl; revert h; decide
  · rintro rfl; revert h; decide
  · rintro rfl; revert h; decide
  · have : ∀ n : Fin 256, identifier (UInt8.ofNat n.val) = true → isSpace (UInt8.ofNat n.val) = false := by
      decide +kernel
    have := this ⟨c.toNat, c.toNat_lt⟩
    simp only [UInt8.ofNat_toNat] at this
    exact this h

section
variable {f g : Str → Str}

/-- the values of the map are written as texts read as `g` says -/
def Written (f g : Str → Str) (m : Map) : Prop := ∀ kv ∈ m, ∃ b, f kv.2 = b ++ [0x2C] ∧ Reads b (g kv.2)

theorem itemText_neutral {d : Nat} {kv : Str × Str} (hk : ∀ c ∈ kv.1, identifier c = true)
    (hw : ∃ b, f kv.2 = b ++ [0x2C] ∧ Reads b (g kv.2)) :
    Neutral (itemText d f kv) ∧ ∀ c ∈ itemText d f kv, c ≠ 0 := by
  obtain ⟨b, e, hr⟩ := hw
  unfold itemText
  rw [e]
  constructor
  · refine ((((Neutral.plains ?_).append (.plains ?_)).append (.plain (by decide))).append
      (hr.neutral.append (.plain (by decide)))).append (.plain (by decide))
    · intro c hc; rw [indent_mem hc]; decide
    · intro c hc; exact (ident_plain (hk c hc)).1
  · intro c hc
    simp only [List.mem_append, List.mem_singleton] at hc
    rcases hc with (((hc | hc) | rfl) | (hc | rfl)) | rfl
    · rw [indent_mem hc]; decide
    · exact (ident_plain (hk c hc)).2.1
    · decide
    · exact hr.noNul c hc
    · decide
    · decide

theorem inner_neutral {m : Map} (hg : GoodMap m) (hw : Written f g m) (d : Nat) :
    Neutral (m.flatMap (itemText d f)) ∧ ∀ c ∈ m.flatMap (itemText d f), c ≠ 0 := by
  have : ∀ l : Map, (∀ kv ∈ l, kv ∈ m) → Neutral (l.flatMap (itemText d f)) ∧
      ∀ c ∈ l.flatMap (itemText d f), c ≠ 0 := by
    intro l
    induction l with
    | nil => intro _; exact ⟨.nil, fun c hc => by cases hc⟩
    | cons kv l ih =>
      intro hl
      obtain ⟨i1, i2⟩ := ih fun x hx => hl x (List.mem_cons_of_mem _ hx)
      have hkv := hl kv (List.mem_cons_self ..)
      obtain ⟨h1, h2⟩ := itemText_neutral (d := d) (hg.keys kv hkv).2 (hw kv hkv)
      rw [List.flatMap_cons]
      refine ⟨h1.append i1, ?_⟩
      intro c hc
      rcases List.mem_append.mp hc with hc | hc
      · exact h2 c hc
      · exact i2 c hc
  exact this m fun _ h => h

/-- a map, written -/
theorem dump_form {m : Map} (hg : GoodMap m) (hw : Written f g m) (d : Nat) :
    ∃ w, dumpWith f m d = [0x5B] ++ w ++ [0x5D] ∧ Neutral w ∧ ∀ c ∈ w, c ≠ 0 := by
  cases m with
  | nil => exact ⟨[], rfl, .nil, fun c hc => by cases hc⟩
  | cons kv m =>
    obtain ⟨h1, h2⟩ := inner_neutral hg hw d
    refine ⟨_, dumpWith_cons f kv m d, ?_, ?_⟩
    · refine ((Neutral.plain (by decide)).append h1).append (.plains ?_)
      intro c hc; rw [indent_mem hc]; decide
    · intro c hc
      simp only [List.mem_append, List.mem_singleton] at hc
      rcases hc with (rfl | hc) | hc
      · decide
      · exact h2 c hc
      · rw [indent_mem hc]; decide

theorem skipSpace_head {c : UInt8} {s : Str} (h : isSpace c = false) : skipSpace (c :: s) = c :: s := by
  unfold skipSpace; rw [List.dropWhile_cons, if_neg (by simp [h])]

theorem skipSpace_pre {w s : Str} (h : ∀ c ∈ w, isSpace c = true) : skipSpace (w ++ s) = skipSpace s := by
  unfold skipSpace
  rw [List.dropWhile_append_of_pos h]

theorem indent_space {d : Nat} : ∀ c ∈ indent d, isSpace c = true := by
  intro c hc; rw [indent_mem hc]; decide

/-- reading the items of a written map -/
theorem items_read {d : Nat} (hfin : ∀ acc fuel, 0 < fuel → items fuel ([0x0A] ++ tail) acc = some acc) :
    ∀ {m : Map} {acc : Map} {fuel : Nat}, GoodMap m → (∀ x ∈ acc, ∀ y ∈ m, less x.1 y.1 = true) →
    Written f g m →
    m.length < fuel →
    items fuel ([0x0A] ++ m.flatMap (itemText d f) ++ tail) acc =
      some (acc ++ m.map fun kv => (kv.1, g kv.2)) := by
  intro m
  induction m with
  | nil =>
    intro acc fuel _ _ _ hf
    simp only [List.flatMap_nil, List.append_nil, List.map_nil]
    exact hfin acc fuel (by omega)
  | cons kv m ih =>
    intro acc fuel hg hacc hw hf
    obtain ⟨k, v⟩ := kv
    cases fuel with
    | zero => omega
    | succ fuel =>
      have hkv : (k, v) ∈ (k, v) :: m := by simp
      obtain ⟨hk1, hk2⟩ := hg.keys _ hkv
      obtain ⟨b, eb, hb⟩ := hw (k, v) (List.mem_cons_self ..)
      cases k with
      | nil => exact absurd rfl hk1
      | cons c k =>
        have hc : identifier c = true := hk2 c (List.mem_cons_self ..)
        have hk : ∀ x ∈ k, identifier x = true := fun x hx => hk2 x (List.mem_cons_of_mem _ hx)
        have e : [0x0A] ++ ((c :: k, v) :: m).flatMap (itemText d f) ++ tail =
            ([0x0A] ++ indent (d + 1)) ++ (c :: (k ++ (0x3A :: (b ++ (0x2C ::
              ([0x0A] ++ m.flatMap (itemText d f) ++ tail)))))) := by
          simp only [List.flatMap_cons, itemText]
          simp only at eb
          rw [eb]; simp
        rw [e]
        unfold items
        rw [skipSpace_pre (by
          intro x hx
          rcases List.mem_append.mp hx with hx | hx
          · simp only [List.mem_singleton] at hx; subst hx; decide
          · exact indent_space x hx), skipSpace_head (ident_plain hc).2.2.2]
        simp only
        rw [if_neg (ident_plain hc).1.1, if_pos hc]
        have ht : (k ++ (0x3A :: (b ++ (0x2C :: ([0x0A] ++ m.flatMap (itemText d f) ++ tail))))).takeWhile identifier = k := by
          rw [List.takeWhile_append_of_pos hk, List.takeWhile_cons, if_neg (by decide)]; simp
        have hd : (k ++ (0x3A :: (b ++ (0x2C :: ([0x0A] ++ m.flatMap (itemText d f) ++ tail))))).dropWhile identifier =
            0x3A :: (b ++ (0x2C :: ([0x0A] ++ m.flatMap (itemText d f) ++ tail))) := by
          rw [List.dropWhile_append_of_pos hk, List.dropWhile_cons, if_neg (by decide)]
        rw [ht, hd, skipSpace_head (by decide)]
        simp only
        rw [if_pos trivial]
        obtain ⟨c0, s0, hb0, hs0⟩ := hb.first
        have hsk : skipSpace (b ++ (0x2C :: ([0x0A] ++ m.flatMap (itemText d f) ++ tail))) =
            b ++ (0x2C :: ([0x0A] ++ m.flatMap (itemText d f) ++ tail)) := by
          rw [hb0, List.cons_append, skipSpace_head hs0]
        rw [hsk, hb.read]
        simp only
        rw [skipSpace_head (by decide)]
        simp only
        rw [if_neg (by decide), if_pos trivial]
        have hlast : put (c :: k) (g v) acc = acc ++ [(c :: k, g v)] := by
          apply put_last
          intro x hx
          exact hacc x hx _ (List.mem_cons_self ..)
        have hs := List.pairwise_cons.mp hg.sorted
        rw [hlast, ih (GoodMap.of hs.2 fun x hx => hg.keys x (List.mem_cons_of_mem _ hx)) (by
          intro x hx y hy
          rcases List.mem_append.mp hx with hx | hx
          · exact hacc x hx y (List.mem_cons_of_mem _ hy)
          · rw [List.mem_singleton] at hx; subst hx; exact hs.1 y hy) (fun x hx => hw x (List.mem_cons_of_mem _ hx)) (by simp at hf; omega)]
        simp

/-- cooking a written map, with blanks after it -/
theorem cook_dump {m : Map} (hg : GoodMap m) (hw : Written f g m) (d : Nat) {z : Str}
    (hz : ∀ c ∈ z, isSpace c = true ∧ c ≠ 0) :
    cook (dumpWith f m d ++ z) = some (m.map fun kv => (kv.1, g kv.2)) := by
  have h0 : ∀ c ∈ dumpWith f m d ++ z, c ≠ 0 := by
    obtain ⟨w, e, -, h⟩ := dump_form hg hw d
    rw [e]
    intro c hc
    simp only [List.mem_append, List.mem_singleton] at hc
    rcases hc with ((rfl | hc) | rfl) | hc
    · decide
    · exact h c hc
    · decide
    · exact (hz c hc).2
  have hskip : skipSpace z = [] := by
    have := skipSpace_pre (s := []) fun c hc => (hz c hc).1
    rw [List.append_nil] at this
    rw [this]; rfl
  unfold cook
  have htw : ∀ l : Str, (∀ c ∈ l, c ≠ 0) → l.takeWhile (· ≠ 0) = l := by
    intro l hl
    have := List.takeWhile_append_of_pos (p := fun c : UInt8 => decide (c ≠ 0)) (l₁ := l) (l₂ := [])
      (by simpa using hl)
    simpa using this
  rw [htw _ h0]
  unfold parse
  cases m with
  | nil =>
    show (match skipSpace (0x5B :: 0x5D :: z) with | [] => none | c :: s => if c = 0x5B then items (s.length + 1) s [] else none) = _
    rw [skipSpace_head (by decide)]
    simp only
    rw [if_pos trivial]
    unfold items
    rw [skipSpace_head (by decide)]
    simp only
    rw [if_pos trivial, finish, if_pos hskip]
    rfl
  | cons kv m =>
    have e : dumpWith f (kv :: m) d ++ z =
        0x5B :: ([0x0A] ++ (kv :: m).flatMap (itemText d f) ++ (indent d ++ [0x5D] ++ z)) := by
      rw [dumpWith_cons]; simp
    rw [e, skipSpace_head (by decide)]
    simp only
    rw [if_pos trivial]
    have hlen : ∀ l : Map, l.length ≤ (l.flatMap (itemText d f)).length := by
      intro l
      induction l with
      | nil => simp
      | cons x l ih =>
        rw [List.flatMap_cons, List.length_append, List.length_cons]
        have : 0 < (itemText d f x).length := by unfold itemText; simp; omega
        omega
    refine (items_read (acc := []) ?_ hg (by simp) hw ?_).trans (by simp)
    · intro acc fuel hf
      cases fuel with
      | zero => omega
      | succ fuel =>
        unfold items
        have e : [0x0A] ++ (indent d ++ [0x5D] ++ z) = ([0x0A] ++ indent d) ++ 0x5D :: z := by simp
        rw [e, skipSpace_pre (by
          intro x hx
          rcases List.mem_append.mp hx with hx | hx
          · simp only [List.mem_singleton] at hx; subst hx; decide
          · exact indent_space x hx), skipSpace_head (by decide)]
        simp only
        rw [if_pos trivial, finish, if_pos hskip]
    · have := hlen (kv :: m)
      simp only [List.length_append] at this ⊢
      omega
end

/-! ### values within values -/

/-- what a value is read back as -/
def back : Nat → Str → Nat → Str
  | 0, v, _ => v
  | n + 1, v, d => match cook v with
    | some m => dumpWith (fun w => dumpVal n w (d + 1)) m d
    | none => v

theorem find_mem {k v : Str} {m : Map} (h : find k m = some v) : (k, v) ∈ m := by
  induction m with
  | nil => cases h
  | cons y m ih =>
    obtain ⟨k', v'⟩ := y
    unfold find at h
    split at h
    · rename_i e
      subst e
      obtain rfl : v' = v := by simpa using h
      exact List.mem_cons_self ..
    · exact List.mem_cons_of_mem _ (ih h)

theorem find_map {k : Str} {m : Map} (g : Str → Str) :
    find k (m.map fun kv => (kv.1, g kv.2)) = (find k m).map g := by
  induction m with
  | nil => rfl
  | cons y m ih =>
    obtain ⟨k', v'⟩ := y
    simp only [List.map_cons, find]
    split
    · rfl
    · exact ih

theorem mem_find {k v : Str} {m : Map} (h : GoodMap m) (hm : (k, v) ∈ m) : find k m = some v := by
  have hs := h.sorted
  clear h
  induction m with
  | nil => cases hm
  | cons y m ih =>
    obtain ⟨k', v'⟩ := y
    unfold find
    rw [List.pairwise_cons] at hs
    rcases List.mem_cons.mp hm with e | hm
    · obtain ⟨rfl, rfl⟩ : k = k' ∧ v = v' := by simpa using e
      rw [if_pos rfl]
    · rw [if_neg]
      · exact ih hm hs.2
      · rintro rfl
        have := hs.1 _ hm
        rw [less_irrefl] at this
        cases this

theorem Safe.form {v : Str} (h : Safe v) : ∀ {n d : Nat}, v.length < n →
    (∃ b, dumpVal n v d = b ++ [0x2C] ∧ Reads b (back n v d)) ∧ Same v (back n v d) ∧
      ∀ k, (back n v d).length < k → dumpVal k (back n v d) d = dumpVal n v d := by
  induction h with
  | @leaf v hc hq =>
    intro n d hn
    cases n with
    | zero => omega
    | succ n =>
      have e : back (n + 1) v d = v := by rw [back, hc]
      rw [e]
      refine ⟨⟨_, by unfold dumpVal; rw [hc], Reads.quoted hq⟩, .leaf hc, ?_⟩
      intro k hk
      exact dumpVal_more hk hn
  | @node v p hc hs ih =>
    intro n d hn
    cases n with
    | zero => omega
    | succ n =>
      have e : back (n + 1) v d = dumpWith (fun w => dumpVal n w (d + 1)) p d := by rw [back, hc]
      have ed : dumpVal (n + 1) v d = dumpWith (fun w => dumpVal n w (d + 1)) p d ++ [0x2C] := by
        rw [dumpVal, hc]
      obtain ⟨hg, hl⟩ := cook_good hc
      have hi := fun (kv : Str × Str) (hkv : kv ∈ p) =>
        ih kv.1 kv.2 (mem_find hg hkv) (n := n) (d := d + 1) (by have := hl kv hkv; omega)
      have hw : Written (fun w => dumpVal n w (d + 1)) (fun w => back n w (d + 1)) p :=
        fun kv hkv => (hi kv hkv).1
      have hcook := cook_dump hg hw d (z := []) (fun c hc => by cases hc)
      rw [List.append_nil] at hcook
      rw [e]
      refine ⟨⟨_, ed, ?_⟩, ?_, ?_⟩
      · obtain ⟨w, e1, h1, h2⟩ := dump_form hg hw d
        rw [e1]
        exact Reads.map h1 h2
      · refine .node hc hcook (by simp) ?_
        intro k w w' h1 h2
        rw [find_map (fun w => back n w (d + 1)), h1] at h2
        obtain rfl : back n w (d + 1) = w' := by simpa using h2
        exact (hi (k, w) (find_mem h1)).2.1
      · intro k hk
        cases k with
        | zero => omega
        | succ k =>
          rw [ed, dumpVal, hcook]
          simp only
          congr 1
          have hl' := (cook_good hcook).2
          have : ∀ l : Map, (∀ kv ∈ l, kv ∈ p) →
              (l.map fun kv => (kv.1, back n kv.2 (d + 1))).flatMap
                (itemText d fun w => dumpVal k w (d + 1)) =
              l.flatMap (itemText d fun w => dumpVal n w (d + 1)) := by
            intro l
            induction l with
            | nil => intro _; rfl
            | cons x l ihl =>
              intro hx
              have h1 := hx x (List.mem_cons_self ..)
              rw [List.map_cons, List.flatMap_cons, List.flatMap_cons,
                ihl fun y hy => hx y (List.mem_cons_of_mem _ hy)]
              congr 1
              unfold itemText
              simp only
              rw [(hi x h1).2.2 k]
              have := hl' (x.1, back n x.2 (d + 1)) (List.mem_map.mpr ⟨x, h1, rfl⟩)
              simp only at this
              omega
          cases p with
          | nil => rfl
          | cons x p =>
            have := this (x :: p) fun _ h => h
            rw [List.map_cons] at this ⊢
            rw [dumpWith_cons, dumpWith_cons, this]

end Verif.Recipe
