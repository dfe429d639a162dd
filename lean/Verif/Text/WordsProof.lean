import Verif.Text.Join
import Verif.Text.Words
/-
  The tokenizers cut texts into words as specified.
-/
namespace Verif.Text

theorem mem_takeWhile {α : Type} {p : α → Bool} {x : α} : ∀ {l : List α}, x ∈ l.takeWhile p → p x = true := by
  intro l
  induction l with
  | nil => intro h; simp at h
  | cons a l ih =>
    intro h
    rw [List.takeWhile_cons] at h
    split at h
    · rename_i ha
      rw [List.mem_cons] at h
      rcases h with rfl | h
      · exact ha
      · exact ih h
    · simp at h

theorem ofNat_toNat {n : Nat} (h : n < 256) : (UInt8.ofNat n).toNat = n := by
  simp only [UInt8.toNat_ofNat']; omega

theorem decode_encode {c : Nat} (h : c < 0x200000) (x : Text) :
    decode (encode c ++ x) = (c, (encode c).length) := by
  unfold encode
  by_cases h1 : c ≤ 0x7F
  · have e : (UInt8.ofNat c).toNat = c := ofNat_toNat (by omega)
    simp only [h1, if_true, decode, List.cons_append, List.nil_append, List.getD_cons_zero, e]
    simp only [show c < 128 by omega, if_true]; rfl
  · by_cases h2 : c ≤ 0x7FF
    · have e0 := ofNat_toNat (n := c / 64 + 0xC0) (by omega)
      have e1 := ofNat_toNat (n := c % 64 + 0x80) (by omega)
      simp only [h1, h2, if_true, if_false, decode, List.cons_append, List.nil_append,
        List.getD_cons_zero, List.getD_cons_succ, e0, e1, List.length_cons]
      have a1 : ¬ c / 64 + 0xC0 < 0x80 := by omega
      have a2 : 0xC0 ≤ c / 64 + 0xC0 := by omega
      have a3 : c / 64 + 0xC0 < 0xE0 := by omega
      have a4 : ¬ x.length + 1 + 1 < 2 := by omega
      simp only [a1, a2, a3, a4, if_false, decide_true, Bool.and_self, if_true]
      simp only [Prod.mk.injEq, List.length_nil, Nat.zero_add, and_true]
      omega
    · by_cases h3 : c ≤ 0xFFFF
      · have e0 := ofNat_toNat (n := c / 4096 + 0xE0) (by omega)
        have e1 := ofNat_toNat (n := c / 64 % 64 + 0x80) (by omega)
        have e2 := ofNat_toNat (n := c % 64 + 0x80) (by omega)
        simp only [h1, h2, h3, if_true, if_false, decode, List.cons_append, List.nil_append,
          List.getD_cons_zero, List.getD_cons_succ, e0, e1, e2, List.length_cons]
        have a1 : ¬ c / 4096 + 0xE0 < 0x80 := by omega
        have a2 : ¬ c / 4096 + 0xE0 < 0xE0 := by omega
        have a3 : 0xE0 ≤ c / 4096 + 0xE0 := by omega
        have a5 : c / 4096 + 0xE0 < 0xF0 := by omega
        have a4 : ¬ x.length + 1 + 1 + 1 < 3 := by omega
        simp only [a1, a2, a3, a4, a5, if_false, decide_true, decide_false, Bool.and_false,
          Bool.and_self, if_true, Bool.false_eq_true]
        simp only [Prod.mk.injEq, List.length_nil, Nat.zero_add, and_true]
        omega
      · have h4 : c ≤ 0x1FFFFF := by omega
        have e0 := ofNat_toNat (n := c / 262144 + 0xF0) (by omega)
        have e1 := ofNat_toNat (n := c / 4096 % 64 + 0x80) (by omega)
        have e2 := ofNat_toNat (n := c / 64 % 64 + 0x80) (by omega)
        have e3 := ofNat_toNat (n := c % 64 + 0x80) (by omega)
        simp only [h1, h2, h3, h4, if_true, if_false, decode, List.cons_append, List.nil_append,
          List.getD_cons_zero, List.getD_cons_succ, e0, e1, e2, e3, List.length_cons]
        have a1 : ¬ c / 262144 + 0xF0 < 0x80 := by omega
        have a2 : ¬ c / 262144 + 0xF0 < 0xE0 := by omega
        have a6 : ¬ c / 262144 + 0xF0 < 0xF0 := by omega
        have a3 : 0xF0 ≤ c / 262144 + 0xF0 := by omega
        have a5 : c / 262144 + 0xF0 < 0xF8 := by omega
        have a4 : ¬ x.length + 1 + 1 + 1 + 1 < 4 := by omega
        simp only [a1, a2, a3, a4, a5, a6, if_false, decide_true, decide_false, Bool.and_false,
          Bool.and_self, if_true, Bool.false_eq_true]
        simp only [Prod.mk.injEq, List.length_nil, Nat.zero_add, and_true]
        omega

theorem decode_lt (s : Text) : (decode s).1 < 0x200000 := by
  unfold decode
  simp only
  repeat' split
  all_goals simp only
  all_goals first | decide | omega

theorem encode_ne (c : Nat) : ∃ d ds, encode c = d :: ds := by
  unfold encode
  repeat' split
  all_goals exact ⟨_, _, rfl⟩

variable (act : Nat → Action)

/-- the text of a list of code points -/
def textOf (cps : List Nat) : Text := cps.flatMap encode

theorem textOf_cons (c : Nat) (cps : List Nat) : textOf (c :: cps) = encode c ++ textOf cps := by
  simp [textOf]

theorem runOf_text : ∀ cps : List Nat, (∀ c ∈ cps, c < 0x200000) → runOf act (textOf cps) =
    ((textOf (cps.takeWhile (inWord act))).length, (cps.takeWhile (inWord act)).flatMap (folded act)) := by
  intro cps
  induction cps with
  | nil => intro _; rfl
  | cons c cps ih =>
    intro h
    have hd := decode_encode (h c (List.mem_cons_self ..)) (textOf cps)
    obtain ⟨d, ds, he⟩ := encode_ne c
    have ih := ih (fun x hx => h x (List.mem_cons_of_mem _ hx))
    rw [textOf_cons]
    rw [he] at hd ⊢
    rw [List.cons_append] at hd ⊢
    rw [runOf_cons, hd]
    have e1 : (d :: (ds ++ textOf cps)).drop (d :: ds).length = textOf cps := by
      rw [← List.cons_append, List.drop_left]
    have e2 : (d :: (ds ++ textOf cps)).take (d :: ds).length = d :: ds := by
      rw [← List.cons_append, List.take_left]
    simp only [e1, e2, ih, List.takeWhile_cons]
    cases ha : act c with
    | non =>
      have hw : inWord act c = false := by unfold inWord; rw [ha]
      simp [hw, textOf]
    | uni =>
      have hw : inWord act c = false := by unfold inWord; rw [ha]
      simp [hw, textOf]
    | tok =>
      have hw : inWord act c = true := by unfold inWord; rw [ha]
      have hf : folded act c = encode c := by unfold folded; rw [ha]
      simp only [hw, if_true, textOf, List.flatMap_cons, List.length_append, hf, he]
    | fold b =>
      have hw : inWord act c = true := by unfold inWord; rw [ha]
      have hf : folded act c = b := by unfold folded; rw [ha]
      simp only [hw, if_true, textOf, List.flatMap_cons, List.length_append, hf, he]

theorem utf8_cut (n : Nat) : ∀ cps : List Nat, cps.length ≤ n → (∀ c ∈ cps, c < 0x200000) →
    Cut act cps (splitOf (itemsOf act (textOf cps))) ∧
    (∀ a o, (tokensOf (itemsOf act (textOf cps)) a o).map (fun t => (t.str, t.address)) =
      (splitOf (itemsOf act (textOf cps))).zipIdx a) := by
  induction n with
  | zero =>
    intro cps h _
    have : cps = [] := List.length_eq_zero_iff.mp (by omega)
    subst this
    exact ⟨Cut.nil, fun a o => rfl⟩
  | succ n ih =>
    intro cps h hlt
    cases cps with
    | nil => exact ⟨Cut.nil, fun a o => rfl⟩
    | cons c cps =>
      have hd := decode_encode (hlt c (List.mem_cons_self ..)) (textOf cps)
      obtain ⟨d, ds, he⟩ := encode_ne c
      have hl : cps.length ≤ n := by simpa using h
      have hlt' : ∀ x ∈ cps, x < 0x200000 := fun x hx => hlt x (List.mem_cons_of_mem _ hx)
      have ht := textOf_cons c cps
      rw [he, List.cons_append] at ht hd
      have e1 : (d :: (ds ++ textOf cps)).drop (d :: ds).length = textOf cps := by
        rw [← List.cons_append, List.drop_left]
      have e2 : (d :: (ds ++ textOf cps)).take (d :: ds).length = d :: ds := by
        rw [← List.cons_append, List.take_left]
      have hrun : inWord act c = true → Cut act (c :: cps) (splitOf (itemsOf act (textOf (c :: cps)))) ∧
          (∀ a o, (tokensOf (itemsOf act (textOf (c :: cps))) a o).map (fun t => (t.str, t.address)) =
            (splitOf (itemsOf act (textOf (c :: cps)))).zipIdx a) := by
        intro hw
        have hr := runOf_text act (c :: cps) hlt
        have hi : itemsOf act (textOf (c :: cps)) =
            ((runOf act (textOf (c :: cps))).1, [(runOf act (textOf (c :: cps))).2]) ::
              itemsOf act ((textOf (c :: cps)).drop (runOf act (textOf (c :: cps))).1) := by
          rw [ht]
          apply itemsOf_run
          rw [hd]
          unfold inWord at hw
          cases ha : act c with
          | tok => right; rfl
          | fold b => left; exact ⟨b, rfl⟩
          | non => simp [ha] at hw
          | uni => simp [ha] at hw
        have hsplit : textOf (c :: cps) = textOf ((c :: cps).takeWhile (inWord act)) ++
            textOf ((c :: cps).dropWhile (inWord act)) := by
          unfold textOf
          rw [← List.flatMap_append, List.takeWhile_append_dropWhile]
        have hdrop : (textOf (c :: cps)).drop (runOf act (textOf (c :: cps))).1 =
            textOf ((c :: cps).dropWhile (inWord act)) := by
          rw [hr, hsplit]
          simp
        rw [hdrop, hr] at hi
        have hlen : ((c :: cps).dropWhile (inWord act)).length ≤ n := by
          rw [List.dropWhile_cons, if_pos hw]
          exact Nat.le_trans (List.dropWhile_sublist _).length_le hl
        obtain ⟨ih1, ih2⟩ := ih _ hlen (fun x hx => hlt x ((List.dropWhile_sublist _).subset hx))
        rw [hi]
        refine ⟨?_, fun a o => ?_⟩
        · simp only [splitOf]
          have := Cut.word (act := act) (w := (c :: cps).takeWhile (inWord act)) (by simp [hw])
            (fun x hx => mem_takeWhile hx)
            (rest := (c :: cps).dropWhile (inWord act))
            (fun x hx => by
              have := List.head?_dropWhile_not (inWord act) (c :: cps)
              rw [Option.mem_def.mp hx] at this
              simpa using this)
            ih1
          rw [List.takeWhile_append_dropWhile] at this
          exact this
        · simp only [tokensOf, splitOf, List.map_append, List.zipIdx_cons, ih2]
          rfl
      cases ha : act c with
      | non =>
        have hi := itemsOf_non (c := d) (cs := ds ++ textOf cps) act (by rw [hd]; exact ha)
        rw [hd] at hi
        simp only [e1] at hi
        rw [ht, hi]
        obtain ⟨ih1, ih2⟩ := ih cps hl hlt'
        refine ⟨?_, fun a o => ?_⟩
        · simp only [splitOf]; exact Cut.gap ha ih1
        · simp only [tokensOf, splitOf]; exact ih2 _ _
      | uni =>
        have hi := itemsOf_uni (c := d) (cs := ds ++ textOf cps) act (by rw [hd]; exact ha)
        rw [hd] at hi
        simp only [e1, e2] at hi
        rw [ht, hi]
        obtain ⟨ih1, ih2⟩ := ih cps hl hlt'
        refine ⟨?_, fun a o => ?_⟩
        · simp only [splitOf]; rw [← he]; exact Cut.alone ha ih1
        · simp only [tokensOf, splitOf, List.map_append, List.zipIdx_cons, ih2]; rfl
      | tok => exact hrun (by unfold inWord; rw [ha])
      | fold b => exact hrun (by unfold inWord; rw [ha])

theorem run_unique {α : Type} {p : α → Bool} : ∀ {w v r q : List α}, w ++ r = v ++ q →
    (∀ c ∈ w, p c = true) → (∀ c ∈ v, p c = true) → (∀ c ∈ r.head?, p c = false) →
    (∀ c ∈ q.head?, p c = false) → w = v ∧ r = q := by
  intro w
  induction w with
  | nil =>
    intro v r q e _ hv hr _
    cases v with
    | nil => exact ⟨rfl, by simpa using e⟩
    | cons b v =>
      simp at e; subst e
      have h1 := hr b (by simp)
      have h2 := hv b (by simp)
      rw [h1] at h2; cases h2
  | cons a w ih =>
    intro v r q e hw hv hr hq
    cases v with
    | nil =>
      simp at e; subst e
      have h1 := hq a (by simp)
      have h2 := hw a (by simp)
      rw [h1] at h2; cases h2
    | cons b v =>
      simp at e
      obtain ⟨h1, h2⟩ := ih e.2 (fun c hc => hw c (List.mem_cons_of_mem _ hc))
        (fun c hc => hv c (List.mem_cons_of_mem _ hc)) hr hq
      exact ⟨by rw [e.1, h1], h2⟩

theorem inWord_non {c : Nat} (h : act c = .non) : inWord act c = false := by unfold inWord; rw [h]
theorem inWord_uni {c : Nat} (h : act c = .uni) : inWord act c = false := by unfold inWord; rw [h]

/-- the cut of a text that starts outside of words, or inside one -/
theorem cut_cons_inv {c : Nat} {cs : List Nat} {ts : List Text} (h : Cut act (c :: cs) ts) :
    (act c = .non ∧ Cut act cs ts) ∨ (act c = .uni ∧ ∃ us, ts = encode c :: us ∧ Cut act cs us) ∨
    (∃ w rest us, c :: cs = w ++ rest ∧ w ≠ [] ∧ (∀ c ∈ w, inWord act c = true) ∧
      (∀ c ∈ rest.head?, inWord act c = false) ∧ Cut act rest us ∧
      ts = w.flatMap (folded act) :: us) := by
  generalize hx : c :: cs = x at h
  cases h with
  | nil => cases hx
  | gap h1 h2 =>
    obtain ⟨rfl, rfl⟩ := List.cons.inj hx
    exact Or.inl ⟨h1, h2⟩
  | alone h1 h2 =>
    obtain ⟨rfl, rfl⟩ := List.cons.inj hx
    exact Or.inr (Or.inl ⟨h1, _, rfl, h2⟩)
  | word h1 h2 h3 h4 => exact Or.inr (Or.inr ⟨_, _, _, rfl, h1, h2, h3, h4, rfl⟩)

theorem cut_nil_inv {ts : List Text} (h : Cut act [] ts) : ts = [] := by
  generalize hx : ([] : List Nat) = x at h
  cases h with
  | nil => rfl
  | gap => cases hx
  | alone => cases hx
  | word h1 =>
    have := List.append_eq_nil_iff.mp hx.symm
    exact absurd this.1 h1

theorem cut_unique {cps : List Nat} {ts us : List Text} (h1 : Cut act cps ts) (h2 : Cut act cps us) :
    ts = us := by
  have head : ∀ {w rest : List Nat} {c cs}, c :: cs = w ++ rest → w ≠ [] →
      (∀ c ∈ w, inWord act c = true) → inWord act c = true := by
    intro w rest c cs e hne hw
    cases w with
    | nil => exact absurd rfl hne
    | cons d w => simp at e; rw [e.1]; exact hw d (by simp)
  induction h1 generalizing us with
  | nil => exact (cut_nil_inv act h2).symm
  | gap ha _ ih =>
    rcases cut_cons_inv act h2 with ⟨_, h⟩ | ⟨h, _⟩ | ⟨w, r, us', e, hne, hw, _⟩
    · exact ih h
    · rw [ha] at h; cases h
    · have := head e hne hw
      rw [inWord_non act ha] at this; cases this
  | alone ha _ ih =>
    rcases cut_cons_inv act h2 with ⟨h, _⟩ | ⟨_, us', rfl, h⟩ | ⟨w, r, us', e, hne, hw, _⟩
    · rw [ha] at h; cases h
    · rw [ih h]
    · have := head e hne hw
      rw [inWord_uni act ha] at this; cases this
  | @word w rest ts hne hw hr _ ih =>
    cases w with
    | nil => exact absurd rfl hne
    | cons c w =>
      have hc := hw c (by simp)
      rcases cut_cons_inv act h2 with ⟨h, _⟩ | ⟨h, _⟩ | ⟨w', r', us', e, hne', hw', hr', hcut, rfl⟩
      · rw [inWord_non act h] at hc; cases hc
      · rw [inWord_uni act h] at hc; cases hc
      · obtain ⟨e1, e2⟩ := run_unique (w := c :: w) (by simpa using e) hw hw' hr hr'
        subst e1 e2
        rw [ih hcut]

/-! ### ASCII -/

theorem byte_all {P : UInt8 → Prop} (h : ∀ n : Fin 256, P (UInt8.ofNat n.val)) (c : UInt8) : P c := by
  have := h ⟨c.toNat, c.toNat_lt⟩
  simpa using this

/-- the character classes of the code are those of ASCII -/
theorem alphanumeric_eq : alphanumeric = letterOrDigit := by
  funext c
  exact byte_all (P := fun c => alphanumeric c = letterOrDigit c) (by decide +kernel) c

theorem isUpper_eq : isUpper = capital := by
  funext c
  exact byte_all (P := fun c => isUpper c = capital c) (by decide +kernel) c

theorem lower_eq {c : UInt8} (h : letterOrDigit c = true) : lower c = small c :=
  byte_all (P := fun c => letterOrDigit c = true → lower c = small c) (by decide +kernel) c h


theorem lower_plain {c : UInt8} (h1 : alphanumeric c = true) (h2 : isUpper c = false) : lower c = c := by
  have h : ∀ n : Fin 256, alphanumeric (UInt8.ofNat n.val) = true → isUpper (UInt8.ofNat n.val) = false →
      lower (UInt8.ofNat n.val) = UInt8.ofNat n.val := by decide +kernel
  have e : UInt8.ofNat c.toNat = c := UInt8.ofNat_toNat
  have := h ⟨c.toNat, c.toNat_lt⟩
  simp only [e] at this
  exact this h1 h2

theorem wordStrs_lower {w : Text} (hw : ∀ c ∈ w, alphanumeric c = true) : wordStrs w =
    if (w.drop 1).any isUpper then [w, w.map lower] else [w.map lower] := by
  unfold wordStrs
  split
  · rfl
  · rename_i h
    congr 1
    cases w with
    | nil => rfl
    | cons c w =>
      simp only [List.drop_one, List.tail_cons, List.take_succ_cons, List.take_zero, List.map_cons,
        List.map_nil, List.cons_append, List.nil_append] at h ⊢
      congr 1
      symm
      have : w.map lower = w.map id := List.map_congr_left fun d hd => by
        have h3 : isUpper d = false := by
          cases hu : isUpper d with
          | false => rfl
          | true => exact absurd (List.any_eq_true.mpr ⟨d, hd, hu⟩) h
        exact lower_plain (hw d (List.mem_cons_of_mem _ hd)) h3
      simpa using this

/-- the strings of each address -/
def groupsOf : List Item → List (List Text)
  | [] => []
  | (_, []) :: r => groupsOf r
  | (_, w :: ws) :: r => (w :: ws) :: groupsOf r

theorem groups_tokens (l : List Item) : ∀ a o,
    (tokensOf l a o).map (fun t => (t.str, t.address)) =
      ((groupsOf l).zipIdx a).flatMap fun g => g.1.map fun w => (w, g.2) := by
  induction l with
  | nil => intro a o; rfl
  | cons i r ih =>
    intro a o
    obtain ⟨k, ws⟩ := i
    cases ws with
    | nil => simp only [tokensOf, groupsOf]; exact ih _ _
    | cons w ws =>
      simp only [tokensOf, groupsOf, List.map_append, ih, List.zipIdx_cons, List.flatMap_cons,
        List.map_map]
      rfl

theorem ascii_cut (n : Nat) : ∀ s : Text, s.length ≤ n →
    CutAscii s (groupsOf ((asciiScan false).items s.length s)) := by
  induction n with
  | zero =>
    intro s h
    have : s = [] := List.length_eq_zero_iff.mp (by omega)
    subst this; exact CutAscii.nil
  | succ n ih =>
    intro s h
    cases s with
    | nil => exact CutAscii.nil
    | cons c s =>
      rw [items_cons]
      have hi : (asciiScan false).item (c :: s) = asciiItem false (c :: s) := rfl
      by_cases hc : alphanumeric c = true
      · have e : asciiItem false (c :: s) = (((c :: s).takeWhile alphanumeric).length,
            wordStrs ((c :: s).takeWhile alphanumeric)) := by
          unfold asciiItem; rw [List.headD_cons, if_pos hc]
        rw [hi, e]
        have hd : (c :: s).drop ((c :: s).takeWhile alphanumeric).length =
            (c :: s).dropWhile alphanumeric := by
          have := List.takeWhile_append_dropWhile (p := alphanumeric) (l := c :: s)
          generalize (c :: s).takeWhile alphanumeric = w at *
          generalize (c :: s).dropWhile alphanumeric = r at *
          rw [← this, List.drop_left]
        simp only [hd]
        have hall : ∀ x ∈ (c :: s).takeWhile alphanumeric, alphanumeric x = true :=
          fun x hx => mem_takeWhile hx
        rw [wordStrs_lower hall]
        have hlen : ((c :: s).dropWhile alphanumeric).length ≤ n := by
          rw [List.dropWhile_cons, if_pos hc]
          simp only [List.length_cons] at h
          exact Nat.le_trans (List.dropWhile_sublist _).length_le (by omega)
        have hsm : ((c :: s).takeWhile alphanumeric).map lower = ((c :: s).takeWhile alphanumeric).map small :=
          List.map_congr_left fun x hx => lower_eq (by rw [← alphanumeric_eq]; exact hall x hx)
        rw [hsm, isUpper_eq]
        have := CutAscii.word (w := (c :: s).takeWhile alphanumeric) (by simp [hc])
          (by rw [← alphanumeric_eq]; exact hall)
          (rest := (c :: s).dropWhile alphanumeric)
          (fun x hx => by
            have := List.head?_dropWhile_not alphanumeric (c :: s)
            rw [Option.mem_def.mp hx] at this
            rw [← alphanumeric_eq]
            simpa using this)
          (ih _ hlen)
        rw [List.takeWhile_append_dropWhile] at this
        generalize (c :: s).takeWhile alphanumeric = w at *
        split <;> rename_i hu <;> simp only [hu, if_true, if_false] at this <;> exact this
      · have e : asciiItem false (c :: s) = (1, []) := by
          unfold asciiItem; rw [List.headD_cons, if_neg hc]; simp
        rw [hi, e]
        simp only [groupsOf, List.drop_succ_cons, List.drop_zero]
        simp only [List.length_cons] at h
        exact CutAscii.gap (by rw [← alphanumeric_eq]; simpa using hc) (ih s (by omega))

end Verif.Text
