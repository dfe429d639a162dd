import Verif.Text.Places
import Verif.Text.WordsProof
/-
  Where the tokens of both tokenizers are.
-/
namespace Verif.Text

/-- the places that a scanner finds -/
def placesOf : List Item → Nat → List WordPlace
  | [], _ => []
  | (k, []) :: r, o => placesOf r (o + k)
  | (k, w :: ws) :: r, o => ⟨o, k, w :: ws⟩ :: placesOf r (o + k)

theorem places_tokens (l : List Item) : ∀ a o, tokensOf l a o =
    ((placesOf l o).zipIdx a).flatMap fun p => p.1.strs.map fun w => ⟨w, p.2, p.1.offset, p.1.length⟩ := by
  induction l with
  | nil => intro a o; rfl
  | cons i r ih =>
    intro a o
    obtain ⟨k, ws⟩ := i
    cases ws with
    | nil => simp only [tokensOf, placesOf]; exact ih _ _
    | cons w ws => simp only [tokensOf, placesOf, ih, List.zipIdx_cons, List.flatMap_cons]

theorem places_split (l : List Item) : ∀ o, splitOf l = (placesOf l o).map fun p => p.strs.headD [] := by
  induction l with
  | nil => intro o; rfl
  | cons i r ih =>
    intro o
    obtain ⟨k, ws⟩ := i
    cases ws with
    | nil => simp only [splitOf, placesOf]; exact ih _
    | cons w ws => simp only [splitOf, placesOf, List.map_cons, List.headD_cons]; rw [← ih]

/-! ### tags and entities -/

theorem tagInitial_eq : tagInitial = nameStart := by
  funext c
  exact byte_all (P := fun c => tagInitial c = nameStart c) (by decide +kernel) c

theorem tagCharacter_eq : tagCharacter = nameChar := by
  funext c
  exact byte_all (P := fun c => tagCharacter c = nameChar c) (by decide +kernel) c

theorem nameStart_ne {c : UInt8} (h : nameStart c = true) : c ≠ 0x2F ∧ c ≠ 0x3E :=
  byte_all (P := fun c => nameStart c = true → c ≠ 0x2F ∧ c ≠ 0x3E) (by decide +kernel) c h

theorem nameChar_ne {c : UInt8} (h : nameChar c = true) : c ≠ 0x3E :=
  byte_all (P := fun c => nameChar c = true → c ≠ 0x3E) (by decide +kernel) c h

theorem takeWhile_run {α : Type} {p : α → Bool} {w r : List α} (hw : ∀ c ∈ w, p c = true) (hr : ∀ c ∈ r.head?, p c = false) :
    (w ++ r).takeWhile p = w ∧ (w ++ r).dropWhile p = r := by
  have e := List.takeWhile_append_dropWhile (p := p) (l := w ++ r)
  exact run_unique e (fun c hc => mem_takeWhile hc) hw (fun c hc => by
    have := List.head?_dropWhile_not p (w ++ r)
    rw [Option.mem_def.mp hc] at this
    simpa using this) hr

/-- what a tag goes over until its end -/
def inTag (c : UInt8) : Bool := c != 0x0A && c != 0x3E

theorem inTag_iff {c : UInt8} : inTag c = true ↔ c ≠ 0x0A ∧ c ≠ 0x3E := by simp [inTag]

theorem tagClose_at (x y : Text) : tagClose (x ++ y) x.length =
    if (y.dropWhile inTag).head? = some 0x3E then some (x.length, x.length + (y.takeWhile inTag).length) else none := by
  have e1 : (x ++ y)[x.length]? = y[0]? := by rw [List.getElem?_append_right (Nat.le_refl _), Nat.sub_self]
  have e2 : (x ++ y).drop x.length = y := List.drop_left
  have e3 : (x ++ y)[x.length + (y.takeWhile inTag).length]? = (y.dropWhile inTag).head? := by
    rw [List.getElem?_append_right (by omega), Nat.add_sub_cancel_left]
    have := List.takeWhile_append_dropWhile (p := inTag) (l := y)
    generalize y.takeWhile inTag = a at *
    generalize y.dropWhile inTag = b at *
    rw [← this, List.getElem?_append_right (Nat.le_refl _), Nat.sub_self, List.head?_eq_getElem?]
  unfold tagClose
  rw [e1]
  cases y with
  | nil => simp
  | cons d y =>
    simp only [List.getElem?_cons_zero]
    by_cases h : d = 0x0A
    · rw [if_pos h, if_neg]
      subst h
      rw [List.dropWhile_cons, if_neg (by decide), List.head?_cons]
      decide
    · rw [if_neg h, e2]
      have ep : (fun c : UInt8 => c != 0x0A && c != 0x3E) = inTag := rfl
      simp only [ep, e3]

theorem tagEnd_at {slash : Text} (hs : slash = [] ∨ slash = [0x2F]) (d : UInt8) (tl : Text) (h : slash = [] → d ≠ 0x2F) :
    tagEnd (0x3C :: (slash ++ d :: tl)) =
    if tagInitial d = true then
      tagClose (0x3C :: (slash ++ d :: tl)) (1 + slash.length + 1 + (tl.takeWhile tagCharacter).length) else none := by
  unfold tagEnd
  rcases hs with rfl | rfl
  · have : ¬ (d = 0x2F) := h rfl
    simp [this]
  · simp

theorem tag_found {slash : Text} (hs : slash = [] ∨ slash = [0x2F]) (d : UInt8) (tl : Text) (h : slash = [] → d ≠ 0x2F) :
    tagEnd (0x3C :: (slash ++ d :: tl)) =
    if tagInitial d = true ∧ ((tl.dropWhile tagCharacter).dropWhile inTag).head? = some 0x3E then
      some (1 + slash.length + 1 + (tl.takeWhile tagCharacter).length,
        1 + slash.length + 1 + (tl.takeWhile tagCharacter).length + ((tl.dropWhile tagCharacter).takeWhile inTag).length)
    else none := by
  rw [tagEnd_at hs d tl h]
  by_cases hi : tagInitial d = true
  · have e := List.takeWhile_append_dropWhile (p := tagCharacter) (l := tl)
    have e1 : (0x3C :: (slash ++ d :: tl) : Text) =
        (0x3C :: (slash ++ d :: tl.takeWhile tagCharacter)) ++ tl.dropWhile tagCharacter := by
      simp only [List.cons_append, List.append_assoc, e]
    have e2 : 1 + slash.length + 1 + (tl.takeWhile tagCharacter).length =
        (0x3C :: (slash ++ d :: tl.takeWhile tagCharacter) : Text).length := by
      simp only [List.length_cons, List.length_append]; omega
    rw [if_pos hi, e1, e2, tagClose_at]
    simp only [hi, true_and]
  · rw [if_neg hi, if_neg (fun h => hi h.1)]

/-- the code finds every tag … -/
theorem tagEnd_tag {t short rest : Text} (h : IsTag t short) : ∃ q r, tagEnd (t ++ rest) = some (q, r) ∧
    (t ++ rest).take (r + 1) = t ∧ (t ++ rest).take q ++ [0x3E] = short ∧ r + 1 = t.length := by
  obtain ⟨slash, name, attrs, hs, ⟨c, cs, rfl, hc, hcs⟩, ha, hin, rfl, rfl⟩ := h.parts
  have e : (0x3C :: (slash ++ (c :: cs ++ (attrs ++ [0x3E]))) ++ rest : Text) =
      0x3C :: (slash ++ c :: (cs ++ (attrs ++ 0x3E :: rest))) := by simp
  have hr : ∀ x ∈ (attrs ++ 0x3E :: rest).head?, tagCharacter x = false := by
    intro x hx
    rw [tagCharacter_eq]
    cases attrs with
    | nil =>
      simp only [List.nil_append, List.head?_cons, Option.mem_def, Option.some.injEq] at hx
      rw [← hx]; decide +kernel
    | cons a attrs => exact ha x (by simpa using hx)
  obtain ⟨t1, t2⟩ := takeWhile_run (p := tagCharacter) (w := cs) (fun x hx => by rw [tagCharacter_eq]; exact hcs x hx) hr
  obtain ⟨t3, t4⟩ := takeWhile_run (p := inTag) (w := attrs) (r := 0x3E :: rest) (fun x hx => inTag_iff.2 (hin x hx)) (by
    intro x hx
    simp only [List.head?_cons, Option.mem_def, Option.some.injEq] at hx
    rw [← hx]; decide)
  rw [e, tag_found hs c _ (fun _ => (nameStart_ne hc).1), t1, t2, t3, t4, if_pos ⟨by rw [tagInitial_eq]; exact hc, rfl⟩]
  refine ⟨_, _, rfl, ?_, ?_, ?_⟩
  · have : (0x3C :: (slash ++ c :: (cs ++ (attrs ++ 0x3E :: rest))) : Text) =
        (0x3C :: (slash ++ (c :: cs ++ (attrs ++ [0x3E])))) ++ rest := by simp
    rw [this]
    apply List.take_left'
    simp only [List.length_cons, List.length_append, List.length_nil]; omega
  · have : (0x3C :: (slash ++ c :: (cs ++ (attrs ++ 0x3E :: rest))) : Text) =
        (0x3C :: (slash ++ c :: cs)) ++ (attrs ++ 0x3E :: rest) := by simp
    rw [this, List.take_left' (by simp only [List.length_cons, List.length_append]; omega)]
    simp
  · simp only [List.length_cons, List.length_append, List.length_nil]; omega

/-- … and what it finds is a tag -/
theorem tag_tagEnd {s : Text} {q r : Nat} (h : tagEnd (0x3C :: s) = some (q, r)) :
    IsTag ((0x3C :: s).take (r + 1)) ((0x3C :: s).take q ++ [0x3E]) := by
  have go : ∀ (slash : Text) (d : UInt8) (tl : Text), (slash = [] ∨ slash = [0x2F]) → (slash = [] → d ≠ 0x2F) → s = slash ++ d :: tl →
      IsTag ((0x3C :: s).take (r + 1)) ((0x3C :: s).take q ++ [0x3E]) := by
    intro slash d tl hs hd e
    subst e
    rw [tag_found hs d tl hd] at h
    split at h
    · rename_i hc
      obtain ⟨hi, hg⟩ := hc
      obtain ⟨hq, hr⟩ := Prod.mk.inj (Option.some.inj h)
      have e1 := List.takeWhile_append_dropWhile (p := tagCharacter) (l := tl)
      have m1 : ∀ x ∈ tl.takeWhile tagCharacter, tagCharacter x = true := fun x hx => mem_takeWhile hx
      have h1 := List.head?_dropWhile_not tagCharacter tl
      generalize tl.takeWhile tagCharacter = a at *
      generalize tl.dropWhile tagCharacter = b at *
      have e2 := List.takeWhile_append_dropWhile (p := inTag) (l := b)
      have m2 : ∀ x ∈ b.takeWhile inTag, inTag x = true := fun x hx => mem_takeWhile hx
      generalize b.takeWhile inTag = f at *
      generalize b.dropWhile inTag = g at *
      cases g with
      | nil => cases hg
      | cons z g =>
        rw [List.head?_cons, Option.some.injEq] at hg
        subst hg
        have et : (0x3C :: (slash ++ d :: tl) : Text).take (r + 1) = 0x3C :: (slash ++ (d :: a ++ (f ++ [0x3E]))) := by
          rw [← e1, ← e2]
          have : (0x3C :: (slash ++ d :: (a ++ (f ++ 0x3E :: g))) : Text) = (0x3C :: (slash ++ (d :: a ++ (f ++ [0x3E])))) ++ g := by simp
          rw [this]
          apply List.take_left'
          simp only [List.length_cons, List.length_append, List.length_nil]; omega
        have es : (0x3C :: (slash ++ d :: tl) : Text).take q = 0x3C :: (slash ++ d :: a) := by
          rw [← e1]
          have : (0x3C :: (slash ++ d :: (a ++ b)) : Text) = (0x3C :: (slash ++ d :: a)) ++ b := by simp
          rw [this]
          apply List.take_left'
          simp only [List.length_cons, List.length_append]; omega
        refine ⟨slash, d :: a, f, hs, ⟨d, a, rfl, by rw [← tagInitial_eq]; exact hi, fun x hx => by rw [← tagCharacter_eq]; exact m1 x hx⟩,
          fun x hx => ?_, fun x hx => inTag_iff.1 (m2 x hx), et, by rw [es]; simp⟩
        rw [← e2] at h1
        cases f with
        | nil => cases hx
        | cons y f =>
          simp only [List.cons_append, List.head?_cons] at h1
          rw [List.head?_cons, Option.mem_def, Option.some.injEq] at hx
          rw [← tagCharacter_eq, ← hx]; simpa using h1
    · cases h
  have none1 : tagEnd [0x3C] = none := by decide
  have none2 : tagEnd [0x3C, 0x2F] = none := by decide
  cases s with
  | nil => rw [none1] at h; cases h
  | cons d s =>
    by_cases hd : d = 0x2F
    · subst hd
      cases s with
      | nil => rw [none2] at h; cases h
      | cons e s => exact go [0x2F] e s (Or.inr rfl) (fun h => by cases h) rfl
    · exact go [] d s (Or.inl rfl) (fun _ => hd) rfl

/-- what an entity goes over until its end -/
def inEntity (c : UInt8) : Bool := c != 0x20 && c != 0x0A && c != 0x3B

theorem inEntity_iff {c : UInt8} : inEntity c = true ↔ c ≠ 0x20 ∧ c ≠ 0x0A ∧ c ≠ 0x3B := by simp [inEntity, and_assoc]

theorem entity_at (s : Text) : entityEnd (0x26 :: s) =
    if (s.dropWhile inEntity).head? = some 0x3B then some (1 + (s.takeWhile inEntity).length) else none := by
  have e3 : (0x26 :: s : Text)[1 + (s.takeWhile inEntity).length]? = (s.dropWhile inEntity).head? := by
    rw [Nat.add_comm, List.getElem?_cons_succ]
    have := List.takeWhile_append_dropWhile (p := inEntity) (l := s)
    generalize s.takeWhile inEntity = a at *
    generalize s.dropWhile inEntity = b at *
    rw [← this, List.getElem?_append_right (Nat.le_refl _), Nat.sub_self, List.head?_eq_getElem?]
  have ep : (fun c : UInt8 => c != 0x20 && c != 0x0A && c != 0x3B) = inEntity := rfl
  unfold entityEnd
  simp only [ep, List.drop_succ_cons, List.drop_zero, e3]

theorem entityEnd_entity {t rest : Text} (h : IsEntity t) : ∃ q, entityEnd (t ++ rest) = some q ∧ q + 1 = t.length := by
  obtain ⟨body, rfl, hb⟩ := h
  have e : (0x26 :: (body ++ [0x3B]) ++ rest : Text) = 0x26 :: (body ++ 0x3B :: rest) := by simp
  obtain ⟨t1, t2⟩ := takeWhile_run (p := inEntity) (w := body) (r := 0x3B :: rest) (fun x hx => inEntity_iff.2 (hb x hx)) (by
    intro x hx
    simp only [List.head?_cons, Option.mem_def, Option.some.injEq] at hx
    rw [← hx]; decide)
  rw [e, entity_at, t1, t2, List.head?_cons, if_pos rfl]
  refine ⟨_, rfl, ?_⟩
  simp only [List.length_cons, List.length_append, List.length_nil]; omega

theorem entity_entityEnd {s : Text} {q : Nat} (h : entityEnd (0x26 :: s) = some q) : IsEntity ((0x26 :: s).take (q + 1)) := by
  rw [entity_at] at h
  split at h
  · rename_i hg
    have hq := Option.some.inj h
    have e2 := List.takeWhile_append_dropWhile (p := inEntity) (l := s)
    have m2 : ∀ x ∈ s.takeWhile inEntity, inEntity x = true := fun x hx => mem_takeWhile hx
    generalize s.takeWhile inEntity = f at *
    generalize s.dropWhile inEntity = g at *
    cases g with
    | nil => cases hg
    | cons z g =>
      rw [List.head?_cons, Option.some.injEq] at hg
      subst hg
      refine ⟨f, ?_, fun d hd => inEntity_iff.1 (m2 d hd)⟩
      rw [← e2]
      have : (0x26 :: (f ++ 0x3B :: g) : Text) = (0x26 :: (f ++ [0x3B])) ++ g := by simp
      rw [this]
      apply List.take_left'
      simp only [List.length_cons, List.length_append, List.length_nil]; omega
  · cases h

theorem tag_head {t short : Text} (h : IsTag t short) : ∃ s, t = 0x3C :: s := by
  obtain ⟨slash, name, attrs, -, -, -, -, rfl, -⟩ := h.parts
  exact ⟨_, rfl⟩

theorem entity_head {t : Text} (h : IsEntity t) : ∃ s, t = 0x26 :: s := by
  obtain ⟨body, rfl, -⟩ := h
  exact ⟨_, rfl⟩

/-! ### the ASCII tokenizer -/

theorem bytes_cut (xml : Bool) (n : Nat) : ∀ (s : Text) (o : Nat), s.length ≤ n →
    CutBytes xml o s (placesOf ((asciiScan xml).items s.length s) o) := by
  induction n with
  | zero =>
    intro s o h
    have : s = [] := List.length_eq_zero_iff.mp (by omega)
    subst this; exact CutBytes.nil
  | succ n ih =>
    intro s o h
    cases s with
    | nil => exact CutBytes.nil
    | cons c s =>
      rw [items_cons]
      have hi : (asciiScan xml).item (c :: s) = asciiItem xml (c :: s) := rfl
      rw [hi]
      have hlen1 : s.length ≤ n := by simpa using h
      have hdrop : ∀ k, 1 ≤ k → ((c :: s).drop k).length ≤ n := by
        intro k hk; rw [List.length_drop]; simp only [List.length_cons] at h ⊢; omega
      by_cases hc : alphanumeric c = true
      · have e : asciiItem xml (c :: s) = (((c :: s).takeWhile alphanumeric).length,
            wordStrs ((c :: s).takeWhile alphanumeric)) := by
          unfold asciiItem; rw [List.headD_cons, if_pos hc]
        rw [e]
        have hall : ∀ x ∈ (c :: s).takeWhile alphanumeric, alphanumeric x = true := fun x hx => mem_takeWhile hx
        have hne : (c :: s).takeWhile alphanumeric ≠ [] := by simp [hc]
        have hsm : ((c :: s).takeWhile alphanumeric).map lower = ((c :: s).takeWhile alphanumeric).map small :=
          List.map_congr_left fun x hx => lower_eq (by rw [← alphanumeric_eq]; exact hall x hx)
        have hforms : wordStrs ((c :: s).takeWhile alphanumeric) = wordForms ((c :: s).takeWhile alphanumeric) := by
          rw [wordStrs_lower hall, hsm, isUpper_eq]; rfl
        have hh := List.head?_dropWhile_not alphanumeric (c :: s)
        have es := List.takeWhile_append_dropWhile (p := alphanumeric) (l := c :: s)
        obtain ⟨v, vs, hv⟩ := wordStrs_ne ((c :: s).takeWhile alphanumeric)
        rw [hv] at hforms
        simp only [hv, placesOf]
        rw [hforms]
        generalize (c :: s).takeWhile alphanumeric = w at *
        generalize (c :: s).dropWhile alphanumeric = r at *
        have hd : (c :: s).drop w.length = r := by rw [← es, List.drop_left]
        rw [hd]
        conv => arg 3; rw [← es]
        refine CutBytes.word hne (by rw [← alphanumeric_eq]; exact hall) (fun x hx => ?_) (ih _ _ ?_)
        · rw [Option.mem_def.mp hx] at hh
          rw [← alphanumeric_eq]
          simpa using hh
        · rw [← hd]; exact hdrop _ (by cases w with | nil => exact absurd rfl hne | cons => simp)
      · have hl : letterOrDigit c = false := by rw [← alphanumeric_eq]; simpa using hc
        have none_gap : asciiItem xml (c :: s) = (1, []) →
            (xml = true → (¬∃ t short rest, c :: s = t ++ rest ∧ IsTag t short) ∧ ¬∃ t rest, c :: s = t ++ rest ∧ IsEntity t) →
            CutBytes xml o (c :: s) (placesOf (asciiItem xml (c :: s) ::
              (asciiScan xml).items ((c :: s).drop (asciiItem xml (c :: s)).1).length ((c :: s).drop (asciiItem xml (c :: s)).1)) o) := by
          intro e hx
          rw [e]
          simp only [placesOf, List.drop_succ_cons, List.drop_zero]
          exact CutBytes.gap hl hx (ih s _ hlen1)
        by_cases h1 : (xml && c == 0x3C) = true
        · obtain ⟨hx, hc'⟩ := Bool.and_eq_true_iff.1 h1
          have hc'' := eq_of_beq hc'
          subst hc''
          subst hx
          have noent : ¬∃ t rest, 0x3C :: s = t ++ rest ∧ IsEntity t := by
            rintro ⟨t, rest, e, ht⟩
            obtain ⟨s', rfl⟩ := entity_head ht
            have := (List.cons.inj e).1
            revert this; decide
          cases ht : tagEnd (0x3C :: s) with
          | none =>
            refine none_gap ?_ fun _ => ⟨?_, noent⟩
            · unfold asciiItem; rw [List.headD_cons, if_neg hc, if_pos h1, ht]
            · rintro ⟨t, short, rest, e, h⟩
              obtain ⟨q, r, hq, -⟩ := tagEnd_tag (rest := rest) h
              rw [← e, ht] at hq; cases hq
          | some qr =>
            obtain ⟨q, r⟩ := qr
            have e : asciiItem true (0x3C :: s) = (r + 1, [(0x3C :: s).take q ++ [0x3E]]) := by
              unfold asciiItem; rw [List.headD_cons, if_neg hc, if_pos h1, ht]
            have hlt : r + 1 ≤ (0x3C :: s).length := tagEnd_lt ht
            have hT := tag_tagEnd ht
            rw [e]
            simp only [placesOf]
            have hlen : ((0x3C :: s).take (r + 1)).length = r + 1 := by rw [List.length_take]; omega
            have es := List.take_append_drop (r + 1) (0x3C :: s)
            have hn := hdrop (r + 1) (by omega)
            have hc2 := CutBytes.tag (o := o) (rest := (0x3C :: s).drop (r + 1)) rfl hT
              (ih ((0x3C :: s).drop (r + 1)) (o + ((0x3C :: s).take (r + 1)).length) hn)
            rw [es, hlen] at hc2
            exact hc2
        · by_cases h2 : (xml && c == 0x26) = true
          · obtain ⟨hx, hc'⟩ := Bool.and_eq_true_iff.1 h2
            have hc'' := eq_of_beq hc'
            subst hc''
            subst hx
            have notag : ¬∃ t short rest, 0x26 :: s = t ++ rest ∧ IsTag t short := by
              rintro ⟨t, short, rest, e, ht⟩
              obtain ⟨s', rfl⟩ := tag_head ht
              have := (List.cons.inj e).1
              revert this; decide
            cases ht : entityEnd (0x26 :: s) with
            | none =>
              refine none_gap ?_ fun _ => ⟨notag, ?_⟩
              · unfold asciiItem; rw [List.headD_cons, if_neg hc, if_neg h1, if_pos h2, ht]
              · rintro ⟨t, rest, e, h⟩
                obtain ⟨q, hq, -⟩ := entityEnd_entity (rest := rest) h
                rw [← e, ht] at hq; cases hq
            | some q =>
              have e : asciiItem true (0x26 :: s) = (q + 1, []) := by
                unfold asciiItem; rw [List.headD_cons, if_neg hc, if_neg h1, if_pos h2, ht]
              have hlt : q + 1 ≤ (0x26 :: s).length := entityEnd_lt ht
              have hT := entity_entityEnd ht
              rw [e]
              simp only [placesOf]
              have hlen : ((0x26 :: s).take (q + 1)).length = q + 1 := by rw [List.length_take]; omega
              have es := List.take_append_drop (q + 1) (0x26 :: s)
              have hn := hdrop (q + 1) (by omega)
              have hc2 := CutBytes.entity (o := o) (rest := (0x26 :: s).drop (q + 1)) rfl hT
                (ih ((0x26 :: s).drop (q + 1)) (o + ((0x26 :: s).take (q + 1)).length) hn)
              rw [es, hlen] at hc2
              exact hc2
          · refine none_gap ?_ fun hx => ?_
            · unfold asciiItem; rw [List.headD_cons, if_neg hc, if_neg h1, if_neg h2]
            · subst hx
              simp only [Bool.true_and, beq_iff_eq] at h1 h2
              constructor
              · rintro ⟨t, short, rest, e, ht⟩
                obtain ⟨s', rfl⟩ := tag_head ht
                exact h1 (List.cons.inj e).1
              · rintro ⟨t, rest, e, ht⟩
                obtain ⟨s', rfl⟩ := entity_head ht
                exact h2 (List.cons.inj e).1

/-! ### the places are determined -/

theorem tag_unique {t t' short short' r r' : Text} (h : IsTag t short) (h' : IsTag t' short') (e : t ++ r = t' ++ r') :
    t = t' ∧ short = short' ∧ r = r' := by
  obtain ⟨q, p, h1, h2, h3, h4⟩ := tagEnd_tag (rest := r) h
  obtain ⟨q', p', h1', h2', h3', h4'⟩ := tagEnd_tag (rest := r') h'
  rw [← e, h1] at h1'
  obtain ⟨rfl, rfl⟩ := Prod.mk.inj (Option.some.inj h1')
  rw [← e, h2] at h2'
  rw [← e, h3] at h3'
  subst h2'
  exact ⟨rfl, h3', List.append_cancel_left e⟩

theorem entity_unique {t t' r r' : Text} (h : IsEntity t) (h' : IsEntity t') (e : t ++ r = t' ++ r') : t = t' ∧ r = r' := by
  obtain ⟨q, h1, h2⟩ := entityEnd_entity (rest := r) h
  obtain ⟨q', h1', h2'⟩ := entityEnd_entity (rest := r') h'
  rw [← e, h1] at h1'
  have := Option.some.inj h1'
  exact List.append_inj e (by omega)

theorem word_head {w : Text} (hne : w ≠ []) (hw : ∀ c ∈ w, letterOrDigit c = true) : ∃ c s, w = c :: s ∧ letterOrDigit c = true := by
  cases w with
  | nil => exact absurd rfl hne
  | cons c s => exact ⟨c, s, rfl, hw c (by simp)⟩

theorem tag_not_word {t short w r r' : Text} (h : IsTag t short) (hne : w ≠ []) (hw : ∀ c ∈ w, letterOrDigit c = true)
    (e : t ++ r = w ++ r') : False := by
  obtain ⟨s, rfl⟩ := tag_head h
  obtain ⟨c, s', rfl, hc⟩ := word_head hne hw
  rw [← (List.cons.inj e).1] at hc
  exact absurd hc (by decide +kernel)

theorem entity_not_word {t w r r' : Text} (h : IsEntity t) (hne : w ≠ []) (hw : ∀ c ∈ w, letterOrDigit c = true)
    (e : t ++ r = w ++ r') : False := by
  obtain ⟨s, rfl⟩ := entity_head h
  obtain ⟨c, s', rfl, hc⟩ := word_head hne hw
  rw [← (List.cons.inj e).1] at hc
  exact absurd hc (by decide +kernel)

theorem tag_not_entity {t short u r r' : Text} (h : IsTag t short) (h' : IsEntity u) (e : t ++ r = u ++ r') : False := by
  obtain ⟨s, rfl⟩ := tag_head h
  obtain ⟨s', rfl⟩ := entity_head h'
  have := (List.cons.inj e).1
  revert this; decide

/-- how the cut of a text can begin -/
theorem cutBytes_inv {xml : Bool} {o : Nat} {x : Text} {ps : List WordPlace} (h : CutBytes xml o x ps) :
    (x = [] ∧ ps = []) ∨
    (∃ c s, x = c :: s ∧ letterOrDigit c = false ∧
      (xml = true → (¬∃ t short rest, c :: s = t ++ rest ∧ IsTag t short) ∧ ¬∃ t rest, c :: s = t ++ rest ∧ IsEntity t) ∧
      CutBytes xml (o + 1) s ps) ∨
    (∃ w rest qs, x = w ++ rest ∧ w ≠ [] ∧ (∀ c ∈ w, letterOrDigit c = true) ∧ (∀ c ∈ rest.head?, letterOrDigit c = false) ∧
      CutBytes xml (o + w.length) rest qs ∧ ps = ⟨o, w.length, wordForms w⟩ :: qs) ∨
    (∃ t short rest qs, x = t ++ rest ∧ xml = true ∧ IsTag t short ∧ CutBytes xml (o + t.length) rest qs ∧ ps = ⟨o, t.length, [short]⟩ :: qs) ∨
    (∃ t rest, x = t ++ rest ∧ xml = true ∧ IsEntity t ∧ CutBytes xml (o + t.length) rest ps) := by
  cases h with
  | nil => exact Or.inl ⟨rfl, rfl⟩
  | gap h1 h2 h3 => exact Or.inr (Or.inl ⟨_, _, rfl, h1, h2, h3⟩)
  | word h1 h2 h3 h4 => exact Or.inr (Or.inr (Or.inl ⟨_, _, _, rfl, h1, h2, h3, h4, rfl⟩))
  | tag h1 h2 h3 => exact Or.inr (Or.inr (Or.inr (Or.inl ⟨_, _, _, _, rfl, h1, h2, h3, rfl⟩)))
  | entity h1 h2 h3 => exact Or.inr (Or.inr (Or.inr (Or.inr ⟨_, _, rfl, h1, h2, h3⟩)))

theorem cutBytes_unique {xml : Bool} {o : Nat} {s : Text} {ps qs : List WordPlace} (h1 : CutBytes xml o s ps) (h2 : CutBytes xml o s qs) :
    ps = qs := by
  induction h1 generalizing qs with
  | nil =>
    rcases cutBytes_inv h2 with ⟨-, e⟩ | ⟨c, s, e, -⟩ | ⟨w, r, us, e, hne, -⟩ | ⟨t, short, r, us, e, -, ht, -⟩ | ⟨t, r, e, -, ht, -⟩
    · exact e.symm
    · cases e
    · exact absurd (List.append_eq_nil_iff.1 e.symm).1 hne
    · obtain ⟨_, rfl⟩ := tag_head ht; cases e
    · obtain ⟨_, rfl⟩ := entity_head ht; cases e
  | gap hc hx _ ih =>
    rcases cutBytes_inv h2 with ⟨e, -⟩ | ⟨c, s, e, -, -, h⟩ | ⟨w, r, us, e, hne, hw, -⟩ | ⟨t, short, r, us, e, hx', ht, -⟩ | ⟨t, r, e, hx', ht, -⟩
    · cases e
    · obtain ⟨rfl, rfl⟩ := List.cons.inj e
      exact ih h
    · obtain ⟨d, s', rfl, hd⟩ := word_head hne hw
      rw [← (List.cons.inj e).1, hc] at hd; cases hd
    · exact absurd ⟨t, short, r, e, ht⟩ (hx hx').1
    · exact absurd ⟨t, r, e, ht⟩ (hx hx').2
  | @word o w rest ps hne hw hr _ ih =>
    rcases cutBytes_inv h2 with ⟨e, -⟩ | ⟨c, s, e, hc, -⟩ | ⟨w', r, us, e, hne', hw', hr', h, rfl⟩ | ⟨t, short, r, us, e, hx', ht, -⟩ | ⟨t, r, e, hx', ht, -⟩
    · exact absurd (List.append_eq_nil_iff.1 e).1 hne
    · obtain ⟨d, s', rfl, hd⟩ := word_head hne hw
      rw [(List.cons.inj e).1, hc] at hd; cases hd
    · obtain ⟨rfl, rfl⟩ := run_unique e hw hw' hr hr'
      rw [ih h]
    · exact (tag_not_word ht hne hw e.symm).elim
    · exact (entity_not_word ht hne hw e.symm).elim
  | @tag o t short rest ps hx ht _ ih =>
    rcases cutBytes_inv h2 with ⟨e, -⟩ | ⟨c, s, e, -, hn, -⟩ | ⟨w', r, us, e, hne', hw', hr', h, rfl⟩ | ⟨t', short', r, us, e, hx', ht', h, rfl⟩ | ⟨t', r, e, hx', ht', -⟩
    · obtain ⟨_, rfl⟩ := tag_head ht; cases e
    · exact absurd ⟨t, short, rest, e.symm, ht⟩ (hn hx).1
    · exact (tag_not_word ht hne' hw' e).elim
    · obtain ⟨rfl, rfl, rfl⟩ := tag_unique ht ht' e
      rw [ih h]
    · exact (tag_not_entity ht ht' e).elim
  | @entity o t rest ps hx ht _ ih =>
    rcases cutBytes_inv h2 with ⟨e, -⟩ | ⟨c, s, e, -, hn, -⟩ | ⟨w', r, us, e, hne', hw', hr', h, rfl⟩ | ⟨t', short', r, us, e, hx', ht', h, rfl⟩ | ⟨t', r, e, hx', ht', h⟩
    · obtain ⟨_, rfl⟩ := entity_head ht; cases e
    · exact absurd ⟨t, rest, e.symm, ht⟩ (hn hx).2
    · exact (entity_not_word ht hne' hw' e).elim
    · exact (tag_not_entity ht' ht e.symm).elim
    · obtain ⟨rfl, rfl⟩ := entity_unique ht ht' e
      exact ih h

/-! ### the UTF-8 tokenizer -/

variable (act : Nat → Action)

theorem utf8_places (n : Nat) : ∀ (cps : List Nat) (o : Nat), cps.length ≤ n → (∀ c ∈ cps, c < 0x200000) →
    CutPlaces act o cps (placesOf (itemsOf act (textOf cps)) o) := by
  induction n with
  | zero =>
    intro cps o h _
    have : cps = [] := List.length_eq_zero_iff.mp (by omega)
    subst this
    exact CutPlaces.nil
  | succ n ih =>
    intro cps o h hlt
    cases cps with
    | nil => exact CutPlaces.nil
    | cons c cps =>
      have hd := decode_encode (hlt c (List.mem_cons_self ..)) (textOf cps)
      obtain ⟨d, ds, he⟩ := encode_ne c
      have hl : cps.length ≤ n := by simpa using h
      have hlt' : ∀ x ∈ cps, x < 0x200000 := fun x hx => hlt x (List.mem_cons_of_mem _ hx)
      have ht := textOf_cons c cps
      rw [he, List.cons_append] at ht hd
      have e1 : (d :: (ds ++ textOf cps)).drop (d :: ds).length = textOf cps := by
        rw [← List.cons_append, List.drop_left]
      have e2 : (d :: (ds ++ textOf cps)).take (d :: ds).length = d :: ds := by
        rw [← List.cons_append, List.take_left]
      have hrun : inWord act c = true → CutPlaces act o (c :: cps) (placesOf (itemsOf act (textOf (c :: cps))) o) := by
        intro hw
        have hr := runOf_text act (c :: cps) hlt
        have hi : itemsOf act (textOf (c :: cps)) =
            ((runOf act (textOf (c :: cps))).1, [(runOf act (textOf (c :: cps))).2]) ::
              itemsOf act ((textOf (c :: cps)).drop (runOf act (textOf (c :: cps))).1) := by
          rw [ht]
          apply itemsOf_run
          rw [hd]
          unfold inWord at hw
          cases ha : act c with
          | tok => right; rfl
          | fold b => left; exact ⟨b, rfl⟩
          | non => simp [ha] at hw
          | uni => simp [ha] at hw
        have hsplit : textOf (c :: cps) = textOf ((c :: cps).takeWhile (inWord act)) ++
            textOf ((c :: cps).dropWhile (inWord act)) := by
          unfold textOf
          rw [← List.flatMap_append, List.takeWhile_append_dropWhile]
        have hdrop : (textOf (c :: cps)).drop (runOf act (textOf (c :: cps))).1 =
            textOf ((c :: cps).dropWhile (inWord act)) := by
          rw [hr, hsplit]
          simp
        rw [hdrop, hr] at hi
        have hlen : ((c :: cps).dropWhile (inWord act)).length ≤ n := by
          rw [List.dropWhile_cons, if_pos hw]
          exact Nat.le_trans (List.dropWhile_sublist _).length_le hl
        rw [hi]
        simp only [placesOf]
        have := CutPlaces.word (act := act) (o := o) (w := (c :: cps).takeWhile (inWord act)) (by simp [hw])
          (fun x hx => mem_takeWhile hx)
          (rest := (c :: cps).dropWhile (inWord act))
          (fun x hx => by
            have := List.head?_dropWhile_not (inWord act) (c :: cps)
            rw [Option.mem_def.mp hx] at this
            simpa using this)
          (ih _ _ hlen (fun x hx => hlt x ((List.dropWhile_sublist _).subset hx)))
        rw [List.takeWhile_append_dropWhile] at this
        exact this
      cases ha : act c with
      | non =>
        have hi := itemsOf_non (c := d) (cs := ds ++ textOf cps) act (by rw [hd]; exact ha)
        rw [hd] at hi
        simp only [e1] at hi
        rw [ht, hi]
        simp only [placesOf]
        rw [← he]
        exact CutPlaces.gap ha (ih cps _ hl hlt')
      | uni =>
        have hi := itemsOf_uni (c := d) (cs := ds ++ textOf cps) act (by rw [hd]; exact ha)
        rw [hd] at hi
        simp only [e1, e2] at hi
        rw [ht, hi]
        simp only [placesOf]
        rw [← he]
        exact CutPlaces.alone ha (ih cps _ hl hlt')
      | tok => exact hrun (by unfold inWord; rw [ha])
      | fold b => exact hrun (by unfold inWord; rw [ha])

/-- the places of terms are the places of the terms that `Cut` says -/
theorem places_cut {o : Nat} {cps : List Nat} {ps : List WordPlace} (h : CutPlaces act o cps ps) : ∃ ts, Cut act cps ts ∧ ps.map (·.strs) = ts.map fun t => [t] := by
  induction h with
  | nil => exact ⟨[], Cut.nil, rfl⟩
  | gap ha _ ih => obtain ⟨ts, h1, h2⟩ := ih; exact ⟨ts, Cut.gap ha h1, h2⟩
  | alone ha _ ih => obtain ⟨ts, h1, h2⟩ := ih; exact ⟨_, Cut.alone ha h1, by simp [h2]⟩
  | word h1 h2 h3 _ ih => obtain ⟨ts, h4, h5⟩ := ih; exact ⟨_, Cut.word h1 h2 h3 h4, by simp [h5]⟩

end Verif.Text
