import Verif.Pipe.Model
/-
  Proofs about pipelines.
-/
namespace Verif.Pipe
open Verif.Rank

/-! ### reading -/

theorem isSpace_iff (c : Char) : isSpace c = true ↔ Blank c := by
  have e : ∀ d : Char, c = d ↔ c.toNat = d.toNat := fun d =>
    ⟨fun h => h ▸ rfl, fun h => Char.ext (UInt32.toNat_inj.1 h)⟩
  have h1 := e ' '
  have h2 := e '\t'
  have h3 := e '\n'
  have h4 := e '\x0b'
  have h5 := e '\x0c'
  have h6 := e '\r'
  simp only [Blank, List.mem_cons, List.not_mem_nil, or_false, h1, h2, h3, h4, h5, h6]
  simp only [isSpace, Bool.or_eq_true, beq_iff_eq, Bool.and_eq_true, decide_eq_true_eq]
  simp only [show ' '.toNat = 32 from rfl, show '\t'.toNat = 9 from rfl, show '\n'.toNat = 10 from rfl,
    show '\x0b'.toNat = 11 from rfl, show '\x0c'.toNat = 12 from rfl, show '\r'.toNat = 13 from rfl]
  omega

theorem cut_blanks {g : List Char} (h : ∀ c ∈ g, Blank c) (t : List Char) : cut none (g ++ t) = cut none t := by
  induction g with
  | nil => rfl
  | cons c g ih =>
    have hc := (isSpace_iff c).2 (h c (.head _))
    simp only [List.cons_append, cut, hc, if_true]
    exact ih (fun d hd => h d (.tail _ hd))

theorem cut_word {w : Word} (h : ∀ c ∈ w, ¬ Blank c) (u : Word) (t : List Char) : cut (some u) (w ++ t) = cut (some (u ++ w)) t := by
  induction w generalizing u with
  | nil => simp
  | cons c w ih =>
    have hc : isSpace c = false := by
      have := h c (.head _)
      rw [← isSpace_iff] at this
      simpa using this
    simp only [List.cons_append, cut, hc, Bool.false_eq_true, if_false]
    rw [ih (fun d hd => h d (.tail _ hd))]
    simp

theorem written_start {ws : List Word} {t : List Char} (h : Written ws t) : ∃ c s, t = c :: s ∧ ¬ Blank c := by
  have : ∃ w r, IsWord w ∧ t = w ++ r := by
    cases h with
    | last h1 _ => exact ⟨_, _, h1, rfl⟩
    | more h1 _ _ _ => exact ⟨_, _, h1, List.append_assoc ..⟩
  obtain ⟨w, r, h1, rfl⟩ := this
  cases w with
  | nil => exact absurd rfl h1.some
  | cons c w => exact ⟨c, w ++ r, rfl, h1.solid c (.head _)⟩

theorem cut_start {c : Char} (s : List Char) (h : ¬ Blank c) : cut none (c :: s) = cut (some []) (c :: s) := by
  have hc : isSpace c = false := by
    rw [← isSpace_iff] at h
    simpa using h
  simp [cut, hc]

theorem cut_of_written {ws : List Word} {t : List Char} (h : Written ws t) : cutStages t = ws := by
  unfold cutStages
  induction h with
  | @last w g h1 h2 =>
    rw [cut_word h1.solid]
    cases g with
    | nil => simp [cut]
    | cons c g =>
      have hc := (isSpace_iff c).2 (h2 c (.head _))
      simp only [cut, hc, if_true, List.nil_append]
      have := cut_blanks (fun d hd => h2 d (.tail _ hd)) []
      rw [List.append_nil] at this
      rw [this]; rfl
  | @more w g ws t h1 h2 h3 h4 ih =>
    rw [List.append_assoc, cut_word h1.solid]
    obtain ⟨c, g, rfl⟩ := List.exists_cons_of_ne_nil h2
    have hc := (isSpace_iff c).2 (h3 c (.head _))
    simp only [List.cons_append, cut, hc, if_true, List.nil_append]
    rw [cut_blanks (fun d hd => h3 d (.tail _ hd))]
    obtain ⟨d, s, rfl, hd⟩ := written_start h4
    rw [cut_start s hd, ih]

/-- what is after a word that has been begun -/
theorem written_of_cut {w : Word} {t : List Char} (h1 : IsWord w) : Written (cut (some w) t) (w ++ t) := by
  suffices ∀ n, ∀ w t, t.length ≤ n → IsWord w → Written (cut (some w) t) (w ++ t) from this _ _ _ (Nat.le_refl _) h1
  intro n
  induction n with
  | zero =>
    intro w t ht h1
    cases t with
    | nil => exact .last h1 (by simp)
    | cons => simp at ht
  | succ n ih =>
    intro w t ht h1
    cases t with
    | nil => exact .last h1 (by simp)
    | cons c t =>
      simp only [List.length_cons] at ht
      by_cases hc : isSpace c = true
      · simp only [cut, hc, if_true]
        have hb := (isSpace_iff c).1 hc
        -- the blanks
        suffices ∀ g : List Char, g ≠ [] → (∀ d ∈ g, Blank d) → ∀ t : List Char, t.length ≤ n →
            Written (w :: cut none t) (w ++ g ++ t) by
          have := this [c] (by simp) (by simpa using hb) t (by omega)
          simpa using this
        intro g hg hbs s
        induction s generalizing g with
        | nil =>
          intro _
          simp only [cut, List.append_nil]
          exact .last h1 hbs
        | cons d s ihs =>
          intro hs
          simp only [List.length_cons] at hs
          by_cases hd : isSpace d = true
          · simp only [cut, hd, if_true]
            have := ihs (g ++ [d]) (by simp) (by
              intro e he
              rcases List.mem_append.1 he with he | he
              · exact hbs e he
              · rw [List.mem_singleton.1 he]; exact (isSpace_iff d).1 hd) (by omega)
            simpa using this
          · simp only [cut, hd, if_false]
            have hw : IsWord [d] := ⟨by simp, by
              intro e he
              rw [List.mem_singleton.1 he]
              exact fun h => hd ((isSpace_iff d).2 h)⟩
            exact .more h1 hg hbs (ih [d] s (by omega) hw)
      · simp only [cut, hc, if_false]
        have := ih (w ++ [c]) t (by omega) ⟨by simp, by
          intro e he
          rcases List.mem_append.1 he with he | he
          · exact h1.solid e he
          · rw [List.mem_singleton.1 he]; exact fun h => hc ((isSpace_iff c).2 h)⟩
        simpa using this

/-- either the text begins without a word, and then the first stage is empty, or it is written in words -/
theorem cut_cases (t : List Char) :
    ((t = [] ∨ ∃ c s, t = c :: s ∧ Blank c) ∧ ∃ r, cutStages t = [] :: r) ∨ Written (cutStages t) t := by
  cases t with
  | nil => exact .inl ⟨.inl rfl, [], rfl⟩
  | cons c t =>
    by_cases hc : isSpace c = true
    · exact .inl ⟨.inr ⟨c, t, rfl, (isSpace_iff c).1 hc⟩, cut none t, by simp [cutStages, cut, hc]⟩
    · right
      have : cutStages (c :: t) = cut (some [c]) t := by simp [cutStages, cut, hc]
      rw [this]
      exact written_of_cut ⟨by simp, by
        intro e he
        rw [List.mem_singleton.1 he]
        exact fun h => hc ((isSpace_iff c).2 h)⟩

theorem halves_first {c : Char} {a : Word} (b : Word) (h : c ∉ a) : halves c (a ++ c :: b) = (a, b) := by
  have h1 : ∀ x ∈ a, (x != c) = true := by
    intro x hx
    simp only [bne_iff_ne]
    exact fun e => h (e ▸ hx)
  unfold halves
  rw [List.takeWhile_append_of_pos h1, List.dropWhile_append_of_pos h1]
  simp

theorem halves_split {c : Char} {s : Word} (h : c ∈ s) : s = (halves c s).1 ++ c :: (halves c s).2 ∧ c ∉ (halves c s).1 := by
  induction s with
  | nil => cases h
  | cons d s ih =>
    by_cases hd : d = c
    · subst hd
      simp [halves]
    · have h2 : c ∈ s := by
        rcases List.mem_cons.1 h with e | e
        · exact absurd e.symm hd
        · exact e
      have hb : (d != c) = true := by simpa using hd
      have e1 : halves c (d :: s) = (d :: (halves c s).1, (halves c s).2) := by simp [halves, hb]
      obtain ⟨i1, i2⟩ := ih h2
      rw [e1]
      refine ⟨by simpa using i1, ?_⟩
      simp only [List.mem_cons, not_or]
      exact ⟨fun e => hd e.symm, i2⟩

/-- the names of the parameters of a ranker have a `:`, so none is the depth -/
theorem names_apart {ranker : Word} {names : Params} (h : rankerDefaults ranker = some names) : '=' ∉ ranker ∧
    ∀ x ∈ names, x.1 ≠ depthName := by
  unfold rankerDefaults at h
  repeat' split at h
  all_goals first
    | (rename_i e; subst e; cases h; exact ⟨by decide, by simp [depthName]⟩)
    | cases h

theorem drawn_with_depth {names : Params} (f : Word → Rat) (h : ∀ x ∈ names, x.1 ≠ depthName) :
    withDepth (names.map fun n => (n.1, f n.1)) = (depthName, 1000) :: names.map fun n => (n.1, f n.1) := by
  unfold withDepth
  rw [List.filter_eq_self.2]
  intro x hx
  obtain ⟨n, hn, rfl⟩ := List.mem_map.1 hx
  simpa using h n hn

theorem fromName_says {stof : Word → Option Rat} {drawn : Word → Rat} {w : Word} {s : Stage} :
    fromName stof drawn w = some s ↔ Says stof drawn w s := by
  constructor
  · intro h
    unfold fromName at h
    split at h
    · rename_i h1
      have h1 : '=' ∈ w := by simpa using h1
      unfold fromAssignment at h
      simp only [] at h
      split at h
      · cases h
      · rename_i h2
        simp only [not_or] at h2
        obtain ⟨x, hx, rfl⟩ := Option.map_eq_some_iff.1 h
        obtain ⟨e1, e2⟩ := halves_split h1
        have := Says.set (drawn := drawn) h2.1 e2 h2.2 hx
        rw [← e1] at this
        exact this
    · rename_i h0
      split at h
      · rename_i h1
        have h1 : ':' ∈ w := by simpa using h1
        unfold fromCall at h
        simp only [] at h
        split at h
        · rename_i h2
          obtain ⟨ps, hps, rfl⟩ := Option.map_eq_some_iff.1 h
          unfold randomParams at hps
          obtain ⟨names, hn, rfl⟩ := Option.map_eq_some_iff.1 hps
          obtain ⟨e1, e2⟩ := halves_split h1
          obtain ⟨a1, a2⟩ := names_apart hn
          rw [drawn_with_depth drawn a2]
          have := Says.random (stof := stof) (drawn := drawn) a1 hn
          rw [h2] at e1
          rw [e1]
          exact this
        · cases h
      · repeat' split at h
        all_goals first
          | (rename_i e; subst e; cases h; constructor)
          | cases h
  · intro h
    cases h with
    | @set name value x h1 h2 h3 h4 =>
      unfold fromName
      rw [if_pos (by simp)]
      unfold fromAssignment
      rw [halves_first value h2]
      simp [h1, h3, h4]
    | @random ranker names h1 h2 =>
      have a : '=' ∉ ['r', 'a', 'n', 'd', 'o', 'm', ':'] ++ ranker := by
        simp only [List.mem_append, not_or]
        exact ⟨by decide, h1⟩
      unfold fromName
      rw [if_neg (by simpa using a), if_pos (by simp)]
      unfold fromCall
      have : ['r', 'a', 'n', 'd', 'o', 'm', ':'] ++ ranker = ['r', 'a', 'n', 'd', 'o', 'm'] ++ ':' :: ranker := by simp
      rw [this, halves_first ranker (by decide)]
      simp only [if_true]
      unfold randomParams
      rw [h2]
      simp only [Option.map_some]
      rw [drawn_with_depth drawn (names_apart h2).2]
      rfl
    | bm25 => rfl
    | lmd => rfl
    | kld => rfl
    | rsj => rfl
    | stem => rfl
    | stop => rfl

theorem says_word {stof : Word → Option Rat} {drawn : Word → Rat} {w : Word} {s : Stage} (h : Says stof drawn w s) : w ≠ [] := by
  cases h <;> simp

theorem readStages_ok {stof : Word → Option Rat} {drawn : Nat → Word → Rat} {ws : List Word} {ss : List Stage} :
    readStages stof drawn ws = .ok ss ↔ SayAll stof drawn ws ss := by
  induction ws generalizing drawn ss with
  | nil =>
    simp only [readStages]
    constructor
    · intro h; cases h; exact .nil
    · intro h; cases h; rfl
  | cons w ws ih =>
    simp only [readStages]
    constructor
    · intro h
      cases e : fromName stof (drawn 0) w with
      | none => rw [e] at h; cases h
      | some s =>
        rw [e] at h
        cases e2 : readStages stof (fun i => drawn (i + 1)) ws with
        | error x => simp [e2] at h
        | ok ts =>
          simp only [e2] at h
          cases h
          exact .cons (fromName_says.1 e) (ih.1 e2)
    · intro h
      cases h with
      | cons h1 h2 => rw [fromName_says.2 h1, ih.2 h2]

theorem readStages_error {stof : Word → Option Rat} {drawn : Nat → Word → Rat} {ws : List Word} {w : Word} :
    readStages stof drawn ws = .error w ↔
      ∃ before after ss, ws = before ++ w :: after ∧ SayAll stof drawn before ss ∧ ∀ s, ¬ Says stof (drawn before.length) w s := by
  induction ws generalizing drawn with
  | nil =>
    simp only [readStages]
    constructor
    · intro h; cases h
    · rintro ⟨b, a, ss, e, _⟩
      simp at e
  | cons v ws ih =>
    simp only [readStages]
    cases e : fromName stof (drawn 0) v with
    | none =>
      have none_says : ∀ s, ¬ Says stof (drawn 0) v s := by
        intro s hs
        rw [fromName_says.2 hs] at e
        cases e
      constructor
      · intro h
        cases h
        exact ⟨[], ws, [], rfl, .nil, none_says⟩
      · rintro ⟨b, a, ss, e1, e2, e3⟩
        cases b with
        | nil => simp only [List.nil_append, List.cons.injEq] at e1; rw [e1.1]
        | cons u b =>
          simp only [List.cons_append, List.cons.injEq] at e1
          obtain ⟨rfl, _⟩ := e1
          cases e2 with
          | cons h _ => exact absurd h (none_says _)
    | some s =>
      have hs := fromName_says.1 e
      constructor
      · intro h
        cases e2 : readStages stof (fun i => drawn (i + 1)) ws with
        | ok ts => simp [e2] at h
        | error x =>
          simp only [e2] at h
          cases h
          obtain ⟨b, a, ss, rfl, h2, h3⟩ := ih.1 e2
          exact ⟨v :: b, a, s :: ss, rfl, .cons hs h2, h3⟩
      · rintro ⟨b, a, ss, e1, e2, e3⟩
        cases b with
        | nil =>
          simp only [List.nil_append, List.cons.injEq] at e1
          obtain ⟨rfl, _⟩ := e1
          exact absurd hs (e3 s)
        | cons u b =>
          simp only [List.cons_append, List.cons.injEq] at e1
          obtain ⟨rfl, rfl⟩ := e1
          cases e2 with
          | cons _ h2 =>
            have := ih.2 ⟨b, a, _, rfl, h2, e3⟩
            simp only [this]

/-! ### queries -/

/-- the order of words -/
structure Total (lt : Word → Word → Bool) : Prop where
  trans : ∀ {a b c}, lt a b = true → lt b c = true → lt a c = true
  irrefl : ∀ a, lt a a = false
  total : ∀ {a b}, a ≠ b → lt a b = false → lt b a = true

section
variable {V R : Type} {A : Arith V} {lt : Word → Word → Bool}

abbrev Sorted (lt : Word → Word → Bool) (m : Weights V) : Prop := Ordered (fun a b => lt a b = true) m

theorem addTo_words {w : Word} {v : V} {m : Weights V} : ∀ x ∈ addTo A lt w v m, x.1 = w ∨ ∃ y ∈ m, y.1 = x.1 := by
  induction m with
  | nil => intro x hx; rw [List.mem_singleton.1 hx]; exact .inl rfl
  | cons y m ih =>
    obtain ⟨u, c⟩ := y
    intro x hx
    simp only [addTo] at hx
    repeat' split at hx
    · rcases List.mem_cons.1 hx with rfl | hx
      · exact .inr ⟨_, .head _, rfl⟩
      · exact .inr ⟨x, .tail _ hx, rfl⟩
    · rcases List.mem_cons.1 hx with rfl | hx
      · exact .inl rfl
      · exact .inr ⟨x, hx, rfl⟩
    · rcases List.mem_cons.1 hx with rfl | hx
      · exact .inr ⟨_, .head _, rfl⟩
      · rcases ih x hx with h | ⟨y, hy, e⟩
        · exact .inl h
        · exact .inr ⟨y, .tail _ hy, e⟩

theorem addTo_sorted (ht : Total lt) {w : Word} {v : V} {m : Weights V} (h : Sorted lt m) : Sorted lt (addTo A lt w v m) := by
  induction m with
  | nil => exact List.pairwise_singleton ..
  | cons y m ih =>
    obtain ⟨u, c⟩ := y
    obtain ⟨h1, h2⟩ := List.pairwise_cons.1 h
    simp only [addTo]
    split
    · exact List.pairwise_cons.2 ⟨h1, h2⟩
    · rename_i hne
      split
      · rename_i hl
        refine List.pairwise_cons.2 ⟨?_, h⟩
        intro x hx
        rcases List.mem_cons.1 hx with rfl | hx
        · exact hl
        · exact ht.trans hl (h1 x hx)
      · rename_i hl
        refine List.pairwise_cons.2 ⟨?_, ih h2⟩
        intro x hx
        rcases addTo_words x hx with e | ⟨y, hy, e⟩
        · show lt u x.1 = true
          rw [e]
          exact ht.total hne (by simpa using hl)
        · show lt u x.1 = true
          rw [← e]
          exact h1 y hy

theorem weightOf_none {m : Weights V} {w : Word} (h : ∀ x ∈ m, x.1 ≠ w) : weightOf m w = none := by
  unfold weightOf
  rw [List.find?_eq_none.2 (by simpa using h)]
  rfl

theorem weightOf_addTo (ht : Total lt) {w : Word} {v : V} {m : Weights V} (h : Sorted lt m) (x : Word) :
    weightOf (addTo A lt w v m) x = if x = w then some (match weightOf m w with | none => v | some u => A.add u v) else weightOf m x := by
  induction m with
  | nil =>
    by_cases e : x = w
    · subst e; simp [addTo, weightOf]
    · simp [addTo, weightOf, e, Ne.symm e]
  | cons y m ih =>
    obtain ⟨u, c⟩ := y
    obtain ⟨h1, h2⟩ := List.pairwise_cons.1 h
    have ih := ih h2
    simp only [addTo]
    split
    · rename_i e
      subst e
      by_cases e : x = w
      · subst e; simp [weightOf]
      · simp [weightOf, e, Ne.symm e]
    · rename_i hne
      split
      · rename_i hl
        have hno : weightOf ((u, c) :: m) w = none := weightOf_none (by
          intro z hz e
          rcases List.mem_cons.1 hz with rfl | hz
          · exact hne e.symm
          · have := ht.trans hl (h1 z hz)
            rw [e, ht.irrefl] at this
            cases this)
        by_cases e : x = w
        · subst e
          rw [hno]
          simp [weightOf]
        · rw [if_neg e]
          simp [weightOf, Ne.symm e]
      · have step : ∀ n : Weights V, ∀ z, weightOf ((u, c) :: n) z = if u = z then some c else weightOf n z := by
          intro n z
          by_cases e : u = z
          · simp [weightOf, e]
          · simp [weightOf, e]
        rw [step, step, step, ih]
        by_cases e : u = x
        · subst e
          rw [if_pos rfl, if_neg (Ne.symm hne), if_pos rfl]
        · rw [if_neg e, if_neg e]
          simp only [if_neg (Ne.symm hne)]

/-- weights added one after another -/
theorem gather_ok (ht : Total lt) {α : Type} (f : α → Word) (g : α → V) (l : List α) {m : Weights V} (h : Sorted lt m) :
    Sorted lt (l.foldl (fun m x => addTo A lt (f x) (g x) m) m) ∧
    ∀ w, weightOf (l.foldl (fun m x => addTo A lt (f x) (g x) m) m) w =
      sum A.add ((weightOf m w).toList ++ (l.filter fun x => f x = w).map g) := by
  induction l generalizing m with
  | nil =>
    refine ⟨h, fun w => ?_⟩
    simp only [List.foldl_nil, List.filter_nil, List.map_nil, List.append_nil]
    cases weightOf m w <;> rfl
  | cons x l ih =>
    obtain ⟨i1, i2⟩ := ih (addTo_sorted (A := A) (w := f x) (v := g x) ht h)
    refine ⟨i1, fun w => ?_⟩
    simp only [List.foldl_cons]
    rw [i2, weightOf_addTo ht h]
    by_cases e : w = f x
    · subst e
      cases e2 : weightOf m (f x) <;> simp [sum]
    · rw [if_neg e, List.filter_cons_of_neg (by simpa using Ne.symm e)]

theorem sorted_nil : Sorted lt ([] : Weights V) := List.Pairwise.nil

/-- a list of words in order is determined by the weights -/
theorem sorted_unique (ht : Total lt) : ∀ {m n : Weights V}, Sorted lt m → Sorted lt n → (∀ w, weightOf m w = weightOf n w) → m = n := by
  have cons : ∀ (x : Word × V) (l : Weights V) w, weightOf (x :: l) w = if x.1 = w then some x.2 else weightOf l w := by
    intro x l w
    by_cases e : x.1 = w <;> simp [weightOf, e]
  intro m
  induction m with
  | nil =>
    intro n _ _ h3
    cases n with
    | nil => rfl
    | cons y n =>
      have := h3 y.1
      rw [cons, if_pos rfl] at this
      cases this
  | cons x m ih =>
    intro n h1 h2 h3
    cases n with
    | nil =>
      have := h3 x.1
      rw [cons, if_pos rfl] at this
      cases this
    | cons y n =>
      obtain ⟨a1, a2⟩ := List.pairwise_cons.1 h1
      obtain ⟨b1, b2⟩ := List.pairwise_cons.1 h2
      have below : ∀ {z : Word × V} {l : Weights V} {w}, (∀ t ∈ l, lt z.1 t.1 = true) → lt w z.1 = true → weightOf (z :: l) w = none := by
        intro z l w hl hw
        apply weightOf_none
        intro t ht' e
        rcases List.mem_cons.1 ht' with rfl | ht'
        · rw [e, ht.irrefl] at hw; cases hw
        · have := ht.trans hw (hl t ht')
          rw [e, ht.irrefl] at this; cases this
      have key : x.1 = y.1 := by
        by_cases e : x.1 = y.1
        · exact e
        · exfalso
          cases g : lt x.1 y.1 with
          | true =>
            have := h3 x.1
            rw [below b1 g, cons, if_pos rfl] at this
            cases this
          | false =>
            have := h3 y.1
            rw [below a1 (ht.total e g), cons, if_pos rfl] at this
            cases this
      have val : x.2 = y.2 := by
        have := h3 x.1
        rw [cons, cons, if_pos rfl, if_pos key.symm] at this
        exact Option.some.inj this
      have xy : x = y := Prod.ext key val
      subst xy
      congr 1
      apply ih a2 b2
      intro w
      by_cases e : x.1 = w
      · subst e
        rw [weightOf_none, weightOf_none]
        · intro t ht' e
          have := b1 t ht'
          rw [e, ht.irrefl] at this; cases this
        · intro t ht' e
          have := a1 t ht'
          rw [e, ht.irrefl] at this; cases this
      · have := h3 w
        rw [cons, cons, if_neg e, if_neg e] at this
        exact this

theorem countWords_ok (ht : Total lt) (words : List Word) : Sorted lt (countWords A lt words) ∧
    ∀ w, weightOf (countWords A lt words) w = sum A.add ((words.filter (· = w)).map fun _ => A.one) := by
  have := gather_ok (A := A) ht id (fun _ => A.one) words (sorted_nil (lt := lt))
  exact this

/-- starting from zero does not matter -/
theorem countFromZero_eq (ht : Total lt) (h0 : A.add A.zero A.one = A.one) (words : List Word) : countFromZero A lt words = countWords A lt words := by
  unfold countFromZero countWords
  suffices ∀ m : Weights V, Sorted lt m → words.foldl (fun m w => addTo A lt w A.one (countFromZero.addZero A lt m w)) m =
      words.foldl (fun m w => addTo A lt w A.one m) m from this [] sorted_nil
  induction words with
  | nil => intro m _; rfl
  | cons w words ih =>
    intro m hm
    simp only [List.foldl_cons]
    have : addTo A lt w A.one (countFromZero.addZero A lt m w) = addTo A lt w A.one m := by
      unfold countFromZero.addZero
      split
      · rfl
      · rename_i hno
        have hn : weightOf m w = none := weightOf_none (by
          intro x hx e
          exact hno (List.any_eq_true.2 ⟨x, hx, by simpa using e⟩))
        have hz := addTo_sorted (A := A) (w := w) (v := A.zero) ht hm
        refine sorted_unique ht (addTo_sorted ht hz) (addTo_sorted ht hm) fun x => ?_
        rw [weightOf_addTo ht hz, weightOf_addTo ht hm, weightOf_addTo ht hm, weightOf_addTo ht hm, hn]
        by_cases e : x = w
        · subst e; simp [h0]
        · simp [e]
    rw [this]
    exact ih _ (addTo_sorted ht hm)

/-! ### parameters -/

theorem get_putParam (m : Params) (k : Word) (v : Rat) (n : Word) : (putParam m k v).get n = if n = k then some v else m.get n := by
  unfold putParam Params.get
  by_cases e : n = k
  · subst e; simp
  · rw [if_neg e, List.find?_cons_of_neg (by simpa using Ne.symm e)]
    congr 1
    induction m with
    | nil => rfl
    | cons x m ih =>
      by_cases h : x.1 = k
      · rw [List.filter_cons_of_neg (by simpa using h), ih, List.find?_cons_of_neg]
        simp only [decide_eq_true_eq]
        rw [h]; exact Ne.symm e
      · rw [List.filter_cons_of_pos (by simpa using h)]
        by_cases h2 : x.1 = n
        · rw [List.find?_cons_of_pos (by simpa using h2), List.find?_cons_of_pos (by simpa using h2)]
        · rw [List.find?_cons_of_neg (by simpa using h2), List.find?_cons_of_neg (by simpa using h2), ih]

theorem latest_cons (x : Word × Rat) (l : Params) (n : Word) : latest (x :: l) n = (latest l n).or (if x.1 = n then some x.2 else none) := by
  unfold latest
  by_cases e : x.1 = n
  · rw [List.filter_cons_of_pos (by simpa using e), if_pos e, List.map_cons, List.getLast?_cons]
    cases (List.map (·.2) (List.filter (fun x => decide (x.1 = n)) l)).getLast? <;> rfl
  · rw [List.filter_cons_of_neg (by simpa using e), if_neg e]
    cases (List.map (·.2) (List.filter (fun x => decide (x.1 = n)) l)).getLast? <;> rfl

theorem get_putAll (l : Params) (m : Params) (n : Word) :
    (l.foldl (fun m x => putParam m x.1 x.2) m).get n = (latest l n).or (m.get n) := by
  induction l generalizing m with
  | nil => rfl
  | cons x l ih =>
    simp only [List.foldl_cons]
    rw [ih, get_putParam, latest_cons]
    cases latest l n with
    | some v => rfl
    | none =>
      by_cases e : n = x.1
      · simp [e]
      · simp [e, Ne.symm e]

end

end Verif.Pipe

namespace Verif.Pipe
open Verif.Rank

/-! ### running -/

/-- what a pipeline is run with, when the statistics and the warren split texts in the same way -/
def meansOf {V R : Type} (A : Arith V) (lt : Word → Word → Bool) (T : Tools V R) : Means V R :=
  ⟨A.one, A.add, fun a b => lt a b = true, T.warrenTokenizer, T.stem, T.stopwords, T.rank, T.feedback⟩

section
variable {V R : Type} {A : Arith V} {lt : Word → Word → Bool} {T : Tools V R}

/-- a context, and the query it stands for -/
structure Follows (A : Arith V) (lt : Word → Word → Bool) (T : Tools V R) (c : Context V R) (a : Asking V R) : Prop where
  params : a.params = c.params.get
  ranking : a.ranking = c.ranking
  sorted : Sorted lt a.query
  query : (c.weighted ≠ [] ∧ a.query = c.weighted) ∨ (c.weighted = [] ∧ a.query = countWords A lt (T.warrenTokenizer c.raw))

/-- the statistics have the tokenizer of the warren, which makes no words of nothing -/
structure Sound (A : Arith V) (lt : Word → Word → Bool) (T : Tools V R) : Prop where
  total : Total lt
  zero : A.add A.zero A.one = A.one
  tokenizer : T.tokenizer = some T.warrenTokenizer
  nothing : T.warrenTokenizer [] = []

theorem cook_ok (hs : Sound A lt T) {c : Context V R} {a : Asking V R} (h : Follows A lt T c a) :
    c.cook A lt T = some { c with weighted := a.query } := by
  unfold Context.cook
  obtain ⟨raw, weighted, params, ranking⟩ := c
  rcases h.query with ⟨h1, h2⟩ | ⟨h1, h2⟩
  · rw [if_neg]
    · rw [h2]
    · rintro ⟨h3, _⟩
      exact h1 (List.length_eq_zero_iff.1 h3)
  · simp only at h1 h2
    by_cases e : raw = []
    · rw [if_neg (by simp [e])]
      subst e
      rw [hs.nothing] at h2
      rw [h2, h1]; rfl
    · rw [if_pos ⟨by simp [h1], e⟩, hs.tokenizer]
      simp only [h2]

theorem cook_query {c : Context V R} {a : Asking V R} (h : Follows A lt T c a) (h0 : a.query = []) :
    a.query = countWords A lt (T.warrenTokenizer c.raw) := by
  rcases h.query with ⟨h1, h2⟩ | ⟨_, h2⟩
  · exact absurd (h2.symm.trans h0) h1
  · exact h2

/-- a new query, empty only if the old one was and then nothing can be lost -/
theorem follows_query {c : Context V R} {a : Asking V R} (h : Follows A lt T c a) {m : Weights V} (hm : Sorted lt m)
    (h0 : m = [] → a.query = []) : Follows A lt T { c with weighted := m } { a with query := m } := by
  refine ⟨h.params, h.ranking, hm, ?_⟩
  by_cases e : m = []
  · refine .inr ⟨e, ?_⟩
    have := cook_query h (h0 e)
    rw [h0 e] at this
    show m = countWords A lt (T.warrenTokenizer c.raw)
    rw [e]; exact this
  · exact .inl ⟨e, rfl⟩

theorem addTo_ne (w : Word) (v : V) (m : Weights V) : addTo A lt w v m ≠ [] := by
  cases m with
  | nil => simp [addTo]
  | cons x m =>
    obtain ⟨u, c⟩ := x
    simp only [addTo]
    repeat' split
    all_goals simp

theorem gather_ne {α : Type} (f : α → Word) (g : α → V) (l : List α) {m : Weights V}
    (h : l.foldl (fun m x => addTo A lt (f x) (g x) m) m = []) : m = [] ∧ l = [] := by
  induction l generalizing m with
  | nil => exact ⟨h, rfl⟩
  | cons x l ih => exact absurd (ih h).1 (addTo_ne (f x) (g x) m)

theorem transform_ok (hs : Sound A lt T) {c : Context V R} {a : Asking V R} (h : Follows A lt T c a) (s : Stage) :
    ∃ c' a', transform A lt T c s = some c' ∧ Step (meansOf A lt T) a s a' ∧ Follows A lt T c' a' := by
  cases s with
  | rank r =>
    have e : c.rank A lt T r = some { c with ranking := T.rank r a.query a.params } := by
      unfold Context.rank
      rcases h.query with ⟨h1, h2⟩ | ⟨h1, h2⟩
      · rw [if_pos (List.length_pos_iff.2 h1), h2, h.params]
      · rw [if_neg (by simp [h1])]
        cases r with
        | lmd => simp only [countFromZero_eq hs.total hs.zero, h2, h.params]
        | bm25 => simp only [hs.tokenizer, countFromZero_eq hs.total hs.zero, h2, h.params]
    exact ⟨_, _, e, .rank, h.params, rfl, h.sorted, h.query⟩
  | expand f =>
    by_cases e : c.ranking = []
    · refine ⟨c, a, ?_, .idle (h.ranking.trans e), h⟩
      show c.expand A lt T f = some c
      unfold Context.expand
      rw [if_pos (by simp [e])]
    · have g := gather_ok (A := A) hs.total (fun x : Word × V => x.1) (·.2) (T.feedback f c.ranking c.params.get) h.sorted
      have g0 := gather_ne (A := A) (lt := lt) (fun x : Word × V => x.1) (·.2) (T.feedback f c.ranking c.params.get) (m := a.query)
      have e2 : c.expand A lt T f = some { c with weighted := (T.feedback f c.ranking c.params.get).foldl (fun m x => addTo A lt x.1 x.2 m) a.query } := by
        unfold Context.expand
        rw [if_neg (by simpa using e), cook_ok hs h]
      revert g g0 e2
      generalize (T.feedback f c.ranking c.params.get).foldl (fun m x => addTo A lt x.1 x.2 m) a.query = m
      intro g g0 e2
      refine ⟨_, _, e2, Step.expand (by rw [h.ranking]; exact e) g.1 ?_, follows_query h g.1 fun h0 => (g0 h0).1⟩
      rw [h.ranking, h.params]
      exact g.2
  | stem =>
    have g := gather_ok (A := A) hs.total (fun x : Word × V => T.stem x.1) (·.2) a.query (sorted_nil (lt := lt))
    have g0 := gather_ne (A := A) (lt := lt) (fun x : Word × V => T.stem x.1) (·.2) a.query (m := [])
    have e2 : c.stem A lt T = some { c with weighted := a.query.foldl (fun m x => addTo A lt (T.stem x.1) x.2 m) [] } := by
      unfold Context.stem
      rw [cook_ok hs h]
    revert g g0 e2
    generalize a.query.foldl (fun m x => addTo A lt (T.stem x.1) x.2 m) [] = m
    intro g g0 e2
    exact ⟨_, _, e2, Step.stem g.1 g.2, follows_query h g.1 fun h0 => (g0 h0).2⟩
  | stop =>
    by_cases e : a.query.filter (fun x => !T.stopwords.contains x.1) = []
    · refine ⟨{ c with weighted := a.query }, a, ?_, .leave ?_, ?_⟩
      · show c.stop A lt T = _
        unfold Context.stop
        rw [cook_ok hs h]
        simp only [e]
        rfl
      · intro x hx
        have := List.filter_eq_nil_iff.1 e x hx
        show x.1 ∈ T.stopwords
        simpa using this
      · exact follows_query h h.sorted id
    · have feq : a.query.filter (fun x => !T.stopwords.contains x.1) = a.query.filter fun x => x.1 ∉ (meansOf A lt T).stopwords := by
        apply List.filter_congr
        intro x _
        show (!T.stopwords.contains x.1) = decide (x.1 ∉ T.stopwords)
        by_cases g : x.1 ∈ T.stopwords <;> simp [g]
      obtain ⟨x, hx⟩ := List.exists_mem_of_ne_nil _ e
      obtain ⟨x1, x2⟩ := List.mem_filter.1 hx
      refine ⟨{ c with weighted := a.query.filter (fun x => !T.stopwords.contains x.1) }, _, ?_, Step.stop x1 (show x.1 ∉ T.stopwords by simpa using x2), ?_⟩
      · show c.stop A lt T = _
        unfold Context.stop
        rw [cook_ok hs h]
        simp only []
        rw [if_pos (List.length_pos_iff.2 e)]
      · rw [← feq]
        exact follows_query h (List.Pairwise.sublist List.filter_sublist h.sorted) fun h0 => absurd h0 e
  | set k v =>
    refine ⟨_, _, rfl, .set, ?_, h.ranking, h.sorted, h.query⟩
    funext n
    show _ = (putParam c.params k v).get n
    rw [get_putParam, h.params]
  | setAll ps =>
    refine ⟨_, _, rfl, .setAll, ?_, h.ranking, h.sorted, h.query⟩
    funext n
    show _ = (ps.foldl (fun m x => putParam m x.1 x.2) c.params).get n
    rw [get_putAll, h.params]

theorem runStages_ok (hs : Sound A lt T) (ss : List Stage) {c : Context V R} {a : Asking V R} (h : Follows A lt T c a) :
    ∃ c' a', runStages A lt T c ss = some c' ∧ Steps (meansOf A lt T) a ss a' ∧ Follows A lt T c' a' := by
  induction ss generalizing c a with
  | nil => exact ⟨c, a, rfl, .nil, h⟩
  | cons s ss ih =>
    obtain ⟨c1, a1, h1, h2, h3⟩ := transform_ok hs h s
    obtain ⟨c2, a2, g1, g2, g3⟩ := ih h3
    refine ⟨c2, a2, ?_, .cons h2 g2, g3⟩
    simp only [runStages, h1, g1]

/-- only one thing can become of a query -/
theorem step_unique (ht : Total lt) {a b b' : Asking V R} {s : Stage} (h : Step (meansOf A lt T) a s b) (h' : Step (meansOf A lt T) a s b') : b = b' := by
  cases h with
  | rank => cases h'; rfl
  | idle e =>
    cases h' with
    | idle => rfl
    | expand e' => exact absurd e e'
  | expand e1 e2 e3 =>
    cases h' with
    | idle e' => exact absurd e' e1
    | expand _ g2 g3 => rw [sorted_unique ht e2 g2 fun w => (e3 w).trans (g3 w).symm]
  | stem e2 e3 =>
    cases h' with
    | stem g2 g3 => rw [sorted_unique ht e2 g2 fun w => (e3 w).trans (g3 w).symm]
  | stop e1 e2 =>
    cases h' with
    | stop => rfl
    | leave g => exact absurd (g _ e1) e2
  | leave g =>
    cases h' with
    | stop e1 e2 => exact absurd (g _ e1) e2
    | leave => rfl
  | set => cases h'; rfl
  | setAll => cases h'; rfl

theorem steps_unique (ht : Total lt) {a b b' : Asking V R} {ss : List Stage} (h : Steps (meansOf A lt T) a ss b)
    (h' : Steps (meansOf A lt T) a ss b') : b = b' := by
  induction h with
  | nil => cases h'; rfl
  | cons h1 _ ih =>
    cases h' with
    | cons g1 g2 =>
      have := step_unique ht h1 g1
      subst this
      exact ih g2

theorem start_unique (ht : Total lt) {q : List Char} {a b : Asking V R} (h : Start (meansOf A lt T) q a) (h' : Start (meansOf A lt T) q b) : a = b := by
  obtain ⟨x, y, z⟩ := a
  obtain ⟨x', y', z'⟩ := b
  obtain ⟨h1, h2, h3, h4⟩ := h
  obtain ⟨g1, g2, g3, g4⟩ := h'
  simp only at h1 h2 h3 h4 g1 g2 g3 g4
  subst h3 h4 g3 g4
  rw [sorted_unique ht h1 g1 fun w => (h2 w).trans (g2 w).symm]

/-- a stage that is no ranking leaves the ranking -/
theorem step_ranking {E : Means V R} {a b : Asking V R} {s : Stage} (h : Step E a s b) (hs : s.isRank = false) : b.ranking = a.ranking := by
  cases h <;> first | rfl | cases hs

theorem steps_ranking {E : Means V R} {a b : Asking V R} {ss : List Stage} (h : Steps E a ss b) (hs : ∀ s ∈ ss, s.isRank = false) :
    b.ranking = a.ranking := by
  induction h with
  | nil => rfl
  | cons h1 _ ih => rw [ih (fun s m => hs s (.tail _ m)), step_ranking h1 (hs _ (.head _))]

theorem step_params {E : Means V R} {a b : Asking V R} {s : Stage} (h : Step E a s b) (n : Word) : b.params n = (gives n s).or (a.params n) := by
  cases h with
  | set => simp only [gives]; split <;> rfl
  | setAll => rfl
  | _ => rfl

theorem steps_params {E : Means V R} {a b : Asking V R} {ss : List Stage} (h : Steps E a ss b) (n : Word) :
    b.params n = ((ss.filterMap (gives n)).getLast?).or (a.params n) := by
  induction h with
  | nil => rfl
  | @cons a b c s ss h1 _ ih =>
    rw [ih, step_params h1]
    cases e : gives n s with
    | none => rw [List.filterMap_cons_none e]; rfl
    | some v =>
      rw [List.filterMap_cons_some e, List.getLast?_cons]
      cases (ss.filterMap (gives n)).getLast? <;> rfl

theorem steps_append {E : Means V R} {a c : Asking V R} {ss ts : List Stage} :
    Steps E a (ss ++ ts) c ↔ ∃ b, Steps E a ss b ∧ Steps E b ts c := by
  induction ss generalizing a with
  | nil =>
    constructor
    · intro h; exact ⟨a, .nil, h⟩
    · rintro ⟨b, h1, h2⟩; cases h1; exact h2
  | cons s ss ih =>
    constructor
    · intro h
      cases h with
      | cons h1 h2 =>
        obtain ⟨b, g1, g2⟩ := ih.1 h2
        exact ⟨b, .cons h1 g1, g2⟩
    · rintro ⟨b, h1, h2⟩
      cases h1 with
      | cons g1 g2 => exact .cons g1 (ih.2 ⟨b, g2, h2⟩)

end

end Verif.Pipe
