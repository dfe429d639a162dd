import Verif.Clone.Model
import Verif.Props.SimpleText
/-
  C71: a copy of a reader answers as its original.
-/
namespace Verif.Props
open Verif Verif.Text Verif.Clone
open Verif.Recipe (Str)

variable {σ : Type}

/-- A burrow that was opened: handle 0, and no copies. -/
def justOpened (R c s : Str) (l : List σ) : World σ := ⟨l, fun k => if k = 0 then some (opened R c s) else none⟩

/-- handle `i` is neither started nor ended -/
def LeavesOn (i : Nat) : Act σ → Prop
  | .start k => k ≠ i
  | .stop k => k ≠ i
  | _ => True

/-- handle `i` is not given another default container or stemmer -/
def LeavesSet (i : Nat) : Act σ → Prop
  | .container k _ => k ≠ i
  | .stemmer k _ => k ≠ i
  | _ => True

/-- what holds of every handle: `i` is 0 for the one that was opened -/
structure HandleOk (R : Str) (i : Nat) (h : Handle σ) : Prop where
  recipe : h.recipe = if i = 0 then R else []
  on : h.started = h.snap.isSome
  txt : h.txt = h.snap.map fun l => (shouldWrap h.recipe, l)

def WorldOk (R : Str) (w : World σ) : Prop := ∀ i h, w.handles i = some h → HandleOk R i h

theorem start_ok {R : Str} {i : Nat} {l : List σ} {h h' : Handle σ} (ok : HandleOk R i h) (e : Clone.start l h = some h') :
    HandleOk R i h' ∧ h'.snap = some (h.snap.getD l) ∧ h'.container = h.container ∧ h'.stemmer = h.stemmer := by
  unfold Clone.start at e
  split at e
  · cases e
  · cases e
    exact ⟨⟨ok.recipe, rfl, rfl⟩, rfl, rfl, rfl⟩

theorem clone_ok {R : Str} {i j : Nat} {l : List σ} {h h' : Handle σ} (ok : HandleOk R i h) (hj : j ≠ 0)
    (e : Clone.clone l h = some h') :
    HandleOk R j h' ∧ h'.snap = h.snap ∧ h'.container = h.container ∧ h'.stemmer = h.stemmer := by
  unfold Clone.clone Clone.start at e
  cases hs : h.snap with
  | none => simp [hs, opened] at e; subst e; exact ⟨⟨by simp [hj], rfl, rfl⟩, rfl, rfl, rfl⟩
  | some x =>
    simp [hs, opened] at e; subst e
    exact ⟨⟨by simp [hj], rfl, rfl⟩, rfl, rfl, rfl⟩

theorem zero_kept {w w' : World σ} {a : Act σ} (h : ∃ x, w.handles 0 = some x) (e : Clone.step w a = some w') :
    ∃ x, w'.handles 0 = some x := by
  obtain ⟨x, hx⟩ := h
  have hput : ∀ (i : Nat) (y : Handle σ), ∃ z, (put w i y).handles 0 = some z := by
    intro i y
    by_cases hi : 0 = i
    · exact ⟨y, by simp [put, hi]⟩
    · exact ⟨x, by simp [put, hi, hx]⟩
  cases a <;> simp only [Clone.step] at e
  case publish l => cases e; exact ⟨x, hx⟩
  case start i =>
    split at e
    · cases e
    · obtain ⟨y, -, rfl⟩ := Option.map_eq_some_iff.mp e; exact hput i y
  case clone i j =>
    split at e
    · obtain ⟨y, -, rfl⟩ := Option.map_eq_some_iff.mp e; exact hput j y
    · cases e
  all_goals
    obtain ⟨y, -, rfl⟩ := Option.map_eq_some_iff.mp e
    exact hput _ _

theorem step_world {R : Str} {w w' : World σ} {a : Act σ} (h0 : ∃ x, w.handles 0 = some x) (ok : WorldOk R w)
    (e : Clone.step w a = some w') : WorldOk R w' := by
  have hput : ∀ (i : Nat) (y : Handle σ), HandleOk R i y → WorldOk R (put w i y) := by
    intro i y hy k z hz
    simp only [put] at hz
    split at hz
    · cases hz; subst k; exact hy
    · exact ok k z hz
  cases a <;> simp only [Clone.step] at e
  case publish l => cases e; exact ok
  case start i =>
    split at e
    · cases e
    · obtain ⟨y, hy, rfl⟩ := Option.map_eq_some_iff.mp e
      exact hput i y (start_ok (ok _ _ (by assumption)) hy).1
  case clone i j =>
    split at e
    · rename_i h hi hj
      obtain ⟨y, hy, rfl⟩ := Option.map_eq_some_iff.mp e
      refine hput j y (clone_ok (ok _ _ hi) ?_ hy).1
      rintro rfl
      obtain ⟨x, hx⟩ := h0
      rw [hx] at hj; cases hj
    · cases e
  case stop i =>
    obtain ⟨y, hy, rfl⟩ := Option.map_eq_some_iff.mp e
    refine hput i _ ?_
    unfold Clone.stop
    split
    · exact ⟨(ok _ _ hy).recipe, rfl, rfl⟩
    · exact ok _ _ hy
  case container i s =>
    obtain ⟨y, hy, rfl⟩ := Option.map_eq_some_iff.mp e
    exact hput i _ ⟨(ok _ _ hy).recipe, (ok _ _ hy).on, (ok _ _ hy).txt⟩
  case stemmer i s =>
    obtain ⟨y, hy, rfl⟩ := Option.map_eq_some_iff.mp e
    exact hput i _ ⟨(ok _ _ hy).recipe, (ok _ _ hy).on, (ok _ _ hy).txt⟩

theorem run_world {R : Str} : ∀ (acts : List (Act σ)) {w w' : World σ}, (∃ x, w.handles 0 = some x) → WorldOk R w →
    Clone.run w acts = some w' → (∃ x, w'.handles 0 = some x) ∧ WorldOk R w'
  | [], w, w', h0, ok, e => by cases e; exact ⟨h0, ok⟩
  | a :: l, w, w', h0, ok, e => by
    simp only [Clone.run] at e
    split at e
    · cases e
    · rename_i v hv
      exact run_world l (zero_kept h0 hv) (step_world h0 ok hv) e

theorem opened_world (R c s : Str) (l : List σ) :
    (∃ x, (justOpened R c s l).handles 0 = some x) ∧ WorldOk R (justOpened R c s l) := by
  refine ⟨⟨_, rfl⟩, ?_⟩
  intro i h hi
  simp only [justOpened] at hi
  split at hi
  · cases hi; subst i; exact ⟨rfl, rfl, rfl⟩
  · cases hi

/-- A handle that is left on keeps its shards, whatever is published; its settings too if they are not changed. -/
theorem step_leaves {w w' : World σ} {a : Act σ} {i : Nat} {h : Handle σ} (hi : w.handles i = some h) (hl : LeavesOn i a)
    (e : Clone.step w a = some w') : ∃ h', w'.handles i = some h' ∧ h'.snap = h.snap ∧
      (LeavesSet i a → h'.container = h.container ∧ h'.stemmer = h.stemmer) := by
  have hput : ∀ (k : Nat) (y : Handle σ), k ≠ i → (put w k y).handles i = some h := by
    intro k y hk; simp [put, Ne.symm hk, hi]
  cases a <;> simp only [Clone.step] at e
  case publish l => cases e; exact ⟨h, hi, rfl, fun _ => ⟨rfl, rfl⟩⟩
  case start k =>
    split at e
    · cases e
    · obtain ⟨y, -, rfl⟩ := Option.map_eq_some_iff.mp e
      exact ⟨h, hput k y hl, rfl, fun _ => ⟨rfl, rfl⟩⟩
  case clone k j =>
    split at e
    · rename_i x hx hj
      obtain ⟨y, -, rfl⟩ := Option.map_eq_some_iff.mp e
      refine ⟨h, hput j y ?_, rfl, fun _ => ⟨rfl, rfl⟩⟩
      rintro rfl; rw [hi] at hj; cases hj
    · cases e
  case stop k =>
    obtain ⟨y, -, rfl⟩ := Option.map_eq_some_iff.mp e
    exact ⟨h, hput k _ hl, rfl, fun _ => ⟨rfl, rfl⟩⟩
  case container k s =>
    obtain ⟨y, hy, rfl⟩ := Option.map_eq_some_iff.mp e
    by_cases hk : k = i
    · subst hk; rw [hi] at hy; cases hy
      exact ⟨{ h with container := s }, by simp [put], rfl, fun hn => absurd rfl hn⟩
    · exact ⟨h, hput k _ hk, rfl, fun _ => ⟨rfl, rfl⟩⟩
  case stemmer k s =>
    obtain ⟨y, hy, rfl⟩ := Option.map_eq_some_iff.mp e
    by_cases hk : k = i
    · subst hk; rw [hi] at hy; cases hy
      exact ⟨{ h with stemmer := s }, by simp [put], rfl, fun hn => absurd rfl hn⟩
    · exact ⟨h, hput k _ hk, rfl, fun _ => ⟨rfl, rfl⟩⟩

theorem run_leaves : ∀ (acts : List (Act σ)) {w w' : World σ} {i : Nat} {h : Handle σ}, w.handles i = some h →
    (∀ a ∈ acts, LeavesOn i a) → Clone.run w acts = some w' → ∃ h', w'.handles i = some h' ∧ h'.snap = h.snap ∧
      ((∀ a ∈ acts, LeavesSet i a) → h'.container = h.container ∧ h'.stemmer = h.stemmer)
  | [], w, w', i, h, hi, _, e => by cases e; exact ⟨h, hi, rfl, fun _ => ⟨rfl, rfl⟩⟩
  | a :: l, w, w', i, h, hi, hl, e => by
    simp only [Clone.run] at e
    split at e
    · cases e
    · rename_i v hv
      obtain ⟨h1, a1, a2, a3⟩ := step_leaves hi (hl a (List.mem_cons_self ..)) hv
      obtain ⟨h2, b1, b2, b3⟩ := run_leaves l a1 (fun x hx => hl x (List.mem_cons_of_mem _ hx)) e
      refine ⟨h2, b1, b2.trans a2, fun hs => ?_⟩
      have c1 := a3 (hs a (List.mem_cons_self ..))
      have c2 := b3 fun x hx => hs x (List.mem_cons_of_mem _ hx)
      exact ⟨c2.1.trans c1.1, c2.2.trans c1.2⟩

theorem says_of {R : Str} {i : Nat} {h : Handle σ} (ok : HandleOk R i h) {l : List σ} (hs : h.snap = some l)
    (says : List σ → Int → Int → Text) (p q : Int) :
    raw says h p q = some (says l p q) ∧
    Clone.translate says h p q = some (if shouldWrap h.recipe then Json.jsonTranslate (says l p q) else says l p q) := by
  have ht : h.txt = some (shouldWrap h.recipe, l) := by rw [ok.txt, hs]; rfl
  exact ⟨by simp [raw, ht], by simp [Clone.translate, ht]⟩

theorem not_json_nil : shouldWrap [] = false := by decide

/-- C71 (what is missing: `translate` in a burrow that was opened as one of JSON, see `C71_json_lost`).  In every history
of a burrow, a reader that is on can be copied (to a free handle).  The copy is on, with the shards, the default container
and the stemmer of the original, and then, whatever anyone does meanwhile, until one of the two is ended or started anew,
both read the same shards, and between any two addresses the same stored text and, if the burrow was not opened as one of
JSON, the same text; as long as neither is given another default container or stemmer, they have the same. -/
theorem C71_clone_partial {R c s : Str} {l : List σ} {acts : List (Act σ)} {w : World σ}
    (hw : Clone.run (justOpened R c s l) acts = some w) {i j : Nat} {h : Handle σ} (hi : w.handles i = some h)
    (hon : h.started = true) (hj : w.handles j = none) :
    ∃ w1, Clone.step w (.clone i j) = some w1 ∧
      ∀ (later : List (Act σ)) (w2 : World σ), Clone.run w1 later = some w2 →
      (∀ a ∈ later, LeavesOn i a ∧ LeavesOn j a) →
      ∃ x y, ∃ snap : List σ, w2.handles i = some x ∧ w2.handles j = some y ∧
        h.snap = some snap ∧ x.snap = some snap ∧ y.snap = some snap ∧ x.started = true ∧ y.started = true ∧
        (∀ (says : List σ → Int → Int → Text) (p q : Int), raw says x p q = some (says snap p q) ∧
          raw says y p q = some (says snap p q) ∧
          (shouldWrap R = false → Clone.translate says x p q = some (says snap p q) ∧
            Clone.translate says y p q = some (says snap p q))) ∧
        ((∀ a ∈ later, LeavesSet i a ∧ LeavesSet j a) → x.container = h.container ∧ y.container = h.container ∧
          x.stemmer = h.stemmer ∧ y.stemmer = h.stemmer) := by
  obtain ⟨o1, o2⟩ := opened_world R c s l
  obtain ⟨h0, ok⟩ := run_world acts o1 o2 hw
  obtain ⟨snap, hs⟩ := Option.isSome_iff_exists.mp ((ok i h hi).on ▸ hon)
  have hj0 : j ≠ 0 := by
    rintro rfl; obtain ⟨x, hx⟩ := h0; rw [hx] at hj; cases hj
  have hc : ∃ y, Clone.clone w.shards h = some y := by
    simp [Clone.clone, Clone.start, hs, opened]
  obtain ⟨y0, hy0⟩ := hc
  obtain ⟨-, k2, k3, k4⟩ := clone_ok (ok i h hi) hj0 hy0
  have hst : Clone.step w (.clone i j) = some (put w j y0) := by simp [Clone.step, hi, hj, hy0]
  refine ⟨_, hst, fun later w2 hl hq => ?_⟩
  have hij : i ≠ j := by rintro rfl; rw [hi] at hj; cases hj
  have ok1 := step_world h0 ok hst
  have h01 := zero_kept h0 hst
  obtain ⟨-, ok2⟩ := run_world later h01 ok1 hl
  have i1 : (put w j y0).handles i = some h := by simp [put, hij, hi]
  have j1 : (put w j y0).handles j = some y0 := by simp [put]
  obtain ⟨x, x1, x2, x3⟩ := run_leaves later i1 (fun a ha => (hq a ha).1) hl
  obtain ⟨y, y1, y2, y3⟩ := run_leaves later j1 (fun a ha => (hq a ha).2) hl
  have xs : x.snap = some snap := x2.trans hs
  have ys : y.snap = some snap := (y2.trans k2).trans hs
  refine ⟨x, y, snap, x1, y1, hs, xs, ys, by rw [(ok2 i x x1).on, xs]; rfl, by rw [(ok2 j y y1).on, ys]; rfl, ?_, ?_⟩
  · intro says p q
    obtain ⟨p1, p2⟩ := says_of (ok2 i x x1) xs says p q
    obtain ⟨q1, q2⟩ := says_of (ok2 j y y1) ys says p q
    refine ⟨p1, q1, fun hR => ?_⟩
    have wx : shouldWrap x.recipe = false := by
      rw [(ok2 i x x1).recipe]; split
      · exact hR
      · exact not_json_nil
    have wy : shouldWrap y.recipe = false := by
      rw [(ok2 j y y1).recipe, if_neg hj0]; exact not_json_nil
    rw [wx] at p2; rw [wy] at q2
    exact ⟨p2, q2⟩
  · intro hset
    have a1 := x3 fun a ha => (hset a ha).1
    have a2 := y3 fun a ha => (hset a ha).2
    exact ⟨a1.1, a2.1.trans k3, a1.2, a2.2.trans k4⟩

/-- A handle that is off, copied or not, shows the shards there are when it is started. -/
theorem C71_start {R c s : Str} {l : List σ} {acts : List (Act σ)} {w : World σ}
    (hw : Clone.run (justOpened R c s l) acts = some w) {i : Nat} {h : Handle σ} (hi : w.handles i = some h)
    (hoff : h.started = false) :
    ∃ w1 x, Clone.step w (.start i) = some w1 ∧ w1.handles i = some x ∧ x.snap = some w.shards ∧
      ∀ (says : List σ → Int → Int → Text) (p q : Int), raw says x p q = some (says w.shards p q) := by
  obtain ⟨o1, o2⟩ := opened_world R c s l
  obtain ⟨h0, ok⟩ := run_world acts o1 o2 hw
  have hs : h.snap = none := by
    have := (ok i h hi).on
    rw [hoff] at this
    cases hx : h.snap with
    | none => rfl
    | some y => rw [hx] at this; cases this
  refine ⟨_, _, by simp only [Clone.step, hi, Clone.start, hoff]; rfl, by simp [put]; rfl, by simp [hs], ?_⟩
  intro says p q
  simp [raw, hs]

/-- Not C71: in a burrow that was opened as one of JSON, the original shows its text as JSON, and every copy, and every
copy of a copy, shows the text as it is stored. -/
theorem C71_json_lost {R c s : Str} {l : List σ} {acts : List (Act σ)} {w : World σ} (hR : shouldWrap R = true)
    (hw : Clone.run (justOpened R c s l) acts = some w) {i : Nat} {h : Handle σ} (hi : w.handles i = some h)
    {snap : List σ} (hs : h.snap = some snap) (says : List σ → Int → Int → Text) (p q : Int) :
    Clone.translate says h p q = some (if i = 0 then Json.jsonTranslate (says snap p q) else says snap p q) := by
  obtain ⟨o1, o2⟩ := opened_world R c s l
  obtain ⟨-, ok⟩ := run_world acts o1 o2 hw
  rw [(says_of (ok i h hi) hs says p q).2, (ok i h hi).recipe]
  by_cases h0 : i = 0
  · simp [h0, hR]
  · simp [h0, not_json_nil]

/-- `[json:"yes",]` -/
def jsonRecipeText : Str := [0x5B, 0x6A, 0x73, 0x6F, 0x6E, 0x3A, 0x22, 0x79, 0x65, 0x73, 0x22, 0x2C, 0x5D]

/-- a burrow of JSON that is opened, started and copied -/
def jsonCopied : List (Act Text) := [.start 0, .clone 0 1]

/-- the string `"hi"`, as it is stored -/
def storedHi : Text := Json.mark 0x94 ++ [0x68, 0x69] ++ Json.mark 0x95

/-- The original shows `"hi"`, the copy `hi` between two noncharacters. -/
example : ((Clone.run (justOpened jsonRecipeText [] [] [storedHi]) jsonCopied).bind fun w =>
      (w.handles 0).bind fun h => Clone.translate (fun l _ _ => l.flatten) h 0 0) = some [0x22, 0x68, 0x69, 0x22] ∧
    ((Clone.run (justOpened jsonRecipeText [] [] [storedHi]) jsonCopied).bind fun w =>
      (w.handles 1).bind fun h => Clone.translate (fun l _ _ => l.flatten) h 0 0) = some storedHi := by
  decide +kernel

/-- The hypotheses of `C71_clone_partial` are met by a history with a commit after the start. -/
example : ∃ w h, Clone.run (justOpened [] [0x64] [0x6E] [storedHi]) [.start 0, .publish [storedHi, storedHi], .clone 0 1] = some w ∧
    w.handles 1 = some h ∧ h.started = true ∧ h.snap = some [storedHi] ∧ w.handles 2 = none ∧ h.container = [0x64] :=
  ⟨_, _, rfl, rfl, rfl, rfl, rfl, rfl⟩

/-- The description that a text of JSON gives of itself does not make one: the key is misspelt. -/
theorem C71_jason : shouldWrap (jsonRecipe []) = false ∧ shouldWrap (jsonRecipe jsonRecipeText) = true := by decide +kernel

theorem asked_due {T : Tokenizer} (hT : Lawful T) (hC : Cuts T) {X : Text} (hN : (T.addresses X : Int) ≤ maxfinity)
    (hsplit : ∀ n, T.Splits (X.drop n)) : ∀ (cs : List SimpleText.Call) {r : SimpleText.Reader}, SimpleText.ReaderOk T X r →
    ∃ r', asked T r cs = some (r', cs.map (SimpleText.due T X)) ∧ SimpleText.ReaderOk T X r'
  | [], r, hr => ⟨r, rfl, hr⟩
  | .translate p q :: cs, r, hr => by
    obtain ⟨r1, h1, h2⟩ := SimpleText.translate_ok hT hC hN hr p q
    obtain ⟨r2, h3, h4⟩ := asked_due hT hC hN hsplit cs h2
    refine ⟨r2, ?_, h4⟩
    simp [asked, SimpleText.ask, h1, h3, SimpleText.due]
  | .tokens :: cs, r, hr => by
    obtain ⟨r1, h1, h2⟩ := SimpleText.tokens_ok hT hC hN hsplit hr
    obtain ⟨r2, h3, h4⟩ := asked_due hT hC hN hsplit cs h2
    refine ⟨r2, ?_, h4⟩
    simp [asked, SimpleText.ask, h1, h3, SimpleText.due]

/-- C71 for the text of a simple warren (what is missing: the texts that C36 excludes): whatever was asked of the original
before it was copied, and whatever is asked of both after that, each answers every call from the whole text. -/
theorem C71_simple_partial {T : Tokenizer} {Fit : Text → Prop} (hS : Setting T Fit) (texts : List Text)
    (ts : List SimpleText.Txn) {X : Text} (hX : X = ((texts ++ SimpleText.committed ts).map stored).flatten)
    (hf : ∀ s ∈ texts ++ SimpleText.committed ts, Fit s) (h0 : ∀ b ∈ X, b ≠ 0) (hu : SimpleText.Undoubled T X)
    (hN : (T.addresses X : Int) ≤ maxfinity) (before after copy : List SimpleText.Call) :
    ∃ d r r1, SimpleText.transactAll T (SimpleText.build T texts) ts = some d ∧ SimpleText.load d = some r ∧
      asked T r before = some (r1, before.map (SimpleText.due T X)) ∧
      SimpleText.askAll T r1 after = some (after.map (SimpleText.due T X)) ∧
      SimpleText.askAll T (cloneReader r1) copy = some (copy.map (SimpleText.due T X)) := by
  obtain ⟨hT, -, hc⟩ := hS.lawful
  obtain ⟨⟨S, hF⟩, hC, hsp⟩ := hS.works
  have hb := SimpleText.all_after hT hF (keep := true) texts (SimpleText.after_empty hT)
    (fun s hs => hc s (hf s (by simp [hs]))) (fun h => by cases h)
  rw [List.nil_append] at hb
  rw [List.map_append, List.flatten_append] at hX
  subst hX
  obtain ⟨d, h1, h2⟩ := SimpleText.history hT hF hC hsp ts hb.kept (fun s hs => hc s (hf s (by simp [hs]))) h0 hu
  obtain ⟨r, h3, h4, -⟩ := SimpleText.load_ok hT h2
  have hsp' := fun n => hsp _ fun b hb => h0 b (List.mem_of_mem_drop (i := n) hb)
  obtain ⟨r1, h5, h6⟩ := asked_due hT hC hN hsp' before h4
  refine ⟨d, r, r1, h1, h3, h5, askAll_due hT hC hN hsp' after h6, askAll_due hT hC hN hsp' copy ?_⟩
  exact { h6 with memo := fun m hm => by cases hm }

/-- two texts, one of them in a transaction: all conditions are met -/
example : ((ascii false).tokenize [0x61, 0x0A, 0x62, 0x0A]).length = 2 ∧ ∀ before after copy : List SimpleText.Call,
    ∃ d r r1, SimpleText.transactAll (ascii false) (SimpleText.build (ascii false) [[0x61]]) [⟨[[0x62]], true⟩] = some d ∧
      SimpleText.load d = some r ∧
      asked (ascii false) r before = some (r1, before.map (SimpleText.due (ascii false) [0x61, 0x0A, 0x62, 0x0A])) ∧
      SimpleText.askAll (ascii false) r1 after = some (after.map (SimpleText.due (ascii false) [0x61, 0x0A, 0x62, 0x0A])) ∧
      SimpleText.askAll (ascii false) (cloneReader r1) copy =
        some (copy.map (SimpleText.due (ascii false) [0x61, 0x0A, 0x62, 0x0A])) := by
  refine ⟨by decide, C71_simple_partial .plain [[0x61]] [⟨[[0x62]], true⟩] (by decide) (fun _ _ => trivial) (by decide) ?_
    (by decide)⟩
  intro n hn
  have : (ascii false).tokenize [0x61, 0x0A, 0x62, 0x0A] = [⟨[0x61], 0, 0, 1⟩, ⟨[0x62], 1, 2, 1⟩] := by decide
  rw [this]
  by_cases h : n = 0
  · subst h; decide
  · have h1 : ¬ 0 = n := fun e => h e.symm
    have h2 : ¬ 1 = n := by intro e; subst e; omega
    simp [h1, h2]

end Verif.Props
