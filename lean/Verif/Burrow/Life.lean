import Verif.Burrow.Proof
import Verif.Burrow.Spec
import Verif.Props.Dna
import Verif.Props.Parts
/-
  Lemmas for C80: what holds of a warren of shards from when it is made.
-/
namespace Verif.Burrow
open Verif.Recipe Verif.Dna Verif.HazelDna Verif.Parts Verif.Props

/-- the file describes the warren with its parts, and memory agrees with it -/
def Inv (p : Parts) (j : Bool) (w : Option Str) (b : Big) : Prop :=
  Agrees b ∧ SameAnswer w (setting warrenKey b.file) ∧ ∃ counted Q, openParts counted b.file = .ok (Q, j) ∧ SameParts p Q ∧ Q.featurizer.Plain

theorem same_parts_trans {p q r : Parts} (h : SameParts p q) (h' : SameParts q r) : SameParts p r :=
  ⟨fun k => (h.1 k).trans (h'.1 k), h.2.1.trans h'.2.1, h.2.2.1.trans h'.2.2.1, h.2.2.2.1.trans h'.2.2.2.1, h.2.2.2.2.trans h'.2.2.2.2⟩

theorem inv_set {p : Parts} {j : Bool} {w : Option Str} {b : Big} (h : Inv p j w b) {k v : Str} (hk : Word k) (hv : Keepable v) :
    ∃ b', b.set .works k v = (true, b') ∧ Inv p j w b' ∧ b'.get k = v ∧ ∀ k', k' ≠ k → b'.get k' = b.get k' := by
  obtain ⟨ha, hw, counted, Q, h1, h2, h3⟩ := h
  obtain ⟨b', e, ha', g1, g2⟩ := big_set ha hk hv
  obtain ⟨S, P, hd, _⟩ := ha
  obtain ⟨file', e', ⟨S', P', hd'⟩, _, _, hset⟩ := C69_set_partial hd hk hv
  have hf : b'.file = file' := by
    unfold Big.set at e
    rw [e'] at e
    cases e
    rfl
  obtain ⟨dna', r1, r2, _⟩ := hd'
  obtain ⟨Q', q1, q2, q3⟩ := parts_same r1 r2 hset h1 h3 counted
  refine ⟨b', e, ⟨ha', ?_, counted, Q', by rw [hf]; exact q1, same_parts_trans h2 q2, q3⟩, g1, g2⟩
  rw [hf]
  exact hw.trans (hset warrenKey (by decide))

theorem stemmer_leaf {s n : Str} (h : stemmerMade s = some n) : cook s = none := by
  unfold stemmerMade at h
  split at h
  · rename_i e
    rcases e with rfl | rfl <;> decide
  · split at h
    · rename_i e; subst e; decide
    · cases h

theorem stemmer_same {s s' : Str} (h : Same s s') : stemmerMade s = stemmerMade s' := by
  cases h with
  | leaf _ => rfl
  | node e e' _ _ =>
    cases h1 : stemmerMade s with
    | some n => rw [stemmer_leaf h1] at e; cases e
    | none =>
      cases h2 : stemmerMade s' with
      | some n => rw [stemmer_leaf h2] at e'; cases e'
      | none => rfl

theorem extra_eq {file : File} {S P : Map} (h : Describes file S P) :
    openExtra file = match stemmerMade (look stemmerKey P) with
      | none => none
      | some _ => some P := by
  obtain ⟨dna, h1, h2, _, h3⟩ := h
  unfold openExtra
  simp only [h1, h2]
  cases e : find parametersKey S with
  | none =>
    rw [e] at h3
    dsimp only at h3
    subst h3
    rfl
  | some text =>
    rw [e] at h3
    dsimp only at h3 ⊢
    simp only [h3]
    by_cases hs : look stemmerKey P = []
    · rw [if_pos hs, hs]; rfl
    · rw [if_neg hs]
      cases stemmerMade (look stemmerKey P) <;> rfl

theorem stemmer_word : Word stemmerKey := by unfold Word; decide
theorem container_word : Word containerKey := by unfold Word; decide

theorem made_keepable {s n : Str} (h : stemmerMade s = some n) : Keepable n := by
  unfold stemmerMade at h
  split at h
  · cases h; exact .leaf (by decide) (by decide)
  · split at h
    · rename_i e; cases h; rw [e]; exact .leaf (by decide) (by decide)
    · cases h

theorem made_again {s n : Str} (h : stemmerMade s = some n) : stemmerMade n = some n := by
  unfold stemmerMade at h
  split at h
  · cases h; decide
  · split at h
    · rename_i e; cases h; rw [e]; decide
    · cases h

theorem inv_open {p : Parts} {j : Bool} {w : Option Str} {b : Big} (h : Inv p j w b) {n : Str} (hn : stemmerMade (b.get stemmerKey) = some n)
    (counted : Bool) : ∃ o, openBigwig .works .works counted b.file = .ok o ∧ SameParts p o.parts ∧ o.json = j ∧ Inv p j w o.big ∧
      (∀ k, k ≠ stemmerKey → Same (b.get k) (o.big.get k)) ∧ o.big.get stemmerKey = n := by
  have h0 := h
  obtain ⟨⟨S, P, hd, hm⟩, hw, counted0, Q, h1, h2, h3⟩ := h
  obtain ⟨_, aP, _⟩ := hd.good
  have hd0 := hd
  obtain ⟨dna, r1, r2, _⟩ := hd0
  obtain ⟨Q', q1, q2, q3⟩ := parts_same r1 r2 (fun s _ => .refl _) h1 h3 counted
  have hs : stemmerMade (look stemmerKey P) = some n := by rw [← hn]; exact (stemmer_same (hm stemmerKey)).symm
  have base : ∀ k, (⟨b.file, P⟩ : Big).get k = (find k P).getD [] := by
    intro k
    unfold Big.get
    cases find k P <;> rfl
  have i0 : Inv p j w ⟨b.file, P⟩ := ⟨⟨S, P, hd, fun k => by rw [base]; exact Dna.Same.refl _⟩, hw, counted0, Q, h1, h2, h3⟩
  -- the stemmer
  have s1 : Inv p j w (setStemmer .works (stemmerFound P) ⟨b.file, P⟩) ∧
      (∀ k, k ≠ stemmerKey → (setStemmer .works (stemmerFound P) ⟨b.file, P⟩).get k = (find k P).getD []) ∧
      (setStemmer .works (stemmerFound P) ⟨b.file, P⟩).get stemmerKey = n := by
    unfold stemmerFound
    by_cases e : look stemmerKey P = []
    · rw [if_pos e]
      refine ⟨i0, fun k _ => base k, ?_⟩
      have e' : n = [] := by
        rw [e] at hs
        have : stemmerMade [] = some [] := by decide
        rw [this] at hs
        cases hs
        rfl
      rw [e']
      show (⟨b.file, P⟩ : Big).get stemmerKey = []
      rw [base]
      exact e
    · rw [if_neg e, hs]
      obtain ⟨b', g1, g2, g3, g4⟩ := inv_set i0 stemmer_word (made_keepable hs)
      show Inv p j w ((⟨b.file, P⟩ : Big).set .works stemmerKey n).2 ∧ _
      unfold setStemmer
      dsimp only
      rw [g1]
      exact ⟨g2, fun k hk => by rw [g4 k hk, base], g3⟩
  obtain ⟨i1, b1, c1⟩ := s1
  have s2 : Inv p j w ((setStemmer .works (stemmerFound P) ⟨b.file, P⟩).again .works containerKey (find containerKey P)) ∧
      ∀ k, ((setStemmer .works (stemmerFound P) ⟨b.file, P⟩).again .works containerKey (find containerKey P)).get k =
        (setStemmer .works (stemmerFound P) ⟨b.file, P⟩).get k := by
    unfold Big.again
    cases e : find containerKey P with
    | none => exact ⟨i1, fun _ => rfl⟩
    | some v =>
      dsimp only
      split
      · exact ⟨i1, fun _ => rfl⟩
      · obtain ⟨b', g1, g2, g3, g4⟩ := inv_set i1 container_word (aP _ _ e)
        rw [g1]
        refine ⟨g2, fun k => ?_⟩
        show b'.get k = _
        by_cases hk : k = containerKey
        · subst hk
          rw [g3, b1 _ (by decide), e]
          rfl
        · exact g4 k hk
  refine ⟨⟨Q', j, (setStemmer .works (stemmerFound P) ⟨b.file, P⟩).again .works containerKey (find containerKey P)⟩, ?_, same_parts_trans h2 q2, rfl, s2.1, fun k hk => ?_, ?_⟩
  · unfold openBigwig
    simp only [q1, extra_eq hd, hs]
  · dsimp only
    rw [s2.2, b1 k hk]
    exact hm k
  · dsimp only
    rw [s2.2, c1]

theorem inv_unopened {p : Parts} {j : Bool} {w : Option Str} {b : Big} (h : Inv p j w b) (hn : stemmerMade (b.get stemmerKey) = none)
    (dev dev' : Device) (counted : Bool) : openBigwig dev dev' counted b.file = .refused := by
  obtain ⟨⟨S, P, hd, hm⟩, hw, counted0, Q, h1, h2, h3⟩ := h
  have hd0 := hd
  obtain ⟨dna, r1, r2, _⟩ := hd0
  obtain ⟨Q', q1, q2, q3⟩ := parts_same r1 r2 (fun s _ => .refl _) h1 h3 counted
  have hs : stemmerMade (look stemmerKey P) = none := by rw [← hn]; exact (stemmer_same (hm stemmerKey)).symm
  unfold openBigwig
  simp only [q1, extra_eq hd, hs]

theorem inv_later {may : Str → Prop} {p : Parts} {j : Bool} {w : Option Str} {b b' : Big} (h : Inv p j w b) (hl : Later may b b') : Inv p j w b' := by
  induction hl with
  | here => exact h
  | set _ _ hk hv e ih =>
    obtain ⟨b1, e1, i1, _⟩ := inv_set ih hk hv
    rw [e1] at e
    cases e
    exact i1
  | opened _ e ih =>
    rename_i b' counted o _
    cases hn : stemmerMade (b'.get stemmerKey) with
    | none => rw [inv_unopened ih hn] at e; cases e
    | some n =>
      obtain ⟨o', e', _, _, i, _⟩ := inv_open ih hn counted
      rw [e'] at e
      cases e
      exact i

/-- a parameter that is not set does not change its meaning -/
theorem later_get {may : Str → Prop} {p : Parts} {j : Bool} {w : Option Str} {b b' : Big} (h : Inv p j w b) (hl : Later may b b') {k : Str}
    (hk : ¬ may k) (hs : k ≠ stemmerKey) : Same (b.get k) (b'.get k) := by
  induction hl with
  | here => exact Dna.Same.refl _
  | set hl hm hw hv e ih =>
    obtain ⟨b1, e1, _, _, g⟩ := inv_set (inv_later h hl) hw hv
    rw [e1] at e
    cases e
    rw [g k (fun e => hk (e ▸ hm))]
    exact ih
  | opened hl e ih =>
    rename_i b' counted o
    cases hn : stemmerMade (b'.get stemmerKey) with
    | none => rw [inv_unopened (inv_later h hl) hn] at e; cases e
    | some n =>
      obtain ⟨o', e', _, _, _, i, _⟩ := inv_open (inv_later h hl) hn counted
      rw [e'] at e
      cases e
      exact Dna.Same.trans ih (i k hs)

end Verif.Burrow
