import Verif.BuilderScribe.Spec
import Verif.Inhale.Proof
/-
  Lemmas for C77.
-/
namespace Verif.BuilderScribe

open Verif.Inhale (Bytes Op Inner Builder perform performAll performAll_append)

theorem calls_append (a : Bool) (I : Inner σ) : ∀ (h k : List Call) (s : Scribe σ),
    calls a I s (h ++ k) = match calls a I s h with
      | none => none
      | some (s', as) => match calls a I s' k with
        | none => none
        | some (s'', bs) => some (s'', as ++ bs)
  | [], k, s => by
    simp only [List.nil_append, calls]
    cases calls a I s k with
    | none => rfl
    | some x => rfl
  | c :: h, k, s => by
    simp only [List.cons_append, calls]
    cases call a I s c with
    | none => rfl
    | some x =>
      obtain ⟨s', y⟩ := x
      simp only [calls_append a I h k s']
      cases calls a I s' h with
      | none => rfl
      | some x =>
        obtain ⟨s'', y⟩ := x
        dsimp only
        cases calls a I s'' k with
        | none => rfl
        | some x => rfl

/-- the builder is the same in both -/
theorem setFlags_same (s : Scribe σ) (f : Flags) (x : Part) : (s.setFlags f x).builder = s.builder ∧
    (s.setFlags f x).annotates = s.annotates ∧ (s.setFlags f x).appends = s.appends := by
  cases x <;> exact ⟨rfl, rfl, rfl⟩

theorem close_builder (s : Scribe σ) (x : Part) : (s.close x).builder = s.builder := by
  cases x <;> rfl

theorem annotateAll_eq (I : Inner σ) : ∀ (l : List Verif.Extsort.Ann) (s : Scribe σ), s.annotates = true →
    annotateAll I s l = ({ s with builder := (performAll I s.builder ((l.filter fun a => decide (0 < a.feature)).map
      fun a => .feature a.feature a.p a.q a.v)).1 }, true)
  | [], s, _ => rfl
  | x :: l, s, hs => by
    rw [annotateAll]
    by_cases h0 : x.feature = 0
    · rw [if_neg (by simpa using h0), annotateAll_eq I l s hs]
      rw [List.filter_cons_of_neg (by simp [h0])]
    · rw [if_pos h0]
      by_cases hp : 0 < x.feature
      · have : annotate I s x.feature x.p x.q x.v = ({ s with builder := (perform I s.builder (.feature x.feature x.p x.q x.v)).1 }, true) := by
          rw [annotate, if_neg (by omega), hs]; rfl
        simp only [this, if_true]
        rw [annotateAll_eq I l { s with builder := (perform I s.builder (.feature x.feature x.p x.q x.v)).1 } hs,
          List.filter_cons_of_pos (by simpa using hp)]
        rfl
      · have : annotate I s x.feature x.p x.q x.v = (s, true) := by
          rw [annotate, if_pos (by omega)]
        simp only [this, if_true]
        rw [annotateAll_eq I l _ hs, List.filter_cons_of_neg (by simpa using hp)]

/-- a call passes on what it means -/
theorem call_builder {a : Bool} {I : Inner σ} {s s' : Scribe σ} {c : Call} {r : Option Bool} (hw : Whole c)
    (h1 : s.annotates = true) (h2 : s.appends = true) (h : call a I s c = some (s', r)) :
    s'.builder = (performAll I s.builder (meant c)).1 ∧ s'.annotates = true ∧ s'.appends = true := by
  cases c with
  | append t =>
    rw [call, if_neg (by simp [h2])] at h
    cases h
    exact ⟨rfl, h1, h2⟩
  | annotate f p q v =>
    simp only [call, Option.some.injEq, Prod.mk.injEq] at h
    obtain ⟨rfl, _⟩ := h
    rw [annotate, meant]
    by_cases hf : f ≤ 0
    · rw [if_pos hf, if_neg (show ¬ 0 < f by omega)]
      exact ⟨rfl, h1, h2⟩
    · rw [if_neg hf, if_pos (show 0 < f by omega), if_neg (by simp [h1])]
      exact ⟨rfl, h1, h2⟩
  | annotations o =>
    cases o with
    | none =>
      simp only [call, Option.some.injEq, Prod.mk.injEq] at h
      obtain ⟨rfl, _⟩ := h
      exact ⟨rfl, h1, h2⟩
    | some bs =>
      simp only [call, Option.some.injEq, Prod.mk.injEq] at h
      obtain ⟨rfl, _⟩ := h
      rw [annotateAll_eq I _ s h1]
      exact ⟨rfl, h1, h2⟩
  | erase p q =>
    simp only [call, Option.some.injEq, Prod.mk.injEq] at h
    obtain ⟨rfl, _⟩ := h
    exact ⟨rfl, h1, h2⟩
  | set k v =>
    simp only [call, Option.some.injEq, Prod.mk.injEq] at h
    obtain ⟨rfl, _⟩ := h
    exact ⟨rfl, h1, h2⟩
  | finalize =>
    simp only [call, Option.some.injEq, Prod.mk.injEq] at h
    obtain ⟨rfl, _⟩ := h
    exact ⟨rfl, h1, h2⟩
  | transaction x =>
    cases hw
    simp only [call, Option.some.injEq, Prod.mk.injEq] at h
    obtain ⟨rfl, _⟩ := h
    exact ⟨rfl, h1, h2⟩
  | ready x =>
    cases hw
    simp only [call, Option.some.injEq, Prod.mk.injEq] at h
    obtain ⟨rfl, _⟩ := h
    exact ⟨rfl, h1, h2⟩
  | commit x =>
    cases hw
    simp only [call] at h
    split at h
    · cases h
    · cases h
      exact ⟨rfl, h1, h2⟩
  | abort x =>
    cases hw
    simp only [call, Option.some.injEq, Prod.mk.injEq] at h
    obtain ⟨rfl, _⟩ := h
    refine ⟨?_, ?_, ?_⟩ <;> split <;> first | rfl | assumption

theorem calls_builder {a : Bool} {I : Inner σ} : ∀ {h : List Call} {s s' : Scribe σ} {as : List (Option Bool)},
    (∀ c ∈ h, Whole c) → s.annotates = true → s.appends = true → calls a I s h = some (s', as) →
    s'.builder = (performAll I s.builder (h.flatMap meant)).1 ∧ s'.annotates = true ∧ s'.appends = true
  | [], s, s', as, _, h1, h2, h => by
    cases h
    exact ⟨rfl, h1, h2⟩
  | c :: h, s, s', as, hw, h1, h2, hh => by
    rw [calls] at hh
    cases hc : call a I s c with
    | none => rw [hc] at hh; cases hh
    | some x =>
      obtain ⟨m, y⟩ := x
      simp only [hc] at hh
      cases hr : calls a I m h with
      | none => rw [hr] at hh; cases hh
      | some x =>
        obtain ⟨m', z⟩ := x
        simp only [hr, Option.some.injEq, Prod.mk.injEq] at hh
        obtain ⟨rfl, _⟩ := hh
        obtain ⟨g1, g2, g3⟩ := call_builder (hw c (by simp)) h1 h2 hc
        obtain ⟨k1, k2, k3⟩ := calls_builder (fun c hc => hw c (by simp [hc])) g2 g3 hr
        refine ⟨?_, k2, k3⟩
        rw [k1, g1, List.flatMap_cons, performAll_append]

theorem getFlags_set (s : Scribe σ) (f : Flags) (x y : Part) :
    (s.setFlags f x).flags y = if x = y then f else s.flags y := by
  cases x <;> cases y <;> rfl

theorem close_flags (s : Scribe σ) (x y : Part) : (s.close x).flags y = s.flags y := by
  cases x <;> cases y <;> rfl

theorem annotate_flags (I : Inner σ) (s : Scribe σ) (f p q v : Int) (y : Part) :
    (annotate I s f p q v).1.flags y = s.flags y ∧ (annotate I s f p q v).1.annotates = s.annotates := by
  rw [annotate]
  split
  · exact ⟨rfl, rfl⟩
  · split
    · exact ⟨rfl, rfl⟩
    · cases y <;> exact ⟨rfl, rfl⟩

theorem annotateAll_flags (I : Inner σ) (y : Part) : ∀ (l : List Verif.Extsort.Ann) (s : Scribe σ),
    (annotateAll I s l).1.flags y = s.flags y ∧ (annotateAll I s l).1.annotates = s.annotates
  | [], s => ⟨rfl, rfl⟩
  | x :: l, s => by
    rw [annotateAll]
    split
    · dsimp only
      split
      · rw [(annotateAll_flags I y l _).1, (annotateAll_flags I y l _).2]
        exact annotate_flags I s _ _ _ _ y
      · exact annotate_flags I s _ _ _ _ y
    · exact annotateAll_flags I y l s

/-- the flag `started_` after a call -/
theorem call_started {a : Bool} {I : Inner σ} {s s' : Scribe σ} {c : Call} {r : Option Bool} (x : Part)
    (h : call a I s c = some (s', r)) :
    (s'.flags x).started = if c = .transaction x then true
      else if c = .commit x ∨ c = .abort x then false else (s.flags x).started := by
  cases c with
  | append t =>
    rw [if_neg nofun, if_neg (by rintro (h | h) <;> cases h)]
    simp only [call] at h
    split at h
    · cases h; rfl
    · cases h; cases x <;> rfl
  | annotate f p q v =>
    rw [if_neg nofun, if_neg (by rintro (h | h) <;> cases h)]
    simp only [call, Option.some.injEq, Prod.mk.injEq] at h
    obtain ⟨rfl, _⟩ := h
    rw [(annotate_flags I s f p q v x).1]
  | annotations o =>
    rw [if_neg nofun, if_neg (by rintro (h | h) <;> cases h)]
    cases o with
    | none => cases h; rfl
    | some bs =>
      simp only [call, Option.some.injEq, Prod.mk.injEq] at h
      obtain ⟨rfl, _⟩ := h
      rw [(annotateAll_flags I x _ s).1]
  | erase p q => rw [if_neg nofun, if_neg (by rintro (h | h) <;> cases h)]; cases h; rfl
  | set k v => rw [if_neg nofun, if_neg (by rintro (h | h) <;> cases h)]; cases h; rfl
  | finalize =>
    rw [if_neg nofun, if_neg (by rintro (h | h) <;> cases h)]
    cases h; cases x <;> rfl
  | transaction y =>
    simp only [call, Option.some.injEq, Prod.mk.injEq] at h
    obtain ⟨rfl, _⟩ := h
    rw [getFlags_set]
    by_cases hy : y = x
    · subst hy
      rw [if_pos rfl, if_pos rfl, Flags.transaction]
      split
      · assumption
      · rfl
    · rw [if_neg hy, if_neg (by simpa using hy), if_neg (by rintro (h | h) <;> cases h)]
  | ready y =>
    rw [if_neg nofun, if_neg (by rintro (h | h) <;> cases h)]
    simp only [call, Option.some.injEq, Prod.mk.injEq] at h
    obtain ⟨rfl, _⟩ := h
    rw [getFlags_set]
    by_cases hy : y = x
    · subst hy
      rw [if_pos rfl, Flags.ready]
      split
      · rfl
      · split <;> rfl
    · rw [if_neg hy]
  | commit y =>
    rw [if_neg nofun]
    simp only [call] at h
    split at h
    · cases h
    · cases h
      rw [getFlags_set, close_flags]
      by_cases hy : y = x
      · rw [if_pos hy, if_pos (.inl (by rw [hy]))]
      · rw [if_neg hy, if_neg (by simpa using hy)]
  | abort y =>
    rw [if_neg nofun]
    simp only [call, Option.some.injEq, Prod.mk.injEq] at h
    obtain ⟨rfl, _⟩ := h
    rw [getFlags_set]
    by_cases hy : y = x
    · rw [if_pos hy, if_pos (.inr (by rw [hy]))]
    · rw [if_neg hy, if_neg (show ¬ (Call.abort y = .commit x ∨ Call.abort y = .abort x) by simpa using hy)]
      split
      · rw [close_flags]
      · rfl

theorem inTransaction_snoc (x : Part) (h : List Call) (c : Call) :
    InTransaction x (h ++ [c]) ↔ c = .transaction x ∨ (¬ (c = .commit x ∨ c = .abort x) ∧ InTransaction x h) := by
  constructor
  · rintro ⟨pre, post, e, h1, h2⟩
    rcases List.eq_nil_or_concat post with rfl | ⟨post', d, rfl⟩
    · have := List.append_inj' e rfl
      exact .inl (by simpa using this.2)
    · rw [List.concat_eq_append] at e h1 h2
      have e' : h ++ [c] = (pre ++ .transaction x :: post') ++ [d] := by rw [e]; simp
      have := List.append_inj' e' rfl
      obtain ⟨e1, e2⟩ := this
      cases e2
      refine .inr ⟨?_, pre, post', e1, fun hm => h1 (by simp [hm]), fun hm => h2 (by simp [hm])⟩
      rintro (rfl | rfl)
      · exact h1 (by simp)
      · exact h2 (by simp)
  · rintro (rfl | ⟨hn, pre, post, rfl, h1, h2⟩)
    · exact ⟨h, [], rfl, by simp, by simp⟩
    · refine ⟨pre, post ++ [c], by simp, ?_, ?_⟩
      · rw [List.mem_append, List.mem_singleton]
        rintro (hm | hm)
        · exact h1 hm
        · exact hn (.inl hm.symm)
      · rw [List.mem_append, List.mem_singleton]
        rintro (hm | hm)
        · exact h2 hm
        · exact hn (.inr hm.symm)

/-- the states in a history of a new scribe -/
theorem calls_snoc {a : Bool} {I : Inner σ} {s s'' : Scribe σ} {h : List Call} {c : Call} {bs : List (Option Bool)}
    (hh : calls a I s (h ++ [c]) = some (s'', bs)) :
    ∃ s' as r, calls a I s h = some (s', as) ∧ call a I s' c = some (s'', r) ∧ bs = as ++ [r] := by
  rw [calls_append] at hh
  cases h1 : calls a I s h with
  | none => rw [h1] at hh; cases hh
  | some x =>
    obtain ⟨s', as⟩ := x
    simp only [h1, calls] at hh
    cases h2 : call a I s' c with
    | none => rw [h2] at hh; cases hh
    | some x =>
      obtain ⟨m, r⟩ := x
      simp only [h2, Option.some.injEq, Prod.mk.injEq] at hh
      exact ⟨s', as, r, rfl, by rw [h2, hh.1], hh.2.symm⟩

theorem started_iff {a : Bool} {I : Inner σ} {b : Builder σ} (x : Part) : ∀ (n : Nat) {h : List Call} {s : Scribe σ}
    {as : List (Option Bool)}, h.length = n → calls a I (make b) h = some (s, as) →
    ((s.flags x).started = true ↔ InTransaction x h)
  | 0, h, s, as, hn, hh => by
    cases List.eq_nil_of_length_eq_zero hn
    cases hh
    constructor
    · intro hs; cases x <;> cases hs
    · rintro ⟨pre, post, e, _⟩
      cases pre <;> cases e
  | n + 1, h, s, as, hn, hh => by
    rcases List.eq_nil_or_concat h with rfl | ⟨h', c, rfl⟩
    · cases hn
    · rw [List.concat_eq_append] at hn hh ⊢
      obtain ⟨s', as', r, h1, h2, _⟩ := calls_snoc hh
      rw [call_started x h2, inTransaction_snoc]
      have ih := started_iff x n (by simpa using hn) h1
      by_cases c1 : c = .transaction x
      · simp [c1]
      · rw [if_neg c1]
        by_cases c2 : c = .commit x ∨ c = .abort x
        · rw [if_pos c2]
          simp [c1, c2]
        · rw [if_neg c2, ih]
          simp only [c1, c2, false_or, not_false_eq_true, true_and]

/-- once the annotator has lost its builder it does not get it back -/
theorem call_cut {a : Bool} {I : Inner σ} {s s' : Scribe σ} {c : Call} {r : Option Bool} (h1 : s.annotates = false)
    (h : call a I s c = some (s', r)) : s'.annotates = false := by
  cases c with
  | append t =>
    simp only [call] at h
    split at h
    · cases h; exact h1
    · cases h; exact h1
  | annotate f p q v =>
    simp only [call, Option.some.injEq, Prod.mk.injEq] at h
    obtain ⟨rfl, _⟩ := h
    rw [(annotate_flags I s f p q v .scribe).2, h1]
  | annotations o =>
    cases o with
    | none => cases h; exact h1
    | some bs =>
      simp only [call, Option.some.injEq, Prod.mk.injEq] at h
      obtain ⟨rfl, _⟩ := h
      rw [(annotateAll_flags I .scribe _ s).2, h1]
  | erase p q => cases h; exact h1
  | set k v => cases h; exact h1
  | finalize => cases h; exact h1
  | transaction y => cases h; rw [(setFlags_same _ _ _).2.1, h1]
  | ready y => cases h; rw [(setFlags_same _ _ _).2.1, h1]
  | commit y =>
    simp only [call] at h
    split at h
    · cases h
    · cases h
      rw [(setFlags_same _ _ _).2.1]
      cases y <;> first | exact h1 | rfl
  | abort y =>
    simp only [call, Option.some.injEq, Prod.mk.injEq] at h
    obtain ⟨rfl, _⟩ := h
    rw [(setFlags_same _ _ _).2.1]
    split
    · cases y <;> first | exact h1 | rfl
    · exact h1

theorem calls_cut {a : Bool} {I : Inner σ} : ∀ {h : List Call} {s s' : Scribe σ} {as : List (Option Bool)},
    s.annotates = false → calls a I s h = some (s', as) → s'.annotates = false
  | [], s, s', as, h1, h => by cases h; exact h1
  | c :: h, s, s', as, h1, hh => by
    rw [calls] at hh
    cases hc : call a I s c with
    | none => rw [hc] at hh; cases hh
    | some x =>
      obtain ⟨m, y⟩ := x
      simp only [hc] at hh
      cases hr : calls a I m h with
      | none => rw [hr] at hh; cases hh
      | some x =>
        obtain ⟨m', z⟩ := x
        simp only [hr, Option.some.injEq, Prod.mk.injEq] at hh
        obtain ⟨rfl, _⟩ := hh
        exact calls_cut (call_cut h1 hc) hr

/-- in a build without assertions every history has an end -/
theorem calls_defined (I : Inner σ) : ∀ (h : List Call) (s : Scribe σ), ∃ s' as, calls false I s h = some (s', as)
  | [], s => ⟨s, [], rfl⟩
  | c :: h, s => by
    have : ∃ m r, call false I s c = some (m, r) := by
      cases c with
      | append t => simp only [call]; split <;> exact ⟨_, _, rfl⟩
      | annotations o => cases o <;> exact ⟨_, _, rfl⟩
      | commit x => exact ⟨_, _, rfl⟩
      | _ => exact ⟨_, _, rfl⟩
    obtain ⟨m, r, hm⟩ := this
    obtain ⟨s', as, hs⟩ := calls_defined I h m
    exact ⟨s', r :: as, by simp only [calls, hm, hs]⟩

theorem ready_vote {a : Bool} {I : Inner σ} {s s' : Scribe σ} {c : Call} {r : Option Bool} (x : Part)
    (hv : (s.flags x).vote = (s.flags x).readied) (h : call a I s c = some (s', r)) :
    (s'.flags x).vote = (s'.flags x).readied := by
  cases c with
  | append t =>
    simp only [call] at h
    split at h
    · cases h; exact hv
    · cases h; cases x <;> exact hv
  | annotate f p q v =>
    simp only [call, Option.some.injEq, Prod.mk.injEq] at h
    obtain ⟨rfl, _⟩ := h
    rw [(annotate_flags I s f p q v x).1, hv]
  | annotations o =>
    cases o with
    | none => cases h; exact hv
    | some bs =>
      simp only [call, Option.some.injEq, Prod.mk.injEq] at h
      obtain ⟨rfl, _⟩ := h
      rw [(annotateAll_flags I x _ s).1, hv]
  | erase p q => cases h; exact hv
  | set k v => cases h; exact hv
  | finalize => cases h; cases x <;> exact hv
  | transaction y =>
    cases h
    rw [getFlags_set]
    split
    · subst_vars
      rw [Flags.transaction]
      split
      · exact hv
      · rfl
    · exact hv
  | ready y =>
    cases h
    rw [getFlags_set]
    split
    · subst_vars
      rw [Flags.ready]
      split
      · exact hv
      · split
        · exact hv
        · rfl
    · exact hv
  | commit y =>
    simp only [call] at h
    split at h
    · cases h
    · cases h
      rw [getFlags_set, close_flags]
      split
      · rfl
      · exact hv
  | abort y =>
    simp only [call, Option.some.injEq, Prod.mk.injEq] at h
    obtain ⟨rfl, _⟩ := h
    rw [getFlags_set]
    split
    · rfl
    · split
      · rw [close_flags, hv]
      · exact hv

theorem calls_vote {a : Bool} {I : Inner σ} (x : Part) : ∀ {h : List Call} {s s' : Scribe σ} {as : List (Option Bool)},
    (s.flags x).vote = (s.flags x).readied → calls a I s h = some (s', as) → (s'.flags x).vote = (s'.flags x).readied
  | [], s, s', as, h1, h => by cases h; exact h1
  | c :: h, s, s', as, h1, hh => by
    rw [calls] at hh
    cases hc : call a I s c with
    | none => rw [hc] at hh; cases hh
    | some y =>
      obtain ⟨m, y⟩ := y
      simp only [hc] at hh
      cases hr : calls a I m h with
      | none => rw [hr] at hh; cases hh
      | some z =>
        obtain ⟨m', z⟩ := z
        simp only [hr, Option.some.injEq, Prod.mk.injEq] at hh
        obtain ⟨rfl, _⟩ := hh
        exact calls_vote x (ready_vote x h1 hc) hr

end Verif.BuilderScribe
