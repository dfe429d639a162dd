import Verif.BuilderScribe.Proof
import Verif.Props.Inhale
/-
  C77: a scribe on a builder is the builder.
-/
namespace Verif.Props
open Verif.BuilderScribe
open Verif.Inhale (Bytes Op Inner Builder perform performAll Carried)

/-- **C77** (partial: see `C77_annotator`).  Whatever is done with a scribe on a builder, short of ending
transactions of its annotator or appender by themselves: the builder gets the texts and annotations of the calls, those of
files included, in their order, and nothing else, as if the program had called it; a text and the end are answered as the
builder answers them; parameters cannot be set and nothing can be erased. -/
theorem C77_through_partial {a : Bool} {I : Inner σ} {b : Builder σ} {h : List Call} {s : Scribe σ} {as : List (Option Bool)}
    (hw : ∀ c ∈ h, Whole c) (hh : calls a I (make b) h = some (s, as)) :
    s.builder = (performAll I b (h.flatMap meant)).1 ∧
    (∀ t, (call a I s (.append t)).map (·.2) = some (some (perform I s.builder (.text t)).2)) ∧
    (call a I s .finalize).map (·.2) = some (some (perform I s.builder .finalize).2) ∧
    (∀ k v, (call a I s (.set k v)).map (·.2) = some (some false)) ∧
    (∀ p q, (call a I s (.erase p q)).map (·.2) = some (some false)) ∧
    (call a I s (.annotations none)).map (·.2) = some (some false) := by
  obtain ⟨h1, h2, h3⟩ := calls_builder hw rfl rfl hh
  refine ⟨h1, ?_, rfl, fun _ _ => rfl, fun _ _ => rfl, rfl⟩
  intro t
  simp only [call, h3]
  rfl

/-- **C77** (partial: see `C77_annotator`).  The first `finalize` says yes exactly if every text and every annotation
given to the scribe before, and the end itself, were carried out, in their order; and then that is what was built.  (So an
annotation that was lost without a word, as in `C77_unheard`, is noticed there at the latest.) -/
theorem C77_finalize_partial {a : Bool} {I : Inner σ} {s₀ : σ} {h : List Call} {s : Scribe σ} {as : List (Option Bool)}
    (hw : ∀ c ∈ h, Whole c) (hf : Call.finalize ∉ h)
    (hh : calls a I (make { inner := s₀ }) (h ++ [.finalize]) = some (s, as)) :
    (as.getLast? = some (some true) ↔ ∃ s', Carried I s₀ (h.flatMap meant ++ [.finalize]) s') ∧
    ∀ s', Carried I s₀ (h.flatMap meant ++ [.finalize]) s' → s.builder.inner = s' := by
  obtain ⟨m, as', r, h1, h2, rfl⟩ := calls_snoc hh
  obtain ⟨g1, -, -⟩ := calls_builder hw rfl rfl h1
  simp only [call, Option.some.injEq, Prod.mk.injEq] at h2
  obtain ⟨rfl, rfl⟩ := h2
  have hnf : Op.finalize ∉ h.flatMap meant := by
    rw [List.mem_flatMap]
    rintro ⟨c, hc, hm⟩
    cases c with
    | finalize => exact hf hc
    | append t => simp [meant] at hm
    | annotate f p q v => simp only [meant] at hm; split at hm <;> simp at hm
    | annotations o => cases o <;> simp [meant] at hm
    | _ => simp [meant] at hm
  have hlast : (as' ++ [some (perform I m.builder .finalize).2]).getLast? = some (some (perform I m.builder .finalize).2) := by simp
  rw [hlast]
  show (_ ↔ _) ∧ ∀ s', _ → (perform I m.builder .finalize).1.inner = s'
  have hb : m.builder = (performAll I { inner := s₀ } (h.flatMap meant)).1 := g1
  have carry : ∀ s', Carried I s₀ (h.flatMap meant ++ [.finalize]) s' →
      (perform I m.builder .finalize).2 = true ∧ (perform I m.builder .finalize).1.inner = s' := by
    intro s' hs
    obtain ⟨x, hx, hy⟩ := (Verif.Inhale.carried_append I _ _ s₀ s').1 hs
    rw [hb, Verif.Inhale.performAll_open I _ s₀ x hnf hx]
    rw [perform, if_neg (by simp), if_neg (by simp)]
    exact ⟨hy.1, hy.2.symm⟩
  refine ⟨⟨?_, ?_⟩, fun s' hs => (carry s' hs).2⟩
  · intro ht
    have ht : (perform I m.builder .finalize).2 = true := by simpa using ht
    have hall : performAll I { inner := s₀ } (h.flatMap meant ++ [.finalize]) =
        ((perform I m.builder .finalize).1, (performAll I { inner := s₀ } (h.flatMap meant)).2 ++ [true]) := by
      rw [Verif.Inhale.performAll_append, ← hb]
      simp only [performAll, ht]
    rcases C75_history I s₀ (h.flatMap meant ++ [.finalize]) with ⟨hn, _⟩ | ⟨pre, o, post, x, e, -, -, -, -, hr⟩ | ⟨pre, post, x, e, hp, hc, hi, -, -⟩
    · exact absurd (by simp) hn
    · rw [hall] at hr
      have hlast' := congrArg List.getLast? hr
      rw [List.getLast?_append] at hlast'
      have : (pre.map (fun _ => true) ++ false :: post.map fun _ => false).getLast? = some false := by
        rw [List.getLast?_append]
        cases hpo : post.getLast? with
        | none =>
          have : post = [] := by simpa using hpo
          subst this
          rfl
        | some y =>
          have hne : post ≠ [] := by rintro rfl; cases hpo
          rw [List.getLast?_cons, List.getLast?_map, hpo]
          rfl
      rw [this] at hlast'
      cases hlast'
    · -- the only end is the last step
      have hpost : post = [] := by
        rcases List.eq_nil_or_concat post with hpo | ⟨post', d, hpo⟩
        · exact hpo
        · exfalso
          rw [List.concat_eq_append] at hpo
          subst hpo
          have e' : h.flatMap meant ++ [.finalize] = (pre ++ .finalize :: post') ++ [d] := by rw [e]; simp
          have := (List.append_inj' e' rfl).1
          exact hnf (by rw [this]; simp)
      subst hpost
      have := (List.append_inj' e rfl).1
      refine ⟨(I x .finalize).1, (Verif.Inhale.carried_append I _ _ s₀ _).2 ⟨x, ?_, hi, rfl⟩⟩
      rw [this]; exact hc
  · rintro ⟨s', hs⟩
    exact congrArg some (congrArg some (carry s' hs).1)

/-- **C77.** In every history, of the scribe as of its annotator and appender: a transaction is refused exactly if there is one already, and a
transaction is ready exactly if there is one. -/
theorem C77_transaction {a : Bool} {I : Inner σ} {b : Builder σ} {h : List Call} {s : Scribe σ} {as : List (Option Bool)} (x : Part)
    (hh : calls a I (make b) h = some (s, as)) :
    ((call a I s (.transaction x)).map (·.2) = some (some true) ↔ ¬ InTransaction x h) ∧
    ((call a I s (.ready x)).map (·.2) = some (some true) ↔ InTransaction x h) := by
  have hs := started_iff x h.length rfl hh
  have hv : (s.flags x).vote = (s.flags x).readied := calls_vote x (by cases x <;> rfl) hh
  rw [← hs]
  constructor
  · simp only [call, Option.map_some, Option.some.injEq, Flags.transaction]
    cases (s.flags x).started <;> simp
  · simp only [call, Option.map_some, Option.some.injEq, Flags.ready]
    cases (s.flags x).started
    · simp
    · cases hr : (s.flags x).readied
      · simp
      · simp [hv, hr]

/-- **C77.** Every history has an end in a build without assertions; and in one with them, a commit is allowed after a transaction
that was found ready. -/
theorem C77_defined (I : Inner σ) (s : Scribe σ) :
    (∀ h, ∃ s' as, calls false I s h = some (s', as)) ∧
    ∀ x s₁ s₂, call true I s (.transaction x) = some (s₁, some true) → call true I s₁ (.ready x) = some (s₂, some true) →
      ∃ s₃, call true I s₂ (.commit x) = some (s₃, none) := by
  refine ⟨fun h => calls_defined I h s, ?_⟩
  intro x s₁ s₂ h1 h2
  have e1 := call_started x h1
  rw [if_pos rfl] at e1
  have e2 := call_started x h2
  rw [if_neg nofun, if_neg (by rintro (h | h) <;> cases h), e1] at e2
  have hv : (s₂.flags x).vote = true := by
    simp only [call, Option.some.injEq, Prod.mk.injEq] at h2
    obtain ⟨rfl, h2⟩ := h2
    rw [getFlags_set, if_pos rfl]
    rw [Flags.ready] at h2 ⊢
    rw [e1] at h2 ⊢
    simp only [Bool.not_true, Bool.false_eq_true, if_false] at h2 ⊢
    split at h2
    · rename_i hr
      rw [if_pos hr]; exact h2
    · rename_i hr
      rw [if_neg hr]
  refine ⟨(s₂.close x).setFlags {} x, ?_⟩
  rw [call, if_neg (by simp [e2, hv])]

/-- **Not C77.** An annotation that the builder refuses (after a failure, or after the end) is answered with yes, and lost. -/
theorem C77_unheard {a : Bool} {I : Inner σ} {s : Scribe σ} (hs : s.annotates = true) (f p q v : Int) :
    (call a I s (.annotate f p q v)).map (·.2) = some (some true) ∧
    (s.builder.failed = true ∨ s.builder.finalized = true →
      ∃ s', call a I s (.annotate f p q v) = some (s', some true) ∧ s'.builder = s.builder) := by
  have hy : (annotate I s f p q v).2 = true := by
    rw [annotate]
    split
    · rfl
    · rw [hs]; rfl
  refine ⟨by simp only [call, hy]; rfl, ?_⟩
  intro hb
  refine ⟨_, by simp only [call, hy]; rfl, ?_⟩
  rw [annotate]
  split
  · rfl
  · rw [hs]
    show (perform I s.builder _).1 = _
    rw [perform]
    rcases hb with hb | hb
    · rw [if_pos hb]
    · by_cases hf : s.builder.failed = true
      · rw [if_pos hf]
      · rw [if_neg hf, if_pos hb]

/-- **Not C77.** Aborting a transaction of the scribe keeps everything that was added in it. -/
theorem C77_abort {a : Bool} {I : Inner σ} {s s' : Scribe σ} {r : Option Bool} (h : call a I s (.abort .scribe) = some (s', r)) :
    s'.builder = s.builder := by
  cases h
  show ((if _ then s else s).setFlags _ _).builder = _
  split <;> rfl

/-- **Not C77.** After the annotator's own transaction was committed or aborted, the scribe cannot annotate any more. -/
theorem C77_annotator {a : Bool} {I : Inner σ} {b : Builder σ} {h k : List Call} {s : Scribe σ} {as : List (Option Bool)} {c : Call}
    (ht : InTransaction .annotator h) (hc : c = .commit .annotator ∨ c = .abort .annotator)
    (hh : calls a I (make b) (h ++ c :: k) = some (s, as)) (f p q v : Int) (hf : 0 < f) :
    call a I s (.annotate f p q v) = some (s, some false) := by
  have hh' : calls a I (make b) ((h ++ [c]) ++ k) = some (s, as) := by simpa using hh
  rw [calls_append] at hh'
  cases h1 : calls a I (make b) (h ++ [c]) with
  | none => rw [h1] at hh'; cases hh'
  | some y =>
    obtain ⟨m, bs⟩ := y
    simp only [h1] at hh'
    cases h2 : calls a I m k with
    | none => rw [h2] at hh'; cases hh'
    | some z =>
      obtain ⟨m', cs⟩ := z
      simp only [h2, Option.some.injEq, Prod.mk.injEq] at hh'
      obtain ⟨rfl, -⟩ := hh'
      obtain ⟨x, as', r, g1, g2, -⟩ := calls_snoc h1
      have hst := (started_iff .annotator h.length rfl g1).2 ht
      have hm : m.annotates = false := by
        rcases hc with rfl | rfl
        · simp only [call] at g2
          split at g2
          · cases g2
          · cases g2; rfl
        · simp only [call, hst, if_true] at g2
          cases g2; rfl
      have := calls_cut hm h2
      simp only [call, annotate, this]
      rw [if_neg (by omega)]
      rfl

/-- two texts and an annotation, in a transaction that is aborted, are built; the text that does not fit fails the build, and
the annotation after it is answered with yes -/
example : (calls true threeBytes (make { inner := [] })
    [.transaction .scribe, .append [1], .annotate 5 0 0 0, .append [2], .abort .scribe, .finalize]).map (fun x => (x.1.builder.inner, x.2)) =
    some ([1, 2], [some true, some true, some true, some true, none, some true]) := rfl
example : (calls true threeBytes (make { inner := [] })
    [.append [1, 2], .append [2, 3], .annotate 5 0 0 0, .finalize]).map (fun x => (x.1.builder.inner, x.2)) =
    some ([1, 2], [some true, some false, some true, some false]) := rfl
/-- a commit without a transaction: an assertion -/
example : (calls true threeBytes (make { inner := [] }) [.append [1, 2], .commit .scribe]).isNone = true := rfl

example : ∃ s as, calls true threeBytes (make { inner := [] }) ([.append [1], .annotate 5 0 0 0] ++ [.finalize]) = some (s, as) ∧
    as.getLast? = some (some true) ∧ s.builder.inner = [1] := by
  refine ⟨_, _, rfl, ?_⟩
  obtain ⟨h1, h2⟩ := C77_finalize_partial (h := [.append [1], .annotate 5 0 0 0]) (a := true) (I := threeBytes) (s₀ := [])
    (by decide) (by decide) rfl
  have hc : Carried threeBytes [] ([Call.append [1], .annotate 5 0 0 0].flatMap meant ++ [.finalize]) [1] :=
    ⟨by decide, by decide, by decide, rfl⟩
  exact ⟨h1.2 ⟨_, hc⟩, h2 _ hc⟩

example : ∃ s as, calls true threeBytes (make { inner := [] }) ([.transaction .annotator] ++ .abort .annotator :: [.append [1]]) = some (s, as) ∧
    call true threeBytes s (.annotate 5 0 0 0) = some (s, some false) :=
  ⟨_, _, rfl, C77_annotator (h := [.transaction .annotator]) (k := [.append [1]]) (b := { inner := [] })
    ⟨[], [], rfl, by simp, by simp⟩ (.inr rfl) rfl 5 0 0 0 (by decide)⟩

end Verif.Props
