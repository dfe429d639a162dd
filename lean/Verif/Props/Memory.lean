import Verif.Mt.HeapWorld
/-
  C85: the memory of the conversion of infix queries.
-/
namespace Verif.Props

open Verif.Mt

/-- C85.  A program may have any number of threads and converters, give them any texts in any order, and destroy
converters; it never uses memory that is not there (`World.run` is none for a read, write or release of memory that was
not given out), and it sees of each converter just what a converter shows that is the only one. -/
theorem C85_history (n : Nat) (ops : List Op) (h : Sensible n [] ops) :
    ∃ ss w, (World.start n).run ops = some (ss, w) ∧ ss.length = ops.length ∧
      ∀ i, Agree (shown i ops ss) (alone [] [] (texts i ops)) := by
  obtain ⟨ss, v, h1, h2, h3⟩ := sensible_run n ops (Plain.start n) (by simp [Plain.start]) h
  obtain ⟨w, more, a, b, h4, -, -⟩ := run_holds ops (start_holds n) h1
  exact ⟨ss, w, h4, h2, fun i => (h3 i).1⟩

/-- C85.  All its memory is at every time the free nodes of the threads, the definitions of the converters, each
converter its own, and what is lost.  Nothing is lost by texts that are accepted, and nothing by texts that are refused
with another message than that a `)` is missing. -/
theorem C85_memory_partial (n : Nat) (before later : List Op) (h : Sensible n [] (before ++ later)) :
    ∃ ss w ss' w' es es' lost more, (World.start n).run before = some (ss, w) ∧ w.run later = some (ss', w') ∧
      Accounted w es lost ∧ Accounted w' es' (more ++ lost) ∧
      (∀ i env, es[i]? = some (some env) → env = after [] [] (texts i before)) ∧
      (∀ i env, es'[i]? = some (some env) → env = after [] [] (texts i (before ++ later))) ∧
      ((∀ s ∈ ss', ∀ x, s = some x → x.error ≠ some .missingClose) → (∀ i, Op.destroy i ∉ later) → more = []) := by
  obtain ⟨ss, v, h1, h2, h3⟩ := sensible_run n (before ++ later) (Plain.start n) (by simp [Plain.start]) h
  obtain ⟨ss1, v1, ss2, e1, e2⟩ := run_append before later h1
  obtain ⟨ss1', v1', e1', -, g3⟩ := sensible_run n before (Plain.start n) (by simp [Plain.start]) (sensible_left n before later [] h)
  rw [e1] at e1'
  cases e1'
  obtain ⟨w, lost, a, b, h4, h5, -⟩ := run_holds before (start_holds n) e1
  obtain ⟨w', more, a', b', h6, h7, h8⟩ := run_holds later h5 e2
  rw [List.append_nil] at h5 h7
  have val : ∀ i, (Plain.start n).value i = ([], []) := fun i => rfl
  refine ⟨ss1, w, ss2, w', _, _, lost, more, h4, h6, h5.accounted, h7.accounted, fun i env hi => ?_, fun i env hi => ?_, h8⟩
  · rw [List.getElem?_map] at hi
    cases hc : v1.mts[i]? with
    | none => rw [hc] at hi; simp at hi
    | some c =>
      cases c with
      | none => rw [hc] at hi; simp at hi
      | some c =>
        rw [hc] at hi
        simp only [Option.map_some, Option.some.injEq] at hi
        rw [← hi]
        exact (g3 i).2 c hc
  · rw [List.getElem?_map] at hi
    cases hc : v.mts[i]? with
    | none => rw [hc] at hi; simp at hi
    | some c =>
      cases c with
      | none => rw [hc] at hi; simp at hi
      | some c =>
        rw [hc] at hi
        simp only [Option.map_some, Option.some.injEq] at hi
        rw [← hi]
        exact (h3 i).2 c hc

/-- C85.  The end of a converter loses no more than the queries of its definitions. -/
theorem C85_destroy_partial (n i : Nat) (before : List Op) (h : Sensible n [] (before ++ [.destroy i])) :
    ∃ ss w w' es es' lost more, (World.start n).run before = some (ss, w) ∧ w.step (.destroy i) = some (none, w') ∧
      Accounted w es lost ∧ Accounted w' es' (more ++ lost) ∧
      more.length = ((after [] [] (texts i before)).map fun d => cells d.2).sum := by
  obtain ⟨ss, v, h1, h2, h3⟩ := sensible_run n (before ++ [Op.destroy i]) (Plain.start n) (by simp [Plain.start]) h
  obtain ⟨ss1, v1, ss2, e1, e2⟩ := run_append before [Op.destroy i] h1
  obtain ⟨ss1', v1', e1', -, g3⟩ := sensible_run n before (Plain.start n) (by simp [Plain.start]) (sensible_left n before [Op.destroy i] [] h)
  rw [e1] at e1'
  cases e1'
  obtain ⟨w, lost, a, b, h4, h5, -⟩ := run_holds before (start_holds n) e1
  rw [List.append_nil] at h5
  unfold Plain.run at e2
  cases hs : v1.step (.destroy i) with
  | none => rw [hs] at e2; cases e2
  | some y =>
    obtain ⟨s, v2⟩ := y
    obtain ⟨w', more, a', b', h6, h7, h8⟩ := step_holds h5 hs
    simp only [Plain.step] at hs
    split at hs
    · rename_i c hc
      cases hs
      refine ⟨ss1, w, w', _, _, lost, more, h4, h6, h5.accounted, h7.accounted, ?_⟩
      rw [h8 c hc, (g3 i).2 c hc]
      rfl
    · cases hs

/-! ### cases -/

/-- two threads and two converters: `x = ("a" ^ "b")` and `x .. [3]` of one, `x` and `"q"` of the other, then its end -/
def twoConverters : List Op :=
  [.create, .create, .convert 0 0 ['x', ' ', '=', ' ', '(', '"', 'a', '"', ' ', '^', ' ', '"', 'b', '"', ')'], .convert 1 1 ['x'],
    .convert 1 0 ['x', ' ', '.', '.', ' ', '[', '3', ']'], .convert 0 1 ['"', 'q', '"'], .destroy 1, .convert 1 0 ['x']]

example : Sensible 2 [] twoConverters := by
  simp [twoConverters, Sensible]

example : (texts 0 twoConverters).length = 3 ∧ (alone [] [] (texts 0 twoConverters)).map (·.ok) = [true, true, true] ∧
    (alone [] [] (texts 1 twoConverters)).map (·.ok) = [false, true] := by decide +kernel

/-- memory is lost if no thread has free nodes and no converter definitions -/
theorem lost_of_nothing {w : World} {es : List (Option Env)} {lost : List Nat} (h : Accounted w es lost) (hf : ∀ t ∈ w.threads, t.1 = 0)
    (hz : w.heap 0 = none) (hd : ∀ c ∈ w.mts, ∀ x, c = some x → x.env = 0) {p : Nat} (hp : (w.heap p).isSome) : p ∈ lost := by
  obtain ⟨a, b, h1, h2, -, h4⟩ := h
  have ha : a = [] := by
    clear h4
    generalize w.threads = ts at h1 hf
    induction h1 with
    | nil => rfl
    | @cons f msg ts l fp c _ ih =>
      have : f = 0 := hf (f, msg) (by simp)
      subst this
      rw [ih fun t ht => hf t (by simp [ht])]
      cases c with
      | nil => rfl
      | cons e _ => rw [hz] at e; cases e
  have hb : b = [] := by
    clear h4
    generalize w.mts = ts at h2 hd
    induction h2 with
    | nil => rfl
    | gone _ ih => exact ih fun c hc => hd c (by simp [hc])
    | @cons c env efp cs es fp t _ ih =>
      have : c.env = 0 := hd (some c) (by simp) c rfl
      rw [this] at t
      rw [ih fun c hc => hd c (by simp [hc])]
      cases t with
      | nil => rfl
      | cons e _ _ _ => rw [hz] at e; cases e
  have := (h4 p).1 (by cases hq : w.heap p with
    | none => rw [hq] at hp; cases hp
    | some y => simp)
  rw [ha, hb] at this
  exact this

/-- what a program has at its end: no free nodes, no definitions, but memory at these addresses -/
def Empty (o : Option (List (Option Seen) × World)) (ps : List Nat) : Bool :=
  match o with
  | none => false
  | some (_, w) => w.threads.all (·.1 == 0) && w.mts.all (fun c => match c with | none => true | some x => x.env == 0) &&
      (w.heap 0).isNone && ps.all fun p => (w.heap p).isSome

theorem empty_loses {o : Option (List (Option Seen) × World)} {ps : List Nat} (h : Empty o ps = true) :
    ∃ ss w, o = some (ss, w) ∧ ∀ es lost, Accounted w es lost → ∀ p ∈ ps, p ∈ lost := by
  cases o with
  | none => cases h
  | some y =>
    obtain ⟨ss, w⟩ := y
    refine ⟨ss, w, rfl, fun es lost ha p hp => ?_⟩
    simp only [Empty, Bool.and_eq_true, List.all_eq_true] at h
    obtain ⟨⟨⟨h1, h2⟩, h3⟩, h4⟩ := h
    refine lost_of_nothing ha (fun t ht => by simpa using h1 t ht) (by simpa using h3) (fun c hc x hx => ?_) (h4 p hp)
    have := h2 c hc
    subst hx
    simpa using this

/-- C85, what is not so: when a `)` is missing, what was read after the `(` is lost.  After `("a"` there are three pieces
of memory that nothing points to, however it is counted. -/
theorem C85_missing_close_loses : ∃ ss w, (World.start 1).run [.create, .convert 0 0 ['(', '"', 'a', '"']] = some (ss, w) ∧
    ∀ es lost, Accounted w es lost → ∀ p ∈ [1, 2, 3], p ∈ lost :=
  empty_loses (by decide +kernel)

/-- C85, what is not so: the end of a converter does not give back the queries of its definitions, here of `x="a"`. -/
theorem C85_destroy_loses : ∃ ss w, (World.start 1).run [.create, .convert 0 0 ['x', '=', '"', 'a', '"'], .destroy 0] = some (ss, w) ∧
    ∀ es lost, Accounted w es lost → ∀ p ∈ [3, 4, 5], p ∈ lost :=
  empty_loses (by decide +kernel)

end Verif.Props
