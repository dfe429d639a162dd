import Verif.Scribing.Model
import Verif.Json.Places
/-
  Lemmas about scribing files.
-/
namespace Verif.Scribing
open Verif.Text Verif.Json Verif.Hopper

/-- nothing is refused -/
structure Grants (R : Rules) : Prop where
  begins : ∀ d, R.begins d = true
  appends : ∀ st s, R.appends st s = true
  annotates : ∀ st s, R.annotates st s = true
  takes : ∀ st s, R.takes st s = true
  readies : ∀ st, R.readies st = true

/-- the transaction of a file of lines: the documents in order, then the name over all -/
def linesTxn (parse : Text → Option Value) (T : Tokenizer) (name : Text) (ls : List Text) : Scribe :=
  let st := (ls.foldlM (fun st l => (jsonScribe parse T l st).map Prod.fst) {}).getD {}
  if ls = [] then st else st.annotate (pathOf name) 0 ((st.app.address : Int) - 1) .zero

/-- a text cut at its newlines: the lines that end in one, and what follows -/
structure Cut (text : Text) (ls : List Text) (rest : Text) : Prop where
  whole : text = (ls.map (· ++ [0x0A])).flatten ++ rest
  lines : ∀ l ∈ ls, (0x0A : UInt8) ∉ l
  rest : (0x0A : UInt8) ∉ rest

theorem World.transaction_some {R : Rules} {w w' : World} (h : w.transaction R = some w') :
    w.started = false ∧ w'.started = true ∧ w'.cur = {} ∧ w'.done = w.done := by
  unfold World.transaction at h
  split at h
  · cases h
  · rename_i hs
    split at h
    · cases h; exact ⟨by simpa using hs, rfl, rfl, rfl⟩
    · cases h

theorem World.transaction_grants {R : Rules} (hR : Grants R) {w : World} (h : w.started = false) :
    w.transaction R = some { w with started := true, cur := {} } := by
  unfold World.transaction
  rw [if_neg (by simp [h]), if_pos (hR.begins _)]

theorem finish_cases {R : Rules} (w : World) : w.finish R = (w, false) ∨
    w.finish R = ({ started := false, cur := {}, done := w.done ++ [w.cur] }, true) := by
  unfold World.finish; split
  · exact Or.inr rfl
  · exact Or.inl rfl

theorem finish_grants {R : Rules} (hR : Grants R) (w : World) :
    w.finish R = ({ started := false, cur := {}, done := w.done ++ [w.cur] }, true) := by
  unfold World.finish; rw [if_pos (hR.readies _)]

theorem note_some {R : Rules} {st st' : Scribe} {tag : Text} {p q : Int} (h : note R st tag p q = some st') :
    st' = st.annotate tag p q .zero := by
  unfold note at h
  split at h
  · exact (Option.some.inj h).symm
  · cases h

section
variable {T : Tokenizer} (hT : Lawful T)
include hT

theorem fill_file {R : Rules} {name content : Text} (hn : Ok T name) (hc : Ok T content) {st : Scribe}
    (h : fillFile R T name content {} = some st) :
    st = ⟨App.all T {} [name, content],
      [⟨fileTag, 0, (T.addresses name : Int) + T.addresses content - 1, .zero⟩,
       ⟨filenameTag, 0, (T.addresses name : Int) - 1, .zero⟩,
       ⟨contentTag, T.addresses name, (T.addresses name : Int) + T.addresses content - 1, .zero⟩]⟩ := by
  have i0 : AppInv T ({} : Scribe).app := start_inv hT
  have ea := append_eq hT i0 hn
  have ia := after_inv hT i0 (l := [name]) (by simpa using hn) []
  have eb := append_eq hT ia.1 hc
  have c1 : cnt T [name] = T.addresses name := by simp [cnt]
  have z : ({} : Scribe).app.address = 0 := rfl
  rw [ia.2, c1, z] at eb
  rw [z] at ea
  unfold fillFile at h
  simp only [ea, eb] at h
  split at h
  · cases h
  split at h
  · cases h
  rw [Option.bind_eq_some_iff] at h
  obtain ⟨s1, h1, h⟩ := h
  rw [Option.bind_eq_some_iff] at h
  obtain ⟨s2, h2, h⟩ := h
  rw [note_some h, note_some h2, note_some h1]
  simp [after, Scribe.annotate, App.all]

omit hT in
theorem fill_file_grants {R : Rules} (hR : Grants R) (name content : Text) (st : Scribe) :
    ∃ st', fillFile R T name content st = some st' := by
  unfold fillFile note
  simp [hR.appends, hR.annotates]

omit hT in
theorem files_prefix {R : Rules} {read : Text → Option Text} {txn : Text → Scribe}
    (htxn : ∀ n c st, read n = some c → fillFile R T n c {} = some st → st = txn n) : ∀ (names : List Text) (w : World),
    ∃ k, k ≤ names.length ∧ (∀ n ∈ names.take k, ∃ c, read n = some c) ∧
      (scribeFiles R T read names w).1.done = w.done ++ (names.take k).map txn ∧
      ((scribeFiles R T read names w).2 = true → w.started = false →
        (k = names.length ∧ (scribeFiles R T read names w).1.started = false) ∨
        (∃ n, names = names.take k ++ [n] ∧ read n = none ∧ (scribeFiles R T read names w).1.started = true)) := by
  intro names
  induction names with
  | nil => intro w; exact ⟨0, Nat.le_refl _, by simp, by simp [scribeFiles], fun _ h => Or.inl ⟨rfl, h⟩⟩
  | cons name names ih =>
    intro w
    rw [scribeFiles]
    cases ht : w.transaction R with
    | none => exact ⟨0, Nat.zero_le _, by simp, by simp, fun h => by simp at h⟩
    | some w1 =>
      obtain ⟨-, s1, c1, d1⟩ := World.transaction_some ht
      simp only []
      cases hr : read name with
      | none =>
        simp only []
        cases names with
        | nil =>
          refine ⟨0, Nat.zero_le _, by simp, by simp [scribeFiles, d1], fun _ _ => Or.inr ⟨name, by simp, hr, ?_⟩⟩
          simp [scribeFiles, s1]
        | cons n2 ns =>
          have : w1.transaction R = none := by simp [World.transaction, s1]
          rw [scribeFiles, this]
          exact ⟨0, Nat.zero_le _, by simp, by simp [d1], fun h => by simp at h⟩
      | some content =>
        simp only []
        rw [c1]
        cases hf : fillFile R T name content {} with
        | none => exact ⟨0, Nat.zero_le _, by simp, by simp [d1], fun h => by simp at h⟩
        | some st =>
          have e := htxn _ _ _ hr hf
          simp only []
          rcases finish_cases (R := R) { w1 with cur := st } with hq | hq
          · rw [hq]
            exact ⟨0, Nat.zero_le _, by simp, by simp [d1], fun h => by simp at h⟩
          · rw [hq]
            simp only []
            obtain ⟨k, h1, h2, h3, h4⟩ := ih { started := false, cur := {}, done := w1.done ++ [st] }
            refine ⟨k + 1, by simp; omega, ?_, ?_, ?_⟩
            · intro n hn
              rw [List.take_succ_cons, List.mem_cons] at hn
              rcases hn with rfl | hn
              · exact ⟨_, hr⟩
              · exact h2 n hn
            · rw [h3, d1, e]; simp
            · intro ht _
              rcases h4 ht rfl with ⟨e1, e2⟩ | ⟨n, e1, e2, e3⟩
              · exact Or.inl ⟨by simp [e1], e2⟩
              · refine Or.inr ⟨n, ?_, e2, e3⟩
                rw [List.take_succ_cons, List.cons_append, ← e1]

omit hT in
theorem files_grants {R : Rules} (hR : Grants R) {read : Text → Option Text} : ∀ (names : List Text) (w : World),
    w.started = false → (∀ n ∈ names, ∃ c, read n = some c) → (scribeFiles R T read names w).2 = true := by
  intro names
  induction names with
  | nil => intro w _ _; rfl
  | cons name names ih =>
    intro w hw hr
    obtain ⟨c, hc⟩ := hr name (List.mem_cons_self ..)
    obtain ⟨st, hst⟩ := fill_file_grants (T := T) hR name c {}
    rw [scribeFiles, World.transaction_grants hR hw]
    simp only [hc, hst, finish_grants hR]
    exact ih _ rfl fun n hn => hr n (List.mem_cons_of_mem _ hn)

/-- the loop over lines, once they are cut -/
def fillEach (R : Rules) (parse : Text → Option Value) (T : Tokenizer) : List Text → Scribe → Int → Int → Option (Scribe × Int × Int)
  | [], st, p, q => some (st, p, q)
  | l :: ls, st, p, q =>
    if !R.takes st l then none
    else match jsonScribe parse T l st with
      | none => none
      | some (st, p0, q0) => fillEach R parse T ls st (min p p0) (max q q0)

omit hT in
theorem fillLines_rest {R : Rules} {parse : Text → Option Value} : ∀ {rest : Text}, (0x0A : UInt8) ∉ rest →
    ∀ (cur : Text) (st : Scribe) (p q : Int), fillLines R parse T cur rest st p q = some (st, p, q) := by
  intro rest
  induction rest with
  | nil => intro _ cur st p q; rfl
  | cons c s ih =>
    intro h cur st p q
    rw [List.mem_cons, not_or] at h
    rw [fillLines, if_neg (fun e => h.1 e.symm)]
    exact ih h.2 _ _ _ _

omit hT in
theorem fillLines_line {R : Rules} {parse : Text → Option Value} : ∀ {l : Text}, (0x0A : UInt8) ∉ l →
    ∀ (cur s : Text) (st : Scribe) (p q : Int), fillLines R parse T cur (l ++ 0x0A :: s) st p q =
      fillLines R parse T (cur ++ l) (0x0A :: s) st p q := by
  intro l
  induction l with
  | nil => intro _ cur s st p q; simp
  | cons c l ih =>
    intro h cur s st p q
    rw [List.mem_cons, not_or] at h
    rw [List.cons_append, fillLines, if_neg (fun e => h.1 e.symm), ih h.2]
    simp

omit hT in
theorem fillLines_cut {R : Rules} {parse : Text → Option Value} {rest : Text} (hr : (0x0A : UInt8) ∉ rest) :
    ∀ {ls : List Text}, (∀ l ∈ ls, (0x0A : UInt8) ∉ l) → ∀ (st : Scribe) (p q : Int),
      fillLines R parse T [] ((ls.map (· ++ [0x0A])).flatten ++ rest) st p q = fillEach R parse T ls st p q := by
  intro ls
  induction ls with
  | nil => intro _ st p q; rw [fillEach]; simpa using fillLines_rest hr [] st p q
  | cons l ls ih =>
    intro h st p q
    have e : ((l :: ls).map (· ++ [0x0A])).flatten ++ rest = l ++ 0x0A :: ((ls.map (· ++ [0x0A])).flatten ++ rest) := by simp
    rw [e, fillLines_line (h l (List.mem_cons_self ..)), fillLines, if_pos rfl, List.nil_append, fillEach]
    split
    · rfl
    · cases jsonScribe parse T l st with
      | none => rfl
      | some r => exact ih (fun x hx => h x (List.mem_cons_of_mem _ hx)) _ _ _

theorem scribe_step {parse : Text → Option Value} (hp : ∀ s v, parse s = some v → ∀ x ∈ texts v, Ok T x) {l : Text} {st st' : Scribe}
    {p q : Int} (hi : AppInv T st.app) (h : jsonScribe parse T l st = some (st', p, q)) :
    AppInv T st'.app ∧ p = st.app.address ∧ q = (st'.app.address : Int) - 1 ∧ st.app.address < st'.app.address := by
  unfold jsonScribe at h
  split at h
  · cases h
  · rename_i v hv
    have hok := hp _ _ hv
    rw [doJson_eq hT v hok [0x3A] st hi] at h
    have hi' := after_inv hT hi hok (notesOf T v [0x3A] st.app.address)
    have hpos : 0 < cnt T (texts v) := by
      cases hx : texts v with
      | nil => exact absurd hx (texts_ne v)
      | cons s k =>
        have := (hok s (by rw [hx]; exact List.mem_cons_self ..)).2
        rw [cnt_cons]; omega
    injection h with h
    have h1 := (Prod.mk.inj h).1
    have h2 := (Prod.mk.inj (Prod.mk.inj h).2).1
    have h3 := (Prod.mk.inj (Prod.mk.inj h).2).2
    rw [← h1, hi'.2]
    refine ⟨hi'.1, h2.symm, ?_, by omega⟩
    rw [← h3]; omega

theorem fill_each {R : Rules} {parse : Text → Option Value} (hp : ∀ s v, parse s = some v → ∀ x ∈ texts v, Ok T x) :
    ∀ {ls : List Text} {st st' : Scribe} {p q p' q' : Int}, AppInv T st.app → fillEach R parse T ls st p q = some (st', p', q') →
      ls.foldlM (fun st l => (jsonScribe parse T l st).map Prod.fst) st = some st' ∧
      (ls = [] → p' = p ∧ q' = q) ∧ st.app.address ≤ st'.app.address ∧
      (ls ≠ [] → p' = min p st.app.address ∧ q' = max q ((st'.app.address : Int) - 1) ∧ st.app.address < st'.app.address) := by
  intro ls
  induction ls with
  | nil =>
    intro st st' p q p' q' _ h
    rw [fillEach] at h
    injection h with h
    have h1 := (Prod.mk.inj h).1
    have h2 := (Prod.mk.inj (Prod.mk.inj h).2).1
    have h3 := (Prod.mk.inj (Prod.mk.inj h).2).2
    refine ⟨by rw [← h1]; rfl, fun _ => ⟨h2.symm, h3.symm⟩, by rw [h1]; exact Nat.le_refl _, fun hx => absurd rfl hx⟩
  | cons l ls ih =>
    intro st st' p q p' q' hi h
    rw [fillEach] at h
    split at h
    · cases h
    cases hj : jsonScribe parse T l st with
    | none => rw [hj] at h; cases h
    | some r =>
      obtain ⟨s1, p1, q1⟩ := r
      rw [hj] at h
      obtain ⟨a1, a2, a3, a4⟩ := scribe_step hT hp hi hj
      obtain ⟨b1, b2, b3, b4⟩ := ih a1 h
      refine ⟨by rw [List.foldlM_cons, hj]; exact b1, (fun hx => by cases hx), by omega, fun _ => ?_⟩
      by_cases hls : ls = []
      · obtain ⟨c1, c2⟩ := b2 hls
        subst hls
        injection b1 with b1
        subst b1
        rw [c1, c2, a2, a3]
        exact ⟨rfl, rfl, a4⟩
      · obtain ⟨c1, c2, c3⟩ := b4 hls
        rw [c1, c2, a2, a3]
        omega

theorem fill_jsonl {R : Rules} {parse : Text → Option Value} (hp : ∀ s v, parse s = some v → ∀ x ∈ texts v, Ok T x)
    {name text : Text} {ls : List Text} {rest : Text} (hc : Cut text ls rest) {st : Scribe}
    (h : fillJsonl R parse T name text {} = some st) : st = linesTxn parse T name ls := by
  unfold fillJsonl at h
  rw [hc.whole, fillLines_cut hc.rest hc.lines] at h
  cases hf : fillEach R parse T ls {} maxfinity minfinity with
  | none => rw [hf] at h; cases h
  | some r =>
    obtain ⟨s1, p1, q1⟩ := r
    rw [hf] at h
    simp only [] at h
    obtain ⟨b1, b2, -, b4⟩ := fill_each hT hp (start_inv hT) hf
    unfold linesTxn
    rw [b1]
    simp only [Option.getD_some]
    by_cases hls : ls = []
    · obtain ⟨c1, c2⟩ := b2 hls
      rw [if_neg (by omega)] at h
      rw [if_pos hls]
      exact (Option.some.inj h).symm
    · obtain ⟨c1, c2, c3⟩ := b4 hls
      have z : ({} : Scribe).app.address = 0 := rfl
      rw [z] at c1 c3
      have e1 : p1 = 0 := by omega
      have e2 : q1 = (s1.app.address : Int) - 1 := by omega
      rw [if_pos (by omega)] at h
      rw [if_neg hls]
      unfold note at h
      split at h
      · rw [e1, e2] at h
        exact (Option.some.inj h).symm
      · cases h

omit hT in
theorem jsonl_prefix {R : Rules} {parse : Text → Option Value} {read : Text → Option Text} {txn : Text → Scribe}
    (htxn : ∀ n c st, read n = some c → fillJsonl R parse T n c {} = some st → st = txn n) : ∀ (names : List Text) (w : World),
    ∃ k, k ≤ names.length ∧ (∀ n ∈ names.take k, ∃ c, read n = some c ∧ (fillJsonl R parse T n c {}).isSome) ∧
      (scribeJsonl R parse T read names w).1.done = w.done ++ (names.take k).map txn ∧
      ((scribeJsonl R parse T read names w).2 = true → k = names.length ∧
        (w.started = false → (scribeJsonl R parse T read names w).1.started = false)) := by
  intro names
  induction names with
  | nil => intro w; exact ⟨0, Nat.le_refl _, by simp, by simp [scribeJsonl], fun _ => ⟨rfl, fun h => h⟩⟩
  | cons name names ih =>
    intro w
    rw [scribeJsonl]
    cases hr : read name with
    | none => exact ⟨0, Nat.zero_le _, by simp, by simp, fun h => by simp at h⟩
    | some content =>
      simp only []
      cases ht : w.transaction R with
      | none => exact ⟨0, Nat.zero_le _, by simp, by simp, fun h => by simp at h⟩
      | some w1 =>
        obtain ⟨-, s1, c1, d1⟩ := World.transaction_some ht
        simp only []
        rw [c1]
        cases hf : fillJsonl R parse T name content {} with
        | none => exact ⟨0, Nat.zero_le _, by simp, by simp [d1], fun h => by simp at h⟩
        | some st =>
          have e := htxn _ _ _ hr hf
          simp only []
          rcases finish_cases (R := R) { w1 with cur := st } with hq | hq
          · rw [hq]
            exact ⟨0, Nat.zero_le _, by simp, by simp [d1], fun h => by simp at h⟩
          · rw [hq]
            simp only []
            obtain ⟨k, h1, h2, h3, h4⟩ := ih { started := false, cur := {}, done := w1.done ++ [st] }
            refine ⟨k + 1, by simp; omega, ?_, ?_, ?_⟩
            · intro n hn
              rw [List.take_succ_cons, List.mem_cons] at hn
              rcases hn with rfl | hn
              · exact ⟨_, hr, by rw [hf]; rfl⟩
              · exact h2 n hn
            · rw [h3, d1, e]; simp
            · intro ht
              obtain ⟨e1, e2⟩ := h4 ht
              exact ⟨by simp [e1], fun _ => e2 rfl⟩

omit hT in
theorem fill_each_isSome {R : Rules} {parse : Text → Option Value} : ∀ {ls : List Text} {st : Scribe} {p q : Int},
    (fillEach R parse T ls st p q).isSome → ∀ l ∈ ls, (parse (if containsNonchar l then sanitize l else l)).isSome := by
  intro ls
  induction ls with
  | nil => intro _ _ _ _ l hl; cases hl
  | cons l ls ih =>
    intro st p q h x hx
    rw [fillEach] at h
    split at h
    · cases h
    unfold jsonScribe at h
    cases hv : parse (if containsNonchar l then sanitize l else l) with
    | none => rw [hv] at h; cases h
    | some v =>
      rw [hv] at h
      rw [List.mem_cons] at hx
      rcases hx with rfl | hx
      · rw [hv]; rfl
      · exact ih h x hx

omit hT in
theorem fill_each_grants {R : Rules} (hR : Grants R) {parse : Text → Option Value} : ∀ {ls : List Text} {st : Scribe} {p q : Int},
    (∀ l ∈ ls, (parse (if containsNonchar l then sanitize l else l)).isSome) → (fillEach R parse T ls st p q).isSome := by
  intro ls
  induction ls with
  | nil => intro _ _ _ _; rfl
  | cons l ls ih =>
    intro st p q h
    rw [fillEach, if_neg (by simp [hR.takes])]
    obtain ⟨v, hv⟩ := Option.isSome_iff_exists.1 (h l (List.mem_cons_self ..))
    unfold jsonScribe
    rw [hv]
    exact ih fun x hx => h x (List.mem_cons_of_mem _ hx)

omit hT in
theorem fill_each_takes {R : Rules} {parse : Text → Option Value} : ∀ {ls : List Text} {st : Scribe} {p q : Int},
    (fillEach R parse T ls st p q).isSome → ∀ l ∈ ls, ∃ st, R.takes st l = true := by
  intro ls
  induction ls with
  | nil => intro _ _ _ _ l hl; cases hl
  | cons l ls ih =>
    intro st p q h x hx
    rw [fillEach] at h
    split at h
    · cases h
    · rename_i ht
      split at h
      · cases h
      · rcases List.mem_cons.1 hx with e | hx
        · exact ⟨st, by rw [e]; simpa using ht⟩
        · exact ih h x hx

omit hT in
theorem fill_jsonl_takes {R : Rules} {parse : Text → Option Value} {name text : Text} {ls : List Text} {rest : Text}
    (hc : Cut text ls rest) (h : (fillJsonl R parse T name text {}).isSome) : ∀ l ∈ ls, ∃ st, R.takes st l = true := by
  unfold fillJsonl at h
  rw [hc.whole, fillLines_cut hc.rest hc.lines] at h
  refine fill_each_takes (R := R) (parse := parse) (T := T) (st := {}) (p := maxfinity) (q := minfinity) ?_
  cases hf : fillEach R parse T ls {} maxfinity minfinity with
  | none => rw [hf] at h; cases h
  | some r => rfl

theorem fill_jsonl_notes {R : Rules} {parse : Text → Option Value} (hp : ∀ s v, parse s = some v → ∀ x ∈ texts v, Ok T x)
    {name text : Text} {ls : List Text} {rest : Text} (hc : Cut text ls rest) (hne : ls ≠ [])
    (h : (fillJsonl R parse T name text {}).isSome) : ∃ st, R.annotates st (pathOf name) = true := by
  unfold fillJsonl at h
  rw [hc.whole, fillLines_cut hc.rest hc.lines] at h
  cases hf : fillEach R parse T ls {} maxfinity minfinity with
  | none => rw [hf] at h; cases h
  | some r =>
    obtain ⟨s1, p1, q1⟩ := r
    rw [hf] at h
    simp only [] at h
    obtain ⟨b1, b2, -, b4⟩ := fill_each hT hp (start_inv hT) hf
    obtain ⟨c1, c2, c3⟩ := b4 hne
    have z : ({} : Scribe).app.address = 0 := rfl
    rw [z] at c1 c3
    rw [if_pos (by omega)] at h
    unfold note at h
    split at h
    · rename_i ha; exact ⟨_, ha⟩
    · cases h

omit hT in
theorem fill_jsonl_isSome {R : Rules} {parse : Text → Option Value} {name text : Text} {ls : List Text} {rest : Text}
    (hc : Cut text ls rest) (h : (fillJsonl R parse T name text {}).isSome) :
    ∀ l ∈ ls, (parse (if containsNonchar l then sanitize l else l)).isSome := by
  unfold fillJsonl at h
  rw [hc.whole, fillLines_cut hc.rest hc.lines] at h
  refine fill_each_isSome (R := R) (T := T) (st := {}) (p := maxfinity) (q := minfinity) ?_
  cases hf : fillEach R parse T ls {} maxfinity minfinity with
  | none => rw [hf] at h; cases h
  | some r => rfl

omit hT in
theorem fill_jsonl_grants {R : Rules} (hR : Grants R) {parse : Text → Option Value} {name text : Text} {ls : List Text} {rest : Text}
    (hc : Cut text ls rest) (h : ∀ l ∈ ls, (parse (if containsNonchar l then sanitize l else l)).isSome) :
    (fillJsonl R parse T name text {}).isSome := by
  unfold fillJsonl
  rw [hc.whole, fillLines_cut hc.rest hc.lines]
  obtain ⟨r, hr⟩ := Option.isSome_iff_exists.1 (fill_each_grants hR (T := T) (st := {}) (p := maxfinity) (q := minfinity) h)
  rw [hr]
  simp only [note, hR.annotates, if_true]
  split <;> rfl

omit hT in
theorem jsonl_grants {R : Rules} (hR : Grants R) {parse : Text → Option Value} {read : Text → Option Text} :
    ∀ (names : List Text) (w : World), w.started = false →
      (∀ n ∈ names, ∃ c, read n = some c ∧ (fillJsonl R parse T n c {}).isSome) → (scribeJsonl R parse T read names w).2 = true := by
  intro names
  induction names with
  | nil => intro w _ _; rfl
  | cons name names ih =>
    intro w hw hr
    obtain ⟨c, hc, hs⟩ := hr name (List.mem_cons_self ..)
    obtain ⟨st, hst⟩ := Option.isSome_iff_exists.1 hs
    rw [scribeJsonl, World.transaction_grants hR hw]
    simp only [hc, hst, finish_grants hR]
    exact ih _ rfl fun n hn => hr n (List.mem_cons_of_mem _ hn)

/-- what the documents' lines leave appended -/
theorem each_app {parse : Text → Option Value} (hp : ∀ s v, parse s = some v → ∀ x ∈ texts v, Ok T x) :
    ∀ {ls : List Text} {vs : List Value} {st : Scribe}, AppInv T st.app →
      ls.map (fun l => parse (if containsNonchar l then sanitize l else l)) = vs.map some →
      ∃ st', ls.foldlM (fun st l => (jsonScribe parse T l st).map Prod.fst) st = some st' ∧
        st'.app = App.all T st.app (vs.map texts).flatten := by
  intro ls
  induction ls with
  | nil =>
    intro vs st _ h
    cases vs with
    | nil => exact ⟨st, rfl, rfl⟩
    | cons v vs => simp at h
  | cons l ls ih =>
    intro vs st hi h
    cases vs with
    | nil => simp at h
    | cons v vs =>
      simp only [List.map_cons, List.cons.injEq] at h
      have hok := hp _ _ h.1
      have e := doJson_eq hT v hok [0x3A] st hi
      have hi' := after_inv hT hi hok (notesOf T v [0x3A] st.app.address)
      obtain ⟨st', e1, e2⟩ := ih hi'.1 h.2
      refine ⟨st', ?_, ?_⟩
      · rw [List.foldlM_cons]
        unfold jsonScribe
        rw [h.1]
        simp only [Option.map_some, Option.bind_eq_bind, Option.bind_some, e]
        exact e1
      · rw [e2]
        show App.all T (App.all T st.app (texts v)) _ = _
        rw [← all_append, List.map_cons, List.flatten_cons]

end
end Verif.Scribing
