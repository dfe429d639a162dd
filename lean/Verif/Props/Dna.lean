import Verif.Dna.Proof
/-
  Properties of the parameters that a warren keeps (C69).
-/
namespace Verif.Props
open Verif.Recipe Verif.Dna

/-- a text that is not a map means the same as itself only -/
theorem same_text {v v' : Str} (h : cook v = none) (hs : Same v v') : v' = v := by
  cases hs with
  | leaf _ => rfl
  | node e _ _ _ => rw [h] at e; cases e

/-- **C69**: after a parameter is set, asking for it gives what was set; all other parameters, and all other settings of the warren, are
what they were; and the file describes the warren, so that this goes on. -/
theorem C69_set_partial {file : File} {S P : Map} (h : Describes file S P) {k v : Str} (hk : Word k) (hv : Keepable v) :
    ∃ file', setParameter .works k v file = (true, file') ∧ (∃ S' P', Describes file' S' P') ∧
      SameAnswer (some v) (getParameter k file') ∧
      (∀ k', k' ≠ k → SameAnswer (getParameter k' file) (getParameter k' file')) ∧
      (∀ s, s ≠ parametersKey → SameAnswer (setting s file) (setting s file')) := by
  obtain ⟨S', P', h1, h2, h3⟩ := h.set hk hv
  have same_nil : SameAnswer (some ([] : Str)) (some []) := .refl _
  refine ⟨_, by unfold setParameter; rw [h.changed]; rfl, ⟨S', P', h1⟩, ?_, ?_, ?_⟩
  · rw [h1.get]
    rcases h2.answer k with ⟨e, _⟩ | ⟨w, w', e, e', g⟩
    · rw [find_put_same] at e; cases e
    · rw [find_put_same] at e
      injection e with e
      subst e
      rw [e']
      exact .inr ⟨_, _, rfl, rfl, g⟩
  · intro k' hne
    rw [h.get, h1.get]
    rcases h2.answer k' with ⟨e, e'⟩ | ⟨w, w', e, e', g⟩
    · rw [find_put_ne hne] at e
      rw [e, e']
      exact same_nil
    · rw [find_put_ne hne] at e
      rw [e, e']
      exact .inr ⟨_, _, rfl, rfl, g⟩
  · intro s hne
    rw [h.setting, h1.setting]
    have := h3.answer s
    rw [find_put_ne hne] at this
    exact this

/-- **C69**, texts: a value that is not a map comes back byte for byte. -/
theorem C69_text_partial {file : File} {S P : Map} (h : Describes file S P) {k v : Str} (hk : Word k) (hm : cook v = none)
    (hv : ∀ c ∈ v, c ≠ 0 ∧ c ≠ 0x22 ∧ c ≠ 0x5C ∧ c ≠ 0x0A) :
    ∃ file', setParameter .works k v file = (true, file') ∧ getParameter k file' = some v ∧
      ∀ k' w, k' ≠ k → cook w = none → getParameter k' file = some w → getParameter k' file' = some w := by
  obtain ⟨file', h1, _, h2, h3, _⟩ := C69_set_partial h hk (.leaf hm hv)
  refine ⟨file', h1, ?_, ?_⟩
  · rcases h2 with ⟨e, _⟩ | ⟨w, w', e, e', g⟩
    · cases e
    · injection e with e
      subst e
      rw [e', same_text hm g]
  · intro k' w hne hw e1
    rcases h3 k' hne with ⟨e, _⟩ | ⟨w1, w', e, e', g⟩
    · rw [e] at e1; cases e1
    · rw [e] at e1
      injection e1 with e1
      subst e1
      rw [e', same_text hw g]

/-- parameters that are set one after the other, each with success -/
inductive Sets : List (Str × Str) → File → File → Prop
  | nil {file : File} : Sets [] file file
  | cons {k v : Str} {l : List (Str × Str)} {file file' file'' : File} :
      setParameter .works k v file = (true, file') → Sets l file' file'' → Sets ((k, v) :: l) file file''

/-- **C69**, histories: any number of parameters can be set, and then each is the one set last, or what it was. -/
theorem C69_history_partial : ∀ (l : List (Str × Str)) {file : File} {S P : Map}, Describes file S P →
    (∀ x ∈ l, Word x.1 ∧ Keepable x.2) →
    ∃ file', Sets l file file' ∧ (∃ S' P', Describes file' S' P') ∧
      (∀ k, SameAnswer ((latest k l).or (getParameter k file)) (getParameter k file')) ∧
      (∀ s, s ≠ parametersKey → SameAnswer (setting s file) (setting s file'))
  | [], file, S, P, h, _ => ⟨file, .nil, ⟨S, P, h⟩, fun _ => .refl _, fun _ _ => .refl _⟩
  | (k, v) :: l, file, S, P, h, hl => by
    obtain ⟨g1, g2⟩ := hl _ (List.mem_cons_self ..)
    obtain ⟨file', e, ⟨S', P', h'⟩, a1, a2, a3⟩ := C69_set_partial h g1 g2
    obtain ⟨file'', e', h'', b1, b2⟩ := C69_history_partial l h' fun x hx => hl x (List.mem_cons_of_mem _ hx)
    refine ⟨file'', .cons e e', h'', fun k' => ?_, fun s hs => (a3 s hs).trans (b2 s hs)⟩
    have := b1 k'
    unfold latest
    cases e1 : latest k' l with
    | some w =>
      rw [e1] at this
      exact this
    | none =>
      rw [e1] at this
      have this : SameAnswer (getParameter k' file') (getParameter k' file'') := this
      by_cases hk : k = k'
      · subst hk
        rw [if_pos rfl]
        exact a1.trans this
      · rw [if_neg hk]
        exact (a2 k' (Ne.symm hk)).trans this

/-- **C69**, no: what cannot be done changes nothing, and is reported. -/
theorem C69_refused (k v : Str) (file : File) : setParameter .refuses k v file = (false, file) ∧
    (getParameter k file = none → ∀ dev, setParameter dev k v file = (false, file)) := by
  constructor
  · unfold setParameter
    cases changedDna k v file <;> rfl
  · intro h dev
    have : changedDna k v file = none := by
      unfold getParameter at h
      unfold changedDna
      cases e1 : readDna file with
      | none => rfl
      | some dna =>
        rw [e1] at h
        dsimp only at h ⊢
        cases e2 : cook dna with
        | none => rfl
        | some S =>
          rw [e2] at h
          dsimp only at h ⊢
          cases e3 : find parametersKey S with
          | none => rw [e3] at h; cases h
          | some text =>
            rw [e3] at h
            dsimp only at h ⊢
            cases e4 : cook text with
            | none => rfl
            | some P =>
              rw [e4] at h
              dsimp only at h
              cases e5 : find k P <;> rw [e5] at h <;> cases h
    unfold setParameter
    rw [this]

/-- **C69**, interrupted: a program that ends before the new file takes the place of the old leaves the old. -/
theorem C69_interrupted (k v : Str) (file : File) : (setParameter .stops k v file).2 = file := by
  unfold setParameter
  cases changedDna k v file <;> rfl

theorem cut_header {dna : Str} {n : Nat} (hn : n < header.length) : readDna (some ((header ++ [0x0A] ++ dna).take n)) = none := by
  have hh : ∀ c ∈ header, decide (c ≠ 0x0A) = true := by decide
  unfold readDna
  dsimp only
  have e : (header ++ [0x0A] ++ dna).take n = header.take n := by
    rw [List.append_assoc, List.take_append_of_le_length (by omega)]
  rw [e]
  have e2 : (header.take n).takeWhile (· ≠ 0x0A) = header.take n := by
    have := List.takeWhile_append_of_pos (p := (· ≠ (0x0A : UInt8))) (l₁ := header.take n) (l₂ := []) fun c hc => hh c (List.mem_of_mem_take hc)
    simpa using this
  rw [e2, if_neg]
  intro e3
  have := congrArg List.length e3
  rw [List.length_take] at this
  omega

/-- **C69** does not hold on a full device: setting a parameter succeeds, and the description of the warren is gone, whatever the
parameter and the warren. -/
theorem C69_full_lost {file : File} {S P : Map} (h : Describes file S P) (k v : Str) (n : Nat) (hn : n < header.length) :
    ∃ file', setParameter (.full n) k v file = (true, file') ∧ (∀ k', getParameter k' file' = none) ∧ (∀ s, setting s file' = none) ∧
      ∀ dev k' v', setParameter dev k' v' file' = (false, file') := by
  refine ⟨some ((header ++ [0x0A] ++ freeze (put parametersKey (freeze (put k v P)) S)).take n),
    by unfold setParameter; rw [h.changed]; rfl, fun k' => ?_, fun s => ?_, fun dev k' v' => ?_⟩
  · unfold getParameter; rw [cut_header hn]
  · unfold setting; rw [cut_header hn]
  · unfold setParameter changedDna; rw [cut_header hn]

/-- **C69** does not hold if renaming fails: success is reported, and nothing is set. -/
theorem C69_unnamed_success {file : File} {S P : Map} (h : Describes file S P) (k v : Str) : setParameter .stops k v file = (true, file) := by
  unfold setParameter
  rw [h.changed]
  rfl

/-- **C69** does not hold of two warrens that set parameters at the same time: when both have read the file before one writes, only
the second has an effect. -/
theorem C69_lost_update {file : File} {S P : Map} (h : Describes file S P) {k v k' v' : Str} (hk' : Word k')
    (hv' : Keepable v') (hne : k ≠ k') :
    ∃ dna dna' file' file'', changedDna k v file = some dna ∧ changedDna k' v' file = some dna' ∧
      writeDna .works dna file = (true, file') ∧ writeDna .works dna' file' = (true, file'') ∧
      SameAnswer (getParameter k file) (getParameter k file'') := by
  obtain ⟨file'', e, _, _, a2, _⟩ := C69_set_partial h hk' hv'
  refine ⟨_, _, _, _, h.changed k v, h.changed k' v', rfl, rfl, ?_⟩
  have : file'' = some (header ++ [0x0A] ++ freeze (put parametersKey (freeze (put k' v' P)) S)) := by
    unfold setParameter at e
    rw [h.changed] at e
    exact (Prod.mk.inj e).2.symm
  rw [← this]
  exact a2 k hne

/-! ### a warren of shards, which has the parameters in memory, too -/

/-- What the warren has in memory means the same as what the file has. -/
def Agrees (b : Big) : Prop := ∃ S P, Describes b.file S P ∧ ∀ k, Same (b.get k) ((find k P).getD [])

theorem big_set {b : Big} (h : Agrees b) {k v : Str} (hk : Word k) (hv : Keepable v) :
    ∃ b', b.set .works k v = (true, b') ∧ Agrees b' ∧ b'.get k = v ∧ ∀ k', k' ≠ k → b'.get k' = b.get k' := by
  obtain ⟨S, P, h1, h2⟩ := h
  obtain ⟨S', P', h3, h4, h5⟩ := h1.set hk hv
  have g1 : ∀ k', k' ≠ k → (⟨some (header ++ [0x0A] ++ freeze (put parametersKey (freeze (put k v P)) S)), put k v b.memory⟩ : Big).get k' =
      b.get k' := by
    intro k' hne
    unfold Big.get
    dsimp only
    rw [find_put_ne hne]
  have g2 : (⟨some (header ++ [0x0A] ++ freeze (put parametersKey (freeze (put k v P)) S)), put k v b.memory⟩ : Big).get k = v := by
    unfold Big.get
    dsimp only
    rw [find_put_same]
  refine ⟨⟨some (header ++ [0x0A] ++ freeze (put parametersKey (freeze (put k v P)) S)), put k v b.memory⟩, ?_, ⟨S', P', h3, fun k' => ?_⟩, g2, g1⟩
  · unfold Big.set setParameter
    rw [h1.changed]
    rfl
  · by_cases e : k' = k
    · subst e
      rw [g2]
      rcases h4.answer k' with ⟨e, _⟩ | ⟨w, w', e, e', g⟩
      · rw [find_put_same] at e; cases e
      · rw [find_put_same] at e
        injection e with e
        subst e
        rw [e']
        exact g
    · rw [g1 k' e]
      refine Same.trans (h2 k') ?_
      rcases h4.answer k' with ⟨e1, e'⟩ | ⟨w, w', e1, e', g⟩
      · rw [find_put_ne e] at e1
        rw [e1, e']
        exact Same.refl _
      · rw [find_put_ne e] at e1
        rw [e1, e']
        exact g

/-- **C69**, a warren of shards: what was set is what is asked for, and the others stay; memory and file agree. -/
theorem C69_big_set_partial {b : Big} (h : Agrees b) {k v : Str} (hk : Word k) (hv : Keepable v) :
    ∃ b', b.set .works k v = (true, b') ∧ Agrees b' ∧ b'.get k = v ∧ ∀ k', k' ≠ k → b'.get k' = b.get k' := big_set h hk hv

theorem again_agrees {b : Big} (h : Agrees b) {k : Str} (hk : Word k) {found : Option Str}
    (hf : ∀ v, found = some v → Keepable v ∧ b.get k = v) :
    Agrees (b.again .works k found) ∧ ∀ k', (b.again .works k found).get k' = b.get k' := by
  unfold Big.again
  cases found with
  | none => exact ⟨h, fun _ => rfl⟩
  | some v =>
    dsimp only
    split
    · exact ⟨h, fun _ => rfl⟩
    · obtain ⟨hv, hg⟩ := hf v rfl
      obtain ⟨b', e, h1, h2, h3⟩ := big_set h hk hv
      rw [e]
      refine ⟨h1, fun k' => ?_⟩
      by_cases e : k' = k
      · subst e
        show b'.get k' = _
        rw [h2, hg]
      · exact h3 k' e

theorem opened {file : File} {S P : Map} (h : Describes file S P) : ∃ b, openBig .works .works file = some b ∧ Agrees b ∧ ∀ k, b.get k = (find k P).getD [] := by
  have h' := h
  obtain ⟨_, aP, _⟩ := h.good
  obtain ⟨dna, h1, h2, _, h3⟩ := h
  have base : ∀ k, (⟨file, P⟩ : Big).get k = (find k P).getD [] := by
    intro k
    unfold Big.get
    cases find k P <;> rfl
  have ag : Agrees ⟨file, P⟩ := ⟨S, P, h', fun k => by rw [base]; exact Same.refl _⟩
  unfold openBig
  rw [h1]
  dsimp only
  rw [h2]
  dsimp only
  cases e : find parametersKey S with
  | none =>
    rw [e] at h3
    dsimp only at h3 ⊢
    subst h3
    exact ⟨_, rfl, ag, base⟩
  | some text =>
    rw [e] at h3
    dsimp only at h3 ⊢
    rw [h3]
    have w1 : Word stemmerKey := by unfold Word; decide
    have w2 : Word containerKey := by unfold Word; decide
    obtain ⟨a1, a2⟩ := again_agrees ag w1 (found := find stemmerKey P) fun v hv => ⟨aP _ _ hv, by rw [base, hv]; rfl⟩
    obtain ⟨a3, a4⟩ := again_agrees a1 w2 (found := find containerKey P) fun v hv => ⟨aP _ _ hv, by rw [a2, base, hv]; rfl⟩
    exact ⟨_, rfl, a3, fun k => by rw [a4, a2, base]⟩

/-- **C69**, a warren of shards opened again: its parameters mean what they meant before. -/
theorem C69_big_reopened_partial {b : Big} (h : Agrees b) :
    ∃ b', openBig .works .works b.file = some b' ∧ Agrees b' ∧ ∀ k, Same (b.get k) (b'.get k) := by
  obtain ⟨S, P, h1, h2⟩ := h
  obtain ⟨b', e, h3, h4⟩ := opened h1
  exact ⟨b', e, h3, fun k => by rw [h4]; exact h2 k⟩

/-- **C69**, a warren of shards that is opened has the parameters of its file. -/
theorem C69_big_opened {file : File} {S P : Map} (h : Describes file S P) :
    ∃ b, openBig .works .works file = some b ∧ Agrees b ∧ ∀ k, some (b.get k) = getParameter k file := by
  obtain ⟨b, e, h3, h4⟩ := opened h
  exact ⟨b, e, h3, fun k => by rw [h4, h.get]⟩

/-- **C69** does not hold of opening on a full device: just opening a warren of shards with a default container writes its
description anew, and then it is gone. -/
theorem C69_big_open_lost {file : File} {S P : Map} (h : Describes file S P) {v : Str} (hv : find containerKey P = some v) (hne : v ≠ [])
    (hs : find stemmerKey P = none) (n : Nat) (hn : n < header.length) (dev : Device) :
    ∃ b, openBig dev (.full n) file = some b ∧ ∀ dev dev', openBig dev dev' b.file = none := by
  have h' := h
  obtain ⟨dna, h1, h2, _, h3⟩ := h
  unfold openBig
  rw [h1]
  dsimp only
  rw [h2]
  dsimp only
  cases e : find parametersKey S with
  | none =>
    rw [e] at h3
    dsimp only at h3
    subst h3
    cases hv
  | some text =>
    rw [e] at h3
    dsimp only at h3 ⊢
    rw [h3]
    dsimp only
    rw [hs, hv]
    refine ⟨_, rfl, fun d d' => ?_⟩
    unfold Big.again
    dsimp only
    rw [if_neg hne]
    unfold Big.set setParameter
    dsimp only
    rw [h'.changed]
    unfold writeDna
    dsimp only
    rw [cut_header hn]

/-! ### a case, and what goes wrong with other values -/

/-- `[warren:"s",parameters:[a:"x y",],]` -/
def smallDna : Str := [0x5B, 0x77, 0x61, 0x72, 0x72, 0x65, 0x6E, 0x3A, 0x22, 0x73, 0x22, 0x2C] ++ parametersKey ++
  [0x3A, 0x5B, 0x61, 0x3A, 0x22, 0x78, 0x20, 0x79, 0x22, 0x2C, 0x5D, 0x2C, 0x5D, 0x0A]

def smallFile : File := some (header ++ [0x0A] ++ smallDna)

theorem small_describes : Describes smallFile
    [(parametersKey, [0x5B, 0x61, 0x3A, 0x22, 0x78, 0x20, 0x79, 0x22, 0x2C, 0x5D]), ([0x77, 0x61, 0x72, 0x72, 0x65, 0x6E], [0x73])]
    [([0x61], [0x78, 0x20, 0x79])] := by
  refine ⟨smallDna.map flat, by decide +kernel, by decide +kernel, ?_, ?_⟩
  · intro k v h
    have hm := find_mem h
    simp only [List.mem_cons, List.not_mem_nil, or_false, Prod.mk.injEq] at hm
    rcases hm with ⟨-, rfl⟩ | ⟨-, rfl⟩
    · refine .node (p := [([0x61], [0x78, 0x20, 0x79])]) (by decide +kernel) fun k w h => ?_
      have hm := find_mem h
      simp only [List.mem_cons, List.not_mem_nil, or_false, Prod.mk.injEq] at hm
      obtain ⟨-, rfl⟩ := hm
      exact .leaf (by decide +kernel) (by decide)
    · exact .leaf (by decide +kernel) (by decide)
  · show cook _ = some _
    decide +kernel

example : getParameter [0x61] smallFile = some [0x78, 0x20, 0x79] ∧
    getParameter [0x62] (setParameter .works [0x62] [0x7A] smallFile).2 = some [0x7A] ∧
    getParameter [0x61] (setParameter .works [0x62] [0x7A] smallFile).2 = some [0x78, 0x20, 0x79] := by
  refine ⟨?_, ?_, ?_⟩ <;> decide +kernel

/-- **C69** does not hold of values with a double quote: setting one succeeds, and the whole description can no longer be read. -/
theorem C69_quote_lost : ∃ file', setParameter .works [0x62] [0x22] smallFile = (true, file') ∧ (∀ k, getParameter k file' = none) ∧
    (∀ s, setting s file' = none) ∧ ∀ dev k v, setParameter dev k v file' = (false, file') := by
  obtain ⟨dna, e1, e2⟩ : ∃ dna, readDna (setParameter .works [0x62] [0x22] smallFile).2 = some dna ∧ cook dna = none :=
    ⟨(readDna (setParameter .works [0x62] [0x22] smallFile).2).getD [], by decide +kernel, by decide +kernel⟩
  refine ⟨(setParameter .works [0x62] [0x22] smallFile).2, Prod.ext (by decide +kernel) rfl, fun k => ?_, fun s => ?_, fun dev k v => ?_⟩
  · unfold getParameter; rw [e1]; dsimp only; rw [e2]
  · unfold setting; rw [e1]; dsimp only; rw [e2]
  · generalize (setParameter .works [0x62] [0x22] smallFile).2 = f at e1
    unfold setParameter changedDna; rw [e1]; dsimp only; rw [e2]

/-- **C69** does not hold of values with a newline: it comes back as a blank. -/
theorem C69_newline : getParameter [0x62] (setParameter .works [0x62] [0x78, 0x0A, 0x79] smallFile).2 = some [0x78, 0x20, 0x79] := by
  decide +kernel

/-- **C69** does not hold of values with a backslash: setting one succeeds, and no parameter can be had. -/
theorem C69_backslash_lost : (setParameter .works [0x62] [0x5C] smallFile).1 = true ∧
    getParameter [0x62] (setParameter .works [0x62] [0x5C] smallFile).2 = none ∧
    getParameter [0x61] (setParameter .works [0x62] [0x5C] smallFile).2 = none := by
  refine ⟨?_, ?_, ?_⟩ <;> decide +kernel

/-- the hypotheses about a warren of shards can be met: the case has a default container -/
example : Agrees ⟨smallFile, [([0x61], [0x78, 0x20, 0x79])]⟩ :=
  by
  refine ⟨_, _, small_describes, fun k => ?_⟩
  unfold Big.get
  dsimp only
  cases find k [(([0x61] : Str), ([0x78, 0x20, 0x79] : Str))] <;> exact Same.refl _

example : ∃ b, openBig .works .works (setParameter .works containerKey [0x78] smallFile).2 = some b ∧ b.get containerKey = [0x78] ∧
    b.get [0x61] = [0x78, 0x20, 0x79] :=
  ⟨(openBig .works .works (setParameter .works containerKey [0x78] smallFile).2).get (by decide +kernel), by simp, by decide +kernel, by decide +kernel⟩

end Verif.Props
