import Verif.Inhale.Proof
/-
  C74: reading an input file gives its content.  C75: a build is all of its steps or a failure.
-/
namespace Verif.Props
open Verif.Inhale

/-! ### C74 -/

/-- **C74** (partial: see `C74_cut`).  A file whose name does not mark it as compressed is read to its last byte, whatever
its length. -/
theorem C74_plain_partial {W : World} {name content : Bytes} (hl : Legal name) (hc : ¬ Compressed name)
    (hf : W.files name = some (content, false)) : inhale W name = some content :=
  inhale_plain hl hc hf

/-- **C74** (partial: see `C74_cut` and `C74_dash`).  A compressed file gives what was compressed. -/
theorem C74_compressed_partial {W : World} (hW : Unzips W) {name content text : Bytes} (hl : Legal name) (hc : Compressed name)
    (hd : name.head? ≠ some 45) (hf : W.files name = some (content, false)) (hg : W.gunzip content = (text, true)) :
    inhale W name = some text := by
  rw [inhale_compressed hW hl hc hf, if_neg hd, hg]

/-- **C74.** The shell is given two words for every name, with whatever quotes, blanks, newlines, semicolons and dollars it
has: the program, and the name as it is.  Nothing else is run. -/
theorem C74_command {path : Bytes} (hp : path = usrBinZcat ∨ path = binZcat) (name : Bytes) :
    shellWords .blank [] (path ++ [32] ++ shellQuote name) = some [path, name] := by
  have : path ≠ [] ∧ path.all plain = true := by rcases hp with rfl | rfl <;> decide
  exact words_command this.1 this.2 name

/-- **C74.** A file that cannot be opened, or a compressed one without a program for it, is an error. -/
theorem C74_missing {W : World} {name : Bytes} (hl : Legal name)
    (h : W.files name = none ∨
      Compressed name ∧ (W.popens = false ∨ W.files usrBinZcat = none ∧ W.files binZcat = none)) :
    inhale W name = none := by
  rw [inhale_eq, maybeZipped, cstr_legal hl]
  rcases h with h | ⟨hc, h⟩
  · rw [h]
  · have hz := hasZcat_iff.2 hc
    cases hf : W.files name with
    | none => rfl
    | some x =>
      obtain ⟨content, bad⟩ := x
      simp only [hz, Bool.true_eq_false, if_false]
      cases hq : zcat W with
      | none => rfl
      | some path =>
        simp only
        rcases h with h | ⟨h1, h2⟩
        · rw [h]; rfl
        · simp [zcat, h1, h2] at hq

/-- **Not C74.** If reading fails on the way (a directory, a broken disk), or the compressed content is damaged, then what was
read until then is given as the content of the file, without an error. -/
theorem C74_cut {W : World} {name content : Bytes} (hl : Legal name) :
    (¬ Compressed name → W.files name = some (content, true) → inhale W name = some content) ∧
    (Unzips W → Compressed name → name.head? ≠ some 45 → ∀ bad text, W.files name = some (content, bad) →
      W.gunzip content = (text, false) → inhale W name = some text) := by
  refine ⟨fun hc hf => inhale_plain hl hc hf, fun hW hc hd bad text hf hg => ?_⟩
  rw [inhale_compressed hW hl hc hf, if_neg hd, hg]

/-- **Not C74.** The name of a compressed file that starts with `-` is taken for an option: what is read does not depend
on the content of the file. -/
theorem C74_dash {W : World} (hW : Unzips W) {name : Bytes} (hl : Legal name) (hc : Compressed name)
    (hd : name.head? = some 45) {content : Bytes} {bad : Bool} (hf : W.files name = some (content, bad)) :
    inhale W name = some (W.option name) := by
  rw [inhale_compressed hW hl hc hf, if_pos hd]

/-- a disk with a text, a compressed text `it's;x.gz`, a directory and a file `-l.gz`; "compression" adds a byte in front -/
def aDisk : World where
  files := fun n =>
    if n = binZcat then some ([1], false)
    else if n = [97] then some ([104, 105], false)
    else if n = [105, 116, 39, 115, 59, 120, 46, 103, 122] then some ([31, 104, 105], false)
    else if n = [100] then some ([], true)
    else if n = [45, 108, 46, 103, 122] then some ([31, 104, 105], false)
    else none
  gunzip := fun c => match c with
    | 31 :: t => (t, true)
    | _ => ([], false)
  option := fun _ => []
  other := fun _ => []
  popens := true

theorem aDisk_unzips : Unzips aDisk := ⟨.inr (by decide), rfl⟩

example : inhale aDisk [97] = some [104, 105] :=
  C74_plain_partial (by decide) (fun h => absurd (hasZcat_iff.2 h) (by decide)) (by decide)

example : inhale aDisk [105, 116, 39, 115, 59, 120, 46, 103, 122] = some [104, 105] :=
  C74_compressed_partial (content := [31, 104, 105]) aDisk_unzips (by decide) (hasZcat_iff.1 (by decide)) (by decide) (by decide) (by decide)

example : inhale aDisk [100] = some [] :=
  (C74_cut (by decide)).1 (fun h => absurd (hasZcat_iff.2 h) (by decide)) (by decide)

example : inhale aDisk [45, 108, 46, 103, 122] = some [] :=
  C74_dash aDisk_unzips (by decide) (hasZcat_iff.1 (by decide)) (by decide) (content := [31, 104, 105]) (bad := false) (by decide)

/-! ### C75 -/

/-- **C75.** Every history of a builder, whatever the builder does with its steps: either all steps were carried
out, in their order, and each said so; or the first that failed is the last the builder was given, and all steps from it on
said that they failed; or the build was finalized once, after steps that were all carried out, nothing was added afterwards,
each attempt said that it failed, and finalizing again says that it is done. -/
theorem C75_history (I : Inner σ) (s : σ) (ops : List Op) :
    (Op.finalize ∉ ops ∧ ∃ s', Carried I s ops s' ∧
      (performAll I { inner := s } ops).1.inner = s' ∧ (performAll I { inner := s } ops).2 = ops.map fun _ => true) ∨
    (∃ pre o post m, ops = pre ++ o :: post ∧ Op.finalize ∉ pre ∧ Carried I s pre m ∧ (I m o).2 = false ∧
      (performAll I { inner := s } ops).1.inner = (I m o).1 ∧
      (performAll I { inner := s } ops).2 = pre.map (fun _ => true) ++ false :: post.map fun _ => false) ∨
    (∃ pre post m, ops = pre ++ .finalize :: post ∧ Op.finalize ∉ pre ∧ Carried I s pre m ∧ (I m .finalize).2 = true ∧
      (performAll I { inner := s } ops).1.inner = (I m .finalize).1 ∧
      (performAll I { inner := s } ops).2 = pre.map (fun _ => true) ++ true :: post.map fun o => decide (o = .finalize)) := by
  have fails : ∀ pre o post m, ops = pre ++ o :: post → Op.finalize ∉ pre → Carried I s pre m → (I m o).2 = false →
      (performAll I { inner := s } ops).1.inner = (I m o).1 ∧
      (performAll I { inner := s } ops).2 = pre.map (fun _ => true) ++ false :: post.map fun _ => false := by
    intro pre o post m h hn hc hf
    have hp : perform I { inner := m } o = ({ inner := (I m o).1, failed := true, finalized := o = .finalize }, false) := by
      rw [perform, if_neg (by simp), if_neg (by simp)]
      simp only [hf, Bool.not_false]
    rw [h, performAll_append, performAll_open I pre s m hn hc]
    simp only [performAll, hp]
    rw [performAll_failed I rfl post]
    exact ⟨rfl, rfl⟩
  -- the longest part that was carried out
  have split : ∀ (l : List Op) (s : σ), (Op.finalize ∉ l ∧ ∃ s', Carried I s l s') ∨
      ∃ pre o post m, l = pre ++ o :: post ∧ Op.finalize ∉ pre ∧ Carried I s pre m ∧ (o = .finalize ∨ (I m o).2 = false) := by
    intro l
    induction l with
    | nil => intro s; exact .inl ⟨by simp, s, rfl⟩
    | cons o l ih =>
      intro s
      by_cases ho : o = .finalize
      · exact .inr ⟨[], o, l, s, rfl, by simp, rfl, .inl ho⟩
      · cases hI : (I s o).2 with
        | false => exact .inr ⟨[], o, l, s, rfl, by simp, rfl, .inr hI⟩
        | true =>
          rcases ih (I s o).1 with ⟨h1, s', h2⟩ | ⟨pre, o', post, m, h1, h2, h3, h4⟩
          · exact .inl ⟨by simp only [List.mem_cons, not_or]; exact ⟨fun e => ho e.symm, h1⟩, s', hI, h2⟩
          · exact .inr ⟨o :: pre, o', post, m, by rw [h1]; rfl,
              by simp only [List.mem_cons, not_or]; exact ⟨fun e => ho e.symm, h2⟩, ⟨hI, h3⟩, h4⟩
  rcases split ops s with ⟨h1, s', h2⟩ | ⟨pre, o, post, m, h1, h2, h3, h4⟩
  · refine .inl ⟨h1, s', h2, ?_⟩
    rw [performAll_open I ops s s' h1 h2]
    exact ⟨rfl, rfl⟩
  · cases hI : (I m o).2 with
    | false => exact .inr (.inl ⟨pre, o, post, m, h1, h2, h3, hI, fails pre o post m h1 h2 h3 hI⟩)
    | true =>
      rcases h4 with rfl | h4
      · refine .inr (.inr ⟨pre, post, m, h1, h2, h3, hI, ?_⟩)
        have hp : perform I { inner := m } .finalize = ({ inner := (I m .finalize).1, failed := false, finalized := true }, true) := by
          rw [perform, if_neg (by simp), if_neg (by simp)]
          simp only [hI, Bool.not_true, decide_true]
        rw [h1, performAll_append, performAll_open I pre s m h2 h3]
        simp only [performAll, hp]
        rw [performAll_finalized I rfl rfl post]
        exact ⟨rfl, rfl⟩
      · rw [hI] at h4; cases h4

/-- **C75** (partial: see `C75_missing`).  Building from files that can be read succeeds exactly if the builder takes the content
of each, in their order, and finalizes; and then that, and nothing else, is what was built. -/
theorem C75_trec_partial {W : World} (I : Inner σ) (s : σ) (files : List (Bytes × Bytes))
    (hr : ∀ x ∈ files, inhale W x.1 = some x.2) :
    ∃ b ok, buildTrec W I { inner := s } (files.map (·.1)) = some (b, ok) ∧
      (ok = true ↔ ∃ s', Carried I s (files.map (fun x => Op.text x.2) ++ [.finalize]) s') ∧
      ∀ s', Carried I s (files.map (fun x => Op.text x.2) ++ [.finalize]) s' → b.inner = s' := by
  have loop : ∀ (l : List (Bytes × Bytes)) (s : σ), (∀ x ∈ l, inhale W x.1 = some x.2) →
      (∃ m, Carried I s (l.map fun x => Op.text x.2) m ∧ trecLoop W I { inner := s } (l.map (·.1)) = some ({ inner := m }, true)) ∨
      ((∀ m, ¬ Carried I s (l.map fun x => Op.text x.2) m) ∧
        ∃ b, trecLoop W I { inner := s } (l.map (·.1)) = some (b, false)) := by
    intro l
    induction l with
    | nil => intro s _; exact .inl ⟨s, rfl, rfl⟩
    | cons x l ih =>
      intro s h
      have hx := h x (by simp)
      simp only [List.map_cons, trecLoop, hx]
      cases hI : (I s (.text x.2)).2 with
      | false =>
        refine .inr ⟨fun m hm => ?_, ?_⟩
        · have := hm.1
          rw [hI] at this; cases this
        · have hp : (perform I { inner := s } (.text x.2)).2 = false := by
            rw [perform, if_neg (by simp), if_neg (by simp)]; exact hI
          rw [hp]
          exact ⟨_, rfl⟩
      | true =>
        have hp : perform I { inner := s } (.text x.2) = ({ inner := (I s (.text x.2)).1 }, true) := by
          rw [perform, if_neg (by simp), if_neg (by simp)]
          simp only [hI, Bool.not_true, reduceCtorEq, decide_false]
        rw [hp]
        simp only [if_true]
        rcases ih (I s (.text x.2)).1 (fun y hy => h y (by simp [hy])) with ⟨m, h1, h2⟩ | ⟨h1, h2⟩
        · exact .inl ⟨m, ⟨hI, h1⟩, h2⟩
        · exact .inr ⟨fun m hm => h1 m hm.2, h2⟩
  unfold buildTrec
  rcases loop files s hr with ⟨m, h1, h2⟩ | ⟨h1, b, h2⟩
  · rw [h2]
    have hp : perform I { inner := m } .finalize = ({ inner := (I m .finalize).1, failed := !(I m .finalize).2, finalized := true }, (I m .finalize).2) := by
      rw [perform, if_neg (by simp), if_neg (by simp)]
      simp only [decide_true]
    refine ⟨{ inner := (I m .finalize).1, failed := !(I m .finalize).2, finalized := true }, (I m .finalize).2, congrArg some hp, ?_, ?_⟩
    · constructor
      · intro hok
        exact ⟨_, (carried_append I _ _ s _).2 ⟨m, h1, hok, rfl⟩⟩
      · rintro ⟨s', hs⟩
        obtain ⟨m', h3, h4⟩ := (carried_append I _ _ s s').1 hs
        have : m' = m := by
          have := performAll_open I _ s m' (by simp) h3
          rw [performAll_open I _ s m (by simp) h1] at this
          exact (congrArg (fun x => x.1.inner) this).symm
        rw [this] at h4
        exact h4.1
    · intro s' hs
      obtain ⟨m', h3, h4⟩ := (carried_append I _ _ s s').1 hs
      have : m' = m := by
        have := performAll_open I _ s m' (by simp) h3
        rw [performAll_open I _ s m (by simp) h1] at this
        exact (congrArg (fun x => x.1.inner) this).symm
      rw [this] at h4
      exact h4.2.symm
  · rw [h2]
    refine ⟨b, false, rfl, ⟨nofun, ?_⟩, ?_⟩
    · rintro ⟨s', hs⟩
      obtain ⟨m', h3, _⟩ := (carried_append I _ _ s s').1 hs
      exact absurd h3 (h1 m')
    · intro s' hs
      obtain ⟨m', h3, _⟩ := (carried_append I _ _ s s').1 hs
      exact absurd h3 (h1 m')

/-- **Not C75.** If the first file of a build is missing, a null pointer is read: there is no result. -/
theorem C75_missing {W : World} (I : Inner σ) (b : Builder σ) {f : Bytes} (fs : List Bytes) (h : inhale W f = none) :
    buildTrec W I b (f :: fs) = none := by
  simp only [buildTrec, trecLoop, h]

/-- a builder that collects its texts, and can hold three bytes -/
def threeBytes : Inner Bytes := fun s o => match o with
  | .text t => if (s ++ t).length ≤ 3 then (s ++ t, true) else (s, false)
  | _ => (s, true)

example : performAll threeBytes { inner := [] } [.text [1, 2], .text [3, 4], .text [5], .finalize] =
    ({ inner := [1, 2], failed := true }, [true, false, false, false]) := rfl
example : performAll threeBytes { inner := [] } [.text [1, 2], .finalize, .text [5], .finalize] =
    ({ inner := [1, 2], finalized := true }, [true, true, false, true]) := rfl

example : ∃ b, buildTrec aDisk threeBytes { inner := [] } [[97]] = some (b, true) ∧ b.inner = [104, 105] := by
  obtain ⟨b, ok, h1, h2, h3⟩ := C75_trec_partial (W := aDisk) threeBytes [] [([97], [104, 105])] (by
    intro x hx
    rw [List.mem_singleton] at hx
    subst hx
    exact C74_plain_partial (by decide) (fun h => absurd (hasZcat_iff.2 h) (by decide)) (by decide))
  have hc : Carried threeBytes [] [.text [104, 105], .finalize] [104, 105] := by
    refine ⟨by decide, by decide, ?_⟩
    show _ = _
    decide
  have : ok = true := h2.2 ⟨_, hc⟩
  subst this
  exact ⟨b, h1, h3 _ hc⟩

end Verif.Props
