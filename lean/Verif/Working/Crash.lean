import Verif.Working.Script
/-
  Proofs for C81: stopping while several transactions are committed together.
-/
namespace Verif.Working

open Verif.Inhale (Bytes plain Legal cstr shellQuote)

/-- part of the way -/
def Mid (pairs : List (Bytes × Bytes)) (fs g : FS) : Prop :=
  ∀ x ∈ pairs, (g x.2 = none ∧ g x.1 = fs x.1) ∨ (g x.2 = fs x.1 ∧ (g x.1 = fs x.1 ∨ g x.1 = none))

theorem after_append (a b : List (FS → FS)) (fs : FS) : after (a ++ b) fs = after b (after a fs) := by
  induction a generalizing fs with
  | nil => rfl
  | cons f a ih => exact ih (f fs)

theorem put_same (fs : FS) (p : Bytes) (n : Option Node) : put fs p n p = n := by simp [put]
theorem put_other {fs : FS} {p q : Bytes} (h : q ≠ p) (n : Option Node) : put fs p n q = fs q := by simp [put, h]

theorem steps_mid : ∀ (pairs : List (Bytes × Bytes)) (fs : FS) (j : Nat), Apart pairs →
    (∀ x ∈ pairs, fs x.2 = none) →
    Mid pairs fs (after ((pairs.flatMap commitSteps).take j) fs) ∧
    ∀ p, (∀ x ∈ pairs, p ≠ x.1 ∧ p ≠ x.2) → after ((pairs.flatMap commitSteps).take j) fs p = fs p
  | [], fs, j, _, _ => ⟨fun _ h => absurd h (by simp), fun p _ => by simp [after]⟩
  | x :: l, fs, j, ha, hn => by
    obtain ⟨h1, h2, h3, h4, h5⟩ := apart_cons ha
    have hx := hn x (List.mem_cons_self ..)
    have h21 : x.2 ≠ x.1 := fun e => h1 e.symm
    rw [List.flatMap_cons]
    match j with
    | 0 => exact ⟨fun y hy => .inl ⟨hn y hy, rfl⟩, fun _ _ => rfl⟩
    | 1 =>
      show Mid (x :: l) fs (put fs x.2 (fs x.1)) ∧ ∀ p, _ → put fs x.2 (fs x.1) p = fs p
      refine ⟨fun y hy => ?_, fun p hp => put_other (hp x (List.mem_cons_self ..)).2 _⟩
      rcases List.mem_cons.1 hy with rfl | hy
      · exact .inr ⟨put_same .., .inl (put_other h1 _)⟩
      · have := h5 y hy
        refine .inl ⟨?_, put_other (fun e => this.2.2.1 e.symm) _⟩
        rw [put_other (fun e => this.2.2.2 e.symm)]
        exact hn y (List.mem_cons_of_mem _ hy)
    | j + 2 =>
      have e : (commitSteps x ++ l.flatMap commitSteps).take (j + 2) =
        commitSteps x ++ (l.flatMap commitSteps).take j := rfl
      rw [e, after_append]
      let g : FS := put (put fs x.2 (fs x.1)) x.1 none
      have hg : ∀ y ∈ l, g y.1 = fs y.1 ∧ g y.2 = fs y.2 := by
        intro y hy
        have := h5 y hy
        constructor
        · show put _ _ _ _ = _
          rw [put_other (fun e => this.1 e.symm), put_other (fun e => this.2.2.1 e.symm)]
        · show put _ _ _ _ = _
          rw [put_other (fun e => this.2.1 e.symm), put_other (fun e => this.2.2.2 e.symm)]
      have ih := steps_mid l g j h4 fun y hy => by rw [(hg y hy).2]; exact hn y (List.mem_cons_of_mem _ hy)
      show Mid (x :: l) fs (after _ g) ∧ ∀ p, _ → after _ g p = fs p
      refine ⟨fun y hy => ?_, fun p hp => ?_⟩
      · rcases List.mem_cons.1 hy with rfl | hy
        · refine .inr ⟨?_, .inr ?_⟩
          · rw [ih.2 y.2 fun z hz => ⟨(h5 z hz).2.2.1, (h5 z hz).2.2.2⟩]
            show put _ _ _ _ = _
            rw [put_other h21, put_same]
          · rw [ih.2 y.1 fun z hz => ⟨(h5 z hz).1, (h5 z hz).2.1⟩]
            exact put_same ..
        · have := ih.1 y hy
          rw [(hg y hy).1] at this
          exact this
      · rw [ih.2 p fun z hz => hp z (List.mem_cons_of_mem _ hz)]
        have := hp x (List.mem_cons_self ..)
        show put _ _ _ _ = _
        rw [put_other this.1, put_other this.2]

theorem steps_all : ∀ (pairs : List (Bytes × Bytes)) (fs : FS), Apart pairs →
    (∀ x ∈ pairs, after (pairs.flatMap commitSteps) fs x.2 = fs x.1 ∧ after (pairs.flatMap commitSteps) fs x.1 = none) ∧
    ∀ p, (∀ x ∈ pairs, p ≠ x.1 ∧ p ≠ x.2) → after (pairs.flatMap commitSteps) fs p = fs p
  | [], fs, _ => ⟨fun _ h => absurd h (by simp), fun p _ => rfl⟩
  | x :: l, fs, ha => by
    obtain ⟨h1, h2, h3, h4, h5⟩ := apart_cons ha
    have h21 : x.2 ≠ x.1 := fun e => h1 e.symm
    rw [List.flatMap_cons, after_append]
    let g : FS := put (put fs x.2 (fs x.1)) x.1 none
    have hg : ∀ y ∈ l, g y.1 = fs y.1 := by
      intro y hy
      have := h5 y hy
      show put _ _ _ _ = _
      rw [put_other (fun e => this.1 e.symm), put_other (fun e => this.2.2.1 e.symm)]
    have ih := steps_all l g h4
    show (∀ y ∈ x :: l, after _ g y.2 = fs y.1 ∧ after _ g y.1 = none) ∧ ∀ p, _ → after _ g p = fs p
    refine ⟨fun y hy => ?_, fun p hp => ?_⟩
    · rcases List.mem_cons.1 hy with rfl | hy
      · refine ⟨?_, ?_⟩
        · rw [ih.2 y.2 fun z hz => ⟨(h5 z hz).2.2.1, (h5 z hz).2.2.2⟩]
          show put _ _ _ _ = _
          rw [put_other h21, put_same]
        · rw [ih.2 y.1 fun z hz => ⟨(h5 z hz).1, (h5 z hz).2.1⟩]
          exact put_same ..
      · have := ih.1 y hy
        rw [hg y hy] at this
        exact this
    · rw [ih.2 p fun z hz => hp z (List.mem_cons_of_mem _ hz)]
      have := hp x (List.mem_cons_self ..)
      show put _ _ _ _ = _
      rw [put_other this.1, put_other this.2]

/-! ### The names -/

theorem pairOf_eq (dir x : Bytes) : pairOf dir x = (before dir x, afterwards dir x) := by
  simp [pairOf, makeName, before, afterwards]

theorem before_ne_afterwards (dir x y : Bytes) : before dir x ≠ afterwards dir y := by
  intro e
  unfold before afterwards at e
  rw [List.append_assoc, List.append_assoc] at e
  have := List.append_cancel_left e
  simp at this

theorem before_inj {dir x y : Bytes} (e : before dir x = before dir y) : x = y := by
  unfold before at e
  exact List.append_cancel_left e

theorem afterwards_inj {dir x y : Bytes} (e : afterwards dir x = afterwards dir y) : x = y := by
  unfold afterwards at e
  exact List.append_cancel_left e

theorem before_temporary (dir x : Bytes) : ¬ Temporary dir (before dir x) := by
  rintro ⟨r, _, e⟩
  unfold before at e
  rw [List.append_assoc, List.append_assoc] at e
  have := List.append_cancel_left e
  simp at this

theorem afterwards_temporary (dir x : Bytes) : ¬ Temporary dir (afterwards dir x) := by
  rintro ⟨r, _, e⟩
  unfold afterwards at e
  rw [List.append_assoc, List.append_assoc] at e
  have := List.append_cancel_left e
  simp at this

theorem script_apart {dir cn : Bytes} (h : ScriptName cn) : ¬ Temporary dir (makeName dir cn) ∧
    ∀ x, makeName dir cn ≠ before dir x ∧ makeName dir cn ≠ afterwards dir x := by
  obtain ⟨mid, _, rfl⟩ := h
  refine ⟨?_, fun x => ⟨?_, ?_⟩⟩
  · rintro ⟨r, _, e⟩
    unfold makeName at e
    rw [List.append_assoc dir] at e
    have := List.append_cancel_left e
    simp at this
  · intro e
    unfold makeName before at e
    rw [List.append_assoc dir] at e
    have := List.append_cancel_left e
    simp at this
  · intro e
    unfold makeName afterwards at e
    rw [List.append_assoc dir] at e
    have := List.append_cancel_left e
    simp at this

theorem mem_pairs {dir : Bytes} {xs : List Bytes} {y : Bytes × Bytes} (h : y ∈ xs.map (pairOf dir)) :
    ∃ x ∈ xs, y = (before dir x, afterwards dir x) := by
  obtain ⟨x, hx, rfl⟩ := List.mem_map.1 h
  exact ⟨x, hx, pairOf_eq dir x⟩

theorem pairs_apart {dir : Bytes} (hd : PlainName dir) : ∀ (xs : List Bytes), xs.Nodup → (∀ x ∈ xs, Legal x) →
    Apart (xs.map (pairOf dir))
  | [], _, _ => ⟨by simp, fun _ h => absurd h (by simp)⟩
  | x :: xs, hn, hl => by
    rw [List.nodup_cons] at hn
    have ih := pairs_apart hd xs hn.2 fun y hy => hl y (List.mem_cons_of_mem _ hy)
    have hpr : ∀ (s : Bytes), Legal s → Proper (dir ++ s) := by
      intro s hs
      refine ⟨by simp [hd.1], ?_, legal_append (plain_legal hd.2.1) hs⟩
      match dir, hd with
      | c :: d, hd => simpa using hd.2.2
    refine ⟨?_, ?_⟩
    · rw [List.map_cons, List.flatMap_cons, pairOf_eq]
      show (before dir x :: afterwards dir x :: (xs.map (pairOf dir)).flatMap fun x => [x.1, x.2]).Nodup
      rw [List.nodup_cons, List.nodup_cons]
      refine ⟨?_, ?_, ih.1⟩
      · intro hm
        rcases List.mem_cons.1 hm with e | hm
        · exact before_ne_afterwards dir x x e
        · obtain ⟨y, hy, hm⟩ := List.mem_flatMap.1 hm
          obtain ⟨z, hz, rfl⟩ := mem_pairs hy
          simp only [List.mem_cons, List.not_mem_nil, or_false] at hm
          rcases hm with e | e
          · exact hn.1 (before_inj e ▸ hz)
          · exact before_ne_afterwards dir x z e
      · intro hm
        obtain ⟨y, hy, hm⟩ := List.mem_flatMap.1 hm
        obtain ⟨z, hz, rfl⟩ := mem_pairs hy
        simp only [List.mem_cons, List.not_mem_nil, or_false] at hm
        rcases hm with e | e
        · exact before_ne_afterwards dir z x e.symm
        · exact hn.1 (afterwards_inj e ▸ hz)
    · intro y hy
      obtain ⟨z, hz, rfl⟩ := mem_pairs hy
      have hz := hl z hz
      unfold before afterwards
      rw [List.append_assoc, List.append_assoc]
      exact ⟨hpr _ (legal_append (by decide) hz), hpr _ (legal_append (by decide) hz)⟩

/-! ### The three cases -/

theorem lists_lines {dir : Bytes} {fs : FS} {listing : List Bytes} (h : Lists dir fs listing) (hs : Short listing) :
    ∀ n ∈ listing, n ≠ [] ∧ 10 ∉ n ∧ n.length ≤ 255 := fun n hn =>
  ⟨((h.2 n).1 hn).1, (hs n hn).1, (hs n hn).2⟩

/-- there is no script -/
theorem recover_none {dir : Bytes} {fs : FS} {listing : List Bytes} (h : Lists dir fs listing) (hs : Short listing)
    (hn : ∀ n, ScriptName n → 47 ∉ n → fs (dir ++ 47 :: n) = none) : recover dir listing fs = some (fs, true) := by
  unfold recover
  rw [ls_lines (by decide) (by decide) listing (lists_lines h hs)]
  refine finalize_none _ _ fun n hm hsn => ?_
  have hm := (h.2 n).1 ((List.mem_filter.1 hm).1)
  exact hm.2.2.2 (hn n hsn hm.2.1)

/-- there is one script -/
theorem recover_one {dir : Bytes} (hd : Legal dir) {fs : FS} {listing : List Bytes} (h : Lists dir fs listing)
    (hs : Short listing) {cn : Bytes} (hcn : ScriptName cn) (h47 : 47 ∉ cn) (hl : Legal cn)
    (hn : ∀ n, ScriptName n → 47 ∉ n → n ≠ cn → fs (dir ++ 47 :: n) = none)
    {fs₀ : FS} {pairs : List (Bytes × Bytes)} (ha : Apart pairs) (h0 : ∀ x ∈ pairs, fs₀ x.1 ≠ none) (hdir : NoDirs pairs fs)
    (hp : fs (makeName dir cn) = some (.file (script fs₀ pairs) true)) :
    recover dir listing fs = some (remove dir cn (settleAll pairs fs), true) := by
  unfold recover
  rw [ls_lines (by decide) (by decide) listing (lists_lines h hs)]
  have hbegin : ([0x63, 0x6F, 0x6D, 0x6D, 0x69, 0x74] /- commit -/ : Bytes).isPrefixOf cn = true ∧ cn ≠ [] ∧ cn.head? ≠ some 46 := by
    obtain ⟨mid, _, rfl⟩ := hcn
    exact ⟨rfl, by simp, by simp⟩
  refine finalize_one (h.1.filter _) (List.mem_filter.2 ⟨(h.2 cn).2 ⟨hbegin.2.1, h47, hbegin.2.2, ?_⟩, hbegin.1⟩) hcn ?_
    (execute_script ?_ ?_ ha h0 hdir hp)
  · show fs (makeName dir cn) ≠ none
    rw [hp]; simp
  · intro n hm hsn
    have hm := (h.2 n).1 ((List.mem_filter.1 hm).1)
    exact Classical.byContradiction fun hne => hm.2.2.2 (hn n hsn hm.2.1 hne)
  · exact legal_append hd (by
      intro hm
      rcases List.mem_cons.1 hm with e | hm
      · exact absurd e (by decide)
      · exact hl hm)
  · simp [makeName]

/-- the situation when the script is there -/
structure Scripted (dir temp cn : Bytes) (xs : List Bytes) (fs g : FS) : Prop where
  mid : Mid (xs.map (pairOf dir)) fs g
  text : g (makeName dir cn) = some (.file (script fs (xs.map (pairOf dir))) true)
  noDir : g temp ≠ some .dir
  other : ∀ p, (∀ x ∈ xs, p ≠ before dir x ∧ p ≠ afterwards dir x) → p ≠ makeName dir cn → p ≠ temp → g p = fs p

theorem cleaned_eq {dir : Bytes} {fs fs' : FS} (h : Cleaned dir fs fs') {p : Bytes} (hp : ¬ Temporary dir p) :
    fs' p = fs p := (h p).2 fun ht => hp ht.1

theorem isFile_of {fs : FS} {p : Bytes} (h1 : fs p ≠ none) (h2 : fs p ≠ some .dir) : IsFile fs p := by
  cases h : fs p with
  | none => exact absurd h h1
  | some n =>
    cases n with
    | dir => exact absurd h h2
    | file b x => exact ⟨b, x, h⟩

theorem crash_before {dir temp : Bytes} {xs : List Bytes} {fs g h : FS} (hr : Ready dir xs fs) (ht : Temporary dir temp)
    (hfd : fs temp ≠ some .dir) (hgd : g temp ≠ some .dir) (ho : ∀ p, p ≠ temp → g p = fs p) (hc : Cleaned dir g h)
    {listing : List Bytes} (hl : Lists dir h listing) (hs : Short listing) :
    recover dir listing h = some (h, true) ∧ Cleaned dir fs h := by
  constructor
  · refine recover_none hl hs fun n hn h47 => ?_
    have ha := script_apart (dir := dir) hn
    have : h (makeName dir n) = none := by
      rw [cleaned_eq hc ha.1, ho _ fun e => ha.1 (by rw [e]; exact ht)]
      exact hr.scripts n hn h47
    exact this
  · intro p
    by_cases hp : p = temp
    · subst hp
      have hnone : h p = none := by
        by_cases hg : g p = none
        · rw [(hc p).2 fun hf => (by obtain ⟨_, b, x, hb⟩ := hf; rw [hg] at hb; cases hb), hg]
        · exact (hc p).1 ⟨ht, isFile_of hg hgd⟩
      refine ⟨fun _ => hnone, fun hf => ?_⟩
      rw [hnone]
      by_cases hfn : fs p = none
      · exact hfn.symm
      · exact absurd ⟨ht, isFile_of hfn hfd⟩ hf
    · have e : IsFile g p ↔ IsFile fs p := by unfold IsFile; rw [ho p hp]
      have := hc p
      rw [e, ho p hp] at this
      exact this

theorem crash_scripted {dir temp cn : Bytes} (hd : PlainName dir) {xs : List Bytes} {fs g h : FS} (hr : Ready dir xs fs)
    (ht : Temporary dir temp) (hfd : fs temp ≠ some .dir) (hcn : ScriptName cn) (h47 : 47 ∉ cn) (hlc : Legal cn)
    (hg : Scripted dir temp cn xs fs g) (hc : Cleaned dir g h)
    {listing : List Bytes} (hl : Lists dir h listing) (hs : Short listing) :
    ∃ fs₂, recover dir listing h = some (fs₂, true) ∧ AllCommitted dir xs fs fs₂ := by
  have hap := pairs_apart hd xs hr.apart fun x hx => (hr.proper x hx).1
  have hsa := script_apart (dir := dir) hcn
  have hst : makeName dir cn ≠ temp := fun e => hsa.1 (by rw [e]; exact ht)
  have hb : ∀ x, h (before dir x) = g (before dir x) := fun x => cleaned_eq hc (before_temporary dir x)
  have hf : ∀ x, h (afterwards dir x) = g (afterwards dir x) := fun x => cleaned_eq hc (afterwards_temporary dir x)
  have hfile : ∀ x ∈ xs, fs (before dir x) ≠ none ∧ fs (before dir x) ≠ some .dir := by
    intro x hx
    obtain ⟨b, y, e⟩ := hr.written x hx
    rw [e]; simp
  have hmid : ∀ x ∈ xs, (g (afterwards dir x) = none ∧ g (before dir x) = fs (before dir x)) ∨
      (g (afterwards dir x) = fs (before dir x) ∧ (g (before dir x) = fs (before dir x) ∨ g (before dir x) = none)) := by
    intro x hx
    have := hg.mid (pairOf dir x) (List.mem_map_of_mem hx)
    rw [pairOf_eq] at this
    exact this
  have hnd : NoDirs (xs.map (pairOf dir)) h := by
    intro y hy
    obtain ⟨x, hx, rfl⟩ := mem_pairs hy
    simp only [hb, hf]
    have h1 := hfile x hx
    rcases hmid x hx with ⟨e1, e2⟩ | ⟨e1, e2 | e2⟩ <;> rw [e1, e2] <;> simp [h1]
  have hrec := recover_one (plain_legal hd.2.1) hl hs hcn h47 hlc (fs₀ := fs) (fun n hn hn47 hne => by
      have ha := script_apart (dir := dir) hn
      have : h (makeName dir n) = none := by
        rw [cleaned_eq hc ha.1, hg.other _ (fun x _ => ha.2 x) (by
          intro e
          unfold makeName at e
          have := List.append_cancel_left e
          simp at this
          exact hne this) fun e => ha.1 (by rw [e]; exact ht)]
        exact hr.scripts n hn hn47
      exact this) hap (by
        intro y hy
        obtain ⟨x, hx, rfl⟩ := mem_pairs hy
        exact (hfile x hx).1) hnd (by rw [cleaned_eq hc hsa.1]; exact hg.text)
  refine ⟨_, hrec, ?_⟩
  have hm := settleAll_moved (xs.map (pairOf dir)) h hap
  refine ⟨?_, ?_⟩
  · intro x hx
    have hpx : (before dir x, afterwards dir x) ∈ xs.map (pairOf dir) := pairOf_eq dir x ▸ List.mem_map_of_mem hx
    have := hm.1 _ _ hpx
    have e1 : remove dir cn (settleAll (xs.map (pairOf dir)) h) (afterwards dir x) =
        settleAll (xs.map (pairOf dir)) h (afterwards dir x) := put_other (fun e => (hsa.2 x).2 e.symm) _
    have e2 : remove dir cn (settleAll (xs.map (pairOf dir)) h) (before dir x) =
        settleAll (xs.map (pairOf dir)) h (before dir x) := put_other (fun e => (hsa.2 x).1 e.symm) _
    rw [e1, e2]
    refine ⟨?_, this.1⟩
    rw [hb, hf] at this
    rcases hmid x hx with ⟨a, b⟩ | ⟨a, _⟩
    · rw [this.2.2 a, b]
    · rw [this.2.1 (by rw [a]; exact (hfile x hx).1), a]
  · intro p hp
    by_cases hps : p = makeName dir cn
    · subst hps
      have e : remove dir cn (settleAll (xs.map (pairOf dir)) h) (makeName dir cn) = none := put_same ..
      refine ⟨fun _ => e, fun _ => ?_⟩
      rw [e]
      exact (hr.scripts cn hcn h47).symm
    · have e1 : remove dir cn (settleAll (xs.map (pairOf dir)) h) p = settleAll (xs.map (pairOf dir)) h p :=
        put_other hps _
      have e2 : settleAll (xs.map (pairOf dir)) h p = h p := hm.2 p fun r f hrf => by
        obtain ⟨x, hx, e⟩ := mem_pairs hrf
        cases e
        exact hp x hx
      rw [e1, e2]
      by_cases hpt : p = temp
      · subst hpt
        have hnone : h p = none := by
          by_cases hgn : g p = none
          · rw [(hc p).2 fun hf => (by obtain ⟨_, b, x, hb⟩ := hf; rw [hgn] at hb; cases hb), hgn]
          · exact (hc p).1 ⟨ht, isFile_of hgn hg.noDir⟩
        refine ⟨fun _ => hnone, fun hf => ?_⟩
        rw [hnone]
        by_cases hfn : fs p = none
        · exact hfn.symm
        · exact absurd ⟨ht, isFile_of hfn hfd⟩ hf
      · have hgp := hg.other p hp hps hpt
        have e : IsFile g p ↔ IsFile fs p := by unfold IsFile; rw [hgp]
        have := hc p
        rw [e, hgp] at this
        exact this

theorem crash_done {dir temp : Bytes} {xs : List Bytes} {fs g h : FS} (hr : Ready dir xs fs)
    (ht : Temporary dir temp) (hfd : fs temp ≠ some .dir)
    (hm : ∀ x ∈ xs, g (afterwards dir x) = fs (before dir x) ∧ g (before dir x) = none)
    (htn : g temp = none)
    (ho : ∀ p, (∀ x ∈ xs, p ≠ before dir x ∧ p ≠ afterwards dir x) → p ≠ temp → g p = fs p)
    (hc : Cleaned dir g h) {listing : List Bytes} (hl : Lists dir h listing) (hs : Short listing) :
    recover dir listing h = some (h, true) ∧ AllCommitted dir xs fs h := by
  constructor
  · refine recover_none hl hs fun n hn h47 => ?_
    have ha := script_apart (dir := dir) hn
    have : h (makeName dir n) = none := by
      rw [cleaned_eq hc ha.1, ho _ (fun x _ => ha.2 x) fun e => ha.1 (by rw [e]; exact ht)]
      exact hr.scripts n hn h47
    exact this
  · refine ⟨fun x hx => ?_, fun p hp => ?_⟩
    · rw [cleaned_eq hc (before_temporary dir x), cleaned_eq hc (afterwards_temporary dir x)]
      exact hm x hx
    · by_cases hpt : p = temp
      · subst hpt
        have hnone : h p = none := by
          rw [(hc p).2 fun hf => (by obtain ⟨_, b, x, hb⟩ := hf; rw [htn] at hb; cases hb), htn]
        refine ⟨fun _ => hnone, fun hf => ?_⟩
        rw [hnone]
        by_cases hfn : fs p = none
        · exact hfn.symm
        · exact absurd ⟨ht, isFile_of hfn hfd⟩ hf
      · have hgp := ho p hp hpt
        have e : IsFile g p ↔ IsFile fs p := by unfold IsFile; rw [hgp]
        have := hc p
        rw [e, hgp] at this
        exact this

theorem crash {dir temp cn : Bytes} (hd : PlainName dir) {xs : List Bytes} {fs : FS} (hr : Ready dir xs fs)
    (ht : Temporary dir temp) (hfd : fs temp ≠ some .dir) (hcn : ScriptName cn) (h47 : 47 ∉ cn) (hlc : Legal cn)
    (part k : Nat) {h : FS}
    (hc : Cleaned dir (after ((commitAllSteps fs dir temp cn (xs.map (pairOf dir)) part).take k) fs) h)
    {listing : List Bytes} (hl : Lists dir h listing) (hs : Short listing) :
    ∃ fs₂, recover dir listing h = some (fs₂, true) ∧ (k < 4 → NoneCommitted dir fs fs₂) ∧
      (4 ≤ k → AllCommitted dir xs fs fs₂) := by
  have hap := pairs_apart hd xs hr.apart fun x hx => (hr.proper x hx).1
  have hsa := script_apart (dir := dir) hcn
  have hst : makeName dir cn ≠ temp := fun e => hsa.1 (by rw [e]; exact ht)
  have hbt : ∀ x, before dir x ≠ temp ∧ afterwards dir x ≠ temp := fun x =>
    ⟨fun e => before_temporary dir x (by rw [e]; exact ht), fun e => afterwards_temporary dir x (by rw [e]; exact ht)⟩
  have start : ∀ g : FS, g temp ≠ some .dir → (∀ p, p ≠ temp → g p = fs p) → Cleaned dir g h → k < 4 →
      ∃ fs₂, recover dir listing h = some (fs₂, true) ∧ (k < 4 → NoneCommitted dir fs fs₂) ∧
        (4 ≤ k → AllCommitted dir xs fs fs₂) := by
    intro g h1 h2 h3 hk
    have := crash_before hr ht hfd h1 h2 h3 hl hs
    exact ⟨h, this.1, fun _ => this.2, fun h4 => absurd h4 (by omega)⟩
  match k, hc with
  | 0, hc => exact start fs hfd (fun _ _ => rfl) hc (by omega)
  | 1, hc =>
    exact start (put fs temp (some (.file ((script fs (xs.map (pairOf dir))).take part) false)))
       (by rw [put_same]; simp) (fun p hp => put_other hp _) hc (by omega)
  | 2, hc =>
    exact start (put (put fs temp (some (.file ((script fs (xs.map (pairOf dir))).take part) false))) temp (some (.file (script fs (xs.map (pairOf dir))) false)))
       (by rw [put_same]; simp) (fun p hp => by rw [put_other hp, put_other hp]) hc (by omega)
  | 3, hc =>
    exact start (put (put (put fs temp (some (.file ((script fs (xs.map (pairOf dir))).take part) false))) temp (some (.file (script fs (xs.map (pairOf dir))) false))) temp (some (.file (script fs (xs.map (pairOf dir))) true)))
       (by rw [put_same]; simp) (fun p hp => by rw [put_other hp, put_other hp, put_other hp]) hc (by omega)
  | 4, hc =>
    let t3 : FS := put (put (put fs temp (some (.file ((script fs (xs.map (pairOf dir))).take part) false))) temp
      (some (.file (script fs (xs.map (pairOf dir))) false))) temp (some (.file (script fs (xs.map (pairOf dir))) true))
    have hc' : Cleaned dir (put t3 (makeName dir cn) (t3 temp)) h := hc
    have ht3 : t3 temp = some (.file (script fs (xs.map (pairOf dir))) true) := put_same ..
    have ho3 : ∀ p, p ≠ temp → t3 p = fs p := fun p hp => by
      show put _ _ _ _ = _
      rw [put_other hp, put_other hp, put_other hp]
    have hsc : Scripted dir temp cn xs fs (put t3 (makeName dir cn) (t3 temp)) := by
      refine ⟨?_, ?_, ?_, ?_⟩
      · intro y hy
        obtain ⟨x, hx, rfl⟩ := mem_pairs hy
        refine .inl ⟨?_, ?_⟩
        · rw [put_other (fun e => (hsa.2 x).2 e.symm), ho3 _ (hbt x).2]
          exact hr.fresh x hx
        · rw [put_other (fun e => (hsa.2 x).1 e.symm), ho3 _ (hbt x).1]
      · rw [put_same, ht3]
      · rw [put_other (fun e => hst e.symm), ht3]; simp
      · intro p _ h2 h3
        rw [put_other h2, ho3 p h3]
    obtain ⟨fs₂, h1, h2⟩ := crash_scripted hd hr ht hfd hcn h47 hlc hsc hc' hl hs
    exact ⟨fs₂, h1, fun h => absurd h (by omega), fun _ => h2⟩
  | j + 5, hc =>
    let t3 : FS := put (put (put fs temp (some (.file ((script fs (xs.map (pairOf dir))).take part) false))) temp
      (some (.file (script fs (xs.map (pairOf dir))) false))) temp (some (.file (script fs (xs.map (pairOf dir))) true))
    let t5 : FS := put (put t3 (makeName dir cn) (t3 temp)) temp none
    have ht3 : t3 temp = some (.file (script fs (xs.map (pairOf dir))) true) := put_same ..
    have ho3 : ∀ p, p ≠ temp → t3 p = fs p := fun p hp => by
      show put _ _ _ _ = _
      rw [put_other hp, put_other hp, put_other hp]
    have hs5 : t5 (makeName dir cn) = some (.file (script fs (xs.map (pairOf dir))) true) := by
      show put _ _ _ _ = _
      rw [put_other hst, put_same, ht3]
    have ht5 : t5 temp = none := put_same ..
    have ho5 : ∀ p, p ≠ makeName dir cn → p ≠ temp → t5 p = fs p := fun p h1 h2 => by
      show put _ _ _ _ = _
      rw [put_other h2, put_other h1, ho3 p h2]
    have hb5 : ∀ x, t5 (before dir x) = fs (before dir x) ∧ t5 (afterwards dir x) = fs (afterwards dir x) := fun x =>
      ⟨ho5 _ (fun e => (hsa.2 x).1 e.symm) (hbt x).1, ho5 _ (fun e => (hsa.2 x).2 e.symm) (hbt x).2⟩
    have hnotin : ∀ y ∈ xs.map (pairOf dir), makeName dir cn ≠ y.1 ∧ makeName dir cn ≠ y.2 := by
      intro y hy
      obtain ⟨x, _, rfl⟩ := mem_pairs hy
      exact hsa.2 x
    have htnotin : ∀ y ∈ xs.map (pairOf dir), temp ≠ y.1 ∧ temp ≠ y.2 := by
      intro y hy
      obtain ⟨x, _, rfl⟩ := mem_pairs hy
      exact ⟨fun e => (hbt x).1 e.symm, fun e => (hbt x).2 e.symm⟩
    have hother : ∀ p, (∀ x ∈ xs, p ≠ before dir x ∧ p ≠ afterwards dir x) → ∀ y ∈ xs.map (pairOf dir),
        p ≠ y.1 ∧ p ≠ y.2 := by
      intro p hp y hy
      obtain ⟨x, hx, rfl⟩ := mem_pairs hy
      exact hp x hx
    have hc' : Cleaned dir (after (((xs.map (pairOf dir)).flatMap commitSteps ++
        [fun fs => remove dir cn fs]).take j) t5) h := hc
    by_cases hj : j ≤ ((xs.map (pairOf dir)).flatMap commitSteps).length
    · rw [List.take_append_of_le_length hj] at hc'
      have hst := steps_mid (xs.map (pairOf dir)) t5 j hap fun y hy => by
        obtain ⟨x, hx, rfl⟩ := mem_pairs hy
        rw [(hb5 x).2]
        exact hr.fresh x hx
      have hsc : Scripted dir temp cn xs fs (after (((xs.map (pairOf dir)).flatMap commitSteps).take j) t5) := by
        refine ⟨?_, ?_, ?_, ?_⟩
        · intro y hy
          have := hst.1 y hy
          obtain ⟨x, hx, rfl⟩ := mem_pairs hy
          simp only [(hb5 x).1] at this
          exact this
        · rw [hst.2 _ hnotin, hs5]
        · rw [hst.2 _ htnotin, ht5]; simp
        · intro p h1 h2 h3
          rw [hst.2 p (hother p h1), ho5 p h2 h3]
      obtain ⟨fs₂, h1, h2⟩ := crash_scripted hd hr ht hfd hcn h47 hlc hsc hc' hl hs
      exact ⟨fs₂, h1, fun h => absurd h (by omega), fun _ => h2⟩
    · rw [List.take_of_length_le (by rw [List.length_append, List.length_singleton]; omega), after_append] at hc'
      have hst := steps_all (xs.map (pairOf dir)) t5 hap
      have hc'' : Cleaned dir (remove dir cn (after ((xs.map (pairOf dir)).flatMap commitSteps) t5)) h := hc'
      have := crash_done hr ht hfd (g := remove dir cn (after ((xs.map (pairOf dir)).flatMap commitSteps) t5))
        (fun x hx => by
          have := hst.1 (pairOf dir x) (List.mem_map_of_mem hx)
          rw [pairOf_eq] at this
          unfold remove
          rw [put_other (fun e => (hsa.2 x).2 e.symm), put_other (fun e => (hsa.2 x).1 e.symm)]
          simp only [(hb5 x).1] at this
          exact this)
        (by unfold remove; rw [put_other (fun e => hsa.1 (by rw [← e]; exact ht)),
              hst.2 _ htnotin, ht5])
        (fun p h1 h2 => by
          unfold remove
          by_cases hp : p = makeName dir cn
          · subst hp
            rw [put_same]
            exact (hr.scripts cn hcn h47).symm
          · rw [put_other hp, hst.2 p (hother p h1), ho5 p hp h2]) hc'' hl hs
      exact ⟨h, this.1, fun h => absurd h (by omega), fun _ => this.2⟩

end Verif.Working
