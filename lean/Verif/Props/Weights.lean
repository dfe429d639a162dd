import Verif.Weights.Model
import Verif.Props.Settings
/-
  C105: a command that weighs terms weighs those of the burrow, documents and stemmer that it was given, keeps how it did so, and leaves other burrows alone.
-/
namespace Verif.Props
open Verif.Weights
open Verif.Settings (put stemmerKey containerKey idKey statisticsKey Params)

section
variable {w : Weights.World} {d : Disk}

theorem weights_setting_ok {st : Int} {k v : List Char} {s : Burrow} {next : Burrow → Int × Burrow} (hst : st ≠ 0) (h : (Weights.setting w st k v s next).1 = 0) :
    Weights.setting w st k v s next = next { s with params := put k v s.params } := by
  unfold Weights.setting at *
  split at h
  · rw [if_pos (by assumption)]
  · exact absurd h hst

/-- the parameters after a command that ended with 0 -/
def weighedParams (full : Bool) (name c id : List Char) (ps : Params) : Params :=
  let base := put containerKey c (put stemmerKey name ps)
  let base := if id = [] then base else put idKey id base
  put statisticsKey ['i', 'd', 'f'] (put rsjKey ['y', 'e', 's'] (put idfKey (okay full) (put unstemmedKey (okay full) base)))

theorem weigh_done {name c : List Char} {full : Bool} {s : Burrow} (h : (weigh w name c full full true s).1 = 0) :
    weigh w name c full full true s =
      (0, ⟨put statisticsKey ['i', 'd', 'f'] (put rsjKey ['y', 'e', 's'] (put idfKey (okay full) (put unstemmedKey (okay full) s.params))), some ⟨name, c, full, full, true⟩⟩) := by
  unfold weigh at *
  rw [if_neg (by simp)] at *
  split at h
  · cases h
  · split at h
    · cases h
    · rename_i h1 h2
      rw [if_neg h1, if_neg h2]
      unfold describe at *
      have e1 := weights_setting_ok (by decide) h
      rw [e1] at h ⊢
      have e2 := weights_setting_ok (by decide) h
      rw [e2] at h ⊢
      have e3 := weights_setting_ok (by decide) h
      rw [e3] at h ⊢
      have e4 := weights_setting_ok (by decide) h
      rw [e4]
      rfl

/-- **C105** (described): for all flags, when `tf_idf_annotations` succeeds and there were weights to find, the parameters say how terms were weighed, and others are what they were -/
theorem C105_described {name c : List Char} {u i r : Bool} {s : Burrow} (hir : (i || r) = true) (h : (weigh w name c u i r s).1 = 0) :
    (weigh w name c u i r s).2.weighed = some ⟨name, c, u, i, r⟩ ∧ (weigh w name c u i r s).2.params unstemmedKey = okay u ∧ (weigh w name c u i r s).2.params idfKey = okay i ∧
    (weigh w name c u i r s).2.params rsjKey = okay r ∧ (weigh w name c u i r s).2.params statisticsKey = ['i', 'd', 'f'] ∧
    ∀ k, k ∉ [unstemmedKey, idfKey, rsjKey, statisticsKey] → (weigh w name c u i r s).2.params k = s.params k := by
  unfold weigh at *
  rw [if_neg (by simp [hir])] at *
  split at h
  · cases h
  · split at h
    · cases h
    · rename_i h1 h2
      rw [if_neg h1, if_neg h2]
      unfold describe at *
      have e1 := weights_setting_ok (by decide) h
      rw [e1] at h ⊢
      have e2 := weights_setting_ok (by decide) h
      rw [e2] at h ⊢
      have e3 := weights_setting_ok (by decide) h
      rw [e3] at h ⊢
      have e4 := weights_setting_ok (by decide) h
      rw [e4]
      refine ⟨rfl, rfl, rfl, rfl, rfl, ?_⟩
      intro k hk
      simp only [List.mem_cons, List.not_mem_nil, or_false, not_or] at hk
      dsimp only
      rw [put_other _ _ hk.2.2.2, put_other _ _ hk.2.2.1, put_other _ _ hk.2.1, put_other _ _ hk.1]

theorem burrow_done {name c id : List Char} {full : Bool} {s : Burrow} (h : (onBurrow w full name c id s).1 = 0) :
    onBurrow w full name c id s = (0, ⟨weighedParams full name c id s.params, some ⟨name, c, full, full, true⟩⟩) := by
  unfold onBurrow at *
  have e1 := weights_setting_ok (by decide) h
  rw [e1] at h ⊢
  split at h
  · cases h
  · rename_i h1
    rw [if_neg h1]
    have e2 := weights_setting_ok (by decide) h
    rw [e2] at h ⊢
    dsimp only at *
    by_cases hid : id = []
    · rw [if_pos hid] at *
      rw [weigh_done h]
      unfold weighedParams
      simp only [if_pos hid]
    · rw [if_neg hid] at *
      split at h
      · cases h
      · rename_i h2
        rw [if_neg h2]
        have e3 := weights_setting_ok (by decide) h
        rw [e3] at h ⊢
        rw [weigh_done h]
        unfold weighedParams
        simp only [if_neg hid]

theorem request_burrow (r : Request) (h : burrowOption r.stemmer = false) : takeBurrow r.args = (r.burrow.getD defaultBurrow, { r with burrow := none }.args) := by
  obtain ⟨b, f, st, c, ns⟩ := r
  cases b with
  | some b => rfl
  | none =>
    cases f with
    | true => rfl
    | false =>
      show (if burrowOption st then _ else _) = _
      rw [h]
      rfl

theorem request_full (r : Request) (hb : r.burrow = none) (h : fullOption r.stemmer = false) : takeFull r.args = (r.full, r.stemmer :: r.documents :: r.names.toList) := by
  obtain ⟨b, f, st, c, ns⟩ := r
  subst hb
  cases f with
  | true => rfl
  | false =>
    show (if fullOption st then _ else _) = _
    rw [h]
    rfl

/-- what a request does: options and arguments are read as they were meant, unless the name of the stemmer looks like an option -/
theorem request_run (r : Request) (h : burrowOption r.stemmer = false) (h' : fullOption r.stemmer = false) :
    tfIdf w r.args d = run w (r.burrow.getD defaultBurrow) r.full r.stemmer r.documents (r.names.getD []) d := by
  have hne : r.args ≠ [helpOption] := by
    obtain ⟨b, f, st, c, ns⟩ := r
    intro e
    have := congrArg List.length e
    cases b <;> cases f <;> simp [Request.args] at this
  unfold tfIdf
  rw [if_neg hne, request_burrow r h]
  dsimp only
  rw [request_full { r with burrow := none } rfl h']
  dsimp only
  cases r.names <;> rfl

/-- **C105** (done), in part: when a command ends with 0, its burrow was there, the terms of the documents given were weighed by the stemmer given, also as they are and by inverse document frequency if and only if
that was asked for, the parameters say all this, names of documents are those given, all other parameters of the burrow and all other burrows are what they were.  Missing: without names, that there are none. -/
theorem C105_done_partial (r : Request) (h : burrowOption r.stemmer = false) (h' : fullOption r.stemmer = false) (hz : (tfIdf w r.args d).1 = 0) :
    ∃ name s s', w.stemmer r.stemmer = some name ∧ d (r.burrow.getD defaultBurrow) = some s ∧ (tfIdf w r.args d).2 (r.burrow.getD defaultBurrow) = some s' ∧
      s'.weighed = some ⟨name, r.documents, r.full, r.full, true⟩ ∧
      s'.params stemmerKey = name ∧ s'.params containerKey = r.documents ∧ s'.params unstemmedKey = okay r.full ∧ s'.params idfKey = okay r.full ∧ s'.params rsjKey = okay true ∧
      s'.params statisticsKey = ['i', 'd', 'f'] ∧
      (∀ n, r.names = some n → n ≠ [] → s'.params idKey = n) ∧
      (∀ k, k ∉ [stemmerKey, containerKey, idKey, unstemmedKey, idfKey, rsjKey, statisticsKey] → s'.params k = s.params k) ∧
      ∀ b, b ≠ r.burrow.getD defaultBurrow → (tfIdf w r.args d).2 b = d b := by
  rw [request_run r h h'] at *
  unfold run at *
  cases hst : w.stemmer r.stemmer with
  | none => rw [hst] at hz; cases hz
  | some name =>
    rw [hst] at hz
    dsimp only at *
    cases hd : d (r.burrow.getD defaultBurrow) with
    | none => rw [hd] at hz; cases hz
    | some s =>
      rw [hd] at hz
      dsimp only at *
      have e := burrow_done hz
      refine ⟨name, s, _, rfl, rfl, if_pos rfl, ?_⟩
      rw [e]
      refine ⟨rfl, ?_, ?_, rfl, rfl, rfl, rfl, ?_, ?_, ?_⟩
      · dsimp only [weighedParams]
        rw [put_other _ _ (by decide), put_other _ _ (by decide), put_other _ _ (by decide), put_other _ _ (by decide)]
        split
        · rw [put_other _ _ (by decide), put_same]
        · rw [put_other _ _ (by decide), put_other _ _ (by decide), put_same]
      · dsimp only [weighedParams]
        rw [put_other _ _ (by decide), put_other _ _ (by decide), put_other _ _ (by decide), put_other _ _ (by decide)]
        split
        · rw [put_same]
        · rw [put_other _ _ (by decide), put_same]
      · intro n hn hne
        dsimp only [weighedParams]
        rw [put_other _ _ (by decide), put_other _ _ (by decide), put_other _ _ (by decide), put_other _ _ (by decide), hn, if_neg (by simpa using hne), put_same]
        rfl
      · intro k hk
        simp only [List.mem_cons, List.not_mem_nil, or_false, not_or] at hk
        dsimp only [weighedParams]
        rw [put_other _ _ hk.2.2.2.2.2.2, put_other _ _ hk.2.2.2.2.2.1, put_other _ _ hk.2.2.2.2.1, put_other _ _ hk.2.2.2.1]
        split
        · rw [put_other _ _ hk.2.1, put_other _ _ hk.1]
        · rw [put_other _ _ hk.2.2.1, put_other _ _ hk.2.1, put_other _ _ hk.1]
      · intro b hb
        rw [if_neg hb]

/-- **Names of an earlier command stay**: without a query for names, that of the burrow is the one it had, whatever documents it was for -/
theorem C105_names_stay (r : Request) (h : burrowOption r.stemmer = false) (h' : fullOption r.stemmer = false) (hn : r.names = none) (hz : (tfIdf w r.args d).1 = 0) :
    ∃ s s', d (r.burrow.getD defaultBurrow) = some s ∧ (tfIdf w r.args d).2 (r.burrow.getD defaultBurrow) = some s' ∧ s'.params idKey = s.params idKey := by
  rw [request_run r h h'] at *
  unfold run at *
  cases hst : w.stemmer r.stemmer with
  | none => rw [hst] at hz; cases hz
  | some name =>
    rw [hst] at hz
    dsimp only at *
    cases hd : d (r.burrow.getD defaultBurrow) with
    | none => rw [hd] at hz; cases hz
    | some s =>
      rw [hd] at hz
      dsimp only at *
      have e := burrow_done hz
      refine ⟨s, _, rfl, if_pos rfl, ?_⟩
      rw [e, hn]
      dsimp only [weighedParams]
      rw [put_other _ _ (by decide), put_other _ _ (by decide), put_other _ _ (by decide), put_other _ _ (by decide), if_pos (show (none : Option (List Char)).getD [] = [] from rfl), put_other _ _ (by decide), put_other _ _ (by decide)]

/-- **C105** (success): with a stemmer that is known, a burrow that is there, queries that are understood and a warren that keeps parameters and annotations, the command ends with 0 -/
theorem C105_succeeds (r : Request) (h : burrowOption r.stemmer = false) (h' : fullOption r.stemmer = false) (h1 : w.stemmer r.stemmer ≠ none) (h2 : d (r.burrow.getD defaultBurrow) ≠ none)
    (h3 : ∀ q, w.good q = true) (h4 : ∀ k, w.sets k = true) (h5 : w.commits = true) : (tfIdf w r.args d).1 = 0 := by
  rw [request_run r h h']
  obtain ⟨name, hn⟩ := Option.ne_none_iff_exists'.1 h1
  obtain ⟨s, hs⟩ := Option.ne_none_iff_exists'.1 h2
  have hset : ∀ (x : Int) (k v : List Char) (s : Burrow) (next : Burrow → Int × Burrow), Weights.setting w x k v s next = next { s with params := put k v s.params } := by
    intro x k v s next
    unfold Weights.setting
    rw [if_pos (h4 k)]
  have hw : ∀ s, (weigh w name r.documents r.full r.full true s).1 = 0 := by
    intro s
    unfold weigh describe
    simp [h3, h5, hset]
  unfold run onBurrow
  simp only [hn, hs, hset, h3, Bool.not_true, Bool.false_eq_true, if_false]
  split <;> exact hw _

/-- **C105** (refused): with too few or too many arguments, a stemmer that is not known or a burrow that is not there, the command fails and nothing on the disk has changed -/
theorem C105_refused (args : List (List Char)) (hh : args ≠ [helpOption])
    (h : (takeFull (takeBurrow args).2).2.length ∉ [2, 3] ∨ d (takeBurrow args).1 = none ∨ ∃ a, (takeFull (takeBurrow args).2).2.head? = some a ∧ w.stemmer a = none) : tfIdf w args d = (1, d) := by
  have hrun : ∀ st c id, (takeFull (takeBurrow args).2).2.head? = some st → (takeFull (takeBurrow args).2).2.length ∈ [2, 3] → run w (takeBurrow args).1 (takeFull (takeBurrow args).2).1 st c id d = (1, d) := by
    intro st c id h1 h2
    unfold run
    rcases h with h | h | ⟨a, h3, h⟩
    · exact absurd h2 h
    · rw [h]
      cases w.stemmer st <;> rfl
    · rw [h1] at h3
      injection h3 with h3
      subst h3
      rw [h]
  unfold tfIdf
  rw [if_neg hh]
  dsimp only
  split
  · rename_i e
    exact hrun _ _ _ (by rw [e]; rfl) (by rw [e]; simp)
  · rename_i e
    exact hrun _ _ _ (by rw [e]; rfl) (by rw [e]; simp)
  · rfl

/-- **C105** (refused, by number): one argument that is not for help, none, and more than six are refused -/
theorem C105_number (args : List (List Char)) (hh : args ≠ [helpOption]) (h : args.length < 2 ∨ 6 < args.length) : tfIdf w args d = (1, d) := by
  refine C105_refused args hh (.inl ?_)
  rcases h with h | h
  · match args, h with
    | [], _ => decide
    | [a], _ => simp [takeBurrow, takeFull]
    | _ :: _ :: _, h => simp at h; omega
  · have h1 : 4 < (takeBurrow args).2.length := by
      unfold takeBurrow
      split
      · split
        · simp only [List.length_cons] at h; dsimp only; omega
        · simp only [List.length_cons] at *; omega
      · dsimp only; omega
    have h2 : 3 < (takeFull (takeBurrow args).2).2.length := by
      generalize (takeBurrow args).2 = l at h1
      unfold takeFull
      split
      · split
        · simp only [List.length_cons] at *; omega
        · simp only [List.length_cons] at *; omega
      · dsimp only; omega
    simp only [List.mem_cons, List.not_mem_nil, or_false]
    omega

/-- **C105** (help): asked for help, it succeeds and changes nothing -/
theorem C105_help : tfIdf w [helpOption] d = (0, d) := rfl

/-- **The order of options matters**: with `--full` before the burrow the command is refused, and weighs nothing -/
theorem C105_order (b st c : List Char) (names : Option (List Char)) : tfIdf w ([['-', '-', 'f', 'u', 'l', 'l'], ['-', '-', 'b', 'u', 'r', 'r', 'o', 'w'], b, st, c] ++ names.toList) d = (1, d) := by
  cases names <;> rfl

/-- **C105** (elsewhere): whatever the arguments and however it ends, at most one burrow has changed, and it is there after the command if and only if it was before -/
theorem C105_elsewhere (args : List (List Char)) : (∀ b, b ≠ (takeBurrow args).1 → (tfIdf w args d).2 b = d b) ∧ ∀ b, ((tfIdf w args d).2 b).isSome = (d b).isSome := by
  have hrun : ∀ x f st c id, (∀ b, b ≠ x → (run w x f st c id d).2 b = d b) ∧ ∀ b, ((run w x f st c id d).2 b).isSome = (d b).isSome := by
    intro x f st c id
    unfold run
    split
    · exact ⟨fun _ _ => rfl, fun _ => rfl⟩
    · split
      · exact ⟨fun _ _ => rfl, fun _ => rfl⟩
      · rename_i s hs
        refine ⟨fun b hb => if_neg hb, fun b => ?_⟩
        dsimp only
        split
        · rename_i hb
          subst hb
          rw [hs]; rfl
        · rfl
  unfold tfIdf
  split
  · exact ⟨fun _ _ => rfl, fun _ => rfl⟩
  · dsimp only
    split
    · exact hrun _ _ _ _ _
    · exact hrun _ _ _ _ _
    · exact ⟨fun _ _ => rfl, fun _ => rfl⟩

/-- **A command that fails has changed the burrow**: with a query for documents that is not understood the stemmer is the new one, though the weights are those of the old -/
theorem C105_failed (r : Request) (h : burrowOption r.stemmer = false) (h' : fullOption r.stemmer = false) {name : List Char} {s : Burrow} (h1 : w.stemmer r.stemmer = some name)
    (h2 : d (r.burrow.getD defaultBurrow) = some s) (h3 : w.sets stemmerKey = true) (h4 : w.good r.documents = false) :
    (tfIdf w r.args d).1 = 1 ∧ ∃ s', (tfIdf w r.args d).2 (r.burrow.getD defaultBurrow) = some s' ∧ s'.params stemmerKey = name ∧ s'.weighed = s.weighed := by
  have e : onBurrow w r.full name r.documents (r.names.getD []) s = (1, { s with params := put stemmerKey name s.params }) := by
    unfold onBurrow Weights.setting
    simp [h3, h4]
  rw [request_run r h h']
  unfold run
  rw [h1]
  dsimp only
  rw [h2]
  dsimp only
  rw [e]
  exact ⟨rfl, _, if_pos rfl, put_same stemmerKey name s.params, rfl⟩

/-- **Weights can change while the command fails**: when the parameters that describe them cannot be set, they are there and described as the earlier ones were -/
theorem C105_undescribed (r : Request) (h : burrowOption r.stemmer = false) (h' : fullOption r.stemmer = false) {name : List Char} {s : Burrow} (h1 : w.stemmer r.stemmer = some name)
    (h2 : d (r.burrow.getD defaultBurrow) = some s) (h3 : ∀ k, w.sets k = (k != unstemmedKey)) (h4 : ∀ q, w.good q = true) (h5 : w.commits = true) :
    (tfIdf w r.args d).1 = 1 ∧ ∃ s', (tfIdf w r.args d).2 (r.burrow.getD defaultBurrow) = some s' ∧ s'.weighed = some ⟨name, r.documents, r.full, r.full, true⟩ ∧
      ∀ k ∈ [unstemmedKey, idfKey, rsjKey, statisticsKey], s'.params k = s.params k := by
  have b1 : (stemmerKey != unstemmedKey) = true := by decide
  have b2 : (containerKey != unstemmedKey) = true := by decide
  have b3 : (idKey != unstemmedKey) = true := by decide
  rw [request_run r h h']
  unfold run
  rw [h1]
  dsimp only
  rw [h2]
  dsimp only
  have key : ∀ k ∈ [unstemmedKey, idfKey, rsjKey, statisticsKey], k ≠ stemmerKey ∧ k ≠ containerKey ∧ k ≠ idKey := by decide
  have e : ∃ ps, onBurrow w r.full name r.documents (r.names.getD []) s = (1, ⟨ps, some ⟨name, r.documents, r.full, r.full, true⟩⟩) ∧ ∀ k ∈ [unstemmedKey, idfKey, rsjKey, statisticsKey], ps k = s.params k := by
    unfold onBurrow weigh describe Weights.setting
    simp only [h3, h4, h5, b1, b2, b3, Bool.not_true, Bool.false_eq_true, if_false, if_true, Bool.or_true, bne_self_eq_false]
    split
    · refine ⟨_, rfl, fun k hk => ?_⟩
      obtain ⟨k1, k2, k3⟩ := key k hk
      rw [put_other _ _ k2, put_other _ _ k1]
    · refine ⟨_, rfl, fun k hk => ?_⟩
      obtain ⟨k1, k2, k3⟩ := key k hk
      rw [put_other _ _ k3, put_other _ _ k2, put_other _ _ k1]
  obtain ⟨ps, e, hk⟩ := e
  rw [e]
  exact ⟨rfl, _, if_pos rfl, rfl, hk⟩

end

/-! ### examples -/

def fineWeights : Weights.World := ⟨fun x => if x = ['p'] then some ['p', 'o', 'r'] else none, fun q => q != ['('], fun _ => true, true⟩
def oneBurrow : Disk := fun b => if b = ['x'] ∨ b = defaultBurrow then some ⟨fun _ => [], none⟩ else none

example : (tfIdf fineWeights (Request.args ⟨some ['x'], true, ['p'], ['D'], some ['N']⟩) oneBurrow).1 = 0 ∧
    ((tfIdf fineWeights (Request.args ⟨some ['x'], true, ['p'], ['D'], some ['N']⟩) oneBurrow).2 ['x']).bind (·.weighed) = some ⟨['p', 'o', 'r'], ['D'], true, true, true⟩ := by decide +kernel
example : (tfIdf fineWeights (Request.args ⟨none, false, ['p'], ['D'], none⟩) oneBurrow).1 = 0 ∧
    ((tfIdf fineWeights (Request.args ⟨none, false, ['p'], ['D'], none⟩) oneBurrow).2 defaultBurrow).bind (·.weighed) = some ⟨['p', 'o', 'r'], ['D'], false, false, true⟩ := by decide +kernel
example : (tfIdf fineWeights (Request.args ⟨none, false, ['p'], ['('], none⟩) oneBurrow).1 = 1 := by decide +kernel
example : burrowOption ['p'] = false ∧ fullOption ['p'] = false := by decide

end Verif.Props
