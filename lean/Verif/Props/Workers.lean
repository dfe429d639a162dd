import Verif.Workers.Model
/-
  C106: whatever the threads do, after a phase the collection has the files that were to be added and those that were there and were not to be erased, each once.
-/
namespace Verif.Props
open Verif.Workers

section
variable {tokens : List Char → List (List Char)} {threads : Nat}

theorem occurs_self : ∀ x : List (List Char), occurs x x = true := by
  intro x
  cases x with
  | nil => rfl
  | cons t ts =>
    unfold occurs
    rw [List.isPrefixOf_iff_prefix.2 (List.prefix_refl _)]
    rfl

/-- `occurs` is what it should be: there are tokens before and after -/
theorem name_occurs_iff (x : List (List Char)) : ∀ l, occurs x l = true ↔ ∃ a b, l = a ++ x ++ b := by
  intro l
  induction l with
  | nil =>
    unfold occurs
    constructor
    · intro h
      exact ⟨[], [], by simpa using (List.isEmpty_iff.1 h).symm⟩
    · rintro ⟨a, b, h⟩
      have h' := congrArg List.length h
      simp at h'
      exact List.isEmpty_iff.2 (List.eq_nil_of_length_eq_zero (by omega))
  | cons t ts ih =>
    unfold occurs
    rw [Bool.or_eq_true, ih, List.isPrefixOf_iff_prefix]
    constructor
    · rintro (⟨b, h⟩ | ⟨a, b, h⟩)
      · exact ⟨[], b, by simp [h]⟩
      · exact ⟨t :: a, b, by simp [h]⟩
    · rintro ⟨a, b, h⟩
      cases a with
      | nil => exact .inl ⟨b, by simpa using h.symm⟩
      | cons c a =>
        right
        simp only [List.cons_append, List.cons.injEq] at h
        exact ⟨a, b, by simp [h.2]⟩

theorem erase_mem {f : List Char} : ∀ {files : List (List Char)}, files.Nodup → (∀ g ∈ files, occurs (tokens f) (tokens g) = true → g = f) →
    ∀ g, g ∈ eraseFile tokens f files ↔ g ∈ files ∧ g ≠ f := by
  intro files
  induction files with
  | nil => intro _ _ g; simp [eraseFile]
  | cons x xs ih =>
    intro hn ha g
    have hx : x ∉ xs := (List.nodup_cons.1 hn).1
    by_cases h : occurs (tokens f) (tokens x) = true
    · have e := ha x (by simp) h
      subst e
      unfold eraseFile
      rw [List.eraseP_cons_of_pos (p := fun g => occurs (tokens _) (tokens g)) h]
      constructor
      · intro hg
        exact ⟨by simp [hg], fun e => hx (e ▸ hg)⟩
      · rintro ⟨hg, hne⟩
        rcases List.mem_cons.1 hg with hg | hg
        · exact absurd hg hne
        · exact hg
    · have hxf : x ≠ f := fun e => h (e ▸ occurs_self _)
      have ih' := ih (List.nodup_cons.1 hn).2 (fun g hg => ha g (by simp [hg])) g
      unfold eraseFile at *
      rw [List.eraseP_cons_of_neg (p := fun g => occurs (tokens f) (tokens g)) h, List.mem_cons, List.mem_cons, ih']
      constructor
      · rintro (e | ⟨hg, hne⟩)
        · exact ⟨.inl e, e ▸ hxf⟩
        · exact ⟨.inr hg, hne⟩
      · rintro ⟨e | hg, hne⟩
        · exact .inl e
        · exact .inr ⟨hg, hne⟩

/-- what holds in the middle of a phase -/
structure Halfway (add del files : List (List Char)) (s : State) : Prop where
  nodup : (s.docq ++ s.held ++ s.files).Nodup
  delnodup : (s.target.toList ++ s.delq).Nodup
  delsub : ∀ f ∈ s.target.toList ++ s.delq, f ∈ del
  mem : ∀ f, f ∈ s.docq ++ s.held ++ s.files ↔ f ∈ add ∨ (f ∈ files ∧ (f ∈ del → f ∈ s.target.toList ++ s.delq))
  pend : ∀ f ∈ s.docq ++ s.held, f ∈ add

theorem halfway_step {add del files : List (List Char)} {s t : State} (hap : Apart tokens del (add ++ files)) (hd : ∀ f ∈ del, f ∉ add) (i : Halfway add del files s) (h : Step tokens threads s t) :
    Halfway add del files t := by
  obtain ⟨n, dn, ds, m, pd⟩ := i
  cases h with
  | takes f rest h h' =>
    have hp : ((rest ++ (s.held ++ [f])) ++ s.files).Perm (s.docq ++ s.held ++ s.files) := by
      rw [h]
      refine List.Perm.append_right _ ?_
      rw [← List.append_assoc]
      exact List.perm_append_comm
    refine ⟨hp.nodup_iff.2 n, dn, ds, fun g => (hp.mem_iff).trans (m g), fun g hg => pd g ?_⟩
    rw [h]
    simp only [List.mem_append, List.mem_cons, List.not_mem_nil, or_false] at hg ⊢
    rcases hg with hg | hg | hg
    · exact .inl (.inr hg)
    · exact .inr hg
    · exact .inl (.inl hg)
  | adds f a b h =>
    have hp : ((s.docq ++ (a ++ b)) ++ (s.files ++ [f])).Perm (s.docq ++ s.held ++ s.files) := by
      rw [h]
      simp only [List.append_assoc]
      refine List.Perm.append_left _ (List.Perm.append_left _ ?_)
      rw [← List.append_assoc]
      exact List.perm_append_comm
    refine ⟨hp.nodup_iff.2 n, dn, ds, fun g => (hp.mem_iff).trans (m g), fun g hg => pd g ?_⟩
    rw [h]
    simp only [List.mem_append, List.mem_cons] at hg ⊢
    rcases hg with hg | hg | hg
    · exact .inl hg
    · exact .inr (.inl hg)
    · exact .inr (.inr (.inr hg))
  | targets f rest h h' =>
    have e : s.target.toList ++ s.delq = (some f).toList ++ rest := by rw [h, h']; rfl
    rw [e] at dn ds
    refine ⟨n, dn, ds, fun g => ?_, pd⟩
    have := m g
    rw [e] at this
    exact this
  | erases f h =>
    have e : s.target.toList ++ s.delq = f :: s.delq := by rw [h]; rfl
    have hf : f ∈ del := ds f (by rw [e]; simp)
    rw [e] at dn ds
    have nf : s.files.Nodup := (List.nodup_append.1 n).2.1
    have hap' : ∀ g ∈ s.files, occurs (tokens f) (tokens g) = true → g = f := by
      intro g hg ho
      refine hap f hf g ?_ ho
      rcases (m g).1 (by simp [hg]) with c | ⟨c, -⟩ <;> simp [c]
    have me := erase_mem (tokens := tokens) nf hap'
    have sub : (eraseFile tokens f s.files).Sublist s.files := List.eraseP_sublist
    have hfd : f ∉ s.delq := (List.nodup_cons.1 dn).1
    refine ⟨n.sublist (List.Sublist.append_left sub _), by simpa using (List.nodup_cons.1 dn).2, fun g hg => ds g (by simp at hg; simp [hg]), fun g => ?_, pd⟩
    have mg := m g
    rw [e] at mg
    show g ∈ s.docq ++ s.held ++ eraseFile tokens f s.files ↔ g ∈ add ∨ (g ∈ files ∧ (g ∈ del → g ∈ [] ++ s.delq))
    rw [List.mem_append, me g]
    rw [List.mem_append] at mg
    by_cases hgf : g = f
    · subst hgf
      constructor
      · rintro (c | ⟨-, c⟩)
        · exact .inl (pd _ c)
        · exact absurd rfl c
      · rintro (c | ⟨-, c⟩)
        · exact absurd c (hd _ hf)
        · exact absurd (by simpa using c hf) hfd
    · constructor
      · intro c
        rcases mg.1 (c.imp id And.left) with c | ⟨c, c'⟩
        · exact .inl c
        · refine .inr ⟨c, fun x => ?_⟩
          rcases List.mem_cons.1 (c' x) with y | y
          · exact absurd y hgf
          · simpa using y
      · intro c
        have := mg.2 (c.imp id fun ⟨c, c'⟩ => ⟨c, fun x => List.mem_cons.2 (.inr (by simpa using c' x))⟩)
        exact this.imp id fun c => ⟨c, hgf⟩

theorem halfway_steps {add del files : List (List Char)} {n : Nat} {a s : State} (hap : Apart tokens del (add ++ files)) (hd : ∀ f ∈ del, f ∉ add) (i : Halfway add del files a)
    (h : Steps tokens threads n a s) : Halfway add del files s := by
  induction h with
  | refl => exact i
  | tail _ h' ih => exact halfway_step hap hd (ih i) h'

/-- **C106** (a phase), in part: when files are added once and were not there, and files to erase are not among them and have names that are in no other name, then when all threads have ended, after whatever steps, the
collection has the files added and those that were there and not to be erased, each once.  Missing: names that are in other names. -/
theorem C106_phase_partial {add del files : List (List Char)} {n : Nat} {s : State} (hn : (add ++ files).Nodup) (hdn : del.Nodup) (hd : ∀ f ∈ del, f ∉ add) (hap : Apart tokens del (add ++ files))
    (h : Steps tokens threads n (start add del files) s) (hdone : s.done) : s.files.Nodup ∧ ∀ f, f ∈ s.files ↔ f ∈ add ∨ (f ∈ files ∧ f ∉ del) := by
  have i : Halfway add del files s := by
    refine halfway_steps (a := start add del files) hap hd ⟨?_, hdn, fun f hf => hf, fun f => ?_, fun f hf => ?_⟩ h
    · simpa [start] using hn
    · simp only [start, List.append_nil, List.mem_append, Option.toList_none, List.nil_append]
      constructor
      · exact fun c => c.imp id fun c => ⟨c, id⟩
      · exact fun c => c.imp id And.left
    · simpa [start] using hf
  obtain ⟨d1, d2, d3, d4⟩ := hdone
  refine ⟨by simpa [d1, d2] using i.nodup, fun f => ?_⟩
  have := i.mem f
  rw [d1, d2, d3, d4] at this
  simpa using this

/-- **C106** (the four phases), in part: with distinct files on the disks, whose names are in no other name, the collection at the end has the files of the fourth and fifth disk without those to be left out.
Missing: names that are in other names. -/
theorem C106_disks_partial {d2 d3 d4 d5 cr last : List (List Char)} (hn : (d2 ++ d3 ++ d4 ++ d5).Nodup) (hcn : cr.Nodup) (hcr : ∀ f ∈ cr, f ∈ d4)
    (hap : Apart tokens (d2 ++ d3 ++ d4 ++ d5) (d2 ++ d3 ++ d4 ++ d5))
    (h : Phases tokens threads [(d2 ++ d3, []), (d4, d3), (d5, d2), ([], cr)] [] last) : last.Nodup ∧ ∀ f, f ∈ last ↔ (f ∈ d4 ∨ f ∈ d5) ∧ f ∉ cr := by
  have ap : ∀ {del fs : List (List Char)}, (∀ f ∈ del, f ∈ d2 ++ d3 ++ d4 ++ d5) → (∀ f ∈ fs, f ∈ d2 ++ d3 ++ d4 ++ d5) → Apart tokens del fs :=
    fun a b f hf g hg => hap f (a f hf) g (b g hg)
  obtain ⟨n234, n5, x5⟩ := List.nodup_append.1 hn
  obtain ⟨n23, n4, x4⟩ := List.nodup_append.1 n234
  obtain ⟨n2, n3, x3⟩ := List.nodup_append.1 n23
  cases h with
  | cons h1 e1 h =>
    rename_i s1 _
    obtain ⟨m1, k1⟩ := C106_phase_partial (by simpa using n23) (by simp) (by simp) (ap (by simp) (by simp; intro f hf; rcases hf with hf | hf <;> simp [hf])) h1 e1
    have k1' : ∀ f, f ∈ s1.files ↔ f ∈ d2 ∨ f ∈ d3 := fun f => (k1 f).trans (by simp)
    cases h with
    | cons h2 e2 h =>
      rename_i s2 _
      obtain ⟨m2, k2⟩ := C106_phase_partial
        (List.nodup_append.2 ⟨n4, m1, fun a ha b hb e => x4 b (by simpa using (k1' b).1 hb) a ha e.symm⟩) n3
        (fun f hf hf4 => x4 f (by simp [hf]) f hf4 rfl)
        (ap (by simp; intro f hf; simp [hf]) (by
          intro f hf
          rcases List.mem_append.1 hf with hf | hf
          · simp [hf]
          · rcases (k1' f).1 hf with hf | hf <;> simp [hf])) h2 e2
      have k2' : ∀ f, f ∈ s2.files ↔ f ∈ d4 ∨ f ∈ d2 := by
        intro f
        rw [k2 f, k1' f]
        constructor
        · rintro (c | ⟨c | c, c'⟩)
          · exact .inl c
          · exact .inr c
          · exact absurd c c'
        · rintro (c | c)
          · exact .inl c
          · exact .inr ⟨.inl c, fun c' => x3 f c f c' rfl⟩
      cases h with
      | cons h3 e3 h =>
        rename_i s3 _
        obtain ⟨m3, k3⟩ := C106_phase_partial
          (List.nodup_append.2 ⟨n5, m2, fun a ha b hb e => x5 b (by rcases (k2' b).1 hb with c | c <;> simp [c]) a ha e.symm⟩) n2
          (fun f hf hf5 => x5 f (by simp [hf]) f hf5 rfl)
          (ap (by simp; intro f hf; simp [hf]) (by
            intro f hf
            rcases List.mem_append.1 hf with hf | hf
            · simp [hf]
            · rcases (k2' f).1 hf with hf | hf <;> simp [hf])) h3 e3
        have k3' : ∀ f, f ∈ s3.files ↔ f ∈ d4 ∨ f ∈ d5 := by
          intro f
          rw [k3 f, k2' f]
          constructor
          · rintro (c | ⟨c | c, c'⟩)
            · exact .inr c
            · exact .inl c
            · exact absurd c c'
          · rintro (c | c)
            · exact .inr ⟨.inl c, fun c' => x4 f (by simp [c']) f c rfl⟩
            · exact .inl c
        cases h with
        | cons h4 e4 h =>
          obtain ⟨m4, k4⟩ := C106_phase_partial (by simpa using m3) hcn (by simp)
            (ap (fun f hf => by simp [hcr f hf]) (by
              intro f hf
              rcases (k3' f).1 (by simpa using hf) with hf | hf <;> simp [hf])) h4 e4
          cases h with
          | nil =>
            exact ⟨m4, fun f => (k4 f).trans (by simp [k3' f])⟩

/-- **C106** (no waiting): while the threads have not all ended, one can go on, if there is a thread at all -/
theorem C106_goes_on (ht : 0 < threads) (s : State) (h : ¬ s.done) : ∃ t, Step tokens threads s t := by
  by_cases h1 : s.target = none
  · cases h2 : s.delq with
    | cons f rest => exact ⟨_, .targets s f rest h2 h1⟩
    | nil =>
      cases h3 : s.held with
      | cons f rest => exact ⟨_, .adds s f [] rest h3⟩
      | nil =>
        cases h4 : s.docq with
        | cons f rest => exact ⟨_, .takes s f rest h4 (by rw [h3]; exact ht)⟩
        | nil => exact absurd ⟨h4, h3, h2, h1⟩ h
  · obtain ⟨f, hf⟩ := Option.ne_none_iff_exists'.1 h1
    exact ⟨_, .erases s f hf⟩

/-- what is left to do -/
def leftToDo (s : State) : Nat := 2 * s.docq.length + s.held.length + 2 * s.delq.length + s.target.toList.length

/-- **C106** (end): a phase has two steps for each file to add or to erase, on every schedule, and there is no more when they have been made -/
theorem C106_ends {add del files : List (List Char)} {n : Nat} {s : State} (h : Steps tokens threads n (start add del files) s) :
    n ≤ 2 * (add.length + del.length) ∧ (n = 2 * (add.length + del.length) ↔ s.done) := by
  have hstep : ∀ a b, Step tokens threads a b → leftToDo a = leftToDo b + 1 := by
    intro a b h
    cases h with
    | takes f rest h h' => simp only [leftToDo, h, List.length_cons, List.length_append, List.length_nil]; omega
    | adds f x y h => simp only [leftToDo, h, List.length_cons, List.length_append]; omega
    | targets f rest h h' => simp only [leftToDo, h, h', List.length_cons, Option.toList_none, Option.toList_some, List.length_nil]; omega
    | erases f h => simp only [leftToDo, h, Option.toList_none, Option.toList_some, List.length_cons, List.length_nil]
  have hk : leftToDo s + n = 2 * (add.length + del.length) := by
    generalize ha : start add del files = a at h
    induction h with
    | refl =>
      subst ha
      simp only [leftToDo, start, Option.toList_none, List.length_nil]; omega
    | tail _ h' ih =>
      have := hstep _ _ h'
      have := ih ha
      omega
  have hz : leftToDo s = 0 ↔ s.done := by
    unfold leftToDo State.done
    constructor
    · intro e
      refine ⟨List.eq_nil_of_length_eq_zero (by omega), List.eq_nil_of_length_eq_zero (by omega), List.eq_nil_of_length_eq_zero (by omega), ?_⟩
      have : s.target.toList.length = 0 := by omega
      cases ht : s.target with
      | none => rfl
      | some f => rw [ht] at this; simp at this
    · rintro ⟨a, b, c, e⟩
      rw [a, b, c, e]
      rfl
  refine ⟨by omega, ?_⟩
  rw [← hz]
  omega

/-- **C106** (no two threads add one file, none is lost), whatever the names: the files taken and those still waiting are those to add, in some order -/
theorem C106_each_once {add del files : List (List Char)} {n : Nat} {s : State} (hdel : del = []) (h : Steps tokens threads n (start add del files) s) : (s.docq ++ s.held ++ s.files).Perm (add ++ files) := by
  subst hdel
  have : (s.docq ++ s.held ++ s.files).Perm (add ++ files) ∧ s.delq = [] ∧ s.target = none := by
    generalize ha : start add [] files = a at h
    induction h with
    | refl => subst ha; simp [start]
    | tail _ h' ih =>
      obtain ⟨p, q, t⟩ := ih ha
      cases h' with
      | takes f rest h h' =>
        refine ⟨List.Perm.trans ?_ p, q, t⟩
        rw [h]
        refine List.Perm.append_right _ ?_
        rw [← List.append_assoc]
        exact List.perm_append_comm
      | adds f a b h =>
        refine ⟨List.Perm.trans ?_ p, q, t⟩
        rw [h]
        simp only [List.append_assoc]
        refine List.Perm.append_left _ (List.Perm.append_left _ ?_)
        rw [← List.append_assoc]
        exact List.perm_append_comm
      | targets f rest h h' => rw [q] at h; cases h
      | erases f h => rw [t] at h; cases h
  exact this.1

end

/-! ### a wrong file -/

/-- names split at `/` -/
def pathTokens (s : List Char) : List (List Char) := s.foldr (fun c r => if c = '/' then [] :: r else match r with | [] => [[c]] | t :: ts => (c :: t) :: ts) [[]]

/-- **The wrong file is erased**: with the files `a/b` and `a`, to erase `a` erases `a/b`, which was to stay, and leaves `a` -/
theorem C106_wrong_file : ∃ s, Steps pathTokens 1 2 (start [] [['a']] [['a', '/', 'b'], ['a']]) s ∧ s.done ∧ s.files = [['a']] := by
  refine ⟨⟨[], [], [], none, [['a']]⟩, ?_, ⟨rfl, rfl, rfl, rfl⟩, rfl⟩
  have s1 := Step.targets (tokens := pathTokens) (threads := 1) (start [] [['a']] [['a', '/', 'b'], ['a']]) ['a'] [] rfl rfl
  have s2 := Step.erases (tokens := pathTokens) (threads := 1) ⟨[], [], [], some ['a'], [['a', '/', 'b'], ['a']]⟩ ['a'] rfl
  have e : eraseFile pathTokens ['a'] [['a', '/', 'b'], ['a']] = [['a']] := by decide +kernel
  have := Steps.tail (Steps.tail (Steps.refl _) s1) s2
  simpa only [e] using this

/-! ### examples -/

example : Apart pathTokens [['x', '/', '1']] [['x', '/', '1'], ['x', '/', '2'], ['y']] := by unfold Apart; decide +kernel

/-- a phase with two threads that overlap -/
example : ∃ s, Steps pathTokens 2 6 (start [['p'], ['q']] [['x']] [['x'], ['y']]) s ∧ s.done ∧ s.files = [['y'], ['q'], ['p']] := by
  refine ⟨⟨[], [], [], none, [['y'], ['q'], ['p']]⟩, ?_, ⟨rfl, rfl, rfl, rfl⟩, rfl⟩
  have s1 := Step.takes (tokens := pathTokens) (threads := 2) (start [['p'], ['q']] [['x']] [['x'], ['y']]) ['p'] [['q']] rfl (by decide)
  have s2 := Step.takes (tokens := pathTokens) (threads := 2) ⟨[['q']], [['p']], [['x']], none, [['x'], ['y']]⟩ ['q'] [] rfl (by decide)
  have s3 := Step.targets (tokens := pathTokens) (threads := 2) ⟨[], [['p'], ['q']], [['x']], none, [['x'], ['y']]⟩ ['x'] [] rfl rfl
  have s4 := Step.adds (tokens := pathTokens) (threads := 2) ⟨[], [['p'], ['q']], [], some ['x'], [['x'], ['y']]⟩ ['q'] [['p']] [] rfl
  have s5 := Step.erases (tokens := pathTokens) (threads := 2) ⟨[], [['p']], [], some ['x'], [['x'], ['y'], ['q']]⟩ ['x'] rfl
  have s6 := Step.adds (tokens := pathTokens) (threads := 2) ⟨[], [['p']], [], none, [['y'], ['q']]⟩ ['p'] [] [] rfl
  have e : eraseFile pathTokens ['x'] [['x'], ['y'], ['q']] = [['y'], ['q']] := by decide +kernel
  simp only [e] at s5
  exact .tail (.tail (.tail (.tail (.tail (.tail (.refl _) s1) s2) s3) s4) s5) s6

end Verif.Props
