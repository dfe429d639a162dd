import Verif.Append.Model
/-
  What every schedule keeps.
-/
namespace Verif.Append

variable {Line : Type} {E : Env Line}

theorem set_split {α : Type} : ∀ {l : List α} {i : Nat} {x : α}, l[i]? = some x →
    ∃ a b, l = a ++ x :: b ∧ a.length = i ∧ ∀ y, l.set i y = a ++ y :: b
  | [], _, _, h => by simp at h
  | z :: l, 0, x, h => by
    simp only [List.getElem?_cons_zero, Option.some.injEq] at h
    subst h
    exact ⟨[], l, rfl, rfl, fun y => rfl⟩
  | z :: l, i + 1, x, h => by
    simp only [List.getElem?_cons_succ] at h
    obtain ⟨a, b, e, hl, hs⟩ := set_split h
    exact ⟨z :: a, b, by simp [e], by simp [hl], fun y => by simp [hs y]⟩

theorem set_perm {α : Type} {f : α → List Line} {l : List α} {i : Nat} {x y : α} {z : List Line} (h : l[i]? = some x)
    (hf : f y = f x ++ z) : ((l.set i y).map f).flatten.Perm ((l.map f).flatten ++ z) := by
  obtain ⟨a, b, e, -, hs⟩ := set_split h
  rw [hs y, e]
  simp only [List.map_append, List.map_cons, List.flatten_append, List.flatten_cons, hf, List.append_assoc]
  exact List.Perm.append_left _ (List.Perm.append_left _ List.perm_append_comm)

/-- what a worker has in its transaction or in its hands -/
def Worker.mine (x : Worker Line) : List Line :=
  match x.pc with
  | .work l => x.appended ++ [l]
  | _ => x.appended

/-- every line that was appended was accepted -/
def Accepted (E : Env Line) (w : Nat) (l : List Line) : Prop := ∀ a x b, l = a ++ x :: b → E.accepts w a x = true

theorem accepted_nil (w : Nat) : Accepted E w [] := by
  intro a x b h; simp at h

theorem accepted_append {w : Nat} {l : List Line} {y : Line} (h : Accepted E w l) (hy : E.accepts w l y = true) :
    Accepted E w (l ++ [y]) := by
  intro a x b e
  rcases List.eq_nil_or_concat b with rfl | ⟨b, z, rfl⟩
  · have e' : l ++ [y] = a ++ [x] := e
    obtain ⟨e1, e2⟩ := List.append_inj' e' rfl
    simp only [List.cons.injEq, and_true] at e2
    rw [← e1, ← e2]; exact hy
  · have e' : l ++ [y] = (a ++ x :: b) ++ [z] := by rw [e]; simp
    obtain ⟨e1, -⟩ := List.append_inj' e' rfl
    exact h a x b e1

/-- what holds of a worker -/
structure Good (E : Env Line) (taken : List Line) (st : State Line) (w : Nat) (x : Worker Line) : Prop where
  sub : x.mine.Sublist taken
  accepted : Accepted E w x.appended
  voting : x.pc = .vote → st.done = true
  ready : x.ready = true → x.pc = .stop ∧ E.votes w x.appended = true
  stopped : x.pc = .stop → st.done = true ∧ (st.failed = false → x.ready = true)

/-- what holds in every state -/
structure Inv (E : Env Line) (lines : List Line) (st : State Line) : Prop where
  taken : ∃ taken, lines = taken ++ st.rest ∧ (∀ w x, st.workers[w]? = some x → Good E taken st w x) ∧
    (st.failed = false → (st.workers.map Worker.mine).flatten.Perm taken)
  done : st.done = true → st.failed = false → st.rest = [] ∧ E.readError = false
  failed : st.failed = true → st.done = true
  /-- why it failed -/
  cause : st.failed = true → E.readError = true ∨ (∃ w a l, E.accepts w a l = false ∧ l ∈ lines) ∨ ∃ w a, E.votes w a = false
  read : E.readError = true → st.done = true → st.failed = true

theorem getElem?_set' {α : Type} {l : List α} {i j : Nat} {y z : α} (h : (l.set i y)[j]? = some z) :
    (i = j ∧ z = y) ∨ (i ≠ j ∧ l[j]? = some z) := by
  rw [List.getElem?_set] at h
  split at h
  · rename_i e
    split at h
    · exact .inl ⟨e, (Option.some.inj h).symm⟩
    · simp at h
  · rename_i e; exact .inr ⟨e, h⟩

theorem step_inv {lines : List Line} {st : State Line} (h : Inv E lines st) (w : Nat) : Inv E lines (step E st w) := by
  unfold step
  rcases hx : st.workers[w]? with _ | x
  · exact h
  obtain ⟨⟨taken, ht, hg, hp⟩, hd, hf, hc, hr⟩ := h
  have gx := hg w x hx
  simp only
  unfold stepOf
  rcases epc : x.pc with _ | l | _ | _
  · -- take
    have emine : x.mine = x.appended := by simp [Worker.mine, epc]
    have hnr : x.ready = false := by
      rcases er : x.ready with _ | _
      · rfl
      · have := (gx.ready er).1; rw [epc] at this; simp at this
    simp only
    by_cases hdone : st.done = true
    · rw [if_pos hdone]
      refine ⟨⟨taken, ht, fun j y hy => ?_, fun hnf => ?_⟩, hd, hf, hc, hr⟩
      · rcases getElem?_set' hy with ⟨rfl, rfl⟩ | ⟨-, hy⟩
        · exact ⟨by simpa [Worker.mine, emine] using emine ▸ gx.sub, gx.accepted, fun _ => hdone, fun e => by simp [hnr] at e, fun e => by simp at e⟩
        · have := hg j y hy
          exact ⟨this.sub, this.accepted, this.voting, this.ready, this.stopped⟩
      · refine List.Perm.trans (set_perm (z := []) hx ?_) (by simpa using hp hnf)
        simp [Worker.mine, epc]
    · rw [if_neg hdone]
      have hnf : st.failed = false := by
        rcases e : st.failed with _ | _
        · rfl
        · exact absurd (hf e) hdone
      rcases hrest : st.rest with _ | ⟨l, rest⟩
      · simp only
        by_cases he : E.readError = true
        · rw [if_pos he]
          refine ⟨⟨taken, by rw [ht, hrest], fun j y hy => ?_, fun e => by simp at e⟩, fun _ e => by simp at e, fun _ => rfl, fun _ => .inl he, fun _ _ => rfl⟩
          rcases getElem?_set' hy with ⟨rfl, rfl⟩ | ⟨-, hy⟩
          · exact ⟨by simpa [Worker.mine, emine] using emine ▸ gx.sub, gx.accepted, fun e => by simp at e, fun e => by simp [hnr] at e, fun _ => ⟨rfl, fun e => by simp at e⟩⟩
          · have := hg j y hy
            exact ⟨this.sub, this.accepted, fun _ => rfl, this.ready, fun e => ⟨rfl, fun e => by simp at e⟩⟩
        · rw [if_neg he]
          refine ⟨⟨taken, by rw [ht, hrest], fun j y hy => ?_, fun _ => ?_⟩, fun _ _ => ⟨hrest ▸ rfl, by simpa using he⟩, fun _ => rfl, fun e => hc e, fun e => absurd e he⟩
          · rcases getElem?_set' hy with ⟨rfl, rfl⟩ | ⟨-, hy⟩
            · exact ⟨by simpa [Worker.mine, emine] using emine ▸ gx.sub, gx.accepted, fun _ => rfl, fun e => by simp [hnr] at e, fun e => by simp at e⟩
            · have := hg j y hy
              exact ⟨this.sub, this.accepted, fun _ => rfl, this.ready, fun e => ⟨rfl, (this.stopped e).2⟩⟩
          · refine List.Perm.trans (set_perm (z := []) hx ?_) (by simpa using hp hnf)
            simp [Worker.mine, epc]
      · simp only
        refine ⟨⟨taken ++ [l], by rw [ht, hrest]; simp, fun j y hy => ?_, fun _ => ?_⟩, fun e => absurd e hdone, hf, hc, fun he e => absurd e hdone⟩
        · rcases getElem?_set' hy with ⟨rfl, rfl⟩ | ⟨-, hy⟩
          · refine ⟨?_, gx.accepted, fun e => by simp at e, fun e => by simp [hnr] at e, fun e => by simp at e⟩
            simp only [Worker.mine]
            exact (emine ▸ gx.sub).append (List.Sublist.refl _)
          · have := hg j y hy
            exact ⟨this.sub.trans (List.sublist_append_left _ _), this.accepted, this.voting, this.ready, this.stopped⟩
        · refine List.Perm.trans (set_perm (z := [l]) hx ?_) (List.Perm.append_right _ (hp hnf))
          simp [Worker.mine, epc]
  · -- work
    have emine : x.mine = x.appended ++ [l] := by simp [Worker.mine, epc]
    have hnr : x.ready = false := by
      rcases er : x.ready with _ | _
      · rfl
      · have := (gx.ready er).1; rw [epc] at this; simp at this
    have hsub : x.appended.Sublist taken := (List.sublist_append_left _ _).trans (emine ▸ gx.sub)
    have hmem : l ∈ lines := by
      rw [ht]; exact List.mem_append_left _ ((emine ▸ gx.sub).subset (by simp))
    simp only
    by_cases ha : E.accepts w x.appended l = true
    · rw [if_pos ha]
      refine ⟨⟨taken, ht, fun j y hy => ?_, fun hnf => ?_⟩, hd, hf, hc, hr⟩
      · rcases getElem?_set' hy with ⟨rfl, rfl⟩ | ⟨-, hy⟩
        · exact ⟨by simpa [Worker.mine] using emine ▸ gx.sub, accepted_append gx.accepted ha, fun e => by simp at e, fun e => by simp [hnr] at e, fun e => by simp at e⟩
        · have := hg j y hy
          exact ⟨this.sub, this.accepted, this.voting, this.ready, this.stopped⟩
      · refine List.Perm.trans (set_perm (z := []) hx ?_) (by simpa using hp hnf)
        simp [Worker.mine, epc]
    · rw [if_neg ha]
      by_cases hfa : st.failed = true
      · rw [if_pos hfa]
        refine ⟨⟨taken, ht, fun j y hy => ?_, fun hnf => by simp [hfa] at hnf⟩, hd, hf, hc, hr⟩
        rcases getElem?_set' hy with ⟨rfl, rfl⟩ | ⟨-, hy⟩
        · exact ⟨by simpa [Worker.mine] using hsub, gx.accepted, fun e => by simp at e, fun e => by simp [hnr] at e, fun _ => ⟨hf hfa, fun e => by simp [hfa] at e⟩⟩
        · have := hg j y hy
          exact ⟨this.sub, this.accepted, this.voting, this.ready, this.stopped⟩
      · rw [if_neg hfa]
        refine ⟨⟨taken, ht, fun j y hy => ?_, fun hnf => by simp at hnf⟩, fun _ e => by simp at e, fun _ => rfl,
          fun _ => .inr (.inl ⟨w, x.appended, l, by simpa using ha, hmem⟩), fun _ _ => rfl⟩
        rcases getElem?_set' hy with ⟨rfl, rfl⟩ | ⟨-, hy⟩
        · exact ⟨by simpa [Worker.mine] using hsub, gx.accepted, fun e => by simp at e, fun e => by simp [hnr] at e, fun _ => ⟨rfl, fun e => by simp at e⟩⟩
        · have := hg j y hy
          exact ⟨this.sub, this.accepted, fun _ => rfl, this.ready, fun e => ⟨rfl, fun e => by simp at e⟩⟩
  · -- vote
    have emine : x.mine = x.appended := by simp [Worker.mine, epc]
    have hnr : x.ready = false := by
      rcases er : x.ready with _ | _
      · rfl
      · have := (gx.ready er).1; rw [epc] at this; simp at this
    have hdone := gx.voting epc
    simp only
    by_cases ha : E.votes w x.appended = true
    · rw [if_pos ha]
      refine ⟨⟨taken, ht, fun j y hy => ?_, fun hnf => ?_⟩, hd, hf, hc, hr⟩
      · rcases getElem?_set' hy with ⟨rfl, rfl⟩ | ⟨-, hy⟩
        · exact ⟨by simpa [Worker.mine] using emine ▸ gx.sub, gx.accepted, fun e => by simp at e, fun _ => ⟨rfl, ha⟩, fun _ => ⟨hdone, fun _ => rfl⟩⟩
        · have := hg j y hy
          exact ⟨this.sub, this.accepted, this.voting, this.ready, this.stopped⟩
      · refine List.Perm.trans (set_perm (z := []) hx ?_) (by simpa using hp hnf)
        simp [Worker.mine, epc]
    · rw [if_neg ha]
      by_cases hfa : st.failed = true
      · rw [if_pos hfa]
        refine ⟨⟨taken, ht, fun j y hy => ?_, fun hnf => by simp [hfa] at hnf⟩, hd, hf, hc, hr⟩
        rcases getElem?_set' hy with ⟨rfl, rfl⟩ | ⟨-, hy⟩
        · exact ⟨by simpa [Worker.mine] using emine ▸ gx.sub, gx.accepted, fun e => by simp at e, fun e => by simp [hnr] at e, fun _ => ⟨hf hfa, fun e => by simp [hfa] at e⟩⟩
        · have := hg j y hy
          exact ⟨this.sub, this.accepted, this.voting, this.ready, this.stopped⟩
      · rw [if_neg hfa]
        refine ⟨⟨taken, ht, fun j y hy => ?_, fun hnf => by simp at hnf⟩, fun _ e => by simp at e, fun _ => rfl,
          fun _ => .inr (.inr ⟨w, x.appended, by simpa using ha⟩), fun _ _ => rfl⟩
        rcases getElem?_set' hy with ⟨rfl, rfl⟩ | ⟨-, hy⟩
        · exact ⟨by simpa [Worker.mine] using emine ▸ gx.sub, gx.accepted, fun e => by simp at e, fun e => by simp [hnr] at e, fun _ => ⟨rfl, fun e => by simp at e⟩⟩
        · have := hg j y hy
          exact ⟨this.sub, this.accepted, fun _ => rfl, this.ready, fun e => ⟨rfl, fun e => by simp at e⟩⟩
  · exact ⟨⟨taken, ht, hg, hp⟩, hd, hf, hc, hr⟩

theorem start_inv (E : Env Line) (threads : Nat) (lines : List Line) : Inv E lines (start threads lines) := by
  refine ⟨⟨[], rfl, fun w x hx => ?_, fun _ => ?_⟩, fun e => by simp [start] at e, fun e => by simp [start] at e, fun e => by simp [start] at e, fun _ e => by simp [start] at e⟩
  · simp only [start, List.getElem?_replicate] at hx
    split at hx
    · have := Option.some.inj hx
      subst this
      exact ⟨by simp [Worker.mine], accepted_nil _, fun e => by simp at e, fun e => by simp at e, fun e => by simp at e⟩
    · simp at hx
  · have : ((start threads lines).workers.map Worker.mine).flatten = [] := by
      simp [start, Worker.mine]
    rw [this]

theorem run_inv {lines : List Line} {st : State Line} (h : Inv E lines st) (schedule : List Nat) : Inv E lines (run E st schedule) := by
  induction schedule generalizing st with
  | nil => exact h
  | cons w l ih => exact ih (step_inv h w)

theorem step_workers (st : State Line) (w : Nat) : (step E st w).workers.length = st.workers.length := by
  unfold step
  rcases st.workers[w]? with _ | x
  · rfl
  · simp only [stepOf]
    repeat' split
    all_goals simp

theorem run_workers (st : State Line) (schedule : List Nat) : (run E st schedule).workers.length = st.workers.length := by
  induction schedule generalizing st with
  | nil => rfl
  | cons w l ih => exact (ih (step E st w)).trans (step_workers st w)

/-- steps a worker may still take, besides those for lines that it has yet to take -/
def Pc.weight : Pc Line → Nat
  | .take => 2 | .work _ => 3 | .vote => 1 | .stop => 0

theorem weight_take : (Pc.take : Pc Line).weight = 2 := rfl
theorem weight_work (l : Line) : (Pc.work l).weight = 3 := rfl
theorem weight_vote : (Pc.vote : Pc Line).weight = 1 := rfl
theorem weight_stop : (Pc.stop : Pc Line).weight = 0 := rfl

/-- a bound for the number of steps that are left -/
def State.left (st : State Line) : Nat := 2 * st.rest.length + (st.workers.map fun x => x.pc.weight).sum

theorem sum_set {α : Type} {f : α → Nat} {l : List α} {i : Nat} {x : α} (h : l[i]? = some x) (y : α) :
    ((l.set i y).map f).sum + f x = (l.map f).sum + f y := by
  obtain ⟨a, b, e, -, hs⟩ := set_split h
  rw [hs y, e]
  simp
  omega

theorem step_left {st : State Line} {w : Nat} {x : Worker Line} (hx : st.workers[w]? = some x) (hn : x.pc ≠ .stop) :
    (step E st w).left < st.left := by
  unfold step
  rw [hx]
  simp only
  have hs := fun y => sum_set (f := fun x : Worker Line => x.pc.weight) hx y
  unfold stepOf State.left
  rcases epc : x.pc with _ | l | _ | _
  · simp only
    repeat' split
    all_goals
      rename_i h
      have := hs { x with pc := .vote }
      have h2 := hs { x with pc := .stop }
      simp only [epc, weight_take, weight_work, weight_vote, weight_stop] at this h2 ⊢
      try omega
    rename_i l rest
    have h3 := hs { x with pc := .work l }
    simp only [epc, weight_take, weight_work, weight_vote, weight_stop, h, List.length_cons] at h3 ⊢
    omega
  · simp only
    have h1 := hs { x with pc := .take, appended := x.appended ++ [l] }
    have h2 := hs { x with pc := .stop }
    simp only [epc, weight_take, weight_work, weight_vote, weight_stop] at h1 h2
    repeat' split
    all_goals (simp only; omega)
  · simp only
    have h1 := hs { x with pc := .stop, ready := true }
    have h2 := hs { x with pc := .stop }
    simp only [epc, weight_take, weight_work, weight_vote, weight_stop] at h1 h2
    repeat' split
    all_goals (simp only; omega)
  · exact absurd epc hn

/-! ### `append_tsv` -/

/-- what holds of a worker of `append_tsv`, whose share is `share` -/
structure TsvGood (E : Env Line) (share : List Line) (st : TsvState Line) (w : Nat) (x : Worker Line) (rest : List Line) : Prop where
  split : share = x.appended ++ rest
  accepted : Accepted E w x.appended
  ready : x.ready = true → x.pc = .stop ∧ rest = [] ∧ E.votes w x.appended = true
  stopped : x.pc = .stop → st.failed = false → x.ready = true

structure TsvInv (E : Env Line) (share : Nat → List Line) (n : Nat) (st : TsvState Line) : Prop where
  len : st.workers.length = n
  good : ∀ w x, st.workers[w]? = some x → TsvGood E (share w) st w x.1 x.2
  cause : st.failed = true → (∃ w a l, E.accepts w a l = false ∧ ∃ w < n, l ∈ share w) ∨ ∃ w a, E.votes w a = false

theorem tsv_step_inv {share : Nat → List Line} {n : Nat} {st : TsvState Line} (h : TsvInv E share n st) (w : Nat) :
    TsvInv E share n (tsvStep E st w) := by
  unfold tsvStep
  rcases hx : st.workers[w]? with _ | ⟨x, rest⟩
  · exact h
  obtain ⟨hlen, hg, hc⟩ := h
  have gx := hg w _ hx
  have hw : w < n := by rw [← hlen]; exact (List.getElem?_eq_some_iff.1 hx).1
  simp only
  unfold tsvStepOf
  by_cases epc : x.pc = .stop
  · simp only [epc]
    exact ⟨hlen, hg, hc⟩
  have hnr : x.ready = false := by
    rcases er : x.ready with _ | _
    · rfl
    · exact absurd (gx.ready er).1 epc
  have keep : ∀ (st' : TsvState Line) y, st'.workers = st.workers.set w y → (st'.failed = false → st.failed = false) →
      TsvGood E (share w) st' w y.1 y.2 → ∀ j z, st'.workers[j]? = some z → TsvGood E (share j) st' j z.1 z.2 := by
    intro st' y e hf' hy j z hz
    rw [e] at hz
    rcases getElem?_set' hz with ⟨rfl, rfl⟩ | ⟨-, hz⟩
    · exact hy
    · have := hg j z hz
      exact ⟨this.split, this.accepted, this.ready, fun e1 e2 => this.stopped e1 (hf' e2)⟩
  split
  · rename_i e; exact absurd e epc
  · rcases rest with _ | ⟨l, rest⟩
    · simp only
      split
      · rename_i hv
        refine ⟨by simpa using hlen, keep _ _ rfl (fun e => e) ⟨gx.split, gx.accepted, fun _ => ⟨rfl, rfl, hv⟩, fun _ _ => rfl⟩, hc⟩
      · rename_i hv
        refine ⟨by simpa using hlen, keep _ _ rfl (fun e => by simp at e) ⟨gx.split, gx.accepted, fun e => by simp [hnr] at e, fun _ e => by simp at e⟩,
          fun _ => .inr ⟨w, x.appended, by simpa using hv⟩⟩
    · simp only
      split
      · rename_i hfa
        refine ⟨by simpa using hlen, keep _ _ rfl (fun e => e) ⟨gx.split, gx.accepted, fun e => by simp [hnr] at e, fun _ e => by simp [hfa] at e⟩, hc⟩
      · split
        · rename_i ha
          refine ⟨by simpa using hlen, keep _ _ rfl (fun e => e) ⟨by simpa using gx.split, accepted_append gx.accepted ha, fun e => by simp [hnr] at e, fun e => absurd e epc⟩, hc⟩
        · rename_i ha
          refine ⟨by simpa using hlen, keep _ _ rfl (fun e => by simp at e) ⟨gx.split, gx.accepted, fun e => by simp [hnr] at e, fun _ e => by simp at e⟩,
            fun _ => .inl ⟨w, x.appended, l, by simpa using ha, w, hw, by have := gx.split; simp only at this; rw [this]; simp⟩⟩

theorem tsv_start_inv (E : Env Line) (threads : Nat) (lines : List Line) :
    TsvInv E (tsvShare lines threads) threads (tsvStart threads lines) := by
  refine ⟨by simp [tsvStart], fun w x hx => ?_, fun e => by simp [tsvStart] at e⟩
  simp only [tsvStart, List.getElem?_map, Option.map_eq_some_iff] at hx
  obtain ⟨n, hn, rfl⟩ := hx
  have : n = w := by
    obtain ⟨h1, h2⟩ := List.getElem?_eq_some_iff.1 hn
    rw [List.getElem_range] at h2
    exact h2.symm
  subst this
  exact ⟨rfl, accepted_nil _, fun e => by simp at e, fun e => by simp at e⟩

theorem tsv_run_inv {share : Nat → List Line} {n : Nat} {st : TsvState Line} (h : TsvInv E share n st) (schedule : List Nat) :
    TsvInv E share n (tsvRun E st schedule) := by
  induction schedule generalizing st with
  | nil => exact h
  | cons w l ih => exact ih (tsv_step_inv h w)

/-- the shares of the first `n` workers are the lines up to where the next share starts -/
theorem shares_upto (lines : List Line) (threads : Nat) : ∀ n,
    ((List.range n).map (tsvShare lines threads)).flatten = lines.take (lines.length * n / threads)
  | 0 => by simp
  | n + 1 => by
    rw [List.range_succ, List.map_append, List.flatten_append, shares_upto lines threads n]
    have hle : lines.length * n / threads ≤ lines.length * (n + 1) / threads :=
      Nat.div_le_div_right (Nat.mul_le_mul_left _ (by omega))
    simp only [List.map_cons, List.map_nil, List.flatten_cons, List.flatten_nil, List.append_nil, tsvShare]
    rw [← List.take_add]
    congr 1
    omega

end Verif.Append
