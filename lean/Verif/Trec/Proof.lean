import Verif.Trec.Model
import Verif.Rank.Wand
/-
  The workers of `trec`: an invariant, and that they come to an end.
-/
namespace Verif.Trec
open Verif.Hopper
open Verif.Rank (allowedThreads Walks)

section
variable {T Q A E : Type} [DecidableEq T]

theorem set_same (w : Nat → At E) (i : Nat) (x : At E) : set w i x i = x := if_pos rfl
theorem set_other (w : Nat → At E) {i k : Nat} (x : At E) (h : k ≠ i) : set w i x k = w k := if_neg h

/-- the topics of worker `i` before `j` are answered -/
def Upto (J : Job T Q A E) (r : Results T A) (i j : Nat) : Prop :=
  ∀ k topic query, k < j → k % J.threads = i → J.work[k]? = some (topic, query) → r topic = some (J.answer i query)

/-- the error of a worker -/
def Fails (J : Job T Q A E) (e : E) : Prop := ∃ i, i < J.threads ∧ (J.clones i (some e) ∨ J.clones i none ∧ J.prepares i (some e))

/-- what is true of a worker -/
def Right (J : Job T Q A E) (s : State T A E) (i : Nat) : At E → Prop
  | .begin => True
  | .cloning => s.workers i = .cloning
  | .cloned => J.clones i none
  | .failing e => J.clones i (some e) ∨ J.clones i none ∧ J.prepares i (some e)
  | .at j => J.clones i none ∧ J.prepares i none ∧ j % J.threads = i ∧ (∃ k, j = i + k * J.threads) ∧ Upto J s.results i j
  | .solving j => J.clones i none ∧ J.prepares i none ∧ j % J.threads = i ∧ Upto J s.results i j ∧ j < J.work.length
  | .done => s.stop = true ∨ J.clones i none ∧ J.prepares i none ∧ Upto J s.results i J.work.length

structure Inv (J : Job T Q A E) (s : State T A E) : Prop where
  right : ∀ i, i < J.threads → Right J s i (s.workers i)
  one : ∀ i k, i < J.threads → k < J.threads → s.workers i = .cloning → s.workers k = .cloning → i = k
  stored : ∀ topic a, s.results topic = some a → ∃ (j : Nat) (query : Q), J.work[j]? = some (topic, query) ∧ a = J.answer (j % J.threads) query
  error : (s.stop = false → s.error = none) ∧ (s.stop = true → ∃ e, s.error = some e ∧ Fails J e)

/-- the topics are different -/
def Distinct (J : Job T Q A E) : Prop := ∀ (j k : Nat) t q q', J.work[j]? = some (t, q) → J.work[k]? = some (t, q') → j = k

theorem upto_store {J : Job T Q A E} (hd : Distinct J) {r : Results T A} {i j : Nat} {topic : T} {query : Q} (h : Upto J r i j)
    {n : Nat} (hn : J.work[n]? = some (topic, query)) {a : A} (ha : a = J.answer (n % J.threads) query) : Upto J (store r topic a) i j := by
  intro k t q hk hm hw
  unfold store
  by_cases e : t = topic
  · subst e
    rw [if_pos rfl]
    have := hd k n t q query hw hn
    subst this
    rw [hn] at hw
    cases hw
    rw [ha, hm]
  · rw [if_neg e]
    exact h k t q hk hm hw

theorem upto_next {J : Job T Q A E} (hd : Distinct J) (ht : 0 < J.threads) {r : Results T A} {i j : Nat} {topic : T} {query : Q}
    (h : Upto J r i j) (hj : J.work[j]? = some (topic, query)) (hm : j % J.threads = i) :
    Upto J (store r topic (J.answer i query)) i (j + J.threads) := by
  intro k t q hk hkm hw
  by_cases e : k < j
  · exact upto_store hd h hj (by rw [hm]) k t q e hkm hw
  · have : k = j := by
      have h1 : (k - j) % J.threads = 0 := by
        have e1 : k % J.threads = j % J.threads := by rw [hkm, hm]
        exact Nat.sub_mod_eq_zero_of_mod_eq e1
      have h2 : k - j < J.threads := by omega
      rw [Nat.mod_eq_of_lt h2] at h1
      omega
    subst this
    rw [hj] at hw
    cases hw
    unfold store
    rw [if_pos rfl]

/-- what is true of a worker stays true when others move -/
theorem right_frame {J : Job T Q A E} {s s' : State T A E} {i : Nat} {x : At E} (h : Right J s i x)
    (hstop : s.stop = true → s'.stop = true) (hr : ∀ j, Upto J s.results i j → Upto J s'.results i j)
    (hw : s.workers i = .cloning → s'.workers i = .cloning) : Right J s' i x := by
  cases x with
  | begin => trivial
  | cloning => exact hw h
  | cloned => exact h
  | failing e => exact h
  | «at» j => exact ⟨h.1, h.2.1, h.2.2.1, h.2.2.2.1, hr j h.2.2.2.2⟩
  | solving j => exact ⟨h.1, h.2.1, h.2.2.1, hr j h.2.2.2.1, h.2.2.2.2⟩
  | done =>
    rcases h with h | ⟨h1, h2, h3⟩
    · exact .inl (hstop h)
    · exact .inr ⟨h1, h2, hr _ h3⟩

/-- only worker `i` moves, to `x`, and nothing else changes -/
theorem inv_move {J : Job T Q A E} {s : State T A E} (h : Inv J s) {i : Nat} {x : At E}
    (hx : Right J { s with workers := set s.workers i x } i x)
    (hc : x = .cloning → ∀ k, k < J.threads → s.workers k ≠ .cloning) : Inv J { s with workers := set s.workers i x } := by
  refine ⟨fun k hk => ?_, ?_, h.stored, h.error⟩
  · by_cases e : k = i
    · subst e
      show Right J _ _ (set s.workers _ x _)
      rw [set_same]; exact hx
    · show Right J _ k (set s.workers i x k)
      rw [set_other _ _ e]
      refine right_frame (h.right k hk) id (fun _ g => g) fun g => ?_
      show set s.workers i x k = _
      rw [set_other _ _ e]; exact g
  · intro k l hk hl h1 h2
    by_cases e : k = i
    · by_cases e' : l = i
      · omega
      · have h2 : s.workers l = .cloning := by
          have : set s.workers i x l = .cloning := h2
          rwa [set_other _ _ e'] at this
        have h1 : x = .cloning := by
          have : set s.workers i x k = .cloning := h1
          rwa [e, set_same] at this
        exact absurd h2 (hc h1 l hl)
    · have h1 : s.workers k = .cloning := by
        have : set s.workers i x k = .cloning := h1
        rwa [set_other _ _ e] at this
      by_cases e' : l = i
      · have h2 : x = .cloning := by
          have : set s.workers i x l = .cloning := h2
          rwa [e', set_same] at this
        exact absurd h1 (hc h2 k hk)
      · have h2 : s.workers l = .cloning := by
          have : set s.workers i x l = .cloning := h2
          rwa [set_other _ _ e'] at this
        exact h.one k l hk hl h1 h2

theorem inv_step {J : Job T Q A E} (hd : Distinct J) (ht : 0 < J.threads) {s s' : State T A E} (h : Inv J s) (hs : Step J s s') : Inv J s' := by
  obtain ⟨i, hi, hm⟩ := hs
  have hr := h.right i hi
  cases hm with
  | leave _ _ e => exact inv_move h (.inl e) (by simp)
  | clone hf _ _ =>
    refine inv_move h (by show set s.workers i .cloning i = _; exact set_same ..) fun _ k hk e => ?_
    have := hf k hk
    rw [e] at this
    exact this
  | cloned _ e => exact inv_move h e (by simp)
  | notCloned _ e => exact inv_move h (.inl e) (by simp)
  | prepared e1 e2 =>
    rw [e1] at hr
    refine inv_move h ⟨hr, e2, Nat.mod_eq_of_lt hi, ⟨0, by simp⟩, ?_⟩ (by simp)
    intro k t q hk hkm _
    rw [Nat.mod_eq_of_lt (by omega)] at hkm
    omega
  | notPrepared e1 e2 =>
    rw [e1] at hr
    exact inv_move h (.inr ⟨hr, e2⟩) (by simp)
  | @fail e e1 e2 =>
    rw [e1] at hr
    have base : Inv J { s with workers := set s.workers i .begin } := inv_move h trivial (by simp)
    refine ⟨fun k hk => ?_, ?_, h.stored, by simp, fun _ => ⟨e, rfl, i, hi, hr⟩⟩
    · by_cases g : k = i
      · subst g
        show Right J _ _ (set s.workers _ .done _)
        rw [set_same]; exact .inl rfl
      · show Right J _ k (set s.workers i .done k)
        rw [set_other _ _ g]
        refine right_frame (h.right k hk) (fun _ => rfl) (fun _ g => g) fun g' => ?_
        show set s.workers i .done k = _
        rw [set_other _ _ g]; exact g'
    · intro k l hk hl h1 h2
      have h1 : set s.workers i .done k = .cloning := h1
      have h2 : set s.workers i .done l = .cloning := h2
      by_cases g : k = i
      · rw [g, set_same] at h1; cases h1
      · by_cases g' : l = i
        · rw [g', set_same] at h2; cases h2
        · rw [set_other _ _ g] at h1
          rw [set_other _ _ g'] at h2
          exact h.one k l hk hl h1 h2
  | failToo _ e => exact inv_move h (.inl e) (by simp)
  | finish e1 e2 =>
    rw [e1] at hr
    refine inv_move h (.inr ⟨hr.1, hr.2.1, ?_⟩) (by simp)
    intro k t q hk hkm hw
    exact hr.2.2.2.2 k t q (by omega) hkm hw
  | halt _ _ e => exact inv_move h (.inl e) (by simp)
  | solve e1 e2 e3 =>
    rw [e1] at hr
    exact inv_move h ⟨hr.1, hr.2.1, hr.2.2.1, hr.2.2.2.2, e2⟩ (by simp)
  | drop _ e => exact inv_move h (.inl e) (by simp)
  | @give j topic query e1 e2 e3 =>
    rw [e1] at hr
    obtain ⟨r1, r2, r3, r4, r5⟩ := hr
    have hmod : (j + J.threads) % J.threads = i := by rw [Nat.add_mod_right]; exact r3
    refine ⟨fun k hk => ?_, ?_, ?_, h.error⟩
    · by_cases g : k = i
      · show Right J _ k (set s.workers i _ k)
        rw [g, set_same]
        refine ⟨r1, r2, hmod, ⟨j / J.threads + 1, ?_⟩, upto_next hd ht r4 e2 r3⟩
        have := Nat.mod_add_div j J.threads
        rw [r3] at this
        rw [Nat.succ_mul, Nat.mul_comm]
        omega
      · show Right J _ k (set s.workers i _ k)
        rw [set_other _ _ g]
        refine right_frame (h.right k hk) id (fun n hn => upto_store hd hn e2 (by rw [r3])) fun g' => ?_
        show set s.workers i _ k = _
        rw [set_other _ _ g]; exact g'
    · intro k l hk hl h1 h2
      have h1 : set s.workers i (.at (j + J.threads)) k = .cloning := h1
      have h2 : set s.workers i (.at (j + J.threads)) l = .cloning := h2
      by_cases g : k = i
      · rw [g, set_same] at h1; cases h1
      · by_cases g' : l = i
        · rw [g', set_same] at h2; cases h2
        · rw [set_other _ _ g] at h1
          rw [set_other _ _ g'] at h2
          exact h.one k l hk hl h1 h2
    · intro t a ha
      have ha : store s.results topic (J.answer i query) t = some a := ha
      unfold store at ha
      by_cases g : t = topic
      · rw [if_pos g] at ha
        cases ha
        subst g
        exact ⟨j, query, e2, by rw [r3]⟩
      · rw [if_neg g] at ha
        exact h.stored t a ha

theorem inv_reach {J : Job T Q A E} (hd : Distinct J) (ht : 0 < J.threads) {s : State T A E} (h : Reach J s) : Inv J s := by
  induction h with
  | start => exact ⟨fun _ _ => trivial, fun i k _ _ h => (by cases h), fun t a h => (by cases h), fun _ => rfl, fun h => (by cases h)⟩
  | step _ hs ih => exact inv_step hd ht ih hs

/-! ### the end -/

/-- how much is before a worker -/
def left (n : Nat) : At E → Nat
  | .begin => 2 * n + 5
  | .cloning => 2 * n + 4
  | .cloned => 2 * n + 3
  | .failing _ => 1
  | .at j => 2 * (n - j) + 2
  | .solving j => 2 * (n - j) + 1
  | .done => 0

def leftAll (J : Job T Q A E) (s : State T A E) : Nat := ((List.range J.threads).map fun i => left J.work.length (s.workers i)).foldr (· + ·) 0

theorem sum_less {f g : Nat → Nat} {i : Nat} : ∀ {l : List Nat}, l.Nodup → i ∈ l → g i < f i → (∀ k, k ≠ i → g k = f k) →
    (l.map g).foldr (· + ·) 0 < (l.map f).foldr (· + ·) 0 := by
  intro l
  induction l with
  | nil => intro _ h; cases h
  | cons a l ih =>
    intro hn hi hl ho
    obtain ⟨h1, h2⟩ := List.nodup_cons.1 hn
    simp only [List.map_cons, List.foldr_cons]
    rcases List.mem_cons.1 hi with rfl | hi
    · have : l.map g = l.map f := List.map_congr_left fun k hk => ho k fun e => h1 (e ▸ hk)
      rw [this]; omega
    · have := ih h2 hi hl ho
      rw [ho a fun e => h1 (e ▸ hi)]
      omega

theorem step_less {J : Job T Q A E} (ht : 0 < J.threads) {s s' : State T A E} (hs : Step J s s')
    (hj : ∀ i j, i < J.threads → s.workers i = .solving j → j < J.work.length) : leftAll J s' < leftAll J s := by
  obtain ⟨i, hi, hm⟩ := hs
  have key : ∀ x : At E, left J.work.length x < left J.work.length (s.workers i) → s'.workers = set s.workers i x → leftAll J s' < leftAll J s := by
    intro x hx e
    unfold leftAll
    refine sum_less (i := i) List.nodup_range (List.mem_range.2 hi) ?_ ?_
    · simp only [e, set_same]; exact hx
    · intro k hk
      simp only [e, set_other _ _ hk]
  cases hm with
  | leave _ e => exact key .done (by rw [e]; simp only [left]; omega) rfl
  | clone _ e => exact key .cloning (by rw [e]; simp only [left]; omega) rfl
  | cloned e => exact key .cloned (by rw [e]; simp only [left]; omega) rfl
  | notCloned e => exact key (.failing _) (by rw [e]; simp only [left]; omega) rfl
  | prepared e => exact key (.at i) (by rw [e]; simp only [left]; omega) rfl
  | notPrepared e => exact key (.failing _) (by rw [e]; simp only [left]; omega) rfl
  | fail e => exact key .done (by rw [e]; simp only [left]; omega) rfl
  | failToo e => exact key .done (by rw [e]; simp only [left]; omega) rfl
  | finish e => exact key .done (by rw [e]; simp only [left]; omega) rfl
  | halt e => exact key .done (by rw [e]; simp only [left]; omega) rfl
  | @solve j e h => exact key (.solving j) (by rw [e]; simp only [left]; omega) rfl
  | @give j topic query e h =>
    have := hj i j hi e
    exact key (.at (j + J.threads)) (by rw [e]; simp only [left]; omega) rfl
  | drop e => exact key .done (by rw [e]; simp only [left]; omega) rfl

/-- unless all are done, one can move -/
theorem step_some {J : Job T Q A E} {s : State T A E} (h : Inv J s) (hc : ∀ i, ∃ o, J.clones i o) (hp : ∀ i, ∃ o, J.prepares i o)
    (hf : ¬ Final J s) : ∃ s', Step J s s' := by
  by_cases hcl : ∃ i, i < J.threads ∧ s.workers i = .cloning
  · obtain ⟨i, hi, e⟩ := hcl
    obtain ⟨o, ho⟩ := hc i
    cases o with
    | none => exact ⟨_, i, hi, .cloned e ho⟩
    | some x => exact ⟨_, i, hi, .notCloned e ho⟩
  · have free : Free J s := by
      intro k hk
      cases e : s.workers k with
      | cloning => exact hcl ⟨k, hk, e⟩
      | _ => trivial
    obtain ⟨i, hi⟩ := Classical.not_forall.1 hf
    obtain ⟨hi, hn⟩ := Classical.not_imp.1 hi
    have hr := h.right i hi
    cases e : s.workers i with
    | begin => cases e2 : s.stop with
      | true => exact ⟨_, i, hi, .leave free e e2⟩
      | false => exact ⟨_, i, hi, .clone free e e2⟩
    | cloning => exact absurd ⟨i, hi, e⟩ hcl
    | cloned =>
      obtain ⟨o, ho⟩ := hp i
      cases o with
      | none => exact ⟨_, i, hi, .prepared e ho⟩
      | some x => exact ⟨_, i, hi, .notPrepared e ho⟩
    | failing x => cases e2 : s.stop with
      | true => exact ⟨_, i, hi, .failToo e e2⟩
      | false => exact ⟨_, i, hi, .fail e e2⟩
    | «at» j =>
      by_cases g : J.work.length ≤ j
      · exact ⟨_, i, hi, .finish e g⟩
      · cases e2 : s.stop with
        | true => exact ⟨_, i, hi, .halt e (by omega) e2⟩
        | false => exact ⟨_, i, hi, .solve e (by omega) e2⟩
    | solving j =>
      rw [e] at hr
      cases e2 : s.stop with
      | true => exact ⟨_, i, hi, .drop e e2⟩
      | false => exact ⟨_, i, hi, .give (topic := (J.work[j]'hr.2.2.2.2).1) (query := (J.work[j]'hr.2.2.2.2).2) e (by simp [hr.2.2.2.2]) e2⟩
    | done => exact absurd e hn

end

/-! ### identifiers -/

theorem identify_ok {H : Obj} {I : H.σ → Prop} {ids : List Ann} (hw : Walks H I (ofList ids)) :
    ∀ (cs : List (Int × Int)), (∀ c ∈ cs, minfinity < c.1 ∧ c.1 ≤ c.2 ∧ c.2 < maxfinity) → ∀ st, I st →
      ∃ as st', identify H cs st = some (as, st') ∧ I st' ∧ IdentifiesAll ids cs as := by
  intro cs
  induction cs with
  | nil => intro _ st hs; exact ⟨[], st, rfl, hs, .nil⟩
  | cons c cs ih =>
    obtain ⟨p, q⟩ := c
    intro hb st hs
    obtain ⟨b1, b2, b3⟩ := hb _ (.head _)
    simp only at b1 b2 b3
    obtain ⟨a, s1, e1, i1, ht⟩ := hw.tau p ⟨by omega, by omega⟩ st hs
    obtain ⟨as, s2, e2, i2, ha⟩ := ih (fun c hc => hb c (.tail _ hc)) s1 i1
    refine ⟨if a.q ≤ q then a :: as else as, s2, by simp only [identify, e1, e2], i2, ?_⟩
    rcases ht with ⟨h, _⟩ | ⟨_, h1, h2, h3⟩ | ⟨_, h1, h2⟩
    · omega
    · by_cases g : a.q ≤ q
      · rw [if_pos g]; exact .some (.found h1 h2 h3 g) ha
      · rw [if_neg g]; exact .none (.beyond h1 h2 h3 (by omega)) ha
    · have e : a.q = maxfinity := by rw [h2]
      rw [if_neg (by omega)]
      exact .none (.last h1) ha

end Verif.Trec
