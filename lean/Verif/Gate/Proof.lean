import Verif.Gate.Model
/-
  Permits, wakeups and bytes.
-/
namespace Verif.Gate

/-- has a permit -/
def holds : At → Bool
  | .reading _ => true
  | .leaving _ => true
  | _ => false
def isAsleep : At → Bool
  | .asleep => true
  | _ => false
/-- will look at the gate, or make another do so -/
def alert : At → Bool
  | .woken => true
  | .left _ => true
  | _ => false

theorem countP_set {p : At → Bool} : ∀ {l : List At} {i : Nat} {a b : At}, l[i]? = some a →
    (l.set i b).countP p + (if p a then 1 else 0) = l.countP p + (if p b then 1 else 0)
  | [], i, _, _, h => by simp at h
  | x :: l, 0, a, b, h => by
    simp at h; subst h
    simp [List.countP_cons]; split <;> split <;> omega
  | x :: l, i + 1, a, b, h => by
    simp at h
    have := countP_set (p := p) (b := b) h
    simp only [List.set_cons_succ, List.countP_cons]
    omega

/-- what the job of the call `c` has to be -/
def Fine (E : Env) (c : Call) : At → Prop
  | .start => True
  | .asleep | .woken => 0 ≤ c.offset ∧ 0 ≤ c.length
  | .reading got => 0 ≤ c.offset ∧ 0 ≤ c.length ∧ (got.length : Int) ≤ c.length ∧ got <+: E.file.drop c.offset.toNat
  | .leaving r | .left r | .finished r =>
    (∀ b, r = some b → 0 ≤ c.offset ∧ 0 ≤ c.length ∧ (b.length : Int) = c.length ∧ b <+: E.file.drop c.offset.toNat) ∧
    (r = none → E.faulty = true ∨ c.offset < 0 ∨ c.length < 0 ∨ (0 < c.length ∧ (E.file.length : Int) < c.offset + c.length))

structure Inv (E : Env) (st : State) : Prop where
  len : st.jobs.length = E.calls.length
  permits : st.available + st.jobs.countP holds = E.readers
  /-- no wakeup is lost -/
  awake : 0 < st.jobs.countP isAsleep → st.available ≤ st.jobs.countP alert
  fine : ∀ (i : Nat) (c : Call), E.calls[i]? = some c → ∀ a, st.jobs[i]? = some a → Fine E c a

theorem start_inv (E : Env) : Inv E (start E) := by
  have hc : ∀ p : At → Bool, p .start = false → (start E).jobs.countP p = 0 := by
    intro p hp
    rw [List.countP_eq_zero]
    intro a ha
    rw [(List.mem_replicate.1 ha).2, hp]; simp
  refine ⟨by simp [start], by rw [hc _ rfl]; rfl, by rw [hc _ rfl]; omega, ?_⟩
  intro i c _ a h
  simp only [start, List.getElem?_replicate] at h
  split at h
  · cases h; trivial
  · simp at h

/-- one job changes, without sleeping -/
theorem Inv.set {E : Env} {st : State} (h : Inv E st) {i : Nat} {a b : At} {n : Nat} (ha : st.jobs[i]? = some a)
    (hp : n + (if holds b then 1 else 0) = st.available + (if holds a then 1 else 0))
    (hw : 0 < (st.jobs.set i b).countP isAsleep → n ≤ (st.jobs.set i b).countP alert)
    (hf : ∀ c, E.calls[i]? = some c → Fine E c a → Fine E c b) : Inv E ⟨n, st.jobs.set i b⟩ := by
  have hi := (List.getElem?_eq_some_iff.1 ha).1
  refine ⟨by simp [h.len], ?_, hw, ?_⟩
  · have h1 := countP_set (p := holds) (b := b) ha
    have h2 := h.permits
    simp only
    omega
  · intro j c hc x hx
    simp only [List.getElem?_set] at hx
    by_cases hij : i = j
    · subst hij
      rw [if_pos rfl, if_pos hi] at hx
      have := Option.some.inj hx
      subst this
      exact hf c hc (h.fine i c hc _ ha)
    · rw [if_neg hij] at hx
      exact h.fine j c hc x hx

theorem step_inv {E : Env} {st st' : State} (h : Inv E st) (hs : Step E st st') : Inv E st' := by
  have cs : ∀ {i : Nat} {a : At} (b : At), st.jobs[i]? = some a →
      (st.jobs.set i b).countP isAsleep + (if isAsleep a then 1 else 0) = st.jobs.countP isAsleep + (if isAsleep b then 1 else 0) ∧
      (st.jobs.set i b).countP alert + (if alert a then 1 else 0) = st.jobs.countP alert + (if alert b then 1 else 0) :=
    fun b ha => ⟨countP_set ha, countP_set ha⟩
  have haw := h.awake
  cases hs with
  | refuse hc ha hn =>
    obtain ⟨c1, c2⟩ := cs (.finished none) ha
    simp [isAsleep, alert] at c1 c2
    refine h.set ha (by simp [holds]) (by intro h0; omega) (fun c' hc' _ => ?_)
    rw [hc] at hc'; cases hc'
    exact ⟨by simp, fun _ => by rcases hn with hn | hn <;> simp [hn]⟩
  | enter hc ha hn hav =>
    obtain ⟨c1, c2⟩ := cs (.reading []) ha
    simp [isAsleep, alert] at c1 c2
    refine h.set ha (by simp [holds]; omega) (by intro h0; omega) (fun c' hc' _ => ?_)
    rw [hc] at hc'; cases hc'
    simp only [not_or, Int.not_lt] at hn
    exact ⟨hn.1, hn.2, by simpa using hn.2, List.nil_prefix⟩
  | sleep hc ha hn hav =>
    obtain ⟨c1, c2⟩ := cs .asleep ha
    simp [isAsleep, alert] at c1 c2
    refine h.set ha (by simp [holds]) (by intro h0; omega) (fun c' hc' _ => ?_)
    rw [hc] at hc'; cases hc'
    simp only [not_or, Int.not_lt] at hn
    exact hn
  | again ha hav =>
    obtain ⟨c1, c2⟩ := cs (.reading []) ha
    simp [isAsleep, alert] at c1 c2
    exact h.set ha (by simp [holds]; omega) (by intro h0; omega) (fun c' hc' hf => ⟨hf.1, hf.2, by simpa using hf.2, List.nil_prefix⟩)
  | back ha hav =>
    obtain ⟨c1, c2⟩ := cs .asleep ha
    simp [isAsleep, alert] at c1 c2
    exact h.set ha (by simp [holds]) (by intro h0; omega) (fun c' hc' hf => hf)
  | fails hc ha hlt hfa =>
    obtain ⟨c1, c2⟩ := cs (.leaving none) ha
    simp [isAsleep, alert] at c1 c2
    exact h.set ha (by simp [holds]) (by intro h0; omega) (fun c' hc' _ => ⟨by simp, fun _ => .inl hfa⟩)
  | @short i got c hc ha hlt hg =>
    obtain ⟨c1, c2⟩ := cs (.leaving none) ha
    simp [isAsleep, alert] at c1 c2
    refine h.set ha (by simp [holds]) (by intro h0; omega) (fun c' hc' hf => ⟨by simp, fun _ => ?_⟩)
    rw [hc] at hc'; cases hc'
    have := hg.2.2 rfl
    have h1 := hf.1
    right; right; right
    constructor <;> omega
  | @some i got b c hc ha hlt hg hb =>
    obtain ⟨c1, c2⟩ := cs (.reading (got ++ b)) ha
    simp [isAsleep, alert] at c1 c2
    refine h.set ha (by simp [holds]) (by intro h0; omega) (fun c' hc' hf => ?_)
    rw [hc] at hc'; cases hc'
    obtain ⟨f1, f2, f3, t, f4⟩ := hf
    obtain ⟨g1, ⟨u, g2⟩, -⟩ := hg
    refine ⟨f1, f2, by simp only [List.length_append]; omega, ⟨u, ?_⟩⟩
    rw [← List.drop_drop, ← f4] at g2
    have e : b ++ u = t := by rw [g2]; simp
    rw [← f4, ← e]; simp
  | @done i got c hc ha hlt =>
    obtain ⟨c1, c2⟩ := cs (.leaving (some got)) ha
    simp [isAsleep, alert] at c1 c2
    refine h.set ha (by simp [holds]) (by intro h0; omega) (fun c' hc' hf => ⟨?_, by simp⟩)
    rw [hc] at hc'; cases hc'
    intro b e
    cases e
    obtain ⟨f1, f2, f3, f4⟩ := hf
    exact ⟨f1, f2, by omega, f4⟩
  | @release i r ha =>
    obtain ⟨c1, c2⟩ := cs (.left r) ha
    simp [isAsleep, alert] at c1 c2
    exact h.set ha (by simp [holds]) (by intro h0; omega) (fun c' hc' hf => hf)
  | @notify i j r ha hj =>
    have hne : j ≠ i := fun e => by subst e; rw [ha] at hj; cases hj
    have hi1 : Inv E ⟨st.available, st.jobs.set j .woken⟩ := by
      obtain ⟨c1, c2⟩ := cs .woken hj
      simp [isAsleep, alert] at c1 c2
      exact h.set hj (by simp [holds]) (by intro h0; omega) (fun c' hc' hf => hf)
    have ha' : (st.jobs.set j .woken)[i]? = some (.left r) := by rw [List.getElem?_set_ne hne]; exact ha
    have e1 := countP_set (p := isAsleep) (b := .finished r) ha'
    have e2 := countP_set (p := alert) (b := .finished r) ha'
    obtain ⟨c1, c2⟩ := cs .woken hj
    simp [isAsleep, alert] at c1 c2 e1 e2
    exact hi1.set ha' (by simp [holds]) (by intro h0; simp only at h0 ⊢; omega) (fun c' hc' hf => hf)
  | @silent i r ha hno =>
    obtain ⟨c1, c2⟩ := cs (.finished r) ha
    simp [isAsleep, alert] at c1 c2
    have h0 : st.jobs.countP isAsleep = 0 := by
      rw [List.countP_eq_zero]
      intro a ha'
      obtain ⟨j, hj⟩ := List.getElem?_of_mem ha'
      cases a with
      | asleep => exact absurd hj (hno j)
      | _ => simp [isAsleep]
    exact h.set ha (by simp [holds]) (by intro h0; omega) (fun c' hc' hf => hf)

theorem noise_inv {E : Env} {st st' : State} (h : Inv E st) (hs : Noise st st') : Inv E st' := by
  have haw := h.awake
  cases hs with
  | spurious ha =>
    have c1 := countP_set (p := isAsleep) (b := .woken) ha
    have c2 := countP_set (p := alert) (b := .woken) ha
    simp [isAsleep, alert] at c1 c2
    exact h.set ha (by simp [holds]) (by intro h0; omega) (fun c' hc' hf => hf)
  | interrupted _ => exact h

theorem reach_inv {E : Env} {st : State} (h : Reach E st) : Inv E st := by
  induction h with
  | start => exact start_inv E
  | step _ hs ih => exact step_inv ih hs
  | noise _ hs ih => exact noise_inv ih hs

/-! ### progress -/

/-- how many steps a call can still take -/
def weight (c : Call) : At → Nat
  | .start => c.length.toNat + 7
  | .woken => c.length.toNat + 6
  | .asleep => c.length.toNat + 5
  | .reading got => c.length.toNat - got.length + 4
  | .leaving _ => 3
  | .left _ => 2
  | .finished _ => 0

def weights : List Call → List At → Nat
  | c :: cs, a :: as => weight c a + weights cs as
  | _, _ => 0

theorem weights_set : ∀ {cs : List Call} {l : List At} {i : Nat} {c : Call} {a b : At}, cs[i]? = some c → l[i]? = some a →
    weights cs (l.set i b) + weight c a = weights cs l + weight c b
  | [], _, _, _, _, _, h, _ => by simp at h
  | _ :: _, [], _, _, _, _, _, h => by simp at h
  | c' :: cs, x :: l, 0, c, a, b, h1, h2 => by
    simp at h1 h2; subst h1; subst h2
    simp [weights]; omega
  | c' :: cs, x :: l, i + 1, c, a, b, h1, h2 => by
    simp at h1 h2
    have := weights_set (b := b) h1 h2
    simp only [List.set_cons_succ, weights]
    omega

theorem Inv.call {E : Env} {st : State} (h : Inv E st) {i : Nat} {a : At} (ha : st.jobs[i]? = some a) : ∃ c, E.calls[i]? = some c := by
  have := (List.getElem?_eq_some_iff.1 ha).1
  exact ⟨_, List.getElem?_eq_getElem (h.len ▸ this)⟩

theorem step_lower {E : Env} {st st' : State} (h : Inv E st) (hs : Step E st st') :
    weights E.calls st'.jobs < weights E.calls st.jobs := by
  have ws : ∀ {i : Nat} {a : At} {c : Call} (b : At), E.calls[i]? = some c → st.jobs[i]? = some a →
      weights E.calls (st.jobs.set i b) + weight c a = weights E.calls st.jobs + weight c b :=
    fun b hc ha => weights_set hc ha
  cases hs with
  | refuse hc ha hn => have := ws (.finished none) hc ha; simp only [weight] at this ⊢; omega
  | enter hc ha hn hav => have := ws (.reading []) hc ha; simp only [weight, List.length_nil] at this ⊢; omega
  | sleep hc ha hn hav => have := ws .asleep hc ha; simp only [weight] at this ⊢; omega
  | again ha hav =>
    obtain ⟨c, hc⟩ := h.call ha
    have := ws (.reading []) hc ha; simp only [weight, List.length_nil] at this ⊢; omega
  | back ha hav =>
    obtain ⟨c, hc⟩ := h.call ha
    have := ws .asleep hc ha; simp only [weight] at this ⊢; omega
  | fails hc ha hlt hfa => have := ws (.leaving none) hc ha; simp only [weight] at this ⊢; omega
  | short hc ha hlt hg => have := ws (.leaving none) hc ha; simp only [weight] at this ⊢; omega
  | @some i got b c hc ha hlt hg hb =>
    have := ws (.reading (got ++ b)) hc ha
    have hl : 0 < b.length := List.length_pos_iff.2 hb
    simp only [weight, List.length_append] at this ⊢; omega
  | @done i got c hc ha hlt => have := ws (.leaving (some got)) hc ha; simp only [weight] at this ⊢; omega
  | @release i r ha =>
    obtain ⟨c, hc⟩ := h.call ha
    have := ws (.left r) hc ha; simp only [weight] at this ⊢; omega
  | @notify i j r ha hj =>
    obtain ⟨c, hc⟩ := h.call ha
    obtain ⟨c', hc'⟩ := h.call hj
    have hne : j ≠ i := fun e => by subst e; rw [ha] at hj; cases hj
    have ha' : (st.jobs.set j .woken)[i]? = some (.left r) := by rw [List.getElem?_set_ne hne]; exact ha
    have h1 := ws .woken hc' hj
    have h2 := weights_set (b := .finished r) hc ha'
    simp only [weight] at h1 h2 ⊢
    omega
  | @silent i r ha hno =>
    obtain ⟨c, hc⟩ := h.call ha
    have := ws (.finished r) hc ha; simp only [weight] at this ⊢; omega

theorem noise_raise {E : Env} {st st' : State} (h : Inv E st) (hs : Noise st st') :
    weights E.calls st'.jobs ≤ weights E.calls st.jobs + 1 := by
  cases hs with
  | spurious ha =>
    obtain ⟨c, hc⟩ := h.call ha
    have := weights_set (b := .woken) hc ha; simp only [weight] at this ⊢; omega
  | interrupted _ => omega

theorem countP_pos_get {p : At → Bool} {l : List At} (h : 0 < l.countP p) : ∃ (i : Nat) (a : At), l[i]? = some a ∧ p a = true := by
  obtain ⟨a, ha, hp⟩ := List.countP_pos_iff.1 h
  obtain ⟨i, hi⟩ := List.getElem?_of_mem ha
  exact ⟨i, a, hi, hp⟩

end Verif.Gate
