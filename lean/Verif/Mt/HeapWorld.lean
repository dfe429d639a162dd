import Verif.Mt.HeapTop
/-
  Histories of calls, in all threads and of all converters.
-/
namespace Verif.Mt

/-! ### values -/

/-- the messages of the threads, and the definitions and `s_expression` of the converters -/
structure Plain where
  messages : List (Option Msg)
  mts : List (Option (Env × List Char))

/-- a call, of values -/
def Plain.step (w : Plain) : Op → Option (Option Seen × Plain)
  | .create => some (none, { w with mts := w.mts ++ [some ([], [])] })
  | .convert t i text =>
    match w.messages[t]?, w.mts[i]? with
    | some msg, some (some c) =>
      let r := Mt.infix ⟨c.1, c.2, msg⟩ text
      some (some (seen r.1 r.2.message r.2.sExpression), ⟨w.messages.set t r.2.message, w.mts.set i (some (r.2.env, r.2.sExpression))⟩)
    | _, _ => none
  | .destroy i =>
    match w.mts[i]? with
    | some (some _) => some (none, { w with mts := w.mts.set i none })
    | _ => none

/-- threads in memory and their messages -/
inductive FreesP (h : Ptr → Option Cell) : List (Ptr × Option Msg) → List (Option Msg) → List Ptr → Prop
  | nil : FreesP h [] [] []
  | cons {f msg ts ms l fp} : Chain h f l → FreesP h ts ms fp → FreesP h ((f, msg) :: ts) (msg :: ms) (l ++ fp)

/-- converters in memory and their values -/
inductive DefinesP (h : Ptr → Option Cell) : List (Option HMt) → List (Option (Env × List Char)) → List Ptr → Prop
  | nil : DefinesP h [] [] []
  | gone {cs es fp} : DefinesP h cs es fp → DefinesP h (none :: cs) (none :: es) fp
  | cons {c env efp cs es fp} : EnvTree h c.env env efp → DefinesP h cs es fp → DefinesP h (some c :: cs) (some (env, c.sExpression) :: es) (efp ++ fp)

theorem FreesP.keep {h h' : Ptr → Option Cell} {ts ms fp} (t : FreesP h ts ms fp) (k : ∀ x ∈ fp, h' x = h x) : FreesP h' ts ms fp := by
  induction t with
  | nil => exact .nil
  | cons c _ ih => exact .cons (c.keep fun x hx => k x (by simp [hx])) (ih fun x hx => k x (by simp [hx]))

theorem DefinesP.keep {h h' : Ptr → Option Cell} {ts ms fp} (t : DefinesP h ts ms fp) (k : ∀ x ∈ fp, h' x = h x) : DefinesP h' ts ms fp := by
  induction t with
  | nil => exact .nil
  | gone _ ih => exact .gone (ih k)
  | cons c _ ih => exact .cons (c.keep fun x hx => k x (by simp [hx])) (ih fun x hx => k x (by simp [hx]))

theorem FreesP.at {h : Ptr → Option Cell} {ts ms fp} (w : FreesP h ts ms fp) : ∀ {t : Nat} {msg : Option Msg}, ms[t]? = some msg →
    ∃ f l R, ts[t]? = some (f, msg) ∧ Chain h f l ∧ fp.Perm (l ++ R) ∧
      ∀ (h' : Ptr → Option Cell) f' msg' l', (∀ x ∈ R, h' x = h x) → Chain h' f' l' →
        ∃ fp', fp'.Perm (l' ++ R) ∧ FreesP h' (ts.set t (f', msg')) (ms.set t msg') fp' := by
  induction w with
  | nil => intro t msg e; simp at e
  | @cons f msg0 ts ms l fp c w ih =>
    intro t msg e
    cases t with
    | zero =>
      simp only [List.getElem?_cons_zero, Option.some.injEq] at e
      subst e
      refine ⟨f, l, fp, rfl, c, .refl _, fun h' f' msg' l' k c' => ⟨l' ++ fp, .refl _, ?_⟩⟩
      exact .cons c' (w.keep k)
    | succ t =>
      simp only [List.getElem?_cons_succ] at e
      obtain ⟨f1, l1, R, a1, a2, a3, a4⟩ := ih e
      refine ⟨f1, l1, l ++ R, by simpa using a1, a2, ?_, fun h' f' msg' l' k c' => ?_⟩
      · exact (a3.append_left l).trans (by perm_count)
      · obtain ⟨fp', b1, b2⟩ := a4 h' f' msg' l' (fun x hx => k x (by simp [hx])) c'
        refine ⟨l ++ fp', (b1.append_left l).trans (by perm_count), ?_⟩
        exact .cons (c.keep fun x hx => k x (by simp [hx])) b2

theorem DefinesP.at {h : Ptr → Option Cell} {ts ms fp} (w : DefinesP h ts ms fp) : ∀ {i : Nat} {v : Env × List Char}, ms[i]? = some (some v) →
    ∃ c l R, ts[i]? = some (some c) ∧ c.sExpression = v.2 ∧ EnvTree h c.env v.1 l ∧ fp.Perm (l ++ R) ∧
      ∀ (h' : Ptr → Option Cell), (∀ x ∈ R, h' x = h x) →
        (∀ c' env' l', EnvTree h' c'.env env' l' → ∃ fp', fp'.Perm (l' ++ R) ∧
          DefinesP h' (ts.set i (some c')) (ms.set i (some (env', c'.sExpression))) fp') ∧
        (∃ fp', fp'.Perm R ∧ DefinesP h' (ts.set i none) (ms.set i none) fp') := by
  induction w with
  | nil => intro t msg e; simp at e
  | @gone cs es fp w ih =>
    intro i v e
    cases i with
    | zero => simp at e
    | succ i =>
      simp only [List.getElem?_cons_succ] at e
      obtain ⟨c, l, R, a1, a2, a3, a4, a5⟩ := ih e
      refine ⟨c, l, R, by simpa using a1, a2, a3, a4, fun h' k => ⟨fun c' env' l' t' => ?_, ?_⟩⟩
      · obtain ⟨fp', b1, b2⟩ := (a5 h' k).1 c' env' l' t'
        exact ⟨fp', b1, .gone b2⟩
      · obtain ⟨fp', b1, b2⟩ := (a5 h' k).2
        exact ⟨fp', b1, .gone b2⟩
  | @cons c0 env0 efp cs es fp t w ih =>
    intro i v e
    cases i with
    | zero =>
      simp only [List.getElem?_cons_zero, Option.some.injEq] at e
      subst e
      refine ⟨c0, efp, fp, rfl, rfl, t, .refl _, fun h' k => ⟨fun c' env' l' t' => ⟨l' ++ fp, .refl _, ?_⟩, fp, .refl _, ?_⟩⟩
      · exact .cons t' (w.keep k)
      · exact .gone (w.keep k)
    | succ i =>
      simp only [List.getElem?_cons_succ] at e
      obtain ⟨c, l, R, a1, a2, a3, a4, a5⟩ := ih e
      refine ⟨c, l, efp ++ R, by simpa using a1, a2, a3, ?_, fun h' k => ⟨fun c' env' l' t' => ?_, ?_⟩⟩
      · exact (a4.append_left efp).trans (by perm_count)
      · obtain ⟨fp', b1, b2⟩ := (a5 h' fun x hx => k x (by simp [hx])).1 c' env' l' t'
        exact ⟨efp ++ fp', (b1.append_left efp).trans (by perm_count), .cons (t.keep fun x hx => k x (by simp [hx])) b2⟩
      · obtain ⟨fp', b1, b2⟩ := (a5 h' fun x hx => k x (by simp [hx])).2
        exact ⟨efp ++ fp', b1.append_left efp, .cons (t.keep fun x hx => k x (by simp [hx])) b2⟩

theorem DefinesP.snoc {h : Ptr → Option Cell} {ts ms fp} (w : DefinesP h ts ms fp) :
    DefinesP h (ts ++ [some ({} : HMt)]) (ms ++ [some ([], [])]) fp := by
  induction w with
  | nil => exact .cons (c := {}) (env := []) .nil .nil
  | gone _ ih => exact .gone ih
  | cons t _ ih => exact .cons t ih

/-- the memory and the values of a program -/
structure Holds (w : World) (v : Plain) (lost : List Ptr) (a b : List Ptr) : Prop where
  frees : FreesP w.heap w.threads v.messages a
  defs : DefinesP w.heap w.mts v.mts b
  nodup : (a ++ (b ++ lost)).Nodup
  dom : ∀ p, w.heap p ≠ none ↔ p ∈ a ++ (b ++ lost)
  bound : ∀ p ∈ a ++ (b ++ lost), 0 < p ∧ p < w.next
  pos : 0 < w.next

/-- what a call may lose -/
def Loses (w : Plain) : Op → Option Seen → List Ptr → Prop
  | .create, _, more => more = []
  | .convert _ _ _, s, more => (∀ x, s = some x → x.error ≠ some .missingClose) → more = []
  | .destroy i, _, more => ∀ c, w.mts[i]? = some (some c) → more.length = (c.1.map fun d => cells d.2).sum

theorem step_holds {w : World} {v v' : Plain} {lost a b : List Ptr} {op : Op} {s : Option Seen} (h : Holds w v lost a b)
    (e : v.step op = some (s, v')) :
    ∃ w' more a' b', w.step op = some (s, w') ∧ Holds w' v' (more ++ lost) a' b' ∧ Loses v op s more := by
  cases op with
  | create =>
    simp only [Plain.step, Option.some.injEq, Prod.mk.injEq] at e
    obtain ⟨rfl, rfl⟩ := e
    exact ⟨{ w with mts := w.mts ++ [some {}] }, [], a, b, rfl, ⟨h.frees, h.defs.snoc, h.nodup, h.dom, h.bound, h.pos⟩, rfl⟩
  | convert t i text =>
    simp only [Plain.step] at e
    cases hm : v.messages[t]? with
    | none => rw [hm] at e; simp at e
    | some msg =>
    cases hc : v.mts[i]? with
    | none => rw [hm, hc] at e; simp at e
    | some c0 =>
    cases c0 with
    | none => rw [hm, hc] at e; simp at e
    | some c0 =>
    rw [hm, hc] at e
    simp only [Option.some.injEq, Prod.mk.injEq] at e
    obtain ⟨rfl, rfl⟩ := e
    obtain ⟨f, l, R, a1, a2, a3, a4⟩ := h.frees.at hm
    obtain ⟨c, l', R', b1, b2, b3, b4, b5⟩ := h.defs.at hc
    have pm : (a ++ (b ++ lost)).Perm (l ++ (l' ++ (R ++ (R' ++ lost)))) := by
      have p1 := List.perm_iff_count.1 a3
      have p2 := List.perm_iff_count.1 b4
      rw [List.perm_iff_count]; intro z
      have := p1 z
      have := p2 z
      simp only [List.count_append] at *
      omega
    have hi : Inv ⟨w.heap, w.next, f⟩ l (l' ++ (R ++ (R' ++ lost))) :=
      ⟨a2, pm.nodup_iff.1 h.nodup, fun p => by rw [← pm.mem_iff]; exact h.dom p, fun p hp => h.bound p (pm.mem_iff.2 hp), h.pos⟩
    obtain ⟨o, m', fl', G, g1, g2, g3, o1, o2, o3, efp', more, o4, rfl, o5⟩ := hInfix_gives (c := c) (mt := ⟨c0.1, c0.2, msg⟩) hi b2 b3 text
    obtain ⟨ok, msg', c'⟩ := o
    simp only at o1 o2 o3 o4
    obtain ⟨fp1, q1, q2⟩ := a4 m'.heap m'.free msg' fl' (fun x hx => g3 x (by simp [hx])) g2.chain
    obtain ⟨fp2, r1, r2⟩ := (b5 m'.heap fun x hx => g3 x (by simp [hx])).1 c' _ efp' o4
    have pm2 : (fl' ++ (efp' ++ more ++ (R ++ (R' ++ lost)))).Perm (fp1 ++ (fp2 ++ (more ++ lost))) := by
      have p1 := List.perm_iff_count.1 q1
      have p2 := List.perm_iff_count.1 r1
      rw [List.perm_iff_count]; intro z
      have := p1 z
      have := p2 z
      simp only [List.count_append] at *
      omega
    refine ⟨⟨m'.heap, m'.next, w.threads.set t (m'.free, msg'), w.mts.set i (some c')⟩, more, fp1, fp2, ?_, ?_, ?_⟩
    · simp only [World.step, a1, b1, g1]
      rw [o1, o2, o3]
    · refine ⟨by rw [← o2]; exact q2, by rw [← o3]; exact r2, pm2.nodup_iff.1 g2.nodup, fun p => ?_, fun p hp => g2.bound p (pm2.mem_iff.2 hp), g2.pos⟩
      rw [← pm2.mem_iff]; exact g2.dom p
    · intro hok
      refine o5 ?_
      have := hok _ rfl
      unfold seen at this
      simp only at this
      split at this
      · rename_i h; exact Or.inl h
      · exact Or.inr this
  | destroy i =>
    simp only [Plain.step] at e
    cases hc : v.mts[i]? with
    | none => rw [hc] at e; simp at e
    | some c0 =>
    cases c0 with
    | none => rw [hc] at e; simp at e
    | some c0 =>
    rw [hc] at e
    simp only [Option.some.injEq, Prod.mk.injEq] at e
    obtain ⟨rfl, rfl⟩ := e
    obtain ⟨c, l', R', b1, b2, b3, b4, b5⟩ := h.defs.at hc
    have pm : (a ++ (b ++ lost)).Perm (l' ++ (a ++ (R' ++ lost))) := by
      have p2 := List.perm_iff_count.1 b4
      rw [List.perm_iff_count]; intro z
      have := p2 z
      simp only [List.count_append] at *
      omega
    have hi : Inv ⟨w.heap, w.next, 0⟩ [] (l' ++ (a ++ (R' ++ lost))) :=
      ⟨.nil, pm.nodup_iff.1 h.nodup, fun p => by rw [List.nil_append, ← pm.mem_iff]; exact h.dom p, fun p hp => h.bound p (pm.mem_iff.2 hp), h.pos⟩
    have hl := hi.len
    simp only [List.length_append] at hl
    obtain ⟨u, m', fl', G, g1, g2, g3, g4⟩ := freeEnv_gives (w.next + 1) hi b3 (by omega)
    obtain ⟨fp2, r1, r2⟩ := (b5 m'.heap fun x hx => g3 x (by simp [hx])).2
    refine ⟨{ w with heap := m'.heap, next := m'.next, mts := w.mts.set i none }, fl' ++ G, a, fp2, ?_, ?_, ?_⟩
    · simp only [World.step, b1, g1]
    · have pm2 : (fl' ++ (G ++ (a ++ (R' ++ lost)))).Perm (a ++ (fp2 ++ (fl' ++ G ++ lost))) := by
        have p2 := List.perm_iff_count.1 r1
        rw [List.perm_iff_count]; intro z
        have := p2 z
        simp only [List.count_append] at *
        omega
      refine ⟨h.frees.keep fun x hx => g3 x (by simp [hx]), r2, pm2.nodup_iff.1 g2.nodup, fun p => ?_, fun p hp => g2.bound p (pm2.mem_iff.2 hp), g2.pos⟩
      rw [← pm2.mem_iff]; exact g2.dom p
    · intro s hs
      rw [hc] at hs
      cases hs
      have hz := freeEnv_free _ g1
      have hch := g2.chain
      have hfl : fl' = [] := by
        rw [hz] at hch
        generalize hz : (Mem.mk w.heap w.next 0).free = z at hch
        cases hch with
        | nil => rfl
        | @cons _ n l e1 _ =>
          have h1 := (g2.bound z (by simp)).1
          have : z = 0 := hz.symm
          omega
      rw [hfl]
      exact g4

/-! ### histories -/

/-- calls of values one after the other -/
def Plain.run (w : Plain) : List Op → Option (List (Option Seen) × Plain)
  | [] => some ([], w)
  | op :: ops =>
    match w.step op with
    | none => none
    | some (s, w') =>
      match w'.run ops with
      | none => none
      | some (ss, w'') => some (s :: ss, w'')

theorem run_holds : ∀ (ops : List Op) {w : World} {v v' : Plain} {lost a b : List Ptr} {ss : List (Option Seen)}, Holds w v lost a b →
    v.run ops = some (ss, v') → ∃ w' more a' b', w.run ops = some (ss, w') ∧ Holds w' v' (more ++ lost) a' b' ∧
      ((∀ s ∈ ss, ∀ x, s = some x → x.error ≠ some .missingClose) → (∀ i, Op.destroy i ∉ ops) → more = []) := by
  intro ops
  induction ops with
  | nil =>
    intro w v v' lost a b ss h e
    cases e
    exact ⟨w, [], a, b, rfl, h, fun _ _ => rfl⟩
  | cons op ops ih =>
    intro w v v' lost a b ss h e
    unfold Plain.run at e
    cases hs : v.step op with
    | none => rw [hs] at e; simp at e
    | some y =>
      obtain ⟨s, v1⟩ := y
      rw [hs] at e
      simp only at e
      cases hr : v1.run ops with
      | none => rw [hr] at e; simp at e
      | some y =>
        obtain ⟨ss1, v2⟩ := y
        rw [hr] at e
        cases e
        obtain ⟨w1, m1, a1, b1, s1, h1, l1⟩ := step_holds h hs
        obtain ⟨w2, m2, a2, b2, s2, h2, l2⟩ := ih h1 hr
        refine ⟨w2, m2 ++ m1, a2, b2, ?_, by rw [List.append_assoc]; exact h2, fun k1 k2 => ?_⟩
        · unfold World.run; rw [s1]; simp only; rw [s2]
        · rw [l2 (fun s hs => k1 s (by simp [hs])) (fun i hi => k2 i (by simp [hi]))]
          cases op with
          | create => rw [l1]; rfl
          | convert t i text => rw [l1 (k1 s (by simp))]; rfl
          | destroy i => exact absurd (List.mem_cons_self ..) (k2 i)

/-- values at the start -/
def Plain.start (n : Nat) : Plain := ⟨List.replicate n none, []⟩

theorem start_holds (n : Nat) : Holds (World.start n) (Plain.start n) [] [] [] where
  frees := by
    show FreesP _ (List.replicate n (0, none)) (List.replicate n none) []
    induction n with
    | zero => exact .nil
    | succ n ih => exact .cons (l := []) .nil ih
  defs := .nil
  nodup := by simp
  dom p := by simp [World.start]
  bound p hp := by simp at hp
  pos := Nat.one_pos

/-- the converters that are there -/
def Plain.live (w : Plain) : List Bool := w.mts.map (·.isSome)

theorem live_at {w : Plain} {i : Nat} (h : w.live[i]? = some true) : ∃ c, w.mts[i]? = some (some c) := by
  unfold Plain.live at h
  rw [List.getElem?_map] at h
  cases hc : w.mts[i]? with
  | none => rw [hc] at h; simp at h
  | some c =>
    cases c with
    | none => rw [hc] at h; simp at h
    | some c => exact ⟨c, rfl⟩

theorem infix_message (env : Env) (s : List Char) (msg : Option Msg) (text : List Char) :
    (Mt.infix ⟨env, s, msg⟩ text).1 = (Mt.infix ⟨env, s, none⟩ text).1 ∧
    (Mt.infix ⟨env, s, msg⟩ text).2.env = (Mt.infix ⟨env, s, none⟩ text).2.env ∧
    (Mt.infix ⟨env, s, msg⟩ text).2.sExpression = (Mt.infix ⟨env, s, none⟩ text).2.sExpression ∧
    ((Mt.infix ⟨env, s, none⟩ text).2.message ≠ none → (Mt.infix ⟨env, s, msg⟩ text).2.message = (Mt.infix ⟨env, s, none⟩ text).2.message) := by
  unfold Mt.infix
  by_cases h1 : (scan (cstr text)).tok = []
  · simp only [if_pos h1]; exact ⟨trivial, trivial, trivial, fun h => absurd rfl h⟩
  · simp only [if_neg h1]
    cases parseTop (3 * (cstr text).length + 2) env (scan (cstr text)) with
    | defined e st =>
      unfold Mt.finish
      by_cases h2 : st.tok = []
      · simp only [if_pos h2]; exact ⟨trivial, trivial, trivial, fun h => absurd rfl h⟩
      · simp only [if_neg h2]; exact ⟨rfl, rfl, rfl, fun _ => rfl⟩
    | query q st =>
      unfold Mt.finish
      by_cases h2 : st.tok = []
      · simp only [if_pos h2]; exact ⟨trivial, trivial, trivial, fun h => absurd rfl h⟩
      · simp only [if_neg h2]; exact ⟨rfl, rfl, rfl, fun _ => rfl⟩
    | bad x =>
      cases x with
      | none => exact ⟨rfl, rfl, rfl, fun h => absurd rfl h⟩
      | some x => exact ⟨rfl, rfl, rfl, fun _ => rfl⟩
    | fuel => exact ⟨rfl, rfl, rfl, fun h => absurd rfl h⟩

/-- what converter `i` holds, or will hold when it is created -/
def Plain.value (w : Plain) (i : Nat) : Env × List Char :=
  match w.mts[i]? with
  | some (some c) => c
  | _ => ([], [])

theorem value_set {w : Plain} {i j : Nat} {c : Option (Env × List Char)} {ms : List (Option Msg)} (h : j ≠ i) :
    Plain.value ⟨ms, w.mts.set j c⟩ i = w.value i := by
  unfold Plain.value
  simp only
  rw [List.getElem?_set_ne h]

theorem value_snoc {w : Plain} {i : Nat} : Plain.value { w with mts := w.mts ++ [some ([], [])] } i = w.value i := by
  unfold Plain.value
  simp only
  by_cases h : i < w.mts.length
  · rw [List.getElem?_append_left h]
  · rw [List.getElem?_append_right (by omega), List.getElem?_eq_none (by omega : w.mts.length ≤ i)]
    cases hk : i - w.mts.length with
    | zero => rfl
    | succ k => rfl

/-- after its end, a converter is given no texts -/
theorem texts_gone (n i : Nat) : ∀ (ops : List Op) (live : List Bool), live[i]? = some false → Sensible n live ops → texts i ops = [] := by
  intro ops
  induction ops with
  | nil => intro live _ _; rfl
  | cons op ops ih =>
    intro live h hs
    cases op with
    | create =>
      exact ih (live ++ [true]) (by
        rw [List.getElem?_append_left]
        · exact h
        · cases hl : live[i]? with
          | none => rw [hl] at h; cases h
          | some y => exact (List.getElem?_eq_some_iff.1 hl).1) hs
    | convert t j text =>
      have hj : j ≠ i := by
        intro e; subst e
        have := hs.2.1
        rw [h] at this; cases this
      simp only [texts, if_neg hj]
      exact ih live h hs.2.2
    | destroy j =>
      refine ih (live.set j false) ?_ hs.2
      by_cases hj : j = i
      · subst hj
        have := (List.getElem?_eq_some_iff.1 h).1
        simp [this]
      · rw [List.getElem?_set_ne hj]; exact h

theorem shown_gone (i : Nat) : ∀ (ops : List Op) (ss : List (Option Seen)), texts i ops = [] → shown i ops ss = [] := by
  intro ops
  induction ops with
  | nil => intro ss _; cases ss <;> rfl
  | cons op ops ih =>
    intro ss h
    cases ss with
    | nil => cases op <;> rfl
    | cons s ss =>
      cases op with
      | create => exact ih ss h
      | convert t j text =>
        by_cases hj : j = i
        · simp [texts, hj] at h
        · simp only [texts, if_neg hj] at h
          cases s with
          | none => exact ih ss h
          | some s => simp only [shown, if_neg hj]; exact ih ss h
      | destroy j => exact ih ss h

/-- a converter that is gone stays so -/
theorem stays_gone (i : Nat) : ∀ (ops : List Op) {w w' : Plain} {ss : List (Option Seen)}, w.run ops = some (ss, w') → w.mts[i]? = some none →
    w'.mts[i]? = some none := by
  intro ops
  induction ops with
  | nil => intro w w' ss e h; cases e; exact h
  | cons op ops ih =>
    intro w w' ss e h
    unfold Plain.run at e
    cases hs : w.step op with
    | none => rw [hs] at e; simp at e
    | some y =>
      obtain ⟨s, v1⟩ := y
      rw [hs] at e
      simp only at e
      cases hr : v1.run ops with
      | none => rw [hr] at e; simp at e
      | some y =>
        obtain ⟨ss1, v2⟩ := y
        rw [hr] at e
        cases e
        refine ih hr ?_
        have hset : ∀ (j : Nat) (c : Option (Env × List Char)) c0, w.mts[j]? = some (some c0) → (w.mts.set j c)[i]? = some none := by
          intro j c c0 hj
          rw [List.getElem?_set_ne (by intro e; subst e; rw [h] at hj; cases hj)]
          exact h
        cases op with
        | create =>
          simp only [Plain.step, Option.some.injEq, Prod.mk.injEq] at hs
          obtain ⟨-, rfl⟩ := hs
          show (w.mts ++ _)[i]? = _
          rw [List.getElem?_append_left (List.getElem?_eq_some_iff.1 h).1]; exact h
        | convert t j text =>
          simp only [Plain.step] at hs
          split at hs
          · rename_i msg c hm hc
            cases hs
            exact hset j _ _ hc
          · cases hs
        | destroy j =>
          simp only [Plain.step] at hs
          split at hs
          · rename_i c hc
            cases hs
            exact hset j _ _ hc
          · cases hs

/-- sensible calls are possible, and show of each converter what it shows alone -/
theorem sensible_run (n : Nat) : ∀ (ops : List Op) (w : Plain), w.messages.length = n → Sensible n w.live ops →
    ∃ ss w', w.run ops = some (ss, w') ∧ ss.length = ops.length ∧
      ∀ i, Agree (shown i ops ss) (alone (w.value i).1 (w.value i).2 (texts i ops)) ∧
        ∀ c, w'.mts[i]? = some (some c) → c.1 = after (w.value i).1 (w.value i).2 (texts i ops) := by
  intro ops
  induction ops with
  | nil => exact fun w _ _ => ⟨[], w, rfl, rfl, fun i => ⟨trivial, fun c hc => by simp [Plain.value, hc, texts, after]⟩⟩
  | cons op ops ih =>
    intro w hn hs
    cases op with
    | create =>
      obtain ⟨ss, w', h1, h2, h3⟩ := ih { w with mts := w.mts ++ [some ([], [])] } hn (by
        unfold Plain.live; simp only [List.map_append]; exact hs)
      refine ⟨none :: ss, w', by simp only [Plain.run, Plain.step, h1], by simp [h2], fun i => ?_⟩
      have := h3 i
      rw [value_snoc] at this
      exact this
    | convert t j text =>
      obtain ⟨ht, hj, hs⟩ := hs
      obtain ⟨c, hc⟩ := live_at hj
      have hm : w.messages[t]? = some w.messages[t] := List.getElem?_eq_getElem (by omega)
      generalize w.messages[t] = msg at hm
      generalize hr : Mt.infix ⟨c.1, c.2, msg⟩ text = r
      have hstep : w.step (.convert t j text) = some (some (seen r.1 r.2.message r.2.sExpression),
          ⟨w.messages.set t r.2.message, w.mts.set j (some (r.2.env, r.2.sExpression))⟩) := by
        simp only [Plain.step, hm, hc, hr]
      obtain ⟨ss, w', h1, h2, h3⟩ := ih ⟨w.messages.set t r.2.message, w.mts.set j (some (r.2.env, r.2.sExpression))⟩ (by simp [hn]) (by
        have : Plain.live ⟨w.messages.set t r.2.message, w.mts.set j (some (r.2.env, r.2.sExpression))⟩ = w.live := by
          unfold Plain.live
          simp only [List.map_set]
          exact List.ext_getElem? fun k => by
            by_cases hk : j = k
            · subst hk
              have hl := (List.getElem?_eq_some_iff.1 hc).1
              have h0 : (w.mts.map (·.isSome))[j]? = some true := hj
              rw [List.getElem?_set_self (by simpa using hl), h0]; rfl
            · rw [List.getElem?_set_ne hk]
        rw [this]; exact hs)
      refine ⟨some (seen r.1 r.2.message r.2.sExpression) :: ss, w', by simp only [Plain.run, hstep, h1], by simp [h2], fun i => ?_⟩
      have h4 := h3 i
      by_cases hi : j = i
      · subst hi
        have hv : w.value j = c := by unfold Plain.value; rw [hc]
        have hv' : Plain.value ⟨w.messages.set t r.2.message, w.mts.set j (some (r.2.env, r.2.sExpression))⟩ j = (r.2.env, r.2.sExpression) := by
          unfold Plain.value
          have hl := (List.getElem?_eq_some_iff.1 hc).1
          simp only [List.getElem?_set_self hl]
        rw [hv'] at h4
        simp only [shown, texts, if_true, alone, after]
        rw [hv]
        obtain ⟨m1, m2, m3, m4⟩ := infix_message c.1 c.2 msg text
        rw [hr] at m1 m2 m3 m4
        rw [← m2, ← m3]
        refine ⟨⟨⟨m1, rfl, ?_⟩, h4.1⟩, h4.2⟩
        · unfold seen
          rw [m1]
          cases (Mt.infix ⟨c.1, c.2, none⟩ text).1 with
          | true => intro h; exact absurd rfl h
          | false => intro h; exact m4 h
      · simp only [shown, texts, if_neg hi]
        rw [value_set hi] at h4
        exact h4
    | destroy j =>
      obtain ⟨hj, hs⟩ := hs
      obtain ⟨c, hc⟩ := live_at hj
      have hstep : w.step (.destroy j) = some (none, { w with mts := w.mts.set j none }) := by simp only [Plain.step, hc]
      have hlive : Plain.live { w with mts := w.mts.set j none } = w.live.set j false := by
        unfold Plain.live; simp only [List.map_set]; rfl
      obtain ⟨ss, w', h1, h2, h3⟩ := ih { w with mts := w.mts.set j none } hn (by rw [hlive]; exact hs)
      refine ⟨none :: ss, w', by simp only [Plain.run, hstep, h1], by simp [h2], fun i => ?_⟩
      by_cases hi : j = i
      · subst hi
        have hl : j < w.live.length := (List.getElem?_eq_some_iff.1 hj).1
        have ht : texts j ops = [] := texts_gone n j ops (w.live.set j false) (by simp [hl]) hs
        refine ⟨?_, fun c' hc' => ?_⟩
        · show Agree (shown j ops ss) (alone _ _ (texts j ops))
          rw [shown_gone j ops ss ht, ht]
          trivial
        · have := stays_gone j ops h1 (by simp [(List.getElem?_eq_some_iff.1 hc).1])
          rw [hc'] at this; cases this
      · have h4 := h3 i
        rw [value_set hi] at h4
        exact h4

theorem run_append : ∀ (a b : List Op) {w v : Plain} {ss : List (Option Seen)}, w.run (a ++ b) = some (ss, v) →
    ∃ ss1 v1 ss2, w.run a = some (ss1, v1) ∧ v1.run b = some (ss2, v) := by
  intro a
  induction a with
  | nil => intro b w v ss h; exact ⟨[], w, ss, rfl, h⟩
  | cons op a ih =>
    intro b w v ss e
    rw [List.cons_append] at e
    unfold Plain.run at e
    cases hs : w.step op with
    | none => rw [hs] at e; simp at e
    | some y =>
      obtain ⟨s, v1⟩ := y
      rw [hs] at e
      simp only at e
      cases hr : v1.run (a ++ b) with
      | none => rw [hr] at e; simp at e
      | some y =>
        obtain ⟨ss1, v2⟩ := y
        rw [hr] at e
        cases e
        obtain ⟨x1, x2, x3, y1, y2⟩ := ih b hr
        exact ⟨s :: x1, x2, x3, by simp only [Plain.run, hs, y1], y2⟩

theorem sensible_left (n : Nat) : ∀ (a b : List Op) (live : List Bool), Sensible n live (a ++ b) → Sensible n live a := by
  intro a
  induction a with
  | nil => intro b live _; trivial
  | cons op a ih =>
    intro b live h
    cases op with
    | create => exact ih b _ h
    | convert t i text => exact ⟨h.1, h.2.1, ih b _ h.2.2⟩
    | destroy i => exact ⟨h.1, ih b _ h.2⟩

/-! ### what there is of memory -/

theorem FreesP.plain {h : Ptr → Option Cell} {ts ms fp} (w : FreesP h ts ms fp) : Frees h ts fp := by
  induction w with
  | nil => exact .nil
  | cons c _ ih => exact .cons c ih

theorem DefinesP.plain {h : Ptr → Option Cell} {ts ms fp} (w : DefinesP h ts ms fp) : Defines h ts (ms.map (·.map (·.1))) fp := by
  induction w with
  | nil => exact .nil
  | gone _ ih => exact .gone ih
  | cons t _ ih => exact .cons t ih

theorem Holds.accounted {w : World} {v : Plain} {lost a b : List Ptr} (h : Holds w v lost a b) : Accounted w (v.mts.map (·.map (·.1))) lost :=
  ⟨a, b, h.frees.plain, h.defs.plain, h.nodup, h.dom⟩

end Verif.Mt
