import Verif.Rank.DaatModel
import Verif.Rank.Wand
/-
  Proofs about the rankings of Verif/Rank/DaatModel.lean.
-/
namespace Verif.Rank
open Verif.Hopper

variable {σ τ : Type} {sc : Scores σ} {part : τ → Int → Int → σ} {depth : Nat} {sort : List (Result σ) → List (Result σ)}

/-! ### keeping the best so far, with any scores -/

/-- enough is kept of `done` -/
structure Keeps (sc : Scores σ) (depth : Nat) (done top current : List (Result σ)) : Prop where
  short : top.length ≤ depth
  sorted : top.Pairwise fun a b => sc.gt b.score a.score = false
  pos : ∀ r ∈ top ++ current, sc.gt r.score sc.zero = true
  enough : Enough sc depth done (top ++ current)

theorem keeps_nil : Keeps sc depth [] [] [] := ⟨Nat.zero_le _, .nil, by simp, enough_self _ _⟩

theorem atLeast_target {top : List (Result σ)} (h : top.length ≤ depth) : atLeastDepth sc depth top = targetOf sc depth top := by
  unfold atLeastDepth targetOf
  by_cases hd : top.length = depth
  · rw [if_pos (by omega), if_pos hd]
    cases top.getLast? <;> rfl
  · rw [if_neg (by omega), if_neg hd]

section
variable {done top current : List (Result σ)}

theorem Keeps.low (hs : sc.Ordered) (h : Keeps sc depth done top current) {r : Result σ} (hr : sc.gt r.score sc.zero = false) :
    keep sc sort depth (targetOf sc depth top) top current r = (top, current) := by
  unfold keep
  rw [if_neg]
  intro hg
  rcases hs.split (b := sc.zero) hg with h1 | h1
  · rw [hr] at h1; cases h1
  · rw [target_floor hs fun r hr => h.pos r (List.mem_append_left _ hr)] at h1; cases h1

theorem Keeps.step (hs : sc.Ordered) (hsort : SortsBy sc sort) (h : Keeps sc depth done top current) {r : Result σ}
    (hr : sc.gt r.score sc.zero = true) :
    Keeps sc depth (done ++ [r]) (keep sc sort depth (targetOf sc depth top) top current r).1
      (keep sc sort depth (targetOf sc depth top) top current r).2 := by
  unfold keep
  split
  · have he := enough_snoc h.enough r
    rw [List.append_assoc] at he
    have hpos : ∀ x ∈ top ++ (current ++ [r]), sc.gt x.score sc.zero = true := by
      intro x hx
      rw [← List.append_assoc] at hx
      rcases List.mem_append.1 hx with hx | hx
      · exact h.pos x hx
      · rw [List.mem_singleton.1 hx]; exact hr
    simp only
    split
    · have ht := top_take hs hsort he
      refine ⟨?_, ht.sorted, fun x hx => ?_, ?_⟩
      · simp only; unfold topResults; exact List.length_take_le _ _
      · simp only [List.append_nil] at hx
        exact hpos x ((hsort _).1.mem_iff.1 ((List.take_sublist _ _).subset hx))
      · simp only [List.append_nil]
        exact enough_of_top ht
    · exact ⟨h.short, h.sorted, hpos, he⟩
  · rename_i hn
    refine ⟨h.short, h.sorted, h.pos, enough_drop h.enough ?_⟩
    have := rivals_target hs h.short h.sorted hr (by simpa using hn)
    exact Nat.le_trans this (rivals_mono _ _ _)

theorem Keeps.best (hs : sc.Ordered) (hsort : SortsBy sc sort) (h : Keeps sc depth done top current) :
    Top sc depth done (topResults sort top current depth) := top_take hs hsort h.enough

end

/-! ### the terms -/

/-- the term stands at its first passage from `F` on -/
def Trails (F : Int) (t : Topper τ) (l : Lane τ) : Prop :=
  t.weight = l.weight ∧ Listing l.docs ∧ TauSpec (ofList l.docs) F t.cur ∧
    ∃ I : t.H.σ → Prop, Walks t.H I (ofList l.docs) ∧ I t.st

theorem topper_seek {F k : Int} {t : Topper τ} {l : Lane τ} (h : Trails F t l) (hk : InRange k) :
    ∃ t', t.seek k = some t' ∧ Trails k t' l := by
  obtain ⟨h1, h2, _, I, hI, hs⟩ := h
  obtain ⟨a, s, e, hs', ha⟩ := hI.tau k hk t.st hs
  refine ⟨{ t with st := s, cur := a }, by simp only [Topper.seek, e], h1, h2, ha, I, hI, hs'⟩

theorem Trails.cur {F : Int} (hF : minfinity < F) {t : Topper τ} {l : Lane τ} (h : Trails F t l) (hF' : F ≤ maxfinity) :
    F ≤ t.cur.p ∧ t.cur.p ≤ maxfinity ∧ (∀ a ∈ l.docs, F ≤ a.p → t.cur.p ≤ a.p) ∧
      (t.cur.p < maxfinity → t.cur ∈ l.docs) := by
  obtain ⟨_, h2, h3, _⟩ := h
  rcases h3 with ⟨h, _⟩ | ⟨_, g1, g2, g3⟩ | ⟨_, g1, g2⟩
  · omega
  · have := h2.bounds _ g1
    exact ⟨g2, by omega, g3, fun _ => g1⟩
  · rw [g2]
    refine ⟨hF', Int.le_refl _, fun a ha h => ?_, fun h => ?_⟩
    · have := g1 a ha; omega
    · simp only at h; omega

theorem Trails.later {F k : Int} (hF : minfinity < F) (hk : F ≤ k) {t : Topper τ} {l : Lane τ} (h : Trails F t l)
    (hw : k ≤ t.cur.p) : Trails k t l := by
  obtain ⟨h1, h2, h3, h4⟩ := h
  refine ⟨h1, h2, ?_, h4⟩
  rcases h3 with ⟨h, _⟩ | ⟨_, g1, g2, g3⟩ | ⟨_, g1, g2⟩
  · omega
  · exact .inr (.inl ⟨by omega, g1, hw, fun a ha h => g3 a ha (by omega)⟩)
  · exact .inr (.inr ⟨by omega, fun a ha => by have := g1 a ha; omega, g2⟩)

theorem lanesAt_cons_none {l : Lane τ} {ls : List (Lane τ)} {p : Int} (h : ∀ a ∈ l.docs, a.p ≠ p) :
    lanesAt (l :: ls) p = lanesAt ls p := by
  unfold lanesAt
  have : (l.docs.find? fun a => a.p == p) = none := by
    rw [List.find?_eq_none]
    intro a ha
    simpa using h a ha
  rw [List.filterMap_cons, this]
  rfl

theorem lanesAt_cons_some {l : Lane τ} {ls : List (Lane τ)} {p : Int} (hl : Listing l.docs) {a : Ann} (ha : a ∈ l.docs) (hp : a.p = p) :
    lanesAt (l :: ls) p = (l.weight, a) :: lanesAt ls p := by
  unfold lanesAt
  have : (l.docs.find? fun a => a.p == p) = some a := by
    cases hf : l.docs.find? fun a => a.p == p with
    | none =>
      rw [List.find?_eq_none] at hf
      exact absurd (by simpa using hp) (hf a ha)
    | some b =>
      have h1 := List.find?_some hf
      have h2 := List.mem_of_find?_eq_some hf
      have : b = a := hl.wf.uniq h2 ha (by simp at h1; omega)
      rw [this]
  rw [List.filterMap_cons, this]
  rfl

theorem lanesAt_nil {ls : List (Lane τ)} {p : Int} (h : ∀ l ∈ ls, ∀ a ∈ l.docs, a.p ≠ p) : lanesAt ls p = [] := by
  induction ls with
  | nil => rfl
  | cons l ls ih =>
    rw [lanesAt_cons_none (h l (List.mem_cons_self ..))]
    exact ih fun m hm => h m (List.mem_cons_of_mem _ hm)

/-- where the nearest is -/
def nearest (n : Int × Int) (ts : List (Topper τ)) : Int × Int := ts.foldl (fun n t => nearer t n) n

theorem nearest_spec : ∀ (ts : List (Topper τ)) (n : Int × Int),
    (∀ t ∈ ts, (nearest n ts).1 ≤ t.cur.p) ∧ (nearest n ts).1 ≤ n.1 ∧
      (nearest n ts = n ∨ (nearest n ts).1 < n.1 ∧ ∃ b t a, ts = b ++ t :: a ∧ nearest n ts = (t.cur.p, t.cur.q) ∧
        ∀ u ∈ b, t.cur.p < u.cur.p) := by
  intro ts
  induction ts with
  | nil => intro n; exact ⟨by simp, Int.le_refl _, .inl rfl⟩
  | cons t ts ih =>
    intro n
    have e : nearest n (t :: ts) = nearest (nearer t n) ts := rfl
    rw [e]
    obtain ⟨h1, h2, h3⟩ := ih (nearer t n)
    unfold nearer at h1 h2 h3 ⊢
    by_cases hlt : t.cur.p < n.1
    · rw [if_pos hlt] at h1 h2 h3 ⊢
      simp only at h2 h3
      refine ⟨fun u hu => ?_, by omega, .inr ⟨by omega, ?_⟩⟩
      · rcases List.mem_cons.1 hu with rfl | hu
        · exact h2
        · exact h1 u hu
      · rcases h3 with h3 | ⟨g1, b, u, a, rfl, g2, g3⟩
        · exact ⟨[], t, ts, rfl, h3, by simp⟩
        · refine ⟨t :: b, u, a, rfl, g2, fun x hx => ?_⟩
          rcases List.mem_cons.1 hx with rfl | hx
          · rw [g2] at g1; exact g1
          · exact g3 x hx
    · rw [if_neg hlt] at h1 h2 h3 ⊢
      refine ⟨fun u hu => ?_, h2, ?_⟩
      · rcases List.mem_cons.1 hu with rfl | hu
        · omega
        · exact h1 u hu
      · rcases h3 with h3 | ⟨g1, b, u, a, rfl, g2, g3⟩
        · exact .inl h3
        · refine .inr ⟨g1, t :: b, u, a, rfl, g2, fun x hx => ?_⟩
          rcases List.mem_cons.1 hx with rfl | hx
          · rw [g2] at g1; simp only at g1; omega
          · exact g3 x hx

/-- the first term at a passage says where it ends -/
theorem lanesAt_first {F : Int} (hF : minfinity < F) (hF' : F ≤ maxfinity) : ∀ {b : List (Topper τ)} {t : Topper τ} {a : List (Topper τ)}
    {ls : List (Lane τ)}, Both (Trails F) (b ++ t :: a) ls → (∀ u ∈ b, t.cur.p < u.cur.p) → t.cur.p < maxfinity →
    ∃ x xs, lanesAt ls t.cur.p = x :: xs ∧ x.2.q = t.cur.q := by
  intro b
  induction b with
  | nil =>
    intro t a ls h _ ht
    cases h with
    | cons h1 h2 =>
      obtain ⟨_, _, _, c4⟩ := h1.cur hF hF'
      exact ⟨_, _, lanesAt_cons_some h1.2.1 (c4 ht) rfl, rfl⟩
  | cons u b ih =>
    intro t a ls h hb ht
    cases h with
    | cons h1 h2 =>
      obtain ⟨c1, c2, c3, _⟩ := h1.cur hF hF'
      have htF : F ≤ t.cur.p := by
        obtain ⟨l, _, g⟩ := both_left h2 (a := t) (by simp)
        exact (g.cur hF hF').1
      rw [lanesAt_cons_none (fun x hx e => ?_)]
      · exact ih h2 (fun v hv => hb v (List.mem_cons_of_mem _ hv)) ht
      · have := c3 x hx (by omega)
        have := hb u (List.mem_cons_self ..)
        omega

theorem turn_ok {p len : Int} (hp : minfinity < p) (hp' : p < maxfinity) {ts : List (Topper τ)} {ls : List (Lane τ)}
    (h : Both (Trails p) ts ls) : ∀ (s : σ) (n : Int × Int),
    ∃ ts', turn sc part p len s n ts =
        some ((lanesAt ls p).foldl (fun s y => sc.add s (part y.1 y.2.v len)) s, nearest n ts', ts') ∧
      Both (Trails (p + 1)) ts' ls := by
  induction h with
  | nil => intro s n; exact ⟨[], rfl, .nil⟩
  | cons h1 _ ih =>
    rename_i t l ts ls _
    intro s n
    obtain ⟨c1, c2, c3, c4⟩ := h1.cur hp (by omega)
    unfold turn visit
    by_cases ht : t.cur.p = p
    · rw [if_pos ht]
      obtain ⟨t', e1, g1⟩ := topper_seek (k := p + 1) h1 ⟨by omega, by omega⟩
      obtain ⟨ts', e2, g2⟩ := ih (sc.add s (part t.weight t.cur.v len)) (nearer t' n)
      refine ⟨t' :: ts', ?_, .cons g1 g2⟩
      simp only [e1, e2]
      rw [lanesAt_cons_some h1.2.1 (c4 (by omega)) ht, List.foldl_cons, h1.1]
      rfl
    · rw [if_neg ht]
      obtain ⟨ts', e2, g2⟩ := ih s (nearer t n)
      refine ⟨t :: ts', ?_, .cons (h1.later hp (by omega) (by omega)) g2⟩
      simp only [e2]
      rw [lanesAt_cons_none fun a ha e => by have := c3 a ha (by omega); omega]
      rfl

/-- those before `F` -/
structure Before (sc : Scores σ) (part : τ → Int → Int → σ) (lanes : List (Lane τ)) (F : Int) (done : List (Result σ)) : Prop where
  ordered : done.Pairwise fun a b => a.p < b.p
  mem : ∀ r, r ∈ done ↔ passageAt sc part lanes r.p = some r ∧ sc.gt r.score sc.zero = true ∧ r.p < F

theorem daatLoop_ok (hs : sc.Ordered) (hsort : SortsBy sc sort) {lanes : List (Lane τ)} : ∀ (n : Nat) (F : Int) (ts : List (Topper τ))
    (done top current : List (Result σ)), minfinity < F → F ≤ maxfinity → (maxfinity - F).toNat < n →
    Both (Trails F) ts lanes → Before sc part lanes F done → Keeps sc depth done top current →
    ∃ all R, daatLoop sc part sort depth n ts (nearest (maxfinity, maxfinity) ts) top current = some R ∧
      Passages sc part lanes all ∧ Top sc depth all R := by
  intro n
  induction n with
  | zero => intro F _ _ _ _ _ _ h; omega
  | succ n ih =>
    intro F ts done top current hF hF' hn hb hd hk
    obtain ⟨n1, n2, n3⟩ := nearest_spec ts (maxfinity, maxfinity)
    -- nothing between F and the nearest
    have hgap : ∀ k, F ≤ k → k < (nearest (maxfinity, maxfinity) ts).1 → lanesAt lanes k = [] := by
      intro k k1 k2
      refine lanesAt_nil fun l hl a ha e => ?_
      obtain ⟨t, ht, g⟩ := both_right hb hl
      have := (g.cur hF hF').2.2.1 a ha (by omega)
      have := n1 t ht
      omega
    generalize hm : nearest (maxfinity, maxfinity) ts = m at *
    obtain ⟨p, q⟩ := m
    simp only at n1 n2 n3 hgap
    unfold daatLoop
    by_cases hp : p < maxfinity
    · rw [if_pos hp]
      obtain ⟨g1, b, t, a, e, g2, g3⟩ := n3.resolve_left (fun h => by
        have := (Prod.mk.inj h).1; omega)
      have hpt := (Prod.mk.inj g2).1
      have hqt := (Prod.mk.inj g2).2
      obtain ⟨x, xs, hx, hxq⟩ := lanesAt_first hF hF' (e ▸ hb) g3 (by omega)
      have hFp : F ≤ p := by
        obtain ⟨l, _, g⟩ := both_left hb (a := t) (by rw [e]; simp)
        rw [hpt]; exact (g.cur hF hF').1
      have hb' : Both (Trails p) ts lanes := both_imp hb fun t ht l g => g.later hF hFp (n1 t ht)
      obtain ⟨ts', e1, hb1⟩ := turn_ok (sc := sc) (part := part) (len := q - p + 1) (by omega) hp hb' sc.zero (maxfinity, maxfinity)
      rw [e1]
      simp only
      rw [atLeast_target hk.short]
      rw [← hpt] at hx
      have hpass : passageAt sc part lanes p = some ⟨p, q, p, q,
          (lanesAt lanes p).foldl (fun s y => sc.add s (part y.1 y.2.v (q - p + 1))) sc.zero⟩ := by
        unfold passageAt
        rw [hx]
        simp only [hxq, ← hqt]
      generalize hsco : (lanesAt lanes p).foldl (fun s y => sc.add s (part y.1 y.2.v (q - p + 1))) sc.zero = sco at hpass ⊢
      have hnone : ∀ r : Result σ, passageAt sc part lanes r.p = some r → F ≤ r.p → r.p < p → False := by
        intro r hr r1 r2
        unfold passageAt at hr
        rw [hgap _ r1 r2] at hr
        cases hr
      cases hg : sc.gt sco sc.zero with
      | true =>
        refine ih (p + 1) ts' (done ++ [⟨p, q, p, q, sco⟩]) _ _ (by omega) (by omega) (by omega) hb1 ⟨?_, ?_⟩ (hk.step hs hsort hg)
        · rw [List.pairwise_append]
          refine ⟨hd.ordered, by simp, fun a ha b hb => ?_⟩
          rw [List.mem_singleton.1 hb]
          have := ((hd.mem a).1 ha).2.2
          simp only
          omega
        · intro r
          rw [List.mem_append, hd.mem, List.mem_singleton]
          constructor
          · rintro (⟨h1, h2, h3⟩ | rfl)
            · exact ⟨h1, h2, by omega⟩
            · exact ⟨hpass, hg, by simp only; omega⟩
          · rintro ⟨h1, h2, h3⟩
            rcases Int.lt_or_le r.p F with h | h
            · exact .inl ⟨h1, h2, h⟩
            · rcases Int.lt_or_le r.p p with h' | h'
              · exact (hnone r h1 h h').elim
              · have e : r.p = p := by omega
                rw [e, hpass] at h1
                exact .inr (Option.some.inj h1).symm
      | false =>
        rw [hk.low hs hg]
        refine ih (p + 1) ts' done _ _ (by omega) (by omega) (by omega) hb1 ⟨hd.ordered, fun r => ?_⟩ hk
        rw [hd.mem]
        constructor
        · rintro ⟨h1, h2, h3⟩
          exact ⟨h1, h2, by omega⟩
        · rintro ⟨h1, h2, h3⟩
          refine ⟨h1, h2, ?_⟩
          rcases Int.lt_or_le r.p F with h | h
          · exact h
          · rcases Int.lt_or_le r.p p with h' | h'
            · exact (hnone r h1 h h').elim
            · have e : r.p = p := by omega
              rw [e, hpass] at h1
              rw [← Option.some.inj h1] at h2
              rw [hg] at h2; cases h2
    · rw [if_neg hp]
      refine ⟨done, _, rfl, ⟨hd.ordered, fun r => ?_⟩, hk.best hs hsort⟩
      rw [hd.mem]
      constructor
      · rintro ⟨h1, h2, _⟩
        exact ⟨h1, h2⟩
      · rintro ⟨h1, h2⟩
        refine ⟨h1, h2, ?_⟩
        rcases Int.lt_or_le r.p F with h | h
        · exact h
        · exfalso
          have : lanesAt lanes r.p = [] := by
            rcases Int.lt_or_le r.p p with h' | h'
            · exact hgap _ h h'
            · refine lanesAt_nil fun l hl a ha e => ?_
              obtain ⟨t, _, g⟩ := both_right hb hl
              have := g.2.1.bounds a ha
              omega
          unfold passageAt at h1
          rw [this] at h1
          cases h1

/-- a query term as the program gets it -/
def Given (t : τ × Obj) (l : Lane τ) : Prop := t.1 = l.weight ∧ Listing l.docs ∧ ∃ I, Walks t.2 I (ofList l.docs)

theorem firstAll_ok : ∀ {query : List (τ × Obj)} {lanes : List (Lane τ)}, Both Given query lanes → ∀ n : Int × Int,
    ∃ ts, firstAll n (query.map fun t => ({ weight := t.1, H := t.2, st := t.2.init, cur := highEnd } : Topper τ)) =
        some (nearest n ts, ts) ∧ Both (Trails (minfinity + 1)) ts lanes := by
  intro query lanes h
  induction h with
  | nil => intro n; exact ⟨[], rfl, .nil⟩
  | @cons t l _ _ h1 _ ih =>
    intro n
    obtain ⟨w, hl, I, hI⟩ := h1
    obtain ⟨a, s, e', hs, ha⟩ := hI.tau (minfinity + 1) ⟨by omega, by omega⟩ _ hI.init
    obtain ⟨ts, e, g⟩ := ih (nearer ({ weight := t.1, H := t.2, st := s, cur := a } : Topper τ) n)
    refine ⟨({ weight := t.1, H := t.2, st := s, cur := a } : Topper τ) :: ts, ?_, .cons ⟨w, hl, ha, I, hI, hs⟩ g⟩
    simp only [List.map_cons, firstAll, Topper.seek, e', e]
    rfl

theorem top_none (sc : Scores σ) (all : List (Result σ)) : Top sc 0 all [] :=
  ⟨by simp, .nil, all, .refl _, by simp⟩

theorem daat_ok (hs : sc.Ordered) (hsort : SortsBy sc sort) {query : List (τ × Obj)} {lanes : List (Lane τ)} (hd : 0 < depth)
    (hq : Both Given query lanes) :
    ∃ all R, daat sc part sort depth query = some R ∧ Passages sc part lanes all ∧ Top sc depth all R := by
  unfold daat
  by_cases hl : query.length = 0
  · rw [if_pos (.inr hl)]
    rw [List.eq_nil_of_length_eq_zero hl] at hq
    cases hq
    refine ⟨[], [], rfl, ⟨.nil, fun r => ?_⟩, ⟨by simp, .nil, [], .refl _, by simp⟩⟩
    constructor
    · intro h; cases h
    · rintro ⟨h, _⟩; cases h
  · rw [if_neg (by omega)]
    obtain ⟨ts, e, g⟩ := firstAll_ok hq (maxfinity, maxfinity)
    rw [e]
    refine daatLoop_ok hs hsort loopFuel (minfinity + 1) ts [] [] [] (by omega) (by omega) (by unfold loopFuel; omega) g ⟨.nil, fun r => ?_⟩
      keeps_nil
    constructor
    · intro h; cases h
    · rintro ⟨h, _, hr⟩
      exfalso
      have : lanesAt lanes r.p = [] := by
        refine lanesAt_nil fun l hl a ha e => ?_
        obtain ⟨t, _, _, g, _⟩ := both_right hq hl
        have := g.bounds a ha
        omega
      unfold passageAt at h
      rw [this] at h
      cases h

/-! ### the lottery -/

theorem keep_top {done top current : List (Result σ)} (hs : sc.Ordered) (hsort : SortsBy sc sort) (h : Keeps sc depth done top current) (r : Result σ) :
    Keeps sc depth (done ++ if sc.gt r.score sc.zero then [r] else []) (keep sc sort depth (targetOf sc depth top) top current r).1
      (keep sc sort depth (targetOf sc depth top) top current r).2 := by
  cases hg : sc.gt r.score sc.zero with
  | true => simpa using h.step hs hsort hg
  | false =>
    rw [h.low hs hg]
    simpa using h

theorem randomLoop_ok (hs : sc.Ordered) (hsort : SortsBy sc sort) {C : Obj} {I : C.σ → Prop} {D : List Ann} (hD : Listing D)
    (hI : Walks C I (ofList D)) : ∀ (n : Nat) (F : Int) (draw : Nat → Option σ) (s : C.σ) (a : Ann) (pre rest : List Ann)
    (done top current : List (Result σ)), minfinity < F → F ≤ maxfinity → (maxfinity - F).toNat < n → D = pre ++ rest →
    (∀ d ∈ pre, d.p < F) → (∀ d ∈ rest, F ≤ d.p) → I s → TauSpec (ofList D) F a → Keeps sc depth done top current →
    ∃ R, randomLoop sc sort depth C n draw s a.p a.q top current = some R ∧ Top sc depth (done ++ lottery sc draw rest) R := by
  intro n
  induction n with
  | zero => intro F _ _ _ _ _ _ _ _ _ _ h; omega
  | succ n ih =>
    intro F draw s a pre rest done top current hF hF' hn hsplit hpre hrest hst ha hk
    unfold randomLoop
    rcases ha with ⟨h, _⟩ | ⟨_, g1, g2, g3⟩ | ⟨_, g1, g2⟩
    · omega
    · have hab := hD.bounds a g1
      rw [if_pos (by omega)]
      -- the first of the rest
      have hmem : a ∈ rest := by
        have h1 : a ∈ pre ++ rest := hsplit ▸ g1
        rcases List.mem_append.1 h1 with h | h
        · have := hpre a h; omega
        · exact h
      cases rest with
      | nil => cases hmem
      | cons d rest =>
        have hdD : d ∈ D := by rw [hsplit]; simp
        have hpw : (pre ++ d :: rest).Pairwise fun a b => a.p < b.p ∧ a.q < b.q := hsplit ▸ hD.sorted
        have hpr := (List.pairwise_append.1 hpw).2.1
        have hda : d = a := by
          rcases List.mem_cons.1 hmem with h | h
          · exact h.symm
          · have h1 := (List.pairwise_cons.1 hpr).1 a h
            have h2 := g3 d hdD (hrest d (List.mem_cons_self ..))
            omega
        subst hda
        obtain ⟨b, s', e, hs', hb⟩ := hI.tau (d.p + 1) ⟨by omega, by omega⟩ s hst
        simp only [e]
        have hpre' : ∀ x ∈ pre ++ [d], x.p < d.p + 1 := by
          intro x hx
          rcases List.mem_append.1 hx with hx | hx
          · have := hpre x hx; omega
          · rw [List.mem_singleton.1 hx]; omega
        have hrest' : ∀ x ∈ rest, d.p + 1 ≤ x.p := by
          intro x hx
          have := (List.pairwise_cons.1 hpr).1 x hx
          omega
        cases hdr : draw 0 with
        | none =>
          simp only [lottery, hdr]
          exact ih (d.p + 1) _ s' b (pre ++ [d]) rest done top current (by omega) (by omega) (by omega) (by simp [hsplit])
            hpre' hrest' hs' hb hk
        | some x =>
          have hk' := keep_top (sort := sort) hs hsort hk ⟨d.p, d.q, d.p, d.q, x⟩
          obtain ⟨R, e', hR⟩ := ih (d.p + 1) (fun i => draw (i + 1)) s' b (pre ++ [d]) rest _ _ _ (by omega) (by omega) (by omega) (by simp [hsplit])
            hpre' hrest' hs' hb hk'
          refine ⟨R, e', ?_⟩
          simp only [lottery, hdr]
          cases hg : sc.gt x sc.zero with
          | true => simpa [hg] using hR
          | false => simpa [hg] using hR
    · rw [g2]
      rw [if_neg (by simp)]
      refine ⟨_, rfl, ?_⟩
      have : rest = [] := by
        cases rest with
        | nil => rfl
        | cons d rest =>
          have h1 := g1 d (by show d ∈ D; rw [hsplit]; simp)
          have h2 := hrest d (List.mem_cons_self ..)
          omega
      rw [this]
      simpa [lottery] using hk.best hs hsort

theorem random_ok (hs : sc.Ordered) (hsort : SortsBy sc sort) {C : Obj} {I : C.σ → Prop} {D : List Ann} (hD : Listing D)
    (hI : Walks C I (ofList D)) (draw : Nat → Option σ) :
    ∃ R, randomRanking sc sort depth (some C) draw = some R ∧ Top sc depth (lottery sc draw D) R := by
  unfold randomRanking
  by_cases hd : depth = 0
  · rw [if_pos hd, hd]
    exact ⟨[], rfl, top_none sc _⟩
  · rw [if_neg hd]
    simp only
    obtain ⟨a, s, e, hs', ha⟩ := hI.tau (minfinity + 1) ⟨by omega, by omega⟩ _ hI.init
    rw [e]
    simp only
    exact randomLoop_ok hs hsort hD hI loopFuel (minfinity + 1) draw s a [] D [] [] [] (by omega) (by omega) (by unfold loopFuel; omega) rfl
      (by simp) (fun d hd => by have := hD.bounds d hd; omega) hs' ha keeps_nil

end Verif.Rank
