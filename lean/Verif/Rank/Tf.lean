import Verif.Rank.Wand
import Verif.Rank.TfModel
/-
  The hopper for the documents with a term.
-/
namespace Verif.Rank
open Verif.Hopper

/-- the documents of `C` at the start of which `T` has a solution, with its value as a number -/
def withTf (num : Int → Int) (T C : GC) : GC := fun r =>
  ∃ t c, T t ∧ C c ∧ c.p = t.p ∧ r = ⟨c.p, c.q, num t.v⟩

/-- the first document ending at or after `k` comes first among those starting where it does -/
theorem rho_via {S SC : GC} (sub : ∀ a, S a → ∃ c, SC c ∧ c.p = a.p ∧ c.q = a.q) (wC : Wf SC) {k : Int} {d x : Ann}
    (h : RhoSpec SC k d) (g : TauSpec S d.p x) : RhoSpec S k x := by
  rcases h with ⟨h1, rfl⟩ | ⟨h1, h2, h3, h4⟩ | ⟨h1, h2, rfl⟩
  · rcases g with ⟨_, rfl⟩ | ⟨g1, _⟩ | ⟨g1, _⟩
    · exact .inl ⟨h1, rfl⟩
    · exact absurd rfl g1
    · exact absurd rfl g1
  · have := wC.lo h2
    rcases g with ⟨g1, _⟩ | ⟨g1, g2, g3, g4⟩ | ⟨g1, g2, rfl⟩
    · omega
    · obtain ⟨c, hc, e1, e2⟩ := sub x g2
      have hq : d.q ≤ c.q := by
        rcases Int.lt_or_le d.p c.p with l | l
        · have := wC.mono h2 hc l; omega
        · rw [wC.uniq h2 hc (by omega)]; omega
      refine .inr (.inl ⟨h1, g2, by omega, ?_⟩)
      intro y hy hk
      obtain ⟨c', hc', e1', e2'⟩ := sub y hy
      have h5 := h4 c' hc' (by omega)
      have h6 : d.p ≤ c'.p := by
        rcases Int.lt_or_le c'.p d.p with l | l
        · have := wC.mono hc' h2 l; omega
        · exact l
      have h7 := g4 y hy (by omega)
      rcases Int.lt_or_le c.p c'.p with l | l
      · have := wC.mono hc hc' l; omega
      · have := wC.uniq hc hc' (by omega)
        subst this; omega
    · refine .inr (.inr ⟨h1, ?_, rfl⟩)
      intro y hy
      obtain ⟨c', hc', e1', e2'⟩ := sub y hy
      have h6 := g2 y hy
      have := wC.mono hc' h2 (by omega)
      rcases Int.lt_or_le c'.q k with l | l
      · omega
      · have := h4 c' hc' l; omega
  · rcases g with ⟨g1, _⟩ | ⟨g1, g2, g3, g4⟩ | ⟨g1, g2, rfl⟩
    · exact absurd g1 (by decide)
    · obtain ⟨c, hc, e1, e2⟩ := sub x g2
      have g3 : maxfinity ≤ x.p := g3
      have := wC.hi hc; have := wC.le hc; omega
    · refine .inr (.inr ⟨h1, ?_, rfl⟩)
      intro y hy
      obtain ⟨c', hc', e1', e2'⟩ := sub y hy
      have := h2 c' hc'
      omega

section
variable {num : Int → Int} {T C : Obj} {IT : T.σ → Prop} {IC : C.σ → Prop} {ST SC : GC}

theorem withTf_wf (wT : Wf ST) (wC : Wf SC) : Wf (withTf num ST SC) := by
  refine ⟨?_, ?_, ?_, ?_, ?_⟩
  · rintro _ ⟨t, c, ht, hc, e, rfl⟩; have := wC.lo hc; exact this
  · rintro _ ⟨t, c, ht, hc, e, rfl⟩; have := wC.hi hc; exact this
  · rintro _ ⟨t, c, ht, hc, e, rfl⟩; have := wC.le hc; exact this
  · rintro _ _ ⟨t, c, ht, hc, e, rfl⟩ ⟨t', c', ht', hc', e', rfl⟩ h; have := wC.mono hc hc' h; exact this
  · rintro _ _ ⟨t, c, ht, hc, e, rfl⟩ ⟨t', c', ht', hc', e', rfl⟩ h
    have h : c.p = c'.p := h
    cases wC.uniq hc hc' h
    cases wT.uniq ht ht' (by omega)
    rfl

variable (h0 : num 0 = 0) (wT : Wf ST) (wC : Wf SC) (starts : ∀ t, ST t → ∃ c, SC c ∧ c.p = t.p)
include h0 wT wC starts

theorem tf_tau {k : Int} {t c : Ann} (h : TauSpec ST k t) (g : TauSpec SC t.p c) :
    TauSpec (withTf num ST SC) k ⟨c.p, c.q, num t.v⟩ := by
  rcases h with ⟨h1, rfl⟩ | ⟨h1, h2, h3, h4⟩ | ⟨h1, h2, rfl⟩
  · rcases g with ⟨_, rfl⟩ | ⟨g1, _⟩ | ⟨g1, _⟩
    · exact .inl ⟨h1, by simp [h0]⟩
    · exact absurd rfl g1
    · exact absurd rfl g1
  · obtain ⟨d, hd, e⟩ := starts t h2
    have := wT.lo h2
    rcases g with ⟨g1, _⟩ | ⟨g1, g2, g3, g4⟩ | ⟨g1, g2, _⟩
    · omega
    · have := g4 d hd (by omega)
      refine .inr (.inl ⟨h1, ⟨t, c, h2, g2, by omega, rfl⟩, by show k ≤ c.p; omega, ?_⟩)
      rintro _ ⟨t', c', ht, hc, e', rfl⟩ hk
      have hk : k ≤ c'.p := hk
      show c.p ≤ c'.p
      have := h4 t' ht (by omega)
      omega
    · have := g2 d hd; omega
  · rcases g with ⟨g1, _⟩ | ⟨g1, g2, g3, g4⟩ | ⟨g1, g2, rfl⟩
    · exact absurd g1 (by decide)
    · have g3 : maxfinity ≤ c.p := g3
      have := wC.hi g2; have := wC.le g2; omega
    · refine .inr (.inr ⟨h1, ?_, by simp [h0]⟩)
      rintro _ ⟨t', c', ht, hc, e', rfl⟩
      have := h2 t' ht
      show c'.p < k; omega

theorem tf_ohr {k : Int} {t c : Ann} (h : OhrSpec ST k t) (g : OhrSpec SC t.p c) :
    OhrSpec (withTf num ST SC) k ⟨c.p, c.q, num t.v⟩ := by
  rcases h with ⟨h1, rfl⟩ | ⟨h1, h2, h3, h4⟩ | ⟨h1, h2, rfl⟩
  · rcases g with ⟨_, rfl⟩ | ⟨g1, _⟩ | ⟨g1, _⟩
    · exact .inl ⟨h1, by simp [h0]⟩
    · exact absurd rfl g1
    · exact absurd rfl g1
  · obtain ⟨d, hd, e⟩ := starts t h2
    have := wT.hi h2; have := wT.le h2
    rcases g with ⟨g1, _⟩ | ⟨g1, g2, g3, g4⟩ | ⟨g1, g2, _⟩
    · omega
    · have := g4 d hd (by omega)
      refine .inr (.inl ⟨h1, ⟨t, c, h2, g2, by omega, rfl⟩, by show c.p ≤ k; omega, ?_⟩)
      rintro _ ⟨t', c', ht, hc, e', rfl⟩ hk
      have hk : c'.p ≤ k := hk
      show c'.p ≤ c.p
      have := h4 t' ht (by omega)
      omega
    · have := g2 d hd; omega
  · rcases g with ⟨g1, _⟩ | ⟨g1, g2, g3, g4⟩ | ⟨g1, g2, rfl⟩
    · exact absurd g1 (by decide)
    · have g3 : c.p ≤ minfinity := g3
      have := wC.lo g2; omega
    · refine .inr (.inr ⟨h1, ?_, by simp [h0]⟩)
      rintro _ ⟨t', c', ht, hc, e', rfl⟩
      have := h2 t' ht
      show k < c'.p; omega

omit h0 starts wT in
theorem tf_uat {k : Int} {d x : Ann} (h : UatSpec SC k d) (g : OhrSpec (withTf num ST SC) d.p x) :
    UatSpec (withTf num ST SC) k x := by
  rcases h with ⟨h1, rfl⟩ | ⟨h1, h2, h3, h4⟩ | ⟨h1, h2, rfl⟩
  · rcases g with ⟨_, rfl⟩ | ⟨g1, _⟩ | ⟨g1, _⟩
    · exact .inl ⟨h1, rfl⟩
    · exact absurd rfl g1
    · exact absurd rfl g1
  · have := wC.hi h2; have := wC.le h2
    rcases g with ⟨g1, _⟩ | ⟨g1, ⟨t, c, ht, hc, e, rfl⟩, g3, g4⟩ | ⟨g1, g2, rfl⟩
    · omega
    · have g3 : c.p ≤ d.p := g3
      have hq : c.q ≤ d.q := by
        rcases Int.lt_or_le c.p d.p with l | l
        · have := wC.mono hc h2 l; omega
        · rw [wC.uniq h2 hc (by omega)]; omega
      refine .inr (.inl ⟨h1, ⟨t, c, ht, hc, e, rfl⟩, by show c.q ≤ k; omega, ?_⟩)
      rintro _ ⟨t', c', ht', hc', e', rfl⟩ hk
      have hk : c'.q ≤ k := hk
      have h5 := h4 c' hc' hk
      have h6 : c'.p ≤ d.p := by
        rcases Int.lt_or_le d.p c'.p with l | l
        · have := wC.mono h2 hc' l; omega
        · exact l
      have h7 : c'.p ≤ c.p := g4 ⟨c'.p, c'.q, num t'.v⟩ ⟨t', c', ht', hc', e', rfl⟩ h6
      show c'.q ≤ c.q
      rcases Int.lt_or_le c'.p c.p with l | l
      · have := wC.mono hc' hc l; omega
      · rw [wC.uniq hc hc' (by omega)]; omega
    · refine .inr (.inr ⟨h1, ?_, rfl⟩)
      rintro _ ⟨t', c', ht', hc', e', rfl⟩
      have h6 : d.p < c'.p := g2 ⟨c'.p, c'.q, num t'.v⟩ ⟨t', c', ht', hc', e', rfl⟩
      show k < c'.q
      have := wC.mono h2 hc' h6
      rcases Int.lt_or_le k c'.q with l | l
      · exact l
      · have := h4 c' hc' l; omega
  · rcases g with ⟨g1, _⟩ | ⟨g1, ⟨t, c, ht, hc, e, rfl⟩, g3, g4⟩ | ⟨g1, g2, rfl⟩
    · exact absurd g1 (by decide)
    · have g3 : c.p ≤ minfinity := g3
      have := wC.lo hc; omega
    · refine .inr (.inr ⟨h1, ?_, rfl⟩)
      rintro _ ⟨t', c', ht', hc', e', rfl⟩
      exact h2 c' hc'

/-- `TfHopper` answers as the list of the documents with the term does -/
theorem tf_impl (hT : Impl T IT ST) (hC : Impl C IC SC) :
    Impl (tfObj num T C) (NInv (withTf num ST SC) (PInv IT IC)) (withTf num ST SC) := by
  have t : ∀ k, InRange k → Ok (NInv (withTf num ST SC) (PInv IT IC)) (tfTau num T C k) (TauSpec (withTf num ST SC) k) := by
    intro k hk
    exact .bind (Ok.onL (hT.tau k hk)) fun t ht => .bind (Ok.onR (hC.tau t.p (ht.range wT).1)) fun c hc =>
      Ok.pure (tf_tau h0 wT wC starts ht hc)
  have o : ∀ k, InRange k → Ok (NInv (withTf num ST SC) (PInv IT IC)) (tfOhr num T C k) (OhrSpec (withTf num ST SC) k) := by
    intro k hk
    exact .bind (Ok.onL (hT.ohr k hk)) fun t ht => .bind (Ok.onR (hC.ohr t.p (ht.range wT).1)) fun c hc =>
      Ok.pure (tf_ohr h0 wT wC starts ht hc)
  have u : ∀ k, InRange k → Ok (NInv (withTf num ST SC) (PInv IT IC)) (tfUat num T C k) (UatSpec (withTf num ST SC) k) := by
    intro k hk
    exact .bind (Ok.onR (hC.uat k hk)) fun d hd => (o d.p (hd.range wC).1).mono fun x hx => tf_uat wC hd hx
  refine ⟨⟨memoOk_init _, hT.init, hC.init⟩, fun k hk => Ok.memoTau (t k hk), fun k hk => Ok.memoRho ?_,
    fun k hk => Ok.memoUat (u k hk), fun k hk => Ok.memoOhr (o k hk),
    fun k hk => (Ok.memoUat (u k hk)).defaultL, fun k hk => (Ok.memoTau (t k hk)).defaultR⟩
  exact .bind (Ok.onR (hC.rho k hk)) fun d hd => (t d.p (hd.range wC).1).mono fun x hx =>
    rho_via (fun a ⟨t, c, _, hc, _, e⟩ => ⟨c, hc, by rw [e], by rw [e]⟩) wC hd hx

end

/-! ### over several fields -/

/-- the documents of `C` with the term in some field, with the weighted sum of the frequencies -/
def inFields (enc : Rat → Int) (fields : List Term) (C : GC) : GC := fun r =>
  ∃ c, C c ∧ occurs fields c = true ∧ r = ⟨c.p, c.q, enc (docScore (fun w v _ => w * v) fields c)⟩

theorem of_occurs {fields : List Term} {c : Ann} (h : occurs fields c = true) :
    ∃ t ∈ fields, ∃ b ∈ t.docs, b.p = c.p := by
  unfold occurs at h
  obtain ⟨t, ht, h⟩ := List.any_eq_true.1 h
  obtain ⟨b, hb, h⟩ := List.any_eq_true.1 h
  exact ⟨t, ht, b, hb, by simpa using h⟩

theorem to_occurs {fields : List Term} {c b : Ann} {t : Term} (ht : t ∈ fields) (hb : b ∈ t.docs) (e : b.p = c.p) :
    occurs fields c = true :=
  List.any_eq_true.2 ⟨t, ht, List.any_eq_true.2 ⟨b, hb, by simpa using e⟩⟩

section
variable {enc : Rat → Int} {fs : List (Rat × Obj)} {C : Obj} {IC : C.σ → Prop} {SC : GC} {fields : List Term}

/-- a field as the program has it -/
def IsField (f : Rat × Obj) (t : Term) : Prop := f.1 = t.weight ∧ Listing t.docs ∧ ∃ I, Walks f.2 I (ofList t.docs)

/-- the states of the fields' hoppers are good -/
def GoodSts : (fs : List (Rat × Obj)) → List Term → Sts fs → Prop
  | [], [], _ => True
  | f :: fs, t :: ts, (s, ss) => (∃ I : f.2.σ → Prop, Walks f.2 I (ofList t.docs) ∧ I s) ∧ GoodSts fs ts ss
  | _, _, _ => False

theorem sts_init : ∀ {fs : List (Rat × Obj)} {ts : List Term}, Both IsField fs ts → GoodSts fs ts (Sts.init fs)
  | _, _, .nil => trivial
  | _, _, .cons ⟨_, _, I, h⟩ hs => ⟨⟨I, h, h.init⟩, sts_init hs⟩

theorem ask_ok {k : Int} (hk : InRange k) : ∀ {fs : List (Rat × Obj)} {ts : List Term}, Both IsField fs ts →
    ∀ ss : Sts fs, GoodSts fs ts ss → ∃ as ss', askAll (fun H => H.tau) k fs ss = some (as, ss') ∧ GoodSts fs ts ss' ∧
      Both (fun a t => a.1 = t.weight ∧ Listing t.docs ∧ TauSpec (ofList t.docs) k a.2) as ts
  | _, _, .nil, (), _ => ⟨[], (), rfl, trivial, .nil⟩
  | _, _, .cons ⟨h1, h2, _⟩ hs, (s, ss), ⟨⟨I, hI, g⟩, gs⟩ => by
    obtain ⟨a, s', e, g', ha⟩ := hI.tau k hk s g
    obtain ⟨as, ss', e', gs', has⟩ := ask_ok hk hs ss gs
    exact ⟨_, (s', ss'), by simp only [askAll, e, e']; rfl, ⟨⟨I, hI, g'⟩, gs'⟩, .cons ⟨h1, h2, ha⟩ has⟩

variable (h0 : enc 0 = 0) (wC : Wf SC)
include wC

theorem inFields_wf : Wf (inFields enc fields SC) := by
  refine ⟨?_, ?_, ?_, ?_, ?_⟩
  · rintro _ ⟨c, hc, _, rfl⟩; have := wC.lo hc; exact this
  · rintro _ ⟨c, hc, _, rfl⟩; have := wC.hi hc; exact this
  · rintro _ ⟨c, hc, _, rfl⟩; have := wC.le hc; exact this
  · rintro _ _ ⟨c, hc, _, rfl⟩ ⟨c', hc', _, rfl⟩ h; have := wC.mono hc hc' h; exact this
  · rintro _ _ ⟨c, hc, _, rfl⟩ ⟨c', hc', _, rfl⟩ h
    have h : c.p = c'.p := h
    cases wC.uniq hc hc' h
    rfl

omit wC in
/-- where the fields stand together -/
theorem fields_min {k : Int} (hk : InRange k) {as : List (Rat × Ann)} {ts : List Term}
    (h : Both (fun a t => a.1 = t.weight ∧ Listing t.docs ∧ TauSpec (ofList t.docs) k a.2) as ts) :
    k ≤ (as.map fun a => a.2.p).foldr min maxfinity ∧ (as.map fun a => a.2.p).foldr min maxfinity ≤ maxfinity ∧
      (∀ t ∈ ts, ∀ a ∈ t.docs, k ≤ a.p → (as.map fun a => a.2.p).foldr min maxfinity ≤ a.p) ∧
      ((as.map fun a => a.2.p).foldr min maxfinity < maxfinity → k ≠ minfinity →
        ∃ t ∈ ts, ∃ a ∈ t.docs, a.p = (as.map fun a => a.2.p).foldr min maxfinity) := by
  induction h with
  | nil => exact ⟨by simp; omega, by simp, by simp, by simp⟩
  | @cons a t _ _ h1 _ ih =>
    obtain ⟨i1, i2, i3, i4⟩ := ih
    obtain ⟨_, hl, h⟩ := h1
    simp only [List.map_cons, List.foldr_cons]
    generalize (List.map _ _).foldr min maxfinity = m at *
    have key : k ≤ a.2.p ∧ (∀ b ∈ t.docs, k ≤ b.p → a.2.p ≤ b.p) ∧ (a.2.p < maxfinity → k ≠ minfinity → a.2 ∈ t.docs) := by
      rcases h with ⟨g1, e⟩ | ⟨_, g2, g3, g4⟩ | ⟨_, g2, e⟩
      · rw [e]; refine ⟨by simp [g1], fun b hb h => ?_, fun _ h => absurd g1 h⟩
        have := (hl.bounds b hb).1
        show minfinity ≤ b.p; omega
      · exact ⟨g3, fun b hb hk => g4 b hb hk, fun _ _ => g2⟩
      · rw [e]; refine ⟨hk.2, fun b hb h => ?_, fun h => absurd h (by simp)⟩
        have := g2 b hb; omega
    obtain ⟨k1, k2, k3⟩ := key
    refine ⟨by omega, by omega, ?_, ?_⟩
    · intro t' ht b hb hk
      rcases List.mem_cons.1 ht with rfl | ht
      · have := k2 b hb hk; omega
      · have := i3 t' ht b hb hk; omega
    · intro hm hk
      by_cases hle : a.2.p ≤ m
      · exact ⟨t, List.mem_cons_self .., a.2, k3 (by omega) hk, by omega⟩
      · obtain ⟨t', ht, b, hb, e⟩ := i4 (by omega) hk
        exact ⟨t', List.mem_cons_of_mem _ ht, b, hb, by omega⟩

omit wC in
theorem fields_low {as : List (Rat × Ann)} {ts : List Term} (hne : ts ≠ [])
    (h : Both (fun a t => a.1 = t.weight ∧ Listing t.docs ∧ TauSpec (ofList t.docs) minfinity a.2) as ts) :
    (as.map fun a => a.2.p).foldr min maxfinity ≤ minfinity := by
  cases h with
  | nil => exact absurd rfl hne
  | @cons a t _ _ h1 _ =>
    simp only [List.map_cons, List.foldr_cons]
    obtain ⟨_, _, ⟨_, e⟩ | ⟨g, _⟩ | ⟨g, _⟩⟩ := h1
    · rw [e]; exact Int.min_le_left ..
    · exact absurd rfl g
    · exact absurd rfl g

omit wC in
/-- what the fields that stand at a document add up to -/
theorem fields_sum {k : Int} {as : List (Rat × Ann)} {ts : List Term} {c : Ann} (hc : k ≤ c.p) (h2 : c.p < maxfinity)
    (hmin : k ≠ minfinity)
    (hm : ∀ t ∈ ts, ∀ a ∈ t.docs, k ≤ a.p → c.p ≤ a.p)
    (h : Both (fun a t => a.1 = t.weight ∧ Listing t.docs ∧ TauSpec (ofList t.docs) k a.2) as ts) :
    fieldSum c.p as = docScore (fun w v _ => w * v) ts c := by
  unfold fieldSum docScore
  induction h with
  | nil => rfl
  | @cons a t _ _ h1 _ ih =>
    simp only [List.map_cons, tot, List.foldr_cons]
    have ih := ih fun t ht => hm t (List.mem_cons_of_mem _ ht)
    simp only [tot] at ih
    rw [ih]
    congr 1
    obtain ⟨w, hl, h⟩ := h1
    have hm := hm t (List.mem_cons_self ..)
    rw [w]
    unfold share
    rcases h with ⟨g1, e⟩ | ⟨_, g2, g3, g4⟩ | ⟨_, g2, e⟩
    · exact absurd g1 hmin
    · have := hm a.2 g2 g3
      by_cases e : a.2.p = c.p
      · have : t.docs.find? (fun b => b.p == c.p) = some a.2 := by
          rcases hf : t.docs.find? (fun b => b.p == c.p) with _ | b
          · have := List.find?_eq_none.1 hf a.2 g2
            simp [e] at this
          · have hb := List.mem_of_find?_eq_some hf
            have hp := List.find?_some hf
            simp only [beq_iff_eq] at hp
            have := hl.wf.uniq (a := b) (b := a.2) hb g2 (by omega)
            rw [hf, this]
        simp only [e, if_true, this]
      · have : t.docs.find? (fun b => b.p == c.p) = none := by
          rw [List.find?_eq_none]
          intro b hb hp
          simp only [beq_iff_eq] at hp
          have := g4 b hb (by omega)
          omega
        simp only [e, if_false, this]
    · have : t.docs.find? (fun b => b.p == c.p) = none := by
        rw [List.find?_eq_none]
        intro b hb hp
        simp only [beq_iff_eq] at hp
        have := g2 b hb
        omega
      rw [e, this, if_neg (by show maxfinity ≠ c.p; omega)]

omit wC in
theorem sum_zero {p : Int} {as : List (Rat × Ann)} (h : ∀ a ∈ as, a.2.p = p → a.2.v = 0) : fieldSum p as = 0 := by
  unfold fieldSum
  induction as with
  | nil => rfl
  | cons a as ih =>
    have h1 := h a (List.mem_cons_self ..)
    have ih := ih fun b hb => h b (List.mem_cons_of_mem _ hb)
    simp only [List.map_cons, tot, List.foldr_cons] at ih ⊢
    rw [ih]
    split
    · rename_i e; rw [h1 e]; grind
    · grind

include h0
theorem fieldTau_ok (hne : fields ≠ []) {IC : C.σ → Prop} (hC : Impl C IC SC) (hf : Both IsField fs fields)
    (starts : ∀ t ∈ fields, ∀ a ∈ t.docs, ∃ c, SC c ∧ c.p = a.p) (k : Int) (hk : InRange k) :
    Ok (NInv (inFields enc fields SC) (PInv (GoodSts fs fields) IC)) (fieldTau enc fs C k) (TauSpec (inFields enc fields SC) k) := by
  unfold fieldTau
  refine .bind (Ok.onL (fun ss hs => ask_ok hk hf ss hs)) fun as has => ?_
  obtain ⟨m1, m2, m3, m4⟩ := fields_min hk has
  have hsum := fun (c : Ann) (a1 : k ≤ c.p) a2 a3 a4 => fields_sum (c := c) a1 a2 a3 a4 has
  have hz : ∀ p, (k = minfinity ∨ p = maxfinity) → fieldSum p as = 0 := by
    intro p hp
    refine sum_zero fun a ha e => ?_
    have : ∃ t ∈ fields, TauSpec (ofList t.docs) k a.2 ∧ Listing t.docs := by
      clear hsum m1 m2 m3 m4 starts hf hne
      induction has with
      | nil => simp at ha
      | cons h1 _ ih =>
        rcases List.mem_cons.1 ha with rfl | ha
        · exact ⟨_, List.mem_cons_self .., h1.2.2, h1.2.1⟩
        · obtain ⟨t, ht, h⟩ := ih ha
          exact ⟨t, List.mem_cons_of_mem _ ht, h⟩
    obtain ⟨t, _, h | ⟨g1, g2, _⟩ | ⟨_, _, h⟩, hl⟩ := this
    · rw [h.2]
    · rcases hp with hp | hp
      · exact absurd hp g1
      · have := hl.bounds _ g2; omega
    · rw [h]
  have hlow : k = minfinity → (as.map fun a => a.2.p).foldr min maxfinity ≤ minfinity := by
    intro e; subst e; exact fields_low hne has
  dsimp only
  generalize (as.map fun a => a.2.p).foldr min maxfinity = m at *
  refine .bind (Ok.onR (hC.tau m ⟨by omega, m2⟩)) fun c hc => Ok.pure ?_
  by_cases hmin : k = minfinity
  · subst hmin
    have hm : m = minfinity := by have := hlow rfl; omega
    rcases hc with ⟨_, rfl⟩ | ⟨g, _⟩ | ⟨g, _⟩
    · exact .inl ⟨rfl, by rw [hz _ (.inl rfl), h0]⟩
    · exact absurd hm g
    · exact absurd hm g
  by_cases hm : m = maxfinity
  · rw [hz _ (.inr hm), h0]
    have hend : c = highEnd := by
      rcases hc with ⟨g, _⟩ | ⟨_, g2, g3, _⟩ | ⟨_, _, e⟩
      · omega
      · have := wC.hi g2; have := wC.le g2; omega
      · exact e
    subst hend
    refine .inr (.inr ⟨hmin, ?_, rfl⟩)
    rintro _ ⟨c, hc, ho, rfl⟩
    show c.p < k
    obtain ⟨t, ht, b, hb, e⟩ := of_occurs ho
    have := wC.hi hc; have := wC.le hc
    rcases Int.lt_or_le c.p k with l | l
    · exact l
    · have := m3 t ht b hb (by omega); omega
  · obtain ⟨t, ht, b, hb, e⟩ := m4 (by omega) hmin
    obtain ⟨d, hd, e'⟩ := starts t ht b hb
    have hcm : SC c ∧ c.p = m := by
      rcases hc with ⟨g, _⟩ | ⟨_, g2, g3, g4⟩ | ⟨_, g2, _⟩
      · have := wC.lo hd; omega
      · have := g4 d hd (by omega); exact ⟨g2, by omega⟩
      · have := g2 d hd; omega
    obtain ⟨hcc, rfl⟩ := hcm
    have hs := hsum c m1 (by omega) hmin m3
    refine .inr (.inl ⟨hmin, ⟨c, hcc, to_occurs ht hb e, by rw [hs]⟩, m1, ?_⟩)
    rintro _ ⟨c', hc', ho, rfl⟩ hk'
    have hk' : k ≤ c'.p := hk'
    show c.p ≤ c'.p
    obtain ⟨t, ht, b, hb, e⟩ := of_occurs ho
    have := m3 t ht b hb (by omega); omega

/-- `TfHopper` over fields: `tau` (and `rho`) answer as the list of the documents with the term in some
field does -/
theorem field_walks (hne : fields ≠ []) {IC : C.σ → Prop} (hC : Impl C IC SC) (hf : Both IsField fs fields)
    (starts : ∀ t ∈ fields, ∀ a ∈ t.docs, ∃ c, SC c ∧ c.p = a.p) :
    Walks (fieldObj enc fs C) (NInv (inFields enc fields SC) (PInv (GoodSts fs fields) IC)) (inFields enc fields SC) ∧
      ∀ k, InRange k → Ok (NInv (inFields enc fields SC) (PInv (GoodSts fs fields) IC)) ((fieldObj enc fs C).rho k)
        (RhoSpec (inFields enc fields SC) k) := by
  have t := fieldTau_ok (enc := enc) h0 wC hne hC hf starts
  refine ⟨⟨⟨memoOk_init _, sts_init hf, hC.init⟩, fun k hk => Ok.memoTau (t k hk)⟩, fun k hk => Ok.memoRho ?_⟩
  refine .bind (Ok.onR (hC.rho k hk)) fun d hd => (Ok.memoTau (t d.p (hd.range wC).1)).mono fun x hx => ?_
  exact rho_via (fun a ⟨c, hc, _, e⟩ => ⟨c, hc, by rw [e], by rw [e]⟩) wC hd hx
end

end Verif.Rank
