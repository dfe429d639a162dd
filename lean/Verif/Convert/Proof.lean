/-
Lemmas for Verif/Props/Convert.lean.
-/
import Verif.Convert.Model
import Verif.Sanitize.Proof
namespace Verif.Convert
open Verif.Txn Verif.Sanitize Verif.Props

theorem fname_ext {a b : FName} (h1 : a.kind = b.kind) (h2 : a.lo = b.lo) (h3 : a.hi = b.hi) : a = b := by
  cases a; cases b; simp only at h1 h2 h3; subst h1 h2 h3; rfl

/-! ### Directories -/

theorem after_append (dir : List FName) (a b : List FileOp) : after dir (a ++ b) = after (after dir a) b := by
  unfold after; rw [List.foldl_append]

theorem mem_creates : ∀ (l dir : List FName) (x : FName), x ∈ after dir (l.map .create) ↔ x ∈ dir ∨ x ∈ l
  | [], dir, x => by simp [after]
  | f :: l, dir, x => by
    have ih := mem_creates l (FileOp.apply dir (.create f)) x
    have : after dir ((f :: l).map .create) = after (FileOp.apply dir (.create f)) (l.map .create) := rfl
    rw [this, ih]
    unfold FileOp.apply
    dsimp only
    split
    · rename_i h
      simp only [List.mem_cons]
      constructor
      · rintro (h | h)
        · exact .inl h
        · exact .inr (.inr h)
      · rintro (h' | rfl | h')
        · exact .inl h'
        · exact .inl h
        · exact .inr h'
    · simp only [List.mem_append, List.mem_cons, List.not_mem_nil, or_false]
      exact or_assoc

theorem mem_removes : ∀ (l dir : List FName) (x : FName), x ∈ after dir (l.map .remove) ↔ x ∈ dir ∧ x ∉ l
  | [], dir, x => by simp [after]
  | f :: l, dir, x => by
    have ih := mem_removes l (FileOp.apply dir (.remove f)) x
    have : after dir ((f :: l).map .remove) = after (FileOp.apply dir (.remove f)) (l.map .remove) := rfl
    rw [this, ih]
    unfold FileOp.apply
    simp only [List.mem_filter, decide_eq_true_eq, List.mem_cons, not_or]
    exact and_assoc

theorem nodup_after : ∀ (ops : List FileOp) {dir : List FName}, dir.Nodup → (after dir ops).Nodup
  | [], _, h => h
  | op :: ops, dir, h => by
    refine nodup_after ops (dir := FileOp.apply dir op) ?_
    cases op with
    | create f =>
      unfold FileOp.apply
      dsimp only
      split
      · exact h
      · rename_i hf
        rw [List.nodup_append]
        refine ⟨h, by simp, fun a ha b hb => ?_⟩
        rw [List.mem_singleton] at hb
        subst hb
        exact fun e => hf (e ▸ ha)
    | remove f => exact h.filter _

/-- operations on static shards leave the others -/
def OnHazels (ops : List FileOp) : Prop := ∀ op ∈ ops, ∃ f : FName, f.kind = .hazel ∧ (op = .create f ∨ op = .remove f)

theorem ofKind_after : ∀ (ops : List FileOp) {dir : List FName} {k : FKind}, k ≠ .hazel → OnHazels ops →
    ofKind k (after dir ops) = ofKind k dir
  | [], _, _, _, _ => rfl
  | op :: ops, dir, k, hk, h => by
    have := ofKind_after ops (dir := FileOp.apply dir op) hk fun x hx => h x (List.mem_cons_of_mem _ hx)
    refine this.trans ?_
    obtain ⟨f, hf, e⟩ := h op (List.mem_cons_self ..)
    unfold ofKind
    rcases e with rfl | rfl
    · unfold FileOp.apply
      dsimp only
      split
      · rfl
      · rw [List.filter_append]
        have : [f].filter (fun f => decide (f.kind = k)) = [] := by
          rw [List.filter_cons_of_neg]
          · rfl
          · rw [hf]; simpa using fun e => hk e.symm
        rw [this, List.append_nil]
    · unfold FileOp.apply
      dsimp only
      rw [List.filter_filter]
      apply List.filter_congr
      intro x _
      by_cases hx : x.kind = k
      · have : x ≠ f := fun e => hk (by rw [← hx, e, hf])
        simp [hx, this]
      · simp [hx]

theorem mem_ofKind {k : FKind} {dir : List FName} {x : FName} : x ∈ ofKind k dir ↔ x ∈ dir ∧ x.kind = k := by
  unfold ofKind; simp

/-! ### Sorting -/

theorem shorter_iff {a b : FName} : shorter a b = true ↔ a.lo < b.lo ∨ (a.lo = b.lo ∧ a.hi ≤ b.hi) := by
  simp [shorter]

theorem mem_hazelFiles {dir : List FName} {x : FName} : x ∈ hazelFiles dir ↔ x ∈ dir ∧ x.kind = .hazel := by
  unfold hazelFiles
  rw [(sort_perm shorter _).mem_iff, mem_ofKind]

theorem hazelFiles_nodup {dir : List FName} (h : dir.Nodup) : (hazelFiles dir).Nodup := by
  unfold hazelFiles
  exact (sort_perm shorter _).nodup_iff.2 (h.filter _)

theorem hazelFiles_sorted (dir : List FName) : (hazelFiles dir).Pairwise fun a b => shorter a b = true :=
  sort_sorted (fun a b => by rw [shorter_iff, shorter_iff]; omega)
    (fun a b c h1 h2 => by rw [shorter_iff] at *; omega) _

/-- two sorted lists with the same static shards are the same -/
theorem sorted_same {l l' : List FName} (hk : ∀ x ∈ l, x.kind = .hazel)
    (n : l.Nodup) (n' : l'.Nodup) (h : l.Pairwise fun a b => shorter a b = true)
    (h' : l'.Pairwise fun a b => shorter a b = true) (hm : ∀ x, x ∈ l ↔ x ∈ l') : l = l' := by
  refine List.Perm.eq_of_pairwise ?_ h h' ((List.perm_ext_iff_of_nodup n n').2 hm)
  intro a b ha hb h1 h2
  rw [shorter_iff] at h1 h2
  exact fname_ext ((hk a ha).trans (hk b ((hm b).2 hb)).symm) (by omega) (by omega)

/-! ### Living fivers -/

theorem livingLoop_eq : ∀ (l living dead : List FName),
    livingLoop l living = (normalizeLoop l living dead).map Prod.fst
  | [], [], _ => rfl
  | [], _ :: _, _ => rfl
  | s :: l, [], dead => livingLoop_eq l [s] dead
  | s :: l, b :: living, dead => by
    unfold livingLoop normalizeLoop
    split
    · exact livingLoop_eq l _ dead
    · split
      · exact livingLoop_eq l _ _
      · rfl

theorem living_some {dir L : List FName} (h : livingFivers dir = some L) :
    (∀ a ∈ L, a ∈ dir ∧ a.kind = .fiver) ∧ L.Pairwise (fun a b => a.hi < b.lo) ∧
    ∀ a ∈ dir, a.kind = .fiver → ∃ b ∈ L, b.lo ≤ a.lo ∧ a.hi ≤ b.hi := by
  unfold livingFivers at h
  rw [livingLoop_eq _ [] [], Option.map_eq_some_iff] at h
  obtain ⟨⟨L', D⟩, e, rfl⟩ := h
  obtain ⟨h1, h2, h3⟩ := normalizeLoop_some ⟨sort_sorted before_total before_trans _, by simp, by simp, by simp⟩ e
  have hp : (L' ++ D).Perm (ofKind .fiver dir) := h1.trans (by simpa using sort_perm before _)
  refine ⟨fun a ha => mem_ofKind.1 (hp.mem_iff.1 (List.mem_append_left _ ha)), h2, fun a ha hk => ?_⟩
  rcases List.mem_append.1 (hp.mem_iff.2 (mem_ofKind.2 ⟨ha, hk⟩)) with h | h
  · exact ⟨a, h, by omega, by omega⟩
  · exact h3 a h

theorem living_none {dir : List FName} (h : livingFivers dir = none) :
    ∃ a ∈ dir, ∃ b ∈ dir, a.kind = .fiver ∧ b.kind = .fiver ∧ a.lo < b.lo ∧ b.lo ≤ a.hi ∧ a.hi < b.hi := by
  unfold livingFivers at h
  rw [livingLoop_eq _ [] [], Option.map_eq_none_iff] at h
  obtain ⟨a, ha, b, hb, h1, h2, h3, _⟩ :=
    normalizeLoop_none ⟨sort_sorted before_total before_trans _, by simp, by simp, by simp⟩ h
  rw [List.nil_append] at ha
  have ha := mem_ofKind.1 ((sort_perm before _).mem_iff.1 ha)
  have hb := mem_ofKind.1 ((sort_perm before _).mem_iff.1 hb)
  exact ⟨a, ha.1, b, hb.1, ha.2, hb.2, h1, h2, h3⟩

/-! ### Runs of shards -/

theorem Covers.append : ∀ {A : List FName} {lo m hi : Nat} {B : List FName}, Covers lo m A → Covers (m + 1) hi B → Covers lo hi (A ++ B)
  | [], _, _, _, _, h, _ => h.elim
  | [a], lo, m, hi, B, h, h' => by
    cases B with
    | nil => exact h'.elim
    | cons b B => exact ⟨h.1, by rw [h.2]; exact h'⟩
  | a :: a' :: A, lo, m, hi, B, h, h' => ⟨h.1, Covers.append h.2 h'⟩

/-- a run in which each shard is replaced by a run -/
theorem Covers.refine {Q : FName → Prop} : ∀ {P : List FName} {lo hi : Nat}, Covers lo hi P →
    (∀ p ∈ P, ∃ R, Covers p.lo p.hi R ∧ ∀ r ∈ R, Q r) → ∃ R, Covers lo hi R ∧ ∀ r ∈ R, Q r
  | [], _, _, h, _ => h.elim
  | [a], lo, hi, h, hq => by
    obtain ⟨R, h1, h2⟩ := hq a (by simp)
    rw [h.1, h.2] at h1
    exact ⟨R, h1, h2⟩
  | a :: b :: P, lo, hi, h, hq => by
    obtain ⟨R, h1, h2⟩ := hq a (by simp)
    obtain ⟨R', h3, h4⟩ := Covers.refine h.2 fun p hp => hq p (List.mem_cons_of_mem _ hp)
    rw [h.1] at h1
    refine ⟨R ++ R', Covers.append h1 h3, fun r hr => ?_⟩
    rcases List.mem_append.1 hr with hr | hr
    · exact h2 r hr
    · exact h4 r hr

/-- a shard of a run of two or more is shorter than the run -/
theorem Covers.short {P : List FName} {lo hi : Nat} (hr : ∀ a ∈ P, a.lo ≤ a.hi) (h : Covers lo hi P) (h2 : 2 ≤ P.length) :
    ∀ p ∈ P, lo ≤ p.lo ∧ p.hi ≤ hi ∧ p.hi - p.lo < hi - lo := by
  match P, h, h2 with
  | a :: b :: P, h, _ =>
    obtain ⟨e, h'⟩ := h
    have hb := h'.bounds fun x hx => hr x (List.mem_cons_of_mem _ hx)
    have ra := hr a (by simp)
    have rb := hr b (by simp)
    have := hb b (by simp)
    intro p hp
    rcases List.mem_cons.1 hp with rfl | hp
    · omega
    · have := hb p hp
      have := hr p (List.mem_cons_of_mem _ hp)
      omega

theorem contiguous_covers : ∀ {a : FName} {l : List FName}, contiguous (a :: l) = true →
    Covers a.lo ((a :: l).getLast (by simp)).hi (a :: l)
  | a, [], _ => ⟨rfl, rfl⟩
  | a, b :: l, h => by
    unfold contiguous at h
    rw [Bool.and_eq_true, decide_eq_true_eq] at h
    have := contiguous_covers h.2
    rw [List.getLast_cons (by simp)]
    refine ⟨rfl, ?_⟩
    rw [h.1]
    exact this

theorem contiguous_apart : ∀ {l : List FName}, (∀ a ∈ l, a.lo ≤ a.hi) → contiguous l = true → l.Pairwise fun a b => a.hi < b.lo
  | [], _, _ => .nil
  | [a], _, _ => by simp
  | a :: b :: l, hr, h => by
    unfold contiguous at h
    rw [Bool.and_eq_true, decide_eq_true_eq] at h
    have ih := contiguous_apart (fun x hx => hr x (List.mem_cons_of_mem _ hx)) h.2
    refine List.pairwise_cons.2 ⟨fun x hx => ?_, ih⟩
    have rb := hr b (by simp)
    rcases List.mem_cons.1 hx with rfl | hx
    · omega
    · have := (List.pairwise_cons.1 ih).1 x hx
      omega

/-! ### `covered_by_other_hazels` -/

/-- a shard that the inner loop looks at -/
def Fits (c : FName) (next : Nat) (h : FName) : Prop := h ≠ c ∧ h.lo = next ∧ h.hi ≤ c.hi

theorem longest_spec (c : FName) (next : Nat) : ∀ (l : List FName) (best : Option Nat),
    (longest c next l best = none → best = none ∧ ∀ h ∈ l, ¬ Fits c next h) ∧
    ∀ e, longest c next l best = some e → (best = some e ∨ ∃ h ∈ l, Fits c next h ∧ h.hi = e) ∧
      (∀ h ∈ l, Fits c next h → h.hi ≤ e) ∧ ∀ b, best = some b → b ≤ e
  | [], best => by
    refine ⟨fun h => ⟨h, by simp⟩, fun e h => ⟨.inl h, by simp, fun b hb => ?_⟩⟩
    unfold longest at h
    rw [h] at hb
    injection hb with hb
    omega
  | h :: l, best => by
    unfold longest
    by_cases hc : h = c ∨ h.lo ≠ next ∨ h.hi > c.hi
    · rw [if_pos hc]
      have hn : ¬ Fits c next h := by
        rintro ⟨f1, f2, f3⟩
        rcases hc with hc | hc | hc
        · exact f1 hc
        · exact hc f2
        · omega
      obtain ⟨i1, i2⟩ := longest_spec c next l best
      constructor
      · intro e
        refine ⟨(i1 e).1, fun x hx => ?_⟩
        rcases List.mem_cons.1 hx with rfl | hx
        · exact hn
        · exact (i1 e).2 x hx
      · intro e he
        obtain ⟨j1, j2, j3⟩ := i2 e he
        refine ⟨?_, fun x hx hf => ?_, j3⟩
        · rcases j1 with j | ⟨x, hx, j⟩
          · exact .inl j
          · exact .inr ⟨x, List.mem_cons_of_mem _ hx, j⟩
        · rcases List.mem_cons.1 hx with rfl | hx
          · exact absurd hf hn
          · exact j2 x hx hf
    · rw [if_neg hc]
      simp only [not_or, Decidable.not_not, Nat.not_lt] at hc
      have hfit : Fits c next h := ⟨hc.1, hc.2.1, hc.2.2⟩
      cases best with
      | none =>
        obtain ⟨i1, i2⟩ := longest_spec c next l (some h.hi)
        dsimp only
        refine ⟨fun e => absurd (i1 e).1 (by simp), fun e he => ?_⟩
        obtain ⟨j1, j2, j3⟩ := i2 e he
        refine ⟨.inr ?_, fun x hx hf => ?_, by simp⟩
        · rcases j1 with j | ⟨x, hx, j⟩
          · injection j with j
            exact ⟨h, by simp, hfit, j⟩
          · exact ⟨x, List.mem_cons_of_mem _ hx, j⟩
        · rcases List.mem_cons.1 hx with rfl | hx
          · exact j3 _ rfl
          · exact j2 x hx hf
      | some b =>
        dsimp only
        obtain ⟨i1, i2⟩ := longest_spec c next l (if h.hi > b then some h.hi else some b)
        refine ⟨fun e => absurd (i1 e).1 (by split <;> simp), fun e he => ?_⟩
        obtain ⟨j1, j2, j3⟩ := i2 e he
        have hge : h.hi ≤ e ∧ b ≤ e := by
          by_cases hb : h.hi > b
          · rw [if_pos hb] at j3
            have := j3 _ rfl
            omega
          · rw [if_neg hb] at j3
            have := j3 _ rfl
            omega
        refine ⟨?_, fun x hx hf => ?_, fun b' hb' => by injection hb' with hb'; omega⟩
        · rcases j1 with j | ⟨x, hx, j⟩
          · by_cases hb : h.hi > b
            · rw [if_pos hb] at j
              injection j with j
              exact .inr ⟨h, by simp, hfit, j⟩
            · rw [if_neg hb] at j
              exact .inl j
          · exact .inr ⟨x, List.mem_cons_of_mem _ hx, j⟩
        · rcases List.mem_cons.1 hx with rfl | hx
          · exact hge.1
          · exact j2 x hx hf

theorem coveredLoop_sound {hs : List FName} {c : FName} : ∀ {fuel next pieces : Nat}, coveredLoop hs c fuel next pieces = true →
    ∃ P, Covers next c.hi P ∧ 2 ≤ pieces + P.length ∧ ∀ p ∈ P, p ∈ hs ∧ p ≠ c
  | 0, _, _, h => by cases h
  | fuel + 1, next, pieces, h => by
    unfold coveredLoop at h
    split at h
    · split at h
      · cases h
      · rename_i e he
        obtain ⟨j1, _, _⟩ := (longest_spec c next hs none).2 e he
        rcases j1 with j | ⟨x, hx, ⟨f1, f2, f3⟩, f4⟩
        · cases j
        split at h
        · rename_i hec
          rw [decide_eq_true_eq] at h
          refine ⟨[x], ⟨f2, by omega⟩, h, ?_⟩
          simpa using ⟨hx, f1⟩
        · obtain ⟨P, h1, h2, h3⟩ := coveredLoop_sound h
          cases P with
          | nil => exact h1.elim
          | cons p P =>
            refine ⟨x :: p :: P, ⟨f2, by rw [f4]; exact h1⟩, by simp only [List.length_cons] at h2 ⊢; omega, fun q hq => ?_⟩
            rcases List.mem_cons.1 hq with rfl | hq
            · exact ⟨hx, f1⟩
            · exact h3 q hq
    · cases h

/-- a shard that is found covered is the union of two or more others -/
theorem covered_sound {hs : List FName} {c : FName} (h : covered hs c = true) :
    ∃ P, Covers c.lo c.hi P ∧ 2 ≤ P.length ∧ ∀ p ∈ P, p ∈ hs ∧ p ≠ c := by
  obtain ⟨P, h1, h2, h3⟩ := coveredLoop_sound h
  exact ⟨P, h1, by omega, h3⟩

/-- The loop finds a cover if taking the longest shard never leads astray. -/
theorem coveredLoop_complete {hs : List FName} {c : FName} (hr : ∀ a ∈ hs, a.lo ≤ a.hi)
    (named : ∀ h ∈ hs, h.lo = c.lo → h.hi = c.hi → h = c)
    (step : ∀ (P : List FName) (h : FName), Covers h.lo c.hi P → (∀ p ∈ P, p ∈ hs ∧ p ≠ c) → h ∈ hs → h ≠ c → h.hi < c.hi →
      (∀ x ∈ hs, Fits c h.lo x → x.hi ≤ h.hi) → ∃ P', Covers (h.hi + 1) c.hi P' ∧ ∀ p ∈ P', p ∈ hs ∧ p ≠ c) :
    ∀ {fuel next pieces : Nat} {P : List FName}, Covers next c.hi P → (∀ p ∈ P, p ∈ hs ∧ p ≠ c) → c.hi + 1 - next ≤ fuel →
      (next = c.lo ∨ 1 ≤ pieces) → coveredLoop hs c fuel next pieces = true
  | fuel, next, pieces, P, h1, h2, h3, h4 => by
    have hle := h1.range fun a ha => hr a (h2 a ha).1
    cases fuel with
    | zero => omega
    | succ fuel =>
      unfold coveredLoop
      rw [if_pos hle]
      cases e : longest c next hs none with
      | none =>
        exfalso
        obtain ⟨_, hn⟩ := (longest_spec c next hs none).1 e
        cases P with
        | nil => exact h1.elim
        | cons p P =>
          have := h1.bounds (fun a ha => hr a (h2 a ha).1) p (by simp)
          exact hn p (h2 p (by simp)).1 ⟨(h2 p (by simp)).2, h1.head, this.2⟩
      | some m =>
        dsimp only
        obtain ⟨j1, j2, _⟩ := (longest_spec c next hs none).2 m e
        rcases j1 with j | ⟨x, hx, ⟨f1, f2, f3⟩, f4⟩
        · cases j
        by_cases hm : m = c.hi
        · rw [if_pos hm, decide_eq_true_eq]
          rcases h4 with h4 | h4
          · exact absurd (named x hx (by omega) (by omega)) f1
          · omega
        · rw [if_neg hm]
          obtain ⟨P', q1, q2⟩ := step P x (by rw [f2]; exact h1) h2 hx f1 (by omega) (by rw [f2, f4]; exact j2)
          have := hr x hx
          exact coveredLoop_complete hr named step (by rw [← f4]; exact q1) q2 (by omega) (.inr (by omega))

theorem covered_complete {hs : List FName} {c : FName} (hr : ∀ a ∈ hs, a.lo ≤ a.hi)
    (named : ∀ h ∈ hs, h.lo = c.lo → h.hi = c.hi → h = c)
    (step : ∀ (P : List FName) (h : FName), Covers h.lo c.hi P → (∀ p ∈ P, p ∈ hs ∧ p ≠ c) → h ∈ hs → h ≠ c → h.hi < c.hi →
      (∀ x ∈ hs, Fits c h.lo x → x.hi ≤ h.hi) → ∃ P', Covers (h.hi + 1) c.hi P' ∧ ∀ p ∈ P', p ∈ hs ∧ p ≠ c)
    {P : List FName} (h1 : Covers c.lo c.hi P) (h2 : ∀ p ∈ P, p ∈ hs ∧ p ≠ c) : covered hs c = true :=
  coveredLoop_complete hr named step h1 h2 (Nat.le_refl _) (.inl rfl)

/-- Each shard is a run of shards that are not found covered. -/
theorem resolved {hs : List FName} (hr : ∀ a ∈ hs, a.lo ≤ a.hi) : ∀ (n : Nat) (c : FName), c ∈ hs → c.hi - c.lo < n →
    ∃ P, Covers c.lo c.hi P ∧ ∀ p ∈ P, p ∈ hs ∧ covered hs p = false
  | 0, _, _, h => by omega
  | n + 1, c, hc, hn => by
    cases e : covered hs c with
    | false => exact ⟨[c], ⟨rfl, rfl⟩, by simpa using ⟨hc, e⟩⟩
    | true =>
      obtain ⟨P, h1, h2, h3⟩ := covered_sound e
      refine Covers.refine h1 fun p hp => ?_
      have := Covers.short (fun a ha => hr a (h3 a ha).1) h1 h2 p hp
      exact resolved hr n p (h3 p hp).1 (by omega)

/-- the end of a run, from where one of its shards ends -/
theorem Covers.rest : ∀ {P : List FName} {lo hi : Nat} {p : FName}, Covers lo hi P → p ∈ P → p.hi < hi → (∀ a ∈ P, a.lo ≤ a.hi) →
    ∃ P', Covers (p.hi + 1) hi P' ∧ ∀ x ∈ P', x ∈ P
  | [], _, _, _, h, _, _, _ => h.elim
  | [a], lo, hi, p, h, hp, hlt, _ => by
    rw [List.mem_singleton] at hp
    subst hp
    have := h.2
    omega
  | a :: b :: P, lo, hi, p, h, hp, hlt, hr => by
    rcases List.mem_cons.1 hp with rfl | hp
    · exact ⟨b :: P, h.2, fun x hx => List.mem_cons_of_mem _ hx⟩
    · obtain ⟨P', h1, h2⟩ := Covers.rest h.2 hp hlt fun x hx => hr x (List.mem_cons_of_mem _ hx)
      exact ⟨P', h1, fun x hx => List.mem_cons_of_mem _ (h2 x hx)⟩

/-- a run has a last shard -/
theorem Covers.last {P : List FName} {lo hi : Nat} : Covers lo hi P → ∃ p ∈ P, p.hi = hi := by
  induction P generalizing lo with
  | nil => intro h; exact h.elim
  | cons a P ih =>
    intro h
    cases P with
    | nil => exact ⟨a, by simp, h.2⟩
    | cons b P =>
      obtain ⟨p, hp, e⟩ := ih h.2
      exact ⟨p, List.mem_cons_of_mem _ hp, e⟩

/-! ### What the program does -/

/-- the names are ranges, and none occurs twice -/
structure Listed (dir : List FName) : Prop where
  once : dir.Nodup
  range : ∀ f ∈ dir, f.lo ≤ f.hi

theorem Listed.hazels {dir : List FName} (h : Listed dir) : ∀ a ∈ hazelFiles dir, a.lo ≤ a.hi :=
  fun a ha => h.range a (mem_hazelFiles.1 ha).1

/-- what is written in the first part -/
structure Written (dir C : List FName) : Prop where
  hazel : ∀ x ∈ C, x.kind = .hazel
  fresh : ∀ x ∈ C, x ∉ dir
  fiver : ∀ x ∈ C, ∃ f ∈ dir, f.kind = .fiver ∧ f.lo = x.lo ∧ f.hi = x.hi
  once : C.Nodup

theorem written_nil (dir : List FName) : Written dir [] := ⟨by simp, by simp, by simp, .nil⟩

theorem convert_some {dir : List FName} (hl : Listed dir) {ops : List FileOp} (h : convertOps dir = some ops) :
    ∃ C L, ops = C.map .create ∧ livingFivers dir = some L ∧ L ≠ [] ∧ Written dir C ∧
      (∀ f ∈ L, (⟨.hazel, f.lo, f.hi⟩ : FName) ∈ after dir ops) ∧
      ∀ x ∈ C, ∃ f ∈ L, x = ⟨.hazel, f.lo, f.hi⟩ := by
  unfold convertOps at h
  split at h
  · cases h
  · cases h
  · rename_i L hne e
    injection h with h
    obtain ⟨l1, l2, l3⟩ := living_some e
    have hC : ∀ x, x ∈ (L.filter fun f => !(hazelFiles dir).contains ⟨.hazel, f.lo, f.hi⟩).map (fun f => (⟨.hazel, f.lo, f.hi⟩ : FName)) ↔
        ∃ f ∈ L, x = ⟨.hazel, f.lo, f.hi⟩ ∧ x ∉ dir := by
      intro x
      rw [List.mem_map]
      constructor
      · rintro ⟨f, hf, rfl⟩
        rw [List.mem_filter] at hf
        refine ⟨f, hf.1, rfl, fun hx => ?_⟩
        have : (hazelFiles dir).contains ⟨.hazel, f.lo, f.hi⟩ = true := List.contains_iff_mem.2 (mem_hazelFiles.2 ⟨hx, rfl⟩)
        rw [this] at hf
        cases hf.2
      · rintro ⟨f, hf, rfl, hx⟩
        refine ⟨f, List.mem_filter.2 ⟨hf, ?_⟩, rfl⟩
        cases ec : (hazelFiles dir).contains ⟨.hazel, f.lo, f.hi⟩ with
        | false => rfl
        | true => exact absurd (mem_hazelFiles.1 (List.contains_iff_mem.1 ec)).1 hx
    have ho : ops = ((L.filter fun f => !(hazelFiles dir).contains ⟨.hazel, f.lo, f.hi⟩).map (fun f => (⟨.hazel, f.lo, f.hi⟩ : FName))).map .create := by
      rw [← h, List.map_map]; rfl
    refine ⟨_, L, ho, e, fun e' => hne e', ⟨?_, ?_, ?_, ?_⟩, ?_, ?_⟩
    · intro x hx
      obtain ⟨f, _, rfl, _⟩ := (hC x).1 hx
      rfl
    · intro x hx
      obtain ⟨_, _, _, h⟩ := (hC x).1 hx
      exact h
    · intro x hx
      obtain ⟨f, hf, rfl, _⟩ := (hC x).1 hx
      exact ⟨f, (l1 f hf).1, (l1 f hf).2, rfl, rfl⟩
    · have : (L.filter fun f => !(hazelFiles dir).contains ⟨.hazel, f.lo, f.hi⟩).Pairwise fun a b => a.hi < b.lo := l2.filter _
      unfold List.Nodup
      rw [List.pairwise_map]
      refine this.imp_of_mem fun {a b} ha hb hlt e => ?_
      injection e with _ e1 e2
      have := hl.range a (l1 a (List.mem_filter.1 ha).1).1
      omega
    · intro f hf
      rw [ho, mem_creates]
      by_cases hx : (⟨.hazel, f.lo, f.hi⟩ : FName) ∈ dir
      · exact .inl hx
      · exact .inr ((hC _).2 ⟨f, hf, rfl, hx⟩)
    · intro x hx
      obtain ⟨f, hf, e, _⟩ := (hC x).1 hx
      exact ⟨f, hf, e⟩

/-- what remains of the static shards -/
def rest (dir : List FName) : List FName := (hazelFiles dir).filter fun h => !covered (hazelFiles dir) h

def doomed (dir : List FName) : List FName := (hazelFiles dir).filter fun h => covered (hazelFiles dir) h

theorem mem_rest {dir : List FName} {x : FName} : x ∈ rest dir ↔ x ∈ hazelFiles dir ∧ covered (hazelFiles dir) x = false := by
  unfold rest; rw [List.mem_filter]; simp

theorem mem_doomed {dir : List FName} {x : FName} : x ∈ doomed dir ↔ x ∈ hazelFiles dir ∧ covered (hazelFiles dir) x = true := by
  unfold doomed; rw [List.mem_filter]

/-- what is written in the last part -/
structure Final (dir : List FName) (f : FName) : Prop where
  hazel : f.kind = .hazel
  covers : Covers f.lo f.hi (rest dir)
  two : 2 ≤ (rest dir).length
  contiguous : contiguous (rest dir) = true

theorem merge_ops (dir : List FName) : ∃ F, (mergeOps dir).1 = (doomed dir).map .remove ++ F.map .create ∧
    ((mergeOps dir).2 = false ∧ F = [] ∨ (mergeOps dir).2 = true ∧ contiguous (rest dir) = true ∧
      ((∃ r, rest dir = [r]) ∧ F = [] ∨ ∃ f, Final dir f ∧ F = [f])) := by
  have e0 : mergeOps dir = finish ((doomed dir).map FileOp.remove) (rest dir) := rfl
  rw [e0]
  unfold finish
  cases hc : contiguous (rest dir) with
  | false => exact ⟨[], by simp, .inl ⟨by simp, rfl⟩⟩
  | true =>
    match e : rest dir with
    | [] => exact ⟨[], by simp, .inl ⟨by simp [e], rfl⟩⟩
    | [r] => exact ⟨[], by simp, .inr ⟨by simp [e], rfl, .inl ⟨⟨r, rfl⟩, rfl⟩⟩⟩
    | a :: b :: l =>
      refine ⟨[⟨.hazel, a.lo, ((b :: l).getLast (by simp)).hi⟩], by simp, .inr ⟨by simp [e], rfl, .inr ⟨_, ⟨rfl, ?_, ?_, hc⟩, rfl⟩⟩⟩
      · rw [e] at hc ⊢
        have := contiguous_covers hc
        rw [List.getLast_cons (by simp)] at this
        exact this
      · rw [e]; simp

end Verif.Convert
