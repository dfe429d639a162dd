/-
Converting the shards of a burrow to static shards and merging these (C70).
-/
import Verif.Convert.Proof
namespace Verif.Props
open Verif.Txn Verif.Sanitize Verif.Convert

/-! ### What the property speaks of -/

/-- transaction `n` is in a shard of this kind -/
def InShard (k : FKind) (dir : List FName) (n : Nat) : Prop := ∃ f ∈ dir, f.kind = k ∧ f.lo ≤ n ∧ n ≤ f.hi

/-- the ranges of static shards are nested or share nothing -/
def Laminar (dir : List FName) : Prop := ∀ a ∈ dir, ∀ b ∈ dir, a.kind = .hazel → b.kind = .hazel →
  a.hi < b.lo ∨ b.hi < a.lo ∨ Inside a b ∨ Inside b a

/-! ### -/

theorem listed_written {dir C : List FName} (hl : Listed dir) (hw : Written dir C) : Listed (after dir (C.map .create)) := by
  refine ⟨nodup_after _ hl.once, fun f hf => ?_⟩
  rcases (mem_creates C dir f).1 hf with h | h
  · exact hl.range f h
  · obtain ⟨g, hg, _, e1, e2⟩ := hw.fiver f h
    have := hl.range g hg
    omega

/-- the operations, in three parts -/
theorem plan {dir : List FName} (hl : Listed dir) (c m : Bool) : ∃ C D F : List FName,
    (Convert.main c m dir).1 = C.map .create ++ (D.map .remove ++ F.map .create) ∧ Written dir C ∧
    (∀ x ∈ D, x ∈ doomed (after dir (C.map .create))) ∧
    (F = [] ∨ ∃ f, Final (after dir (C.map .create)) f ∧ F = [f] ∧ D = doomed (after dir (C.map .create))) := by
  have main_of : ∀ {C : List FName}, Written dir C → (if c then convertOps dir else some []) = some (C.map .create) → ∃ C D F : List FName,
      (Convert.main c m dir).1 = C.map .create ++ (D.map .remove ++ F.map .create) ∧ Written dir C ∧
      (∀ x ∈ D, x ∈ doomed (after dir (C.map .create))) ∧
      (F = [] ∨ ∃ f, Final (after dir (C.map .create)) f ∧ F = [f] ∧ D = doomed (after dir (C.map .create))) := by
    intro C hw e
    unfold Convert.main
    rw [e]
    dsimp only
    cases m with
    | false => exact ⟨C, [], [], by simp, hw, by simp, .inl rfl⟩
    | true =>
      obtain ⟨F, h1, h2⟩ := merge_ops (after dir (C.map .create))
      refine ⟨C, doomed (after dir (C.map .create)), F, by rw [if_pos rfl]; rw [h1], hw, fun x hx => hx, ?_⟩
      rcases h2 with ⟨_, h⟩ | ⟨_, _, ⟨_, h⟩ | ⟨f, hf, h⟩⟩
      · exact .inl h
      · exact .inl h
      · exact .inr ⟨f, hf, h, rfl⟩
  cases hc : (if c then convertOps dir else some []) with
  | none =>
    refine ⟨[], [], [], ?_, written_nil _, by simp, .inl rfl⟩
    unfold Convert.main
    rw [hc]
    rfl
  | some ops =>
    cases c with
    | false =>
      rw [if_neg (by simp)] at hc
      injection hc with hc
      exact main_of (written_nil _) (by rfl)
    | true =>
      rw [if_pos rfl] at hc
      obtain ⟨C, L, h1, _, _, h2, _⟩ := convert_some hl hc
      exact main_of h2 (by rw [if_pos rfl, hc, h1])

/-- what remains has all that there was -/
theorem rest_has {dir : List FName} (hl : Listed dir) {n : Nat} (h : InShard .hazel dir n) : ∃ f ∈ rest dir, f.lo ≤ n ∧ n ≤ f.hi := by
  obtain ⟨f, hf, hk, h1, h2⟩ := h
  obtain ⟨P, p1, p2⟩ := resolved hl.hazels _ f (mem_hazelFiles.2 ⟨hf, hk⟩) (Nat.lt_succ_self _)
  obtain ⟨a, ha, q⟩ := p1.point n h1 h2
  exact ⟨a, mem_rest.2 (p2 a ha), q⟩

theorem rest_stays {dir D : List FName} (hD : ∀ x ∈ D, x ∈ doomed dir) {x : FName} (h : x ∈ rest dir) : x ∈ after dir (D.map .remove) := by
  rw [mem_removes]
  obtain ⟨h1, h2⟩ := mem_rest.1 h
  refine ⟨(mem_hazelFiles.1 h1).1, fun hx => ?_⟩
  rw [(mem_doomed.1 (hD x hx)).2] at h2
  cases h2

/-- **C70.** Nothing is lost: if the program is stopped after any number of operations, every transaction that was in a static shard
is in one, the other shards are all there, and no static shard has a transaction that was in no shard. -/
theorem C70_kept {dir : List FName} (hl : Listed dir) (c m : Bool) (k : Nat) :
    (∀ n, InShard .hazel dir n → InShard .hazel (after dir ((Convert.main c m dir).1.take k)) n) ∧
    (∀ f, f.kind ≠ .hazel → (f ∈ after dir ((Convert.main c m dir).1.take k) ↔ f ∈ dir)) ∧
    ∀ n, InShard .hazel (after dir ((Convert.main c m dir).1.take k)) n → InShard .hazel dir n ∨ InShard .fiver dir n := by
  obtain ⟨C, D, F, e, hw, hD, hF⟩ := plan hl c m
  have hl' := listed_written hl hw
  have src : ∀ (n : Nat) (C' : List FName), (∀ x ∈ C', x ∈ C) → InShard .hazel (after dir (C'.map .create)) n → InShard .hazel dir n ∨ InShard .fiver dir n := by
    rintro n C' hC' ⟨f, hf, hk, q⟩
    rcases (mem_creates C' dir f).1 hf with h | h
    · exact .inl ⟨f, h, hk, q⟩
    · obtain ⟨g, hg, gk, e1, e2⟩ := hw.fiver f (hC' f h)
      exact .inr ⟨g, hg, gk, by omega, by omega⟩
  have hh : ∀ f ∈ F, f.kind = .hazel ∧ ∀ n, f.lo ≤ n → n ≤ f.hi → InShard .hazel (after dir (C.map .create)) n := by
    intro f hf
    rcases hF with rfl | ⟨g, hg, rfl, _⟩
    · cases hf
    · rw [List.mem_singleton] at hf
      subst hf
      refine ⟨hg.hazel, fun n h1 h2 => ?_⟩
      obtain ⟨a, ha, q⟩ := hg.covers.point n h1 h2
      have := mem_hazelFiles.1 (mem_rest.1 ha).1
      exact ⟨a, this.1, this.2, q⟩
  rw [e, List.take_append]
  by_cases hk : k ≤ C.length
  · have : k - (C.map FileOp.create).length = 0 := by rw [List.length_map]; omega
    rw [this, List.take_zero, List.append_nil, ← List.map_take]
    refine ⟨?_, ?_, ?_⟩
    · rintro n ⟨f, hf, q⟩
      exact ⟨f, (mem_creates _ _ _).2 (.inl hf), q⟩
    · intro f hf
      rw [mem_creates]
      constructor
      · rintro (h | h)
        · exact h
        · exact absurd (hw.hazel f (List.mem_of_mem_take h)) hf
      · exact .inl
    · intro n h
      exact src n _ (fun x hx => List.mem_of_mem_take hx) h
  · have h1 : (C.map FileOp.create).take k = C.map FileOp.create := List.take_of_length_le (by rw [List.length_map]; omega)
    rw [h1]
    generalize k - (C.map FileOp.create).length = j
    rw [List.take_append, ← List.map_take, ← List.map_take, after_append, after_append]
    have hD' : ∀ x ∈ D.take j, x ∈ doomed (after dir (C.map .create)) := fun x hx => hD x (List.mem_of_mem_take hx)
    refine ⟨?_, ?_, ?_⟩
    · rintro n ⟨f, hf, q⟩
      obtain ⟨a, ha, p⟩ := rest_has hl' (n := n) ⟨f, (mem_creates _ _ _).2 (.inl hf), q⟩
      exact ⟨a, (mem_creates _ _ _).2 (.inl (rest_stays hD' ha)), (mem_hazelFiles.1 (mem_rest.1 ha).1).2, p⟩
    · intro f hf
      rw [mem_creates, mem_removes, mem_creates]
      constructor
      · rintro (⟨h | h, _⟩ | h)
        · exact h
        · exact absurd (hw.hazel f h) hf
        · exact absurd (hh f (List.mem_of_mem_take h)).1 hf
      · intro h
        exact .inl ⟨.inl h, fun hx => hf (mem_hazelFiles.1 (mem_doomed.1 (hD' f hx)).1).2⟩
    · rintro n ⟨f, hf, hk, q1, q2⟩
      rcases (mem_creates _ _ _).1 hf with h | h
      · exact src n C (fun x hx => hx) ⟨f, ((mem_removes _ _ _).1 h).1, hk, q1, q2⟩
      · exact src n C (fun x hx => hx) ((hh f (List.mem_of_mem_take h)).2 n q1 q2)

theorem split_creates {f : FName} {B X : List FileOp} : ∀ {C : List FName} {A : List FileOp}, A ++ .create f :: B = C.map .create ++ X →
    (∃ C1 C2, C = C1 ++ f :: C2 ∧ A = C1.map .create) ∨ ∃ A', A = C.map .create ++ A' ∧ A' ++ .create f :: B = X
  | [], A, h => .inr ⟨A, rfl, h⟩
  | x :: C, [], h => by
    rw [List.nil_append, List.map_cons, List.cons_append] at h
    injection h with h _
    injection h with h
    subst h
    exact .inl ⟨[], C, rfl, rfl⟩
  | x :: C, a :: A, h => by
    rw [List.cons_append, List.map_cons, List.cons_append] at h
    injection h with h h'
    subst h
    rcases split_creates h' with ⟨C1, C2, e1, e2⟩ | ⟨A', e1, e2⟩
    · exact .inl ⟨x :: C1, C2, by rw [e1]; rfl, by rw [e2]; rfl⟩
    · exact .inr ⟨A', by rw [e1]; rfl, e2⟩

theorem split_removes {f : FName} {B X : List FileOp} : ∀ {D : List FName} {A : List FileOp}, A ++ .create f :: B = D.map .remove ++ X →
    ∃ A', A = D.map .remove ++ A' ∧ A' ++ .create f :: B = X
  | [], A, h => ⟨A, rfl, h⟩
  | x :: D, [], h => by
    rw [List.nil_append, List.map_cons, List.cons_append] at h
    injection h with h _
    cases h
  | x :: D, a :: A, h => by
    rw [List.cons_append, List.map_cons, List.cons_append] at h
    injection h with h h'
    subst h
    obtain ⟨A', e1, e2⟩ := split_removes h'
    exact ⟨A', by rw [e1]; rfl, e2⟩

theorem rest_range {dir : List FName} (hl : Listed dir) : ∀ a ∈ rest dir, a.lo ≤ a.hi := fun a ha => hl.hazels a (mem_rest.1 ha).1

theorem rest_apart {dir : List FName} (hl : Listed dir) (h : contiguous (rest dir) = true) : (rest dir).Pairwise fun a b => a.hi < b.lo :=
  contiguous_apart (rest_range hl) h

/-- shards that share nothing and have a place in common are the same -/
theorem apart_eq {l : List FName} (h : l.Pairwise fun a b => a.hi < b.lo) {a b : FName} (ha : a ∈ l) (hb : b ∈ l) {n : Nat}
    (h1 : a.lo ≤ n ∧ n ≤ a.hi) (h2 : b.lo ≤ n ∧ n ≤ b.hi) : a = b := by
  have hp : l.Pairwise fun a b => a.hi < b.lo ∨ b.hi < a.lo := h.imp .inl
  exact Classical.byContradiction fun hne => by
    have := pairwise_of (fun h => h.symm) hp ha hb hne
    omega

theorem final_new {dir : List FName} (hl : Listed dir) {f : FName} (hf : Final dir f) : f ∉ rest dir := by
  intro h
  have hs := Covers.short (rest_range hl) hf.covers hf.two f h
  omega

/-- **C70.** No file is overwritten: what is written is not there. -/
theorem C70_fresh {dir : List FName} (hl : Listed dir) (c m : Bool) {A B : List FileOp} {f : FName}
    (h : (Convert.main c m dir).1 = A ++ .create f :: B) : f ∉ after dir A := by
  obtain ⟨C, D, F, e, hw, hD, hF⟩ := plan hl c m
  have hl' := listed_written hl hw
  rw [e] at h
  rcases split_creates h.symm with ⟨C1, C2, rfl, rfl⟩ | ⟨A', rfl, h'⟩
  · rw [mem_creates]
    rintro (h' | h')
    · exact hw.fresh f (by simp) h'
    · have := hw.once
      rw [List.nodup_append] at this
      exact this.2.2 f h' f (by simp) rfl
  · clear h
    obtain ⟨A'', rfl, h⟩ := split_removes h'
    clear h'
    rcases hF with rfl | ⟨g, hg, rfl, rfl⟩
    · cases A'' <;> cases h
    · cases A'' with
      | cons a A'' =>
        rw [List.cons_append, List.map_cons] at h
        injection h with _ h
        cases A'' <;> cases h
      | nil =>
        rw [List.nil_append, List.map_cons] at h
        injection h with h _
        injection h with h
        subst h
        rw [List.append_nil, after_append, mem_removes]
        rintro ⟨h1, h2⟩
        have hz := mem_hazelFiles.2 ⟨h1, hg.hazel⟩
        cases ec : covered (hazelFiles (after dir (C.map .create))) f with
        | true => exact h2 (mem_doomed.2 ⟨hz, ec⟩)
        | false => exact final_new hl' hg (mem_rest.2 ⟨hz, ec⟩)

/-- what success means, in full -/
theorem success {dir : List FName} (hl : Listed dir) {c m : Bool} {ops : List FileOp} (h : Convert.main c m dir = (ops, true)) :
    ∃ C, Written dir C ∧ Listed (after dir (C.map .create)) ∧
      (c = true → ∃ L, livingFivers dir = some L ∧ L ≠ [] ∧ ∀ f ∈ L, (⟨.hazel, f.lo, f.hi⟩ : FName) ∈ after dir (C.map .create)) ∧
      (c = false → C = []) ∧
      (m = false → ops = C.map .create) ∧
      (m = true → contiguous (rest (after dir (C.map .create))) = true ∧ ∃ F, ops = C.map .create ++ ((doomed (after dir (C.map .create))).map .remove ++ F.map .create) ∧
        ((∃ r, rest (after dir (C.map .create)) = [r]) ∧ F = [] ∨ ∃ f, Final (after dir (C.map .create)) f ∧ F = [f])) := by
  have fin : ∀ {C : List FName}, Written dir C → (if c then convertOps dir else some []) = some (C.map .create) →
      (m = false → ops = C.map .create) ∧
      (m = true → contiguous (rest (after dir (C.map .create))) = true ∧ ∃ F, ops = C.map .create ++ ((doomed (after dir (C.map .create))).map .remove ++ F.map .create) ∧
        ((∃ r, rest (after dir (C.map .create)) = [r]) ∧ F = [] ∨ ∃ f, Final (after dir (C.map .create)) f ∧ F = [f])) := by
    intro C hw e
    unfold Convert.main at h
    rw [e] at h
    dsimp only at h
    cases m with
    | false =>
      rw [if_neg (by simp)] at h
      exact ⟨fun _ => (Prod.mk.inj h).1.symm, by simp⟩
    | true =>
      rw [if_pos rfl] at h
      obtain ⟨h1, h2⟩ := Prod.mk.inj h
      refine ⟨by simp, fun _ => ?_⟩
      obtain ⟨F, m1, m2⟩ := merge_ops (after dir (C.map .create))
      rcases m2 with ⟨m2, _⟩ | ⟨_, m3, m4⟩
      · rw [m2] at h2; cases h2
      · exact ⟨m3, F, by rw [← h1, m1], m4⟩
  cases c with
  | false =>
    have hw := written_nil dir
    obtain ⟨f1, f2⟩ := fin hw (by rfl)
    exact ⟨[], hw, listed_written hl hw, by simp, fun _ => rfl, f1, f2⟩
  | true =>
    cases hc : convertOps dir with
    | none =>
      unfold Convert.main at h
      rw [if_pos rfl, hc] at h
      cases h
    | some o =>
      obtain ⟨C, L, h1, h2, h3, h4, h5, _⟩ := convert_some hl hc
      obtain ⟨f1, f2⟩ := fin h4 (by rw [if_pos rfl, hc, h1])
      exact ⟨C, h4, listed_written hl h4, fun _ => ⟨L, h2, h3, by rw [← h1]; exact h5⟩, by simp, f1, f2⟩

theorem ofKind_mem {dir dir' : List FName} {k : FKind} (h : ofKind k dir = ofKind k dir') (x : FName) (hx : x.kind = k) : x ∈ dir ↔ x ∈ dir' := by
  have := mem_ofKind (k := k) (dir := dir) (x := x)
  rw [h, mem_ofKind] at this
  constructor
  · intro h; exact (this.2 ⟨h, hx⟩).1
  · intro h; exact (this.1 ⟨h, hx⟩).1

/-- **C70.** When it reports success: if it converts, every transaction of a shard of the other kind is in a static shard; if it merges,
there is one static shard with exactly the transactions of the static shards, and of the others if it converts; all other static
shards that are left are inside it. -/
theorem C70_success {dir : List FName} (hl : Listed dir) {c m : Bool} {ops : List FileOp} (h : Convert.main c m dir = (ops, true)) :
    (c = true → ∀ n, InShard .fiver dir n → InShard .hazel (after dir ops) n) ∧
    (m = true → ∃ f ∈ after dir ops, f.kind = .hazel ∧ (∀ x ∈ after dir ops, x.kind = .hazel → Inside f x) ∧
      ∀ n, (f.lo ≤ n ∧ n ≤ f.hi) ↔ InShard .hazel dir n ∨ (c = true ∧ InShard .fiver dir n)) := by
  obtain ⟨C, hw, hl', s1, s2, s3, s4⟩ := success hl h
  have cov : c = true → ∀ n, InShard .fiver dir n → InShard .hazel (after dir (C.map .create)) n := by
    intro hc n ⟨f, hf, hk, q⟩
    obtain ⟨L, l1, _, l2⟩ := s1 hc
    obtain ⟨_, _, l3⟩ := living_some l1
    obtain ⟨b, hb, b1, b2⟩ := l3 f hf hk
    exact ⟨_, l2 b hb, rfl, Nat.le_trans b1 q.1, Nat.le_trans q.2 b2⟩
  have all : ∀ n, InShard .hazel (after dir (C.map .create)) n ↔ InShard .hazel dir n ∨ (c = true ∧ InShard .fiver dir n) := by
    intro n
    constructor
    · rintro ⟨f, hf, hk, q⟩
      rcases (mem_creates C dir f).1 hf with h | hx
      · exact .inl ⟨f, h, hk, q⟩
      · obtain ⟨g, hg, gk, e1, e2⟩ := hw.fiver f hx
        refine .inr ⟨?_, g, hg, gk, by omega, by omega⟩
        cases c with
        | true => rfl
        | false => rw [s2 rfl] at hx; cases hx
    · rintro (⟨f, hf, q⟩ | ⟨hc, h⟩)
      · exact ⟨f, (mem_creates _ _ _).2 (.inl hf), q⟩
      · exact cov hc n h
  have fin : m = true → ∃ f ∈ after dir ops, f.kind = .hazel ∧ (∀ x ∈ after dir ops, x.kind = .hazel → Inside f x) ∧
      ∀ n, (f.lo ≤ n ∧ n ≤ f.hi) ↔ InShard .hazel (after dir (C.map .create)) n := by
    intro hm
    obtain ⟨cont, F, e, hF⟩ := s4 hm
    have hmem : ∀ x, x ∈ after dir ops ↔ (x ∈ after dir (C.map .create) ∧ x ∉ doomed (after dir (C.map .create))) ∨ x ∈ F := by
      intro x
      rw [e, after_append, after_append, mem_creates, mem_removes]
    have hrest : ∀ x, x ∈ after dir (C.map .create) → x ∉ doomed (after dir (C.map .create)) → x.kind = .hazel →
        x ∈ rest (after dir (C.map .create)) := by
      intro x h1 h2 h3
      have hz := mem_hazelFiles.2 ⟨h1, h3⟩
      cases ec : covered (hazelFiles (after dir (C.map .create))) x with
      | true => exact absurd (mem_doomed.2 ⟨hz, ec⟩) h2
      | false => exact mem_rest.2 ⟨hz, ec⟩
    rcases hF with ⟨⟨r, hr⟩, rfl⟩ | ⟨f, hf, rfl⟩
    · have hr' : r ∈ rest (after dir (C.map .create)) := by rw [hr]; simp
      obtain ⟨r1, r2⟩ := mem_hazelFiles.1 (mem_rest.1 hr').1
      refine ⟨r, (hmem r).2 (.inl ⟨r1, fun hx => ?_⟩), r2, fun x hx hk => ?_, fun n => ⟨fun q => ⟨r, r1, r2, q⟩, fun q => ?_⟩⟩
      · have := (mem_doomed.1 hx).2
        rw [(mem_rest.1 hr').2] at this
        cases this
      · rcases (hmem x).1 hx with ⟨h1, h2⟩ | h
        · have := hrest x h1 h2 hk
          rw [hr, List.mem_singleton] at this
          subst this
          exact ⟨Nat.le_refl _, Nat.le_refl _⟩
        · cases h
      · obtain ⟨a, ha, q⟩ := rest_has hl' q
        rw [hr, List.mem_singleton] at ha
        subst ha
        exact q
    · have hb := hf.covers.bounds (rest_range hl')
      refine ⟨f, (hmem f).2 (.inr (by simp)), hf.hazel, fun x hx hk => ?_, fun n => ⟨fun q => ?_, fun q => ?_⟩⟩
      · rcases (hmem x).1 hx with ⟨h1, h2⟩ | h
        · exact hb x (hrest x h1 h2 hk)
        · rw [List.mem_singleton] at h
          subst h
          exact ⟨Nat.le_refl _, Nat.le_refl _⟩
      · obtain ⟨a, ha, q⟩ := hf.covers.point n q.1 q.2
        obtain ⟨a1, a2⟩ := mem_hazelFiles.1 (mem_rest.1 ha).1
        exact ⟨a, a1, a2, q⟩
      · obtain ⟨a, ha, q1, q2⟩ := rest_has hl' q
        have := hb a ha
        omega
  constructor
  · intro hc n hn
    have hn := cov hc n hn
    cases m with
    | false => rw [s3 rfl]; exact hn
    | true =>
      obtain ⟨f, hf, hk, _, q⟩ := fin rfl
      exact ⟨f, hf, hk, (q n).2 hn⟩
  · intro hm
    obtain ⟨f, hf, hk, hi, q⟩ := fin hm
    exact ⟨f, hf, hk, hi, fun n => by rw [q, all]⟩

/-- **C70.** Where the ranges of static shards are nested or share nothing, the static shards that are removed are exactly those that are
the union of two or more others, one after the other. -/
theorem C70_removed {dir : List FName} (hl : Listed dir) (ha : Laminar dir) (x : FName) :
    .remove x ∈ (Convert.main false true dir).1 ↔
      (x ∈ dir ∧ x.kind = .hazel) ∧ ∃ P, Covers x.lo x.hi P ∧ 2 ≤ P.length ∧ ∀ p ∈ P, p ∈ dir ∧ p.kind = .hazel := by
  have hm : .remove x ∈ (Convert.main false true dir).1 ↔ x ∈ doomed dir := by
    obtain ⟨F, e, _⟩ := merge_ops dir
    have : (Convert.main false true dir).1 = (doomed dir).map .remove ++ F.map .create := by
      unfold Convert.main
      rw [if_neg (by simp)]
      dsimp only
      rw [if_pos rfl]
      exact e
    rw [this, List.mem_append, List.mem_map, List.mem_map]
    constructor
    · rintro (⟨y, hy, e⟩ | ⟨y, _, e⟩)
      · injection e with e; exact e ▸ hy
      · cases e
    · intro h; exact .inl ⟨x, h, rfl⟩
  rw [hm, mem_doomed, mem_hazelFiles]
  refine and_congr_right fun hx => ?_
  constructor
  · intro h
    obtain ⟨P, h1, h2, h3⟩ := covered_sound h
    exact ⟨P, h1, h2, fun p hp => mem_hazelFiles.1 (h3 p hp).1⟩
  · rintro ⟨P, h1, h2, h3⟩
    have hr : ∀ a ∈ hazelFiles dir, a.lo ≤ a.hi := hl.hazels
    refine covered_complete hr ?_ ?_ h1 fun p hp => ⟨mem_hazelFiles.2 (h3 p hp), ?_⟩
    · intro h hh e1 e2
      exact fname_ext ((mem_hazelFiles.1 hh).2.trans hx.2.symm) e1 e2
    · intro P h p1 p2 p3 p4 p5 p6
      have hrP : ∀ a ∈ P, a.lo ≤ a.hi := fun a ha => hr a (p2 a ha).1
      obtain ⟨p, hp, q1, q2⟩ := p1.point h.hi (hr h p3) (by omega)
      have hb := p1.bounds hrP p hp
      have e : p.hi = h.hi := by
        obtain ⟨a1, a2⟩ := mem_hazelFiles.1 (p2 p hp).1
        obtain ⟨b1, b2⟩ := mem_hazelFiles.1 p3
        have := hr h p3
        rcases ha p a1 h b1 a2 b2 with l | l | l | l
        · omega
        · omega
        · have := p6 p (p2 p hp).1 ⟨(p2 p hp).2, by have := l.1; omega, hb.2⟩
          omega
        · have := l.2
          omega
      obtain ⟨P', r1, r2⟩ := Covers.rest p1 hp (by omega) hrP
      exact ⟨P', by rw [← e]; exact r1, fun x hx => p2 x (r2 x hx)⟩
    · intro e
      have := Covers.short (fun a ha => hl.range a (h3 a ha).1) h1 h2 p hp
      rw [e] at this
      omega

theorem onHazels_creates {l : List FName} (h : ∀ x ∈ l, x.kind = .hazel) : OnHazels (l.map .create) := by
  intro op ho
  obtain ⟨x, hx, rfl⟩ := List.mem_map.1 ho
  exact ⟨x, h x hx, .inl rfl⟩

theorem onHazels_removes {l : List FName} (h : ∀ x ∈ l, x.kind = .hazel) : OnHazels (l.map .remove) := by
  intro op ho
  obtain ⟨x, hx, rfl⟩ := List.mem_map.1 ho
  exact ⟨x, h x hx, .inr rfl⟩

/-- Where every static shard is a run of some that share nothing, these are what remains. -/
theorem rest_of {dir R : List FName} (hl : Listed dir) (hR : ∀ r ∈ R, r ∈ hazelFiles dir) (hap : R.Pairwise fun a b => a.hi < b.lo)
    (hall : ∀ x ∈ hazelFiles dir, ∃ Q, Covers x.lo x.hi Q ∧ ∀ q ∈ Q, q ∈ R) (x : FName) : x ∈ rest dir ↔ x ∈ R := by
  have hr := hl.hazels
  have kinds : ∀ a ∈ hazelFiles dir, ∀ b ∈ hazelFiles dir, a.lo = b.lo → a.hi = b.hi → a = b := fun a ha b hb e1 e2 =>
    fname_ext ((mem_hazelFiles.1 ha).2.trans (mem_hazelFiles.1 hb).2.symm) e1 e2
  rw [mem_rest]
  constructor
  · rintro ⟨h1, h2⟩
    apply Classical.byContradiction
    intro hx
    obtain ⟨Q, q1, q2⟩ := hall x h1
    have : covered (hazelFiles dir) x = true := by
      refine covered_complete hr (fun h hh => kinds h hh x h1) ?_ q1 fun p hp => ⟨hR p (q2 p hp), fun e => hx (e ▸ q2 p hp)⟩
      intro P h p1 p2 p3 p4 p5 p6
      obtain ⟨P2, s1, s2⟩ := Covers.refine p1 fun p hp => hall p (p2 p hp).1
      have rP2 : ∀ a ∈ P2, a.lo ≤ a.hi := fun a ha => hr a (hR a (s2 a ha))
      obtain ⟨p, hp, t1, t2⟩ := s1.point h.hi (hr h p3) (by omega)
      obtain ⟨Qh, u1, u2⟩ := hall h p3
      obtain ⟨q, hq, e⟩ := Covers.last u1
      have := hr q (hR q (u2 q hq))
      have e' : p = q := apart_eq hap (s2 p hp) (u2 q hq) ⟨t1, t2⟩ ⟨by omega, by omega⟩
      subst e'
      obtain ⟨P', r1, r2⟩ := Covers.rest s1 hp (by omega) rP2
      refine ⟨P', by rw [← e]; exact r1, fun y hy => ⟨hR y (s2 y (r2 y hy)), fun ey => hx (ey ▸ s2 y (r2 y hy))⟩⟩
    rw [this] at h2
    cases h2
  · intro h
    refine ⟨hR x h, ?_⟩
    cases e : covered (hazelFiles dir) x with
    | false => rfl
    | true =>
      exfalso
      obtain ⟨P, p1, p2, p3⟩ := covered_sound e
      have sh := Covers.short (fun a ha => hr a (p3 a ha).1) p1 p2
      cases P with
      | nil => exact p1.elim
      | cons p P =>
        obtain ⟨b1, b2, b3⟩ := sh p (by simp)
        obtain ⟨Q, q1, q2⟩ := hall p (p3 p (by simp)).1
        cases Q with
        | nil => exact q1.elim
        | cons q Q =>
          have := q1.bounds (fun a ha => hr a (hR a (q2 a ha))) q (by simp)
          have rq := hr q (hR q (q2 q (by simp)))
          have rp := hr p (p3 p (by simp)).1
          have e : q = x := apart_eq (n := q.lo) hap (q2 q (by simp)) h ⟨by omega, by omega⟩ ⟨by omega, by omega⟩
          subst e
          omega

/-- **C70.** Running it again, after a success, succeeds, and leaves the same files. -/
theorem C70_again {dir : List FName} (hl : Listed dir) {c m : Bool} {ops : List FileOp} (h : Convert.main c m dir = (ops, true)) :
    ∃ ops', Convert.main c m (after dir ops) = (ops', true) ∧ ∀ x, x ∈ after (after dir ops) ops' ↔ x ∈ after dir ops := by
  obtain ⟨C, hw, hl', s1, s2, s3, s4⟩ := success hl h
  have hz : OnHazels ops := by
    have hC := onHazels_creates hw.hazel
    cases m with
    | false => rw [s3 rfl]; exact hC
    | true =>
      obtain ⟨_, F, e, hF⟩ := s4 rfl
      have h2 := onHazels_removes (l := doomed (after dir (C.map .create))) fun x hx => (mem_hazelFiles.1 (mem_doomed.1 hx).1).2
      have h3 := onHazels_creates (l := F) (by
        rcases hF with ⟨_, rfl⟩ | ⟨f, hf, rfl⟩
        · simp
        · simpa using hf.hazel)
      rw [e]
      intro op ho
      rcases List.mem_append.1 ho with ho | ho
      · exact hC op ho
      · rcases List.mem_append.1 ho with ho | ho
        · exact h2 op ho
        · exact h3 op ho
  have hliv : livingFivers (after dir ops) = livingFivers dir := by
    unfold livingFivers
    rw [ofKind_after ops (by decide) hz]
  have hlE : Listed (after dir ops) := by
    refine ⟨nodup_after _ hl.once, fun f hf => ?_⟩
    cases m with
    | false => rw [s3 rfl] at hf; exact hl'.range f hf
    | true =>
      obtain ⟨_, F, e, hF⟩ := s4 rfl
      rw [e, after_append, after_append, mem_creates, mem_removes] at hf
      rcases hf with ⟨hf, _⟩ | hf
      · exact hl'.range f hf
      · rcases hF with ⟨_, rfl⟩ | ⟨g, hg, rfl⟩
        · cases hf
        · rw [List.mem_singleton] at hf
          subst hf
          exact hg.covers.range (rest_range hl')
  -- what is written again
  obtain ⟨C', c1, c2, c3, c4⟩ : ∃ C', (if c then convertOps (after dir ops) else some []) = some (C'.map .create) ∧
      Written (after dir ops) C' ∧ (∀ x ∈ C', x ∈ after dir (C.map .create)) ∧ (m = false → C' = []) := by
    cases c with
    | false => exact ⟨[], rfl, written_nil _, by simp, fun _ => rfl⟩
    | true =>
      obtain ⟨L, l1, l2, l3⟩ := s1 rfl
      rw [if_pos rfl]
      have hex : ∃ o, convertOps (after dir ops) = some o := by
        unfold convertOps
        rw [hliv, l1]
        cases L with
        | nil => exact absurd rfl l2
        | cons a L => exact ⟨_, rfl⟩
      obtain ⟨o, ho⟩ := hex
      obtain ⟨C', L', e1, e2, _, e3, _, e4⟩ := convert_some hlE ho
      rw [hliv, l1] at e2
      injection e2 with e2
      subst e2
      have hsub : ∀ x ∈ C', x ∈ after dir (C.map .create) := by
        intro x hx
        obtain ⟨f, hf, rfl⟩ := e4 x hx
        exact l3 f hf
      refine ⟨C', by rw [ho, e1], e3, hsub, fun hm => ?_⟩
      apply List.eq_nil_iff_forall_not_mem.2
      intro x hx
      have := e3.fresh x hx
      rw [s3 hm] at this
      exact this (hsub x hx)
  cases m with
  | false =>
    rw [c4 rfl] at c1
    refine ⟨[], ?_, fun x => Iff.rfl⟩
    unfold Convert.main
    rw [c1]
    rfl
  | true =>
    obtain ⟨cont, F, e, hF⟩ := s4 rfl
    have hap := rest_apart hl' cont
    have hlE' := listed_written hlE c2
    have hmemE : ∀ x, x ∈ after dir ops ↔ (x ∈ after dir (C.map .create) ∧ x ∉ doomed (after dir (C.map .create))) ∨ x ∈ F := by
      intro x
      rw [e, after_append, after_append, mem_creates, mem_removes]
    have hresE : ∀ x ∈ rest (after dir (C.map .create)), x ∈ after dir ops := fun x hx =>
      (hmemE x).2 (.inl ((mem_removes _ _ _).1 (rest_stays (fun _ h => h) hx)))
    -- every static shard is now a run of those that remained
    have hall : ∀ x ∈ hazelFiles (after (after dir ops) (C'.map .create)), ∃ Q, Covers x.lo x.hi Q ∧ ∀ q ∈ Q, q ∈ rest (after dir (C.map .create)) := by
      intro x hx
      obtain ⟨h1, h2⟩ := mem_hazelFiles.1 hx
      have old : x ∈ after dir (C.map .create) → ∃ Q, Covers x.lo x.hi Q ∧ ∀ q ∈ Q, q ∈ rest (after dir (C.map .create)) := by
        intro h
        obtain ⟨P, p1, p2⟩ := resolved hl'.hazels _ x (mem_hazelFiles.2 ⟨h, h2⟩) (Nat.lt_succ_self _)
        exact ⟨P, p1, fun q hq => mem_rest.2 (p2 q hq)⟩
      rcases (mem_creates _ _ _).1 h1 with h | h
      · rcases (hmemE x).1 h with h | h
        · exact old h.1
        · rcases hF with ⟨_, rfl⟩ | ⟨g, hg, rfl⟩
          · cases h
          · rw [List.mem_singleton] at h
            subst h
            exact ⟨_, hg.covers, fun q hq => hq⟩
      · exact old (c3 x h)
    have hsame := rest_of hlE' (R := rest (after dir (C.map .create))) (fun r hr => mem_hazelFiles.2
      ⟨(mem_creates _ _ _).2 (.inl (hresE r hr)), (mem_hazelFiles.1 (mem_rest.1 hr).1).2⟩) hap hall
    have heq : rest (after (after dir ops) (C'.map .create)) = rest (after dir (C.map .create)) := by
      refine sorted_same (fun x hx => (mem_hazelFiles.1 (mem_rest.1 hx).1).2) ?_ ?_ ?_ ?_ hsame
      · exact (hazelFiles_nodup hlE'.once).filter _
      · exact (hazelFiles_nodup hl'.once).filter _
      · exact (hazelFiles_sorted _).filter _
      · exact (hazelFiles_sorted _).filter _
    obtain ⟨F', m1, m2⟩ := merge_ops (after (after dir ops) (C'.map .create))
    have hmem2 : ∀ x, x ∈ after (after dir ops) (C'.map .create ++ ((doomed (after (after dir ops) (C'.map .create))).map .remove ++ F'.map .create)) ↔
        ((x ∈ after dir ops ∨ x ∈ C') ∧ x ∉ doomed (after (after dir ops) (C'.map .create))) ∨ x ∈ F' := by
      intro x
      rw [after_append, after_append, mem_creates, mem_removes, mem_creates]
    have hdoom : ∀ x, x.kind = .hazel → (x ∈ after dir ops ∨ x ∈ C') →
        (x ∉ doomed (after (after dir ops) (C'.map .create)) ↔ x ∈ rest (after dir (C.map .create))) := by
      intro x hk hx
      rw [← heq, mem_rest, mem_doomed]
      have : x ∈ hazelFiles (after (after dir ops) (C'.map .create)) := mem_hazelFiles.2 ⟨(mem_creates _ _ _).2 hx, hk⟩
      cases covered (hazelFiles (after (after dir ops) (C'.map .create))) x <;> simp [this]
    have hmemH : ∀ x, x.kind = .hazel → (x ∈ after dir ops ↔ x ∈ rest (after dir (C.map .create)) ∨ x ∈ F) := by
      intro x hk
      rw [hmemE]
      constructor
      · rintro (⟨h1, h2⟩ | h)
        · have hz := mem_hazelFiles.2 ⟨h1, hk⟩
          cases ec : covered (hazelFiles (after dir (C.map .create))) x with
          | true => exact absurd (mem_doomed.2 ⟨hz, ec⟩) h2
          | false => exact .inl (mem_rest.2 ⟨hz, ec⟩)
        · exact .inr h
      · rintro (h | h)
        · exact .inl ((mem_removes _ _ _).1 (rest_stays (fun _ h => h) h))
        · exact .inr h
    have hFF : (mergeOps (after (after dir ops) (C'.map .create))).2 = true ∧ F' = F := by
      have e0 : mergeOps (after (after dir ops) (C'.map .create)) =
        finish ((doomed (after (after dir ops) (C'.map .create))).map .remove) (rest (after dir (C.map .create))) := by rw [← heq]; rfl
      have g2 : (mergeOps (after (after dir ops) (C'.map .create))).2 = true := by
        rw [e0]
        unfold finish
        rw [cont]
        rcases hF with ⟨⟨r, hr⟩, _⟩ | ⟨f, hf, _⟩
        · rw [hr]; rfl
        · have := hf.two
          match e1 : rest (after dir (C.map .create)), this with
          | a :: b :: l, _ => rfl
      refine ⟨g2, ?_⟩
      rcases m2 with ⟨m2, _⟩ | ⟨_, _, m2⟩
      · rw [m2] at g2; cases g2
      · rcases m2 with ⟨⟨r, hr⟩, rfl⟩ | ⟨f', hf', rfl⟩
        · rw [heq] at hr
          rcases hF with ⟨_, rfl⟩ | ⟨f, hf, _⟩
          · rfl
          · have := hf.two
            rw [hr] at this
            simp at this
        · rcases hF with ⟨⟨r, hr⟩, _⟩ | ⟨f, hf, rfl⟩
          · have := hf'.two
            rw [heq, hr] at this
            simp at this
          · have a1 := hf'.covers
            rw [heq] at a1
            have a2 := hf.covers
            obtain ⟨x, t, hxt⟩ : ∃ x t, rest (after dir (C.map .create)) = x :: t := by
              have := hf.two
              cases e1 : rest (after dir (C.map .create)) with
              | nil => rw [e1] at this; simp at this
              | cons x t => exact ⟨x, t, rfl⟩
            have elo : f'.lo = f.lo := by
              rw [hxt] at a1 a2
              have := a1.head
              have := a2.head
              omega
            have ehi : f'.hi = f.hi := by
              obtain ⟨p, hp, e1⟩ := Covers.last a1
              obtain ⟨q, hq, e2⟩ := Covers.last a2
              have := a1.bounds (rest_range hl') q hq
              have := a2.bounds (rest_range hl') p hp
              omega
            rw [fname_ext (hf'.hazel.trans hf.hazel.symm) elo ehi]
    refine ⟨C'.map .create ++ ((doomed (after (after dir ops) (C'.map .create))).map .remove ++ F'.map .create), ?_, fun x => ?_⟩
    · unfold Convert.main
      rw [c1]
      dsimp only
      rw [if_pos rfl, m1, hFF.1]
    · rw [hmem2, hFF.2]
      by_cases hk : x.kind = .hazel
      · constructor
        · rintro (⟨h1, h2⟩ | h)
          · exact (hmemH x hk).2 (.inl ((hdoom x hk h1).1 h2))
          · exact (hmemH x hk).2 (.inr h)
        · intro hx
          rcases (hmemH x hk).1 hx with h | h
          · exact .inl ⟨.inl (hresE x h), (hdoom x hk (.inl (hresE x h))).2 h⟩
          · exact .inr h
      · have hnd : x ∉ doomed (after (after dir ops) (C'.map .create)) := fun hx => hk (mem_hazelFiles.1 (mem_doomed.1 hx).1).2
        have hnF : x ∉ F := by
          intro hx
          rcases hF with ⟨_, rfl⟩ | ⟨f, hf, rfl⟩
          · cases hx
          · rw [List.mem_singleton] at hx
            subst hx
            exact hk hf.hazel
        constructor
        · rintro (⟨h1 | h1, _⟩ | h)
          · exact h1
          · exact absurd (c2.hazel x h1) hk
          · exact absurd h hnF
        · intro h
          exact .inl ⟨.inl h, hnd⟩

/-! ### Cases, and what is refused -/

def hz (a b : Nat) : FName := ⟨.hazel, a, b⟩
def fv (a b : Nat) : FName := ⟨.fiver, a, b⟩

/-- three shards of which one is inside another, and a static shard: two are converted, and merged -/
example : Listed [fv 0 0, fv 1 3, fv 2 2, hz 0 0] ∧
    Convert.main true true [fv 0 0, fv 1 3, fv 2 2, hz 0 0] = ([.create (hz 1 3), .create (hz 0 3)], true) := by
  exact ⟨⟨by decide, by decide⟩, by decide⟩

/-- again, after one more: the merged shard is removed first -/
example : Convert.main true true [fv 0 0, fv 1 3, fv 4 4, hz 0 0, hz 1 3, hz 0 3] =
    ([.create (hz 4 4), .remove (hz 0 3), .create (hz 0 4)], true) := by decide

example : Laminar [fv 0 0, fv 1 3, fv 4 4, hz 0 0, hz 1 3, hz 0 3] := by unfold Laminar Inside; decide

/-- Sets of shards that are never merged, although every transaction is in a static shard: two converted early, and then a shard
with all. -/
theorem C70_grown_refused : (Convert.main true true [fv 0 2, hz 0 0, hz 1 1]).2 = false ∧
    (Convert.main true true (after [fv 0 2, hz 0 0, hz 1 1] (Convert.main true true [fv 0 2, hz 0 0, hz 1 1]).1)) = ([], false) := by
  constructor <;> decide

/-- A sequence number that no transaction has, because it was given up, keeps shards from being merged. -/
theorem C70_gap_refused : Convert.main true true [fv 0 0, fv 2 2] = ([.create (hz 0 0), .create (hz 2 2)], false) := by decide

/-- Where ranges overlap, a shard that is the union of others may be missed. -/
theorem C70_missed : Convert.covered (Convert.hazelFiles [hz 0 5, hz 0 3, hz 0 1, hz 2 5]) (hz 0 5) = false ∧ Covers 0 5 [hz 0 1, hz 2 5] := by
  refine ⟨by decide, rfl, rfl, rfl⟩

end Verif.Props
