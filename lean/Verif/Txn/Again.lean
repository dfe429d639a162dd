/-
Opening a burrow that was opened before makes no call and finds the same shards.
-/
import Verif.Txn.System
namespace Verif.Txn

variable {τ α : Type} {M : Ops τ α} {flat : α → List (Entry τ)} {T : FName → α → Prop} {d : Disk α}
  {du : List (Entry τ)}

theorem sorted_unique : ∀ {l l' : List FName}, l.Pairwise (fun a b => a.hi < b.lo) → l'.Pairwise (fun a b => a.hi < b.lo) →
    (∀ a ∈ l, a.lo ≤ a.hi) → (∀ n, n ∈ l ↔ n ∈ l') → l = l'
  | [], [], _, _, _, _ => rfl
  | [], b :: l', _, _, _, h => by have := (h b).2 (by simp); cases this
  | a :: l, [], _, _, _, h => by have := (h a).1 (by simp); cases this
  | a :: l, b :: l', h1, h2, hr, h => by
    have g1 := List.pairwise_cons.1 h1
    have g2 := List.pairwise_cons.1 h2
    have ra := hr a (by simp)
    have rb := hr b ((h b).2 (by simp))
    have e : a = b := by
      rcases List.mem_cons.1 ((h a).1 (by simp)) with e | e
      · exact e
      rcases List.mem_cons.1 ((h b).2 (by simp)) with e' | e'
      · exact e'.symm
      have := g1.1 b e'
      have := g2.1 a e
      omega
    subst e
    rw [sorted_unique g1.2 g2.2 (fun x hx => hr x (by simp [hx]))]
    intro n
    constructor
    · intro hn
      rcases List.mem_cons.1 ((h n).1 (by simp [hn])) with e | e
      · subst e; have := g1.1 n hn; omega
      · exact e
    · intro hn
      rcases List.mem_cons.1 ((h n).2 (by simp [hn])) with e | e
      · subst e; have := g2.1 n hn; omega
      · exact e

theorem Quiet.settled (h : Quiet M flat T d du) (hs : d.scripts = [])
    (hf : ∀ n x, (n, x) ∈ d.files → ∃ b, T n b) {all : List FName} (ho : all.Pairwise fun a b => a.hi < b.lo)
    (ha : ∀ n, n ∈ all ↔ ∃ b, T n b) : sanitize d = ([], some all) := by
  obtain ⟨F, DF, H, DH, gone, all', eF, eH, eC, oA, mA, _, _, nT⟩ := h.tail hs
  have none : ∀ {l : List FName}, (∀ n ∈ l, (∃ x, (n, x) ∈ d.files) ∧ ∀ b, ¬ T n b) → l = [] := by
    intro l hl
    cases l with
    | nil => rfl
    | cons n l =>
      obtain ⟨⟨x, hx⟩, hn⟩ := hl n (by simp)
      obtain ⟨b, hb⟩ := hf n x hx
      exact absurd hb (hn b)
  have kind : ∀ k, k = .temp ∨ k = .kitten → d.names k = [] := by
    intro k hk
    cases hl : d.names k with
    | nil => rfl
    | cons n l =>
      have hn : n ∈ d.names k := by rw [hl]; simp
      obtain ⟨q1, x, hx⟩ := mem_names.1 hn
      obtain ⟨b, hb⟩ := hf n x hx
      rcases h.shards hs hb with e | e <;> rw [q1] at e <;> rcases hk with e' | e' <;> rw [e'] at e <;> cases e
  have e1 := none (l := DF) fun n hn => nT n (.inl hn)
  have e2 := none (l := DH) fun n hn => nT n (.inr (.inl hn))
  have e3 := none (l := gone) fun n hn => nT n (.inr (.inr hn))
  have e4 : all' = all := sorted_unique oA ho (fun n hn => by
      obtain ⟨b, hb⟩ := (mA n).1 hn; exact h.rng n b hb) (fun n => (mA n).trans (ha n).symm)
  subst e1; subst e2; subst e3; subst e4
  have t0 : tempOps d = [] := by unfold tempOps; rw [kind _ (.inl rfl)]; rfl
  have s0 : scriptOps d = [] := by unfold scriptOps; rw [hs]; rfl
  have d0 : d.ops [] = d := rfl
  unfold sanitize
  simp only [t0, d0, s0, List.nil_append, eF, eH, kind _ (.inr rfl), List.map_nil, eC]

/-- opening again: no calls, the same memory -/
theorem Quiet.boot_again (hM : Lawful M flat) (h : Quiet M flat T d du) :
    (sanitize (Txn.boot M d).1).1 = [] ∧ Txn.boot M (Txn.boot M d).1 = Txn.boot M d := by
  obtain ⟨_, all, T', e1, q, e2, e3, e4, e5⟩ := h.sanitized
  obtain ⟨os, e6, _⟩ := q.booted hM e4 e2 e3 e5
  have hb : Txn.boot M d = (d.ops (sanitize d).1, some (Txn.booted M os)) := by
    simp only [Txn.boot, e1, e6, Option.map_some]
  have hs := q.settled e4 (fun n x hx => (e3 n).1 (e5 n x hx)) e2 e3
  rw [hb]
  dsimp only
  rw [hs]
  refine ⟨rfl, ?_⟩
  have d0 : (d.ops (sanitize d).1).ops [] = d.ops (sanitize d).1 := rfl
  simp only [Txn.boot, hs, d0, e6, Option.map_some]

end Verif.Txn
