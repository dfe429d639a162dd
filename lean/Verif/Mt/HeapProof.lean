import Verif.Mt.HeapSpec
/-
  The memory of gcl/mt.cc: trees, lists of free nodes and definitions in memory, and what each function leaves.
-/
namespace Verif.Mt

theorem bind_run {α β : Type} {x : H α} {f : α → H β} {m m' : Mem} {a : α} (h : x m = some (a, m')) : (x >>= f) m = f a m' := by
  show H.bind x f m = _
  unfold H.bind; rw [h]

/-! ### what is in memory -/

theorem Tree.head {h : Ptr → Option Cell} {p : Ptr} {q : Q} {fp : List Ptr} (t : Tree h p q fp) : p ∈ fp := by
  cases t <;> simp

mutual
theorem Tree.keep {h h' : Ptr → Option Cell} {p : Ptr} {q : Q} {fp : List Ptr} :
    Tree h p q fp → (∀ x ∈ fp, h' x = h x) → Tree h' p q fp
  | .bin e t1 t2, k => .bin (by rw [k _ (by simp)]; exact e) (t1.keep fun x hx => k x (by simp [hx])) (t2.keep fun x hx => k x (by simp [hx]))
  | .nofm e t1, k => .nofm (by rw [k _ (by simp)]; exact e) (t1.keep fun x hx => k x (by simp [hx]))
  | .term e1 e2 e3, k => .term (by rw [k _ (by simp)]; exact e1) (by rw [k _ (by simp)]; exact e2) (by rw [k _ (by simp)]; exact e3)
  | .fixed e, k => .fixed (by rw [k _ (by simp)]; exact e)
theorem TreeL.keep {h h' : Ptr → Option Cell} {p : Ptr} {es : List Q} {fp : List Ptr} :
    TreeL h p es fp → (∀ x ∈ fp, h' x = h x) → TreeL h' p es fp
  | .nil, _ => .nil
  | .cons e t1 t2, k => .cons (by rw [k _ (by simp)]; exact e) (t1.keep fun x hx => k x (by simp [hx])) (t2.keep fun x hx => k x (by simp [hx]))
end

theorem Chain.keep {h h' : Ptr → Option Cell} {p : Ptr} {fl : List Ptr} (c : Chain h p fl) (k : ∀ x ∈ fl, h' x = h x) : Chain h' p fl := by
  induction c with
  | nil => exact .nil
  | cons e _ ih => exact .cons (by rw [k _ (by simp)]; exact e) (ih fun x hx => k x (by simp [hx]))

theorem EnvTree.keep {h h' : Ptr → Option Cell} {p : Ptr} {env : Env} {fp : List Ptr} (c : EnvTree h p env fp)
    (k : ∀ x ∈ fp, h' x = h x) : EnvTree h' p env fp := by
  induction c with
  | nil => exact .nil
  | cons e1 e2 t _ ih =>
    exact .cons (by rw [k _ (by simp)]; exact e1) (by rw [k _ (by simp)]; exact e2) (t.keep fun x hx => k x (by simp [hx]))
      (ih fun x hx => k x (by simp [hx]))

/-! ### all of memory -/

/-- The memory is the free nodes `fl` of the thread and the addresses `F`, each once. -/
structure Inv (m : Mem) (fl F : List Ptr) : Prop where
  chain : Chain m.heap m.free fl
  nodup : (fl ++ F).Nodup
  dom : ∀ p, m.heap p ≠ none ↔ p ∈ fl ++ F
  bound : ∀ p ∈ fl ++ F, 0 < p ∧ p < m.next
  pos : 0 < m.next

/-- the memory at these addresses is as it was -/
def Keep (F : List Ptr) (m m' : Mem) : Prop := ∀ p ∈ F, m'.heap p = m.heap p

theorem Keep.refl (F : List Ptr) (m : Mem) : Keep F m m := fun _ _ => rfl
theorem Keep.trans {F : List Ptr} {a b c : Mem} (h1 : Keep F a b) (h2 : Keep F b c) : Keep F a c :=
  fun p hp => (h2 p hp).trans (h1 p hp)
theorem Keep.sub {F G : List Ptr} {a b : Mem} (h : Keep F a b) (s : ∀ p ∈ G, p ∈ F) : Keep G a b := fun p hp => h p (s p hp)

theorem Inv.perm {m : Mem} {fl F G : List Ptr} (h : Inv m fl F) (e : F.Perm G) : Inv m fl G where
  chain := h.chain
  nodup := (List.Perm.nodup_iff (e.append_left fl)).1 h.nodup
  dom p := by rw [h.dom, (e.append_left fl).mem_iff]
  bound p hp := h.bound p ((e.append_left fl).mem_iff.2 hp)
  pos := h.pos

theorem nodup_len : ∀ (n : Nat) (l : List Nat), l.Nodup → (∀ x ∈ l, x < n) → l.length ≤ n := by
  intro n
  induction n with
  | zero =>
    intro l _ h
    cases l with
    | nil => simp
    | cons a l => exact absurd (h a (by simp)) (by omega)
  | succ n ih =>
    intro l hd h
    have h1 := ih (l.erase n) (hd.erase n) (fun x hx => by
      have hx' := (List.Nodup.mem_erase_iff hd).1 hx
      have := h x hx'.2
      have := hx'.1
      omega)
    rw [List.length_erase] at h1
    split at h1 <;> omega

theorem Inv.len {m : Mem} {fl F : List Ptr} (h : Inv m fl F) : F.length ≤ m.next := by
  have := nodup_len m.next F (List.nodup_append.1 h.nodup).2.1 (fun x hx => (h.bound x (by simp [hx])).2)
  exact this

theorem Inv.ne {m : Mem} {fl F : List Ptr} (h : Inv m fl F) {p : Ptr} (hp : p ∈ F) : p ≠ 0 := by
  have := (h.bound p (by simp [hp])).1; omega

/-- part of `F` -/
def Within (fp F : List Ptr) : Prop := ∃ R, F.Perm (fp ++ R)

theorem Within.mem {fp F : List Ptr} (h : Within fp F) {p : Ptr} (hp : p ∈ fp) : p ∈ F := by
  obtain ⟨R, e⟩ := h; exact e.mem_iff.2 (by simp [hp])
theorem Within.len {fp F : List Ptr} (h : Within fp F) : fp.length ≤ F.length := by
  obtain ⟨R, e⟩ := h; rw [e.length_eq, List.length_append]; omega
theorem Within.left {fp G F : List Ptr} (h : Within fp F) : Within fp (G ++ F) := by
  obtain ⟨R, e⟩ := h
  refine ⟨G ++ R, (e.append_left G).trans ?_⟩
  rw [← List.append_assoc, ← List.append_assoc]
  exact List.perm_append_comm.append_right R
theorem Within.trans {a b c : List Ptr} (h1 : Within a b) (h2 : Within b c) : Within a c := by
  obtain ⟨R, e1⟩ := h1
  obtain ⟨S, e2⟩ := h2
  exact ⟨R ++ S, e2.trans (by rw [← List.append_assoc]; exact e1.append_right S)⟩
theorem Within.tree {m m' : Mem} {F fp : List Ptr} {p : Ptr} {q : Q} (t : Tree m.heap p q fp) (h : Within fp F) (k : Keep F m m') : Tree m'.heap p q fp :=
  t.keep fun x hx => k x (h.mem hx)

/-! ### what a function gives -/

/-- The function ends, and leaves `F` as it was and new memory `G`. -/
def Gives {α : Type} (x : H α) (m : Mem) (F : List Ptr) (P : α → Mem → List Ptr → Prop) : Prop :=
  ∃ a m' fl' G, x m = some (a, m') ∧ Inv m' fl' (G ++ F) ∧ Keep F m m' ∧ P a m' G

theorem Gives.bind {α β : Type} {x : H α} {f : α → H β} {m : Mem} {F : List Ptr} {P : α → Mem → List Ptr → Prop} {R : β → Mem → List Ptr → Prop}
    (h : Gives x m F P) (k : ∀ a m' fl' G, Inv m' fl' (G ++ F) → Keep F m m' → P a m' G → Gives (f a) m' F R) : Gives (x >>= f) m F R := by
  obtain ⟨a, m', fl', G, h1, h2, h3, h4⟩ := h
  obtain ⟨b, m'', fl'', G', g1, g2, g3, g4⟩ := k a m' fl' G h2 h3 h4
  exact ⟨b, m'', fl'', G', by rw [bind_run h1, g1], g2, h3.trans g3, g4⟩

theorem Gives.pure {α : Type} {a : α} {m : Mem} {fl G F : List Ptr} {P : α → Mem → List Ptr → Prop} (h : Inv m fl (G ++ F)) (p : P a m G) :
    Gives (Pure.pure a) m F P := ⟨a, m, fl, G, rfl, h, Keep.refl _ _, p⟩

/-- with part of the frame as what is left -/
theorem Gives.frame {α : Type} {x : H α} {m : Mem} {G F : List Ptr} {P R : α → Mem → List Ptr → Prop} (h : Gives x m (G ++ F) P)
    (k : ∀ a m' G', Keep (G ++ F) m m' → P a m' G' → ∃ G'', (G' ++ G).Perm G'' ∧ R a m' G'') : Gives x m F R := by
  obtain ⟨a, m', fl', G', h1, h2, h3, h4⟩ := h
  obtain ⟨G'', e, r⟩ := k a m' G' h3 h4
  refine ⟨a, m', fl', G'', h1, h2.perm ?_, h3.sub (by simp +contextual), r⟩
  rw [← List.append_assoc]
  exact e.append_right F

theorem Gives.conseq {α : Type} {x : H α} {m : Mem} {F : List Ptr} {P R : α → Mem → List Ptr → Prop} (h : Gives x m F P)
    (k : ∀ a m' G', Keep F m m' → P a m' G' → ∃ G'', G'.Perm G'' ∧ R a m' G'') : Gives x m F R :=
  Gives.frame (G := []) h fun a m' G' hk hp => by
    obtain ⟨G'', e, r⟩ := k a m' G' hk hp
    exact ⟨G'', by rw [List.append_nil]; exact e, r⟩

theorem Gives.of_perm {α : Type} {x : H α} {m : Mem} {F F' : List Ptr} {P : α → Mem → List Ptr → Prop} (h : Gives x m F P) (e : F.Perm F') :
    Gives x m F' P := by
  obtain ⟨a, m', fl', G, h1, h2, h3, h4⟩ := h
  exact ⟨a, m', fl', G, h1, h2.perm (e.append_left G), h3.sub fun p hp => e.mem_iff.2 hp, h4⟩

/-! ### the smallest steps -/

theorem put_other {m : Mem} {p x : Ptr} {c : Option Cell} (h : x ≠ p) : (m.put p c).heap x = m.heap x := by
  show (if x = p then c else m.heap x) = _
  rw [if_neg h]
theorem put_same {m : Mem} {p : Ptr} {c : Option Cell} : (m.put p c).heap p = c := by
  show (if p = p then c else m.heap p) = _
  rw [if_pos rfl]

theorem malloc_gives {m : Mem} {fl F : List Ptr} (h : Inv m fl F) (c : Cell) :
    Gives (malloc c) m F fun p m' G => G = [p] ∧ m'.heap p = some c := by
  have ne : ∀ p ∈ fl ++ F, p ≠ m.next := fun p hp => by have := (h.bound p hp).2; omega
  have hk : ∀ p, p ≠ m.next → (m.put m.next (some c)).heap p = m.heap p := fun p hp => put_other hp
  refine ⟨m.next, { m.put m.next (some c) with next := m.next + 1 }, fl, [m.next], rfl, ?_, fun p hp => hk p (ne p (by simp [hp])), rfl, put_same⟩
  refine ⟨h.chain.keep fun x hx => hk x (ne x (by simp [hx])), ?_, fun p => ?_, fun p hp => ?_, Nat.succ_pos _⟩
  · rw [List.singleton_append, (List.perm_middle (l₁ := fl) (a := m.next) (l₂ := F)).nodup_iff]
    exact List.nodup_cons.2 ⟨fun hm => ne _ hm rfl, h.nodup⟩
  · show (m.put m.next (some c)).heap p ≠ none ↔ _
    by_cases hp : p = m.next
    · subst hp; rw [put_same]; simp
    · rw [hk p hp, h.dom]; simp [hp]
  · have : p = m.next ∨ p ∈ fl ++ F := by
      simp only [List.mem_append, List.mem_singleton] at hp ⊢
      rcases hp with hp | hp | hp
      · exact Or.inr (Or.inl hp)
      · exact Or.inl hp
      · exact Or.inr (Or.inr hp)
    show 0 < p ∧ p < m.next + 1
    rcases this with rfl | hp
    · exact ⟨h.pos, Nat.lt_succ_self _⟩
    · have := h.bound p hp; omega

theorem free_gives {m : Mem} {fl F : List Ptr} {p : Ptr} (h : Inv m fl (p :: F)) : Gives (free p) m F fun _ _ G => G = [] := by
  have hd := h.nodup
  rw [(List.perm_middle (l₁ := fl) (a := p) (l₂ := F)).nodup_iff] at hd
  obtain ⟨hn, hd⟩ := List.nodup_cons.1 hd
  have hp : m.heap p ≠ none := (h.dom p).2 (by simp)
  have hk : ∀ x, x ≠ p → (m.put p none).heap x = m.heap x := fun x hx => put_other hx
  have ne : ∀ x ∈ fl ++ F, x ≠ p := fun x hx e => hn (e ▸ hx)
  refine ⟨(), m.put p none, fl, [], ?_, ⟨h.chain.keep fun x hx => hk x (ne x (by simp [hx])), hd, fun x => ?_, fun x hx => ?_, h.pos⟩,
    fun x hx => hk x (ne x (by simp [hx])), rfl⟩
  · unfold free
    cases hc : m.heap p with
    | none => exact absurd hc hp
    | some c => rfl
  · by_cases hx : x = p
    · subst hx; rw [put_same]; simpa using hn
    · rw [hk x hx, h.dom]; simp [hx]
  · exact h.bound x (by
      simp only [List.nil_append, List.mem_append, List.mem_cons] at hx ⊢
      rcases hx with hx | hx
      · exact Or.inl hx
      · exact Or.inr (Or.inr hx))

/-- a write to memory that is there -/
theorem Inv.write {m : Mem} {fl F : List Ptr} {p : Ptr} (h : Inv m fl (p :: F)) (c : Cell) : Inv (m.put p (some c)) fl (p :: F) := by
  have hd := h.nodup
  rw [(List.perm_middle (l₁ := fl) (a := p) (l₂ := F)).nodup_iff] at hd
  obtain ⟨hn, -⟩ := List.nodup_cons.1 hd
  refine ⟨h.chain.keep fun x hx => put_other fun e => hn (by rw [← e]; simp [hx]), h.nodup, fun x => ?_, h.bound, h.pos⟩
  by_cases hx : x = p
  · subst hx; rw [put_same]; simp
  · rw [put_other hx, h.dom]

theorem Inv.apart {m : Mem} {fl F : List Ptr} {p : Ptr} (h : Inv m fl (p :: F)) : ∀ x ∈ F, x ≠ p := by
  have hd := h.nodup
  rw [(List.perm_middle (l₁ := fl) (a := p) (l₂ := F)).nodup_iff] at hd
  obtain ⟨hn, -⟩ := List.nodup_cons.1 hd
  intro x hx e
  exact hn (by rw [← e]; simp [hx])

theorem writeNode_gives {m : Mem} {fl F : List Ptr} {p : Ptr} {n : Node} (h : Inv m fl (p :: F)) (e : m.heap p = some (.node n)) (n' : Node) :
    Gives (writeNode p n') m F fun _ m' G => G = [p] ∧ m'.heap p = some (.node n') := by
  refine ⟨(), m.put p (some (.node n')), fl, [p], ?_, h.write _, fun x hx => put_other (h.apart x hx), rfl, put_same⟩
  unfold writeNode; rw [e]

theorem readNode_run {m : Mem} {p : Ptr} {n : Node} (e : m.heap p = some (.node n)) : readNode p m = some (n, m) := by
  unfold readNode; rw [e]
theorem readCgrep_run {m : Mem} {p r : Ptr} (e : m.heap p = some (.cgrep r)) : readCgrep p m = some (r, m) := by
  unfold readCgrep; rw [e]
theorem readText_run {m : Mem} {p : Ptr} {s : List Char} (e : m.heap p = some (.text s)) : readText p m = some (s, m) := by
  unfold readText; rw [e]
theorem readEnv_run {m : Mem} {p a b c : Ptr} (e : m.heap p = some (.env a b c)) : readEnv p m = some ((a, b, c), m) := by
  unfold readEnv; rw [e]

/-- a function that begins by reading -/
theorem Gives.read {α β : Type} {x : H α} {f : α → H β} {m : Mem} {F : List Ptr} {a : α} {P : β → Mem → List Ptr → Prop}
    (e : x m = some (a, m)) (h : Gives (f a) m F P) : Gives (x >>= f) m F P := by
  obtain ⟨b, m', fl', G, h1, h2⟩ := h
  exact ⟨b, m', fl', G, by rw [bind_run e, h1], h2⟩

theorem allocQNode_gives {m : Mem} {fl F : List Ptr} (h : Inv m fl F) :
    Gives allocQNode m F fun p m' G => G = [p] ∧ ∃ n, m'.heap p = some (.node n) := by
  unfold allocQNode
  refine Gives.read (a := m.free) rfl ?_
  by_cases h0 : m.free = 0
  · rw [if_pos h0]
    exact (malloc_gives h _).conseq fun a m' G _ hp => ⟨G, .refl _, hp.1, _, hp.2⟩
  · rw [if_neg h0]
    have hc := h.chain
    generalize hf : m.free = f at *
    cases hc with
    | nil => exact absurd rfl h0
    | @cons _ n l e hc =>
      refine Gives.read (readNode_run e) ?_
      have hi : Inv { m with free := n.w1 } l (f :: F) := by
        refine ⟨hc, ?_, fun p => ?_, fun p hp => ?_, h.pos⟩
        · rw [(List.perm_middle (l₁ := l) (a := f) (l₂ := F)).nodup_iff]; exact h.nodup
        · show m.heap p ≠ none ↔ _
          rw [h.dom, (List.perm_middle (l₁ := l) (a := f) (l₂ := F)).mem_iff]; rfl
        · exact h.bound p ((List.perm_middle (l₁ := l) (a := f) (l₂ := F)).mem_iff.1 hp)
      obtain ⟨u, m', fl', G, g1, g2, g3, g4, g5⟩ := writeNode_gives hi e { n with type := .null }
      refine ⟨f, m', fl', G, ?_, g2, g3, g4, _, g5⟩
      rw [bind_run (x := setFree n.w1) (a := ()) (m' := { m with free := n.w1 }) rfl, bind_run g1]
      rfl

theorem freeQNode_gives {m : Mem} {fl F : List Ptr} {p : Ptr} {n : Node} (h : Inv m fl (p :: F)) (e : m.heap p = some (.node n)) :
    Gives (freeQNode p) m F fun _ _ G => G = [] := by
  unfold freeQNode
  refine Gives.read (a := m.free) rfl (Gives.read (readNode_run e) ?_)
  have hw := h.write (.node { n with w1 := m.free })
  refine ⟨(), { m.put p (some (.node { n with w1 := m.free })) with free := p }, p :: fl, [], ?_, ?_, fun x hx => put_other (h.apart x hx), rfl⟩
  · rw [bind_run (x := writeNode p { n with w1 := m.free }) (a := ()) (m' := m.put p (some (.node { n with w1 := m.free })))]
    · rfl
    · unfold writeNode; rw [e]
  · have pm := List.perm_middle (l₁ := fl) (a := p) (l₂ := F)
    refine ⟨Chain.cons put_same hw.chain, ?_, fun x => ?_, fun x hx => ?_, h.pos⟩
    · exact pm.nodup_iff.1 h.nodup
    · show (m.put p (some (.node { n with w1 := m.free }))).heap x ≠ none ↔ _
      rw [hw.dom, pm.mem_iff]; rfl
    · exact h.bound x (pm.mem_iff.2 hx)

/-! ### nodes and terms -/

theorem allocNode_gives {m : Mem} {fl F : List Ptr} (h : Inv m fl F) (t : NodeType) (a b : Nat) :
    Gives (allocNode t a b) m F fun p m' G => G = [p] ∧ m'.heap p = some (.node ⟨t, a, b⟩) := by
  unfold allocNode
  refine (allocQNode_gives h).bind fun p m' fl' G hi hk hp => ?_
  obtain ⟨rfl, n, hn⟩ := hp
  refine (writeNode_gives hi hn ⟨t, a, b⟩).bind fun u m'' fl'' G' hi' hk' hp' => ?_
  obtain ⟨rfl, hn'⟩ := hp'
  exact Gives.pure hi' ⟨rfl, hn'⟩

theorem allocTermQ_gives {m : Mem} {fl F : List Ptr} (h : Inv m fl F) (t : Ptr) :
    Gives (allocTermQ t) m F fun p m' G => G = [p] ∧ ∃ w, m'.heap p = some (.node ⟨.term, t, w⟩) := by
  unfold allocTermQ
  refine (allocQNode_gives h).bind fun p m' fl' G hi hk hp => ?_
  obtain ⟨rfl, n, hn⟩ := hp
  refine Gives.read (readNode_run hn) ?_
  refine (writeNode_gives hi hn { n with type := .term, w0 := t }).bind fun u m'' fl'' G' hi' hk' hp' => ?_
  obtain ⟨rfl, hn'⟩ := hp'
  exact Gives.pure hi' ⟨rfl, _, hn'⟩

theorem allocNumberQ_gives {m : Mem} {fl F : List Ptr} (h : Inv m fl F) (t : NodeType) (k : Nat) :
    Gives (allocNumberQ t k) m F fun p m' G => G = [p] ∧ ∃ w, m'.heap p = some (.node ⟨t, w, k⟩) := by
  unfold allocNumberQ
  refine (allocQNode_gives h).bind fun p m' fl' G hi hk hp => ?_
  obtain ⟨rfl, n, hn⟩ := hp
  refine Gives.read (readNode_run hn) ?_
  refine (writeNode_gives hi hn { n with type := t, w1 := k }).bind fun u m'' fl'' G' hi' hk' hp' => ?_
  obtain ⟨rfl, hn'⟩ := hp'
  exact Gives.pure hi' ⟨rfl, _, hn'⟩

theorem termCreate_gives {m : Mem} {fl F : List Ptr} (h : Inv m fl F) (s : List Char) :
    Gives (termCreate s) m F fun t m' G => ∃ r, G = [t, r] ∧ m'.heap t = some (.cgrep r) ∧ m'.heap r = some (.text s) := by
  unfold termCreate
  refine (malloc_gives h (.text s)).bind fun r m' fl' G hi hk hp => ?_
  obtain ⟨rfl, hr⟩ := hp
  refine (malloc_gives hi (.cgrep r)).frame fun t m'' G' hk' hp' => ?_
  obtain ⟨rfl, ht⟩ := hp'
  exact ⟨[t, r], .refl _, r, rfl, ht, by rw [hk' r (by simp)]; exact hr⟩

theorem termString_run {m : Mem} {t r : Ptr} {s : List Char} (ht : m.heap t = some (.cgrep r)) (hr : m.heap r = some (.text s)) :
    termString t m = some (s, m) := by
  unfold termString
  rw [bind_run (readCgrep_run ht), readText_run hr]

theorem termFree_gives {m : Mem} {fl F : List Ptr} {t r : Ptr} (h : Inv m fl (t :: r :: F)) (ht : m.heap t = some (.cgrep r)) :
    Gives (termFree t) m F fun _ _ G => G = [] := by
  unfold termFree
  refine Gives.read (readCgrep_run ht) ?_
  refine ((free_gives (h.perm (.swap r t F))).of_perm (F' := [t] ++ F) (.refl _)).frame (R := fun _ _ G => G = [t])
    (fun _ _ G _ e => ⟨[t], by rw [e]; exact .refl _, rfl⟩) |>.bind fun _ m' fl' G hi hk hp => ?_
  subst hp
  exact free_gives hi

/-! ### trees -/

theorem walks (k : Nat) :
    (∀ {m : Mem} {fl F : List Ptr} {p : Ptr} {q : Q} {fp : List Ptr}, Inv m fl (fp ++ F) → Tree m.heap p q fp → fp.length < k →
      Gives (freeQ k p) m F fun _ _ G => G = []) ∧
    (∀ {m : Mem} {fl F : List Ptr} {p : Ptr} {es : List Q} {fp : List Ptr}, Inv m fl (fp ++ F) → TreeL m.heap p es fp → fp.length < k →
      Gives (freeQ k p) m F fun _ _ G => G = []) := by
  induction k with
  | zero => exact ⟨fun _ _ h => absurd h (by omega), fun _ _ h => absurd h (by omega)⟩
  | succ k ih =>
    obtain ⟨ih1, ih2⟩ := ih
    -- two parts one after the other
    have two : ∀ {m : Mem} {fl F : List Ptr} {p a b : Ptr} {t : NodeType} {n1 n2 : List Ptr} {x y : H Unit},
        Inv m fl (p :: (n1 ++ n2) ++ F) → m.heap p = some (.node ⟨t, a, b⟩) →
        (∀ {m' : Mem} {fl' F' : List Ptr}, Inv m' fl' (n1 ++ F') → (∀ z ∈ n1, m'.heap z = m.heap z) → Gives x m' F' fun _ _ G => G = []) →
        (∀ {m' : Mem} {fl' F' : List Ptr}, Inv m' fl' (n2 ++ F') → (∀ z ∈ n2, m'.heap z = m.heap z) → Gives y m' F' fun _ _ G => G = []) →
        Gives ((do x; y) >>= fun _ => freeQNode p) m F fun _ _ G => G = [] := by
      intro m fl F p a b t n1 n2 x y hi e hx hy
      have h1 : Inv m fl (n1 ++ (n2 ++ ([p] ++ F))) := hi.perm (by
        rw [List.cons_append, List.append_assoc, ← List.append_assoc n1 n2, ← List.append_assoc n1 n2]
        exact (List.perm_middle (l₁ := n1 ++ n2) (a := p) (l₂ := F)).symm)
      have g1 : Gives (do x; y) m ([p] ++ F) fun _ _ G => G = [] := by
        refine ((hx h1 fun _ _ => rfl).frame (R := fun _ m' G => G = n2 ∧ Keep n2 m m') fun _ m' G hk e => ⟨n2, by rw [e]; exact .refl _, rfl,
          hk.sub (by simp +contextual)⟩).bind fun _ m' fl' G hi' hk hp => ?_
        obtain ⟨rfl, hk2⟩ := hp
        exact hy hi' hk2
      refine (g1.frame (R := fun _ m' G => G = [p] ∧ m'.heap p = m.heap p) fun _ m' G hk e => ⟨[p], by rw [e]; exact .refl _, rfl,
        hk p (by simp)⟩).bind fun _ m' fl' G hi' hk hp => ?_
      obtain ⟨rfl, hp⟩ := hp
      exact freeQNode_gives hi' (hp.trans e)
    have one : ∀ {m : Mem} {fl F : List Ptr} {p a b : Ptr} {t : NodeType} {n1 : List Ptr} {x : H Unit},
        Inv m fl (p :: n1 ++ F) → m.heap p = some (.node ⟨t, a, b⟩) →
        (∀ {F' : List Ptr}, Inv m fl (n1 ++ F') → Gives x m F' fun _ _ G => G = []) →
        Gives (x >>= fun _ => freeQNode p) m F fun _ _ G => G = [] := by
      intro m fl F p a b t n1 x hi e hx
      have h1 : Inv m fl (n1 ++ ([p] ++ F)) := hi.perm ((List.perm_middle (l₁ := n1) (a := p) (l₂ := F)).symm)
      refine ((hx h1).frame (R := fun _ m' G => G = [p] ∧ m'.heap p = m.heap p) fun _ m' G hk e => ⟨[p], by rw [e]; exact .refl _, rfl,
        hk p (by simp)⟩).bind fun _ m' fl' G hi' hk hp => ?_
      obtain ⟨rfl, hp⟩ := hp
      exact freeQNode_gives hi' (hp.trans e)
    constructor
    · intro m fl F p q fp hi ht hl
      have hp0 : p ≠ 0 := hi.ne (by simp [ht.head])
      unfold freeQ
      rw [if_neg hp0]
      cases ht with
      | bin e t1 t2 =>
        refine Gives.read (readNode_run e) ?_
        simp only [List.length_cons, List.length_append] at hl
        exact two hi e (fun h hk => ih1 h (t1.keep hk) (by omega)) (fun h hk => ih1 h (t2.keep hk) (by omega))
      | nofm e t1 =>
        refine Gives.read (readNode_run e) ?_
        simp only [List.length_cons] at hl
        exact one hi e fun h => ih2 h t1 (by omega)
      | @term _ t w r s e e1 e2 =>
        refine Gives.read (readNode_run e) ?_
        exact one (n1 := [t, r]) hi e fun h => termFree_gives h e1
      | fixed e =>
        refine Gives.read (readNode_run e) ?_
        exact one (n1 := []) hi e fun h => Gives.pure (G := []) h rfl
    · intro m fl F p es fp hi ht hl
      cases ht with
      | nil =>
        unfold freeQ
        rw [if_pos rfl]
        exact Gives.pure (G := []) hi rfl
      | cons e t1 t2 =>
        have hp0 : p ≠ 0 := hi.ne (by simp)
        unfold freeQ
        rw [if_neg hp0]
        refine Gives.read (readNode_run e) ?_
        simp only [List.length_cons, List.length_append] at hl
        exact two hi e (fun h hk => ih1 h (t1.keep hk) (by omega)) (fun h hk => ih2 h (t2.keep hk) (by omega))

theorem freeQ_gives {m : Mem} {fl F : List Ptr} {p : Ptr} {q : Q} {fp : List Ptr} (h : Inv m fl (fp ++ F)) (t : Tree m.heap p q fp) :
    Gives (walk freeQ p) m F fun _ _ G => G = [] := by
  have hl := h.len
  rw [List.length_append] at hl
  exact (walks (m.next + 1)).1 h t (by omega)

theorem counts (k : Nat) : ∀ {m : Mem} {p : Ptr} {es : List Q} {fp : List Ptr}, TreeL m.heap p es fp → (∀ x ∈ fp, x ≠ 0) → fp.length < k →
    countElements k p m = some (es.length, m) := by
  induction k with
  | zero => exact fun _ _ h => absurd h (by omega)
  | succ k ih =>
    intro m p es fp t h0 hl
    unfold countElements
    cases t with
    | nil => rw [if_pos rfl]; rfl
    | cons e t1 t2 =>
      simp only [List.length_cons, List.length_append] at hl
      rw [if_neg (h0 p (by simp)), bind_run (readNode_run e), bind_run (ih t2 (fun x hx => h0 x (by simp [hx])) (by omega))]
      rfl

theorem prints (k : Nat) :
    (∀ {m : Mem} {p : Ptr} {q : Q} {fp : List Ptr}, Tree m.heap p q fp → (∀ x ∈ fp, x ≠ 0) → fp.length < k → toS k p m = some (print q, m)) ∧
    (∀ {m : Mem} {p : Ptr} {es : List Q} {fp : List Ptr}, TreeL m.heap p es fp → (∀ x ∈ fp, x ≠ 0) → fp.length < k → toS k p m = some (printL es, m)) := by
  induction k with
  | zero => exact ⟨fun _ _ h => absurd h (by omega), fun _ _ h => absurd h (by omega)⟩
  | succ k ih =>
    obtain ⟨ih1, ih2⟩ := ih
    constructor
    · intro m p q fp t h0 hl
      unfold toS
      rw [if_neg (h0 p t.head)]
      cases t with
      | bin e t1 t2 =>
        simp only [List.length_cons, List.length_append] at hl
        rw [bind_run (readNode_run e)]
        show (toS k _ >>= fun l => toS k _ >>= fun r => _) m = _
        rw [bind_run (ih1 t1 (fun x hx => h0 x (by simp [hx])) (by omega)), bind_run (ih1 t2 (fun x hx => h0 x (by simp [hx])) (by omega))]
        rw [print]; rfl
      | @nofm _ a n es n1 e t1 =>
        simp only [List.length_cons] at hl
        rw [bind_run (readNode_run e), print]
        have hT := ih2 t1 (fun x hx => h0 x (by simp [hx])) (by omega)
        have hC := counts k t1 (fun x hx => h0 x (by simp [hx])) (by omega)
        simp only
        by_cases h1 : n = 0
        · rw [if_pos h1, if_pos h1]; rfl
        · rw [if_neg h1, if_neg h1]
          by_cases h2 : n = 1
          · rw [if_pos h2, if_pos h2, bind_run hT]; rfl
          · rw [if_neg h2, if_neg h2, bind_run hC]
            by_cases h3 : n = es.length
            · rw [if_pos h3, if_pos h3, bind_run hT]; rfl
            · rw [if_neg h3, if_neg h3]
              by_cases h4 : n < es.length
              · rw [if_pos h4, if_pos h4, bind_run hT]; rfl
              · rw [if_neg h4, if_neg h4]; rfl
      | term e e1 e2 =>
        rw [bind_run (readNode_run e)]
        show (termString _ >>= fun s => _) m = _
        rw [bind_run (termString_run e1 e2), print]; rfl
      | fixed e => rw [bind_run (readNode_run e), print]; rfl
    · intro m p es fp t h0 hl
      unfold toS
      cases t with
      | nil => rw [if_pos rfl]; rw [printL]; rfl
      | cons e t1 t2 =>
        rw [if_neg (h0 p (by simp))]
        simp only [List.length_cons, List.length_append] at hl
        rw [bind_run (readNode_run e)]
        show (toS k _ >>= fun l => toS k _ >>= fun r => _) m = _
        rw [bind_run (ih1 t1 (fun x hx => h0 x (by simp [hx])) (by omega)), bind_run (ih2 t2 (fun x hx => h0 x (by simp [hx])) (by omega))]
        rw [printL]; rfl

theorem copies (k : Nat) :
    (∀ {m : Mem} {fl F : List Ptr} {p : Ptr} {q : Q} {fp : List Ptr}, Inv m fl F → Within fp F → Tree m.heap p q fp → fp.length < k →
      Gives (copyQ k p) m F fun p' m' G => Tree m'.heap p' q G) ∧
    (∀ {m : Mem} {fl F : List Ptr} {p : Ptr} {es : List Q} {fp : List Ptr}, Inv m fl F → Within fp F → TreeL m.heap p es fp → fp.length < k →
      Gives (copyQ k p) m F fun p' m' G => TreeL m'.heap p' es G) := by
  have w1 : ∀ {p : Ptr} {a b F : List Ptr}, Within (p :: (a ++ b)) F → Within a F := fun {p a b F} ⟨R, e⟩ =>
    ⟨b ++ (p :: R), e.trans (by
      rw [List.cons_append, List.append_assoc, ← List.append_assoc, ← List.append_assoc]
      exact (List.perm_middle (l₁ := a ++ b) (a := p) (l₂ := R)).symm)⟩
  have w2 : ∀ {p : Ptr} {a b F : List Ptr}, Within (p :: (a ++ b)) F → Within b F := fun {p a b F} ⟨R, e⟩ =>
    ⟨a ++ (p :: R), e.trans (by
      rw [List.cons_append, List.append_assoc, ← List.append_assoc, ← List.append_assoc]
      exact ((List.perm_middle (l₁ := a ++ b) (a := p) (l₂ := R)).symm).trans (List.perm_append_comm.append_right _))⟩
  induction k with
  | zero => exact ⟨fun _ _ _ h => absurd h (by omega), fun _ _ _ h => absurd h (by omega)⟩
  | succ k ih =>
    obtain ⟨ih1, ih2⟩ := ih
    constructor
    · intro m fl F p q fp hi hw ht hl
      have hp0 : p ≠ 0 := hi.ne (hw.mem ht.head)
      unfold copyQ
      rw [if_neg hp0]
      cases ht with
      | @bin _ a b op l r n1 n2 e t1 t2 =>
        refine Gives.read (readNode_run e) ?_
        simp only [List.length_cons, List.length_append] at hl
        refine (ih1 hi (w1 hw) t1 (by omega)).bind fun x m1 fl1 G1 hi1 hk1 hx => ?_
        refine ((ih1 hi1 (w2 hw).left ((w2 hw).tree t2 hk1) (by omega)).frame (R := fun y m2 G => ∃ G2, G = G1 ++ G2 ∧ Tree m2.heap x l G1 ∧ Tree m2.heap y r G2)
          fun y m2 G2 hk2 hy => ⟨G1 ++ G2, List.perm_append_comm, G2, rfl, hx.keep fun z hz => hk2 z (by simp [hz]), hy⟩).bind
          fun y m2 fl2 G hi2 hk2 hy => ?_
        obtain ⟨G2, rfl, hx2, hy2⟩ := hy
        refine (allocNode_gives hi2 _ _ _).frame fun z m3 G3 hk3 hz => ?_
        obtain ⟨rfl, hz⟩ := hz
        exact ⟨z :: (G1 ++ G2), .refl _, .bin hz (hx2.keep fun v hv => hk3 v (by simp [hv])) (hy2.keep fun v hv => hk3 v (by simp [hv]))⟩
      | @nofm _ a n es n1 e t1 =>
        refine Gives.read (readNode_run e) ?_
        simp only [List.length_cons] at hl
        have hw' : Within n1 F := w1 (b := []) (by rw [List.append_nil]; exact hw)
        refine (ih2 hi hw' t1 (by omega)).bind fun x m1 fl1 G1 hi1 hk1 hx => ?_
        refine (allocNode_gives hi1 _ _ _).frame fun z m3 G3 hk3 hz => ?_
        obtain ⟨rfl, hz⟩ := hz
        exact ⟨z :: G1, .refl _, .nofm hz (hx.keep fun v hv => hk3 v (by simp [hv]))⟩
      | @term _ t0 w0 r0 s e e1 e2 =>
        refine Gives.read (readNode_run e) ?_
        refine Gives.bind (P := fun t m' G => ∃ r, G = [t, r] ∧ m'.heap t = some (.cgrep r) ∧ m'.heap r = some (.text s)) ?_
          fun t m1 fl1 G1 hi1 hk1 hx => ?_
        · unfold termCopy
          exact Gives.read (termString_run e1 e2) (termCreate_gives hi _)
        · obtain ⟨r, rfl, ht, hr⟩ := hx
          refine (allocTermQ_gives hi1 t).frame fun z m3 G3 hk3 hz => ?_
          obtain ⟨rfl, w, hz⟩ := hz
          exact ⟨[z, t, r], .refl _, .term hz (by rw [hk3 t (by simp)]; exact ht) (by rw [hk3 r (by simp)]; exact hr)⟩
      | fixed e =>
        refine Gives.read (readNode_run e) ?_
        refine (allocNumberQ_gives hi _ _).conseq fun z m3 G3 hk3 hz => ?_
        obtain ⟨rfl, w, hz⟩ := hz
        exact ⟨[z], .refl _, .fixed hz⟩
    · intro m fl F p es fp hi hw ht hl
      cases ht with
      | nil =>
        unfold copyQ
        rw [if_pos rfl]
        exact Gives.pure (G := []) hi .nil
      | @cons _ a b e es n1 n2 e' t1 t2 =>
        have hp0 : p ≠ 0 := hi.ne (hw.mem (by simp))
        unfold copyQ
        rw [if_neg hp0]
        refine Gives.read (readNode_run e') ?_
        simp only [List.length_cons, List.length_append] at hl
        refine (ih1 hi (w1 hw) t1 (by omega)).bind fun x m1 fl1 G1 hi1 hk1 hx => ?_
        refine ((ih2 hi1 (w2 hw).left (t2.keep fun z hz => hk1 z ((w2 hw).mem hz)) (by omega)).frame
          (R := fun y m2 G => ∃ G2, G = G1 ++ G2 ∧ Tree m2.heap x e G1 ∧ TreeL m2.heap y es G2)
          fun y m2 G2 hk2 hy => ⟨G1 ++ G2, List.perm_append_comm, G2, rfl, hx.keep fun z hz => hk2 z (by simp [hz]), hy⟩).bind
          fun y m2 fl2 G hi2 hk2 hy => ?_
        obtain ⟨G2, rfl, hx2, hy2⟩ := hy
        refine (allocNode_gives hi2 _ _ _).frame fun z m3 G3 hk3 hz => ?_
        obtain ⟨rfl, hz⟩ := hz
        exact ⟨z :: (G1 ++ G2), .refl _, .cons hz (hx2.keep fun v hv => hk3 v (by simp [hv])) (hy2.keep fun v hv => hk3 v (by simp [hv]))⟩

theorem copyQ_gives {m : Mem} {fl F : List Ptr} {p : Ptr} {q : Q} {fp : List Ptr} (h : Inv m fl F) (w : Within fp F) (t : Tree m.heap p q fp) :
    Gives (walk copyQ p) m F fun p' m' G => Tree m'.heap p' q G := by
  have h1 := h.len
  have h2 := w.len
  exact (copies (m.next + 1)).1 h w t (by omega)

theorem toS_run {m : Mem} {fl F : List Ptr} {p : Ptr} {q : Q} {fp : List Ptr} (h : Inv m fl F) (w : Within fp F) (t : Tree m.heap p q fp) :
    walk toS p m = some (print q, m) := by
  have h1 := h.len
  have h2 := w.len
  exact (prints (m.next + 1)).1 t (fun x hx => h.ne (w.mem hx)) (by omega)

end Verif.Mt
