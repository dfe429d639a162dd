import Verif.Marks.Model
/-
  C108: a query is evaluated with the levels of the judged documents that are in the collection, at the addresses where they start, and with as many relevant documents as were judged.
-/
namespace Verif.Props
open Verif.Marks

theorem rho_doc {docs : List Span} (h : Disjoint docs) {d : Span} (hd : d ∈ docs) {k : Int} (h1 : d.p ≤ k) (h2 : k ≤ d.q) : rho docs k = some d := by
  induction docs with
  | nil => cases hd
  | cons e ds ih =>
    unfold rho at *
    rcases List.mem_cons.1 hd with c | c
    · subst c
      rw [List.find?_cons_of_pos (p := fun d : Span => decide (k ≤ d.q)) (by simpa using h2)]
    · have := h.2.1 d c
      rw [List.find?_cons_of_neg (p := fun d : Span => decide (k ≤ d.q)) (by simp; omega)]
      exact ih h.2.2 c

theorem mem_namesIn {file : Span} {names : List Name} (h : Ordered names) (n : Name) : n ∈ namesIn file names ↔ n ∈ names ∧ file.p ≤ n.at_.p ∧ n.at_.q < file.q := by
  have htake : ∀ l : List Name, Ordered l → ∀ n, n ∈ l.takeWhile (fun n => decide (n.at_.q < file.q)) ↔ n ∈ l ∧ n.at_.q < file.q := by
    intro l
    induction l with
    | nil => intro _ n; simp
    | cons a l ih =>
      intro h n
      by_cases c : a.at_.q < file.q
      · rw [List.takeWhile_cons_of_pos (by simpa using c), List.mem_cons, List.mem_cons, ih h.2]
        constructor
        · rintro (e | e)
          · exact ⟨.inl e, e ▸ c⟩
          · exact ⟨.inr e.1, e.2⟩
        · rintro ⟨e | e, g⟩
          · exact .inl e
          · exact .inr ⟨e, g⟩
      · rw [List.takeWhile_cons_of_neg (by simpa using c)]
        constructor
        · intro e; cases e
        · rintro ⟨e, g⟩
          rcases List.mem_cons.1 e with e | e
          · exact absurd (e ▸ g) c
          · have := (h.1 n e).2; omega
  have hdrop : ∀ l : List Name, Ordered l → Ordered (l.dropWhile fun n => decide (n.at_.p < file.p)) ∧ ∀ n, n ∈ l.dropWhile (fun n => decide (n.at_.p < file.p)) ↔ n ∈ l ∧ file.p ≤ n.at_.p := by
    intro l
    induction l with
    | nil => intro _; exact ⟨trivial, fun n => by simp⟩
    | cons a l ih =>
      intro h
      by_cases c : a.at_.p < file.p
      · rw [List.dropWhile_cons_of_pos (by simpa using c)]
        refine ⟨(ih h.2).1, fun n => ?_⟩
        rw [(ih h.2).2, List.mem_cons]
        constructor
        · rintro ⟨e, g⟩; exact ⟨.inr e, g⟩
        · rintro ⟨e | e, g⟩
          · rw [e] at g; omega
          · exact ⟨e, g⟩
      · rw [List.dropWhile_cons_of_neg (by simpa using c)]
        refine ⟨h, fun n => ⟨fun e => ⟨e, ?_⟩, And.left⟩⟩
        rcases List.mem_cons.1 e with e | e
        · rw [e]; omega
        · have := (h.1 n e).1; omega
  unfold namesIn
  rw [htake _ (hdrop names h).1, (hdrop names h).2]
  constructor
  · rintro ⟨⟨a, b⟩, c⟩; exact ⟨a, b, c⟩
  · rintro ⟨a, b, c⟩; exact ⟨⟨a, b⟩, c⟩

/-- **C108** (marks): when documents are disjoint and each name is in one, a document is marked for a topic, from its start to the end of its name, if and only if its name is in the file and was judged for the topic, with
that level -/
theorem C108_marks (qrels : Qrels) (topic : List Char) {file : Span} {docs : List Span} {names : List Name} (hd : Disjoint docs) (ho : Ordered names) (hn : ∀ n ∈ names, n.at_.p ≤ n.at_.q ∧ ∃ d ∈ docs, Named d n)
    (x : Note) : x ∈ markFile qrels topic file docs names ↔
      ∃ n ∈ names, ∃ d ∈ docs, (file.p ≤ n.at_.p ∧ n.at_.q < file.q) ∧ Named d n ∧ qrels topic n.docno = some x.v ∧ x.p = d.p ∧ x.q = n.at_.q := by
  unfold markFile marks invert
  rw [List.mem_filterMap]
  constructor
  · rintro ⟨n, h, e⟩
    obtain ⟨h1, h2⟩ := (mem_namesIn ho n).1 h
    obtain ⟨hpq, d, hdm, hdn⟩ := hn n h1
    have hr := rho_doc hd hdm hdn.1 (by have := hdn.2; omega : n.at_.p ≤ d.q)
    rw [hr] at e
    dsimp only at e
    cases hq : qrels topic n.docno with
    | none => rw [hq] at e; cases e
    | some v =>
      rw [hq] at e
      injection e with e
      subst e
      exact ⟨n, h1, d, hdm, h2, hdn, hq, rfl, rfl⟩
  · rintro ⟨n, h1, d, hdm, h2, hdn, hq, e1, e2⟩
    refine ⟨n, (mem_namesIn ho n).2 ⟨h1, h2⟩, ?_⟩
    have hpq := (hn n h1).1
    rw [rho_doc hd hdm hdn.1 (by have := hdn.2; omega : n.at_.p ≤ d.q)]
    dsimp only
    rw [hq]
    obtain ⟨a, b, c⟩ := x
    dsimp only at e1 e2
    subst e1 e2
    rfl

theorem insertAt_mem (p : Int) (v : Rat) (m : List (Int × Rat)) (hn : (m.map (·.1)).Nodup) : ((insertAt p v m).map (·.1)).Nodup ∧ ∀ x y, (x, y) ∈ insertAt p v m ↔ (x = p ∧ y = v) ∨ (x ≠ p ∧ (x, y) ∈ m) := by
  induction m with
  | nil =>
    refine ⟨by simp [insertAt], fun x y => ?_⟩
    simp [insertAt]
  | cons a m ih =>
    obtain ⟨z, w⟩ := a
    have hn' : z ∉ m.map (·.1) ∧ (m.map (·.1)).Nodup := by simpa using hn
    obtain ⟨i1, i2⟩ := ih hn'.2
    have hz : ∀ y, (z, y) ∉ m := fun y h => hn'.1 (List.mem_map.2 ⟨_, h, rfl⟩)
    unfold insertAt
    by_cases c : z = p
    · subst c
      rw [if_pos rfl]
      refine ⟨hn, fun x y => ?_⟩
      rw [List.mem_cons, List.mem_cons, Prod.mk.injEq, Prod.mk.injEq]
      constructor
      · rintro (e | e)
        · exact .inl e
        · exact .inr ⟨fun c => hz y (c ▸ e), .inr e⟩
      · rintro (e | ⟨e, e' | e'⟩)
        · exact .inl e
        · exact absurd e'.1 e
        · exact .inr e'
    · rw [if_neg c]
      refine ⟨?_, fun x y => ?_⟩
      · rw [List.map_cons, List.nodup_cons]
        refine ⟨fun h => ?_, i1⟩
        obtain ⟨ab, h', e⟩ := List.mem_map.1 h
        have e' : ab.1 = z := e
        rcases (i2 ab.1 ab.2).1 h' with g | g
        · exact c (by rw [← e']; exact g.1)
        · exact hz ab.2 (by have := g.2; rw [e'] at this; exact this)
      · rw [List.mem_cons, List.mem_cons, i2, Prod.mk.injEq]
        constructor
        · rintro (e | e | e)
          · exact .inr ⟨e.1 ▸ c, .inl e⟩
          · exact .inl e
          · exact .inr ⟨e.1, .inr e.2⟩
        · rintro (e | ⟨e, e' | e'⟩)
          · exact .inr (.inl e)
          · exact .inl e'
          · exact .inr (.inr ⟨e, e'⟩)

theorem levels_mem {notes : List Note} (hn : ∀ a ∈ notes, ∀ b ∈ notes, a.p = b.p → a.v = b.v) : ((levels notes).map (·.1)).Nodup ∧ ∀ x y, (x, y) ∈ levels notes ↔ ∃ a ∈ notes, a.p = x ∧ a.v = y := by
  have key : ∀ (l : List Note) (m : List (Int × Rat)), (m.map (·.1)).Nodup → (∀ a ∈ l, ∀ b ∈ l, a.p = b.p → a.v = b.v) → (∀ a ∈ l, ∀ y, (a.p, y) ∈ m → y = a.v) →
      ((l.foldl (fun m n => insertAt n.p n.v m) m).map (·.1)).Nodup ∧ ∀ x y, (x, y) ∈ l.foldl (fun m n => insertAt n.p n.v m) m ↔ (x, y) ∈ m ∨ ∃ a ∈ l, a.p = x ∧ a.v = y := by
    intro l
    induction l with
    | nil => intro m h _ _; exact ⟨h, by simp⟩
    | cons n l ih =>
      intro m h hl hm
      obtain ⟨j1, j2⟩ := insertAt_mem n.p n.v m h
      obtain ⟨i1, i2⟩ := ih (insertAt n.p n.v m) j1 (fun a ha b hb => hl a (by simp [ha]) b (by simp [hb])) (by
        intro a ha y hy
        rcases (j2 _ _).1 hy with ⟨e, e'⟩ | ⟨-, e⟩
        · rw [e']; exact hl n (by simp) a (by simp [ha]) e.symm
        · exact hm a (by simp [ha]) y e)
      refine ⟨i1, fun x y => ?_⟩
      rw [List.foldl_cons, i2, j2]
      constructor
      · rintro ((⟨e, e'⟩ | ⟨-, e⟩) | ⟨a, ha, e⟩)
        · exact .inr ⟨n, by simp, e.symm, e'.symm⟩
        · exact .inl e
        · exact .inr ⟨a, by simp [ha], e⟩
      · rintro (e | ⟨a, ha, e⟩)
        · by_cases c : x = n.p
          · subst c
            exact .inl (.inl ⟨rfl, hm n (by simp) y e⟩)
          · exact .inl (.inr ⟨c, e⟩)
        · rcases List.mem_cons.1 ha with c | c
          · subst c
            exact .inl (.inl ⟨e.1.symm, e.2.symm⟩)
          · exact .inr ⟨a, c, e⟩
  obtain ⟨a, b⟩ := key notes [] (by simp) hn (by simp)
  exact ⟨a, fun x y => (b x y).trans (by simp)⟩

theorem insertAt_new (p : Int) (v : Rat) (m : List (Int × Rat)) (h : p ∉ m.map (·.1)) : insertAt p v m = m ++ [(p, v)] := by
  induction m with
  | nil => rfl
  | cons a m ih =>
    obtain ⟨z, w⟩ := a
    simp only [List.map_cons, List.mem_cons, not_or] at h
    unfold insertAt
    rw [if_neg fun e => h.1 e.symm, ih h.2]
    rfl

theorem pad_new : ∀ (k : Nat) (fake : Int) (m : List (Int × Rat)), (∀ x ∈ m.map (·.1), x < fake) → pad k fake m = m ++ (List.range k).map fun i : Nat => (fake + (i : Int), (1 : Rat)) := by
  intro k
  induction k with
  | zero => intro fake m _; simp [pad]
  | succ k ih =>
    intro fake m h
    have hf : fake ∉ m.map (·.1) := fun c => by have := h _ c; omega
    show pad k (fake + 1) (insertAt fake 1 m) = _
    rw [insertAt_new fake 1 m hf, ih (fake + 1)]
    · rw [List.append_assoc]
      congr 1
      rw [List.range_succ_eq_map, List.map_cons, List.map_map]
      show (fake, (1 : Rat)) :: _ = (fake + 0, 1) :: _
      congr 1
      · simp
      · refine List.map_congr_left fun i _ => ?_
        show (fake + 1 + (i : Int), (1 : Rat)) = (fake + ((i + 1 : Nat) : Int), 1)
        congr 1
        omega
    · intro x hx
      rw [List.map_append, List.mem_append] at hx
      rcases hx with hx | hx
      · have := h x hx; omega
      · simp at hx; omega

theorem fake_is : fakeStart = textEnd := by decide

/-- **C108** (table): the documents at which annotations start are in the table with their level, those that are missing of the number judged are there at addresses without text with level 1, and nothing else is.  The
table has as many documents as were judged, or those of the collection if they are more. -/
theorem C108_table {notes : List Note} (judged : Nat) (hn : ∀ a ∈ notes, ∀ b ∈ notes, a.p = b.p → a.v = b.v) (hp : ∀ a ∈ notes, a.p < textEnd) :
    (∀ x y, x < textEnd → ((x, y) ∈ table judged notes ↔ ∃ a ∈ notes, a.p = x ∧ a.v = y)) ∧ (∀ x y, textEnd ≤ x → (x, y) ∈ table judged notes → y = 1) ∧
    ((table judged notes).map (·.1)).Nodup ∧ (table judged notes).length = max judged (levels notes).length := by
  obtain ⟨l1, l2⟩ := levels_mem hn
  have hlt : ∀ x ∈ (levels notes).map (·.1), x < textEnd := by
    intro x hx
    obtain ⟨⟨a, b⟩, h, e⟩ := List.mem_map.1 hx
    dsimp only at e
    subst e
    obtain ⟨n, hm, e, -⟩ := (l2 a b).1 h
    rw [← e]; exact hp n hm
  have e := pad_new (judged - (levels notes).length) textEnd (levels notes) hlt
  unfold table
  rw [fake_is, e]
  refine ⟨fun x y hx => ?_, fun x y hx h => ?_, ?_, ?_⟩
  · rw [List.mem_append, l2]
    constructor
    · rintro (c | c)
      · exact c
      · obtain ⟨i, -, c⟩ := List.mem_map.1 c
        injection c with c _
        omega
    · exact .inl
  · rcases List.mem_append.1 h with c | c
    · have := hlt x (List.mem_map.2 ⟨_, c, rfl⟩); omega
    · obtain ⟨i, -, c⟩ := List.mem_map.1 c
      injection c with _ c
      exact c.symm
  · rw [List.map_append, List.nodup_append]
    refine ⟨l1, ?_, ?_⟩
    · rw [List.map_map]
      refine List.Pairwise.map _ ?_ List.nodup_range
      intro a b hab c
      apply hab
      simp only [Function.comp] at c
      omega
    · intro a ha b hb c
      obtain ⟨z, hz, e⟩ := List.mem_map.1 hb
      obtain ⟨i, -, e'⟩ := List.mem_map.1 hz
      subst e'
      have := hlt a ha
      dsimp only at e
      omega
  · simp only [List.length_append, List.length_map, List.length_range]
    omega

theorem disjoint_start : ∀ (l : List Span), Disjoint l → ∀ a ∈ l, ∀ b ∈ l, a.p = b.p → a = b := by
  intro l
  induction l with
  | nil => intro _ a ha; cases ha
  | cons c l ih =>
    intro h a ha b hb e
    rcases List.mem_cons.1 ha with ha | ha <;> rcases List.mem_cons.1 hb with hb | hb
    · rw [ha, hb]
    · have := h.2.1 b hb; have := h.1; rw [ha] at e; omega
    · have := h.2.1 a ha; have := h.1; rw [hb] at e; omega
    · exact ih h.2.2 a ha b hb e

theorem mem_markAll (qrels : Qrels) (topic : List Char) {files docs : List Span} {names : List Name} (hd : Disjoint docs) (ho : Ordered names) (hn : ∀ n ∈ names, n.at_.p ≤ n.at_.q ∧ ∃ d ∈ docs, Named d n)
    (x : Note) : x ∈ markAll qrels topic files docs names ↔
      ∃ n ∈ names, ∃ d ∈ docs, (∃ file ∈ files, file.p ≤ n.at_.p ∧ n.at_.q < file.q) ∧ Named d n ∧ qrels topic n.docno = some x.v ∧ x.p = d.p ∧ x.q = n.at_.q := by
  unfold markAll
  rw [List.mem_flatMap]
  constructor
  · rintro ⟨f, hf, h⟩
    obtain ⟨n, h1, d, h2, h3, h4⟩ := (C108_marks qrels topic hd ho hn x).1 h
    exact ⟨n, h1, d, h2, ⟨f, hf, h3⟩, h4⟩
  · rintro ⟨n, h1, d, h2, ⟨f, hf, h3⟩, h4⟩
    exact ⟨f, hf, (C108_marks qrels topic hd ho hn x).2 ⟨n, h1, d, h2, h3, h4⟩⟩

theorem markAll_level {qrels : Qrels} {topic : List Char} {files docs : List Span} {names : List Name} (hd : Disjoint docs) (ho : Ordered names) (hn : ∀ n ∈ names, n.at_.p ≤ n.at_.q ∧ ∃ d ∈ docs, Named d n)
    (hone : ∀ d ∈ docs, ∀ n ∈ names, ∀ m ∈ names, Named d n → Named d m → n = m) :
    ∀ a ∈ markAll qrels topic files docs names, ∀ b ∈ markAll qrels topic files docs names, a.p = b.p → a.v = b.v := by
  have hm := mem_markAll qrels topic (files := files) hd ho hn
  intro a ha b hb e
  obtain ⟨n1, h1, d1, g1, -, k1, q1, p1, -⟩ := (hm a).1 ha
  obtain ⟨n2, h2, d2, g2, -, k2, q2, p2, -⟩ := (hm b).1 hb
  have : d1 = d2 := disjoint_start docs hd d1 g1 d2 g2 (by rw [← p1, ← p2, e])
  subst this
  have := hone d1 g1 n1 h1 n2 h2 k1 k2
  subst this
  rw [q1] at q2
  injection q2

/-- **C108** (as judged), in part: in a collection of files of disjoint documents, each with one name, the level in the table at the start of a document is the one that its name was judged with, and a document that was not
judged is not in it.  Missing: documents with several names. -/
theorem C108_judged_partial (qrels : Qrels) (topic : List Char) {files docs : List Span} {names : List Name} (judged : Nat) (hd : Disjoint docs) (ho : Ordered names)
    (hn : ∀ n ∈ names, n.at_.p ≤ n.at_.q ∧ ∃ d ∈ docs, Named d n) (hf : ∀ n ∈ names, ∃ file ∈ files, file.p ≤ n.at_.p ∧ n.at_.q < file.q) (hlt : ∀ d ∈ docs, d.p < textEnd)
    (hone : ∀ d ∈ docs, ∀ n ∈ names, ∀ m ∈ names, Named d n → Named d m → n = m) {d : Span} (hdm : d ∈ docs) {n : Name} (hnm : n ∈ names) (hdn : Named d n) (v : Rat) :
    (d.p, v) ∈ table judged (markAll qrels topic files docs names) ↔ qrels topic n.docno = some v := by
  have hm := mem_markAll qrels topic (files := files) hd ho hn
  have hp : ∀ a ∈ markAll qrels topic files docs names, a.p < textEnd := by
    intro a ha
    obtain ⟨_, _, d1, g1, -, -, -, p1, -⟩ := (hm a).1 ha
    rw [p1]; exact hlt d1 g1
  rw [(C108_table judged (markAll_level hd ho hn hone) hp).1 d.p v (hlt d hdm)]
  constructor
  · rintro ⟨a, ha, e1, e2⟩
    obtain ⟨n1, h1, d1, g1, -, k1, q1, p1, -⟩ := (hm a).1 ha
    have : d1 = d := disjoint_start docs hd d1 g1 d hdm (by rw [← p1, e1])
    subst this
    have := hone d1 g1 n1 h1 n hnm k1 hdn
    subst this
    rw [q1, e2]
  · intro hq
    exact ⟨⟨d.p, n.at_.q, v⟩, (hm _).2 ⟨n, hnm, d, hdm, hf n hnm, hdn, hq, rfl, rfl⟩, rfl, rfl⟩

/-- **C108** (only what is there): an address of text that is in the table is the start of a document that is in a file of the collection, and was judged with that level; what was erased or never added does not count -/
theorem C108_present (qrels : Qrels) (topic : List Char) {files docs : List Span} {names : List Name} (judged : Nat) (hd : Disjoint docs) (ho : Ordered names)
    (hn : ∀ n ∈ names, n.at_.p ≤ n.at_.q ∧ ∃ d ∈ docs, Named d n) (hlt : ∀ d ∈ docs, d.p < textEnd) (hone : ∀ d ∈ docs, ∀ n ∈ names, ∀ m ∈ names, Named d n → Named d m → n = m)
    {x : Int} {v : Rat} (hx : x < textEnd) (h : (x, v) ∈ table judged (markAll qrels topic files docs names)) :
    ∃ file ∈ files, ∃ d ∈ docs, ∃ n ∈ names, d.p = x ∧ Named d n ∧ (file.p ≤ n.at_.p ∧ n.at_.q < file.q) ∧ qrels topic n.docno = some v := by
  have hm := mem_markAll qrels topic (files := files) hd ho hn
  have hp : ∀ a ∈ markAll qrels topic files docs names, a.p < textEnd := by
    intro a ha
    obtain ⟨_, _, d1, g1, -, -, -, p1, -⟩ := (hm a).1 ha
    rw [p1]; exact hlt d1 g1
  obtain ⟨a, ha, e1, e2⟩ := ((C108_table judged (markAll_level hd ho hn hone) hp).1 x v hx).1 h
  obtain ⟨n, h1, d, g1, ⟨f, hf, hb⟩, k1, q1, p1, -⟩ := (hm a).1 ha
  exact ⟨f, hf, d, g1, n, h1, by rw [← p1, e1], k1, hb, by rw [q1, e2]⟩

theorem length_le_of_rel {α β : Type} [DecidableEq β] (R : α → β → Prop) (hR : ∀ x y j, R x j → R y j → x = y) : ∀ (L : List α) (J : List β), L.Nodup → (∀ x ∈ L, ∃ j ∈ J, R x j) → L.length ≤ J.length := by
  intro L
  induction L with
  | nil => intro J _ _; exact Nat.zero_le _
  | cons x L ih =>
    intro J hL h
    obtain ⟨j, hj, hr⟩ := h x (by simp)
    have hL' := List.nodup_cons.1 hL
    have := ih (J.erase j) hL'.2 (fun y hy => by
      obtain ⟨k, hk, hs⟩ := h y (by simp [hy])
      refine ⟨k, (List.mem_erase_of_ne fun e => ?_).2 hk, hs⟩
      rw [e] at hs
      exact hL'.1 (hR y x j hs hr ▸ hy))
    rw [List.length_erase_of_mem hj] at this
    have : 0 < J.length := List.length_pos_of_mem hj
    simp only [List.length_cons]
    omega

/-- **C108** (as many): when no two documents of the collection have the same name, the table has exactly as many documents as were judged for the topic -/
theorem C108_as_many (qrels : Qrels) (topic : List Char) {files docs : List Span} {names : List Name} (hd : Disjoint docs) (ho : Ordered names)
    (hn : ∀ n ∈ names, n.at_.p ≤ n.at_.q ∧ ∃ d ∈ docs, Named d n) (hlt : ∀ d ∈ docs, d.p < textEnd)
    (hone : ∀ d ∈ docs, ∀ n ∈ names, ∀ m ∈ names, Named d n → Named d m → n = m) (huniq : ∀ n ∈ names, ∀ m ∈ names, n.docno = m.docno → n = m)
    (judged : List (List Char)) (hj : ∀ docno, (qrels topic docno).isSome → docno ∈ judged) :
    (table judged.length (markAll qrels topic files docs names)).length = judged.length := by
  have hm := mem_markAll qrels topic (files := files) hd ho hn
  have hp : ∀ a ∈ markAll qrels topic files docs names, a.p < textEnd := by
    intro a ha
    obtain ⟨_, _, d1, g1, -, -, -, p1, -⟩ := (hm a).1 ha
    rw [p1]; exact hlt d1 g1
  have hu := markAll_level (qrels := qrels) (topic := topic) (files := files) hd ho hn hone
  rw [(C108_table judged.length hu hp).2.2.2]
  obtain ⟨l1, l2⟩ := levels_mem hu
  have := length_le_of_rel (fun x j => ∃ n ∈ names, ∃ d ∈ docs, Named d n ∧ d.p = x ∧ n.docno = j) (by
    rintro x y j ⟨n, h1, d, h2, h3, h4, h5⟩ ⟨m, g1, e, g2, g3, g4, g5⟩
    have := huniq n h1 m g1 (by rw [h5, g5])
    subst this
    have hpq := (hn n h1).1
    have a := rho_doc hd h2 h3.1 (by have := h3.2; omega : n.at_.p ≤ d.q)
    have b := rho_doc hd g2 g3.1 (by have := g3.2; omega : n.at_.p ≤ e.q)
    rw [a] at b
    injection b with b
    rw [← h4, ← g4, b]) _ judged l1 (by
    intro x hx
    obtain ⟨xy, h, e⟩ := List.mem_map.1 hx
    obtain ⟨a, ha, e1, e2⟩ := (l2 xy.1 xy.2).1 h
    obtain ⟨n, h1, d, g1, -, k1, q1, p1, -⟩ := (hm a).1 ha
    exact ⟨n.docno, hj _ (by rw [q1]; rfl), n, h1, d, g1, k1, by rw [← p1, e1]; exact e, rfl⟩)
  rw [List.length_map] at this
  omega

/-- **A document that is there twice counts twice**: of two documents with the same judged name both are in the table, which then has more than were judged -/
theorem C108_twice (qrels : Qrels) (topic name : List Char) (v : Rat) (h : qrels topic name = some v) :
    table 1 (markFile qrels topic ⟨0, 20⟩ [⟨0, 9⟩, ⟨10, 19⟩] [⟨⟨1, 3⟩, name⟩, ⟨⟨11, 13⟩, name⟩]) = [(0, v), (10, v)] := by
  have e : markFile qrels topic ⟨0, 20⟩ [⟨0, 9⟩, ⟨10, 19⟩] [⟨⟨1, 3⟩, name⟩, ⟨⟨11, 13⟩, name⟩] = [⟨0, 3, v⟩, ⟨10, 13, v⟩] := by
    simp [markFile, marks, namesIn, invert, rho, h]
  rw [e]
  simp [table, levels, insertAt, pad]

/-- **A relevant document that ends its file is not marked**, when its name is all of it: names must end before the end of the file -/
theorem C108_last (qrels : Qrels) (topic name : List Char) (docs : List Span) : markFile qrels topic ⟨0, 3⟩ docs [⟨⟨1, 3⟩, name⟩] = [] := by
  simp [markFile, marks, namesIn]

/-! ### examples -/

example : table 3 (markFile (fun _ d => if d = ['a'] then some 1 else if d = ['c'] then some (1 / 2) else none) ['4'] ⟨0, 40⟩ [⟨0, 9⟩, ⟨10, 19⟩, ⟨20, 29⟩] [⟨⟨1, 3⟩, ['a']⟩, ⟨⟨11, 13⟩, ['b']⟩, ⟨⟨21, 23⟩, ['c']⟩]) =
    [(0, 1), (20, 1 / 2), (textEnd, 1)] := by decide +kernel
example : table 2 (markAll (fun _ d => if d = ['a'] ∨ d = ['b'] then some 1 else none) ['4'] [⟨0, 10⟩, ⟨10, 20⟩] [⟨0, 9⟩, ⟨10, 19⟩] [⟨⟨1, 3⟩, ['a']⟩, ⟨⟨11, 13⟩, ['b']⟩]) = [(0, 1), (10, 1)] := by decide +kernel
example : Disjoint [⟨0, 9⟩, ⟨10, 19⟩] ∧ Ordered [⟨⟨1, 3⟩, ['a']⟩, ⟨⟨11, 13⟩, ['b']⟩] ∧ Named ⟨0, 9⟩ ⟨⟨1, 3⟩, ['a']⟩ := by simp [Disjoint, Ordered, Named]
-- one document that was judged is there, one that was not is there, and one that was judged is not
example : (table 2 (markAll (fun _ d => if d = ['a'] ∨ d = ['c'] then some 1 else none) ['4'] [⟨0, 20⟩] [⟨0, 9⟩, ⟨10, 19⟩] [⟨⟨1, 3⟩, ['a']⟩, ⟨⟨11, 13⟩, ['b']⟩])).length = 2 :=
  C108_as_many _ _ (by simp [Disjoint]) (by simp [Ordered]) (by simp [Named]) (by decide) (by simp [Named]) (by simp) [['a'], ['c']] (by
    intro docno
    by_cases c : docno = ['a'] ∨ docno = ['c']
    · simpa using c
    · simp [c])

end Verif.Props
