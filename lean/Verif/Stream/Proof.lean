import Verif.Stream.Spec

/-! Proofs about files and compressed streams -/

namespace Verif.Stream
open Verif.Store Verif.TxtIO

/-- one block as the writer puts it into the file -/
def frame (z : Codec) (b : Bytes) : Bytes := leBytes 8 (z.crush b).length ++ z.crush b

theorem frame_length (z : Codec) (b : Bytes) : (frame z b).length = 8 + (z.crush b).length := by
  simp [frame, leBytes_length]

/-- the file holds blocks of at most `cap` bytes that together with the buffer are the text -/
structure CompW.Holds (z : Codec) (t : Bytes) (w : CompW) : Prop where
  blocks : ∃ bs : List Bytes, w.file = (bs.map (frame z)).flatten ∧
    (∀ b ∈ bs, b ≠ [] ∧ b.length ≤ w.cap) ∧ bs.flatten ++ w.buffer = t
  room : w.buffer.length ≤ w.cap

theorem CompW.Holds.flush {z t w} (h : CompW.Holds z t w) :
    CompW.Holds z t (w.flush z) ∧ (w.flush z).buffer = [] ∧ (w.flush z).cap = w.cap := by
  unfold CompW.flush
  by_cases h0 : w.buffer.length = 0
  · rw [if_pos h0]
    exact ⟨h, List.length_eq_zero_iff.mp h0, rfl⟩
  · rw [if_neg h0]
    obtain ⟨bs, h1, h2, h3⟩ := h.blocks
    refine ⟨⟨⟨bs ++ [w.buffer], ?_, ?_, ?_⟩, by simp⟩, rfl, rfl⟩
    · simp [h1, frame]
    · intro b hb
      rcases List.mem_append.mp hb with hb | hb
      · exact h2 b hb
      · rw [List.mem_singleton.mp hb]
        exact ⟨fun e => h0 (by rw [e]; rfl), h.room⟩
    · simpa using h3

theorem CompW.Holds.fill {z} : ∀ {fuel t b w}, CompW.Holds z t w → 0 < w.cap →
    b.length + (if w.buffer.length = w.cap then 1 else 0) ≤ fuel →
    ∃ w' b' u, CompW.fill z fuel b w = some (w', b') ∧ CompW.Holds z (t ++ u) w' ∧ b = u ++ b' ∧
      w'.cap = w.cap ∧ w'.buffer.length + b'.length ≤ w'.cap := by
  intro fuel
  induction fuel with
  | zero =>
    intro t b w h hc hf
    refine ⟨w, b, [], ?_, by simpa using h, rfl, rfl, ?_⟩
    · have := h.room
      rw [CompW.fill, if_neg (by omega)]
    · have := h.room
      omega
  | succ fuel ih =>
    intro t b w h hc hf
    have hr := h.room
    rw [CompW.fill]
    by_cases hbig : w.buffer.length + b.length > w.cap
    · rw [if_pos hbig]
      simp only
      have h1 : CompW.Holds z (t ++ b.take (w.cap - w.buffer.length))
          { w with buffer := w.buffer ++ b.take (w.cap - w.buffer.length) } := by
        obtain ⟨bs, e1, e2, e3⟩ := h.blocks
        refine ⟨⟨bs, e1, e2, by rw [← List.append_assoc]; simp only [e3]⟩, ?_⟩
        simp only [List.length_append, List.length_take]; omega
      obtain ⟨h2, h3, h4⟩ := h1.flush
      have hl : (b.drop (w.cap - w.buffer.length)).length = b.length - (w.cap - w.buffer.length) :=
        List.length_drop ..
      obtain ⟨w', b', u, g1, g2, g3, g4, g5⟩ := ih (b := b.drop (w.cap - w.buffer.length)) h2 (by rw [h4]; exact hc)
        (by rw [hl, h3, h4]; simp only [List.length_nil]; rw [if_neg (by omega)]; split at hf <;> omega)
      refine ⟨w', b', b.take (w.cap - w.buffer.length) ++ u, g1, by rw [← List.append_assoc]; exact g2, ?_,
        g4.trans h4, g5⟩
      rw [List.append_assoc, ← g3, List.take_append_drop]
    · rw [if_neg hbig]
      exact ⟨w, b, [], rfl, by simpa using h, rfl, rfl, by omega⟩

theorem CompW.Holds.append {z t w} (b : Bytes) (h : CompW.Holds z t w) (hc : 0 < w.cap) :
    ∃ w', w.append z b = some w' ∧ CompW.Holds z (t ++ b) w' ∧ w'.cap = w.cap := by
  obtain ⟨w', b', u, g1, g2, g3, g4, g5⟩ := h.fill (fuel := b.length + 1) (b := b) hc (by split <;> omega)
  unfold CompW.append
  rw [g1]
  simp only
  by_cases h0 : b'.length = 0
  · rw [if_pos h0]
    have : b' = [] := List.length_eq_zero_iff.mp h0
    exact ⟨w', rfl, by rw [g3, this, List.append_nil]; exact g2, g4⟩
  · rw [if_neg h0]
    obtain ⟨bs, e1, e2, e3⟩ := g2.blocks
    refine ⟨_, rfl, ⟨⟨bs, e1, e2, ?_⟩, by simpa using g5⟩, g4⟩
    rw [← List.append_assoc]
    simp only [e3]
    rw [g3, List.append_assoc]

theorem CompW.Holds.appends {z} (bs : List Bytes) : ∀ {t w}, CompW.Holds z t w → 0 < w.cap →
    ∃ w', CompW.appends z bs w = some w' ∧ CompW.Holds z (t ++ bs.flatten) w' ∧ w'.cap = w.cap := by
  induction bs with
  | nil => intro t w h _; exact ⟨w, rfl, by simpa using h, rfl⟩
  | cons b bs ih =>
    intro t w h hc
    obtain ⟨w1, e1, h1, c1⟩ := h.append b hc
    obtain ⟨w2, e2, h2, c2⟩ := ih h1 (by rw [c1]; exact hc)
    refine ⟨w2, ?_, ?_, c2.trans c1⟩
    · rw [CompW.appends, e1]; exact e2
    · simpa using h2

/-- what the file of a closed writer looks like -/
theorem written_spec (z : Codec) {cap : Nat} (hc : 0 < cap) (ws : List Bytes) :
    ∃ bs : List Bytes, written z cap ws = some (bs.map (frame z)).flatten ∧
      (∀ b ∈ bs, b ≠ [] ∧ b.length ≤ cap) ∧ bs.flatten = ws.flatten := by
  have h0 : CompW.Holds z [] { cap := cap } := ⟨⟨[], rfl, by simp, rfl⟩, by simp⟩
  obtain ⟨w, e, h, c⟩ := h0.appends ws hc
  obtain ⟨h1, h2, h3⟩ := h.flush
  obtain ⟨bs, e1, e2, e3⟩ := h1.blocks
  refine ⟨bs, ?_, ?_, ?_⟩
  · rw [written, e, Option.map_some, CompW.close, e1]
  · rw [h3, c] at e2; exact e2
  · rw [h2] at e3; simpa using e3

/-! ## Reading files -/

theorem FileR.read_spec {r : FileR} {amount : Nat} (h : r.file.length + amount ≤ 18446744073709551616) :
    r.read amount = some ({ r with pos := r.pos + ((r.file.drop r.pos).take amount).length },
      (r.file.drop r.pos).take amount) := by
  unfold FileR.read
  by_cases h0 : amount = 0 ∨ r.pos ≥ r.file.length
  · rw [if_pos h0]
    have : (r.file.drop r.pos).take amount = [] := by
      rcases h0 with h0 | h0
      · rw [h0]; rfl
      · rw [List.drop_eq_nil_of_le h0]; simp
    rw [this]
    rfl
  · rw [if_neg h0]
    simp only [not_or] at h0
    rw [Nat.mod_eq_of_lt (by omega)]
    simp only [List.length_take, List.length_drop]
    by_cases hb : r.pos + amount > r.file.length
    · rw [if_pos hb, if_pos (by omega), Nat.min_eq_right (by omega)]
      congr 2
      rw [List.take_of_length_le (by simp), List.take_of_length_le (by simp; omega)]
    · rw [if_neg hb, if_pos (by omega), Nat.min_eq_left (by omega)]

theorem FullR.read_spec {r : FullR} {amount : Nat} (h : r.buffer.length + amount ≤ 18446744073709551616) :
    r.read amount = some ({ r with pos := r.pos + ((r.buffer.drop r.pos).take amount).length },
      (r.buffer.drop r.pos).take amount) := by
  unfold FullR.read
  by_cases h0 : amount = 0 ∨ r.pos ≥ r.buffer.length
  · rw [if_pos h0]
    have : (r.buffer.drop r.pos).take amount = [] := by
      rcases h0 with h0 | h0
      · rw [h0]; rfl
      · rw [List.drop_eq_nil_of_le h0]; simp
    rw [this]
    rfl
  · rw [if_neg h0]
    simp only [not_or] at h0
    rw [Nat.mod_eq_of_lt (by omega)]
    simp only [List.length_take, List.length_drop]
    by_cases hb : r.pos + amount > r.buffer.length
    · rw [if_pos hb, if_pos (by omega), Nat.min_eq_right (by omega)]
      congr 2
      rw [List.take_of_length_le (by simp), List.take_of_length_le (by simp; omega)]
    · rw [if_neg hb, if_pos (by omega), Nat.min_eq_left (by omega)]

theorem FullR.make_spec {file : Bytes} (h : file.length + file.length ≤ 18446744073709551616) :
    FullR.make file = some { buffer := file } := by
  unfold FullR.make FileR.size
  simp only
  by_cases h0 : file.length = 0
  · rw [if_pos h0, List.length_eq_zero_iff.mp h0]
  · rw [if_neg h0, FileR.readAt, FileR.read_spec (by simpa using h)]
    simp

theorem FileR.reads_spec {file : Bytes} : ∀ (cs : List Read) (pos : Nat),
    (∀ c ∈ cs, file.length + c.amount ≤ 18446744073709551616) →
    FileR.reads cs { file := file, pos := pos } = some (answers file pos cs) := by
  intro cs
  induction cs with
  | nil => intros; rfl
  | cons c cs ih =>
    intro pos h
    have hh := h c (List.mem_cons_self ..)
    have ht := fun p => ih p (fun c hc => h c (List.mem_cons_of_mem _ hc))
    cases c with
    | next a =>
      simp only [FileR.reads, FileR.read_spec (r := ⟨file, pos⟩) (amount := a) hh,
        ht, Option.map_some, answers]
    | «at» p a =>
      simp only [FileR.reads, FileR.readAt, FileR.read_spec (r := ⟨file, p⟩) (amount := a) hh,
        ht, Option.map_some, answers]

theorem FullR.reads_spec {file : Bytes} : ∀ (cs : List Read) (pos : Nat),
    (∀ c ∈ cs, file.length + c.amount ≤ 18446744073709551616) →
    FullR.reads cs { buffer := file, pos := pos } = some (answers file pos cs) := by
  intro cs
  induction cs with
  | nil => intros; rfl
  | cons c cs ih =>
    intro pos h
    have hh := h c (List.mem_cons_self ..)
    have ht := fun p => ih p (fun c hc => h c (List.mem_cons_of_mem _ hc))
    cases c with
    | next a =>
      simp only [FullR.reads, FullR.read_spec (r := ⟨file, pos⟩) (amount := a) hh,
        ht, Option.map_some, answers]
    | «at» p a =>
      simp only [FullR.reads, FullR.readAt, FullR.read_spec (r := ⟨file, p⟩) (amount := a) hh,
        ht, Option.map_some, answers]

/-! ## Reading compressed streams -/

/-- what is left to read is the buffer and the blocks after the place in the file -/
structure CompR.Left (z : Codec) (cap : Nat) (t : Bytes) (r : CompR) : Prop where
  blocks : ∃ bs : List Bytes, r.reader.file.drop r.reader.pos = (bs.map (frame z)).flatten ∧
    (∀ b ∈ bs, b ≠ [] ∧ b.length ≤ cap) ∧ r.buffer ++ bs.flatten = t
  pos : r.reader.pos ≤ r.reader.file.length
  done : r.done = true → t = []

theorem CompR.Left.next {z cap t r} (hz : Fits z cap r.space) (hc : cap ≤ r.cap)
    (hs : r.reader.file.length + r.reader.file.length + 8 ≤ 18446744073709551616)
    (h : CompR.Left z cap t r) (hb : r.buffer = []) :
    ∃ r', r.next z = some r' ∧ CompR.Left z cap t r' ∧ r'.cap = r.cap ∧ r'.space = r.space ∧
      r'.reader.file = r.reader.file ∧
      ((t = [] ∧ r'.done = true ∧ r'.reader.pos = r.reader.pos) ∨
        (r.reader.pos < r'.reader.pos)) := by
  obtain ⟨bs, e1, e2, e3⟩ := h.blocks
  unfold CompR.next
  rw [FileR.read_spec (by omega)]
  simp only
  cases bs with
  | nil =>
    simp only [List.map_nil, List.flatten_nil] at e1
    have ht : t = [] := by rw [← e3, hb]; rfl
    rw [if_pos (by rw [e1]; rfl)]
    refine ⟨_, rfl, ⟨⟨[], ?_, by simp, by rw [hb, ht]; rfl⟩, ?_, fun _ => ht⟩, rfl, rfl, rfl,
      Or.inl ⟨ht, rfl, ?_⟩⟩
    · simp [e1]
    · simpa [e1] using h.pos
    · simp [e1]
  | cons b bs =>
    obtain ⟨hb1, hb2⟩ := e2 b (List.mem_cons_self ..)
    have hsm := hz.small b hb2
    have hfl := congrArg List.length e1
    simp only [List.map_cons, List.flatten_cons, List.length_drop, List.length_append, frame_length] at hfl
    have hd : r.reader.file.drop r.reader.pos =
        leBytes 8 (z.crush b).length ++ (z.crush b ++ (bs.map (frame z)).flatten) := by
      rw [e1]; simp [frame]
    have h8 : (r.reader.file.drop r.reader.pos).take 8 = leBytes 8 (z.crush b).length := by
      rw [hd, List.take_left' (leBytes_length ..)]
    rw [h8]
    simp only [leBytes_length]
    rw [if_neg (by omega), if_pos trivial, leNat_leBytes _ _ (by omega),
      FileR.read_spec (by simp only; omega)]
    have hdd : List.drop (r.reader.pos + 8) r.reader.file = z.crush b ++ (bs.map (frame z)).flatten := by
      rw [← List.drop_drop, hd, List.drop_left' (leBytes_length ..)]
    simp only [hdd, List.take_left]
    rw [if_neg (by omega), hz.restores b hb2, List.take_of_length_le (by omega)]
    refine ⟨_, rfl, ⟨⟨bs, ?_, fun b hb => e2 b (List.mem_cons_of_mem _ hb), ?_⟩, ?_, h.done⟩, rfl, rfl, rfl,
      Or.inr (by simp only; omega)⟩
    · simp only
      rw [← List.drop_drop, hdd, List.drop_left]
    · rw [← e3, hb]; simp
    · simp only; omega

theorem CompR.Left.loop {z cap} : ∀ {fuel amount t} {r : CompR}, Fits z cap r.space → cap ≤ r.cap →
    r.reader.file.length + r.reader.file.length + 8 ≤ 18446744073709551616 →
    CompR.Left z cap t r →
    amount + (r.reader.file.length - r.reader.pos) + 2 ≤ fuel + (if r.done then 1 else 0) →
    ∃ r', CompR.loop z fuel amount r = some (r', t.take amount) ∧ CompR.Left z cap (t.drop amount) r' ∧
      r'.cap = r.cap ∧ r'.space = r.space ∧ r'.reader.file = r.reader.file := by
  intro fuel
  induction fuel with
  | zero => intro amount t r _ _ _ _ hf; split at hf <;> omega
  | succ fuel ih =>
    intro amount t r hz hc hs h hf
    rw [CompR.loop]
    by_cases h0 : amount = 0 ∨ r.done = true
    · rw [if_pos h0]
      rcases h0 with h0 | h0
      · subst h0
        exact ⟨r, by simp, by simpa using h, rfl, rfl, rfl⟩
      · have ht := h.done h0
        subst ht
        exact ⟨r, by simp, by simpa using h, rfl, rfl, rfl⟩
    · rw [if_neg h0]
      simp only [not_or] at h0
      rw [if_neg h0.2] at hf
      obtain ⟨bs, e1, e2, e3⟩ := h.blocks
      by_cases hb : r.buffer.length > 0
      · rw [if_pos hb]
        simp only
        generalize hn : (if r.buffer.length ≥ amount then amount else r.buffer.length) = n
        have hn1 : n ≤ r.buffer.length ∧ n ≤ amount ∧ 0 < n := by split at hn <;> omega
        have hl : CompR.Left z cap (t.drop n) { r with buffer := r.buffer.drop n } := by
          refine ⟨⟨bs, e1, e2, ?_⟩, h.pos, fun hd => absurd hd h0.2⟩
          rw [← e3, List.drop_append_of_le_length hn1.1]
        obtain ⟨r', g1, g2, g3, g4, g5⟩ := ih (amount := amount - n) (t := t.drop n)
          (r := { r with buffer := r.buffer.drop n }) hz hc hs hl
          (by simp only; rw [if_neg h0.2]; omega)
        refine ⟨r', ?_, ?_, g3, g4, g5⟩
        · rw [g1, Option.map_some]
          congr 2
          have : r.buffer.take n = t.take n := by rw [← e3, List.take_append_of_le_length hn1.1]
          simp only
          rw [this]
          have e : amount = n + (amount - n) := by omega
          conv => rhs; rw [e, List.take_add]
        · rw [List.drop_drop] at g2
          have e : n + (amount - n) = amount := by omega
          rw [e] at g2
          exact g2
      · rw [if_neg hb]
        have hb0 : r.buffer = [] := List.length_eq_zero_iff.mp (by omega)
        obtain ⟨r1, n1, n2, n3, n4, n5, n6⟩ := h.next hz hc hs hb0
        rw [n1]
        simp only
        have hp := n2.pos
        rw [n5] at hp
        obtain ⟨r', g1, g2, g3, g4, g5⟩ := ih (amount := amount) (t := t) (r := r1) (by rw [n4]; exact hz)
          (by rw [n3]; exact hc) (by rw [n5]; exact hs) n2 (by
            rw [n5]
            rcases n6 with ⟨-, d, e⟩ | e
            · rw [if_pos d, e]; omega
            · split <;> omega)
        exact ⟨r', g1, g2, g3.trans n3, g4.trans n4, g5.trans n5⟩

theorem CompR.Left.reads {z cap} : ∀ (as : List Nat) {t} {r : CompR}, Fits z cap r.space → cap ≤ r.cap →
    r.reader.file.length + r.reader.file.length + 8 ≤ 18446744073709551616 →
    CompR.Left z cap t r → CompR.reads z as r = some (pieces as t) := by
  intro as
  induction as with
  | nil => intros; rfl
  | cons a as ih =>
    intro t r hz hc hs h
    obtain ⟨r', g1, g2, g3, g4, g5⟩ := CompR.Left.loop (amount := a)
      (fuel := a + (r.reader.file.length - r.reader.pos) + 2) hz hc hs h (by omega)
    rw [CompR.reads, CompR.read, g1]
    simp only
    rw [ih (by rw [g4]; exact hz) (by rw [g3]; exact hc) (by rw [g5]; exact hs) g2]
    rfl

end Verif.Stream
