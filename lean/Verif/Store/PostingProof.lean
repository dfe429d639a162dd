import Verif.Store.PostingModel
import Verif.Store.PostProof
import Verif.Store.TfdfProof
/-
  Posting lists as lists of annotations: `get`, `push`, `append`, and storage.
-/
namespace Verif.Store
open Verif.Hopper

/-- the optional arrays are absent or as long as the first -/
def Posting.Ok (P : Posting) : Prop :=
  (P.qs = [] ∨ P.qs.length = P.ps.length) ∧ (P.fs = [] ∨ P.fs.length = P.ps.length)

/-- the ends -/
def Posting.ends (P : Posting) : List Int := if P.qs = [] then P.ps else P.qs
/-- the values -/
def Posting.vals (P : Posting) : List Int := if P.fs = [] then List.replicate P.ps.length 0 else P.fs

/-- three columns as annotations -/
def zip3 : List Int → List Int → List Int → List Ann
  | p :: ps, q :: qs, v :: vs => ⟨p, q, v⟩ :: zip3 ps qs vs
  | _, _, _ => []

theorem zip3_length {ps qs vs : List Int} (h1 : qs.length = ps.length) (h2 : vs.length = ps.length) :
    (zip3 ps qs vs).length = ps.length := by
  induction ps generalizing qs vs with
  | nil => simp [zip3]
  | cons p ps ih =>
    match qs, vs, h1, h2 with
    | q :: qs, v :: vs, h1, h2 => simp at h1 h2; simp [zip3, ih h1 h2]

theorem zip3_append {ps qs vs ps' qs' vs' : List Int} (h1 : qs.length = ps.length)
    (h2 : vs.length = ps.length) :
    zip3 (ps ++ ps') (qs ++ qs') (vs ++ vs') = zip3 ps qs vs ++ zip3 ps' qs' vs' := by
  induction ps generalizing qs vs with
  | nil => simp at h1 h2; subst h1; subst h2; simp [zip3]
  | cons p ps ih =>
    match qs, vs, h1, h2 with
    | q :: qs, v :: vs, h1, h2 => simp at h1 h2; simp [zip3, ih h1 h2]

theorem zip3_get {ps qs vs : List Int} (h1 : qs.length = ps.length) (h2 : vs.length = ps.length)
    (i : Nat) : (zip3 ps qs vs)[i]? =
      (do let p ← ps[i]?; let q ← qs[i]?; let v ← vs[i]?; return (⟨p, q, v⟩ : Ann)) := by
  induction ps generalizing qs vs i with
  | nil => simp [zip3]
  | cons p ps ih =>
    match qs, vs, h1, h2 with
    | q :: qs, v :: vs, h1, h2 =>
      simp at h1 h2
      cases i with
      | zero => simp [zip3]
      | succ i => simpa [zip3] using ih h1 h2 i

theorem zip3_cols {ps qs vs : List Int} (h1 : qs.length = ps.length) (h2 : vs.length = ps.length) :
    (zip3 ps qs vs).map (·.p) = ps ∧ (zip3 ps qs vs).map (·.q) = qs ∧ (zip3 ps qs vs).map (·.v) = vs := by
  induction ps generalizing qs vs with
  | nil => simp at h1 h2; subst h1; subst h2; simp [zip3]
  | cons p ps ih =>
    match qs, vs, h1, h2 with
    | q :: qs, v :: vs, h1, h2 => simp at h1 h2; simp [zip3, ih h1 h2]

section
variable {P : Posting} (h : P.Ok)
include h

theorem ends_length : P.ends.length = P.ps.length := by
  unfold Posting.ends; split
  · rfl
  · rcases h.1 with h | h
    · contradiction
    · exact h

theorem vals_length : P.vals.length = P.ps.length := by
  unfold Posting.vals; split
  · simp
  · rcases h.2 with h | h
    · contradiction
    · exact h

theorem get_eq (i : Nat) : P.get i = (zip3 P.ps P.ends P.vals)[i]? := by
  rw [zip3_get (ends_length h) (vals_length h)]
  unfold Posting.get Posting.ends Posting.vals
  by_cases hi : i < P.ps.length
  · rw [if_pos hi]
    have hp : P.ps[i]? = some P.ps[i] := by simp [hi]
    by_cases hq : P.qs = []
    · by_cases hf : P.fs = [] <;> simp [hq, hf, hi]
    · by_cases hf : P.fs = [] <;> simp [hq, hf, hi, List.length_pos_iff]
  · rw [if_neg hi, List.getElem?_eq_none (by omega : P.ps.length ≤ i)]; rfl

theorem anns_eq : P.anns = zip3 P.ps P.ends P.vals := by
  have hl := zip3_length (ends_length h) (vals_length h)
  have key : ∀ (l : List Ann) (f : Nat → Option Ann), (∀ i, f i = l[i]?) →
      (List.range l.length).filterMap f = l := by
    intro l
    induction l with
    | nil => intro f _; rfl
    | cons a l ih =>
      intro f hf
      rw [List.length_cons, List.range_succ_eq_map, List.filterMap_cons, hf 0]
      simp only [List.getElem?_cons_zero, List.filterMap_map]
      rw [ih (f ∘ Nat.succ) (fun i => by simp [hf])]
  have := key (zip3 P.ps P.ends P.vals) P.get (get_eq h)
  rw [hl] at this
  exact this

theorem anns_length : P.anns.length = P.size := by
  rw [anns_eq h, zip3_length (ends_length h) (vals_length h)]; rfl

end

/-- what `push` stores of an annotation: `-0.0` becomes `0.0` -/
def norm (a : Ann) : Ann := ⟨a.p, if a.p < a.q then a.q else a.p, if isZero a.v then 0 else a.v⟩

theorem empty_ok (f : Int) : ({ feature := f } : Posting).Ok := ⟨Or.inl rfl, Or.inl rfl⟩
theorem empty_anns (f : Int) : ({ feature := f } : Posting).anns = [] := rfl

theorem push_ok {P : Posting} (h : P.Ok) (a : Ann) : (P.push a).Ok := by
  obtain ⟨h1, h2⟩ := h
  unfold Posting.push Posting.Ok
  refine ⟨?_, ?_⟩
  · by_cases hq : P.qs = []
    · by_cases hpq : a.p < a.q <;> simp [hq, hpq]
    · have h1 : P.qs.length = P.ps.length := by
        rcases h1 with h1 | h1
        · contradiction
        · exact h1
      have h0 : P.qs.length ≠ 0 := by simpa using hq
      by_cases hpq : a.p < a.q
      · simp only [hpq, if_true, if_neg h0]; right; simp [h1]
      · simp only [hpq, if_false]; rw [if_pos (by omega)]; right; simp [h1]
  · by_cases hq : P.fs = []
    · by_cases hpq : isZero a.v <;> simp [hq, hpq]
    · have h2 : P.fs.length = P.ps.length := by
        rcases h2 with h1 | h1
        · contradiction
        · exact h1
      have h0 : P.fs.length ≠ 0 := by simpa using hq
      by_cases hpq : isZero a.v
      · simp only [hpq, Bool.not_true, Bool.false_eq_true, if_false]; rw [if_pos (by omega)]; right
        simp [h2]
      · simp only [hpq, Bool.not_false, if_true, if_neg h0]; right; simp [h2]

theorem push_anns {P : Posting} (h : P.Ok) (a : Ann) : (P.push a).anns = P.anns ++ [norm a] := by
  rw [anns_eq (push_ok h a), anns_eq h]
  have e1 : (P.push a).ps = P.ps ++ [a.p] := rfl
  have e2 : (P.push a).ends = P.ends ++ [(norm a).q] := by
    unfold Posting.push Posting.ends norm
    by_cases hq : P.qs = []
    · by_cases hpq : a.p < a.q <;> simp [hq, hpq]
    · by_cases hpq : a.p < a.q <;> simp [hq, hpq, List.length_pos_iff]
  have e3 : (P.push a).vals = P.vals ++ [(norm a).v] := by
    unfold Posting.push Posting.vals norm
    by_cases hq : P.fs = []
    · by_cases hpq : isZero a.v <;> simp [hq, hpq, List.replicate_succ']
    · by_cases hpq : isZero a.v <;> simp [hq, hpq, List.length_pos_iff]
  rw [e1, e2, e3, zip3_append (ends_length h) (vals_length h)]
  rfl

theorem pushAll_anns : ∀ (l : List Ann) {P : Posting}, P.Ok →
    (l.foldl Posting.push P).Ok ∧ (l.foldl Posting.push P).anns = P.anns ++ l.map norm ∧
    (l.foldl Posting.push P).feature = P.feature := by
  intro l
  induction l with
  | nil => intro P h; exact ⟨h, by simp, rfl⟩
  | cons a l ih =>
    intro P h
    obtain ⟨h1, h2, h3⟩ := ih (push_ok h a)
    refine ⟨h1, ?_, h3⟩
    rw [List.foldl_cons, h2, push_anns h]; simp

theorem append_ok {P M : Posting} (h : P.Ok) (h' : M.Ok) : (P.append M).Ok := by
  obtain ⟨h1, h2⟩ := h
  obtain ⟨g1, g2⟩ := h'
  have z : ∀ {l : List Int}, l ≠ [] → l.length > 0 := fun h => List.length_pos_iff.2 h
  unfold Posting.append Posting.Ok resize0
  refine ⟨?_, ?_⟩
  · by_cases hq : P.qs = [] <;> by_cases hq' : M.qs = []
    · simp [hq, hq']
    · simp only [hq, List.length_nil, gt_iff_lt, Nat.lt_irrefl, if_false, if_pos (z hq')]
      right; simp only [hq', false_or] at g1; simp [g1]
    · simp only [if_pos (z hq), hq', List.length_nil, gt_iff_lt, Nat.lt_irrefl, if_false]
      right; simp only [hq, false_or] at h1; simp [h1]
    · simp only [if_pos (z hq), if_pos (z hq')]
      right; simp only [hq, false_or] at h1; simp only [hq', false_or] at g1; simp [h1, g1]
  · by_cases hq : P.fs = [] <;> by_cases hq' : M.fs = []
    · simp [hq, hq']
    · simp only [hq, List.length_nil, gt_iff_lt, Nat.lt_irrefl, if_false, if_pos (z hq')]
      right; simp only [hq', false_or] at g2; simp [g2]
    · simp only [if_pos (z hq), hq', List.length_nil, gt_iff_lt, Nat.lt_irrefl, if_false]
      right; simp only [hq, false_or] at h2; simp [h2]
    · simp only [if_pos (z hq), if_pos (z hq')]
      right; simp only [hq, false_or] at h2; simp only [hq', false_or] at g2; simp [h2, g2]

theorem append_anns {P M : Posting} (h : P.Ok) (h' : M.Ok) :
    (P.append M).anns = P.anns ++ M.anns := by
  rw [anns_eq (append_ok h h'), anns_eq h, anns_eq h']
  have e1 : (P.append M).ps = P.ps ++ M.ps := rfl
  have e2 : (P.append M).ends = P.ends ++ M.ends := by
    unfold Posting.append Posting.ends
    by_cases hq : P.qs = [] <;> by_cases hq' : M.qs = [] <;>
      simp [hq, hq', List.length_pos_iff]
  have e3 : (P.append M).vals = P.vals ++ M.vals := by
    obtain ⟨_, h2⟩ := h
    unfold Posting.append Posting.vals resize0
    by_cases hq : P.fs = [] <;> by_cases hq' : M.fs = []
    · simp [hq, hq']
    · simp [hq, hq', List.length_pos_iff]
    · rcases h2 with h2 | h2
      · contradiction
      · simp only [hq, hq', List.length_pos_iff, ne_eq, not_false_eq_true, if_true, List.length_nil,
          Nat.lt_irrefl, if_false, gt_iff_lt]
        rw [if_neg]
        · rw [h2, Nat.add_sub_cancel_left, List.take_of_length_le (by omega)]
        · intro hh
          have := (List.append_eq_nil_iff.1 hh).1
          rw [List.take_of_length_le (by omega)] at this
          exact hq this
    · simp [hq, hq', List.length_pos_iff]
  rw [e1, e2, e3, zip3_append (ends_length h) (vals_length h)]

/-! ### storage -/

/-- the compressor restores this array, storing something for something, in fewer than
2^63 bytes -/
def Restores (c : Codec) (l : List Int) : Prop :=
  ∃ z, c.crush (addrsBytes l) = some z ∧ (z = [] → l = []) ∧ z.length ≤ 9223372036854775807 ∧
    c.tang z (8 * l.length) = some (addrsBytes l)

theorem tangArray_ok {c : Codec} {l : List Int} {z : List UInt8} (h : ∀ a ∈ l, In64 a)
    (hz : c.tang z (8 * l.length) = some (addrsBytes l)) : tangArray c z l.length = some l := by
  rw [tangArray, hz]
  simp only [Option.bind_eq_bind, Option.bind_some, addrsBytes_length, if_true]
  have := bytesAddrs_addrsBytes h []
  rw [List.append_nil] at this
  rw [this]

/-- what is needed for a posting to be stored -/
structure Storable (pc fc : Codec) (P : Posting) : Prop where
  ok : P.Ok
  feature : In64 P.feature
  count : P.ps.length ≤ 9223372036854775807
  ps64 : ∀ a ∈ P.ps, In64 a
  qs64 : ∀ a ∈ P.qs, In64 a
  fs64 : ∀ a ∈ P.fs, In64 a
  ps : Restores pc P.ps
  qs : Restores pc P.qs
  fs : Restores fc P.fs

theorem header {f n p q r : Int} (hf : In64 f) (hn : In64 n) (hp : In64 p) (hq : In64 q)
    (hr : In64 r) (rest : List UInt8) :
    bytesAddrs 5 (addrsBytes [f, n, p, q, r] ++ rest) = [f, n, p, q, r] := by
  apply bytesAddrs_addrsBytes (l := [f, n, p, q, r])
  intro a ha
  simp only [List.mem_cons, List.not_mem_nil, or_false] at ha
  rcases ha with rfl | rfl | rfl | rfl | rfl <;> assumption

theorem write_read {pc fc : Codec} {P : Posting} (h : Storable pc fc P) :
    ∃ bytes, P.write pc fc = some bytes ∧
      (∀ rest, readFile pc fc (bytes ++ rest) = some (P, rest)) ∧
      (∀ rest, readBlob pc fc (bytes ++ rest) = some P) ∧
      (∀ rest, readCache pc fc P.size (bytes ++ rest) = some P.arrays) := by
  obtain ⟨⟨ok1, ok2⟩, hf, hc, p64, q64, f64, ⟨pz, p1, p2, p3, p4⟩, ⟨qz, q1, q2, q3, q4⟩,
    ⟨fz, f1, f2, f3, f4⟩⟩ := h
  -- the header comes first, so the cache reader follows from the blob reader
  have cache : ∀ (bytes : List UInt8) (f p q r : Int), In64 f → In64 p → In64 q → In64 r →
      (∀ rest, readBlob pc fc (addrsBytes [f, P.ps.length, p, q, r] ++ bytes ++ rest) = some P) →
      ∀ rest, readCache pc fc P.size (addrsBytes [f, P.ps.length, p, q, r] ++ bytes ++ rest) =
        some P.arrays := by
    intro bytes f p q r gf gp gq gr hb rest
    rw [readCache]
    rw [List.append_assoc, header gf ⟨by omega, by omega⟩ gp gq gr]
    simp only [Posting.size, ne_eq, not_true, if_false]
    rw [if_neg, ← List.append_assoc, hb rest]
    · rfl
    · rw [List.length_append, addrsBytes_length]; simp; omega
  by_cases hn : P.ps = []
  · have hq : P.qs = [] := by
      rcases ok1 with h | h
      · exact h
      · rw [hn] at h; exact List.eq_nil_of_length_eq_zero h
    have hfs : P.fs = [] := by
      rcases ok2 with h | h
      · exact h
      · rw [hn] at h; exact List.eq_nil_of_length_eq_zero h
    have hP : P = { feature := P.feature } := by
      cases P; simp_all
    have hlen : (addrsBytes [P.feature, 0, 0, 0, 0]).length = 40 := addrsBytes_length _
    have hb : ∀ rest, readBlob pc fc (addrsBytes [P.feature, 0, 0, 0, 0] ++ rest) = some P := by
      intro rest
      rw [readBlob]
      simp only
      rw [if_neg (by rw [List.length_append, hlen]; omega),
        header hf ⟨by omega, by omega⟩ ⟨by omega, by omega⟩ ⟨by omega, by omega⟩ ⟨by omega, by omega⟩]
      simp only
      rw [if_neg (by omega), if_neg (by rw [List.length_append, hlen]; omega),
        if_neg (by rw [List.length_append, hlen]; omega),
        if_neg (by rw [List.length_append, hlen]; omega), if_pos trivial, hP]
    refine ⟨addrsBytes [P.feature, 0, 0, 0, 0], ?_, ?_, hb, ?_⟩
    · rw [Posting.write]; simp [hn]
    · intro rest
      have h1 := header hf (n := 0) (p := 0) (q := 0) (r := 0) ⟨by omega, by omega⟩ ⟨by omega, by omega⟩
        ⟨by omega, by omega⟩ ⟨by omega, by omega⟩ []
      rw [List.append_nil] at h1
      rw [readFile, readN, if_pos (by rw [List.length_append, hlen]; omega),
        List.take_left' hlen, List.drop_left' hlen]
      simp only [Option.bind_eq_bind, Option.bind_some, h1, if_true]
      rw [← hP]
    · have := cache [] P.feature 0 0 0 hf ⟨by omega, by omega⟩ ⟨by omega, by omega⟩ ⟨by omega, by omega⟩
      rw [hn] at this
      simpa using this (by simpa using hb)
  · have hn0 : P.ps.length ≠ 0 := by simpa using hn
    -- the three blocks
    have hpz : pz.length ≠ 0 := fun h => hn (p2 (List.eq_nil_of_length_eq_zero h))
    obtain ⟨qb, qb1, qb2, qb3⟩ : ∃ qb : List UInt8, (if P.qs.length ≠ 0 then
          (if P.qs.length = P.ps.length then pc.crush (addrsBytes P.qs) else none) else some []) = some qb ∧
        qb.length ≤ 9223372036854775807 ∧
        (if (qb.length : Int) > 0 then tangArray pc qb P.ps.length else some []) = some P.qs := by
      by_cases hq : P.qs = []
      · exact ⟨[], by simp [hq], by simp, by simp [hq]⟩
      · have hl : P.qs.length = P.ps.length := by
          rcases ok1 with h | h
          · contradiction
          · exact h
        have : qz.length ≠ 0 := fun h => hq (q2 (List.eq_nil_of_length_eq_zero h))
        refine ⟨qz, ?_, q3, ?_⟩
        · rw [if_pos (by simpa using hq), if_pos hl, q1]
        · rw [if_pos (by omega), ← hl, tangArray_ok q64 q4]
    obtain ⟨fb, fb1, fb2, fb3⟩ : ∃ fb : List UInt8, (if P.fs.length ≠ 0 then
          (if P.fs.length = P.ps.length then fc.crush (addrsBytes P.fs) else none) else some []) = some fb ∧
        fb.length ≤ 9223372036854775807 ∧
        (if (fb.length : Int) > 0 then tangArray fc fb P.ps.length else some []) = some P.fs := by
      by_cases hq : P.fs = []
      · exact ⟨[], by simp [hq], by simp, by simp [hq]⟩
      · have hl : P.fs.length = P.ps.length := by
          rcases ok2 with h | h
          · contradiction
          · exact h
        have : fz.length ≠ 0 := fun h => hq (f2 (List.eq_nil_of_length_eq_zero h))
        refine ⟨fz, ?_, f3, ?_⟩
        · rw [if_pos (by simpa using hq), if_pos hl, f1]
        · rw [if_pos (by omega), ← hl, tangArray_ok f64 f4]
    have hpa := tangArray_ok p64 p4
    generalize hH : addrsBytes [P.feature, (P.ps.length : Int), (pz.length : Int), (qb.length : Int),
      (fb.length : Int)] = H
    have hlen : H.length = 40 := by rw [← hH]; exact addrsBytes_length _
    have hhead : ∀ rest, bytesAddrs 5 (H ++ rest) = [P.feature, (P.ps.length : Int), (pz.length : Int),
        (qb.length : Int), (fb.length : Int)] := by
      intro rest; rw [← hH]
      exact header hf ⟨by omega, by omega⟩ ⟨by omega, by omega⟩ ⟨by omega, by omega⟩ ⟨by omega, by omega⟩ rest
    have hb : ∀ rest, readBlob pc fc (H ++ (pz ++ qb ++ fb) ++ rest) = some P := by
      intro rest
      have hL : (H ++ (pz ++ qb ++ fb) ++ rest).length =
          40 + pz.length + qb.length + fb.length + rest.length := by
        simp only [List.length_append, hlen]; omega
      rw [readBlob]
      simp only
      rw [if_neg (by rw [hL]; omega), List.append_assoc H, hhead]
      simp only
      rw [← List.append_assoc H, hL]
      rw [if_neg (by omega), if_neg (by omega), if_neg (by omega), if_neg (by omega), if_neg (by omega)]
      have d1 : (H ++ (pz ++ qb ++ fb) ++ rest).drop 40 = pz ++ (qb ++ (fb ++ rest)) := by
        rw [List.append_assoc H, List.drop_left' hlen]; simp
      have d2 : (H ++ (pz ++ qb ++ fb) ++ rest).drop (40 + pz.length) = qb ++ (fb ++ rest) := by
        rw [← List.drop_drop, d1, List.drop_left]
      have d3 : (H ++ (pz ++ qb ++ fb) ++ rest).drop (40 + pz.length + qb.length) = fb ++ rest := by
        rw [← List.drop_drop, d2, List.drop_left]
      have c1 : ((40 : Int) + (pz.length : Int)).toNat = 40 + pz.length := by omega
      have c2 : ((40 : Int) + (pz.length : Int) + (qb.length : Int)).toNat = 40 + pz.length + qb.length := by
        omega
      rw [c1, c2, d1, d2, d3]
      simp only [Int.toNat_natCast, List.take_left]
      rw [hpa, qb3, fb3]
      rfl
    refine ⟨H ++ (pz ++ qb ++ fb), ?_, ?_, hb, ?_⟩
    · rw [Posting.write]
      rw [if_neg hn0, p1, qb1, fb1]
      simp only [Option.bind_eq_bind, Option.bind_some, hH, Option.pure_def, List.append_assoc]
    · intro rest
      rw [readFile, readN, if_pos (by simp only [List.length_append, hlen]; omega),
        List.append_assoc, List.take_left' hlen, List.drop_left' hlen]
      have h1 := hhead []
      rw [List.append_nil] at h1
      simp only [Option.bind_eq_bind, Option.bind_some, h1, Int.toNat_natCast]
      rw [if_neg (by omega)]
      have r1 : readN pz.length (pz ++ qb ++ fb ++ rest) = some (pz, qb ++ fb ++ rest) := by
        rw [readN, if_pos (by simp only [List.length_append]; omega), List.append_assoc, List.append_assoc,
          List.take_left, List.drop_left, List.append_assoc]
      have r2 : readN qb.length (qb ++ fb ++ rest) = some (qb, fb ++ rest) := by
        rw [readN, if_pos (by simp only [List.length_append]; omega), List.append_assoc,
          List.take_left, List.drop_left]
      have r3 : readN fb.length (fb ++ rest) = some (fb, rest) := by
        rw [readN, if_pos (by simp only [List.length_append]; omega), List.take_left, List.drop_left]
      rw [r1]
      simp only [Option.bind_some, hpa]
      rw [r2]
      by_cases hq : (qb.length : Int) > 0
      · rw [if_pos hq] at qb3
        simp only [hq, if_true, Option.bind_some, qb3, Option.pure_def]
        by_cases hf' : (fb.length : Int) > 0
        · rw [if_pos hf'] at fb3
          simp only [hf', if_true, r3, Option.bind_some, fb3]
        · rw [if_neg hf'] at fb3
          have : fb = [] := List.eq_nil_of_length_eq_zero (by omega)
          subst this
          cases fb3' : P.fs with
          | nil => cases P; simp_all
          | cons => simp [fb3'] at fb3
      · rw [if_neg hq] at qb3
        have hqn : qb = [] := List.eq_nil_of_length_eq_zero (by omega)
        subst hqn
        simp only [hq, if_false, Option.pure_def, Option.bind_some, List.nil_append]
        by_cases hf' : (fb.length : Int) > 0
        · rw [if_pos hf'] at fb3
          simp only [hf', if_true, r3, Option.bind_some, fb3]
          cases qb3' : P.qs with
          | nil => cases P; simp_all
          | cons => simp [qb3'] at qb3
        · rw [if_neg hf'] at fb3
          have : fb = [] := List.eq_nil_of_length_eq_zero (by omega)
          subst this
          cases fb3' : P.fs with
          | nil =>
            cases qb3' : P.qs with
            | nil => cases P; simp_all
            | cons => simp [qb3'] at qb3
          | cons => simp [fb3'] at fb3
    · intro rest
      have := cache (pz ++ qb ++ fb) P.feature pz.length qb.length fb.length hf ⟨by omega, by omega⟩
        ⟨by omega, by omega⟩ ⟨by omega, by omega⟩
      rw [hH] at this
      exact this hb rest

end Verif.Store
