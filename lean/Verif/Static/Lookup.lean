import Verif.Static.History
import Verif.Stream.Proof

/-!
# Looking up features in a static warren's index
-/

namespace Verif.Static
open Verif.Hopper Verif.Store Verif.Gcl

/-! ## The map -/

theorem record_length (f e : Int) : (record f e).length = 16 := by
  unfold record; rw [addrsBytes_length]; rfl

theorem records_nil : records [] = some [] := rfl

theorem recordAt_zero {f e : Int} (hf : In64 f) (he : In64 e) (rest : List UInt8) :
    recordAt (record f e ++ rest) 0 = (f, e) := by
  have := bytesAddrs_addrsBytes (l := [f, e]) (by
    intro a ha
    simp only [List.mem_cons, List.not_mem_nil, or_false] at ha
    rcases ha with rfl | rfl <;> assumption) rest
  have this : bytesAddrs 2 (record f e ++ rest) = [f, e] := this
  unfold recordAt
  rw [Nat.mul_zero, List.drop_zero, this]; rfl

theorem recordAt_succ (f e : Int) (rest : List UInt8) (i : Nat) :
    recordAt (record f e ++ rest) (i + 1) = recordAt rest i := by
  have : (record f e ++ rest).drop (16 * (i + 1)) = rest.drop (16 * i) := by
    have h16 := record_length f e
    rw [List.drop_append, List.drop_eq_nil_of_le (by omega), List.nil_append, h16]
    congr 1
  unfold recordAt
  rw [this]

theorem records_cons {f e : Int} (hf : In64 f) (he : In64 e) {rest : List UInt8} {map : List (Int × Int)}
    (h : records rest = some map) : records (record f e ++ rest) = some ((f, e) :: map) := by
  unfold records at h ⊢
  have h16 := record_length f e
  by_cases hm : rest.length % 16 ≠ 0
  · rw [if_pos hm] at h; cases h
  · rw [if_neg hm] at h
    have h : (List.range (rest.length / 16)).map (recordAt rest) = map := Option.some.inj h
    rw [if_neg (by rw [List.length_append, h16]; omega)]
    have hl : (record f e ++ rest).length / 16 = rest.length / 16 + 1 := by
      rw [List.length_append, h16]; omega
    rw [hl]
    show some _ = _
    rw [List.range_succ_eq_map, List.map_cons, List.map_map, ← h, recordAt_zero hf he]
    have : (List.range (rest.length / 16)).map (recordAt (record f e ++ rest) ∘ Nat.succ) =
        (List.range (rest.length / 16)).map (recordAt rest) :=
      List.map_congr_left fun i _ => recordAt_succ f e rest i
    rw [this]

/-- The records in `idx` say where the postings in `pst` are. -/
theorem filed_map {pc fc : Codec} : ∀ {base : Nat} {Ps : List Posting} {i r : List UInt8},
    Filed pc fc base Ps i r → (∀ P ∈ Ps, In64 P.feature) → base + r.length ≤ 9223372036854775807 →
    ∃ map, records i = some map ∧ map.map (·.1) = Ps.map Posting.feature ∧
      ∀ k P, Ps[k]? = some P → ∃ b pre post, P.write pc fc = some b ∧ r = pre ++ b ++ post ∧
        map[k]? = some (P.feature, ((base + pre.length + b.length : Nat) : Int)) ∧
        ((k = 0 ∧ pre = []) ∨ ∃ j x, k = j + 1 ∧ map[j]? = some x ∧ x.2 = ((base + pre.length : Nat) : Int)) := by
  intro base Ps i r h
  induction h with
  | nil => intro _ _; exact ⟨[], rfl, rfl, by simp⟩
  | @cons base P b Ps i r hw _ ih =>
    intro hf hl
    rw [List.length_append] at hl
    obtain ⟨map, m1, m2, m3⟩ := ih (fun Q hQ => hf Q (by simp [hQ])) (by omega)
    refine ⟨_, records_cons (hf P (by simp)) ⟨by omega, by omega⟩ m1, by simp [m2], ?_⟩
    intro k Q hk
    cases k with
    | zero =>
      simp only [List.getElem?_cons_zero, Option.some.injEq] at hk
      subst hk
      exact ⟨b, [], r, hw, by simp, by simp, Or.inl ⟨rfl, rfl⟩⟩
    | succ k =>
      rw [List.getElem?_cons_succ] at hk
      obtain ⟨c, pre, post, h1, h2, h3, h4⟩ := m3 k Q hk
      refine ⟨c, b ++ pre, post, h1, by rw [h2]; simp, ?_, Or.inr ?_⟩
      · rw [List.getElem?_cons_succ, h3, List.length_append, Nat.add_assoc base b.length]
      · rcases h4 with ⟨rfl, rfl⟩ | ⟨j, x, rfl, h5, h6⟩
        · exact ⟨0, _, rfl, rfl, by simp⟩
        · refine ⟨j + 1, x, rfl, by rw [List.getElem?_cons_succ]; exact h5, ?_⟩
          rw [h6, List.length_append, Nat.add_assoc base b.length]

/-! ## Searching -/

/-- The features of the map increase. -/
def Incr (map : List (Int × Int)) : Prop := map.Pairwise fun x y => x.1 < y.1

theorem incr_lt {map : List (Int × Int)} (h : Incr map) {i j : Nat} {x y : Int × Int} (hx : map[i]? = some x)
    (hy : map[j]? = some y) (hij : i < j) : x.1 < y.1 := by
  obtain ⟨hi, rfl⟩ := List.getElem?_eq_some_iff.1 hx
  obtain ⟨hj, rfl⟩ := List.getElem?_eq_some_iff.1 hy
  exact List.pairwise_iff_getElem.1 h i j hi hj hij

theorem search_ok {f : Int} {map : List (Int × Int)} (h : Incr map) {first : Int × Int}
    (h0 : map[0]? = some first) (hfirst : first.1 < f) : ∀ (n : Nat) (l r : Int), 0 ≤ l → l ≤ r + 1 → 0 ≤ r →
    r < map.length → r - l + 1 < n → (∀ (i : Nat) x, (i : Int) < l → map[i]? = some x → x.1 < f) →
    (∀ (i : Nat) x, r < (i : Int) → map[i]? = some x → f < x.1) →
    ∃ o, search f map n l r = some o ∧ (∀ i, o = some i → ∃ x, map[i]? = some x ∧ x.1 = f) ∧
      (o = none → ∀ (i : Nat) x, map[i]? = some x → x.1 ≠ f) := by
  intro n
  induction n with
  | zero =>
    intro l r _ h2 _ _ h5 _ _
    exact absurd h5 (by omega)
  | succ n ih =>
    intro l r h1 h2 h3 h4 h5 hlo hhi
    rw [search]
    by_cases hgt : r > l
    · rw [if_pos hgt]
      simp only
      generalize hm : l + (r - l) / 2 = m
      have hm1 : l ≤ m ∧ m < r := by omega
      rw [if_neg (by omega)]
      have hin : m.toNat < map.length := by omega
      rw [List.getElem?_eq_getElem hin]
      simp only
      have hx := List.getElem?_eq_getElem hin
      by_cases hlt : (map[m.toNat]).1 < f
      · rw [if_pos hlt]
        refine ih (m + 1) r (by omega) (by omega) h3 h4 (by omega) ?_ hhi
        intro i x hi hxi
        by_cases he : i = m.toNat
        · subst he; rw [hx] at hxi; cases hxi; exact hlt
        · have := incr_lt h hxi hx (by omega); omega
      · rw [if_neg hlt]
        by_cases hgt' : (map[m.toNat]).1 > f
        · rw [if_pos hgt']
          have hm0 : m ≠ 0 := by
            rintro rfl
            have : map[(0 : Int).toNat]? = some first := h0
            rw [hx] at this
            cases this
            omega
          refine ih l (m - 1) h1 (by omega) (by omega) (by omega) (by omega) hlo ?_
          intro i x hi hxi
          by_cases he : i = m.toNat
          · subst he; rw [hx] at hxi; cases hxi; exact hgt'
          · have := incr_lt h hx hxi (by omega); omega
        · rw [if_neg hgt']
          refine ⟨_, rfl, ?_, by simp⟩
          intro i hi
          cases hi
          exact ⟨_, hx, by omega⟩
    · rw [if_neg hgt, if_neg (by omega)]
      have hin : r.toNat < map.length := by omega
      have hx := List.getElem?_eq_getElem hin
      rw [hx]
      simp only
      by_cases he : (map[r.toNat]).1 = f
      · rw [if_pos he]
        refine ⟨_, rfl, ?_, by simp⟩
        intro i hi
        cases hi
        exact ⟨_, hx, he⟩
      · rw [if_neg he]
        refine ⟨_, rfl, by simp, ?_⟩
        intro _ i x hxi hxf
        by_cases hl : (i : Int) < l
        · have := hlo i x hl hxi; omega
        · by_cases hr : r < (i : Int)
          · have := hhi i x hr hxi; omega
          · have : i = r.toNat := by omega
            subst this
            rw [hx] at hxi; cases hxi
            exact he hxf

theorem locate_ok {f : Int} {map : List (Int × Int)} (h : Incr map) :
    ∃ o, locate f map = some o ∧ (∀ i, o = some i → ∃ x, map[i]? = some x ∧ x.1 = f) ∧
      (o = none → ∀ (i : Nat) x, map[i]? = some x → x.1 ≠ f) := by
  unfold locate
  cases map with
  | nil => exact ⟨none, rfl, by simp, by simp⟩
  | cons first rest =>
    simp only [List.head?_cons]
    generalize hmap : first :: rest = map at *
    have h0 : map[0]? = some first := by rw [← hmap]; rfl
    have hlen : 0 < map.length := by rw [← hmap]; simp
    have hlast : map.getLast? = some (map[map.length - 1]'(by omega)) := by
      rw [List.getLast?_eq_getElem?, List.getElem?_eq_getElem (by omega)]
    have hl' : map[map.length - 1]? = some (map[map.length - 1]'(by omega)) :=
      List.getElem?_eq_getElem (by omega)
    rw [hlast]
    simp only
    generalize map[map.length - 1]'(by omega) = last at hl'
    by_cases hout : f < first.1 ∨ f > last.1
    · rw [if_pos hout]
      refine ⟨none, rfl, by simp, ?_⟩
      intro _ i x hx e
      have hi : i < map.length := by
        rcases Nat.lt_or_ge i map.length with h | h
        · exact h
        · rw [List.getElem?_eq_none h] at hx; cases hx
      rcases hout with ho | ho
      · by_cases hi0 : i = 0
        · subst hi0; rw [h0] at hx; cases hx; omega
        · have := incr_lt h h0 hx (by omega); omega
      · by_cases hi0 : i = map.length - 1
        · subst hi0; rw [hl'] at hx; cases hx; omega
        · have := incr_lt h hx hl' (by omega); omega
    · rw [if_neg hout]
      by_cases he : first.1 = f
      · rw [if_pos he]
        refine ⟨_, rfl, ?_, by simp⟩
        intro i hi; cases hi; exact ⟨first, h0, he⟩
      · rw [if_neg he]
        apply search_ok h h0 (by omega) (map.length + 1) 0 (map.length - 1) (by omega) (by omega) (by omega)
          (by omega) (by omega)
        · intro i x hi; omega
        · intro i x hi hx
          rw [List.getElem?_eq_none (by omega)] at hx; cases hx

/-! ## Reading a posting -/

theorem bytesAddrs_take {n m : Nat} : ∀ {b : List UInt8}, 8 * n ≤ m → bytesAddrs n (b.take m) = bytesAddrs n b := by
  induction n generalizing m with
  | zero => intro b _; rfl
  | succ n ih =>
    intro b h
    rw [bytesAddrs, bytesAddrs, List.take_take, List.drop_take, ih (by omega), Nat.min_eq_left (by omega)]

theorem decompress_ok {pc fc : Codec} {P : Posting} {b : List UInt8} {f n p q v : Int}
    (h : readBlob pc fc b = some P) (hb : bytesAddrs 5 b = [f, n, p, q, v]) (hn : n ≠ 0) (h40 : 40 ≤ b.length) :
    decompress pc fc b = some P.arrays := by
  unfold readBlob at h
  simp only [hb] at h
  rw [if_neg (by omega)] at h
  unfold decompress
  simp only [hb]
  by_cases h1 : n < 0 ∨ p < 0 ∨ q < 0 ∨ v < 0
  · rw [if_pos h1] at h; cases h
  rw [if_neg h1] at h
  by_cases h2 : p > (b.length : Int) - 40
  · rw [if_pos h2] at h; cases h
  rw [if_neg h2] at h
  by_cases h3 : q > (b.length : Int) - (40 + p)
  · rw [if_pos h3] at h; cases h
  rw [if_neg h3] at h
  by_cases h4 : v > (b.length : Int) - (40 + p + q)
  · rw [if_pos h4] at h; cases h
  rw [if_neg h4, if_neg hn] at h
  rw [if_neg (by omega)]
  simp only [Option.bind_eq_bind, Option.bind_eq_some_iff] at h
  obtain ⟨ps, hps, qs, hqs, fs, hfs, h⟩ := h
  cases h
  have tang_len : ∀ {c : Codec} {z : List UInt8} {l : List Int}, tangArray c z n.toNat = some l → l.length ≠ 0 := by
    intro c z l h
    unfold tangArray at h
    simp only [Option.bind_eq_bind, Option.bind_eq_some_iff] at h
    obtain ⟨t, _, h⟩ := h
    by_cases ht : t.length = 8 * n.toNat
    · rw [if_pos ht] at h
      cases h
      have : ∀ k (t : List UInt8), (bytesAddrs k t).length = k := by
        intro k; induction k with
        | zero => intro t; rfl
        | succ k ih => intro t; rw [bytesAddrs, List.length_cons, ih]
      rw [this]; omega
    · rw [if_neg ht] at h; cases h
  rw [hps]
  simp only
  unfold Posting.arrays
  by_cases hq : q = 0
  · rw [if_neg (by omega)] at hqs
    cases hqs
    rw [if_pos hq]
    simp only
    by_cases hv : v = 0
    · rw [if_neg (by omega)] at hfs
      cases hfs
      rw [if_pos hv]; rfl
    · rw [if_pos (by omega)] at hfs
      rw [if_neg hv, hfs]
      simp [tang_len hfs]
  · rw [if_pos (by omega)] at hqs
    rw [if_neg hq, hqs]
    simp only
    by_cases hv : v = 0
    · rw [if_neg (by omega)] at hfs
      cases hfs
      rw [if_pos hv]; simp [tang_len hqs]
    · rw [if_pos (by omega)] at hfs
      rw [if_neg hv, hfs]
      simp [tang_len hfs, tang_len hqs]

/-! ## Lookups -/

section
variable {N K : Nat} {pc fc : Codec} {d : Files} {Rs : List Posting} (hc : Codecs N pc fc)
  (h : Holds K pc fc d Rs) (hK : K ≤ N) (hl : d.pst.length ≤ 4611686018427387904)
include hc h hK hl

/-- The map of the index, and where it leads. -/
theorem holds_locate (f : Int) : ∃ map, records d.idx = some map ∧ map.length = Rs.length ∧
    ((locate f map = some none ∧ ∀ R ∈ Rs, R.feature ≠ f) ∨
     ∃ k P b pre post, locate f map = some (some k) ∧ P ∈ Rs ∧ P.feature = f ∧ P.write pc fc = some b ∧
      d.pst = pre ++ b ++ post ∧ startOf map k = (pre.length : Int) ∧
      (map.getD k (0, 0)).2 = ((pre.length + b.length : Nat) : Int)) := by
  obtain ⟨map, m1, m2, m3⟩ := filed_map h.filed (fun P hP => (h.good P hP).feature) (by omega)
  have hlen : map.length = Rs.length := by
    have := congrArg List.length m2
    simpa using this
  have hincr : Incr map := by
    unfold Incr
    have h1 : (map.map (·.1)).Pairwise (· < ·) := by
      rw [m2, List.pairwise_map]; exact h.sorted
    rw [List.pairwise_map] at h1
    exact h1
  refine ⟨map, m1, hlen, ?_⟩
  have key : ∀ (k : Nat) P x, Rs[k]? = some P → map[k]? = some x → x.1 = P.feature := by
    intro k P x hP hx
    obtain ⟨b, pre, post, _, _, h3, _⟩ := m3 k P hP
    rw [h3] at hx; cases hx; rfl
  obtain ⟨o, o1, o2, o3⟩ := locate_ok (f := f) hincr
  cases o with
  | none =>
    left
    refine ⟨o1, ?_⟩
    intro R hR hf
    obtain ⟨k, hk, rfl⟩ := List.getElem_of_mem hR
    have hk' : k < map.length := by omega
    have hx := List.getElem?_eq_getElem hk'
    have := key k _ _ (List.getElem?_eq_getElem hk) hx
    exact o3 rfl k _ hx (this.trans hf)
  | some k =>
    right
    obtain ⟨x, hx, hxf⟩ := o2 k rfl
    have hk : k < Rs.length := by
      rw [← hlen]
      rcases Nat.lt_or_ge k map.length with h | h
      · exact h
      · rw [List.getElem?_eq_none h] at hx; cases hx
    have hP := List.getElem?_eq_getElem hk
    obtain ⟨b, pre, post, h1, h2, h3, h4⟩ := m3 k _ hP
    refine ⟨k, Rs[k], b, pre, post, o1, List.getElem_mem hk, ?_, h1, h2, ?_, ?_⟩
    · rw [← key k _ _ hP hx]; exact hxf
    · unfold startOf
      rcases h4 with ⟨rfl, rfl⟩ | ⟨j, y, rfl, h5, h6⟩
      · rfl
      · rw [if_neg (by omega), Nat.add_sub_cancel, List.getD_eq_getElem?_getD, h5]
        simpa using h6
    · rw [List.getD_eq_getElem?_getD, h3]
      simp

omit hc h hK hl in
theorem readAt_ok {pst pre b post : List UInt8} (he : pst = pre ++ b ++ post) (n : Nat) (hn : n ≤ b.length)
    (hl : pst.length ≤ 4611686018427387904) :
    ∃ r, Stream.FileR.readAt pre.length n { file := pst } = some (r, b.take n) := by
  refine ⟨{ file := pst, pos := pre.length + ((pst.drop pre.length).take n).length }, ?_⟩
  unfold Stream.FileR.readAt
  have hl2 : n ≤ pst.length := by
    rw [he, List.length_append, List.length_append]; omega
  rw [Stream.FileR.read_spec (by simp only; omega)]
  simp only
  have : (pst.drop pre.length).take n = b.take n := by
    rw [he, List.append_assoc, List.drop_left, List.take_append_of_le_length hn]
  rw [this]

theorem hopper_ok (f : Int) : Implements (hopper pc fc d f) (ofList (annsAt Rs f)) := by
  obtain ⟨map, m1, _, m3⟩ := holds_locate hc h hK hl f
  unfold hopper loadPosting
  rw [m1]
  simp only
  rcases m3 with ⟨l1, l2⟩ | ⟨k, P, b, pre, post, l1, hP, hf, hw, he, hst, hen⟩
  · rw [l1]
    have : annsAt Rs f = [] := by
      unfold annsAt
      have : Rs.filter (fun P => P.feature == f) = [] := by
        rw [List.filter_eq_nil_iff]; intro R hR; simpa using l2 R hR
      rw [this]; rfl
    rw [this]
    exact ⟨_, list_impl listing_nil⟩
  · rw [l1]
    simp only [hst, hen]
    have e1 : (pre.length : Int).toNat = pre.length := rfl
    have e2 : (((pre.length + b.length : Nat) : Int) - (pre.length : Int)).toNat = b.length := by omega
    rw [if_neg (by omega), e1, e2]
    obtain ⟨r, hr⟩ := readAt_ok he b.length (Nat.le_refl _) hl
    rw [List.take_length] at hr
    have h40 := write_length hw
    rw [hr]
    simp only [h40, and_self, if_true]
    have hg := h.good P hP
    obtain ⟨b', w1, _, w3, _⟩ := write_read ((hg.mono hK).storable hc)
    rw [hw] at w1; cases w1
    have w3 := w3 []
    rw [List.append_nil] at w3
    obtain ⟨x, y, z, rest, hb⟩ := write_header hw
    obtain ⟨g, n, p, q, v, hh⟩ : ∃ g n p q v, bytesAddrs 5 b = [g, n, p, q, v] := ⟨_, _, _, _, _, rfl⟩
    have hsz : P.size ≤ 9223372036854775807 := Nat.le_trans hg.size (Nat.le_trans hK hc.small)
    have hn : n = P.size := by
      have hb2 : bytesAddrs 2 b = [P.feature, (P.size : Int)] := by
        rw [hb]
        have : addrsBytes [P.feature, (P.size : Int), x, y, z] ++ rest =
            addrsBytes [P.feature, (P.size : Int)] ++ (addrsBytes [x, y, z] ++ rest) := by
          simp [addrsBytes]
        rw [this]
        exact bytesAddrs_addrsBytes (l := [P.feature, (P.size : Int)]) (by
          intro a ha
          simp only [List.mem_cons, List.not_mem_nil, or_false] at ha
          rcases ha with rfl | rfl
          · exact hg.feature
          · constructor <;> omega) _
      simp only [bytesAddrs, List.cons.injEq] at hh hb2
      rw [← hh.2.1, hb2.2.1]
    have hsize : P.size ≠ 0 := by
      rw [← anns_length hg.ok]
      intro h0
      exact hg.nonempty (List.eq_nil_of_length_eq_zero h0)
    have hn0 : n ≠ 0 := by omega
    have hd := decompress_ok w3 hh hn0 h40
    have hn' : (bytesAddrs 5 b).getD 1 0 = n := by rw [hh]; rfl
    rw [hn', if_neg hn0, hd]
    simp only
    have hanns : annsAt Rs f = P.anns := by
      unfold annsAt
      rcases sorted_filter h.sorted f with h0 | ⟨Q, hQ, h0, _⟩
      · rw [List.filter_eq_nil_iff] at h0
        exact absurd (by simpa using hf) (h0 P hP)
      · have : P ∈ Rs.filter fun P => P.feature == f := List.mem_filter.2 ⟨hP, by simpa using hf⟩
        rw [h0, List.mem_singleton] at this
        rw [h0, this]; simp
    rw [hanns]
    by_cases h1 : n = 1
    · rw [if_pos h1]
      have hlen1 : P.ps.length = 1 := by unfold Posting.size at hn; omega
      have hL := hg.listing
      rw [anns_eq hg.ok] at hL ⊢
      obtain ⟨o1, o2⟩ := hg.ok
      match hps : P.ps, hlen1 with
      | [p0], _ =>
        unfold Posting.arrays Posting.ends Posting.vals at *
        rw [hps] at o1 o2 hL ⊢
        match hqs : P.qs, hfs : P.fs, o1, o2 with
        | [], [], _, _ => rw [hqs, hfs] at hL; exact ⟨_, list_impl hL⟩
        | [q0], [], _, _ => rw [hqs, hfs] at hL; exact ⟨_, list_impl hL⟩
        | [], [v0], _, _ => rw [hqs, hfs] at hL; exact ⟨_, list_impl hL⟩
        | [q0], [v0], _, _ => rw [hqs, hfs] at hL; exact ⟨_, list_impl hL⟩
        | _ :: _ :: _, _, o1, _ => simp at o1
        | _, _ :: _ :: _, _, o2 => simp at o2
    · rw [if_neg h1]
      exact ⟨_, array_impl hg.listing hg.nonempty (arrays_hold hg.ok)⟩

theorem count_ok (f : Int) : count d f = some ((annsAt Rs f).length : Int) := by
  obtain ⟨map, m1, _, m3⟩ := holds_locate hc h hK hl f
  unfold count
  rw [m1]
  simp only
  rcases m3 with ⟨l1, l2⟩ | ⟨k, P, b, pre, post, l1, hP, hf, hw, he, hst, hen⟩
  · rw [l1]
    have : annsAt Rs f = [] := by
      unfold annsAt
      have : Rs.filter (fun P => P.feature == f) = [] := by
        rw [List.filter_eq_nil_iff]; intro R hR; simpa using l2 R hR
      rw [this]; rfl
    rw [this]; rfl
  · rw [l1]
    simp only [hst]
    have e1 : (pre.length : Int).toNat = pre.length := rfl
    rw [if_neg (by omega), e1]
    have h40 := write_length hw
    obtain ⟨r, hr⟩ := readAt_ok he 40 h40 hl
    rw [hr]
    have hlen : (b.take 40).length = 40 := by rw [List.length_take]; omega
    simp only [hlen, if_true]
    rw [bytesAddrs_take (by decide)]
    have hg := h.good P hP
    obtain ⟨x, y, z, rest, hb⟩ := write_header hw
    have hsz : P.size ≤ 9223372036854775807 := Nat.le_trans hg.size (Nat.le_trans hK hc.small)
    have hb2 : bytesAddrs 2 b = [P.feature, (P.size : Int)] := by
      rw [hb]
      have : addrsBytes [P.feature, (P.size : Int), x, y, z] ++ rest =
          addrsBytes [P.feature, (P.size : Int)] ++ (addrsBytes [x, y, z] ++ rest) := by
        simp [addrsBytes]
      rw [this]
      exact bytesAddrs_addrsBytes (l := [P.feature, (P.size : Int)]) (by
        intro a ha
        simp only [List.mem_cons, List.not_mem_nil, or_false] at ha
        rcases ha with rfl | rfl
        · exact hg.feature
        · constructor <;> omega) _
    have hanns : annsAt Rs f = P.anns := by
      unfold annsAt
      rcases sorted_filter h.sorted f with h0 | ⟨Q, hQ, h0, _⟩
      · rw [List.filter_eq_nil_iff] at h0
        exact absurd (by simpa using hf) (h0 P hP)
      · have : P ∈ Rs.filter fun P => P.feature == f := List.mem_filter.2 ⟨hP, by simpa using hf⟩
        rw [h0, List.mem_singleton] at this
        rw [h0, this]; simp
    rw [hanns, anns_length hg.ok]
    simp only [bytesAddrs, List.cons.injEq] at hb2 ⊢
    simp [hb2.2.1]

theorem vocab_ok : vocab d = some Rs.length := by
  obtain ⟨map, m1, m2, _⟩ := holds_locate hc h hK hl 0
  unfold vocab
  rw [m1]; simp [m2]

end
end Verif.Static
