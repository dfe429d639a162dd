import Verif.HazelText.Model
import Verif.TxtIO.Spec
/-
  The pieces of a static text: what is written can be opened, and reading gives the bytes.
-/
namespace Verif.HazelText
open Verif.Hopper Verif.Text Verif.Store

/-- the directory of pieces, from these places on -/
def entriesFrom (z : TxtIO.Codec) : Nat → Nat → List Text → List Entry
  | _, _, [] => []
  | r, c, d :: ds => ⟨((r + d.length : Nat) : Int), ((c + (z.crush d).length : Nat) : Int)⟩ ::
      entriesFrom z (r + d.length) (c + (z.crush d).length) ds

/-- where piece `k` starts -/
def off (ds : List Text) (k : Nat) : Nat := (ds.take k).flatten.length

/-- an open text holds these pieces -/
structure Holds (z : TxtIO.Codec) (t : Txt) (ds : List Text) : Prop where
  raw : t.raw = ds.flatten.length
  map : t.map = entriesFrom z 0 0 ds
  space : (ds.map z.crush).flatten <+: t.space
  full : ∀ d ∈ ds, d ≠ []
  restores : ∀ d ∈ ds, z.tang (z.crush d) = d
  target : 0 < t.target

variable {z : TxtIO.Codec}

theorem entriesFrom_length (ds : List Text) : ∀ r c, (entriesFrom z r c ds).length = ds.length := by
  induction ds with
  | nil => intros; rfl
  | cons d ds ih => intro r c; simp [entriesFrom, ih]

theorem entriesFrom_get (ds : List Text) : ∀ (r c k : Nat), k < ds.length → (entriesFrom z r c ds)[k]? =
    some ⟨((r + off ds (k + 1) : Nat) : Int), ((c + off (ds.map z.crush) (k + 1) : Nat) : Int)⟩ := by
  induction ds with
  | nil => intro r c k h; simp at h
  | cons d ds ih =>
    intro r c k h
    cases k with
    | zero => simp [entriesFrom, off]
    | succ k =>
      rw [entriesFrom, List.getElem?_cons_succ, ih _ _ _ (by simpa using h)]
      simp only [off, List.take_succ_cons, List.map_cons, List.flatten_cons, List.length_append]
      simp only [Nat.add_assoc]

theorem entriesFrom_append (a b : List Text) : ∀ r c, entriesFrom z r c (a ++ b) = entriesFrom z r c a ++
    entriesFrom z (r + a.flatten.length) (c + (a.map z.crush).flatten.length) b := by
  induction a with
  | nil => intros; simp [entriesFrom]
  | cons d a ih =>
    intro r c
    simp only [List.cons_append, entriesFrom, ih, List.flatten_cons, List.length_append, List.map_cons, Nat.add_assoc]

theorem off_succ {ds : List Text} {k : Nat} {d : Text} (h : ds[k]? = some d) : off ds (k + 1) = off ds k + d.length := by
  unfold off
  rw [List.take_add_one, h]
  simp

theorem off_zero (ds : List Text) : off ds 0 = 0 := rfl

theorem off_all (ds : List Text) {k : Nat} (h : ds.length ≤ k) : off ds k = ds.flatten.length := by
  unfold off; rw [List.take_of_length_le h]

theorem off_mono {ds : List Text} {i j : Nat} (h : i ≤ j) : off ds i ≤ off ds j := by
  have : ds.take i = (ds.take j).take i := by rw [List.take_take, Nat.min_eq_left h]
  unfold off
  rw [this]
  conv => rhs; rw [← List.take_append_drop i (ds.take j)]
  simp only [List.flatten_append, List.length_append]
  omega

theorem off_lt {ds : List Text} (hf : ∀ d ∈ ds, d ≠ []) {i j : Nat} (h : i < j) (hi : i < ds.length) :
    off ds i < off ds j := by
  have h1 : ds[i]? = some ds[i] := List.getElem?_eq_getElem hi
  have h2 := off_succ h1
  have h3 := off_mono (ds := ds) (show i + 1 ≤ j from h)
  have h4 := List.length_pos_iff.mpr (hf ds[i] (List.getElem_mem hi))
  omega

theorem off_take (ds : List Text) (k : Nat) : ds.flatten.take (off ds k) = (ds.take k).flatten := by
  have e : ds.flatten = (ds.take k).flatten ++ (ds.drop k).flatten := by
    rw [← List.flatten_append, List.take_append_drop]
  unfold off
  rw [e, List.take_left' rfl]

theorem off_drop (ds : List Text) (k : Nat) : ds.flatten.drop (off ds k) = (ds.drop k).flatten := by
  have e : ds.flatten = (ds.take k).flatten ++ (ds.drop k).flatten := by
    rw [← List.flatten_append, List.take_append_drop]
  unfold off
  rw [e, List.drop_left' rfl]

section
variable {t : Txt} {ds : List Text} (h : Holds z t ds)
include h

theorem Holds.length : t.map.length = ds.length := by rw [h.map, entriesFrom_length]

theorem Holds.get {k : Nat} (hk : k < ds.length) :
    t.map[k]? = some ⟨(off ds (k + 1) : Int), (off (ds.map z.crush) (k + 1) : Int)⟩ := by
  rw [h.map, entriesFrom_get _ _ _ _ hk]; simp

theorem Holds.rawEnd {k : Nat} (hk : k < ds.length) : t.rawEnd k = off ds (k + 1) := by
  unfold Txt.rawEnd; rw [h.get hk]; rfl

theorem Holds.compEnd {k : Nat} (hk : k < ds.length) : t.compEnd k = off (ds.map z.crush) (k + 1) := by
  unfold Txt.compEnd; rw [h.get hk]; rfl

theorem Holds.rawStart {k : Nat} (hk : k ≤ ds.length) : t.rawStart k = off ds k := by
  unfold Txt.rawStart
  split
  · subst k; rfl
  · rw [h.get (by omega), show k - 1 + 1 = k by omega]; rfl

theorem Holds.compStart {k : Nat} (hk : k ≤ ds.length) : t.compStart k = off (ds.map z.crush) k := by
  unfold Txt.compStart
  split
  · subst k; rfl
  · rw [h.get (by omega), show k - 1 + 1 = k by omega]; rfl

/-- the compressed bytes of a piece -/
theorem Holds.comp {k : Nat} {d : Text} (hk : ds[k]? = some d) :
    slice t.space (t.compStart k) (t.compEnd k - t.compStart k) = z.crush d := by
  have hl : k < ds.length := (List.getElem?_eq_some_iff.1 hk).1
  have h1 : (ds.map z.crush)[k]? = some (z.crush d) := by rw [List.getElem?_map, hk]; rfl
  have h2 := off_succ h1
  rw [h.compStart (by omega), h.compEnd hl]
  unfold slice
  obtain ⟨r, hr⟩ := h.space
  rw [← hr, Int.toNat_natCast, h2]
  have e : ((((off (ds.map z.crush) k + (z.crush d).length : Nat) : Int) - (off (ds.map z.crush) k : Int)).toNat) = (z.crush d).length := by
    omega
  rw [e]
  have hle : off (ds.map z.crush) k ≤ (ds.map z.crush).flatten.length := by
    rw [← off_all (ds.map z.crush) (Nat.le_refl _)]; exact off_mono (by simp; omega)
  rw [List.drop_append_of_le_length hle, off_drop]
  have : (ds.map z.crush).drop k = z.crush d :: (ds.map z.crush).drop (k + 1) := by
    obtain ⟨hk', e'⟩ := List.getElem?_eq_some_iff.1 h1
    rw [List.drop_eq_getElem_cons hk', e']
  rw [this, List.flatten_cons, List.append_assoc, List.take_left' rfl]

theorem Holds.piece {k : Nat} {d : Text} (hk : ds[k]? = some d) :
    t.piece z k = some d := by
  have hl : k < ds.length := (List.getElem?_eq_some_iff.1 hk).1
  unfold Txt.piece
  simp only
  rw [h.comp hk, h.restores d (List.mem_of_getElem? hk), h.rawStart (by omega), h.rawEnd hl, h.compStart (by omega), h.compEnd hl]
  have h1 := off_succ hk
  have h2 := off_mono (ds := ds.map z.crush) (show k ≤ k + 1 by omega)
  rw [if_neg (by omega), if_neg (by omega)]

/-- the loop of `raw_bytes`, over whole pieces -/
theorem Holds.pieces {a b : Int} : ∀ (n k : Nat), k + n ≤ ds.length →
    a ≤ off ds k → (off ds (k + n) : Int) ≤ b → t.pieces z a b k n = some ((ds.drop k).take n).flatten := by
  intro n
  induction n with
  | zero => intro k _ _ _; simp [Txt.pieces]
  | succ n ih =>
    intro k hk ha hb
    have hl : k < ds.length := by omega
    have hd : ds[k]? = some ds[k] := List.getElem?_eq_getElem hl
    have h1 := off_succ hd
    have h2 := off_mono (ds := ds) (show k + 1 ≤ k + (n + 1) by omega)
    rw [Txt.pieces, h.piece hd]
    simp only
    rw [ih (k + 1) (by omega) (by omega) (by rw [show k + 1 + n = k + (n + 1) by omega]; exact hb)]
    simp only
    rw [h.rawStart (by omega), h.rawEnd hl, List.drop_eq_getElem_cons hl, List.take_succ_cons, List.flatten_cons]
    congr 2
    have e1 : max a (off ds k : Int) = off ds k := by omega
    have e2 : min b (off ds (k + 1) : Int) = off ds (k + 1) := by omega
    rw [e1, e2]
    have h3 := List.length_pos_iff.mpr (h.full ds[k] (List.getElem_mem hl))
    rw [if_pos (by omega)]
    unfold slice
    have e3 : ((off ds k : Int) - off ds k).toNat = 0 := by omega
    have e4 : ((off ds (k + 1) : Int) - off ds k).toNat = ds[k].length := by omega
    rw [e3, e4, List.drop_zero, List.take_length]

theorem Holds.sorted : t.map.Pairwise fun a b => a.raw < b.raw := by
  rw [List.pairwise_iff_getElem]
  intro i j hi hj hij
  rw [h.length] at hi hj
  have e1 := h.get hi
  have e2 := h.get hj
  rw [List.getElem?_eq_some_iff] at e1 e2
  obtain ⟨_, e1⟩ := e1
  obtain ⟨_, e2⟩ := e2
  rw [e1, e2]
  have := off_lt h.full (show i + 1 < j + 1 by omega) (by omega)
  simp only
  omega
end

/-- binary search -/
theorem upperBound_ok {d : List Entry} {b : Int} (hd : d.Pairwise (fun a b => a.raw < b.raw)) (len : Nat) :
    ∀ first, first + len ≤ d.length → (∀ j e, j < first → d[j]? = some e → e.raw ≤ b) →
    (∀ j e, first + len ≤ j → d[j]? = some e → b < e.raw) →
    (∀ j e, j < upperBound d b first len → d[j]? = some e → e.raw ≤ b) ∧
    (∀ j e, upperBound d b first len ≤ j → d[j]? = some e → b < e.raw) := by
  induction len using Nat.strongRecOn with
  | _ len ih =>
    intro first hlen hlo hhi
    rw [upperBound]
    by_cases h0 : len = 0
    · rw [if_pos h0]
      subst h0
      exact ⟨hlo, fun j e hj he => hhi j e (by omega) he⟩
    · rw [if_neg h0]
      dsimp only
      have hin : first + len / 2 < d.length := by omega
      rw [List.getElem?_eq_getElem hin]
      have mono : ∀ (i j : Nat) (a b : Entry), i < j → d[i]? = some a → d[j]? = some b → a.raw < b.raw := by
        intro i j a b hij ha hb
        obtain ⟨hi, rfl⟩ := List.getElem?_eq_some_iff.1 ha
        obtain ⟨hj, rfl⟩ := List.getElem?_eq_some_iff.1 hb
        exact List.pairwise_iff_getElem.1 hd i j hi hj hij
      have hmid := List.getElem?_eq_getElem hin
      dsimp only
      split
      · rename_i hlt
        apply ih (len / 2) (by omega) first (by omega) hlo
        intro j e hj he
        by_cases hje : j = first + len / 2
        · subst hje; rw [hmid] at he; cases he; exact hlt
        · have := mono _ j _ e (by omega) hmid he; omega
      · rename_i hge
        apply ih (len - len / 2 - 1) (by omega) (first + len / 2 + 1) (by omega)
        · intro j e hj he
          by_cases hje : j = first + len / 2
          · subst hje; rw [hmid] at he; cases he; omega
          · have := mono j _ e _ (by omega) he hmid; omega
        · intro j e hj he
          exact hhi j e (by omega) he

section
variable {t : Txt} {ds : List Text} (h : Holds z t ds)
include h

/-- the piece of a byte -/
theorem Holds.pieceOf {b k : Nat} (hk : k < ds.length) (h1 : off ds k ≤ b) (h2 : b < off ds (k + 1)) :
    t.pieceOf b = k := by
  unfold Txt.pieceOf
  have hle : off ds (k + 1) ≤ ds.flatten.length := by
    rw [← off_all ds (Nat.le_refl _)]; exact off_mono (by omega)
  have hr := h.raw
  rw [if_neg (by omega)]
  obtain ⟨u1, u2⟩ := upperBound_ok (b := (b : Int)) h.sorted t.map.length 0 (by omega)
    (fun j e hj => by omega) (fun j e hj he => by
      have := (List.getElem?_eq_some_iff.1 he).1; omega)
  by_cases hlt : upperBound t.map b 0 t.map.length ≤ k
  · by_cases heq : upperBound t.map b 0 t.map.length = k
    · exact heq
    · have := u2 (k - 1) _ (by omega) (h.get (by omega))
      rw [show k - 1 + 1 = k by omega] at this
      simp only at this
      omega
  · have := u1 k _ (by omega) (h.get hk)
    simp only at this
    omega

omit h in
/-- every byte is in a piece -/
theorem covers {b : Nat} (hb : b < ds.flatten.length) :
    ∃ k, k < ds.length ∧ off ds k ≤ b ∧ b < off ds (k + 1) := by
  have key : ∀ n, n ≤ ds.length → b < off ds n → ∃ k, k < ds.length ∧ off ds k ≤ b ∧ b < off ds (k + 1) := by
    intro n
    induction n with
    | zero => intro _ h; rw [off_zero] at h; omega
    | succ n ih =>
      intro hn hlt
      by_cases hb : b < off ds n
      · exact ih (by omega) hb
      · exact ⟨n, by omega, by omega, hlt⟩
  exact key ds.length (Nat.le_refl _) (by rw [off_all ds (Nat.le_refl _)]; exact hb)

/-- reading whole pieces -/
theorem Holds.rawBytes {i j : Nat} (hij : i ≤ j) (hj : j < ds.length) :
    t.rawBytes z (off ds i) (off ds (j + 1)) = (ds.flatten.take (off ds (j + 1))).drop (off ds i) := by
  have hlt := off_lt h.full (show i < j + 1 by omega) (by omega)
  have hle : off ds (j + 1) ≤ ds.flatten.length := by
    rw [← off_all ds (Nat.le_refl _)]; exact off_mono (by omega)
  have hr := h.raw
  have hl := h.length
  have hi1 := off_lt h.full (show i < i + 1 by omega) (by omega)
  have hj1 := off_lt h.full (show j < j + 1 by omega) hj
  unfold Txt.rawBytes
  rw [if_neg (by omega), if_neg (by intro hm; rw [hm] at hl; simp at hl; omega)]
  have e1 : t.pieceOf (off ds i) = i := h.pieceOf (by omega) (by omega) hi1
  have e2 : t.pieceOf ((off ds (j + 1) : Int) - 1) = j := by
    rw [show (off ds (j + 1) : Int) - 1 = ((off ds (j + 1) - 1 : Nat) : Int) by omega]
    exact h.pieceOf hj (by omega) (by omega)
  simp only [e1, e2]
  rw [if_neg (by omega), h.pieces (j - i + 1) i (by omega) (by omega)
    (by rw [show i + (j - i + 1) = j + 1 by omega]; omega), off_take]
  simp only [Option.getD_some]
  have e3 : ds.take (j + 1) = ds.take i ++ (ds.drop i).take (j - i + 1) := by
    rw [← List.take_add]; congr 1; omega
  rw [e3, List.flatten_append]
  unfold off
  rw [List.drop_left' rfl]
end

/-! ### opening what was written -/

theorem entryBytes_length (e : Entry) : (entryBytes e).length = 16 := addrsBytes_length _

theorem dirBytes_length (d : List Entry) : (dirBytes d).length = 16 * d.length := by
  induction d with
  | nil => rfl
  | cons e d ih => simp only [dirBytes, List.flatMap_cons, List.length_append, entryBytes_length,
      List.length_cons] at *; omega

theorem loadDir_ok {o : Int} : ∀ {es : List Entry} {last : Option Entry} {rest : List UInt8},
    (∀ e ∈ es, In64 e.raw ∧ In64 e.comp ∧ 0 ≤ e.raw ∧ 0 ≤ e.comp ∧ e.comp ≤ o) →
    (∀ l, last = some l → ∀ e ∈ es, l.raw ≤ e.raw ∧ l.comp ≤ e.comp) →
    es.Pairwise (fun a b => a.raw ≤ b.raw ∧ a.comp ≤ b.comp) →
    loadDir o last es.length (dirBytes es ++ rest) = some es := by
  intro es
  induction es with
  | nil => intros; rfl
  | cons e es ih =>
    intro last rest hb hl hp
    rw [List.pairwise_cons] at hp
    obtain ⟨b1, b2, b3, b4, b5⟩ := hb e (List.mem_cons_self ..)
    have e1 : dirBytes (e :: es) ++ rest = entryBytes e ++ (dirBytes es ++ rest) := by simp [dirBytes]
    have l8 := addrBytes_length
    have e2 : bytesAddr ((entryBytes e ++ (dirBytes es ++ rest)).take 8) = e.raw := by
      unfold entryBytes
      simp only [addrsBytes, List.append_nil, List.append_assoc]
      rw [List.take_left' (l8 _), bytesAddr_addrBytes b1]
    have e3 : bytesAddr (((entryBytes e ++ (dirBytes es ++ rest)).drop 8).take 8) = e.comp := by
      unfold entryBytes
      simp only [addrsBytes, List.append_nil, List.append_assoc]
      rw [List.drop_left' (l8 _), List.take_left' (l8 _), bytesAddr_addrBytes b2]
    rw [List.length_cons, loadDir, e1]
    simp only [e2, e3]
    have ee : (⟨e.raw, e.comp⟩ : Entry) = e := rfl
    rw [List.drop_left' (entryBytes_length e)]
    have h2 : last.any (fun l => decide (e.raw < l.raw) || decide (e.comp < l.comp)) = false := by
      cases last with
      | none => rfl
      | some l => have := hl l rfl e (List.mem_cons_self ..); simp; omega
    rw [h2, if_neg (by simp; omega), ih (fun x hx => hb x (List.mem_cons_of_mem _ hx))
      (by intro l hl' x hx; cases hl'; exact hp.1 x hx) hp.2]

/-- what is written for pieces is opened as these pieces -/
theorem load_ok {ds : List Text} (hf : ∀ d ∈ ds, d ≠ [])
    (hz : ∀ d ∈ ds, z.tang (z.crush d) = d) {target : Int} (ht : 0 < target) (ht64 : In64 target)
    (hsz : (blobOf ⟨(ds.map z.crush).flatten, entriesFrom z 0 0 ds⟩ ds.flatten.length target).length ≤ 9223372036854775807)
    (hraw : ds.flatten.length ≤ 9223372036854775807) :
    ∃ t, load (blobOf ⟨(ds.map z.crush).flatten, entriesFrom z 0 0 ds⟩ ds.flatten.length target) = some t ∧
      Holds z t ds ∧ t.target = target := by
  generalize hS : (ds.map z.crush).flatten = S at hsz ⊢
  generalize hes : entriesFrom z 0 0 ds = es at hsz ⊢
  have hlen : es.length = ds.length := by rw [← hes, entriesFrom_length]
  have hd := dirBytes_length es
  have hl5 : (addrsBytes [(S.length : Int), (dirBytes es).length, es.length, ds.flatten.length, target]).length = 40 := by
    rw [addrsBytes_length]; rfl
  have ea : blobOf ⟨S, es⟩ ds.flatten.length target = txtMagic ++
      (addrsBytes [(S.length : Int), (dirBytes es).length, es.length, ds.flatten.length, target] ++ (S ++ dirBytes es)) := by
    simp [blobOf]
  have hm : txtMagic.length = 21 := rfl
  have hbl : (blobOf ⟨S, es⟩ ds.flatten.length target).length = 61 + S.length + 16 * es.length := by
    rw [ea, List.length_append, List.length_append, List.length_append, hl5, hm, hd]; omega
  have e1 : (blobOf ⟨S, es⟩ ds.flatten.length target).take 21 = txtMagic := by rw [ea, List.take_left' hm]
  have e2 : bytesAddrs 5 ((blobOf ⟨S, es⟩ ds.flatten.length target).drop 21) =
      [(S.length : Int), (dirBytes es).length, es.length, ds.flatten.length, target] := by
    rw [ea, List.drop_left' hm]
    apply bytesAddrs_addrsBytes (l := [(S.length : Int), (dirBytes es).length, es.length, ds.flatten.length, target])
    intro a ha
    simp only [List.mem_cons, List.not_mem_nil, or_false] at ha
    rcases ha with rfl | rfl | rfl | rfl | rfl
    · constructor <;> omega
    · constructor <;> omega
    · constructor <;> omega
    · constructor <;> omega
    · exact ht64
  have e3 : (blobOf ⟨S, es⟩ ds.flatten.length target).drop 61 = S ++ dirBytes es := by
    rw [ea, show (61 : Nat) = 21 + 40 from rfl, ← List.drop_drop, List.drop_left' hm, List.drop_left' hl5]
  unfold load
  rw [if_neg (by omega), e1, if_neg (by simp), e2]
  simp only [e3]
  have hsl : (S ++ dirBytes es).length = S.length + 16 * es.length := by simp [hd]
  rw [hsl, if_neg (by rw [hd]; omega)]
  by_cases h0 : es.length = 0
  · have hds : ds = [] := List.length_eq_zero_iff.mp (by omega)
    subst hds
    simp at hS
    subst hS
    rw [if_pos (by omega), if_neg (by rw [hd, h0]; simp)]
    refine ⟨_, rfl, ⟨rfl, by simp [entriesFrom], by simp, by simp, by simp, ht⟩, rfl⟩
  · rw [if_neg (by omega)]
    have e4 : (S ++ dirBytes es).drop ((S.length : Int)).toNat = dirBytes es ++ [] := by
      rw [Int.toNat_natCast, List.drop_left' rfl, List.append_nil]
    rw [e4, Int.toNat_natCast]
    have hget : ∀ k, k < ds.length → es[k]? = some ⟨(off ds (k + 1) : Int), (off (ds.map z.crush) (k + 1) : Int)⟩ := by
      intro k hk
      rw [← hes, entriesFrom_get _ _ _ _ hk]; simp
    have hcl : ∀ k, off (ds.map z.crush) k ≤ S.length := by
      intro k
      rw [← hS]
      by_cases hk : (ds.map z.crush).length ≤ k
      · rw [off_all _ hk]; exact Nat.le_refl _
      · rw [← off_all (ds.map z.crush) (Nat.le_refl _)]; exact off_mono (by omega)
    have hrl : ∀ k, off ds k ≤ ds.flatten.length := by
      intro k
      by_cases hk : ds.length ≤ k
      · rw [off_all _ hk]; exact Nat.le_refl _
      · rw [← off_all ds (Nat.le_refl _)]; exact off_mono (by omega)
    rw [loadDir_ok (last := none)]
    · simp only
      have hlast : es.getLast? = some ⟨(ds.flatten.length : Int), (S.length : Int)⟩ := by
        rw [List.getLast?_eq_getElem?, hget _ (by omega), hlen, show ds.length - 1 + 1 = ds.length by omega,
          off_all ds (Nat.le_refl _), off_all (ds.map z.crush) (by simp), hS]
      rw [hlast]
      simp only
      rw [if_neg (by simp)]
      refine ⟨_, rfl, ⟨rfl, hes.symm, ⟨dirBytes es, by rw [hS]⟩, hf, hz, ht⟩, rfl⟩
    · intro e he
      obtain ⟨k, hk, rfl⟩ := List.getElem_of_mem he
      have := hget k (by omega)
      rw [List.getElem?_eq_some_iff] at this
      obtain ⟨_, h⟩ := this
      rw [h]
      have h1 := hcl (k + 1)
      have h2 := hrl (k + 1)
      refine ⟨⟨?_, ?_⟩, ⟨?_, ?_⟩, ?_, ?_, ?_⟩ <;> simp only <;> omega
    · intro l hl; cases hl
    · rw [List.pairwise_iff_getElem]
      intro i j hi hj hij
      have hA := hget i (by omega)
      have hB := hget j (by omega)
      rw [List.getElem?_eq_some_iff] at hA hB
      obtain ⟨_, hA⟩ := hA
      obtain ⟨_, hB⟩ := hB
      rw [hA, hB]
      have h1 := off_mono (ds := ds) (show i + 1 ≤ j + 1 by omega)
      have h2 := off_mono (ds := ds.map z.crush) (show i + 1 ≤ j + 1 by omega)
      simp only
      omega

end Verif.HazelText
