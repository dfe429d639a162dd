import Verif.HazelText.Data
import Verif.Text.Cut
/-
  Reading from the pieces that hold a range is reading from the text up to the last of them.
-/
namespace Verif.HazelText
open Verif.Hopper Verif.Text Verif.Store

variable {T : Tokenizer}

section
variable (hT : Lawful T)
include hT

theorem starts_lt {text : Text} {g v : Nat} (h : Starts T text g v) (hg : g < T.addresses text) : v < text.length := by
  rcases h with ⟨A, B, rfl, rfl, h2, rfl⟩ | ⟨t, ht, rfl, rfl⟩
  · cases B with
    | nil => simp at hg
    | cons b B => simp
  · have := (hT.ordered _).inside t ht; omega

/-- a token before a place -/
theorem skip_lt {text : Text} {g v m : Nat} (h : Starts T text g v) (hm : m < g) : T.skip text m < v := by
  rcases h with ⟨A, B, rfl, rfl, h2, rfl⟩ | ⟨t, ht, rfl, rfl⟩
  · obtain ⟨t, ht, e⟩ := (at_lt hT A m).mpr hm
    have h3 : t ∈ T.tokenize (A ++ B) := by rw [whole_eq h2]; exact List.mem_append_left _ ht
    have h4 := (hT.skips _).start t h3
    have h5 := (hT.ordered _).inside t ht
    rw [e] at h4
    omega
  · have ho := hT.ordered text
    obtain ⟨u, hu, e⟩ := ho.dense t.address m ⟨t, ht, rfl⟩ hm
    have h4 := (hT.skips _).start u hu
    have h5 := ho.inside u hu
    have h6 := ho.mono u hu t ht (by omega)
    rw [e] at h4
    omega

theorem starts_le_skip {text : Text} {g v : Nat} (h : Starts T text g v) : v ≤ T.skip text g := by
  have := h.skip hT 0
  simp only [Nat.add_zero] at this
  omega

/-- places follow each other as their addresses do -/
theorem starts_mono {text : Text} {g v g' v' : Nat} (h : Starts T text g v) (h' : Starts T text g' v')
    (hg : g < g') : v < v' :=
  Nat.lt_of_le_of_lt (starts_le_skip hT h) (skip_lt hT h' hg)

/-- a text cut at the start of a token -/
structure CutAt (T : Tokenizer) (text : Text) (n W : Nat) : Prop where
  count : T.addresses (text.take W) = n
  tokens : T.tokenize text = T.tokenize (text.take W) ++ (T.tokenize (text.drop W)).map (Tok.moved n W)
  start : T.skip text n = W
  inside : W ≤ text.length

omit hT in
theorem cutAt {text : Text} (hC : Cuts T) (hT : Lawful T) {t : Tok} (ht : t ∈ T.tokenize text) :
    CutAt T text t.address t.offset := by
  have h1 := (hT.skips text).start t ht
  obtain ⟨h2, h3⟩ := hC text t.address ⟨t, ht, rfl⟩
  rw [h1] at h2 h3
  exact ⟨h2, h3, h1, by have := (hT.ordered _).inside t ht; omega⟩

theorem CutAt.skip {text : Text} {n W : Nat} (h : CutAt T text n W) {m : Nat} (hm : m ≤ n) :
    T.skip (text.take W) m = T.skip text m := by
  by_cases hlt : m < n
  · obtain ⟨t, ht, e⟩ := (at_lt hT (text.take W) m).mpr (by rw [h.count]; exact hlt)
    have h2 : t ∈ T.tokenize text := by rw [h.tokens]; exact List.mem_append_left _ ht
    have h3 := (hT.skips _).start t ht
    have h4 := (hT.skips _).start t h2
    rw [e] at h3 h4
    rw [h3, h4]
  · have e : m = n := by omega
    subst e
    rw [h.start, (hT.skips _).past m (by rw [at_lt hT, h.count]; omega), List.length_take, Nat.min_eq_left h.inside]

omit hT in
theorem CutAt.starts {text : Text} {n W : Nat} (h : CutAt T text n W) {g v : Nat} (hs : Starts T text g v)
    (hv : v < W) : Starts T (text.take W) g v := by
  rcases hs with ⟨A, B, rfl, rfl, h2, rfl⟩ | ⟨t, ht, rfl, rfl⟩
  · refine Or.inl ⟨A, B.take (W - A.length), ?_, rfl, h2, rfl⟩
    rw [List.take_append, List.take_of_length_le (by omega)]
  · refine Or.inr ⟨t, ?_, rfl, rfl⟩
    rw [h.tokens, List.mem_append] at ht
    rcases ht with ht | ht
    · exact ht
    · obtain ⟨u, -, rfl⟩ := List.mem_map.mp ht
      simp only [Tok.moved] at hv
      omega

omit hT in
theorem CutAt.laid {text : Text} {n W : Nat} (h : CutAt T text n W) : ∀ {l : List Ann} {g : Nat},
    Laid T text g l → (∀ c ∈ l, c.v.toNat < W) → Laid T (text.take W) g l := by
  intro l
  induction l with
  | nil => intros; trivial
  | cons c l ih =>
    intro g hl hv
    exact ⟨h.starts hl.1 (hv c (List.mem_cons_self ..)), hl.2.1, hl.2.2.1,
      ih hl.2.2.2 fun d hd => hv d (List.mem_cons_of_mem _ hd)⟩

/-- the offsets of chunks follow each other -/
theorem laid_offsets {text : Text} {pre post : List Ann} {c : Ann} (hL : Laid T text 0 (pre ++ c :: post)) :
    (∀ d ∈ pre, d.v < c.v) ∧ ∀ d ∈ post, c.v < d.v := by
  have key : ∀ {a b : List Ann} {x y : Ann}, pre ++ c :: post = a ++ x :: b → y ∈ b → x.v < y.v := by
    intro a b x y e hy
    obtain ⟨b1, b2, rfl⟩ := List.append_of_mem hy
    rw [e, laid_append] at hL
    obtain ⟨-, h1, h2, h3, h4⟩ := hL
    rw [laid_append] at h4
    obtain ⟨-, h5, h6, -⟩ := h4
    have hlen : 1 ≤ Ann.len x := by simp only [Ann.len]; omega
    have := starts_mono hT h1 h5 (by omega)
    omega
  refine ⟨?_, fun d hd => key rfl hd⟩
  intro d hd
  obtain ⟨a, b, rfl⟩ := List.append_of_mem hd
  exact key (a := a) (b := b ++ c :: post) (by simp) (by simp)
end

/-! ### the pieces of a range -/

section
variable {z : TxtIO.Codec} {t : Txt} {ds : List Text} (h : Holds z t ds)
include h

theorem Holds.pieceOf_mono {a b k l : Nat} (hk : k < ds.length) (h1 : off ds k ≤ a)
    (hl : l < ds.length) (h4 : b < off ds (l + 1)) (hab : a ≤ b) : k ≤ l := by
  apply Classical.byContradiction
  intro hlt
  have := off_mono (ds := ds) (show l + 1 ≤ k by omega)
  omega

/-- up to an address that a chunk holds -/
theorem Holds.cut_in {p q : Int} {c0 c1 : Ann} (v0 : 0 ≤ c0.v) (v01 : c0.v ≤ c1.v)
    {k : Nat} (hk : k < ds.length) (k1 : (off ds k : Int) ≤ c1.v) (k2 : c1.v < off ds (k + 1)) {s e : Nat} {P : Text}
    (hP : P = ds.flatten.take (off ds (k + 1)))
    (hstart : (if c0.p < p then c0.v.toNat + T.skip (P.drop c0.v.toNat) (p - c0.p) else c0.v.toNat) = s)
    (hend : c1.v.toNat + T.skip (P.drop c1.v.toNat) (q - c1.p + 1) = e) (hse : s ≤ e) (hq : q ≤ c1.q)
    (hsame : c0.q = c1.q → s + T.skip (P.drop s) (q - (if c0.p < p then p else c0.p) + 1) = e) :
    cutStatic T z t p q c0 c1 = (P.drop s).take (e - s) := by
  have hle : off ds (k + 1) ≤ ds.flatten.length := by
    rw [← off_all ds (Nat.le_refl _)]; exact off_mono (by omega)
  have hr := h.raw
  have hl := h.length
  obtain ⟨k0, g1, g2, g3⟩ := covers (ds := ds) (b := c0.v.toNat) (by omega)
  have hkk : k0 ≤ k := h.pieceOf_mono g1 g2 hk (b := c1.v.toNat) (by omega) (by omega)
  have p0 : t.pieceOf c0.v = k0 := by
    have := h.pieceOf g1 g2 g3
    rwa [show ((c0.v.toNat : Nat) : Int) = c0.v by omega] at this
  have p1 : t.pieceOf c1.v = k := by
    have := h.pieceOf hk (b := c1.v.toNat) (by omega) (by omega)
    rwa [show ((c1.v.toNat : Nat) : Int) = c1.v by omega] at this
  have hlt := off_lt h.full (show k0 < k + 1 by omega) (by omega)
  have hP1 : P.length = off ds (k + 1) := by rw [hP, List.length_take]; omega
  unfold cutStatic
  have hnq : ¬ q > c1.q := by omega
  simp only [if_neg hnq]
  rw [if_neg (by omega), if_neg (by
    rintro (h' | h')
    · omega
    · rw [h'] at hl; simp at hl; omega)]
  simp only [p0, p1]
  rw [if_neg (by omega), h.rawStart (by omega), h.rawEnd hk]
  simp only [h.rawBytes hkk hk, ← hP]
  rw [if_neg (by omega), List.length_drop, hP1, if_neg (by omega)]
  have drops : ∀ n, off ds k0 ≤ n → (P.drop (off ds k0)).drop (n - off ds k0) = P.drop n := by
    intro n hn
    rw [List.drop_drop]; congr 1; omega
  have i0 : (c0.v - (off ds k0 : Int)).toNat = c0.v.toNat - off ds k0 := by omega
  have i1 : (c1.v - (off ds k0 : Int)).toNat = c1.v.toNat - off ds k0 := by omega
  have hs0 : c0.v.toNat ≤ s := by rw [← hstart]; split <;> omega
  rw [i0, i1]
  have es : (if c0.p < p then c0.v.toNat - off ds k0 +
      T.skip ((P.drop (off ds k0)).drop (c0.v.toNat - off ds k0)) (p - c0.p)
      else c0.v.toNat - off ds k0) = s - off ds k0 := by
    rw [← hstart, drops _ g2]
    split <;> omega
  rw [es, drops s (by omega), drops c1.v.toNat (by omega)]
  by_cases hs : c0.q = c1.q
  · rw [if_pos hs]
    have := hsame hs
    congr 1
    omega
  · rw [if_neg hs, if_neg (by omega), if_neg (by omega)]
    congr 1
    omega

/-- up to an address that no chunk holds -/
theorem Holds.cut_gap {p q : Int} {c0 c1 : Ann} (v0 : 0 ≤ c0.v) (v0' : c0.v < ds.flatten.length)
    (v1 : 0 ≤ c1.v) (v1' : c1.v ≤ ds.flatten.length) {s : Nat}
    (hstart : (if c0.p < p then c0.v.toNat + T.skip (ds.flatten.drop c0.v.toNat) (p - c0.p) else c0.v.toNat) = s)
    (hq : c1.q < q) : cutStatic T z t p q c0 c1 = ds.flatten.drop s := by
  have hr := h.raw
  have hl := h.length
  obtain ⟨k0, g1, g2, g3⟩ := covers (ds := ds) (b := c0.v.toNat) (by omega)
  have p0 : t.pieceOf c0.v = k0 := by
    have := h.pieceOf g1 g2 g3
    rwa [show ((c0.v.toNat : Nat) : Int) = c0.v by omega] at this
  have hk : ds.length - 1 < ds.length := by omega
  have e1 : off ds (ds.length - 1 + 1) = ds.flatten.length := off_all ds (by omega)
  have hlt := off_lt h.full (show k0 < ds.length - 1 + 1 by omega) (by omega)
  unfold cutStatic
  simp only [if_pos (show q > c1.q from hq)]
  rw [if_neg (by omega), if_neg (by
    rintro (h' | h')
    · omega
    · rw [h'] at hl; simp at hl; omega)]
  simp only [p0, hl]
  rw [if_neg (by omega), h.rawStart (by omega), h.rawEnd hk]
  have hb := h.rawBytes (show k0 ≤ ds.length - 1 by omega) hk
  rw [e1, List.take_length] at hb
  simp only [e1, hb]
  rw [if_neg (by omega), List.length_drop, if_neg (by omega)]
  have drops : ∀ n, off ds k0 ≤ n → (ds.flatten.drop (off ds k0)).drop (n - off ds k0) = ds.flatten.drop n := by
    intro n hn
    rw [List.drop_drop]; congr 1; omega
  have i0 : (c0.v - (off ds k0 : Int)).toNat = c0.v.toNat - off ds k0 := by omega
  have hs0 : c0.v.toNat ≤ s := by rw [← hstart]; split <;> omega
  rw [i0]
  have es : (if c0.p < p then c0.v.toNat - off ds k0 +
      T.skip ((ds.flatten.drop (off ds k0)).drop (c0.v.toNat - off ds k0)) (p - c0.p)
      else c0.v.toNat - off ds k0) = s - off ds k0 := by
    rw [← hstart, drops _ g2]
    split <;> omega
  rw [es, drops s (by omega)]
end

end Verif.HazelText
