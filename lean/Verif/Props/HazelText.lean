import Verif.HazelText.Mixed
import Verif.Props.Text
import Verif.Props.Crash
import Verif.Props.HazelMerge
/-
  C39: the static form of a shard keeps its text.
-/
namespace Verif.Props
open Verif.Text Verif.Hopper Verif.HazelText
open Verif.Gcl (Implements)

theorem Setting.cuts {T : Tokenizer} {Fit : Text → Prop} (h : Setting T Fit) : Cuts T := by
  cases h with
  | plain => exact ascii_cuts _
  | tags => exact ascii_cuts _
  | utf8 act h => exact utf8_cuts h.1

/-- C39, writing: the text of a dynamic shard can be written as a static text and opened, if it
is shorter than 2^63 bytes and, when the shard has tokens, its first transaction has one (see
`C39_first_lost`). -/
theorem C39_written {T : Tokenizer} {Fit : Text → Prop} (hS : Setting T Fit) {g : List Txn}
    (hfit : ∀ u ∈ g, ∀ x ∈ u.texts, Fit x) (ho : InOrder T g)
    (hf : (∀ u ∈ g, u.count T = 0) ∨ ∃ u r, g = u :: r ∧ 0 < u.count T)
    {z : TxtIO.Codec} (hz : z.Restores (groupText g).length) {target : Int} (ht : 0 < target) (ht64 : Store.In64 target) :
    ∃ blob, writeTxt z target (mergeShards (g.map (Txn.shard T))) = some blob ∧
      (blob.length ≤ maxLength → (groupText g).length ≤ maxLength →
        ∃ t, load blob = some t ∧ Frozen T z target g t) := by
  obtain ⟨hT, hnl, hc⟩ := hS.lawful
  obtain ⟨blob, h1, h2⟩ := freeze_keeps hT hnl (fun u hu x hx => hc x (hfit u hu x hx)) ho hf ht ht64 hz
  refine ⟨blob, h1, fun hb hl => ?_⟩
  obtain ⟨t, k1, -⟩ := h2 hb hl
  exact ⟨t, k1, .freeze hf h1 hb hl k1⟩

/-- C39, merging: static texts can be merged, and the merged text opened. -/
theorem C39_merged {T : Tokenizer} {Fit : Text → Prop} (hS : Setting T Fit) {gs : List (List Txn)}
    (hfit : ∀ u ∈ gs.flatten, ∀ x ∈ u.texts, Fit x) (ho : InOrder T gs.flatten)
    {z : TxtIO.Codec} (hz : z.Restores (groupText gs.flatten).length) {target : Int} (ht : 0 < target)
    (ht64 : Store.In64 target) {ts : List Txt} (h : FrozenAll T z target gs ts) (hn : 2 ≤ ts.length) :
    ∃ blob, mergeTxt ts = some blob ∧ (blob.length ≤ maxLength → (groupText gs.flatten).length ≤ maxLength →
      ∃ t, load blob = some t ∧ Frozen T z target gs.flatten t) := by
  obtain ⟨hT, hnl, hc⟩ := hS.lawful
  obtain ⟨dss, d1, d2, d3, -⟩ := frozenAll_keeps hT hnl ht ht64 h (fun u hu x hx => hc x (hfit u hu x hx)) ho hz
  obtain ⟨blob, k1, k2⟩ := merge_holds d1 ht64 d2 hn
  refine ⟨blob, k1, fun hb hl => ?_⟩
  obtain ⟨t, k3, -⟩ := k2 hb (by rw [d3]; exact hl)
  exact ⟨t, k3, .merge h k1 hb hl k3⟩

/-- C39 (what is missing: shards whose first transaction has no token, see `C39_first_lost`;
asking up to the largest address, where a static text gives more than a dynamic one, see
`C39_to_the_end`; the texts that `C27_append_partial` leaves out).

A warren whose shards are dynamic or static, in any mixture and after any merges of static
shards, answers every question as a warren of dynamic shards with the same transactions.  (Which
of them are merged makes a difference only to what follows the last token asked for, and to
questions that end where there is no transaction: `C27_tokenless_merged`, `C27_gap_merged`.)
The readers can be asked again. -/
theorem C39_mixed_partial {T : Tokenizer} {Fit : Text → Prop} (hS : Setting T Fit) {W : List (List Txn)}
    (hfit : ∀ g ∈ W, ∀ u ∈ g, ∀ x ∈ u.texts, Fit x) (ho : InOrder T W.flatten)
    {rs : List AnyReader} (hrs : MixedAll T rs W) (p : Int) {q : Int} (hq : q < maxfinity) :
    ∃ (W' : List (List Txn)) (a : Text) (rs' : List AnyReader), W'.flatten = W.flatten ∧
      readMixed T p q rs = some (a, rs') ∧ ask T W' p q = some a ∧ MixedAll T rs' W := by
  obtain ⟨hT, hnl, hc⟩ := hS.lawful
  obtain ⟨W', as, rs', e, h1, h2, h3⟩ := mixed_all hT hnl hS.cuts hrs
    (fun g hg u hu x hx => hc x (hfit g hg u hu x hx)) ho p hq
  refine ⟨W', as.flatten, rs', e, h2, ?_, h3⟩
  have hfit' : ∀ g ∈ W', ∀ u ∈ g, ∀ x ∈ u.texts, Fit x := by
    intro g hg u hu x hx
    have : u ∈ W.flatten := by rw [← e]; exact List.mem_flatten.mpr ⟨g, hg, hu⟩
    obtain ⟨g', hg', hu'⟩ := List.mem_flatten.mp this
    exact hfit g' hg' u hu' x hx
  obtain ⟨rs'', k1, -⟩ := readAll_each h1 (C27_fresh hS hfit' (by rw [e]; exact ho))
  unfold ask
  rw [k1]; rfl

theorem split_flatten {α : Type} {W : List (List α)} : ∀ {L R : List α} {t : α}, W.flatten = L ++ t :: R →
    ∃ before after l r, W = before ++ (l ++ t :: r) :: after ∧ before.flatten ++ l = L ∧ r ++ after.flatten = R := by
  induction W with
  | nil => intro L R t h; simp at h
  | cons g W ih =>
    intro L R t h
    rw [List.flatten_cons, List.append_eq_append_iff] at h
    rcases h with ⟨a, h1, h2⟩ | ⟨a, h1, h2⟩
    · obtain ⟨b, c, l, r, k1, k2, k3⟩ := ih h2
      exact ⟨g :: b, c, l, r, by rw [k1]; rfl, by rw [h1, ← k2]; simp, k3⟩
    · cases a with
      | nil =>
        obtain ⟨b, c, l, r, k1, k2, k3⟩ := ih (L := []) (R := R) (t := t) (by simpa using h2.symm)
        refine ⟨g :: b, c, l, r, by rw [k1]; rfl, ?_, k3⟩
        rw [List.append_nil] at h1
        rw [List.flatten_cons, List.append_assoc, k2, List.append_nil, h1]
      | cons x a =>
        rw [List.cons_append] at h2
        injection h2 with h3 h4
        subst h3
        exact ⟨[], W, L, a, by rw [h1]; rfl, rfl, h4.symm⟩

/-- Reading back an appended text, whatever shards are static (what is missing: as in
`C39_mixed_partial`).  The addresses of `s` give the text from its first token on, the separator
that ends it, and what is stored after it, `F`, up to the next token; of the transactions after
its own, `F` has some at the beginning, `R'`, depending on what is merged. -/
theorem C39_append_partial {T : Tokenizer} {Fit : Text → Prop} (hS : Setting T Fit) {W : List (List Txn)}
    (hfit : ∀ g ∈ W, ∀ u ∈ g, ∀ x ∈ u.texts, Fit x) (ho : InOrder T W.flatten)
    {rs : List AnyReader} (hrs : MixedAll T rs W)
    {L R : List Txn} {t : Txn} {l r : List Text} {s : Text} (hW : W.flatten = L ++ t :: R) (ht : t.texts = l ++ s :: r)
    (htok : 0 < T.addresses s) {n : Nat} (hn : n = (l.map T.addresses).sum) :
    ∃ R' F rs', R' <+: R ∧ t.text ++ (R'.map Txn.text).flatten = (l.map stored).flatten ++ stored s ++ F ∧
      readMixed T (t.base + n) (t.base + n + T.addresses s - 1) rs = some
        ((if n = 0 then (l.map stored).flatten ++ s.take (T.skip s 0) else []) ++
          s.drop (T.skip s 0) ++ ending s ++ F.take (T.skip F 0), rs') ∧
      MixedAll T rs' W := by
  have hcount : t.count T = n + (T.addresses s + (r.map T.addresses).sum) := by
    unfold Txn.count; rw [ht, hn]; simp
  have hb := ho.fits t (by rw [hW]; simp)
  obtain ⟨W', a, rs', e, h1, h2, h3⟩ := C39_mixed_partial hS hfit ho hrs (t.base + n)
    (q := t.base + n + T.addresses s - 1) (by omega)
  obtain ⟨before, after, L', R', e1, -, e3⟩ := split_flatten (e.trans hW)
  have hfit' : ∀ g ∈ W', ∀ u ∈ g, ∀ x ∈ u.texts, Fit x := by
    intro g hg u hu x hx
    have : u ∈ W.flatten := by rw [← e]; exact List.mem_flatten.mpr ⟨g, hg, hu⟩
    obtain ⟨g', hg', hu'⟩ := List.mem_flatten.mp this
    exact hfit g' hg' u hu' x hx
  have ho' : InOrder T W'.flatten := by rw [e]; exact ho
  have hserve := C27_fresh hS hfit' ho'
  unfold ask at h2
  generalize freshReaders T W' = fr at hserve h2
  subst e1
  have hF : ∃ F, t.text ++ (R'.map Txn.text).flatten = (l.map stored).flatten ++ stored s ++ F := by
    refine ⟨(r.map stored).flatten ++ lineEnd (t.texts.map stored).flatten ++ (R'.map Txn.text).flatten, ?_⟩
    unfold Txn.text
    rw [txnText, ht]
    simp
  obtain ⟨F, hF⟩ := hF
  obtain ⟨rs'', k1, -⟩ := C27_append_partial hS ht hfit' ho' hserve htok hn hF
  rw [k1] at h2
  cases h2
  exact ⟨R', F, rs', ⟨_, e3⟩, hF, h1, h3⟩

/-- **C39.** The text of a static shard starts with its own mark, by which every version of the program knows it. -/
theorem C39_mark (z : TxtIO.Codec) (target : Int) (x : Shard) {blob : List UInt8} (h : writeTxt z target x = some blob) :
    ∃ rest, blob = charBytes ['C', 'O', 'T', 'T', 'O', 'N', 'T', 'A', 'I', 'L', '_', 'H', 'A', 'Z', 'E', 'L', '_', 'T', 'X', 'T', '\n'] ++ rest := by
  have hb : ∀ o raw t, ∃ rest, blobOf o raw t = charBytes ['C', 'O', 'T', 'T', 'O', 'N', 'T', 'A', 'I', 'L', '_', 'H', 'A', 'Z', 'E', 'L', '_', 'T', 'X', 'T', '\n'] ++ rest :=
    fun o raw t => ⟨_, by rw [blobOf, List.append_assoc, List.append_assoc]; rfl⟩
  unfold writeTxt at h
  dsimp only at h
  split at h
  · cases h
  · cases h; exact hb _ _ _

/-- Opening a static text finds its first and last address (src/hazel.cc 1144-1158), so that
the opened reader is as the theorems above ask. -/
theorem C39_range {T : Tokenizer} {Fit : Text → Prop} (hS : Setting T Fit) {g : List Txn}
    (hfit : ∀ u ∈ g, ∀ x ∈ u.texts, Fit x) (ho : InOrder T g)
    {z : TxtIO.Codec} (hz : z.Restores (groupText g).length) {target : Int} (ht : 0 < target)
    (ht64 : Store.In64 target) {t : Txt} (hf : Frozen T z target g t) {H : Obj}
    (hH : Implements H (ofList (mergeShards (g.map (Txn.shard T))).chunks)) :
    ∃ r s, tokenRange H H.init = some (r, s) ∧ ServesAny T (.static ⟨H, s, z, t, r⟩) g := by
  obtain ⟨hT, hnl, hc⟩ := hS.lawful
  have hg : ∀ u ∈ g, ∀ x ∈ u.texts, Clean T x := fun u hu x hx => hc x (hfit u hu x hx)
  obtain ⟨gx, bx, -, -⟩ := group_good hT hnl hg ho
  obtain ⟨I, hI⟩ := hH
  obtain ⟨r, s, k1, k2, rfl⟩ := tokenRange_ok (gx.listing bx) (fun c hc => (bx c hc).1) hI H.init hI.init
  exact ⟨_, s, k1, .static ht ht64 hz hf rfl ⟨I, hI, k2⟩⟩

/-- The cursor a static text is given is one on the chunks, if the index of the shard was
written with the chunks as the annotations of the text chunk feature `f`. -/
theorem C39_cursor {T : Tokenizer} {Fit : Text → Prop} (hS : Setting T Fit) {g : List Txn}
    (hfit : ∀ u ∈ g, ∀ x ∈ u.texts, Fit x) (ho : InOrder T g)
    {pc fc : Store.Codec} {l : List (Int × Store.Posting)}
    (sorted : l.Pairwise (fun x y => x.1 < y.1)) (feature : ∀ x ∈ l, x.2.feature = x.1)
    (store : ∀ x ∈ l, Store.Storable pc fc x.2)
    {dna txt idx : List UInt8} {lines : List (List UInt8)} (hd : Hazel.Lines dna lines)
    (hw : Hazel.writeIdx pc fc l = some idx) (hsz : (Hazel.hazelFile dna idx txt).length ≤ maxLength)
    {f : Int} (hchunks : (∃ P, (f, P) ∈ l ∧ P.anns = (mergeShards (g.map (Txn.shard T))).chunks ∧ P.anns ≠ []) ∨
      ((∀ P, (f, P) ∉ l) ∧ (mergeShards (g.map (Txn.shard T))).chunks = [])) :
    ∃ H, Hazel.openFile (Hazel.hazelFile dna idx txt) = some (idx, txt) ∧ Hazel.openIdx idx = some H ∧
      Implements (H.obj pc fc f) (ofList (mergeShards (g.map (Txn.shard T))).chunks) := by
  obtain ⟨hT, hnl, hc⟩ := hS.lawful
  have hg : ∀ u ∈ g, ∀ x ∈ u.texts, Clean T x := fun u hu x hx => hc x (hfit u hu x hx)
  obtain ⟨gx, bx, -, -⟩ := group_good hT hnl hg ho
  obtain ⟨H, h1, h2, -, h4, h5⟩ := C25_lookup sorted feature store hd hw hsz
  refine ⟨H, h1, h2, ?_⟩
  rcases hchunks with ⟨P, p1, p2, p3⟩ | ⟨p1, p2⟩
  · obtain ⟨R, -, -, -, -, r1, r2⟩ := h4 f P p1
    have e := r1 (fun a ha => by
      rw [p2] at ha
      have := (laid_le gx.laid a ha).2
      omega)
    have := r2 (by rw [p2]; exact gx.listing bx) p3
    rwa [e, p2] at this
  · rw [p2]; exact (h5 f p1).2.2

theorem chunksOf_groups {T : Tokenizer} (hT : Lawful T) (hnl : NewlineGap T) {f : Int} :
    ∀ {gs : List (List Txn)} {ls : List (List (Int × Store.Posting))} {base : Nat},
    (∀ u ∈ gs.flatten, ∀ x ∈ u.texts, Clean T x) → InOrder T gs.flatten →
    ls.map (fun l => Hazel.stored l f) = gs.map (fun g => (shardOf T g).chunks) →
    ((ls.zip (Hazel.textBases base (gs.map fun g => ((groupText g).length : Int)))).flatMap fun x =>
      (Hazel.stored x.1 f).map fun a => { a with v := a.v + x.2 }) =
      (shardOf T gs.flatten).chunks.map (moveChunk 0 base) := by
  intro gs
  induction gs with
  | nil =>
    intro ls base _ _ h
    cases ls with
    | nil => rfl
    | cons => cases h
  | cons g gs ih =>
    intro ls base hg ho h
    cases ls with
    | nil => cases h
    | cons l ls =>
      rw [List.map_cons, List.map_cons] at h
      injection h with h1 h2
      rw [List.flatten_cons] at hg ho ⊢
      obtain ⟨-, ch⟩ := group_split hT hnl hg ho
      have := ih (base := base + (groupText g).length) (fun u hu => hg u (List.mem_append_right _ hu))
        (ho.sub hT hnl (List.sublist_append_right ..)) h2
      rw [List.map_cons, Hazel.textBases, List.zip_cons_cons, List.flatMap_cons, h1, ch, List.map_append, List.map_map]
      congr 1
      · apply List.map_congr_left
        intro a _
        simp [moveChunk]
      · rw [show (base : Int) + (groupText g).length = ((base + (groupText g).length : Nat) : Int) by omega, this]
        apply List.map_congr_left
        intro a _
        simp only [moveChunk, Function.comp_apply, Ann.mk.injEq]
        omega

/-- The same for a merged static shard: if the merged shards' indexes have the chunks of their
transactions, and the lengths given are those of their texts, then the merged index has the chunks
of all the transactions. -/
theorem C39_cursor_merged {T : Tokenizer} {Fit : Text → Prop} (hS : Setting T Fit) {gs : List (List Txn)}
    (hfit : ∀ u ∈ gs.flatten, ∀ x ∈ u.texts, Fit x) (ho : InOrder T gs.flatten)
    {J : Hazel.Job} {src : List (List (Int × Store.Posting) × Hazel.HIdx)} (sources : Hazel.Sources J src) (fits : Fits J)
    {lines : List (List UInt8)} (hd : Hazel.Lines J.dna lines) {s : Hazel.FS} (left : Hazel.Interrupted J s)
    (hchunks : (src.map (·.1)).map (fun l => Hazel.stored l J.tcf) =
      gs.map fun g => (mergeShards (g.map (Txn.shard T))).chunks)
    (hlens : J.lens = gs.map fun g => ((groupText g).length : Int)) :
    ∃ file idx H, (Hazel.mergeRun J s).fs.dst = some file ∧ Hazel.openFile file = some (idx, J.txt) ∧
      Hazel.openIdx idx = some H ∧
      Implements (H.obj J.pc J.fc J.tcf) (ofList (mergeShards (gs.flatten.map (Txn.shard T))).chunks) := by
  obtain ⟨hT, hnl, hc⟩ := hS.lawful
  obtain ⟨file, idx, H, h1, h2, h3, h4, -⟩ := C26_contents sources fits hd left
  refine ⟨file, idx, H, h1, h2, h3, ?_⟩
  obtain ⟨anns, a1, a2, -, -, a5⟩ := h4 J.tcf (by have := sources.tcf.1; unfold Store.nullFeature at this; omega) sources.tcf.2
  have e : Hazel.chunksOf J.tcf (src.map (·.1)) J.lens = (shardOf T gs.flatten).chunks := by
    have := chunksOf_groups hT hnl (base := 0) (fun u hu x hx => hc x (hfit u hu x hx)) ho hchunks
    unfold Hazel.chunksOf
    rw [hlens]
    refine Eq.trans this ?_
    have : ∀ l : List Ann, l.map (moveChunk 0 0) = l := by
      intro l
      induction l with
      | nil => rfl
      | cons a l ih => rw [List.map_cons, ih]; simp [moveChunk]
    exact this _
  have : anns = (shardOf T gs.flatten).chunks := by
    refine listing_ext a1 (by rw [← e]; exact sources.chunks) (fun a => ?_)
    rw [← e]; exact a5 rfl a
  rw [this] at a2
  exact a2

/-- A static text asked for more than its last address gives what it gives for its last
address. -/
theorem C39_clamped (T : Tokenizer) (z : TxtIO.Codec) (H : Obj) (t : Txt) (range : Int × Int) (p : Int) {q : Int}
    (hq : range.2 ≤ q) : translateStatic T z H t range p q = translateStatic T z H t range p range.2 := by
  have e : (if q > range.2 then range.2 else q) = range.2 := by split <;> omega
  unfold translateStatic
  rw [e, if_neg (show ¬ range.2 > range.2 by omega)]

/-! ### examples -/

/-- what a static text just written, opened and asked answers -/
def askStatic (T : Tokenizer) (z : TxtIO.Codec) (target : Int) (g : List Txn) (p q : Int) : Option Text :=
  let x := mergeShards (g.map (Txn.shard T))
  ((writeTxt z target x).bind load).bind fun t =>
    (tokenRange (listObj x.chunks) (listObj x.chunks).init).bind fun (r, s) =>
      (translateStatic T z (listObj x.chunks) t r p q s).map (·.1)

/-- the same for a text merged of two -/
def askMerged (T : Tokenizer) (z : TxtIO.Codec) (target : Int) (g h : List Txn) (p q : Int) : Option Text :=
  let x := mergeShards ((g ++ h).map (Txn.shard T))
  ((writeTxt z target (mergeShards (g.map (Txn.shard T)))).bind load).bind fun t =>
  ((writeTxt z target (mergeShards (h.map (Txn.shard T)))).bind load).bind fun u =>
  ((mergeTxt [t, u]).bind load).bind fun t =>
    (tokenRange (listObj x.chunks) (listObj x.chunks).init).bind fun (r, s) =>
      (translateStatic T z (listObj x.chunks) t r p q s).map (·.1)

example : askStatic (ascii false) plainCodec 3 exampleTxns 2 7 =
    some [0x64, 0x0A, 0x2D, 0x20, 0x65, 0x0A] := by decide +kernel
example : askMerged (ascii false) plainCodec 3 exampleTxns [lastTxn] 2 20 =
    some [0x64, 0x0A, 0x2D, 0x20, 0x65, 0x0A, 0x66, 0x0A] := by decide +kernel

/-- readers of `exampleTxns`, static, and `lastTxn`, dynamic, meet the hypotheses -/
example : ∃ rs, MixedAll (ascii false) rs [exampleTxns, [lastTxn]] ∧
    ∃ r r', rs = [.static r, .dynamic r'] ∧ r.text.map.length = 2 := by
  have ho : InOrder (ascii false) exampleTxns := ⟨by decide, by decide⟩
  have hz : plainCodec.Restores (groupText exampleTxns).length := fun _ _ => rfl
  obtain ⟨blob, h1, h2⟩ := C39_written .plain (fun _ _ _ _ => trivial) ho
    (Or.inr ⟨_, _, rfl, by decide⟩) hz (target := 3) (by omega) (by decide)
  have e : writeTxt plainCodec 3 (mergeShards (exampleTxns.map (Txn.shard (ascii false)))) = some blob := h1
  have hb : blob.length = 106 := by
    have : (writeTxt plainCodec 3 (mergeShards (exampleTxns.map (Txn.shard (ascii false))))).map List.length = some 106 := by
      decide +kernel
    rw [e] at this; exact Option.some.inj this
  obtain ⟨t, h3, h4⟩ := h2 (by omega) (by decide)
  have hl : Listing (mergeShards (exampleTxns.map (Txn.shard (ascii false)))).chunks := ⟨by decide, by decide⟩
  obtain ⟨r, s, h5, h6⟩ := C39_range .plain (fun _ _ _ _ => trivial) ho hz (by omega) (by decide) h4 (H := listObj _) ⟨_, list_impl hl⟩
  have hs := C27_fresh .plain (W := [[lastTxn]]) (fun _ _ _ _ _ _ => trivial) ⟨by decide, by decide⟩
  cases hs with
  | cons k1 _ =>
    refine ⟨_, .cons h6 (.cons (.dynamic k1) .nil), _, _, rfl, ?_⟩
    have : ((writeTxt plainCodec 3 (mergeShards (exampleTxns.map (Txn.shard (ascii false))))).bind load).map (fun t => t.map.length) = some 2 := by
      decide +kernel
    rw [e] at this
    simp only [Option.bind_some, h3, Option.map_some] at this
    exact Option.some.inj this

/-! ### where static and dynamic texts differ -/

/-- The text `a` is lost when a shard is written whose first transaction, `-`, has no token: the
pieces start at the first chunk, and their lengths are taken to start at 0. -/
theorem C39_first_lost :
    ask (ascii false) [[⟨0, [[0x2D]]⟩, ⟨0, [[0x61]]⟩]] 0 0 = some [0x61, 0x0A] ∧
    askStatic (ascii false) plainCodec 4 [⟨0, [[0x2D]]⟩, ⟨0, [[0x61]]⟩] 0 0 = some [] := by
  constructor
  · decide
  · decide +kernel

/-- Asked up to the largest address, a static text gives all of `a b c`, a dynamic one only
`a `. -/
theorem C39_to_the_end :
    askStatic (ascii false) plainCodec 4 [⟨0, [[0x61, 0x20, 0x62, 0x20, 0x63]]⟩] 0 maxfinity =
      some [0x61, 0x20, 0x62, 0x20, 0x63, 0x0A] ∧
    ask (ascii false) [[⟨0, [[0x61, 0x20, 0x62, 0x20, 0x63]]⟩]] 0 maxfinity = some [0x61, 0x20] := by
  constructor
  · decide +kernel
  · decide

/-- What is stored between the last token asked for and the next is given up to the end of the
piece only: asked for `c, d`, the dynamic shard of `exampleTxns` gives the start of the next
transaction too. -/
theorem C39_piece_end :
    ask (ascii false) [exampleTxns] 1 2 = some [0x63, 0x2C, 0x20, 0x64, 0x0A, 0x2D, 0x20] ∧
    askStatic (ascii false) plainCodec 3 exampleTxns 1 2 = some [0x63, 0x2C, 0x20, 0x64, 0x0A] ∧
    askStatic (ascii false) plainCodec 100 exampleTxns 1 2 =
      some [0x63, 0x2C, 0x20, 0x64, 0x0A, 0x2D, 0x20] := by
  refine ⟨by decide, by decide +kernel, by decide +kernel⟩

end Verif.Props
