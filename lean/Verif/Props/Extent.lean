import Verif.Extent.Warren
import Verif.Extent.Threads
import Verif.Props.HazelText
/-
  C79: a warren knows how much text it has and where it is.

  The specification is `Verif.Extent.Spec`: `HasText`, `Bounds`, `Counts`, `RangeOk` and `NoGap`
  speak of transactions, their first addresses and their tokens.  `PartsOk` says which shards the
  texts that are asked read, and that what a dynamic one remembers was right when it was put there;
  `C79_opened` and the last part of each theorem show that this is so from the start and stays so.
-/
namespace Verif.Props
open Verif.Hopper Verif.Text Verif.HazelText Verif.Store Verif.Extent

variable {T : Tokenizer} {Fit : Text → Prop}

/-- texts just opened, none of which has been asked -/
def askedNothing (rs : List AnyReader) : List Part := rs.map fun r => ⟨r, {}⟩

/-- C79: what is just opened remembers nothing wrong. -/
theorem C79_opened {rs : List AnyReader} {W : List (List Txn)} (h : MixedAll T rs W) : PartsOk T (askedNothing rs) W := by
  induction h with
  | nil => exact .nil
  | cons h1 _ ih => exact .cons ⟨h1, fun h => absurd (show (0 : Int) ≤ -1 from h) (by decide), fun r h => by cases h⟩ ih

/-- C79: whatever transactions a warren holds, in whatever shards, `range` says whether there is
text, and gives its first and last address; and it can be asked again. -/
theorem C79_range (hS : Setting T Fit) {W : List (List Txn)} (hfit : ∀ g ∈ W, ∀ u ∈ g, ∀ x ∈ u.texts, Fit x)
    (ho : InOrder T W.flatten) {xs : List Part} (hx : PartsOk T xs W) :
    ∃ a xs', allRange xs = some (a, xs') ∧ RangeOk T W.flatten a ∧ PartsOk T xs' W := by
  obtain ⟨hT, hnl, hc⟩ := hS.lawful
  exact all_range hT hnl hx (fun g hg u hu x hx => hc x (hfit g hg u hu x hx)) ho

theorem rangeOk_unique {ts : List Txn} {a b : Bool × Int × Int} (ha : RangeOk T ts a) (hb : RangeOk T ts b) : a = b := by
  obtain ⟨a1, a2, a3⟩ := a
  obtain ⟨b1, b2, b3⟩ := b
  cases a1 <;> cases b1
  · obtain ⟨rfl, rfl, -⟩ := ha
    obtain ⟨rfl, rfl, -⟩ := hb
    rfl
  · exact absurd hb.first (ha.2.2 _)
  · exact absurd ha.first (hb.2.2 _)
  · have h1 := ha.all _ hb.first
    have h2 := ha.all _ hb.last
    have h3 := hb.all _ ha.first
    have h4 := hb.all _ ha.last
    have e1 : a2 = b2 := by omega
    have e2 : a3 = b3 := by omega
    rw [e1, e2]

/-- C79: neither merging shards nor turning dynamic shards into static ones changes the range. -/
theorem C79_range_same (hS : Setting T Fit) {W W' : List (List Txn)} (hW : W.flatten = W'.flatten)
    (hfit : ∀ u ∈ W.flatten, ∀ x ∈ u.texts, Fit x) (ho : InOrder T W.flatten) {xs xs' : List Part}
    (hx : PartsOk T xs W) (hx' : PartsOk T xs' W') :
    ∃ a ys ys', allRange xs = some (a, ys) ∧ allRange xs' = some (a, ys') := by
  obtain ⟨a, ys, e, r, -⟩ := C79_range hS (fun g hg u hu => hfit u (List.mem_flatten.2 ⟨g, hg, hu⟩)) ho hx
  obtain ⟨b, ys', e', r', -⟩ := C79_range hS
    (fun g hg u hu => hfit u (by rw [hW]; exact List.mem_flatten.2 ⟨g, hg, hu⟩)) (by rw [← hW]; exact ho) hx'
  rw [← hW] at r'
  rw [rangeOk_unique r' r] at e'
  exact ⟨a, ys, ys', e, e'⟩

theorem counts_unique {ts : List Txn} {m n : Int} (h : Counts T ts m) (k : Counts T ts n) : m = n := by
  obtain ⟨l, l1, l2, rfl⟩ := h
  obtain ⟨r, r1, r2, rfl⟩ := k
  have := Rank.nodup_length_le l1 (m := r) fun x hx => (r2 x).2 ((l2 x).1 hx)
  have := Rank.nodup_length_le r1 (m := l) fun x hx => (l2 x).2 ((r2 x).1 hx)
  omega

/-- C79 (what is missing: static shards of transactions with unused addresses between them, see
`C79_gap`): `tokens` says how many tokens there are, if no static shard has a gap in it; and it
can be asked again. -/
theorem C79_tokens_partial (hS : Setting T Fit) {W : List (List Txn)} (hfit : ∀ g ∈ W, ∀ u ∈ g, ∀ x ∈ u.texts, Fit x)
    (ho : InOrder T W.flatten) {xs : List Part} (hx : PartsOk T xs W)
    (hgap : ∀ x g, (x, g) ∈ xs.zip W → (∃ r, x.text = .static r) → NoGap T g) :
    ∃ n xs', allTokens 0 xs = some (n, xs') ∧ Counts T W.flatten n ∧ PartsOk T xs' W := by
  obtain ⟨hT, hnl, hc⟩ := hS.lawful
  obtain ⟨xs', e, ok⟩ := all_tokens hT hnl hx (fun g hg u hu x hx => hc x (hfit g hg u hu x hx)) (group_order ho) hgap 0
  exact ⟨_, xs', e, by rw [show (0 : Int) + size T W.flatten = size T W.flatten by omega]; exact counts_size ho, ok⟩

/-- C79: while all shards are dynamic, `tokens` says how many tokens there are, whatever gaps there
are between them. -/
theorem C79_tokens_dynamic (hS : Setting T Fit) {W : List (List Txn)} (hfit : ∀ g ∈ W, ∀ u ∈ g, ∀ x ∈ u.texts, Fit x)
    (ho : InOrder T W.flatten) {xs : List Part} (hx : PartsOk T xs W) (hd : ∀ x ∈ xs, ∃ r, x.text = .dynamic r) :
    ∃ n xs', allTokens 0 xs = some (n, xs') ∧ Counts T W.flatten n ∧ PartsOk T xs' W := by
  refine C79_tokens_partial hS hfit ho hx fun x g hz ⟨r, hr⟩ => ?_
  obtain ⟨r', hr'⟩ := hd x (List.of_mem_zip hz).1
  rw [hr] at hr'
  cases hr'

/-- C79: merging dynamic shards does not change what `tokens` says. -/
theorem C79_tokens_same (hS : Setting T Fit) {W W' : List (List Txn)} (hW : W.flatten = W'.flatten)
    (hfit : ∀ u ∈ W.flatten, ∀ x ∈ u.texts, Fit x) (ho : InOrder T W.flatten) {xs xs' : List Part}
    (hx : PartsOk T xs W) (hx' : PartsOk T xs' W') (hd : ∀ x ∈ xs, ∃ r, x.text = .dynamic r)
    (hd' : ∀ x ∈ xs', ∃ r, x.text = .dynamic r) :
    ∃ n ys ys', allTokens 0 xs = some (n, ys) ∧ allTokens 0 xs' = some (n, ys') := by
  obtain ⟨a, ys, e, r, -⟩ := C79_tokens_dynamic hS (fun g hg u hu => hfit u (List.mem_flatten.2 ⟨g, hg, hu⟩)) ho hx hd
  obtain ⟨b, ys', e', r', -⟩ := C79_tokens_dynamic hS
    (fun g hg u hu => hfit u (by rw [hW]; exact List.mem_flatten.2 ⟨g, hg, hu⟩)) (by rw [← hW]; exact ho) hx' hd'
  rw [← hW] at r'
  rw [counts_unique r' r] at e'
  exact ⟨a, ys, ys', e, e'⟩

/-- C79: what `tokens` of a static shard says instead: how many addresses there are from the first
token to the last. -/
theorem C79_tokens_static (hS : Setting T Fit) {g : List Txn} (hfit : ∀ u ∈ g, ∀ x ∈ u.texts, Fit x)
    (ho : InOrder T g) {x : Part} (hx : PartOk T x g) (hs : ∃ r, x.text = .static r) :
    ∃ n x', x.tokens = some (n, x') ∧ PartOk T x' g ∧ (∀ p q, Bounds T g p q → n = q - p + 1) ∧
      ((∀ a, ¬ HasText T g a) → n = 0) := by
  obtain ⟨hT, hnl, hc⟩ := hS.lawful
  obtain ⟨n, x', e, ok, -, k⟩ := part_tokens hT hnl (fun u hu x hx => hc x (hfit u hu x hx)) ho hx
  exact ⟨n, x', e, ok, k hs⟩

/-- C79: asked twice, a warren answers twice the same. -/
theorem C79_again (hS : Setting T Fit) {W : List (List Txn)} (hfit : ∀ g ∈ W, ∀ u ∈ g, ∀ x ∈ u.texts, Fit x)
    (ho : InOrder T W.flatten) {xs : List Part} (hx : PartsOk T xs W) :
    ∃ a xs' xs'', allRange xs = some (a, xs') ∧ allRange xs' = some (a, xs'') ∧ PartsOk T xs'' W := by
  obtain ⟨a, xs', e, r, ok⟩ := C79_range hS hfit ho hx
  obtain ⟨b, xs'', e', r', ok'⟩ := C79_range hS hfit ho ok
  rw [rangeOk_unique r' r] at e'
  exact ⟨a, xs', xs'', e, e', ok'⟩

/-- C79: a burrow that is opened goes on at the address just after its last token, or at 0 if there
is none; so a new transaction shares no address with an old one, and comes after all of them. -/
theorem C79_next (hS : Setting T Fit) {W : List (List Txn)} (hfit : ∀ g ∈ W, ∀ u ∈ g, ∀ x ∈ u.texts, Fit x)
    (ho : InOrder T W.flatten) {xs : List Part} (hx : PartsOk T xs W) :
    ∃ n xs', nextAddress xs = some (n, xs') ∧ PartsOk T xs' W ∧ 0 ≤ n ∧
      ((∀ a, ¬ HasText T W.flatten a) ∧ n = 0 ∨ HasText T W.flatten (n - 1) ∧ ∀ a, HasText T W.flatten a → a < n) ∧
      ∀ t : Txn, (t.base : Int) = n → ∀ a b, HasText T W.flatten a → HasText T [t] b → a < b := by
  obtain ⟨hT, hnl, hc⟩ := hS.lawful
  obtain ⟨n, xs', e, ok, h⟩ := next_address hT hnl hx (fun g hg u hu x hx => hc x (hfit g hg u hu x hx)) ho
  refine ⟨n, xs', e, ok, ?_, ?_, ?_⟩
  · rcases h with ⟨-, rfl⟩ | ⟨⟨t, -, ht, -⟩, -⟩ <;> omega
  · rcases h with h | ⟨h1, h2⟩
    · exact Or.inl h
    · exact Or.inr ⟨h1, fun a h => by have := h2 a h; omega⟩
  · rintro t ht a b ha ⟨u, hu, h1, -⟩
    have : u = t := by simpa using hu
    subst this
    rcases h with ⟨h, -⟩ | ⟨-, h⟩
    · exact absurd ha (h a)
    · have := h a ha; omega

/-- C79: a text without a `range` of its own (that of a `simple` warren) answers right, if its tokens
are at 0 and up without a gap, as they are there. -/
theorem C79_default {ts : List Txn} {n : Int} (hn : Counts T ts n) (h0 : ∀ a, HasText T ts a → 0 ≤ a)
    (hz : (∃ a, HasText T ts a) → HasText T ts 0) (hgap : NoGap T ts) :
    match plainRange n with
    | none => ∀ a, ¬ HasText T ts a
    | some (p, q) => Bounds T ts p q := by
  obtain ⟨l, l1, l2, rfl⟩ := hn
  unfold plainRange
  split
  · rename_i h
    split at h
    · have : l = [] := List.eq_nil_of_length_eq_zero (by omega)
      intro a ha
      have := (l2 a).2 ha
      simp_all
    · cases h
  · rename_i p q h
    split at h
    · cases h
    · rename_i hne
      obtain ⟨rfl, rfl⟩ : (0 : Int) = p ∧ (l.length : Int) - 1 = q := by
        have := Option.some.inj h
        exact ⟨congrArg Prod.fst this, congrArg Prod.snd this⟩
      have hex : ∃ a, HasText T ts a := by
        cases l with
        | nil => exact absurd rfl hne
        | cons a l => exact ⟨a, (l2 a).1 (by simp)⟩
      -- an address of text is less than the number of addresses: all below it have text
      have hlt : ∀ a, HasText T ts a → a ≤ (l.length : Int) - 1 := by
        intro a ha
        have hna := h0 a ha
        have := Rank.nodup_length_le (l := (List.range (a.toNat + 1)).map fun (i : Nat) => (i : Int)) (m := l)
          (List.pairwise_map.2 (List.Pairwise.imp (by intro i j hij; omega) List.nodup_range)) (by
          intro x hx
          obtain ⟨i, hi, rfl⟩ := List.mem_map.1 hx
          rw [List.mem_range] at hi
          exact (l2 _).2 (hgap 0 _ a (hz hex) ha (by omega) (by omega)))
        rw [List.length_map, List.length_range] at this
        omega
      refine ⟨hz hex, ?_, fun a ha => ⟨h0 a ha, hlt a ha⟩⟩
      -- and some address is that large, for there are not enough smaller ones
      by_cases h : HasText T ts ((l.length : Int) - 1)
      · exact h
      · exfalso
        have := Rank.nodup_length_le l1 (m := (List.range (l.length - 1)).map fun (i : Nat) => (i : Int)) (by
          intro x hx
          have h1 := (l2 x).1 hx
          have h2 := h0 x h1
          have h3 := hlt x h1
          have h4 : x ≠ (l.length : Int) - 1 := fun e => h (e ▸ h1)
          exact List.mem_map.2 ⟨x.toNat, List.mem_range.2 (by omega), by omega⟩)
        rw [List.length_map, List.length_range] at this
        have : 0 < l.length := by
          cases l with
          | nil => exact absurd rfl hne
          | cons a l => simp
        omega

/-! ### several threads at once -/

section
open Verif.Extent.Threads

/-- C79: what a dynamic text is to answer when threads ask at once is the range of its shard: the
hopper of the text finds it, whichever call asks the hopper. -/
theorem C79_found (hS : Setting T Fit) {g : List Txn} (hfit : ∀ u ∈ g, ∀ x ∈ u.texts, Fit x) (ho : InOrder T g)
    {H : Obj} {I : H.σ → Prop} (hI : Impl H I (ofList (mergeShards (g.map (Txn.shard T))).chunks)) {s : H.σ} (hs : I s) :
    ∃ f s', found H s = some (f, s') ∧ I s' ∧ RangeOk T g (decide (f.range.1 < maxfinity), f.range) := by
  obtain ⟨hT, hnl, hc⟩ := hS.lawful
  have hg : ∀ u ∈ g, ∀ x ∈ u.texts, Clean T x := fun u hu x hx => hc x (hfit u hu x hx)
  obtain ⟨gx, bx, -, -⟩ := group_good hT hnl hg ho
  obtain ⟨f, s', e, h1, h2⟩ := found_ok (gx.listing bx) hI s hs
  refine ⟨f, s', e, h1, ?_⟩
  rw [h2]
  exact (range_ok hT hnl hg ho).1

/-- C79 (what is missing: calls that find `range_valid_` set while it is not yet so, see `C79_race`):
in every order of steps of any number of calls, the call that asks first and every other that waits
for the lock answer right. -/
theorem C79_threads_partial (f : Found) (p q : Int) (l l' : List Nat) {t : Nat}
    (ht : (Threads.run f (fresh p q) l).pc t = .lock) {b : Bool} {x y : Int}
    (hd : (Threads.run f (fresh p q) (l ++ l')).pc t = .done b x y) :
    b = decide (f.range.1 < maxfinity) ∧ (x, y) = f.range := by
  have hi := run_inv (fresh_inv f p q) l
  have := good_run hi (u := t) (by unfold Good; rw [ht]; trivial) l'
  have e : Threads.run f (Threads.run f (fresh p q) l) l' = Threads.run f (fresh p q) (l ++ l') := by unfold Threads.run; rw [List.foldl_append]
  rw [e] at this
  unfold Good at this
  rw [hd] at this
  exact this

/-- C79: the call that takes the very first step is one of them. -/
theorem C79_threads_first (f : Found) (p q : Int) (l' : List Nat) {t : Nat} {b : Bool} {x y : Int}
    (hd : (Threads.run f (fresh p q) (t :: l')).pc t = .done b x y) :
    b = decide (f.range.1 < maxfinity) ∧ (x, y) = f.range :=
  C79_threads_partial f p q [t] l' (by simp [Threads.run, step, fresh, Sys.go]) hd

/-- C79: once a call has returned and no other is on its way, every call that is made answers right,
in every order. -/
theorem C79_threads_later (f : Found) (p q : Int) (l l' : List Nat)
    (hq : ∀ u, (Threads.run f (fresh p q) l).pc u = .look ∨ ∃ b x y, (Threads.run f (fresh p q) l).pc u = .done b x y)
    {u : Nat} (hu : (Threads.run f (fresh p q) l).pc u ≠ .look) {t : Nat} (ht : (Threads.run f (fresh p q) l).pc t = .look)
    {b : Bool} {x y : Int} (hd : (Threads.run f (fresh p q) (l ++ l')).pc t = .done b x y) :
    b = decide (f.range.1 < maxfinity) ∧ (x, y) = f.range := by
  have hi := run_inv (fresh_inv f p q) l
  have := good_run hi (u := t) (by unfold Good; rw [ht]; exact settled_quiet hi hq hu) l'
  have e : Threads.run f (Threads.run f (fresh p q) l) l' = Threads.run f (fresh p q) (l ++ l') := by unfold Threads.run; rw [List.foldl_append]
  rw [e] at this
  unfold Good at this
  rw [hd] at this
  exact this

/-- C79: calls do not block each other for ever: while one has not returned, some call that has not
can take a step. -/
theorem C79_threads_alive (f : Found) (p q : Int) (l : List Nat) {t : Nat}
    (ht : ∀ b x y, (Threads.run f (fresh p q) l).pc t ≠ .done b x y) :
    ∃ u, (step f (Threads.run f (fresh p q) l) u).pc u ≠ (Threads.run f (fresh p q) l).pc u := by
  have hi := run_inv (fresh_inv f p q) l
  generalize Threads.run f (fresh p q) l = s at hi ht
  by_cases h : s.pc t = .lock
  · cases hh : s.holder with
    | none => exact ⟨t, by unfold step; rw [h]; simp [hh, Sys.go]⟩
    | some u => exact ⟨u, step_moves (fun e => by have := hi.owner u hh; rw [e] at this; exact this)
        (fun b x y e => by have := hi.owner u hh; rw [e] at this; exact this)⟩
  · exact ⟨t, step_moves h ht⟩

/-- Where the code goes wrong: `range_valid_` is set before the range is known, and looked at without
the lock.  Call 0 asks first; call 1 looks while call 0 is between the two, and answers with
whatever was in memory. -/
theorem C79_race (f : Found) (p q : Int) :
    (Threads.run f (fresh p q) [0, 0, 0, 0, 1, 1, 1, 1]).pc 1 = .done (decide (p < maxfinity)) p q := by
  simp [Threads.run, step, fresh, Sys.go]

/-- A little later it gives the first chunk for all of the text. -/
theorem C79_race_chunk (f : Found) (p q : Int) (h : f.first.1 < maxfinity) :
    (Threads.run f (fresh p q) [0, 0, 0, 0, 0, 0, 1, 1, 1, 1]).pc 1 = .done true f.first.1 f.first.2 := by
  simp [Threads.run, step, fresh, Sys.go, h]

/-- two calls that both answer right: the hypotheses of the theorems are met -/
example : (Threads.run ⟨(0, 2), 7⟩ (fresh 5 5) [0, 1]).pc 1 = .lock ∧
    (Threads.run ⟨(0, 2), 7⟩ (fresh 5 5) ([0, 1] ++ [0, 0, 1, 0, 0, 0, 0, 1, 0, 1, 1, 1, 0, 1, 0, 1, 0, 1])).pc 1 = .done true 0 7 ∧
    (Threads.run ⟨(0, 2), 7⟩ (fresh 5 5) ([0, 1] ++ [0, 0, 1, 0, 0, 0, 0, 1, 0, 1, 1, 1, 0, 1, 0, 1, 0, 1])).pc 0 = .done true 0 7 := by
  decide

example : (Threads.run ⟨(0, 2), 7⟩ (fresh 5 5) (List.replicate 11 3)).pc 3 = .done true 0 7 ∧
    (Threads.run ⟨(0, 2), 7⟩ (fresh 5 5) (List.replicate 11 3 ++ [1, 1, 1, 1])).pc 1 = .done true 0 7 := by decide
end

/-! ### examples, and where the code and the property disagree -/

/-- the chunks of the shard of `exampleTxns`, whose tokens are at 0, 1, 2 and 7 -/
abbrev exampleChunks : List Ann := (mergeShards (exampleTxns.map (Txn.shard (ascii false)))).chunks

/-- Unused addresses between the transactions of a shard (those of a transaction that was given up,
say) are counted as tokens once the shard is static: there are four tokens, and a dynamic shard says
so, but a static one says eight.  So what `tokens` says, and the ranking that is computed from it,
changes when shards are converted in the background. -/
theorem C79_gap : Counts (ascii false) exampleTxns 4 ∧
    (dynTokens (listObj exampleChunks) {} (listObj exampleChunks).init).map (fun r => r.1.1) = some 4 ∧
    (tokenRange (listObj exampleChunks) (listObj exampleChunks).init).map (fun r => staticTokens r.1) = some 8 := by
  refine ⟨?_, by decide +kernel, by decide +kernel⟩
  have := counts_size (T := ascii false) (ts := exampleTxns) ⟨by decide, by decide⟩
  have e : size (ascii false) exampleTxns = 4 := by decide
  rw [e] at this
  exact this

/-- A text that looks up ids (`fastid`) does not ask the text it wraps for the range, and so gives a
wrong one unless that text starts at 0 and has no gap: for four tokens at 10 to 13 it answers 0 to 3,
where none of them is; the text for JSON answers right. -/
theorem C79_wrapped : Wrapper.json.range 4 (some (10, 13)) = some (10, 13) ∧
    Wrapper.fastid.range 4 (some (10, 13)) = some (0, 3) := by decide

/-- a warren of a static shard of `exampleTxns` and a dynamic one of `lastTxn`: the hypotheses are
met, and the answers are -/
example : ∃ xs, PartsOk (ascii false) xs [exampleTxns, [lastTxn]] ∧ (∃ r r', xs.map Part.text = [.static r, .dynamic r']) ∧
    (∃ xs', allRange xs = some ((true, 0, 20), xs')) ∧ ∃ xs', nextAddress xs = some (21, xs') := by
  have ho : InOrder (ascii false) exampleTxns := ⟨by decide, by decide⟩
  have hz : plainCodec.Restores (groupText exampleTxns).length := fun _ _ => rfl
  obtain ⟨blob, h1, h2⟩ := C39_written .plain (fun _ _ _ _ => trivial) ho
    (Or.inr ⟨_, _, rfl, by decide⟩) hz (target := 3) (by omega) (by decide)
  have e : writeTxt plainCodec 3 (mergeShards (exampleTxns.map (Txn.shard (ascii false)))) = some blob := h1
  have hb : blob.length = 106 := by
    have : (writeTxt plainCodec 3 (mergeShards (exampleTxns.map (Txn.shard (ascii false))))).map List.length = some 106 := by
      decide +kernel
    rw [e] at this; exact Option.some.inj this
  obtain ⟨t, h3, h4⟩ := h2 (by omega) (by decide)
  have hl : Listing (mergeShards (exampleTxns.map (Txn.shard (ascii false)))).chunks := ⟨by decide, by decide⟩
  obtain ⟨r, s, h5, h6⟩ := C39_range .plain (fun _ _ _ _ => trivial) ho hz (by omega) (by decide) h4 (H := listObj _) ⟨_, list_impl hl⟩
  have hs := C27_fresh .plain (W := [[lastTxn]]) (fun _ _ _ _ _ _ => trivial) ⟨by decide, by decide⟩
  cases hs with
  | @cons r' _ _ _ k1 _ =>
    have ok := C79_opened (MixedAll.cons h6 (.cons (.dynamic k1) .nil))
    have hb : Bounds (ascii false) [exampleTxns, [lastTxn]].flatten 0 20 :=
      ⟨⟨⟨0, [[0x61, 0x62], [0x20, 0x63, 0x2C, 0x20, 0x64]]⟩, by simp [exampleTxns], by decide, by decide⟩,
        ⟨lastTxn, by simp, by decide, by decide⟩, by
          have : ∀ t ∈ [exampleTxns, [lastTxn]].flatten, (0 : Int) ≤ t.base ∧ (t.base : Int) + t.count (ascii false) ≤ 21 := by
            decide
          rintro a ⟨t, ht, q1, q2⟩
          have := this t ht
          omega⟩
    refine ⟨_, ok, ⟨_, _, rfl⟩, ?_, ?_⟩
    · obtain ⟨a, xs', q1, q2, -⟩ := C79_range .plain (fun _ _ _ _ _ _ => trivial) ⟨by decide, by decide⟩ ok
      rw [rangeOk_unique q2 (b := (true, 0, 20)) hb] at q1
      exact ⟨xs', q1⟩
    · obtain ⟨n, xs', q1, -, -, q2, -⟩ := C79_next .plain (fun _ _ _ _ _ _ => trivial) ⟨by decide, by decide⟩ ok
      have : n = 21 := by
        rcases q2 with ⟨q2, -⟩ | ⟨q2, q3⟩
        · exact absurd hb.first (q2 0)
        · have k1 := hb.all _ q2
          have k2 := q3 20 hb.last
          omega
      rw [this] at q1
      exact ⟨xs', q1⟩

end Verif.Props
