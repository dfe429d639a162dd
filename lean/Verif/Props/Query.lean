import Verif.Hopper.Calls
import Verif.Hopper.Merge
import Verif.Hopper.MergeAll
import Verif.Gcl.Grammar
import Verif.Gcl.Optimize
import Verif.Gcl.Phrase
import Verif.Store.IndexProof
/-
  Properties of queries (C01-C09, C37).

  Everything is stated for a query built by the modelled `to_hopper` over an arbitrary
  index: any number of shards, any posting lists, any erased ranges.
-/
namespace Verif.Props
open Verif.Hopper Verif.Gcl

/-- What a query is run against: the indexes of the committed shards, oldest first, and the
featurizer's map from terms to features. -/
structure Index where
  shards : List Store.Index
  featurize : List Char → Int
  good : ∀ ix ∈ shards, Store.GoodIx ix

/-- the hopper the index gives for a term (`gcl/parse.cc:262-263`, `src/bigwig.cc:127-208`) -/
def Index.leaf (ix : Index) (t : List Char) : Obj := Store.bigwigObj ix.shards (ix.featurize t)

/-- the solutions of a term: the minimal intervals of the union over shards, later shards
winning ties, less what is erased -/
def Index.solutions (ix : Index) (t : List Char) : GC := Store.solutions ix.shards (ix.featurize t)

theorem Index.wf (ix : Index) (t : List Char) : Wf (ix.solutions t) := Store.solutions_wf ix.good _

theorem Index.leaf_impl (ix : Index) (t : List Char) : Implements (ix.leaf t) (ix.solutions t) :=
  Store.bigwig_impl ix.good _

/-- `gcl::hopper` after parsing and phrase expansion (`gcl/gcl.cc:47-49`), with the
optimizer on (`some count`) or off (`none`). -/
def compile (ix : Index) (count : Option (List Char → Int)) (e : SExpr) : Option Obj :=
  match count with
  | none => toHopper ix.leaf e
  | some c => toHopper ix.leaf (optimize c e)

theorem compile_impl (ix : Index) (count : Option (List Char → Int)) (e : SExpr) (h : Legal e) :
    ∃ H, compile ix count e = some H ∧ Implements H (den ix.solutions e) := by
  cases count with
  | none => exact toHopper_ok ix.wf ix.leaf_impl e h
  | some c =>
    obtain ⟨h1, h2⟩ := optimize_ok ix.wf c e h
    have := toHopper_ok ix.wf ix.leaf_impl _ h1
    rw [h2] at this
    exact this

/-- a state some history of calls leads to from a new hopper -/
def Reachable (H : Obj) (s : H.σ) : Prop :=
  ∃ cs as, (∀ c ∈ cs, InRange c.key) ∧ H.run cs H.init = some (as, s)

theorem Reachable.inv {H : Obj} {I S} (h : Impl H I S) {s : H.σ} (hr : Reachable H s) : I s := by
  obtain ⟨cs, as, hk, hrun⟩ := hr
  obtain ⟨as', s', h1, h2, _⟩ := h.run cs hk H.init h.init
  rw [hrun] at h1
  cases h1; exact h2

/-! ### C01 -/

/-- **C01.** Whatever calls were made before on a query's hopper, a call answers what the
query's solution list and the argument determine -- and exactly what a brand-new hopper
for the query answers. -/
theorem C01_history_independent (ix : Index) (count : Option (List Char → Int)) (e : SExpr)
    (h : Legal e) :
    ∃ H, compile ix count e = some H ∧ ∀ (s : H.σ), Reachable H s → ∀ c : Call, InRange c.key →
      ∃ a s' s0, H.call c s = some (a, s') ∧ Right (den ix.solutions e) c a ∧
        H.call c H.init = some (a, s0) := by
  obtain ⟨H, h1, I, h2⟩ := compile_impl ix count e h
  refine ⟨H, h1, fun s hr c hk => ?_⟩
  obtain ⟨a, s', h3, _, h4⟩ := h2.call c hk s (hr.inv h2)
  obtain ⟨a0, s0, h5, _, h6⟩ := h2.call c hk H.init h2.init
  refine ⟨a, s', s0, h3, h4, ?_⟩
  rw [h5, Right.unique (den_wf ix.wf e h) h6 h4]

/-- the same for whole histories: every answer of the sequence is right -/
theorem C01_whole_history (ix : Index) (count : Option (List Char → Int)) (e : SExpr)
    (h : Legal e) :
    ∃ H, compile ix count e = some H ∧ ∀ cs : List Call, (∀ c ∈ cs, InRange c.key) →
      ∃ as s, H.run cs H.init = some (as, s) ∧ as.length = cs.length ∧
        ∀ x ∈ cs.zip as, Right (den ix.solutions e) x.1 x.2 := by
  obtain ⟨H, h1, I, h2⟩ := compile_impl ix count e h
  refine ⟨H, h1, fun cs hk => ?_⟩
  obtain ⟨as, s, h3, _, h4⟩ := h2.run cs hk H.init h2.init
  exact ⟨as, s, h3, h4⟩

/-! ### C02 -/

/-- **C02**, for whole queries: the solutions reported are those of the operator algebra,
with the operators read at face value (`Verif.Gcl.Spec`), whatever the nesting. -/
theorem C02_query (ix : Index) (e : SExpr) (h : Legal e) :
    ∃ H, toHopper ix.leaf e = some H ∧ ∀ (s : H.σ), Reachable H s → ∀ k, InRange k →
      (∃ a s', H.tau k s = some (a, s') ∧ TauSpec (den ix.solutions e) k a) ∧
      (∃ a s', H.rho k s = some (a, s') ∧ RhoSpec (den ix.solutions e) k a) ∧
      (∃ a s', H.uat k s = some (a, s') ∧ UatSpec (den ix.solutions e) k a) ∧
      (∃ a s', H.ohr k s = some (a, s') ∧ OhrSpec (den ix.solutions e) k a) := by
  obtain ⟨H, h1, I, h2⟩ := toHopper_ok ix.wf ix.leaf_impl e h
  refine ⟨H, h1, fun s hr k hk => ?_⟩
  have hi := hr.inv h2
  obtain ⟨a, sa, a1, _, a2⟩ := h2.tau k hk s hi
  obtain ⟨b, sb, b1, _, b2⟩ := h2.rho k hk s hi
  obtain ⟨c, sc, c1, _, c2⟩ := h2.uat k hk s hi
  obtain ⟨d, sd, d1, _, d2⟩ := h2.ohr k hk s hi
  exact ⟨⟨a, sa, a1, a2⟩, ⟨b, sb, b1, b2⟩, ⟨c, sc, c1, c2⟩, ⟨d, sd, d1, d2⟩⟩

section operators
variable {A B : Obj} {SA SB : GC} (wA : Wf SA) (wB : Wf SB) (hA : Implements A SA)
  (hB : Implements B SB)
include wA wB hA hB

/-- **C02**, operator by operator, over any operands -/
theorem C02_all_of : Implements (andObj A B) (allOf SA SB) := by
  obtain ⟨_, a⟩ := hA; obtain ⟨_, b⟩ := hB; exact ⟨_, and_impl wA wB a b⟩
theorem C02_one_of : Implements (orObj A B) (oneOf SA SB) := by
  obtain ⟨_, a⟩ := hA; obtain ⟨_, b⟩ := hB; exact ⟨_, or_impl wA wB a b⟩
theorem C02_followed_by : Implements (followedByObj A B) (followedBy SA SB) := by
  obtain ⟨_, a⟩ := hA; obtain ⟨_, b⟩ := hB; exact ⟨_, followedBy_impl wA wB a b⟩
theorem C02_contained_in : Implements (cinObj A B) (containedIn SA SB) := by
  obtain ⟨_, a⟩ := hA; obtain ⟨_, b⟩ := hB; exact ⟨_, cin_impl wA wB a b⟩
theorem C02_containing : Implements (cgObj A B) (containing SA SB) := by
  obtain ⟨_, a⟩ := hA; obtain ⟨_, b⟩ := hB; exact ⟨_, cg_impl wA wB a b⟩
theorem C02_not_contained_in : Implements (nciObj A B) (notContainedIn SA SB) := by
  obtain ⟨_, a⟩ := hA; obtain ⟨_, b⟩ := hB; exact ⟨_, nci_impl wA wB a b⟩
theorem C02_not_containing : Implements (ncgObj A B) (notContaining SA SB) := by
  obtain ⟨_, a⟩ := hA; obtain ⟨_, b⟩ := hB; exact ⟨_, ncg_impl wA wB a b⟩
end operators

theorem C02_fixed_width {w : Int} (h1 : 1 ≤ w) (h2 : w ≤ maxfinity) :
    Implements (fixedObj w) (fixedWidth w) := ⟨_, fixed_impl h1 h2 (fun _ => True) trivial⟩

/-! ### C03 -/

/-- **C03.** No sequence of calls on a query's hopper gets stuck: no loop runs on, no
address arithmetic leaves the 64-bit range, no array is read out of bounds (any of these
would make the model's result `none`). -/
theorem C03_no_stuck_call (ix : Index) (count : Option (List Char → Int)) (e : SExpr)
    (h : Legal e) :
    ∃ H, compile ix count e = some H ∧ ∀ cs : List Call, (∀ c ∈ cs, InRange c.key) →
      (H.run cs H.init).isSome := by
  obtain ⟨H, h1, h2⟩ := C01_whole_history ix count e h
  refine ⟨H, h1, fun cs hk => ?_⟩
  obtain ⟨as, s, h3, _⟩ := h2 cs hk
  simp [h3]

/-! ### C04 -/

/-- **C04.** The usual loops list each solution exactly once, in order, from any state of
the hopper: `tau` and `rho` forwards, `uat` and `ohr` backwards. -/
theorem C04_enumeration (ix : Index) (count : Option (List Char → Int)) (e : SExpr)
    (h : Legal e) :
    ∃ H, compile ix count e = some H ∧ ∀ (s : H.σ), Reachable H s →
      (∃ l s', tauAll H.tau loopFuel (minfinity + 1) s = some (l, s') ∧
        (∀ a, a ∈ l ↔ den ix.solutions e a) ∧ l.Pairwise fun a b => a.p < b.p ∧ a.q < b.q) ∧
      (∃ l s', rhoAll H.rho loopFuel (minfinity + 1) s = some (l, s') ∧
        (∀ a, a ∈ l ↔ den ix.solutions e a) ∧ l.Pairwise fun a b => a.p < b.p ∧ a.q < b.q) ∧
      (∃ l s', uatAll H.uat loopFuel (maxfinity - 1) s = some (l, s') ∧
        (∀ a, a ∈ l ↔ den ix.solutions e a) ∧ l.Pairwise fun a b => b.p < a.p ∧ b.q < a.q) ∧
      (∃ l s', ohrAll H.ohr loopFuel (maxfinity - 1) s = some (l, s') ∧
        (∀ a, a ∈ l ↔ den ix.solutions e a) ∧ l.Pairwise fun a b => b.p < a.p ∧ b.q < a.q) := by
  obtain ⟨H, h1, I, h2⟩ := compile_impl ix count e h
  have w := den_wf ix.wf e h
  refine ⟨H, h1, fun s hr => ?_⟩
  have hi := hr.inv h2
  have k1 : InRange (minfinity + 1) := by constructor <;> decide
  have k2 : InRange (maxfinity - 1) := by constructor <;> decide
  refine ⟨?_, ?_, ?_, ?_⟩
  · obtain ⟨l, s', g1, _, g2, g3⟩ := tauAll_ok w h2.tau loopFuel _ k1 (by decide) (fuel_hi k1) s hi
    refine ⟨l, s', g1, fun a => ?_, g3⟩
    rw [g2]; exact ⟨fun x => x.1, fun x => ⟨x, by have := w.lo x; omega⟩⟩
  · obtain ⟨l, s', g1, _, g2, g3⟩ := rhoAll_ok w h2.rho loopFuel _ k1 (by decide) (fuel_hi k1) s hi
    refine ⟨l, s', g1, fun a => ?_, g3⟩
    rw [g2]; exact ⟨fun x => x.1, fun x => ⟨x, by have := w.lo x; have := w.le x; omega⟩⟩
  · obtain ⟨l, s', g1, _, g2, g3⟩ := uatAll_ok w h2.uat loopFuel _ k2 (by decide) (fuel_lo k2) s hi
    refine ⟨l, s', g1, fun a => ?_, g3⟩
    rw [g2]; exact ⟨fun x => x.1, fun x => ⟨x, by have := w.hi x; omega⟩⟩
  · obtain ⟨l, s', g1, _, g2, g3⟩ := ohrAll_ok w h2.ohr loopFuel _ k2 (by decide) (fuel_lo k2) s hi
    refine ⟨l, s', g1, fun a => ?_, g3⟩
    rw [g2]; exact ⟨fun x => x.1, fun x => ⟨x, by have := w.hi x; have := w.le x; omega⟩⟩

/-! ### C05 -/

/-- **C05.** A posting-list search is right from wherever the cursor was left, leaves the
cursor inside the list and reads nothing outside it. -/
theorem C05_any_cursor {a : Arrays} {l : List Ann} (hl : Listing l) (hne : l ≠ [])
    (ha : Holds a l) (c : Int) (h0 : 0 ≤ c) (h1 : c < l.length) (k : Int) (hk : InRange k) :
    (∃ r c', (arrayObj a).tau k ⟨{}, c⟩ = some (r, c') ∧ TauSpec (ofList l) k r ∧
      0 ≤ c'.sub ∧ c'.sub < l.length) ∧
    (∃ r c', (arrayObj a).rho k ⟨{}, c⟩ = some (r, c') ∧ RhoSpec (ofList l) k r ∧
      0 ≤ c'.sub ∧ c'.sub < l.length) ∧
    (∃ r c', (arrayObj a).uat k ⟨{}, c⟩ = some (r, c') ∧ UatSpec (ofList l) k r ∧
      0 ≤ c'.sub ∧ c'.sub < l.length) ∧
    (∃ r c', (arrayObj a).ohr k ⟨{}, c⟩ = some (r, c') ∧ OhrSpec (ofList l) k r ∧
      0 ≤ c'.sub ∧ c'.sub < l.length) := by
  have h := array_impl hl hne ha
  have hi : NInv (ofList l) (CInv l) (⟨{}, c⟩ : St Int) := ⟨memoOk_init _, h0, h1⟩
  refine ⟨?_, ?_, ?_, ?_⟩
  · obtain ⟨r, s, e1, e2, e3⟩ := h.tau k hk _ hi; exact ⟨r, s, e1, e3, e2.2⟩
  · obtain ⟨r, s, e1, e2, e3⟩ := h.rho k hk _ hi; exact ⟨r, s, e1, e3, e2.2⟩
  · obtain ⟨r, s, e1, e2, e3⟩ := h.uat k hk _ hi; exact ⟨r, s, e1, e3, e2.2⟩
  · obtain ⟨r, s, e1, e2, e3⟩ := h.ohr k hk _ hi; exact ⟨r, s, e1, e3, e2.2⟩

example : Listing [⟨2, 3, 0⟩, ⟨7, 7, 0⟩, ⟨9, 12, 0⟩] :=
  ⟨by simp, by simp⟩
example : ((arrayObj ⟨[2, 7, 9], [3, 7, 12], none⟩).tau 4 ⟨{}, 2⟩).map (·.1) = some ⟨7, 7, 0⟩ := by
  decide

/-! ### C06 -/

/-- **C06.** The hopper a dynamic index gives for a feature answers as one list holding the
minimal intervals of the union of the shards' lists, the value of the last shard that has
an interval winning, less (for other features than the erasures) those inside a minimal
erased range; for any number of shards and any history. -/
theorem C06_index_union (shards : List Store.Index) (good : ∀ ix ∈ shards, Store.GoodIx ix) (f : Int) :
    Implements (Store.bigwigObj shards f)
      (if f = 0 then unionOf fun i : Fin (shards.map fun ix => Store.annsOf ix 0).length =>
          ofList (shards.map fun ix => Store.annsOf ix 0)[i]
       else notContainedIn
        (unionOf fun i : Fin (shards.map fun ix => Store.annsOf ix f).length =>
          ofList (shards.map fun ix => Store.annsOf ix f)[i])
        (unionOf fun i : Fin (shards.map fun ix => Store.annsOf ix 0).length =>
          ofList (shards.map fun ix => Store.annsOf ix 0)[i])) := by
  have := Store.bigwig_impl good f
  unfold Store.solutions Store.solutionsRaw Store.unionL at this
  by_cases hf : f = 0
  · subst hf; simpa using this
  · rw [if_neg hf] at this ⊢; exact this

/-- **C06**, for the multi-list hopper (`src/vector_hopper.cc`) over any hoppers. -/
theorem C06_shard_union {n : Nat} (H : Fin n → Obj) (S : Fin n → GC) (w : ∀ i, Wf (S i))
    (h : ∀ i, Implements (H i) (S i)) : Implements (vectorObj H) (unionOf S) ∧ Wf (unionOf S) := by
  refine ⟨?_, unionOf_wf w⟩
  exact vector_impl (I := fun i => (h i).choose) w fun i => (h i).choose_spec

/-! ### C07 -/

/-- **C07** (link). The link query has exactly the stored addresses as solutions. -/
theorem C07_link {A : Obj} {SA : GC} (w : Wf SA) (h : Implements A SA) :
    Implements (linkObj A) (linkOf SA) := by
  obtain ⟨_, a⟩ := h; exact ⟨_, link_impl w a⟩

/-- **C07** (merge), the part of it that holds.  In every history of calls on a merged hopper,
every `tau`, `rho`, `L` and `R` is right for all operands, and every `uat` and `ohr` finds the
right start.  Missing: the end and value of `uat` and `ohr` when the operands have intervals
with the same start and different ends, see `C07_merge_uat_wrong`. -/
theorem C07_merge_partial {A B : Obj} {SA SB : GC} (wA : Wf SA) (wB : Wf SB) (hA : Implements A SA)
    (hB : Implements B SB) (cs : List Call) (hk : ∀ c ∈ cs, InRange c.key) :
    ∃ as s, (mergeObj A B).run cs (mergeObj A B).init = some (as, s) ∧ as.length = cs.length ∧
      ∀ x ∈ cs.zip as, HalfRight (mergeOf SA SB) x.1 x.2 := by
  obtain ⟨IA, hA⟩ := hA
  obtain ⟨IB, hB⟩ := hB
  obtain ⟨as, s, h1, _, h2⟩ := merge_half_run wA wB hA hB cs hk (mergeObj A B).init
    ⟨halfMemo_init _, hA.init, hB.init⟩
  exact ⟨as, s, h1, h2⟩

/-- if equal starts come with equal ends, merge is right in every direction -/
theorem C07_merge_same_starts_partial {A B : Obj} {SA SB : GC} (wA : Wf SA) (wB : Wf SB)
    (hc : ∀ a b, SA a → SB b → a.p = b.p → a.q = b.q) (hA : Implements A SA)
    (hB : Implements B SB) : Implements (mergeObj A B) (mergeOf SA SB) := by
  obtain ⟨_, a⟩ := hA; obtain ⟨_, b⟩ := hB; exact ⟨_, merge_impl wA wB hc a b⟩

/-- The code does not have the full property: merging `[5,6]` with `[5,8]`, `uat(10)`
answers `[5,8]`, which is not a minimal interval of the union (`gcl/gcl.cc:328-331`). -/
theorem C07_merge_uat_wrong :
    ((mergeObj (listObj [⟨5, 6, 0⟩]) (listObj [⟨5, 8, 0⟩])).uat 10
      (mergeObj (listObj [⟨5, 6, 0⟩]) (listObj [⟨5, 8, 0⟩])).init).map (·.1) = some ⟨5, 8, 0⟩ ∧
    ¬ mergeOf (ofList [⟨5, 6, 0⟩]) (ofList [⟨5, 8, 0⟩]) ⟨5, 8, 0⟩ := by
  refine ⟨by decide, fun h => ?_⟩
  have := h.2 ⟨5, 6, 0⟩ (Or.inl (by simp [ofList])) (by simp [inside])
  simp at this

/-! ### C08 -/

/-- **C08.** Optimizing never changes the solutions of a query (and leaves it legal). -/
theorem C08_optimizer (ix : Index) (count : List Char → Int) (e : SExpr) (h : Legal e) :
    Legal (optimize count e) ∧ den ix.solutions (optimize count e) = den ix.solutions e :=
  optimize_ok ix.wf count e h

/-! ### C09 -/

/-- **C09.** Whatever text was parsed, printing the query and parsing that text gives the
same query. -/
theorem C09_round_trip (s : List Char) (rest : List Char) (e : SExpr)
    (h : fromString s = .good rest e) : ∃ rest', fromString (toStr e) = .good rest' e :=
  fromString_toStr ((parse_good _).1 _ _ _ h)

/-- **C09.** Every way to write a query — any of the documented names of each operator, with
any amount of blank space — is read as that query. -/
theorem C09_reads {s : List Char} {e : SExpr} (h : Writes s e) : ∃ rest, fromString s = .good rest e := by
  have := reads h (2 * s.length + 1) [] (Nat.le_refl _)
  rw [List.append_nil] at this
  by_cases hk : e.kind = .term
  · exact ⟨_, this.1 hk fun c cs h => by simp at h⟩
  · exact ⟨_, this.2 hk⟩

/-- `( all_of  a (fixed_width 3 ))` -/
example : Writes ['(', ' ', 'a', 'l', 'l', '_', 'o', 'f', ' ', ' ', 'a', ' ', '(', 'f', 'i', 'x', 'e', 'd', '_', 'w', 'i', 'd', 't', 'h', ' ', '3', ' ', ')', ')']
    (.node .allOf [] 0 [.node .term ['a'] 0 [], .node .fixed [] 3 []]) := by
  have sp : ∀ l : List Char, (∀ c ∈ l, c = ' ') → Space l := fun l h c hc => .inl (h c hc)
  refine Writes.op (k := .allOf) (es := [.node .term ['a'] 0 [], .node .fixed [] 3 []]) (a := [' ']) (name := ['a', 'l', 'l', '_', 'o', 'f'])
    (s := [' ', ' '] ++ ['a'] ++ ([' '] ++ ('(' :: [] ++ ['f', 'i', 'x', 'e', 'd', '_', 'w', 'i', 'd', 't', 'h'] ++ [' '] ++ ['3'] ++ [' '] ++ [')']) ++ []))
    (sp _ (by simp)) (by decide) (by decide) ?_ (by simp [Takes]) (by simp)
  refine .cons (sp _ (by simp)) (by simp) (.word (.inl ⟨by simp, by simp, by simp⟩))
    (.cons (sp _ (by simp)) (by simp) (.width (sp _ (by simp)) (by decide) (sp _ (by simp)) (by simp) ⟨by simp, by simp⟩ (by decide) (sp _ (by simp))) (.nil (sp _ (by simp))))

/-- parsing always ends: the model's recursion bound is never reached -/
theorem C09_parse_total (s : List Char) : fromString s ≠ .fuel :=
  (parse_fuel _).1 s (Nat.le_refl _)

mutual
/-- every window in the query has a positive width -/
def PositiveWidths : SExpr → Prop
  | .node k _ w sub => (k = .fixed → 1 ≤ w) ∧ PositiveWidthsL sub
def PositiveWidthsL : List SExpr → Prop
  | [] => True
  | e :: es => PositiveWidths e ∧ PositiveWidthsL es
end

theorem positiveWidthsL_iff (l : List SExpr) :
    PositiveWidthsL l ↔ ∀ e ∈ l, PositiveWidths e := by
  induction l with
  | nil => simp [PositiveWidthsL]
  | cons e es ih => simp [PositiveWidthsL, ih]

theorem goodTree_legal : ∀ e, GoodTree e → PositiveWidths e → Legal e := by
  intro e
  induction e using SExpr.ind with
  | h k t w sub ih =>
    intro hg hz
    rw [PositiveWidths, positiveWidthsL_iff] at hz
    rw [Legal, legalL_iff]
    have key : GoodTreeL sub → ∀ e ∈ sub, Legal e := fun h e he =>
      ih e he ((goodTreeL_iff _).1 h e he) (hz.2 e he)
    unfold GoodTree at hg
    cases k <;> simp only [minArgs, maxArgs] at hg <;> simp only [arityOk]
    · obtain ⟨_, _, rfl⟩ := hg; simp
    · obtain ⟨_, h1, h2, rfl⟩ := hg
      exact ⟨⟨rfl, hz.1 rfl, h2⟩, by simp⟩
    all_goals
      obtain ⟨_, _, h1, h2, h3⟩ := hg
      exact ⟨by omega, key h3⟩

/-- **C09**, continued: text the parser accepts is a legal query (the only thing the
parser lets through is a window of width 0). -/
theorem C09_accepted_is_legal (s rest : List Char) (e : SExpr) (h : fromString s = .good rest e)
    (hw : PositiveWidths e) : Legal e :=
  goodTree_legal e ((parse_good _).1 _ _ _ h) hw

/-- Not all text is consumed: what follows a complete query is silently ignored
(`gcl/parse.cc:178-188` never looks at where parsing stopped). -/
theorem C09_trailing_text_ignored :
    fromString ['a', ' ', 'b'] = .good ['b'] (.node .term ['a'] 0 []) := by
  rfl

/-! ### C37 -/

/-- **C37.** A quoted phrase of two or more words (as the tokenizer splits it) finds
exactly the places where the words stand at consecutive addresses, over an index in which
the words are one-address annotations. -/
theorem C37_phrase (ix : Index)
    (split : List Char → List (List Char)) (q : Char) (body : List Char) (hb : body ≠ [])
    (xs : List (List Char)) (hxs : split body = xs) (h1 : ∀ t ∈ xs, ∀ a, ix.solutions t a → a.p = a.q) (h2 : 2 ≤ xs.length)
    (hmax : xs.length ≤ 4294967295) (hg : ∀ t ∈ xs, GoodTerm t) (r : Ann) :
    den ix.solutions (expandPhrases split q (.node .term (q :: body ++ [q]) 0 [])) r ↔
      r.v = 0 ∧ minfinity < r.p ∧ r.q < maxfinity ∧ r.q = r.p + xs.length - 1 ∧
        consecutive (xs.map ix.solutions) r.p := by
  rw [expandPhrases]
  have hl : (q :: body ++ [q]).length > 2 := by
    cases body with
    | nil => exact absurd rfl hb
    | cons => simp
  have hd : ((q :: body ++ [q]).drop 1).take ((q :: body ++ [q]).length - 2) = body := by simp
  have hla : (q :: body ++ [q]).getLast? = some q := by
    rw [List.getLast?_append]; simp
  rw [if_pos ⟨rfl, hl, rfl, hla⟩]
  rw [hd, hxs]
  obtain ⟨rest, hp⟩ := fromString_toStr (phraseTree_good h2 hmax hg)
  rw [← phraseText_eq] at hp
  match xs, h1, h2, hp with
  | a :: b :: ss, h1, h2, hp =>
    simp only [hp]
    exact den_phraseTree ix.wf h1 h2 r

/-! ### the whole pipeline -/

mutual
/-- phrases expand to words that can be terms, in numbers the parser can count -/
def SplitsOk (split : List Char → List (List Char)) (marker : Char) : SExpr → Prop
  | .node k t _ sub =>
    (k = .term → t.head? = some marker → (∀ x ∈ split ((t.drop 1).take (t.length - 2)), GoodTerm x) ∧
      (split ((t.drop 1).take (t.length - 2))).length ≤ 4294967295) ∧ SplitsOkL split marker sub
def SplitsOkL (split : List Char → List (List Char)) (marker : Char) : List SExpr → Prop
  | [] => True
  | e :: es => SplitsOk split marker e ∧ SplitsOkL split marker es
end

theorem splitsOkL_iff {split marker} (l : List SExpr) :
    SplitsOkL split marker l ↔ ∀ e ∈ l, SplitsOk split marker e := by
  induction l with
  | nil => simp [SplitsOkL]
  | cons e es ih => simp [SplitsOkL, ih]

theorem expandPhrasesL_eq {split marker} (l : List SExpr) :
    expandPhrasesL split marker l = l.map (expandPhrases split marker) := by
  induction l with
  | nil => rfl
  | cons e es ih => simp [expandPhrasesL, ih]

theorem expand_legal {split marker} : ∀ e, Legal e → SplitsOk split marker e →
    Legal (expandPhrases split marker e) := by
  intro e
  induction e using SExpr.ind with
  | h k t w sub ih =>
    intro hl hs
    rw [Legal, legalL_iff] at hl
    rw [SplitsOk, splitsOkL_iff] at hs
    have hplain : Legal (.node k t w (expandPhrasesL split marker sub)) := by
      rw [Legal, legalL_iff, expandPhrasesL_eq, List.length_map]
      refine ⟨hl.1, fun e he => ?_⟩
      obtain ⟨e', he', rfl⟩ := List.mem_map.1 he
      exact ih e' he' (hl.2 e' he') (hs.2 e' he')
    rw [expandPhrases]
    split
    · rename_i hc
      obtain ⟨h1, h2⟩ := hs.1 hc.1 hc.2.2.1
      split
      · exact hplain
      · rw [hc.1]; simp [Legal, LegalL, arityOk]
      · rename_i xs hn1 hn2 
        have hlen : 2 ≤ (split ((t.drop 1).take (t.length - 2))).length := by
          match hx : split ((t.drop 1).take (t.length - 2)), hn1, hn2 with
          | [], h, _ => exact absurd rfl h
          | [x], _, h => exact absurd rfl (h x)
          | _ :: _ :: _, _, _ => simp
        obtain ⟨rest, hp⟩ := fromString_toStr (phraseTree_good hlen h2 h1)
        rw [phraseText_eq, hp]
        simp only
        have hlt : ∀ l : List (List Char), LegalL (l.map fun x => SExpr.node .term x 0 []) := by
          intro l; induction l with
          | nil => trivial
          | cons x l ih => exact ⟨⟨rfl, trivial⟩, ih⟩
        simp only [phraseTree, Legal, LegalL, arityOk, List.length_cons, List.length_nil,
          List.length_map, and_true]
        exact ⟨by omega, ⟨trivial, by omega, by omega⟩, by omega, hlt _⟩
    · exact hplain

/-- `gcl::hopper` (`gcl/gcl.cc:37-53`); the marker defaults to `"` (`gcl/parse.h:51`) -/
def gclHopper (ix : Index) (split : List Char → List (List Char)) (count : List Char → Int)
    (query : List Char) : Option Obj :=
  match fromString query with
  | .good _ e => compile ix (some count) (expandPhrases split '"' e)
  | _ => none

/-- **C02/C09**, from query text to answers: every accepted query text yields a hopper
whose every answer, in every history, is the one the query's meaning requires. -/
theorem C02_query_text (ix : Index) (split : List Char → List (List Char))
    (count : List Char → Int) (query rest : List Char) (e : SExpr)
    (hp : fromString query = .good rest e) (hw : PositiveWidths e) (hs : SplitsOk split '"' e) :
    ∃ H, gclHopper ix split count query = some H ∧
      ∀ cs : List Call, (∀ c ∈ cs, InRange c.key) → ∃ as s, H.run cs H.init = some (as, s) ∧
        as.length = cs.length ∧
        ∀ x ∈ cs.zip as, Right (den ix.solutions (expandPhrases split '"' e)) x.1 x.2 := by
  have hl := expand_legal e (C09_accepted_is_legal _ _ _ hp hw) hs
  obtain ⟨H, h1, h2⟩ := C01_whole_history ix (some count) _ hl
  refine ⟨H, ?_, h2⟩
  rw [gclHopper, hp]
  exact h1

/-! ### the hypotheses are met -/

/-- a shard with the word 97 at `as` and the word 98 at `bs` -/
def sampleShard (as bs : List Int) : Store.Index := fun f =>
  if f = 97 then some { feature := 97, ps := as } else if f = 98 then some { feature := 98, ps := bs }
  else none

theorem sampleShard_good {as bs : List Int} (ha : as.Pairwise (· < ·)) (hb : bs.Pairwise (· < ·))
    (na : as ≠ []) (nb : bs ≠ []) (ra : ∀ a ∈ as, 0 ≤ a ∧ a < 1000) (rb : ∀ a ∈ bs, 0 ≤ a ∧ a < 1000) :
    Store.GoodIx (sampleShard as bs) := by
  have key : ∀ f P, sampleShard as bs f = some P → P.feature = f ∧ P.qs = [] ∧ P.fs = [] ∧
      P.ps.Pairwise (· < ·) ∧ P.ps ≠ [] ∧ ∀ a ∈ P.ps, 0 ≤ a ∧ a < 1000 := by
    intro f P h
    unfold sampleShard at h
    split at h
    · cases h; exact ⟨by simp_all, rfl, rfl, ha, na, ra⟩
    · split at h
      · cases h; exact ⟨by simp_all, rfl, rfl, hb, nb, rb⟩
      · cases h
  have ok : ∀ f P, sampleShard as bs f = some P → P.Ok := fun f P h =>
    ⟨Or.inl (by simp [(key f P h).2.1]), Or.inl (by simp [(key f P h).2.2.1])⟩
  have anns : ∀ f P, sampleShard as bs f = some P → P.anns = P.ps.map fun p => ⟨p, p, 0⟩ := by
    intro f P h
    rw [Store.anns_eq (ok f P h)]
    simp only [Store.Posting.ends, Store.Posting.vals, (key f P h).2.1, (key f P h).2.2.1]
    have : ∀ l : List Int, Store.zip3 l l (List.replicate l.length 0) = l.map fun p => ⟨p, p, 0⟩ := by
      intro l; induction l with
      | nil => rfl
      | cons x l ih => simp [Store.zip3, List.replicate_succ, ih]
    simpa using this P.ps
  constructor
  · exact ok
  · intro f P h
    obtain ⟨_, _, _, k1, _, k2⟩ := key f P h
    rw [anns f P h]
    refine ⟨by rw [List.pairwise_map]; exact k1.imp fun h => ⟨h, h⟩, ?_⟩
    intro a ha
    obtain ⟨p, hp, rfl⟩ := List.mem_map.1 ha
    have := k2 p hp
    exact ⟨show -9223372036854775808 < p by omega, Int.le_refl _, show p < 9223372036854775807 by omega⟩
  · intro f P h
    rw [anns f P h]
    simpa using (key f P h).2.2.2.2.1
  · intro f P h a ha
    rw [anns f P h] at ha
    obtain ⟨p, hp, rfl⟩ := List.mem_map.1 ha
    rfl
  · exact fun f P h => (key f P h).1

/-- two shards, two words -/
def sampleIndex : Index where
  shards := [sampleShard [1, 4] [2], sampleShard [10] [11]]
  featurize := fun t => if t = ['a'] then 97 else if t = ['b'] then 98 else 1
  good := by
    intro ix hix
    simp only [List.mem_cons, List.not_mem_nil, or_false] at hix
    rcases hix with rfl | rfl <;>
      exact sampleShard_good (by simp) (by simp) (by simp) (by simp) (by decide) (by decide)

/-- `(<< (^ a b) (# 3))` -/
def sampleQuery : SExpr :=
  .node .containedIn [] 0 [.node .allOf [] 0 [.node .term ['a'] 0 [], .node .term ['b'] 0 []],
    .node .fixed [] 3 []]

example : Legal sampleQuery := by simp [sampleQuery, Legal, LegalL, arityOk]

/-- its text parses to it -/
example : ∃ r, fromString ['(', '<', '<', ' ', '(', '^', ' ', 'a', ' ', 'b', ')', ' ', '(', '#',
    ' ', '3', ')', ')'] = .good r sampleQuery := ⟨_, rfl⟩

/-- and the phrase `"a b"` is split into two good terms -/
example : ∀ t ∈ [['a'], ['b']], GoodTerm t := by
  intro t ht
  simp only [List.mem_cons, List.not_mem_nil, or_false] at ht
  rcases ht with rfl | rfl
  · exact Or.inl ⟨'a', [], rfl, rfl, by decide⟩
  · exact Or.inl ⟨'b', [], rfl, rfl, by decide⟩

/-- the sample index has one-address terms -/
theorem sampleIndex_points : ∀ t a, sampleIndex.solutions t a → a.p = a.q := by
  intro t a h
  have h : Store.solutionsRaw sampleIndex.shards (sampleIndex.featurize t) a := by
    unfold Index.solutions Store.solutions at h
    split at h
    · exact h
    · exact h.1
  obtain ⟨L, hL, haL⟩ := Store.unionL_mem h
  generalize sampleIndex.featurize t = f at hL
  simp only [sampleIndex, List.map_cons, List.map_nil, List.mem_cons, List.not_mem_nil, or_false,
    Store.annsOf, sampleShard] at hL
  by_cases h1 : f = 97
  · simp only [h1, if_true] at hL
    rcases hL with rfl | rfl <;> exact (by decide : ∀ x ∈ _, Ann.p x = x.q) a haL
  · by_cases h2 : f = 98
    · simp only [h2, if_true] at hL
      rcases hL with rfl | rfl <;> exact (by decide : ∀ x ∈ _, Ann.p x = x.q) a haL
    · simp only [h1, h2, if_false, or_self] at hL
      subst hL; simp at haL

end Verif.Props
