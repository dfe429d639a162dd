/- Lemmas about runs of the merge workers. -/
import Verif.Sched.Proof
namespace Verif.Sched
open Verif.Txn (Kind FName Job)
open Verif.Sanitize (Recovery top)

/-- what a worker may be merging -/
def JobOk : Job → List Shard → Prop
  | .convert, l => ∃ x, l = [x] ∧ x.kind = .fiver
  | .fiverMerge, l => 2 ≤ l.length ∧ ∀ x ∈ l, x.kind = .fiver
  | .hazelMerge, l => 2 ≤ l.length ∧ ∀ x ∈ l, x.kind = .hazel

/-- every worker that is merging has something it may merge -/
def Valid (bs : List Block) : Prop := ∀ job l, .busy job l ∈ bs → JobOk job l

theorem JobOk.ne_nil {job : Job} {l : List Shard} (h : JobOk job l) : l ≠ [] := by
  cases job with
  | convert => obtain ⟨x, rfl, _⟩ := h; simp
  | fiverMerge => rintro rfl; simp [JobOk] at h
  | hazelMerge => rintro rfl; simp [JobOk] at h

theorem Valid.ne_nil {bs : List Block} (h : Valid bs) : ∀ b ∈ bs, b.shards ≠ [] := by
  intro b hb
  cases b with
  | free s => simp [Block.shards]
  | busy j l => exact (h j l hb).ne_nil

theorem Valid.filter {bs : List Block} (p : Block → Bool) (h : Valid bs) : Valid (bs.filter p) :=
  fun job l hm => h job l (List.mem_filter.1 hm).1

theorem jobOk_of {disk : Bool} {sel : List Item} {job : Job} (h : validate disk sel = some job) :
    JobOk job (sel.map (·.shard)) := by
  cases job with
  | convert =>
    obtain ⟨x, rfl, hx⟩ := validate_convert h
    exact ⟨x.shard, rfl, ((Item.fiver_iff x).1 hx).2⟩
  | fiverMerge =>
    obtain ⟨h1, h2⟩ := validate_fiverMerge h
    refine ⟨by simpa using h1, fun s hs => ?_⟩
    obtain ⟨x, hx, rfl⟩ := List.mem_map.1 hs
    exact ((Item.fiver_iff x).1 (h2 x hx)).2
  | hazelMerge =>
    obtain ⟨_, h1, h2, _⟩ := validate_hazelMerge h
    refine ⟨by simpa using h1, fun s hs => ?_⟩
    obtain ⟨x, hx, rfl⟩ := List.mem_map.1 hs
    exact ((Item.hazel_iff x).1 (h2 x hx)).2

/-- what picking does to the blocks -/
theorem pick_blocks {disk : Bool} {max : Nat} {recs : List Recovery} {bs : List Block} {c : Choice} (hv : Valid bs)
    (hc : choose disk max recs (view bs) = some c) :
    ∃ (pre : List Block) (ss : List Shard) (post : List Block), bs = pre ++ ss.map Block.free ++ post ∧
      mark c.job c.sel.length c.start bs = pre ++ .busy c.job ss :: post ∧ ss = c.sel.map (·.shard) ∧
      JobOk c.job ss ∧ (view pre).length = c.start := by
  obtain ⟨h1, h2, h3, h4, h5, _⟩ := choose_some hc
  obtain ⟨pre, ss, post, e1, e2, e3, e4, _⟩ := mark_spec c.job c.sel.length h1 bs c.start (by rw [← h3]; exact h4) h2 hv.ne_nil
  rw [← h3] at e3
  refine ⟨pre, ss, post, e1, e2, e3, e3 ▸ jobOk_of h5, ?_⟩
  rw [e4, List.length_take]; omega

theorem valid_append {a b : List Block} : Valid (a ++ b) ↔ Valid a ∧ Valid b := by
  constructor
  · intro h
    exact ⟨fun j l hm => h j l (List.mem_append.2 (.inl hm)), fun j l hm => h j l (List.mem_append.2 (.inr hm))⟩
  · rintro ⟨h1, h2⟩ j l hm
    rcases List.mem_append.1 hm with hm | hm
    · exact h1 j l hm
    · exact h2 j l hm

theorem valid_cons {b : Block} {bs : List Block} : Valid (b :: bs) ↔ (∀ j l, b = .busy j l → JobOk j l) ∧ Valid bs := by
  constructor
  · intro h
    exact ⟨fun j l e => h j l (by rw [e]; exact List.mem_cons_self ..), fun j l hm => h j l (List.mem_cons_of_mem _ hm)⟩
  · rintro ⟨h1, h2⟩ j l hm
    rcases List.mem_cons.1 hm with hm | hm
    · exact h1 j l hm.symm
    · exact h2 j l hm

theorem valid_free (ss : List Shard) : Valid (ss.map Block.free) := by
  intro j l hm
  obtain ⟨s, _, e⟩ := List.mem_map.1 hm
  cases e

theorem step_valid {s t : Sys} {a : Label} (h : Step s a t) (hv : Valid s.blocks) : Valid t.blocks := by
  cases h with
  | ready => exact valid_append.2 ⟨hv, valid_free [_]⟩
  | commit hx hn e =>
    rw [e, valid_append, valid_cons] at hv
    exact valid_append.2 ⟨hv.1, valid_cons.2 ⟨fun _ _ e => (by cases e), hv.2.2⟩⟩
  | abort hx e =>
    rw [e, valid_append, valid_cons] at hv
    exact valid_append.2 ⟨hv.1, valid_cons.2 ⟨fun _ _ e => (by cases e), hv.2.2⟩⟩
  | start => exact hv
  | pick h hc =>
    obtain ⟨pre, ss, post, e1, e2, e3, e4, _⟩ := pick_blocks (hv.filter _) hc
    have hv' := hv.filter keepBlock
    rw [e1, valid_append, valid_append] at hv'
    show Valid (mark _ _ _ _)
    rw [e2]
    exact valid_append.2 ⟨hv'.1.1, valid_cons.2 ⟨fun _ _ e => by cases e; exact e4, hv'.2⟩⟩
  | retire h hc => exact hv.filter _
  | finish hn e =>
    rw [e, valid_append, valid_cons] at hv
    exact valid_append.2 ⟨hv.1, valid_cons.2 ⟨fun _ _ e => (by cases e), hv.2.2⟩⟩
  | fail e =>
    rw [e, valid_append, valid_cons] at hv
    exact valid_append.2 ⟨valid_append.2 ⟨hv.1, valid_free _⟩, hv.2.2⟩

theorem run_valid {s t : Sys} {as : List Label} (h : Run s as t) (hv : Valid s.blocks) : Valid t.blocks := by
  induction h with
  | nil => exact hv
  | cons h _ ih => exact ih (step_valid h hv)

/-! ### The number of workers -/

def workings (bs : List Block) : Nat := (bs.map Block.working).sum

theorem workings_append (a b : List Block) : workings (a ++ b) = workings a + workings b := by simp [workings]
theorem workings_cons (b : Block) (bs : List Block) : workings (b :: bs) = b.working + workings bs := by simp [workings]
theorem workings_free (ss : List Shard) : workings (ss.map Block.free) = 0 := by
  induction ss with
  | nil => rfl
  | cons s ss ih => rw [List.map_cons, workings_cons, ih]; rfl
theorem workings_filter (bs : List Block) : workings (bs.filter keepBlock) = workings bs := by
  induction bs with
  | nil => rfl
  | cons b bs ih =>
    rw [List.filter_cons]
    split
    · rw [workings_cons, workings_cons, ih]
    · rename_i h
      rw [workings_cons, ih]
      cases b with
      | free s => simp [Block.working]
      | busy j l => simp [keepBlock] at h

theorem step_workers {s t : Sys} {a : Label} (h : Step s a t) (hv : Valid s.blocks) (hw : s.workers ≤ s.max) : t.workers ≤ t.max := by
  cases h with
  | ready =>
    show _ + workings _ ≤ s.max
    rw [workings_append]
    exact hw
  | commit hx hn e =>
    show _ + workings _ ≤ s.max
    change _ + workings _ ≤ _ at hw
    rw [e] at hw
    rw [workings_append, workings_cons] at *
    exact hw
  | abort hx e =>
    show _ + workings _ ≤ s.max
    change _ + workings _ ≤ _ at hw
    rw [e] at hw
    rw [workings_append, workings_cons] at *
    exact hw
  | start h =>
    show _ + workings _ ≤ s.max
    dsimp only
    split
    · rename_i hlt
      change _ + workings _ < _ at hlt
      omega
    · exact hw
  | pick h hc =>
    obtain ⟨pre, ss, post, e1, e2, e3, e4, _⟩ := pick_blocks (hv.filter _) hc
    show _ + workings (mark _ _ _ _) ≤ s.max
    have hf := workings_filter s.blocks
    rw [e1, workings_append, workings_append, workings_free] at hf
    rw [e2, workings_append, workings_cons]
    change s.idle + workings s.blocks ≤ _ at hw
    dsimp only
    split
    · rename_i hlt
      change s.idle + workings s.blocks < _ at hlt
      simp only [Block.working]; omega
    · simp only [Block.working]; omega
  | retire h hc =>
    show _ + workings _ ≤ s.max
    dsimp only
    rw [workings_filter]
    change s.idle + workings s.blocks ≤ _ at hw
    omega
  | finish hn e =>
    show _ + workings _ ≤ s.max
    change _ + workings _ ≤ _ at hw
    rw [e] at hw
    rw [workings_append, workings_cons] at *
    simp only [Block.working] at *
    omega
  | fail e =>
    show _ + workings _ ≤ s.max
    change _ + workings _ ≤ _ at hw
    rw [e] at hw
    rw [workings_append, workings_cons] at hw
    rw [workings_append, workings_append, workings_free]
    simp only [Block.working] at *
    omega

/-! ### Every run ends -/

/-- the steps that no writer takes and that are not failures -/
def Label.inner : Label → Bool
  | .start => true
  | .pick => true
  | .retire => true
  | .finish => true
  | _ => false

def weight (s : Shard) : Nat := match s.kind with | .hazel => 1 | _ => 2
def weights (l : List Shard) : Nat := (l.map weight).sum
def Block.worth : Block → Nat
  | .free s => 4 * weight s
  | .busy _ l => 4 * weights l - 1
def worths (bs : List Block) : Nat := (bs.map Block.worth).sum
def Sys.worth (s : Sys) : Nat := worths s.blocks + s.idle + 2 * s.owed

theorem worths_append (a b : List Block) : worths (a ++ b) = worths a + worths b := by simp [worths]
theorem worths_cons (b : Block) (bs : List Block) : worths (b :: bs) = b.worth + worths bs := by simp [worths]
theorem worths_free (ss : List Shard) : worths (ss.map Block.free) = 4 * weights ss := by
  induction ss with
  | nil => rfl
  | cons s ss ih =>
    rw [List.map_cons, worths_cons, ih]
    simp [Block.worth, weights]; omega
theorem worths_filter (bs : List Block) (p : Block → Bool) : worths (bs.filter p) ≤ worths bs := by
  induction bs with
  | nil => exact Nat.le_refl _
  | cons b bs ih =>
    rw [List.filter_cons]
    split
    · rw [worths_cons, worths_cons]; omega
    · rw [worths_cons]; omega
theorem weight_bounds (s : Shard) : 1 ≤ weight s ∧ weight s ≤ 2 := by
  unfold weight; split <;> omega
theorem weights_le (l : List Shard) : l.length ≤ weights l ∧ weights l ≤ 2 * l.length := by
  induction l with
  | nil => exact ⟨Nat.le_refl _, Nat.le_refl _⟩
  | cons s l ih =>
    have := weight_bounds s
    have e : weights (s :: l) = weight s + weights l := by simp [weights]
    rw [e, List.length_cons]
    omega
theorem weights_fivers {l : List Shard} (h : ∀ x ∈ l, x.kind = .fiver) : weights l = 2 * l.length := by
  induction l with
  | nil => rfl
  | cons s l ih =>
    have e : weights (s :: l) = weight s + weights l := by simp [weights]
    have := h s (List.mem_cons_self ..)
    rw [e, ih fun x hx => h x (List.mem_cons_of_mem _ hx), List.length_cons]
    simp only [weight, this]
    omega

theorem weight_output {job : Job} {l : List Shard} {n : Int} (h : JobOk job l) : weight (output job l n) + 1 ≤ weights l := by
  cases job with
  | convert =>
    obtain ⟨x, rfl, hx⟩ := h
    simp [weights, weight, output, hx]
  | fiverMerge =>
    have := weights_fivers h.2
    have h1 := h.1
    have e : weight (output .fiverMerge l n) = 2 := rfl
    omega
  | hazelMerge =>
    have := (weights_le l).1
    have h1 := h.1
    have e : weight (output .hazelMerge l n) = 1 := rfl
    omega

theorem step_worth {s t : Sys} {a : Label} (h : Step s a t) (ha : a.inner = true) (hv : Valid s.blocks) : t.worth < s.worth := by
  unfold Sys.worth
  cases h with
  | ready => cases ha
  | commit => cases ha
  | abort => cases ha
  | fail => cases ha
  | start h => dsimp only; split <;> omega
  | pick h hc =>
    obtain ⟨pre, ss, post, e1, e2, e3, e4, _⟩ := pick_blocks (hv.filter _) hc
    have hf := worths_filter s.blocks keepBlock
    rw [e1, worths_append, worths_append, worths_free] at hf
    dsimp only
    rw [e2, worths_append, worths_cons]
    have hl := (weights_le ss).1
    have hp := List.length_pos_iff.2 e4.ne_nil
    simp only [Block.worth]
    split <;> omega
  | retire h hc =>
    have hf := worths_filter s.blocks keepBlock
    dsimp only
    omega
  | finish hn e =>
    rw [e, valid_append, valid_cons] at hv
    have hj := hv.2.1 _ _ rfl
    have := weight_output (n := ‹Int›) hj
    dsimp only
    rw [e, worths_append, worths_cons, worths_append, worths_cons]
    simp only [Block.worth]
    omega

theorem run_worth {s t : Sys} {as : List Label} (h : Run s as t) (ha : ∀ a ∈ as, a.inner = true) (hv : Valid s.blocks) :
    as.length + t.worth ≤ s.worth := by
  induction h with
  | nil => simp
  | cons h _ ih =>
    have := step_worth h (ha _ (List.mem_cons_self ..)) hv
    have := ih (fun a hm => ha a (List.mem_cons_of_mem _ hm)) (step_valid h hv)
    rw [List.length_cons]; omega

theorem worths_le {bs : List Block} : worths bs ≤ 8 * (view bs).length := by
  induction bs with
  | nil => exact Nat.zero_le _
  | cons b bs ih =>
    rw [worths_cons, view_cons, List.length_append]
    have : b.worth ≤ 8 * b.items.length := by
      cases b with
      | free s => have := weight_bounds s; simp [Block.worth, Block.items]; omega
      | busy j l => have := weights_le l; simp [Block.worth, Block.items]; omega
    omega

/-- nobody runs and nobody is about to start a worker -/
def Quiet (s : Sys) : Prop := s.idle = 0 ∧ s.owed = 0 ∧ ∀ j l, .busy j l ∉ s.blocks

theorem progress {s : Sys} (h : ¬ Quiet s) : ∃ a t, a.inner = true ∧ Step s a t := by
  by_cases hi : 0 < s.idle
  · cases hc : choose s.disk s.max s.recs (view (s.blocks.filter keepBlock)) with
    | none => exact ⟨.retire, _, rfl, .retire hi hc⟩
    | some c => exact ⟨.pick, _, rfl, .pick hi hc⟩
  · by_cases ho : 0 < s.owed
    · exact ⟨.start, _, rfl, .start ho⟩
    · have : ∃ j l, .busy j l ∈ s.blocks := by
        apply Classical.byContradiction; intro hn
        exact h ⟨by omega, by omega, fun j l hm => hn ⟨j, l, hm⟩⟩
      obtain ⟨j, l, hm⟩ := this
      obtain ⟨pre, post, e⟩ := List.append_of_mem hm
      exact ⟨.finish, _, rfl, .finish (n := 0) (Int.le_refl _) e⟩

theorem settles (n : Nat) : ∀ (s : Sys), s.worth ≤ n → Valid s.blocks → ∃ as t, Run s as t ∧ (∀ a ∈ as, a.inner = true) ∧ Quiet t := by
  induction n with
  | zero =>
    intro s h hv
    refine ⟨[], s, .nil, fun a ha => (by cases ha), ?_⟩
    apply Classical.byContradiction; intro hq
    obtain ⟨a, t, ha, hs⟩ := progress hq
    have := step_worth hs ha hv
    omega
  | succ n ih =>
    intro s h hv
    by_cases hq : Quiet s
    · exact ⟨[], s, .nil, fun a ha => (by cases ha), hq⟩
    · obtain ⟨a, t, ha, hs⟩ := progress hq
      have := step_worth hs ha hv
      obtain ⟨as, u, hr, hi, hqu⟩ := ih t (by omega) (step_valid hs hv)
      refine ⟨a :: as, u, .cons hs hr, ?_, hqu⟩
      intro b hb
      rcases List.mem_cons.1 hb with rfl | hb
      · exact ha
      · exact hi b hb

/-! ### No work is missed -/

/-- no transaction is between `ready` and `commit` or `abort` -/
def NoneOpen (s : Sys) : Prop := ∀ x, .free x ∈ s.blocks → x.kind ≠ .kitten

/-- there is nothing to do -/
def Done (s : Sys) : Prop :=
  s.blocks.filter keepBlock = s.blocks ∧ choose s.disk s.max s.recs (view s.blocks) = none

/-- somebody will see to the work there is -/
def Live (s : Sys) : Prop := NoneOpen s → Quiet s → Done s

theorem workings_none {bs : List Block} (h : ∀ j l, .busy j l ∉ bs) : workings bs = 0 := by
  induction bs with
  | nil => rfl
  | cons b bs ih =>
    rw [workings_cons, ih fun j l hm => h j l (List.mem_cons_of_mem _ hm)]
    cases b with
    | free x => rfl
    | busy j l => exact absurd (List.mem_cons_self ..) (h j l)

theorem step_live {s t : Sys} {a : Label} (h : Step s a t) (hv : Valid s.blocks) (hm : 0 < s.max) (ha : a ≠ .fail) (hl : Live s) : Live t := by
  cases h with
  | ready =>
    intro ho
    exact absurd rfl (ho _ (List.mem_append.2 (.inr (List.mem_singleton.2 rfl))))
  | commit hx hn e => intro _ hq; have := hq.2.1; simp at this
  | abort hx e => intro _ hq; have := hq.2.1; simp at this
  | start h =>
    intro ho hq
    have h1 := hq.1
    dsimp only at h1
    split at h1
    · omega
    · rename_i hlt
      exfalso
      have hw : 0 < workings s.blocks := by
        have : s.workers = s.idle + workings s.blocks := rfl
        omega
      have hb : ∀ j l, .busy j l ∉ s.blocks := hq.2.2
      rw [workings_none hb] at hw
      omega
  | @pick c h hc =>
    obtain ⟨pre, ss, post, e1, e2, e3, e4, _⟩ := pick_blocks (hv.filter _) hc
    intro _ hq
    refine absurd ?_ (hq.2.2 c.job ss)
    dsimp only
    rw [e2]
    exact List.mem_append.2 (.inr (List.mem_cons_self ..))
  | retire h hc =>
    intro _ _
    refine ⟨?_, hc⟩
    show (s.blocks.filter _).filter _ = _
    rw [List.filter_filter]
    simp
  | finish hn e => intro _ hq; have := hq.1; simp at this
  | fail e => exact absurd rfl ha

theorem run_const {s t : Sys} {as : List Label} (h : Run s as t) : t.max = s.max ∧ t.disk = s.disk := by
  induction h with
  | nil => exact ⟨rfl, rfl⟩
  | cons h _ ih =>
    have : ∀ {s t : Sys} {a : Label}, Step s a t → t.max = s.max ∧ t.disk = s.disk := by
      intro s t a h; cases h <;> exact ⟨rfl, rfl⟩
    have := this h
    exact ⟨ih.1.trans this.1, ih.2.trans this.2⟩

theorem step_max {s t : Sys} {a : Label} (h : Step s a t) : t.max = s.max := by cases h <;> rfl

theorem run_live {s t : Sys} {as : List Label} (h : Run s as t) (hv : Valid s.blocks) (hm : 0 < s.max) (ha : .fail ∉ as) (hl : Live s) : Live t := by
  induction h with
  | nil => exact hl
  | cons h _ ih =>
    refine ih (step_valid h hv) (by rw [step_max h]; exact hm) (fun hm => ha (List.mem_cons_of_mem _ hm)) (step_live h hv hm ?_ hl)
    rintro rfl
    exact ha (List.mem_cons_self ..)

/-! ### The shape of the list -/

/-- the shards follow each other without a gap, and every one that is not open has a size -/
structure Solid (s : Sys) : Prop where
  valid : Valid s.blocks
  tiles : ∃ a, Tiles a (s.blocks.flatMap Block.shards) s.next
  kept : ∀ x, x ∈ s.blocks.flatMap Block.shards → x.kind ≠ .remove
  sized : ∀ x, x ∈ s.blocks.flatMap Block.shards → x.kind ≠ .kitten → 0 ≤ x.size

theorem flat_free (ss : List Shard) : (ss.map Block.free).flatMap Block.shards = ss := by
  induction ss with
  | nil => rfl
  | cons s ss ih => rw [List.map_cons, List.flatMap_cons, ih]; rfl

theorem filter_kept {bs : List Block} (h : ∀ x, x ∈ bs.flatMap Block.shards → x.kind ≠ .remove) : bs.filter keepBlock = bs := by
  apply List.filter_eq_self.2
  intro b hb
  cases b with
  | busy j l => rfl
  | free s =>
    have := h s (List.mem_flatMap.2 ⟨_, hb, List.mem_singleton.2 rfl⟩)
    simp [keepBlock, this]

theorem output_kind (job : Job) (l : List Shard) (n : Int) : (output job l n).kind ≠ .remove := by
  cases job <;> simp [output]

theorem step_solid {s t : Sys} {a : Label} (h : Step s a t) (ha : a ≠ .abort) (hs : Solid s) : Solid t := by
  have hv := step_valid h hs.valid
  obtain ⟨hv0, ⟨lo, ht⟩, hk, hz⟩ := hs
  cases h with
  | ready =>
    refine ⟨hv, ⟨lo, ?_⟩, ?_, ?_⟩
    · dsimp only
      rw [List.flatMap_append]
      exact (tiles_append _ _ _ _).2 ⟨_, ht, rfl, Nat.le_refl _, rfl⟩
    · intro x hx
      dsimp only at hx
      rw [List.flatMap_append] at hx
      rcases List.mem_append.1 hx with hx | hx
      · exact hk x hx
      · rw [List.mem_singleton.1 hx]; simp
    · intro x hx hx'
      dsimp only at hx
      rw [List.flatMap_append] at hx
      rcases List.mem_append.1 hx with hx | hx
      · exact hz x hx hx'
      · rw [List.mem_singleton.1 hx] at hx'; simp at hx'
  | @commit pre post y n hx hn e =>
    rw [e, List.flatMap_append, List.flatMap_cons] at ht hk hz
    refine ⟨hv, ⟨lo, ?_⟩, ?_, ?_⟩
    · dsimp only
      rw [List.flatMap_append, List.flatMap_cons]
      obtain ⟨m, h1, h2⟩ := (tiles_append _ _ _ _).1 ht
      exact (tiles_append _ _ _ _).2 ⟨m, h1, h2⟩
    · intro x hm
      dsimp only at hm
      rw [List.flatMap_append, List.flatMap_cons] at hm
      rcases List.mem_append.1 hm with hm | hm
      · exact hk x (List.mem_append.2 (.inl hm))
      · rcases List.mem_append.1 hm with hm | hm
        · rw [List.mem_singleton.1 hm]; simp
        · exact hk x (List.mem_append.2 (.inr (List.mem_append.2 (.inr hm))))
    · intro x hm
      dsimp only at hm
      rw [List.flatMap_append, List.flatMap_cons] at hm
      rcases List.mem_append.1 hm with hm | hm
      · exact hz x (List.mem_append.2 (.inl hm))
      · rcases List.mem_append.1 hm with hm | hm
        · rw [List.mem_singleton.1 hm]; exact fun _ => hn
        · exact hz x (List.mem_append.2 (.inr (List.mem_append.2 (.inr hm))))
  | abort => exact absurd rfl ha
  | start => exact ⟨hv, ⟨lo, ht⟩, hk, hz⟩
  | @pick c h hc =>
    obtain ⟨pre, ss, post, e1, e2, e3, e4, _⟩ := pick_blocks (hv0.filter _) hc
    have hsame : (mark c.job c.sel.length c.start (s.blocks.filter keepBlock)).flatMap Block.shards = s.blocks.flatMap Block.shards := by
      rw [e2]
      rw [filter_kept hk] at e1
      rw [e1]
      simp only [List.flatMap_append, List.flatMap_cons, flat_free, Block.shards, List.append_assoc]
    refine ⟨hv, ⟨lo, ?_⟩, ?_, ?_⟩ <;> dsimp only <;> rw [hsame] <;> assumption
  | retire h hc =>
    refine ⟨hv, ⟨lo, ?_⟩, ?_, ?_⟩ <;> dsimp only <;> rw [filter_kept hk] <;> assumption
  | @finish pre post job l n hn e =>
    have hj : JobOk job l := hv0 job l (by rw [e]; exact List.mem_append.2 (.inr (List.mem_cons_self ..)))
    rw [e, List.flatMap_append, List.flatMap_cons] at ht hk hz
    refine ⟨hv, ⟨lo, ?_⟩, ?_, ?_⟩
    · dsimp only
      rw [List.flatMap_append, List.flatMap_cons]
      obtain ⟨m, h1, h2⟩ := (tiles_append _ _ _ _).1 ht
      obtain ⟨m', h3, h4⟩ := (tiles_append _ _ _ _).1 h2
      exact (tiles_append _ _ _ _).2 ⟨m, h1, (tiles_append _ _ _ _).2 ⟨m', tiles_output job h3 hj.ne_nil, h4⟩⟩
    · intro x hm
      dsimp only at hm
      rw [List.flatMap_append, List.flatMap_cons] at hm
      rcases List.mem_append.1 hm with hm | hm
      · exact hk x (List.mem_append.2 (.inl hm))
      · rcases List.mem_append.1 hm with hm | hm
        · rw [List.mem_singleton.1 hm]; exact output_kind _ _ _
        · exact hk x (List.mem_append.2 (.inr (List.mem_append.2 (.inr hm))))
    · intro x hm
      dsimp only at hm
      rw [List.flatMap_append, List.flatMap_cons] at hm
      rcases List.mem_append.1 hm with hm | hm
      · exact hz x (List.mem_append.2 (.inl hm))
      · rcases List.mem_append.1 hm with hm | hm
        · rw [List.mem_singleton.1 hm]; exact fun _ => hn
        · exact hz x (List.mem_append.2 (.inr (List.mem_append.2 (.inr hm))))
  | @fail pre post job l e =>
    have hsame : (pre ++ l.map Block.free ++ post).flatMap Block.shards = s.blocks.flatMap Block.shards := by
      rw [e]
      simp only [List.flatMap_append, List.flatMap_cons, flat_free, Block.shards, List.append_assoc]
    refine ⟨hv, ⟨lo, ?_⟩, ?_, ?_⟩ <;> dsimp only <;> rw [hsame] <;> assumption

theorem run_solid {s t : Sys} {as : List Label} (h : Run s as t) (ha : .abort ∉ as) (hs : Solid s) : Solid t := by
  induction h with
  | nil => exact hs
  | cons h _ ih =>
    refine ih (fun hm => ha (List.mem_cons_of_mem _ hm)) (step_solid h ?_ hs)
    rintro rfl
    exact ha (List.mem_cons_self ..)

theorem quiet_free {s : Sys} (h : Quiet s) : s.blocks = (s.blocks.flatMap Block.shards).map Block.free := by
  have := h.2.2
  generalize s.blocks = bs at this
  induction bs with
  | nil => rfl
  | cons b bs ih =>
    cases b with
    | busy j l => exact absurd (List.mem_cons_self ..) (this j l)
    | free x =>
      have := ih fun j l hm => this j l (List.mem_cons_of_mem _ hm)
      rw [List.flatMap_cons]
      show _ = Block.free x :: List.map Block.free (bs.flatMap Block.shards)
      rw [← this]

theorem view_of_free (ss : List Shard) : view (ss.map Block.free) = ss.map (⟨·, false⟩) := by
  induction ss with
  | nil => rfl
  | cons s ss ih => rw [List.map_cons, view_cons, ih]; rfl

end Verif.Sched
