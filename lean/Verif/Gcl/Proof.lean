import Verif.Gcl.Model
import Verif.Hopper.Vector
import Verif.Hopper.Contain
/-
  Query evaluation implements the denotation.
-/
namespace Verif.Gcl
open Verif.Hopper

theorem minimal_congr {X Y : Int → Int → Prop}
    (h1 : ∀ p q, X p q → ∃ p' q', Y p' q' ∧ p ≤ p' ∧ q' ≤ q)
    (h2 : ∀ p q, Y p q → ∃ p' q', X p' q' ∧ p ≤ p' ∧ q' ≤ q) : minimal X = minimal Y := by
  have key : ∀ {X Y : Int → Int → Prop},
      (∀ p q, X p q → ∃ p' q', Y p' q' ∧ p ≤ p' ∧ q' ≤ q) →
      (∀ p q, Y p q → ∃ p' q', X p' q' ∧ p ≤ p' ∧ q' ≤ q) → ∀ r, minimal X r → minimal Y r := by
    rintro X Y h1 h2 r ⟨hv, hX, hm⟩
    have main : ∀ p q, Y p q → r.p ≤ p → q ≤ r.q → p = r.p ∧ q = r.q := by
      intro p q hY hp hq
      obtain ⟨p', q', hX', a, b⟩ := h2 _ _ hY
      have := hm _ _ hX' (by omega) (by omega)
      omega
    obtain ⟨p, q, hY, a, b⟩ := h1 _ _ hX
    obtain ⟨e1, e2⟩ := main p q hY a b
    subst e1; subst e2
    exact ⟨hv, hY, main⟩
  funext r
  exact propext ⟨key h1 h2 r, key h2 h1 r⟩

section
variable {A B : GC}

theorem coversAll_wf (Ss : List GC) : XWf (coversAll Ss) := fun _ _ h => ⟨h.2.1, h.1, h.2.2.1⟩

theorem solvesOne_wf {Ss : List GC} (h : ∀ S ∈ Ss, Wf S) : XWf (solvesOne Ss) := by
  rintro p q ⟨S, hS, a, ha, rfl, rfl⟩
  exact ⟨(h S hS).lo ha, (h S hS).le ha, (h S hS).hi ha⟩

theorem inOrder_wf : ∀ {Ss : List GC}, (∀ S ∈ Ss, Wf S) → XWf (inOrder Ss)
  | [], _ => fun _ _ h => h.elim
  | [S], h => by
    rintro p q ⟨a, ha, rfl, rfl⟩
    have w := h S (by simp)
    exact ⟨w.lo ha, w.le ha, w.hi ha⟩
  | S :: S' :: Ss, h => by
    rintro p q ⟨a, p', ha, rfl, hlt, hr⟩
    have w := h S (by simp)
    obtain ⟨_, h2, h3⟩ := inOrder_wf (fun x hx => h x (List.mem_cons_of_mem _ hx)) p' q hr
    exact ⟨w.lo ha, by have := w.le ha; omega, h3⟩

theorem two_allOf (wA : Wf A) (wB : Wf B) : minimal (coversAll [A, B]) = allOf A B := by
  apply minimal_congr
  · rintro p q ⟨_, _, _, h⟩
    obtain ⟨a, ha, h1, h2⟩ := h A (by simp)
    obtain ⟨b, hb, h3, h4⟩ := h B (by simp)
    exact ⟨_, _, ⟨a, b, ha, hb, rfl, rfl⟩, by omega, by omega⟩
  · rintro p q ⟨a, b, ha, hb, rfl, rfl⟩
    have := wA.lo ha; have := wA.le ha; have := wA.hi ha
    have := wB.lo hb; have := wB.le hb; have := wB.hi hb
    refine ⟨_, _, ⟨?_, ?_, ?_, ?_⟩, Int.le_refl _, Int.le_refl _⟩
    · omega
    · omega
    · omega
    · intro S hS
      simp at hS
      rcases hS with rfl | rfl
      · exact ⟨a, ha, by omega, by omega⟩
      · exact ⟨b, hb, by omega, by omega⟩

theorem two_oneOf : minimal (solvesOne [A, B]) = oneOf A B := by
  apply minimal_congr
  · rintro p q ⟨S, hS, a, ha, rfl, rfl⟩
    simp at hS
    refine ⟨_, _, ⟨a, ?_, rfl, rfl⟩, Int.le_refl _, Int.le_refl _⟩
    rcases hS with rfl | rfl
    · exact Or.inl ha
    · exact Or.inr ha
  · rintro p q ⟨a, ha, rfl, rfl⟩
    rcases ha with ha | ha
    · exact ⟨_, _, ⟨A, by simp, a, ha, rfl, rfl⟩, Int.le_refl _, Int.le_refl _⟩
    · exact ⟨_, _, ⟨B, by simp, a, ha, rfl, rfl⟩, Int.le_refl _, Int.le_refl _⟩

theorem two_followedBy : minimal (inOrder [A, B]) = followedBy A B := by
  apply minimal_congr
  · rintro p q ⟨a, p', ha, rfl, hlt, b, hb, rfl, rfl⟩
    exact ⟨_, _, ⟨a, b, ha, hb, hlt, rfl, rfl⟩, Int.le_refl _, Int.le_refl _⟩
  · rintro p q ⟨a, b, ha, hb, hlt, rfl, rfl⟩
    exact ⟨_, _, ⟨a, b.p, ha, rfl, hlt, b, hb, rfl, rfl⟩, Int.le_refl _, Int.le_refl _⟩

end

theorem empty_gc_wf : Wf (fun _ => False) :=
  ⟨fun h => h.elim, fun h => h.elim, fun h => h.elim, fun h => h.elim, fun h => h.elim⟩

theorem opMeaning_wf {k : Op} {w : Int} {T : GC} {Ss : List GC} (hT : Wf T)
    (hw : k = .fixed → 1 ≤ w) (h : ∀ S ∈ Ss, Wf S) : Wf (opMeaning k w T Ss) := by
  match Ss, h with
  | [], _ =>
    cases k <;> simp only [opMeaning] <;> first | exact empty_gc_wf | exact hT | exact fixed_wf (hw rfl)
  | [A], h =>
    have wA := h A (by simp)
    cases k <;> simp only [opMeaning] <;> first | exact empty_gc_wf | exact wA | exact linkOf_wf A
  | A :: B :: Ss, h =>
    have wA := h A (by simp)
    cases k <;> simp only [opMeaning]
    case oneOf => exact minimal_wf (solvesOne_wf h)
    case allOf => exact minimal_wf (coversAll_wf _)
    case followedBy => exact minimal_wf (inOrder_wf h)
    all_goals first | exact empty_gc_wf | exact wA.sub fun _ h => h.1

theorem denL_eq (T : List Char → GC) (l : List SExpr) : denL T l = l.map (den T) := by
  induction l with
  | nil => rfl
  | cons e es ih => simp [denL, ih]

theorem legalL_iff (l : List SExpr) : LegalL l ↔ ∀ e ∈ l, Legal e := by
  induction l with
  | nil => simp [LegalL]
  | cons e es ih => simp [LegalL, ih]

theorem den_wf {T : List Char → GC} (hT : ∀ t, Wf (T t)) : ∀ e, Legal e → Wf (den T e) := by
  intro e
  induction e using SExpr.ind with
  | h k t w sub ih =>
    intro hl
    rw [Legal, legalL_iff] at hl
    rw [den, denL_eq]
    refine opMeaning_wf (hT t) ?_ ?_
    · rintro rfl; exact hl.1.2.1
    · intro S hS
      obtain ⟨x, hx, rfl⟩ := List.mem_map.1 hS
      exact ih x hx (hl.2 x hx)

/-! ### n-ary operators are left-nested binary ones -/

/-- the operators that take two or more operands -/
def isBin : Op → Bool
  | .oneOf | .allOf | .followedBy | .containedIn | .containing | .notContainedIn
  | .notContaining => true
  | _ => false

theorem opMeaning_fold {k : Op} {w : Int} {T A B C : GC} {Ss : List GC} (hk : isBin k = true)
    (h : ∀ S ∈ A :: B :: C :: Ss, Wf S) :
    opMeaning k w T (opMeaning k w T [A, B] :: C :: Ss) = opMeaning k w T (A :: B :: C :: Ss) := by
  have wA := h A (by simp)
  have wB := h B (by simp)
  cases k <;> simp only [isBin, Bool.false_eq_true] at hk <;> simp only [opMeaning]
  case allOf =>
    apply minimal_congr
    · rintro p q ⟨h1, h2, h3, h4⟩
      refine ⟨p, q, ⟨h1, h2, h3, ?_⟩, Int.le_refl _, Int.le_refl _⟩
      obtain ⟨r, ⟨_, ⟨_, _, _, hr⟩, _⟩, hp, hq⟩ := h4 _ List.mem_cons_self
      intro S hS
      rcases List.mem_cons.1 hS with rfl | hS
      · obtain ⟨a, ha, _, _⟩ := hr S (by simp); exact ⟨a, ha, by omega, by omega⟩
      rcases List.mem_cons.1 hS with rfl | hS
      · obtain ⟨a, ha, _, _⟩ := hr S (by simp); exact ⟨a, ha, by omega, by omega⟩
      exact h4 S (List.mem_cons_of_mem _ hS)
    · rintro p q ⟨h1, h2, h3, h4⟩
      refine ⟨p, q, ⟨h1, h2, h3, ?_⟩, Int.le_refl _, Int.le_refl _⟩
      intro S hS
      rcases List.mem_cons.1 hS with rfl | hS
      · have hX : coversAll [A, B] p q := ⟨h1, h2, h3, fun S hS => by
          simp at hS; exact h4 S (by rcases hS with rfl | rfl <;> simp)⟩
        obtain ⟨r, hr, a, b⟩ := exists_minimal (coversAll_wf _) hX
        exact ⟨r, hr, a, b⟩
      · exact h4 S (List.mem_cons_of_mem _ (List.mem_cons_of_mem _ hS))
  case oneOf =>
    apply minimal_congr
    · rintro p q ⟨S, hS, a, ha, rfl, rfl⟩
      rcases List.mem_cons.1 hS with rfl | hS
      · obtain ⟨S', hS', b, hb, e1, e2⟩ := ha.2.1
        refine ⟨_, _, ⟨S', ?_, b, hb, e1, e2⟩, Int.le_refl _, Int.le_refl _⟩
        simp at hS'; rcases hS' with rfl | rfl <;> simp
      · exact ⟨_, _, ⟨S, List.mem_cons_of_mem _ (List.mem_cons_of_mem _ hS), a, ha, rfl, rfl⟩, Int.le_refl _, Int.le_refl _⟩
    · rintro p q ⟨S, hS, a, ha, rfl, rfl⟩
      have : S ∈ [A, B] ∨ S ∈ C :: Ss := by simpa [or_assoc] using hS
      rcases this with h' | h'
      · have hX : solvesOne [A, B] a.p a.q := ⟨S, h', a, ha, rfl, rfl⟩
        obtain ⟨r, hr, h1, h2⟩ := exists_minimal (solvesOne_wf fun S hS => by
          simp at hS; rcases hS with rfl | rfl <;> assumption) hX
        exact ⟨r.p, r.q, ⟨_, List.mem_cons_self, r, hr, rfl, rfl⟩, h1, h2⟩
      · exact ⟨_, _, ⟨S, List.mem_cons_of_mem _ h', a, ha, rfl, rfl⟩, Int.le_refl _, Int.le_refl _⟩
  case followedBy =>
    apply minimal_congr
    · rintro p q ⟨r, p', hr, rfl, hlt, hrest⟩
      obtain ⟨a, p'', ha, e1, hlt2, b, hb, e2, e3⟩ := hr.2.1
      exact ⟨_, q, ⟨a, p'', ha, e1, hlt2, b, p', hb, e2, by omega, hrest⟩, Int.le_refl _, Int.le_refl _⟩
    · rintro p q ⟨a, p', ha, rfl, hlt, b, p'', hb, rfl, hlt2, hrest⟩
      have hX : inOrder [A, B] a.p b.q := ⟨a, b.p, ha, rfl, hlt, b, hb, rfl, rfl⟩
      obtain ⟨r, hr, h1, h2⟩ := exists_minimal (inOrder_wf fun S hS => by
          simp at hS; rcases hS with rfl | rfl <;> assumption) hX
      exact ⟨r.p, q, ⟨r, p'', hr, rfl, by omega, hrest⟩, h1, Int.le_refl _⟩
  all_goals
    funext a
    simp only [List.mem_cons, forall_eq_or_imp, List.not_mem_nil,
      false_imp_iff, implies_true, and_true, and_assoc]

theorem den_binFold {T : List Char → GC} {k : Op} {t : List Char} {w : Int} (hT : Wf (T t))
    {l : List SExpr} (hk : 2 < l.length → isBin k = true) (h : ∀ e ∈ l, Wf (den T e)) :
    den T (binFold k t w l) = den T (.node k t w l) := by
  match l, h, hk with
  | [], _, _ => rfl
  | [a], _, _ => rfl
  | a :: b :: rest, h, hk =>
    unfold binFold
    have key : ∀ (rest : List SExpr) (x : SExpr) (pre : List SExpr),
        (rest ≠ [] → isBin k = true) → (∀ e ∈ pre ++ rest, Wf (den T e)) → Wf (den T x) →
        2 ≤ pre.length →
        den T x = opMeaning k w (T t) (pre.map (den T)) →
        (∀ y ys, isBin k = true → (∀ e ∈ y :: ys, Wf e) →
          opMeaning k w (T t) (den T x :: y :: ys) = opMeaning k w (T t) (pre.map (den T) ++ y :: ys)) →
        den T (rest.foldl (fun e x => .node k t w [e, x]) x) =
          opMeaning k w (T t) ((pre ++ rest).map (den T)) := by
      intro rest
      induction rest with
      | nil => intro x pre _ _ _ _ hx _; simpa using hx
      | cons y ys ih =>
        intro x pre hk hall hwx hlen hx hnext
        have hkb := hk (by simp)
        have hy : Wf (den T y) := hall y (by simp)
        rw [List.foldl_cons, show pre ++ y :: ys = (pre ++ [y]) ++ ys by simp]
        have hd : den T (.node k t w [x, y]) = opMeaning k w (T t) [den T x, den T y] := by
          simp [den, denL]
        apply ih
        · intro _; exact hkb
        · simpa using hall
        · rw [hd]
          refine opMeaning_wf hT ?_ ?_
          · rintro rfl; simp [isBin] at hkb
          · simp; exact ⟨hwx, hy⟩
        · simp; omega
        · rw [hd, hnext (den T y) [] hkb (by simpa using hy)]; simp
        · intro z zs hb hz
          rw [hd, opMeaning_fold hb]
          · rw [hnext (den T y) (z :: zs) hb]
            · simp
            · intro e he
              rcases List.mem_cons.1 he with rfl | he
              · exact hy
              · exact hz e he
          · intro e he
            rcases List.mem_cons.1 he with rfl | he
            · exact hwx
            rcases List.mem_cons.1 he with rfl | he
            · exact hy
            · exact hz e he
    have hd : den T (.node k t w [a, b]) = opMeaning k w (T t) [den T a, den T b] := by
      simp [den, denL]
    by_cases hr : rest = []
    · subst hr; rfl
    · have hkb : isBin k = true := hk (by
        have : 0 < rest.length := List.length_pos_iff.2 hr
        simp; omega)
      rw [key rest (.node k t w [a, b]) [a, b] (fun _ => hkb) (by simpa using h) _ (by simp) hd]
      · simp [den, denL, denL_eq]
      · intro y ys hb hy
        rw [hd, opMeaning_fold hb]
        · rfl
        · intro e he
          rcases List.mem_cons.1 he with rfl | he
          · exact h a (by simp)
          rcases List.mem_cons.1 he with rfl | he
          · exact h b (by simp)
          · exact hy e he
      · rw [hd]
        refine opMeaning_wf hT ?_ ?_
        · rintro rfl; simp [isBin] at hkb
        · simp; exact ⟨h a (by simp), h b (by simp)⟩

theorem legal_isBin {k t w sub} (h : Legal (.node k t w sub)) (hl : 2 < sub.length) :
    isBin k = true := by
  rw [Legal] at h
  cases k <;> simp only [isBin, arityOk] at h ⊢ <;> omega

theorem legal_binFold {k t w} {l : List SExpr} (h : Legal (.node k t w l)) :
    Legal (binFold k t w l) := by
  match l, h with
  | [], h => exact h
  | [a], h => exact h
  | [a, b], h => exact h
  | a :: b :: c :: rest, h =>
    have hb := legal_isBin h (by simp)
    rw [Legal, legalL_iff] at h
    have two : ∀ x y, Legal x → Legal y → Legal (.node k t w [x, y]) := by
      intro x y hx hy
      rw [Legal, legalL_iff]
      refine ⟨?_, by simp; exact ⟨hx, hy⟩⟩
      cases k <;> simp [isBin] at hb <;> simp [arityOk]
    have key : ∀ (rest : List SExpr) x, Legal x → (∀ e ∈ rest, Legal e) →
        Legal (rest.foldl (fun e x => .node k t w [e, x]) x) := by
      intro rest
      induction rest with
      | nil => intro x hx _; exact hx
      | cons y ys ih =>
        intro x hx hr
        exact ih _ (two _ _ hx (hr y (by simp))) fun e he => hr e (List.mem_cons_of_mem _ he)
    exact key _ _ (two _ _ (h.2 a (by simp)) (h.2 b (by simp))) fun e he => h.2 e (by
      simp at he ⊢; rcases he with rfl | he
      · simp
      · simp [he])

theorem legal_toBinary : ∀ e, Legal e → Legal (toBinary e) := by
  intro e
  induction e using SExpr.ind with
  | h k t w sub ih =>
    intro hl
    rw [toBinary, toBinaryL_eq]
    apply legal_binFold
    rw [Legal, legalL_iff] at hl ⊢
    refine ⟨by simpa using hl.1, fun e he => ?_⟩
    obtain ⟨x, hx, rfl⟩ := List.mem_map.1 he
    exact ih x hx (hl.2 x hx)

theorem den_toBinary {T : List Char → GC} (hT : ∀ t, Wf (T t)) :
    ∀ e, Legal e → den T (toBinary e) = den T e := by
  intro e
  induction e using SExpr.ind with
  | h k t w sub ih =>
    intro hl
    have hl' := hl
    rw [Legal, legalL_iff] at hl
    rw [toBinary, toBinaryL_eq, den_binFold (hT t)]
    · rw [den, den, denL_eq, denL_eq, List.map_map]
      congr 1
      apply List.map_congr_left
      intro x hx
      exact ih x hx (hl.2 x hx)
    · intro h; exact legal_isBin hl' (by simpa using h)
    · intro e he
      obtain ⟨x, hx, rfl⟩ := List.mem_map.1 he
      exact den_wf hT _ (legal_toBinary x (hl.2 x hx))

/-! ### evaluation -/

/-- some invariant makes `H` implement `S` -/
def Implements (H : Obj) (S : GC) : Prop := ∃ I, Impl H I S

section
variable {leaf : List Char → Obj} {T : List Char → GC}

theorem toHopper_small (hT : ∀ t, Wf (T t)) (hleaf : ∀ t, Implements (leaf t) (T t))
    {k t w sub} (hl : Legal (.node k t w sub)) (hlen : sub.length ≤ 2)
    (ih : ∀ e ∈ sub, ∃ H, toHopper leaf e = some H ∧ Implements H (den T e)) :
    ∃ H, toHopper leaf (.node k t w sub) = some H ∧ Implements H (den T (.node k t w sub)) := by
  have hlc : ∀ e ∈ sub, Legal e := by rw [Legal, legalL_iff] at hl; exact hl.2
  rw [Legal] at hl
  replace hl := hl.1
  match sub, hlen, ih, hl, hlc with
  | [], _, _, hl, _ =>
    cases k <;> simp [arityOk] at hl
    case term => exact ⟨leaf t, by rw [toHopper], hleaf t⟩
    case fixed =>
      exact ⟨fixedObj w, by rw [toHopper], _, fixed_impl hl.1 hl.2 (fun _ => True) trivial⟩
  | [e], _, ih, hl, hlc =>
    obtain ⟨H, h1, I, h2⟩ := ih e (by simp)
    have we := den_wf hT e (hlc e (by simp))
    cases k <;> simp [arityOk] at hl
    case link => exact ⟨linkObj H, by rw [toHopper, h1]; rfl, _, link_impl we h2⟩
    case materialize => exact ⟨matObj H, by rw [toHopper, h1]; rfl, _, mat_impl we h2⟩
    all_goals exact ⟨H, by rw [toHopper]; exact h1, I, h2⟩
  | [a, b], _, ih, hl, hlc =>
    obtain ⟨H, h1, I, h2⟩ := ih a (by simp)
    obtain ⟨H', h1', I', h2'⟩ := ih b (by simp)
    have wa := den_wf hT a (hlc a (by simp))
    have wb := den_wf hT b (hlc b (by simp))
    cases k <;> simp [arityOk] at hl
    case oneOf =>
      refine ⟨orObj H H', by simp [toHopper, h1, h1'], ?_⟩
      rw [den, denL, denL, denL]; simp only [opMeaning]; rw [two_oneOf]
      exact ⟨_, or_impl wa wb h2 h2'⟩
    case allOf =>
      refine ⟨andObj H H', by simp [toHopper, h1, h1'], ?_⟩
      rw [den, denL, denL, denL]; simp only [opMeaning]; rw [two_allOf wa wb]
      exact ⟨_, and_impl wa wb h2 h2'⟩
    case followedBy =>
      refine ⟨followedByObj H H', by simp [toHopper, h1, h1'], ?_⟩
      rw [den, denL, denL, denL]; simp only [opMeaning]; rw [two_followedBy]
      exact ⟨_, followedBy_impl wa wb h2 h2'⟩
    case containedIn =>
      refine ⟨cinObj H H', by simp [toHopper, h1, h1'], ?_⟩
      rw [den, denL, denL, denL]; simp only [opMeaning, List.mem_singleton, forall_eq]
      exact ⟨_, cin_impl wa wb h2 h2'⟩
    case containing =>
      refine ⟨cgObj H H', by simp [toHopper, h1, h1'], ?_⟩
      rw [den, denL, denL, denL]; simp only [opMeaning, List.mem_singleton, forall_eq]
      exact ⟨_, cg_impl wa wb h2 h2'⟩
    case notContainedIn =>
      refine ⟨nciObj H H', by simp [toHopper, h1, h1'], ?_⟩
      rw [den, denL, denL, denL]; simp only [opMeaning, List.mem_singleton, forall_eq]
      exact ⟨_, nci_impl wa wb h2 h2'⟩
    case notContaining =>
      refine ⟨ncgObj H H', by simp [toHopper, h1, h1'], ?_⟩
      rw [den, denL, denL, denL]; simp only [opMeaning, List.mem_singleton, forall_eq]
      exact ⟨_, ncg_impl wa wb h2 h2'⟩

theorem wide_child {k t w sub} {e : SExpr} (he : e ∈ sub) : wide e ≤ wide (.node k t w sub) := by
  have := wide_le_wideL he
  simp only [wide]; omega

theorem toHopper_narrow (hT : ∀ t, Wf (T t)) (hleaf : ∀ t, Implements (leaf t) (T t)) :
    ∀ e, wide e = 0 → Legal e → ∃ H, toHopper leaf e = some H ∧ Implements H (den T e) := by
  intro e
  induction e using SExpr.ind with
  | h k t w sub ih =>
    intro hw hl
    refine toHopper_small hT hleaf hl ?_ fun e he => ih e he ?_ ?_
    · simp only [wide] at hw; split at hw <;> omega
    · have := wide_child (k := k) (t := t) (w := w) he; omega
    · rw [Legal, legalL_iff] at hl; exact hl.2 e he

theorem toHopper_ok (hT : ∀ t, Wf (T t)) (hleaf : ∀ t, Implements (leaf t) (T t)) :
    ∀ e, Legal e → ∃ H, toHopper leaf e = some H ∧ Implements H (den T e) := by
  intro e
  induction e using SExpr.ind with
  | h k t w sub ih =>
    intro hl
    by_cases hlen : sub.length ≤ 2
    · refine toHopper_small hT hleaf hl hlen fun e he => ih e he ?_
      rw [Legal, legalL_iff] at hl; exact hl.2 e he
    · have hb := legal_isBin hl (by omega)
      obtain ⟨H, h1, h2⟩ := toHopper_narrow hT hleaf (toBinary (.node k t w sub))
        (toBinary_wide _) (legal_toBinary _ hl)
      rw [den_toBinary hT _ hl] at h2
      refine ⟨H, ?_, h2⟩
      match sub, hlen, h1 with
      | [], h, _ => simp at h
      | [_], h, _ => simp at h
      | [_, _], h, _ => simp at h
      | a :: b :: c :: rest, _, h1 =>
        rw [toHopper]
        · exact h1
        all_goals (intro h; subst h; simp [isBin] at hb)
end

end Verif.Gcl
