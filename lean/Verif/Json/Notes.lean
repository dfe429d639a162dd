import Verif.Json.Proof
/-
  The annotations made for a document, and where its parts are in the stored text.
-/
namespace Verif.Json
open Verif.Text Verif.Hopper

variable {T : Tokenizer}

/-- number of addresses of texts -/
def cnt (T : Tokenizer) (l : List Text) : Nat := (l.map T.addresses).sum

theorem cnt_append (l r : List Text) : cnt T (l ++ r) = cnt T l + cnt T r := by simp [cnt]
theorem cnt_cons (s : Text) (r : List Text) : cnt T (s :: r) = T.addresses s + cnt T r := by simp [cnt]
theorem cnt_nil : cnt T [] = 0 := rfl

/-- the text has tokens and can be followed by any text -/
def Ok (T : Tokenizer) (s : Text) : Prop := Clean T s ∧ 0 < T.addresses s

theorem all_append (st : App) (l r : List Text) : App.all T st (l ++ r) = App.all T (App.all T st l) r := by
  induction l generalizing st with
  | nil => rfl
  | cons s l ih => exact ih _

/-- the annotation of a value by its path -/
def ownNote (T : Tokenizer) (v : Value) (path : Text) (n : Nat) : Note :=
  ⟨path, n, (n : Int) + cnt T (texts v) - 1, markOf v⟩

def comma (first : Bool) : List Text := if first then [] else [mark 0x97]
def keyText (k : Text) : Text := mark 0x94 ++ k ++ mark 0x95 ++ mark 0x96
def elemPath (path : Text) (i : Nat) : Text := path ++ 0x5B :: (decimal i ++ [0x5D, 0x3A])

mutual
/-- the annotations made for a value whose text starts at address `n` -/
def notesOf (T : Tokenizer) : Value → Text → Nat → List Note
  | .null, path, n => [ownNote T .null path n]
  | .bool b, path, n => [ownNote T (.bool b) path n]
  | .num v neg m, path, n => [ownNote T (.num v neg m) path n]
  | .str s, path, n => [ownNote T (.str s) path n]
  | .arr es, path, n => elemNotes T es 0 path (n + T.addresses (mark 0x92)) ++ [ownNote T (.arr es) path n]
  | .obj ms, path, n => memberNotes T ms true path (n + T.addresses (mark 0x90)) ++ [ownNote T (.obj ms) path n]
def elemNotes (T : Tokenizer) : Elems → Nat → Text → Nat → List Note
  | .nil, _, _, _ => []
  | .cons v es, i, path, n =>
    notesOf T v (elemPath path i) (n + cnt T (comma (i == 0))) ++
      elemNotes T es (i + 1) path (n + cnt T (comma (i == 0)) + cnt T (texts v))
def memberNotes (T : Tokenizer) : Members → Bool → Text → Nat → List Note
  | .nil, _, _, _ => []
  | .cons k v ms, first, path, n =>
    notesOf T v (path ++ k ++ [0x3A]) (n + cnt T (comma first) + T.addresses (keyText k)) ++
      ⟨k ++ [0x3A], (n + cnt T (comma first) + T.addresses (keyText k) : Nat),
        ((n + cnt T (comma first) + T.addresses (keyText k) : Nat) : Int) + cnt T (texts v) - 1, .zero⟩ ::
      memberNotes T ms false path (n + cnt T (comma first) + T.addresses (keyText k) + cnt T (texts v))
end

theorem elemTexts_cons (first : Bool) (v : Value) (es : Elems) :
    elemTexts first (.cons v es) = comma first ++ (texts v ++ elemTexts false es) := by
  simp [elemTexts, comma]

theorem memberTexts_cons (first : Bool) (k : Text) (v : Value) (ms : Members) :
    memberTexts first (.cons k v ms) = comma first ++ keyText k :: (texts v ++ memberTexts false ms) := by
  simp [memberTexts, comma, keyText]

/-- a scribe after texts were appended and annotations made -/
def after (T : Tokenizer) (st : Scribe) (l : List Text) (ns : List Note) : Scribe :=
  ⟨App.all T st.app l, st.notes ++ ns⟩

theorem after_after (st : Scribe) (l r : List Text) (ns ms : List Note) :
    after T (after T st l ns) r ms = after T st (l ++ r) (ns ++ ms) := by
  simp [after, all_append]

theorem after_annotate (st : Scribe) (l : List Text) (ns : List Note) (tag : Text) (p q : Int) (m : Mark) :
    (after T st l ns).annotate tag p q m = after T st l (ns ++ [⟨tag, p, q, m⟩]) := by
  simp [after, Scribe.annotate]

theorem after_nil (st : Scribe) : after T st [] [] = st := by
  simp [after, App.all]

section
variable (hT : Lawful T)
include hT

theorem append_eq {st : Scribe} (h : AppInv T st.app) {s : Text} (hs : Ok T s) :
    st.append T s = (after T st [s] [], (st.app.address : Int), (st.app.address : Int) + T.addresses s - 1) := by
  obtain ⟨-, -, -, -, h5⟩ := append_inv hT h hs.1
  unfold Scribe.append
  rw [h5 hs.2]
  simp [after, App.all]

theorem after_inv {st : Scribe} (h : AppInv T st.app) {l : List Text} (hl : ∀ s ∈ l, Ok T s) (ns : List Note) :
    AppInv T (after T st l ns).app ∧ (after T st l ns).app.address = st.app.address + cnt T l := by
  obtain ⟨h1, -, h3⟩ := all_inv hT h (fun s hs => (hl s hs).1)
  exact ⟨h1, h3⟩

theorem comma_eq {st : Scribe} (h : AppInv T st.app) {first : Bool} (hc : ∀ s ∈ comma first, Ok T s) :
    (if first then st else (st.append T (mark 0x97)).1) = after T st (comma first) [] := by
  cases first with
  | true => rw [if_pos rfl]; exact (after_nil st).symm
  | false =>
    rw [if_neg (by simp), append_eq hT h (hc _ (by simp [comma]))]
    rfl

theorem scalar_eq {st : Scribe} (h : AppInv T st.app) {v : Value} {s : Text} (hv : texts v = [s])
    (hs : Ok T s) (path : Text) (st' : Scribe × Int × Int)
    (e : st' = ((st.append T s).1.annotate path (st.append T s).2.1 (st.append T s).2.2 (markOf v), (st.append T s).2))
    (hn : notesOf T v path st.app.address = [ownNote T v path st.app.address]) :
    st' = (after T st (texts v) (notesOf T v path st.app.address), (st.app.address : Int),
      (st.app.address : Int) + cnt T (texts v) - 1) := by
  have hc : cnt T (texts v) = T.addresses s := by rw [hv]; simp [cnt]
  rw [e, append_eq hT h hs, after_annotate, hn, hc]
  simp only [ownNote, hv, List.nil_append]
  rw [← hv, hc]

mutual
theorem doJson_eq : (v : Value) → (∀ s ∈ texts v, Ok T s) → (path : Text) → (st : Scribe) → AppInv T st.app →
    doJson T v path st = (after T st (texts v) (notesOf T v path st.app.address), (st.app.address : Int),
      (st.app.address : Int) + cnt T (texts v) - 1)
  | .null, hs, path, st, h => by
      refine scalar_eq hT h (s := [0x6E, 0x75, 0x6C, 0x6C]) rfl (hs _ (by simp [texts])) path _ ?_ (by rw [notesOf])
      rw [doJson]; rfl
  | .bool true, hs, path, st, h => by
      refine scalar_eq hT h (s := [0x74, 0x72, 0x75, 0x65]) rfl (hs _ (by simp [texts])) path _ ?_ (by rw [notesOf])
      rw [doJson]; rfl
  | .bool false, hs, path, st, h => by
      refine scalar_eq hT h (s := [0x66, 0x61, 0x6C, 0x73, 0x65]) rfl (hs _ (by simp [texts])) path _ ?_ (by rw [notesOf])
      rw [doJson]; rfl
  | .num v neg m, hs, path, st, h => by
      refine scalar_eq hT h (s := mark 0x98 ++ printed neg m ++ mark 0x99) (by rw [texts]) (hs _ (by simp [texts])) path _ ?_
        (by rw [notesOf])
      rw [doJson]; rfl
  | .str s, hs, path, st, h => by
      refine scalar_eq hT h (s := mark 0x94 ++ s ++ mark 0x95) (by rw [texts]) (hs _ (by simp [texts])) path _ ?_
        (by rw [notesOf])
      rw [doJson]; rfl
  | .arr es, hs, path, st, h => by
      rw [texts] at hs
      have o1 : Ok T (mark 0x92) := hs _ (by simp)
      have o2 : Ok T (mark 0x93) := hs _ (by simp)
      have oe : ∀ s ∈ elemTexts true es, Ok T s := fun s h => hs s (by simp [h])
      obtain ⟨a1, a2⟩ := after_inv hT h (l := [mark 0x92]) (by simp [o1]) []
      have ih := doElems_eq es oe 0 path _ rfl a1
      rw [doJson]
      rw [append_eq hT h o1]
      simp only
      rw [ih, after_after]
      have ob : ∀ s ∈ [mark 0x92] ++ elemTexts true es, Ok T s := by
        intro s hs'; rw [List.mem_append] at hs'
        rcases hs' with hs' | hs'
        · rw [List.mem_singleton] at hs'; rw [hs']; exact o1
        · exact oe s hs'
      obtain ⟨b1, b2⟩ := after_inv hT h ob ([] ++ elemNotes T es 0 path (after T st [mark 0x92] []).app.address)
      rw [append_eq hT b1 o2, after_after, after_annotate, b2, a2]
      simp only
      have e1 : cnt T [mark 0x92] = T.addresses (mark 0x92) := by simp [cnt]
      have e2 : cnt T (texts (.arr es)) = cnt T ([mark 0x92] ++ elemTexts true es) + T.addresses (mark 0x93) := by
        rw [texts]; simp only [cnt_append, cnt_cons, cnt_nil]; omega
      rw [e1, notesOf]
      unfold ownNote markOf
      rw [e2, texts]
      simp only [List.nil_append, List.append_nil, List.cons_append]
      have e3 : ((st.app.address + cnt T (mark 0x92 :: elemTexts true es) : Nat) : Int) + T.addresses (mark 0x93) - 1 =
        st.app.address + ((cnt T (mark 0x92 :: elemTexts true es) + T.addresses (mark 0x93) : Nat) : Int) - 1 := by omega
      rw [e3]
  | .obj ms, hs, path, st, h => by
      rw [texts] at hs
      have o1 : Ok T (mark 0x90) := hs _ (by simp)
      have o2 : Ok T (mark 0x91) := hs _ (by simp)
      have oe : ∀ s ∈ memberTexts true ms, Ok T s := fun s h => hs s (by simp [h])
      obtain ⟨a1, a2⟩ := after_inv hT h (l := [mark 0x90]) (by simp [o1]) []
      have ih := doMembers_eq ms true oe path _ a1
      rw [doJson]
      rw [append_eq hT h o1]
      simp only
      rw [ih, after_after]
      have ob : ∀ s ∈ [mark 0x90] ++ memberTexts true ms, Ok T s := by
        intro s hs'; rw [List.mem_append] at hs'
        rcases hs' with hs' | hs'
        · rw [List.mem_singleton] at hs'; rw [hs']; exact o1
        · exact oe s hs'
      obtain ⟨b1, b2⟩ := after_inv hT h ob ([] ++ memberNotes T ms true path (after T st [mark 0x90] []).app.address)
      rw [append_eq hT b1 o2, after_after, after_annotate, b2, a2]
      simp only
      have e1 : cnt T [mark 0x90] = T.addresses (mark 0x90) := by simp [cnt]
      have e2 : cnt T (texts (.obj ms)) = cnt T ([mark 0x90] ++ memberTexts true ms) + T.addresses (mark 0x91) := by
        rw [texts]; simp only [cnt_append, cnt_cons, cnt_nil]; omega
      rw [e1, notesOf]
      unfold ownNote markOf
      rw [e2, texts]
      simp only [List.nil_append, List.append_nil, List.cons_append]
      have e3 : ((st.app.address + cnt T (mark 0x90 :: memberTexts true ms) : Nat) : Int) + T.addresses (mark 0x91) - 1 =
        st.app.address + ((cnt T (mark 0x90 :: memberTexts true ms) + T.addresses (mark 0x91) : Nat) : Int) - 1 := by omega
      rw [e3]
theorem doElems_eq : (es : Elems) → {first : Bool} → (∀ s ∈ elemTexts first es, Ok T s) → (i : Nat) → (path : Text) →
    (st : Scribe) → first = (i == 0) → AppInv T st.app →
    doElems T es i path st = after T st (elemTexts first es) (elemNotes T es i path st.app.address)
  | .nil, _, _, i, path, st, _, _ => by rw [doElems, elemTexts, elemNotes]; exact (after_nil st).symm
  | .cons v es, first, hs, i, path, st, hf, h => by
      rw [elemTexts_cons] at hs ⊢
      have oc : ∀ s ∈ comma first, Ok T s := fun s h => hs s (by simp [h])
      have ov : ∀ s ∈ texts v, Ok T s := fun s h => hs s (by simp [h])
      have oe : ∀ s ∈ elemTexts false es, Ok T s := fun s h => hs s (by simp [h])
      rw [doElems]
      have ec : (if i ≠ 0 then (st.append T (mark 0x97)).1 else st) = after T st (comma first) [] := by
        rw [← comma_eq hT h oc, hf]
        cases i <;> simp
      rw [ec]
      obtain ⟨a1, a2⟩ := after_inv hT h oc []
      have iv := doJson_eq v ov (elemPath path i) _ a1
      unfold elemPath at iv
      rw [iv]
      simp only
      rw [after_after]
      have ocv : ∀ s ∈ comma first ++ texts v, Ok T s := by
        intro s hs'; rw [List.mem_append] at hs'
        exact hs'.elim (oc s) (ov s)
      obtain ⟨b1, b2⟩ := after_inv hT h ocv ([] ++ notesOf T v (elemPath path i) (after T st (comma first) []).app.address)
      unfold elemPath at b1 b2
      rw [doElems_eq es oe (i + 1) path _ rfl b1, after_after, b2, a2, elemNotes, hf, cnt_append]
      simp only [List.nil_append, List.append_assoc, elemPath, Nat.add_assoc]
theorem doMembers_eq : (ms : Members) → (first : Bool) → (∀ s ∈ memberTexts first ms, Ok T s) → (path : Text) →
    (st : Scribe) → AppInv T st.app →
    doMembers T ms first path st = after T st (memberTexts first ms) (memberNotes T ms first path st.app.address)
  | .nil, _, _, path, st, _ => by rw [doMembers, memberTexts, memberNotes]; exact (after_nil st).symm
  | .cons k v ms, first, hs, path, st, h => by
      rw [memberTexts_cons] at hs ⊢
      have oc : ∀ s ∈ comma first, Ok T s := fun s h => hs s (by simp [h])
      have ok : Ok T (keyText k) := hs _ (by simp)
      have ov : ∀ s ∈ texts v, Ok T s := fun s h => hs s (by simp [h])
      have oe : ∀ s ∈ memberTexts false ms, Ok T s := fun s h => hs s (by simp [h])
      rw [doMembers]
      rw [comma_eq hT h oc]
      obtain ⟨a1, a2⟩ := after_inv hT h oc []
      have ek := append_eq hT a1 ok
      unfold keyText at ek
      rw [ek]
      simp only
      rw [after_after]
      have ock : ∀ s ∈ comma first ++ [keyText k], Ok T s := by
        intro s hs'; rw [List.mem_append, List.mem_singleton] at hs'
        rcases hs' with hs' | rfl
        · exact oc s hs'
        · exact ok
      obtain ⟨b1, b2⟩ := after_inv hT h ock []
      have iv := doJson_eq v ov (path ++ k ++ [0x3A]) _ b1
      unfold keyText at iv
      rw [List.nil_append, iv]
      simp only
      rw [after_after, after_annotate]
      have ockv : ∀ s ∈ comma first ++ [keyText k] ++ texts v, Ok T s := by
        intro s hs'; rw [List.mem_append] at hs'
        exact hs'.elim (ock s) (ov s)
      have key := fun ns => after_inv hT h ockv ns
      unfold keyText at key b2
      rw [doMembers_eq ms false oe path _ (key _).1, after_after, (key _).2, b2, memberNotes]
      have e1 : cnt T (comma first ++ [keyText k]) = cnt T (comma first) + T.addresses (keyText k) := by
        simp only [cnt_append, cnt_cons, cnt_nil]; omega
      have e2 : cnt T (comma first ++ [keyText k] ++ texts v) =
          cnt T (comma first) + T.addresses (keyText k) + cnt T (texts v) := by rw [cnt_append, e1]
      unfold keyText at e1 e2
      rw [e1, e2]
      simp only [List.nil_append, List.append_assoc, Nat.add_assoc, List.cons_append, keyText]
end
end

end Verif.Json
