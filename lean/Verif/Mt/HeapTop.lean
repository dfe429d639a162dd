import Verif.Mt.HeapParse
import Verif.Mt.Complete
/-
  `infix_expression` in memory gives what `infix_expression` of values gives, for all converters and threads together.
-/
namespace Verif.Mt

/-! ### definitions at the top -/

/-- what `parseQ` gives at the top, in memory, with the definitions `env` at `envp` before -/
inductive PostTop (envp : Ptr) (env : Env) : Top → HTop → Mem → List Ptr → Prop
  | defined {e env' st m G} : EnvTree m.heap e env' G → PostTop envp env (.defined env' st) (.defined e st) m G
  | query {p q st m efp G} : EnvTree m.heap envp env efp → Tree m.heap p q G → PostTop envp env (.query q st) (.query p st) m (efp ++ G)
  | bad {x m efp G} : (x ≠ some .missingClose → G = []) → EnvTree m.heap envp env efp → PostTop envp env (.bad x) (.bad x) m (efp ++ G)
  | fuel {m efp G} : EnvTree m.heap envp env efp → PostTop envp env .fuel .fuel m (efp ++ G)

theorem writeEnv_gives {m : Mem} {fl F : List Ptr} {p a b c : Ptr} (h : Inv m fl (p :: F)) (e : m.heap p = some (.env a b c)) (a' b' c' : Ptr) :
    Gives (writeEnv p a' b' c') m F fun _ m' G => G = [p] ∧ m'.heap p = some (.env a' b' c') := by
  refine ⟨(), m.put p (some (.env a' b' c')), fl, [p], ?_, h.write _, fun x hx => put_other (h.apart x hx), rfl, put_same⟩
  unfold writeEnv; rw [e]

/-- a function that begins with something known -/
theorem Gives.step {α β : Type} {x : H α} {f : α → H β} {m m1 : Mem} {F : List Ptr} {a : α} {P : β → Mem → List Ptr → Prop}
    (e : x m = some (a, m1)) (k : Keep F m m1) (h : Gives (f a) m1 F P) : Gives (x >>= f) m F P := by
  obtain ⟨b, m', fl', G, h1, h2, h3, h4⟩ := h
  exact ⟨b, m', fl', G, by rw [bind_run e, h1], h2, k.trans h3, h4⟩

/-- a query at the top, from a result -/
theorem ofRes_gives {envp : Ptr} {env : Env} {efp F : List Ptr} {m : Mem} {x : H (Res Ptr)} {pr : Res Q}
    (t : EnvTree m.heap envp env efp) (h : Gives x m (efp ++ F) (Post pr)) :
    Gives (do let r ← x; pure (HTop.ofRes r)) m F (PostTop envp env (Top.ofRes pr)) := by
  obtain ⟨r, m', fl', G, h1, h2, h3, h4⟩ := h
  have t' : EnvTree m'.heap envp env efp := t.keep fun x hx => h3 x (by simp [hx])
  refine ⟨HTop.ofRes r, m', fl', efp ++ G, by rw [bind_run h1]; rfl, h2.perm (by perm_count), h3.sub (by simp +contextual), ?_⟩
  cases h4 with
  | ok tq => exact .query t' tq
  | bad hg => exact .bad hg t'
  | fuel => exact .fuel t'

theorem hDefine_gives {envp : Ptr} {env : Env} {efp fl F : List Ptr} {m : Mem} (n : Nat) (st : St) (h : Inv m fl (efp ++ F))
    (t : EnvTree m.heap envp env efp) (hl : lookup env st.tok = none) (ha : env.any (·.1 = st.tok) = false) :
    Gives (hDefine n envp st) m F (PostTop envp env (if (scan st.rest).tok = ['='] then definition env st.tok (parseQ n env (scan (scan st.rest).rest))
      else match lookup env st.tok with
        | none => .bad (some .undefined)
        | some q => Top.ofRes (parseLoop n env q (scan st.rest)))) := by
  unfold hDefine
  rw [hl]
  obtain ⟨name, m1, fl1, G1, e1, hi1, hk1, rfl, hn1⟩ := malloc_gives h (.text st.tok)
  have t1 : EnvTree m1.heap envp env efp := t.keep fun x hx => hk1 x (by simp [hx])
  refine Gives.step e1 (hk1.sub (by simp +contextual)) ?_
  by_cases h1 : (scan st.rest).tok = ['=']
  · rw [if_pos h1, if_pos h1]
    obtain ⟨e, m2, fl2, G2, e2, hi2, hk2, rfl, he2⟩ := malloc_gives hi1 (.env 0 name 0)
    have t2 : EnvTree m2.heap envp env efp := t1.keep fun x hx => hk2 x (by simp [hx])
    have hn2 : m2.heap name = some (.text st.tok) := by rw [hk2 name (by simp)]; exact hn1
    refine Gives.step e2 (hk2.sub (by simp +contextual)) ?_
    obtain ⟨r, m3, fl3, G3, e3, hi3, hk3, hp3⟩ := (parses (envp := envp) (env := env) (efp := efp) n).1 (scan (scan st.rest).rest) hi2
      ⟨[e, name] ++ F, by perm_count⟩ t2
    have t3 : EnvTree m3.heap envp env efp := t2.keep fun x hx => hk3 x (by simp [hx])
    have hn3 : m3.heap name = some (.text st.tok) := by rw [hk3 name (by simp)]; exact hn2
    have he3 : m3.heap e = some (.env 0 name 0) := by rw [hk3 e (by simp)]; exact he2
    refine Gives.step e3 (hk3.sub (by simp +contextual)) ?_
    replace hi3 : Inv m3 fl3 (G3 ++ ([e, name] ++ efp) ++ F) := hi3.perm (by perm_count)
    generalize parseQ n env (scan (scan st.rest).rest) = pr at hp3 ⊢
    cases hp3 with
    | @ok q p st3 _ _ tq =>
      simp only [definition, define]
      rw [if_neg (by rw [ha]; simp)]
      refine ((writeEnv_gives (hi3.perm (by perm_count : (G3 ++ ([e, name] ++ efp) ++ F).Perm (e :: ((name :: (G3 ++ efp)) ++ F)))) he3 envp name p).frame
        (R := fun _ m4 G4 => EnvTree m4.heap e ((st.tok, q) :: env) G4) fun _ m4 G4 hk4 h4 => ?_).bind fun _ m4 fl4 G4 hi4 hk4 h4 => Gives.pure hi4 (.defined h4)
      obtain ⟨rfl, h4⟩ := h4
      exact ⟨e :: name :: (G3 ++ efp), .refl _, .cons h4 (by rw [hk4 name (by simp)]; exact hn3) (tq.keep fun x hx => hk4 x (by simp [hx]))
        (t3.keep fun x hx => hk4 x (by simp [hx]))⟩
    | bad hg =>
      simp only [definition]
      refine ((free_gives (hi3.perm (by perm_count : (G3 ++ ([e, name] ++ efp) ++ F).Perm (name :: ((e :: (efp ++ G3)) ++ F))))).frame
        (R := fun _ m4 G4 => G4 = e :: (efp ++ G3) ∧ EnvTree m4.heap envp env efp) fun _ m4 G4 hk4 h4 => ?_).bind fun _ m4 fl4 G4 hi4 hk4 h4 => ?_
      · subst h4; exact ⟨_, .refl _, rfl, t3.keep fun x hx => hk4 x (by simp [hx])⟩
      · obtain ⟨rfl, t4⟩ := h4
        refine ((free_gives (F := (efp ++ G3) ++ F) hi4).frame
          (R := fun _ m4 G4 => G4 = efp ++ G3 ∧ EnvTree m4.heap envp env efp) fun _ m5 G5 hk5 h5 => ?_).bind fun _ m5 fl5 G5 hi5 hk5 h5 => ?_
        · subst h5; exact ⟨_, .refl _, rfl, t4.keep fun x hx => hk5 x (by simp [hx])⟩
        · obtain ⟨rfl, t5⟩ := h5
          exact Gives.pure hi5 (.bad hg t5)
    | fuel =>
      simp only [definition]
      exact Gives.pure (hi3.perm (by perm_count : (G3 ++ ([e, name] ++ efp) ++ F).Perm (efp ++ (G3 ++ [e, name]) ++ F))) (.fuel t3)
  · rw [if_neg h1, if_neg h1]
    refine ((free_gives (p := name) (F := efp ++ F) hi1).frame
      (R := fun _ m4 G4 => G4 = efp ++ [] ∧ EnvTree m4.heap envp env efp) fun _ m4 G4 hk4 h4 => ?_).bind fun _ m4 fl4 G4 hi4 hk4 h4 => ?_
    · subst h4; exact ⟨_, by simp, rfl, t1.keep fun x hx => hk4 x (by simp [hx])⟩
    · obtain ⟨rfl, t4⟩ := h4
      exact Gives.pure hi4 (.bad (fun _ => rfl) t4)

theorem hRedefine_gives {envp : Ptr} {env : Env} {efp fl F : List Ptr} {m : Mem} {x : Ptr} (n : Nat) (st : St) (h : Inv m fl (efp ++ F))
    (t : EnvTree m.heap envp env efp) (hx0 : x ≠ 0) (hx : lookEnv envp st.tok m = some (x, m)) :
    Gives (hRedefine n envp x st) m F (PostTop envp env (if (scan st.rest).tok = ['='] then definition env st.tok (parseQ n env (scan (scan st.rest).rest))
      else match lookup env st.tok with
        | none => .bad (some .undefined)
        | some q => Top.ofRes (parseLoop n env q (scan st.rest)))) := by
  unfold hRedefine
  have w : Within efp (efp ++ F) := ⟨F, .refl _⟩
  by_cases h1 : (scan st.rest).tok = ['=']
  · rw [if_pos h1, if_pos h1]
    obtain ⟨r, m3, fl3, G3, e3, hi3, hk3, hp3⟩ := (parses (envp := envp) (env := env) (efp := efp) n).1 (scan (scan st.rest).rest) h w t
    have t3 : EnvTree m3.heap envp env efp := t.keep fun x hx => hk3 x (by simp [hx])
    obtain ⟨y, hy, hF⟩ := lookEnv_run hi3 (w.left) t3 st.tok
    obtain ⟨z, hz, hZ⟩ := lookEnv_run h w t st.tok
    rw [hx] at hz; cases hz
    refine Gives.step e3 (hk3.sub (by simp +contextual)) ?_
    replace hi3 : Inv m3 fl3 (G3 ++ efp ++ F) := hi3.perm (by perm_count)
    generalize parseQ n env (scan (scan st.rest).rest) = pr at hp3 ⊢
    cases hp3 with
    | @ok q p st3 _ _ tq =>
      rcases hZ with ⟨h0, -⟩ | ⟨-, nx, s, p0, q0, fq, A, a1, a2, a3, a4, a5, a6⟩
      · exact absurd h0 hx0
      simp only [definition, define]
      rw [if_pos a4]
      have inE : ∀ y ∈ fq ++ x :: A, y ∈ efp := fun y hy => a5.mem_iff.2 hy
      have ex : m3.heap x = some (.env nx s p0) := by rw [hk3 x (by simp [inE x (by simp)])]; exact a1
      have tq0 : Tree m3.heap p0 q0 fq := a2.keep fun y hy => hk3 y (by simp [inE y (by simp [hy])])
      have kA : ∀ y ∈ A, m3.heap y = m.heap y := fun y hy => hk3 y (by simp [inE y (by simp [hy])])
      refine Gives.read (readEnv_run ex) ?_
      have pm : (G3 ++ efp ++ F).Perm (fq ++ ((x :: (G3 ++ A)) ++ F)) := by
        have h5 := List.perm_iff_count.1 a5
        rw [List.perm_iff_count]; intro z
        have := h5 z
        simp only [List.count_append, List.count_cons] at *
        omega
      refine ((freeQ_gives (hi3.perm pm) tq0).frame
        (R := fun _ m4 G4 => G4 = x :: (G3 ++ A) ∧ m4.heap x = some (.env nx s p0) ∧ Tree m4.heap p q G3 ∧ ∀ y ∈ A, m4.heap y = m.heap y)
          fun _ m4 G4 hk4 h4 => ?_).bind fun _ m4 fl4 G4 hi4 hk4 h4 => ?_
      · subst h4
        exact ⟨_, .refl _, rfl, by rw [hk4 x (by simp)]; exact ex, tq.keep fun y hy => hk4 y (by simp [hy]),
          fun y hy => (hk4 y (by simp [hy])).trans (kA y hy)⟩
      · obtain ⟨rfl, ex4, tq4, kA4⟩ := h4
        refine ((writeEnv_gives (F := (G3 ++ A) ++ F) hi4 ex4 nx s p).frame
          (R := fun _ m5 G5 => EnvTree m5.heap envp (replace st.tok q env) G5) fun _ m5 G5 hk5 h5 => ?_).bind fun _ m5 fl5 G5 hi5 hk5 h5 => Gives.pure hi5 (.defined h5)
        obtain ⟨rfl, ex5⟩ := h5
        obtain ⟨fp', b1, b2⟩ := a6 m5.heap p q G3 (fun y hy => (hk5 y (by simp [hy])).trans (kA4 y hy)) ex5
          (tq4.keep fun y hy => hk5 y (by simp [hy]))
        exact ⟨fp', (by perm_count : ([x] ++ (G3 ++ A)).Perm (G3 ++ x :: A)).trans b1.symm, b2⟩
    | bad hg => exact Gives.pure (hi3.perm (by perm_count : (G3 ++ efp ++ F).Perm (efp ++ G3 ++ F))) (.bad hg t3)
    | fuel => exact Gives.pure (hi3.perm (by perm_count : (G3 ++ efp ++ F).Perm (efp ++ G3 ++ F))) (.fuel t3)
  · rw [if_neg h1, if_neg h1]
    obtain ⟨z, hz, hZ⟩ := lookEnv_run h w t st.tok
    rw [hx] at hz; cases hz
    rcases hZ with ⟨h0, -⟩ | ⟨-, nx, s, p0, q0, fq, A, a1, a2, a3, a4, a5, a6⟩
    · exact absurd h0 hx0
    rw [a3]
    refine Gives.read (readEnv_run a1) ?_
    simp only
    have h2 : Gives (do let q ← walk copyQ p0; hParseLoop n envp q (scan st.rest)) m (efp ++ F) (Post (parseLoop n env q0 (scan st.rest))) :=
      (copyQ_gives h (within_found w a5) a2).bind fun p m' fl' G hi hk hp =>
        (parses (envp := envp) (env := env) (efp := efp) n).2.1 (scan st.rest) hi w (t.keep fun x hx => hk x (by simp [hx])) hp
    have h3 := ofRes_gives t h2
    have e : (do let r ← (do let q ← walk copyQ p0; hParseLoop n envp q (scan st.rest)); pure (HTop.ofRes r) : H HTop)
        = (do let q ← walk copyQ p0; let r ← hParseLoop n envp q (scan st.rest); pure (HTop.ofRes r)) := by
      funext m
      show H.bind (H.bind _ _) _ m = H.bind _ (fun q => H.bind _ _) m
      unfold H.bind
      cases walk copyQ p0 m with
      | none => rfl
      | some y => rfl
    rw [e] at h3
    exact h3

theorem hParseTop_gives {envp : Ptr} {env : Env} {efp fl F : List Ptr} {m : Mem} (n : Nat) (st : St) (h : Inv m fl (efp ++ F))
    (t : EnvTree m.heap envp env efp) : Gives (hParseTop n envp st) m F (PostTop envp env (parseTop n env st)) := by
  unfold hParseTop parseTop
  have w : Within efp (efp ++ F) := ⟨F, .refl _⟩
  by_cases h1 : counter st = none ∧ st.kind = .name
  · rw [if_pos h1, if_pos h1]
    obtain ⟨x, hx, hF⟩ := lookEnv_run h w t st.tok
    refine Gives.read hx ?_
    by_cases h0 : x = 0
    · rw [if_pos h0]
      rcases hF with ⟨-, a1, a2⟩ | ⟨a0, -⟩
      · exact hDefine_gives n st h t a1 a2
      · exact absurd h0 a0
    · rw [if_neg h0]
      exact hRedefine_gives n st h t h0 hx
  · rw [if_neg h1, if_neg h1]
    exact ofRes_gives t ((parses (envp := envp) (env := env) (efp := efp) n).1 st h w t)

/-- the model's recursion bound is never met -/
theorem top_enough (env : Env) (s : List Char) : parseTop (3 * s.length + 2) env (scan s) ≠ .fuel := by
  have u : ∀ x : St, x.size = x.tok.length + x.rest.length := fun _ => rfl
  have h0 := scan_size s
  have u0 := u (scan s)
  have h1 := scan_size (scan s).rest
  have u1 := u (scan (scan s).rest)
  have h2 := scan_size (scan (scan s).rest).rest
  have of : ∀ {r : Res Q}, r ≠ .fuel → Top.ofRes r ≠ .fuel := by
    intro r hr
    cases r with
    | ok => intro e; cases e
    | bad => intro e; cases e
    | fuel => exact absurd rfl hr
  unfold parseTop
  split
  · split
    · have := (parse_enough env (3 * s.length + 2)).1 (scan (scan (scan s).rest).rest) (by omega)
      generalize parseQ _ _ _ = r at this ⊢
      cases r with
      | ok => intro e; cases e
      | bad => intro e; cases e
      | fuel => exact absurd rfl this
    · split
      · intro e; cases e
      · exact of ((parse_enough env _).2.2.1 _ _ (by omega))
  · exact of ((parse_enough env _).1 _ (by omega))

/-! ### one call -/

/-- what a call gives in memory: the definitions of the converter, and what is lost, which is nothing unless a `)` is missing -/
def PostOut (r : Bool × Mt) (o : HOut) (m : Mem) (G : List Ptr) : Prop :=
  o.1 = r.1 ∧ o.2.1 = r.2.message ∧ o.2.2.sExpression = r.2.sExpression ∧
    ∃ efp lost, EnvTree m.heap o.2.2.env r.2.env efp ∧ G = efp ++ lost ∧ (r.1 = true ∨ r.2.message ≠ some .missingClose → lost = [])

theorem hConclude_gives {c : HMt} {mt : Mt} {m : Mem} {fl G F : List Ptr} {pt : Top} {ht : HTop} (h : Inv m fl (G ++ F))
    (hs : c.sExpression = mt.sExpression) (hp : PostTop c.env mt.env pt ht m G)
    (hf : pt ≠ .fuel) : Gives (hConclude c mt.message ht) m F (PostOut (mt.finish pt)) := by
  cases hp with
  | @defined e env' st _ _ t =>
    unfold hConclude Mt.finish
    by_cases h1 : st.tok = []
    · simp only [if_pos h1]
      exact Gives.pure (G := G) h ⟨rfl, rfl, rfl, G, [], t, by simp, fun _ => rfl⟩
    · simp only [if_neg h1]
      exact Gives.pure (G := G) h ⟨rfl, rfl, hs, G, [], t, by simp, fun _ => rfl⟩
  | @query p q st _ efp G t tq =>
    unfold hConclude Mt.finish
    have hi : Inv m fl (G ++ (efp ++ F)) := h.perm (by perm_count)
    have hf : ∀ (o : HOut) (r : Bool × Mt), o.1 = r.1 → o.2.1 = r.2.message → o.2.2.sExpression = r.2.sExpression → o.2.2.env = c.env →
        r.2.env = mt.env → Gives (do walk freeQ p; pure o) m F (PostOut r) := by
      intro o r o1 o2 o3 o4 o5
      refine ((freeQ_gives hi tq).frame (G := efp) (R := fun _ m' G' => G' = efp ∧ EnvTree m'.heap c.env mt.env efp) fun _ m' G' hk hp => ?_).bind
        fun _ m' fl' G' hi' hk hp => ?_
      · subst hp; exact ⟨_, .refl _, rfl, t.keep fun x hx => hk x (by simp [hx])⟩
      · obtain ⟨rfl, t'⟩ := hp
        exact Gives.pure hi' ⟨o1, o2, o3, _, [], by rw [o4, o5]; exact t', by simp, fun _ => rfl⟩
    by_cases h1 : st.tok = []
    · simp only [if_pos h1]
      refine Gives.read (toS_run h ⟨efp ++ F, by perm_count⟩ tq) ?_
      exact hf _ _ rfl rfl rfl rfl rfl
    · simp only [if_neg h1]
      exact hf _ _ rfl rfl hs rfl rfl
  | @bad x _ efp G hg t =>
    unfold hConclude Mt.finish Mt.refuse message
    cases x with
    | none => exact Gives.pure h ⟨rfl, rfl, hs, efp, G, t, rfl, fun _ => hg (by intro e; cases e)⟩
    | some x =>
      refine Gives.pure h ⟨rfl, rfl, hs, efp, G, t, rfl, fun h => hg ?_⟩
      rcases h with h | h
      · cases h
      · exact h
  | fuel t => exact absurd rfl hf

theorem hInfix_gives {c : HMt} {mt : Mt} {m : Mem} {fl efp F : List Ptr} (h : Inv m fl (efp ++ F)) (hs : c.sExpression = mt.sExpression)
    (t : EnvTree m.heap c.env mt.env efp) (text : List Char) : Gives (hInfix c mt.message text) m F (PostOut (mt.infix text)) := by
  unfold hInfix Mt.infix
  by_cases h1 : (scan (cstr text)).tok = []
  · rw [if_pos h1, if_pos h1]
    exact Gives.pure (G := efp) h ⟨rfl, rfl, rfl, efp, [], t, by simp, fun _ => rfl⟩
  · rw [if_neg h1, if_neg h1]
    exact (hParseTop_gives _ _ h t).bind fun r m' fl' G hi hk hp => hConclude_gives hi hs hp (top_enough _ _)

mutual
theorem Tree.cells {h : Ptr → Option Cell} {p : Ptr} {q : Q} {fp : List Ptr} : Tree h p q fp → fp.length = Mt.cells q
  | .bin _ t1 t2 => by simp only [List.length_cons, List.length_append, t1.cells, t2.cells, Mt.cells]; omega
  | .nofm _ t1 => by simp only [List.length_cons, t1.cells, Mt.cells]; omega
  | .term _ _ _ => rfl
  | .fixed _ => rfl
theorem TreeL.cells {h : Ptr → Option Cell} {p : Ptr} {es : List Q} {fp : List Ptr} : TreeL h p es fp → fp.length = cellsL es
  | .nil => rfl
  | .cons _ t1 t2 => by simp only [List.length_cons, List.length_append, t1.cells, t2.cells, Mt.cellsL]; omega
end

/-- the end of a converter -/
theorem freeEnv_gives (k : Nat) : ∀ {m : Mem} {fl efp F : List Ptr} {e : Ptr} {env : Env}, Inv m fl (efp ++ F) → EnvTree m.heap e env efp →
    efp.length < k → Gives (freeEnv k e) m F fun _ _ G => G.length = (env.map fun d => cells d.2).sum := by
  induction k with
  | zero => exact fun _ _ h => absurd h (by omega)
  | succ k ih =>
    intro m fl efp F e env h t hl
    unfold freeEnv
    cases t with
    | nil => rw [if_pos rfl]; exact Gives.pure h rfl
    | @cons _ nx s p name q fp env efp e1 e2 t1 t2 =>
      rw [if_neg (h.ne (by simp))]
      refine Gives.read (readEnv_run e1) ?_
      refine ((free_gives (h.perm (by perm_count : (e :: s :: (fp ++ efp) ++ F).Perm (s :: ((e :: (fp ++ efp)) ++ F))))).frame
        (R := fun _ m' G => G = e :: (fp ++ efp) ∧ EnvTree m'.heap nx env efp) fun _ m' G hk hp => ?_).bind fun _ m' fl' G hi hk hp => ?_
      · subst hp; exact ⟨_, .refl _, rfl, t2.keep fun x hx => hk x (by simp [hx])⟩
      obtain ⟨rfl, t2⟩ := hp
      refine ((free_gives (F := (fp ++ efp) ++ F) hi).frame
        (R := fun _ m' G => G = fp ++ efp ∧ EnvTree m'.heap nx env efp) fun _ m' G hk hp => ?_).bind fun _ m' fl' G hi hk hp => ?_
      · subst hp; exact ⟨_, .refl _, rfl, t2.keep fun x hx => hk x (by simp [hx])⟩
      obtain ⟨rfl, t2⟩ := hp
      simp only [List.length_cons, List.length_append] at hl
      refine (ih (hi.perm (by perm_count : (fp ++ efp ++ F).Perm (efp ++ (fp ++ F)))) t2 (by omega)).frame
        fun _ _ G' _ h' => ⟨G' ++ fp, .refl _, ?_⟩
      rw [List.length_append, h', t1.cells]
      simp only [List.map_cons, List.sum_cons]
      omega

/-- it uses no free nodes -/
theorem freeEnv_free (k : Nat) : ∀ {e : Ptr} {m m' : Mem} {u : Unit}, freeEnv k e m = some (u, m') → m'.free = m.free := by
  induction k with
  | zero => intro e m m' u h; cases h
  | succ k ih =>
    intro e m m' u h
    unfold freeEnv at h
    split at h
    · cases h; rfl
    · have hfree : ∀ {p : Ptr} {a b : Mem} {u : Unit}, free p a = some (u, b) → b.free = a.free := by
        intro p a b u h
        unfold free at h
        split at h
        · cases h
        · cases h; rfl
      have hbind : ∀ {α β : Type} {x : H α} {f : α → H β} {a c : Mem} {y : β}, (x >>= f) a = some (y, c) → ∃ z b, x a = some (z, b) ∧ f z b = some (y, c) := by
        intro α β x f a c y h
        change H.bind x f a = _ at h
        unfold H.bind at h
        split at h
        · cases h
        · rename_i z b hz; exact ⟨z, b, hz, h⟩
      obtain ⟨x, m1, h1, h⟩ := hbind h
      obtain ⟨_, m2, h2, h⟩ := hbind h
      obtain ⟨_, m3, h3, h⟩ := hbind h
      rw [ih h, hfree h3, hfree h2]
      unfold readEnv at h1
      split at h1
      · cases h1; rfl
      · cases h1

end Verif.Mt
