import Verif.Proofs.DepthRun
/-
The indentation of every part of a file.
-/
namespace Mofmt

theorem Brks.triv : ∀ (es : List TEv) (n : Int), Brks (fun _ _ => True) n es
  | [], _ => trivial
  | .brk _ _ :: es, n => ⟨trivial, Brks.triv es n⟩
  | .indent :: es, n => Brks.triv es (n + 1)
  | .dedent :: es, n => Brks.triv es (n - 1)
  | .tok _ :: es, n => Brks.triv es n
  | .space :: es, n => Brks.triv es n

theorem Brks.flatten {G : Int → Token → Prop} : ∀ {ess : List (List TEv)} {n : Int},
    (∀ ea e eb, ess = ea ++ e :: eb → Brks G (n + net ea.flatten) e) → Brks G n ess.flatten
  | [], _, _ => trivial
  | e :: ess, n, h => by
    rw [List.flatten_cons]
    refine Brks.append (by simpa [net] using h [] e ess rfl) (Brks.flatten ?_)
    intro ea e' eb he
    have := h (e :: ea) e' eb (by rw [he]; rfl)
    rw [List.flatten_cons, net_append] at this
    rwa [← Int.add_assoc] at this

/-- the state before the first child -/
theorem before_first {k : SK} {all : List Tree} (hC : Tree.Conforms (.node k all)) (hE : hasEmptyF all = false) {a : Args}
    {q : Option Token} {r1 : Regs} {e1 : List TEv}
    (h1 : trF noSub { all } (Fmt.body k).pre { m := a.m, w := a.w, o := a.o } q = .ok (r1, e1)) :
    Before k all a q e1 [] r1 [] := by
  refine ⟨?_, ?_, rfl, ?_⟩
  · rw [List.append_nil]
    exact net_pre (treeOK_tree hC hE) h1
  · intro P h0 _
    exact h0 a q r1 e1 h1
  · intro hk post _
    rw [keepsW_sound (chain_arms k hk).1 h1]
    simp [wrapsU]

/-- a break at the level of a part of the tree -/
def AtLevel (tree : Tree) (l : Int) (t : Token) : Prop :=
  ∃ c n w, Level tree c n w ∧ c.start? = some t ∧ l = (n : Nat)

/-- All breaks of a part are at the level of what begins there. -/
def DepthOK (tree c : Tree) : Prop := ∀ n w, Level tree c n w → ∀ fn a q w' es, c.sym = .n fn → a.w = w →
  (fn = .Composition → kindOf q ∈ beforeComposition) → subOf c fn a q = .ok (w', es) → Brks (AtLevel tree) n es

mutual
theorem depthOK (tree : Tree) : (c : Tree) → c.Conforms → c.hasEmpty = false → DepthOK tree c
  | .tok _, _, _ => fun _ _ _ _ _ _ _ _ hs => (by cases hs)
  | .node k all, hC, hE => by
    intro n w hlev fn a q w' es hs haw hQ h
    cases hs
    simp only [Tree.hasEmpty, Bool.or_eq_false_iff] at hE
    have ih := depthOKF tree all hC.2 hE.2
    obtain ⟨r1, e1, ess, r2, r3, e3, h1, h2, h3, rfl, rfl, i1, i3⟩ := trTree_inv h
    refine Brks.append (Brks.append (Brks.ind i1 _) (Brks.flatten ?_)) (Brks.ind i3 _)
    intro ea e eb he
    have hlen := h2.length
    rw [he, List.length_append, List.length_cons] at hlen
    obtain ⟨pre, c, post, ha, hp⟩ : ∃ pre c post, all = pre ++ c :: post ∧ pre.length = ea.length := by
      refine ⟨all.take ea.length, all[ea.length]'(by omega), all.drop (ea.length + 1), ?_, by simp; omega⟩
      rw [List.getElem_cons_drop, List.take_append_drop]
    have h2' : Steps (Fmt.body k) all (pre ++ c :: post) 0 r1 q ess r2 := by rw [← ha]; exact h2
    obtain ⟨ea', e', eb', r, r', g1, g2, g3, g4, g5⟩ := steps_inv (b := Fmt.body k) (all := all) (q := q)
      (I := Before k all a q e1) (fun pre c post r r1 ev e hh hb hr => before_step hC hE.2 hh hb hr) (done := []) (ev := [])
      (by simpa using ha) (before_first hC hE.2 h1) h2'
    obtain ⟨rfl, hh⟩ := List.append_inj (he.symm.trans g1) (by omega)
    cases hh
    simp only [List.nil_append] at g3 g4
    have hm : c ∈ all := by rw [ha]; simp
    have hL : ∀ {pre c post}, all = pre ++ c :: post → Level tree c (levelIn k n a.w pre c post)
        (chainChild k c.sym && wrappedAt k a.w pre c post) := by
      intro pre c post ha'
      subst ha' haw
      exact Level.child hlev
    have R := (arm_depth (G := AtLevel tree) (n := n) hC hE.2 ha hQ g3 g4 (fun t ht => ⟨c, _, _, hL ha, ht, rfl⟩)
      (fun fn a' w' es hs ha' hq hsub => ih c hm _ _ (hL ha) _ _ _ _ _ hs ha' hq hsub)
      (fun d post' hd t ht => ⟨d, _, _, hL (by rw [ha, hd]; simp), ht, rfl⟩)).brks
    rw [net_append] at R
    rwa [Int.add_assoc]
theorem depthOKF (tree : Tree) : (cs : List Tree) → ConformsF cs → hasEmptyF cs = false → ∀ c ∈ cs, DepthOK tree c
  | [], _, _, c, h => by cases h
  | d :: cs, hC, hE, c, h => by
    simp only [hasEmptyF, Bool.or_eq_false_iff] at hE
    rcases List.mem_cons.1 h with h | h
    · rw [h]; exact depthOK tree d hC.1 hE.1
    · exact depthOKF tree cs hC.2 hE.2 c h
end

/-- the run at a child of a production -/
theorem child_depth {k : SK} {pre post : List Tree} {c : Tree} (hC : Tree.Conforms (.node k (pre ++ c :: post)))
    (hE : hasEmptyF (pre ++ c :: post) = false) {n : Nat} {a : Args} {q : Option Token} {w : Bool} {es : List TEv}
    (hQ : k = .Composition → kindOf q ∈ beforeComposition)
    (h : subOf (.node k (pre ++ c :: post)) k a q = .ok (w, es)) :
    ∃ X e Z r r', es = X ++ e ++ Z ∧ toks X = leavesF pre ∧
      trF (subOf c) { all := pre ++ c :: post, cur := some c, idx := pre.length, rest := post } (upCmd (Fmt.body k) c.sym) r
        (lastT q X) = .ok (r', e) ∧ Before k (pre ++ c :: post) a q [] pre r X ∧
      ArmDepth (fun _ _ => True) k n a pre c post (lastT q X) (n + net X) r e := by
  obtain ⟨r1, e1, ess, r2, r3, e3, h1, h2, h3, rfl, rfl, i1, i3⟩ := trTree_inv h
  obtain ⟨ea, e, eb, r, r', rfl, g2, g3, g4, g5⟩ := steps_inv (b := Fmt.body k) (all := pre ++ c :: post) (q := q)
      (I := Before k (pre ++ c :: post) a q e1) (fun pre' c' post' r r1 ev e hh hb hr => before_step hC hE hh hb hr) (done := []) (ev := [])
      rfl (before_first hC hE h1) h2
  simp only [List.nil_append] at g3 g4
  have R := arm_depth (G := fun _ _ => True) (n := n) hC hE rfl hQ g3 g4 (fun _ _ => trivial)
    (fun _ _ _ _ _ _ _ _ => Brks.triv _ _) (fun _ _ _ _ _ => trivial)
  have hl : lastT q (e1 ++ ea.flatten) = lastT q ea.flatten := by rw [lastT_append, ind_lastT i1]
  refine ⟨e1 ++ ea.flatten, e, eb.flatten ++ e3, r, r', by simp, ?_, ?_, ?_, ?_⟩
  · rw [toks_append, ind_toks i1, g3.last]; rfl
  · rw [hl]; exact g4
  · exact ⟨by simpa using g3.lv, g3.regs, by rw [toks_append, ind_toks i1, g3.last]; rfl, g3.w⟩
  · rw [hl]; exact R

theorem Part.trans {a b c : Tree} (h : Part a b) (h' : Part b c) : Part a c := by
  induction h' with
  | here => exact h
  | there hc _ ih => exact .there hc ih

theorem level_part {tree s : Tree} {n : Nat} {w : Bool} (h : Level tree s n w) : Part s tree := by
  induction h with
  | root => exact .here
  | child _ ih => exact Part.trans (.there (by simp) .here) ih

/-- the run at a part of the tree, with its level -/
theorem level_run {tree s : Tree} {n : Nat} {w : Bool} (h : Level tree s n w) (hC : tree.Conforms) (hE : tree.hasEmpty = false)
    {K : SK} (hK : tree.sym = .n K) (hKc : K ≠ .Composition) {a0 : Args} {q0 : Option Token} {w0 : Bool} {es : List TEv}
    (ha0 : a0.w = false) (hrun : subOf tree K a0 q0 = .ok (w0, es)) :
    s.Conforms ∧ s.hasEmpty = false ∧ ∀ k, s.sym = .n k → ∃ X y Z a w', es = X ++ y ++ Z ∧
      subOf s k a (lastT q0 X) = .ok (w', y) ∧ net X = n ∧ a.w = w ∧
      (k = .Composition → kindOf (lastT q0 X) ∈ beforeComposition) := by
  induction h with
  | root =>
    refine ⟨hC, hE, ?_⟩
    intro k hk
    rw [hK] at hk
    cases hk
    exact ⟨[], es, [], a0, w0, by simp, hrun, rfl, ha0, fun h => absurd h hKc⟩
  | @child k pre c post n w hl ih =>
    obtain ⟨h1, h2, h3⟩ := ih
    simp only [Tree.hasEmpty, Bool.or_eq_false_iff] at h2
    have hm : c ∈ pre ++ c :: post := by simp
    refine ⟨conformsF_mem h1.2 c hm, hasEmptyF_mem h2.2 c hm, ?_⟩
    intro j hj
    obtain ⟨X, y, Z, a, w', rfl, g2, g3, g4, g5⟩ := h3 k rfl
    obtain ⟨X', e, Z', r, r', rfl, m2, m3, m4, m5⟩ := child_depth (n := n) h1 h2.2 g5 g2
    obtain ⟨x, y, z, a', w'', rfl, k2, k3, k4, k5⟩ := m5.call j hj
    refine ⟨X ++ X' ++ x, y, z ++ Z' ++ Z, a', w'', by simp, ?_, ?_, ?_, ?_⟩
    · rw [lastT_append, lastT_eq x, k2, lastT_append]
      exact k4
    · rw [net_append, net_append, g3, k5, g4]
    · rw [k3, g4]
    · rw [lastT_append, lastT_eq x, k2, lastT_append]
      exact m5.comp j hj

/-- every part has a level -/
theorem Part.level {tree s : Tree} (h : Part s tree) : ∃ n w, Level tree s n w := by
  have key : ∀ {t : Tree}, Part s t → ∀ n w, Level tree t n w → ∃ n w, Level tree s n w := by
    intro t h
    induction h with
    | here => exact fun n w h => ⟨n, w, h⟩
    | @there k cs c hc _ ih =>
      intro n w hl
      obtain ⟨pre, post, rfl⟩ := List.append_of_mem hc
      exact ih _ _ hl.child
  exact key h 0 false .root

/-! ### The level is determined -/

/-- `Level` from the top down -/
inductive TopDown (s : Tree) (n' : Nat) (w' : Bool) : Tree → Nat → Bool → Prop
  | here : TopDown s n' w' s n' w'
  | down {k pre c post n w} : TopDown s n' w' c (levelIn k n w pre c post) (chainChild k c.sym && wrappedAt k w pre c post) →
      TopDown s n' w' (.node k (pre ++ c :: post)) n w

theorem TopDown.child {k : SK} {pre post : List Tree} {c t : Tree} {n n' : Nat} {w w' : Bool}
    (h : TopDown (.node k (pre ++ c :: post)) n' w' t n w) :
    TopDown c (levelIn k n' w' pre c post) (chainChild k c.sym && wrappedAt k w' pre c post) t n w := by
  generalize hs : Tree.node k (pre ++ c :: post) = s at h
  induction h with
  | here => subst hs; exact .down .here
  | down _ ih => exact .down ih

theorem Level.topDown {tree s : Tree} {n : Nat} {w : Bool} (h : Level tree s n w) : TopDown s n w tree 0 false := by
  induction h with
  | root => exact .here
  | child _ ih => exact ih.child

theorem TopDown.leaves {s t : Tree} {n n' : Nat} {w w' : Bool} (h : TopDown s n' w' t n w) :
    (∀ x ∈ s.leaves, x ∈ t.leaves) ∧ sizeOf s ≤ sizeOf t := by
  induction h with
  | here => exact ⟨fun _ h => h, Nat.le_refl _⟩
  | @down k pre c post n w _ ih =>
    refine ⟨fun x hx => ?_, ?_⟩
    · simp only [Tree.leaves, leavesF_append, leavesF, List.mem_append]
      exact .inr (.inl (ih.1 x hx))
    · have hm := List.sizeOf_lt_of_mem (show c ∈ pre ++ c :: post by simp)
      simp only [Tree.node.sizeOf_spec]
      omega

theorem TopDown.unique {s : Tree} {x : Token} (hs : x ∈ s.leaves) {n1 n2 : Nat} {w1 w2 : Bool} {t : Tree} {n : Nat} {w : Bool}
    (h1 : TopDown s n1 w1 t n w) (h2 : TopDown s n2 w2 t n w) (hd : t.leaves.Pairwise (fun a b => a.idx < b.idx)) :
    n1 = n2 ∧ w1 = w2 := by
  have hsm : ∀ {k pre c post n w n' w'}, TopDown (.node k (pre ++ c :: post)) n' w' c n w → False := by
    intro k pre c post n w n' w' h
    have h := h.leaves.2
    have hm := List.sizeOf_lt_of_mem (show c ∈ pre ++ c :: post by simp)
    simp only [Tree.node.sizeOf_spec] at h
    omega
  induction h1 with
  | here =>
    cases h2 with
    | here => exact ⟨rfl, rfl⟩
    | down h2 => exact (hsm h2).elim
  | @down k pre c post n w h1 ih =>
    generalize ht : Tree.node k (pre ++ c :: post) = t' at h2 hd
    cases h2 with
    | here =>
      rw [← ht] at h1
      exact (hsm h1).elim
    | @down k' pre' c' post' n w h2 =>
      simp only [Tree.node.injEq] at ht
      obtain ⟨rfl, ht⟩ := ht
      have hx1 := h1.leaves.1 x hs
      have hx2 := h2.leaves.1 x hs
      have hpre : pre = pre' ∧ c = c' ∧ post = post' := by
        simp only [Tree.leaves] at hd
        clear h1 h2 ih
        induction pre generalizing pre' with
        | nil =>
          cases pre' with
          | nil => cases ht; exact ⟨rfl, rfl, rfl⟩
          | cons d pre' =>
            cases ht
            simp only [List.cons_append, leavesF, leavesF_append] at hd
            have := (List.pairwise_append.mp hd).2.2 x hx1 x (by simp [hx2])
            omega
        | cons d pre ih =>
          cases pre' with
          | nil =>
            cases ht
            simp only [List.nil_append, leavesF] at hd
            have := (List.pairwise_append.mp hd).2.2 x hx2 x (by show x ∈ leavesF (pre ++ c :: post); rw [leavesF_append]; simp [leavesF, hx1])
            omega
          | cons d' pre' =>
            simp only [List.cons_append, List.cons.injEq] at ht
            obtain ⟨rfl, ht⟩ := ht
            simp only [List.cons_append, leavesF] at hd
            obtain ⟨h1, h2, h3⟩ := ih ht (List.pairwise_append.mp hd).2.1
            exact ⟨by rw [h1], h2, h3⟩
      obtain ⟨rfl, rfl, rfl⟩ := hpre
      refine ih h2 ?_
      simp only [Tree.leaves, leavesF_append, leavesF] at hd
      exact (List.pairwise_append.mp (List.pairwise_append.mp hd).2.1).1

/-- the block before an operator, if there is a break -/
theorem wrapBefore_lead {sub : SK → Args → Option Token → Res (Bool × List TEv)} {cx : Ctx} {r r' : Regs}
    {q : Option Token} {es : List TEv} (hnt : ∃ k ds rest, cx.rest = .node k ds :: rest)
    (h : trF sub cx Fmt.wrapBefore r q = .ok (r', es)) (hb : nb cx q = .ok true) :
    ∃ t, es = (if r.w then [] else [.indent]) ++ [.brk t .Illegal] := by
  obtain ⟨k, ds, rest, hr⟩ := hnt
  have h0 : evalFC cx r (fsOf q) .nextTree = .ok true := by simp only [evalFC, hr]
  simp only [Fmt.wrapBefore, FCmd.when, fblk] at h
  rw [trF, h0, Res.bind_ok, if_pos rfl] at h
  obtain ⟨⟨r1, e1⟩, h1, h⟩ := Res.bind_eq_ok.1 h
  obtain ⟨⟨r2, e2⟩, h2, h⟩ := Res.bind_eq_ok.1 h
  cases h
  obtain ⟨b, h3, h1⟩ := Res.bind_eq_ok.1 h1
  cases h1
  have h3 : nb cx q = .ok b := h3
  rw [hb] at h3
  cases h3
  cases hw : r.w <;> simp [trF, evalFC, Regs.set, Regs.get, hw, Res.bind_eq_ok] at h2
  · obtain ⟨_, _, ⟨t, _, _, h4⟩, _, h5⟩ := h2
    subst h4; subst h5
    exact ⟨t, rfl⟩
  · obtain ⟨t, h2, h4, h5⟩ := h2
    subst h5
    exact ⟨t, rfl⟩

/-- the events before an operator that begins a line -/
theorem op_lead {fn : SK} {all rest : List Tree} {c : Tree} {idx : Nat} {r r' : Regs} {q : Option Token}
    {e : List TEv} (hn : nkArm fn c.sym = true) (hi : idx > 0) (hnt : ∃ k ds rest', rest = .node k ds :: rest')
    (h : trF (subOf c) { all, cur := some c, idx, rest } (upCmd (Fmt.body fn) c.sym) r q = .ok (r', e))
    (hb : nb { all, cur := some c, idx, rest } q = .ok true) :
    ∃ t z, e = (if r.w then [] else [.indent]) ++ .brk t .Illegal :: z := by
  have hop : ∀ {P : FCmd}, trF (subOf c) { all, cur := some c, idx, rest }
      (fblk [Fmt.wrapBefore, P, .space]) r q = .ok (r', e) →
      ∃ t z, e = (if r.w then [] else [.indent]) ++ .brk t .Illegal :: z := by
    intro P h
    obtain ⟨⟨r1, e1⟩, h1, h⟩ := Res.bind_eq_ok.1 h
    obtain ⟨⟨r2, e2⟩, h2, h⟩ := Res.bind_eq_ok.1 h
    cases h
    obtain ⟨t, rfl⟩ := wrapBefore_lead hnt h1 hb
    exact ⟨t, e2, by simp⟩
  have h' := h
  generalize hs : c.sym = s at hn h
  unfold nkArm at hn
  split at hn
  · exact hop (P := .tok) h
  · exact hop (P := .tok) h
  · exact hop (P := .tok) h
  · exact hop (P := .tok) h
  · exact hop (P := Fmt.go .RelationalOperator) h
  · have he : ∀ r q, evalFC { all, cur := some c, idx, rest } r (fsOf q) (.idxGt 0) = .ok true := by
      intro r q; simp [evalFC, hi]
    refine hop (P := Fmt.go .AddOperator) ?_
    have h : trF (subOf c) { all, cur := some c, idx, rest }
      (fblk [.when (.idxGt 0) Fmt.wrapBefore, Fmt.go .AddOperator, .when (.idxGt 0) .space]) r q = .ok (r', e) := h
    simp only [fblk, FCmd.when, trF] at h ⊢
    simp only [he, Res.bind_ok, if_true] at h
    exact h
  · exact hop (P := Fmt.go .MulOperator) h
  · cases hn

/-! ### The file -/

/-- the decision for a group of the output -/
theorem groups_split {eol : Text} {comments : List Token} {ds : List (Dec × Token)} {a b : List Group} {g : Group}
    (h : groupsOf eol comments ds = a ++ g :: b) : ∃ da d t dz, ds = da ++ (d, t) :: dz ∧ a = groupsOf eol comments da ∧
      g = PGroup.toGroup eol (((LS.init comments).run da).group (d, t)) := by
  have hlen : a.length < ds.length := by
    have := congrArg List.length (groupsOf_tok eol comments ds)
    rw [h] at this
    simp at this
    omega
  refine ⟨ds.take a.length, (ds[a.length]'hlen).1, (ds[a.length]'hlen).2, ds.drop (a.length + 1), ?_, ?_⟩
  · rw [List.getElem_cons_drop, List.take_append_drop]
  · have hs : ds = ds.take a.length ++ ds[a.length]'hlen :: ds.drop (a.length + 1) := by
      rw [List.getElem_cons_drop, List.take_append_drop]
    generalize hx : ds[a.length]'hlen = x at hs
    have hl : (groupsOf eol comments (ds.take a.length)).length = a.length := by
      have := congrArg List.length (groupsOf_tok eol comments (ds.take a.length))
      simpa [Nat.min_eq_left (Nat.le_of_lt hlen)] using this
    generalize ds.take a.length = da at hs hl
    generalize ds.drop (a.length + 1) = dz at hs
    subst hs
    rw [groupsOf, LS.groups_append, LS.groups, List.map_append, List.map_cons] at h
    obtain ⟨h1, h2⟩ := List.append_inj h hl
    cases h2
    exact ⟨h1.symm, rfl⟩

/-- A child of a file whose events begin with a break: the decision for its first token. -/
theorem child_break {k : SK} {pre post : List Tree} {c : Tree} {n : Nat} {w : Bool} {tree : Tree} {K : SK}
    (hl : Level tree (.node k (pre ++ c :: post)) n w) (hC : tree.Conforms) (hE : tree.hasEmpty = false)
    (hK : tree.sym = .n K) (hKc : K ≠ .Composition) {a0 : Args} {w0 : Bool} {es : List TEv} (ha0 : a0.w = false)
    (hrun : subOf tree K a0 none = .ok (w0, es)) {u v : WSt} {ds : List (Dec × Token)} (hu : u.n = 0) (hw : Walk u es ds v)
    {b : Blank} {x : Token} (hx : c.start? = some x)
    (hb : ∀ {a r r' q e} {L : Int}, a.w = w → (∀ y, pre.getLast? = some y → q = y.end?) →
      (exprPart k = true → r.w = (w || wrapsU k none pre (some c))) →
      trF (subOf c) { all := pre ++ c :: post, cur := some c, idx := pre.length, rest := post } (upCmd (Fmt.body k) c.sym) r
        q = .ok (r', e) → ArmDepth (fun _ _ => True) k n a pre c post q L r e →
      ∃ i t z, e = i ++ .brk t b :: z ∧ (∀ e ∈ i, e.ind = true) ∧ L + net i = levelIn k n w pre c post) :
    ∃ da dz, ds = da ++ (.brk b (levelIn k n w pre c post), x) :: dz ∧
      (∀ y, pre.getLast? = some y → (da.map (·.2)).getLast? = y.end?) := by
  obtain ⟨h1, h2, h3⟩ := level_run hl hC hE hK hKc ha0 hrun
  obtain ⟨X, y, Z, a, w', rfl, g2, g3, g4, g5⟩ := h3 k rfl
  simp only [Tree.hasEmpty, Bool.or_eq_false_iff] at h2
  have hm : c ∈ pre ++ c :: post := by simp
  have hEp : ∀ x ∈ pre, x.hasEmpty = false := fun x hx => hasEmptyF_mem h2.2 x (by simp [hx])
  obtain ⟨X', e, Z', r, r', rfl, m2, m3, m4, m5⟩ := child_depth (n := n) h1 h2.2 g5 g2
  have hq : ∀ y, pre.getLast? = some y → lastT (lastT none X) X' = y.end? := toks_last m2 hEp
  obtain ⟨i, t, z, rfl, i2, i3⟩ := hb g4 hq (fun hk => g4 ▸ m4.w hk (c :: post) rfl) m3 m5
  have hte : toks (i ++ .brk t b :: z) = c.leaves := by
    have := once_toks (c := c) rfl (printedF _ h1.2 c hm)
      (once_all k _ (syms_complete h1.1 _ (List.mem_map_of_mem hm))) m3
    simpa using this.2
  have hsplit : X ++ (X' ++ (i ++ .brk t b :: z) ++ Z') ++ Z = X ++ (X' ++ (i ++ (.brk t b :: (z ++ Z' ++ Z)))) := by simp
  rw [hsplit] at hw
  obtain ⟨v1, d1, d2, rfl, w1, hw⟩ := hw.split
  obtain ⟨v2, d3, d4, rfl, w2, hw⟩ := hw.split
  obtain ⟨v3, d5, d6, rfl, w3, hw3⟩ := hw.split
  obtain ⟨rfl, _⟩ := w3.ind i2
  have l1 := w1.level
  have l2 := w2.level
  have l3 := w3.level
  have hv : v3.n = levelIn k n w pre c post := by
    rw [hu] at l1
    omega
  obtain ⟨x', xs, j1, j2⟩ := start_leaves c (hasEmptyF_mem h2.2 c hm)
  rw [hx] at j2
  cases j2
  cases hw3 with
  | @brk _ n' _ _ _ _ _ _ hw =>
    simp only at hv
    subst hv
    have ht : d6.map (·.2) = toks (z ++ Z' ++ Z) := hw.toks
    have hz : toks (i ++ .brk t b :: z) = toks z := by
      rw [toks_append, ind_toks i2]; rfl
    rw [hz] at hte
    rw [toks_append, toks_append, hte, j1] at ht
    cases d6 with
    | nil => cases ht
    | cons zz ds =>
      have hp := hw.pending (by simp) rfl
      obtain ⟨z1, z2⟩ := zz
      simp only at hp
      subst hp
      simp only [List.map_cons, List.cons_append, List.cons.injEq] at ht
      rw [ht.1]
      refine ⟨d1 ++ d3, ds, by simp, ?_⟩
      intro y hy
      rw [List.map_append, w1.toks, w2.toks, List.getLast?_append, ← hq y hy, lastT_eq, lastT_eq]
      simp

end Mofmt
