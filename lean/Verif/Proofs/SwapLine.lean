import Verif.Proofs.Swap
import Verif.Proofs.OneLineRun
import Verif.Props.Local
import Verif.Props.Insert
/-
Parts of a tree on one line.
-/
namespace Mofmt
open Lexical

/-! ### Trees that differ in the places of their tokens -/

mutual
theorem map_leaves_inj {f : Token → Token} (hk : ∀ t, (f t).kind = t.kind) : ∀ (s t : Tree), s.map f = t.map f → s.leaves = t.leaves → s = t
  | .tok a, .tok b, _, h => by
    simp only [Tree.leaves, List.cons.injEq, and_true] at h
    rw [h]
  | .tok _, .node _ _, h, _ => by cases h
  | .node _ _, .tok _, h, _ => by cases h
  | .node j cs, .node k ds, h, e => by
    simp only [Tree.map, Tree.node.injEq] at h
    rw [h.1, mapF_leaves_inj hk cs ds h.2 e]
theorem mapF_leaves_inj {f : Token → Token} (hk : ∀ t, (f t).kind = t.kind) : ∀ (cs ds : List Tree), mapTrees f cs = mapTrees f ds →
    leavesF cs = leavesF ds → cs = ds
  | [], [], _, _ => rfl
  | [], _ :: _, h, _ => by cases h
  | _ :: _, [], h, _ => by cases h
  | c :: cs, d :: ds, h, e => by
    simp only [mapTrees, List.cons.injEq] at h
    simp only [leavesF] at e
    have hl : c.leaves.length = d.leaves.length := by
      have := congrArg (fun t => t.leaves.length) h.1
      simpa [map_leaves] using this
    obtain ⟨e1, e2⟩ := List.append_inj e hl
    rw [map_leaves_inj hk c d h.1 e1, mapF_leaves_inj hk cs ds h.2 e2]
end

/-- the part of a tree in the place of a part of the mapped tree -/
theorem unplug_map (f : Token → Token) : ∀ (C : Around) (t s : Tree), t.map f = C.plug s →
    ∃ s' a b, Part s' t ∧ s'.map f = s ∧ t.leaves = a ++ s'.leaves ++ b ∧ a.length = C.before.length
  | .hole, t, s, h => ⟨t, [], [], .here, h, by simp, rfl⟩
  | .node k pre c post, t, s, h => by
    match t, h with
    | .node j ts, h =>
      simp only [Tree.map, Around.plug, Tree.node.injEq, mapTrees_eq] at h
      obtain ⟨t1, t2, rfl, e1, e2⟩ := List.map_eq_append_iff.1 h.2
      obtain ⟨u, t3, rfl, e3, e4⟩ := List.map_eq_cons_iff.1 e2
      obtain ⟨s', a, b, p1, p2, p3, p4⟩ := unplug_map f c u s e3
      refine ⟨s', leavesF t1 ++ a, b ++ leavesF t3, .there (by simp) p1, p2, ?_, ?_⟩
      · simp only [Tree.leaves, leavesF_app, leavesF, p3, List.append_assoc]
      · have := congrArg (fun l => (leavesF l).length) e1
        simp only [← mapTrees_eq, mapF_leaves, List.length_map] at this
        simp only [Around.before, List.length_append, this, p4]

/-! ### The first token of an expression -/

theorem spaceIn_first {k : SK} {s : Sym} (h : spaceIn k none s ⟨true, true, true, true, true, true, true⟩ = .none) (f : Facts) :
    spaceIn k none s f = .none := by
  cases k <;> try (first | rfl | exact h)
  all_goals
    simp only [spaceIn] at h ⊢
    split at h <;> simp_all [breakOrNone, breakOrSpace]

theorem whole_first : ∀ k ∈ wholeKinds, ∀ s ∈ (Gram.spec k).first,
    breakBefore k none s = none ∧ spaceIn k none s ⟨true, true, true, true, true, true, true⟩ = .none ∧
    (match s with | .t _ => true | .n j => wholeKinds.contains j) = true := by
  decide +kernel

/-- before an expression stands what has to stand before its first token -/
theorem layout_first (N : Nat) : ∀ {k : SK} {cs : List Tree}, sizeOf cs ≤ N → k ∈ wholeKinds → Tree.Conforms (.node k cs) →
    Tree.hasEmpty (.node k cs) = false → ∀ n w m d, ∃ x xs, Tree.layout n w m d (.node k cs) = (d, x) :: xs := by
  induction N with
  | zero =>
    intro k cs hn
    cases cs <;> simp at hn
  | succ N ih =>
    intro k cs hn hk hC hE n w m d
    simp only [Tree.hasEmpty, Bool.or_eq_false_iff, List.isEmpty_eq_false_iff] at hE
    obtain ⟨c, cs, rfl⟩ := List.exists_cons_of_ne_nil hE.1
    obtain ⟨h1, h2, h3⟩ := whole_first k hk _ (first_complete (c := c.sym) (u := cs.map Tree.sym) hC.1)
    have hg : gapAt k m [] c cs = .none := by
      simp only [gapAt, gapIn, List.getLast?_nil, Option.map_none, h1]
      exact spaceIn_first h2 _
    have hd : ∀ l, d.or (Gap.at l .none) = d := by intro l; cases d <;> rfl
    simp only [Tree.layout, layoutF, hg, hd]
    have hcm : c ∈ c :: cs := by simp
    cases c with
    | tok t => exact ⟨t, _, rfl⟩
    | node j es =>
      have hsz : sizeOf es ≤ N := by
        have := List.sizeOf_lt_of_mem hcm
        simp only [Tree.node.sizeOf_spec] at this
        omega
      obtain ⟨x, xs, e⟩ := ih hsz (List.contains_iff_mem.1 h3) (conformsF_mem hC.2 _ hcm) (hasEmptyF_mem hE.2 _ hcm)
        (levelIn k n w [] (.node j es) cs) (chainChild k (Tree.node j es).sym && wrappedAt k w [] (.node j es) cs)
        (passedAt k m [] (.node j es) cs) d
      rw [e]
      exact ⟨x, _, rfl⟩

/-! ### The text of an expression on one line -/

/-- the groups of the layout: an expression on one line is printed as the specification says -/
theorem Formatted.line_laid {eol name src out : Text} {p : Parsed} {tree : Tree} (h : Formatted eol name src p out)
    (ht : buildTree p.tokens p.events = .ok tree) : ∀ k ds l, k ∈ wholeKinds → Part (.node k ds) tree → OnLine l (leavesF ds) →
        PrintedAs (groupsOf eol p.comments tree.wholeLayout) (leavesF ds) (Tree.oneLine (.node k ds)) := by
  obtain ⟨lx, hl, l1, l2, l3⟩ := parse_lex h.parsed h.accepted
  have hw : WF (LS.init p.comments) p.tokens := l1 ▸ l2 ▸ lexed_wf hl
  obtain ⟨cs, c1, c2, c3, c4⟩ := accepted_tree h.parsed h.accepted
  rw [ht] at c1
  simp only [Res.ok.injEq] at c1
  subst c1
  intro k ps l hk hp hl
  by_cases hcs : cs = []
  · subst hcs
    cases hp with
    | here => exact absurd hk (by decide)
    | there hc _ => cases hc
  · obtain ⟨w, es, ds, n, t1, t2, t3, t4, _⟩ := format_traced full_valid (by decide) (by decide) hcs c3 c4
      (by intro h; cases h)
    have hE : Tree.hasEmpty (.node .StoredDefinition cs) = false := by simp [Tree.hasEmpty, hcs, c3]
    have hds : ds = (Tree.node .StoredDefinition cs).wholeLayout := traced_layout c4 hE t1 t2
    rw [← hds]
    obtain ⟨j1, j2, x, y, z, a', w', rfl, j3, j4⟩ := part_events hk hp c4 hE rfl t1 (by rintro he; rfl)
    obtain ⟨k1, k2⟩ := whole_line k hk
    have hc := (line_tree _ (Nat.le_refl _) j1 j2 k1 l hl k a' _ w' y rfl k1 j3 (fun h => absurd h k2) j4).1
    have htk : toks y = leavesF ps := printed _ j1 k a' _ w' y rfl j4
    rw [List.append_assoc] at t2
    obtain ⟨v1, da, db, rfl, w1, w2⟩ := t2.split
    obtain ⟨v2, dy, dz, rfl, w2, w3⟩ := w2.split
    obtain ⟨d, t, ms, rfl, m1, m2⟩ := w2.part (noBrk_clean (hc ▸ lineEv_noBrk _))
      (hc ▸ lineEv_head _ (Nat.le_refl _) j1 j2 k1 k2) (hc ▸ lineEv_end _ (Nat.le_refl _) j1 j2 k1 k2)
    have htk' := w2.toks
    rw [htk] at htk'
    rw [groupsOf, LS.groups_append, LS.groups_append, LS.groups]
    obtain ⟨o1, o2⟩ := LS.groups_calm eol ms (((LS.init p.comments).run da).step (d, t)) m1
    rw [List.map_append, List.map_append, List.map_cons]
    refine ⟨_, PGroup.toGroup eol (((LS.init p.comments).run da).group (d, t)), _, _, (List.append_assoc ..).symm, ?_, o1, ?_⟩
    · rw [← htk']
      simp only [List.map_cons, List.map_map]
      refine congr (congrArg _ ?_) (LS.groups_tok ms _)
      exact LS.group_tok ..
    · rw [o2]
      have : (PGroup.toGroup eol (((LS.init p.comments).run da).group (d, t))).tok = t := LS.group_tok ..
      rw [this, ← m2, ← evText_clean, hc, lineEv_text]

/-! ### Looks on one line -/

theorem wrapsAt_line {k : SK} {l : Nat} {p n : Option Tree} {o : Tree} (hp : ∀ t, p = some t → OnLine l t.leaves)
    (hn : ∀ t, n = some t → OnLine l t.leaves) : wrapsAt k p o n = false := by
  unfold wrapsAt
  cases hp' : p.bind Tree.end? with
  | none => simp
  | some e =>
    cases hn' : n.bind Tree.start? with
    | none => simp
    | some s =>
      obtain ⟨a, ha, ha'⟩ := Option.bind_eq_some_iff.1 hp'
      obtain ⟨b, hb, hb'⟩ := Option.bind_eq_some_iff.1 hn'
      have h1 := (hp a ha e (end_mem ha')).2
      have h2 := (hn b hb s (start_mem hb')).1
      simp [h1, h2]

mutual
theorem wraps_line {l : Nat} : ∀ (t : Tree), OnLine l t.leaves → t.wraps = false
  | .tok _, _ => rfl
  | .node k cs, h => by rw [Tree.wraps]; exact wrapsF_line cs k none h (by simp)
theorem wrapsF_line {l : Nat} : ∀ (cs : List Tree) (k : SK) (p : Option Tree), OnLine l (leavesF cs) →
    (∀ t, p = some t → OnLine l t.leaves) → wrapsF k p cs = false
  | [], _, _, _, _ => rfl
  | c :: cs, k, p, h, hp => by
    rw [leavesF] at h
    have h1 : OnLine l c.leaves := fun t ht => h t (List.mem_append_left _ ht)
    have h2 : OnLine l (leavesF cs) := fun t ht => h t (List.mem_append_right _ ht)
    have h3 : ∀ t, cs.head? = some t → OnLine l t.leaves := by
      intro t ht
      cases cs with
      | nil => cases ht
      | cons d cs =>
        simp only [List.head?_cons, Option.some.injEq] at ht
        subst ht
        exact fun u hu => h2 u (by rw [leavesF]; exact List.mem_append_left _ hu)
    rw [wrapsF, wrapsAt_line hp h3, wraps_line c h1, wrapsF_line cs k (some c) h2 (by
      intro t ht
      cases ht
      exact h1)]
    simp
end

mutual
theorem leaks_line {l : Nat} : ∀ (t : Tree), OnLine l t.leaves → t.leaks = 0
  | .tok _, _ => rfl
  | .node k cs, h => by rw [Tree.leaks]; exact leaksF_line cs k h
theorem leaksF_line {l : Nat} : ∀ (cs : List Tree) (k : SK), OnLine l (leavesF cs) → leaksF k cs = 0
  | [], _, _ => rfl
  | c :: cs, k, h => by
    rw [leavesF] at h
    have h1 : OnLine l c.leaves := fun t ht => h t (List.mem_append_left _ ht)
    have h2 : OnLine l (leavesF cs) := fun t ht => h t (List.mem_append_right _ ht)
    rw [leaksF, leaks_line c h1, wraps_line c h1, leaksF_line cs k h2]
    simp
end

theorem no_comma_end : ∀ k, checkG (fun (_ : Option Sym) s => some s) (fun o => k == .OutputExpressionList || o != some (.t .Comma))
    (Gram.spec k) none = true := by
  intro k; cases k <;> decide +kernel

theorem not_comma {k : SK} {cs : List Tree} (hC : Tree.Conforms (.node k cs)) (hk : k ≠ .OutputExpressionList) :
    cs.getLast?.map Tree.sym ≠ some (.t .Comma) := by
  have hs := checkG_sound (no_comma_end k) hC.1
  rw [foldl_last] at hs
  intro h
  simp [hk, h] at hs

/-- two parts on the same line look the same from outside -/
theorem looks_line {k : SK} {cs ds : List Tree} {l : Nat} (hk : k ≠ .OutputExpressionList)
    (h1 : Tree.Conforms (.node k cs)) (h2 : Tree.Conforms (.node k ds)) (e1 : Tree.hasEmpty (.node k cs) = false)
    (e2 : Tree.hasEmpty (.node k ds) = false) (l1 : OnLine l (leavesF cs)) (l2 : OnLine l (leavesF ds))
    (hdesc : ∀ j, j = .Description ∨ j = .DescriptionString → occursF j cs = occursF j ds) :
    Looks (.node k cs) (.node k ds) := by
  obtain ⟨x, xs, a1, a2⟩ := start_leaves _ e1
  obtain ⟨y, ys, b1, b2⟩ := start_leaves _ e2
  obtain ⟨u, c1, c2⟩ := end_leaves _ e1
  obtain ⟨v, d1, d2⟩ := end_leaves _ e2
  have hx := l1 x (start_mem a2)
  have hy := l2 y (start_mem b2)
  have hu := l1 u (end_mem c2)
  have hv := l2 v (end_mem d2)
  refine ⟨rfl, ?_, fun _ => ?_, fun h => (by cases h), ?_, ?_, ?_, ?_, ?_, ?_, hdesc _ (.inl rfl), ?_⟩
  · rw [a1, b1]; simp [hx.1, hy.1]
  · have one : ∀ es, OnLine l (leavesF es) → Tree.condWide (.node k es) = false := by
      intro es he
      have hsp : spansLines [Tree.node k es] = false := by
        simp only [spansLines, leavesF, Tree.leaves, List.append_nil]
        split
        · rename_i a b h1 h2
          have e1 := (he a (List.mem_of_mem_head? h1)).1
          have e2 := (he b (List.mem_of_getLast? h2)).2
          simp [e1, e2]
        · rfl
      rw [Tree.condWide, hsp, Bool.false_and]
    rw [one cs l1, one ds l2]
  · rw [c1, d1]; simp [hu.2, hv.2]
  · rw [a2, b2]; simp [hx.1, hy.1]
  · rw [c2, d2]; simp [hu.2, hv.2]
  · rw [wraps_line (.node k cs) l1, wraps_line (.node k ds) l2]
  · rw [leaks_line (.node k cs) l1, leaks_line (.node k ds) l2]
  · intro j hj
    simp only [Tree.occurs, hdesc j hj]
  · simp only [Tree.kids, not_comma h1 hk, not_comma h2 hk]

end Mofmt
