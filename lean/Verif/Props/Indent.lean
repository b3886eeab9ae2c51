import Verif.Proofs.LevelRun
import Verif.Props.Breaks
/-
Indentation: C46, and the exact form of C11.
-/
namespace Mofmt
open Lexical

/-- The file's output as groups, with the run. -/
theorem Formatted.traced {eol name src out : Text} {p : Parsed} (h : Formatted eol name src p out) :
    ∃ (ds : List (Dec × Token)) (cs : List Tree), out = groupsText (groupsOf eol p.comments ds) ++ eol ∧
      ds.map (·.2) = p.tokens ∧ buildTree p.tokens p.events = .ok (.node .StoredDefinition cs) ∧
      (cs = [] ∧ ds = [] ∨ Tree.Conforms (.node .StoredDefinition cs) ∧ Tree.hasEmpty (.node .StoredDefinition cs) = false ∧
        ∃ w es n, subOf (.node .StoredDefinition cs) .StoredDefinition {} none = .ok (w, es) ∧
          Walk ⟨.EOF, .none, 0, leavesF cs⟩ es ds ⟨.Semicolon, .none, n, []⟩) := by
  obtain ⟨lx, hl, l1, l2, l3⟩ := parse_lex h.parsed h.accepted
  have hw : WF (LS.init p.comments) p.tokens := l1 ▸ l2 ▸ lexed_wf hl
  obtain ⟨cs, c1, c2, c3, c4⟩ := accepted_tree h.parsed h.accepted
  by_cases hcs : cs = []
  · subst hcs
    obtain ⟨cs', ds, gs, a1, a2, a3, a4, a5, a6, a7, a8⟩ := h.groups
    have ht : p.tokens = [] := c2.symm
    rw [ht] at a4
    have hg : gs = [] := List.map_eq_nil_iff.mp a4
    subst hg
    exact ⟨[], [], a8, ht.symm, c1, .inl ⟨rfl, rfl⟩⟩
  · obtain ⟨w, es, ds, n, t1, t2, t3, t4, _⟩ := format_traced full_valid (by decide) (by decide) hcs c3 c4
      (by intro h; cases h)
    obtain ⟨marks, g1, g2⟩ := format_of_trace t1 t2 (c2 ▸ hw)
    have hd : ds.map (·.2) = p.tokens := by
      rw [← c2, t2.toks]
      simpa using t2.todo.symm
    refine ⟨ds, cs, ?_, hd, c1, .inr ⟨c4, by simp [Tree.hasEmpty, hcs, c3], w, es, n, t1, t2⟩⟩
    obtain ⟨t, h1, h2⟩ := h.text
    have := printMarks_scan (eol := eol) g2
    rw [List.reverse_reverse] at this
    simp only [prettyPrint, c1, Res.bind_ok, g1, this] at h1
    rw [h2]
    cases h1
    rw [LS.run_out]
    have : (LS.init p.comments).out.reverse = [] := rfl
    rw [this, List.nil_append, groups_text]
    rfl

theorem no_part {k : SK} {pre post : List Tree} {c : Tree} {n : Nat} {w : Bool}
    (h : Level (.node .StoredDefinition []) (.node k (pre ++ c :: post)) n w) : False := by
  have hp := level_part h
  generalize hl : pre ++ c :: post = l at hp
  cases hp with
  | here => cases pre <;> cases hl
  | there hc _ => cases hc

theorem row_not_op {k : SK} {p : Option Sym} {s : Sym} {b : Blank} (h : breakBefore k p s = some b) : operatorIn k s = false := by
  cases ho : operatorIn k s
  · rfl
  · unfold operatorIn at ho
    split at ho <;> first | cases h; done | cases ho

/-- all lines: the same groups and the same tree -/
theorem Formatted.levels {eol name src out : Text} {p : Parsed} (h : Formatted eol name src p out) :
    ∃ gs tree, out = groupsText gs ++ eol ∧ gs.map (·.tok) = p.tokens ∧ buildTree p.tokens p.events = .ok tree ∧
      (∀ prev g, Follows gs prev g →
        g.comments = [] ∧ (g.white = [] ∨ g.white = [' ']) ∨
        ∃ b n c w, Breaks eol b n prev g ∧ Part c tree ∧ c.start? = some g.tok ∧ Level tree c n w) ∧
      (∀ k pre c post n w, Level tree (.node k (pre ++ c :: post)) n w →
        ∀ b x, breakBefore k (pre.getLast?.map Tree.sym) c.sym = some b → c.start? = some x →
          ∃ prev g, g.tok = x ∧ Follows gs prev g ∧ Breaks eol b (levelIn k n w pre c post) prev g) ∧
      (∀ k pre x o y post n w, Level tree (.node k (pre ++ x :: o :: y :: post)) n w → operatorIn k o.sym = true →
        ∀ e op s, x.end? = some e → o.leaves = [op] → y.start? = some s → s.start.line > e.stop.line →
          ∃ g, g.tok = op ∧ Follows gs (some e) g ∧
            Breaks eol .Illegal (levelIn k n w (pre ++ [x]) o (y :: post)) (some e) g) := by
  obtain ⟨ds, cs, h1, h2, h3, h4⟩ := h.traced
  refine ⟨groupsOf eol p.comments ds, _, h1, by rw [groupsOf_tok, h2], h3, ?_, ?_, ?_⟩
  · rintro prev g ⟨a, b, hg, hp⟩
    rcases h4 with ⟨_, rfl⟩ | ⟨hC, hE, w, es, n, hrun, hw⟩
    · cases a <;> cases hg
    obtain ⟨da, d, t, dz, hd, rfl, rfl⟩ := groups_split hg
    rw [groupsOf_tok] at hp
    have hd' : d = .none ∨ d = .space ∨ ∃ bl m, d = .brk bl m := by cases d <;> simp
    rcases hd' with rfl | rfl | ⟨bl, m, rfl⟩
    · exact .inl ⟨rfl, .inl rfl⟩
    · exact .inl ⟨rfl, .inr rfl⟩
    · right
      have hb := depthOK (.node .StoredDefinition cs) _ hC hE 0 false .root _ {} none _ _ rfl rfl (by simp) hrun
      obtain ⟨c, n', w', g1, g2, g3⟩ := hw.brks hb (fun _ _ _ _ h => by cases h) bl m t (by rw [hd]; simp)
      cases Int.ofNat.inj g3
      refine ⟨bl, m, c, w', ?_, level_part g1, by rw [g2]; rfl, g1⟩
      rw [← hp]
      refine LS.group_breaks eol _ _ ?_ bl m t
      have := LS.run_last (LS.init p.comments) da none rfl
      simpa using this
  · intro k pre c post n w hl b x hb hx
    rcases h4 with ⟨rfl, _⟩ | ⟨hC, hE, w0, es, n0, hrun, hw⟩
    · exact (no_part hl).elim
    obtain ⟨da, dz, rfl, _⟩ := child_break hl hC hE rfl (by simp) rfl hrun rfl hw (b := b) hx (by
      intro a r r' q e L ha _ _ hr hA
      subst ha
      exact hA.row (row_not_op hb) b hb)
    obtain ⟨g, k1, k2, k3⟩ := groups_brk eol p.comments da dz b (levelIn k n w pre c post) x
    exact ⟨_, g, k1, k2, k3⟩
  · intro k pre x o y post n w hl ho e op s he hlo hs hlt
    have hassoc : pre ++ x :: o :: y :: post = (pre ++ [x]) ++ o :: (y :: post) := by simp
    rw [hassoc] at hl
    rcases h4 with ⟨rfl, _⟩ | ⟨hC, hE, w0, es, n0, hrun, hw⟩
    · exact (no_part hl).elim
    obtain ⟨c1, c2, _⟩ := level_run hl hC hE rfl (by simp) rfl hrun
    have hxo : o.start? = some op := by
      simp only [Tree.hasEmpty, Bool.or_eq_false_iff] at c2
      obtain ⟨z, zs, z1, z2⟩ := start_leaves o (hasEmptyF_mem c2.2 o (by simp))
      rw [hlo] at z1
      cases z1
      exact z2
    obtain ⟨j, js, rest, hy⟩ : ∃ k ds rest', y :: post = .node k ds :: rest' := by
      have := checkG_sound (op_next k) c1.1
      simp only [List.map_append, List.map_cons, List.map_nil] at this
      have := adj_pair this
      simp only [opNext, ho, Bool.not_true, Bool.false_or] at this
      cases y with
      | tok t => cases this
      | node k ds => exact ⟨k, ds, post, rfl⟩
    have hex : exprPart k = true := by
      unfold operatorIn at ho
      split at ho <;> first | rfl | cases ho
    obtain ⟨da, dz, rfl, hda⟩ := child_break hl hC hE rfl (by simp) rfl hrun rfl hw (b := .Illegal) hxo (by
      intro a r r' q e' L ha hq hrw hr hA
      subst ha
      have hq : q = some e := by rw [hq x (by simp), he]
      subst hq
      obtain ⟨t, z, rfl⟩ := op_lead (operatorIn_eq k _ ▸ ho) (by simp) ⟨j, js, rest, hy⟩ hr (by
        rw [nb_eq hs]; simp [lineOf, hlt])
      refine ⟨_, t, z, rfl, by split <;> simp [TEv.ind], ?_⟩
      have hwr : wrapsAt k (some x) o (some y) = true := by
        simp [wrapsAt, ho, he, hs, hlt]
      have hwt : wrappedAt k a.w (pre ++ [x]) o (y :: post) = true := by
        rw [wrappedAt, hex, wrapsTo_eq]
        simp [hwr]
      rw [hA.op ho, if_pos hex, levelIn, hwt]
      have hm : a.w = true → r.w = true := fun h => by rw [hrw hex, h]; rfl
      revert hm
      cases a.w <;> cases r.w <;> simp [b2i, net] <;> omega)
    obtain ⟨g, k1, k2, k3⟩ := groups_brk eol p.comments da dz .Illegal (levelIn k n w (pre ++ [x]) o (y :: post)) op
    rw [hda x (by simp), he] at k2 k3
    exact ⟨g, k1, k2, k3⟩

/-- **C46** The indentation of every line.  For every token of the output: it stays on the line of the token before it,
or it begins a line that is indented to the level of a part of the tree that begins with the token; so are the
comments on lines of their own in front of it. -/
theorem C46_lines (eol name src out : Text) (p : Parsed) (h : Formatted eol name src p out) :
    ∃ gs tree, out = groupsText gs ++ eol ∧ gs.map (·.tok) = p.tokens ∧ buildTree p.tokens p.events = .ok tree ∧
      ∀ prev g, Follows gs prev g →
        g.comments = [] ∧ (g.white = [] ∨ g.white = [' ']) ∨
        ∃ b n c w, Breaks eol b n prev g ∧ Part c tree ∧ c.start? = some g.tok ∧ Level tree c n w := by
  obtain ⟨gs, tree, h1, h2, h3, h4, h5, h6⟩ := h.levels
  exact ⟨gs, tree, h1, h2, h3, h4⟩

/-- **C46** The line breaks that are due to the structure of the file (C45), with their indentation. -/
theorem C46_breaks (eol name src out : Text) (p : Parsed) (h : Formatted eol name src p out) :
    ∃ gs tree, out = groupsText gs ++ eol ∧ gs.map (·.tok) = p.tokens ∧ buildTree p.tokens p.events = .ok tree ∧
      ∀ k pre c post n w, Level tree (.node k (pre ++ c :: post)) n w →
        ∀ b x, breakBefore k (pre.getLast?.map Tree.sym) c.sym = some b → c.start? = some x →
          ∃ prev g, g.tok = x ∧ Follows gs prev g ∧ Breaks eol b (levelIn k n w pre c post) prev g := by
  obtain ⟨gs, tree, h1, h2, h3, h4, h5, h6⟩ := h.levels
  exact ⟨gs, tree, h1, h2, h3, h5⟩

/-- **C46** The line breaks at binary operators (C44), with their indentation. -/
theorem C46_operators (eol name src out : Text) (p : Parsed) (h : Formatted eol name src p out) :
    ∃ gs tree, out = groupsText gs ++ eol ∧ gs.map (·.tok) = p.tokens ∧ buildTree p.tokens p.events = .ok tree ∧
      ∀ k pre x o y post n w, Level tree (.node k (pre ++ x :: o :: y :: post)) n w → operatorIn k o.sym = true →
        ∀ e op s, x.end? = some e → o.leaves = [op] → y.start? = some s → s.start.line > e.stop.line →
          ∃ g, g.tok = op ∧ Follows gs (some e) g ∧
            Breaks eol .Illegal (levelIn k n w (pre ++ [x]) o (y :: post)) (some e) g := by
  obtain ⟨gs, tree, h1, h2, h3, h4, h5, h6⟩ := h.levels
  exact ⟨gs, tree, h1, h2, h3, h6⟩

/-- **C46** Every part of the tree of an accepted file has exactly one level. -/
theorem C46_unique (eol name src out : Text) (p : Parsed) (h : Formatted eol name src p out) (tree : Tree)
    (ht : buildTree p.tokens p.events = .ok tree) (s : Tree) (hs : Part s tree) :
    (∃ n w, Level tree s n w) ∧ ∀ n w n' w', Level tree s n w → Level tree s n' w' → n = n' ∧ w = w' := by
  refine ⟨hs.level, ?_⟩
  obtain ⟨lx, hl, l1, l2, l3⟩ := parse_lex h.parsed h.accepted
  have hw : WF (LS.init p.comments) p.tokens := l1 ▸ l2 ▸ lexed_wf hl
  obtain ⟨cs, c1, c2, c3, c4⟩ := accepted_tree h.parsed h.accepted
  rw [c1] at ht
  cases ht
  intro n w n' w' h1 h2
  by_cases hcs : cs = []
  · subst hcs
    have key : ∀ {s n w}, Level (.node .StoredDefinition []) s n w → n = 0 ∧ w = false := by
      intro s n w hl
      cases hl with
      | root => exact ⟨rfl, rfl⟩
      | child hl => exact (no_part hl).elim
    obtain ⟨rfl, rfl⟩ := key h1
    obtain ⟨rfl, rfl⟩ := key h2
    exact ⟨rfl, rfl⟩
  · have hE : ∀ {t : Tree}, Part s t → t.hasEmpty = false → s.hasEmpty = false := by
      intro t hp
      induction hp with
      | here => exact id
      | there hc _ ih =>
        intro h
        simp only [Tree.hasEmpty, Bool.or_eq_false_iff] at h
        exact ih (hasEmptyF_mem h.2 _ hc)
    obtain ⟨x, xs, hx, _⟩ := start_leaves s (hE hs (by simp [Tree.hasEmpty, hcs, c3]))
    refine TopDown.unique (x := x) (by rw [hx]; simp) h1.topDown h2.topDown ?_
    rw [Tree.leaves, c2]
    exact hw.ts.imp fun h => h.1

/-- **C11** exactly: the number of indents that are not undone is the number of left-hand sides of equations, and of
lists before `:=`, that the source wraps at a binary operator. -/
theorem C11_exact (name src : Text) (p : Parsed) (h : parse name src .StoredDefinition = .ok p) (he : p.errors = []) :
    ∃ tree marks, buildTree p.tokens p.events = .ok tree ∧ format tree p.comments = .ok marks ∧
      marks.count .indent = marks.count .dedent + tree.leaks := by
  obtain ⟨lx, hl, l1, l2, l3⟩ := parse_lex h he
  have hw : WF (LS.init p.comments) p.tokens := l1 ▸ l2 ▸ lexed_wf hl
  obtain ⟨cs, c1, c2, c3, c4⟩ := accepted_tree h he
  by_cases hcs : cs = []
  · subst hcs
    obtain ⟨t, marks, out, a1, a2, a3⟩ := accepted_flat h he (by
      intro t ht
      rw [c1] at ht
      cases ht
      simp [Tree.NoWrap, NoWrapF, binKind])
    rw [c1] at a1
    cases a1
    refine ⟨_, marks, c1, a2, ?_⟩
    have := scan_count a3
    rw [List.count_reverse, List.count_reverse] at this
    simp [Tree.leaks, leaksF]
    omega
  · obtain ⟨w, es, ds, n, t1, t2, t3, t4, _⟩ := format_traced full_valid (by decide) (by decide) hcs c3 c4
      (by intro h; cases h)
    obtain ⟨marks, g1, g2⟩ := format_of_trace t1 t2 (c2 ▸ hw)
    refine ⟨_, marks, c1, g1, ?_⟩
    have hs := scan_count g2
    rw [List.count_reverse, List.count_reverse] at hs
    have hn := (netOK _ c4 (by simp [Tree.hasEmpty, hcs, c3])).net rfl t1
    have hl := t2.level
    simp only at hl
    simp only [netOf] at hn
    simp [exprPart] at hn
    omega

/-! ### Cases meeting the hypotheses -/

/-- a part of the tree and its level -/
def levelAt : List Nat → Tree → Nat → Bool → Option (Tree × Nat × Bool)
  | [], t, n, w => some (t, n, w)
  | _ :: _, .tok _, _, _ => none
  | i :: path, .node k cs, n, w => match cs.drop i with
    | [] => none
    | c :: post => levelAt path c (levelIn k n w (cs.take i) c post) (chainChild k c.sym && wrappedAt k w (cs.take i) c post)

theorem levelAt_sound {tree : Tree} : ∀ {path : List Nat} {t s : Tree} {n n' : Nat} {w w' : Bool}, Level tree t n w →
    levelAt path t n w = some (s, n', w') → Level tree s n' w'
  | [], t, s, n, n', w, w', hl, h => by cases h; exact hl
  | i :: path, .tok _, s, n, n', w, w', hl, h => by cases h
  | i :: path, .node k cs, s, n, n', w, w', hl, h => by
    rw [levelAt] at h
    split at h
    · cases h
    · rename_i c post hd
      refine levelAt_sound ?_ h
      refine Level.child ?_
      rw [← hd, List.take_append_drop]
      exact hl

def exSumPath : List Nat := [0, 1, 0, 1, 0, 0, 0, 1, 0, 0, 1, 1, 0, 0, 0, 0, 0, 0, 0]

theorem levelAt_some {tree : Tree} {path : List Nat} {k : SK} {n : Nat} {w : Bool}
    (h : (levelAt path tree 0 false).map (fun x => (x.1.sym, x.2.1, x.2.2)) = some (.n k, n, w)) :
    ∃ cs, levelAt path tree 0 false = some (.node k cs, n, w) ∧ Level tree (.node k cs) n w := by
  obtain ⟨⟨s, n', w'⟩, h1, h2⟩ := Option.map_eq_some_iff.mp h
  cases s with
  | tok t => cases h2
  | node k' cs =>
    cases h2
    exact ⟨cs, h1, levelAt_sound .root h1⟩

set_option maxRecDepth 100000 in
/-- A file with a sum on two lines: the sum is at level 1, its operator at level 2. -/
theorem C46_case : Formatted c!"\n" c!"f" exBrk exBrkP exBrkOut ∧
    buildTree exBrkP.tokens exBrkP.events = .ok exBrkTree ∧
    ∃ x o y e s, Level exBrkTree (.node .ArithmeticExpression ([] ++ x :: o :: y :: [])) 1 false ∧
      operatorIn .ArithmeticExpression o.sym = true ∧ x.end? = some e ∧ o.leaves.length = 1 ∧ y.start? = some s ∧
      s.start.line > e.stop.line ∧ levelIn .ArithmeticExpression 1 false ([] ++ [x]) o [y] = 2 := by
  refine ⟨C44_case.1, C44_case.2.1, ?_⟩
  obtain ⟨ks, h0, hl⟩ := levelAt_some (tree := exBrkTree) (path := exSumPath) (k := .ArithmeticExpression) (n := 1) (w := false)
    (by decide_cbv)
  have hs : (levelAt exSumPath exBrkTree 0 false).map (fun z => (z.1.kids.map Tree.sym,
      z.1.kids.map (fun c => c.leaves.length),
      match z.1.kids with | [x, o, y] => levelIn .ArithmeticExpression 1 false ([] ++ [x]) o [y] | _ => 0)) =
      some ([.n .Term, .n .AddOperator, .n .Term], [1, 1, 1], 2) := by decide_cbv
  have hs' : (levelAt exSumPath exBrkTree 0 false).map (fun z =>
      z.1.kids.map (fun c => (c.start?.map (·.start.line), c.end?.map (·.stop.line)))) =
      some [(some 2, some 2), (some 3, some 3), (some 3, some 3)] := by decide_cbv
  rw [h0] at hs hs'
  simp only [Option.map_some, Option.some.injEq, Prod.mk.injEq, Tree.kids] at hs hs'
  obtain ⟨h1, h2, h4⟩ := hs
  have h3 := hs'
  have hk : ∃ x o y, ks = [x, o, y] := by
    obtain ⟨x, _, rfl, _, h1⟩ := List.map_eq_cons_iff.mp h1
    obtain ⟨o, _, rfl, _, h1⟩ := List.map_eq_cons_iff.mp h1
    obtain ⟨y, _, rfl, _, h1⟩ := List.map_eq_cons_iff.mp h1
    exact ⟨x, o, y, by rw [List.map_eq_nil_iff.mp h1]⟩
  obtain ⟨x, o, y, rfl⟩ := hk
  simp only [List.map_cons, List.map_nil, List.cons.injEq, and_true, Prod.mk.injEq, Option.map_eq_some_iff] at h1 h2 h3
  obtain ⟨⟨_, e, he, hle⟩, _, ⟨s, hs, hls⟩, _⟩ := h3
  exact ⟨x, o, y, e, s, hl, by rw [h1.2.1]; rfl, he, h2.2.1, hs, by omega, h4⟩

def exListPath : List Nat := [0, 1, 0, 1, 0]

set_option maxRecDepth 100000 in
/-- The second element of the same file: a break with the indentation of level 1. -/
theorem C46_case_breaks : ∃ a s c s' x, Level exBrkTree (.node .ElementList ([a, s] ++ c :: [s'])) 1 false ∧
      breakBefore .ElementList ([a, s].getLast?.map Tree.sym) c.sym = some .Legal ∧ c.start? = some x ∧
      levelIn .ElementList 1 false [a, s] c [s'] = 1 := by
  obtain ⟨ks, h0, hl⟩ := levelAt_some (tree := exBrkTree) (path := exListPath) (k := .ElementList) (n := 1) (w := false)
    (by decide_cbv)
  have hs : (levelAt exListPath exBrkTree 0 false).map (fun z => (z.1.kids.map Tree.sym,
      z.1.kids.map (fun c => c.start?.isSome),
      match z.1.kids with | [a, s, c, s'] => levelIn .ElementList 1 false [a, s] c [s'] | _ => 0)) =
      some ([.n .Element, .t .Semicolon, .n .Element, .t .Semicolon], [true, true, true, true], 1) := by decide_cbv
  rw [h0] at hs
  simp only [Option.map_some, Option.some.injEq, Prod.mk.injEq, Tree.kids] at hs
  obtain ⟨h1, h2, h4⟩ := hs
  have hk : ∃ a s c s', ks = [a, s, c, s'] := by
    obtain ⟨a, _, rfl, _, h1⟩ := List.map_eq_cons_iff.mp h1
    obtain ⟨s, _, rfl, _, h1⟩ := List.map_eq_cons_iff.mp h1
    obtain ⟨c, _, rfl, _, h1⟩ := List.map_eq_cons_iff.mp h1
    obtain ⟨s', _, rfl, _, h1⟩ := List.map_eq_cons_iff.mp h1
    exact ⟨a, s, c, s', by rw [List.map_eq_nil_iff.mp h1]⟩
  obtain ⟨a, s, c, s', rfl⟩ := hk
  simp only [List.map_cons, List.map_nil, List.cons.injEq, and_true] at h1 h2
  obtain ⟨x, hx⟩ := Option.isSome_iff_exists.mp h2.2.2.1
  refine ⟨a, s, c, s', x, hl, ?_, hx, h4⟩
  simp [h1.2.2.1, h1.2.1, breakBefore]

set_option maxRecDepth 4000 in
/-- The file of `C11_false` has one indentation that is not undone. -/
theorem C11_case : ∃ p t, parse c!"f" exLeak .StoredDefinition = .ok p ∧ p.errors = [] ∧
    buildTree p.tokens p.events = .ok t ∧ t.leaks = 1 := by
  have h : (pipeline c!"f" exLeak).any (fun x => x.1.errors.isEmpty && x.2.1.leaks == 1) = true := by decide_cbv
  obtain ⟨⟨p, t, m⟩, hx, h⟩ := pipeline_any h
  obtain ⟨h1, h2, h3⟩ := pipeline_eq hx
  simp only [Bool.and_eq_true, List.isEmpty_iff, beq_iff_eq] at h
  exact ⟨p, t, h1, h.1, h2, h.2⟩

#print axioms C46_lines
#print axioms C46_breaks
#print axioms C46_operators
#print axioms C46_unique
#print axioms C46_case
#print axioms C46_case_breaks
#print axioms C11_exact
#print axioms C11_case

end Mofmt
