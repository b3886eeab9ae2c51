import Verif.Props.Blocks
/-
C71: one indentation per expression.
-/
namespace Mofmt

/-! ### Specification -/

/-- expressions -/
def exprSym : Sym → Bool
  | .n k => exprPart k
  | .t _ => false

/-- The part `s` belongs to the expression `e`: operands, and the expressions in parentheses.  Arguments, subscripts and the
branches of conditional expressions are other expressions. -/
inductive Within (e : Tree) : Tree → Prop
  | self : Within e e
  | child {k pre c post} : Within e (.node k (pre ++ c :: post)) → chainChild k c.sym = true → Within e c

/-- `op` is a binary operator of the expression `e`; in the source, its operands are on different lines. -/
def WrappedOp (e : Tree) (op : Token) : Prop :=
  ∃ k pre x o y post a b, Within e (.node k (pre ++ x :: o :: y :: post)) ∧ operatorIn k o.sym = true ∧ o.leaves = [op] ∧
    x.end? = some a ∧ y.start? = some b ∧ b.start.line > a.stop.line

/-- The token begins a line of the output; the line is indented by `n` levels, and there is no empty line before it. -/
def OwnLine (eol : Text) (gs : List Group) (op : Token) (n : Nat) : Prop :=
  ∃ prev g, g.tok = op ∧ Follows gs prev g ∧ Breaks eol .Illegal n prev g

/-- equations, statements and blocks -/
def itemKind : SK → Bool
  | .Equation | .Statement => true
  | k => blockKind k

/-! ### Proofs -/

/-- an expression of one part has nothing beside it -/
theorem expr_alone : checkG (adjStep fun _ s => s != .n .SimpleExpression) (fun st => st.2) (Gram.spec .Expression) (none, true) = true := by
  decide +kernel

/-- what can occur in expressions -/
def inExpr : SK → Bool
  | .Expression | .SimpleExpression | .LogicalExpression | .LogicalTerm | .LogicalFactor | .Relation
  | .ArithmeticExpression | .RelationalOperator | .AddOperator | .Term | .Factor | .MulOperator | .Primary
  | .ComponentReference | .FunctionCallArgs | .OutputExpressionList | .ArraySubscripts | .ExpressionList | .ArrayArguments
  | .FunctionArguments | .Subscript | .ArrayArgumentsNonFirst | .ForIndices | .FunctionArgumentsNonFirst
  | .FunctionPartialApplication | .NamedArguments | .ForIndex | .FunctionArgument | .TypeSpecifier | .NamedArgument
  | .Name => true
  | _ => false

def inExprS : Sym → Bool
  | .n k => inExpr k
  | .t _ => true

theorem inExpr_closed : ∀ k, inExpr k = true → (Gram.spec k).syms.all inExprS = true := by
  intro k hk; cases k <;> first | (cases hk; done) | decide +kernel

theorem inExpr_leak : ∀ k s, inExpr k = true → leakChild k s = false := by
  intro k s hk; cases k <;> first | (cases hk; done) | rfl

mutual
theorem expr_leaks : ∀ (t : Tree), t.Conforms → inExprS t.sym = true → t.leaks = 0
  | .tok _, _, _ => rfl
  | .node k cs, hC, hk => by
    rw [Tree.leaks]
    exact expr_leaksF k hk cs hC.2 fun s hs =>
      List.all_eq_true.1 (inExpr_closed k hk) _ (syms_complete hC.1 s hs)
theorem expr_leaksF (k : SK) (hk : inExpr k = true) : ∀ (cs : List Tree), ConformsF cs →
    (∀ s ∈ cs.map Tree.sym, inExprS s = true) → leaksF k cs = 0
  | [], _, _ => rfl
  | c :: cs, hC, hs => by
    rw [leaksF, inExpr_leak k _ hk, expr_leaks c hC.1 (hs _ (by simp)),
      expr_leaksF k hk cs hC.2 fun s h => hs s (by rw [List.map_cons]; exact List.mem_cons_of_mem _ h)]
    rfl
end

theorem exprPart_in : ∀ k, exprPart k = true → inExpr k = true := by
  intro k hk; cases k <;> first | (cases hk; done) | rfl

theorem chain_extra : ∀ k s, chainChild k s = true → ∀ p a b c d, extraIn k p s a b c d = 0 := by
  intro k s h p a b c d
  unfold chainChild at h
  split at h <;> first | (cases h; done) | rfl

/-- before a child of an expression, no indentation is left over -/
theorem expr_pre {k : SK} {pre post : List Tree} {c : Tree} (hC : Tree.Conforms (.node k (pre ++ c :: post)))
    (hk : exprPart k = true) : leaksF k pre = 0 := by
  have := expr_leaks _ hC (exprPart_in k hk)
  rw [Tree.leaks] at this
  exact (leaksF_split this).1

theorem Within.part {e s : Tree} (h : Within e s) : Part s e := by
  induction h with
  | self => exact .here
  | child _ _ ih => exact (Part.there (by simp) .here).trans ih

theorem Within.level {tree e : Tree} (hC : tree.Conforms) {n : Nat} (hl : Level tree e n false) {s : Tree} (h : Within e s) :
    ∃ w, Level tree s (n + if w then 1 else 0) w := by
  induction h with
  | self => exact ⟨false, hl⟩
  | @child k pre c post _ hc ih =>
    obtain ⟨w, ih⟩ := ih
    have hk := chain_expr k _ hc
    have h1 := Level.child ih
    rw [hc, Bool.true_and, levelIn, extra, chain_extra k _ hc, expr_pre ((level_part ih).conforms hC) hk] at h1
    refine ⟨wrappedAt k w pre c post, ?_⟩
    have : (n + if w then 1 else 0) + 0 + (if wrappedAt k w pre c post && !w then 1 else 0) + 0 =
        n + if wrappedAt k w pre c post then 1 else 0 := by
      cases w
      · simp
      · simp [wrappedAt, hk]
    rw [← this]
    exact h1

theorem op_expr : ∀ k s, operatorIn k s = true → exprPart k = true ∧ ∀ p a b c d, extraIn k p s a b c d = 0 := by
  intro k s ho
  unfold operatorIn at ho
  split at ho <;> first | exact ⟨rfl, fun _ _ _ _ _ => rfl⟩ | cases ho

/-- what is known about operators in the output -/
def Opped (eol : Text) (gs : List Group) (tree : Tree) : Prop :=
  ∀ k pre x o y post n w, Level tree (.node k (pre ++ x :: o :: y :: post)) n w → operatorIn k o.sym = true →
    ∀ e op s, x.end? = some e → o.leaves = [op] → y.start? = some s → s.start.line > e.stop.line →
      ∃ g, g.tok = op ∧ Follows gs (some e) g ∧ Breaks eol .Illegal (levelIn k n w (pre ++ [x]) o (y :: post)) (some e) g

theorem Formatted.opped {eol name src out : Text} {p : Parsed} (h : Formatted eol name src p out) :
    ∃ gs tree, out = groupsText gs ++ eol ∧ gs.map (·.tok) = p.tokens ∧ buildTree p.tokens p.events = .ok tree ∧
      tree.sym = .n .StoredDefinition ∧
      (∀ s, Part s tree → s ≠ tree → tree.Conforms ∧ tree.hasEmpty = false) ∧ Lined eol gs tree ∧ Opped eol gs tree := by
  obtain ⟨gs, tree, h1, h2, h3, _, h5, h6⟩ := h.levels
  obtain ⟨_, tree', _, _, h3', hr, h7, _⟩ := h.lined
  rw [h3] at h3'
  cases h3'
  exact ⟨gs, tree, h1, h2, h3, hr, h7, h5, h6⟩

theorem wrapped_ops {eol : Text} {gs : List Group} {tree : Tree} (h4 : Opped eol gs tree)
    (h5 : ∀ s, Part s tree → s ≠ tree → tree.Conforms ∧ tree.hasEmpty = false) (hr : tree.sym = .n .StoredDefinition)
    {e : Tree} {n : Nat} (hl : Level tree e n false) {op : Token} (h : WrappedOp e op) : OwnLine eol gs op (n + 1) := by
  obtain ⟨k, pre, x, o, y, post, a, b, hw, ho, hop, ha, hb, hlt⟩ := h
  obtain ⟨hk, hx⟩ := op_expr k _ ho
  have hne : Tree.node k (pre ++ x :: o :: y :: post) ≠ tree := by
    rintro rfl
    cases hr
    cases hk
  obtain ⟨hC, _⟩ := h5 _ (hw.part.trans (level_part hl)) hne
  obtain ⟨w, hl'⟩ := hw.level hC hl
  obtain ⟨g, g1, g2, g3⟩ := h4 k pre x o y post _ w hl' ho a op b ha hop hb hlt
  refine ⟨_, g, g1, g2, ?_⟩
  have hassoc : pre ++ x :: o :: y :: post = (pre ++ [x]) ++ o :: (y :: post) := by simp
  have hCp := (level_part hl').conforms hC
  rw [hassoc] at hCp
  have hwr : wrapsAt k (some x) o (some y) = true := by
    simp [wrapsAt, ho, ha, hb, hlt]
  have hwt : wrappedAt k w (pre ++ [x]) o (y :: post) = true := by
    rw [wrappedAt, hk, wrapsTo_eq]
    simp [hwr]
  have hlev : levelIn k (n + if w then 1 else 0) w (pre ++ [x]) o (y :: post) = n + 1 := by
    rw [levelIn, extra, hx, hwt, expr_pre hCp hk]
    cases w <;> simp
  rw [hlev] at g3
  exact g3

/-- **C71** One indentation per expression.  If an expression that is not a part of another one is wrapped in the source at
binary operators, all these operators begin lines that are indented by the same amount: one level deeper than the
expression. -/
theorem C71_expressions (eol name src out : Text) (p : Parsed) (h : Formatted eol name src p out) :
    ∃ gs tree, out = groupsText gs ++ eol ∧ gs.map (·.tok) = p.tokens ∧ buildTree p.tokens p.events = .ok tree ∧
      ∀ k pre e post, Part (.node k (pre ++ e :: post)) tree → chainChild k e.sym = false →
        ∃ n, Level tree e n false ∧ ∀ op, WrappedOp e op → OwnLine eol gs op (n + 1) := by
  obtain ⟨gs, tree, h1, h2, h3, hr, h4, hL, hO⟩ := h.opped
  refine ⟨gs, tree, h1, h2, h3, ?_⟩
  intro k pre e post hp hc
  obtain ⟨n, w, hl⟩ := hp.level
  have hl' := Level.child hl
  rw [hc, Bool.false_and] at hl'
  exact ⟨_, hl', fun op => wrapped_ops hO h4 hr hl'⟩

theorem item_extra {k : SK} (hk : itemKind k = true) {s : Sym} (hs : exprSym s = true) (p : Option Sym) (a b c d : Bool) :
    extraIn k p s a b c d = if s = .n .Expression ∧ (k = .Equation ∨ k = .Statement) ∧ d = true then 1 else 0 := by
  cases s with
  | t _ => cases hs
  | n j =>
    cases k <;> first
      | (cases hk; done)
      | (cases j <;> first | (cases hs; done) | (cases d <;> rfl))

theorem item_plain {k : SK} (hk : itemKind k = true) : exprPart k = false := by
  cases k <;> first | rfl | cases hk

/-- conditional expressions have no operators -/
theorem if_no_op {e : Tree} (hC : e.Conforms) (hs : e.sym = .n .Expression) {t : Token} (ht : e.start? = some t)
    (hk : t.kind = .If) {op : Token} (h : WrappedOp e op) : False := by
  obtain ⟨k, pre, x, o, y, post, a, b, hw, ho, _⟩ := h
  have key : ∀ s, Within e s → s = e := by
    intro s h
    induction h with
    | self => rfl
    | @child k pre c post h' hc ih =>
      subst ih
      cases hs
      obtain ⟨ds, hd⟩ := expr_if hC ht hk
      have hcs : c.sym = .n .SimpleExpression := by
        unfold chainChild at hc
        split at hc <;> first | (cases hc; done) | skip
        all_goals first | (rename_i h1 h2; exact h2) | skip
        all_goals rename_i h1 _; cases h1
      exfalso
      cases hq : pre.getLast? with
      | none =>
        rw [List.getLast?_eq_none_iff] at hq
        subst hq
        cases hd
        cases hcs
      | some q =>
        have := adj_child expr_alone hC hq
        rw [hcs] at this
        cases this
  have := key _ hw
  subst this
  cases hs
  cases ho

/-- **C71** The lines that begin with binary operators in equations and statements, and in the conditions of `if`, `when`
and `while`: they are indented one level deeper than the line with which the equation, the statement or the block begins.
Missing: expressions after the wrapped left hand side of an equation or a statement are indented deeper (C11), see
`C71_items_false`. -/
theorem C71_items_partial (eol name src out : Text) (p : Parsed) (h : Formatted eol name src p out) :
    ∃ gs tree, out = groupsText gs ++ eol ∧ gs.map (·.tok) = p.tokens ∧ buildTree p.tokens p.events = .ok tree ∧
      ∀ k cs, Part (.node k cs) tree → itemKind k = true →
        ∃ n, BeginsLine eol gs (.node k cs) n ∧
          ∀ pre e post, cs = pre ++ e :: post → exprSym e.sym = true → leaksF k pre = 0 →
            ∀ op, WrappedOp e op → OwnLine eol gs op (n + 1) := by
  obtain ⟨gs, tree, h1, h2, h3, hr, h4, hL, hO⟩ := h.opped
  refine ⟨gs, tree, h1, h2, h3, ?_⟩
  intro k cs hp hk
  have hne : Tree.node k cs ≠ tree := by
    rintro rfl
    cases hr
    cases hk
  obtain ⟨hC, hE⟩ := h4 _ hp hne
  obtain ⟨n, w, hl⟩ := hp.level
  refine ⟨n, ?_, ?_⟩
  · have hc : blockKind k = true ∨ blockItem (.n k) = true := by
      unfold itemKind at hk
      split at hk <;> simp_all [blockItem]
    rcases hc with hc | hc
    · exact block_begins hL hC hE hr hc hl
    · exact item_begins (s := .node k cs) hL hC hE hr hc hl
  · rintro pre e post rfl he h0 op hw
    have hl' := Level.child hl
    have hCe := (level_part hl').conforms hC
    rw [levelIn, extra, item_extra hk he, wrappedAt, item_plain hk, h0] at hl'
    split at hl'
    · rename_i hif
      obtain ⟨i1, _, i3⟩ := hif
      obtain ⟨x, xs, hx1, hx2⟩ := start_leaves e ((level_part (Level.child hl)).full hE)
      simp only [hx1, Bool.and_eq_true, decide_eq_true_eq, List.head?_cons, Option.map_some, Option.some.injEq] at i3
      exact (if_no_op hCe i1 hx2 i3.2 hw).elim
    · simp only [Bool.false_and, Bool.and_false, Nat.add_zero, Bool.false_eq_true, if_false] at hl'
      exact wrapped_ops hO h4 hr hl' hw

/-! ### Concrete cases -/

/-- the part of an expression at some path -/
def walkIn : Tree → List Nat → Option Tree
  | t, [] => some t
  | .tok _, _ :: _ => none
  | .node k cs, i :: is => match cs.drop i with
    | [] => none
    | c :: _ => if chainChild k c.sym then walkIn c is else none

theorem walkIn_sound {e : Tree} : ∀ (is : List Nat) (t : Tree), Within e t → ∀ s, walkIn t is = some s → Within e s
  | [], t, h, s, hw => by cases t <;> cases hw <;> exact h
  | i :: is, .tok _, h, s, hw => by cases hw
  | i :: is, .node k cs, h, s, hw => by
    rw [walkIn] at hw
    split at hw
    · cases hw
    · rename_i c post hd
      have hcs : cs = cs.take i ++ c :: post := by rw [← hd, List.take_append_drop]
      split at hw
      · rename_i hc
        refine walkIn_sound is c ?_ s hw
        generalize cs.take i = pre at hcs
        subst hcs
        exact Within.child h hc
      · cases hw

/-- the operator among the children of a production from the index `i` on, if it is wrapped -/
def opAt (i : Nat) : Option Tree → Option Token
  | some (.node k cs) => match cs.drop i with
    | x :: o :: y :: _ => match o.leaves, x.end?, y.start? with
      | [op], some a, some b => if operatorIn k o.sym && decide (b.start.line > a.stop.line) then some op else none
      | _, _, _ => none
    | _ => none
  | _ => none

theorem opAt_sound {e : Tree} {is : List Nat} {i : Nat} {op : Token} (h : opAt i (walkIn e is) = some op) : WrappedOp e op := by
  unfold opAt at h
  split at h
  · rename_i k cs hw
    split at h
    · rename_i x o y post hd
      split at h
      · rename_i op' a b h1 h2 h3
        split at h
        · rename_i hc
          cases h
          rw [Bool.and_eq_true, decide_eq_true_eq] at hc
          have hcs : cs = cs.take i ++ x :: o :: y :: post := by rw [← hd, List.take_append_drop]
          refine ⟨k, cs.take i, x, o, y, post, a, b, ?_, hc.1, h1, h2, h3, hc.2⟩
          rw [← hcs]
          exact walkIn_sound is e .self _ hw
        · cases h
      · cases h
    · cases h
  · cases h

def exWrapped : Text := c!"model A\nequation\nx = 1\n+ (2\n* y)\n- z;\nend A;"
def exWrappedOut : Text := c!"model A\n\nequation\n\n  x = 1\n    + (2\n    * y)\n    - z;\n\nend A;\n"
def exWrappedP : Parsed := match parse c!"f" exWrapped .StoredDefinition with | .ok p => p | _ => ⟨[], [], [], []⟩
def exWrappedTree : Tree := resTree (buildTree exWrappedP.tokens exWrappedP.events)
def exWrappedEq : List Tree := kidsOf (exWrappedTree.find .Equation)
/-- the right hand side of the example -/
def exWrappedRight : Tree := ((exWrappedEq.drop 2).head?).getD (.node .Name [])

theorem three : ∀ (cs : List Tree) (d : Tree), cs.length = 3 → cs = cs.take 2 ++ ((cs.drop 2).head?).getD d :: cs.drop 3
  | [_, _, _], _, _ => rfl

set_option maxRecDepth 100000 in
set_option maxHeartbeats 2000000 in
theorem C71_case : Formatted c!"\n" c!"f" exWrapped exWrappedP exWrappedOut ∧
    buildTree exWrappedP.tokens exWrappedP.events = .ok exWrappedTree ∧
    Part (.node .Equation exWrappedEq) exWrappedTree ∧ itemKind .Equation = true ∧
    exWrappedEq = exWrappedEq.take 2 ++ exWrappedRight :: exWrappedEq.drop 3 ∧ exprSym exWrappedRight.sym = true ∧
    leaksF .Equation (exWrappedEq.take 2) = 0 ∧ chainChild .Equation exWrappedRight.sym = false ∧
    ∀ s ∈ [c!"+", c!"*", c!"-"], ∃ op, op.text = s ∧ WrappedOp exWrappedRight op := by
  refine ⟨⟨by decide_cbv, by decide_cbv, exWrappedOut.dropLast, by decide_cbv, by decide⟩, resTree_ok (by decide_cbv),
    find_kind _ (by decide_cbv), rfl, three _ _ (by decide_cbv), by decide_cbv, by decide_cbv, by decide_cbv, ?_⟩
  have key : ∀ (is : List Nat) (i : Nat) (s : Text), (opAt i (walkIn exWrappedRight is)).map Token.text = some s →
      ∃ op, op.text = s ∧ WrappedOp exWrappedRight op := by
    intro is i s h
    cases ho : opAt i (walkIn exWrappedRight is) with
    | none => rw [ho] at h; cases h
    | some op =>
      rw [ho] at h
      exact ⟨op, by simpa using h, opAt_sound ho⟩
  simp only [List.mem_cons, List.not_mem_nil, or_false]
  rintro s (rfl | rfl | rfl)
  · exact key [0, 0, 0, 0, 0, 0] 0 _ (by decide_cbv)
  · exact key [0, 0, 0, 0, 0, 0, 2, 0, 0, 1, 0, 0, 0, 0, 0, 0, 0, 0] 0 _ (by decide_cbv)
  · exact key [0, 0, 0, 0, 0, 0] 2 _ (by decide_cbv)

def exTwiceDeep : Text := c!"model A\nequation\na\n+ b = c\n+ d;\nend A;"
def exTwiceDeepOut : Text := c!"model A\n\nequation\n\n  a\n    + b = c\n      + d;\n\n  end A;\n"

set_option maxRecDepth 100000 in
/-- **C71** After a wrapped left hand side, the operators on the right hand side are two levels deeper than the equation. -/
theorem C71_items_false : ∃ p, Formatted c!"\n" c!"f" exTwiceDeep p exTwiceDeepOut ∧
    exTwiceDeepOut = c!"model A\n\nequation\n\n" ++ c!"  a\n" ++ c!"    + b = c\n" ++ c!"      + d;\n" ++ c!"\n  end A;\n" :=
  ⟨match parse c!"f" exTwiceDeep .StoredDefinition with | .ok p => p | _ => ⟨[], [], [], []⟩,
    ⟨by decide_cbv, by decide_cbv, exTwiceDeepOut.dropLast, by decide_cbv, by decide⟩, by decide⟩

#print axioms C71_expressions
#print axioms C71_items_partial
#print axioms C71_case
#print axioms C71_items_false

end Mofmt
