import Verif.Proofs.ListItems
/-
Lists: C48 and C49.
-/
namespace Mofmt

theorem Put.stands {tree it : Tree} {b : Bool} (h : Put tree b it) (hC : tree.Conforms) (hE : tree.hasEmpty = false) (eol : Text)
    (comments : List Token) : Stands eol (groupsOf eol comments tree.wholeLayout) b it := by
  obtain ⟨n, w, m, d, hA, hd, hq⟩ := h
  obtain ⟨x, xs, hx, hs⟩ := start_leaves it (hA.part.full hE)
  obtain ⟨da, dz, hl⟩ := hA.layout
  obtain ⟨dz', h'⟩ := layout_quiet it (hA.part.conforms hC) (hA.part.full hE) hq n w m d x hs
  rw [h', List.cons_append] at hl
  rw [hl]
  cases b with
  | true =>
    obtain ⟨l, rfl⟩ : ∃ n, d = .brk .Illegal n := by simpa [DecOK] using hd
    obtain ⟨g, k1, k2, k3⟩ := groups_brk eol comments da (dz' ++ dz) .Illegal l x
    exact ⟨x, _, g, hs, k1, k2, l, k3⟩
  | false =>
    have hd : d = .none ∨ d = .space := by simpa [DecOK] using hd
    have hc : Calm d := by rcases hd with rfl | rfl <;> trivial
    refine ⟨x, _, _, hs, rfl, groups_calm eol comments da (dz' ++ dz) d x hc, rfl, ?_⟩
    rcases hd with rfl | rfl
    · exact .inl rfl
    · exact .inr rfl

/-- the output with the tree -/
theorem Formatted.laid {eol name src out : Text} {p : Parsed} (h : Formatted eol name src p out) :
    ∃ cs, buildTree p.tokens p.events = .ok (.node .StoredDefinition cs) ∧
      out = groupsText (groupsOf eol p.comments (Tree.wholeLayout (.node .StoredDefinition cs))) ++ eol ∧
      (groupsOf eol p.comments (Tree.wholeLayout (.node .StoredDefinition cs))).map (·.tok) = p.tokens ∧
      InOrder (leavesF cs) ∧
      (cs = [] ∨ Tree.Conforms (.node .StoredDefinition cs) ∧ Tree.hasEmpty (.node .StoredDefinition cs) = false) := by
  obtain ⟨ds, cs, h1, h2, h3, h4⟩ := h.traced
  have hds : ds = (Tree.node .StoredDefinition cs).wholeLayout := by
    rcases h4 with ⟨rfl, rfl⟩ | ⟨hC, hE, w, es, n, hrun, hw⟩
    · rfl
    · exact traced_layout hC hE hrun hw
  subst hds
  refine ⟨cs, h3, h1, by rw [groupsOf_tok, h2], ?_, ?_⟩
  · obtain ⟨lx, hl, l1, l2, l3⟩ := parse_lex h.parsed h.accepted
    have hw : WF (LS.init p.comments) p.tokens := l1 ▸ l2 ▸ lexed_wf hl
    obtain ⟨cs', c1, c2, c3, c4⟩ := accepted_tree h.parsed h.accepted
    rw [h3] at c1
    cases c1
    rw [c2]
    exact ⟨hw.ts.imp fun h => h.2, fun t ht => (hw.tl t ht).2⟩
  · rcases h4 with ⟨rfl, _⟩ | ⟨hC, hE, _⟩
    · exact .inl rfl
    · exact .inr ⟨hC, hE⟩

theorem Part.inOrder {k : SK} {cs : List Tree} {tree : Tree} (h : Part (.node k cs) tree) :
    InOrder tree.leaves → InOrder (leavesF cs) := by
  generalize hs : Tree.node k cs = s at h
  induction h with
  | here => subst hs; exact id
  | @there j ds c hc _ ih =>
    intro h
    obtain ⟨pre, post, rfl⟩ := List.append_of_mem hc
    refine ih ?_
    rw [Tree.leaves, leavesF_append, leavesF, ← List.append_assoc] at h
    exact h.part

theorem part_nil {k j : SK} {cs : List Tree} (h : Part (.node k cs) (.node j [])) : cs = [] := by
  generalize hs : Tree.node k cs = s at h
  cases h with
  | here => cases hs; rfl
  | there hc _ => cases hc

/-- **C48** Lists are wrapped as a whole: either every item of a list begins a line, or every item stands on the line of
the token before it. -/
theorem C48_lists_partial (eol name src out : Text) (p : Parsed) (h : Formatted eol name src p out) :
    ∃ gs tree, out = groupsText gs ++ eol ∧ gs.map (·.tok) = p.tokens ∧ buildTree p.tokens p.events = .ok tree ∧
      ∀ k cs, Part (.node k cs) tree → ∀ it ∈ listItems k cs, Stands eol gs (listWrapped k cs) it := by
  obtain ⟨ts, h1, h2, h3, h4, h5⟩ := h.laid
  refine ⟨_, _, h2, h3, h1, ?_⟩
  intro k cs hp it hi
  rcases h5 with rfl | ⟨hC, hE⟩
  · rw [part_nil hp] at hi
    simp [listItems, inside, itemsF] at hi
  · obtain ⟨n, w, m, d, hA⟩ := hp.at
    exact (list_items rfl hC hA (hp.inOrder h4) hi).stands hC hE eol p.comments

/-- **C48** A list is wrapped if there is a line break anywhere in it, in nested lists too (a list of components must
have several). -/
theorem C48_nested_partial (eol name src out : Text) (p : Parsed) (h : Formatted eol name src p out) :
    ∃ gs tree, out = groupsText gs ++ eol ∧ gs.map (·.tok) = p.tokens ∧ buildTree p.tokens p.events = .ok tree ∧
      ∀ k cs, Part (.node k cs) tree → (k = .ComponentList → cs.length > 1) →
        ∀ a ∈ leavesF (inside k cs), ∀ b ∈ leavesF (inside k cs), a.start.line < b.stop.line →
          ∀ it ∈ listItems k cs, Stands eol gs true it := by
  obtain ⟨gs, tree, h1, h2, h3, h4⟩ := C48_lists_partial eol name src out p h
  obtain ⟨ts, g1, g2, g3, g4, g5⟩ := h.laid
  rw [g1] at h3
  cases h3
  refine ⟨gs, _, h1, h2, g1, ?_⟩
  intro k cs hp hk a ha b hb hab it hi
  have := h4 k cs hp it hi
  rcases g5 with rfl | ⟨hC, hE⟩
  · rw [part_nil hp] at hi
    simp [listItems, inside, itemsF] at hi
  · rwa [wrapped_of (hp.conforms hC) (hp.inOrder g4) hk ha hb hab] at this

/-- **C48** A list on one line without descriptions is not wrapped. -/
theorem C48_one_line (eol name src out : Text) (p : Parsed) (h : Formatted eol name src p out) :
    ∃ gs tree, out = groupsText gs ++ eol ∧ gs.map (·.tok) = p.tokens ∧ buildTree p.tokens p.events = .ok tree ∧
      ∀ k cs, Part (.node k cs) tree → occursF .DescriptionString cs = false → occursF .Description cs = false →
        (∀ a ∈ leavesF cs, ∀ b ∈ leavesF cs, b.stop.line ≤ a.start.line) →
          ∀ it ∈ listItems k cs, Stands eol gs false it := by
  obtain ⟨gs, tree, h1, h2, h3, h4⟩ := C48_lists_partial eol name src out p h
  refine ⟨gs, tree, h1, h2, h3, ?_⟩
  intro k cs hp hd1 hd2 hl it hi
  have := h4 k cs hp it hi
  have hs : spansLines cs = false := by
    cases hs : spansLines cs
    · rfl
    · obtain ⟨a, ha, b, hb, hab⟩ := spans_inv hs
      have := hl a ha b hb
      omega
  have hb : ∀ op cl, bracketsApart op cl cs = false := by
    intro op cl
    cases hb : bracketsApart op cl cs
    · rfl
    · exact absurd hb (by
        rw [bracketsApart]
        have key : ∀ {t l} (cs : List Tree), lineOfTok t cs = some l → ∃ x ∈ leavesF cs, x.start.line = l := by
          intro t l cs
          induction cs with
          | nil => intro h; cases h
          | cons c cs ih =>
            intro h
            cases c with
            | node k ds =>
              obtain ⟨x, hx, hl⟩ := ih h
              exact ⟨x, by simp [leavesF, hx], hl⟩
            | tok y =>
              rw [lineOfTok] at h
              split at h
              · cases h
                exact ⟨y, by simp [leavesF, Tree.leaves], rfl⟩
              · obtain ⟨x, hx, hl⟩ := ih h
                exact ⟨x, by simp [leavesF, hx], hl⟩
        split
        · rename_i a b ha hb
          obtain ⟨x, hx, rfl⟩ := key cs ha
          obtain ⟨y, hy, rfl⟩ := key cs hb
          have g1 := hl x hx y hy
          have g2 : y.start.line ≤ y.stop.line := by
            obtain ⟨ts, g1, g2, g3, g4, g5⟩ := h.laid
            rw [g1] at h3
            cases h3
            exact (hp.inOrder g4).2 y hy
          simp
          omega
        · simp)
  have hw : listWrapped k cs = false := by
    have hin : occursF .Description (inside k cs) = false := by
      have hsub : ∀ c ∈ inside k cs, c ∈ cs := by
        intro c hc
        rw [inside] at hc
        split at hc
        · exact hc
        · exact (List.dropWhile_sublist _).subset (List.mem_of_mem_drop ((List.takeWhile_sublist _).subset hc))
      have key : ∀ {l : List Tree}, (∀ c ∈ l, c.occurs .Description = false) ↔ occursF .Description l = false := by
        intro l
        induction l with
        | nil => simp [occursF]
        | cons c l ih => simp [occursF, ih]
      exact key.1 fun c hc => key.2 hd2 c (hsub c hc)
    unfold listWrapped
    split <;> simp [hs, hb, hd1, hd2, hin]
  rwa [hw] at this

/-- **C48** The rows of a matrix with several rows: the elements after the first one begin lines exactly if the row
is on several lines. -/
theorem C48_rows (eol name src out : Text) (p : Parsed) (h : Formatted eol name src p out) :
    ∃ gs tree, out = groupsText gs ++ eol ∧ gs.map (·.tok) = p.tokens ∧ buildTree p.tokens p.events = .ok tree ∧
      ∀ cs, Part (.node .Primary cs) tree → cs.length > 3 → ∀ pre e post, e.isNode = true → pre ≠ [] →
        .node .ExpressionList (pre ++ e :: post) ∈ cs → Stands eol gs (spansLines (pre ++ e :: post)) e := by
  obtain ⟨ts, h1, h2, h3, h4, h5⟩ := h.laid
  refine ⟨_, _, h2, h3, h1, ?_⟩
  intro cs hp hl pre e post he hpre hm
  rcases h5 with rfl | ⟨hC, hE⟩
  · rw [part_nil hp] at hm
    cases hm
  · obtain ⟨n, w, m, d, hA⟩ := hp.at
    obtain ⟨x, y, rfl⟩ := List.append_of_mem hm
    have hA := hA.child
    have hCr := hA.part.conforms hC
    have hpass : ∀ m, passedAt .Primary m x (.node .ExpressionList (pre ++ e :: post)) y = false := by
      intro m
      have : ((x ++ Tree.node .ExpressionList (pre ++ e :: post) :: y).length == 3) = false := by
        simp only [beq_eq_false_iff_ne]
        omega
      rw [passedAt, this]
      simp [passedIn, Tree.sym]
    rw [hpass] at hA
    have hsy : e.sym = .n .Expression := by
      have hs := syms_complete hCr.1 e.sym (List.mem_map_of_mem (by simp))
      have : (Gram.spec .ExpressionList).syms.all (fun s => match s with | .t _ => true | .n j => j == .Expression) = true := by decide +kernel
      have := List.all_eq_true.1 this _ hs
      cases e with
      | tok t => cases he
      | node j ds =>
        simp only [Tree.sym, beq_iff_eq] at this
        rw [this]
        rfl
    have hput : Put (.node .StoredDefinition ts) (spansLines (pre ++ e :: post)) e := by
      refine ⟨_, _, _, _, hA.child, ?_, by rw [hsy]; rfl⟩
      have hpe : pre.isEmpty = false := by simpa using hpre
      rw [hpe]
      simp only [Bool.false_eq_true, if_false, Dec.or]
      refine wrapGap_ok ?_ _
      have hq : partOk .ExpressionList (pre.getLast hpre).sym e.sym = true := by
        have := checkG_sound (part_next .ExpressionList rfl) hCr.1
        rw [← List.dropLast_concat_getLast hpre] at this
        simp only [List.map_append, List.map_cons, List.append_assoc, List.singleton_append] at this
        exact adj_pair this
      simp only [partOk, hsy, contrib] at hq
      have := allFacts_sound (by simpa using hq)
      rw [gapAt, List.getLast?_eq_some_getLast hpre, hsy]
      exact this _
    exact hput.stands hC hE eol p.comments

def exOuts : Text := c!"model A algorithm (a,\nb):=f(x);end A;"
def exOutsOut : Text := c!"model A\n\nalgorithm\n\n  (a, b) := f(x);\n\nend A;\n"

set_option maxRecDepth 100000 in
/-- **C48 is false** for the lists of outputs before `:=`: the line break of the source is removed. -/
theorem C48_false : ∃ p tree, Formatted c!"\n" c!"f" exOuts p exOutsOut ∧ buildTree p.tokens p.events = .ok tree ∧
    (∃ cs, Part (.node .OutputExpressionList cs) tree ∧ cs.map Tree.sym = [.n .Expression, .t .Comma, .n .Expression] ∧
      spansLines cs = true) := by
  refine ⟨match parse c!"f" exOuts .StoredDefinition with | .ok p => p | _ => ⟨[], [], [], []⟩,
    resTree (buildTree (match parse c!"f" exOuts .StoredDefinition with | .ok p => p | _ => ⟨[], [], [], []⟩ : Parsed).tokens
      (match parse c!"f" exOuts .StoredDefinition with | .ok p => p | _ => ⟨[], [], [], []⟩ : Parsed).events),
    ⟨by decide_cbv, by decide_cbv, exOutsOut.dropLast, by decide_cbv, by decide⟩, resTree_ok (by decide_cbv),
    kidsOf ((resTree (buildTree (match parse c!"f" exOuts .StoredDefinition with | .ok p => p | _ => ⟨[], [], [], []⟩ : Parsed).tokens
      (match parse c!"f" exOuts .StoredDefinition with | .ok p => p | _ => ⟨[], [], [], []⟩ : Parsed).events)).find .OutputExpressionList),
    find_kind _ (by decide_cbv), by decide_cbv, by decide_cbv⟩

def exNest : Text := c!"model A Real x=f({1,\n2},3);end A;"
def exNestOut : Text := c!"model A\n\n  Real x = f(\n    {\n      1,\n      2},\n    3);\n\nend A;\n"
def exNestP : Parsed := match parse c!"f" exNest .StoredDefinition with | .ok p => p | _ => ⟨[], [], [], []⟩
def exNestTree : Tree := resTree (buildTree exNestP.tokens exNestP.events)
def exNestArgs : List Tree := kidsOf (exNestTree.find .FunctionCallArgs)

set_option maxRecDepth 100000 in
/-- A call with two arguments, with a line break in an array that is the first one. -/
theorem C48_case : Formatted c!"\n" c!"f" exNest exNestP exNestOut ∧ buildTree exNestP.tokens exNestP.events = .ok exNestTree ∧
    Part (.node .FunctionCallArgs exNestArgs) exNestTree ∧ (listItems .FunctionCallArgs exNestArgs).length = 2 ∧
    listWrapped .FunctionCallArgs exNestArgs = true ∧
    ∃ a ∈ leavesF (inside .FunctionCallArgs exNestArgs), ∃ b ∈ leavesF (inside .FunctionCallArgs exNestArgs), a.start.line < b.stop.line := by
  refine ⟨⟨by decide_cbv, by decide_cbv, exNestOut.dropLast, by decide_cbv, by decide⟩, resTree_ok (by decide_cbv),
    find_kind _ (by decide_cbv), by decide_cbv, by decide_cbv, ?_⟩
  have : spansLines (inside .FunctionCallArgs exNestArgs) = true := by decide_cbv
  exact spans_inv this

def exRows : Text := c!"model A Real x=[1,2;3,\n4];end A;"
def exRowsOut : Text := c!"model A\n\n  Real x = [\n    1, 2;\n    3,\n    4];\n\nend A;\n"
def exRowsP : Parsed := match parse c!"f" exRows .StoredDefinition with | .ok p => p | _ => ⟨[], [], [], []⟩
def exRowsTree : Tree := resTree (buildTree exRowsP.tokens exRowsP.events)

set_option maxRecDepth 100000 in
/-- A matrix with a row on one line and a row on two lines. -/
theorem C48_case_rows : Formatted c!"\n" c!"f" exRows exRowsP exRowsOut ∧
    (kidsOf (exRowsTree.find .Primary)).map (fun c => (c.sym, spansLines c.kids)) =
      [(.t .LBracket, false), (.n .ExpressionList, false), (.t .Semicolon, false), (.n .ExpressionList, true), (.t .RBracket, false)] ∧
    Part (.node .Primary (kidsOf (exRowsTree.find .Primary))) exRowsTree :=
  ⟨⟨by decide_cbv, by decide_cbv, exRowsOut.dropLast, by decide_cbv, by decide⟩, by decide_cbv, find_kind _ (by decide_cbv)⟩

/-! ### Enumerations -/

/-- **C49** The items of an enumeration begin lines if the brackets are on different lines or an item has a
description. -/
theorem C49_enumerations_partial (eol name src out : Text) (p : Parsed) (h : Formatted eol name src p out) :
    ∃ gs tree, out = groupsText gs ++ eol ∧ gs.map (·.tok) = p.tokens ∧ buildTree p.tokens p.events = .ok tree ∧
      ∀ cs es, Part (.node .ShortClassSpecifier cs) tree → .node .EnumList es ∈ cs → ∀ e ∈ es, e.isNode = true →
        Stands eol gs (bracketsApart .LParen .RParen cs || occursF .Description es) e := by
  obtain ⟨gs, tree, h1, h2, h3, h4⟩ := C48_lists_partial eol name src out p h
  obtain ⟨ts, g1, g2, g3, g4, g5⟩ := h.laid
  rw [g1] at h3
  cases h3
  refine ⟨gs, _, h1, h2, g1, ?_⟩
  intro cs es hp hm e he hn
  rcases g5 with rfl | ⟨hC, hE⟩
  · rw [part_nil hp] at hm
    cases hm
  have hC := hp.conforms hC
  have hE : Tree.sym (.node .EnumList es) = .n .EnumList := rfl
  have before : ∀ a b, cs = a ++ Tree.node .EnumList es :: b → ∃ a' lp, a = a' ++ [lp] ∧ lp.sym = .t .LParen := by
    intro a b hab
    rcases List.eq_nil_or_concat a with rfl | ⟨a', lp, rfl⟩
    · have h1 := hC.1
      rw [hab, List.nil_append, List.map_cons] at h1
      have h2 := first_complete h1
      have : ((Gram.spec .ShortClassSpecifier).first.all (fun s => s != .n .EnumList)) = true := by decide +kernel
      have := List.all_eq_true.1 this _ h2
      rw [hE] at this
      simp at this
    · refine ⟨a', lp, by simp, ?_⟩
      have e : cs.map Tree.sym = a'.map Tree.sym ++ lp.sym :: Sym.n .EnumList :: b.map Tree.sym := by
        rw [hab]; simp [Tree.sym]
      have := checkG_sound enum_adj hC.1
      rw [e] at this
      have := adj_pair this
      simp only [enumOnly, Bool.and_eq_true, Bool.or_eq_true] at this
      rcases this.1 with h | h
      · simp at h
      · exact beq_iff_eq.1 h
  have hop : opensIn .ShortClassSpecifier (.t .LParen) = true := rfl
  have hcl : closesIn .ShortClassSpecifier (.t .LParen) = false := rfl
  have hins : ∃ pre o ins c post, cs = pre ++ o :: (ins ++ c :: post) ∧ inside .ShortClassSpecifier cs = ins ∧
      Plain .ShortClassSpecifier ins ∧ .node .EnumList es ∈ ins := by
    rcases in_before _ _ (checkG_sound (in_ok .ShortClassSpecifier rfl) hC.1) with hP | ⟨pre', o, ins, c, post', hcs, k1, k2, k3, k4, k5, k6⟩
    · obtain ⟨a, b, hab⟩ := List.append_of_mem hm
      obtain ⟨a', lp, rfl, hlp⟩ := before a b hab
      have := (hP lp (by rw [hab]; simp)).1
      rw [hlp, hop] at this
      cases this
    · refine ⟨pre', o, ins, c, post', hcs, by rw [hcs]; exact inside_eq (by simp) k1 k2 k3 k4, k4, ?_⟩
      rw [hcs] at hm
      simp only [List.mem_append, List.mem_cons] at hm
      rcases hm with hm | rfl | hm | rfl | hm
      · obtain ⟨a, b, hab⟩ := List.append_of_mem hm
        obtain ⟨a', lp, rfl, hlp⟩ := before a (b ++ o :: (ins ++ c :: post')) (by rw [hcs, hab]; simp)
        have := (k3 lp (by rw [hab]; simp)).1
        rw [hlp, hop] at this
        cases this
      · cases k1
      · exact hm
      · cases k2
      · obtain ⟨a, b, hab⟩ := List.append_of_mem hm
        rcases List.eq_nil_or_concat a with rfl | ⟨a', lp, rfl⟩
        · obtain ⟨a', lp, ha, hlp⟩ := before (pre' ++ o :: (ins ++ [c])) b (by rw [hcs, hab]; simp)
          have : c = lp := by
            have := congrArg List.getLast? ha
            have e : pre' ++ o :: (ins ++ [c]) = (pre' ++ o :: ins) ++ [c] := by simp
            rw [e, List.getLast?_concat, List.getLast?_concat] at this
            exact Option.some.inj this
          rw [this, hlp, hcl] at k2
          cases k2
        · obtain ⟨a'', lp', ha, hlp⟩ := before (pre' ++ o :: (ins ++ c :: a'.concat lp)) b (by rw [hcs, hab]; simp)
          have : lp = lp' := by
            have := congrArg List.getLast? ha
            have e : pre' ++ o :: (ins ++ c :: a'.concat lp) = (pre' ++ o :: (ins ++ c :: a')) ++ [lp] := by simp
            rw [e, List.getLast?_concat, List.getLast?_concat] at this
            exact Option.some.inj this
          have h5 := (k5 lp (by rw [hab]; simp)).1
          rw [this, hlp, hop] at h5
          cases h5
  obtain ⟨pre, o, ins, c, post, hcs, hi1, hi2, hi3⟩ := hins
  obtain ⟨i1, i2, hi⟩ := List.append_of_mem hi3
  have halone := enum_alone hC hcs hi2 hi rfl
  have hw : listWrapped .ShortClassSpecifier cs = (bracketsApart .LParen .RParen cs || occursF .Description es) := by
    rw [listWrapped, hi1, halone, occurs_single _ (by simp [Tree.sym])]
    rfl
  rw [← hw]
  refine h4 _ cs hp e ?_
  rw [listItems, if_neg (by simp), hi1, halone, itemsF, itemsF, List.append_nil, Tree.itemsIn, if_pos (show listPart .EnumList = true from rfl)]
  have hCe := conformsF_mem hC.2 _ hm
  have hs := syms_complete hCe.1 e.sym (List.mem_map_of_mem he)
  have hk : e.itemsIn = [e] := by
    have : (Gram.spec .EnumList).syms.all (fun s => match s with | .t _ => true | .n j => j == .EnumerationLiteral) = true := by decide +kernel
    have := List.all_eq_true.1 this _ hs
    cases e with
    | tok t => cases hn
    | node j ds =>
      simp only [Tree.sym, beq_iff_eq] at this
      subst this
      rfl
  have key : ∀ {l : List Tree}, e ∈ l → e ∈ itemsF l := by
    intro l
    induction l with
    | nil => intro h; cases h
    | cons c l ih =>
      intro h
      rw [itemsF, List.mem_append]
      rcases List.mem_cons.1 h with rfl | h
      · exact .inl (by rw [hk]; simp)
      · exact .inr (ih h)
  exact key he

def exEnum : Text := c!"type E=enumeration(a,b);"

set_option maxRecDepth 100000 in
/-- **C49 is false**: the items stay on the line. -/
theorem C49_false : ∃ p, Formatted c!"\n" c!"f" exEnum p c!"type E = enumeration(a, b);\n" :=
  ⟨match parse c!"f" exEnum .StoredDefinition with | .ok p => p | _ => ⟨[], [], [], []⟩,
    by decide_cbv, by decide_cbv, c!"type E = enumeration(a, b);", by decide_cbv, by decide⟩

def exEnum2 : Text := c!"type E=enumeration(a \"d\",b);"
def exEnum2Out : Text := c!"type E = enumeration(\n  a\n    \"d\",\n  b);\n"
def exEnum2P : Parsed := match parse c!"f" exEnum2 .StoredDefinition with | .ok p => p | _ => ⟨[], [], [], []⟩
def exEnum2Tree : Tree := resTree (buildTree exEnum2P.tokens exEnum2P.events)

set_option maxRecDepth 100000 in
/-- An enumeration with a description. -/
theorem C49_case : Formatted c!"\n" c!"f" exEnum2 exEnum2P exEnum2Out ∧
    Part (.node .ShortClassSpecifier (kidsOf (exEnum2Tree.find .ShortClassSpecifier))) exEnum2Tree ∧
    (kidsOf (exEnum2Tree.find .ShortClassSpecifier)).map Tree.sym =
      [.t .Identifier, .t .Equal, .t .Enumeration, .t .LParen, .n .EnumList, .t .RParen] ∧
    occursF .Description (kidsOf (exEnum2Tree.find .EnumList)) = true :=
  ⟨⟨by decide_cbv, by decide_cbv, exEnum2Out.dropLast, by decide_cbv, by decide⟩, find_kind _ (by decide_cbv), by decide_cbv, by decide_cbv⟩

#print axioms C48_lists_partial
#print axioms C48_nested_partial
#print axioms C48_one_line
#print axioms C48_rows
#print axioms C48_false
#print axioms C48_case
#print axioms C48_case_rows
#print axioms C49_enumerations_partial
#print axioms C49_false
#print axioms C49_case

end Mofmt
