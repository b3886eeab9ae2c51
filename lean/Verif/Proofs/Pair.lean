import Verif.Proofs.Influence
/-
Formatting tokens that have been moved: statements.
-/
namespace Mofmt
open Lexical (newlines)

/-- kinds of tokens without line breaks in them that are of interest -/
def flatKinds : List Tok := [
  .LParen, .RParen, .LCurly, .RCurly, .Or, .And, .Flex, .DotFlex, .Les, .Leq, .Gre, .Geq, .Eq, .Neq,
  .Plus, .Minus, .DotPlus, .DotMinus, .Star, .Slash, .DotStar, .DotSlash]

/-- the lines of tokens in a file -/
structure SrcOK (ts : List Token) : Prop where
  lines : ∀ t ∈ ts, t.stop.line = t.start.line + newlines t.text
  sorted : ts.Pairwise fun t u => t.stop.line ≤ u.start.line
  flat : ∀ t ∈ ts, t.kind ∈ flatKinds → newlines t.text = 0

theorem SrcOK.sub {ts us : List Token} (h : SrcOK ts) (hs : us.Sublist ts) : SrcOK us :=
  ⟨fun t ht => h.lines t (hs.subset ht), h.sorted.sublist hs, fun t ht => h.flat t (hs.subset ht)⟩

theorem leaves_sublist {cs : List Tree} {c : Tree} (hc : c ∈ cs) : c.leaves.Sublist (leavesF cs) := by
  induction cs with
  | nil => cases hc
  | cons d cs ih =>
    rw [leavesF]
    rcases List.mem_cons.mp hc with rfl | hc
    · exact List.sublist_append_left _ _
    · exact (ih hc).trans (List.sublist_append_right _ _)

/-- between the lines of the first and the last token -/
theorem SrcOK.between {x : Token} {xs : List Token} (h : SrcOK (x :: xs)) {y : Token}
    (hy : (x :: xs).getLast? = some y) : ∀ t ∈ x :: xs, x.start.line ≤ t.start.line ∧ t.stop.line ≤ y.stop.line := by
  intro t ht
  have hs := h.sorted
  have h1 := h.lines x (by simp)
  constructor
  · rcases List.mem_cons.mp ht with rfl | ht
    · exact Nat.le_refl _
    · have := (List.pairwise_cons.mp hs).1 t ht
      omega
  · obtain ⟨ys, hys⟩ := List.getLast?_eq_some_iff.mp hy
    rw [hys] at ht hs
    rcases List.mem_append.mp ht with ht | ht
    · have := (List.pairwise_append.mp hs).2.2 t ht y (by simp)
      have h2 := h.lines y (by rw [hys]; simp)
      omega
    · simp at ht; subst ht; exact Nat.le_refl _

theorem onLine_of_single {cs : List Tree} (hne : cs ≠ []) (hE : hasEmptyF cs = false) (hs : SrcOK (leavesF cs))
    (h : isMultiline cs = .ok false) : ∃ l, OnLine l (leavesF cs) := by
  obtain ⟨x, xs, h1, h2⟩ := startF_leaves cs hne hE
  obtain ⟨y, h3, h4⟩ := endF_leaves cs hne hE
  simp only [isMultiline, h2, h4, Res.ok.injEq, decide_eq_false_iff_not] at h
  rw [h1] at h3 hs
  refine ⟨x.start.line, ?_⟩
  rw [h1]
  intro t ht
  have := hs.between h3 t ht
  have := hs.lines t ht
  omega

theorem SrcOK.flat_of_line {ts : List Token} (h : SrcOK ts) {l : Nat} (hl : OnLine l ts) :
    ∀ t ∈ ts, newlines t.text = 0 := by
  intro t ht
  have := hl t ht
  have := h.lines t ht
  omega

/-! ### Kinds that contain nothing put on a line of its own -/

def closedKinds (K stop : List SK) : Bool :=
  K.all fun k => !forcedKinds.contains k && (Gram.spec k).syms.all fun s => match s with
    | .t _ => true
    | .n j => K.contains j || (stop.contains j)

mutual
theorem unforced_of {K stop : List SK} (hK : closedKinds K stop = true) (c : Tree) (hC : c.Conforms)
    (hk : ∀ k cs, c = .node k cs → k ∈ K) (hs : ∀ j ∈ stop, c.hasKind j = false) :
    ∀ j ∈ forcedKinds, c.hasKind j = false := by
  intro j hj
  match c with
  | .tok t => rfl
  | .node k cs =>
    have hkK := hk k cs rfl
    have h1 := List.all_eq_true.1 hK k hkK
    simp only [Bool.and_eq_true, List.all_eq_true, Bool.not_eq_true'] at h1
    simp only [Tree.hasKind]
    split
    · rename_i he
      subst he
      have := h1.1
      rw [List.contains_iff_mem.mpr hj] at this
      cases this
    · refine unforcedF_of hK cs hC.2 ?_ ?_ j hj
      · intro c hc k' ds hcd
        have h2 := h1.2 c.sym (syms_complete hC.1 _ (List.mem_map_of_mem hc))
        subst hcd
        simp only [Tree.sym, Bool.or_eq_true] at h2
        rcases h2 with h2 | h2
        · exact List.contains_iff_mem.mp h2
        · have := hs k' (List.contains_iff_mem.mp h2)
          simp only [Tree.hasKind] at this
          split at this
          · cases this
          · have := containsKind_mem this _ hc
            simp [Tree.hasKind] at this
      · intro i hi
        have := hs i hi
        simp only [Tree.hasKind] at this
        split at this
        · cases this
        · exact this
theorem unforcedF_of {K stop : List SK} (hK : closedKinds K stop = true) (cs : List Tree) (hC : ConformsF cs)
    (hk : ∀ c ∈ cs, ∀ k ds, c = .node k ds → k ∈ K) (hs : ∀ j ∈ stop, containsKind j cs = false) :
    ∀ j ∈ forcedKinds, containsKind j cs = false := by
  intro j hj
  match cs with
  | [] => rfl
  | c :: cs =>
    simp only [containsKind]
    rw [unforced_of hK c hC.1 (hk c (by simp)) (fun i hi => containsKind_mem (hs i hi) c (by simp)) j hj]
    refine unforcedF_of hK cs hC.2 (fun c hc => hk c (by simp [hc])) (fun i hi => ?_) j hj
    have := hs i hi
    simp only [containsKind] at this
    split at this
    · cases this
    · exact this
end

/-- expressions and what they consist of -/
def exprKinds : List SK := [
  .ImportList, .ConnectEquation, .ForIndices, .ForIndex, .Expression, .SimpleExpression, .LogicalExpression,
  .LogicalTerm, .LogicalFactor, .Relation, .RelationalOperator, .ArithmeticExpression, .AddOperator, .Term,
  .MulOperator, .Factor, .Primary, .TypeSpecifier, .Name, .ComponentReference, .FunctionCallArgs, .FunctionArguments,
  .FunctionArgumentsNonFirst, .ArrayArguments, .ArrayArgumentsNonFirst, .NamedArguments, .NamedArgument,
  .FunctionArgument, .FunctionPartialApplication, .OutputExpressionList, .ExpressionList, .ArraySubscripts, .Subscript,
  .ModificationExpression]

theorem exprKinds_closed : closedKinds exprKinds [] = true := by decide +kernel

theorem enumKinds_closed : closedKinds [.EnumList, .EnumerationLiteral] [.Description] = true := by decide +kernel

theorem hasKind_node {j k : SK} {cs : List Tree} (h : Tree.hasKind j (.node k cs) = false) : containsKind j cs = false := by
  simp only [Tree.hasKind] at h
  split at h
  · cases h
  · exact h

theorem expr_unforced {k : SK} (hk : k ∈ exprKinds) {cs : List Tree} (hC : Tree.Conforms (.node k cs)) : Unforced cs :=
  fun j hj => hasKind_node (unforced_of exprKinds_closed (.node k cs) hC (fun k' cs' h => by cases h; exact hk)
    (fun j hj => by cases hj) j hj)

theorem enum_unforced {cs : List Tree} (hC : Tree.Conforms (.node .EnumList cs))
    (hd : containsKind .Description cs = false) : Unforced cs :=
  fun j hj => hasKind_node (unforced_of enumKinds_closed (.node .EnumList cs) hC (fun k' cs' h => by cases h; simp)
    (fun j hj => by simp at hj; subst hj; simp [Tree.hasKind, hd]) j hj)

/-! ### Statements on moved tokens -/

/-- formatting functions that rely on being told about what is put on lines of its own -/
def readyKinds : List SK := [.ArgumentList, .ArgumentOrInheritanceModificationList, .EnumList]

def Ready (fn : SK) (a : Args) (c : Tree) : Prop :=
  fn ∈ readyKinds → a.m = false → ∀ k cs, c = .node k cs → Unforced cs

/-- Moved tokens lead to the same events. -/
def Moves (φ : Token → Token) (c : Tree) : Prop :=
  ∀ fn a q p w es, c.sym = .n fn → Ready fn a c → subOf c fn a q = .ok (w, es) → Track φ q p es →
    subOf (c.map φ) fn a (q.map φ) = .ok (w, es.map (TEv.map φ))

def cIf : FCond := .and .curMulti (.curStartIs .If)

/-- conditions that are known to have the same value -/
def condOk (wi mi nk pos nt pr : Bool) (c : FCond) : Bool :=
  if c = cIf then mi else match c with
  | .treeMulti => false
  | .parenMulti _ _ => false
  | .curMulti => false
  | .tokIdxPos => wi
  | .nextBelow => nk && pos && nt && !pr
  | .not a => condOk wi mi nk pos nt pr a
  | .and a b => condOk wi mi nk pos nt pr a && condOk wi mi nk pos nt pr b
  | .or a b => condOk wi mi nk pos nt pr a && condOk wi mi nk pos nt pr b
  | _ => true

/-- statements that are known to have the same effect; `wi`: the condition `tokIdxPos` is known,
`mi`: the condition `cIf` is known, `nk`: the condition
`nextBelow` is known, `rdy`: must
`is_multiline` be kept?, `pos`: not the first child, `nt`: the next child is a tree, `pr`: the current child has been
printed -/
def pairOk (wi mi nk rdy : Bool) (s : Sym) : Bool → Bool → Bool → FCmd → Bool
  | pos, nt, pr, .seq a b => pairOk wi mi nk rdy s pos nt pr a && match once s a pr with
    | some pr' => pairOk wi mi nk rdy s pos nt pr' b
    | none => false
  | pos, nt, pr, .ite c a b => condOk wi mi nk pos nt pr c &&
      pairOk wi mi nk rdy s (pos || c == .idxGt 0) (nt || c == .nextTree) pr a && pairOk wi mi nk rdy s pos nt pr b
  | pos, nt, pr, .bos c _ => condOk wi mi nk pos nt pr c
  | pos, nt, pr, .call fn m w o _ => s == .n fn && condOk wi mi nk pos nt pr m && condOk wi mi nk pos nt pr w &&
      condOk wi mi nk pos nt pr o && (!readyKinds.contains fn || (rdy && m == .reg .m))
  | pos, nt, pr, .set v c => condOk wi mi nk pos nt pr c && (!rdy || v != .m)
  | _, _, _, _ => true

variable {φ : Token → Token}

theorem startTok_move {t : Tree} {x : Token} (h : startTok t = .ok x) : startTok (t.map φ) = .ok (φ x) := by
  simp only [startTok] at h ⊢
  rw [start_map]
  split at h
  · rename_i y hy; cases h; simp [hy]
  · cases h

theorem target_move {cx : Ctx} {t : Target} {x : Token} (h : cx.target t = .ok x) :
    (cx.map φ).target t = .ok (φ x) := by
  cases t with
  | cur =>
    simp only [Ctx.target, Ctx.map] at h ⊢
    cases hc : cx.cur with
    | none => rw [hc] at h; cases h
    | some c => rw [hc] at h; exact startTok_move h
  | next =>
    simp only [Ctx.target, Ctx.map] at h ⊢
    cases hc : cx.rest with
    | nil => rw [hc] at h; cases h
    | cons c cs => rw [hc] at h; exact startTok_move h

theorem curChildren_move {cx : Ctx} {cs : List Tree} (h : cx.curChildren = .ok cs) :
    (cx.map φ).curChildren = .ok (mapTrees φ cs) := by
  simp only [Ctx.curChildren, Ctx.map] at h ⊢
  split at h
  · rename_i k ds hc; cases h; simp [hc, Tree.map]
  · cases h

/-- `next_tree.start().start.line > f.prev_line` -/
def nb (cx : Ctx) (q : Option Token) : Res Bool := evalFC cx {} (fsOf q) .nextBelow

/-- what is needed of an iteration -/
structure PCtx (φ : Token → Token) (wi mi nk : Bool) (cx : Ctx) (q0 : Option Token) : Prop where
  kind : ∀ t, (φ t).kind = t.kind
  idx : wi = true → ∀ c, cx.cur = some c → ∀ t ∈ c.leaves, (t.idx > 0 ↔ (φ t).idx > 0)
  cif : mi = true → ∀ b, evalFC cx {} (fsOf none) cIf = .ok b → evalFC (cx.map φ) {} (fsOf none) cIf = .ok b
  below : nk = true → cx.idx > 0 → (∃ k ds rest, cx.rest = .node k ds :: rest) → ∀ b, nb cx q0 = .ok b →
    nb (cx.map φ) (q0.map φ) = .ok b

theorem mapTrees_len (cs : List Tree) : (mapTrees φ cs).length = cs.length := by simp [mapTrees_eq]

theorem evalFC_pair {wi mi nk pos nt pr : Bool} {cx : Ctx} {q0 q : Option Token} {r : Regs} (hx : PCtx φ wi mi nk cx q0)
    (hpos : pos = true → cx.idx > 0) (hnt : nt = true → ∃ k ds rest, cx.rest = .node k ds :: rest)
    (hpr : pr = false → q = q0) : ∀ {c : FCond} {b : Bool}, condOk wi mi nk pos nt pr c = true →
    evalFC cx r (fsOf q) c = .ok b → evalFC (cx.map φ) r (fsOf (q.map φ)) c = .ok b := by
  intro c
  induction c with
  | «false» => intro b _ h; exact h
  | reg v => intro b _ h; exact h
  | treeMulti => intro b hc; simp [condOk, cIf] at hc
  | parenMulti o c => intro b hc; simp [condOk, cIf] at hc
  | curMulti => intro b hc; simp [condOk, cIf] at hc
  | treeHas k => intro b _ h; simpa only [evalFC, Ctx.map, containsKind_map] using h
  | lenGt n => intro b _ h; simpa only [evalFC, Ctx.map, mapTrees_len] using h
  | lenEq n => intro b _ h; simpa only [evalFC, Ctx.map, mapTrees_len] using h
  | curStartIs k =>
    intro b _ h
    obtain ⟨t, h1, h⟩ := Res.bind_eq_ok.1 h
    simp only [evalFC, target_move h1, Res.bind_ok, hx.kind]
    exact h
  | curHas k =>
    intro b _ h
    obtain ⟨t, h1, h⟩ := Res.bind_eq_ok.1 h
    simp only [evalFC, curChildren_move h1, Res.bind_ok, containsKind_map]
    exact h
  | curEmpty =>
    intro b _ h
    obtain ⟨t, h1, h⟩ := Res.bind_eq_ok.1 h
    simp only [evalFC, curChildren_move h1, Res.bind_ok, mapTrees_len]
    exact h
  | prevTok k =>
    intro b _ h
    cases q with
    | none => exact h
    | some t =>
      rw [← h]
      exact congrArg Res.ok (decide_eq_decide.mpr (by simp only [fsOf, Option.map_some, kindOf, hx.kind]))
  | prevRuleIn ks => intro b _ h; exact h
  | idxGt n => intro b _ h; exact h
  | idxEq n => intro b _ h; exact h
  | tokIdxPos =>
    intro b hc h
    simp only [condOk, cIf, reduceCtorEq, if_false] at hc
    obtain ⟨t, h1, h⟩ := Res.bind_eq_ok.1 h
    simp only [evalFC, target_move h1, Res.bind_ok]
    rw [← h]
    congr 1
    have : t.idx > 0 ↔ (φ t).idx > 0 := by
      simp only [Ctx.target] at h1
      split at h1
      · rename_i c hcur
        simp only [startTok] at h1
        split at h1
        · rename_i y hy
          simp only [Res.ok.injEq] at h1
          subst h1
          exact hx.idx hc c hcur _ (start_mem hy)
        · cases h1
      · cases h1
    simp only [this]
  | nextTree =>
    intro b _ h
    simp only [evalFC, Ctx.map] at h ⊢
    cases hr : cx.rest with
    | nil => rw [hr] at h; exact h
    | cons c cs => rw [hr] at h; cases c <;> exact h
  | nextTreeU =>
    intro b _ h
    simp only [evalFC, Ctx.map] at h ⊢
    cases hr : cx.rest with
    | nil => rw [hr] at h; cases h
    | cons c cs => rw [hr] at h; cases c <;> exact h
  | nextTok =>
    intro b _ h
    simp only [evalFC, Ctx.map] at h ⊢
    cases hr : cx.rest with
    | nil => rw [hr] at h; exact h
    | cons c cs => rw [hr] at h; cases c <;> exact h
  | nextBelow =>
    intro b hc h
    simp only [condOk, cIf, reduceCtorEq, if_false, Bool.and_eq_true, Bool.not_eq_true'] at hc
    have := hpr hc.2
    subst this
    exact hx.below hc.1.1.1 (hpos hc.1.1.2) (hnt hc.1.2) b h
  | not a ih =>
    intro b hc h
    obtain ⟨t, h1, h⟩ := Res.bind_eq_ok.1 h
    cases h
    have hc' : condOk wi mi nk pos nt pr a = true := by simpa [condOk, cIf] using hc
    simp only [evalFC, ih hc' h1, Res.bind_ok]
  | and a b ih1 ih2 =>
    intro x hc h
    by_cases he : FCond.and a b = cIf
    · have hm : mi = true := by simpa [condOk, he] using hc
      have h' : evalFC cx {} (fsOf none) cIf = .ok x := by
        have := h
        simp only [cIf, FCond.and.injEq] at he
        obtain ⟨rfl, rfl⟩ := he
        exact this
      have := hx.cif hm x h'
      simp only [cIf, FCond.and.injEq] at he
      obtain ⟨rfl, rfl⟩ := he
      exact this
    · obtain ⟨t, h1, h⟩ := Res.bind_eq_ok.1 h
      simp only [condOk, he, if_false, Bool.and_eq_true] at hc
      simp only [evalFC, ih1 hc.1 h1, Res.bind_ok]
      cases t
      · exact h
      · exact ih2 hc.2 h
  | or a b ih1 ih2 =>
    intro x hc h
    obtain ⟨t, h1, h⟩ := Res.bind_eq_ok.1 h
    have hc' : condOk wi mi nk pos nt pr a = true ∧ condOk wi mi nk pos nt pr b = true := by
      simpa [condOk, cIf] using hc
    simp only [evalFC, ih1 hc'.1 h1, Res.bind_ok]
    cases t
    · exact ih2 hc'.2 h
    · exact h

/-- statements that keep `is_multiline` -/
def noSetM : FCmd → Bool
  | .seq a b => noSetM a && noSetM b
  | .ite _ a b => noSetM a && noSetM b
  | .set v _ => v != .m
  | _ => true

theorem noSetM_sound {cx : Ctx} {sub : SK → Args → Option Token → Res (Bool × List TEv)} :
    ∀ {cmd : FCmd} {r r' : Regs} {q : Option Token} {es : List TEv}, noSetM cmd = true →
    trF sub cx cmd r q = .ok (r', es) → r'.m = r.m := by
  intro cmd
  induction cmd with
  | seq a b ih1 ih2 =>
    intro r r' q es hk h
    simp only [noSetM, Bool.and_eq_true] at hk
    obtain ⟨⟨r1, e1⟩, h1, h⟩ := Res.bind_eq_ok.1 h
    obtain ⟨⟨r2, e2⟩, h2, h⟩ := Res.bind_eq_ok.1 h
    cases h
    exact (ih2 hk.2 h2).trans (ih1 hk.1 h1)
  | ite c a b ih1 ih2 =>
    intro r r' q es hk h
    simp only [noSetM, Bool.and_eq_true] at hk
    obtain ⟨t, g1, h⟩ := Res.bind_eq_ok.1 h
    cases t
    · exact ih2 hk.2 h
    · exact ih1 hk.1 h
  | skip => intro r r' q es hk h; cases h; rfl
  | space => intro r r' q es hk h; cases h; rfl
  | indent => intro r r' q es hk h; cases h; rfl
  | dedent => intro r r' q es hk h; cases h; rfl
  | tok =>
    intro r r' q es hk h
    simp only [trF] at h
    split at h
    · cases h; rfl
    · cases h
  | brk t b =>
    intro r r' q es hk h
    obtain ⟨t, g1, h⟩ := Res.bind_eq_ok.1 h
    cases h; rfl
  | bos c t =>
    intro r r' q es hk h
    obtain ⟨b, g1, h⟩ := Res.bind_eq_ok.1 h
    obtain ⟨t, g2, h⟩ := Res.bind_eq_ok.1 h
    cases h; rfl
  | call fn m w o keep =>
    intro r r' q es hk h
    obtain ⟨m', h1, h⟩ := Res.bind_eq_ok.1 h
    obtain ⟨w', h2, h⟩ := Res.bind_eq_ok.1 h
    obtain ⟨o', h3, h⟩ := Res.bind_eq_ok.1 h
    obtain ⟨⟨y, ee⟩, h4, h⟩ := Res.bind_eq_ok.1 h
    cases h
    cases keep <;> rfl
  | set v c =>
    intro r r' q es hk h
    obtain ⟨b, h1, h⟩ := Res.bind_eq_ok.1 h
    cases h
    cases v
    · cases hk
    all_goals rfl
  | setPrevRule =>
    intro r r' q es hk h
    simp only [trF] at h
    split at h
    · cases h; rfl
    · cases h
  | unreachable => intro r r' q es hk h; cases h

theorem pairOk_noSetM {wi mi nk : Bool} {s : Sym} : ∀ {cmd : FCmd} {pos nt pr : Bool},
    pairOk wi mi nk true s pos nt pr cmd = true → noSetM cmd = true := by
  intro cmd
  induction cmd with
  | seq a b ih1 ih2 =>
    intro pos nt pr h
    simp only [pairOk, Bool.and_eq_true] at h
    simp only [noSetM, Bool.and_eq_true]
    refine ⟨ih1 h.1, ?_⟩
    have h2 := h.2
    split at h2
    · exact ih2 h2
    · cases h2
  | ite c a b ih1 ih2 =>
    intro pos nt pr h
    simp only [pairOk, Bool.and_eq_true] at h
    simp only [noSetM, Bool.and_eq_true]
    exact ⟨ih1 h.1.2, ih2 h.2⟩
  | set v c =>
    intro pos nt pr h
    simp only [pairOk, Bool.and_eq_true, Bool.not_true, Bool.false_or] at h
    exact h.2
  | _ => intros; rfl

theorem lastT_of_nil {es : List TEv} (h : toks es = []) (q : Option Token) : lastT q es = q := by
  induction es with
  | nil => rfl
  | cons e es ih => cases e <;> simp [toks] at h <;> exact ih h

/-- Statements on moved tokens. -/
theorem trF_pair {wi mi nk rdy : Bool} {cx : Ctx} {c : Tree} {q0 : Option Token}
    {sub sub' : SK → Args → Option Token → Res (Bool × List TEv)} (hx : PCtx φ wi mi nk cx q0) (hc : cx.cur = some c)
    (hprt : ∀ fn a q w es, c.sym = .n fn → sub fn a q = .ok (w, es) → toks es = c.leaves)
    (hsub : ∀ fn a q p w es, c.sym = .n fn → Ready fn a c → sub fn a q = .ok (w, es) → Track φ q p es →
      sub' fn a (q.map φ) = .ok (w, es.map (TEv.map φ))) :
    ∀ {cmd : FCmd} {pos nt pr : Bool} {r r' : Regs} {q : Option Token} {p : Pend} {es : List TEv},
    pairOk wi mi nk rdy c.sym pos nt pr cmd = true → (pos = true → cx.idx > 0) →
    (nt = true → ∃ k ds rest, cx.rest = .node k ds :: rest) → (pr = false → q = q0) →
    (rdy = true → r.m = false → ∀ k cs, c = .node k cs → Unforced cs) →
    trF sub cx cmd r q = .ok (r', es) → Track φ q p es →
    trF sub' (cx.map φ) cmd r (q.map φ) = .ok (r', es.map (TEv.map φ)) := by
  intro cmd
  induction cmd with
  | skip => intro pos nt pr r r' q p es _ _ _ _ _ h _; cases h; rfl
  | seq a b ih1 ih2 =>
    intro pos nt pr r r' q p es hok hpos hnt hpr hrd h hT
    simp only [pairOk, Bool.and_eq_true] at hok
    obtain ⟨⟨r1, e1⟩, h1, h⟩ := Res.bind_eq_ok.1 h
    obtain ⟨⟨r2, e2⟩, h2, h⟩ := Res.bind_eq_ok.1 h
    cases h
    have hok1 := hok.1
    have hok := hok.2
    split at hok
    · rename_i pr' ho
      have o := once_toks hc hprt ho h1
      have hT := Track.append.1 hT
      have i1 := ih1 hok1 hpos hnt hpr hrd h1 hT.1
      have i2 := ih2 hok hpos hnt (q := lastT q e1) (fun hp => by
          have : pr = false := by
            cases pr
            · rfl
            · exact absurd (o.1 rfl) (by simp [hp])
          rw [lastT_of_nil (by rw [o.2, hp]; rfl), hpr this])
        (fun hr hm => hrd hr (by subst hr; rw [← noSetM_sound (pairOk_noSetM hok1) h1]; exact hm)) h2 hT.2
      simp only [trF, i1, Res.bind_ok, lastT_map, i2, List.map_append]
    · cases hok
  | ite g a b ih1 ih2 =>
    intro pos nt pr r r' q p es hok hpos hnt hpr hrd h hT
    simp only [pairOk, Bool.and_eq_true] at hok
    obtain ⟨t, h1, h⟩ := Res.bind_eq_ok.1 h
    simp only [trF, evalFC_pair hx hpos hnt hpr hok.1.1 h1, Res.bind_ok]
    cases t
    · exact ih2 hok.2 hpos hnt hpr hrd h hT
    · refine ih1 hok.1.2 ?_ ?_ hpr hrd h hT
      · intro hp
        simp only [Bool.or_eq_true, beq_iff_eq] at hp
        rcases hp with hp | hp
        · exact hpos hp
        · subst hp
          simp only [evalFC, Res.ok.injEq, decide_eq_true_eq] at h1
          exact h1
      · intro hp
        simp only [Bool.or_eq_true, beq_iff_eq] at hp
        rcases hp with hp | hp
        · exact hnt hp
        · subst hp
          simp only [evalFC] at h1
          split at h1
          · rename_i k ds rest hr; exact ⟨k, ds, rest, hr⟩
          · cases h1
  | space => intro pos nt pr r r' q p es _ _ _ _ _ h _; cases h; rfl
  | indent => intro pos nt pr r r' q p es _ _ _ _ _ h _; cases h; rfl
  | dedent => intro pos nt pr r r' q p es _ _ _ _ _ h _; cases h; rfl
  | tok =>
    intro pos nt pr r r' q p es _ _ _ _ _ h _
    simp only [trF, hc] at h
    split at h
    · rename_i t ht
      cases h
      cases ht
      simp only [trF, Ctx.map, hc, Option.map_some, Tree.map]
      rfl
    · cases h
  | brk t b =>
    intro pos nt pr r r' q p es _ _ _ _ _ h _
    obtain ⟨x, h1, h⟩ := Res.bind_eq_ok.1 h
    cases h
    simp only [trF, target_move h1, Res.bind_ok]
    rfl
  | bos g t =>
    intro pos nt pr r r' q p es hok hpos hnt hpr _ h _
    obtain ⟨b, h1, h⟩ := Res.bind_eq_ok.1 h
    obtain ⟨x, h2, h⟩ := Res.bind_eq_ok.1 h
    cases h
    simp only [pairOk] at hok
    simp only [trF, evalFC_pair hx hpos hnt hpr hok h1, target_move h2, Res.bind_ok]
    cases b <;> rfl
  | call fn m w o keep =>
    intro pos nt pr r r' q p es hok hpos hnt hpr hrd h hT
    obtain ⟨m', h1, h⟩ := Res.bind_eq_ok.1 h
    obtain ⟨w', h2, h⟩ := Res.bind_eq_ok.1 h
    obtain ⟨o', h3, h⟩ := Res.bind_eq_ok.1 h
    obtain ⟨⟨y, ee⟩, h4, h⟩ := Res.bind_eq_ok.1 h
    simp only [Res.ok.injEq, Prod.mk.injEq] at h
    obtain ⟨rfl, rfl⟩ := h
    simp only [pairOk, Bool.and_eq_true, beq_iff_eq, Bool.or_eq_true, Bool.not_eq_true'] at hok
    obtain ⟨⟨⟨⟨k1, k2⟩, k3⟩, k4⟩, k5⟩ := hok
    have := hsub fn ⟨m', w', o'⟩ q p y ee k1 (by
      intro hfn hm
      rcases k5 with k5 | k5
      · rw [List.contains_iff_mem.mpr hfn] at k5; cases k5
      · have e := k5.2
        subst e
        cases h1
        exact hrd k5.1 hm) h4 hT
    simp only [trF, evalFC_pair hx hpos hnt hpr k2 h1, evalFC_pair hx hpos hnt hpr k3 h2,
      evalFC_pair hx hpos hnt hpr k4 h3, this, Res.bind_ok]
  | set v g =>
    intro pos nt pr r r' q p es hok hpos hnt hpr _ h _
    obtain ⟨b, h1, h⟩ := Res.bind_eq_ok.1 h
    cases h
    simp only [pairOk, Bool.and_eq_true] at hok
    simp only [trF, evalFC_pair hx hpos hnt hpr hok.1 h1, Res.bind_ok]
    rfl
  | setPrevRule =>
    intro pos nt pr r r' q p es _ _ _ _ _ h _
    simp only [trF, hc] at h
    split at h
    · rename_i k ds hk
      cases h
      cases hk
      simp only [trF, Ctx.map, hc, Option.map_some, Tree.map]
      rfl
    · cases h
  | unreachable => intro pos nt pr r r' q p es _ _ _ _ _ h _; cases h

end Mofmt
