import Verif.Spec.Settled
import Verif.Spec.OneLine
import Verif.Proofs.Steps
/-
What is written on one line and contains nothing that is put on a line of its own is kept on one line.
-/
namespace Mofmt

theorem containsKind_mem {k : SK} : ∀ {cs : List Tree}, containsKind k cs = false → ∀ c ∈ cs, c.hasKind k = false
  | [], _, c, hc => by cases hc
  | d :: cs, h, c, hc => by
    simp only [containsKind] at h
    split at h
    · cases h
    · rename_i hd
      rcases List.mem_cons.mp hc with rfl | hc
      · simpa using hd
      · exact containsKind_mem h c hc

theorem containsKind_of_mem {k : SK} : ∀ {cs : List Tree} {c : Tree}, c ∈ cs → c.hasKind k = true →
    containsKind k cs = true
  | [], c, hc, _ => by cases hc
  | d :: cs, c, hc, h => by
    simp only [containsKind]
    split
    · rfl
    · rename_i hd
      rcases List.mem_cons.mp hc with rfl | hc
      · exact absurd h hd
      · exact containsKind_of_mem hc h

theorem Unforced.child {cs : List Tree} (h : Unforced cs) {k : SK} {ds : List Tree} (hc : .node k ds ∈ cs) :
    Unforced ds ∧ k ∉ forcedKinds := by
  refine ⟨?_, ?_⟩
  · intro j hj
    have := containsKind_mem (h j hj) _ hc
    simp only [Tree.hasKind] at this
    split at this
    · cases this
    · exact this
  · intro hk
    have := containsKind_mem (h k hk) _ hc
    simp [Tree.hasKind] at this

theorem leaves_mem {cs : List Tree} {c : Tree} (hc : c ∈ cs) : ∀ t ∈ c.leaves, t ∈ leavesF cs := by
  intro t ht
  rw [leavesF_flatten]
  exact List.mem_flatten.mpr ⟨_, List.mem_map_of_mem hc, ht⟩

mutual
theorem start_mem {t : Tree} {x : Token} (h : t.start? = some x) : x ∈ t.leaves := by
  match t with
  | .tok t => simp only [Tree.start?, Option.some.injEq] at h; subst h; simp [Tree.leaves]
  | .node k cs => exact startF_mem (cs := cs) h
theorem startF_mem {cs : List Tree} {x : Token} (h : startOf cs = some x) : x ∈ leavesF cs := by
  match cs with
  | [] => simp [startOf] at h
  | c :: cs => rw [leavesF]; exact List.mem_append_left _ (start_mem (t := c) h)
end

mutual
theorem end_mem {t : Tree} {x : Token} (h : t.end? = some x) : x ∈ t.leaves := by
  match t with
  | .tok t => simp only [Tree.end?, Option.some.injEq] at h; subst h; simp [Tree.leaves]
  | .node k cs => exact endF_mem (cs := cs) h
theorem endF_mem {cs : List Tree} {x : Token} (h : endOf cs = some x) : x ∈ leavesF cs := by
  match cs with
  | [] => simp [endOf] at h
  | [c] => rw [leavesF]; exact List.mem_append_left _ (end_mem (t := c) h)
  | c :: d :: cs => rw [leavesF]; exact List.mem_append_right _ (endF_mem (cs := d :: cs) h)
end

theorem isMultiline_line {l : Nat} {cs : List Tree} {b : Bool} (h : OnLine l (leavesF cs))
    (hb : isMultiline cs = .ok b) : b = false := by
  unfold isMultiline at hb
  split at hb
  · rename_i x y hx hy
    cases hb
    have h1 := h x (startF_mem hx)
    have h2 := h y (endF_mem hy)
    simp; omega
  · cases hb

theorem scanClose_line {l : Nat} {cl : Tok} : ∀ {cs : List Tree}, OnLine l (leavesF cs) →
    scanClose cl l cs false = false
  | [], _ => rfl
  | .tok t :: cs, h => by
    have h1 := h t (by simp [leavesF, Tree.leaves])
    have h2 : OnLine l (leavesF cs) := fun t ht => h t (by simp [leavesF, ht])
    simp [scanClose, h1.1, scanClose_line h2]
  | .node k ds :: cs, h => by
    have h2 : OnLine l (leavesF cs) := fun t ht => h t (by simp [leavesF, ht])
    simp [scanClose, scanClose_line h2]

theorem scanParens_line {l : Nat} {op cl : Tok} : ∀ {cs : List Tree}, OnLine l (leavesF cs) →
    scanParens op cl cs = false
  | [], _ => rfl
  | .tok t :: cs, h => by
    have h1 := h t (by simp [leavesF, Tree.leaves])
    have h2 : OnLine l (leavesF cs) := fun t ht => h t (by simp [leavesF, ht])
    simp only [scanParens, h1.1, scanClose_line h2, scanParens_line h2]
    split <;> rfl
  | .node k ds :: cs, h => by
    have h2 : OnLine l (leavesF cs) := fun t ht => h t (by simp [leavesF, ht])
    simp only [scanParens, scanParens_line h2]

/-! ### Symbolic execution -/

/-- what is known of the local variables, and whether the current child has been printed -/
structure CSt where
  m : Option Bool
  x : Option Bool
  em : Bool
  deriving DecidableEq

/-- conditions; `wh`: is the whole tree on one line, or only the current child? `pos`: is it not the first child? -/
def calmEval (wh pos : Bool) (s : CSt) : FCond → Option Bool
  | .false => some false
  | .reg .m => s.m
  | .reg .x => s.x
  | .treeMulti => if wh then some false else none
  | .parenMulti _ _ => if wh then some false else none
  | .curMulti => some false
  | .treeHas k => if wh && forcedKinds.contains k then some false else none
  | .curHas k => if forcedKinds.contains k then some false else none
  | .idxGt n => if n = 0 then some pos else none
  | .nextBelow => if wh && (pos || s.em) then some false else none
  | .not a => (calmEval wh pos s a).map (!·)
  | .and a b => match calmEval wh pos s a with
    | some false => some false
    | some true => calmEval wh pos s b
    | none => if calmEval wh pos s b = some false then some false else none
  | .or a b => match calmEval wh pos s a with
    | some true => some true
    | some false => calmEval wh pos s b
    | none => if calmEval wh pos s b = some true then some true else none
  | _ => none

def joinB (a b : Option Bool) : Option Bool := if a = b then a else none

def calmJoin : Option CSt → Option CSt → Option CSt
  | some a, some b => some ⟨joinB a.m b.m, joinB a.x b.x, a.em && b.em⟩
  | _, _ => none

/-- formatting functions that keep on one line what is on one line -/
def calmKinds : List SK := [
  .ClassPrefixes, .ShortClassSpecifier, .BasePrefix, .EnumList, .EnumerationLiteral, .ImportList,
  .ClassOrInheritanceModification, .ArgumentOrInheritanceModificationList, .InheritanceModification,
  .TypePrefix, .ComponentList, .ComponentDeclaration, .ConditionAttribute, .Declaration, .Modification,
  .ModificationExpression, .ClassModification, .ArgumentList, .Argument, .ElementModificationOrReplaceable,
  .ElementModification, .ElementRedeclaration, .ElementReplaceable, .ComponentClause1, .ComponentDeclaration1,
  .ShortClassDefinition, .ForIndices, .ForIndex, .ConnectEquation, .Expression, .SimpleExpression,
  .LogicalExpression, .LogicalTerm, .LogicalFactor, .Relation, .RelationalOperator, .ArithmeticExpression,
  .AddOperator, .Term, .MulOperator, .Factor, .Primary, .TypeSpecifier, .Name, .ComponentReference,
  .FunctionCallArgs, .FunctionArguments, .FunctionArgumentsNonFirst, .ArrayArguments,
  .ArrayArgumentsNonFirst, .NamedArguments, .NamedArgument, .FunctionArgument, .FunctionPartialApplication,
  .OutputExpressionList, .ExpressionList, .ArraySubscripts, .Subscript, .DescriptionString]

/-- statements; `none`: there may be a line break -/
def calmExec (wh pos : Bool) (cur : Option Sym) : FCmd → CSt → Option CSt
  | .skip, s => some s
  | .seq a b, s => (calmExec wh pos cur a s).bind (calmExec wh pos cur b)
  | .ite c a b, s => match calmEval wh pos s c with
    | some true => calmExec wh pos cur a s
    | some false => calmExec wh pos cur b s
    | none => calmJoin (calmExec wh pos cur a s) (calmExec wh pos cur b s)
  | .space, s => some s
  | .indent, s => some s
  | .dedent, s => some s
  | .tok, s => some { s with em := true }
  | .brk _ _, _ => none
  | .bos c _, s => if calmEval wh pos s c = some false then some s else none
  | .call fn m _ _ _, s =>
    if calmEval wh pos s m = some false && calmKinds.contains fn && cur = some (.n fn) then some { s with em := true }
    else none
  | .set .m c, s => some { s with m := calmEval wh pos s c }
  | .set .x c, s => some { s with x := calmEval wh pos s c }
  | .set _ _, s => some s
  | .setPrevRule, s => some s
  | .unreachable, s => some { s with em := true }

def isForced : Sym → Bool
  | .n k => forcedKinds.contains k
  | .t _ => false

def calmArm (wh : Bool) (fn : SK) (pos : Bool) (s : Sym) : Bool :=
  isForced s || match calmExec wh pos (some s) (upCmd (Fmt.body fn) s) ⟨some false, none, false⟩ with
    | some t => t.em && t.m == some false
    | none => false

def calmOk (fn : SK) : Bool :=
  (match calmExec true false none (Fmt.body fn).pre ⟨some false, none, false⟩ with
    | some t => t.m == some false
    | none => false) &&
  (Gram.spec fn).first.all (calmArm true fn false) &&
  (Gram.spec fn).syms.all (calmArm true fn true) &&
  (calmExec true false none (Fmt.body fn).post ⟨some false, none, false⟩).isSome

theorem calm_all : ∀ fn ∈ calmKinds, calmOk fn = true := by decide +kernel

/-! ### Soundness -/

/-- no line breaks -/
def NoBrk (es : List TEv) : Prop := ∀ t b, TEv.brk t b ∉ es

theorem NoBrk.append {a b : List TEv} (h1 : NoBrk a) (h2 : NoBrk b) : NoBrk (a ++ b) := by
  intro t c h
  rcases List.mem_append.mp h with h | h
  · exact h1 t c h
  · exact h2 t c h

theorem NoBrk.left {a b : List TEv} (h : NoBrk (a ++ b)) : NoBrk a :=
  fun t c hm => h t c (List.mem_append_left _ hm)
theorem NoBrk.right {a b : List TEv} (h : NoBrk (a ++ b)) : NoBrk b :=
  fun t c hm => h t c (List.mem_append_right _ hm)

/-- the child is on the line `l` and is kept there -/
def CalmSub (sub : SK → Args → Option Token → Res (Bool × List TEv)) (l : Nat) (c : Tree) : Prop :=
  ∀ fn a q w es, c.sym = .n fn → fn ∈ calmKinds → a.m = false → sub fn a q = .ok (w, es) →
    NoBrk es ∧ lineOf (lastT q es) = l

/-- the state is as described -/
structure CRel (wh pos : Bool) (l : Nat) (s : CSt) (r : Regs) (q : Option Token) : Prop where
  m : ∀ b, s.m = some b → r.m = b
  x : ∀ b, s.x = some b → r.x = b
  line : (wh = true ∧ pos = true) ∨ s.em = true → lineOf q = l

/-- everything, or the current child, is on the line `l` -/
structure CCtx (l : Nat) (wh pos : Bool) (cx : Ctx) : Prop where
  all : wh = true → OnLine l (leavesF cx.all)
  unf : wh = true → Unforced cx.all
  cur : ∀ c, cx.cur = some c → OnLine l c.leaves
  curU : ∀ k cs, cx.cur = some (.node k cs) → Unforced cs ∧ k ∉ forcedKinds
  rest : wh = true → ∀ c ∈ cx.rest, OnLine l c.leaves
  idx : cx.idx > 0 ↔ pos = true

theorem calmEval_sound {wh pos : Bool} {l : Nat} {s : CSt} {cx : Ctx} {r : Regs} {q : Option Token}
    (hx : CCtx l wh pos cx) (hr : CRel wh pos l s r q) : ∀ {c : FCond} {b b' : Bool},
    evalFC cx r (fsOf q) c = .ok b → calmEval wh pos s c = some b' → b = b' := by
  intro c
  induction c with
  | «false» => intro b b' h1 h2; cases h1; cases h2; rfl
  | reg v =>
    intro b b' h1 h2
    cases h1
    cases v
    · exact hr.m _ h2
    · cases h2
    · cases h2
    · cases h2
    · exact hr.x _ h2
  | treeMulti =>
    intro b b' h1 h2
    simp only [calmEval] at h2
    split at h2
    · rename_i hw; cases h2; exact isMultiline_line (hx.all hw) h1
    · cases h2
  | parenMulti op cl =>
    intro b b' h1 h2
    simp only [calmEval] at h2
    split at h2
    · rename_i hw
      cases h2
      simp only [evalFC, scanParens_line (hx.all hw)] at h1
      cases h1; rfl
    · cases h2
  | curMulti =>
    intro b b' h1 h2
    cases h2
    obtain ⟨cs, h3, h1⟩ := Res.bind_eq_ok.1 h1
    unfold Ctx.curChildren at h3
    split at h3
    · rename_i k ds hc
      cases h3
      refine isMultiline_line (l := l) ?_ h1
      intro t ht
      exact hx.cur _ hc t (by simpa [Tree.leaves] using ht)
    · cases h3
  | treeHas k =>
    intro b b' h1 h2
    cases h1
    simp only [calmEval] at h2
    split at h2
    · rename_i hk
      simp only [Bool.and_eq_true] at hk
      cases h2; exact hx.unf hk.1 k (by simpa using hk.2)
    · cases h2
  | curHas k =>
    intro b b' h1 h2
    simp only [calmEval] at h2
    split at h2
    · rename_i hk
      cases h2
      obtain ⟨cs, h3, h1⟩ := Res.bind_eq_ok.1 h1
      unfold Ctx.curChildren at h3
      split at h3
      · rename_i k' ds hc
        cases h3; cases h1
        exact (hx.curU _ _ hc).1 k (by simpa using hk)
      · cases h3
    · cases h2
  | idxGt n =>
    intro b b' h1 h2
    simp only [calmEval] at h2
    split at h2
    · rename_i hn
      subst hn
      cases h1; cases h2
      rw [Bool.eq_iff_iff]
      simpa using hx.idx
    · cases h2
  | nextBelow =>
    intro b b' h1 h2
    simp only [calmEval] at h2
    split at h2
    · rename_i hp
      cases h2
      obtain ⟨t, h3, h1⟩ := Res.bind_eq_ok.1 h1
      cases h1
      simp only [Bool.and_eq_true] at hp
      have hl := hr.line (by simpa [hp.1] using hp.2)
      have ht : t.start.line = l := by
        simp only [Ctx.target] at h3
        cases hre : cx.rest with
        | nil => rw [hre] at h3; cases h3
        | cons c cs =>
          rw [hre] at h3
          simp only [startTok] at h3
          split at h3
          · rename_i u hu
            cases h3
            exact (hx.rest hp.1 c (by simp [hre]) _ (start_mem hu)).1
          · cases h3
      simp [fsOf, hl, ht]
    · cases h2
  | not a ih =>
    intro b b' h1 h2
    obtain ⟨t, h3, h1⟩ := Res.bind_eq_ok.1 h1
    cases h1
    simp only [calmEval, Option.map_eq_some_iff] at h2
    obtain ⟨u, h4, rfl⟩ := h2
    rw [ih h3 h4]
  | and a b ih1 ih2 =>
    intro x x' h1 h2
    obtain ⟨t, h3, h1⟩ := Res.bind_eq_ok.1 h1
    simp only [calmEval] at h2
    split at h2
    · rename_i h4
      cases h2
      have := ih1 h3 h4
      subst this
      cases h1; rfl
    · rename_i h4
      have := ih1 h3 h4
      subst this
      exact ih2 h1 h2
    · split at h2
      · rename_i h5
        cases h2
        cases t
        · cases h1; rfl
        · exact ih2 h1 h5
      · cases h2
  | or a b ih1 ih2 =>
    intro x x' h1 h2
    obtain ⟨t, h3, h1⟩ := Res.bind_eq_ok.1 h1
    simp only [calmEval] at h2
    split at h2
    · rename_i h4
      cases h2
      have := ih1 h3 h4
      subst this
      cases h1; rfl
    · rename_i h4
      have := ih1 h3 h4
      subst this
      exact ih2 h1 h2
    · split at h2
      · rename_i h5
        cases h2
        cases t
        · exact ih2 h1 h5
        · cases h1; rfl
      · cases h2
  | _ => intro b b' h1 h2; cases h2

theorem joinB_some {a b : Option Bool} {c : Bool} (h : joinB a b = some c) : a = some c ∧ b = some c := by
  unfold joinB at h
  split at h
  · rename_i he; exact ⟨h, he ▸ h⟩
  · cases h

theorem CRel.joinL {wh pos : Bool} {l : Nat} {s t : CSt} {r : Regs} {q : Option Token} (h : CRel wh pos l s r q) :
    CRel wh pos l ⟨joinB s.m t.m, joinB s.x t.x, s.em && t.em⟩ r q :=
  ⟨fun b hb => h.m b (joinB_some hb).1, fun b hb => h.x b (joinB_some hb).1,
    fun hp => h.line (hp.imp id (fun hp => by simp at hp; exact hp.1))⟩

theorem CRel.joinR {wh pos : Bool} {l : Nat} {s t : CSt} {r : Regs} {q : Option Token} (h : CRel wh pos l t r q) :
    CRel wh pos l ⟨joinB s.m t.m, joinB s.x t.x, s.em && t.em⟩ r q :=
  ⟨fun b hb => h.m b (joinB_some hb).2, fun b hb => h.x b (joinB_some hb).2,
    fun hp => h.line (hp.imp id (fun hp => by simp at hp; exact hp.2))⟩

theorem CRel.of_line {wh pos : Bool} {l : Nat} {s : CSt} {r : Regs} {q q' : Option Token} (h : CRel wh pos l s r q)
    (hl : lineOf q' = l) : CRel wh pos l { s with em := true } r q' :=
  ⟨h.m, h.x, fun _ => hl⟩

theorem calmExec_sound {wh pos : Bool} {l : Nat} {cx : Ctx} {sub : SK → Args → Option Token → Res (Bool × List TEv)}
    {cur : Option Sym} (hx : CCtx l wh pos cx) (hcur : cur = cx.cur.map Tree.sym)
    (hsub : ∀ c, cx.cur = some c → CalmSub sub l c) :
    ∀ {cmd : FCmd} {s s' : CSt} {r r' : Regs} {q : Option Token} {es : List TEv}, CRel wh pos l s r q →
    calmExec wh pos cur cmd s = some s' → trF sub cx cmd r q = .ok (r', es) →
    NoBrk es ∧ CRel wh pos l s' r' (lastT q es) := by
  intro cmd
  induction cmd with
  | skip => intro s s' r r' q es hr ha h; cases h; cases ha; exact ⟨by intro t b h; simp at h, hr⟩
  | seq a b ih1 ih2 =>
    intro s s' r r' q es hr ha h
    obtain ⟨⟨r1, e1⟩, h1, h⟩ := Res.bind_eq_ok.1 h
    obtain ⟨⟨r2, e2⟩, h2, h⟩ := Res.bind_eq_ok.1 h
    cases h
    simp only [calmExec, Option.bind_eq_some_iff] at ha
    obtain ⟨s1, a1, a2⟩ := ha
    have i1 := ih1 hr a1 h1
    have i2 := ih2 i1.2 a2 h2
    exact ⟨i1.1.append i2.1, by rw [lastT_append]; exact i2.2⟩
  | ite c a b ih1 ih2 =>
    intro s s' r r' q es hr ha h
    obtain ⟨t, h1, h⟩ := Res.bind_eq_ok.1 h
    simp only [calmExec] at ha
    split at ha
    · rename_i he
      have := calmEval_sound hx hr h1 he
      subst this
      exact ih1 hr ha h
    · rename_i he
      have := calmEval_sound hx hr h1 he
      subst this
      exact ih2 hr ha h
    · unfold calmJoin at ha
      split at ha
      · rename_i x y hx' hy'
        cases ha
        cases t
        · have := ih2 hr hy' h
          exact ⟨this.1, this.2.joinR⟩
        · have := ih1 hr hx' h
          exact ⟨this.1, this.2.joinL⟩
      · cases ha
  | space => intro s s' r r' q es hr ha h; cases h; cases ha; exact ⟨by intro t b h; simp at h, hr⟩
  | indent => intro s s' r r' q es hr ha h; cases h; cases ha; exact ⟨by intro t b h; simp at h, hr⟩
  | dedent => intro s s' r r' q es hr ha h; cases h; cases ha; exact ⟨by intro t b h; simp at h, hr⟩
  | tok =>
    intro s s' r r' q es hr ha h
    cases ha
    simp only [trF] at h
    split at h
    · rename_i t hc
      cases h
      refine ⟨by intro t b h; simp at h, hr.of_line ?_⟩
      simp only [lastT, lineOf]
      exact (hx.cur _ hc t (by simp [Tree.leaves])).2
    · cases h
  | brk t b => intro s s' r r' q es hr ha h; cases ha
  | bos c t =>
    intro s s' r r' q es hr ha h
    obtain ⟨b, h1, h⟩ := Res.bind_eq_ok.1 h
    obtain ⟨t, h2, h⟩ := Res.bind_eq_ok.1 h
    cases h
    simp only [calmExec] at ha
    split at ha
    · rename_i he
      have := calmEval_sound hx hr h1 he
      subst this
      cases ha
      exact ⟨by intro t b h; simp at h, hr⟩
    · cases ha
  | call fn m w o keep =>
    intro s s' r r' q es hr ha h
    obtain ⟨m', h1, h⟩ := Res.bind_eq_ok.1 h
    obtain ⟨w', h2, h⟩ := Res.bind_eq_ok.1 h
    obtain ⟨o', h3, h⟩ := Res.bind_eq_ok.1 h
    obtain ⟨⟨x, ee⟩, h4, h⟩ := Res.bind_eq_ok.1 h
    cases h
    simp only [calmExec] at ha
    split at ha
    · rename_i hc
      cases ha
      simp only [Bool.and_eq_true, decide_eq_true_eq] at hc
      have hm := calmEval_sound hx hr h1 hc.1.1
      rw [hcur] at hc
      cases hcx : cx.cur with
      | none => rw [hcx] at hc; simp at hc
      | some c =>
        rw [hcx] at hc
        have := hsub c hcx fn _ q _ _ (by simpa using hc.2) (by simpa using hc.1.2) hm h4
        refine ⟨this.1, ⟨?_, ?_, fun _ => this.2⟩⟩
        · cases keep <;> exact hr.m
        · cases keep <;> exact hr.x
    · cases ha
  | set v c =>
    intro s s' r r' q es hr ha h
    obtain ⟨b, h1, h⟩ := Res.bind_eq_ok.1 h
    cases h
    refine ⟨by intro t b h; simp at h, ?_⟩
    cases v <;> cases ha
    · exact ⟨fun b' hb => calmEval_sound hx hr h1 hb, hr.x, hr.line⟩
    · exact ⟨hr.m, hr.x, hr.line⟩
    · exact ⟨hr.m, hr.x, hr.line⟩
    · exact ⟨hr.m, hr.x, hr.line⟩
    · exact ⟨hr.m, fun b' hb => calmEval_sound hx hr h1 hb, hr.line⟩
  | setPrevRule =>
    intro s s' r r' q es hr ha h
    cases ha
    simp only [trF] at h
    split at h
    · cases h; exact ⟨by intro t b h; simp at h, ⟨hr.m, hr.x, hr.line⟩⟩
    · cases h
  | unreachable => intro s s' r r' q es hr ha h; cases h

/-- one child -/
theorem calmArm_sound {fn : SK} {wh pos : Bool} {l : Nat} {all rest : List Tree} {c : Tree} {idx : Nat} {r r' : Regs}
    {q : Option Token} {e : List TEv} (hx : CCtx l wh pos { all, cur := some c, idx, rest })
    (hsub : CalmSub (subOf c) l c) (harm : calmArm wh fn pos c.sym = true) (hm : r.m = false)
    (hq : wh = true → pos = true → lineOf q = l)
    (h : trF (subOf c) { all, cur := some c, idx, rest } (upCmd (Fmt.body fn) c.sym) r q = .ok (r', e)) :
    NoBrk e ∧ r'.m = false ∧ lineOf (lastT q e) = l := by
  simp only [calmArm, Bool.or_eq_true] at harm
  rcases harm with harm | harm
  · cases c with
    | tok t => simp [isForced, Tree.sym] at harm
    | node k cs =>
      have := (hx.curU _ _ rfl).2
      simp [isForced, Tree.sym] at harm
      exact absurd harm this
  · split at harm
    · rename_i t ht
      simp only [Bool.and_eq_true, beq_iff_eq] at harm
      have := calmExec_sound hx rfl (fun c' hc' => by cases hc'; exact hsub)
        (s := ⟨some false, none, false⟩) ⟨fun b hb => by cases hb; exact hm, (fun b hb => by cases hb),
          fun hp => by rcases hp with hp | hp; exact hq hp.1 hp.2; cases hp⟩ ht h
      exact ⟨this.1, this.2.m _ harm.2, this.2.line (.inr harm.1)⟩
    · cases harm

theorem calm_steps {fn : SK} (hfn : calmOk fn = true) {l : Nat} {all : List Tree}
    (hall : OnLine l (leavesF all)) (hu : Unforced all) (hsub : ∀ c ∈ all, CalmSub (subOf c) l c) :
    ∀ {cs : List Tree} {idx : Nat} {r r' : Regs} {q : Option Token} {ess : List (List TEv)},
    Steps (Fmt.body fn) all cs idx r q ess r' → (∀ c ∈ cs, c ∈ all) →
    (∀ c ∈ cs, c.sym ∈ (Gram.spec fn).syms) → r.m = false →
    (idx = 0 → ∀ c, cs.head? = some c → c.sym ∈ (Gram.spec fn).first) →
    (idx > 0 → lineOf q = l) →
    NoBrk ess.flatten ∧ r'.m = false ∧ ((idx > 0 ∨ cs ≠ []) → lineOf (lastT q ess.flatten) = l)
  | [], idx, r, r', q, ess, h, hc, hs, hm, hf, hq => by
    cases h
    exact ⟨by intro t b h; simp at h, hm, fun h => hq (h.resolve_right (by simp))⟩
  | c :: rest, idx, r, r', q, ess, h, hc, hs, hm, hf, hq => by
    cases h with
    | @cons _ _ _ _ _ r1 e ess _ h1 h2 =>
    simp only [calmOk, Bool.and_eq_true, List.all_eq_true] at hfn
    have harm : calmArm true fn (decide (idx > 0)) c.sym = true := by
      by_cases hi : idx = 0
      · subst hi
        exact hfn.1.1.2 _ (hf rfl c rfl)
      · rw [decide_eq_true (by omega)]
        exact hfn.1.2 _ (hs c List.mem_cons_self)
    have i1 := calmArm_sound (pos := decide (idx > 0))
      ⟨fun _ => hall, fun _ => hu,
        fun c' hc' => by cases hc'; exact fun t ht => hall t (leaves_mem (hc _ List.mem_cons_self) t ht),
        fun k cs hc' => hu.child (hc _ (by cases hc'; exact List.mem_cons_self)),
        fun _ c' hc' t ht => hall t (leaves_mem (hc c' (List.mem_cons_of_mem _ hc')) t ht), by simp⟩
      (hsub c (hc _ List.mem_cons_self)) harm hm (fun _ hp => hq (by simpa using hp)) h1
    have i2 := calm_steps (by simp only [calmOk, Bool.and_eq_true, List.all_eq_true]; exact hfn) hall hu hsub h2
      (fun c' hc' => hc c' (List.mem_cons_of_mem _ hc')) (fun c' hc' => hs c' (List.mem_cons_of_mem _ hc'))
      i1.2.1 (fun h => by omega) (fun _ => i1.2.2)
    refine ⟨?_, i2.2.1, fun _ => ?_⟩
    · rw [List.flatten_cons]; exact i1.1.append i2.1
    · rw [List.flatten_cons, lastT_append]
      exact i2.2.2 (.inl (by omega))

theorem ind_noBrk {es : List TEv} (h : ∀ e ∈ es, e.ind = true) : NoBrk es := by
  intro t b hm
  have := h _ hm
  cases this

mutual
/-- What is on one line is kept there. -/
theorem calm (c : Tree) (hC : c.Conforms) (hE : c.hasEmpty = false) (l : Nat) (hl : OnLine l c.leaves)
    (hu : ∀ k cs, c = .node k cs → Unforced cs) : CalmSub (subOf c) l c := by
  match c with
  | .tok t => intro fn a q w es hs; cases hs
  | .node k cs =>
    intro fn a q w es hs hk hm h
    cases hs
    simp only [Tree.hasEmpty, Bool.or_eq_false_iff, List.isEmpty_eq_false_iff] at hE
    obtain ⟨r1, e1, ess, r2, r3, e3, h1, h2, h3, h4, h5, i1, i3⟩ := trTree_inv h
    have hok := calm_all k hk
    have hok' := hok
    simp only [calmOk, Bool.and_eq_true, List.all_eq_true] at hok
    have hu := hu k cs rfl
    have hl : OnLine l (leavesF cs) := hl
    have hm1 : r1.m = false := by
      have := hok.1.1.1
      split at this
      · rename_i t ht
        have j := calmExec_sound (l := l) (pos := false) (cx := { all := cs })
          ⟨fun _ => hl, fun _ => hu, fun c hc => by simp at hc, fun _ _ hc => by simp at hc,
            fun _ c hc => by simp at hc, by simp⟩ rfl (fun c hc => by simp at hc)
          (s := ⟨some false, none, false⟩) ⟨fun b hb => by cases hb; exact hm, (fun b hb => by cases hb),
          fun hp => by rcases hp with hp | hp; (cases hp.2); (cases hp)⟩ ht h1
        exact j.2.m _ (by simpa using this)
      · cases this
    have j := calm_steps hok' hl hu
      (calmF cs hC.2 hE.2 l hl hu) h2 (fun c hc => hc)
      (fun c hc => syms_complete hC.1 _ (List.mem_map_of_mem hc)) hm1
      (fun _ c hc => by
        cases cs with
        | nil => cases hc
        | cons d ds =>
          simp only [List.head?_cons, Option.some.injEq] at hc
          subst hc
          exact first_complete (by simpa using hC.1))
      (fun h => by omega)
    subst h5
    refine ⟨((ind_noBrk i1).append j.1).append (ind_noBrk i3), ?_⟩
    rw [lastT_append, lastT_append, ind_lastT i1, ind_lastT i3]
    exact j.2.2 (.inr hE.1)
theorem calmF (cs : List Tree) (hC : ConformsF cs) (hE : hasEmptyF cs = false) (l : Nat) (hl : OnLine l (leavesF cs))
    (hu : Unforced cs) : ∀ c ∈ cs, CalmSub (subOf c) l c := by
  match cs with
  | [] => intro c hc; cases hc
  | c :: cs =>
    simp only [hasEmptyF, Bool.or_eq_false_iff] at hE
    intro d hd
    have hd' : d = c ∨ d ∈ cs := by simpa using hd
    by_cases hdc : d = c
    · rw [hdc]
      refine calm c hC.1 hE.1 l (fun t ht => hl t (by simp [leavesF, ht])) ?_
      intro k ds hk
      exact (hu.child (k := k) (ds := ds) (by simp [hk])).1
    · refine calmF cs hC.2 hE.2 l (fun t ht => hl t (by simp [leavesF, ht])) ?_ d (hd'.resolve_left hdc)
      intro k hk
      have := hu k hk
      simp only [containsKind] at this
      split at this
      · cases this
      · exact this
end

end Mofmt
