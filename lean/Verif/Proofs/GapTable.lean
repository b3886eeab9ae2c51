import Verif.Proofs.Depth
import Verif.Spec.Whole
/-
The layout of every production: the arms of the formatting functions, executed abstractly with all conditions known.
-/
namespace Mofmt

/-! ### Sets of kinds of tokens -/

inductive TokSet where
  | only (l : List Tok)
  | except (l : List Tok)

def TokSet.has : TokSet → Tok → Bool
  | .only l, t => l.contains t
  | .except l, t => !l.contains t

/-- inclusion -/
def TokSet.within : TokSet → TokSet → Bool
  | .only l, s => l.all s.has
  | .except l, .except l' => l'.all l.contains
  | .except _, .only _ => false

/-- Is the token of the kind `t`? -/
def TokSet.says (s : TokSet) (t : Tok) : Option Bool := match s with
  | .only l => if l.contains t then (if l.all (· == t) then some true else none) else some false
  | .except l => if l.contains t then some false else none

/-- the last tokens of productions -/
def lastSet (k : SK) : TokSet := match lastToks k with
  | some l => .only l
  | none => match k with
    | .ClassPrefixes => .except [.LParen, .Comma]
    | _ => .except [.LParen]

/-- the tokens before productions -/
def beforeSet : SK → TokSet
  | .StoredDefinition => .only [.EOF]
  | .Composition => .only beforeComposition
  | .ClassSpecifier | .DerClassSpecifier => .except [.Comma]
  | .ElementList => .except [.Semicolon]
  | .Equation | .IfEquation | .ForEquation | .WhenEquation => .except [.End]
  | .Statement | .IfStatement | .ForStatement | .WhileStatement | .WhenStatement => .except [.End, .Assign]
  | .OutputExpressionList => .only [.LParen]
  | _ => .except []

/-- the tokens before a child of `k` that comes after `p` -/
def setAt (k : SK) : Option Sym → TokSet
  | none => beforeSet k
  | some (.t j) => .only [j]
  | some (.n j) => lastSet j

/-! ### Facts -/

/-- facts about a production -/
structure NF where
  tm : Option Bool
  v : Option Bool
  pm : Option Bool
  m : Option Bool
  l2 : Option Bool
  l3 : Option Bool

/-- facts about a child -/
structure CF where
  cm : Option Bool
  ch : Option Bool
  below : Option Bool
  late : Option Bool
  comma : Option Bool

/-- Do the gaps depend on the variable for lists on several lines? -/
def usesM (k : SK) : Bool := match k with
  | .FunctionArguments | .FunctionArgumentsNonFirst | .ArrayArguments | .ArrayArgumentsNonFirst | .NamedArguments
  | .EnumList | .ImportList | .ArgumentOrInheritanceModificationList | .ArgumentList | .ExpressionList
  | .ClassModification | .ClassOrInheritanceModification
  | .ConnectEquation | .Expression | .Primary | .FunctionCallArgs | .ArraySubscripts | .DescriptionString
  | .DerClassSpecifier | .ExternalFunctionCall | .FunctionPartialApplication => true
  | _ => false

def usesL2 (k : SK) : Bool := k == .ComponentClause1
def usesL3 (k : SK) : Bool := k == .Primary
def usesBl (k : SK) : Bool := match k with
  | .LogicalExpression | .LogicalTerm | .Relation | .ArithmeticExpression | .Term | .Factor => true
  | _ => false
def usesLt (k : SK) : Bool := k == .StoredDefinition
def usesCo (k : SK) : Bool := k == .Primary || k == .Statement

def nfs (k : SK) : List NF :=
  (facts (usesTm k)).flatMap fun tm => (facts (usesTm k)).flatMap fun v => (facts (usesPm k)).flatMap fun pm =>
  (facts (usesM k)).flatMap fun m => (facts (usesL2 k)).flatMap fun l2 => (facts (usesL3 k)).map fun l3 =>
    ⟨tm, v, pm, m, l2, l3⟩

def cfs (k : SK) : List CF :=
  (facts (usesCm k)).flatMap fun cm => (facts (usesCh k)).flatMap fun ch => (facts (usesBl k)).flatMap fun below =>
  (facts (usesLt k)).flatMap fun late => (facts (usesCo k)).map fun comma => ⟨cm, ch, below, late, comma⟩

def NF.senv (f : NF) (k : SK) (c : CF) : SEnv := Mofmt.senv k f.tm f.v f.pm c.cm c.ch

/-- `brokenIn` -/
def NF.broken (f : NF) (k : SK) : Bool :=
  if usesPm k then f.pm.getD false else if usesTm k then f.tm.getD false && f.v.getD false else f.m.getD false

/-! ### Execution of an arm -/

structure XEnv where
  k : SK
  p : Option Sym
  s : Sym
  next : Option Sym
  idx : Nat
  nf : NF
  cf : CF

/-- conditions; `e`: has the child been printed? -/
def evX (E : XEnv) (e : Bool) (σ : Sg) : FCond → Option Bool
  | .nextTree => some (match E.next with | some (.n _) => true | _ => false)
  | .nextTreeU => some (match E.next with | some (.n _) => true | _ => false)
  | .nextTok => some (match E.next with | some (.t _) => true | _ => false)
  | .idxGt n => if n < 4 then some (decide (E.idx > n)) else none
  | .idxEq n => if n < 4 then some (E.idx == n) else none
  | .lenGt 2 => E.nf.l2
  | .lenEq 3 => E.nf.l3
  | .nextBelow => if e || E.p.isNone || !operatorIn E.k E.s then none else E.cf.below
  | .tokIdxPos => E.cf.late
  | .curEmpty => some false
  | .prevTok t => if e then none else (setAt E.k E.p).says t
  | .not a => (evX E e σ a).map (!·)
  | .and a b => match evK E.k E.p (E.nf.senv E.k E.cf) e σ (.and a b) with
    | some r => some r
    | none => match evX E e σ a with
      | some true => evX E e σ b
      | some false => some false
      | none => none
  | c => evK E.k E.p (E.nf.senv E.k E.cf) e σ c

/-- events -/
inductive AE where
  | sp | ind | ded
  | brk (b : Blank)
  deriving DecidableEq

/-- the call or token of an arm: the local variables, the arguments `is_multiline` and `wrapped`; is the result kept? -/
structure Core where
  σ : Sg
  m : Bool
  w : Bool
  keep : Bool

/-- the events before and after the child -/
structure XS where
  σ : Sg
  lead : List AE
  core : Option Core
  trail : List AE

def XS.emit (s : XS) (a : AE) : XS :=
  if s.core.isSome then { s with trail := s.trail ++ [a] } else { s with lead := s.lead ++ [a] }

/-- Are the local variables unknown? -/
def XS.lost (s : XS) : Bool := match s.core with
  | some c => c.keep
  | none => false

def exec (E : XEnv) : FCmd → XS → Option XS
  | .skip, s => some s
  | .seq a b, s => (exec E a s).bind fun s => if s.lost then none else exec E b s
  | .ite c a b, s => match evX E s.core.isSome s.σ c with
    | some true => exec E a s
    | some false => exec E b s
    | none => none
  | .space, s => some (s.emit .sp)
  | .indent, s => some { s.emit .ind with σ := { s.σ with d := s.σ.d + 1 } }
  | .dedent, s => some { s.emit .ded with σ := { s.σ with d := s.σ.d - 1 } }
  | .tok, s => if s.core.isSome then none else some { s with core := some ⟨s.σ, false, false, false⟩ }
  | .brk _ b, s => some (s.emit (.brk b))
  | .bos c _, s => (evX E s.core.isSome s.σ c).map fun b => s.emit (if b then .brk .Illegal else .sp)
  | .call fn m w _ keep, s => if s.core.isSome || E.s != .n fn then none else
      match evX E false s.σ m, evX E false s.σ w with
      | some m, some w => some { s with core := some ⟨s.σ, m, w, keep⟩ }
      | _, _ => none
  | .set v c, s => (evX E s.core.isSome s.σ c).map fun b => { s with σ := s.σ.set b v }
  | .setPrevRule, s => if s.core.isSome then some s else none
  | .unreachable, _ => none

def Gap.or : Gap → Gap → Gap
  | .none, g => g
  | g, _ => g

/-- changes of indentation with at most one blank or break, the break being the last event -/
def gapOf : List AE → Option Gap
  | [] => some .none
  | .ind :: es => gapOf es
  | .ded :: es => gapOf es
  | .sp :: es => if es.all (fun e => e == .ind || e == .ded) then some .space else none
  | [.brk b] => some (.brk b)
  | .brk _ :: _ => none

/-- what is left pending by the child before -/
def tailGap (p : Option Sym) (comma : Option Bool) : Gap :=
  if p = some (.n .OutputExpressionList) ∧ comma = some true then .space else .none

def Gap.isNone : Gap → Bool
  | .none => true
  | _ => false

def Gap.isBrk : Gap → Bool
  | .brk _ => true
  | _ => false

def XEnv.facts (E : XEnv) : Facts where
  broken := E.nf.broken E.k
  passed := passedIn E.k E.s (E.nf.broken E.k) (E.cf.ch.getD false) (E.nf.l3.getD false)
  longIf := E.cf.cm.getD false
  wraps := E.cf.below.getD false
  late := E.cf.late.getD false
  comma := E.cf.comma.getD false
  second := E.idx == 1

/-- the check of an arm; `T`, `T'`: what the arms before and at the child leave pending -/
def armFine (E : XEnv) (T T' : Gap) (σ : Sg) : Bool :=
  match exec E (upCmd (Fmt.body E.k) E.s) ⟨σ, [], none, []⟩ with
  | none => false
  | some o => match o.core, gapOf o.lead, gapOf o.trail with
    | some c, some g, some t =>
      okCur E.k E.p E.s E.nf.tm E.nf.v E.nf.pm E.cf.cm E.cf.ch c.σ &&
      (!exprPart E.k || c.σ.w == (σ.w || (E.p.isSome && operatorIn E.k E.s && E.cf.below.getD false))) &&
      c.m == passedIn E.k E.s (E.nf.broken E.k) (E.cf.ch.getD false) (E.nf.l3.getD false) &&
      c.w == (chainChild E.k E.s && c.σ.w) &&
      t == T' && (tailGap E.p E.cf.comma).or (T.or g) == gapIn E.k E.p E.s E.facts &&
      ((tailGap E.p E.cf.comma).isNone || (T.isNone && g.isNone)) && (T.isNone || g.isNone) &&
      (!T.isBrk || o.lead == []) &&
      (match E.s with | .n j => (setAt E.k E.p).within (beforeSet j) | .t _ => true)
    | _, _, _ => false

/-- what the arm leaves pending -/
def trailAt (k : SK) (nf : NF) (S : List Sg) (p : Option Sym) (idx : Nat) (s : Sym) (next : Option Sym) : Gap :=
  match cfs k, S with
  | cf :: _, σ :: _ => match exec ⟨k, p, s, next, idx, nf, cf⟩ (upCmd (Fmt.body k) s) ⟨σ, [], none, []⟩ with
    | some o => (gapOf o.trail).getD .none
    | none => .none
  | _, _ => .none

/-- the states in which the variable is as known -/
def sel (nf : NF) (S : List Sg) : List Sg := match nf.m with
  | some b => S.filter fun σ => σ.m == b
  | none => S

structure GSt where
  S : List Sg
  p : Option Sym
  s : Option Sym
  idx : Nat
  T : Gap
  ok : Bool
  deriving DecidableEq

def gArm (k : SK) (nf : NF) (st : GSt) (s : Sym) (next : Option Sym) (T' : Gap) : Bool :=
  (cfs k).all fun cf => (sel nf st.S).all fun σ => armFine ⟨k, st.p, s, next, st.idx, nf, cf⟩ st.T T' σ

def up4 (n : Nat) : Nat := min (n + 1) 4

def gStep (k : SK) (nf : NF) (st : GSt) (s' : Sym) : GSt := match st.s with
  | none => { st with s := some s' }
  | some s =>
    let T' := trailAt k nf (sel nf st.S) st.p st.idx s (some s')
    ⟨lvStep (senv k nf.tm nf.v nf.pm) k st.S s, some s, some s', up4 st.idx, T', st.ok && gArm k nf st s (some s') T'⟩

/-- the pending blank at the end of a production -/
def endGap (k : SK) (s : Sym) : Gap := if k = .OutputExpressionList ∧ s = .t .Comma then .space else .none

/-- the facts agree with the number of children -/
def NF.agrees (nf : NF) (len : Nat) : Bool :=
  (nf.v == none || nf.v == some (decide (len > 1))) && (nf.l2 == none || nf.l2 == some (decide (len > 2))) &&
    (nf.l3 == none || nf.l3 == some (len == 3))

def gFine (k : SK) (nf : NF) (st : GSt) : Bool := match st.s with
  | none => st.ok
  | some s => !nf.agrees (up4 st.idx) ||
    (st.ok && gArm k nf st s none (endGap k s) && s != .n .OutputExpressionList)

def gInit (k : SK) (nf : NF) : GSt := ⟨lvInit (senv k nf.tm nf.v nf.pm) k, none, none, 0, .none, true⟩

def gapsOk (k : SK) : Bool := (nfs k).all fun nf => checkG (gStep k nf) (gFine k nf) (Gram.spec k) (gInit k nf)

end Mofmt
