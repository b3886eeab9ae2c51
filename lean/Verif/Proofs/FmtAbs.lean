import Verif.Spec.Layout
import Verif.Spec.Grammar
import Verif.Proofs.ParserAbs
/-
Symbolic execution of the formatting functions along the grammar.  The abstract state is what is pending
before the next token (nothing, a blank, a line break), the possible kinds of the previous token, bounds
for the indentation relative to the start of the function, and the exact values of the local variables.

The execution is written in continuation passing style over an algebra of results, so that the same
definition is used to compute loop invariants and to check them.
-/
namespace Mofmt

/-- A way in which a formatting function may return. -/
structure Ex where
  /-- `wrapped` -/
  w : Bool
  /-- what is pending -/
  gap : Gap
  /-- kinds of the last token -/
  mask : KSet
  /-- least change of indentation -/
  lo : Nat
  /-- greatest change of indentation (only for files without wrapped operators) -/
  hi : Nat
  deriving DecidableEq, Repr

/-- What is claimed about the formatting functions. -/
structure Tabs where
  /-- restricted to files without wrapped operators? -/
  flat : Bool
  /-- how the function may be called: arguments, what is pending, kinds of the previous token -/
  entry : SK → List (Args × Gap × KSet)
  /-- how it may return -/
  exit : SK → Args → List Ex
  /-- kinds that may precede a token of the given kind with the given gap -/
  ok : Tok → Gap → KSet

/-- Abstract state. -/
structure FAbs where
  gap : Gap
  prev : KSet
  lo : Nat
  hi : Nat
  r : Regs
  /-- has the current child been printed? -/
  em : Bool
  deriving DecidableEq, Repr

/-- Abstract context. -/
structure ACtx where
  fn : SK
  cur : Option Sym
  nxt : Option Sym
  /-- index of the child, at most 4 -/
  idx : Nat
  /-- number of children, at most 4; 9: unknown -/
  T : Nat
  deriving Repr

/-- Results of the symbolic execution. -/
structure Alg (α : Type) where
  good : α
  bad : α
  both : α → α → α
  call : SK → Args → Gap → KSet → α → α
  tok : Tok → Gap → KSet → α → α

def Alg.all (A : Alg α) : List β → (β → α) → α
  | [], _ => A.good
  | [x], f => f x
  | x :: xs, f => A.both (f x) (A.all xs f)

def subset (m p : KSet) : Bool := KSet.diff m p == 0

/-- Checking. -/
def Alg.chk (T : Tabs) : Alg Bool where
  good := true
  bad := false
  both := (· && ·)
  call fn args g m x :=
    ((T.entry fn).any fun e => decide (e.1 = args) && decide (e.2.1 = g) && subset m e.2.2) && x
  tok k g m x := subset m (T.ok k g) && x

def isN : Option Sym → Bool
  | some (.n _) => true
  | _ => false
def isT : Option Sym → Bool
  | some (.t _) => true
  | _ => false

section
variable {α : Type} (A : Alg α) (flat : Bool) (exits : SK → Args → List Ex) (cx : ACtx)

def evalA : FCond → FAbs → (Bool → FAbs → α) → α
  | .false, a, k => k false a
  | .reg v, a, k => k (a.r.get v) a
  | .treeMulti, a, k => A.both (k true a) (k false a)
  | .treeHas _, a, k => A.both (k true a) (k false a)
  | .parenMulti _ _, a, k => A.both (k true a) (k false a)
  | .lenGt n, a, k => if cx.T = 9 ∨ n ≥ 4 then A.bad else k (decide (cx.T > n)) a
  | .lenEq n, a, k => if cx.T = 9 ∨ n ≥ 4 then A.bad else k (cx.T == n) a
  | .curMulti, a, k => if isN cx.cur then A.both (k true a) (k false a) else A.bad
  | .curStartIs _, a, k => if cx.cur.isSome then A.both (k true a) (k false a) else A.bad
  | .curHas _, a, k => if isN cx.cur then A.both (k true a) (k false a) else A.bad
  | .curEmpty, a, k => if isN cx.cur then k false a else A.bad
  | .prevTok t, a, k =>
    let p := KSet.inter a.prev (KSet.bit t)
    let q := KSet.diff a.prev (KSet.bit t)
    A.both (if p = 0 then A.good else k true { a with prev := p })
      (if q = 0 then A.good else k false { a with prev := q })
  | .prevRuleIn ks, a, k => k (ks.contains a.r.prevRule) a
  | .idxGt n, a, k => if n ≥ 4 then A.bad else k (decide (cx.idx > n)) a
  | .idxEq n, a, k => if n ≥ 4 then A.bad else k (cx.idx == n) a
  | .tokIdxPos, a, k => if cx.cur.isSome then A.both (k true a) (k false a) else A.bad
  | .nextTree, a, k => k (isN cx.nxt) a
  | .nextTreeU, a, k => if cx.nxt.isSome then k (isN cx.nxt) a else A.bad
  | .nextTok, a, k => k (isT cx.nxt) a
  | .nextBelow, a, k =>
    if cx.nxt.isSome then
      if flat && binKind cx.fn && decide (cx.idx > 0) && !a.em then k false a
      else A.both (k true a) (k false a)
    else A.bad
  | .not c, a, k => evalA c a (fun b a => k (!b) a)
  | .and c d, a, k => evalA c a (fun b a => if b then evalA d a k else k false a)
  | .or c d, a, k => evalA c a (fun b a => if b then k true a else evalA d a k)

/-- is the target of a break the next token? -/
def okTarget (t : Target) (a : FAbs) : Bool :=
  match t with
  | .cur => cx.cur.isSome && !a.em
  | .next => cx.nxt.isSome && a.em

def spaceA (a : FAbs) (k : FAbs → α) : α :=
  if a.gap = .none && !a.prev.has .EOF then k { a with gap := .space } else A.bad

def breakA (t : Target) (b : Blank) (a : FAbs) (k : FAbs → α) : α :=
  if a.gap = .none && okTarget cx t a then k { a with gap := .brk b } else A.bad

def execA : FCmd → FAbs → (FAbs → α) → α
  | .skip, a, k => k a
  | .seq c d, a, k => execA c a (fun a => execA d a k)
  | .ite c x y, a, k => evalA A flat cx c a (fun b a => if b then execA x a k else execA y a k)
  | .space, a, k => spaceA A a k
  | .indent, a, k =>
    if a.prev.has .EOF then A.bad
    else k { a with lo := a.lo + 1, hi := if flat then a.hi + 1 else 0 }
  | .dedent, a, k =>
    if a.prev.has .EOF || a.lo == 0 then A.bad else k { a with lo := a.lo - 1, hi := a.hi - 1 }
  | .tok, a, k => match cx.cur with
    | some (.t t) =>
      if a.em || decide (t = .EOF) then A.bad
      else A.tok t a.gap a.prev (k { a with gap := .none, prev := KSet.bit t, em := true })
    | _ => A.bad
  | .brk t b, a, k => breakA A cx t b a k
  | .bos c t, a, k => evalA A flat cx c a (fun b a =>
      if okTarget cx t a then
        if b then breakA A cx t .Illegal a k else spaceA A a k
      else A.bad)
  | .call fn m w o keep, a, k =>
    if decide (cx.cur = some (.n fn)) && !a.em then
      evalA A flat cx m a (fun m a => evalA A flat cx w a (fun w a => evalA A flat cx o a (fun o a =>
        A.call fn { m, w, o } a.gap a.prev (A.all (exits fn { m, w, o }) (fun ex =>
          k { gap := ex.gap, prev := ex.mask, lo := a.lo + ex.lo, hi := a.hi + ex.hi, em := true,
              r := if keep then { a.r with w := ex.w } else a.r })))))
    else A.bad
  | .set v c, a, k => evalA A flat cx c a (fun b a => k { a with r := a.r.set b v })
  | .setPrevRule, a, k => match cx.cur with
    | some (.n s) => k { a with r := { a.r with prevRule := s } }
    | _ => A.bad
  | .unreachable, _, _ => A.bad

end

/-- possible lengths of words, at most 4 -/
def lens : RE → List Nat
  | .none => []
  | .eps => [0]
  | .sym _ => [1]
  | .alt a b => dedup (lens a ++ lens b)
  | .seq a b => dedup ((lens a).flatMap fun x => (lens b).map fun y => min (x + y) 4)
  | .star a =>
    let s := lens a
    let step := fun t => dedup (0 :: (s.flatMap fun x => t.map fun y => min (x + y) 4) ++ t)
    let t := step (step (step (step [0])))
    if 0 ∈ t ∧ ∀ x ∈ s, ∀ y ∈ t, min (x + y) 4 ∈ t then t else [0, 1, 2, 3, 4]

/-- may a function with `T` children have `i` children and then a word of `r`? -/
def feasible (T i : Nat) (r : RE) : Bool := T == 9 || (lens r).any fun p => min (i + p) 4 == T

/-- Loop invariant: the state before the child `up`, `re` being what may follow it. -/
structure Hd where
  up : Sym
  re : RE
  idx : Nat
  T : Nat
  a : FAbs
  deriving DecidableEq, Repr

/-- productions whose formatting function asks for the number of children -/
def usesLen : SK → Bool
  | .ComponentClause1 | .ComponentList | .Primary | .ClassOrInheritanceModification => true
  | _ => false

/-- the arm for a child -/
def upCmd (b : FBody) : Sym → FCmd
  | .t k => b.onTok k
  | .n k => b.onTree k

section
variable {α : Type} (A : Alg α) (flat : Bool) (exits : SK → Args → List Ex) (fn : SK)

/-- states before the first child -/
def enterA (e : Args × Gap × KSet) (knext : Hd → α) : α :=
  let spec := Gram.spec fn
  A.all (if usesLen fn then (lens spec).filter (0 < ·) else [9]) fun T =>
    execA A flat exits { fn, cur := none, nxt := none, idx := 0, T } (Fmt.body fn).pre
      { gap := e.2.1, prev := e.2.2, lo := 0, hi := 0, em := false,
        r := { m := e.1.m, w := e.1.w, o := e.1.o } }
      fun a => if a.em then A.bad else A.all (dedup spec.first) fun s =>
        let r := spec.der s
        if feasible T 1 r then knext { up := s, re := r, idx := 0, T, a } else A.good

/-- states after a child -/
def stepA (h : Hd) (knext : Hd → α) (kexit : FAbs → α) : α :=
  let cmd := upCmd (Fmt.body fn) h.up
  A.both
    (A.all (dedup h.re.first) fun s =>
      let r := h.re.der s
      if feasible h.T (h.idx + 2) r then
        execA A flat exits { fn, cur := some h.up, nxt := some s, idx := h.idx, T := h.T } cmd h.a fun a =>
          if a.em then
            knext { up := s, re := r, idx := min (h.idx + 1) 4, T := h.T, a := { a with em := false } }
          else A.bad
      else A.good)
    (if h.re.nullable && feasible h.T (h.idx + 1) .eps then
      execA A flat exits { fn, cur := some h.up, nxt := none, idx := h.idx, T := h.T } cmd h.a fun a =>
        if a.em then
          execA A flat exits { fn, cur := none, nxt := none, idx := 0, T := h.T } (Fmt.body fn).post a kexit
        else A.bad
    else A.good)

end

def sameKey (x y : Hd) : Bool :=
  decide (x.up = y.up) && (x.idx == y.idx && (x.T == y.T && (decide (x.a.gap = y.a.gap) &&
  (decide (x.a.r = y.a.r) && decide (x.re = y.re)))))

/-- is everything described by `x` described by `y`? -/
def subsumes (y x : Hd) : Bool :=
  sameKey x y && (subset x.a.prev y.a.prev && (decide (y.a.lo ≤ x.a.lo) && (decide (x.a.hi ≤ y.a.hi) &&
  decide (x.a.em = y.a.em))))

def joinHd : List Hd → Hd → List Hd × Hd
  | [], y => ([y], y)
  | x :: xs, y =>
    if sameKey x y then
      let z := { x with a := { x.a with prev := x.a.prev ||| y.a.prev, lo := min x.a.lo y.a.lo,
                                        hi := max x.a.hi y.a.hi } }
      (z :: xs, z)
    else
      let (l, z) := joinHd xs y
      (x :: l, z)

def Alg.collect : Alg (List β) where
  good := []
  bad := []
  both := (· ++ ·)
  call _ _ _ _ x := x
  tok _ _ _ x := x

/-- Loop invariants reachable from the queue (not trusted, checked afterwards). -/
def explore (flat : Bool) (exits : SK → Args → List Ex) (fn : SK) :
    Nat → List Hd → List Hd → List Hd
  | 0, vis, _ => vis
  | _ + 1, vis, [] => vis
  | n + 1, vis, h :: q =>
    if vis.any (subsumes · h) then explore flat exits fn n vis q
    else
      let (vis', h') := joinHd vis h
      explore flat exits fn n vis' (stepA Alg.collect flat exits fn h' (fun x => [x]) (fun _ => []) ++ q)

def headsOf (flat : Bool) (exits : SK → Args → List Ex) (fn : SK) (e : Args × Gap × KSet) : List Hd :=
  explore flat exits fn 2000 [] (enterA Alg.collect flat exits fn e (fun x => [x]))

/-- does the exit `ex` cover the state? -/
def exOk (ex : Ex) (a : FAbs) : Bool :=
  decide (ex.w = a.r.w) && decide (ex.gap = a.gap) && subset a.prev ex.mask && decide (ex.lo ≤ a.lo) &&
  decide (a.hi ≤ ex.hi)

/-- the invariants are established and kept, and imply the exits -/
def chkHeads (T : Tabs) (fn : SK) (e : Args × Gap × KSet) (hs : List Hd) : Bool :=
  enterA (Alg.chk T) T.flat T.exit fn e (fun h => hs.any (subsumes · h)) &&
  hs.all fun h => stepA (Alg.chk T) T.flat T.exit fn h (fun h => hs.any (subsumes · h))
    (fun a => (T.exit fn e.1).any (exOk · a))

def chkEntry (T : Tabs) (fn : SK) (e : Args × Gap × KSet) : Bool :=
  chkHeads T fn e (headsOf T.flat T.exit fn e)

/-- Every entry of the tables is checked. -/
def Tabs.Valid (T : Tabs) : Prop := ∀ fn, ∀ e ∈ T.entry fn, chkEntry T fn e = true

end Mofmt
