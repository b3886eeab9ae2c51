import Verif.Model.Tree
/-
Formatter state, formatter primitives and the interpreter for formatting functions.
Source: /repo/src/formatter/formatting.rs:1-216, /repo/src/formatter/markers.rs

Every formatting function of formatting.rs has the shape "some statements, a loop over the children
of the tree with one arm for tokens and one arm for subtrees, some statements".  The bodies are
written in a small command language (see FormatterBodies.lean); this file gives its meaning.
-/
namespace Mofmt

/-- markers.rs:2-9 `enum Marker`. The Rust marker carries the text of a token or comment only; the
model keeps the whole token, of which the printer uses nothing but the text. -/
inductive Marker where
  | token (t : Token)
  | indent
  | dedent
  | space
  | blank
  | break
  deriving DecidableEq, Repr

/-- formatting.rs:7-11 `enum Blank` -/
inductive Blank where
  | Required | Legal | Illegal
  deriving DecidableEq, Repr

/-- formatting.rs:116-121 `struct Formatter` -/
structure FState where
  /-- comments not yet passed -/
  comments : List Token
  /-- markers, newest first -/
  marks : List Marker
  prevTok : Tok
  prevLine : Nat
  deriving DecidableEq, Repr

/-- formatting.rs:124-131 `Formatter::new` -/
def FState.init (comments : List Token) : FState :=
  { comments, marks := [], prevTok := .EOF, prevLine := 1 }

/-- `f.markers.push(m)` -/
def FState.push (m : Marker) (s : FState) : FState := { s with marks := m :: s.marks }

/-- `a - b` on `usize` -/
def subLine (a b : Nat) : Res Nat := if b ≤ a then .ok (a - b) else .panic .underflow

/-- formatting.rs:191-206 `comments_before`, the comments taken from the queue -/
def FState.taken (tok : Token) (s : FState) : List Token :=
  s.comments.takeWhile (·.idx < tok.idx)

/-- formatting.rs:191-206 `comments_before`, the queue after it -/
def FState.dropTaken (tok : Token) (s : FState) : FState :=
  { s with comments := s.comments.dropWhile (·.idx < tok.idx) }

/-- formatting.rs:145-150, the loop over the inline comments in `handle_break` -/
def pushInlines : List Token → FState → FState
  | [], s => s
  | c :: cs, s =>
    let s := if s.marks.isEmpty then s else s.push .space
    pushInlines cs (s.push (.token c))

/-- `if x - line > 1 { push(Blank) } else { push(Break) }` -/
def pushGap (x line : Nat) (s : FState) : Res FState :=
  (subLine x line).bind fun d => .ok (s.push (if d > 1 then .blank else .break))

/-- formatting.rs:155-170, the loop over the other comments; returns the line after it too -/
def pushComments (blanks : Blank) : List Token → Nat → FState → Res (Nat × FState)
  | [], line, s => .ok (line, s)
  | c :: cs, line, s =>
    let gap : Res FState :=
      if blanks = .Required then
        if line > s.prevLine then pushGap c.start.line line s else .ok s
      else pushGap c.start.line line s
    gap.bind fun s => pushComments blanks cs c.stop.line (s.push (.token c))

/-- formatting.rs:143-187 `handle_break` -/
def FState.handleBreak (tok : Token) (blanks : Blank) (s : FState) : Res FState :=
  let taken := s.taken tok
  let inlines := taken.filter (fun c => c.start.line == s.prevLine)
  let comments := taken.filter (fun c => !(c.start.line == s.prevLine))
  let s := s.dropTaken tok
  let s := pushInlines inlines s
  let s := if blanks = .Required then s.push .blank else s
  (pushComments blanks comments s.prevLine s).bind fun (line, s) =>
    match blanks with
    | .Legal => pushGap tok.start.line line s
    | .Illegal => .ok (s.push .break)
    | .Required => if line > s.prevLine then pushGap tok.start.line line s else .ok s

/-- formatting.rs:134-140 `break_or_space` -/
def FState.breakOrSpace (isMultiline : Bool) (tok : Token) (s : FState) : Res FState :=
  if isMultiline then s.handleBreak tok .Illegal else .ok (s.push .space)

/-- formatting.rs:209-215 `handle_token`: comments before the token are discarded -/
def FState.handleToken (tok : Token) (s : FState) : FState :=
  let s := s.dropTaken tok
  { s with prevLine := tok.stop.line, prevTok := tok.kind, marks := .token tok :: s.marks }

/-- Boolean local variables of formatting functions. -/
inductive Reg where
  /-- `is_multiline` -/
  | m
  /-- `wrapped` -/
  | w
  /-- `in_oel` -/
  | o
  /-- `conditional` -/
  | c
  /-- a local variable of one iteration: `is_multiline` of the next child, `is_multiline_if`,
  `extern_element_annotation` -/
  | x
  deriving DecidableEq, Repr

/-- Values of the local variables. -/
structure Regs where
  m : Bool := false
  w : Bool := false
  o : Bool := false
  c : Bool := false
  x : Bool := false
  /-- `prev_rule` of `composition` -/
  prevRule : SK := .Error
  deriving DecidableEq, Repr

def Regs.get (r : Regs) : Reg → Bool
  | .m => r.m | .w => r.w | .o => r.o | .c => r.c | .x => r.x

def Regs.set (r : Regs) (b : Bool) : Reg → Regs
  | .m => { r with m := b } | .w => { r with w := b } | .o => { r with o := b }
  | .c => { r with c := b } | .x => { r with x := b }

/-- Conditions occurring in formatting functions. "Current" is the child of the present iteration,
"next" the peeked child. -/
inductive FCond where
  | false
  | reg (r : Reg)
  /-- `tree.is_multiline()` of the function's tree -/
  | treeMulti
  /-- `tree.contains(k)` of the function's tree -/
  | treeHas (k : SK)
  /-- `tree.len() > n` -/
  | lenGt (n : Nat)
  /-- `tree.len() == n` -/
  | lenEq (n : Nat)
  /-- the scan for an opening and a closing token among the children, e.g. formatting.rs:320-334 -/
  | parenMulti (op cl : Tok)
  /-- `is_multiline()` of the current subtree -/
  | curMulti
  /-- `start().kind == k` of the current subtree -/
  | curStartIs (k : Tok)
  /-- `contains(k)` of the current subtree -/
  | curHas (k : SK)
  /-- `len() == 0` of the current subtree -/
  | curEmpty
  /-- `f.prev_tok == k` -/
  | prevTok (k : Tok)
  /-- `ks.contains(&prev_rule)` -/
  | prevRuleIn (ks : List SK)
  /-- `idx > n` -/
  | idxGt (n : Nat)
  /-- `idx == n` -/
  | idxEq (n : Nat)
  /-- `tok.idx > 0` -/
  | tokIdxPos
  /-- `if let Some(Child::Tree(next_tree)) = children.peek()` -/
  | nextTree
  /-- `if let Child::Tree(next_tree) = children.peek().unwrap()` -/
  | nextTreeU
  /-- `if let Some(Child::Token(next_tok)) = children.peek()` -/
  | nextTok
  /-- `next_tree.start().start.line > f.prev_line` -/
  | nextBelow
  | not (a : FCond)
  | and (a b : FCond)
  | or (a b : FCond)
  deriving DecidableEq, Repr

/-- Which token a break is placed before. -/
inductive Target where
  /-- the current token, or `start()` of the current subtree -/
  | cur
  /-- `start()` of the next subtree, or the next token -/
  | next
  deriving DecidableEq, Repr

/-- Statements occurring in formatting functions. -/
inductive FCmd where
  | skip
  | seq (a b : FCmd)
  | ite (c : FCond) (a b : FCmd)
  /-- `f.markers.push(Marker::Space)` -/
  | space
  /-- `f.markers.push(Marker::Indent)` -/
  | indent
  /-- `f.markers.push(Marker::Dedent)` -/
  | dedent
  /-- `f.handle_token(tok)` -/
  | tok
  /-- `f.handle_break(target, blank)` -/
  | brk (t : Target) (b : Blank)
  /-- `f.break_or_space(c, target)` -/
  | bos (c : FCond) (t : Target)
  /-- call of the formatting function for `fn` on the current subtree, with the arguments
  `is_multiline`, `wrapped`, `in_oel` (unused ones are `false`); `keep`: the result is assigned to
  `wrapped` -/
  | call (fn : SK) (m w o : FCond) (keep : Bool)
  | set (r : Reg) (c : FCond)
  /-- `prev_rule = kind` -/
  | setPrevRule
  | unreachable
  deriving DecidableEq, Repr

/-- A block of statements. -/
def fblk : List FCmd → FCmd
  | [] => .skip
  | [c] => c
  | c :: cs => .seq c (fblk cs)

/-- `if c { a }` -/
def FCmd.when (c : FCond) (a : FCmd) : FCmd := .ite c a .skip

/-- A formatting function. -/
structure FBody where
  /-- statements before the loop -/
  pre : FCmd := .skip
  /-- `Child::Token(tok)` arm, by `tok.kind` -/
  onTok : Tok → FCmd
  /-- `Child::Tree(tree)` arm, by `tree.kind` -/
  onTree : SK → FCmd
  /-- statements after the loop -/
  post : FCmd := .skip

/-- What the statements of one iteration can refer to. -/
structure Ctx where
  /-- all children of the function's tree -/
  all : List Tree
  /-- current child, its index -/
  cur : Option Tree := none
  idx : Nat := 0
  /-- children after the current one -/
  rest : List Tree := []

/-- The inner `for` loop of the scan at e.g. formatting.rs:324-330: it runs over all remaining
children, the last closing token decides. -/
def scanClose (cl : Tok) (line : Nat) : List Tree → Bool → Bool
  | [], b => b
  | .tok t :: cs, b => scanClose cl line cs (if t.kind = cl then decide (t.start.line > line) else b)
  | .node _ _ :: cs, b => scanClose cl line cs b

/-- The scan at formatting.rs:320-334, 386-400, 566-580, 653-667, 2041-2055: the first opening token
starts the inner loop, which exhausts the iterator. -/
def scanParens (op cl : Tok) : List Tree → Bool
  | [] => false
  | .tok t :: cs => if t.kind = op then scanClose cl t.start.line cs false else scanParens op cl cs
  | .node _ _ :: cs => scanParens op cl cs

/-- `tree.start()` -/
def startTok (t : Tree) : Res Token :=
  match t.start? with
  | some t => .ok t
  | none => .panic .unwrap

/-- children of the current child -/
def Ctx.curChildren (cx : Ctx) : Res (List Tree) :=
  match cx.cur with
  | some (.node _ cs) => .ok cs
  | _ => .panic .unreachable

/-- the token a break is placed before -/
def Ctx.target (cx : Ctx) : Target → Res Token
  | .cur => match cx.cur with
    | some t => startTok t
    | none => .panic .unreachable
  | .next => match cx.rest with
    | t :: _ => startTok t
    | [] => .panic .unwrap

/-- Evaluation of conditions; `and`/`or` are short-circuiting. -/
def evalFC (cx : Ctx) (r : Regs) (s : FState) : FCond → Res Bool
  | .false => .ok Bool.false
  | .reg v => .ok (r.get v)
  | .treeMulti => isMultiline cx.all
  | .treeHas k => .ok (containsKind k cx.all)
  | .lenGt n => .ok (decide (cx.all.length > n))
  | .lenEq n => .ok (cx.all.length == n)
  | .parenMulti op cl => .ok (scanParens op cl cx.all)
  | .curMulti => cx.curChildren.bind isMultiline
  | .curStartIs k => (cx.target .cur).bind fun t => .ok (decide (t.kind = k))
  | .curHas k => cx.curChildren.bind fun cs => .ok (containsKind k cs)
  | .curEmpty => cx.curChildren.bind fun cs => .ok (cs.length == 0)
  | .prevTok k => .ok (decide (s.prevTok = k))
  | .prevRuleIn ks => .ok (ks.contains r.prevRule)
  | .idxGt n => .ok (decide (cx.idx > n))
  | .idxEq n => .ok (cx.idx == n)
  | .tokIdxPos => (cx.target .cur).bind fun t => .ok (decide (t.idx > 0))
  | .nextTree => match cx.rest with
    | .node _ _ :: _ => .ok true
    | _ => .ok Bool.false
  | .nextTreeU => match cx.rest with
    | .node _ _ :: _ => .ok true
    | .tok _ :: _ => .ok Bool.false
    | [] => .panic .unwrap
  | .nextTok => match cx.rest with
    | .tok _ :: _ => .ok true
    | _ => .ok Bool.false
  | .nextBelow => (cx.target .next).bind fun t => .ok (decide (t.start.line > s.prevLine))
  | .not a => (evalFC cx r s a).bind fun b => .ok (!b)
  | .and a b => (evalFC cx r s a).bind fun t => if t then evalFC cx r s b else .ok Bool.false
  | .or a b => (evalFC cx r s a).bind fun t => if t then .ok true else evalFC cx r s b

/-- Arguments of a formatting function. -/
structure Args where
  m : Bool := false
  w : Bool := false
  o : Bool := false
  deriving DecidableEq, Repr

/-- Execution of statements; `sub` runs a formatting function on the current subtree. -/
def execF (sub : SK → Args → FState → Res (Bool × FState)) (cx : Ctx) :
    FCmd → Regs → FState → Res (Regs × FState)
  | .skip, r, s => .ok (r, s)
  | .seq a b, r, s => (execF sub cx a r s).bind fun (r, s) => execF sub cx b r s
  | .ite c a b, r, s => (evalFC cx r s c).bind fun t =>
      if t then execF sub cx a r s else execF sub cx b r s
  | .space, r, s => .ok (r, s.push .space)
  | .indent, r, s => .ok (r, s.push .indent)
  | .dedent, r, s => .ok (r, s.push .dedent)
  | .tok, r, s => match cx.cur with
    | some (.tok t) => .ok (r, s.handleToken t)
    | _ => .panic .unreachable
  | .brk t b, r, s => (cx.target t).bind fun tok => (s.handleBreak tok b).bind fun s => .ok (r, s)
  | .bos c t, r, s => (evalFC cx r s c).bind fun b => (cx.target t).bind fun tok =>
      (s.breakOrSpace b tok).bind fun s => .ok (r, s)
  | .call fn m w o keep, r, s =>
      (evalFC cx r s m).bind fun m => (evalFC cx r s w).bind fun w => (evalFC cx r s o).bind fun o =>
        (sub fn { m, w, o } s).bind fun (w', s) => .ok (if keep then { r with w := w' } else r, s)
  | .set v c, r, s => (evalFC cx r s c).bind fun b => .ok (r.set b v, s)
  | .setPrevRule, r, s => match cx.cur with
    | some (.node k _) => .ok ({ r with prevRule := k }, s)
    | _ => .panic .unreachable
  | .unreachable, _, _ => .panic .unreachable

section Fmt
variable (bodies : SK → FBody)

mutual
/-- The formatting function `fn` applied to a subtree; returns `wrapped` and the new state. -/
def fmtTree (fn : SK) (a : Args) (t : Tree) (s : FState) : Res (Bool × FState) :=
  match t with
  | .tok _ => .panic .unreachable
  | .node _ cs =>
    let noSub : SK → Args → FState → Res (Bool × FState) := fun _ _ _ => .panic .unreachable
    (execF noSub { all := cs } (bodies fn).pre { m := a.m, w := a.w, o := a.o } s).bind fun (r, s) =>
    (fmtLoop (bodies fn) cs cs 0 r s).bind fun (r, s) =>
    (execF noSub { all := cs } (bodies fn).post r s).bind fun (r, s) => .ok (r.w, s)
/-- The loop over the children of a tree. -/
def fmtLoop (b : FBody) (all : List Tree) (cs : List Tree) (idx : Nat) (r : Regs) (s : FState) :
    Res (Regs × FState) :=
  match cs with
  | [] => .ok (r, s)
  | c :: rest =>
    let cmd := match c with
      | .tok t => b.onTok t.kind
      | .node k _ => b.onTree k
    (execF (fun fn a s => fmtTree fn a c s) { all, cur := some c, idx, rest } cmd r s).bind
      fun (r, s) => fmtLoop b all rest (idx + 1) r s
end

end Fmt
end Mofmt
