import Verif.Model.FormatterBodies
import Verif.Spec.Size
/-
Specification: how deep the functions of the program call themselves.
-/
namespace Mofmt

section
variable (name : Text) (toks : List Token) (body : SK → Cmd)

/-- How many grammar functions are active at the same time at most while the parser runs a statement.  It follows `run`, also if
the run fails. -/
def callDepth : Nat → Cmd → PState → Nat
  | 0, _, _ => 0
  | n + 1, .seq a b, s => max (callDepth n a s) (match run name toks body n a s with
    | .ok s' => callDepth n b s'
    | _ => 0)
  | n + 1, .ite c a b, s => match evalCond toks c s with
    | .ok (t, s') => if t then callDepth n a s' else callDepth n b s'
    | _ => 0
  | n + 1, .while c a, s => match evalCond toks c s with
    | .ok (t, s1) => if t then max (callDepth n a s1) (match run name toks body n a s1 with
        | .ok s2 => callDepth n (.while c a) s2
        | _ => 0) else 0
    | _ => 0
  | n + 1, .call k, s => 1 + callDepth n (body k) s.enter
  | n + 1, .ifk ks a b, s => if ks.contains s.last then callDepth n a s else callDepth n b s
  | _ + 1, _, _ => 0

end

mutual
/-- The height of a tree: how deep every function is that descends from a tree to its children, such as those of the formatter, and
the one that frees the memory of the tree. -/
def Tree.height : Tree → Nat
  | .tok _ => 0
  | .node _ cs => 1 + heightF cs
/-- the height of a forest -/
def heightF : List Tree → Nat
  | [] => 0
  | t :: ts => max t.height (heightF ts)
end

/-- The tokens behind which a level of nesting begins: brackets, and the keywords of blocks and conditional expressions. -/
def Tree.isOpening : Tree → Bool
  | .tok t => [Tok.LParen, .LBracket, .LCurly, .If, .For, .While, .When].contains t.kind
  | .node _ _ => false

/-- Is the child the rest of a list behind one of its commas?  (The lists of arguments of functions and the lists in `{ }`.) -/
def isRest (k : SK) : Tree → Bool
  | .tok _ => false
  | .node k' _ => k == k' && [SK.FunctionArgumentsNonFirst, .ArrayArgumentsNonFirst, .NamedArguments].contains k

mutual
/-- The most that can be collected on a way from the root to a leaf, if a step into a class or behind an opening token counts `a`,
and a step from a list to its rest counts `b`. -/
def Tree.along (a b : Nat) : Tree → Nat
  | .tok _ => 0
  | .node k cs => alongF a b k (k == .ClassDefinition) cs
/-- the same for children of a production of kind `k`; `inside`: a level of nesting has begun before them -/
def alongF (a b : Nat) (k : SK) (inside : Bool) : List Tree → Nat
  | [] => 0
  | c :: cs => max ((if inside then a else if isRest k c then b else 0) + c.along a b) (alongF a b k (inside || c.isOpening) cs)
end

/-- how deep classes, blocks, conditional expressions and brackets are nested -/
def Tree.nesting (t : Tree) : Nat := t.along 1 0
/-- the most commas of lists of arguments that are passed on a way from the root to a leaf -/
def Tree.commas (t : Tree) : Nat := t.along 0 1

section
variable (bodies : SK → FBody)

/-- the loop over the children of a tree, with any function for the children -/
def fmtLoopN (sub : SK → Args → Tree → FState → Res (Bool × FState)) (b : FBody) (all : List Tree) :
    List Tree → Nat → Regs → FState → Res (Regs × FState)
  | [], _, r, s => .ok (r, s)
  | c :: rest, idx, r, s =>
    let cmd := match c with
      | .tok t => b.onTok t.kind
      | .node k _ => b.onTree k
    (execF (fun fn a s => sub fn a c s) { all, cur := some c, idx, rest } cmd r s).bind
      fun (r, s) => fmtLoopN sub b all rest (idx + 1) r s

/-- The formatting functions if they may call each other at most `n` deep, and fail otherwise (as with a stack of limited size). -/
def fmtTreeN : Nat → SK → Args → Tree → FState → Res (Bool × FState)
  | _, _, _, .tok _, _ => .panic .unreachable
  | 0, _, _, .node _ _, _ => .fuel
  | n + 1, fn, a, .node _ cs, s =>
    let noSub : SK → Args → FState → Res (Bool × FState) := fun _ _ _ => .panic .unreachable
    (execF noSub { all := cs } (bodies fn).pre { m := a.m, w := a.w, o := a.o } s).bind fun (r, s) =>
    (fmtLoopN (fmtTreeN n) (bodies fn) cs cs 0 r s).bind fun (r, s) =>
    (execF noSub { all := cs } (bodies fn).post r s).bind fun (r, s) => .ok (r.w, s)

/-- the formatter with such a limit -/
def formatN (n : Nat) (t : Tree) (comments : List Token) : Res (List Marker) :=
  match t with
  | .tok _ => .panic .unreachable
  | .node .Error _ => .ok []
  | .node k cs => (fmtTreeN Fmt.body n k {} (.node k cs) (FState.init comments)).bind fun (_, s) =>
      .ok s.marks.reverse

end

end Mofmt
