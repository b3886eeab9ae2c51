import Verif.Model.FormatterBodies
/-
Specification: the work of the formatter.
-/
namespace Mofmt

mutual
/-- the number of tokens and productions of a tree -/
def Tree.size : Tree → Nat
  | .tok _ => 1
  | .node _ cs => 1 + sizeF cs
/-- the number of tokens and productions of a forest -/
def sizeF : List Tree → Nat
  | [] => 0
  | t :: ts => t.size + sizeF ts
end

mutual
/-- how many trees and tokens `start()` looks at -/
def Tree.startWork : Tree → Nat
  | .tok _ => 1
  | .node _ cs => 1 + startWorkF cs
def startWorkF : List Tree → Nat
  | [] => 0
  | c :: _ => c.startWork
end

mutual
/-- how many trees and tokens `end()` looks at -/
def Tree.endWork : Tree → Nat
  | .tok _ => 1
  | .node _ cs => 1 + endWorkF cs
def endWorkF : List Tree → Nat
  | [] => 0
  | [c] => c.endWork
  | _ :: cs => endWorkF cs
end

mutual
/-- how many trees and tokens `contains(k)` looks at; it stops where it has found one -/
def Tree.hasWork (k : SK) : Tree → Nat
  | .tok _ => 1
  | .node k' cs => 1 + if k' = k then 0 else hasWorkF k cs
def hasWorkF (k : SK) : List Tree → Nat
  | [] => 0
  | c :: cs => c.hasWork k + if c.hasKind k then 0 else hasWorkF k cs
end

/-- the work to find the token a break is placed before -/
def Ctx.targetWork (cx : Ctx) : Target → Nat
  | .cur => match cx.cur with
    | some t => t.startWork
    | none => 0
  | .next => match cx.rest with
    | t :: _ => t.startWork
    | [] => 0

/-- the work of a function `f` of the children of the current subtree -/
def Ctx.curWork (cx : Ctx) (f : List Tree → Nat) : Nat :=
  match cx.cur with
  | some (.node _ cs) => f cs
  | _ => 0

/-- The work of a condition: one for every condition that is evaluated, and one for every tree or token that is looked at. -/
def condWork (cx : Ctx) (r : Regs) (s : FState) : FCond → Nat
  | .treeMulti => 1 + startWorkF cx.all + endWorkF cx.all
  | .treeHas k => 1 + hasWorkF k cx.all
  | .parenMulti _ _ => 1 + cx.all.length
  | .curMulti => 1 + cx.curWork startWorkF + cx.curWork endWorkF
  | .curHas k => 1 + cx.curWork (hasWorkF k)
  | .curStartIs _ => 1 + cx.targetWork .cur
  | .tokIdxPos => 1 + cx.targetWork .cur
  | .nextBelow => 1 + cx.targetWork .next
  | .prevRuleIn ks => 1 + ks.length
  | .not a => 1 + condWork cx r s a
  | .and a b => 1 + condWork cx r s a + match evalFC cx r s a with
    | .ok true => condWork cx r s b
    | _ => 0
  | .or a b => 1 + condWork cx r s a + match evalFC cx r s a with
    | .ok false => condWork cx r s b
    | _ => 0
  | _ => 1

/-- The work of a statement: one for every statement and every condition, one for every tree or token that is looked at, and one for
every comment that is passed.  `sub` and `subWork` are the result and the work of a formatting function on the current subtree.  It
follows `execF`, also if that fails. -/
def execWork (sub : SK → Args → FState → Res (Bool × FState)) (subWork : SK → Args → FState → Nat) (cx : Ctx) :
    FCmd → Regs → FState → Nat
  | .seq a b, r, s => 1 + execWork sub subWork cx a r s + match execF sub cx a r s with
    | .ok (r, s) => execWork sub subWork cx b r s
    | _ => 0
  | .ite c a b, r, s => 1 + condWork cx r s c + match evalFC cx r s c with
    | .ok t => if t then execWork sub subWork cx a r s else execWork sub subWork cx b r s
    | _ => 0
  | .tok, _, s => match cx.cur with
    | some (.tok t) => 1 + (s.taken t).length
    | _ => 1
  | .brk t _, _, s => 1 + cx.targetWork t + match cx.target t with
    | .ok tok => (s.taken tok).length
    | _ => 0
  | .bos c t, r, s => 1 + condWork cx r s c + match evalFC cx r s c with
    | .ok b => cx.targetWork t + match cx.target t with
      | .ok tok => if b then (s.taken tok).length else 0
      | _ => 0
    | _ => 0
  | .call fn m w o _, r, s => 1 + condWork cx r s m + match evalFC cx r s m with
    | .ok m => condWork cx r s w + match evalFC cx r s w with
      | .ok w => condWork cx r s o + match evalFC cx r s o with
        | .ok o => subWork fn { m, w, o } s
        | _ => 0
      | _ => 0
    | _ => 0
  | .set _ c, r, s => 1 + condWork cx r s c
  | _, _, _ => 1

section
variable (bodies : SK → FBody)

mutual
/-- The work of a formatting function on a subtree. -/
def fmtWork (fn : SK) (a : Args) (t : Tree) (s : FState) : Nat :=
  match t with
  | .tok _ => 1
  | .node _ cs =>
    let noSub : SK → Args → FState → Res (Bool × FState) := fun _ _ _ => .panic .unreachable
    let noWork : SK → Args → FState → Nat := fun _ _ _ => 0
    let r : Regs := { m := a.m, w := a.w, o := a.o }
    1 + execWork noSub noWork { all := cs } (bodies fn).pre r s +
      match execF noSub { all := cs } (bodies fn).pre r s with
      | .ok (r, s) => loopWork (bodies fn) cs cs 0 r s + match fmtLoop bodies (bodies fn) cs cs 0 r s with
        | .ok (r, s) => execWork noSub noWork { all := cs } (bodies fn).post r s
        | _ => 0
      | _ => 0
/-- The work of the loop over the children of a tree: one for every child, and that of the statements for it. -/
def loopWork (b : FBody) (all : List Tree) (cs : List Tree) (idx : Nat) (r : Regs) (s : FState) : Nat :=
  match cs with
  | [] => 0
  | c :: rest =>
    let cmd := match c with
      | .tok t => b.onTok t.kind
      | .node k _ => b.onTree k
    let cx : Ctx := { all, cur := some c, idx, rest }
    1 + execWork (fun fn a s => fmtTree bodies fn a c s) (fun fn a s => fmtWork fn a c s) cx cmd r s +
      match execF (fun fn a s => fmtTree bodies fn a c s) cx cmd r s with
      | .ok (r, s) => loopWork b all rest (idx + 1) r s
      | _ => 0
end

end

/-- The work of the formatter. -/
def formatWork (t : Tree) (comments : List Token) : Nat :=
  match t with
  | .tok _ => 1
  | .node .Error _ => 1
  | .node k cs => 1 + fmtWork Fmt.body k {} (.node k cs) (FState.init comments)

end Mofmt
