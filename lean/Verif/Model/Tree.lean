import Verif.Model.Grammar
/-
Syntax trees. Source: /repo/src/parser/tree.rs
-/
namespace Mofmt

/-- tree.rs:33-43 `Tree` and `Child`; a `Child::Token` is `tok`, a `Child::Tree` is `node`. -/
inductive Tree where
  | tok (t : Token)
  | node (kind : SK) (children : List Tree)
  deriving Repr

/-- One entry of the stack of `build_tree`: an unfinished tree, children newest first. -/
abbrev Frame := SK × List Tree

/-- tree.rs:12-26, the loop of `build_tree`: stack (top first) and remaining tokens. -/
def buildLoop : List Event → List Frame → List Token → Res (List Frame × List Token)
  | [], stack, toks => .ok (stack, toks)
  | .enter k :: es, stack, toks => buildLoop es ((k, []) :: stack) toks
  | .exit :: es, stack, toks =>
    match stack with
    | [] => .panic .unwrap
    | (k, cs) :: rest =>
      if cs.length > 0 then
        match rest with
        | [] => .panic .unwrap
        | (k', cs') :: rest => buildLoop es ((k', .node k cs.reverse :: cs') :: rest) toks
      else buildLoop es rest toks
  | .advance :: es, stack, toks =>
    match toks with
    | [] => .panic .unwrap
    | t :: toks =>
      match stack with
      | [] => .panic .unwrap
      | (k, cs) :: rest => buildLoop es ((k, .tok t :: cs) :: rest) toks

/-- tree.rs:4-31 `build_tree` -/
def buildTree (toks : List Token) (evs : List Event) : Res Tree :=
  match evs.getLast? with
  | some .exit =>
    (buildLoop evs.dropLast [] toks).bind fun (stack, rest) =>
      if rest.isEmpty then
        match stack with
        | [(k, cs)] => .ok (.node k cs.reverse)
        | _ => .panic .assert
      else .panic .assert
  | _ => .panic .assert

mutual
/-- tree.rs:61-66 `start`; `none` stands for the panic on a tree without children -/
def Tree.start? : Tree → Option Token
  | .tok t => some t
  | .node _ cs => startOf cs
/-- first leaf of the first child -/
def startOf : List Tree → Option Token
  | [] => none
  | c :: _ => c.start?
end

mutual
/-- tree.rs:68-73 `end`; `none` stands for the panic on a tree without children -/
def Tree.end? : Tree → Option Token
  | .tok t => some t
  | .node _ cs => endOf cs
/-- last leaf of the last child -/
def endOf : List Tree → Option Token
  | [] => none
  | [c] => c.end?
  | _ :: cs => endOf cs
end

/-- tree.rs:75-79 `is_multiline` of a tree with children `cs` -/
def isMultiline (cs : List Tree) : Res Bool :=
  match startOf cs, endOf cs with
  | some a, some b => .ok (a.start.line < b.stop.line)
  | _, _ => .panic .unwrap

mutual
/-- is the child a tree of kind `k`, or does it contain one -/
def Tree.hasKind (k : SK) : Tree → Bool
  | .tok _ => false
  | .node k' cs => if k' = k then true else containsKind k cs
/-- tree.rs:81-96 `contains` of a tree with the given children -/
def containsKind (k : SK) : List Tree → Bool
  | [] => false
  | c :: cs => if c.hasKind k then true else containsKind k cs
end

end Mofmt
