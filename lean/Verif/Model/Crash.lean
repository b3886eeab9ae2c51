import Verif.Model.Grammar
/-
Where the parser panics, and what it says then.
Source: /repo/src/parser/parsing.rs:187-197

`run` (Model/Parser.lean) forgets the state in which a grammar function panics.  Here the same interpreter keeps it:
`runC_res` (Proofs/Crash.lean) shows that nothing else is different.
-/
namespace Mofmt

/-- The outcome of a run of the parser, with the state at a panic. -/
inductive Stop (α : Type) where
  | ok (a : α)
  | crash (s : PState) (p : Panic)
  | fuel
  deriving DecidableEq, Repr

def Stop.bind {α β : Type} : Stop α → (α → Stop β) → Stop β
  | .ok a, f => f a
  | .crash s p, _ => .crash s p
  | .fuel, _ => .fuel

/-- without the state -/
def Stop.res {α : Type} : Stop α → Res α
  | .ok a => .ok a
  | .crash _ p => .panic p
  | .fuel => .fuel

/-- the outcome of a primitive called in a state -/
def Stop.of {α : Type} (s : PState) : Res α → Stop α
  | .ok a => .ok a
  | .panic p => .crash s p
  | .fuel => .fuel

section Prim
variable (name : Text) (toks : List Token)

/-- as `evalCond` (Model/Parser.lean) -/
def condC : Cond → PState → Stop (Bool × PState)
  | .check k, s => (Stop.of s (s.nth toks 0)).bind fun (k', s) => .ok (k' == k, s)
  | .checkAny ks, s => (Stop.of s (s.nth toks 0)).bind fun (k', s) => .ok (ks.contains k', s)
  | .nthIs n k, s => (Stop.of s (s.nth toks n)).bind fun (k', s) => .ok (k' == k, s)
  | .consume k, s => (Stop.of s (s.nth toks 0)).bind fun (k', s) =>
      if k' == k then (Stop.of s (s.advance toks)).bind fun s => .ok (true, s) else .ok (false, s)
  | .eof, s => .ok (s.eof toks, s)
  | .not c, s => (condC c s).bind fun (b, s) => .ok (!b, s)
  | .and a b, s => (condC a s).bind fun (t, s) => if t then condC b s else .ok (false, s)
  | .or a b, s => (condC a s).bind fun (t, s) => if t then .ok (true, s) else condC b s

/-- as `run` (Model/Parser.lean) -/
def runC (body : SK → Cmd) : Nat → Cmd → PState → Stop PState
  | 0, _, _ => .fuel
  | _ + 1, .skip, s => .ok s
  | n + 1, .seq a b, s => (runC body n a s).bind (runC body n b)
  | n + 1, .ite c a b, s => (condC toks c s).bind fun (t, s) =>
      if t then runC body n a s else runC body n b s
  | n + 1, .while c a, s => (condC toks c s).bind fun (t, s) =>
      if t then (runC body n a s).bind (runC body n (.while c a)) else .ok s
  | _ + 1, .eval c, s => (condC toks c s).bind fun (_, s) => .ok s
  | _ + 1, .expect k, s => (condC toks (.consume k) s).bind fun (t, s) =>
      if t then .ok s
      else (Stop.of s (s.nth toks 0)).bind fun (k', s) =>
        Stop.of s (s.error name toks (c!"expected " ++ k.debug ++ c!", found " ++ k'.debug))
  | _ + 1, .advance, s => Stop.of s (s.advance toks)
  | n + 1, .call k, s => (runC body n (body k) s.enter).bind fun s' =>
      .ok (s'.exit s.evs.length k)
  | _ + 1, .advErr m pre post, s => (Stop.of s (s.nth toks m)).bind fun (k', s) =>
      (Stop.of s (s.error name toks (pre ++ k'.debug ++ post))).bind fun s =>
        (Stop.of s.enter (s.enter.advance toks)).bind fun s' => .ok (s'.exit s.evs.length .Error)
  | _ + 1, .look m, s => (Stop.of s (s.nth toks m)).bind fun (_, s) => .ok s
  | n + 1, .ifk ks a b, s => if ks.contains s.last then runC body n a s else runC body n b s
  | _ + 1, .unreachable, s => .crash s .unreachable

/-- parsing.rs:187-197 `blowup`: what the panic says; nothing if there is no token -/
def blowupText (s : PState) : Text :=
  match (if s.eof toks then toks.getLast? else toks[s.pos]?) with
  | some tok => errorText name tok.start c!"Parser stuck"
  | none => []

end Prim

/-- parsing.rs:7-15 `events`: what the parser says if it gets stuck -/
def stuckText (name : Text) (toks : List Token) (entry : SK) : Option Text :=
  match runC name toks Grammar.body (parseFuel toks.length) (.call entry) PState.init with
  | .crash s .stuck => some (blowupText name toks s)
  | _ => none

end Mofmt
