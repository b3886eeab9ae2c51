import Verif.Model.Lexer
/-
Parser state, parser primitives and the interpreter for grammar functions.
Source: /repo/src/parser/parsing.rs:1-251

The bodies of the grammar functions (parsing.rs:283-1546) are written in a small command language
(`Cmd`, see Grammar.lean); this file gives its meaning in terms of the parser primitives.
-/
namespace Mofmt

/-- parsing.rs:18-31 `struct Parser` (without the immutable `name` and `tokens`). -/
structure PState where
  /-- syntax events, newest first -/
  evs : List Event
  errors : List Text
  pos : Nat
  lifes : Nat
  /-- result of the most recent `nth`; stands for the scrutinee of a `match p.nth(n)` -/
  last : Tok
  deriving DecidableEq, Repr

/-- parsing.rs:132-142 `Parser::new` -/
def PState.init : PState := { evs := [], errors := [], pos := 0, lifes := 100, last := .EOF }

/-- Conditions occurring in grammar functions. -/
inductive Cond where
  /-- parsing.rs:200-202 `p.check(k)` -/
  | check (k : Tok)
  /-- parsing.rs:205-207 `p.check_any(&ks)` -/
  | checkAny (ks : List Tok)
  /-- `p.nth(n) == k` -/
  | nthIs (n : Nat) (k : Tok)
  /-- parsing.rs:211-217 `p.consume(k)` -/
  | consume (k : Tok)
  /-- parsing.rs:172-174 `p.eof()` -/
  | eof
  | not (c : Cond)
  /-- `a && b` -/
  | and (a b : Cond)
  /-- `a || b` -/
  | or (a b : Cond)
  deriving DecidableEq, Repr

/-- Statements occurring in grammar functions. -/
inductive Cmd where
  | skip
  | seq (a b : Cmd)
  | ite (c : Cond) (a b : Cmd)
  | while (c : Cond) (body : Cmd)
  /-- a condition evaluated for its effect -/
  | eval (c : Cond)
  /-- parsing.rs:246-250 `p.expect(k)` -/
  | expect (k : Tok)
  /-- parsing.rs:164-169 `p.advance()` -/
  | advance
  /-- call of the grammar function for `k`: `enter`, its body, `exit` -/
  | call (k : SK)
  /-- parsing.rs:237-242 `p.advance_with_error(format!("{pre}{:?}{post}", p.nth(n)))` -/
  | advErr (n : Nat) (pre post : Text)
  /-- `p.nth(n)` as the scrutinee of a `match` -/
  | look (n : Nat)
  /-- one arm of a `match`: does the scrutinee belong to `ks`? -/
  | ifk (ks : List Tok) (a b : Cmd)
  /-- parsing.rs:125 `panic!("cannot parse error node")` -/
  | unreachable
  deriving DecidableEq, Repr

/-- A block of statements. -/
def blk : List Cmd → Cmd
  | [] => .skip
  | [c] => c
  | c :: cs => .seq c (blk cs)

/-- `if c { a }` -/
def Cmd.when (c : Cond) (a : Cmd) : Cmd := .ite c a .skip

section Prim
variable (name : Text) (toks : List Token)

/-- parsing.rs:172-174 `eof` -/
def PState.eof (s : PState) : Bool := s.pos == toks.length

/-- parsing.rs:177-185 `nth`, with parsing.rs:187-197 `blowup` when no lifes are left -/
def PState.nth (n : Nat) (s : PState) : Res (Tok × PState) :=
  if s.lifes = 0 then
    if toks.isEmpty then .panic .unwrap else .panic .stuck
  else
    let k := ((toks[s.pos + n]?).map (·.kind)).getD .EOF
    .ok (k, { s with lifes := s.lifes - 1, last := k })

/-- parsing.rs:164-169 `advance` -/
def PState.advance (s : PState) : Res PState :=
  if s.eof toks then .panic .assert
  else .ok { s with evs := .advance :: s.evs, pos := s.pos + 1, lifes := 100 }

/-- parsing.rs:148-152 `enter`; the mark is the number of events before it -/
def PState.enter (s : PState) : PState := { s with evs := .enter .Error :: s.evs }

/-- parsing.rs:158-161 `exit`: `events[m] = Enter(typ)`, then push `Exit` -/
def PState.exit (m : Nat) (typ : SK) (s : PState) : PState :=
  { s with evs := .exit :: s.evs.set (s.evs.length - 1 - m) (.enter typ) }

/-- parsing.rs:220-235 `error` -/
def PState.error (msg : Text) (s : PState) : Res PState :=
  match toks[s.pos]? with
  | some tok => .ok { s with errors := s.errors ++ [errorText name tok.start msg] }
  | none =>
    match toks.getLast? with
    | some tok => .ok { s with errors := s.errors ++ [errorText name tok.start msg] }
    | none => .panic .unwrap

/-- Evaluation of conditions, left to right and short-circuiting. -/
def evalCond : Cond → PState → Res (Bool × PState)
  | .check k, s => (s.nth toks 0).bind fun (k', s) => .ok (k' == k, s)
  | .checkAny ks, s => (s.nth toks 0).bind fun (k', s) => .ok (ks.contains k', s)
  | .nthIs n k, s => (s.nth toks n).bind fun (k', s) => .ok (k' == k, s)
  | .consume k, s => (s.nth toks 0).bind fun (k', s) =>
      if k' == k then (s.advance toks).bind fun s => .ok (true, s) else .ok (false, s)
  | .eof, s => .ok (s.eof toks, s)
  | .not c, s => (evalCond c s).bind fun (b, s) => .ok (!b, s)
  | .and a b, s => (evalCond a s).bind fun (t, s) => if t then evalCond b s else .ok (false, s)
  | .or a b, s => (evalCond a s).bind fun (t, s) => if t then .ok (true, s) else evalCond b s

/-- Execution of statements; `body k` is the body of the grammar function for `k`.
The number is a bound on the depth of the evaluation. -/
def run (body : SK → Cmd) : Nat → Cmd → PState → Res PState
  | 0, _, _ => .fuel
  | _ + 1, .skip, s => .ok s
  | n + 1, .seq a b, s => (run body n a s).bind (run body n b)
  | n + 1, .ite c a b, s => (evalCond toks c s).bind fun (t, s) =>
      if t then run body n a s else run body n b s
  | n + 1, .while c a, s => (evalCond toks c s).bind fun (t, s) =>
      if t then (run body n a s).bind (run body n (.while c a)) else .ok s
  | _ + 1, .eval c, s => (evalCond toks c s).bind fun (_, s) => .ok s
  | _ + 1, .expect k, s => (evalCond toks (.consume k) s).bind fun (t, s) =>
      if t then .ok s
      else (s.nth toks 0).bind fun (k', s) =>
        s.error name toks (c!"expected " ++ k.debug ++ c!", found " ++ k'.debug)
  | _ + 1, .advance, s => s.advance toks
  | n + 1, .call k, s => (run body n (body k) s.enter).bind fun s' =>
      .ok (s'.exit s.evs.length k)
  | _ + 1, .advErr m pre post, s => (s.nth toks m).bind fun (k', s) =>
      (s.error name toks (pre ++ k'.debug ++ post)).bind fun s =>
        (s.enter.advance toks).bind fun s' => .ok (s'.exit s.evs.length .Error)
  | _ + 1, .look m, s => (s.nth toks m).bind fun (_, s) => .ok s
  | n + 1, .ifk ks a b, s => if ks.contains s.last then run body n a s else run body n b s
  | _ + 1, .unreachable, _ => .panic .unreachable

end Prim
end Mofmt
