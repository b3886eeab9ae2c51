import Verif.Model.Parser
/-
Specification: the work of the parser.
-/
namespace Mofmt

/-- the number of conditions in a condition -/
def Cond.size : Cond → Nat
  | .not c => 1 + c.size
  | .and a b => 1 + a.size + b.size
  | .or a b => 1 + a.size + b.size
  | _ => 1

section
variable (name : Text) (toks : List Token) (body : SK → Cmd)

/-- How many steps the parser makes for a statement: one for every statement that is executed and for every condition in it,
two for `enter` and `exit` of a grammar function, three for `expect` (look, look again for the message, message), five for an
unexpected token (look, message, enter, advance, exit).  It follows `run`, also if the run fails. -/
def steps : Nat → Cmd → PState → Nat
  | 0, _, _ => 0
  | _ + 1, .skip, _ => 1
  | n + 1, .seq a b, s => 1 + steps n a s + match run name toks body n a s with
    | .ok s' => steps n b s'
    | _ => 0
  | n + 1, .ite c a b, s => 1 + c.size + match evalCond toks c s with
    | .ok (t, s') => if t then steps n a s' else steps n b s'
    | _ => 0
  | n + 1, .while c a, s => 1 + c.size + match evalCond toks c s with
    | .ok (t, s1) => if t then steps n a s1 + (match run name toks body n a s1 with
        | .ok s2 => steps n (.while c a) s2
        | _ => 0) else 0
    | _ => 0
  | _ + 1, .eval c, _ => 1 + c.size
  | _ + 1, .expect _, _ => 3
  | _ + 1, .advance, _ => 1
  | n + 1, .call k, s => 2 + steps n (body k) s.enter
  | _ + 1, .advErr _ _ _, _ => 5
  | _ + 1, .look _, _ => 1
  | n + 1, .ifk ks a b, s => 1 + if ks.contains s.last then steps n a s else steps n b s
  | _ + 1, .unreachable, _ => 1

end
end Mofmt
