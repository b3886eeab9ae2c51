import Verif.Proofs.ParserAbs
import Verif.Spec.Accept
/-
The parser follows every tree of the grammar: symbolic execution of the grammar functions along the
children of a production.  The abstract state is the next child (or that there is none), what may follow
it, the possible kinds of the next token, and a bound on the number of lookaheads since the last token
was passed.
-/
namespace Mofmt
namespace Acc

/-- Per production: first tokens, tokens that may follow, bounds on the number of lookaheads since the
last token was passed: on entry, on exit, and made when the production has no tokens. -/
structure Tab where
  fst : SK → KSet
  fol : SK → KSet
  en : SK → Nat
  ex : SK → Nat
  em : SK → Nat

/-- Abstract state. -/
structure St where
  /-- the next child -/
  a : Option Sym
  /-- what may follow it -/
  r : RE
  /-- possible kinds of the next token -/
  x : KSet
  /-- has a token been passed since the production was entered? -/
  adv : Bool
  /-- lookaheads since then or since the production was entered -/
  off : Nat
  /-- did the last lookahead refer to the next token? -/
  now : Bool
  /-- otherwise the possible results of the last lookahead -/
  ls : KSet
  deriving DecidableEq, Repr

/-- the tokens `opens` excludes -/
def shut (p k : SK) : KSet :=
  if k = .Equation then
    if p = .EquationSection then KSet.of [.End, .Initial] else KSet.of [.End]
  else 0

def union (l : List KSet) : KSet := l.foldr (· ||| ·) 0
def subset (a b : KSet) : Bool := KSet.diff a b = 0

section
variable (T : Tab) (p : SK)

/-- first tokens of a child of `p` -/
def firstIn : Sym → KSet
  | .t k => KSet.bit k
  | .n k => KSet.diff (T.fst k) (shut p k)

/-- first tokens of a sequence of children of `p` -/
def firsts (r : RE) : KSet := union ((dedup r.first).map (firstIn T p))

/-- first tokens of the rest of the production or of what follows it -/
def follows (r : RE) : KSet := firsts T p r ||| (if r.nullable then T.fol p else 0)

/-- the states in which the children described by `r` are still to come -/
def starts (r : RE) (adv : Bool) (off : Nat) : List St :=
  (dedup r.first).map (fun b =>
    { a := some b, r := r.der b, x := firstIn T p b, adv, off, now := false, ls := KSet.all }) ++
  (if r.nullable then [{ a := none, r := .eps, x := T.fol p, adv, off, now := false, ls := KSet.all }]
   else [])

/-- lookaheads since the last token was passed -/
def cur (st : St) : Nat := if st.adv then st.off else T.en p + st.off

/-- one more lookahead -/
def tick (st : St) : Option St :=
  if cur T p st < 100 then some { st with off := st.off + 1 } else none

/-- second tokens of a production that starts with `x`, and may it consist of `x` alone? -/
def second : Nat → SK → Tok → KSet × Bool
  | 0, _, _ => (KSet.all, true)
  | n + 1, j, x =>
    ((dedup (Gram.spec j).first).map fun b =>
      match b with
      | .t k => if k = x then (firsts T j ((Gram.spec j).der b), ((Gram.spec j).der b).nullable) else (0, false)
      | .n i =>
        if (firstIn T j b).has x then
          if (second n i x).2 then
            ((second n i x).1 ||| firsts T j ((Gram.spec j).der b), ((Gram.spec j).der b).nullable)
          else ((second n i x).1, false)
        else (0, false)).foldr (fun q a => (q.1 ||| a.1, q.2 || a.2)) (0, false)

/-- third tokens of a production that starts with two tokens -/
def third (j : SK) : KSet :=
  union ((dedup (Gram.spec j).first).map fun b =>
    match b with
    | .n _ => KSet.all
    | .t _ =>
      if ((Gram.spec j).der b).nullable then KSet.all else
      union ((dedup ((Gram.spec j).der b).first).map fun c =>
        match c with
        | .n _ => KSet.all
        | .t _ =>
          if (((Gram.spec j).der b).der c).nullable then KSet.all
          else firsts T j (((Gram.spec j).der b).der c)))

/-- possible kinds of the token at offset `n`, not 0 -/
def nthSet (n : Nat) (st : St) : KSet :=
  if n = 1 then
    match st.a with
    | none => if p = .Name ∧ st.x = KSet.bit .Dot then KSet.bit .LCurly else KSet.all
    | some (.t _) => follows T p st.r
    | some (.n j) => union ((Tok.all.filter st.x.has).map fun x =>
        if (second T 20 j x).2 then (second T 20 j x).1 ||| follows T p st.r else (second T 20 j x).1)
  else if n = 2 then
    match st.a with
    | some (.n j) => third T j
    | _ => KSet.all
  else KSet.all

def pick (b : Bool) (m : KSet) (f : KSet → St) : List (Bool × St) := if m = 0 then [] else [(b, f m)]

/-- does something in `m` belong to `ks`? -/
def split (m ks : KSet) (f : KSet → St) : List (Bool × St) :=
  pick true (KSet.inter m ks) f ++ pick false (KSet.diff m ks) f

/-- looking at the token at offset `n`: is it in `ks`? -/
def test (n : Nat) (ks : KSet) (st : St) : Option (List (Bool × St)) :=
  match tick T p st with
  | none => none
  | some s => some <|
    if n = 0 then split s.x ks fun m => { s with x := m, now := true }
    else split (nthSet T p n st) ks fun m => { s with now := false, ls := m }

/-- passing the next token -/
def pass (st : St) : Option (List St) :=
  match st.a with
  | some (.t _) => some (starts T p st.r true 0)
  | _ => none

/-- outcomes of a condition -/
def cond : Cond → St → Option (List (Bool × St))
  | .check k, st => test T p 0 (KSet.bit k) st
  | .checkAny ks, st => test T p 0 (KSet.of ks) st
  | .nthIs n k, st => test T p n (KSet.bit k) st
  | .consume k, st => (test T p 0 (KSet.bit k) st).bind <| bindAll fun o =>
      if o.1 then (pass T p o.2).map (·.map (true, ·)) else some [(false, o.2)]
  | .eof, st => match st.a with
    | some _ => some [(false, st)]
    | none => some (split st.x (KSet.bit .EOF) fun m => { st with x := m })
  | .not c, st => (cond c st).map (·.map fun o => (!o.1, o.2))
  | .and a b, st => (cond a st).bind <| bindAll fun o => if o.1 then cond b o.2 else some [(false, o.2)]
  | .or a b, st => (cond a st).bind <| bindAll fun o => if o.1 then some [(true, o.2)] else cond b o.2

/-- states that leave a loop whose heads are reached from `heads` -/
def close (c : Cond) (step : St → Option (List St)) : Nat → List St → Option (List St)
  | 0, _ => none
  | n + 1, heads =>
    match bindAll (cond T p c) heads with
    | none => none
    | some outs =>
      match bindAll (fun x => step x.2) (outs.filter (·.1)) with
      | none => none
      | some next =>
        if next.all (fun x => x ∈ heads) then some (dedup ((outs.filter (!·.1)).map (·.2)))
        else close c step n (dedup (heads ++ next))

/-- a name may be followed by `.`, but then `{` comes next -/
def dotOk (r : RE) : Bool :=
  (r.first.all fun b => !(firstIn T p b).has .Dot ||
    (!(r.der b).nullable && b == .t .Dot && subset (firsts T p (r.der b)) (KSet.bit .LCurly))) &&
  (!r.nullable || !(T.fol p).has .Dot)

/-- states after a command that reports no error -/
def exec : Cmd → St → Option (List St)
  | .skip, st => some [st]
  | .seq a b, st => (exec a st).bind fun l => (bindAll (exec b) l).map dedup
  | .ite c a b, st => (cond T p c st).bind fun l =>
      (bindAll (fun o => if o.1 then exec a o.2 else exec b o.2) l).map dedup
  | .while c a, st => close T p c (exec a) 20 [st]
  | .eval c, st => (cond T p c st).map fun l => dedup (l.map (·.2))
  | .expect k, st => if st.a = some (.t k) then (tick T p st).bind (pass T p) else none
  | .advance, st => pass T p st
  | .call k, st =>
      if k = .Error ∨ ¬ cur T p st ≤ T.en k then none
      else if st.a = some (.n k) then
        if subset (follows T p st.r) (T.fol k) && (k != .Name || dotOk T p st.r) then
          some (starts T p st.r true (T.ex k))
        else none
      else if (Gram.spec k).nullable && subset st.x (T.fol k) && k != .Name then
        some [{ st with off := st.off + T.em k, now := false, ls := KSet.all }]
      else none
  | .advErr _ _ _, _ => none
  | .look n, st => (test T p n KSet.all st).map (·.map (·.2))
  | .ifk ks a b, st =>
      (bindAll (fun o => if o.1 then exec a o.2 else exec b o.2)
        (if st.now then split st.x (KSet.of ks) fun m => { st with x := m }
         else split st.ls (KSet.of ks) fun m => { st with ls := m })).map dedup
  | .unreachable, _ => none

/-- The grammar function for `p` passes every sequence of children. -/
def okSome : Bool :=
  ((starts T p (Gram.spec p) false 0).filter (·.a.isSome)).all fun st =>
    match exec T p (Grammar.body p) st with
    | none => false
    | some l => l.all fun s => s.a == none && s.adv && s.off ≤ T.ex p

/-- The grammar function for `p` passes nothing when there is nothing to pass. -/
def okNone : Bool :=
  !(Gram.spec p).nullable ||
    match exec T p (Grammar.body p)
      { a := none, r := .eps, x := T.fol p, adv := false, off := 0, now := false, ls := KSet.all } with
    | none => false
    | some l => l.all fun s => s.a == none && !s.adv && s.off ≤ T.em p

def ok : Bool := p == .Error ||
  (subset (firsts T p (Gram.spec p)) (T.fst p) && okSome T p && okNone T p)

end
end Acc
end Mofmt
