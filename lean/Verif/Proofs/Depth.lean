import Verif.Proofs.DepthTable
/-
The indentation of every child: the finite check and the facts it needs.
-/
namespace Mofmt

/-! ### The check -/

/-- the effect of the first wrap -/
def wPart (k : SK) (σ : Sg) : Int := if exprPart k then b2i σ.w - b2i σ.w0 else 0

/-- Does the indentation depend on conditional expressions? -/
def usesCm (k : SK) : Bool := k == .Modification || k == .Equation || k == .Statement || k == .NamedArgument

/-- Does the indentation depend on descriptions? -/
def usesCh (k : SK) : Bool := k == .ShortClassSpecifier

/-- the indentation is right at the current child -/
def okCur (k : SK) (p : Option Sym) (s : Sym) (tm v pm cm ch : Option Bool) (σ : Sg) : Bool :=
  σ.d == extraIn k p s (tm.getD false && v.getD false) (pm.getD false) (ch.getD false) (cm.getD false) + wPart k σ

/-- and at the next one -/
def okNext (k : SK) (s : Sym) (s' : Option Sym) (tm v pm : Option Bool) (σ : Sg) : Bool := match s' with
  | none => true
  | some s' => !operatorIn k s' &&
    (facts (usesCm k)).all fun cm => (facts (usesCh k)).all fun ch => okCur k (some s) s' tm v pm cm ch σ

/-- the state at the first event, if this is a break before the current child; `none`: no event except changes of
indentation -/
def leadD (ev : Bool → Sg → FCond → Option Bool) : FCmd → Sg → Option (Option Blank × Sg)
  | .skip, σ => some (none, σ)
  | .seq a b, σ => match leadD ev a σ with
    | none => none
    | some (some bl, σ') => some (some bl, σ')
    | some (none, σ') => leadD ev b σ'
  | .ite c a b, σ => match ev false σ c with
    | some true => leadD ev a σ
    | some false => leadD ev b σ
    | none => none
  | .indent, σ => some (none, { σ with d := σ.d + 1 })
  | .dedent, σ => some (none, { σ with d := σ.d - 1 })
  | .brk .cur b, σ => some (some b, σ)
  | .set .x c, σ => (ev false σ c).map fun b => (none, { σ with x := b })
  | _, _ => none

def rowFine (k : SK) (p : Option Sym) (s : Sym) (okC : Sg → Bool) (r : Option (Option Blank × Sg)) : Bool :=
  match breakBefore k p s with
  | none => true
  | some b => match r with
    | some (some b', σ') => b' == b && okC σ'
    | _ => false

/-- the check of a child: `p`, `s'`: its neighbours -/
def siteFine (k : SK) (tm v pm : Option Bool) (S : List Sg) (p : Option Sym) (s : Sym) (s' : Option Sym) : Bool :=
  (facts (usesCm k)).all fun cm => (facts (usesCh k)).all fun ch => S.all fun σ =>
    let ev := evK k p (senv k tm v pm cm ch)
    let okC := okCur k p s tm v pm cm ch
    sites ev s okC (okNext k s s' tm v pm) false (upCmd (Fmt.body k) s) σ && (!operatorIn k s || okC σ) &&
      rowFine k p s okC (leadD ev (upCmd (Fmt.body k) s) σ)

structure DSt where
  S : List Sg
  p : Option Sym
  s : Option Sym
  ok : Bool
  deriving DecidableEq

def dStep (k : SK) (tm v pm : Option Bool) (st : DSt) (s' : Sym) : DSt := match st.s with
  | none => { st with s := some s' }
  | some s => ⟨lvStep (senv k tm v pm) k st.S s, some s, some s', st.ok && siteFine k tm v pm st.S st.p s (some s')⟩

def dFine (k : SK) (tm v pm : Option Bool) (st : DSt) : Bool := st.ok && match st.s with
  | none => true
  | some s => siteFine k tm v pm st.S st.p s none

def dInit (k : SK) (tm v pm : Option Bool) : DSt := ⟨lvInit (senv k tm v pm) k, none, none, true⟩

set_option maxHeartbeats 1000000 in
theorem depth_ok : ∀ k, ∀ tm ∈ facts (usesTm k), ∀ v ∈ facts (usesTm k), ∀ pm ∈ facts (usesPm k),
    checkG (dStep k tm v pm) (dFine k tm v pm) (Gram.spec k) (dInit k tm v pm) = true := by
  intro k; cases k <;> decide +kernel

theorem wFirst_ok : ∀ k, ∀ s ∈ (Gram.spec k).syms, (chainChild k s || wFirst k (upCmd (Fmt.body k) s)) = true := by
  intro k; cases k <;> decide

end Mofmt
