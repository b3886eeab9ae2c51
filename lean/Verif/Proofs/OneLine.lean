import Verif.Spec.OneLine
import Verif.Proofs.Moves
/-
Expressions written on one line are printed on one line, with blanks as specified.
-/
namespace Mofmt

/-- one blank or nothing -/
def optEv (b : Bool) : List TEv := if b then [.space] else []

mutual
/-- the events of a tree on one line -/
def Tree.lineEv : Tree → List TEv
  | .tok t => [.tok t]
  | .node k cs => lineEvF k 0 .none cs
def lineEvF (k : SK) (i : Nat) (prev : Option Sym) : List Tree → List TEv
  | [] => match prev with
    | .none => []
    | some p => optEv (blankAfter k p)
  | c :: cs => optEv (blankBefore k (i == 1) prev c.sym) ++ c.lineEv ++ lineEvF k (i + 1) (some c.sym) cs
end

/-- without changes of indentation -/
def clean (es : List TEv) : List TEv := es.filter (fun e => !e.ind)

theorem clean_append (a b : List TEv) : clean (a ++ b) = clean a ++ clean b := List.filter_append ..

theorem clean_ind {es : List TEv} (h : ∀ e ∈ es, e.ind = true) : clean es = [] := by
  simp only [clean, List.filter_eq_nil_iff]
  intro e he
  simp [h e he]

/-! ### Symbolic execution -/

/-- what is known: local variables, whether a blank is pending, whether the child has been printed -/
structure XSt where
  m : Option Bool
  x : Option Bool
  c : Option Bool
  pd : Bool
  em : Bool
  deriving DecidableEq

/-- the place: position (not greater than 2), symbols of the child before, the child and the child after -/
structure XCx where
  fn : SK
  i : Nat
  prev : Option Sym
  cur : Option Sym
  next : Option Sym
  deriving DecidableEq

def isNode : Option Sym → Bool
  | some (.n _) => true
  | _ => false
def isTok : Option Sym → Bool
  | some (.t _) => true
  | _ => false

/-- conditions -/
def xEval (X : XCx) (s : XSt) : FCond → Option Bool
  | .false => some false
  | .reg .m => s.m
  | .reg .x => s.x
  | .reg .c => s.c
  | .treeMulti => some false
  | .parenMulti _ _ => some false
  | .curMulti => some false
  | .idxGt n => if n = 0 then some (decide (X.i > 0)) else none
  | .prevTok k => if s.em || k != .LParen then none else match X.prev with
    | some (.t k') => some (k' == .LParen)
    | some (.n _) => some false
    | none => if X.fn = .OutputExpressionList then some true else none
  | .nextTree => some (isNode X.next)
  | .nextTreeU => some (isNode X.next)
  | .nextTok => some (isTok X.next)
  | .nextBelow => if decide (X.i > 0) || s.em then some false else none
  | .not a => (xEval X s a).map (!·)
  | .and a b => match xEval X s a with
    | some false => some false
    | some true => xEval X s b
    | none => if xEval X s b = some false then some false else none
  | .or a b => match xEval X s a with
    | some true => some true
    | some false => xEval X s b
    | none => if xEval X s b = some true then some true else none
  | _ => none

def xBlank (s : XSt) : Option XSt := if s.pd then none else some { s with pd := true }

/-- the child is printed -/
def xEmit (X : XCx) (s : XSt) : Option XSt :=
  match X.cur with
  | some y => if !s.em && s.pd == blankBefore X.fn (X.i == 1) X.prev y then some { s with pd := false, em := true } else none
  | none => none

/-- statements; `none`: not known -/
def xExec (X : XCx) : FCmd → XSt → Option XSt
  | .skip, s => some s
  | .seq a b, s => (xExec X a s).bind (xExec X b)
  | .ite c a b, s => match xEval X s c with
    | some true => xExec X a s
    | some false => xExec X b s
    | none => if xExec X a s = xExec X b s then xExec X a s else none
  | .space, s => xBlank s
  | .indent, s => some s
  | .dedent, s => some s
  | .tok, s => if isTok X.cur then xEmit X s else none
  | .bos c _, s => if xEval X s c = some false then xBlank s else none
  | .call fn m _ _ _, s =>
    if xEval X s m = some false && lineKinds.contains fn && X.cur == some (.n fn) &&
      (fn != .OutputExpressionList || X.prev == some (.t .LParen)) then xEmit X s
    else none
  | .set .m c, s => some { s with m := xEval X s c }
  | .set .x c, s => some { s with x := xEval X s c }
  | .set .c c, s => some { s with c := xEval X s c }
  | .set _ _, s => some s
  | _, _ => none

/-- before a child -/
structure XLoop where
  i : Nat
  prev : Option Sym
  cur : Option Sym
  m : Option Bool
  x : Option Bool
  c : Option Bool
  pd : Bool
  deriving DecidableEq

def xArm (fn : SK) (L : XLoop) (next : Option Sym) : Option XSt :=
  match L.cur with
  | none => none
  | some y => (xExec ⟨fn, L.i, L.prev, L.cur, next⟩ (upCmd (Fmt.body fn) y) ⟨L.m, L.x, L.c, L.pd, false⟩).bind
      fun s => if s.em then some s else none

def xStep (fn : SK) (L : Option XLoop) (y : Sym) : Option XLoop :=
  L.bind fun L => match L.cur with
    | none => some { L with cur := some y }
    | some z => (xArm fn L (some y)).map fun s => ⟨min (L.i + 1) 2, some z, some y, s.m, s.x, s.c, s.pd⟩

def xFine (fn : SK) (L : Option XLoop) : Bool :=
  match L with
  | none => false
  | some L => match L.cur with
    | none => true
    | some z => match xArm fn L none with
      | none => false
      | some s => s.pd == blankAfter fn z

def xPre (fn : SK) : Option XSt :=
  xExec ⟨fn, 0, none, none, none⟩ (Fmt.body fn).pre ⟨some false, some false, some false, false, false⟩

def xOk (fn : SK) : Bool :=
  match xPre fn with
  | none => false
  | some s => !s.pd && checkG (xStep fn) (xFine fn) (Gram.spec fn) (some ⟨0, none, none, s.m, s.x, s.c, false⟩)

theorem line_all : ∀ fn ∈ lineKinds, xOk fn = true := by decide +kernel

/-! ### Soundness -/

/-- the child is on the line `l` and is printed as specified -/
def LineSub (l : Nat) (c : Tree) : Prop :=
  ∀ fn a q w es, c.sym = .n fn → fn ∈ lineKinds → a.m = false →
    (fn = .OutputExpressionList → kindOf q = .LParen) → subOf c fn a q = .ok (w, es) →
    clean es = c.lineEv ∧ lineOf (lastT q es) = l

/-- what is known of the last token -/
def KindBefore (fn : SK) (prev : Option Sym) (q : Option Token) : Prop :=
  match prev with
  | some (.t k) => kindOf q = k
  | some (.n _) => kindOf q ≠ .LParen
  | none => fn = .OutputExpressionList → kindOf q = .LParen

/-- the state is as described -/
structure XRel (X : XCx) (l : Nat) (s : XSt) (r : Regs) (q : Option Token) : Prop where
  m : ∀ b, s.m = some b → r.m = b
  x : ∀ b, s.x = some b → r.x = b
  c : ∀ b, s.c = some b → r.c = b
  line : X.i > 0 ∨ s.em = true → lineOf q = l
  kind : s.em = false → KindBefore X.fn X.prev q

/-- the place is as described -/
structure XCtx (l : Nat) (X : XCx) (cx : Ctx) : Prop where
  all : OnLine l (leavesF cx.all)
  cur : X.cur = cx.cur.map Tree.sym
  curL : ∀ c, cx.cur = some c → OnLine l c.leaves
  next : X.next = cx.rest.head?.map Tree.sym
  rest : ∀ c ∈ cx.rest, OnLine l c.leaves
  idx : cx.idx > 0 ↔ X.i > 0

theorem xEval_sound {X : XCx} {l : Nat} {s : XSt} {cx : Ctx} {r : Regs} {q : Option Token}
    (hx : XCtx l X cx) (hr : XRel X l s r q) : ∀ {c : FCond} {b b' : Bool},
    evalFC cx r (fsOf q) c = .ok b → xEval X s c = some b' → b = b' := by
  intro c
  induction c with
  | «false» => intro b b' h1 h2; cases h1; cases h2; rfl
  | reg v =>
    intro b b' h1 h2
    cases h1
    cases v
    · exact hr.m _ h2
    · cases h2
    · cases h2
    · exact hr.c _ h2
    · exact hr.x _ h2
  | treeMulti =>
    intro b b' h1 h2
    cases h2
    exact isMultiline_line hx.all h1
  | parenMulti op cl =>
    intro b b' h1 h2
    cases h2
    simp only [evalFC, scanParens_line hx.all] at h1
    cases h1; rfl
  | curMulti =>
    intro b b' h1 h2
    cases h2
    obtain ⟨cs, h3, h1⟩ := Res.bind_eq_ok.1 h1
    unfold Ctx.curChildren at h3
    split at h3
    · rename_i k ds hc
      cases h3
      refine isMultiline_line (l := l) ?_ h1
      intro t ht
      exact hx.curL _ hc t (by simpa [Tree.leaves] using ht)
    · cases h3
  | idxGt n =>
    intro b b' h1 h2
    simp only [xEval] at h2
    split at h2
    · rename_i hn
      subst hn
      cases h1; cases h2
      rw [Bool.eq_iff_iff]
      simpa using hx.idx
    · cases h2
  | prevTok k =>
    intro b b' h1 h2
    simp only [xEval] at h2
    split at h2
    · cases h2
    · rename_i hc
      simp only [Bool.or_eq_true, not_or, Bool.not_eq_true, bne_eq_false_iff_eq] at hc
      obtain ⟨hem, rfl⟩ := hc
      have hk := hr.kind hem
      cases h1
      unfold KindBefore at hk
      split at h2
      · rename_i k' hp
        rw [hp] at hk
        cases h2
        simp only [fsOf, hk]
        rw [Bool.eq_iff_iff]; simp
      · rename_i k' hp
        rw [hp] at hk
        cases h2
        exact decide_eq_false hk
      · rename_i hp
        rw [hp] at hk
        split at h2
        · rename_i hf
          cases h2
          simp [fsOf, hk hf]
        · cases h2
  | nextTree =>
    intro b b' h1 h2
    cases h2
    rw [hx.next]
    simp only [evalFC] at h1
    cases hre : cx.rest with
    | nil => rw [hre] at h1; cases h1; rfl
    | cons c cs => rw [hre] at h1; cases c <;> cases h1 <;> rfl
  | nextTreeU =>
    intro b b' h1 h2
    cases h2
    rw [hx.next]
    simp only [evalFC] at h1
    cases hre : cx.rest with
    | nil => rw [hre] at h1; cases h1
    | cons c cs => rw [hre] at h1; cases c <;> cases h1 <;> rfl
  | nextTok =>
    intro b b' h1 h2
    cases h2
    rw [hx.next]
    simp only [evalFC] at h1
    cases hre : cx.rest with
    | nil => rw [hre] at h1; cases h1; rfl
    | cons c cs => rw [hre] at h1; cases c <;> cases h1 <;> rfl
  | nextBelow =>
    intro b b' h1 h2
    simp only [xEval] at h2
    split at h2
    · rename_i hp
      cases h2
      obtain ⟨t, h3, h1⟩ := Res.bind_eq_ok.1 h1
      cases h1
      simp only [Bool.or_eq_true, decide_eq_true_eq] at hp
      have hl := hr.line hp
      have ht : t.start.line = l := by
        simp only [Ctx.target] at h3
        cases hre : cx.rest with
        | nil => rw [hre] at h3; cases h3
        | cons c cs =>
          rw [hre] at h3
          simp only [startTok] at h3
          split at h3
          · rename_i u hu
            cases h3
            exact (hx.rest c (by simp [hre]) _ (start_mem hu)).1
          · cases h3
      simp [fsOf, hl, ht]
    · cases h2
  | not a ih =>
    intro b b' h1 h2
    obtain ⟨t, h3, h1⟩ := Res.bind_eq_ok.1 h1
    cases h1
    simp only [xEval, Option.map_eq_some_iff] at h2
    obtain ⟨u, h4, rfl⟩ := h2
    rw [ih h3 h4]
  | and a b ih1 ih2 =>
    intro x x' h1 h2
    obtain ⟨t, h3, h1⟩ := Res.bind_eq_ok.1 h1
    simp only [xEval] at h2
    split at h2
    · rename_i h4
      cases h2
      have := ih1 h3 h4
      subst this
      cases h1; rfl
    · rename_i h4
      have := ih1 h3 h4
      subst this
      exact ih2 h1 h2
    · split at h2
      · rename_i h5
        cases h2
        cases t
        · cases h1; rfl
        · exact ih2 h1 h5
      · cases h2
  | or a b ih1 ih2 =>
    intro x x' h1 h2
    obtain ⟨t, h3, h1⟩ := Res.bind_eq_ok.1 h1
    simp only [xEval] at h2
    split at h2
    · rename_i h4
      cases h2
      have := ih1 h3 h4
      subst this
      cases h1; rfl
    · rename_i h4
      have := ih1 h3 h4
      subst this
      exact ih2 h1 h2
    · split at h2
      · rename_i h5
        cases h2
        cases t
        · exact ih2 h1 h5
        · cases h1; rfl
      · cases h2
  | _ => intro b b' h1 h2; cases h2

/-- what has been printed -/
def xOut (X : XCx) (cx : Ctx) (s : XSt) : List TEv :=
  match cx.cur, s.em with
  | some c, true => optEv (blankBefore X.fn (X.i == 1) X.prev c.sym) ++ c.lineEv ++ optEv s.pd
  | _, _ => optEv s.pd

theorem xOut_set {X : XCx} {cx : Ctx} {s s' : XSt} (h1 : s'.pd = s.pd) (h2 : s'.em = s.em) :
    xOut X cx s' = xOut X cx s := by
  unfold xOut; rw [h1, h2]

theorem xBlank_sound {X : XCx} {cx : Ctx} {s s' : XSt} (h : xBlank s = some s') :
    xOut X cx s ++ [.space] = xOut X cx s' ∧ s' = { s with pd := true } := by
  unfold xBlank at h
  split at h
  · cases h
  · rename_i hp
    cases h
    refine ⟨?_, rfl⟩
    simp only [Bool.not_eq_true] at hp
    unfold xOut
    split <;> simp_all [optEv]

theorem xEmit_sound {X : XCx} {cx : Ctx} {s s' : XSt} {c : Tree} (hX : X.cur = cx.cur.map Tree.sym)
    (hc : cx.cur = some c) (h : xEmit X s = some s') :
    xOut X cx s ++ c.lineEv = xOut X cx s' ∧ s' = { s with pd := false, em := true } ∧ s.em = false := by
  unfold xEmit at h
  rw [hc] at hX
  rw [hX] at h
  simp only [Option.map_some] at h
  split at h
  · rename_i hp
    cases h
    simp only [Bool.and_eq_true, Bool.not_eq_true', beq_iff_eq] at hp
    refine ⟨?_, rfl, hp.1⟩
    simp only [xOut, hc, hp.1, hp.2]
    simp [optEv]
  · cases h

theorem xExec_sound {X : XCx} {l : Nat} {cx : Ctx} {sub : SK → Args → Option Token → Res (Bool × List TEv)}
    (hx : XCtx l X cx)
    (hsub : ∀ c, cx.cur = some c → (∀ fn a q, sub fn a q = subOf c fn a q) ∧ LineSub l c) :
    ∀ {cmd : FCmd} {s s' : XSt} {r r' : Regs} {q : Option Token} {es : List TEv}, XRel X l s r q →
    xExec X cmd s = some s' → trF sub cx cmd r q = .ok (r', es) →
    xOut X cx s ++ clean es = xOut X cx s' ∧ XRel X l s' r' (lastT q es) := by
  intro cmd
  induction cmd with
  | skip => intro s s' r r' q es hr ha h; cases h; cases ha; exact ⟨by simp [clean], hr⟩
  | seq a b ih1 ih2 =>
    intro s s' r r' q es hr ha h
    obtain ⟨⟨r1, e1⟩, h1, h⟩ := Res.bind_eq_ok.1 h
    obtain ⟨⟨r2, e2⟩, h2, h⟩ := Res.bind_eq_ok.1 h
    cases h
    simp only [xExec, Option.bind_eq_some_iff] at ha
    obtain ⟨s1, ha1, ha2⟩ := ha
    obtain ⟨g1, g2⟩ := ih1 hr ha1 h1
    obtain ⟨g3, g4⟩ := ih2 g2 ha2 h2
    refine ⟨?_, by rw [lastT_append]; exact g4⟩
    rw [clean_append, ← List.append_assoc, g1, g3]
  | ite c a b ih1 ih2 =>
    intro s s' r r' q es hr ha h
    obtain ⟨t, h1, h⟩ := Res.bind_eq_ok.1 h
    simp only [xExec] at ha
    split at ha
    · rename_i hc
      have := xEval_sound hx hr h1 hc
      subst this
      exact ih1 hr ha h
    · rename_i hc
      have := xEval_sound hx hr h1 hc
      subst this
      exact ih2 hr ha h
    · split at ha
      · rename_i heq
        cases t
        · exact ih2 hr (heq ▸ ha) h
        · exact ih1 hr ha h
      · cases ha
  | space =>
    intro s s' r r' q es hr ha h
    cases h
    obtain ⟨g1, rfl⟩ := xBlank_sound (X := X) (cx := cx) ha
    exact ⟨g1, ⟨hr.m, hr.x, hr.c, hr.line, hr.kind⟩⟩
  | indent =>
    intro s s' r r' q es hr ha h
    cases h; cases ha
    exact ⟨by simp [clean, TEv.ind], hr⟩
  | dedent =>
    intro s s' r r' q es hr ha h
    cases h; cases ha
    exact ⟨by simp [clean, TEv.ind], hr⟩
  | tok =>
    intro s s' r r' q es hr ha h
    simp only [trF] at h
    split at h
    · rename_i t hc
      cases h
      simp only [xExec] at ha
      split at ha
      · obtain ⟨g1, rfl, g2⟩ := xEmit_sound hx.cur hc ha
        refine ⟨g1, ⟨hr.m, hr.x, hr.c, fun _ => ?_, fun h => by cases h⟩⟩
        exact (hx.curL _ hc t (by simp [Tree.leaves])).2
      · cases ha
    · cases h
  | bos c t =>
    intro s s' r r' q es hr ha h
    obtain ⟨b, h1, h⟩ := Res.bind_eq_ok.1 h
    obtain ⟨tok, h2, h⟩ := Res.bind_eq_ok.1 h
    cases h
    simp only [xExec] at ha
    split at ha
    · rename_i hc
      have := xEval_sound hx hr h1 hc
      subst this
      obtain ⟨g1, rfl⟩ := xBlank_sound (X := X) (cx := cx) ha
      exact ⟨g1, ⟨hr.m, hr.x, hr.c, hr.line, hr.kind⟩⟩
    · cases ha
  | call fn m w o keep =>
    intro s s' r r' q es hr ha h
    obtain ⟨bm, h1, h⟩ := Res.bind_eq_ok.1 h
    obtain ⟨bw, h2, h⟩ := Res.bind_eq_ok.1 h
    obtain ⟨bo, h3, h⟩ := Res.bind_eq_ok.1 h
    obtain ⟨⟨w', e⟩, h4, h⟩ := Res.bind_eq_ok.1 h
    simp only [Res.ok.injEq, Prod.mk.injEq] at h
    obtain ⟨rfl, rfl⟩ := h
    simp only [xExec] at ha
    split at ha
    · rename_i hc
      simp only [Bool.and_eq_true, decide_eq_true_eq, List.contains_iff_mem, beq_iff_eq] at hc
      obtain ⟨⟨⟨hm, hk⟩, hcur⟩, hoel⟩ := hc
      have := xEval_sound hx hr h1 hm
      subst this
      have hX := hx.cur
      rw [hcur] at hX
      obtain ⟨c, hc, hcs⟩ := Option.map_eq_some_iff.1 hX.symm
      obtain ⟨g1, rfl, g2⟩ := xEmit_sound hx.cur hc ha
      obtain ⟨hs1, hs2⟩ := hsub c hc
      rw [hs1] at h4
      obtain ⟨k1, k2⟩ := hs2 fn _ q w' e hcs hk rfl (by
        intro hf
        subst hf
        simp at hoel
        have := hr.kind g2
        rw [hoel] at this
        exact this) h4
      rw [k1]
      refine ⟨g1, ⟨?_, ?_, ?_, fun _ => k2, fun h => by cases h⟩⟩
      · intro b hb; have := hr.m b hb; split <;> exact this
      · intro b hb; have := hr.x b hb; split <;> exact this
      · intro b hb; have := hr.c b hb; split <;> exact this
    · cases ha
  | set v c =>
    intro s s' r r' q es hr ha h
    obtain ⟨b, h1, h⟩ := Res.bind_eq_ok.1 h
    cases h
    cases v
    · cases ha
      exact ⟨by simp [clean]; rfl, ⟨fun b' hb => xEval_sound hx hr h1 hb, hr.x, hr.c, hr.line, hr.kind⟩⟩
    · cases ha
      exact ⟨by simp [clean], ⟨hr.m, hr.x, hr.c, hr.line, hr.kind⟩⟩
    · cases ha
      exact ⟨by simp [clean], ⟨hr.m, hr.x, hr.c, hr.line, hr.kind⟩⟩
    · cases ha
      exact ⟨by simp [clean]; rfl, ⟨hr.m, hr.x, fun b' hb => xEval_sound hx hr h1 hb, hr.line, hr.kind⟩⟩
    · cases ha
      exact ⟨by simp [clean]; rfl, ⟨hr.m, fun b' hb => xEval_sound hx hr h1 hb, hr.c, hr.line, hr.kind⟩⟩
  | brk t b => intro s s' r r' q es hr ha h; cases ha
  | setPrevRule => intro s s' r r' q es hr ha h; cases ha
  | unreachable => intro s s' r r' q es hr ha h; cases ha

/-! ### All children -/

theorem lastT_or (q : Option Token) (es : List TEv) : lastT q es = (toks es).getLast?.or q := by
  induction es generalizing q with
  | nil => rfl
  | cons e es ih =>
    cases e with
    | tok t =>
      simp only [lastT, toks, ih, List.getLast?_cons]
      cases (toks es).getLast? <;> rfl
    | _ => simp only [lastT, toks, ih]

theorem no_paren_end : ∀ k, checkG (fun (_ : Option Sym) s => some s) (fun o => o != some (.t .LParen)) (Gram.spec k) none
    = true := by
  intro k; cases k <;> decide +kernel

theorem foldl_last (w : List Sym) : ∀ o : Option Sym, w.foldl (fun (_ : Option Sym) s => some s) o = w.getLast?.or o := by
  induction w with
  | nil => intro o; rfl
  | cons s w ih =>
    intro o
    rw [List.foldl_cons, ih, List.getLast?_cons]
    cases w.getLast? <;> rfl

/-- the last token of a tree is no parenthesis that opens -/
theorem node_end (n : Nat) : ∀ {k : SK} {cs : List Tree}, sizeOf cs ≤ n → Tree.Conforms (.node k cs) →
    Tree.hasEmpty (.node k cs) = false → ∀ t, (leavesF cs).getLast? = some t → t.kind ≠ .LParen := by
  induction n with
  | zero =>
    intro k cs hn
    cases cs <;> simp at hn
  | succ n ih =>
  intro k cs hn hC hE t ht
  simp only [Tree.hasEmpty, Bool.or_eq_false_iff, List.isEmpty_eq_false_iff] at hE
  obtain ⟨ds, c, rfl⟩ := (List.eq_nil_or_concat cs).resolve_left hE.1
  rw [List.concat_eq_append] at *
  have hcm : c ∈ ds ++ [c] := by simp
  have hs := checkG_sound (no_paren_end k) hC.1
  rw [foldl_last] at hs
  simp only [List.map_append, List.map_cons, List.map_nil, List.getLast?_append, List.getLast?_singleton,
    Option.some_or, bne_iff_ne, ne_eq, Option.some.injEq] at hs
  rw [leavesF_append, List.getLast?_append] at ht
  cases c with
  | tok u =>
    simp [leavesF, Tree.leaves] at ht
    subst ht
    intro hk
    exact hs (by simp [Tree.sym, hk])
  | node kd es =>
    have hsz : sizeOf es ≤ n := by
      have := List.sizeOf_lt_of_mem hcm
      simp only [Tree.node.sizeOf_spec] at this
      omega
    have hne := leaves_ne (hasEmptyF_mem hE.2 _ hcm)
    simp only [leavesF, Tree.leaves, List.append_nil] at ht hne
    cases hl : (leavesF es).getLast? with
    | none => exact absurd (List.getLast?_eq_none_iff.1 hl) hne
    | some u =>
      rw [hl] at ht
      simp at ht
      subst ht
      exact ih hsz (conformsF_mem hC.2 _ hcm) (hasEmptyF_mem hE.2 _ hcm) u hl

theorem kind_after {fn : SK} {c : Tree} (hC : c.Conforms) (hE : c.hasEmpty = false) {q : Option Token} {es : List TEv}
    (h : toks es = c.leaves) : KindBefore fn (some c.sym) (lastT q es) := by
  rw [lastT_or, h]
  cases c with
  | tok t => rfl
  | node k cs =>
    have hne := leaves_ne hE
    simp only [Tree.leaves] at hne ⊢
    cases hl : (leavesF cs).getLast? with
    | none => exact absurd (List.getLast?_eq_none_iff.1 hl) hne
    | some u => exact node_end _ (Nat.le_refl _) hC hE u hl

theorem line_after {l : Nat} {c : Tree} (hE : c.hasEmpty = false) (hl : OnLine l c.leaves) {q : Option Token}
    {es : List TEv} (h : toks es = c.leaves) : lineOf (lastT q es) = l := by
  rw [lastT_or, h]
  have hne := leaves_ne hE
  cases hu : c.leaves.getLast? with
  | none => exact absurd (List.getLast?_eq_none_iff.1 hu) hne
  | some u => exact (hl u (List.mem_of_getLast? hu)).2

theorem xStep_none {fn : SK} (w : List Sym) : w.foldl (xStep fn) none = none := by
  induction w with
  | nil => rfl
  | cons s w ih => exact ih

theorem x_steps {fn : SK} {l : Nat} {all : List Tree} (hall : OnLine l (leavesF all))
    (hC : ConformsF all) (hE : hasEmptyF all = false) (hsub : ∀ c ∈ all, LineSub l c) :
    ∀ {rest : List Tree} {c : Tree} {idx : Nat} {r r' : Regs} {q : Option Token} {ess : List (List TEv)} {L : XLoop},
    Steps (Fmt.body fn) all (c :: rest) idx r q ess r' → (∀ d ∈ c :: rest, d ∈ all) →
    ess.map toks = (c :: rest).map Tree.leaves → L.cur = some c.sym → L.i = min idx 2 →
    XRel ⟨fn, L.i, L.prev, L.cur, none⟩ l ⟨L.m, L.x, L.c, L.pd, false⟩ r q →
    xFine fn ((rest.map Tree.sym).foldl (xStep fn) (some L)) = true →
    optEv L.pd ++ clean ess.flatten = lineEvF fn idx L.prev (c :: rest) := by
  intro rest
  induction rest with
  | nil =>
    intro c idx r r' q ess L h hin ht hcur hi hr hf
    cases h with
    | @cons _ _ _ _ _ r1 e ess' _ h1 h2 =>
    cases h2
    have hc := hin c (by simp)
    simp only [List.map_nil, List.foldl_nil, xFine, hcur] at hf
    split at hf
    · cases hf
    · rename_i s hs
      simp only [xArm, hcur, Option.bind_eq_some_iff] at hs
      obtain ⟨s1, g1, g2⟩ := hs
      split at g2
      · rename_i hem
        cases g2
        simp only [beq_iff_eq] at hf
        have hx : XCtx l ⟨fn, L.i, L.prev, some c.sym, none⟩ { all, cur := some c, idx, rest := [] } :=
          ⟨hall, rfl, fun d hd => by cases hd; exact fun t ht => hall t (leaves_mem hc t ht), rfl, by simp,
            by simp [hi]; omega⟩
        obtain ⟨o1, _⟩ := xExec_sound hx (sub := subOf c) (fun d hd => by cases hd; exact ⟨fun _ _ _ => rfl, hsub c hc⟩)
          ⟨hr.m, hr.x, hr.c, hr.line, hr.kind⟩ g1 h1
        simp only [xOut, hem] at o1
        simp only [List.flatten_cons, List.flatten_nil, List.append_nil, o1, lineEvF, hf, hi]
        have : (min idx 2 == 1) = (idx == 1) := by
          rw [Bool.eq_iff_iff]; simp; omega
        rw [this]
      · cases g2
  | cons d rest ih =>
    intro c idx r r' q ess L h hin ht hcur hi hr hf
    cases h with
    | @cons _ _ _ _ _ r1 e ess' _ h1 h2 =>
    have hc := hin c (by simp)
    simp only [List.map_cons, List.cons.injEq] at ht
    rw [List.map_cons, List.foldl_cons] at hf
    simp only [xStep, Option.bind_some, hcur] at hf
    cases ha : xArm fn L (some d.sym) with
    | none =>
      rw [ha] at hf
      simp only [Option.map_none] at hf
      rw [xStep_none] at hf
      cases hf
    | some s =>
      rw [ha] at hf
      simp only [xArm, hcur, Option.bind_eq_some_iff] at ha
      obtain ⟨s1, g1, g2⟩ := ha
      split at g2
      · rename_i hem
        cases g2
        have hx : XCtx l ⟨fn, L.i, L.prev, some c.sym, some d.sym⟩ { all, cur := some c, idx, rest := d :: rest } := by
          refine ⟨hall, rfl, fun d hd => by cases hd; exact fun t ht => hall t (leaves_mem hc t ht), rfl, ?_,
            by simp [hi]; omega⟩
          intro d' hd' t ht
          exact hall t (leaves_mem (hin d' (by simp only [List.mem_cons] at hd' ⊢; exact .inr hd')) t ht)
        obtain ⟨o1, o2⟩ := xExec_sound hx (sub := subOf c)
          (fun d hd => by cases hd; exact ⟨fun _ _ _ => rfl, hsub c hc⟩)
          ⟨hr.m, hr.x, hr.c, hr.line, hr.kind⟩ g1 h1
        have hEc := hasEmptyF_mem hE c hc
        have := ih h2 (fun d' hd' => hin d' (List.mem_cons_of_mem _ hd')) ht.2
          (L := ⟨min (L.i + 1) 2, some c.sym, some d.sym, s.m, s.x, s.c, s.pd⟩) rfl (by simp only [hi]; omega)
          ⟨o2.m, o2.x, o2.c, fun _ => o2.line (.inr hem), fun _ => kind_after (conformsF_mem hC c hc) hEc ht.1⟩ hf
        simp only [xOut, hem] at o1
        rw [List.flatten_cons, clean_append, ← List.append_assoc, o1, lineEvF, List.append_assoc, this]
        have : (min idx 2 == 1) = (idx == 1) := by
          rw [Bool.eq_iff_iff]; simp; omega
        simp only [hi, this]
      · cases g2

theorem line_node {fn : SK} (hfn : fn ∈ lineKinds) {l : Nat} {cs : List Tree} (hC : Tree.Conforms (.node fn cs))
    (hE : Tree.hasEmpty (.node fn cs) = false) (hl : OnLine l (leavesF cs)) (hsub : ∀ c ∈ cs, LineSub l c) :
    LineSub l (.node fn cs) := by
  intro fn' a q w es hs _ hm hq h
  cases hs
  have hE' := hE
  simp only [Tree.hasEmpty, Bool.or_eq_false_iff, List.isEmpty_eq_false_iff] at hE
  have htk : toks es = leavesF cs := printed _ hC fn a q w es rfl h
  refine ⟨?_, line_after hE' (by simpa [Tree.leaves] using hl) (by simpa [Tree.leaves] using htk)⟩
  obtain ⟨r1, e1, ess, r2, r3, e3, h1, h2, h3, rfl, rfl, i1, i3⟩ := trTree_inv h
  have hok := line_all fn hfn
  unfold xOk at hok
  split at hok
  · cases hok
  · rename_i s hs
    simp only [Bool.and_eq_true, Bool.not_eq_true'] at hok
    have hx : XCtx l ⟨fn, 0, none, none, none⟩ { all := cs } :=
      ⟨hl, rfl, fun d hd => (by cases hd), rfl, by simp, by simp⟩
    obtain ⟨_, o2⟩ := xExec_sound hx (sub := noSub) (fun d hd => by cases hd)
      ⟨fun b hb => by cases hb; exact hm, fun b hb => by cases hb; rfl, fun b hb => by cases hb; rfl,
        fun h => by simp at h, fun _ => hq⟩ hs h1
    rw [ind_lastT i1] at o2
    have hf := checkG_sound hok.2 hC.1
    rw [clean_append, clean_append, clean_ind i1, clean_ind i3, List.nil_append, List.append_nil, Tree.lineEv]
    cases cs with
    | nil => exact absurd rfl hE.1
    | cons c rest =>
      have ht := steps_toks_eq hC h2
      have hkb : KindBefore fn none q := hq
      have := x_steps (L := ⟨0, none, some c.sym, s.m, s.x, s.c, false⟩) hl hC.2 hE.2 hsub h2 (fun _ h => h) ht rfl
        (by simp) ⟨o2.m, o2.x, o2.c, fun h => by simp at h, fun _ => hkb⟩ hf
      simpa [optEv] using this

theorem lineKinds_closed : ∀ k ∈ lineKinds, ∀ s ∈ (Gram.spec k).syms, (match s with
    | .n k' => lineKinds.contains k'
    | .t _ => true) = true := by decide

/-- Expressions on one line are printed as specified. -/
theorem line_tree (n : Nat) : ∀ {k : SK} {cs : List Tree}, sizeOf cs ≤ n → Tree.Conforms (.node k cs) →
    Tree.hasEmpty (.node k cs) = false → k ∈ lineKinds → ∀ l, OnLine l (leavesF cs) → LineSub l (.node k cs) := by
  induction n with
  | zero =>
    intro k cs hn
    cases cs <;> simp at hn
  | succ n ih =>
  intro k cs hn hC hE hk l hl
  refine line_node hk hC hE hl fun c hc => ?_
  simp only [Tree.hasEmpty, Bool.or_eq_false_iff, List.isEmpty_eq_false_iff] at hE
  cases c with
  | tok t => intro fn a q w es hs; cases hs
  | node kd ds =>
    have hsz : sizeOf ds ≤ n := by
      have := List.sizeOf_lt_of_mem hc
      simp only [Tree.node.sizeOf_spec] at this
      omega
    have hkd := lineKinds_closed k hk _ (syms_complete hC.1 _ (List.mem_map_of_mem hc))
    exact ih hsz (conformsF_mem hC.2 _ hc) (hasEmptyF_mem hE.2 _ hc) (by simpa [Tree.sym] using hkd) l
      (fun t ht => hl t (leaves_mem hc t (by simpa [Tree.leaves] using ht)))

end Mofmt
