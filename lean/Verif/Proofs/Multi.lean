import Verif.Proofs.Track
/-
The variable `is_multiline` of formatting functions: either it has no influence, or it leads to a line break.
-/
namespace Mofmt

/-- What is known about an iteration: the next child, the index and the number of children (4 stands for 4 and
more), the variable `conditional`. -/
structure Env where
  nx : Option Sym
  i : Nat
  len : Nat
  c : Option Bool

def Env.Knows (e : Env) (r : Regs) : Prop := ∀ x, e.c = some x → r.c = x

structure EnvOK (e : Env) (cx : Ctx) : Prop where
  nx : e.nx = cx.rest.head?.map Tree.sym
  i : e.i = min cx.idx 4
  len : e.len = min cx.all.length 4

/-- conditions, as far as they are known; `m`: the value of `is_multiline` -/
def sEval (e : Env) (m : Option Bool) : FCond → Option Bool
  | .false => some false
  | .reg .m => m
  | .reg .c => e.c
  | .lenGt n => if n < 4 then some (decide (e.len > n)) else none
  | .lenEq n => if n < 4 then some (e.len == n) else none
  | .idxGt n => if n < 4 then some (decide (e.i > n)) else none
  | .idxEq n => if n < 4 then some (e.i == n) else none
  | .nextTree => match e.nx with
    | some (.n _) => some true
    | _ => some false
  | .nextTreeU => match e.nx with
    | some (.n _) => some true
    | _ => some false
  | .nextTok => match e.nx with
    | some (.t _) => some true
    | _ => some false
  | .not a => (sEval e m a).map (!·)
  | .and a b => match sEval e m a with
    | some false => some false
    | some true => sEval e m b
    | none => if sEval e m b = some false then some false else none
  | .or a b => match sEval e m a with
    | some true => some true
    | some false => sEval e m b
    | none => if sEval e m b = some true then some true else none
  | _ => none

theorem sEval_sound {e : Env} {cx : Ctx} (he : EnvOK e cx) {r : Regs} (hk : e.Knows r) {s : FState}
    {m : Option Bool} (hm : ∀ x, m = some x → r.m = x) : ∀ {c : FCond} {b b' : Bool},
    evalFC cx r s c = .ok b → sEval e m c = some b' → b = b' := by
  intro c
  induction c with
  | «false» => intro b b' h1 h2; cases h1; cases h2; rfl
  | reg v =>
    intro b b' h1 h2
    cases h1
    cases v
    · exact hm _ h2
    · cases h2
    · cases h2
    · exact hk _ h2
    · cases h2
  | lenGt n =>
    intro b b' h1 h2
    cases h1
    simp only [sEval, he.len] at h2
    split at h2
    · cases h2; rw [Bool.eq_iff_iff]; simp only [decide_eq_true_eq]; omega
    · cases h2
  | lenEq n =>
    intro b b' h1 h2
    cases h1
    simp only [sEval, he.len] at h2
    split at h2
    · cases h2; rw [Bool.eq_iff_iff]; simp only [beq_iff_eq]; omega
    · cases h2
  | idxGt n =>
    intro b b' h1 h2
    cases h1
    simp only [sEval, he.i] at h2
    split at h2
    · cases h2; rw [Bool.eq_iff_iff]; simp only [decide_eq_true_eq]; omega
    · cases h2
  | idxEq n =>
    intro b b' h1 h2
    cases h1
    simp only [sEval, he.i] at h2
    split at h2
    · cases h2; rw [Bool.eq_iff_iff]; simp only [beq_iff_eq]; omega
    · cases h2
  | nextTree =>
    intro b b' h1 h2
    simp only [sEval, he.nx] at h2
    simp only [evalFC] at h1
    cases hr : cx.rest with
    | nil => rw [hr] at h1 h2; cases h1; cases h2; rfl
    | cons c cs => rw [hr] at h1 h2; cases c <;> (cases h1; cases h2; rfl)
  | nextTreeU =>
    intro b b' h1 h2
    simp only [sEval, he.nx] at h2
    simp only [evalFC] at h1
    cases hr : cx.rest with
    | nil => rw [hr] at h1 h2; cases h1
    | cons c cs => rw [hr] at h1 h2; cases c <;> (cases h1; cases h2; rfl)
  | nextTok =>
    intro b b' h1 h2
    simp only [sEval, he.nx] at h2
    simp only [evalFC] at h1
    cases hr : cx.rest with
    | nil => rw [hr] at h1 h2; cases h1; cases h2; rfl
    | cons c cs => rw [hr] at h1 h2; cases c <;> (cases h1; cases h2; rfl)
  | not a ih =>
    intro b b' h1 h2
    obtain ⟨t, h3, h1⟩ := Res.bind_eq_ok.1 h1
    cases h1
    simp only [sEval, Option.map_eq_some_iff] at h2
    obtain ⟨u, h4, rfl⟩ := h2
    rw [ih h3 h4]
  | and a b ih1 ih2 =>
    intro x x' h1 h2
    obtain ⟨t, h3, h1⟩ := Res.bind_eq_ok.1 h1
    simp only [sEval] at h2
    split at h2
    · rename_i h4
      cases h2
      have := ih1 h3 h4
      subst this
      cases h1; rfl
    · rename_i h4
      have := ih1 h3 h4
      subst this
      exact ih2 h1 h2
    · split at h2
      · rename_i h5
        cases h2
        cases t
        · cases h1; rfl
        · exact ih2 h1 h5
      · cases h2
  | or a b ih1 ih2 =>
    intro x x' h1 h2
    obtain ⟨t, h3, h1⟩ := Res.bind_eq_ok.1 h1
    simp only [sEval] at h2
    split at h2
    · rename_i h4
      cases h2
      have := ih1 h3 h4
      subst this
      cases h1; rfl
    · rename_i h4
      have := ih1 h3 h4
      subst this
      exact ih2 h1 h2
    · split at h2
      · rename_i h5
        cases h2
        cases t
        · exact ih2 h1 h5
        · cases h1; rfl
      · cases h2
  | _ => intro b b' h1 h2; cases h2

/-- conditions whose evaluation cannot fail -/
def pureC (e : Env) : FCond → Bool
  | .false => true
  | .reg _ => true
  | .lenGt _ => true
  | .lenEq _ => true
  | .idxGt _ => true
  | .idxEq _ => true
  | .prevTok _ => true
  | .nextTree => true
  | .nextTok => true
  | .nextTreeU => e.nx.isSome
  | .not a => pureC e a
  | .and a b => pureC e a && pureC e b
  | .or a b => pureC e a && pureC e b
  | _ => false

theorem pureC_sound {e : Env} {cx : Ctx} (he : EnvOK e cx) (r : Regs) (s : FState) : ∀ {c : FCond},
    pureC e c = true → ∃ b, evalFC cx r s c = .ok b := by
  intro c
  induction c with
  | nextTree => intro _; simp only [evalFC]; split <;> exact ⟨_, rfl⟩
  | nextTok => intro _; simp only [evalFC]; split <;> exact ⟨_, rfl⟩
  | nextTreeU =>
    intro h
    simp only [pureC, he.nx] at h
    simp only [evalFC]
    split
    · exact ⟨_, rfl⟩
    · exact ⟨_, rfl⟩
    · rename_i hr; rw [hr] at h; cases h
  | not a ih =>
    intro h
    obtain ⟨b, hb⟩ := ih h
    exact ⟨!b, by simp only [evalFC, hb, Res.bind_ok]⟩
  | and a b ih1 ih2 =>
    intro h
    simp only [pureC, Bool.and_eq_true] at h
    obtain ⟨x, hx⟩ := ih1 h.1
    obtain ⟨y, hy⟩ := ih2 h.2
    cases x
    · exact ⟨false, by simp only [evalFC, hx, Res.bind_ok]; rfl⟩
    · exact ⟨y, by simp only [evalFC, hx, hy, Res.bind_ok]; rfl⟩
  | or a b ih1 ih2 =>
    intro h
    simp only [pureC, Bool.and_eq_true] at h
    obtain ⟨x, hx⟩ := ih1 h.1
    obtain ⟨y, hy⟩ := ih2 h.2
    cases x
    · exact ⟨y, by simp only [evalFC, hx, hy, Res.bind_ok]; rfl⟩
    · exact ⟨true, by simp only [evalFC, hx, Res.bind_ok]; rfl⟩
  | treeMulti => intro h; cases h
  | treeHas k => intro h; cases h
  | parenMulti a b => intro h; cases h
  | curMulti => intro h; cases h
  | curStartIs k => intro h; cases h
  | curHas k => intro h; cases h
  | curEmpty => intro h; cases h
  | prevRuleIn ks => intro h; cases h
  | tokIdxPos => intro h; cases h
  | nextBelow => intro h; cases h
  | _ => intro _; exact ⟨_, rfl⟩

/-! ### No influence -/

/-- does not mention `is_multiline` -/
def noM : FCond → Bool
  | .reg .m => false
  | .not a => noM a
  | .and a b => noM a && noM b
  | .or a b => noM a && noM b
  | _ => true

def Regs.withM (r : Regs) (x : Bool) : Regs := { r with m := x }

theorem noM_sound {cx : Ctx} {r : Regs} {s : FState} (x : Bool) : ∀ {c : FCond}, noM c = true →
    evalFC cx (r.withM x) s c = evalFC cx r s c := by
  intro c
  induction c with
  | reg v => cases v <;> intro h <;> first | rfl | cases h
  | not a ih => intro h; simp only [evalFC, ih h]
  | and a b ih1 ih2 =>
    intro h
    simp only [noM, Bool.and_eq_true] at h
    simp only [evalFC, ih1 h.1, ih2 h.2]
  | or a b ih1 ih2 =>
    intro h
    simp only [noM, Bool.and_eq_true] at h
    simp only [evalFC, ih1 h.1, ih2 h.2]
  | _ => intro _; rfl

/-- the value does not depend on `is_multiline` -/
def condIndep (e : Env) (c : FCond) : Bool := noM c || (pureC e c && (sEval e none c).isSome)

theorem condIndep_sound {e : Env} {cx : Ctx} (he : EnvOK e cx) {r : Regs} (hk : e.Knows r) {s : FState} {c : FCond} {b : Bool}
    (x : Bool) (hc : condIndep e c = true) (h : evalFC cx r s c = .ok b) : evalFC cx (r.withM x) s c = .ok b := by
  simp only [condIndep, Bool.or_eq_true, Bool.and_eq_true, Option.isSome_iff_exists] at hc
  rcases hc with hc | ⟨h1, y, h2⟩
  · rw [noM_sound x hc]; exact h
  · obtain ⟨b', hb'⟩ := pureC_sound he (r.withM x) s h1
    have := sEval_sound he hk (by simp) h h2
    have := sEval_sound he (r := r.withM x) hk (by simp) hb' h2
    subst_vars
    exact hb'

/-- does nothing -/
def inert (e : Env) : FCmd → Bool
  | .skip => true
  | .seq a b => inert e a && inert e b
  | .ite c a b => pureC e c && match sEval e none c with
    | some true => inert e a
    | some false => inert e b
    | none => inert e a && inert e b
  | _ => false

theorem inert_sound {e : Env} {cx : Ctx} (he : EnvOK e cx) {sub : SK → Args → Option Token → Res (Bool × List TEv)} :
    ∀ {cmd : FCmd} (r : Regs) (_ : e.Knows r) (q : Option Token), inert e cmd = true → trF sub cx cmd r q = .ok (r, []) := by
  intro cmd
  induction cmd with
  | skip => intro r hk q _; rfl
  | seq a b ih1 ih2 =>
    intro r hk q h
    simp only [inert, Bool.and_eq_true] at h
    simp only [trF, ih1 r hk q h.1, Res.bind_ok, lastT, ih2 r hk q h.2]
    rfl
  | ite c a b ih1 ih2 =>
    intro r hk q h
    simp only [inert, Bool.and_eq_true] at h
    obtain ⟨x, hx⟩ := pureC_sound he r (fsOf q) h.1
    simp only [trF, hx, Res.bind_ok]
    have h2 := h.2
    split at h2
    · rename_i hs
      have := sEval_sound he hk (by simp) hx hs
      subst this
      exact ih1 r hk q h2
    · rename_i hs
      have := sEval_sound he hk (by simp) hx hs
      subst this
      exact ih2 r hk q h2
    · simp only [Bool.and_eq_true] at h2
      cases x
      · exact ih2 r hk q h2.2
      · exact ih1 r hk q h2.1
  | _ => intro r hk q h; cases h

/-- `conditional` afterwards -/
def cAfter (e : Env) : FCmd → Option Bool
  | .seq a b => cAfter { e with c := cAfter e a } b
  | .ite c a b => match sEval e none c with
    | some true => cAfter e a
    | some false => cAfter e b
    | none => if cAfter e a = cAfter e b then cAfter e a else none
  | .set .c g => sEval e none g
  | _ => e.c

def Env.after (e : Env) (cmd : FCmd) : Env := { e with c := cAfter e cmd }

theorem EnvOK.after {e : Env} {cx : Ctx} (he : EnvOK e cx) (cmd : FCmd) : EnvOK (e.after cmd) cx :=
  ⟨he.nx, he.i, he.len⟩

theorem after_sound {cx : Ctx} {sub : SK → Args → Option Token → Res (Bool × List TEv)} :
    ∀ {cmd : FCmd} {e : Env} {r r' : Regs} {q : Option Token} {es : List TEv}, EnvOK e cx → e.Knows r →
    trF sub cx cmd r q = .ok (r', es) → (e.after cmd).Knows r' := by
  intro cmd
  induction cmd with
  | seq a b ih1 ih2 =>
    intro e r r' q es he hk h
    obtain ⟨⟨r1, e1⟩, h1, h⟩ := Res.bind_eq_ok.1 h
    obtain ⟨⟨r2, e2⟩, h2, h⟩ := Res.bind_eq_ok.1 h
    cases h
    exact ih2 (he.after a) (ih1 he hk h1) h2
  | ite c a b ih1 ih2 =>
    intro e r r' q es he hk h
    obtain ⟨t, g1, h⟩ := Res.bind_eq_ok.1 h
    simp only [Env.Knows, Env.after, cAfter]
    split
    · rename_i hs
      have := sEval_sound he hk (by simp) g1 hs
      subst this
      exact ih1 he hk h
    · rename_i hs
      have := sEval_sound he hk (by simp) g1 hs
      subst this
      exact ih2 he hk h
    · split
      · rename_i heq
        cases t
        · rw [heq]; exact ih2 he hk h
        · exact ih1 he hk h
      · simp
  | skip => intro e r r' q es he hk h; cases h; exact hk
  | space => intro e r r' q es he hk h; cases h; exact hk
  | indent => intro e r r' q es he hk h; cases h; exact hk
  | dedent => intro e r r' q es he hk h; cases h; exact hk
  | tok =>
    intro e r r' q es he hk h
    simp only [trF] at h
    split at h
    · cases h; exact hk
    · cases h
  | brk t b =>
    intro e r r' q es he hk h
    obtain ⟨t, g1, h⟩ := Res.bind_eq_ok.1 h
    cases h; exact hk
  | bos c t =>
    intro e r r' q es he hk h
    obtain ⟨b, g1, h⟩ := Res.bind_eq_ok.1 h
    obtain ⟨t, g2, h⟩ := Res.bind_eq_ok.1 h
    cases h; exact hk
  | call fn m w o keep =>
    intro e r r' q es he hk h
    obtain ⟨m', h1, h⟩ := Res.bind_eq_ok.1 h
    obtain ⟨w', h2, h⟩ := Res.bind_eq_ok.1 h
    obtain ⟨o', h3, h⟩ := Res.bind_eq_ok.1 h
    obtain ⟨⟨y, ee⟩, h4, h⟩ := Res.bind_eq_ok.1 h
    cases h
    cases keep <;> exact hk
  | set v c =>
    intro e r r' q es he hk h
    obtain ⟨b, h1, h⟩ := Res.bind_eq_ok.1 h
    cases h
    cases v
    case c => intro x hx; exact sEval_sound he hk (by simp) h1 hx
    all_goals exact hk
  | setPrevRule =>
    intro e r r' q es he hk h
    simp only [trF] at h
    split at h
    · cases h; exact hk
    · cases h
  | unreachable => intro e r r' q es he hk h; cases h

/-- `is_multiline` has no influence -/
def indep (e : Env) : FCmd → Bool
  | .seq a b => indep e a && indep (e.after a) b
  | .ite c a b =>
    (condIndep e c && match sEval e none c with
      | some true => indep e a
      | some false => indep e b
      | none => indep e a && indep e b) ||
    (pureC e c && inert e a && inert e b)
  | .bos c _ => condIndep e c
  | .call _ m w o _ => condIndep e m && condIndep e w && condIndep e o
  | .set v c => v != .m && condIndep e c
  | _ => true

theorem indep_sound {cx : Ctx} {sub : SK → Args → Option Token → Res (Bool × List TEv)}
    (x : Bool) : ∀ {cmd : FCmd} {e : Env} {r r' : Regs} {q : Option Token} {es : List TEv}, EnvOK e cx → e.Knows r →
    indep e cmd = true →
    trF sub cx cmd r q = .ok (r', es) → trF sub cx cmd (r.withM x) q = .ok (r'.withM x, es) := by
  intro cmd
  induction cmd with
  | skip => intro e r r' q es he hk _ h; cases h; rfl
  | seq a b ih1 ih2 =>
    intro e r r' q es he hk hi h
    simp only [indep, Bool.and_eq_true] at hi
    obtain ⟨⟨r1, e1⟩, h1, h⟩ := Res.bind_eq_ok.1 h
    obtain ⟨⟨r2, e2⟩, h2, h⟩ := Res.bind_eq_ok.1 h
    cases h
    simp only [trF, ih1 he hk hi.1 h1, Res.bind_ok, ih2 (he.after a) (after_sound he hk h1) hi.2 h2]
  | ite c a b ih1 ih2 =>
    intro e r r' q es he hk hi h
    simp only [indep, Bool.or_eq_true, Bool.and_eq_true] at hi
    rcases hi with ⟨h1, h2⟩ | ⟨⟨h1, h2⟩, h3⟩
    · obtain ⟨t, g1, h⟩ := Res.bind_eq_ok.1 h
      simp only [trF, condIndep_sound he hk x h1 g1, Res.bind_ok]
      split at h2
      · rename_i hs
        have := sEval_sound he hk (by simp) g1 hs
        subst this
        exact ih1 he hk h2 h
      · rename_i hs
        have := sEval_sound he hk (by simp) g1 hs
        subst this
        exact ih2 he hk h2 h
      · simp only [Bool.and_eq_true] at h2
        cases t
        · exact ih2 he hk h2.2 h
        · exact ih1 he hk h2.1 h
    · obtain ⟨t, g1, h⟩ := Res.bind_eq_ok.1 h
      obtain ⟨t', g2⟩ := pureC_sound he (r.withM x) (fsOf q) h1
      simp only [trF, g2, Res.bind_ok]
      have h4 : r' = r ∧ es = [] := by
        cases t
        · have := (inert_sound he r hk q h3).symm.trans h; cases this; exact ⟨rfl, rfl⟩
        · have := (inert_sound he r hk q h2).symm.trans h; cases this; exact ⟨rfl, rfl⟩
      obtain ⟨rfl, rfl⟩ := h4
      cases t'
      · exact inert_sound he (_ : Regs) (show e.Knows (r'.withM x) from hk) q h3
      · exact inert_sound he (_ : Regs) (show e.Knows (r'.withM x) from hk) q h2
  | space => intro e r r' q es he hk _ h; cases h; rfl
  | indent => intro e r r' q es he hk _ h; cases h; rfl
  | dedent => intro e r r' q es he hk _ h; cases h; rfl
  | tok =>
    intro e r r' q es he hk _ h
    simp only [trF] at h ⊢
    split at h
    · cases h; rfl
    · cases h
  | brk t b =>
    intro e r r' q es he hk _ h
    obtain ⟨t, g1, h⟩ := Res.bind_eq_ok.1 h
    cases h
    simp only [trF, g1, Res.bind_ok]
  | bos c t =>
    intro e r r' q es he hk hi h
    obtain ⟨b, g1, h⟩ := Res.bind_eq_ok.1 h
    obtain ⟨t, g2, h⟩ := Res.bind_eq_ok.1 h
    cases h
    simp only [trF, condIndep_sound he hk x hi g1, g2, Res.bind_ok]
  | call fn m w o keep =>
    intro e r r' q es he hk hi h
    simp only [indep, Bool.and_eq_true] at hi
    obtain ⟨m', h1, h⟩ := Res.bind_eq_ok.1 h
    obtain ⟨w', h2, h⟩ := Res.bind_eq_ok.1 h
    obtain ⟨o', h3, h⟩ := Res.bind_eq_ok.1 h
    obtain ⟨⟨y, ee⟩, h4, h⟩ := Res.bind_eq_ok.1 h
    cases h
    simp only [trF, condIndep_sound he hk x hi.1.1 h1, condIndep_sound he hk x hi.1.2 h2, condIndep_sound he hk x hi.2 h3,
      Res.bind_ok, h4]
    cases keep <;> rfl
  | set v c =>
    intro e r r' q es he hk hi h
    simp only [indep, Bool.and_eq_true] at hi
    obtain ⟨b, h1, h⟩ := Res.bind_eq_ok.1 h
    cases h
    simp only [trF, condIndep_sound he hk x hi.2 h1, Res.bind_ok]
    cases v
    · cases hi.1
    all_goals rfl
  | setPrevRule =>
    intro e r r' q es he hk _ h
    simp only [trF] at h ⊢
    split at h
    · cases h; rfl
    · cases h
  | unreachable => intro e r r' q es he hk _ h; cases h

/-! ### Line breaks -/

/-- `is_multiline` stays true -/
def keepsM (e : Env) : FCmd → Bool
  | .seq a b => keepsM e a && keepsM (e.after a) b
  | .ite c a b => match sEval e (some true) c with
    | some true => keepsM e a
    | some false => keepsM e b
    | none => keepsM e a && keepsM e b
  | .set .m _ => false
  | _ => true

theorem keepsM_sound {cx : Ctx} {sub : SK → Args → Option Token → Res (Bool × List TEv)} :
    ∀ {cmd : FCmd} {e : Env} {r r' : Regs} {q : Option Token} {es : List TEv}, EnvOK e cx → e.Knows r →
    keepsM e cmd = true → r.m = true →
    trF sub cx cmd r q = .ok (r', es) → r'.m = true := by
  intro cmd
  induction cmd with
  | seq a b ih1 ih2 =>
    intro e r r' q es he hk hq hm h
    simp only [keepsM, Bool.and_eq_true] at hq
    obtain ⟨⟨r1, e1⟩, h1, h⟩ := Res.bind_eq_ok.1 h
    obtain ⟨⟨r2, e2⟩, h2, h⟩ := Res.bind_eq_ok.1 h
    cases h
    exact ih2 (he.after a) (after_sound he hk h1) hq.2 (ih1 he hk hq.1 hm h1) h2
  | ite c a b ih1 ih2 =>
    intro e r r' q es he hk hq hm h
    obtain ⟨t, g1, h⟩ := Res.bind_eq_ok.1 h
    simp only [keepsM] at hq
    split at hq
    · rename_i hs
      have := sEval_sound he hk (by simp [hm]) g1 hs
      subst this
      exact ih1 he hk hq hm h
    · rename_i hs
      have := sEval_sound he hk (by simp [hm]) g1 hs
      subst this
      exact ih2 he hk hq hm h
    · simp only [Bool.and_eq_true] at hq
      cases t
      · exact ih2 he hk hq.2 hm h
      · exact ih1 he hk hq.1 hm h
  | skip => intro e r r' q es he hk hq hm h; cases h; exact hm
  | space => intro e r r' q es he hk hq hm h; cases h; exact hm
  | indent => intro e r r' q es he hk hq hm h; cases h; exact hm
  | dedent => intro e r r' q es he hk hq hm h; cases h; exact hm
  | tok =>
    intro e r r' q es he hk hq hm h
    simp only [trF] at h
    split at h
    · cases h; exact hm
    · cases h
  | brk t b =>
    intro e r r' q es he hk hq hm h
    obtain ⟨t, g1, h⟩ := Res.bind_eq_ok.1 h
    cases h; exact hm
  | bos c t =>
    intro e r r' q es he hk hq hm h
    obtain ⟨b, g1, h⟩ := Res.bind_eq_ok.1 h
    obtain ⟨t, g2, h⟩ := Res.bind_eq_ok.1 h
    cases h; exact hm
  | call fn m w o keep =>
    intro e r r' q es he hk hq hm h
    obtain ⟨m', h1, h⟩ := Res.bind_eq_ok.1 h
    obtain ⟨w', h2, h⟩ := Res.bind_eq_ok.1 h
    obtain ⟨o', h3, h⟩ := Res.bind_eq_ok.1 h
    obtain ⟨⟨y, ee⟩, h4, h⟩ := Res.bind_eq_ok.1 h
    cases h
    cases keep <;> exact hm
  | set v c =>
    intro e r r' q es he hk hq hm h
    obtain ⟨b, h1, h⟩ := Res.bind_eq_ok.1 h
    cases h
    cases v
    · cases hq
    all_goals exact hm
  | setPrevRule =>
    intro e r r' q es he hk hq hm h
    simp only [trF] at h
    split at h
    · cases h; exact hm
    · cases h
  | unreachable => intro e r r' q es he hk hq hm h; cases h

/-- Which breaks count: `bef`: the region begins before the current child; `self`: it begins with the
current child; `aft`: it ends after the current child; `fin`: it ends with the current child or later. -/
structure Span where
  bef : Bool
  self : Bool
  aft : Bool
  fin : Bool

/-- With `is_multiline` there is a break within the region; `pr`: has the current child `s` been printed? -/
def hot (e : Env) (s : Sym) (S : Span) (pr : Bool) : FCmd → Bool
  | .seq a b => hot e s S pr a || (keepsM e a && match once s a pr with
    | some pr' => hot (e.after a) s S pr' b
    | none => false)
  | .ite c a b => match sEval e (some true) c with
    | some true => hot e s S pr a
    | some false => hot e s S pr b
    | none => hot e s S pr a && hot e s S pr b
  | .brk _ _ => (S.bef || (S.self && pr)) && (S.aft || (S.fin && !pr))
  | .bos c _ => sEval e (some true) c == some true && (S.bef || (S.self && pr)) && (S.aft || (S.fin && !pr))
  | _ => false

theorem hot_sound {cx : Ctx} {sub : SK → Args → Option Token → Res (Bool × List TEv)} {c : Tree} (hc : cx.cur = some c)
    (hl : c.leaves ≠ [])
    (hsub : ∀ fn a q w es, c.sym = .n fn → sub fn a q = .ok (w, es) → toks es = c.leaves) {S : Span} :
    ∀ {cmd : FCmd} {e : Env} {pr : Bool} {r r' : Regs} {q : Option Token} {es : List TEv}, EnvOK e cx →
    e.Knows r → hot e c.sym S pr cmd = true →
    r.m = true → trF sub cx cmd r q = .ok (r', es) →
    ∃ a t b d, es = a ++ .brk t b :: d ∧
      (S.bef = true ∨ (S.self = true ∧ (pr = true ∨ toks a ≠ []))) ∧
      (S.aft = true ∨ (S.fin = true ∧ pr = false ∧ toks a = [])) := by
  intro cmd
  induction cmd with
  | seq a b ih1 ih2 =>
    intro e pr r r' q es he hk hh hm h
    obtain ⟨⟨r1, e1⟩, h1, h⟩ := Res.bind_eq_ok.1 h
    obtain ⟨⟨r2, e2⟩, h2, h⟩ := Res.bind_eq_ok.1 h
    cases h
    simp only [hot, Bool.or_eq_true, Bool.and_eq_true] at hh
    rcases hh with hh | ⟨hq, hh⟩
    · obtain ⟨a', t, b', d, rfl, g1, g2⟩ := ih1 he hk hh hm h1
      exact ⟨a', t, b', d ++ e2, by simp, g1, g2⟩
    · split at hh
      · rename_i pr' ho
        have o := once_toks hc hsub ho h1
        obtain ⟨a', t, b', d, rfl, g1, g2⟩ := ih2 (he.after a) (after_sound he hk h1) hh (keepsM_sound he hk hq hm h1) h2
        refine ⟨e1 ++ a', t, b', d, by simp, g1.imp id ?_, g2.imp id ?_⟩
        · rintro ⟨g3, g4⟩
          refine ⟨g3, ?_⟩
          rw [toks_append, o.2]
          cases pr <;> cases pr' <;> simp_all
        · rintro ⟨g3, rfl, g4⟩
          refine ⟨g3, ?_⟩
          rw [toks_append, o.2, g4]
          cases pr <;> simp_all
      · cases hh
  | ite g a b ih1 ih2 =>
    intro e pr r r' q es he hk hh hm h
    obtain ⟨t, g1, h⟩ := Res.bind_eq_ok.1 h
    simp only [hot] at hh
    split at hh
    · rename_i hs
      have := sEval_sound he hk (by simp [hm]) g1 hs
      subst this
      exact ih1 he hk hh hm h
    · rename_i hs
      have := sEval_sound he hk (by simp [hm]) g1 hs
      subst this
      exact ih2 he hk hh hm h
    · simp only [Bool.and_eq_true] at hh
      cases t
      · exact ih2 he hk hh.2 hm h
      · exact ih1 he hk hh.1 hm h
  | brk t b =>
    intro e pr r r' q es he hk hh hm h
    obtain ⟨t, g1, h⟩ := Res.bind_eq_ok.1 h
    cases h
    refine ⟨[], t, b, [], rfl, ?_, ?_⟩ <;> simp_all [hot, toks]
  | bos g t =>
    intro e pr r r' q es he hk hh hm h
    obtain ⟨b, g1, h⟩ := Res.bind_eq_ok.1 h
    obtain ⟨t, g2, h⟩ := Res.bind_eq_ok.1 h
    cases h
    simp only [hot, Bool.and_eq_true, beq_iff_eq] at hh
    have := sEval_sound he hk (by simp [hm]) g1 hh.1.1
    subst this
    refine ⟨[], t, .Illegal, [], rfl, ?_, ?_⟩ <;> simp_all [toks]
  | _ => intro e pr r r' q es he hk hh; cases hh

/-! ### Words -/

/-- the part of the children that decides: all of them, or from an opening to a closing token -/
inductive Area where
  | whole
  | paren (op cl : Tok)
  deriving DecidableEq

/-- before (0), in (1), after (2) the parentheses; 3: nested or unbalanced parentheses -/
def Area.next : Area → Nat → Sym → Nat
  | .whole, ph, _ => ph
  | .paren op cl, ph, s =>
    if s = .t op then (if ph = 0 then 1 else 3)
    else if s = .t cl then (if ph = 1 then 2 else 3) else ph

def Area.span : Area → Nat → Nat → Option Sym → Sym → Span
  | .whole, _, i, nx, _ => ⟨decide (i > 0), true, nx.isSome, true⟩
  | .paren op cl, ph, _, _, s =>
    if ph = 0 && s == .t op then ⟨false, true, true, false⟩
    else if ph = 1 && s != .t cl && s != .t op then ⟨true, false, true, false⟩
    else ⟨false, false, false, false⟩

def hotArm (A : Area) (fn : SK) (len i ph : Nat) (v : Option Bool) (nx : Option Sym) (s : Sym) : Bool :=
  hot ⟨nx, i, len, v⟩ s (A.span ph i nx s) false (upCmd (Fmt.body fn) s)

def keepArm (fn : SK) (len i : Nat) (v : Option Bool) (nx : Option Sym) (s : Sym) : Bool :=
  keepsM ⟨nx, i, len, v⟩ (upCmd (Fmt.body fn) s)

def indArm (fn : SK) (len i : Nat) (v : Option Bool) (nx : Option Sym) (s : Sym) : Bool :=
  indep ⟨nx, i, len, v⟩ (upCmd (Fmt.body fn) s)

def cArm (fn : SK) (len i : Nat) (v : Option Bool) (nx : Option Sym) (s : Sym) : Option Bool :=
  cAfter ⟨nx, i, len, v⟩ (upCmd (Fmt.body fn) s)

/-- There is a break for some child. -/
def hotsW (A : Area) (fn : SK) (len : Nat) : Nat → Nat → Option Bool → List Sym → Bool
  | _, _, _, [] => false
  | i, ph, v, s :: w => hotArm A fn len (min i 4) ph v w.head? s ||
      (keepArm fn len (min i 4) v w.head? s &&
        hotsW A fn len (i + 1) (A.next ph s) (cArm fn len (min i 4) v w.head? s) w)

/-- There is no influence for any child. -/
def indW (fn : SK) (len : Nat) : Nat → Option Bool → List Sym → Bool
  | _, _, [] => true
  | i, v, s :: w => indArm fn len (min i 4) v w.head? s && indW fn len (i + 1) (cArm fn len (min i 4) v w.head? s) w

def phW (A : Area) : Nat → List Sym → Nat
  | ph, [] => ph
  | ph, s :: w => phW A (A.next ph s) w

/-! ### All words of a regular expression -/

section
variable {σ : Type} [DecidableEq σ] (step : σ → Sym → σ) (fine : σ → Bool)

/-- a set of states closed under reading symbols -/
def closedG (seen : List (RE × σ)) : Bool :=
  seen.all fun (r, s) => (!r.nullable || fine s) && r.first.all fun c => seen.contains (r.der c, step s c)

def exploreG : Nat → List (RE × σ) → List (RE × σ) → List (RE × σ)
  | 0, _, seen => seen
  | _, [], seen => seen
  | n + 1, (r, s) :: todo, seen =>
    if seen.contains (r, s) then exploreG n todo seen
    else exploreG n (r.first.map (fun c => (r.der c, step s c)) ++ todo) ((r, s) :: seen)

/-- all words lead from `s` to a state that is fine -/
def checkG (r : RE) (s : σ) : Bool :=
  let seen := exploreG step 3000 [(r, s)] []
  seen.contains (r, s) && closedG step fine seen

variable {step fine}

theorem closedG_sound {seen : List (RE × σ)} (hc : closedG step fine seen = true) : ∀ {w : List Sym} {r : RE} {s : σ},
    (r, s) ∈ seen → Lang r w → fine (w.foldl step s) = true := by
  intro w
  induction w with
  | nil =>
    intro r s hs hl
    have := List.all_eq_true.1 hc _ hs
    simp only [Bool.and_eq_true, Bool.or_eq_true, Bool.not_eq_true'] at this
    rw [(nullable_iff r).2 hl] at this
    simpa using this.1
  | cons c w ih =>
    intro r s hs hl
    have := List.all_eq_true.1 hc _ hs
    simp only [Bool.and_eq_true, List.all_eq_true] at this
    have h2 := this.2 c (first_complete hl)
    exact ih (List.contains_iff_mem.1 h2) ((der_iff c r w).2 hl)

theorem checkG_sound {r : RE} {s : σ} (h : checkG step fine r s = true) {w : List Sym} (hw : Lang r w) :
    fine (w.foldl step s) = true := by
  simp only [checkG, Bool.and_eq_true] at h
  exact closedG_sound h.2 (List.contains_iff_mem.1 h.1) hw

end

/-- state of the search: last symbol, its index, phase before it, is there a break or no influence so far -/
structure WS where
  prev : Option Sym
  i : Nat
  ph : Nat
  /-- `is_multiline` has been kept so far -/
  kp : Bool
  hot : Bool
  ind : Bool
  v : Option Bool
  deriving DecidableEq

section
variable (A : Area) (fn : SK) (len : Nat) (ho : Bool)

/-- take the last symbol into account -/
def WS.flush (s : WS) (nx : Option Sym) : WS :=
  match s.prev with
  | none => s
  | some c => { s with
      hot := s.hot || (s.kp && hotArm A fn len s.i s.ph s.v nx c)
      kp := s.kp && keepArm fn len s.i s.v nx c
      ind := s.ind && indArm fn len s.i s.v nx c
      v := cArm fn len s.i s.v nx c }

def WS.step (s : WS) (c : Sym) : WS :=
  match s.prev with
  | none => { s with prev := some c, i := 0 }
  | some d => { s.flush A fn len (some c) with prev := some c, i := min (s.i + 1) 4, ph := A.next s.ph d }

def WS.count (s : WS) : Nat := match s.prev with
  | none => 0
  | some _ => min (s.i + 1) 4

def WS.phEnd (s : WS) : Nat := match s.prev with
  | none => s.ph
  | some d => A.next s.ph d

/-- `ho`: there must be a break -/
def WS.fine (s : WS) : Bool :=
  (s.phEnd A == 0 || s.phEnd A == 2) &&
  (s.count != len || (s.flush A fn len none).hot || (!ho && (s.flush A fn len none).ind))

variable {A fn len ho}

theorem fold_fine {w : List Sym} : ∀ {c : Sym} {i ph : Nat} {kp h d : Bool} {v : Option Bool},
    (w.foldl (WS.step A fn len) ⟨some c, min i 4, ph, kp, h, d, v⟩).fine A fn len ho = true →
    (phW A ph (c :: w) = 0 ∨ phW A ph (c :: w) = 2) ∧
    (min (i + 1 + w.length) 4 = len → h = true ∨ (kp = true ∧ hotsW A fn len i ph v (c :: w) = true) ∨
      (ho = false ∧ d = true ∧ indW fn len i v (c :: w) = true)) := by
  induction w with
  | nil =>
    intro c i ph kp h d v hf
    simp only [List.foldl_nil, WS.fine, WS.phEnd, WS.count, WS.flush, Bool.and_eq_true, Bool.or_eq_true, beq_iff_eq,
      bne_iff_ne, Bool.not_eq_true'] at hf
    refine ⟨by simpa [phW] using hf.1, fun hlen => ?_⟩
    simp only [hotsW, indW, List.head?_nil, Bool.or_eq_true, Bool.and_eq_true, Bool.and_false]
    have : min (min i 4 + 1) 4 = len := by simp only [List.length_nil] at hlen; omega
    rcases hf.2 with (h1 | h1 | h1) | h1
    · exact absurd this h1
    · exact .inl h1
    · exact .inr (.inl ⟨h1.1, .inl h1.2⟩)
    · exact .inr (.inr ⟨h1.1, h1.2.1, h1.2.2, trivial⟩)
  | cons e w ih =>
    intro c i ph kp h d v hf
    simp only [List.foldl_cons, WS.step, WS.flush] at hf
    have hi : min (min i 4 + 1) 4 = min (i + 1) 4 := by omega
    rw [hi] at hf
    have := ih hf
    refine ⟨by simpa [phW] using this.1, fun hlen => ?_⟩
    have h2 := this.2 (by simp only [List.length_cons] at hlen; omega)
    rw [hotsW, indW]
    simp only [List.head?_cons, Bool.or_eq_true, Bool.and_eq_true] at h2 ⊢
    rcases h2 with (h2 | h2) | h2 | h2
    · exact .inl h2
    · exact .inr (.inl ⟨h2.1, .inl h2.2⟩)
    · exact .inr (.inl ⟨h2.1.1, .inr ⟨h2.1.2, h2.2⟩⟩)
    · exact .inr (.inr ⟨h2.1, h2.2.1.1, h2.2.1.2, h2.2.2⟩)

end

def ws0 : WS := ⟨none, 0, 0, true, false, true, none⟩

/-- the formatting functions that compute `is_multiline` -/
def areas : List (SK × Area) := [
  (.ShortClassSpecifier, .paren .LParen .RParen),
  (.DerClassSpecifier, .paren .LParen .RParen),
  (.EnumList, .whole),
  (.ExternalFunctionCall, .paren .LParen .RParen),
  (.ImportClause, .paren .LCurly .RCurly),
  (.ImportList, .whole),
  (.ClassOrInheritanceModification, .whole),
  (.ArgumentOrInheritanceModificationList, .whole),
  (.ComponentList, .whole),
  (.ClassModification, .whole),
  (.ArgumentList, .whole),
  (.ConnectEquation, .whole),
  (.Expression, .whole),
  (.Primary, .whole),
  (.FunctionCallArgs, .whole),
  (.FunctionPartialApplication, .paren .LParen .RParen),
  (.ExpressionList, .whole),
  (.ArraySubscripts, .whole),
  (.DescriptionString, .whole)]

/-- for several components there is a break -/
def hotOnly (fn : SK) (len : Nat) : Bool := fn == .ComponentList && decide (len > 1)

theorem areas_ok : ∀ x ∈ areas, ∀ len ∈ [1, 2, 3, 4],
    checkG (WS.step x.2 x.1 len) (WS.fine x.2 x.1 len (hotOnly x.1 len)) (Gram.spec x.1) ws0 = true := by
  decide +kernel

/-- for `if` expressions there is a break -/
theorem if_ok : ∀ len ∈ [1, 2, 3, 4],
    checkG (WS.step .whole .Expression len) (WS.fine .whole .Expression len true)
      ((Gram.spec .Expression).der (.t .If)) (ws0.step .whole .Expression len (.t .If)) = true := by
  decide +kernel

theorem len_mem {α : Type} (c : α) (w : List α) : min (c :: w).length 4 ∈ [1, 2, 3, 4] := by
  simp only [List.length_cons, List.mem_cons, List.not_mem_nil, or_false]; omega

/-- Either there is a break, or `is_multiline` has no influence. -/
theorem area_word {fn : SK} {A : Area} (hA : (fn, A) ∈ areas) {w : List Sym} (hw : Lang (Gram.spec fn) w)
    (hne : w ≠ []) : (phW A 0 w = 0 ∨ phW A 0 w = 2) ∧
    (hotsW A fn (min w.length 4) 0 0 none w = true ∨
      (hotOnly fn (min w.length 4) = false ∧ indW fn (min w.length 4) 0 none w = true)) := by
  cases w with
  | nil => exact absurd rfl hne
  | cons c w =>
    have h := checkG_sound (areas_ok _ hA _ (len_mem c w)) hw
    simp only [List.foldl_cons] at h
    have h' : (w.foldl (WS.step A fn (min (c :: w).length 4)) ⟨some c, min 0 4, 0, true, false, true, none⟩).fine A fn
      (min (c :: w).length 4) (hotOnly fn (min (c :: w).length 4)) = true := h
    have := fold_fine h'
    refine ⟨this.1, ?_⟩
    have h2 := this.2 (by simp only [List.length_cons]; omega)
    simpa using h2

theorem if_word {w : List Sym} (hw : Lang (Gram.spec .Expression) (.t .If :: w)) :
    hotsW .whole .Expression (min (w.length + 1) 4) 0 0 none (.t .If :: w) = true := by
  have h := checkG_sound (if_ok _ (len_mem (Sym.t .If) w)) ((der_iff _ _ _).2 hw)
  have h' : (w.foldl (WS.step .whole .Expression (min (Sym.t .If :: w).length 4))
    ⟨some (.t .If), min 0 4, 0, true, false, true, none⟩).fine .whole .Expression
    (min (Sym.t .If :: w).length 4) true = true := h
  have h2 := (fold_fine h').2 (by simp only [List.length_cons]; omega)
  simpa using h2

end Mofmt
