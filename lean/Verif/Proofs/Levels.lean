import Verif.Proofs.Wraps
/-
The balance of indents and dedents.
-/
namespace Mofmt

/-- indents minus dedents -/
def net : List TEv → Int
  | [] => 0
  | .indent :: es => 1 + net es
  | .dedent :: es => -1 + net es
  | _ :: es => net es

theorem net_append (a b : List TEv) : net (a ++ b) = net a + net b := by
  induction a with
  | nil => simp [net]
  | cons e a ih => cases e <;> simp only [List.cons_append, net, ih] <;> omega

theorem Walk.level {u v : WSt} {es : List TEv} {ds : List (Dec × Token)} (h : Walk u es ds v) :
    (v.n : Int) = u.n + net es := by
  induction h with
  | nil => simp [net]
  | tok _ ih => simpa [net] using ih
  | space _ ih => simpa [net] using ih
  | brk _ ih => simpa [net] using ih
  | indent _ _ ih => rw [ih]; simp only [net]; omega
  | dedent _ _ ih => rw [ih]; simp only [net]; omega

/-! ### Abstract execution -/

/-- local variables, the initial value of `wrapped`, and the balance -/
structure Sg where
  m : Bool
  w : Bool
  o : Bool
  c : Bool
  x : Bool
  w0 : Bool
  d : Int
  deriving DecidableEq

def Sg.get (σ : Sg) : Reg → Bool
  | .m => σ.m | .w => σ.w | .o => σ.o | .c => σ.c | .x => σ.x

def Sg.set (σ : Sg) (b : Bool) : Reg → Sg
  | .m => { σ with m := b } | .w => { σ with w := b } | .o => { σ with o := b }
  | .c => { σ with c := b } | .x => { σ with x := b }

structure Sg.Rel (σ : Sg) (r : Regs) : Prop where
  m : σ.m = r.m
  w : σ.w = r.w
  o : σ.o = r.o
  c : σ.c = r.c
  x : σ.x = r.x

theorem Sg.Rel.get {σ : Sg} {r : Regs} (h : σ.Rel r) (v : Reg) : σ.get v = r.get v := by
  cases v
  · exact h.m
  · exact h.w
  · exact h.o
  · exact h.c
  · exact h.x

theorem Sg.Rel.set {σ : Sg} {r : Regs} (h : σ.Rel r) (b : Bool) (v : Reg) : (σ.set b v).Rel (r.set b v) := by
  cases v <;> exact ⟨by first | rfl | exact h.m, by first | rfl | exact h.w, by first | rfl | exact h.o,
    by first | rfl | exact h.c, by first | rfl | exact h.x⟩

/-- What is known about a production: `tm`: `is_multiline` of the tree, `v`: are there several children, `pm`: the
result of the scan for `op` and `cl`; `cm`: is the current child a conditional expression on several lines, `ch`: does it
contain a description. -/
structure SEnv where
  tm : Option Bool
  v : Option Bool
  pm : Option Bool
  op : Tok
  cl : Tok
  cm : Option Bool := none
  ch : Option Bool := none

/-- conditions as far as they are known -/
def lvC (e : SEnv) (σ : Sg) : FCond → Option Bool
  | .false => some false
  | .reg r => some (σ.get r)
  | .treeMulti => e.tm
  | .lenGt 1 => e.v
  | .parenMulti op cl => if op = e.op ∧ cl = e.cl then e.pm else none
  | .curHas .Description => e.ch
  | .not a => (lvC e σ a).map (!·)
  | .and a b => if a = .curMulti then (if b = .curStartIs .If then e.cm else none) else match lvC e σ a with
    | some false => some false
    | some true => lvC e σ b
    | none => if lvC e σ b = some false then some false else none
  | .or a b => match lvC e σ a with
    | some true => some true
    | some false => lvC e σ b
    | none => if lvC e σ b = some true then some true else none
  | _ => none

structure TreeOK (e : SEnv) (cx : Ctx) : Prop where
  tm : ∀ x, e.tm = some x → ∀ b, isMultiline cx.all = .ok b → b = x
  v : ∀ x, e.v = some x → x = decide (cx.all.length > 1)
  pm : ∀ x, e.pm = some x → x = scanParens e.op e.cl cx.all
  cm : ∀ x, e.cm = some x → ∀ r s b, evalFC cx r s (.and .curMulti (.curStartIs .If)) = .ok b → b = x
  ch : ∀ x, e.ch = some x → ∀ r s b, evalFC cx r s (.curHas .Description) = .ok b → b = x

theorem lvC_sound {e0 : SEnv} {cx : Ctx} (hcx : TreeOK e0 cx) {σ : Sg} {r : Regs} (hr : σ.Rel r) {s : FState} :
    ∀ {c : FCond} {b b' : Bool}, evalFC cx r s c = .ok b → lvC e0 σ c = some b' → b = b' := by
  intro c
  induction c with
  | «false» => intro b b' h1 h2; cases h1; cases h2; rfl
  | reg v =>
    intro b b' h1 h2
    cases h1
    cases h2
    exact (hr.get v).symm
  | treeMulti =>
    intro b b' h1 h2
    exact hcx.tm _ h2 _ h1
  | lenGt n =>
    intro b b' h1 h2
    match n, h1, h2 with
    | 1, h1, h2 => cases h1; exact (hcx.v _ h2).symm
  | parenMulti op cl =>
    intro b b' h1 h2
    cases h1
    simp only [lvC] at h2
    split at h2
    · rename_i hp
      rw [hp.1, hp.2, hcx.pm _ h2]
    · cases h2
  | curHas k =>
    intro b b' h1 h2
    match k, h1, h2 with
    | .Description, h1, h2 => exact hcx.ch _ h2 _ _ _ h1
  | not a ih =>
    intro b b' h1 h2
    obtain ⟨t, h3, h1⟩ := Res.bind_eq_ok.1 h1
    cases h1
    simp only [lvC, Option.map_eq_some_iff] at h2
    obtain ⟨u, h4, rfl⟩ := h2
    rw [ih h3 h4]
  | and a b ih1 ih2 =>
    intro x x' h1 h2
    simp only [lvC] at h2
    by_cases ha : a = .curMulti
    · rw [if_pos ha] at h2
      split at h2
      · rename_i hb
        subst ha; subst hb
        exact hcx.cm _ h2 _ _ _ h1
      · cases h2
    rw [if_neg ha] at h2
    obtain ⟨t, h3, h1⟩ := Res.bind_eq_ok.1 h1
    split at h2
    · rename_i h4
      cases h2
      have := ih1 h3 h4
      subst this
      cases h1; rfl
    · rename_i h4
      have := ih1 h3 h4
      subst this
      exact ih2 h1 h2
    · split at h2
      · rename_i h5
        cases h2
        cases t
        · cases h1; rfl
        · exact ih2 h1 h5
      · cases h2
  | or a b ih1 ih2 =>
    intro x x' h1 h2
    obtain ⟨t, h3, h1⟩ := Res.bind_eq_ok.1 h1
    simp only [lvC] at h2
    split at h2
    · rename_i h4
      cases h2
      have := ih1 h3 h4
      subst this
      cases h1; rfl
    · rename_i h4
      have := ih1 h3 h4
      subst this
      exact ih2 h1 h2
    · split at h2
      · rename_i h5
        cases h2
        cases t
        · exact ih2 h1 h5
        · cases h1; rfl
      · cases h2
  | _ => intro b b' h1 h2; cases h2

/-- the possible states after a statement; the balance does not include what leaks in subtrees -/
def lv (e0 : SEnv) : FCmd → Sg → List Sg
  | .seq a b, σ => (lv e0 a σ).flatMap (lv e0 b)
  | .ite c a b, σ => match lvC e0 σ c with
    | some true => lv e0 a σ
    | some false => lv e0 b σ
    | none => lv e0 a σ ++ lv e0 b σ
  | .indent, σ => [{ σ with d := σ.d + 1 }]
  | .dedent, σ => [{ σ with d := σ.d - 1 }]
  | .set r c, σ => match lvC e0 σ c with
    | some b => [σ.set b r]
    | none => [σ.set true r, σ.set false r]
  | .call _ _ _ _ keep, σ =>
    if keep then (if σ.w then [σ] else [σ, { σ with w := true, d := σ.d + 1 }]) else [σ]
  | .unreachable, _ => []
  | _, σ => [σ]

/-- How `wrapped` is passed on: its result is used by productions of the same expression only, and ignored where
indentation leaks. -/
def callsOk (k : SK) : FCmd → Bool
  | .seq a b => callsOk k a && callsOk k b
  | .ite _ a b => callsOk k a && callsOk k b
  | .call fn _ w o keep =>
    if keep then w = .reg .w && exprPart fn && !leakChild k (.n fn) && (fn != .Expression || o == .not .false)
    else w = .false && (leakChild k (.n fn) == (exprPart fn && fn != .Expression)) && (fn != .Expression || o == .false)
  | .set v _ => v != .o
  | _ => true

def b2i (b : Bool) : Int := if b then 1 else 0

/-- the balance of a production, except for what leaks in it -/
def netOf (fn : SK) (o w w0 : Bool) : Int :=
  if fn = .Expression ∧ o = false then - b2i w0 else if exprPart fn then b2i w - b2i w0 else 0

/-- what leaks in a child -/
def leakAt (k : SK) (c : Tree) : Nat := c.leaks + (if leakChild k c.sym && c.wraps then 1 else 0)

structure NetOK (c : Tree) : Prop where
  net : ∀ {fn a q w es}, c.sym = .n fn → subOf c fn a q = .ok (w, es) → net es = c.leaks + netOf fn a.o w a.w
  w : ∀ {fn a q w es}, c.sym = .n fn → exprPart fn = true → subOf c fn a q = .ok (w, es) → w = (a.w || c.wraps)

theorem lv_sound {e0 : SEnv} {k : SK} {cx : Ctx} (hcx : TreeOK e0 cx) {c : Tree} (hc : cx.cur = some c)
    (hs : NetOK c) : ∀ {cmd : FCmd} {r r' : Regs} {q : Option Token} {es : List TEv} {e e' : Bool} {σ : Sg},
    callsOk k cmd = true → once c.sym cmd e = some e' → σ.Rel r → trF (subOf c) cx cmd r q = .ok (r', es) →
    (e = true → e' = true) ∧ ∃ σ' ∈ lv e0 cmd σ, σ'.Rel r' ∧ σ'.o = σ.o ∧ σ'.w0 = σ.w0 ∧
      net es = σ'.d - σ.d + (if e' && !e then leakAt k c else 0) := by
  intro cmd
  induction cmd with
  | seq a b ih1 ih2 =>
    intro r r' q es e e' σ hk ho hr h
    simp only [callsOk, Bool.and_eq_true] at hk
    obtain ⟨⟨r1, e1⟩, h1, h⟩ := Res.bind_eq_ok.1 h
    obtain ⟨⟨r2, e2⟩, h2, h⟩ := Res.bind_eq_ok.1 h
    cases h
    simp only [once, Option.bind_eq_some_iff] at ho
    obtain ⟨em, o1, o2⟩ := ho
    obtain ⟨i1, σ1, m1, p1, p2, p3, p4⟩ := ih1 hk.1 o1 hr h1
    obtain ⟨j1, σ2, m2, q1, q2, q3, q4⟩ := ih2 hk.2 o2 p1 h2
    refine ⟨fun he => j1 (i1 he), σ2, ?_, q1, by rw [q2, p2], by rw [q3, p3], ?_⟩
    · exact List.mem_flatMap.2 ⟨σ1, m1, m2⟩
    · rw [net_append, p4, q4]
      generalize leakAt k c = l
      clear p4 q4 ih1 ih2 h1 h2
      cases e <;> cases em <;> cases e' <;> simp at i1 j1 ⊢ <;> omega
  | ite g a b ih1 ih2 =>
    intro r r' q es e e' σ hk ho hr h
    simp only [callsOk, Bool.and_eq_true] at hk
    simp only [once] at ho
    obtain ⟨t, h1, h⟩ := Res.bind_eq_ok.1 h
    split at ho
    · rename_i heq
      have key : (e = true → e' = true) ∧ ∃ σ' ∈ (if t then lv e0 a σ else lv e0 b σ), σ'.Rel r' ∧ σ'.o = σ.o ∧
          σ'.w0 = σ.w0 ∧ net es = σ'.d - σ.d + (if e' && !e then leakAt k c else 0) := by
        cases t
        · exact ih2 hk.2 (heq ▸ ho) hr h
        · exact ih1 hk.1 ho hr h
      refine ⟨key.1, ?_⟩
      obtain ⟨σ', m1, rest⟩ := key.2
      refine ⟨σ', ?_, rest⟩
      simp only [lv]
      split
      · rename_i hl
        have := lvC_sound hcx hr h1 hl
        subst this
        exact m1
      · rename_i hl
        have := lvC_sound hcx hr h1 hl
        subst this
        exact m1
      · cases t
        · exact List.mem_append_right _ m1
        · exact List.mem_append_left _ m1
    · cases ho
  | call fn m w o keep =>
    intro r r' q es e e' σ hk ho hr h
    simp only [once] at ho
    split at ho
    · rename_i hsym
      split at ho
      · cases ho
      · rename_i he
        cases ho
        have he : e = false := by simpa using he
        subst he
        obtain ⟨m', h1, h⟩ := Res.bind_eq_ok.1 h
        obtain ⟨w', h2, h⟩ := Res.bind_eq_ok.1 h
        obtain ⟨o', h3, h⟩ := Res.bind_eq_ok.1 h
        obtain ⟨⟨y, ee⟩, h4, h⟩ := Res.bind_eq_ok.1 h
        cases h
        refine ⟨by simp, ?_⟩
        have hn := hs.net hsym h4
        simp only [callsOk] at hk
        cases keep with
        | true =>
          simp only [if_true, Bool.and_eq_true, decide_eq_true_eq, Bool.or_eq_true, bne_iff_ne, beq_iff_eq, Bool.not_eq_true'] at hk
          obtain ⟨⟨⟨k1, k2⟩, k3⟩, k4⟩ := hk
          subst k1
          cases h2
          have hw := hs.w hsym k2 h4
          have hno : netOf fn o' y (r.get .w) = b2i y - b2i (r.get .w) := by
            simp only [netOf, k2, if_true]
            rw [if_neg]
            rintro ⟨rfl, ho⟩
            rcases k4 with k4 | k4
            · exact k4 rfl
            · subst k4; cases h3; cases ho
          simp only [hno] at hn
          have hla : leakAt k c = c.leaks := by simp [leakAt, hsym, k3]
          simp only [hn, hla, Bool.not_false, Bool.and_self, if_true, lv]
          have hrw : r.get .w = σ.w := hr.w.symm
          cases hσ : σ.w
          · rw [hrw, hσ] at hw
            rw [hrw, hσ]
            simp only [Bool.false_eq_true, if_false]
            cases y
            · exact ⟨σ, by simp, ⟨hr.m, hσ, hr.o, hr.c, hr.x⟩, rfl, rfl, by simp [b2i]⟩
            · exact ⟨{ σ with w := true, d := σ.d + 1 }, by simp, ⟨hr.m, rfl, hr.o, hr.c, hr.x⟩, rfl, rfl, by
                simp [b2i]; omega⟩
          · rw [hrw, hσ] at hw
            simp only [Bool.true_or] at hw
            subst hw
            rw [hrw, hσ]
            exact ⟨σ, by simp, ⟨hr.m, hσ, hr.o, hr.c, hr.x⟩, rfl, rfl, by simp [b2i]⟩
        | false =>
          simp only [Bool.false_eq_true, if_false, Bool.and_eq_true, decide_eq_true_eq, Bool.or_eq_true, bne_iff_ne, beq_iff_eq] at hk
          obtain ⟨⟨k1, k2⟩, k3⟩ := hk
          subst k1
          cases h2
          refine ⟨σ, by simp [lv], hr, rfl, rfl, ?_⟩
          simp only [hn, Int.sub_self, Int.zero_add, Bool.not_false, Bool.and_self, if_true]
          by_cases hE : fn = .Expression
          · subst hE
            rcases k3 with k3 | k3
            · exact absurd rfl k3
            · subst k3
              cases h3
              have : leakChild k (.n .Expression) = false := by rw [k2]; simp
              simp [netOf, leakAt, hsym, this, b2i]
          · have hb : (fn != .Expression) = true := by simpa using hE
            rw [hb, Bool.and_true] at k2
            simp only [netOf, hE, false_and, if_false, leakAt, hsym, k2]
            cases hK : exprPart fn
            · simp
            · have hw := hs.w hsym hK h4
              simp only [Bool.false_or] at hw
              subst hw
              simp only [if_true, Bool.true_and]
              cases c.wraps <;> simp [b2i]
    · cases ho
  | skip => intro r r' q es e e' σ hk ho hr h; cases h; cases ho; exact ⟨id, σ, by simp [lv], hr, rfl, rfl, by simp [net]⟩
  | space => intro r r' q es e e' σ hk ho hr h; cases h; cases ho; exact ⟨id, σ, by simp [lv], hr, rfl, rfl, by simp [net]⟩
  | indent =>
    intro r r' q es e e' σ hk ho hr h; cases h; cases ho
    exact ⟨id, { σ with d := σ.d + 1 }, by simp [lv], ⟨hr.m, hr.w, hr.o, hr.c, hr.x⟩, rfl, rfl, by simp [net]; omega⟩
  | dedent =>
    intro r r' q es e e' σ hk ho hr h; cases h; cases ho
    exact ⟨id, { σ with d := σ.d - 1 }, by simp [lv], ⟨hr.m, hr.w, hr.o, hr.c, hr.x⟩, rfl, rfl, by simp [net]; omega⟩
  | tok =>
    intro r r' q es e e' σ hk ho hr h
    simp only [trF, hc] at h
    split at h
    · rename_i t ht
      cases h
      cases ht
      simp only [once, Tree.sym] at ho
      split at ho
      · cases ho
      · rename_i he
        cases ho
        exact ⟨by simp, σ, by simp [lv], hr, rfl, rfl, by simp [net, leakAt, Tree.leaks, Tree.wraps]⟩
    · cases h
  | brk t b =>
    intro r r' q es e e' σ hk ho hr h
    obtain ⟨t, g1, h⟩ := Res.bind_eq_ok.1 h
    cases h; cases ho
    exact ⟨id, σ, by simp [lv], hr, rfl, rfl, by simp [net]⟩
  | bos g t =>
    intro r r' q es e e' σ hk ho hr h
    obtain ⟨b, g1, h⟩ := Res.bind_eq_ok.1 h
    obtain ⟨t, g2, h⟩ := Res.bind_eq_ok.1 h
    cases h; cases ho
    exact ⟨id, σ, by simp [lv], hr, rfl, rfl, by cases b <;> simp [net]⟩
  | set v g =>
    intro r r' q es e e' σ hk ho hr h
    obtain ⟨b, h1, h⟩ := Res.bind_eq_ok.1 h
    cases h; cases ho
    have hv : v ≠ .o := by simpa [callsOk] using hk
    have hso : ∀ b, (σ.set b v).o = σ.o := by intro b; cases v <;> first | rfl | exact absurd rfl hv
    have hsw : ∀ b, (σ.set b v).w0 = σ.w0 := by intro b; cases v <;> rfl
    have hsd : ∀ b, (σ.set b v).d = σ.d := by intro b; cases v <;> rfl
    refine ⟨id, σ.set b v, ?_, hr.set b v, hso b, hsw b, by simp [net, hsd]⟩
    simp only [lv]
    split
    · rename_i b' hl
      have := lvC_sound hcx hr h1 hl
      subst this
      exact List.mem_singleton.2 rfl
    · cases b <;> simp
  | setPrevRule =>
    intro r r' q es e e' σ hk ho hr h
    simp only [trF] at h
    split at h
    · cases h; cases ho
      exact ⟨id, σ, by simp [lv], ⟨hr.m, hr.w, hr.o, hr.c, hr.x⟩, rfl, rfl, by simp [net]⟩
    · cases h
  | unreachable => intro r r' q es e e' σ hk ho hr h; cases h

/-! ### All words -/

/-- Does the indentation depend on the lines of the production? -/
def usesTm (k : SK) : Bool := k == .ComponentList

/-- Does the indentation depend on the lines of the brackets? -/
def usesPm (k : SK) : Bool := k == .ShortClassSpecifier || k == .ImportClause

/-- the possible values of a fact -/
def facts (u : Bool) : List (Option Bool) := if u then [some true, some false] else [none]

def senv (k : SK) (tm v pm : Option Bool) (cm ch : Option Bool := none) : SEnv :=
  { tm, v, pm, op := (bracketsOf k).1, cl := (bracketsOf k).2, cm, ch }

/-- the states before the first child -/
def lvInit (e : SEnv) (k : SK) : List Sg :=
  dedup (([true, false].flatMap fun m => [true, false].flatMap fun w => [true, false].map fun o =>
    (⟨m, w, o, false, false, w, 0⟩ : Sg)).flatMap (lv e (Fmt.body k).pre))

/-- the states after a child -/
def lvStep (e : SEnv) (k : SK) (S : List Sg) (s : Sym) : List Sg := dedup (S.flatMap (lv e (upCmd (Fmt.body k) s)))

/-- the balance is right in the end -/
def lvFine (e : SEnv) (k : SK) (S : List Sg) : Bool :=
  (S.flatMap (lv e (Fmt.body k).post)).all fun σ => σ.d == netOf k σ.o σ.w σ.w0

theorem levels_ok : ∀ k, (∀ tm ∈ facts (usesTm k), ∀ v ∈ facts (usesTm k), ∀ pm ∈ facts (usesPm k), checkG (lvStep (senv k tm v pm) k) (lvFine (senv k tm v pm) k) (Gram.spec k)
    (lvInit (senv k tm v pm) k) = true) := by
  intro k; cases k <;> decide +kernel

theorem calls_ok : ∀ k, callsOk k (Fmt.body k).pre = true ∧ callsOk k (Fmt.body k).post = true ∧
    ∀ s ∈ (Gram.spec k).syms, callsOk k (upCmd (Fmt.body k) s) = true := by
  intro k; cases k <;> decide

/-! ### All trees -/

theorem mem_init {e0 : SEnv} {k : SK} {a : Args} {σ : Sg}
    (h : σ ∈ lv e0 (Fmt.body k).pre ⟨a.m, a.w, a.o, false, false, a.w, 0⟩) : σ ∈ lvInit e0 k := by
  refine mem_dedup.2 (List.mem_flatMap.2 ⟨_, ?_, h⟩)
  cases a with | mk m w o => cases m <;> cases w <;> cases o <;> simp

/-- statements without calls -/
theorem lv_silent {e0 : SEnv} {k : SK} {all : List Tree} (hcx : TreeOK e0 { all }) {cmd : FCmd} {r r' : Regs}
    {q : Option Token} {es : List TEv} {σ : Sg} (hk : callsOk k cmd = true) (hs : silent cmd = true) (hr : σ.Rel r)
    (h : trF noSub { all } cmd r q = .ok (r', es)) :
    ∃ σ' ∈ lv e0 cmd σ, σ'.Rel r' ∧ σ'.o = σ.o ∧ σ'.w0 = σ.w0 ∧ net es = σ'.d - σ.d := by
  induction cmd generalizing r r' q es σ with
  | seq a b ih1 ih2 =>
    simp only [callsOk, silent, Bool.and_eq_true] at hk hs
    obtain ⟨⟨r1, e1⟩, h1, h⟩ := Res.bind_eq_ok.1 h
    obtain ⟨⟨r2, e2⟩, h2, h⟩ := Res.bind_eq_ok.1 h
    cases h
    obtain ⟨σ1, m1, p1, p2, p3, p4⟩ := ih1 hk.1 hs.1 hr h1
    obtain ⟨σ2, m2, q1, q2, q3, q4⟩ := ih2 hk.2 hs.2 p1 h2
    exact ⟨σ2, List.mem_flatMap.2 ⟨σ1, m1, m2⟩, q1, by rw [q2, p2], by rw [q3, p3], by rw [net_append, p4, q4]; omega⟩
  | ite g a b ih1 ih2 =>
    simp only [callsOk, silent, Bool.and_eq_true] at hk hs
    obtain ⟨t, h1, h⟩ := Res.bind_eq_ok.1 h
    have key : ∃ σ' ∈ (if t then lv e0 a σ else lv e0 b σ), σ'.Rel r' ∧ σ'.o = σ.o ∧
        σ'.w0 = σ.w0 ∧ net es = σ'.d - σ.d := by
      cases t
      · exact ih2 hk.2 hs.2 hr h
      · exact ih1 hk.1 hs.1 hr h
    obtain ⟨σ', m1, rest⟩ := key
    refine ⟨σ', ?_, rest⟩
    simp only [lv]
    split
    · rename_i hl
      have := lvC_sound (cx := { all }) hcx hr h1 hl
      subst this
      exact m1
    · rename_i hl
      have := lvC_sound (cx := { all }) hcx hr h1 hl
      subst this
      exact m1
    · cases t
      · exact List.mem_append_right _ m1
      · exact List.mem_append_left _ m1
  | skip => cases h; exact ⟨σ, by simp [lv], hr, rfl, rfl, by simp [net]⟩
  | indent =>
    cases h
    exact ⟨{ σ with d := σ.d + 1 }, by simp [lv], ⟨hr.m, hr.w, hr.o, hr.c, hr.x⟩, rfl, rfl, by simp [net]; omega⟩
  | dedent =>
    cases h
    exact ⟨{ σ with d := σ.d - 1 }, by simp [lv], ⟨hr.m, hr.w, hr.o, hr.c, hr.x⟩, rfl, rfl, by simp [net]; omega⟩
  | set v g =>
    obtain ⟨b, h1, h⟩ := Res.bind_eq_ok.1 h
    cases h
    have hv : v ≠ .o := by simpa [callsOk] using hk
    have hso : ∀ b, (σ.set b v).o = σ.o := by intro b; cases v <;> first | rfl | exact absurd rfl hv
    have hsw : ∀ b, (σ.set b v).w0 = σ.w0 := by intro b; cases v <;> rfl
    have hsd : ∀ b, (σ.set b v).d = σ.d := by intro b; cases v <;> rfl
    refine ⟨σ.set b v, ?_, hr.set b v, hso b, hsw b, by simp [net, hsd]⟩
    simp only [lv]
    split
    · rename_i b' hl
      have := lvC_sound (cx := { all }) hcx hr h1 hl
      subst this
      exact List.mem_singleton.2 rfl
    · cases b <;> simp
  | _ => cases hs

/-- the balance before a child -/
structure LvAt (k : SK) (all pre : List Tree) (a : Args) (S : List Sg) (r : Regs) (es : List TEv) : Prop where
  ex : ∃ σ ∈ S, σ.Rel r ∧ σ.o = a.o ∧ σ.w0 = a.w ∧ net es = σ.d + leaksF k pre

theorem leaksF_append (k : SK) (a b : List Tree) : leaksF k (a ++ b) = leaksF k a + leaksF k b := by
  induction a with
  | nil => simp [leaksF]
  | cons c a ih => simp only [List.cons_append, leaksF, ih]; omega

/-- What is known about the production holds at all children. -/
theorem TreeOK.at {k : SK} {tm v pm : Option Bool} {all : List Tree} (h : TreeOK (senv k tm v pm) { all }) (cx : Ctx) (hc : cx.all = all) :
    TreeOK (senv k tm v pm) cx :=
  ⟨hc ▸ h.tm, hc ▸ h.v, hc ▸ h.pm, fun _ h => (by cases h), fun _ h => (by cases h)⟩

theorem net_steps {k : SK} {tm v pm : Option Bool} {all : List Tree} (hcx : TreeOK (senv k tm v pm) { all }) {a : Args} :
    ∀ {cs pre : List Tree} {idx : Nat} {r r' : Regs} {q : Option Token} {e0 : List TEv} {ess : List (List TEv)} {S : List Sg},
    (∀ c ∈ cs, c.sym ∈ (Gram.spec k).syms ∧ NetOK c) → LvAt k all pre a S r e0 →
    Steps (Fmt.body k) all cs idx r q ess r' →
    LvAt k all (pre ++ cs) a ((cs.map Tree.sym).foldl (lvStep (senv k tm v pm) k) S) r' (e0 ++ ess.flatten)
  | [], pre, idx, r, r', q, e0, ess, S, _, h0, h => by
    cases h
    simpa using h0
  | c :: cs, pre, idx, r, r', q, e0, ess, S, hc, h0, h => by
    cases h with
    | @cons _ _ _ _ _ r1 e ess' _ g1 g2 =>
      obtain ⟨hsym, hN⟩ := hc c List.mem_cons_self
      obtain ⟨σ, m1, p1, p2, p3, p4⟩ := h0.ex
      obtain ⟨_, σ', m2, q1, q2, q3, q4⟩ := lv_sound (k := k) (c := c) (hcx.at _ rfl) rfl hN ((calls_ok k).2.2 _ hsym) (once_all k _ hsym) p1 g1
      have h1 : LvAt k all (pre ++ [c]) a (lvStep (senv k tm v pm) k S c.sym) r1 (e0 ++ e) := by
        refine ⟨σ', mem_dedup.2 (List.mem_flatMap.2 ⟨σ, m1, m2⟩), q1, by rw [q2, p2], by rw [q3, p3], ?_⟩
        rw [net_append, p4, q4, leaksF_append]
        simp [leaksF, leakAt]
        omega
      have := net_steps hcx (fun d hd => hc d (List.mem_cons_of_mem _ hd)) h1 g2
      simpa using this

theorem mem_facts (u b : Bool) : (if u then some b else none) ∈ facts u := by
  cases u <;> cases b <;> decide

/-- the facts about a production -/
theorem treeOK (k : SK) (all : List Tree) : ∃ tm v pm : Option Bool, tm ∈ facts (usesTm k) ∧ v ∈ facts (usesTm k) ∧
    pm ∈ facts (usesPm k) ∧ TreeOK (senv k tm v pm) { all } := by
  have key : ∀ tm, (∀ b, isMultiline all = .ok b → b = tm) → ∃ tm v pm : Option Bool, tm ∈ facts (usesTm k) ∧
      v ∈ facts (usesTm k) ∧ pm ∈ facts (usesPm k) ∧ TreeOK (senv k tm v pm) { all } := by
    intro tm h
    refine ⟨_, _, _, mem_facts _ tm, mem_facts _ (decide (all.length > 1)),
      mem_facts _ (scanParens (bracketsOf k).1 (bracketsOf k).2 all), ?_, ?_, ?_, fun _ h => (by cases h), fun _ h => (by cases h)⟩
    · intro x hx b hb
      simp only [senv] at hx
      split at hx
      · cases hx; exact h b hb
      · cases hx
    · intro x hx
      simp only [senv] at hx
      split at hx
      · cases hx; rfl
      · cases hx
    · intro x hx
      simp only [senv] at hx
      split at hx
      · cases hx; rfl
      · cases hx
  cases h : isMultiline all with
  | ok b => exact key b (fun b' hb => (by rw [h] at hb; cases hb; rfl))
  | panic p => exact key false (fun b' hb => (by rw [h] at hb; cases hb))
  | fuel => exact key false (fun b' hb => (by rw [h] at hb; cases hb))

/-- the balance after the statements before the loop -/
theorem net_pre {e0 : SEnv} {k : SK} {all : List Tree} (hcx : TreeOK e0 { all }) {a : Args} {r1 : Regs} {q : Option Token}
    {e1 : List TEv} (h1 : trF noSub { all } (Fmt.body k).pre { m := a.m, w := a.w, o := a.o } q = .ok (r1, e1)) :
    LvAt k all [] a (lvInit e0 k) r1 e1 := by
  obtain ⟨σ, m1, p1, p2, p3, p4⟩ := lv_silent (σ := ⟨a.m, a.w, a.o, false, false, a.w, 0⟩) hcx (calls_ok k).1 (silent_all k).1
    ⟨rfl, rfl, rfl, rfl, rfl⟩ h1
  exact ⟨σ, mem_init m1, p1, p2, p3, by simpa [leaksF] using p4⟩

mutual
/-- The balance of a production. -/
theorem netOK : (t : Tree) → t.Conforms → t.hasEmpty = false → NetOK t
  | .tok _, _, _ => ⟨fun hs => (by cases hs), fun hs => (by cases hs)⟩
  | .node k cs, hC, hE => by
    refine ⟨?_, fun hs hk h => wraps_run _ hC hE hs hk h⟩
    intro fn a q w es hs h
    cases hs
    simp only [Tree.hasEmpty, Bool.or_eq_false_iff] at hE
    obtain ⟨r1, e1, ess, r2, r3, e3, h1, h2, h3, rfl, rfl, i1, i3⟩ := trTree_inv h
    obtain ⟨tm, v, pm, f1, f2, f3, hcx⟩ := treeOK k cs
    have hc := netOKF cs hC.2 hE.2
    obtain ⟨σ, m1, p1, p2, p3, p4⟩ := (net_steps hcx (fun c hm => ⟨syms_complete hC.1 _ (List.mem_map_of_mem hm), hc c hm⟩)
      (net_pre hcx h1) h2).ex
    obtain ⟨σ', m2, q1, q2, q3, q4⟩ := lv_silent hcx (calls_ok k).2.1 (silent_all k).2 p1 h3
    have hf := List.all_eq_true.1 (checkG_sound (levels_ok k tm f1 v f2 pm f3) hC.1) σ' (List.mem_flatMap.2 ⟨σ, m1, m2⟩)
    simp only [beq_iff_eq] at hf
    rw [net_append, p4, q4, Tree.leaks]
    rw [q2, q3, q1.w, p2, p3] at hf
    simp only [List.nil_append]
    omega
theorem netOKF : (cs : List Tree) → ConformsF cs → hasEmptyF cs = false → ∀ c ∈ cs, NetOK c
  | [], _, _, c, h => by cases h
  | d :: cs, hC, hE, c, h => by
    simp only [hasEmptyF, Bool.or_eq_false_iff] at hE
    rcases List.mem_cons.1 h with h | h
    · rw [h]; exact netOK d hC.1 hE.1
    · exact netOKF cs hC.2 hE.2 c h
end

end Mofmt
