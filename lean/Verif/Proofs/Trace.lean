import Verif.Proofs.FmtRep
/-
What a formatting function does, as a list of events: tokens, blanks, changes of indentation, line breaks.
The comments are left out: they are dealt with when the events are replayed.
-/
namespace Mofmt

/-- An event. -/
inductive TEv where
  | tok (t : Token)
  | space
  | indent
  | dedent
  | brk (t : Token) (b : Blank)
  deriving DecidableEq

/-- kind of the last token printed -/
def kindOf : Option Token → Tok
  | none => .EOF
  | some t => t.kind

/-- line in which the last token printed ends -/
def lineOf : Option Token → Nat
  | none => 1
  | some t => t.stop.line

/-- What the conditions see of the state when `q` is the last token printed. -/
def fsOf (q : Option Token) : FState := ⟨[], [], kindOf q, lineOf q⟩

/-- the last token -/
def lastT (q : Option Token) : List TEv → Option Token
  | [] => q
  | .tok t :: es => lastT (some t) es
  | _ :: es => lastT q es

/-- the tokens -/
def toks : List TEv → List Token
  | [] => []
  | .tok t :: es => t :: toks es
  | _ :: es => toks es

theorem lastT_append (q : Option Token) (a b : List TEv) : lastT q (a ++ b) = lastT (lastT q a) b := by
  induction a generalizing q with
  | nil => rfl
  | cons x xs ih => cases x <;> simp [lastT, ih]

theorem toks_append (a b : List TEv) : toks (a ++ b) = toks a ++ toks b := by
  induction a with
  | nil => rfl
  | cons x xs ih => cases x <;> simp [toks, ih]

theorem lastT_toks (es : List TEv) : ∀ (q : Option Token) (t : Token), (toks es).getLast? = some t →
    lastT q es = some t := by
  induction es with
  | nil => intro q t h; simp [toks] at h
  | cons x xs ih =>
    intro q t h
    cases x with
    | tok y =>
      simp only [toks] at h
      simp only [lastT]
      cases hx : toks xs with
      | nil =>
        rw [hx] at h
        simp at h
        subst h
        clear ih
        induction xs with
        | nil => rfl
        | cons z zs ih2 => cases z <;> simp_all [lastT, toks]
      | cons z zs =>
        rw [hx, List.getLast?_cons_cons] at h
        exact ih _ _ (by rw [hx]; exact h)
    | _ => exact ih q t h

section Tr

/-- `execF`, as events -/
def trF (sub : SK → Args → Option Token → Res (Bool × List TEv)) (cx : Ctx) :
    FCmd → Regs → Option Token → Res (Regs × List TEv)
  | .skip, r, _ => .ok (r, [])
  | .seq a b, r, q => (trF sub cx a r q).bind fun (r, es) =>
      (trF sub cx b r (lastT q es)).bind fun (r, es') => .ok (r, es ++ es')
  | .ite c a b, r, q => (evalFC cx r (fsOf q) c).bind fun t =>
      if t then trF sub cx a r q else trF sub cx b r q
  | .space, r, _ => .ok (r, [.space])
  | .indent, r, _ => .ok (r, [.indent])
  | .dedent, r, _ => .ok (r, [.dedent])
  | .tok, r, _ => match cx.cur with
    | some (.tok t) => .ok (r, [.tok t])
    | _ => .panic .unreachable
  | .brk t b, r, _ => (cx.target t).bind fun tok => .ok (r, [.brk tok b])
  | .bos c t, r, q => (evalFC cx r (fsOf q) c).bind fun b => (cx.target t).bind fun tok =>
      .ok (r, [if b then .brk tok .Illegal else .space])
  | .call fn m w o keep, r, q =>
      (evalFC cx r (fsOf q) m).bind fun m => (evalFC cx r (fsOf q) w).bind fun w =>
      (evalFC cx r (fsOf q) o).bind fun o =>
        (sub fn { m, w, o } q).bind fun (w', es) => .ok (if keep then { r with w := w' } else r, es)
  | .set v c, r, q => (evalFC cx r (fsOf q) c).bind fun b => .ok (r.set b v, [])
  | .setPrevRule, r, _ => match cx.cur with
    | some (.node k _) => .ok ({ r with prevRule := k }, [])
    | _ => .panic .unreachable
  | .unreachable, _, _ => .panic .unreachable

variable (bodies : SK → FBody)

mutual
/-- `fmtTree`, as events -/
def trTree (fn : SK) (a : Args) (t : Tree) (q : Option Token) : Res (Bool × List TEv) :=
  match t with
  | .tok _ => .panic .unreachable
  | .node _ cs =>
    let noSub : SK → Args → Option Token → Res (Bool × List TEv) := fun _ _ _ => .panic .unreachable
    (trF noSub { all := cs } (bodies fn).pre { m := a.m, w := a.w, o := a.o } q).bind fun (r, e1) =>
    (trLoop (bodies fn) cs cs 0 r (lastT q e1)).bind fun (r, e2) =>
    (trF noSub { all := cs } (bodies fn).post r (lastT q (e1 ++ e2))).bind fun (r, e3) =>
      .ok (r.w, e1 ++ e2 ++ e3)
/-- `fmtLoop`, as events -/
def trLoop (b : FBody) (all : List Tree) (cs : List Tree) (idx : Nat) (r : Regs) (q : Option Token) :
    Res (Regs × List TEv) :=
  match cs with
  | [] => .ok (r, [])
  | c :: rest =>
    let cmd := match c with
      | .tok t => b.onTok t.kind
      | .node k _ => b.onTree k
    (trF (fun fn a q => trTree fn a c q) { all, cur := some c, idx, rest } cmd r q).bind
      fun (r, es) => (trLoop b all rest (idx + 1) r (lastT q es)).bind fun (r, es') => .ok (r, es ++ es')
end
end Tr

/-- the effect of an event -/
def TEv.play : TEv → FState → Res FState
  | .tok t, s => .ok (s.handleToken t)
  | .space, s => .ok (s.push .space)
  | .indent, s => .ok (s.push .indent)
  | .dedent, s => .ok (s.push .dedent)
  | .brk t b, s => s.handleBreak t b

/-- the effect of events -/
def playAll : List TEv → FState → Res FState
  | [], s => .ok s
  | e :: es, s => (e.play s).bind (playAll es)

theorem playAll_append (a b : List TEv) (s : FState) :
    playAll (a ++ b) s = (playAll a s).bind (playAll b) := by
  induction a generalizing s with
  | nil => rfl
  | cons x xs ih =>
    simp only [List.cons_append, playAll]
    cases x.play s with
    | ok s => simp [ih]
    | panic => rfl
    | fuel => rfl

/-- the state is seen as one in which `q` is the last token -/
def Sees (s : FState) (q : Option Token) : Prop := s.prevTok = kindOf q ∧ s.prevLine = lineOf q

theorem evalFC_sees {cx : Ctx} {r : Regs} {s : FState} {q : Option Token} (h : Sees s q) (c : FCond) :
    evalFC cx r s c = evalFC cx r (fsOf q) c := by
  induction c with
  | prevTok k => simp only [evalFC, h.1]; rfl
  | nextBelow => simp only [evalFC, h.2]; rfl
  | not a ih => simp only [evalFC, ih]
  | and a b ih1 ih2 => simp only [evalFC, ih1, ih2]
  | or a b ih1 ih2 => simp only [evalFC, ih1, ih2]
  | _ => rfl

theorem pushInlines_sees : ∀ (cs : List Token) (s : FState), (pushInlines cs s).prevTok = s.prevTok ∧
    (pushInlines cs s).prevLine = s.prevLine
  | [], s => ⟨rfl, rfl⟩
  | c :: cs, s => by
    rw [pushInlines]
    refine ⟨(pushInlines_sees cs _).1.trans ?_, (pushInlines_sees cs _).2.trans ?_⟩ <;>
    (simp only [FState.push]; split <;> rfl)

theorem pushGap_sees {x line : Nat} {s s' : FState} (h : pushGap x line s = .ok s') :
    s'.prevTok = s.prevTok ∧ s'.prevLine = s.prevLine := by
  obtain ⟨d, _, h⟩ := Res.bind_eq_ok.1 h
  cases h
  exact ⟨rfl, rfl⟩

theorem pushComments_sees (b : Blank) : ∀ (cs : List Token) (line : Nat) (s : FState) {l' : Nat} {s' : FState},
    pushComments b cs line s = .ok (l', s') → s'.prevTok = s.prevTok ∧ s'.prevLine = s.prevLine
  | [], line, s, l', s', h => by cases h; exact ⟨rfl, rfl⟩
  | c :: cs, line, s, l', s', h => by
    rw [pushComments] at h
    obtain ⟨s1, h1, h⟩ := Res.bind_eq_ok.1 h
    have h2 := pushComments_sees b cs _ _ h
    have h3 : s1.prevTok = s.prevTok ∧ s1.prevLine = s.prevLine := by
      split at h1
      · split at h1
        · exact pushGap_sees h1
        · cases h1; exact ⟨rfl, rfl⟩
      · exact pushGap_sees h1
    exact ⟨h2.1.trans h3.1, h2.2.trans h3.2⟩

theorem handleBreak_sees {s s' : FState} {t : Token} {b : Blank} (h : s.handleBreak t b = .ok s') :
    s'.prevTok = s.prevTok ∧ s'.prevLine = s.prevLine := by
  unfold FState.handleBreak at h
  obtain ⟨⟨l, s1⟩, h1, h⟩ := Res.bind_eq_ok.1 h
  have h2 := pushComments_sees _ _ _ _ h1
  have h3 : s1.prevTok = s.prevTok ∧ s1.prevLine = s.prevLine := by
    have h4 := pushInlines_sees ((s.taken t).filter (fun c => c.start.line == s.prevLine)) (s.dropTaken t)
    split at h2
    · exact ⟨h2.1.trans h4.1, h2.2.trans h4.2⟩
    · exact ⟨h2.1.trans h4.1, h2.2.trans h4.2⟩
  have h5 : s'.prevTok = s1.prevTok ∧ s'.prevLine = s1.prevLine := by
    cases b
    · simp only at h
      split at h
      · exact pushGap_sees h
      · cases h; exact ⟨rfl, rfl⟩
    · exact pushGap_sees h
    · cases h; exact ⟨rfl, rfl⟩
  exact ⟨h5.1.trans h3.1, h5.2.trans h3.2⟩

theorem play_sees {e : TEv} {s s' : FState} {q : Option Token} (h : e.play s = .ok s') (hs : Sees s q) :
    Sees s' (lastT q [e]) := by
  cases e with
  | tok t => cases h; exact ⟨rfl, rfl⟩
  | brk t b =>
    have := handleBreak_sees h
    exact ⟨this.1.trans hs.1, this.2.trans hs.2⟩
  | _ => cases h; exact hs

theorem playAll_sees {es : List TEv} : ∀ {s s' : FState} {q : Option Token}, playAll es s = .ok s' → Sees s q →
    Sees s' (lastT q es) := by
  induction es with
  | nil => intro s s' q h hs; cases h; exact hs
  | cons e es ih =>
    intro s s' q h hs
    obtain ⟨s1, h1, h⟩ := Res.bind_eq_ok.1 h
    have := ih h (play_sees h1 hs)
    cases e <;> exact this

/-- Events and the formatter agree about a subtree. -/
def SimSub (tr : SK → Args → Option Token → Res (Bool × List TEv))
    (sub : SK → Args → FState → Res (Bool × FState)) : Prop :=
  ∀ fn a q s w es s', tr fn a q = .ok (w, es) → Sees s q → playAll es s = .ok s' → sub fn a s = .ok (w, s')

theorem trF_sim {tr : SK → Args → Option Token → Res (Bool × List TEv)}
    {sub : SK → Args → FState → Res (Bool × FState)} (hsub : SimSub tr sub) {cx : Ctx} :
    ∀ (cmd : FCmd) (r : Regs) (q : Option Token) (s : FState) (r' : Regs) (es : List TEv) (s' : FState),
    trF tr cx cmd r q = .ok (r', es) → Sees s q → playAll es s = .ok s' →
    execF sub cx cmd r s = .ok (r', s') := by
  intro cmd
  induction cmd with
  | skip => intro r q s r' es s' h hs hr; cases h; cases hr; rfl
  | seq a b ih1 ih2 =>
    intro r q s r' es s' h hs hr
    obtain ⟨⟨r1, e1⟩, h1, h⟩ := Res.bind_eq_ok.1 h
    obtain ⟨⟨r2, e2⟩, h2, h⟩ := Res.bind_eq_ok.1 h
    cases h
    rw [playAll_append] at hr
    obtain ⟨s1, g1, g2⟩ := Res.bind_eq_ok.1 hr
    have k1 := ih1 _ _ _ _ _ _ h1 hs g1
    have k2 := ih2 _ _ _ _ _ _ h2 (playAll_sees g1 hs) g2
    simp only [execF, k1, Res.bind_ok, k2]
  | ite c a b ih1 ih2 =>
    intro r q s r' es s' h hs hr
    simp only [trF, ← evalFC_sees hs] at h
    obtain ⟨t, h1, h⟩ := Res.bind_eq_ok.1 h
    simp only [execF, h1, Res.bind_ok]
    cases t
    · exact ih2 _ _ _ _ _ _ h hs hr
    · exact ih1 _ _ _ _ _ _ h hs hr
  | space => intro r q s r' es s' h hs hr; cases h; cases hr; rfl
  | indent => intro r q s r' es s' h hs hr; cases h; cases hr; rfl
  | dedent => intro r q s r' es s' h hs hr; cases h; cases hr; rfl
  | tok =>
    intro r q s r' es s' h hs hr
    simp only [trF] at h
    split at h
    · rename_i t ht
      cases h; cases hr
      simp only [execF, ht]
    · cases h
  | brk t b =>
    intro r q s r' es s' h hs hr
    obtain ⟨t, h1, h⟩ := Res.bind_eq_ok.1 h
    cases h
    obtain ⟨s1, g1, g2⟩ := Res.bind_eq_ok.1 hr
    cases g2
    simp only [TEv.play] at g1
    simp only [execF, h1, Res.bind_ok, g1]
  | bos c t =>
    intro r q s r' es s' h hs hr
    simp only [trF, ← evalFC_sees hs] at h
    obtain ⟨b, h1, h⟩ := Res.bind_eq_ok.1 h
    obtain ⟨t, h2, h⟩ := Res.bind_eq_ok.1 h
    cases h
    obtain ⟨s1, g1, g2⟩ := Res.bind_eq_ok.1 hr
    cases g2
    simp only [execF, h1, h2, Res.bind_ok, FState.breakOrSpace]
    cases b
    · cases g1; rfl
    · simp only [if_true, TEv.play] at g1
      simp only [if_true, g1, Res.bind_ok]
  | call fn m w o keep =>
    intro r q s r' es s' h hs hr
    simp only [trF, ← evalFC_sees hs] at h
    obtain ⟨m', h1, h⟩ := Res.bind_eq_ok.1 h
    obtain ⟨w', h2, h⟩ := Res.bind_eq_ok.1 h
    obtain ⟨o', h3, h⟩ := Res.bind_eq_ok.1 h
    obtain ⟨⟨x, e⟩, h4, h⟩ := Res.bind_eq_ok.1 h
    cases h
    have := hsub _ _ _ _ _ _ _ h4 hs hr
    simp only [execF, h1, h2, h3, Res.bind_ok, this]
  | set v c =>
    intro r q s r' es s' h hs hr
    simp only [trF, ← evalFC_sees hs] at h
    obtain ⟨b, h1, h⟩ := Res.bind_eq_ok.1 h
    cases h; cases hr
    simp only [execF, h1, Res.bind_ok]
  | setPrevRule =>
    intro r q s r' es s' h hs hr
    simp only [trF] at h
    split at h
    · rename_i k cs ht
      cases h; cases hr
      simp only [execF, ht]
    · cases h
  | unreachable => intro r q s r' es s' h; cases h

theorem noSub_sim : SimSub (fun _ _ _ => .panic .unreachable) (fun _ _ _ => .panic .unreachable) := by
  intro fn a q s w es s' h; cases h

mutual
theorem trTree_sim (bodies : SK → FBody) (t : Tree) :
    SimSub (fun fn a q => trTree bodies fn a t q) (fun fn a s => fmtTree bodies fn a t s) := by
  intro fn a q s w es s' h hs hr
  match t with
  | .tok _ => simp only [trTree] at h; cases h
  | .node k cs =>
    simp only [trTree] at h
    obtain ⟨⟨r1, e1⟩, h1, h⟩ := Res.bind_eq_ok.1 h
    obtain ⟨⟨r2, e2⟩, h2, h⟩ := Res.bind_eq_ok.1 h
    obtain ⟨⟨r3, e3⟩, h3, h⟩ := Res.bind_eq_ok.1 h
    cases h
    rw [playAll_append, playAll_append] at hr
    obtain ⟨s2, g2, g3⟩ := Res.bind_eq_ok.1 hr
    obtain ⟨s1, g1, g2⟩ := Res.bind_eq_ok.1 g2
    have q1 := playAll_sees g1 hs
    have q2 := playAll_sees g2 q1
    rw [← lastT_append] at q2
    have k1 := trF_sim noSub_sim _ _ _ _ _ _ _ h1 hs g1
    have k2 := trLoop_sim bodies cs _ _ _ _ _ _ _ _ _ h2 q1 g2
    have k3 := trF_sim noSub_sim _ _ _ _ _ _ _ h3 q2 g3
    simp only [fmtTree, k1, Res.bind_ok, k2, k3]
theorem trLoop_sim (bodies : SK → FBody) (cs : List Tree) (b : FBody) (all : List Tree) (idx : Nat) (r : Regs)
    (q : Option Token) (s : FState) (r' : Regs) (es : List TEv) (s' : FState)
    (h : trLoop bodies b all cs idx r q = .ok (r', es)) (hs : Sees s q) (hr : playAll es s = .ok s') :
    fmtLoop bodies b all cs idx r s = .ok (r', s') := by
  match cs with
  | [] => simp only [trLoop] at h; cases h; cases hr; rw [fmtLoop]
  | c :: rest =>
    simp only [trLoop] at h
    obtain ⟨⟨r1, e1⟩, h1, h⟩ := Res.bind_eq_ok.1 h
    obtain ⟨⟨r2, e2⟩, h2, h⟩ := Res.bind_eq_ok.1 h
    cases h
    rw [playAll_append] at hr
    obtain ⟨s1, g1, g2⟩ := Res.bind_eq_ok.1 hr
    have k1 := trF_sim (trTree_sim bodies c) _ _ _ _ _ _ _ h1 hs g1
    have k2 := trLoop_sim bodies rest _ _ _ _ _ _ _ _ _ h2 (playAll_sees g1 hs) g2
    cases c <;> (rw [fmtLoop]; exact Res.bind_eq_ok.2 ⟨(r1, s1), k1, k2⟩)
end

/-! ### Events in order -/

/-- Where a run is: the kind of the last token, what is pending, the indentation, the tokens to come. -/
structure WSt where
  k : Tok
  d : Dec
  n : Nat
  todo : List Token

/-- The events print the tokens in order, with at most one blank or break before each, with breaks before
the token to come; `ds` are the decisions. -/
inductive Walk : WSt → List TEv → List (Dec × Token) → WSt → Prop
  | nil (w : WSt) : Walk w [] [] w
  | tok {k d n t todo es ds w} : Walk ⟨t.kind, .none, n, todo⟩ es ds w →
      Walk ⟨k, d, n, t :: todo⟩ (.tok t :: es) ((d, t) :: ds) w
  | space {k n todo es ds w} : Walk ⟨k, .space, n, todo⟩ es ds w →
      Walk ⟨k, .none, n, todo⟩ (.space :: es) ds w
  | indent {k d n todo es ds w} : k ≠ .EOF → Walk ⟨k, d, n + 1, todo⟩ es ds w →
      Walk ⟨k, d, n, todo⟩ (.indent :: es) ds w
  | dedent {k d n todo es ds w} : k ≠ .EOF → Walk ⟨k, d, n, todo⟩ es ds w →
      Walk ⟨k, d, n + 1, todo⟩ (.dedent :: es) ds w
  | brk {k n t b todo es ds w} : Walk ⟨k, .brk b n, n, t :: todo⟩ es ds w →
      Walk ⟨k, .none, n, t :: todo⟩ (.brk t b :: es) ds w

theorem Walk.append {u v w : WSt} {a b : List TEv} {da db : List (Dec × Token)} (h1 : Walk u a da v)
    (h2 : Walk v b db w) : Walk u (a ++ b) (da ++ db) w := by
  induction h1 with
  | nil => exact h2
  | tok _ ih => exact .tok (ih h2)
  | space _ ih => exact .space (ih h2)
  | indent hk _ ih => exact .indent hk (ih h2)
  | dedent hk _ ih => exact .dedent hk (ih h2)
  | brk _ ih => exact .brk (ih h2)

theorem Walk.toks {u v : WSt} {es : List TEv} {ds : List (Dec × Token)} (h : Walk u es ds v) :
    ds.map (·.2) = Mofmt.toks es := by
  induction h <;> simp_all [Mofmt.toks]

theorem Walk.todo {u v : WSt} {es : List TEv} {ds : List (Dec × Token)} (h : Walk u es ds v) :
    u.todo = Mofmt.toks es ++ v.todo := by
  induction h <;> simp_all [Mofmt.toks]

/-- The decisions read off the events. -/
def decs : Dec → Nat → List TEv → List (Dec × Token)
  | _, _, [] => []
  | d, n, .tok t :: es => (d, t) :: decs .none n es
  | _, n, .space :: es => decs .space n es
  | d, n, .indent :: es => decs d (n + 1) es
  | d, n, .dedent :: es => decs d (n - 1) es
  | _, n, .brk _ b :: es => decs (.brk b n) n es

theorem Walk.decs {u v : WSt} {es : List TEv} {ds : List (Dec × Token)} (h : Walk u es ds v) :
    ds = Mofmt.decs u.d u.n es := by
  induction h <;> simp_all [Mofmt.decs]

theorem LS.run_kind' (L : LS) (d : Dec) (t : Token) : (L.step (d, t)).kind = t.kind := rfl

/-- Events in order can be replayed, with the layout as result. -/
theorem Walk.playAll {u v : WSt} {es : List TEv} {ds : List (Dec × Token)} (h : Walk u es ds v) :
    ∀ {s : FState} {L : LS}, u.k = L.kind → Rep s u.n (L.dec u.d u.todo) → WF L u.todo →
    ∃ s', Mofmt.playAll es s = .ok s' ∧ v.k = (L.run ds).kind ∧ Rep s' v.n ((L.run ds).dec v.d v.todo) ∧
      WF (L.run ds) v.todo := by
  induction h with
  | nil w => intro s L hk hr hw; exact ⟨s, rfl, hk, hr, hw⟩
  | @tok k d n t todo es ds w h ih =>
    intro s L hk hr hw
    have hrep := hr.token (t := t)
    simp only [LS.dec_cons] at hrep
    obtain ⟨s', g1, g2⟩ := ih (s := s.handleToken t) (L := L.step (d, t)) rfl
      (by rw [LS.dec_none]; exact hrep) (hw.step d)
    exact ⟨s', by simp only [Mofmt.playAll, TEv.play, Res.bind_ok, g1], g2⟩
  | space h ih =>
    intro s L hk hr hw
    obtain ⟨s', g1, g2⟩ := ih (s := s.push .space) (L := L) hk
      (by simp only [LS.dec_none] at hr; exact hr.space _) hw
    exact ⟨s', by simp only [Mofmt.playAll, TEv.play, Res.bind_ok, g1], g2⟩
  | @indent k d n todo es ds w hne h ih =>
    intro s L hk hr hw
    obtain ⟨s', g1, g2⟩ := ih (s := s.push .indent) (L := L) hk
      (hr.indent (by rw [LS.dec_kind]; exact hk ▸ hne)) hw
    exact ⟨s', by simp only [Mofmt.playAll, TEv.play, Res.bind_ok, g1], g2⟩
  | @dedent k d n todo es ds w hne h ih =>
    intro s L hk hr hw
    obtain ⟨s', g1, g2⟩ := ih (s := s.push .dedent) (L := L) hk
      (hr.dedent (by rw [LS.dec_kind]; exact hk ▸ hne)) hw
    exact ⟨s', by simp only [Mofmt.playAll, TEv.play, Res.bind_ok, g1], g2⟩
  | @brk k n t b todo es ds w h ih =>
    intro s L hk hr hw
    simp only [LS.dec_none] at hr
    obtain ⟨s1, h3, h4⟩ := hr.break hw b
    obtain ⟨s', g1, g2⟩ := ih (s := s1) (L := L) hk h4 hw
    exact ⟨s', by simp only [Mofmt.playAll, TEv.play, h3, Res.bind_ok, g1], g2⟩

end Mofmt
