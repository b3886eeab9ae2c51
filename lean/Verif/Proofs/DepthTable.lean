import Verif.Proofs.Levels
/-
The indentation of every child: abstract execution up to tokens, calls and breaks.
-/
namespace Mofmt

/-- conditions as far as they are known; `e`: has the child been printed? -/
def evK (k : SK) (p : Option Sym) (e0 : SEnv) (e : Bool) (σ : Sg) (c : FCond) : Option Bool :=
  if e then lvC e0 σ c else match known k p c (some σ.x) with
    | some b => some b
    | none => lvC e0 σ c

/-- the possible states after a statement, see `lv` -/
def lvG (ev : Bool → Sg → FCond → Option Bool) (s : Sym) : Bool → FCmd → Sg → List Sg
  | e, .seq a b, σ => (lvG ev s e a σ).flatMap (lvG ev s ((once s a e).getD e) b)
  | e, .ite c a b, σ => match ev e σ c with
    | some true => lvG ev s e a σ
    | some false => lvG ev s e b σ
    | none => lvG ev s e a σ ++ lvG ev s e b σ
  | _, .indent, σ => [{ σ with d := σ.d + 1 }]
  | _, .dedent, σ => [{ σ with d := σ.d - 1 }]
  | e, .set r c, σ => match ev e σ c with
    | some b => [σ.set b r]
    | none => [σ.set true r, σ.set false r]
  | _, .unreachable, _ => []
  | _, _, σ => [σ]

/-- The states at the tokens, calls and breaks: `okC` for those before the current child, `okN` for those before the
next one. -/
def sites (ev : Bool → Sg → FCond → Option Bool) (s : Sym) (okC okN : Sg → Bool) : Bool → FCmd → Sg → Bool
  | e, .seq a b, σ => sites ev s okC okN e a σ &&
    (lvG ev s e a σ).all (sites ev s okC okN ((once s a e).getD e) b)
  | e, .ite c a b, σ => match ev e σ c with
    | some true => sites ev s okC okN e a σ
    | some false => sites ev s okC okN e b σ
    | none => sites ev s okC okN e a σ && sites ev s okC okN e b σ
  | e, .brk .cur _, σ | e, .bos _ .cur, σ | e, .tok, σ | e, .call .., σ => !e && okC σ
  | e, .brk .next _, σ | e, .bos _ .next, σ => e && okN σ
  | e, .setPrevRule, _ => e
  | _, _, _ => true

/-- Are there tokens, calls or breaks? -/
def hasSites : FCmd → Bool
  | .seq a b => hasSites a || hasSites b
  | .ite _ a b => hasSites a || hasSites b
  | .brk .. | .bos .. | .tok | .call .. => true
  | _ => false

/-- `wrapped` is changed before tokens, calls and breaks only. -/
def wFirst (k : SK) : FCmd → Bool
  | .seq a b => wFirst k a && wFirst k b && (!hasSites a || keepsW b)
  | .ite _ a b => wFirst k a && wFirst k b
  | .call fn _ w _ keep => !keep && w == .false && !chainChild k (.n fn)
  | _ => true

/-- properties of the breaks among events, `n` being the level -/
def Brks (G : Int → Token → Prop) : Int → List TEv → Prop
  | _, [] => True
  | n, .brk t _ :: es => G n t ∧ Brks G n es
  | n, .indent :: es => Brks G (n + 1) es
  | n, .dedent :: es => Brks G (n - 1) es
  | n, _ :: es => Brks G n es

theorem Brks.append {G : Int → Token → Prop} : ∀ {n : Int} {a b : List TEv}, Brks G n a → Brks G (n + net a) b →
    Brks G n (a ++ b)
  | n, [], b, _, h => by simpa [net] using h
  | n, .brk t bl :: a, b, h1, h2 => ⟨h1.1, h1.2.append h2⟩
  | n, .indent :: a, b, h1, h2 => by
    refine Brks.append (a := a) (n := n + 1) h1 ?_
    have : n + net (.indent :: a) = n + 1 + net a := by simp only [net]; omega
    rwa [this] at h2
  | n, .dedent :: a, b, h1, h2 => by
    refine Brks.append (a := a) (n := n - 1) h1 ?_
    have : n + net (.dedent :: a) = n - 1 + net a := by simp only [net]; omega
    rwa [this] at h2
  | n, .tok t :: a, b, h1, h2 => Brks.append (a := a) (n := n) h1 h2
  | n, .space :: a, b, h1, h2 => Brks.append (a := a) (n := n) h1 h2

theorem Brks.ind {G : Int → Token → Prop} {es : List TEv} (h : ∀ e ∈ es, e.ind = true) : ∀ (n : Int), Brks G n es := by
  induction es with
  | nil => intro n; trivial
  | cons e es ih =>
    have ih := ih fun e he => h e (List.mem_cons_of_mem _ he)
    have he := h e List.mem_cons_self
    intro n
    cases e with
    | indent => exact ih (n + 1)
    | dedent => exact ih (n - 1)
    | _ => cases he

/-- The decisions have the property. -/
theorem Walk.brks {G : Int → Token → Prop} {u v : WSt} {es : List TEv} {ds : List (Dec × Token)} (h : Walk u es ds v) :
    Brks G u.n es → (∀ (b : Blank) (n : Nat) (t : Token) (rest : List Token), u.d = .brk b n → u.todo = t :: rest → G n t) →
    ∀ (b : Blank) (n : Nat) (x : Token), (.brk b n, x) ∈ ds → G n x := by
  induction h with
  | nil => intro _ _ b n x hx; cases hx
  | @tok k d n t todo es ds w h ih =>
    intro hb hd b n' x hx
    rcases List.mem_cons.1 hx with hx | hx
    · cases hx; exact hd b n' _ _ rfl rfl
    · exact ih hb (fun _ _ _ _ h => by cases h) b n' x hx
  | space h ih => intro hb hd; exact ih hb (fun _ _ _ _ h => by cases h)
  | indent hk h ih => intro hb hd; exact ih (by simpa [Brks] using hb) hd
  | @dedent k d n todo es ds w hk h ih =>
    intro hb hd
    refine ih ?_ hd
    simp only [Brks] at hb
    have : (((n + 1 : Nat) : Int) - 1) = n := by omega
    rwa [this] at hb
  | brk h ih =>
    intro hb hd
    refine ih hb.2 ?_
    intro b n t rest h1 h2
    cases h1
    cases h2
    exact hb.1

/-- The known conditions are right: before the child is printed with `q0` and `pr0`. -/
def EvOK (ev : Bool → Sg → FCond → Option Bool) (cx : Ctx) (q0 : Option Token) (pr0 : SK) : Prop :=
  ∀ {e σ r q c b v}, (e = false → q = q0 ∧ r.prevRule = pr0) → σ.Rel r → ev e σ c = some b →
    evalFC cx r (fsOf q) c = .ok v → v = b

theorem evK_ok {k : SK} {p : Option Sym} {e0 : SEnv} {cx : Ctx} {r0 : Regs} {q0 : Option Token} (hA : Agree k p cx r0 q0)
    (hT : TreeOK e0 cx) : EvOK (evK k p e0) cx q0 r0.prevRule := by
  intro e σ r q c b v he hr h1 h2
  simp only [evK] at h1
  split at h1
  · exact lvC_sound hT hr h2 h1
  · rename_i h
    obtain ⟨rfl, h3⟩ := he (by simpa using h)
    split at h1
    · rename_i b' hk
      cases h1
      have hA' : Agree k p cx r q := ⟨hA.tok, hA.node, hA.first, fun h => h3 ▸ hA.rule h, fun h => h3 ▸ hA.rules h, hA.idx⟩
      exact known_sound hA' (fun y hy => by cases hy; exact hr.x.symm) hk h2
    · exact lvC_sound hT hr h2 h1

structure SiteRun (ev : Bool → Sg → FCond → Option Bool) (k : SK) (c : Tree) (G : Int → Token → Prop) (okC : Sg → Bool)
    (W w0 : Bool) (L0 : Int) (q0 : Option Token) (pr0 : SK) (cmd : FCmd) (r' : Regs) (q : Option Token) (es : List TEv) (e e' : Bool) (σ : Sg) : Prop where
  mono : e = true → e' = true
  still : e' = false → lastT q es = q0 ∧ r'.prevRule = pr0
  state : ∃ σ' ∈ lvG ev c.sym e cmd σ, σ'.Rel r' ∧ σ'.w0 = σ.w0 ∧
    net es = σ'.d - σ.d + (if e' && !e then leakAt k c else 0)
  brks : Brks G (L0 + (if e then leakAt k c else 0) + σ.d) es
  call : e = false → e' = true → ∀ fn, c.sym = .n fn → ∃ x y z a w σ', es = x ++ y ++ z ∧ toks x = [] ∧
    a.w = (chainChild k c.sym && W) ∧ subOf c fn a q0 = .ok (w, y) ∧ okC σ' = true ∧ σ'.w = W ∧ σ'.w0 = w0 ∧
    net x = σ'.d - σ.d

theorem sites_sound {ev : Bool → Sg → FCond → Option Bool} {k : SK} {cx : Ctx} {c : Tree} {G : Int → Token → Prop}
    {W w0 : Bool} {L0 : Int} {okC okN : Sg → Bool} {q0 : Option Token} {pr0 : SK} (hev : EvOK ev cx q0 pr0)
    (hc : cx.cur = some c) (hs : NetOK c)
    (hp : ∀ fn a q w es, c.sym = .n fn → subOf c fn a q = .ok (w, es) → toks es = c.leaves)
    (hC : ∀ σ r, okC σ = true → σ.Rel r → r.w = W → σ.w0 = w0 → (∀ t, cx.target .cur = .ok t → G (L0 + σ.d) t) ∧
      ∀ fn a w es, c.sym = .n fn → a.w = (chainChild k c.sym && W) → subOf c fn a q0 = .ok (w, es) → Brks G (L0 + σ.d) es)
    (hN : ∀ σ r, okN σ = true → σ.Rel r → r.w = W → σ.w0 = w0 → ∀ t, cx.target .next = .ok t → G (L0 + leakAt k c + σ.d) t) :
    ∀ {cmd : FCmd} {r r' : Regs} {q : Option Token} {es : List TEv} {e e' : Bool} {σ : Sg},
    callsOk k cmd = true → wFirst k cmd = true → once c.sym cmd e = some e' → σ.Rel r → σ.w0 = w0 → (hasSites cmd = true → r'.w = W) →
    (e = false → q = q0 ∧ r.prevRule = pr0) → sites ev c.sym okC okN e cmd σ = true →
    trF (subOf c) cx cmd r q = .ok (r', es) → SiteRun ev k c G okC W w0 L0 q0 pr0 cmd r' q es e e' σ := by
  intro cmd
  induction cmd with
  | seq a b ih1 ih2 =>
    intro r r' q es e e' σ hk hwf ho hr hw0 hW hq hS h
    simp only [callsOk, wFirst, hasSites, sites, Bool.and_eq_true, Bool.or_eq_true, Bool.not_eq_true'] at hk hwf hW hS
    obtain ⟨⟨r1, e1⟩, h1, h⟩ := Res.bind_eq_ok.1 h
    obtain ⟨⟨r2, e2⟩, h2, h⟩ := Res.bind_eq_ok.1 h
    cases h
    simp only [once, Option.bind_eq_some_iff] at ho
    obtain ⟨em, o1, o2⟩ := ho
    have hem : (once c.sym a e).getD e = em := by rw [o1]; rfl
    rw [hem] at hS
    have R1 := ih1 hk.1 hwf.1.1 o1 hr hw0 (by
      intro hA
      rw [← hW (.inl hA)]
      rcases hwf.2 with h | h
      · rw [hA] at h; cases h
      · exact (keepsW_sound h h2).symm) hq hS.1 h1
    obtain ⟨σ1, m1, p1, p3, p4⟩ := R1.state
    have R2 := ih2 hk.2 hwf.1.2 o2 p1 (p3.trans hw0) (fun hB => hW (.inr hB)) R1.still (List.all_eq_true.1 hS.2 σ1 m1) h2
    obtain ⟨σ2, m2, q1, q3, q4⟩ := R2.state
    refine ⟨fun he => R2.mono (R1.mono he), ?_, ⟨σ2, ?_, q1, by rw [q3, p3], ?_⟩, ?_, ?_⟩
    · intro he
      rw [lastT_append]
      exact R2.still he
    · simp only [lvG, hem]
      exact List.mem_flatMap.2 ⟨σ1, m1, m2⟩
    · rw [net_append, p4, q4]
      have i1 := R1.mono
      have j1 := R2.mono
      generalize leakAt k c = l
      clear R1 R2 p4 q4 ih1 ih2 h1 h2 hC hN
      cases e <;> cases em <;> cases e' <;> simp at i1 j1 ⊢ <;> omega
    · refine R1.brks.append ?_
      have := R2.brks
      have i1 := R1.mono
      rw [p4]
      have hl : L0 + ↑(if em = true then leakAt k c else 0) + σ1.d = L0 + ↑(if e = true then leakAt k c else 0) + σ.d +
          (σ1.d - σ.d + ↑(if (em && !e) = true then leakAt k c else 0)) := by
        generalize leakAt k c = l
        clear R1 R2 p4 q4 ih1 ih2 h1 h2 hC hN this
        cases e <;> cases em <;> simp at i1 ⊢ <;> omega
      rwa [hl] at this
    · intro he he' fn hfn
      cases em with
      | true =>
        obtain ⟨x, y, z, a, w, σ', c1, c2, c3, c4, c5, c6, c7, c8⟩ := R1.call he rfl fn hfn
        exact ⟨x, y, z ++ e2, a, w, σ', by simp [c1], c2, c3, c4, c5, c6, c7, c8⟩
      | false =>
        obtain ⟨x, y, z, a, w, σ', c1, c2, c3, c4, c5, c6, c7, c8⟩ := R2.call rfl he' fn hfn
        refine ⟨e1 ++ x, y, z, a, w, σ', by simp [c1], ?_, c3, c4, c5, c6, c7, ?_⟩
        · have := (once_toks (c := c) hc hp o1 h1).2
          rw [toks_append, c2, this]
          simp
        · rw [net_append, c8, p4]
          simp
          omega
  | ite g a b ih1 ih2 =>
    intro r r' q es e e' σ hk hwf ho hr hw0 hW hq hS h
    simp only [callsOk, wFirst, hasSites, Bool.and_eq_true, Bool.or_eq_true] at hk hwf hW
    simp only [once] at ho
    obtain ⟨t, h1, h⟩ := Res.bind_eq_ok.1 h
    split at ho
    · rename_i heq
      have hSt : sites ev c.sym okC okN e (if t then a else b) σ = true := by
        simp only [sites] at hS
        split at hS
        · rename_i hl
          have := hev hq hr hl h1
          subst this
          exact hS
        · rename_i hl
          have := hev hq hr hl h1
          subst this
          exact hS
        · simp only [Bool.and_eq_true] at hS
          cases t
          · exact hS.2
          · exact hS.1
      have key : SiteRun ev k c G okC W w0 L0 q0 pr0 (if t then a else b) r' q es e e' σ := by
        cases t
        · exact ih2 hk.2 hwf.2 (heq ▸ ho) hr hw0 (fun hb => hW (.inr hb)) hq hSt h
        · exact ih1 hk.1 hwf.1 ho hr hw0 (fun hb => hW (.inl hb)) hq hSt h
      refine ⟨key.mono, key.still, ?_, key.brks, key.call⟩
      obtain ⟨σ', m1, rest⟩ := key.state
      refine ⟨σ', ?_, rest⟩
      simp only [lvG]
      split
      · rename_i hl
        have := hev hq hr hl h1
        subst this
        exact m1
      · rename_i hl
        have := hev hq hr hl h1
        subst this
        exact m1
      · cases t
        · exact List.mem_append_right _ m1
        · exact List.mem_append_left _ m1
    · cases ho
  | call fn m w o keep =>
    intro r r' q es e e' σ hk hwf ho hr hw0 hW hq hS h
    have ho' := ho
    have h' := h
    simp only [once] at ho
    split at ho
    · rename_i hsym
      split at ho
      · cases ho
      · rename_i he
        cases ho
        have he : e = false := by simpa using he
        subst he
        obtain ⟨rfl, hpr⟩ := hq rfl
        simp only [sites, Bool.not_false, Bool.true_and] at hS
        simp only [wFirst, Bool.and_eq_true, Bool.not_eq_true', beq_iff_eq] at hwf
        obtain ⟨⟨rfl, rfl⟩, hch⟩ := hwf
        obtain ⟨m', h1, h⟩ := Res.bind_eq_ok.1 h
        obtain ⟨w', h2, h⟩ := Res.bind_eq_ok.1 h
        obtain ⟨o', h3, h⟩ := Res.bind_eq_ok.1 h
        obtain ⟨⟨y, ee⟩, h4, h⟩ := Res.bind_eq_ok.1 h
        cases h
        cases h2
        have hB := (hC σ r hS hr (hW rfl) hw0).2 fn _ _ _ hsym (by rw [hsym, hch]; rfl) h4
        obtain ⟨_, σ', m1, p1, p2, p3, p4⟩ := lv_sound (e0 := ⟨none, none, none, .LParen, .RParen, none, none⟩)
          ⟨fun _ h => (by cases h), fun _ h => (by cases h), fun _ h => (by cases h), fun _ h => (by cases h), fun _ h => (by cases h)⟩
          hc hs hk ho' hr h'
        simp only [lv, Bool.false_eq_true, if_false, List.mem_singleton] at m1
        subst m1
        refine ⟨by simp, by simp, ⟨σ', by simp [lvG], p1, rfl, p4⟩, by simpa using hB, ?_⟩
        intro _ _ fn' hfn
        rw [hsym] at hfn
        cases hfn
        exact ⟨[], es, [], ⟨m', false, o'⟩, _, σ', by simp, rfl, by rw [hsym, hch]; rfl, h4, hS, by rw [hr.w]; exact hW rfl, hw0, by simp [net]⟩
    · cases ho
  | skip =>
    intro r r' q es e e' σ hk hwf ho hr hw0 hW hq hS h; cases h; cases ho
    exact ⟨id, hq, ⟨σ, by simp [lvG], hr, rfl, by simp [net]⟩, trivial, fun h1 h2 => (by rw [h1] at h2; cases h2)⟩
  | space =>
    intro r r' q es e e' σ hk hwf ho hr hw0 hW hq hS h; cases h; cases ho
    exact ⟨id, hq, ⟨σ, by simp [lvG], hr, rfl, by simp [net]⟩, trivial, fun h1 h2 => (by rw [h1] at h2; cases h2)⟩
  | indent =>
    intro r r' q es e e' σ hk hwf ho hr hw0 hW hq hS h; cases h; cases ho
    exact ⟨id, hq, ⟨{ σ with d := σ.d + 1 }, by simp [lvG], ⟨hr.m, hr.w, hr.o, hr.c, hr.x⟩, rfl, by simp [net]; omega⟩, trivial, fun h1 h2 => (by rw [h1] at h2; cases h2)⟩
  | dedent =>
    intro r r' q es e e' σ hk hwf ho hr hw0 hW hq hS h; cases h; cases ho
    exact ⟨id, hq, ⟨{ σ with d := σ.d - 1 }, by simp [lvG], ⟨hr.m, hr.w, hr.o, hr.c, hr.x⟩, rfl, by simp [net]; omega⟩, trivial, fun h1 h2 => (by rw [h1] at h2; cases h2)⟩
  | tok =>
    intro r r' q es e e' σ hk hwf ho hr hw0 hW hq hS h
    simp only [trF, hc] at h
    split at h
    · rename_i t ht
      cases h
      cases ht
      simp only [once, Tree.sym] at ho
      split at ho
      · cases ho
      · rename_i he
        cases ho
        exact ⟨by simp, by simp, ⟨σ, by simp [lvG], hr, rfl, by simp [net, leakAt, Tree.leaks, Tree.wraps]⟩, trivial, fun _ _ _ h => (by cases h)⟩
    · cases h
  | brk tg b =>
    intro r r' q es e e' σ hk hwf ho hr hw0 hW hq hS h
    obtain ⟨t, g1, h⟩ := Res.bind_eq_ok.1 h
    cases h; cases ho
    refine ⟨id, hq, ⟨σ, by simp [lvG], hr, rfl, by simp [net]⟩, ⟨?_, trivial⟩, fun h1 h2 => (by rw [h1] at h2; cases h2)⟩
    cases tg with
    | cur =>
      simp only [sites, Bool.and_eq_true, Bool.not_eq_true'] at hS
      rw [hS.1]
      simpa using (hC σ r hS.2 hr (hW rfl) hw0).1 t g1
    | next =>
      simp only [sites, Bool.and_eq_true] at hS
      rw [hS.1]
      simpa using hN σ r hS.2 hr (hW rfl) hw0 t g1
  | bos g tg =>
    intro r r' q es e e' σ hk hwf ho hr hw0 hW hq hS h
    obtain ⟨b, g1, h⟩ := Res.bind_eq_ok.1 h
    obtain ⟨t, g2, h⟩ := Res.bind_eq_ok.1 h
    cases h; cases ho
    refine ⟨id, ?_, ⟨σ, by simp [lvG], hr, rfl, by cases b <;> simp [net]⟩, ?_, fun h1 h2 => (by rw [h1] at h2; cases h2)⟩
    · cases b <;> exact hq
    · cases b with
      | false => trivial
      | true =>
        refine ⟨?_, trivial⟩
        cases tg with
        | cur =>
          simp only [sites, Bool.and_eq_true, Bool.not_eq_true'] at hS
          rw [hS.1]
          simpa using (hC σ r hS.2 hr (hW rfl) hw0).1 t g2
        | next =>
          simp only [sites, Bool.and_eq_true] at hS
          rw [hS.1]
          simpa using hN σ r hS.2 hr (hW rfl) hw0 t g2
  | set v g =>
    intro r r' q es e e' σ hk hwf ho hr hw0 hW hq hS h
    obtain ⟨b, h1, h⟩ := Res.bind_eq_ok.1 h
    cases h; cases ho
    have hsw : ∀ b, (σ.set b v).w0 = σ.w0 := by intro b; cases v <;> rfl
    have hsd : ∀ b, (σ.set b v).d = σ.d := by intro b; cases v <;> rfl
    refine ⟨id, ?_, ⟨σ.set b v, ?_, hr.set b v, hsw b, by simp [net, hsd]⟩, trivial, fun h1 h2 => (by rw [h1] at h2; cases h2)⟩
    · intro he
      exact ⟨(hq he).1, by rw [← (hq he).2]; cases v <;> rfl⟩
    · simp only [lvG]
      split
      · rename_i b' hl
        have := hev hq hr hl h1
        subst this
        exact List.mem_singleton.2 rfl
      · cases b <;> simp
  | setPrevRule =>
    intro r r' q es e e' σ hk hwf ho hr hw0 hW hq hS h
    have hS : e = true := hS
    simp only [trF] at h
    split at h
    · cases h; cases ho
      exact ⟨id, by simp [hS], ⟨σ, by simp [lvG], ⟨hr.m, hr.w, hr.o, hr.c, hr.x⟩, rfl, by simp [net]⟩, trivial, fun h1 h2 => (by rw [h1] at h2; cases h2)⟩
    · cases h
  | unreachable => intro r r' q es e e' σ hk hwf ho hr hw0 hW hq hS h; cases h

end Mofmt
