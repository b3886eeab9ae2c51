import Verif.Proofs.GapTable
import Verif.Proofs.LevelRun
/-
The layout of every production: the abstract execution of an arm is right.
-/
namespace Mofmt

def TEv.shape : TEv → Option AE
  | .tok _ => none
  | .space => some .sp
  | .indent => some .ind
  | .dedent => some .ded
  | .brk _ b => some (.brk b)

theorem shape_toks : ∀ {es : List TEv} {l : List AE}, es.map TEv.shape = l.map some → toks es = []
  | [], _, _ => rfl
  | e :: es, [], h => by cases h
  | e :: es, a :: l, h => by
    simp only [List.map_cons, List.cons.injEq] at h
    cases e with
    | tok t => cases h.1
    | _ => simpa only [toks] using shape_toks h.2

/-- the token or call -/
def CoreOf (c : Tree) (q0 : Option Token) (co : Core) (y : List TEv) : Prop := match c with
  | .tok t => y = [.tok t]
  | .node k _ => ∃ o w', subOf c k ⟨co.m, co.w, o⟩ q0 = .ok (w', y)

structure Sim (c : Tree) (q0 : Option Token) (pr0 : SK) (σ0 : Sg) (s : XS) (es : List TEv) (r : Regs) : Prop where
  rel : s.lost = false → s.σ.Rel r
  w0 : s.σ.w0 = σ0.w0
  start : s.core = none → es.map TEv.shape = s.lead.map some ∧ s.trail = [] ∧ r.prevRule = pr0 ∧ s.σ.d = σ0.d + net es
  done : ∀ co, s.core = some co → ∃ x y z, es = x ++ y ++ z ∧ x.map TEv.shape = s.lead.map some ∧
    z.map TEv.shape = s.trail.map some ∧ CoreOf c q0 co y ∧ co.σ.d = σ0.d + net x ∧ co.σ.w0 = σ0.w0

theorem Sim.known {c : Tree} {q0 : Option Token} {pr0 : SK} {σ0 : Sg} {s : XS} {es : List TEv} {r : Regs}
    (h : Sim c q0 pr0 σ0 s es r) : s.core.isSome = false → lastT q0 es = q0 ∧ r.prevRule = pr0 := by
  intro hs
  have hn : s.core = none := by simpa using hs
  obtain ⟨h1, _, h3, _⟩ := h.start hn
  refine ⟨?_, h3⟩
  rw [lastT_eq, shape_toks h1]
  rfl

theorem XS.emit_core (s : XS) (a : AE) : (s.emit a).core = s.core := by
  unfold XS.emit; split <;> rfl

theorem Sim.emit {c : Tree} {q0 : Option Token} {pr0 : SK} {σ0 σ' : Sg} {s : XS} {es : List TEv} {r : Regs}
    (h : Sim c q0 pr0 σ0 s es r) (hl : s.lost = false) {e : TEv} {a : AE} (ha : e.shape = some a) (hd : σ'.d = s.σ.d + net [e]) (hw : σ'.w0 = s.σ.w0)
    (hr : s.σ.Rel r → σ'.Rel r) : Sim c q0 pr0 σ0 { s.emit a with σ := σ' } (es ++ [e]) r := by
  refine ⟨fun _ => hr (h.rel hl), hw.trans h.w0, ?_, ?_⟩
  · intro hn
    have hn : s.core = none := (s.emit_core a).symm.trans hn
    obtain ⟨h1, h2, h3, h4⟩ := h.start hn
    simp only [XS.emit, hn, Option.isSome_none, Bool.false_eq_true, if_false]
    refine ⟨by simp [h1, ha], h2, h3, ?_⟩
    simp only [net_append, hd, h4]
    omega
  · intro co hn
    have hn : s.core = some co := (s.emit_core a).symm.trans hn
    obtain ⟨x, y, z, h1, h2, h3, h4, h5⟩ := h.done co hn
    simp only [XS.emit, hn, Option.isSome_some, if_true]
    exact ⟨x, y, z ++ [e], by simp [h1], h2, by simp [h3, ha], h4, h5⟩

theorem exec_sound {E : XEnv} {cx : Ctx} {c : Tree} {q0 : Option Token} {pr0 : SK} {σ0 : Sg} (hev : EvOK (evX E) cx q0 pr0)
    (hc : cx.cur = some c) (hs : E.s = c.sym) : ∀ {cmd : FCmd} {s s' : XS} {r r' : Regs} {es e : List TEv},
    s.lost = false → Sim c q0 pr0 σ0 s es r → exec E cmd s = some s' →
    trF (subOf c) cx cmd r (lastT q0 es) = .ok (r', e) → Sim c q0 pr0 σ0 s' (es ++ e) r' := by
  intro cmd
  induction cmd with
  | skip =>
    intro s s' r r' es e hl h hx ht
    cases hx; cases ht
    simpa using h
  | seq a b iha ihb =>
    intro s s' r r' es e hl h hx ht
    obtain ⟨⟨r1, e1⟩, h1, ht⟩ := Res.bind_eq_ok.1 ht
    obtain ⟨⟨r2, e2⟩, h2, ht⟩ := Res.bind_eq_ok.1 ht
    cases ht
    simp only [exec, Option.bind_eq_some_iff] at hx
    obtain ⟨s1, x1, hx⟩ := hx
    split at hx
    · cases hx
    · rename_i hl1
      have S1 := iha hl h x1 h1
      have h2 : trF (subOf c) cx b r1 (lastT (lastT q0 es) e1) = .ok (r', e2) := h2
      rw [← lastT_append] at h2
      have := ihb (by simpa using hl1) S1 hx h2
      rwa [List.append_assoc] at this
  | ite g a b iha ihb =>
    intro s s' r r' es e hl h hx ht
    obtain ⟨t, h1, ht⟩ := Res.bind_eq_ok.1 ht
    simp only [exec] at hx
    split at hx
    · rename_i hk
      have := hev h.known (h.rel hl) hk h1
      subst this
      exact iha hl h hx ht
    · rename_i hk
      have := hev h.known (h.rel hl) hk h1
      subst this
      exact ihb hl h hx ht
    · cases hx
  | space =>
    intro s s' r r' es e hl h hx ht
    cases hx; cases ht
    exact h.emit (e := .space) (a := .sp) hl (σ' := s.σ) rfl (by simp [net]) rfl id |> fun h => by
      have he : ({ s.emit .sp with σ := s.σ } : XS) = s.emit .sp := by unfold XS.emit; split <;> rfl
      rwa [he] at h
  | indent =>
    intro s s' r r' es e hl h hx ht
    cases hx; cases ht
    exact h.emit hl rfl (by simp only [net]; omega) rfl fun hr => ⟨hr.m, hr.w, hr.o, hr.c, hr.x⟩
  | dedent =>
    intro s s' r r' es e hl h hx ht
    cases hx; cases ht
    exact h.emit hl rfl (by simp [net]; omega) rfl fun hr => ⟨hr.m, hr.w, hr.o, hr.c, hr.x⟩
  | tok =>
    intro s s' r r' es e hl h hx ht
    simp only [exec] at hx
    split at hx
    · cases hx
    · rename_i hn
      cases hx
      have hn : s.core = none := by simpa using hn
      simp only [trF, hc] at ht
      split at ht
      · rename_i t hct
        cases hct
        cases ht
        obtain ⟨h1, h2, h3, h4⟩ := h.start hn
        refine ⟨fun _ => h.rel hl, h.w0, fun hh => (by cases hh), ?_⟩
        intro co hco
        cases hco
        exact ⟨es, [.tok t], [], by simp, h1, by simp [h2], rfl, h4, h.w0⟩
      · cases ht
  | brk tg b =>
    intro s s' r r' es e hl h hx ht
    obtain ⟨t, h1, ht⟩ := Res.bind_eq_ok.1 ht
    cases hx; cases ht
    exact h.emit hl (e := .brk t b) (σ' := s.σ) rfl (by simp [net]) rfl id |> fun h => by
      have he : ({ s.emit (.brk b) with σ := s.σ } : XS) = s.emit (.brk b) := by unfold XS.emit; split <;> rfl
      rwa [he] at h
  | bos g tg =>
    intro s s' r r' es e hl h hx ht
    obtain ⟨b, h1, ht⟩ := Res.bind_eq_ok.1 ht
    obtain ⟨t, h2, ht⟩ := Res.bind_eq_ok.1 ht
    cases ht
    simp only [exec, Option.map_eq_some_iff] at hx
    obtain ⟨b', hk, rfl⟩ := hx
    have := hev h.known (h.rel hl) hk h1
    subst this
    have he : ∀ a, ({ s.emit a with σ := s.σ } : XS) = s.emit a := by intro a; unfold XS.emit; split <;> rfl
    cases b with
    | true =>
      have := h.emit hl (e := .brk t .Illegal) (σ' := s.σ) rfl (by simp [net]) rfl id
      rw [he] at this
      exact this
    | false =>
      have := h.emit hl (e := .space) (σ' := s.σ) rfl (by simp [net]) rfl id
      rw [he] at this
      exact this
  | call fn m w o keep =>
    intro s s' r r' es e hl h hx ht
    simp only [exec] at hx
    split at hx
    · cases hx
    · rename_i hn
      simp only [Bool.or_eq_true, not_or, Bool.not_eq_true, bne_eq_false_iff_eq] at hn
      obtain ⟨hn, hfn⟩ := hn
      have hn' : s.core = none := by simpa using hn
      split at hx
      · rename_i m1 w1 hm hw
        cases hx
        obtain ⟨m', h1, ht⟩ := Res.bind_eq_ok.1 ht
        obtain ⟨w', h2, ht⟩ := Res.bind_eq_ok.1 ht
        obtain ⟨o', h3, ht⟩ := Res.bind_eq_ok.1 ht
        obtain ⟨⟨y, ee⟩, h4, ht⟩ := Res.bind_eq_ok.1 ht
        have k1 := hev (e := false) (fun _ => h.known hn) (h.rel hl) hm h1
        have k2 := hev (e := false) (fun _ => h.known hn) (h.rel hl) hw h2
        subst k1 k2
        obtain ⟨g1, g2, g3, g4⟩ := h.start hn'
        refine ⟨?_, h.w0, fun hh => (by cases hh), ?_⟩
        · intro hk
          have hk : keep = false := hk
          subst hk
          cases ht
          exact h.rel hl
        · intro co hco
          cases hco
          cases ht
          refine ⟨es, e, [], by simp, g1, by simp [g2], ?_, g4, h.w0⟩
          rw [hs] at hfn
          cases c with
          | tok t => cases hfn
          | node k ds =>
            cases hfn
            rw [(h.known hn).1] at h4
            exact ⟨o', _, h4⟩
      · cases hx
  | set v g =>
    intro s s' r r' es e hl h hx ht
    obtain ⟨b, h1, ht⟩ := Res.bind_eq_ok.1 ht
    cases ht
    simp only [exec, Option.map_eq_some_iff] at hx
    obtain ⟨b', hk, rfl⟩ := hx
    have := hev h.known (h.rel hl) hk h1
    subst this
    have hsd : (s.σ.set b v).d = s.σ.d := by cases v <;> rfl
    have hsw : (s.σ.set b v).w0 = s.σ.w0 := by cases v <;> rfl
    refine ⟨fun _ => (h.rel hl).set b v, hsw.trans h.w0, ?_, ?_⟩
    · intro hn
      obtain ⟨g1, g2, g3, g4⟩ := h.start hn
      refine ⟨by simpa using g1, g2, ?_, by rw [hsd, g4]; simp⟩
      rw [← g3]
      cases v <;> rfl
    · intro co hn
      simpa using h.done co hn
  | setPrevRule =>
    intro s s' r r' es e hl h hx ht
    simp only [exec] at hx
    split at hx
    · rename_i hn
      cases hx
      simp only [trF] at ht
      split at ht
      · cases ht
        refine ⟨fun hh => ?_, h.w0, ?_, ?_⟩
        · have hr := h.rel hh
          exact ⟨hr.m, hr.w, hr.o, hr.c, hr.x⟩
        · intro hh
          rw [hh] at hn
          cases hn
        · intro co hco
          simpa using h.done co hco
      · cases ht
    · cases hx
  | unreachable => intro s s' r r' es e hl h hx ht; cases hx

/-! ### Gaps -/

theorem walk_inds {u v : WSt} {es : List TEv} {ds : List (Dec × Token)} (h : Walk u es ds v) {l : List AE}
    (hl : es.map TEv.shape = l.map some) (ha : l.all (fun e => e == .ind || e == .ded) = true) : ds = [] ∧ v.d = u.d := by
  refine h.ind ?_
  clear h
  induction es generalizing l with
  | nil => intro e he; cases he
  | cons e es ih =>
    cases l with
    | nil => cases hl
    | cons a l =>
      simp only [List.map_cons, List.cons.injEq] at hl
      simp only [List.all_cons, Bool.and_eq_true] at ha
      intro e' he'
      rcases List.mem_cons.1 he' with rfl | he'
      · cases e' with
        | indent => rfl
        | dedent => rfl
        | space => cases hl.1; exact absurd ha.1 (by decide)
        | brk t b => cases hl.1; exact absurd ha.1 (by simp)
        | tok t => cases hl.1
      · exact ih hl.2 ha.2 e' he'

/-- the decision pending after the events before or after a child -/
theorem walk_gap {l : List AE} : ∀ {u v : WSt} {es : List TEv} {ds : List (Dec × Token)} {g : Gap}, Walk u es ds v →
    es.map TEv.shape = l.map some → gapOf l = some g → ds = [] ∧ (g = .none ∨ u.d = .none) ∧ v.d = u.d.or (g.at v.n) := by
  induction l with
  | nil =>
    intro u v es ds g h hl hg
    cases hg
    cases es with
    | nil => cases h; exact ⟨rfl, .inl rfl, by cases u.d <;> rfl⟩
    | cons e es => cases hl
  | cons a l ih =>
    intro u v es ds g h hl hg
    cases es with
    | nil => cases hl
    | cons e es =>
      simp only [List.map_cons, List.cons.injEq] at hl
      cases a with
      | ind =>
        cases e <;> cases hl.1
        cases h with
        | indent hk h => have := ih h hl.2 hg; exact this
      | ded =>
        cases e <;> cases hl.1
        cases h with
        | dedent hk h => have := ih h hl.2 hg; exact this
      | sp =>
        cases e <;> cases hl.1
        simp only [gapOf] at hg
        split at hg
        · rename_i ha
          cases hg
          cases h with
          | space h =>
            obtain ⟨h1, h2⟩ := walk_inds h hl.2 ha
            exact ⟨h1, .inr rfl, h2⟩
        · cases hg
      | brk b =>
        cases l with
        | nil =>
          cases hg
          cases es with
          | cons _ _ => cases hl.2
          | nil =>
            cases e <;> cases hl.1
            cases h with
            | brk h => cases h; exact ⟨rfl, .inr rfl, rfl⟩
        | cons _ _ => cases hg

end Mofmt
