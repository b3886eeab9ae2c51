import Verif.Proofs.Operators
/-
Line breaks that do not depend on the source.
-/
namespace Mofmt

/-! ### What is known about the tokens and local variables before a child -/

/-- the last tokens of some productions -/
def lastToks : SK → Option (List Tok)
  | .ElementList => some [.Semicolon]
  | .EquationSection => some [.Semicolon, .Equation]
  | .AlgorithmSection => some [.Semicolon, .Algorithm]
  | .LanguageSpecification => some [.String]
  | .DescriptionString => some [.String]
  | .ExternalFunctionCall => some [.RParen]
  | .ClassModification => some [.RParen]
  | _ => none

/-- the tokens before a composition -/
def beforeComposition : List Tok := [.Identifier, .String, .RParen]

/-- a condition, as far as it is known; `p`: the child before, `x`: the variable -/
def known (k : SK) (p : Option Sym) : FCond → Option Bool → Option Bool
  | .false, _ => some false
  | .reg .x, x => x
  | .prevTok t, _ => match p with
    | some (.t j) => some (decide (j = t))
    | some (.n j) => match lastToks j with
      | some l => if t ∈ l then (if l = [t] then some true else none) else some false
      | none => none
    | none => if k = .Composition ∧ t ∉ beforeComposition then some false else none
  | .prevRuleIn ks, _ => if k = .Composition then match p with
      | some (.n j) => some (ks.contains j)
      | some (.t .Public) | some (.t .Protected) | none =>
        if ks.contains .Error || ks.contains .ElementList || ks.contains .EquationSection || ks.contains .AlgorithmSection
        then none else some false
      | _ => none
    else none
  | .idxGt 0, _ => some p.isSome
  | .not a, x => (known k p a x).map (!·)
  | .and a b, x => match known k p a x, known k p b x with
    | some false, _ => some false
    | _, some false => some false
    | some true, some true => some true
    | _, _ => none
  | .or a b, x => match known k p a x, known k p b x with
    | some true, _ => some true
    | some false, y => y
    | _, _ => none
  | _, _ => none

structure Agree (k : SK) (p : Option Sym) (cx : Ctx) (r : Regs) (q : Option Token) : Prop where
  tok : ∀ j, p = some (.t j) → kindOf q = j
  node : ∀ j l, p = some (.n j) → lastToks j = some l → kindOf q ∈ l
  first : p = none → k = .Composition → kindOf q ∈ beforeComposition
  rule : k = .Composition → ∀ j, p = some (.n j) → r.prevRule = j
  rules : k = .Composition → p = none ∨ p = some (.t .Public) ∨ p = some (.t .Protected) →
    r.prevRule ∈ [SK.Error, .ElementList, .EquationSection, .AlgorithmSection]
  idx : cx.idx > 0 ↔ p.isSome = true

theorem known_sound {k : SK} {p : Option Sym} {cx : Ctx} {r : Regs} {q : Option Token} (h : Agree k p cx r q) :
    ∀ {c : FCond} {x : Option Bool} {b v : Bool}, (∀ y, x = some y → r.x = y) → known k p c x = some b →
    evalFC cx r (fsOf q) c = .ok v → v = b := by
  intro c
  induction c with
  | false => intro x b v hx hk he; cases hk; cases he; rfl
  | reg g =>
    intro x b v hx hk he
    cases g with
    | x => cases he; exact hx _ hk
    | _ => cases hk
  | prevTok t =>
    intro x b v hx hk he
    cases he
    simp only [known] at hk
    have hkq : (fsOf q).prevTok = kindOf q := rfl
    rw [hkq]
    split at hk
    · rename_i j
      cases hk
      rw [h.tok j rfl]
    · rename_i j
      split at hk
      · rename_i l hl
        have hm := h.node j l rfl hl
        split at hk
        · split at hk
          · rename_i hl'
            subst hl'
            cases hk
            simpa using hm
          · cases hk
        · rename_i hn
          cases hk
          simp only [decide_eq_false_iff_not]
          intro he
          exact hn (he ▸ hm)
      · cases hk
    · split at hk
      · rename_i hc
        cases hk
        simp only [decide_eq_false_iff_not]
        intro he
        exact hc.2 (he ▸ h.first rfl hc.1)
      · cases hk
  | prevRuleIn ks =>
    intro x b v hx hk he
    cases he
    simp only [known] at hk
    have aux : p = none ∨ p = some (.t .Public) ∨ p = some (.t .Protected) → k = .Composition →
        (if ks.contains .Error || ks.contains .ElementList || ks.contains .EquationSection || ks.contains .AlgorithmSection
        then none else some false) = some b → ks.contains r.prevRule = b := by
      intro hp hc hk
      have hm := h.rules hc hp
      split at hk
      · cases hk
      · rename_i hn
        simp only [Bool.or_eq_true, not_or, Bool.not_eq_true] at hn
        cases hk
        simp only [List.mem_cons, List.not_mem_nil, or_false] at hm
        rcases hm with hm | hm | hm | hm <;> rw [hm]
        · exact hn.1.1.1
        · exact hn.1.1.2
        · exact hn.1.2
        · exact hn.2
    split at hk
    · rename_i hc
      split at hk
      · rename_i j
        cases hk
        rw [h.rule hc j rfl]
      · exact aux (.inr (.inl rfl)) hc hk
      · exact aux (.inr (.inr rfl)) hc hk
      · exact aux (.inl rfl) hc hk
      · cases hk
    · cases hk
  | idxGt n =>
    intro x b v hx hk he
    cases he
    cases n with
    | zero =>
      cases hk
      have := h.idx
      cases hp : p.isSome
      · simp only [hp] at this; simpa using this
      · simp only [hp] at this; simpa using this
    | succ n => cases hk
  | not a ih =>
    intro x b v hx hk he
    simp only [known, Option.map_eq_some_iff] at hk
    obtain ⟨y, h1, rfl⟩ := hk
    simp only [evalFC] at he
    obtain ⟨z, h2, he⟩ := Res.bind_eq_ok.1 he
    cases he
    rw [ih hx h1 h2]
  | and a b iha ihb =>
    intro x y v hx hk he
    simp only [evalFC] at he
    obtain ⟨z, h2, he⟩ := Res.bind_eq_ok.1 he
    simp only [known] at hk
    split at hk
    · rename_i ha
      cases hk
      have := iha hx ha h2
      subst this
      cases he
      rfl
    · rename_i hb _
      cases hk
      cases z
      · cases he; rfl
      · exact ihb hx hb he
    · rename_i ha hb
      cases hk
      have := iha hx ha h2
      subst this
      exact ihb hx hb he
    · cases hk
  | or a b iha ihb =>
    intro x y v hx hk he
    simp only [evalFC] at he
    obtain ⟨z, h2, he⟩ := Res.bind_eq_ok.1 he
    simp only [known] at hk
    split at hk
    · rename_i ha
      cases hk
      have := iha hx ha h2
      subst this
      cases he
      rfl
    · rename_i ha
      have := iha hx ha h2
      subst this
      exact ihb hx hk he
    · cases hk
  | _ => intro x b v hx hk he; cases hk

/-! ### The first event of an arm -/

/-- the first event, if it is a break before the current child; `none`: no event except changes of indentation -/
def lead (k : SK) (p : Option Sym) : FCmd → Option Bool → Option (Option Blank × Option Bool)
  | .skip, x => some (none, x)
  | .seq a b, x => match lead k p a x with
    | none => none
    | some (some bl, x') => some (some bl, x')
    | some (none, x') => lead k p b x'
  | .ite c a b, x => match known k p c x with
    | some true => lead k p a x
    | some false => lead k p b x
    | none => none
  | .indent, x => some (none, x)
  | .dedent, x => some (none, x)
  | .brk .cur b, x => some (some b, x)
  | .set .x c, x => some (none, known k p c x)
  | _, _ => none

theorem lead_sound {sub : SK → Args → Option Token → Res (Bool × List TEv)} {k : SK} {p : Option Sym} {cx : Ctx} :
    ∀ {cmd : FCmd} {r r' : Regs} {q : Option Token} {es : List TEv} {x x' : Option Bool} {res : Option Blank},
    Agree k p cx r q → (∀ y, x = some y → r.x = y) → lead k p cmd x = some (res, x') →
    trF sub cx cmd r q = .ok (r', es) →
    (∀ b, res = some b → ∃ i t z, es = i ++ .brk t b :: z ∧ (∀ e ∈ i, e.ind = true) ∧ cx.target .cur = .ok t) ∧
    (res = none → (∀ e ∈ es, e.ind = true) ∧ (∀ y, x' = some y → r'.x = y) ∧ r'.prevRule = r.prevRule) := by
  intro cmd
  induction cmd with
  | skip =>
    intro r r' q es x x' res hA hx hl h
    cases hl; cases h
    exact ⟨fun b hb => (by cases hb), fun _ => ⟨by simp, hx, rfl⟩⟩
  | seq a b iha ihb =>
    intro r r' q es x x' res hA hx hl h
    obtain ⟨⟨r1, e1⟩, h1, h⟩ := Res.bind_eq_ok.1 h
    obtain ⟨⟨r2, e2⟩, h2, h⟩ := Res.bind_eq_ok.1 h
    cases h
    simp only [lead] at hl
    split at hl
    · cases hl
    · rename_i bl y hy
      cases hl
      refine ⟨fun b hb => ?_, fun hb => (by cases hb)⟩
      obtain ⟨i, t, z, g1, g2, g3⟩ := (iha hA hx hy h1).1 b hb
      exact ⟨i, t, z ++ e2, by simp [g1], g2, g3⟩
    · rename_i y hy
      obtain ⟨g1, g2, g3⟩ := (iha hA hx hy h1).2 rfl
      have hq : lastT q e1 = q := ind_lastT g1 q
      rw [hq] at h2
      have hA' : Agree k p cx r1 q := ⟨hA.tok, hA.node, hA.first, fun h => g3 ▸ hA.rule h, fun h => g3 ▸ hA.rules h, hA.idx⟩
      obtain ⟨k1, k2⟩ := ihb hA' g2 hl h2
      refine ⟨fun b hb => ?_, fun hb => ?_⟩
      · obtain ⟨i, t, z, m1, m2, m3⟩ := k1 b hb
        refine ⟨e1 ++ i, t, z, by simp [m1], ?_, m3⟩
        intro e he
        rcases List.mem_append.mp he with he | he
        · exact g1 e he
        · exact m2 e he
      · obtain ⟨m1, m2, m3⟩ := k2 hb
        refine ⟨?_, m2, m3.trans g3⟩
        intro e he
        rcases List.mem_append.mp he with he | he
        · exact g1 e he
        · exact m1 e he
  | ite c a b iha ihb =>
    intro r r' q es x x' res hA hx hl h
    obtain ⟨t, h1, h⟩ := Res.bind_eq_ok.1 h
    simp only [lead] at hl
    split at hl
    · rename_i hk
      have := known_sound hA hx hk h1
      subst this
      exact iha hA hx hl h
    · rename_i hk
      have := known_sound hA hx hk h1
      subst this
      exact ihb hA hx hl h
    · cases hl
  | indent =>
    intro r r' q es x x' res hA hx hl h
    cases hl; cases h
    exact ⟨fun b hb => (by cases hb), fun _ => ⟨by simp [TEv.ind], hx, rfl⟩⟩
  | dedent =>
    intro r r' q es x x' res hA hx hl h
    cases hl; cases h
    exact ⟨fun b hb => (by cases hb), fun _ => ⟨by simp [TEv.ind], hx, rfl⟩⟩
  | brk tg bl =>
    intro r r' q es x x' res hA hx hl h
    cases tg with
    | next => cases hl
    | cur =>
      cases hl
      obtain ⟨t, h1, h⟩ := Res.bind_eq_ok.1 h
      cases h
      refine ⟨fun b hb => ?_, fun hb => (by cases hb)⟩
      cases hb
      exact ⟨[], t, [], rfl, by simp, h1⟩
  | set g c =>
    intro r r' q es x x' res hA hx hl h
    cases g with
    | x =>
      cases hl
      obtain ⟨t, h1, h⟩ := Res.bind_eq_ok.1 h
      cases h
      refine ⟨fun b hb => (by cases hb), fun _ => ⟨by simp, ?_, rfl⟩⟩
      intro y hy
      exact known_sound hA hx hy h1
    | _ => cases hl
  | _ => intro r r' q es x x' res hA hx hl h; cases hl

/-- the table agrees with the arm -/
def rowOk (k : SK) (p : Option Sym) (s : Sym) : Bool :=
  breakBefore k p s == none || (lead k p (upCmd (Fmt.body k) s) none).map (·.1) == some (breakBefore k p s)

theorem rows_first : ∀ k, ∀ s ∈ (Gram.spec k).first, rowOk k none s = true := by
  intro k; cases k <;> decide +kernel

theorem rows_next : ∀ k, checkG (adjStep fun a b => rowOk k (some a) b) (fun st => st.2) (Gram.spec k) (none, true) = true := by
  intro k; cases k <;> decide +kernel

/-- the child before -/
def prevSym (pre : List Tree) : Option Sym := pre.getLast?.map Tree.sym

theorem rows_ok {k : SK} {pre : List Tree} {c : Tree} {post : List Tree}
    (hC : Tree.Conforms (.node k (pre ++ c :: post))) : rowOk k (prevSym pre) c.sym = true := by
  rcases List.eq_nil_or_concat pre with rfl | ⟨pre', d, rfl⟩
  · have := hC.1
    exact rows_first k _ (first_complete (by simpa using this))
  · have := checkG_sound (rows_next k) hC.1
    rw [List.concat_eq_append] at this ⊢
    simp only [List.map_append, List.map_cons, List.map_nil, List.append_assoc, List.singleton_append] at this
    have := adj_pair this
    simpa [prevSym] using this

end Mofmt
