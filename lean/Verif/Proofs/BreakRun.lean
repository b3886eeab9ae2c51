import Verif.Proofs.BreakTable
/-
The line breaks of the table in the output.
-/
namespace Mofmt

/-! ### Last tokens -/

theorem fold_last (w : List Sym) : ∀ (i : Option Sym), w.foldl (fun _ s => some s) i = w.getLast?.or i := by
  induction w with
  | nil => intro i; simp
  | cons s w ih =>
    intro i
    rw [List.foldl_cons, ih]
    cases w with
    | nil => simp
    | cons t w =>
      rw [List.getLast?_cons_cons]
      cases h : (t :: w).getLast? with
      | none => simp at h
      | some z => simp

def lastFine (k : SK) : Option Sym → Bool
  | some (.t j) => ((lastToks k).getD []).contains j
  | some (.n _) => false
  | none => true

theorem last_fine : ∀ k, lastToks k = none ∨
    checkG (fun _ s => some s) (lastFine k) (Gram.spec k) none = true := by
  intro k; cases k <;> decide +kernel

theorem last_kind {j : SK} {cs : List Tree} (hC : Tree.Conforms (.node j cs)) (hE : Tree.hasEmpty (.node j cs) = false)
    {l : List Tok} (hl : lastToks j = some l) : ∃ t, (leavesF cs).getLast? = some t ∧ t.kind ∈ l := by
  have h := (last_fine j).resolve_left (by simp [hl])
  have h := checkG_sound h hC.1
  rw [fold_last] at h
  simp only [Tree.hasEmpty, Bool.or_eq_false_iff, List.isEmpty_eq_false_iff] at hE
  rcases List.eq_nil_or_concat cs with rfl | ⟨pre, d, rfl⟩
  · exact absurd rfl hE.1
  · rw [List.concat_eq_append] at h ⊢
    simp only [List.map_append, List.map_cons, List.map_nil, List.getLast?_concat, Option.some_or, lastFine] at h
    cases d with
    | node _ _ => simp [Tree.sym] at h
    | tok t =>
      simp only [Tree.sym, hl, Option.getD_some] at h
      exact ⟨t, by simp [leavesF_append, leavesF, Tree.leaves], by simpa using h⟩

/-! ### The variable `prev_rule` -/

def noRule : FCmd → Bool
  | .seq a b => noRule a && noRule b
  | .ite _ a b => noRule a && noRule b
  | .setPrevRule => false
  | _ => true

theorem noRule_keeps {sub : SK → Args → Option Token → Res (Bool × List TEv)} {cx : Ctx} : ∀ {cmd : FCmd} {r r' : Regs}
    {q : Option Token} {es : List TEv}, noRule cmd = true → trF sub cx cmd r q = .ok (r', es) → r'.prevRule = r.prevRule := by
  intro cmd
  induction cmd with
  | skip => intro r r' q es _ h; cases h; rfl
  | seq a b iha ihb =>
    intro r r' q es hn h
    simp only [noRule, Bool.and_eq_true] at hn
    obtain ⟨⟨r1, e1⟩, h1, h⟩ := Res.bind_eq_ok.1 h
    obtain ⟨⟨r2, e2⟩, h2, h⟩ := Res.bind_eq_ok.1 h
    cases h
    exact (ihb hn.2 h2).trans (iha hn.1 h1)
  | ite c a b iha ihb =>
    intro r r' q es hn h
    simp only [noRule, Bool.and_eq_true] at hn
    obtain ⟨t, h1, h⟩ := Res.bind_eq_ok.1 h
    cases t
    · exact ihb hn.2 h
    · exact iha hn.1 h
  | space => intro r r' q es _ h; cases h; rfl
  | indent => intro r r' q es _ h; cases h; rfl
  | dedent => intro r r' q es _ h; cases h; rfl
  | tok =>
    intro r r' q es _ h
    simp only [trF] at h
    split at h
    · cases h; rfl
    · cases h
  | brk t b =>
    intro r r' q es _ h
    obtain ⟨t, h1, h⟩ := Res.bind_eq_ok.1 h
    cases h; rfl
  | bos c t =>
    intro r r' q es _ h
    obtain ⟨t, h1, h⟩ := Res.bind_eq_ok.1 h
    obtain ⟨t', h2, h⟩ := Res.bind_eq_ok.1 h
    cases h; rfl
  | call fn m w o keep =>
    intro r r' q es _ h
    obtain ⟨m', h1, h⟩ := Res.bind_eq_ok.1 h
    obtain ⟨w', h2, h⟩ := Res.bind_eq_ok.1 h
    obtain ⟨o', h3, h⟩ := Res.bind_eq_ok.1 h
    obtain ⟨⟨x, ee⟩, h4, h⟩ := Res.bind_eq_ok.1 h
    cases h
    cases keep <;> rfl
  | set v c =>
    intro r r' q es _ h
    obtain ⟨t, h1, h⟩ := Res.bind_eq_ok.1 h
    cases h
    cases v <;> rfl
  | setPrevRule => intro r r' q es hn h; cases hn
  | unreachable => intro r r' q es _ h; cases h

/-- the kind of the last subtree -/
def ruleStep (k : SK) : Sym → SK
  | .n j => j
  | .t _ => k

def ruleOf (w : List Sym) : SK := w.foldl ruleStep .Error

theorem composition_arm (s : Sym) :
    match s with
    | .n _ => ∃ X, upCmd (Fmt.body .Composition) s = .seq X .setPrevRule
    | .t _ => noRule (upCmd (Fmt.body .Composition) s) = true := by
  cases s with
  | n j => exact ⟨_, rfl⟩
  | t j => cases j <;> rfl

theorem composition_rule {pre : List Tree} {all : List Tree} {r : Regs}
    (h : RegsBefore .Composition pre all r) : r.prevRule = ruleOf (pre.map Tree.sym) := by
  refine h (fun pre r => r.prevRule = ruleOf (pre.map Tree.sym)) ?_ ?_
  · intro a q r e h
    cases h
    rfl
  · intro pre d cx r r' q e hc ih h
    have ha := composition_arm d.sym
    simp only [List.map_append, List.map_cons, List.map_nil, ruleOf, List.foldl_append, List.foldl_cons, List.foldl_nil]
    cases d with
    | tok t =>
      simp only [Tree.sym] at ha h ⊢
      rw [noRule_keeps ha h, ih]
      rfl
    | node k cs =>
      obtain ⟨X, hX⟩ := ha
      rw [hX] at h
      obtain ⟨⟨r1, e1⟩, h1, h⟩ := Res.bind_eq_ok.1 h
      obtain ⟨⟨r2, e2⟩, h2, h⟩ := Res.bind_eq_ok.1 h
      cases h
      simp only [trF, hc] at h2
      cases h2
      rfl

/-- before `public` and `protected` -/
def earlyRules : List SK := [.Error, .ElementList, .EquationSection, .AlgorithmSection]

def earlyStep (st : SK × Bool) (s : Sym) : SK × Bool :=
  (ruleStep st.1 s, st.2 && (!(s == .t .Public || s == .t .Protected) || earlyRules.contains st.1))

theorem early_fine : checkG earlyStep (fun st => st.2) (Gram.spec .Composition) (.Error, true) = true := by decide +kernel

theorem early_false : ∀ (w : List Sym) (k : SK), (w.foldl earlyStep (k, false)).2 = false
  | [], _ => rfl
  | s :: w, k => by simp only [List.foldl_cons, earlyStep, Bool.false_and]; exact early_false w _

theorem early_at {s : Sym} {post : List Sym} (hs : s = .t .Public ∨ s = .t .Protected) : ∀ {pre : List Sym} {k : SK} {ok : Bool},
    ((pre ++ s :: post).foldl earlyStep (k, ok)).2 = true → pre.foldl ruleStep k ∈ earlyRules
  | [], k, ok, h => by
    simp only [List.nil_append, List.foldl_cons, earlyStep] at h
    cases hc : earlyRules.contains k
    · have : (s == .t .Public || s == .t .Protected) = true := by rcases hs with rfl | rfl <;> rfl
      rw [hc, this] at h
      simp [early_false] at h
    · simpa using hc
  | c :: pre, k, ok, h => by
    simp only [List.cons_append, List.foldl_cons, earlyStep] at h ⊢
    exact early_at hs h

/-! ### The token before a composition -/

theorem Part.parent {s tree : Tree} (h : Part s tree) : s = tree ∨
    ∃ k pre post, Part (.node k (pre ++ s :: post)) tree := by
  induction h with
  | here => exact .inl rfl
  | @there k cs c hc _ ih =>
    obtain ⟨pre, post, rfl⟩ := List.append_of_mem hc
    refine .inr ?_
    rcases ih with rfl | ⟨k', pre', post', h⟩
    · exact ⟨k, pre, post, .here⟩
    · exact ⟨k', pre', post', .there hc h⟩

theorem composition_parent : ∀ k, .n .Composition ∈ (Gram.spec k).syms → k = .LongClassSpecifier := by
  intro k; cases k <;> decide

def beforeComp (a b : Sym) : Bool :=
  b != .n .Composition || [Sym.t .Identifier, .n .DescriptionString, .n .ClassModification].contains a

theorem before_comp : checkG (adjStep beforeComp) (fun st => st.2) (Gram.spec .LongClassSpecifier) (none, true) = true := by
  decide +kernel

theorem nodup_split {a b a' b' : List Token} {x : Token} (h : a ++ x :: b = a' ++ x :: b')
    (hd : (a ++ x :: b).Pairwise (fun a b => a.idx < b.idx)) : a = a' ∧ b = b' := by
  induction a generalizing a' with
  | nil =>
    cases a' with
    | nil => exact ⟨rfl, by simpa using h⟩
    | cons y a' =>
      simp only [List.nil_append, List.cons_append, List.cons.injEq] at h
      obtain ⟨rfl, rfl⟩ := h
      have := (List.pairwise_cons.mp hd).1 x (by simp)
      omega
  | cons z a ih =>
    cases a' with
    | nil =>
      simp only [List.cons_append, List.nil_append, List.cons.injEq] at h
      obtain ⟨rfl, h⟩ := h
      have := (List.pairwise_cons.mp hd).1 z (by simp)
      omega
    | cons y a' =>
      simp only [List.cons_append, List.cons.injEq] at h
      obtain ⟨rfl, h⟩ := h
      obtain ⟨rfl, rfl⟩ := ih h (List.pairwise_cons.mp hd).2
      exact ⟨rfl, rfl⟩

/-- the kind of the last token before a child -/
theorem prev_kind {k : SK} {pre post : List Tree} {d : Tree} {c : Tree}
    (hC : Tree.Conforms (.node k (pre ++ d :: c :: post))) (hE : Tree.hasEmpty (.node k (pre ++ d :: c :: post)) = false) :
    ∃ t, (leavesF (pre ++ [d])).getLast? = some t ∧ (∀ j, d.sym = .t j → t.kind = j) ∧
      ∀ j l, d.sym = .n j → lastToks j = some l → t.kind ∈ l := by
  simp only [Tree.hasEmpty, Bool.or_eq_false_iff] at hE
  have hEd := hasEmptyF_mem hE.2 d (by simp)
  have hCd := conformsF_mem hC.2 d (by simp)
  obtain ⟨t, h1, h2⟩ := end_leaves d hEd
  refine ⟨t, by simp [leavesF_append, leavesF, h1], ?_, ?_⟩
  · intro j hj
    cases d with
    | node _ _ => cases hj
    | tok t' =>
      cases hj
      simp only [Tree.leaves, List.getLast?_singleton, Option.some.injEq] at h1
      rw [h1]
  · intro j l hj hl
    cases d with
    | tok _ => cases hj
    | node k' ds =>
      cases hj
      obtain ⟨t', g1, g2⟩ := last_kind hCd hEd hl
      simp only [Tree.leaves] at h1
      rw [h1] at g1
      cases g1
      exact g2

/-- What the table needs is known at every child. -/
theorem agree_at {k : SK} {pre post : List Tree} {c : Tree} {r : Regs} {q : Option Token}
    (hC : Tree.Conforms (.node k (pre ++ c :: post))) (hE : Tree.hasEmpty (.node k (pre ++ c :: post)) = false)
    (hq : ∀ t, (leavesF pre).getLast? = some t → q = some t)
    (hc : k = .Composition → pre = [] → kindOf q ∈ beforeComposition)
    (hr : RegsBefore k pre (pre ++ c :: post) r) :
    Agree k (prevSym pre) { all := pre ++ c :: post, cur := some c, idx := pre.length, rest := post } r q := by
  rcases List.eq_nil_or_concat pre with rfl | ⟨pre', d, rfl⟩
  · refine ⟨fun j h => (by cases h), fun j l h => (by cases h), fun _ h => hc h rfl, fun _ j h => (by cases h), ?_, by simp [prevSym]⟩
    intro h _
    subst h
    rw [composition_rule hr]
    decide
  · rw [List.concat_eq_append] at *
    have hp : prevSym (pre' ++ [d]) = some d.sym := by simp [prevSym]
    rw [hp]
    have hassoc : pre' ++ [d] ++ c :: post = pre' ++ d :: c :: post := by simp
    rw [hassoc] at hC hE hr ⊢
    obtain ⟨t, h1, h2, h3⟩ := prev_kind hC hE
    have hqt := hq t h1
    subst hqt
    refine ⟨?_, ?_, ?_, ?_, ?_, by simp⟩
    · intro j hj
      exact h2 j (by simpa using hj)
    · intro j l hj hl
      exact h3 j l (by simpa using hj) hl
    · intro h
      cases h
    · intro hk j hj
      subst hk
      rw [composition_rule hr]
      simp only [Option.some.injEq] at hj
      simp [ruleOf, hj, ruleStep]
    · intro hk hj
      subst hk
      rw [composition_rule hr]
      have hj : d.sym = .t .Public ∨ d.sym = .t .Protected := by simpa using hj
      have h := checkG_sound early_fine hC.1
      simp only [List.map_append, List.map_cons] at h
      have h := early_at hj h
      simp only [List.map_append, List.map_cons, List.map_nil, ruleOf, List.foldl_append, List.foldl_cons, List.foldl_nil]
      rcases hj with hj | hj <;> (rw [hj]; exact h)

/-- A line break of the table is in the output. -/
theorem ChildRun.break {k : SK} {pre post : List Tree} {c : Tree} {all : List (Dec × Token)} (h : ChildRun k pre c post all)
    (hc : k = .Composition → pre = [] → ∀ da dz x, all.map (·.2) = da ++ x :: dz → c.leaves.head? = some x →
      kindOf da.getLast? ∈ beforeComposition) {b : Blank}
    (hb : breakBefore k (prevSym pre) c.sym = some b) {x : Token} (hx : c.start? = some x) :
    ∃ da dz n, all = da ++ (.brk b n, x) :: dz := by
  obtain ⟨r1, r2, q, y, u1, u2, da, dy, dz, h1, h2, rfl, h4, h5, h6, h7, h8, h9⟩ := h.ex
  have hE := h.full
  simp only [Tree.hasEmpty, Bool.or_eq_false_iff] at hE
  obtain ⟨x', xs, g1, g2⟩ := start_leaves c (hasEmptyF_mem hE.2 c (by simp))
  rw [hx] at g2
  cases g2
  have hA := agree_at (q := q) h.conforms h.full (by
    intro t ht
    rw [← h4]
    obtain ⟨d0, hd0⟩ := h5
    rw [← hd0, List.getLast?_append, ht]
    rfl) (by
    intro hk hp
    rw [← h4]
    refine hc hk hp _ (xs ++ dz.map (·.2)) x ?_ (by rw [g1]; rfl)
    simp only [List.map_append, h6, g1]
    simp) h9
  have hrow := rows_ok h.conforms
  simp only [rowOk, hb, Bool.or_eq_true, beq_iff_eq, Option.map_eq_some_iff] at hrow
  rcases hrow with hrow | ⟨⟨res, x'⟩, hl, hr⟩
  · cases hrow
  · cases hr
    obtain ⟨i, t, z, rfl, k1, k2⟩ := (lead_sound hA (by simp) hl h1).1 b rfl
    have ht : t = x := by
      simp only [Ctx.target] at k2
      cases c with
      | tok t' => simp only [Tree.start?] at hx; cases hx; cases k2; rfl
      | node _ _ =>
        simp only [startTok, hx] at k2
        cases k2
        rfl
    subst ht
    obtain ⟨w1, d1, d2, rfl, m1, m2⟩ := h2.split
    obtain ⟨rfl, m3⟩ := m1.ind k1
    cases m2 with
    | @brk _ n _ _ _ _ _ _ m2 =>
      cases d2 with
      | nil => rw [g1] at h6; simp at h6
      | cons z ds =>
        have hz := m2.pending (by simp) rfl
        obtain ⟨z1, z2⟩ := z
        simp only at hz
        subst hz
        have : z2 = t := by
          rw [g1] at h6
          simp only [List.nil_append, List.map_cons, List.cons.injEq] at h6
          exact h6.1
        subst this
        exact ⟨da, ds ++ dz, n, by simp⟩

/-- The token before a composition is a name, a string or a parenthesis. -/
theorem composition_prev {cs : List Tree} {ds : List (Dec × Token)} {L : LS} (hw : WF L (ds.map (·.2)))
    (hr : ∀ k pre c post, Part (.node k (pre ++ c :: post)) (.node .StoredDefinition cs) → ChildRun k pre c post ds)
    {c : Tree} {post : List Tree} (hp : Part (.node .Composition ([] ++ c :: post)) (.node .StoredDefinition cs)) :
    ∀ da dz x, ds.map (·.2) = da ++ x :: dz → c.leaves.head? = some x → kindOf da.getLast? ∈ beforeComposition := by
  intro da dz x hd hx
  rcases hp.parent with h | ⟨k', pre', post', h⟩
  · cases h
  · have hR := hr _ _ _ _ h
    have hC := hR.conforms
    have hk := composition_parent k' (syms_complete hC.1 (.n .Composition) (by simp [Tree.sym]))
    subst hk
    obtain ⟨r1, r2, q, y, u1, u2, da', dy, dz', h1, h2, h3, h4, h5, h6, h7, h8, h9⟩ := hR.ex
    have hx' : ∃ xs, dy.map (·.2) = x :: xs := by
      rw [h6]
      simp only [Tree.leaves, List.nil_append, leavesF]
      cases hl : c.leaves with
      | nil => rw [hl] at hx; cases hx
      | cons z zs => rw [hl] at hx; cases hx; exact ⟨_, List.cons_append ..⟩
    obtain ⟨xs, hx'⟩ := hx'
    have hds : ds.map (·.2) = da'.map (·.2) ++ x :: (xs ++ dz'.map (·.2)) := by
      rw [h3]; simp [hx']
    have hnd : (ds.map (·.2)).Pairwise (fun a b => a.idx < b.idx) := hw.ts.imp fun h => h.1
    rw [hd] at hds hnd
    have := (nodup_split hds hnd).1
    subst this
    rcases List.eq_nil_or_concat pre' with rfl | ⟨pre, d, rfl⟩
    · have := first_complete (u := post'.map Tree.sym) (c := Sym.n .Composition) (r := Gram.spec .LongClassSpecifier) (by simpa [Tree.sym] using hC.1)
      exact absurd this (by decide)
    · rw [List.concat_eq_append] at *
      have hassoc : pre ++ [d] ++ .node .Composition ([] ++ c :: post) :: post' =
        pre ++ d :: .node .Composition ([] ++ c :: post) :: post' := by simp
      have hE := hR.full
      rw [hassoc] at hC hE
      have hadj := checkG_sound before_comp hC.1
      simp only [List.map_append, List.map_cons] at hadj
      have hadj := adj_pair hadj
      obtain ⟨t, k1, k2, k3⟩ := prev_kind hC hE
      have ht : (da'.map (·.2)).getLast? = some t := by
        obtain ⟨d0, hd0⟩ := h5
        rw [← hd0, List.getLast?_append, k1]
        rfl
      rw [ht]
      simp only [beforeComp, Tree.sym, bne_self_eq_false, Bool.false_or, List.contains_iff_mem, List.mem_cons,
        List.not_mem_nil, or_false] at hadj
      simp only [kindOf]
      rcases hadj with hadj | hadj | hadj
      · rw [k2 _ hadj]; decide
      · have := k3 _ _ hadj rfl
        simp only [List.mem_singleton] at this
        rw [this]; decide
      · have := k3 _ _ hadj rfl
        simp only [List.mem_singleton] at this
        rw [this]; decide

end Mofmt
