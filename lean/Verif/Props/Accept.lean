import Verif.Proofs.AcceptRun
import Verif.Proofs.AcceptTable
import Verif.Proofs.Opens
import Verif.Proofs.Steps
import Verif.Props.Grammar
/-
C50 - C52: which files are accepted, and that their tree is determined.
-/
namespace Mofmt

/-! ### C50 -/

theorem spec_noEof (k : SK) : (Gram.spec k).syms.contains (.t .EOF) = false := by
  cases k <;> decide

mutual
theorem conforms_noEof (t : Tree) (h : t.Conforms) : (∃ x, t = .tok x) ∨ ∀ x ∈ t.leaves, x.kind ≠ .EOF := by
  match t with
  | .tok x => exact .inl ⟨x, rfl⟩
  | .node k cs =>
    simp only [Tree.Conforms] at h
    right
    refine conformsF_noEof cs h.2 (fun c hc e => ?_)
    have := syms_complete h.1 (.t .EOF) (List.mem_map.mpr ⟨c, hc, e⟩)
    have h2 := spec_noEof k
    rw [List.contains_eq_mem] at h2
    simp [this] at h2
theorem conformsF_noEof (cs : List Tree) (h : ConformsF cs) (hs : ∀ c ∈ cs, c.sym ≠ .t .EOF) :
    ∀ x ∈ leavesF cs, x.kind ≠ .EOF := by
  match cs with
  | [] => intro x hx; simp [leavesF] at hx
  | c :: cs =>
    simp only [ConformsF] at h
    intro x hx
    rcases List.mem_append.mp hx with hx | hx
    · rcases conforms_noEof c h.1 with ⟨y, e⟩ | h1
      · have := hs c (by simp)
        rw [e] at hx this
        simp only [Tree.leaves, List.mem_singleton] at hx
        subst hx
        intro e2
        simp [Tree.sym, e2] at this
      · exact h1 x hx
    · exact conformsF_noEof cs h.2 (fun d hd => hs d (by simp [hd])) x hx
end

theorem Reading.noEof {k : SK} {toks : List Token} {cs : List Tree} (h : Reading k toks cs) :
    ∀ t ∈ toks, t.kind ≠ .EOF := by
  rw [← h.leaves]
  rcases conforms_noEof _ h.conforms with ⟨x, e⟩ | h1
  · cases e
  · exact h1

theorem folTab_eof (k : SK) (hE : k ≠ .Error) (h : k ≠ .OutputExpressionList) : (Acc.tab.fol k).has .EOF = true := by
  revert hE h
  cases k <;> decide

/-- The parser accepts a readable token list and describes the reading. -/
theorem events_accept {name : Text} {toks : List Token} {k : SK} {cs : List Tree}
    (hk : k ≠ .OutputExpressionList) (h : Reading k toks cs) (ho : (Tree.node k cs).Opens) :
    ∃ F, events name toks k = .ok ((Tree.node k F).evs, []) ∧ pruneF F = cs ∧ leavesF F = toks := by
  have hE : k ≠ .Error := by
    rintro rfl
    exact lang_none h.conforms.1
  have hT : Acc.Foll Acc.tab k [] :=
    ⟨by simpa [Acc.kd] using folTab_eof k hE hk, fun _ e => by simp [Acc.kd] at e⟩
  have hf := Acc.follows_all (name := name) Acc.ok_all h.noEof
  simp only [Tree.Opens] at ho
  have hc := h.conforms
  simp only [Tree.Conforms] at hc
  have hg : Acc.Good k cs := ⟨hc.2, h.full, ho.1, ho.2⟩
  have hfuel := run_terminates (name := name) (toks := toks) _ k (Nat.le_refl _)
  obtain ⟨n, hn⟩ : ∃ n, parseFuel toks.length = n + 1 := ⟨parseFuel toks.length - 1, by unfold parseFuel; omega⟩
  have hrun : run name toks Grammar.body n (Grammar.body k) PState.init.enter = .fuel ∨
      ∃ s', run name toks Grammar.body n (Grammar.body k) PState.init.enter = .ok s' ∧
        Acc.Did toks PState.init.enter s' cs [] := by
    by_cases hne : cs = []
    · subst hne
      have hl : toks = [] := by rw [← h.leaves]; rfl
      rcases Acc.body_none (u := 0) (rest := []) Acc.ok_all (hf n n (Nat.le_refl _)) hE (s := PState.init.enter) hT
        (Nat.zero_le _) ((nullable_iff _).mpr hc.1) (by simp [hl]) (by simp [PState.init, PState.enter])
        (by simp [PState.init, PState.enter]) (by simp [PState.init, PState.enter]) with h1 | ⟨s', h1, h2, _⟩
      · exact .inl h1
      · exact .inr ⟨s', h1, h2⟩
    · rcases Acc.body_some (u := 0) (rest := []) Acc.ok_all (hf n n (Nat.le_refl _)) hE (s := PState.init.enter) hT
        (Nat.zero_le _) hg hne hc.1 (by simp [PState.init, PState.enter, h.leaves]) (by simp [PState.init, PState.enter])
        (by simp [PState.init, PState.enter]) (by simp [PState.init, PState.enter]) with h1 | ⟨s', h1, h2, _⟩
      · exact .inl h1
      · exact .inr ⟨s', h1, h2⟩
  rcases hrun with h1 | ⟨s', h1, h2⟩
  · rw [hn, run, h1] at hfuel
    exact absurd rfl hfuel
  · obtain ⟨F, g, e, d⟩ := h2.call hE
    refine ⟨F, ?_, d, ?_⟩
    · unfold events
      rw [hn, run, h1]
      simp only [Res.bind_ok]
      have h3 := g.evs
      simp only [PState.init] at h3 e
      simp only [PState.init]
      rw [h3, e]
      simp [evsF]
    · rw [← leaves_pruneF, d, h.leaves]

/-- **C50, partial** Every grammatical text is accepted: if the tokens of a text are the leaves of a tree that
conforms to the grammar and in which no equation starts with `end` and none directly in an equation section
starts with `initial`, then the parser, started with the root of the tree, neither panics nor reports an
error, and the tree built from its events is that tree.  Missing: the two kinds of equations (they are
refused, see `C50_false`), and starting with an output expression list, which is not a rule a user can
ask for. -/
theorem C50_grammatical_accepted_partial (name src : Text) (k : SK) (l : Lexed) (cs : List Tree)
    (hl : lex name src = .ok l) (he : l.errors = []) (hk : k ≠ .OutputExpressionList)
    (h : Reading k l.tokens cs) (ho : (Tree.node k cs).Opens) :
    ∃ p, parse name src k = .ok p ∧ p.errors = [] ∧ p.tokens = l.tokens ∧
      buildTree p.tokens p.events = .ok (.node k cs) := by
  obtain ⟨F, h1, h2, h3⟩ := events_accept (name := name) hk h ho
  refine ⟨{ tokens := l.tokens, comments := l.comments, events := (Tree.node k F).evs, errors := [] }, ?_, rfl, rfl, ?_⟩
  · simp [parse, hl, Res.bind_ok, h1, he]
  · simp only
    rw [← h3, buildTree_evs, h2]

mutual
/-- a decision procedure for `Conforms` -/
def Tree.fits : Tree → Bool
  | .tok _ => true
  | .node k cs => ((cs.map Tree.sym).foldl (fun r a => r.der a) (Gram.spec k)).nullable && fitsF cs
def fitsF : List Tree → Bool
  | [] => true
  | t :: ts => t.fits && fitsF ts
end

theorem foldl_der : ∀ (w : List Sym) (r : RE), (w.foldl (fun r a => r.der a) r).nullable = true → Lang r w
  | [], r, h => (nullable_iff r).mp h
  | a :: w, r, h => (der_iff a r w).mp (foldl_der w (r.der a) h)

mutual
theorem fits_conforms (t : Tree) (h : t.fits = true) : t.Conforms := by
  match t with
  | .tok _ => trivial
  | .node k cs =>
    simp only [Tree.fits, Bool.and_eq_true] at h
    exact ⟨foldl_der _ _ h.1, fitsF_conforms cs h.2⟩
theorem fitsF_conforms (cs : List Tree) (h : fitsF cs = true) : ConformsF cs := by
  match cs with
  | [] => trivial
  | t :: ts =>
    simp only [fitsF, Bool.and_eq_true] at h
    exact ⟨fits_conforms t h.1, fitsF_conforms ts h.2⟩
end

/-- the children of the tree built for a text -/
def readOf (src : Text) : List Tree :=
  match parse c!"f" src .StoredDefinition with
  | .ok p => match buildTree p.tokens p.events with
    | .ok (.node _ cs) => cs
    | _ => []
  | _ => []

mutual
/-- the same tree over other tokens -/
def Tree.fill : Tree → List Token → Tree × List Token
  | .tok t, ts => (.tok (ts.headD t), ts.tail)
  | .node k cs, ts => let r := fillF cs ts; (.node k r.1, r.2)
def fillF : List Tree → List Token → List Tree × List Token
  | [], ts => ([], ts)
  | c :: cs, ts => let r := c.fill ts; let r2 := fillF cs r.2; (r.1 :: r2.1, r2.2)
end

/-- a call of `initial` as left hand side of an equation -/
def exInitial : Text := c!"model A\nequation\n  initial(x) = y;\nend A;\n"
/-- `end` as left hand side of an equation -/
def exEnd : Text := c!"model A\nequation\n  for i in 1:2 loop\n    end = y;\n  end for;\nend A;\n"

/-- the reading of `exInitial`: that of the same text with `der` -/
def exInitialTree : List Tree :=
  (fillF (readOf c!"model A\nequation\n  der(x) = y;\nend A;\n") (toksOf exInitial)).1
/-- the reading of `exEnd`: that of the same text with `true` -/
def exEndTree : List Tree :=
  (fillF (readOf c!"model A\nequation\n  for i in 1:2 loop\n    true = y;\n  end for;\nend A;\n") (toksOf exEnd)).1

/-- how the parser ends on a text: panic, errors or accepted -/
def verdict (src : Text) : Option Nat :=
  match parse c!"f" src .StoredDefinition with
  | .ok p => some p.errors.length
  | _ => none

theorem readingOf {k : SK} {toks : List Token} {cs : List Tree} (h1 : (Tree.node k cs).fits = true)
    (h2 : hasEmptyF cs = false) (h3 : leavesF cs = toks) : Reading k toks cs := ⟨fits_conforms _ h1, h2, h3⟩

/-- **C50 is false**: an equation whose left hand side is a call of `initial` is grammatical but refused. -/
theorem C50_false_initial : ∃ l, lex c!"f" exInitial = .ok l ∧ l.errors = [] ∧
    Reading .StoredDefinition l.tokens exInitialTree ∧
    ∃ p, parse c!"f" exInitial .StoredDefinition = .ok p ∧ p.errors.length = 7 := by
  refine ⟨{ tokens := toksOf exInitial, comments := [], errors := [] }, by decide +kernel, rfl,
    readingOf (by decide +kernel) (by decide +kernel) (by decide +kernel), ?_⟩
  have h : verdict exInitial = some 7 := by decide +kernel
  unfold verdict at h
  split at h
  · rename_i p hp
    exact ⟨p, hp, by simpa using h⟩
  · simp at h

/-- **C50 is false**: an equation whose left hand side is `end` is grammatical but refused. -/
theorem C50_false_end : ∃ l, lex c!"f" exEnd = .ok l ∧ l.errors = [] ∧
    Reading .StoredDefinition l.tokens exEndTree ∧
    ∃ p, parse c!"f" exEnd .StoredDefinition = .ok p ∧ p.errors.length = 14 := by
  refine ⟨{ tokens := toksOf exEnd, comments := [], errors := [] }, by decide +kernel, rfl,
    readingOf (by decide +kernel) (by decide +kernel) (by decide +kernel), ?_⟩
  have h : verdict exEnd = some 14 := by decide +kernel
  unfold verdict at h
  split at h
  · rename_i p hp
    exact ⟨p, hp, by simpa using h⟩
  · simp at h

/-- A text that meets the hypotheses of `C50_grammatical_accepted_partial`: its reading has more than fifty tokens, among
them equations of every kind, and `initial` and `end` inside of equations. -/
def exMany : Text := c!"within P;\nmodel A\n  parameter Real x[3] = {1, 2, 3};\nequation\n  if initial() then\n    initial() = x[end];\n  else\n    connect(a.b, c);\n  end if;\ninitial equation\n  der(x) = -y ^ 2;\nend A;\n"

mutual
def Tree.opensB : Tree → Bool
  | .tok _ => true
  | .node p cs => cs.all (Tree.startsOk p) && opensFB cs
def opensFB : List Tree → Bool
  | [] => true
  | t :: ts => t.opensB && opensFB ts
end
mutual
theorem opensB_sound (t : Tree) (h : t.opensB = true) : t.Opens := by
  match t with
  | .tok _ => trivial
  | .node p cs =>
    simp only [Tree.opensB, Bool.and_eq_true] at h
    exact ⟨List.all_eq_true.mp h.1, opensFB_sound cs h.2⟩
theorem opensFB_sound (cs : List Tree) (h : opensFB cs = true) : OpensF cs := by
  match cs with
  | [] => trivial
  | t :: ts =>
    simp only [opensFB, Bool.and_eq_true] at h
    exact ⟨opensB_sound t h.1, opensFB_sound ts h.2⟩
end

example : ∃ l, lex c!"f" exMany = .ok l ∧ l.errors = [] ∧ Reading .StoredDefinition l.tokens (readOf exMany) ∧
    (Tree.node .StoredDefinition (readOf exMany)).Opens ∧ 50 < l.tokens.length :=
  ⟨{ tokens := toksOf exMany, comments := [], errors := [] }, by decide +kernel, rfl,
    readingOf (by decide +kernel) (by decide +kernel) (by decide +kernel), opensB_sound _ (by decide +kernel),
    by decide +kernel⟩

/-! ### C51 -/

/-- **C51** Exactly these files are accepted: a text is parsed as a stored definition without an error being
reported if and only if the lexer reports no error and the tokens are the leaves of a tree of the grammar in
which no equation starts with `end` and none directly in an equation section with `initial`. -/
theorem C51_accepted_iff (name src : Text) :
    (∃ p, parse name src .StoredDefinition = .ok p ∧ p.errors = []) ↔
    ∃ l cs, lex name src = .ok l ∧ l.errors = [] ∧ Reading .StoredDefinition l.tokens cs ∧
      (Tree.node .StoredDefinition cs).Opens := by
  constructor
  · rintro ⟨p, h, he⟩
    unfold parse at h
    rw [Res.bind_eq_ok] at h
    obtain ⟨l, hl, h5⟩ := h
    rw [Res.bind_eq_ok] at h5
    obtain ⟨⟨evs, errs⟩, h6, h7⟩ := h5
    simp at h7; subst h7
    simp at he
    obtain ⟨he, rfl⟩ := he
    obtain ⟨F, h8, h9, h10⟩ := events_conform h6
    obtain ⟨G, g1, ⟨r, g3⟩, g2⟩ := Open.events_opens h6
    have hb := buildTree_evs .StoredDefinition F
    have hb2 := buildTree_evs .StoredDefinition G
    have hEq : pruneF G = pruneF F := by
      have hlen : leavesF F = leavesF G := Open.evs_leaves (h8 ▸ g1) (h9 ▸ g3)
      rw [← hlen, ← g1, h8, hb] at hb2
      simpa using hb2.symm
    exact ⟨l, pruneF F, hl, he, ⟨h10, hasEmpty_pruneF F, by rw [leaves_pruneF, h9]⟩, hEq ▸ g2⟩
  · rintro ⟨l, cs, hl, he, h, ho⟩
    obtain ⟨p, h1, h2, _⟩ := C50_grammatical_accepted_partial name src _ l cs hl he (by decide) h ho
    exact ⟨p, h1, h2⟩

/-- Both sides of `C51_accepted_iff` hold of `exMany` and fail for the equations of `C50_false_initial` and
`C50_false_end`. -/
example : verdict exMany = some 0 ∧ verdict exInitial = some 7 ∧ verdict exEnd = some 14 ∧
    opensFB exInitialTree = false ∧ opensFB exEndTree = false := by decide +kernel

/-! ### C52 -/

/-- **C52** The grammar is unambiguous: two trees of the grammar with the same root and the same tokens, in
which no equation starts with `end` and none directly in an equation section with `initial`, are the same
tree.  The statement does not mention the parser. -/
theorem C52_unambiguous (k : SK) (toks : List Token) (cs ds : List Tree) (hk : k ≠ .OutputExpressionList)
    (h1 : Reading k toks cs) (o1 : (Tree.node k cs).Opens)
    (h2 : Reading k toks ds) (o2 : (Tree.node k ds).Opens) : cs = ds := by
  obtain ⟨F, f1, f2, f3⟩ := events_accept (name := []) hk h1 o1
  obtain ⟨G, g1, g2, g3⟩ := events_accept (name := []) hk h2 o2
  rw [f1] at g1
  simp only [Res.ok.injEq, Prod.mk.injEq, and_true] at g1
  have e1 := buildTree_evs k F
  have e2 := buildTree_evs k G
  rw [f3, g1, ← g3, e2, f2, g2] at e1
  simpa using e1.symm

#print axioms C50_grammatical_accepted_partial
#print axioms C50_false_initial
#print axioms C50_false_end
#print axioms C51_accepted_iff
#print axioms C52_unambiguous

end Mofmt
