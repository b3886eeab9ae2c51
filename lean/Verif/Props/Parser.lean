import Verif.Proofs.ParserMore
import Verif.Proofs.Build
import Verif.Props.Examples
/-
Properties of the parser and of the tree builder: C20 - C24, C26, C27.
-/
namespace Mofmt

/-! ### C20 -/

/-- **C20** For every token list and every entry rule the parser stops: the depth of its evaluation
(nested grammar functions plus loop rounds) needed to reach the result is at most linear in the number
of tokens, and any larger allowance gives the same result. -/
theorem C20_parser_terminates (name : Text) (toks : List Token) (entry : SK) (n : Nat)
    (hn : 16 * (101 * (toks.length + 1)) ≤ n) :
    run name toks Grammar.body n (.call entry) PState.init ≠ .fuel ∧
    ∀ m, n ≤ m → run name toks Grammar.body m (.call entry) PState.init =
      run name toks Grammar.body n (.call entry) PState.init := by
  have h : run name toks Grammar.body n (.call entry) PState.init ≠ .fuel := by
    apply run_ne_fuel (L := fun _ => true) (H := depthTable) (B := 16) (fun k _ => grammar_looks k)
      grammar_depth grammar_fits
    · simp [Ok, PState.init]
    · cases entry <;> decide
    · have hle : ht (fun _ => true) depthTable (.call entry) ≤ 16 := by cases entry <;> decide
      have hM : M toks PState.init = toks.length * 101 + 100 := rfl
      rw [hM]
      generalize ht (fun _ => true) depthTable (.call entry) = x at *
      clear hM
      generalize toks.length = l at *
      rw [Nat.mul_add, Nat.mul_add] at hn
      rw [Nat.add_mul]
      have e : l * 101 * 16 = 16 * (101 * l) := by rw [Nat.mul_comm l, Nat.mul_comm]
      rw [e]
      generalize 16 * (101 * l) = y at *
      omega
  exact ⟨h, fun m hm => run_mono_le hm h⟩

/-- The function `events` of the model never reports the artificial outcome "out of fuel". -/
theorem C20_events_terminates (name : Text) (toks : List Token) (entry : SK) :
    events name toks entry ≠ .fuel := by
  unfold events
  intro h
  rw [Res.bind_eq_fuel] at h
  rcases h with h | ⟨_, _, h⟩
  · exact run_terminates _ _ (Nat.le_refl _) h
  · simp at h

example : (toksOf exGood).length = 13 := by decide +kernel

/-! ### C21 -/

/-- **C21 is false**: a file consisting of the single word `model` makes the parser panic
(`advance` at the end of the file). -/
theorem C21_false_assert : parse c!"f" c!"model" .StoredDefinition = .panic .assert := by
  decide +kernel

/-- **C21 is false**: an unexpected parenthesis makes the parser panic ("Parser stuck"). -/
theorem C21_false_stuck :
    parse c!"f" c!"model A ) end A;" .StoredDefinition = .panic .stuck := by
  decide +kernel

theorem nth_panic {toks : List Token} (hne : toks ≠ []) {n : Nat} {s : PState} {p : Panic}
    (h : s.nth toks n = .panic p) : p = .stuck := by
  unfold PState.nth at h
  split at h
  · split at h
    · simp_all
    · simp at h; exact h.symm
  · simp at h

theorem advance_panic {toks : List Token} {s : PState} {p : Panic}
    (h : s.advance toks = .panic p) : p = .assert := by
  unfold PState.advance at h
  split at h <;> simp at h
  exact h.symm

theorem error_no_panic {name : Text} {toks : List Token} (hne : toks ≠ []) {m : Text} {s : PState}
    {p : Panic} : s.error name toks m ≠ .panic p := by
  unfold PState.error
  split
  · simp
  · split
    · simp
    · rename_i h; simp at h; exact absurd h hne

theorem bind_eq_panic {α β : Type} {a : Res α} {f : α → Res β} {p : Panic} :
    a.bind f = .panic p ↔ a = .panic p ∨ ∃ x, a = .ok x ∧ f x = .panic p := by
  cases a <;> simp [Res.bind]

theorem evalCond_panic {toks : List Token} (hne : toks ≠ []) (c : Cond) : ∀ {s : PState} {p : Panic},
    evalCond toks c s = .panic p → p = .stuck ∨ p = .assert := by
  induction c with
  | check | checkAny | nthIs =>
    intro s p h
    simp only [evalCond, bind_eq_panic] at h
    rcases h with h | ⟨_, _, h⟩
    · exact .inl (nth_panic hne h)
    · simp at h
  | consume k =>
    intro s p h
    simp only [evalCond, bind_eq_panic] at h
    rcases h with h | ⟨_, _, h⟩
    · exact .inl (nth_panic hne h)
    · split at h
      · simp only [bind_eq_panic] at h
        rcases h with h | ⟨_, _, h⟩
        · exact .inr (advance_panic h)
        · simp at h
      · simp at h
  | eof => intro s p h; simp [evalCond] at h
  | not c ih =>
    intro s p h
    simp only [evalCond, bind_eq_panic] at h
    rcases h with h | ⟨_, _, h⟩
    · exact ih h
    · simp at h
  | and a b iha ihb | or a b iha ihb =>
    intro s p h
    simp only [evalCond, bind_eq_panic] at h
    rcases h with h | ⟨_, _, h⟩
    · exact iha h
    · split at h
      · first | exact ihb h | simp at h
      · first | exact ihb h | simp at h

/-- No branch of the command reaches the panic of parsing.rs:125. -/
def Cmd.safe : Cmd → Bool
  | .seq a b | .ite _ a b | .ifk _ a b => a.safe && b.safe
  | .while _ a => a.safe
  | .call k => k != .Error
  | .unreachable => false
  | _ => true

theorem grammar_safe : ∀ k : SK, k ≠ .Error → (Grammar.body k).safe = true := by
  intro k; cases k <;> decide +kernel

theorem run_panic {name : Text} {toks : List Token} (hne : toks ≠ []) :
    ∀ (n : Nat) (c : Cmd) {s : PState} {p : Panic}, c.safe = true →
      run name toks Grammar.body n c s = .panic p → p = .stuck ∨ p = .assert := by
  intro n
  induction n with
  | zero => intro c s p _ h; simp [run] at h
  | succ n ih =>
    intro c s p hc h
    cases c with
    | skip => simp [run] at h
    | seq a b =>
      simp only [Cmd.safe, Bool.and_eq_true] at hc
      simp only [run, bind_eq_panic] at h
      rcases h with h | ⟨_, _, h⟩
      · exact ih a hc.1 h
      · exact ih b hc.2 h
    | ite c a b =>
      simp only [Cmd.safe, Bool.and_eq_true] at hc
      simp only [run, bind_eq_panic] at h
      rcases h with h | ⟨_, _, h⟩
      · exact evalCond_panic hne c h
      · split at h
        · exact ih a hc.1 h
        · exact ih b hc.2 h
    | «while» c a =>
      have hw := hc
      simp only [Cmd.safe] at hc
      simp only [run, bind_eq_panic] at h
      rcases h with h | ⟨_, _, h⟩
      · exact evalCond_panic hne c h
      · split at h
        · simp only [bind_eq_panic] at h
          rcases h with h | ⟨_, _, h⟩
          · exact ih a hc h
          · exact ih _ hw h
        · simp at h
    | eval c =>
      simp only [run, bind_eq_panic] at h
      rcases h with h | ⟨_, _, h⟩
      · exact evalCond_panic hne c h
      · simp at h
    | expect k =>
      simp only [run, bind_eq_panic] at h
      rcases h with h | ⟨_, _, h⟩
      · exact evalCond_panic hne _ h
      · split at h
        · simp at h
        · simp only [bind_eq_panic] at h
          rcases h with h | ⟨_, _, h⟩
          · exact .inl (nth_panic hne h)
          · exact absurd h (error_no_panic hne)
    | advance => exact .inr (advance_panic h)
    | call k =>
      simp only [Cmd.safe, bne_iff_ne, ne_eq] at hc
      simp only [run, bind_eq_panic] at h
      rcases h with h | ⟨_, _, h⟩
      · exact ih _ (grammar_safe k hc) h
      · simp at h
    | advErr m pre post =>
      simp only [run, bind_eq_panic] at h
      rcases h with h | ⟨_, _, h | ⟨_, _, h | ⟨_, _, h⟩⟩⟩
      · exact .inl (nth_panic hne h)
      · exact absurd h (error_no_panic hne)
      · exact .inr (advance_panic h)
      · simp at h
    | look m =>
      simp only [run, bind_eq_panic] at h
      rcases h with h | ⟨_, _, h⟩
      · exact .inl (nth_panic hne h)
      · simp at h
    | ifk ks a b =>
      simp only [Cmd.safe, Bool.and_eq_true] at hc
      simp only [run] at h
      split at h
      · exact ih a hc.1 h
      · exact ih b hc.2 h
    | unreachable => simp [Cmd.safe] at hc

/-- **C21** (what holds): on a non-empty token list the parser returns, or it panics in one of exactly two
ways - "Parser stuck", or advancing at the end of the file.  No other panic is possible (no failed
`unwrap`, no unreachable branch).  Missing: that it does not panic at all, which is false. -/
theorem C21_partial (name : Text) (toks : List Token) (entry : SK) (hne : toks ≠ [])
    (he : entry ≠ .Error) :
    (∃ r, events name toks entry = .ok r) ∨ events name toks entry = .panic .stuck ∨
      events name toks entry = .panic .assert := by
  cases h : events name toks entry with
  | ok r => exact .inl ⟨r, rfl⟩
  | fuel => exact absurd h (C20_events_terminates _ _ _)
  | panic p =>
    right
    unfold events at h
    rw [bind_eq_panic] at h
    rcases h with h | ⟨_, _, h⟩
    · rcases run_panic hne _ _ (by simpa [Cmd.safe] using he) h with rfl | rfl
      · exact .inl rfl
      · exact .inr rfl
    · simp at h

/-- An erroneous file on which the parser recovers and reports the error. -/
example : (eventsOf exBad .StoredDefinition).map (·.2) =
    some [c!"f:3:1: expected ';', found 'end'"] := by decide +kernel

/-! ### C22 -/

/-- A loop that ended did so because its condition was false. -/
theorem run_while_end {name : Text} {toks : List Token} {body : SK → Cmd} {c : Cond} {a : Cmd} :
    ∀ {n : Nat} {s s' : PState}, run name toks body n (.while c a) s = .ok s' →
      ∃ s1, evalCond toks c s1 = .ok (false, s') := by
  intro n
  induction n with
  | zero => intro s s' h; simp [run] at h
  | succ n ih =>
    intro s s' h
    rw [run, Res.bind_eq_ok] at h
    obtain ⟨⟨t, s1⟩, h1, h2⟩ := h
    dsimp only at h2
    split at h2
    · rw [Res.bind_eq_ok] at h2
      obtain ⟨s2, _, h4⟩ := h2
      exact ih h4
    · rename_i ht
      simp at h2; subst h2
      simp at ht; subst ht
      exact ⟨s, h1⟩

theorem error_body {name : Text} {toks : List Token} :
    ∀ s n s', run name toks Grammar.body n (Grammar.body .Error) s ≠ .ok s' := by
  intro s n s' h
  cases n with
  | zero => simp [run] at h
  | succ n => simp [Grammar.body, run] at h

/-- What `events` returns, in terms of trees. -/
theorem events_tree {name : Text} {toks : List Token} {entry : SK} {evs : List Event}
    {errs : List Text} (h : events name toks entry = .ok (evs, errs)) :
    ∃ cs rest, evs = (Tree.node entry cs).evs ∧ toks = leavesF cs ++ rest ∧
      (hasErrorF cs = true → errs ≠ []) ∧ (entry = .StoredDefinition → rest = []) ∧
      entry ≠ .Error := by
  unfold events at h
  rw [Res.bind_eq_ok] at h
  obtain ⟨s, h1, h2⟩ := h
  simp at h2
  obtain ⟨rfl, rfl⟩ := h2
  have hne : entry ≠ .Error := by
    rintro rfl
    cases hf : parseFuel toks.length with
    | zero => simp [parseFuel] at hf
    | succ n =>
      rw [hf, run, Res.bind_eq_ok] at h1
      obtain ⟨_, h1, _⟩ := h1
      exact error_body _ _ _ h1
  cases hf : parseFuel toks.length with
  | zero => simp [parseFuel] at hf
  | succ n =>
    rw [hf, run, Res.bind_eq_ok] at h1
    obtain ⟨s1, h1, h2⟩ := h1
    simp at h2
    obtain ⟨cs, g⟩ := run_grew error_body n _ (s := PState.init.enter) (by simp [PState.init, PState.enter]) h1
    refine ⟨cs, toks.drop s1.pos, ?_, ?_, ?_, ?_, hne⟩
    · rw [← h2]
      simp [PState.exit, g.evs, PState.init, PState.enter, Tree.evs]
    · have := g.rest
      simpa [PState.init, PState.enter] using this
    · intro he
      have := g.err he
      rw [← h2]
      intro h0
      have h0 : s1.errors = [] := h0
      simp [h0] at this
    · rintro rfl
      have hb : Grammar.body .StoredDefinition = Grammar.storedDefinition := rfl
      rw [hb] at h1
      cases n with
      | zero => simp [run] at h1
      | succ n =>
        simp only [Grammar.storedDefinition, blk, run, Res.bind_eq_ok] at h1
        obtain ⟨s2, _, h3⟩ := h1
        obtain ⟨s3, h4⟩ := run_while_end h3
        simp [evalCond, PState.eof] at h4
        obtain ⟨h4, rfl⟩ := h4
        simp [h4]

/-- **C22** Whenever the parser returns, its events are those of one tree whose root is the entry rule and
whose leaves are a prefix of the tokens; for a stored definition they are all the tokens. -/
theorem C22_events_describe_tokens (name : Text) (toks : List Token) (entry : SK) (evs : List Event)
    (errs : List Text) (h : events name toks entry = .ok (evs, errs)) :
    ∃ t rest, evs = Tree.evs t ∧ (∃ cs, t = .node entry cs) ∧ toks = t.leaves ++ rest ∧
      (entry = .StoredDefinition → rest = []) := by
  obtain ⟨cs, rest, h1, h2, _, h3, _⟩ := events_tree h
  exact ⟨.node entry cs, rest, h1, ⟨cs, rfl⟩, h2, h3⟩

/-- The recovered erroneous file: 43 events for 7 tokens, among them 7 advances. -/
example : (eventsOf exBad .StoredDefinition).map (fun r => (r.1.length, r.1.count .advance)) =
    some (43, 7) := by decide +kernel

/-! ### C23 -/

/-- **C23** Whatever the source text, if parsing it as a stored definition returns then building the tree
succeeds, the leaves of the tree are exactly the tokens in order, and no proper subtree is empty. -/
theorem C23_build_tree_lossless (name src : Text) (p : Parsed)
    (h : parse name src .StoredDefinition = .ok p) :
    ∃ cs, buildTree p.tokens p.events = .ok (.node .StoredDefinition cs) ∧
      leavesF cs = p.tokens ∧ hasEmptyF cs = false := by
  unfold parse at h
  rw [Res.bind_eq_ok] at h
  obtain ⟨l, h1, h2⟩ := h
  rw [Res.bind_eq_ok] at h2
  obtain ⟨⟨evs, errs⟩, h3, h4⟩ := h2
  simp at h4; subst h4
  obtain ⟨cs, rest, h5, h6, _, h7, _⟩ := events_tree h3
  have := h7 rfl
  subst this
  simp at h6
  refine ⟨pruneF cs, ?_, ?_, hasEmpty_pruneF cs⟩
  · simp only [h5, h6]; exact buildTree_evs _ _
  · simp only [h6, leaves_pruneF]

/-- C23 applies to correct and to erroneous files. -/
example : (match parse c!"f" exGood .StoredDefinition with | .ok p => p.errors.isEmpty | _ => false) = true ∧
    (match parse c!"f" exBad .StoredDefinition with | .ok p => !p.errors.isEmpty | _ => false) = true := by
  decide +kernel

/-- For other entry rules the tree builder can panic: tokens may be left over. -/
theorem C23_needs_stored_definition :
    (match parse c!"f" c!"a b" .Expression with
      | .ok p => p.errors.isEmpty && decide (buildTree p.tokens p.events matches .panic .assert)
      | _ => false) = true := by
  decide +kernel

/-! ### C24 -/

/-- **C24** Two token lists with the same kinds give the same events and the same number of errors, or
the same panic, whatever the texts and positions of the tokens and the name of the file. -/
theorem C24_only_kinds (name name' : Text) (toks toks' : List Token) (entry : SK)
    (hk : toks.map (·.kind) = toks'.map (·.kind)) :
    (∀ evs errs, events name toks entry = .ok (evs, errs) →
      ∃ errs', events name' toks' entry = .ok (evs, errs') ∧ errs'.length = errs.length) ∧
    (∀ p, events name toks entry = .panic p → events name' toks' entry = .panic p) := by
  have := events_same (name := name) (name' := name') hk entry
  constructor
  · intro evs errs h
    rw [h] at this
    generalize hr : events name' toks' entry = r at this
    cases this with
    | ok h' =>
      rename_i b
      obtain ⟨b1, b2⟩ := b
      obtain ⟨h1, h2⟩ := h'
      simp at h1 h2
      exact ⟨b2, by simp [h1], h2.symm⟩
  · intro p h
    rw [h] at this
    generalize hr : events name' toks' entry = r at this
    cases this
    rfl

/-- Two different texts with the same kinds. -/
example : toksOf exBad ≠ toksOf c!"block Foo Integer i end Foo;" ∧
    (toksOf c!"model Foo Integer i end Foo;").map (·.kind) = (toksOf exBad).map (·.kind) := by
  decide +kernel

/-! ### C26 -/

/-- **C26** Every error message of the parser consists of the name of the file, the line and the column of the
first character of a token of the input, in decimal, and a message. -/
theorem C26_errors_located (name : Text) (toks : List Token) (entry : SK) (evs : List Event)
    (errs : List Text) (h : events name toks entry = .ok (evs, errs)) :
    ∀ e ∈ errs, ∃ t ∈ toks, ∃ msg, e = name ++ c!":" ++ Nat.toDigits 10 t.start.line ++ c!":" ++
      Nat.toDigits 10 t.start.col ++ c!": " ++ msg := by
  unfold events at h
  rw [Res.bind_eq_ok] at h
  obtain ⟨s, h1, h2⟩ := h
  simp at h2
  obtain ⟨_, rfl⟩ := h2
  exact run_located _ _ (by simp [Located, PState.init]) h1

/-! ### C27 -/

/-- **C27** If the parser reports no error, its events describe a tree without an `Error` production. -/
theorem C27_error_node_reported (name : Text) (toks : List Token) (entry : SK) (evs : List Event)
    (h : events name toks entry = .ok (evs, [])) : Event.enter .Error ∉ evs := by
  obtain ⟨cs, rest, h1, _, h3, _, h4⟩ := events_tree h
  have hno : hasErrorF cs = false := by
    cases hc : hasErrorF cs
    · rfl
    · exact absurd rfl (h3 hc)
  rw [h1]
  have key : ∀ F : List Tree, hasErrorF F = false → Event.enter .Error ∉ evsF F := by
    intro F
    refine Tree.rec_1 (motive_1 := fun t => t.hasError = false → Event.enter .Error ∉ t.evs)
      (motive_2 := fun F => hasErrorF F = false → Event.enter .Error ∉ evsF F) ?_ ?_ ?_ ?_ F
    · intro t _; simp [Tree.evs]
    · intro k cs ih h
      simp [Tree.hasError] at h
      simp [Tree.evs, ih h.2]
      exact fun h' => h.1 h'.symm
    · intro _; simp [evsF]
    · intro t ts ih1 ih2 h
      simp [hasErrorF] at h
      simp [evsF, ih1 h.1, ih2 h.2]
  simp [Tree.evs, key cs hno]
  exact fun h' => h4 h'.symm

/-- A file whose parse contains an `Error` production (and therefore a reported error). -/
example : (eventsOf exErrNode .StoredDefinition).map
    (fun r => (r.1.contains (.enter .Error), r.2.isEmpty)) = some (true, false) := by decide +kernel

#print axioms C20_parser_terminates
#print axioms C20_events_terminates
#print axioms C21_false_assert
#print axioms C21_false_stuck
#print axioms C21_partial
#print axioms C22_events_describe_tokens
#print axioms C23_build_tree_lossless
#print axioms C23_needs_stored_definition
#print axioms C24_only_kinds
#print axioms C26_errors_located
#print axioms C27_error_node_reported

end Mofmt
