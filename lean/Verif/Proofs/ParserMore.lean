import Verif.Proofs.Termination
/-
Consequences of termination; parsing depends only on the kinds of the tokens; error messages name a
position of a token.
-/
namespace Mofmt

/-- Depth bounds of the grammar functions (see `ht`). -/
def depthTable : SK → Nat
  | .Error => 1
  | .StoredDefinition => 2
  | .ClassDefinition => 2
  | .ClassPrefixes => 2
  | .ClassSpecifier => 1
  | .LongClassSpecifier => 2
  | .ShortClassSpecifier => 2
  | .DerClassSpecifier => 2
  | .BasePrefix => 1
  | .EnumList => 4
  | .EnumerationLiteral => 2
  | .Composition => 3
  | .LanguageSpecification => 1
  | .ExternalFunctionCall => 2
  | .ElementList => 1
  | .Element => 1
  | .ImportClause => 2
  | .ImportList => 2
  | .ExtendsClause => 2
  | .ConstrainingClause => 2
  | .ClassOrInheritanceModification => 2
  | .ArgumentOrInheritanceModificationList => 2
  | .InheritanceModification => 2
  | .ComponentClause => 4
  | .TypePrefix => 2
  | .ComponentList => 6
  | .ComponentDeclaration => 4
  | .ConditionAttribute => 2
  | .Declaration => 2
  | .Modification => 1
  | .ModificationExpression => 1
  | .ClassModification => 2
  | .ArgumentList => 3
  | .Argument => 1
  | .ElementModificationOrReplaceable => 2
  | .ElementModification => 4
  | .ElementRedeclaration => 2
  | .ElementReplaceable => 2
  | .ComponentClause1 => 4
  | .ComponentDeclaration1 => 4
  | .ShortClassDefinition => 4
  | .EquationSection => 2
  | .AlgorithmSection => 2
  | .Equation => 2
  | .Statement => 2
  | .IfEquation => 2
  | .IfStatement => 2
  | .ForEquation => 2
  | .ForStatement => 2
  | .ForIndices => 4
  | .ForIndex => 2
  | .WhileStatement => 2
  | .WhenEquation => 2
  | .WhenStatement => 2
  | .ConnectEquation => 2
  | .Expression => 2
  | .SimpleExpression => 8
  | .LogicalExpression => 6
  | .LogicalTerm => 4
  | .LogicalFactor => 2
  | .Relation => 4
  | .RelationalOperator => 1
  | .ArithmeticExpression => 2
  | .AddOperator => 1
  | .Term => 6
  | .MulOperator => 1
  | .Factor => 4
  | .Primary => 2
  | .TypeSpecifier => 2
  | .Name => 2
  | .ComponentReference => 2
  | .ResultReference => 1
  | .FunctionCallArgs => 2
  | .FunctionArguments => 1
  | .FunctionArgumentsNonFirst => 1
  | .ArrayArguments => 4
  | .ArrayArgumentsNonFirst => 4
  | .NamedArguments => 4
  | .NamedArgument => 2
  | .FunctionArgument => 1
  | .FunctionPartialApplication => 2
  | .OutputExpressionList => 1
  | .ExpressionList => 4
  | .ArraySubscripts => 2
  | .Subscript => 1
  | .Description => 3
  | .DescriptionString => 1
  | .AnnotationClause => 2

theorem grammar_looks : ∀ k : SK, looks (fun _ => true) (Grammar.body k) = true := by
  intro k; cases k <;> decide +kernel

theorem grammar_depth : ∀ k : SK, ht (fun _ => true) depthTable (Grammar.body k) ≤ depthTable k := by
  intro k; cases k <;> decide +kernel

theorem grammar_fits : ∀ k : SK, fits (fun _ => true) depthTable 16 (Grammar.body k) = true := by
  intro k; cases k <;> decide +kernel

variable {toks : List Token} {name : Text}

theorem run_terminates (n : Nat) (k : SK) (hn : parseFuel toks.length ≤ n) :
    run name toks Grammar.body n (.call k) PState.init ≠ .fuel := by
  apply run_ne_fuel (L := fun _ => true) (H := depthTable) (B := 16) (fun k _ => grammar_looks k)
    grammar_depth grammar_fits
  · simp [Ok, PState.init]
  · cases k <;> decide
  · have : ht (fun _ => true) depthTable (.call k) ≤ 16 := by cases k <;> decide
    have hM : M toks PState.init = toks.length * 101 + 100 := rfl
    have hP : parseFuel toks.length = 4000 * (101 * (toks.length + 1) + 1) := rfl
    rw [hM]
    generalize ht (fun _ => true) depthTable (.call k) = x at *
    generalize parseFuel toks.length = y at *
    omega

theorem run_mono {body : SK → Cmd} : ∀ (n : Nat) (c : Cmd) (s : PState),
    run name toks body n c s ≠ .fuel → run name toks body (n + 1) c s = run name toks body n c s := by
  have bind_congr : ∀ {α β : Type} {a a' : Res α} {f f' : α → Res β},
      (a ≠ .fuel → a' = a) → (∀ x, a = .ok x → f x ≠ .fuel → f' x = f x) →
      a.bind f ≠ .fuel → a'.bind f' = a.bind f := by
    intro α β a a' f f' h1 h2 h
    cases a with
    | ok x => rw [h1 (by simp)]; exact h2 x rfl h
    | panic p => rw [h1 (by simp)]; rfl
    | fuel => simp at h
  intro n
  induction n with
  | zero => intro c s h; exact absurd rfl h
  | succ n ih =>
    intro c s h
    cases c with
    | seq a b =>
      simp only [run] at h ⊢
      exact bind_congr (ih a s) (fun x _ => ih b x) h
    | ite c a b =>
      simp only [run] at h ⊢
      refine bind_congr (fun _ => rfl) (fun x _ hx => ?_) h
      obtain ⟨t, x⟩ := x
      dsimp only at hx ⊢
      split <;> rename_i ht <;> simp [ht] at hx
      · exact ih a x hx
      · exact ih b x hx
    | «while» c a =>
      simp only [run] at h
      rw [run, run]
      refine bind_congr (fun _ => rfl) (fun x _ hx => ?_) h
      obtain ⟨t, x⟩ := x
      dsimp only at hx ⊢
      split <;> rename_i ht <;> simp [ht] at hx
      · exact bind_congr (ih a x) (fun y _ => ih _ y) hx
      · rfl
    | call k =>
      simp only [run] at h ⊢
      exact bind_congr (ih _ _) (fun x _ _ => rfl) h
    | ifk ks a b =>
      simp only [run] at h ⊢
      split <;> rename_i ht <;> simp only [ht] at h
      · exact ih a s (by simpa using h)
      · exact ih b s (by simpa using h)
    | _ => simp only [run]

theorem run_mono_le {body : SK → Cmd} {n m : Nat} (hnm : n ≤ m) {c : Cmd} {s : PState}
    (h : run name toks body n c s ≠ .fuel) : run name toks body m c s = run name toks body n c s := by
  induction hnm with
  | refl => rfl
  | step _ ih => rw [run_mono _ _ _ (by rw [ih]; exact h), ih]

/-! ### Parsing depends only on the kinds -/

/-- States that agree on everything the grammar functions can observe. -/
structure Same (s s' : PState) : Prop where
  evs : s.evs = s'.evs
  errors : s.errors.length = s'.errors.length
  pos : s.pos = s'.pos
  lifes : s.lifes = s'.lifes
  last : s.last = s'.last

/-- Related outcomes: both succeed with related values, or both stop in the same way. -/
inductive ResRel {α β : Type} (R : α → β → Prop) : Res α → Res β → Prop where
  | ok {a b} : R a b → ResRel R (.ok a) (.ok b)
  | panic {p} : ResRel R (.panic p) (.panic p)
  | fuel : ResRel R .fuel .fuel

theorem ResRel.bind {α β γ δ : Type} {R : α → β → Prop} {S : γ → δ → Prop} {a : Res α} {b : Res β}
    {f : α → Res γ} {g : β → Res δ} (h : ResRel R a b) (hf : ∀ x y, R x y → ResRel S (f x) (g y)) :
    ResRel S (a.bind f) (b.bind g) := by
  cases h with
  | ok h => exact hf _ _ h
  | panic => exact .panic
  | fuel => exact .fuel

/-- Same value and same state. -/
def SameP {α : Type} (x y : α × PState) : Prop := x.1 = y.1 ∧ Same x.2 y.2

variable {toks' : List Token} {name' : Text}

theorem kinds_get (hk : toks.map (·.kind) = toks'.map (·.kind)) (i : Nat) :
    (toks[i]?).map (·.kind) = (toks'[i]?).map (·.kind) := by
  rw [← List.getElem?_map, ← List.getElem?_map, hk]

theorem kinds_len (hk : toks.map (·.kind) = toks'.map (·.kind)) : toks.length = toks'.length := by
  have := congrArg List.length hk; simpa using this

theorem nth_same (hk : toks.map (·.kind) = toks'.map (·.kind)) (n : Nat) {s s' : PState}
    (h : Same s s') : ResRel SameP (s.nth toks n) (s'.nth toks' n) := by
  have hl := kinds_len hk
  unfold PState.nth
  rw [h.lifes, h.pos, kinds_get hk]
  have : toks.isEmpty = toks'.isEmpty := by
    cases toks <;> cases toks' <;> simp_all
  rw [this]
  split
  · split <;> exact .panic
  · exact .ok ⟨rfl, ⟨h.evs, h.errors, rfl, rfl, rfl⟩⟩

theorem advance_same (hk : toks.map (·.kind) = toks'.map (·.kind)) {s s' : PState}
    (h : Same s s') : ResRel Same (s.advance toks) (s'.advance toks') := by
  have hl := kinds_len hk
  unfold PState.advance PState.eof
  rw [h.pos, hl]
  split
  · exact .panic
  · exact .ok ⟨by simp [h.evs], h.errors, by simp, rfl, h.last⟩

theorem error_same (hk : toks.map (·.kind) = toks'.map (·.kind)) {s s' : PState} {m m' : Text}
    (h : Same s s') : ResRel Same (s.error name toks m) (s'.error name' toks' m') := by
  have hl := kinds_len hk
  have hg : ∀ e e' : Text,
      Same { s with errors := s.errors ++ [e], pos := s'.pos } { s' with errors := s'.errors ++ [e'] } :=
    fun e e' => ⟨h.evs, by simp [h.errors], rfl, h.lifes, h.last⟩
  unfold PState.error
  have h1 := kinds_get hk s.pos
  rw [h.pos] at h1 ⊢
  cases h2 : toks[s'.pos]? <;> cases h3 : toks'[s'.pos]? <;> simp [h2, h3] at h1
  · have h4 := kinds_get hk (toks.length - 1)
    rw [List.getLast?_eq_getElem?, List.getLast?_eq_getElem?, ← hl]
    cases h5 : toks[toks.length - 1]? <;> cases h6 : toks'[toks.length - 1]? <;> simp [h5, h6] at h4
    · exact .panic
    · exact .ok (hg _ _)
  · exact .ok (hg _ _)

theorem evalCond_same (hk : toks.map (·.kind) = toks'.map (·.kind)) (c : Cond) :
    ∀ {s s' : PState}, Same s s' → ResRel SameP (evalCond toks c s) (evalCond toks' c s') := by
  induction c with
  | check k | checkAny ks | nthIs n k =>
    intro s s' h
    refine (nth_same hk _ h).bind fun x y hxy => ?_
    obtain ⟨h1, h2⟩ := hxy
    exact .ok ⟨by simp [h1], h2⟩
  | consume k =>
    intro s s' h
    refine (nth_same hk _ h).bind fun x y hxy => ?_
    obtain ⟨h1, h2⟩ := hxy
    dsimp only
    rw [h1]
    split
    · exact (advance_same hk h2).bind fun x y hxy => .ok ⟨rfl, hxy⟩
    · exact .ok ⟨rfl, h2⟩
  | eof =>
    intro s s' h
    exact .ok ⟨by simp [PState.eof, h.pos, kinds_len hk], h⟩
  | not c ih =>
    intro s s' h
    refine (ih h).bind fun x y hxy => .ok ⟨by simp [hxy.1], hxy.2⟩
  | and a b iha ihb =>
    intro s s' h
    refine (iha h).bind fun x y hxy => ?_
    dsimp only
    rw [hxy.1]
    split
    · exact ihb hxy.2
    · exact .ok ⟨rfl, hxy.2⟩
  | or a b iha ihb =>
    intro s s' h
    refine (iha h).bind fun x y hxy => ?_
    dsimp only
    rw [hxy.1]
    split
    · exact .ok ⟨rfl, hxy.2⟩
    · exact ihb hxy.2

theorem run_same (hk : toks.map (·.kind) = toks'.map (·.kind)) {body : SK → Cmd} :
    ∀ (n : Nat) (c : Cmd) {s s' : PState}, Same s s' →
      ResRel Same (run name toks body n c s) (run name' toks' body n c s') := by
  intro n
  induction n with
  | zero => intro c s s' h; exact .fuel
  | succ n ih =>
    intro c s s' h
    cases c with
    | skip => exact .ok h
    | seq a b => exact (ih a h).bind fun x y hxy => ih b hxy
    | ite c a b =>
      refine (evalCond_same hk c h).bind fun x y hxy => ?_
      dsimp only
      rw [hxy.1]
      split
      · exact ih a hxy.2
      · exact ih b hxy.2
    | «while» c a =>
      rw [run, run]
      refine (evalCond_same hk c h).bind fun x y hxy => ?_
      dsimp only
      rw [hxy.1]
      split
      · exact (ih a hxy.2).bind fun x y hxy => ih _ hxy
      · exact .ok hxy.2
    | eval c => exact (evalCond_same hk c h).bind fun x y hxy => .ok hxy.2
    | expect k =>
      refine (evalCond_same hk _ h).bind fun x y hxy => ?_
      dsimp only
      rw [hxy.1]
      split
      · exact .ok hxy.2
      · exact (nth_same hk _ hxy.2).bind fun x y hxy => error_same hk hxy.2
    | advance => exact advance_same hk h
    | call k =>
      have he : Same s.enter s'.enter :=
        ⟨by simp [PState.enter, h.evs], h.errors, h.pos, h.lifes, h.last⟩
      exact (ih _ he).bind fun x y hxy =>
        .ok ⟨by simp [PState.exit, hxy.evs, h.evs], hxy.errors, hxy.pos, hxy.lifes, hxy.last⟩
    | advErr m pre post =>
      refine (nth_same hk _ h).bind fun x y hxy => ?_
      refine (error_same hk hxy.2).bind fun x y hxy => ?_
      have he : Same x.enter y.enter :=
        ⟨by simp [PState.enter, hxy.evs], hxy.errors, hxy.pos, hxy.lifes, hxy.last⟩
      refine (advance_same hk he).bind fun x' y' h' => ?_
      exact .ok ⟨by simp [PState.exit, h'.evs, hxy.evs], h'.errors, h'.pos, h'.lifes, h'.last⟩
    | look m => exact (nth_same hk _ h).bind fun x y hxy => .ok hxy.2
    | ifk ks a b =>
      rw [run, run, h.last]
      split
      · exact ih a h
      · exact ih b h
    | unreachable => exact .panic

/-- What two runs of the parser on equal kinds have in common. -/
theorem events_same (hk : toks.map (·.kind) = toks'.map (·.kind)) (entry : SK) :
    ResRel (fun x y => x.1 = y.1 ∧ x.2.length = y.2.length) (events name toks entry)
      (events name' toks' entry) := by
  unfold events
  rw [kinds_len hk]
  refine (run_same hk _ _ ⟨rfl, rfl, rfl, rfl, rfl⟩).bind fun x y hxy => ?_
  exact .ok ⟨by simp [hxy.evs], hxy.errors⟩

/-! ### Error messages -/

/-- Every message names the file and the start of a token of the file. -/
def Located (name : Text) (toks : List Token) (es : List Text) : Prop :=
  ∀ e ∈ es, ∃ t ∈ toks, ∃ msg, e = errorText name t.start msg

theorem error_located {s s' : PState} {m : Text} (hs : Located name toks s.errors)
    (h : s.error name toks m = .ok s') : Located name toks s'.errors := by
  unfold PState.error at h
  split at h
  · rename_i t ht
    simp at h; subst h
    intro e he
    simp at he
    rcases he with he | rfl
    · exact hs e he
    · exact ⟨t, List.mem_of_getElem? ht, m, rfl⟩
  · split at h
    · rename_i t ht
      simp at h; subst h
      intro e he
      simp at he
      rcases he with he | rfl
      · exact hs e he
      · exact ⟨t, List.mem_of_getLast? ht, m, rfl⟩
    · simp at h

theorem nth_errors {n : Nat} {s s' : PState} {k : Tok} (h : s.nth toks n = .ok (k, s')) :
    s'.errors = s.errors := (nth_grew h).2.2

theorem advance_errors {s s' : PState} (h : s.advance toks = .ok s') : s'.errors = s.errors := by
  unfold PState.advance at h
  split at h <;> simp at h
  subst h; rfl

theorem evalCond_errors (c : Cond) : ∀ {s s' : PState} {b : Bool},
    evalCond toks c s = .ok (b, s') → s'.errors = s.errors := by
  induction c with
  | check k | checkAny ks | nthIs n k =>
    intro s s' b h
    simp only [evalCond, Res.bind_eq_ok] at h
    obtain ⟨⟨k', s1⟩, h1, h2⟩ := h
    simp at h2
    rw [← h2.2]
    exact nth_errors h1
  | consume k =>
    intro s s' b h
    simp only [evalCond, Res.bind_eq_ok] at h
    obtain ⟨⟨k', s1⟩, h1, h2⟩ := h
    split at h2
    · simp only [Res.bind_eq_ok] at h2
      obtain ⟨s2, h3, h4⟩ := h2
      simp at h4
      rw [← h4.2, advance_errors h3, nth_errors h1]
    · simp at h2
      rw [← h2.2]
      exact nth_errors h1
  | eof => intro s s' b h; simp [evalCond] at h; rw [h.2]
  | not c ih =>
    intro s s' b h
    simp only [evalCond, Res.bind_eq_ok] at h
    obtain ⟨⟨k', s1⟩, h1, h2⟩ := h
    simp at h2
    rw [← h2.2]
    exact ih h1
  | and a b iha ihb | or a b iha ihb =>
    intro s s' t h
    simp only [evalCond, Res.bind_eq_ok] at h
    obtain ⟨⟨k', s1⟩, h1, h2⟩ := h
    dsimp only at h2
    split at h2
    · first
        | rw [ihb h2]; exact iha h1
        | (simp at h2; rw [← h2.2]; exact iha h1)
    · first
        | rw [ihb h2]; exact iha h1
        | (simp at h2; rw [← h2.2]; exact iha h1)

theorem run_located {body : SK → Cmd} : ∀ (n : Nat) (c : Cmd) {s s' : PState},
    Located name toks s.errors → run name toks body n c s = .ok s' →
    Located name toks s'.errors := by
  intro n
  induction n with
  | zero => intro c s s' _ h; simp [run] at h
  | succ n ih =>
    intro c s s' hs h
    cases c with
    | skip => simp [run] at h; subst h; exact hs
    | seq a b =>
      simp only [run, Res.bind_eq_ok] at h
      obtain ⟨s1, h1, h2⟩ := h
      exact ih b (ih a hs h1) h2
    | ite c a b =>
      simp only [run, Res.bind_eq_ok] at h
      obtain ⟨⟨t, s1⟩, h1, h2⟩ := h
      have := evalCond_errors c h1
      dsimp only at h2
      split at h2
      · exact ih a (by rw [this]; exact hs) h2
      · exact ih b (by rw [this]; exact hs) h2
    | «while» c a =>
      simp only [run, Res.bind_eq_ok] at h
      obtain ⟨⟨t, s1⟩, h1, h2⟩ := h
      have := evalCond_errors c h1
      dsimp only at h2
      split at h2
      · simp only [Res.bind_eq_ok] at h2
        obtain ⟨s2, h3, h4⟩ := h2
        exact ih _ (ih a (by rw [this]; exact hs) h3) h4
      · simp at h2; subst h2; rw [this]; exact hs
    | eval c =>
      simp only [run, Res.bind_eq_ok] at h
      obtain ⟨⟨t, s1⟩, h1, h2⟩ := h
      simp at h2; subst h2
      rw [evalCond_errors c h1]; exact hs
    | expect k =>
      simp only [run, Res.bind_eq_ok] at h
      obtain ⟨⟨t, s1⟩, h1, h2⟩ := h
      have := evalCond_errors _ h1
      dsimp only at h2
      split at h2
      · simp at h2; subst h2; rw [this]; exact hs
      · simp only [Res.bind_eq_ok] at h2
        obtain ⟨⟨k', s2⟩, h3, h4⟩ := h2
        exact error_located (by rw [nth_errors h3, this]; exact hs) h4
    | advance => rw [run] at h; rw [advance_errors h]; exact hs
    | call k =>
      simp only [run, Res.bind_eq_ok] at h
      obtain ⟨s1, h1, h2⟩ := h
      simp at h2; subst h2
      change Located name toks s1.errors
      exact ih _ (s := s.enter) hs h1
    | advErr m pre post =>
      simp only [run, Res.bind_eq_ok] at h
      obtain ⟨⟨k', s1⟩, h1, s2, h2, s3, h3, h4⟩ := h
      simp at h4; subst h4
      have := error_located (by rw [nth_errors h1]; exact hs) h2
      change Located name toks s3.errors
      rw [advance_errors h3]; exact this
    | look m =>
      simp only [run, Res.bind_eq_ok] at h
      obtain ⟨⟨k', s1⟩, h1, h2⟩ := h
      simp at h2; subst h2
      rw [nth_errors h1]; exact hs
    | ifk ks a b =>
      simp only [run] at h
      split at h
      · exact ih a hs h
      · exact ih b hs h
    | unreachable => simp [run] at h

end Mofmt
