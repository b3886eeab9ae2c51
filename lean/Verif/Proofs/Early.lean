import Verif.Props.Viable
/-
The parser looks one token ahead.  Two token lists that agree up to a place are treated alike until the
parser comes to the last token they share.
-/
namespace Mofmt
namespace Via

section
variable {name name' : Text} {toks toks' : List Token} {m : Nat}

/-- the first `m` tokens are of the same kinds, and there are so many -/
structure Agree (toks toks' : List Token) (m : Nat) : Prop where
  le : m ≤ toks.length
  le' : m ≤ toks'.length
  eq : ∀ j, j < m → (toks[j]?).map (·.kind) = (toks'[j]?).map (·.kind)

/-- the same for all that follows -/
def Same (s s' : PState) : Prop := s'.pos = s.pos ∧ s'.last = s.last

theorem nth_same {n : Nat} (ha : Agree toks toks' m) {s s' s1 s1' : PState} {k k' : Tok} (hs : Same s s') (hm : s.pos + n < m)
    (h : s.nth toks n = .ok (k, s1)) (h' : s'.nth toks' n = .ok (k', s1')) :
    k' = k ∧ Same s1 s1' ∧ s1.pos = s.pos ∧ k = ((toks[s.pos + n]?).map (·.kind)).getD .EOF := by
  unfold PState.nth at h h'
  split at h
  · split at h <;> cases h
  split at h'
  · split at h' <;> cases h'
  simp only [Res.ok.injEq, Prod.mk.injEq] at h h'
  obtain ⟨rfl, rfl⟩ := h
  obtain ⟨rfl, rfl⟩ := h'
  have := ha.eq _ hm
  rw [← hs.1] at this
  have e : (Option.map (fun x => x.kind) toks'[s'.pos + n]?).getD Tok.EOF =
      (Option.map (fun x => x.kind) toks[s.pos + n]?).getD Tok.EOF := by rw [← this, hs.1]
  exact ⟨e, ⟨hs.1, e⟩, rfl, rfl⟩

theorem advance_same {s s' s1 s1' : PState} (hs : Same s s')
    (h : s.advance toks = .ok s1) (h' : s'.advance toks' = .ok s1') : Same s1 s1' ∧ s1.pos = s.pos + 1 := by
  unfold PState.advance at h h'
  split at h
  · cases h
  split at h'
  · cases h'
  simp only [Res.ok.injEq] at h h'
  subst h h'
  exact ⟨⟨by simp [hs.1], hs.2⟩, rfl⟩

/-- the condition looks at most one token ahead -/
def condNear : Cond → Bool
  | .nthIs n _ => n ≤ 1
  | .not c => condNear c
  | .and a b | .or a b => condNear a && condNear b
  | _ => true

theorem cond_agree (ha : Agree toks toks' m) (c : Cond) : ∀ {s s' s1 s1' : PState} {b b' : Bool}, condNear c = true →
    Same s s' → s.pos ≤ toks.length →
    evalCond toks c s = .ok (b, s1) → evalCond toks' c s' = .ok (b', s1') →
    (b' = b ∧ Same s1 s1') ∨ m ≤ s1.pos + 1 := by
  induction c with
  | check k =>
    intro s s' s1 s1' b b' _ hs hle h h'
    simp only [evalCond, Res.bind_eq_ok] at h h'
    obtain ⟨⟨k1, t1⟩, h1, h2⟩ := h
    obtain ⟨⟨k2, t2⟩, h3, h4⟩ := h'
    simp only [Res.ok.injEq, Prod.mk.injEq] at h2 h4
    obtain ⟨rfl, rfl⟩ := h2
    obtain ⟨rfl, rfl⟩ := h4
    by_cases hm : s.pos + 0 < m
    · obtain ⟨rfl, e, _⟩ := nth_same ha hs hm h1 h3
      exact .inl ⟨rfl, e⟩
    · obtain ⟨_, e2, _⟩ := nth_grew h1
      exact .inr (by omega)
  | checkAny ks =>
    intro s s' s1 s1' b b' _ hs hle h h'
    simp only [evalCond, Res.bind_eq_ok] at h h'
    obtain ⟨⟨k1, t1⟩, h1, h2⟩ := h
    obtain ⟨⟨k2, t2⟩, h3, h4⟩ := h'
    simp only [Res.ok.injEq, Prod.mk.injEq] at h2 h4
    obtain ⟨rfl, rfl⟩ := h2
    obtain ⟨rfl, rfl⟩ := h4
    by_cases hm : s.pos + 0 < m
    · obtain ⟨rfl, e, _⟩ := nth_same ha hs hm h1 h3
      exact .inl ⟨rfl, e⟩
    · obtain ⟨_, e2, _⟩ := nth_grew h1
      exact .inr (by omega)
  | nthIs n k =>
    intro s s' s1 s1' b b' hn hs hle h h'
    simp only [condNear, decide_eq_true_eq] at hn
    simp only [evalCond, Res.bind_eq_ok] at h h'
    obtain ⟨⟨k1, t1⟩, h1, h2⟩ := h
    obtain ⟨⟨k2, t2⟩, h3, h4⟩ := h'
    simp only [Res.ok.injEq, Prod.mk.injEq] at h2 h4
    obtain ⟨rfl, rfl⟩ := h2
    obtain ⟨rfl, rfl⟩ := h4
    by_cases hm : s.pos + n < m
    · obtain ⟨rfl, e, _⟩ := nth_same ha hs hm h1 h3
      exact .inl ⟨rfl, e⟩
    · obtain ⟨_, e2, _⟩ := nth_grew h1
      exact .inr (by omega)
  | consume k =>
    intro s s' s1 s1' b b' _ hs hle h h'
    obtain ⟨_, g, _⟩ := evalCond_grew _ hle h
    have hp := Grew.pos_le g
    simp only [evalCond, Res.bind_eq_ok] at h h'
    obtain ⟨⟨k1, t1⟩, h1, h2⟩ := h
    obtain ⟨⟨k2, t2⟩, h3, h4⟩ := h'
    dsimp only at h2 h4
    by_cases hm : s.pos + 0 < m
    · obtain ⟨rfl, e, _⟩ := nth_same ha hs hm h1 h3
      split at h2
      · rename_i hk
        rw [if_pos hk] at h4
        simp only [Res.bind_eq_ok] at h2 h4
        obtain ⟨u, h5, h6⟩ := h2
        obtain ⟨u', h7, h8⟩ := h4
        simp only [Res.ok.injEq, Prod.mk.injEq] at h6 h8
        obtain ⟨rfl, rfl⟩ := h6
        obtain ⟨rfl, rfl⟩ := h8
        exact .inl ⟨rfl, (advance_same e h5 h7).1⟩
      · rename_i hk
        rw [if_neg hk] at h4
        simp only [Res.ok.injEq, Prod.mk.injEq] at h2 h4
        obtain ⟨rfl, rfl⟩ := h2
        obtain ⟨rfl, rfl⟩ := h4
        exact .inl ⟨rfl, e⟩
    · exact .inr (by omega)
  | eof =>
    intro s s' s1 s1' b b' _ hs hle h h'
    simp only [evalCond, Res.ok.injEq, Prod.mk.injEq] at h h'
    obtain ⟨rfl, rfl⟩ := h
    obtain ⟨rfl, rfl⟩ := h'
    by_cases hm : s.pos < m
    · refine .inl ⟨?_, hs⟩
      have := ha.le
      have := ha.le'
      have := hs.1
      have e1 : s.eof toks = false := by unfold PState.eof; simp; omega
      have e2 : s'.eof toks' = false := by unfold PState.eof; simp; omega
      rw [e1, e2]
    · exact .inr (by omega)
  | not c ih =>
    intro s s' s1 s1' b b' hn hs hle h h'
    simp only [condNear] at hn
    simp only [evalCond, Res.bind_eq_ok] at h h'
    obtain ⟨⟨k1, t1⟩, h1, h2⟩ := h
    obtain ⟨⟨k2, t2⟩, h3, h4⟩ := h'
    simp only [Res.ok.injEq, Prod.mk.injEq] at h2 h4
    obtain ⟨rfl, rfl⟩ := h2
    obtain ⟨rfl, rfl⟩ := h4
    rcases ih hn hs hle h1 h3 with ⟨rfl, e⟩ | e
    · exact .inl ⟨rfl, e⟩
    · exact .inr e
  | and c d ihc ihd =>
    intro s s' s1 s1' b b' hn hs hle h h'
    simp only [condNear, Bool.and_eq_true] at hn
    simp only [evalCond, Res.bind_eq_ok] at h h'
    obtain ⟨⟨k1, t1⟩, h1, h2⟩ := h
    obtain ⟨⟨k2, t2⟩, h3, h4⟩ := h'
    obtain ⟨_, g1, _⟩ := evalCond_grew _ hle h1
    have g1le := g1.le
    have p1 := Grew.pos_le g1
    dsimp only at h2 h4 g1le p1
    have hmore : t1.pos ≤ s1.pos := by
      split at h2
      · obtain ⟨_, g, _⟩ := evalCond_grew _ g1le h2
        exact Grew.pos_le g
      · simp only [Res.ok.injEq, Prod.mk.injEq] at h2
        rw [h2.2]
        exact Nat.le_refl _
    rcases ihc hn.1 hs hle h1 h3 with ⟨rfl, e⟩ | e
    · split at h2
      · rename_i hk
        rw [if_pos hk] at h4
        exact ihd hn.2 e g1le h2 h4
      · rename_i hk
        rw [if_neg hk] at h4
        simp only [Res.ok.injEq, Prod.mk.injEq] at h2 h4
        obtain ⟨rfl, rfl⟩ := h2
        obtain ⟨rfl, rfl⟩ := h4
        exact .inl ⟨rfl, e⟩
    · exact .inr (by omega)
  | or c d ihc ihd =>
    intro s s' s1 s1' b b' hn hs hle h h'
    simp only [condNear, Bool.and_eq_true] at hn
    simp only [evalCond, Res.bind_eq_ok] at h h'
    obtain ⟨⟨k1, t1⟩, h1, h2⟩ := h
    obtain ⟨⟨k2, t2⟩, h3, h4⟩ := h'
    obtain ⟨_, g1, _⟩ := evalCond_grew _ hle h1
    have g1le := g1.le
    have p1 := Grew.pos_le g1
    dsimp only at h2 h4 g1le p1
    have hmore : t1.pos ≤ s1.pos := by
      split at h2
      · simp only [Res.ok.injEq, Prod.mk.injEq] at h2
        rw [h2.2]
        exact Nat.le_refl _
      · obtain ⟨_, g, _⟩ := evalCond_grew _ g1le h2
        exact Grew.pos_le g
    rcases ihc hn.1 hs hle h1 h3 with ⟨rfl, e⟩ | e
    · split at h2
      · rename_i hk
        rw [if_pos hk] at h4
        simp only [Res.ok.injEq, Prod.mk.injEq] at h2 h4
        obtain ⟨rfl, rfl⟩ := h2
        obtain ⟨rfl, rfl⟩ := h4
        exact .inl ⟨rfl, e⟩
      · rename_i hk
        rw [if_neg hk] at h4
        exact ihd hn.2 e g1le h2 h4
    · exact .inr (by omega)

/-- the statement looks at most one token ahead -/
def near : Cmd → Bool
  | .seq a b | .ifk _ a b => near a && near b
  | .ite c a b => condNear c && near a && near b
  | .while c a => condNear c && near a
  | .eval c => condNear c
  | .advErr n _ _ | .look n => n ≤ 1
  | _ => true

theorem near_all : (SK.all.all fun k => k == .ClassSpecifier || near (Grammar.body k)) = true := by
  decide +kernel

theorem near_body (k : SK) (hk : k ≠ .ClassSpecifier) : near (Grammar.body k) = true := by
  have := List.all_eq_true.mp near_all k (by cases k <;> decide)
  simpa [hk] using this

/-- what the two runs have in common: they end alike, or the first has come to the last common token, all its
messages being about that place or later ones -/
def Both (name : Text) (toks : List Token) (m : Nat) (s s1 s1' : PState) : Prop :=
  (Same s1 s1' ∧ s1.errors = s.errors) ∨
  (m ≤ s1.pos + 1 ∧ ∃ new, s1.errors = s.errors ++ new ∧ ∀ e ∈ new, ∃ q, m ≤ q + 1 ∧ At name toks e q)

theorem Both.of_new {s s1 s1' : PState} (h : New name toks s s1) (hp : s.pos ≤ s1.pos) (hm : m ≤ s.pos + 1) : Both name toks m s s1 s1' := by
  obtain ⟨new, h1, h2⟩ := h
  refine .inr ⟨by omega, new, h1, ?_⟩
  intro e he
  obtain ⟨q, q1, q2, q3⟩ := h2 e he
  exact ⟨q, by omega, q3⟩

theorem Both.later {s t s1 s1' : PState} (he : t.errors = s.errors) (h : Both name toks m t s1 s1') : Both name toks m s s1 s1' := by
  unfold Both at *
  rwa [he] at h

/-- continue from the middle -/
theorem Both.trans {s t t' s1 s1' : PState} (h : Both name toks m s t t') (hp : t.pos ≤ s1.pos) (hn : New name toks t s1)
    (h2 : Same t t' → Both name toks m t s1 s1') : Both name toks m s s1 s1' := by
  rcases h with ⟨e, f⟩ | ⟨e, new, f, g⟩
  · exact (h2 e).later f
  · obtain ⟨new2, f2, g2⟩ := hn
    refine .inr ⟨by omega, new ++ new2, by rw [f2, f, List.append_assoc], ?_⟩
    intro e' he
    rcases List.mem_append.mp he with he | he
    · exact g e' he
    · obtain ⟨q, q1, q2, q3⟩ := g2 e' he
      exact ⟨q, by omega, q3⟩

theorem quiet_mid {a b c : List Text} (h1 : ∃ new, b = a ++ new) (h2 : ∃ new, c = b ++ new) (h : c = a) : b = a ∧ c = b := by
  obtain ⟨x, rfl⟩ := h1
  obtain ⟨y, rfl⟩ := h2
  have : x = [] ∧ y = [] := by
    have := congrArg List.length h
    simp only [List.length_append] at this
    exact ⟨List.length_eq_zero_iff.mp (by omega), List.length_eq_zero_iff.mp (by omega)⟩
  obtain ⟨rfl, rfl⟩ := this
  simp

theorem error_loud {s s' : PState} {msg : Text} (h : s.error name toks msg = .ok s') : s'.errors ≠ s.errors := by
  obtain ⟨e, h, _⟩ := error_text h
  rw [h]
  simp

/-- a passed token -/
theorem expect_known {n : Nat} {k : Tok} {s s1 : PState} (hk : (toks[s.pos]?).map (·.kind) = some k)
    (h : run name toks Grammar.body n (.expect k) s = .ok s1) : s1.pos = s.pos + 1 ∧ s1.errors = s.errors := by
  cases n with
  | zero => simp [run] at h
  | succ n =>
    simp only [run, Res.bind_eq_ok] at h
    obtain ⟨⟨b, t⟩, h1, h2⟩ := h
    have e := evalCond_errors _ h1
    simp only [evalCond, Res.bind_eq_ok] at h1
    obtain ⟨⟨k', t'⟩, h3, h4⟩ := h1
    have hk' : k' = k ∧ t'.pos = s.pos := by
      unfold PState.nth at h3
      split at h3
      · split at h3 <;> cases h3
      simp only [Res.ok.injEq, Prod.mk.injEq] at h3
      obtain ⟨rfl, rfl⟩ := h3
      simp [hk]
    dsimp only at h4
    rw [if_pos (by simp [hk'.1])] at h4
    simp only [Res.bind_eq_ok] at h4
    obtain ⟨u, h5, h6⟩ := h4
    simp only [Res.ok.injEq, Prod.mk.injEq] at h6
    obtain ⟨rfl, rfl⟩ := h6
    simp only [if_true, Res.ok.injEq] at h2
    subst h2
    refine ⟨?_, e⟩
    unfold PState.advance at h5
    split at h5
    · cases h5
    simp only [Res.ok.injEq] at h5
    subst h5
    simp [hk'.2]

/-- short class specifiers and those with `der` pass the name and `=` -/
theorem specifier_pass {n : Nat} {k : SK} {rest : Cmd} (hb : Grammar.body k = .seq (.expect .Identifier) (.seq (.expect .Equal) rest))
    {s s1 : PState} (hle : s.pos ≤ toks.length) (h0 : (toks[s.pos]?).map (·.kind) = some .Identifier)
    (h1 : (toks[s.pos + 1]?).map (·.kind) = some .Equal)
    (h : run name toks Grammar.body n (.call k) s = .ok s1) (hm : m ≤ s.pos + 3) {s1' : PState} : Both name toks m s s1 s1' := by
  cases n with
  | zero => simp [run] at h
  | succ n =>
    simp only [run, Res.bind_eq_ok] at h
    obtain ⟨u, h2, h3⟩ := h
    simp only [Res.ok.injEq] at h3
    rw [hb] at h2
    cases n with
    | zero => simp [run] at h2
    | succ n =>
      simp only [run, Res.bind_eq_ok] at h2
      obtain ⟨v, h4, h5⟩ := h2
      obtain ⟨p1, e1⟩ := expect_known (s := s.enter) h0 h4
      change v.pos = s.pos + 1 at p1
      change v.errors = s.errors at e1
      obtain ⟨_, g1⟩ := run_grew' n _ (show s.enter.pos ≤ _ from hle) h4
      cases n with
      | zero => simp [run] at h5
      | succ n =>
        simp only [run, Res.bind_eq_ok] at h5
        obtain ⟨w, h6, h7⟩ := h5
        obtain ⟨p2, e2⟩ := expect_known (by rw [p1]; exact h1) h6
        obtain ⟨_, g2⟩ := run_grew' n _ g1.le h6
        obtain ⟨_, g3⟩ := run_grew' n _ g2.le h7
        have hn := run_new n _ g2.le h7
        subst h3
        have hb : Both name toks m w u s1' := Both.of_new hn (Grew.pos_le g3) (by omega)
        have := hb.later (by rw [e2, e1] : w.errors = s.errors)
        rcases this with ⟨⟨a, b⟩, c⟩ | d
        · exact .inl ⟨⟨a, b⟩, c⟩
        · exact .inr d

theorem ite_split {n : Nat} {c : Cond} {a b : Cmd} {s s1 : PState} (h : run name toks Grammar.body n (.ite c a b) s = .ok s1) :
    ∃ x t, evalCond toks c s = .ok (x, t) ∧ run name toks Grammar.body n (if x then a else b) t = .ok s1 := by
  cases n with
  | zero => simp [run] at h
  | succ n =>
    simp only [run, Res.bind_eq_ok] at h
    obtain ⟨⟨x, t⟩, h1, h2⟩ := h
    refine ⟨x, t, h1, ?_⟩
    dsimp only at h2
    have e : run name toks Grammar.body n (if x then a else b) t = .ok s1 := by
      cases x <;> simpa using h2
    rw [run_mono_le (Nat.le_succ n) (by rw [e]; simp), e]

theorem check_kind {k : Tok} {n : Nat} {s t : PState} (h : evalCond toks (.nthIs n k) s = .ok (true, t)) (hn : s.pos + n < toks.length) :
    (toks[s.pos + n]?).map (·.kind) = some k := by
  simp only [evalCond, Res.bind_eq_ok] at h
  obtain ⟨⟨k1, t1⟩, h1, h2⟩ := h
  simp only [Res.ok.injEq, Prod.mk.injEq, beq_iff_eq] at h2
  unfold PState.nth at h1
  split at h1
  · split at h1 <;> cases h1
  simp only [Res.ok.injEq, Prod.mk.injEq] at h1
  rw [List.getElem?_eq_getElem hn] at h1 ⊢
  have := h1.1
  simp only [Option.map_some, Option.getD_some] at this ⊢
  rw [this, h2.1]

theorem nthIs_pos {k : Tok} {n : Nat} {b : Bool} {s t : PState} (h : evalCond toks (.nthIs n k) s = .ok (b, t)) :
    t.pos = s.pos ∧ t.errors = s.errors := by
  refine ⟨?_, evalCond_errors _ h⟩
  simp only [evalCond, Res.bind_eq_ok] at h
  obtain ⟨⟨k1, t1⟩, h1, h2⟩ := h
  simp only [Res.ok.injEq, Prod.mk.injEq] at h2
  obtain ⟨_, e2, _⟩ := nth_grew h1
  rw [← h2.2]
  exact e2

theorem check_nth (k : Tok) (s : PState) : evalCond toks (.check k) s = evalCond toks (.nthIs 0 k) s := rfl

theorem not_split {c : Cond} {x : Bool} {s t : PState} (h : evalCond toks (.not c) s = .ok (x, t)) : evalCond toks c s = .ok (!x, t) := by
  simp only [evalCond, Res.bind_eq_ok] at h
  obtain ⟨⟨k1, t1⟩, h1, h2⟩ := h
  simp only [Res.ok.injEq, Prod.mk.injEq] at h2
  rw [← h2.1, Bool.not_not, ← h2.2]
  exact h1

/-- the test of one token before an alternative -/
theorem test_agree (ha : Agree toks toks' m) {n n' : Nat} {c : Cond} (j : Nat) (k : Tok)
    (hc : ∀ toks s, evalCond toks c s = evalCond toks (.nthIs j k) s) {a b : Cmd} {s s' s1 s1' : PState} (hs : Same s s') (hm : s.pos + j < m)
    (h : run name toks Grammar.body n (.ite c a b) s = .ok s1)
    (h' : run name' toks' Grammar.body n' (.ite c a b) s' = .ok s1') :
    ∃ x t t', evalCond toks (.nthIs j k) s = .ok (x, t) ∧ Same t t' ∧ t.pos = s.pos ∧ t.errors = s.errors ∧
      t'.pos = s'.pos ∧ t'.errors = s'.errors ∧
      run name toks Grammar.body n (if x then a else b) t = .ok s1 ∧ run name' toks' Grammar.body n' (if x then a else b) t' = .ok s1' := by
  obtain ⟨x, t, h1, h2⟩ := ite_split h
  obtain ⟨x', t', h3, h4⟩ := ite_split h'
  rw [hc] at h1 h3
  obtain ⟨p1, e1⟩ := nthIs_pos h1
  obtain ⟨p3, e3⟩ := nthIs_pos h3
  have h1' := h1
  simp only [evalCond, Res.bind_eq_ok] at h1 h3
  obtain ⟨⟨k1, t1⟩, h5, h6⟩ := h1
  obtain ⟨⟨k2, t2⟩, h7, h8⟩ := h3
  simp only [Res.ok.injEq, Prod.mk.injEq] at h6 h8
  obtain ⟨rfl, e, _⟩ := nth_same ha hs hm h5 h7
  obtain ⟨rfl, rfl⟩ := h6
  obtain ⟨rfl, rfl⟩ := h8
  exact ⟨_, _, _, h1', e, p1, e1, p3, e3, h2, h4⟩

/-- the one function that looks two tokens ahead -/
theorem specifier_agree (ha : Agree toks toks' m) {n n' : Nat}
    (ih : ∀ (n' : Nat) (c : Cmd) {s s' s1 s1' : PState}, near c = true →
      Same s s' → s.pos ≤ toks.length → s'.pos ≤ toks'.length →
      run name toks Grammar.body n c s = .ok s1 → run name' toks' Grammar.body n' c s' = .ok s1' →
      s1'.errors = s'.errors → Both name toks m s s1 s1')
    {s s' s1 s1' : PState} (hs : Same s s') (hle : s.pos ≤ toks.length) (hle' : s'.pos ≤ toks'.length) (hm : s.pos + 1 < m)
    (h : run name toks Grammar.body n Grammar.classSpecifier s = .ok s1)
    (h' : run name' toks' Grammar.body n' Grammar.classSpecifier s' = .ok s1')
    (hq : s1'.errors = s'.errors) : Both name toks m s s1 s1' := by
  have hlen := ha.le
  unfold Grammar.classSpecifier at h h'
  obtain ⟨x, t, t', _, e, p1, e1, p2, e2, h2, h4⟩ := test_agree ha (c := .check .Extends) 0 .Extends (fun _ _ => rfl) hs (by omega) h h'
  cases x with
  | true => exact (ih n' _ rfl e (by omega) (by omega) h2 h4 (by rw [hq, e2])).later e1
  | false =>
    simp only [Bool.false_eq_true, if_false] at h2 h4
    obtain ⟨x, u, u', c1, e, p3, e3, p4, e4, h2, h4⟩ := test_agree ha (c := .check .Identifier) 0 .Identifier (fun _ _ => rfl) e (by omega) h2 h4
    cases x with
    | false => exact (ih n' _ rfl e (by omega) (by omega) h2 h4 (by rw [hq, e4, e2])).later (by rw [e3, e1])
    | true =>
      simp only [if_true] at h2 h4
      have k0 := check_kind c1 (by omega)
      obtain ⟨x, v, h5, h6⟩ := ite_split h2
      obtain ⟨x', v', h7, h8⟩ := ite_split h4
      have h5 := not_split h5
      have h7 := not_split h7
      obtain ⟨p5, e5⟩ := nthIs_pos h5
      obtain ⟨p6, e6⟩ := nthIs_pos h7
      have hx : x' = x ∧ Same v v' := by
        simp only [evalCond, Res.bind_eq_ok] at h5 h7
        obtain ⟨⟨k1, t1⟩, h9, h10⟩ := h5
        obtain ⟨⟨k2, t2⟩, h11, h12⟩ := h7
        simp only [Res.ok.injEq, Prod.mk.injEq] at h10 h12
        obtain ⟨rfl, e, _⟩ := nth_same ha e (by omega) h9 h11
        obtain ⟨a1, rfl⟩ := h10
        obtain ⟨a2, rfl⟩ := h12
        refine ⟨?_, e⟩
        have := a1.symm.trans a2
        cases x <;> cases x' <;> simp_all
      obtain ⟨rfl, e⟩ := hx
      cases x' with
      | true => exact (ih n' _ rfl e (by omega) (by omega) h6 h8 (by rw [hq, e6, e4, e2])).later (by rw [e5, e3, e1])
      | false =>
        have k1 := check_kind h5 (by omega)
        simp only [Bool.false_eq_true, if_false] at h6 h8
        by_cases hm2 : v.pos + 2 < m
        · obtain ⟨x, w, w', _, e, p7, e7, p8, e8, h2, h4⟩ := test_agree ha (c := .nthIs 2 .Der) 2 .Der (fun _ _ => rfl) e hm2 h6 h8
          refine (ih n' _ ?_ e (by omega) (by omega) h2 h4 (by rw [hq, e8, e6, e4, e2])).later (by rw [e7, e5, e3, e1])
          cases x <;> rfl
        · obtain ⟨x, w, h9, h10⟩ := ite_split h6
          obtain ⟨p7, e7⟩ := nthIs_pos h9
          have hw : w.pos = t.pos := by omega
          have k0' : (toks[w.pos]?).map (·.kind) = some .Identifier := by rw [hw]; exact k0
          have k1' : (toks[w.pos + 1]?).map (·.kind) = some .Equal := by rw [show w.pos = u.pos by omega]; exact k1
          refine Both.later (by rw [e7, e5, e3, e1] : w.errors = s.errors) ?_
          cases x with
          | true => exact specifier_pass (k := .DerClassSpecifier) rfl (by omega) k0' k1' h10 (by omega)
          | false => exact specifier_pass (k := .ShortClassSpecifier) rfl (by omega) k0' k1' h10 (by omega)

theorem run_agree (ha : Agree toks toks' m) : ∀ (n n' : Nat) (c : Cmd) {s s' s1 s1' : PState}, near c = true →
    Same s s' → s.pos ≤ toks.length → s'.pos ≤ toks'.length →
    run name toks Grammar.body n c s = .ok s1 → run name' toks' Grammar.body n' c s' = .ok s1' →
    s1'.errors = s'.errors → Both name toks m s s1 s1' := by
  intro n
  induction n with
  | zero => intro n' c s s' s1 s1' _ _ _ _ h; simp [run] at h
  | succ n ih =>
    intro n' c s s' s1 s1' hn hs hle hle' h h' hq
    cases n' with
    | zero => simp [run] at h'
    | succ n' =>
    have hnew := run_new (n + 1) c hle h
    obtain ⟨_, g0⟩ := run_grew' (n + 1) c hle h
    have hp0 := Grew.pos_le g0
    by_cases hm : m ≤ s.pos + 1
    · exact .of_new hnew hp0 hm
    cases c with
    | skip => simp [run] at h h'; subst h h'; exact .inl ⟨hs, rfl⟩
    | seq a b =>
      simp only [near, Bool.and_eq_true] at hn
      simp only [run, Res.bind_eq_ok] at h h'
      obtain ⟨t, h1, h2⟩ := h
      obtain ⟨t', h3, h4⟩ := h'
      obtain ⟨_, g1⟩ := run_grew' n a hle h1
      obtain ⟨_, g2⟩ := run_grew' n b g1.le h2
      obtain ⟨_, g3⟩ := run_grew' n' a hle' h3
      obtain ⟨_, g4⟩ := run_grew' n' b g3.le h4
      obtain ⟨q1, q2⟩ := quiet_mid g3.errs g4.errs hq
      exact (ih n' a hn.1 hs hle hle' h1 h3 q1).trans (Grew.pos_le g2) (run_new n b g1.le h2)
        (fun e => ih n' b hn.2 e g1.le g3.le h2 h4 q2)
    | ite c a b =>
      simp only [near, Bool.and_eq_true] at hn
      simp only [run, Res.bind_eq_ok] at h h'
      obtain ⟨⟨x, t⟩, h1, h2⟩ := h
      obtain ⟨⟨x', t'⟩, h3, h4⟩ := h'
      obtain ⟨_, g1, e1⟩ := evalCond_grew c hle h1
      obtain ⟨_, g3, e3⟩ := evalCond_grew c hle' h3
      have hc := cond_agree ha c hn.1.1 hs hle h1 h3
      dsimp only at h2 h4
      rcases hc with ⟨rfl, e⟩ | e
      · split at h2
        · rename_i hx
          rw [if_pos hx] at h4
          exact (ih n' a hn.1.2 e g1.le g3.le h2 h4 (by rw [hq, e3])).later e1
        · rename_i hx
          rw [if_neg hx] at h4
          exact (ih n' b hn.2 e g1.le g3.le h2 h4 (by rw [hq, e3])).later e1
      · split at h2
        · obtain ⟨_, g2⟩ := run_grew' n a g1.le h2
          exact (Both.of_new (run_new n a g1.le h2) (Grew.pos_le g2) e).later e1
        · obtain ⟨_, g2⟩ := run_grew' n b g1.le h2
          exact (Both.of_new (run_new n b g1.le h2) (Grew.pos_le g2) e).later e1
    | «while» c a =>
      have hn' := hn
      simp only [near, Bool.and_eq_true] at hn
      simp only [run, Res.bind_eq_ok] at h h'
      obtain ⟨⟨x, t⟩, h1, h2⟩ := h
      obtain ⟨⟨x', t'⟩, h3, h4⟩ := h'
      obtain ⟨_, g1, e1⟩ := evalCond_grew c hle h1
      obtain ⟨_, g3, e3⟩ := evalCond_grew c hle' h3
      have hc := cond_agree ha c hn.1 hs hle h1 h3
      dsimp only at h2 h4
      rcases hc with ⟨rfl, e⟩ | e
      · split at h2
        · rename_i hx
          rw [if_pos hx] at h4
          simp only [Res.bind_eq_ok] at h2 h4
          obtain ⟨u, h5, h6⟩ := h2
          obtain ⟨u', h7, h8⟩ := h4
          obtain ⟨_, g5⟩ := run_grew' n a g1.le h5
          obtain ⟨_, g6⟩ := run_grew' n _ g5.le h6
          obtain ⟨_, g7⟩ := run_grew' n' a g3.le h7
          obtain ⟨_, g8⟩ := run_grew' n' _ g7.le h8
          obtain ⟨q1, q2⟩ := quiet_mid g7.errs g8.errs (by rw [hq, e3])
          exact ((ih n' a hn.2 e g1.le g3.le h5 h7 q1).trans (Grew.pos_le g6) (run_new n _ g5.le h6)
            (fun e => ih n' _ hn' e g5.le g7.le h6 h8 q2)).later e1
        · rename_i hx
          rw [if_neg hx] at h4
          simp at h2 h4
          subst h2 h4
          exact .inl ⟨e, e1⟩
      · split at h2
        · simp only [Res.bind_eq_ok] at h2
          obtain ⟨u, h5, h6⟩ := h2
          obtain ⟨_, g5⟩ := run_grew' n a g1.le h5
          obtain ⟨_, g6⟩ := run_grew' n _ g5.le h6
          have p5 := Grew.pos_le g5
          have p6 := Grew.pos_le g6
          exact (Both.of_new ((run_new n a g1.le h5).trans (run_new n _ g5.le h6) p5 p6) (by omega) e).later e1
        · simp at h2; subst h2
          exact (Both.of_new (.same rfl) (Nat.le_refl _) e).later e1
    | eval c =>
      simp only [near] at hn
      simp only [run, Res.bind_eq_ok] at h h'
      obtain ⟨⟨x, t⟩, h1, h2⟩ := h
      obtain ⟨⟨x', t'⟩, h3, h4⟩ := h'
      simp at h2 h4; subst h2 h4
      have e1 := evalCond_errors c h1
      rcases cond_agree ha c hn hs hle h1 h3 with ⟨_, e⟩ | e
      · exact .inl ⟨e, e1⟩
      · exact (Both.of_new (.same rfl) (Nat.le_refl _) e).later e1
    | expect k =>
      simp only [run, Res.bind_eq_ok] at h h'
      obtain ⟨⟨x, t⟩, h1, h2⟩ := h
      obtain ⟨⟨x', t'⟩, h3, h4⟩ := h'
      have e1 := evalCond_errors _ h1
      have e3 := evalCond_errors _ h3
      obtain ⟨_, g1, _⟩ := evalCond_grew _ hle h1
      dsimp only at h2 h4
      have hx' : x' = true := by
        cases x' with
        | true => rfl
        | false =>
          simp only [Bool.false_eq_true, if_false, Res.bind_eq_ok] at h4
          obtain ⟨⟨k', u⟩, h5, h6⟩ := h4
          have := error_loud h6
          have e5 := nth_errors h5
          exact absurd (by rw [hq, e5, e3]) this
      subst hx'
      simp only [if_true, Res.ok.injEq] at h4
      subst h4
      rcases cond_agree ha _ rfl hs hle h1 h3 with ⟨rfl, e⟩ | e
      · simp only [if_true, Res.ok.injEq] at h2
        subst h2
        exact .inl ⟨e, e1⟩
      · have hx : x = true := by
          simp only [evalCond, Res.bind_eq_ok] at h1 h3
          obtain ⟨⟨k1, t1⟩, h5, h6⟩ := h1
          obtain ⟨⟨k2, t2⟩, h7, h8⟩ := h3
          obtain ⟨rfl, _, _⟩ := nth_same ha hs (by omega) h5 h7
          dsimp only at h6 h8
          split at h8
          · rename_i hk
            rw [if_pos hk] at h6
            simp only [Res.bind_eq_ok] at h6
            obtain ⟨_, _, h6⟩ := h6
            simp only [Res.ok.injEq, Prod.mk.injEq] at h6
            exact h6.1.symm
          · simp at h8
        subst hx
        simp only [if_true, Res.ok.injEq] at h2
        subst h2
        exact (Both.of_new (.same rfl) (Nat.le_refl _) e).later e1
    | advance =>
      simp only [run] at h h'
      exact .inl ⟨(advance_same hs h h').1, advance_errors h⟩
    | call k =>
      simp only [run, Res.bind_eq_ok] at h h'
      obtain ⟨t, h1, h2⟩ := h
      obtain ⟨t', h3, h4⟩ := h'
      simp at h2 h4; subst h2 h4
      have key : Both name toks m s.enter t t' := by
        by_cases hk : k = .ClassSpecifier
        · subst hk
          exact specifier_agree ha ih (show Same s.enter s'.enter from hs) hle hle' (show s.pos + 1 < m by omega) h1 h3 hq
        · exact ih n' _ (near_body k hk) (show Same s.enter s'.enter from hs) hle hle' h1 h3 hq
      rcases key with ⟨⟨a, b⟩, c⟩ | d
      · exact .inl ⟨⟨a, b⟩, c⟩
      · exact .inr d
    | advErr j pre post =>
      simp only [run, Res.bind_eq_ok] at h'
      obtain ⟨⟨k', t1⟩, h1, t2, h2, t3, h3, h4⟩ := h'
      simp at h4; subst h4
      have e1 := nth_errors h1
      have e3 : t3.errors = t2.enter.errors := advance_errors h3
      change t3.errors = t2.errors at e3
      exact absurd ((e3.symm.trans hq).trans e1.symm) (error_loud h2)
    | look j =>
      simp only [near, decide_eq_true_eq] at hn
      simp only [run, Res.bind_eq_ok] at h h'
      obtain ⟨⟨x, t⟩, h1, h2⟩ := h
      obtain ⟨⟨x', t'⟩, h3, h4⟩ := h'
      simp at h2 h4; subst h2 h4
      obtain ⟨_, e, _⟩ := nth_same ha hs (by omega) h1 h3
      exact .inl ⟨e, nth_errors h1⟩
    | ifk ks a b =>
      simp only [near, Bool.and_eq_true] at hn
      simp only [run] at h h'
      rw [hs.2] at h'
      split at h
      · rename_i hx
        rw [if_pos hx] at h'
        exact ih n' a hn.1 hs hle hle' h h' hq
      · rename_i hx
        rw [if_neg hx] at h'
        exact ih n' b hn.2 hs hle hle' h h' hq
    | unreachable => simp [run] at h

theorem events_agree (ha : Agree toks toks' m) {k : SK} {evs evs' : List Event} {errs : List Text}
    (h : events name toks k = .ok (evs, errs)) (h' : events name' toks' k = .ok (evs', [])) :
    ∀ e ∈ errs, ∃ q, m ≤ q + 1 ∧ At name toks e q := by
  unfold events at h h'
  rw [Res.bind_eq_ok] at h h'
  obtain ⟨s, h1, h2⟩ := h
  obtain ⟨s', h3, h4⟩ := h'
  simp only [Res.ok.injEq, Prod.mk.injEq] at h2 h4
  have := run_agree ha _ _ (.call k) (name := name) (name' := name') rfl (show Same PState.init PState.init from ⟨rfl, rfl⟩) (Nat.zero_le _) (Nat.zero_le _) h1 h3
    (by rw [h4.2]; rfl)
  rw [← h2.2]
  rcases this with ⟨_, e⟩ | ⟨_, new, e, f⟩
  · rw [e]; simp [PState.init]
  · rw [e]; simpa [PState.init] using f

end
end Via
end Mofmt
