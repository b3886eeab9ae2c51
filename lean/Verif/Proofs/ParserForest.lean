import Verif.Proofs.Basic
/-
Whatever a grammar command does, the events it adds are the events of a forest whose leaves are the
tokens it passed.
-/
namespace Mofmt

/-- What running a command did: from `s` to `s'` it appended the events of `F`. -/
structure Grew (toks : List Token) (s s' : PState) (F : List Tree) : Prop where
  evs : s'.evs = (evsF F).reverse ++ s.evs
  rest : toks.drop s.pos = leavesF F ++ toks.drop s'.pos
  pos : s'.pos = s.pos + (leavesF F).length
  le : s'.pos ≤ toks.length
  errs : ∃ new, s'.errors = s.errors ++ new
  err : hasErrorF F = true → s.errors.length < s'.errors.length

variable {toks : List Token} {name : Text}

theorem Grew.refl {s s' : PState} (h : s.pos ≤ toks.length) (he : s'.evs = s.evs)
    (hp : s'.pos = s.pos) (hr : ∃ new, s'.errors = s.errors ++ new) : Grew toks s s' [] where
  evs := by simp [evsF, he]
  rest := by simp [leavesF, hp]
  pos := by simp [leavesF, hp]
  le := by omega
  errs := hr
  err := by simp [hasErrorF]

theorem Grew.trans {s1 s2 s3 : PState} {F G : List Tree} (h1 : Grew toks s1 s2 F)
    (h2 : Grew toks s2 s3 G) : Grew toks s1 s3 (F ++ G) where
  evs := by simp [h1.evs, h2.evs]
  rest := by simp [h1.rest, h2.rest]
  pos := by simp [h1.pos, h2.pos]; omega
  le := h2.le
  errs := by
    obtain ⟨a, ha⟩ := h1.errs
    obtain ⟨b, hb⟩ := h2.errs
    exact ⟨a ++ b, by simp [hb, ha]⟩
  err := by
    intro h
    obtain ⟨a, ha⟩ := h1.errs
    obtain ⟨b, hb⟩ := h2.errs
    simp only [hasErrorF_append, Bool.or_eq_true] at h
    rcases h with h | h
    · have := h1.err h; simp [hb] at *; omega
    · have := h2.err h; simp [ha] at *; omega

theorem nth_grew {n : Nat} {s : PState} {k : Tok} {s' : PState} (h : s.nth toks n = .ok (k, s')) :
    s'.evs = s.evs ∧ s'.pos = s.pos ∧ s'.errors = s.errors := by
  unfold PState.nth at h
  split at h
  · split at h <;> simp at h
  · simp at h; obtain ⟨_, rfl⟩ := h; simp

theorem advance_grew {s s' : PState} (hle : s.pos ≤ toks.length) (h : s.advance toks = .ok s') :
    ∃ t, toks[s.pos]? = some t ∧ Grew toks s s' [.tok t] ∧ s'.pos = s.pos + 1 ∧
      s'.errors = s.errors := by
  unfold PState.advance PState.eof at h
  split at h
  · simp at h
  · rename_i hne
    simp at h; subst h
    have hlt : s.pos < toks.length := by simp at hne; omega
    refine ⟨toks[s.pos], by simp, ?_, rfl, rfl⟩
    exact {
      evs := by simp [evsF, Tree.evs]
      rest := by simp [leavesF, Tree.leaves]
      pos := by simp [leavesF, Tree.leaves]
      le := by simp; omega
      errs := ⟨[], by simp⟩
      err := by simp [hasErrorF, Tree.hasError] }

theorem error_grew {s s' : PState} {msg : Text} (h : s.error name toks msg = .ok s') :
    s'.evs = s.evs ∧ s'.pos = s.pos ∧ s.lifes = s'.lifes ∧ s.last = s'.last ∧
      ∃ e, s'.errors = s.errors ++ [e] := by
  unfold PState.error at h
  split at h
  · simp at h; subst h; simp
  · split at h
    · simp at h; subst h; simp
    · simp at h

theorem evalCond_grew (c : Cond) : ∀ {s s' : PState} {b : Bool}, s.pos ≤ toks.length →
    evalCond toks c s = .ok (b, s') → ∃ F, Grew toks s s' F ∧ s'.errors = s.errors := by
  induction c with
  | check k =>
    intro s s' b hle h
    simp only [evalCond, Res.bind_eq_ok] at h
    obtain ⟨⟨k', s1⟩, h1, h2⟩ := h
    simp at h2
    obtain ⟨_, rfl⟩ := h2
    obtain ⟨h3, h4, h5⟩ := nth_grew h1
    exact ⟨[], Grew.refl hle h3 h4 ⟨[], by simp [h5]⟩, h5⟩
  | checkAny ks =>
    intro s s' b hle h
    simp only [evalCond, Res.bind_eq_ok] at h
    obtain ⟨⟨k', s1⟩, h1, h2⟩ := h
    simp at h2
    obtain ⟨_, rfl⟩ := h2
    obtain ⟨h3, h4, h5⟩ := nth_grew h1
    exact ⟨[], Grew.refl hle h3 h4 ⟨[], by simp [h5]⟩, h5⟩
  | nthIs n k =>
    intro s s' b hle h
    simp only [evalCond, Res.bind_eq_ok] at h
    obtain ⟨⟨k', s1⟩, h1, h2⟩ := h
    simp at h2
    obtain ⟨_, rfl⟩ := h2
    obtain ⟨h3, h4, h5⟩ := nth_grew h1
    exact ⟨[], Grew.refl hle h3 h4 ⟨[], by simp [h5]⟩, h5⟩
  | consume k =>
    intro s s' b hle h
    simp only [evalCond, Res.bind_eq_ok] at h
    obtain ⟨⟨k', s1⟩, h1, h2⟩ := h
    obtain ⟨h3, h4, h5⟩ := nth_grew h1
    have g1 : Grew toks s s1 [] := Grew.refl hle h3 h4 ⟨[], by simp [h5]⟩
    split at h2
    · simp only [Res.bind_eq_ok] at h2
      obtain ⟨s2, h6, h7⟩ := h2
      simp at h7
      obtain ⟨_, rfl⟩ := h7
      obtain ⟨t, _, g2, _, h8⟩ := advance_grew (by omega) h6
      exact ⟨_, g1.trans g2, by rw [h8, h5]⟩
    · simp at h2
      obtain ⟨_, rfl⟩ := h2
      exact ⟨[], g1, h5⟩
  | eof =>
    intro s s' b hle h
    simp [evalCond] at h
    obtain ⟨_, rfl⟩ := h
    exact ⟨[], Grew.refl hle rfl rfl ⟨[], by simp⟩, rfl⟩
  | not c ih =>
    intro s s' b hle h
    simp only [evalCond, Res.bind_eq_ok] at h
    obtain ⟨⟨k', s1⟩, h1, h2⟩ := h
    simp at h2
    obtain ⟨_, rfl⟩ := h2
    exact ih hle h1
  | and a b iha ihb =>
    intro s s' t hle h
    simp only [evalCond, Res.bind_eq_ok] at h
    obtain ⟨⟨k', s1⟩, h1, h2⟩ := h
    obtain ⟨F, g1, e1⟩ := iha hle h1
    dsimp only at h2
    split at h2
    · obtain ⟨G, g2, e2⟩ := ihb g1.le h2
      exact ⟨_, g1.trans g2, by rw [e2, e1]⟩
    · simp at h2
      obtain ⟨_, rfl⟩ := h2
      exact ⟨F, g1, e1⟩
  | or a b iha ihb =>
    intro s s' t hle h
    simp only [evalCond, Res.bind_eq_ok] at h
    obtain ⟨⟨k', s1⟩, h1, h2⟩ := h
    obtain ⟨F, g1, e1⟩ := iha hle h1
    dsimp only at h2
    split at h2
    · simp at h2
      obtain ⟨_, rfl⟩ := h2
      exact ⟨F, g1, e1⟩
    · obtain ⟨G, g2, e2⟩ := ihb g1.le h2
      exact ⟨_, g1.trans g2, by rw [e2, e1]⟩

/-- `exit` turns the placeholder pushed by `enter` into the start of a production. -/
theorem exit_grew {s s1 s2 : PState} {F : List Tree} {k : SK}
    (he : s1.evs = .enter .Error :: s.evs) (hp : s1.pos = s.pos)
    (hr : ∃ new, s1.errors = s.errors ++ new) (g : Grew toks s1 s2 F)
    (hk : k = .Error → s.errors.length < s2.errors.length) :
    Grew toks s (s2.exit s.evs.length k) [.node k F] where
  evs := by
    have h : s2.evs = (evsF F).reverse ++ (.enter .Error :: s.evs) := by rw [g.evs, he]
    have hlen : s2.evs.length - 1 - s.evs.length = (evsF F).reverse.length := by
      rw [h]; simp
    simp only [PState.exit, hlen]
    rw [h, List.set_append_right _ _ (Nat.le_refl _)]
    simp [evsF, Tree.evs]
  rest := by
    have := g.rest
    simp [hp] at this
    simp [leavesF, Tree.leaves, this, PState.exit]
  pos := by simp [PState.exit, leavesF, Tree.leaves, g.pos, hp]
  le := g.le
  errs := by
    obtain ⟨a, ha⟩ := g.errs
    obtain ⟨b, hb⟩ := hr
    exact ⟨b ++ a, by simp [PState.exit, ha, hb]⟩
  err := by
    intro h
    simp only [hasErrorF, Tree.hasError, Bool.or_false, Bool.or_eq_true, beq_iff_eq] at h
    show s.errors.length < s2.errors.length
    rcases h with h | h
    · exact hk h
    · have := g.err h
      obtain ⟨b, hb⟩ := hr
      simp [hb] at this
      omega

theorem run_grew {body : SK → Cmd} (hbody : ∀ s n, ∀ s', run name toks body n (body .Error) s ≠ .ok s') :
    ∀ (n : Nat) (c : Cmd) {s s' : PState}, s.pos ≤ toks.length →
    run name toks body n c s = .ok s' → ∃ F, Grew toks s s' F := by
  intro n
  induction n with
  | zero => intro c s s' _ h; simp [run] at h
  | succ n ih =>
    intro c s s' hle h
    cases c with
    | skip => simp [run] at h; subst h; exact ⟨[], Grew.refl hle rfl rfl ⟨[], by simp⟩⟩
    | seq a b =>
      simp only [run, Res.bind_eq_ok] at h
      obtain ⟨s1, h1, h2⟩ := h
      obtain ⟨F, g1⟩ := ih a hle h1
      obtain ⟨G, g2⟩ := ih b g1.le h2
      exact ⟨_, g1.trans g2⟩
    | ite c a b =>
      simp only [run, Res.bind_eq_ok] at h
      obtain ⟨⟨t, s1⟩, h1, h2⟩ := h
      obtain ⟨F, g1, _⟩ := evalCond_grew c hle h1
      dsimp only at h2
      split at h2
      · obtain ⟨G, g2⟩ := ih a g1.le h2
        exact ⟨_, g1.trans g2⟩
      · obtain ⟨G, g2⟩ := ih b g1.le h2
        exact ⟨_, g1.trans g2⟩
    | «while» c a =>
      simp only [run, Res.bind_eq_ok] at h
      obtain ⟨⟨t, s1⟩, h1, h2⟩ := h
      obtain ⟨F, g1, _⟩ := evalCond_grew c hle h1
      dsimp only at h2
      split at h2
      · simp only [Res.bind_eq_ok] at h2
        obtain ⟨s2, h3, h4⟩ := h2
        obtain ⟨G, g2⟩ := ih a g1.le h3
        obtain ⟨H, g3⟩ := ih _ g2.le h4
        exact ⟨_, (g1.trans g2).trans g3⟩
      · simp at h2; subst h2
        exact ⟨F, g1⟩
    | eval c =>
      simp only [run, Res.bind_eq_ok] at h
      obtain ⟨⟨t, s1⟩, h1, h2⟩ := h
      simp at h2; subst h2
      obtain ⟨F, g1, _⟩ := evalCond_grew c hle h1
      exact ⟨F, g1⟩
    | expect k =>
      simp only [run, Res.bind_eq_ok] at h
      obtain ⟨⟨t, s1⟩, h1, h2⟩ := h
      obtain ⟨F, g1, _⟩ := evalCond_grew _ hle h1
      dsimp only at h2
      split at h2
      · simp at h2; subst h2; exact ⟨F, g1⟩
      · simp only [Res.bind_eq_ok] at h2
        obtain ⟨⟨k', s2⟩, h3, h4⟩ := h2
        obtain ⟨e1, e2, e3⟩ := nth_grew h3
        obtain ⟨f1, f2, _, _, e, f3⟩ := error_grew h4
        exact ⟨_, g1.trans (Grew.refl (s := s1) g1.le (by rw [f1, e1]) (by rw [f2, e2])
          ⟨[e], by rw [f3, e3]⟩)⟩
    | advance =>
      simp only [run] at h
      obtain ⟨t, _, g, _⟩ := advance_grew hle h
      exact ⟨_, g⟩
    | call k =>
      simp only [run, Res.bind_eq_ok] at h
      obtain ⟨s1, h1, h2⟩ := h
      simp at h2; subst h2
      obtain ⟨F, g⟩ := ih (body k) (s := s.enter) (by simpa [PState.enter] using hle) h1
      refine ⟨_, exit_grew (s := s) (s1 := s.enter) rfl rfl ⟨[], by simp [PState.enter]⟩ g ?_⟩
      intro hk; subst hk
      exact absurd h1 (hbody _ _ _)
    | advErr m pre post =>
      simp only [run, Res.bind_eq_ok] at h
      obtain ⟨⟨k', s1⟩, h1, s2, h2, s3, h3, h4⟩ := h
      simp at h4; subst h4
      obtain ⟨e1, e2, e3⟩ := nth_grew h1
      obtain ⟨f1, f2, _, _, e, f3⟩ := error_grew h2
      have hle2 : s2.enter.pos ≤ toks.length := by
        simp [PState.enter]; rw [f2]; dsimp only; omega
      obtain ⟨t, _, g, _, g4⟩ := advance_grew hle2 h3
      have hev : s2.evs.length = s.evs.length := by rw [f1, e1]
      rw [hev]
      refine ⟨_, exit_grew (s := s) (s1 := s2.enter) (by simp [PState.enter, f1, e1])
        (by simp [PState.enter, f2, e2]) ⟨[e], by simp [PState.enter, f3, e3]⟩ g ?_⟩
      intro _
      simp only [PState.enter] at g4
      rw [g4, f3, e3]; simp
    | look m =>
      simp only [run, Res.bind_eq_ok] at h
      obtain ⟨⟨k', s1⟩, h1, h2⟩ := h
      simp at h2; subst h2
      obtain ⟨e1, e2, e3⟩ := nth_grew h1
      exact ⟨[], Grew.refl hle e1 e2 ⟨[], by simp [e3]⟩⟩
    | ifk ks a b =>
      simp only [run] at h
      split at h
      · exact ih a hle h
      · exact ih b hle h
    | unreachable => simp [run] at h

end Mofmt
