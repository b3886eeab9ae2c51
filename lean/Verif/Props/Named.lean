import Verif.Props.CliReport
/-
C92: the name of a file is only mentioned; what is done to a file depends on its content.
-/
namespace Mofmt
namespace Named

/-- The same messages, about files of two names. -/
def Renamed (name name' : Text) (es es' : List Text) : Prop :=
  ∃ ms : List Text, es = ms.map (name ++ ·) ∧ es' = ms.map (name' ++ ·)

theorem Renamed.nil (name name' : Text) : Renamed name name' [] [] := ⟨[], rfl, rfl⟩

theorem Renamed.append {name name' : Text} {a a' b b' : List Text} (h : Renamed name name' a a')
    (h' : Renamed name name' b b') : Renamed name name' (a ++ b) (a' ++ b') := by
  obtain ⟨ms, rfl, rfl⟩ := h
  obtain ⟨ns, rfl, rfl⟩ := h'
  exact ⟨ms ++ ns, by simp, by simp⟩

theorem renamed_error (name name' : Text) (p : Pos) (m : Text) :
    Renamed name name' [errorText name p m] [errorText name' p m] :=
  ⟨[c!":" ++ natText p.line ++ c!":" ++ natText p.col ++ c!": " ++ m], by simp [errorText], by simp [errorText]⟩

theorem emit_named (name name' : Text) : ∀ (its : List Item) (pre : Text) (i : Nat),
    ResRel (fun x y => x.1 = y.1 ∧ Renamed name name' x.2 y.2) (emit name pre i its) (emit name' pre i its) := by
  intro its
  induction its with
  | nil => intro pre i; exact .ok ⟨rfl, .nil _ _⟩
  | cons it its ih =>
    intro pre i
    cases it with
    | ws w => rw [emit, emit]; exact ih _ _
    | bad m w =>
      rw [emit, emit]
      exact (ih _ _).bind fun x y h => .ok ⟨h.1, (renamed_error name name' _ m).append h.2⟩
    | tok k w =>
      rw [emit, emit]
      split
      · exact (ih _ _).bind fun x y h => .ok ⟨by rw [h.1], h.2⟩
      · exact .panic

theorem lex_named (name name' src : Text) :
    ResRel (fun x y => x.tokens = y.tokens ∧ x.comments = y.comments ∧ Renamed name name' x.errors y.errors)
      (lex name src) (lex name' src) := by
  rw [lex_spec, lex_spec]
  exact (emit_named name name' _ _ _).bind fun x y h => .ok ⟨by rw [h.1], by rw [h.1], h.2⟩

/-- States of the parser that differ only in the name within the messages. -/
structure Twin (name name' : Text) (s s' : PState) : Prop where
  evs : s.evs = s'.evs
  errors : Renamed name name' s.errors s'.errors
  pos : s.pos = s'.pos
  lifes : s.lifes = s'.lifes
  last : s.last = s'.last

/-- Same value and twin states. -/
def TwinP (name name' : Text) {α : Type} (x y : α × PState) : Prop := x.1 = y.1 ∧ Twin name name' x.2 y.2

variable {name name' : Text} {toks : List Token}

theorem nth_twin (n : Nat) {s s' : PState} (h : Twin name name' s s') :
    ResRel (TwinP name name') (s.nth toks n) (s'.nth toks n) := by
  unfold PState.nth
  rw [h.lifes, h.pos]
  split
  · split <;> exact .panic
  · exact .ok ⟨rfl, ⟨h.evs, h.errors, rfl, rfl, rfl⟩⟩

theorem advance_twin {s s' : PState} (h : Twin name name' s s') :
    ResRel (Twin name name') (s.advance toks) (s'.advance toks) := by
  unfold PState.advance PState.eof
  rw [h.pos]
  split
  · exact .panic
  · exact .ok ⟨by simp [h.evs], h.errors, by simp, rfl, h.last⟩

theorem error_twin {s s' : PState} {m : Text} (h : Twin name name' s s') :
    ResRel (Twin name name') (s.error name toks m) (s'.error name' toks m) := by
  have hg : ∀ p : Pos, Twin name name' { s with errors := s.errors ++ [errorText name p m], pos := s'.pos }
      { s' with errors := s'.errors ++ [errorText name' p m] } :=
    fun p => ⟨h.evs, h.errors.append (renamed_error name name' p m), rfl, h.lifes, h.last⟩
  unfold PState.error
  rw [h.pos]
  split
  · exact .ok (hg _)
  · split
    · exact .ok (hg _)
    · exact .panic

theorem evalCond_twin (c : Cond) : ∀ {s s' : PState}, Twin name name' s s' →
    ResRel (TwinP name name') (evalCond toks c s) (evalCond toks c s') := by
  induction c with
  | check k | checkAny ks | nthIs n k =>
    intro s s' h
    refine (nth_twin _ h).bind fun x y hxy => ?_
    obtain ⟨h1, h2⟩ := hxy
    exact .ok ⟨by simp [h1], h2⟩
  | consume k =>
    intro s s' h
    refine (nth_twin _ h).bind fun x y hxy => ?_
    obtain ⟨h1, h2⟩ := hxy
    dsimp only
    rw [h1]
    split
    · exact (advance_twin h2).bind fun x y hxy => .ok ⟨rfl, hxy⟩
    · exact .ok ⟨rfl, h2⟩
  | eof =>
    intro s s' h
    exact .ok ⟨by simp [PState.eof, h.pos], h⟩
  | not c ih =>
    intro s s' h
    refine (ih h).bind fun x y hxy => .ok ⟨by simp [hxy.1], hxy.2⟩
  | and a b iha ihb =>
    intro s s' h
    refine (iha h).bind fun x y hxy => ?_
    dsimp only
    rw [hxy.1]
    split
    · exact ihb hxy.2
    · exact .ok ⟨rfl, hxy.2⟩
  | or a b iha ihb =>
    intro s s' h
    refine (iha h).bind fun x y hxy => ?_
    dsimp only
    rw [hxy.1]
    split
    · exact .ok ⟨rfl, hxy.2⟩
    · exact ihb hxy.2

theorem run_twin {body : SK → Cmd} : ∀ (n : Nat) (c : Cmd) {s s' : PState}, Twin name name' s s' →
    ResRel (Twin name name') (run name toks body n c s) (run name' toks body n c s') := by
  intro n
  induction n with
  | zero => intro c s s' h; exact .fuel
  | succ n ih =>
    intro c s s' h
    cases c with
    | skip => exact .ok h
    | seq a b => exact (ih a h).bind fun x y hxy => ih b hxy
    | ite c a b =>
      refine (evalCond_twin c h).bind fun x y hxy => ?_
      dsimp only
      rw [hxy.1]
      split
      · exact ih a hxy.2
      · exact ih b hxy.2
    | «while» c a =>
      rw [run, run]
      refine (evalCond_twin c h).bind fun x y hxy => ?_
      dsimp only
      rw [hxy.1]
      split
      · exact (ih a hxy.2).bind fun x y hxy => ih _ hxy
      · exact .ok hxy.2
    | eval c => exact (evalCond_twin c h).bind fun x y hxy => .ok hxy.2
    | expect k =>
      refine (evalCond_twin _ h).bind fun x y hxy => ?_
      dsimp only
      rw [hxy.1]
      split
      · exact .ok hxy.2
      · refine (nth_twin _ hxy.2).bind fun x y hxy => ?_
        rw [hxy.1]
        exact error_twin hxy.2
    | advance => exact advance_twin h
    | call k =>
      have he : Twin name name' s.enter s'.enter :=
        ⟨by simp [PState.enter, h.evs], h.errors, h.pos, h.lifes, h.last⟩
      exact (ih _ he).bind fun x y hxy =>
        .ok ⟨by simp [PState.exit, hxy.evs, h.evs], hxy.errors, hxy.pos, hxy.lifes, hxy.last⟩
    | advErr m pre post =>
      refine (nth_twin _ h).bind fun x y hxy => ?_
      dsimp only
      rw [hxy.1]
      refine (error_twin hxy.2).bind fun x y hxy => ?_
      have he : Twin name name' x.enter y.enter :=
        ⟨by simp [PState.enter, hxy.evs], hxy.errors, hxy.pos, hxy.lifes, hxy.last⟩
      refine (advance_twin he).bind fun x' y' h' => ?_
      exact .ok ⟨by simp [PState.exit, h'.evs, hxy.evs], h'.errors, h'.pos, h'.lifes, h'.last⟩
    | look m => exact (nth_twin _ h).bind fun x y hxy => .ok hxy.2
    | ifk ks a b =>
      rw [run, run, h.last]
      split
      · exact ih a h
      · exact ih b h
    | unreachable => exact .panic

theorem parse_named (name name' src : Text) (entry : SK) :
    ResRel (fun p q => p.tokens = q.tokens ∧ p.comments = q.comments ∧ p.events = q.events ∧
      Renamed name name' p.errors q.errors) (parse name src entry) (parse name' src entry) := by
  unfold parse
  refine (lex_named name name' src).bind fun l l' h => ?_
  obtain ⟨h1, h2, h3⟩ := h
  rw [h1]
  have he : ResRel (fun x y => x.1 = y.1 ∧ Renamed name name' x.2 y.2) (events name l'.tokens entry)
      (events name' l'.tokens entry) := by
    unfold events
    refine (run_twin _ _ ⟨rfl, .nil _ _, rfl, rfl, rfl⟩).bind fun x y hxy => ?_
    exact .ok ⟨by simp [hxy.evs], hxy.errors⟩
  exact he.bind fun x y h => .ok ⟨rfl, h2, h.1, h3.append h.2⟩

end Named
open Named

/-- **C92** The name of a file is only mentioned.  Reading the same text under two names ends in the same way, gives
the same tokens, comments and events, and the same messages in the same order, each of which begins with the name of
the file and goes on in the same way. -/
theorem C92_name_mentioned (name name' src : Text) (entry : SK) :
    (∀ p, parse name src entry = .ok p → ∃ ms : List Text, p.errors = ms.map (name ++ ·) ∧
      parse name' src entry = .ok { p with errors := ms.map (name' ++ ·) }) ∧
    ∀ x, parse name src entry = .panic x → parse name' src entry = .panic x := by
  have h := parse_named name name' src entry
  constructor
  · intro p hp
    rw [hp] at h
    generalize hr : parse name' src entry = r at h
    cases h with
    | ok h =>
      obtain ⟨h1, h2, h3, ms, h4, h5⟩ := h
      refine ⟨ms, h4, ?_⟩
      rename_i q
      cases q; cases p
      simp_all
  · intro x hp
    rw [hp] at h
    generalize parse name' src entry = r at h
    cases h
    rfl

/-- **C92** What a file is formatted to depends only on its content: if two Modelica files, at any places of any two
systems with the same line ends, contain the same text, then both are formatted to the same text or neither is
formatted. -/
theorem C92_content (w w' : World) (d d' : Disk) (p p' src : Text) (he : w.eol = w'.eol) (hm : ModelicaName p)
    (hm' : ModelicaName p') (hc : Contains w d p src) (hc' : Contains w' d' p' src) (out : Text) :
    FormatsTo w d p out ↔ FormatsTo w' d' p' out := by
  have key : ∀ (w w' : World) (d d' : Disk) (p p' : Text), w.eol = w'.eol → ModelicaName p' → Contains w d p src →
      Contains w' d' p' src → FormatsTo w d p out → FormatsTo w' d' p' out := by
    rintro w w' d d' p p' he hm' ⟨f, c1, c2⟩ hc' ⟨src', q, t, _, ⟨g, a1, a2⟩, a3, a4, a5, rfl⟩
    rw [c1] at a1; cases a1
    rw [c2] at a2
    have := encode_inj (Option.some.inj a2)
    subst this
    obtain ⟨ms, b1, b2⟩ := (C92_name_mentioned p p' src .StoredDefinition).1 q a3
    rw [a4] at b1
    have hms : ms = [] := by
      cases ms with
      | nil => rfl
      | cons _ _ => simp at b1
    subst hms
    exact ⟨src, _, t, hm', hc', b2, rfl, by rw [← he]; exact a5, by rw [he]⟩
  exact ⟨key w w' d d' p p' he hm' hc hc', key w' w d' d p' p he.symm hm hc' hc⟩

/-- Two names, two messages, about a character and about a token. -/
theorem C92_case :
    (match parse c!"a.mo" c!"model A Real x? end A;" .StoredDefinition with | .ok p => p.errors | _ => []) =
      [c!"a.mo:1:15: unexpected character: '?'", c!"a.mo:1:17: expected ';', found 'end'"] ∧
    (match parse c!"lib/b.mo" c!"model A Real x? end A;" .StoredDefinition with | .ok p => p.errors | _ => []) =
      [c!"lib/b.mo:1:15: unexpected character: '?'", c!"lib/b.mo:1:17: expected ';', found 'end'"] := by
  decide +kernel

/-- Two files with the same content become two files with the same content. -/
theorem C92_content_case :
    Contains exWorld (fun _ => some (encode c!"model A  end A;")) c!"a.mo" c!"model A  end A;" ∧
    Contains exWorld (fun _ => some (encode c!"model A  end A;")) c!"b.mo" c!"model A  end A;" ∧
    ModelicaName c!"a.mo" ∧ ModelicaName c!"b.mo" ∧
    (main exWorld [c!"a.mo", c!"b.mo"] (fun _ => some (encode c!"model A  end A;"))).1.disk 0 =
      some (encode c!"model A\n\nend A;\n") ∧
    (main exWorld [c!"a.mo", c!"b.mo"] (fun _ => some (encode c!"model A  end A;"))).1.disk 1 =
      some (encode c!"model A\n\nend A;\n") := by
  refine ⟨⟨0, by decide, rfl⟩, ⟨1, by decide, rfl⟩, ⟨c!"a", by simp, [], [], ?_⟩, ⟨c!"b", by simp, [], [], ?_⟩,
    by decide_cbv, by decide_cbv⟩
  · exact ⟨by simp, .inl rfl, .nil, by decide, by simp, by decide, by decide⟩
  · exact ⟨by simp, .inl rfl, .nil, by decide, by simp, by decide, by decide⟩

end Mofmt
