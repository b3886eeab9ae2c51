import Verif.Proofs.Scan
/-
The lexer's state machine computes the pieces of the scanner.
-/
namespace Mofmt

/-- One character: byte offset and position after it, lexing.rs:78-94. -/
def walkStep (x : Nat × Pos) (c : Char) : Nat × Pos :=
  (x.1 + utf8Len c,
    { pos := x.1 + 1
      line := if c == '\n' then x.2.line + 1 else x.2.line
      col := if c == '\n' then 1 else x.2.col + 1 })

def walk (x : Nat × Pos) (t : Text) : Nat × Pos := t.foldl walkStep x

@[simp] theorem walk_nil (x : Nat × Pos) : walk x [] = x := rfl
@[simp] theorem walk_cons (x : Nat × Pos) (c : Char) (t : Text) :
    walk x (c :: t) = walk (walkStep x c) t := rfl
theorem walk_append (x : Nat × Pos) (a b : Text) : walk x (a ++ b) = walk (walk x a) b := by
  simp [walk]

/-- The state after the characters `t` have been consumed and `r` is left. -/
def LexS.eat (t r : Text) (s : LexS) : LexS :=
  { s with chars := r, off := (walk (s.off, s.cur) t).1, cur := (walk (s.off, s.cur) t).2 }

theorem eat_nil {s : LexS} {r : Text} (h : s.chars = r) : s.eat [] r = s := by
  cases s; simp_all [LexS.eat]

theorem eat_eat (s : LexS) (t r t' r' : Text) : (s.eat t r).eat t' r' = s.eat (t ++ t') r' := by
  simp [LexS.eat, walk_append]

theorem next_eat {s : LexS} {c : Char} {cs : Text} (h : s.chars = c :: cs) :
    s.next = s.eat [c] cs := by
  simp [LexS.next, h, LexS.eat, walkStep]

@[simp] theorem eat_chars (s : LexS) (t r : Text) : (s.eat t r).chars = r := rfl
@[simp] theorem eat_atEof (s : LexS) (t r : Text) : (s.eat t r).atEof = s.atEof := rfl
@[simp] theorem eat_start (s : LexS) (t r : Text) : (s.eat t r).start = s.start := rfl
@[simp] theorem eat_tokens (s : LexS) (t r : Text) : (s.eat t r).tokens = s.tokens := rfl
@[simp] theorem eat_comments (s : LexS) (t r : Text) : (s.eat t r).comments = s.comments := rfl
@[simp] theorem eat_errors (s : LexS) (t r : Text) : (s.eat t r).errors = s.errors := rfl
@[simp] theorem eat_count (s : LexS) (t r : Text) : (s.eat t r).count = s.count := rfl

theorem skipWhile_eat (p : Char → Bool) : ∀ (cs : Text) (s : LexS), s.chars = cs →
    skipWhile p cs s = s.eat (cs.takeWhile p) (cs.dropWhile p) := by
  intro cs
  induction cs with
  | nil => intro s h; simp [skipWhile, eat_nil h]
  | cons c cs ih =>
    intro s h
    simp only [skipWhile]
    split
    · rename_i hp
      rw [ih s.next (by rw [next_eat h]; rfl), next_eat h, eat_eat]
      simp [List.takeWhile_cons, List.dropWhile_cons, hp]
    · rename_i hp
      simp [List.takeWhile_cons, List.dropWhile_cons, hp, eat_nil h]

theorem accept_cons {s : LexS} {c : Char} {cs set : Text} (h : s.chars = c :: cs) :
    s.accept set = if set.contains c then (true, s.eat [c] cs) else (false, s) := by
  simp only [LexS.accept, LexS.peek, h, List.head?_cons, next_eat h]

theorem accept_nil {s : LexS} {set : Text} (h : s.chars = []) : s.accept set = (false, s) := by
  simp [LexS.accept, LexS.peek, h]

theorem acceptDigits_eat {s : LexS} {cs : Text} (h : s.chars = cs) :
    s.acceptDigits = s.eat (cs.takeWhile isDigit) (cs.dropWhile isDigit) := by
  rw [LexS.acceptDigits, skipWhile_eat _ _ _ rfl, h]

variable {name src : Text}

/-- The result of a scanning function agrees with the piece `m` found from state `s` on. -/
def Done (name src : Text) (s : LexS) : Munch → Res LexS → Prop
  | .tok k t rest, r => r = genToken src k (s.eat t rest)
  | .bad msg t rest, r => ∃ b : Bool, (b = true → rest = []) ∧
      r = genError name msg { s.eat t rest with atEof := b || s.atEof }

theorem Done.pre {s : LexS} {m : Munch} {r : Res LexS} {p q : Text}
    (h : Done name src (s.eat p q) m r) : Done name src s (m.pre p) r := by
  cases m with
  | tok k t rest => simpa [Done, Munch.pre, eat_eat] using h
  | bad msg t rest =>
    obtain ⟨b, h1, h2⟩ := h
    exact ⟨b, h1, by rw [h2, eat_eat]; rfl⟩

theorem next_nil {s : LexS} (h : s.chars = []) : s.next = { s with atEof := true } := by
  simp [LexS.next, h]

theorem lexString_done : ∀ (cs : Text) (s : LexS), s.chars = cs →
    Done name src s (munchStr cs) (lexString name src cs s) := by
  intro cs
  induction cs using munchStr.induct with
  | case1 c cs ih =>
    intro s h
    simp only [munchStr, lexString]
    have h1 := next_eat h
    have h2 : (s.eat ['\\'] (c :: cs)).next = s.eat ['\\', c] cs := by
      rw [next_eat (eat_chars _ _ _), eat_eat]; rfl
    rw [h1, h2]
    exact Done.pre (ih _ rfl)
  | case2 =>
    intro s h
    simp only [munchStr, lexString, next_eat h]
    refine ⟨true, by simp, ?_⟩
    rw [next_nil rfl, next_nil rfl]
    simp
  | case3 cs =>
    intro s h
    simp only [munchStr, lexString, next_eat h, Done]
  | case4 c cs h1 h2 h3 ih =>
    intro s h
    rw [munchStr, lexString, next_eat h]
    · exact Done.pre (ih _ rfl)
    · exact h1
    · exact h2
    · exact h3
    · exact h1
    · exact h2
    · exact h3
  | case5 =>
    intro s h
    simp only [munchStr, lexString]
    refine ⟨true, by simp, ?_⟩
    rw [next_nil h, eat_nil h]
    simp

theorem lexQident_done : ∀ (cs : Text) (s : LexS), s.chars = cs →
    Done name src s (munchQ cs) (lexQident name src cs s) := by
  intro cs
  induction cs using munchQ.induct with
  | case1 c cs ih =>
    intro s h
    simp only [munchQ, lexQident]
    have h1 := next_eat h
    have h2 : (s.eat ['\\'] (c :: cs)).next = s.eat ['\\', c] cs := by
      rw [next_eat (eat_chars _ _ _), eat_eat]; rfl
    rw [h1, h2]
    exact Done.pre (ih _ rfl)
  | case2 =>
    intro s h
    simp only [munchQ, lexQident, next_eat h]
    refine ⟨true, by simp, ?_⟩
    rw [next_nil rfl, next_nil rfl]
    simp
  | case3 cs =>
    intro s h
    simp only [munchQ, lexQident, next_eat h, Done]
  | case4 c cs h1 h2 h3 h4 ih =>
    intro s h
    rw [munchQ, lexQident, next_eat h, if_pos h4, if_pos h4]
    · exact Done.pre (ih _ rfl)
    · exact h1
    · exact h2
    · exact h3
    · exact h1
    · exact h2
    · exact h3
  | case5 c cs h1 h2 h3 h4 =>
    intro s h
    rw [munchQ, lexQident, next_eat h, if_neg h4, if_neg h4]
    · exact ⟨false, by simp, rfl⟩
    · exact h1
    · exact h2
    · exact h3
    · exact h1
    · exact h2
    · exact h3
  | case6 =>
    intro s h
    simp only [munchQ, lexQident]
    refine ⟨true, by simp, ?_⟩
    rw [next_nil h, eat_nil h]
    simp

theorem lexBlock_done : ∀ (cs : Text) (s : LexS), s.chars = cs →
    Done name src s (munchBlk cs) (lexBlockComment name src cs s) := by
  intro cs
  induction cs using munchBlk.induct with
  | case1 cs =>
    intro s h
    simp only [munchBlk, lexBlockComment]
    have h1 := next_eat h
    have h2 : (s.eat ['*'] ('/' :: cs)).next = s.eat ['*', '/'] cs := by
      rw [next_eat (eat_chars _ _ _), eat_eat]; rfl
    rw [h1, h2]
    rfl
  | case2 =>
    intro s h
    simp only [munchBlk, lexBlockComment, next_eat h]
    exact ⟨false, by simp, rfl⟩
  | case3 c cs h1 h2 ih =>
    intro s h
    rw [munchBlk, lexBlockComment, next_eat h]
    · exact Done.pre (ih _ rfl)
    · exact h1
    · exact h2
    · exact h1
    · exact h2
  | case4 =>
    intro s h
    simp only [munchBlk, lexBlockComment]
    refine ⟨true, by simp, ?_⟩
    rw [next_nil h, eat_nil h]
    simp

theorem expoStep {s : LexS} {cs : Text} (h : s.chars = cs) (s' : LexS) :
    (s.accept c!"eE" = (true, s') → s'.chars = (s'.chars) ∧
      (s'.accept c!"+-").2.acceptDigits = s.eat (expo cs).1 (expo cs).2 ∧ (expo cs).1 ≠ []) ∧
    (s.accept c!"eE" = (false, s') → s' = s ∧ expo cs = ([], cs)) := by
  cases cs with
  | nil =>
    rw [accept_nil h]
    refine ⟨by simp, ?_⟩
    intro h'
    simp at h'
    exact ⟨h'.symm, rfl⟩
  | cons c cs =>
    rw [accept_cons h]
    have hc : (c!"eE".contains c) = true ↔ (c = 'e' ∨ c = 'E') := by simp
    constructor
    · intro h'
      split at h'
      · rename_i he
        simp at h'
        subst h'
        refine ⟨rfl, ?_⟩
        rw [hc] at he
        simp only [expo, he, if_true]
        cases cs with
        | nil =>
          rw [accept_nil rfl]
          refine ⟨?_, by simp⟩
          rw [acceptDigits_eat rfl, eat_eat]
          simp
        | cons d ds =>
          rw [accept_cons (eat_chars _ _ _)]
          have hd : (c!"+-".contains d) = true ↔ (d = '+' ∨ d = '-') := by simp
          by_cases h2 : d = '+' ∨ d = '-'
          · rw [if_pos (hd.2 h2)]
            simp only [h2, if_true]
            refine ⟨?_, by simp⟩
            rw [acceptDigits_eat rfl, eat_eat, eat_eat]
            rfl
          · rw [if_neg (fun h => h2 (hd.1 h))]
            simp only [h2, if_false]
            refine ⟨?_, by simp⟩
            rw [acceptDigits_eat rfl, eat_eat]
            rfl
      · simp at h'
    · intro h'
      split at h'
      · simp at h'
      · rename_i he
        simp at h'
        refine ⟨h'.symm, ?_⟩
        rw [hc] at he
        simp [expo, he]

theorem lexNumeral_done (cs : Text) (s : LexS) (h : s.chars = cs) :
    Done name src s (munchNum cs) (lexNumeral src s) := by
  unfold lexNumeral munchNum
  rw [acceptDigits_eat h]
  cases hd : cs.dropWhile isDigit with
  | nil =>
    rw [accept_nil rfl]
    dsimp only
    rw [accept_nil rfl]
    rfl
  | cons c r =>
    rw [accept_cons (eat_chars _ _ _)]
    by_cases hc : c = '.'
    · subst hc
      simp only [List.contains_cons, beq_self_eq_true, Bool.true_or, if_true]
      rw [eat_eat, acceptDigits_eat rfl, eat_eat]
      have he := expoStep (s := s.eat (List.takeWhile isDigit cs ++ ['.'] ++ List.takeWhile isDigit r)
        (List.dropWhile isDigit r)) (cs := List.dropWhile isDigit r) rfl
      cases ha : (s.eat (List.takeWhile isDigit cs ++ ['.'] ++ List.takeWhile isDigit r)
        (List.dropWhile isDigit r)).accept c!"eE" with
      | mk b s' =>
        have he := he s'
        cases b with
        | true =>
          obtain ⟨_, h2, _⟩ := he.1 ha
          simp only [eat_chars, ha]
          rw [h2, eat_eat]
          simp [Done]
        | false =>
          obtain ⟨h1, h2⟩ := he.2 ha
          simp only [eat_chars, ha]
          subst h1
          simp [Done, h2]
    · have hcc : (c!".".contains c) = false := by simp [hc]
      rw [hcc]
      simp only [hc, if_false]
      have he := expoStep (s := s.eat (List.takeWhile isDigit cs) (c :: r)) (cs := c :: r) rfl
      cases ha : (s.eat (List.takeWhile isDigit cs) (c :: r)).accept c!"eE" with
      | mk b s' =>
        have he := he s'
        cases b with
        | true =>
          obtain ⟨_, h2, h3⟩ := he.1 ha
          simp only [h3, if_false, Bool.false_eq_true, ha]
          rw [h2, eat_eat]
          rfl
        | false =>
          obtain ⟨h1, h2⟩ := he.2 ha
          subst h1
          simp [h2, Done, ha]

theorem lexSource_done (n : Nat) (c : Char) (cs : Text) (s : LexS) (h : s.chars = c :: cs)
    (hw : isWs c = false) (hword : slice src s.start.pos
        ((s.eat (c :: cs.takeWhile isWordChar) (cs.dropWhile isWordChar)).cur.pos) =
        some (c :: cs.takeWhile isWordChar) ∨
      slice src s.start.pos
        ((s.eat (c :: cs.takeWhile isWordChar) (cs.dropWhile isWordChar)).cur.pos) = none) :
    Done name src s (munch c cs) (lexSource name src (n + 1) s) := by
  have hp : s.peek = some c := by simp [LexS.peek, h]
  unfold lexSource munch
  rw [hp]
  dsimp only
  rw [next_eat h]
  apply Done.pre (q := cs)
  have op1 : ∀ (d : Char) (k k' : Tok), Done name src (s.eat [c] cs) (munchOp [(d, k)] k' cs)
      (match (s.eat [c] cs).accept [d] with
        | (true, s) => genToken src k s
        | (false, s) => genToken src k' s) := by
    intro d k k'
    cases cs with
    | nil => rw [accept_nil rfl]; simp [munchOp, Done, eat_eat]
    | cons e r =>
      rw [accept_cons (eat_chars _ _ _)]
      by_cases hd : e = d
      · subst hd; simp [munchOp, Done]
      · have hd' : ¬ d = e := fun h => hd h.symm
        simp [munchOp, hd, hd', Done, eat_eat]
  split <;> try (first
    | (simp [Done, eat_eat]; done)
    | exact op1 _ _ _)
  · -- `<`
    unfold lexLesser
    cases cs with
    | nil => rw [accept_nil rfl]; dsimp only; rw [accept_nil rfl]; simp [munchOp, Done, eat_eat]
    | cons e r =>
      rw [accept_cons (eat_chars _ _ _)]
      by_cases h1 : e = '>'
      · subst h1; simp [munchOp, Done]
      · have h1' : ¬ '>' = e := fun h => h1 h.symm
        simp only [List.contains_cons, beq_iff_eq, h1, Bool.or_eq_true, List.contains_nil,
          Bool.false_eq_true, or_self, if_false]
        rw [accept_cons (eat_chars _ _ _)]
        by_cases h2 : e = '='
        · subst h2; simp [munchOp, Done]
        · have h2' : ¬ '=' = e := fun h => h2 h.symm
          simp [munchOp, h1', h2, h2', Done, eat_eat]
  · -- `.`
    unfold lexDot
    cases cs with
    | nil =>
      simp only [accept_nil (eat_chars _ _ _)]
      simp [munchOp, Done, eat_eat]
    | cons e r =>
      simp only [accept_cons (eat_chars _ _ _)]
      by_cases h1 : e = '+'
      · subst h1; simp [munchOp, Done]
      by_cases h2 : e = '-'
      · subst h2; simp [munchOp, Done, accept_cons (eat_chars _ _ _)]
      by_cases h3 : e = '*'
      · subst h3; simp [munchOp, Done, accept_cons (eat_chars _ _ _)]
      by_cases h4 : e = '/'
      · subst h4; simp [munchOp, Done, accept_cons (eat_chars _ _ _)]
      by_cases h5 : e = '^'
      · subst h5; simp [munchOp, Done, accept_cons (eat_chars _ _ _)]
      have h1' : ¬ '+' = e := fun h => h1 h.symm
      have h2' : ¬ '-' = e := fun h => h2 h.symm
      have h3' : ¬ '*' = e := fun h => h3 h.symm
      have h4' : ¬ '/' = e := fun h => h4 h.symm
      have h5' : ¬ '^' = e := fun h => h5 h.symm
      simp [munchOp, Done, accept_cons (eat_chars _ _ _), h1, h2, h3, h4, h5, h1', h2', h3', h4', h5',
        eat_eat]
  · exact lexString_done _ _ rfl
  · exact lexQident_done _ _ rfl
  · -- `/`
    unfold lexSlash
    cases cs with
    | nil => simp [LexS.peek, Done, eat_eat]
    | cons d r =>
      simp only [LexS.peek, eat_chars, List.head?_cons]
      by_cases h1 : d = '/'
      · simp only [h1, if_true]
        unfold lexLineComment
        rw [skipWhile_eat _ _ _ rfl]
        rfl
      · by_cases h2 : d = '*'
        · subst h2
          simp only [if_true]
          exact lexBlock_done _ _ rfl
        · simp [h1, h2, Done, eat_eat]
  · -- other characters
    generalize hM : (if isDigit c = true then munchNum cs
      else if (isAlpha c || c == '_') = true then
        Munch.tok (wordKind (c :: List.takeWhile isWordChar cs)) (List.takeWhile isWordChar cs)
          (List.dropWhile isWordChar cs)
      else Munch.bad (c!"unexpected character: '" ++ [c] ++ c!"'") [] cs) = M
    split <;> try (exfalso; simp_all; done)
    subst hM
    rw [hw]
    simp only [Bool.false_eq_true, if_false]
    split
    · exact lexNumeral_done _ _ rfl
    · split
      · unfold lexNondigit
        dsimp only
        rw [skipWhile_eat _ _ _ rfl, eat_eat]
        simp only [eat_chars, eat_start, List.singleton_append]
        rcases hword with hw | hw
        · rw [hw]; simp [Done, eat_eat]
        · rw [hw]; simp [Done, eat_eat, genToken, hw]
      · refine ⟨false, by simp, ?_⟩
        rw [eat_eat]; rfl

end Mofmt
