import Verif.Spec.LexWork
import Verif.Proofs.Basic
/-
The work of the lexer against the number of characters.
-/
namespace Mofmt

/-- what is still to do: 65 for each character, 1 for noticing the end -/
def LexS.todo (s : LexS) : Nat := 65 * s.chars.length + if s.atEof then 0 else 1

theorem next_chars {s : LexS} {c : Char} {cs : Text} (h : s.chars = c :: cs) : s.next.chars = cs ∧ s.next.atEof = s.atEof := by
  unfold LexS.next
  rw [h]
  exact ⟨rfl, rfl⟩

theorem next_none {s : LexS} (h : s.chars = []) : s.next.chars = [] ∧ s.next.atEof = true := by
  unfold LexS.next
  rw [h]
  exact ⟨rfl, rfl⟩

theorem next_todo {s : LexS} {c : Char} {cs : Text} (h : s.chars = c :: cs) : s.next.todo + 65 = s.todo := by
  obtain ⟨h1, h2⟩ := next_chars h
  simp only [LexS.todo, h1, h2, h, List.length_cons]
  omega

theorem next_todo_le (s : LexS) : s.next.todo ≤ s.todo := by
  cases h : s.chars with
  | nil =>
    obtain ⟨h1, h2⟩ := next_none h
    simp only [LexS.todo, h1, h2, h]
    simp
  | cons c cs => have := next_todo h; omega

theorem next_shorter (s : LexS) : s.chars.length ≤ s.next.chars.length + 1 := by
  cases h : s.chars with
  | nil => simp
  | cons c cs => rw [(next_chars h).1]; simp

/-- the end has been noticed only where no characters are left -/
def LexS.Ended (s : LexS) : Prop := s.atEof = true → s.chars = []

theorem next_ended {s : LexS} (e : s.Ended) : s.next.Ended := by
  intro h
  cases hc : s.chars with
  | nil => exact (next_none hc).1
  | cons c cs => rw [(next_chars hc).2] at h; rw [e h] at hc; cases hc

theorem accept_cases (cs : Text) (s : LexS) : (s.accept cs = (false, s) ∧ acceptWork cs s = 1) ∨
    (∃ c r, s.chars = c :: r ∧ s.accept cs = (true, s.next) ∧ acceptWork cs s = 2) := by
  unfold acceptWork LexS.accept LexS.peek
  cases h : s.chars with
  | nil => simp
  | cons c r =>
    simp only [List.head?_cons]
    split
    · right; exact ⟨c, r, rfl, rfl, rfl⟩
    · left; exact ⟨rfl, rfl⟩

theorem accept_todo (cs : Text) (s : LexS) : acceptWork cs s + (s.accept cs).2.todo ≤ s.todo + 1 := by
  rcases accept_cases cs s with ⟨h1, h2⟩ | ⟨c, r, h, h1, h2⟩
  · rw [h1, h2]; simp; omega
  · rw [h1, h2]; have := next_todo h; simp only; omega

theorem accept_shorter (cs : Text) (s : LexS) : s.chars.length ≤ (s.accept cs).2.chars.length + acceptWork cs s := by
  rcases accept_cases cs s with ⟨h1, h2⟩ | ⟨c, r, h, h1, h2⟩
  · rw [h1, h2]; simp
  · rw [h1, h2]; have := next_shorter s; simp only; omega

theorem accept_ended (cs : Text) {s : LexS} (e : s.Ended) : (s.accept cs).2.Ended := by
  rcases accept_cases cs s with ⟨h1, _⟩ | ⟨c, r, h, h1, _⟩
  · rw [h1]; exact e
  · rw [h1]; exact next_ended e

theorem skip_ended (p : Char → Bool) (cs : Text) : ∀ s : LexS, s.Ended → (skipWhile p cs s).Ended := by
  induction cs with
  | nil => intro s e; exact e
  | cons c cs ih =>
    intro s e
    rw [skipWhile]
    split
    · exact ih _ (next_ended e)
    · exact e

theorem skip_todo (p : Char → Bool) (cs : Text) : ∀ s : LexS, s.chars = cs →
    skipWork p cs + (skipWhile p cs s).todo ≤ s.todo + 1 ∧ (skipWhile p cs s).atEof = s.atEof ∧
    cs.length ≤ (skipWhile p cs s).chars.length + skipWork p cs := by
  induction cs with
  | nil => intro s h; rw [skipWork, skipWhile]; simp [h]; omega
  | cons c cs ih =>
    intro s h
    rw [skipWork, skipWhile]
    split
    · obtain ⟨h1, h2⟩ := next_chars h
      obtain ⟨i1, i2, i3⟩ := ih s.next h1
      have := next_todo h
      refine ⟨by omega, by rw [i2, h2], ?_⟩
      simp only [List.length_cons]
      omega
    · refine ⟨by omega, rfl, ?_⟩
      rw [h]; omega

theorem genToken_ok {src : Text} {k : Tok} {s s' : LexS} (h : genToken src k s = .ok s') :
    s'.chars = s.chars ∧ s'.atEof = s.atEof := by
  unfold genToken at h
  split at h
  · cases h
  · simp only [LexS.jump] at h
    split at h <;> (injection h with h; subst h; exact ⟨rfl, rfl⟩)

theorem genError_ok {name msg : Text} {s s' : LexS} (h : genError name msg s = .ok s') :
    s'.chars = s.chars ∧ s'.atEof = s.atEof := by
  unfold genError at h
  injection h with h
  subst h
  exact ⟨rfl, rfl⟩

/-- work `w` done between two states, with `k` more than the characters account for -/
structure Spent (k w : Nat) (s s' : LexS) : Prop where
  most : w + s'.todo ≤ s.todo + k
  least : s.chars.length ≤ s'.chars.length + w
  ends : s.Ended → s'.Ended

theorem spent_token {src : Text} {k : Tok} {s s' : LexS} (h : genToken src k s = .ok s') : Spent 1 1 s s' := by
  obtain ⟨h1, h2⟩ := genToken_ok h
  constructor
  · simp only [LexS.todo, h1, h2]; omega
  · rw [h1]; omega
  · intro e h; rw [h1]; exact e (h2 ▸ h)

theorem spent_error {name msg : Text} {s s' : LexS} (h : genError name msg s = .ok s') : Spent 1 1 s s' := by
  obtain ⟨h1, h2⟩ := genError_ok h
  constructor
  · simp only [LexS.todo, h1, h2]; omega
  · rw [h1]; omega
  · intro e h; rw [h1]; exact e (h2 ▸ h)

theorem Spent.accept {cs : Text} {s s' : LexS} {k w : Nat} (h : Spent k w (s.accept cs).2 s') :
    Spent (k + 1) (acceptWork cs s + w) s s' := by
  have h1 := accept_todo cs s
  have h2 := accept_shorter cs s
  have := h.most
  have := h.least
  exact ⟨by omega, by omega, fun e => h.ends (accept_ended cs e)⟩

theorem Spent.skip {p : Char → Bool} {s s' : LexS} {k w : Nat} (h : Spent k w (skipWhile p s.chars s) s') :
    Spent (k + 1) (skipWork p s.chars + w) s s' := by
  obtain ⟨h1, _, h2⟩ := skip_todo p s.chars s rfl
  have := h.most
  have := h.least
  exact ⟨by omega, by omega, fun e => h.ends (skip_ended p _ _ e)⟩

theorem Spent.mono {s s' : LexS} {k k' w : Nat} (h : Spent k w s s') (hk : k ≤ k') : Spent k' w s s' :=
  ⟨by have := h.most; omega, h.least, h.ends⟩

/-- taking the first character pays for the rest -/
theorem Spent.first {s s' : LexS} {k w : Nat} {c : Char} {cs : Text} (hc : s.chars = c :: cs) (h : Spent k w s.next s') (hk : k ≤ 64) :
    Spent 0 (1 + w) s s' := by
  have h1 := next_todo hc
  have h2 := next_shorter s
  have := h.most
  have := h.least
  exact ⟨by omega, by omega, fun e => h.ends (next_ended e)⟩

/-! ### The parts of the lexer -/

theorem spent_one {src : Text} {a b : Tok} {cs : Text} {s s' : LexS}
    (h : (match s.accept cs with | (true, s) => genToken src a s | (false, s) => genToken src b s) = .ok s') :
    Spent 2 (acceptsWork [cs] s) s s' := by
  rw [acceptsWork]
  rcases accept_cases cs s with ⟨h1, _⟩ | ⟨c, r, hc, h1, _⟩
  · rw [h1] at h
    have := (spent_token h)
    rw [show s = (s.accept cs).2 by rw [h1]] at this
    have := this.accept
    simpa [h1, acceptsWork] using this
  · rw [h1] at h
    have := (spent_token h)
    rw [show s.next = (s.accept cs).2 by rw [h1]] at this
    have := this.accept
    simpa [h1] using this

/-- one more alternative -/
theorem spent_more {src : Text} {a : Tok} {cs : Text} {rest : List Text} {s s' : LexS} {k : Nat} {f : LexS → Res LexS}
    (h : (match s.accept cs with | (true, s) => genToken src a s | (false, s) => f s) = .ok s')
    (hf : f s = .ok s' → Spent k (acceptsWork rest s) s s') (hk : 1 ≤ k) :
    Spent (k + 1) (acceptsWork (cs :: rest) s) s s' := by
  rw [acceptsWork]
  rcases accept_cases cs s with ⟨h1, _⟩ | ⟨c, r, hc, h1, _⟩
  · rw [h1] at h
    have := hf h
    rw [show Spent k (acceptsWork rest s) s s' ↔ Spent k (acceptsWork rest s) (s.accept cs).2 s' by rw [h1]] at this
    have := this.accept
    simpa [h1] using this
  · rw [h1] at h
    have := (spent_token h).mono hk
    rw [show s.next = (s.accept cs).2 by rw [h1]] at this
    have := this.accept
    simpa [h1] using this

theorem spent_string {name src : Text} (cs : Text) : ∀ (s s' : LexS), s.chars = cs → lexString name src cs s = .ok s' →
    Spent 2 (stringWork cs) s s' := by
  induction cs using stringWork.induct with
  | case1 c cs ih =>
    intro s s' hc h
    rw [lexString] at h
    have h1 := next_chars hc
    have h2 := next_chars h1.1
    have := ih _ _ h2.1 h
    have a := this.most
    have b := this.least
    have e := this.ends
    have := next_todo hc
    have := next_todo h1.1
    have := next_shorter s
    have := next_shorter s.next
    rw [stringWork]
    exact ⟨by omega, by omega, fun i => by first | exact e (next_ended (next_ended i)) | exact e (next_ended i) | exact e i⟩
  | case2 ih =>
    intro s s' hc h
    rw [lexString] at h
    have h1 := next_chars hc
    have h2 := next_none h1.1
    have := ih _ _ h2.1 h
    have a := this.most
    have b := this.least
    have e := this.ends
    have := next_todo hc
    have := next_todo_le s.next
    have := next_shorter s
    have := next_shorter s.next
    rw [stringWork]
    exact ⟨by omega, by omega, fun i => by first | exact e (next_ended (next_ended i)) | exact e (next_ended i) | exact e i⟩
  | case3 cs =>
    intro s s' hc h
    rw [lexString] at h
    have := spent_token h
    have a := this.most
    have b := this.least
    have e := this.ends
    have := next_todo hc
    have := next_shorter s
    rw [stringWork]
    exact ⟨by omega, by omega, fun i => by first | exact e (next_ended (next_ended i)) | exact e (next_ended i) | exact e i⟩
  | case4 c cs h1 h2 h3 ih =>
    intro s s' hc h
    rw [lexString] at h
    · have := ih _ _ (next_chars hc).1 h
      have a := this.most
      have b := this.least
      have e := this.ends
      have := next_todo hc
      have := next_shorter s
      rw [stringWork]
      · exact ⟨by omega, by omega, fun i => by first | exact e (next_ended (next_ended i)) | exact e (next_ended i) | exact e i⟩
      all_goals assumption
    all_goals assumption
  | case5 =>
    intro s s' hc h
    rw [lexString] at h
    have := spent_error h
    have a := this.most
    have b := this.least
    have e := this.ends
    have := next_todo_le s
    have := next_shorter s
    rw [stringWork]
    exact ⟨by omega, by omega, fun i => by first | exact e (next_ended (next_ended i)) | exact e (next_ended i) | exact e i⟩

theorem spent_qident {name src : Text} (cs : Text) : ∀ (s s' : LexS), s.chars = cs → lexQident name src cs s = .ok s' →
    Spent 2 (qidentWork cs) s s' := by
  induction cs using qidentWork.induct with
  | case1 c cs ih =>
    intro s s' hc h
    rw [lexQident] at h
    have h1 := next_chars hc
    have h2 := next_chars h1.1
    have := ih _ _ h2.1 h
    have a := this.most
    have b := this.least
    have e := this.ends
    have := next_todo hc
    have := next_todo h1.1
    have := next_shorter s
    have := next_shorter s.next
    rw [qidentWork]
    exact ⟨by omega, by omega, fun i => by first | exact e (next_ended (next_ended i)) | exact e (next_ended i) | exact e i⟩
  | case2 ih =>
    intro s s' hc h
    rw [lexQident] at h
    have h1 := next_chars hc
    have h2 := next_none h1.1
    have := ih _ _ h2.1 h
    have a := this.most
    have b := this.least
    have e := this.ends
    have := next_todo hc
    have := next_todo_le s.next
    have := next_shorter s
    have := next_shorter s.next
    rw [qidentWork]
    exact ⟨by omega, by omega, fun i => by first | exact e (next_ended (next_ended i)) | exact e (next_ended i) | exact e i⟩
  | case3 cs =>
    intro s s' hc h
    rw [lexQident] at h
    have := spent_token h
    have a := this.most
    have b := this.least
    have e := this.ends
    have := next_todo hc
    have := next_shorter s
    rw [qidentWork]
    exact ⟨by omega, by omega, fun i => by first | exact e (next_ended (next_ended i)) | exact e (next_ended i) | exact e i⟩
  | case4 c cs h1 h2 h3 h4 ih =>
    intro s s' hc h
    rw [lexQident] at h
    · rw [if_pos h4] at h
      have := ih _ _ (next_chars hc).1 h
      have a := this.most
      have b := this.least
      have e := this.ends
      have := next_todo hc
      have := next_shorter s
      rw [qidentWork]
      · rw [if_pos h4]
        exact ⟨by omega, by omega, fun i => by first | exact e (next_ended (next_ended i)) | exact e (next_ended i) | exact e i⟩
      all_goals assumption
    all_goals assumption
  | case5 c cs h1 h2 h3 h4 =>
    intro s s' hc h
    rw [lexQident] at h
    · rw [if_neg h4] at h
      have := spent_error h
      have a := this.most
      have b := this.least
      have e := this.ends
      have := next_todo hc
      have := next_shorter s
      rw [qidentWork]
      · rw [if_neg h4]
        exact ⟨by omega, by omega, fun i => by first | exact e (next_ended (next_ended i)) | exact e (next_ended i) | exact e i⟩
      all_goals assumption
    all_goals assumption
  | case6 =>
    intro s s' hc h
    rw [lexQident] at h
    have := spent_error h
    have a := this.most
    have b := this.least
    have e := this.ends
    have := next_todo_le s
    have := next_shorter s
    rw [qidentWork]
    exact ⟨by omega, by omega, fun i => by first | exact e (next_ended (next_ended i)) | exact e (next_ended i) | exact e i⟩

theorem spent_block {name src : Text} (cs : Text) : ∀ (s s' : LexS), s.chars = cs → lexBlockComment name src cs s = .ok s' →
    Spent 2 (blockWork cs) s s' := by
  induction cs using blockWork.induct with
  | case1 cs =>
    intro s s' hc h
    rw [lexBlockComment] at h
    have h1 := next_chars hc
    have := spent_token h
    have a := this.most
    have b := this.least
    have e := this.ends
    have := next_todo hc
    have := next_todo h1.1
    have := next_shorter s
    have := next_shorter s.next
    rw [blockWork]
    exact ⟨by omega, by omega, fun i => by first | exact e (next_ended (next_ended i)) | exact e (next_ended i) | exact e i⟩
  | case2 =>
    intro s s' hc h
    rw [lexBlockComment] at h
    have := spent_error h
    have a := this.most
    have b := this.least
    have e := this.ends
    have := next_todo hc
    have := next_shorter s
    rw [blockWork]
    exact ⟨by omega, by omega, fun i => by first | exact e (next_ended (next_ended i)) | exact e (next_ended i) | exact e i⟩
  | case3 cs h1 h2 ih =>
    intro s s' hc h
    rw [lexBlockComment] at h
    · have := ih _ _ (next_chars hc).1 h
      have a := this.most
      have b := this.least
      have e := this.ends
      have := next_todo hc
      have := next_shorter s
      rw [blockWork]
      · exact ⟨by omega, by omega, fun i => by first | exact e (next_ended (next_ended i)) | exact e (next_ended i) | exact e i⟩
      all_goals assumption
    all_goals first | assumption | (intro r _ e; exact h1 r e) | (intro _ e; exact h2 e)
  | case4 c cs h1 h2 h3 ih =>
    intro s s' hc h
    rw [lexBlockComment] at h
    · have := ih _ _ (next_chars hc).1 h
      have a := this.most
      have b := this.least
      have e := this.ends
      have := next_todo hc
      have := next_shorter s
      rw [blockWork]
      · exact ⟨by omega, by omega, fun i => by first | exact e (next_ended (next_ended i)) | exact e (next_ended i) | exact e i⟩
      all_goals assumption
    all_goals assumption
  | case5 =>
    intro s s' hc h
    rw [lexBlockComment] at h
    have := spent_error h
    have a := this.most
    have b := this.least
    have e := this.ends
    have := next_todo_le s
    have := next_shorter s
    rw [blockWork]
    exact ⟨by omega, by omega, fun i => by first | exact e (next_ended (next_ended i)) | exact e (next_ended i) | exact e i⟩

theorem spent_slash {name src : Text} {s s' : LexS} (h : lexSlash name src s = .ok s') : Spent 3 (slashWork s) s s' := by
  unfold lexSlash at h
  unfold slashWork
  split at h
  · split at h
    · rw [lexLineComment] at h
      rename_i hp hc
      have := (spent_token h).skip
      have a := this.most
      have b := this.least
      have e := this.ends
      simp only [hp, if_pos hc]
      exact ⟨by omega, by omega, fun i => by first | exact e (next_ended (next_ended i)) | exact e (next_ended i) | exact e i⟩
    · split at h
      · rename_i hp hc hd
        have := spent_block _ _ _ rfl h
        have a := this.most
        have b := this.least
        have e := this.ends
        simp only [hp, if_neg hc, if_pos hd]
        exact ⟨by omega, by omega, fun i => by first | exact e (next_ended (next_ended i)) | exact e (next_ended i) | exact e i⟩
      · rename_i hp hc hd
        have := spent_token h
        have a := this.most
        have b := this.least
        have e := this.ends
        simp only [hp, if_neg hc, if_neg hd]
        exact ⟨by omega, by omega, fun i => by first | exact e (next_ended (next_ended i)) | exact e (next_ended i) | exact e i⟩
  · rename_i hp
    have := spent_token h
    have a := this.most
    have b := this.least
    have e := this.ends
    simp only [hp]
    exact ⟨by omega, by omega, fun i => by first | exact e (next_ended (next_ended i)) | exact e (next_ended i) | exact e i⟩

theorem spent_exponent {src : Text} {a : Tok} {s s' : LexS}
    (h : (match s.accept c!"eE" with
      | (false, s) => genToken src a s
      | (true, s) => genToken src .UReal (s.accept c!"+-").2.acceptDigits) = .ok s') :
    Spent 4 (exponentWork s) s s' := by
  unfold exponentWork
  rcases accept_cases c!"eE" s with ⟨h1, _⟩ | ⟨c, r, hc, h1, _⟩
  · rw [h1] at h
    have := spent_token h
    rw [show Spent 1 1 s s' ↔ Spent 1 1 (s.accept c!"eE").2 s' by rw [h1]] at this
    have := this.accept
    rw [h1]
    simp only [Bool.false_eq_true, if_false, Nat.add_zero]
    exact this.mono (by omega)
  · rw [h1] at h
    have := ((spent_token h).skip (p := isDigit)).accept
    rw [show ∀ w, Spent 3 w s.next s' ↔ Spent 3 w (s.accept c!"eE").2 s' by intro w; rw [h1]] at this
    have := this.accept
    rw [h1]
    simp only [if_true]
    simpa only [Nat.add_assoc] using this

theorem spent_numeral {src : Text} {s s' : LexS} (h : lexNumeral src s = .ok s') : Spent 7 (numeralWork s) s s' := by
  unfold lexNumeral at h
  unfold numeralWork
  rcases accept_cases c!"." s.acceptDigits with ⟨h1, _⟩ | ⟨c, r, hc, h1, _⟩
  · rw [h1] at h ⊢
    have := spent_exponent h
    rw [show Spent 4 (exponentWork s.acceptDigits) s.acceptDigits s' ↔
      Spent 4 (exponentWork s.acceptDigits) (s.acceptDigits.accept c!".").2 s' by rw [h1]] at this
    have := (Spent.accept this).skip (p := isDigit)
    simp only [Bool.false_eq_true, if_false]
    rw [Nat.add_assoc]
    exact this.mono (by omega)
  · rw [h1] at h ⊢
    have : Spent 4 (exponentWork s.acceptDigits.next.acceptDigits) s.acceptDigits.next.acceptDigits s' := by
      apply spent_exponent (src := src) (a := .UReal)
      simp only at h
      revert h
      rcases s.acceptDigits.next.acceptDigits.accept c!"eE" with ⟨_ | _, x⟩ <;> exact fun h => h
    have := this.skip (p := isDigit)
    rw [show ∀ w, Spent 5 w s.acceptDigits.next s' ↔ Spent 5 w (s.acceptDigits.accept c!".").2 s' by intro w; rw [h1]] at this
    have := (Spent.accept this).skip (p := isDigit)
    simp only [if_true]
    rw [Nat.add_assoc]
    exact this

theorem spent_word {src : Text} {s s' : LexS} (h : lexNondigit src s = .ok s') : Spent 61 (wordWork s) s s' := by
  unfold lexNondigit at h
  unfold wordWork
  simp only at h
  split at h
  · cases h
  · have := (spent_token h).skip
    have a := this.most
    have b := this.least
    have e := this.ends
    have : keywords.length = 59 := by decide
    exact ⟨by omega, by omega, fun i => by first | exact e (next_ended (next_ended i)) | exact e (next_ended i) | exact e i⟩

theorem spent_source {name src : Text} : ∀ (n : Nat) (s s' : LexS), s.atEof = false → lexSource name src n s = .ok s' →
    Spent 0 (sourceWork n s) s s' := by
  intro n
  induction n with
  | zero => intro s s' _ h; cases h
  | succ n ih =>
    intro s s' he h
    rw [lexSource] at h
    rw [sourceWork]
    split at h
    · rename_i hp
      have hc : s.chars = [] := by
        cases hc : s.chars with
        | nil => rfl
        | cons c cs => simp [LexS.peek, hc] at hp
      obtain ⟨h1, h2⟩ := next_none hc
      injection h with h
      subst h
      simp only [hp]
      constructor
      · simp [LexS.todo, h1, h2, hc, he]
      · simp [hc]
      · exact next_ended
    · rename_i c hp
      obtain ⟨cs, hc⟩ : ∃ cs, s.chars = c :: cs := by
        cases hc : s.chars with
        | nil => simp [LexS.peek, hc] at hp
        | cons d cs =>
          simp only [LexS.peek, hc, List.head?_cons, Option.some.injEq] at hp
          exact ⟨cs, by rw [hp]⟩
      simp only [hp]
      split at h <;> try exact (spent_token h).first hc (by omega)
      · exact (spent_one (by rw [lexColon] at h; exact h)).first hc (by omega)
      · exact (spent_one (by rw [lexEqual] at h; exact h)).first hc (by omega)
      · rw [lexLesser] at h
        exact (spent_more (f := fun s => match s.accept c!"=" with
          | (true, s) => genToken src .Leq s
          | (false, s) => genToken src .Les s) h spent_one (by omega)).first hc (by omega)
      · exact (spent_one (by rw [lexGreater] at h; exact h)).first hc (by omega)
      · rw [lexDot] at h
        exact (spent_more h (fun h => spent_more h (fun h => spent_more h (fun h => spent_more h spent_one (by omega)) (by omega))
          (by omega)) (by omega)).first hc (by omega)
      · exact (spent_string _ _ _ rfl h).first hc (by omega)
      · exact (spent_qident _ _ _ rfl h).first hc (by omega)
      · exact (spent_slash h).first hc (by omega)
      · split at h
        · rename_i hw
          obtain ⟨h1, h2, h3⟩ := skip_todo isWs s.next.chars s.next rfl
          have := ih _ _ (by simp only [LexS.jump]; rw [h2, (next_chars hc).2, he]) h
          have a := this.most
          have b := this.least
          have e := this.ends
          have t1 := next_todo hc
          have t2 := next_shorter s
          have e1 : (skipWhile isWs s.next.chars s.next).jump.todo = (skipWhile isWs s.next.chars s.next).todo := rfl
          have e2 : (skipWhile isWs s.next.chars s.next).jump.chars = (skipWhile isWs s.next.chars s.next).chars := rfl
          rw [e1] at a
          rw [e2] at b
          simp only [if_pos hw]
          exact ⟨by omega, by omega, fun i => by first | exact e (next_ended (next_ended i)) | exact e (next_ended i) | exact e i | exact e (skip_ended _ _ _ (next_ended i))⟩
        · rename_i hw
          simp only [if_neg hw]
          split at h
          · rename_i hd
            simp only [if_pos hd]
            exact (spent_numeral h).first hc (by omega)
          · rename_i hd
            simp only [if_neg hd]
            split at h
            · rename_i ha
              simp only [if_pos ha]
              exact (spent_word h).first hc (by omega)
            · rename_i ha
              simp only [if_neg ha]
              exact (spent_error h).first hc (by omega)

theorem spent_tokenize {name src : Text} : ∀ (n : Nat) (s s' : LexS), s.Ended → tokenize name src n s = .ok s' →
    tokenizeWork name src n s ≤ s.todo ∧ s.chars.length ≤ tokenizeWork name src n s := by
  intro n
  induction n with
  | zero => intro s s' _ h; cases h
  | succ n ih =>
    intro s s' e h
    rw [tokenize] at h
    rw [tokenizeWork]
    split at h
    · rename_i he
      rw [if_pos he, e he]
      exact ⟨Nat.zero_le _, Nat.le_refl _⟩
    · rename_i he
      rw [if_neg he]
      obtain ⟨t, hs, h⟩ := Res.bind_eq_ok.1 h
      have a := spent_source _ _ _ (by simpa using he) hs
      obtain ⟨b, c⟩ := ih _ _ (a.ends e) h
      have := a.most
      have := a.least
      rw [hs]
      simp only
      omega

theorem lexWork_le {name src : Text} {l : Lexed} (h : lex name src = .ok l) :
    src.length ≤ lexWork name src ∧ lexWork name src ≤ 65 * src.length + 1 := by
  obtain ⟨s, h, _⟩ := Res.bind_eq_ok.1 h
  obtain ⟨a, b⟩ := spent_tokenize _ _ _ (by intro h; cases h) h
  exact ⟨b, a⟩

end Mofmt
