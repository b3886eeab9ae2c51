import Verif.Proofs.Munch
import Verif.Props.Accept
/-
C53, C54: the result of the lexer and the accepted files in terms of the text alone.
-/
namespace Mofmt
open Lexical

/-! ### C53 -/

/-- **C53** Every text divides in exactly one way into white space, longest tokens and errors. -/
theorem C53_divided (src : Text) : ∃ ps, Divided src ps ∧ ∀ qs, Divided src qs → qs = ps := by
  obtain ⟨ps, h⟩ := divided_exists src
  refine ⟨ps, h, fun qs h' => ?_⟩
  obtain ⟨a, h1⟩ := divided_items h
  obtain ⟨b, h2⟩ := divided_items h'
  exact pieceItems_inj _ _ b a (h2 ▸ h1)

/-- **C53** The result of the lexer is determined by how the text divides: the tokens, the comments and the
messages, all with their positions.  It panics exactly if a token ends with a character that is not ASCII, or
directly follows an error that does. -/
theorem C53_lexed (name src : Text) (ps : List (Text × Chunk)) (h : Divided src ps) :
    lex name src = if awkward false ps then .panic .slice
      else .ok ⟨(lexemes [] 0 ps).filter (fun t => !isComment t), (lexemes [] 0 ps).filter isComment,
        problems name [] ps⟩ := by
  obtain ⟨tail, hi⟩ := divided_items h
  have he := emit_pieces (name := name) h tail [] 0
  rw [lex_spec, hi, he]
  show Res.bind (if awkward false ps then _ else _) _ = _
  split
  · rfl
  · rfl

/-- **C53** The tokens that a lexer error or the end of the file does not cut short: of the tokens only line
comments can end with a character that is not ASCII. -/
theorem C53_ascii (k : Tok) (t : Text) (h : Class k t) (hk : k ≠ .LineComment) : endsAscii t = true := by
  have word : ∀ t : Text, isWord t = true → endsAscii t = true := by
    intro t h
    unfold endsAscii
    cases hl : t.getLast? with
    | none => rfl
    | some c =>
      have hm := List.mem_of_getLast? hl
      cases t with
      | nil => cases hm
      | cons d ds =>
        simp only [isWord, Bool.and_eq_true] at h
        have : wordChar c = true := by
          rcases List.mem_cons.1 hm with rfl | hm
          · exact wordStart_wordChar h.1
          · exact List.all_eq_true.1 h.2 c hm
        simp only [wordChar, letter, digit, Bool.or_eq_true, decide_eq_true_eq, Char.le_def,
          UInt32.le_iff_toNat_le] at this
        have e : c.toNat = c.val.toNat := rfl
        simp only [Option.all_some, decide_eq_true_eq, e]
        rcases this with ((⟨_, h⟩ | ⟨_, h⟩) | ⟨_, h⟩) | rfl
        · exact Nat.lt_of_le_of_lt h (by decide)
        · exact Nat.lt_of_le_of_lt h (by decide)
        · exact Nat.lt_of_le_of_lt h (by decide)
        · decide
  have last : ∀ (m : Text) (c : Char), c.toNat < 128 → endsAscii (m ++ [c]) = true := by
    intro m c hc
    simp [endsAscii, hc]
  have digits : ∀ (m : Text), m.all digit = true → endsAscii m = true := by
    intro m h
    unfold endsAscii
    cases hl : m.getLast? with
    | none => rfl
    | some c =>
      have := List.all_eq_true.1 h c (List.mem_of_getLast? hl)
      simp only [digit, decide_eq_true_eq, Char.le_def, UInt32.le_iff_toNat_le] at this
      have e : c.toNat = c.val.toNat := rfl
      simp only [Option.all_some, decide_eq_true_eq, e]
      exact Nat.lt_of_le_of_lt this.2 (by decide)
  have app : ∀ a b : Text, endsAscii a = true → endsAscii b = true → endsAscii (a ++ b) = true := by
    intro a b ha hb
    cases b with
    | nil => simpa using ha
    | cons x b => rw [endsAscii_eq, asciiEnd_append (by simp), ← endsAscii_eq]; exact hb
  have strEnd : ∀ b : Text, stringTail b = true → ∃ m, b = m ++ ['"'] := by
    intro b
    induction b using stringTail.induct with
    | case1 c cs ih =>
      intro h
      simp only [stringTail] at h
      obtain ⟨m, rfl⟩ := ih h
      exact ⟨'\\' :: c :: m, rfl⟩
    | case2 cs =>
      intro h
      simp only [stringTail, List.isEmpty_iff] at h
      exact ⟨[], by rw [h]; rfl⟩
    | case3 c cs h1 h2 ih =>
      intro h
      rw [stringTail] at h
      · obtain ⟨m, rfl⟩ := ih h
        exact ⟨c :: m, rfl⟩
      · exact h1
      · exact h2
    | case4 => intro h; simp [stringTail] at h
  have quoEnd : ∀ b : Text, quotedTail b = true → ∃ m, b = m ++ ['\''] := by
    intro b
    induction b using quotedTail.induct with
    | case1 c cs ih =>
      intro h
      simp only [quotedTail] at h
      obtain ⟨m, rfl⟩ := ih h
      exact ⟨'\\' :: c :: m, rfl⟩
    | case2 cs =>
      intro h
      simp only [quotedTail, List.isEmpty_iff] at h
      exact ⟨[], by rw [h]; rfl⟩
    | case3 c cs h1 h2 ih =>
      intro h
      rw [quotedTail] at h
      · simp only [Bool.and_eq_true] at h
        obtain ⟨m, rfl⟩ := ih h.2
        exact ⟨c :: m, rfl⟩
      · exact h1
      · exact h2
    | case4 => intro h; simp [quotedTail] at h
  have key : ∀ k ∈ Tok.all, ∀ w ∈ spelling k, endsAscii w = true := by decide
  cases k
  case EOF => exact h.elim
  case LineComment => exact absurd rfl hk
  case Identifier =>
    rcases h with h | ⟨b, rfl, hb⟩
    · exact word t h.1
    · obtain ⟨m, rfl⟩ := quoEnd b hb
      exact last ('\'' :: m) '\'' (by decide)
  case Bool => rcases h with rfl | rfl <;> rfl
  case String =>
    obtain ⟨b, rfl, hb⟩ := h
    obtain ⟨m, rfl⟩ := strEnd b hb
    exact last ('"' :: m) '"' (by decide)
  case BlockComment =>
    obtain ⟨b, rfl, hb⟩ := h
    obtain ⟨m, hm⟩ := commentTail_end _ hb
    rw [hm]
    exact last ('/' :: m ++ ['*']) '/' (by decide) ▸ (by simp)
  case UInt => exact digits t h.2
  case UReal =>
    obtain ⟨ds, fr, ex, rfl, _, h2, hf, he, _⟩ := h
    refine app _ _ (app _ _ (digits _ h2) ?_) ?_
    · rcases hf with rfl | ⟨d, rfl, hd⟩
      · rfl
      · exact app ['.'] d rfl (digits d hd)
    · rcases he with rfl | ⟨e, sg, d, rfl, h3, h4, hd⟩
      · rfl
      · refine app [e] _ ?_ (app _ _ ?_ (digits d hd))
        · rcases h3 with rfl | rfl <;> rfl
        · rcases h4 with rfl | rfl | rfl <;> rfl
  all_goals exact key _ (Tok.mem_all _) t h

/-- **C18**, exactly: the lexer panics if and only if, as the text divides, a token ends with a character
that is not ASCII or directly follows an error that does. -/
theorem C18_panics_iff (name src : Text) :
    lex name src = .panic .slice ↔ ∃ ps, Divided src ps ∧ awkward false ps = true := by
  constructor
  · intro h
    obtain ⟨ps, hp, _⟩ := C53_divided src
    rw [C53_lexed name src ps hp] at h
    split at h
    · exact ⟨ps, hp, by assumption⟩
    · cases h
  · rintro ⟨ps, hp, ha⟩
    rw [C53_lexed name src ps hp, if_pos ha]

/-- The text of the example: all kinds of pieces, with and without white space between them. -/
def exPieces : Text := c!"a.b:=1.5e+x // c\n 'q' ° \"s"

def exPiecesOf : List (Text × Chunk) :=
  [([], .token .Identifier c!"a"), ([], .token .Dot c!"."), ([], .token .Identifier c!"b"),
   ([], .token .Assign c!":="), ([], .token .UReal c!"1.5e+"), ([], .token .Identifier c!"x"),
   (c!" ", .token .LineComment c!"// c"), (c!"\n ", .token .Identifier c!"'q'"),
   (c!" ", .stray '°'), (c!" ", .openString c!"s")]

/-- A token as found by the scanner may stand there. -/
theorem token_before {k : Tok} {t r : Text} {c : Char} {cs : Text} (h : munch c cs = .tok k t r) :
    (Chunk.token k t).Before r :=
  ⟨munch_class h, munch_longest h, by rintro rfl; exact munch_slash h⟩

theorem exPieces_divided : Divided exPieces exPiecesOf := by
  have tok : ∀ {w r : Text} {k : Tok} {c : Char} {t : Text} {ps : List (Text × Chunk)},
      w.all ws = true → munch c (t ++ r) = .tok k (c :: t) r → Divided r ps →
      Divided (w ++ c :: t ++ r) ((w, .token k (c :: t)) :: ps) :=
    fun hw hm h => .next hw (token_before hm) h
  have hb : (Chunk.stray '°').Before c!" \"s" := by
    obtain ⟨p, h1, h2, h3⟩ := munch_bad (c := '°') (cs := c!" \"s") (by decide) rfl
    cases p <;> simp [Chunk.text, Chunk.problem] at h2 h3
    subst h2
    exact h1
  have hs : (Chunk.openString c!"s").Before [] := ⟨rfl, munchStr_open.mp rfl⟩
  refine tok (w := []) (r := c!".b:=1.5e+x // c\n 'q' ° \"s")
    (k := .Identifier) (c := 'a') (t := []) rfl (by decide +kernel) ?_
  refine tok (w := []) (r := c!"b:=1.5e+x // c\n 'q' ° \"s")
    (k := .Dot) (c := '.') (t := []) rfl (by decide +kernel) ?_
  refine tok (w := []) (r := c!":=1.5e+x // c\n 'q' ° \"s")
    (k := .Identifier) (c := 'b') (t := []) rfl (by decide +kernel) ?_
  refine tok (w := []) (r := c!"1.5e+x // c\n 'q' ° \"s")
    (k := .Assign) (c := ':') (t := c!"=") rfl (by decide +kernel) ?_
  refine tok (w := []) (r := c!"x // c\n 'q' ° \"s")
    (k := .UReal) (c := '1') (t := c!".5e+") rfl (by decide +kernel) ?_
  refine tok (w := []) (r := c!" // c\n 'q' ° \"s")
    (k := .Identifier) (c := 'x') (t := []) rfl (by decide +kernel) ?_
  refine tok (w := c!" ") (r := c!"\n 'q' ° \"s")
    (k := .LineComment) (c := '/') (t := c!"/ c") rfl (by decide +kernel) ?_
  refine tok (w := c!"\n ") (r := c!" ° \"s")
    (k := .Identifier) (c := '\'') (t := c!"q'") rfl (by decide +kernel) ?_
  refine .next (w := c!" ") (r := c!" \"s") rfl hb ?_
  exact .next (w := c!" ") (r := []) rfl hs (.done rfl)

/-- The hypothesis of `C53_lexed` holds of a text with two errors, and the messages say where they are. -/
example : Divided exPieces exPiecesOf ∧ awkward false exPiecesOf = false ∧
    problems c!"f" [] exPiecesOf = [c!"f:2:6: unexpected character: '°'", c!"f:2:8: unclosed string"] :=
  ⟨exPieces_divided, by decide, by decide +kernel⟩

/-- Without the space before it, the same character makes the lexer panic if a token follows. -/
example : awkward false [([], .stray '°'), ([], .token .Identifier c!"x")] = true ∧
    awkward false [([], .stray '°'), (c!" ", .token .Identifier c!"x")] = false := by decide

/-! ### C54 -/

/-- **C54** Exactly these texts are accepted, without mention of lexer and parser: the text divides into
tokens without an error, no line comment ends with a character that is not ASCII, and the tokens other than
comments are the leaves of a tree of the grammar in which no equation starts with `end` and none directly in
an equation section with `initial`. -/
theorem C54_accepted_text (name src : Text) :
    (∃ p, parse name src .StoredDefinition = .ok p ∧ p.errors = []) ↔
    ∃ ps cs, Divided src ps ∧ (∀ x ∈ ps, x.2.problem = none) ∧
      (∀ x ∈ ps, ∀ t, x.2 = .token .LineComment t → endsAscii t = true) ∧
      Reading .StoredDefinition ((lexemes [] 0 ps).filter (fun t => !isComment t)) cs ∧
      (Tree.node .StoredDefinition cs).Opens := by
  have noProblems : ∀ (ps : List (Text × Chunk)) (pre : Text),
      problems name pre ps = [] ↔ ∀ x ∈ ps, x.2.problem = none := by
    intro ps
    induction ps with
    | nil => intro pre; simp [problems]
    | cons x ps ih =>
      intro pre
      obtain ⟨w, p⟩ := x
      simp only [problems, List.append_eq_nil_iff, ih, List.mem_cons, forall_eq_or_imp]
      refine and_congr ?_ Iff.rfl
      cases p.problem <;> simp
  have calm : ∀ {src : Text} {ps : List (Text × Chunk)}, Divided src ps → (∀ x ∈ ps, x.2.problem = none) →
      (awkward false ps = false ↔ ∀ x ∈ ps, ∀ t, x.2 = .token .LineComment t → endsAscii t = true) := by
    intro src ps h
    induction h with
    | done => intro _; simp [awkward]
    | @next w r p ps hw hp _ ih =>
      intro hn
      have ih := ih (fun x hx => hn x (List.mem_cons_of_mem _ hx))
      cases p with
      | token k t =>
        simp only [awkward, Bool.false_and, Bool.false_or, Bool.or_eq_false_iff, ih, List.mem_cons,
          forall_eq_or_imp, Bool.not_eq_false']
        refine and_congr ?_ Iff.rfl
        constructor
        · rintro h t' e
          simp only [Chunk.token.injEq] at e
          exact e.2 ▸ h
        · intro h
          by_cases hk : k = .LineComment
          · subst hk; exact h t rfl
          · exact C53_ascii k t hp.1 hk
      | stray c => exact absurd (hn _ List.mem_cons_self) (by simp [Chunk.problem])
      | broken b c => exact absurd (hn _ List.mem_cons_self) (by simp [Chunk.problem])
      | openString b => exact absurd (hn _ List.mem_cons_self) (by simp [Chunk.problem])
      | openQuoted b => exact absurd (hn _ List.mem_cons_self) (by simp [Chunk.problem])
      | openComment b => exact absurd (hn _ List.mem_cons_self) (by simp [Chunk.problem])
  rw [C51_accepted_iff]
  constructor
  · rintro ⟨l, cs, hl, he, h⟩
    obtain ⟨ps, hp, _⟩ := C53_divided src
    rw [C53_lexed name src ps hp] at hl
    split at hl
    · cases hl
    · rename_i ha
      simp only [Res.ok.injEq] at hl
      subst hl
      have hn := (noProblems ps []).mp he
      exact ⟨ps, cs, hp, hn, (calm hp hn).mp (by simpa using ha), h⟩
  · rintro ⟨ps, cs, hp, hn, ha, h⟩
    have ha := (calm hp hn).mpr ha
    refine ⟨_, cs, by rw [C53_lexed name src ps hp, ha]; rfl, (noProblems ps []).mpr hn, h⟩

/-- The left hand side of `C54_accepted_text`, and so the right hand side, holds of the text of the example
for C50. -/
example : ∃ ps cs, Divided exMany ps ∧ (∀ x ∈ ps, x.2.problem = none) ∧
    Reading .StoredDefinition ((lexemes [] 0 ps).filter (fun t => !isComment t)) cs := by
  have h : verdict exMany = some 0 := by decide +kernel
  unfold verdict at h
  split at h
  · rename_i p hp
    obtain ⟨ps, cs, h1, h2, _, h3, _⟩ := (C54_accepted_text c!"f" exMany).mp ⟨p, hp, by simpa using h⟩
    exact ⟨ps, cs, h1, h2, h3⟩
  · simp at h

#print axioms C53_divided
#print axioms C53_lexed
#print axioms C53_ascii
#print axioms C18_panics_iff
#print axioms C54_accepted_text

end Mofmt
