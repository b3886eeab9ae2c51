import Verif.Proofs.LexFacts
import Verif.Props.Examples
/-
Properties of the lexer: C16 - C19, C39, C40, C41.
-/
namespace Mofmt
open Lexical

/-- A text with a comment of each form, a string with a non-ASCII character and odd spacing. -/
def exLex : Text := c!"/* a */ x:=\"\u017c\";// b\n\ty<=1.5e3 ;\n"

example : ∃ l, lex c!"f" exLex = .ok l ∧ l.errors = [] ∧ l.tokens.length = 8 ∧ l.comments.length = 2 := by
  refine ⟨match lex c!"f" exLex with | .ok l => l | _ => ⟨[], [], []⟩, ?_⟩
  decide +kernel

/-- **C16** If no error is reported, the source is the concatenation, in the order of their indices, of
the texts of all tokens and comments, separated by white space. -/
theorem C16_lossless (name src : Text) (l : Lexed) (h : lex name src = .ok l) (he : l.errors = []) :
    ∃ (ps : List (Text × Token)) (tail : Text),
      src = ps.flatMap (fun p => p.1 ++ p.2.text) ++ tail ∧
      (∀ p ∈ ps, p.1.all ws = true) ∧ tail.all ws = true ∧
      (ps.map fun p => p.2.idx) = List.range ps.length ∧
      l.tokens = (ps.map (·.2)).filter (fun t => !isComment t) ∧
      l.comments = (ps.map (·.2)).filter isComment := by
  obtain ⟨ls, h1, h2, h3⟩ := lex_ok h
  rw [he] at h1
  obtain ⟨ps, tail, h4, h5, h6, h7⟩ := emit_gaps _ _ _ _ (items_ws_all src) h1
  refine ⟨ps, tail, by rw [← h7, items_text], h5, h6, ?_, by rw [h4, h2], by rw [h4, h3]⟩
  have h8 := emit_idx _ _ _ _ _ h1
  rw [← h4] at h8
  simpa [List.range_eq_range', Function.comp_def] using h8

/-- **C17** Every token and comment is found in the source at its position; byte positions, lines and
columns of its start and of its end are those of the text before it and up to it. The indices of all
tokens and comments are 0, 1, 2, ... -/
theorem C17_positions (name src : Text) (l : Lexed) (h : lex name src = .ok l) :
    (∀ t ∈ l.tokens ++ l.comments, ∃ pre post : Text, src = pre ++ t.text ++ post ∧
      t.start = position pre ∧ t.stop = position (pre ++ t.text)) ∧
    ∃ all : List Token, l.tokens = all.filter (fun t => !isComment t) ∧
      l.comments = all.filter isComment ∧ all.map (·.idx) = List.range all.length := by
  obtain ⟨ls, h1, h2, h3⟩ := lex_ok h
  constructor
  · intro t ht
    have ht' : t ∈ ls := by
      rw [h2, h3] at ht
      rcases List.mem_append.1 ht with ht | ht
      · exact (List.mem_filter.1 ht).1
      · exact (List.mem_filter.1 ht).1
    obtain ⟨a, b, h4, h5, h6, _⟩ := emit_mem _ _ _ _ _ h1 t ht'
    rw [items_text] at h4
    exact ⟨a, b, h4, by simpa using h5, by simpa using h6⟩
  · refine ⟨ls, h2, h3, ?_⟩
    rw [List.range_eq_range']
    exact emit_idx _ _ _ _ _ h1

/-! ### C18 -/

/-- **C18 is false**: a line comment whose last character is not ASCII makes the lexer panic, whatever
its other characters are. -/
theorem C18_false (name b : Text) (c : Char) (hb : '\n' ∉ b ∧ '\r' ∉ b) (hc : 128 ≤ c.toNat) :
    lex name (c!"//" ++ b ++ [c]) = .panic .slice := by
  have hcl : Class .LineComment (c!"//" ++ b ++ [c]) := by
    refine ⟨b ++ [c], by simp, ?_, ?_⟩
    · intro h
      rcases List.mem_append.1 h with h | h
      · exact hb.1 h
      · simp at h; subst h; exact absurd hc (by decide)
    · intro h
      rcases List.mem_append.1 h with h | h
      · exact hb.2 h
      · simp at h; subst h; exact absurd hc (by decide)
  obtain ⟨d, ds, hd, hm⟩ := munch_relex (rest := []) hcl rfl
  have hd' : d = '/' := by simp at hd; exact hd.1.symm
  rw [lex_spec, hd, items_munch ds (by subst hd'; rfl), ← List.append_nil ds, hm]
  simp only [Munch.item, emit, List.nil_append]
  have : asciiEnd (c!"//" ++ b ++ [c]) = false := by
    unfold asciiEnd
    rw [List.getLast?_append, List.getLast?_singleton, Option.some_or]
    simpa using hc
  simp only [this, Bool.and_false]
  rfl

example : lex c!"f" c!"//\u00b0" = .panic .slice :=
  C18_false c!"f" [] '\u00b0' (by decide) (by decide)

/-- **C18 is false** also without comments: an unexpected non-ASCII character directly before a token,
such as the byte order mark at the beginning of a file. -/
theorem C18_false_bom : lex c!"f" c!"\ufeffmodel" = .panic .slice := by decide +kernel

/-- **C18** (part) The lexer returns for every ASCII text; for any text the only panic is the slicing of
the source at an offset that is no character boundary, and the lexer always stops. -/
theorem C18_lex_returns_partial (name src : Text) :
    (ascii src = true → ∃ l, lex name src = .ok l) ∧
    ((∃ l, lex name src = .ok l) ∨ lex name src = .panic .slice) := by
  rw [lex_spec]
  constructor
  · intro h
    obtain ⟨x, hx⟩ := emit_ascii (name := name) (items src) [] 0 (by rw [items_text]; exact h)
    rw [hx]; exact ⟨_, rfl⟩
  · rcases emit_panic (name := name) (items src) [] 0 with ⟨x, hx⟩ | hx
    · rw [hx]; exact Or.inl ⟨_, rfl⟩
    · rw [hx]; exact Or.inr rfl

example : ascii c!"model A // comment\nend A;" = true := by decide

/-! ### C19 -/

/-- **C19** Every token and comment has the lexical form of its kind, and the two lists returned are
those of the tokens that are no comments and of the comments. -/
theorem C19_classes (name src : Text) (l : Lexed) (h : lex name src = .ok l) :
    (∀ t ∈ l.tokens, Class t.kind t.text ∧ isComment t = false) ∧
    (∀ t ∈ l.comments, Class t.kind t.text ∧ isComment t = true) := by
  obtain ⟨ls, h1, h2, h3⟩ := lex_ok h
  have key : ∀ t ∈ ls, Class t.kind t.text := by
    intro t ht
    obtain ⟨a, b, _, _, _, h7⟩ := emit_mem _ _ _ _ _ h1 t ht
    exact items_class _ _ _ h7
  constructor
  · intro t ht
    rw [h2] at ht
    obtain ⟨h4, h5⟩ := List.mem_filter.1 ht
    exact ⟨key t h4, by simpa using h5⟩
  · intro t ht
    rw [h3] at ht
    obtain ⟨h4, h5⟩ := List.mem_filter.1 ht
    exact ⟨key t h4, h5⟩

/-- **C19**, converse: a text of the lexical form of a kind, surrounded by white space, is lexed as one
token of that kind. In particular the classes of different kinds do not overlap. -/
theorem C19_class_lexed (name t : Text) (k : Tok) (h : Class k t)
    (ha : ∀ c ∈ t.getLast?, c.toNat < 128) :
    ∃ tk : Token, tk.kind = k ∧ tk.text = t ∧
      lex name (c!" " ++ t ++ c!"\n") = .ok
        ⟨if isComment tk then [] else [tk], if isComment tk then [tk] else [], []⟩ := by
  have hf : follows k c!"\n" = true := by
    cases k <;> first | rfl | (simp [follows, sticks]; decide)
  obtain ⟨c, cs, hc, hm⟩ := munch_relex (rest := c!"\n") h hf
  have hw : isWs c = false := by
    cases hw : isWs c with
    | false => rfl
    | true =>
      exfalso
      have : munch c (cs ++ c!"\n") = .bad (c!"unexpected character: '" ++ [c] ++ c!"'") [c]
          (cs ++ c!"\n") := by
        have : c = ' ' ∨ c = '\t' ∨ c = '\n' ∨ c = '\x0c' ∨ c = '\r' := by
          simpa [isWs, or_assoc] using hw
        rcases this with rfl | rfl | rfl | rfl | rfl <;> rfl
      rw [hm] at this
      cases this
  have hi : items (c!" " ++ t ++ c!"\n") = [.ws c!" ", .tok k t, .ws c!"\n"] := by
    rw [List.append_assoc, List.singleton_append, items_ws _ (by rfl)]
    have : (t ++ c!"\n").takeWhile isWs = [] ∧ (t ++ c!"\n").dropWhile isWs = t ++ c!"\n" := by
      subst hc; simp [hw]
    rw [this.1, this.2, hc, List.cons_append, items_munch _ hw, hm]
    simp only [Munch.item, Munch.rest, hc]
    rfl
  refine ⟨⟨0, t, k, posAfter c!" ", posAfter (c!" " ++ t)⟩, rfl, rfl, ?_⟩
  rw [lex_spec, hi]
  have h2 : asciiEnd (c!" " ++ t) = true := by
    have hne := class_ne_nil h
    unfold asciiEnd
    rw [List.getLast?_append]
    cases hl : t.getLast? with
    | none => exact absurd (List.getLast?_eq_none_iff.1 hl) hne
    | some d => have := ha d hl; simpa using this
  simp only [emit, List.nil_append]
  simp only [h2, show asciiEnd c!" " = true from rfl, Bool.and_self, if_true, Res.bind_ok, List.filter_cons, List.filter_nil]
  cases isComment ⟨0, t, k, posAfter c!" ", posAfter (c!" " ++ t)⟩ <;> rfl

example : Class .UReal c!"1.5e-3" ∧ Class .Identifier c!"x1" ∧ Class .String c!"\"a\\\"b\"" ∧
    Class .Leq c!"<=" := by
  refine ⟨⟨c!"1", c!".5", c!"e-3", rfl, by decide, by decide, Or.inr ⟨c!"5", rfl, by decide⟩,
    Or.inr ⟨'e', c!"-", c!"3", rfl, by decide, by decide, by decide⟩, by decide⟩,
    Or.inl ⟨by decide, ?_⟩, ⟨_, rfl, by decide⟩, rfl⟩
  rintro (h | h | ⟨k, h⟩)
  · exact absurd h (by decide)
  · exact absurd h (by decide)
  · revert h; cases k <;> decide

/-! ### C39 -/

/-- **C39** Tokens and comments interleave in one list whose indices increase from 0 and whose members
follow one another in the source: each begins, in bytes and in lines, no earlier than the one before it
ends, and none is empty. -/
theorem C39_source_order (name src : Text) (l : Lexed) (h : lex name src = .ok l) :
    ∃ all : List Token, l.tokens = all.filter (fun t => !isComment t) ∧
      l.comments = all.filter isComment ∧ all.map (·.idx) = List.range all.length ∧
      all.Pairwise (fun a b => a.stop.pos ≤ b.start.pos ∧ a.stop.line ≤ b.start.line) ∧
      ∀ t ∈ all, t.start.pos < t.stop.pos ∧ t.start.line ≤ t.stop.line := by
  obtain ⟨ls, h1, h2, h3⟩ := lex_ok h
  refine ⟨ls, h2, h3, ?_, emit_sorted _ _ _ _ _ h1, ?_⟩
  · rw [List.range_eq_range']
    exact emit_idx _ _ _ _ _ h1
  · intro t ht
    obtain ⟨a, b, _, h5, h6, h7⟩ := emit_mem _ _ _ _ _ h1 t ht
    have hne := class_ne_nil (items_class _ _ _ h7)
    rw [h5, h6]
    simp only [position, bytes_append, newlines_append]
    obtain ⟨c, cs, hc⟩ := List.exists_cons_of_ne_nil hne
    have := utf8Len_pos c
    rw [hc]
    simp only [bytes_cons]
    omega

/-! ### C40 -/

/-- **C40 is false**: the lexer takes `/*/` for a complete block comment. -/
theorem C40_false : ∃ l, lex c!"f" c!"/*/ a */" = .ok l ∧ l.comments.map (·.text) = [c!"/*/"] := by
  refine ⟨match lex c!"f" c!"/*/ a */" with | .ok l => l | _ => ⟨[], [], []⟩, ?_⟩
  decide +kernel

/-- The first `*/` of a text in `commentTail` form is its end. -/
theorem commentTail_first : ∀ b : Text, commentTail b = true →
    ∃ x, b = x ++ c!"*/" ∧ ¬ c!"*/" <:+: x ++ c!"*" := by
  intro b
  induction b using commentTail.induct with
  | case1 cs =>
    intro h
    simp only [commentTail, List.isEmpty_iff] at h
    subst h
    exact ⟨[], rfl, by decide⟩
  | case2 c cs h1 ih =>
    intro h
    rw [commentTail] at h
    · obtain ⟨x, hx, hi⟩ := ih h
      refine ⟨c :: x, by rw [hx]; rfl, ?_⟩
      rintro ⟨u, v, huv⟩
      cases u with
      | cons u0 u =>
        simp only [List.cons_append, List.cons.injEq] at huv
        exact hi ⟨u, v, huv.2⟩
      | nil =>
        simp only [List.nil_append, List.cons_append, List.cons.injEq] at huv
        obtain ⟨rfl, huv⟩ := huv
        cases x with
        | nil => simp at huv
        | cons x0 x =>
          simp only [List.cons_append, List.cons.injEq] at huv
          obtain ⟨rfl, _⟩ := huv
          exact h1 (x ++ c!"*/") rfl hx
    · exact h1
  | case3 => intro h; simp [commentTail] at h

/-- **C40** (part) Every block comment other than `/*/` begins with `/*`, ends with a `*/` that does not
overlap it, and has no other `*/` after the opening. -/
theorem C40_first_terminator_partial (name src : Text) (l : Lexed) (h : lex name src = .ok l)
    (t : Token) (ht : t ∈ l.comments) (hk : t.kind = .BlockComment) (hn : t.text ≠ c!"/*/") :
    ∃ x : Text, t.text = c!"/*" ++ x ++ c!"*/" ∧ ¬ c!"*/" <:+: x ++ c!"*" := by
  have hc := ((C19_classes name src l h).2 t ht).1
  rw [hk] at hc
  obtain ⟨b, hb, hc⟩ := hc
  cases b with
  | nil => simp [commentTail] at hc
  | cons e b =>
    by_cases he : e = '/'
    · subst he
      simp only [commentTail, List.isEmpty_iff] at hc
      subst hc
      exact absurd hb hn
    · rw [commentTail] at hc
      · obtain ⟨x, hx, hi⟩ := commentTail_first _ hc
        exact ⟨x, by rw [hb, hx]; simp, hi⟩
      · intro cs _ hh
        simp at hh
        exact he hh.1

example : ∃ l t, lex c!"f" c!"/* a **/ x */" = .ok l ∧ t ∈ l.comments ∧ t.kind = .BlockComment ∧
    t.text = c!"/* a **/" := by
  refine ⟨match lex c!"f" c!"/* a **/ x */" with | .ok l => l | _ => ⟨[], [], []⟩,
    ⟨0, c!"/* a **/", .BlockComment, ⟨0, 1, 1⟩, ⟨8, 1, 9⟩⟩, ?_⟩
  decide +kernel

/-! ### C41 -/

/-- **C41** What the lexer finds does not depend on the name of the file: the same tokens and comments,
and the same number of errors, or a panic in both cases. -/
theorem C41_name_irrelevant (name name' src : Text) :
    (∀ l, lex name src = .ok l → ∃ es, lex name' src = .ok ⟨l.tokens, l.comments, es⟩ ∧
      es.length = l.errors.length) ∧
    (lex name src = .panic .slice ↔ lex name' src = .panic .slice) := by
  have key : ∀ (n n' : Text) (l : Lexed), lex n src = .ok l →
      ∃ es, lex n' src = .ok ⟨l.tokens, l.comments, es⟩ ∧ es.length = l.errors.length := by
    intro n n' l h
    obtain ⟨ls, h1, h2, h3⟩ := lex_ok h
    obtain ⟨es, h4, h5⟩ := emit_name n' _ _ _ _ _ h1
    exact ⟨es, by rw [lex_spec, h4, h2, h3]; rfl, h5⟩
  refine ⟨key name name', ?_⟩
  have : ∀ n n' : Text, lex n src = .panic .slice → lex n' src = .panic .slice := by
    intro n n' h
    rcases (C18_lex_returns_partial n' src).2 with ⟨l, hl⟩ | hl
    · obtain ⟨es, h4, _⟩ := key n' n l hl
      rw [h] at h4; cases h4
    · exact hl
  exact ⟨this _ _, this _ _⟩

example : ∃ l, lex c!"a.mo" c!"x ? y" = .ok l ∧ l.errors.length = 1 ∧ l.tokens.length = 2 := by
  refine ⟨match lex c!"a.mo" c!"x ? y" with | .ok l => l | _ => ⟨[], [], []⟩, ?_⟩
  decide +kernel

end Mofmt
