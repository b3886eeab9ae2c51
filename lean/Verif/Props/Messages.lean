import Verif.Proofs.Messages
import Verif.Props.Early
/-
C60, C61: what the messages of the parser say.
-/
namespace Mofmt
open Via Lexical

/-! ### Messages can be read back -/
namespace Msg

theorem cut_inj {c : Char} : ∀ {a b x y : Text}, c ∉ a → c ∉ b → a ++ c :: x = b ++ c :: y → a = b ∧ x = y
  | [], [], x, y, _, _, h => by simpa using h
  | [], d :: b, x, y, _, hb, h => by simp at h; simp [h.1] at hb
  | d :: a, [], x, y, ha, _, h => by simp at h; simp [h.1] at ha
  | d :: a, d' :: b, x, y, ha, hb, h => by
    simp only [List.cons_append, List.cons.injEq, List.mem_cons, not_or] at h ha hb
    obtain ⟨rfl, rfl⟩ := cut_inj ha.2 hb.2 h.2
    exact ⟨by rw [h.1], rfl⟩

theorem colon_natText (n : Nat) : ':' ∉ natText n := by
  intro h
  have := Nat.isDigit_of_mem_toDigits (by omega) (by omega) h
  revert this
  decide

theorem natText_inj {n m : Nat} (h : natText n = natText m) : n = m := by
  have := congrArg (Nat.ofDigitChars 10 · 0) h
  simpa only [natText, Nat.ofDigitChars_toDigits (b := 10) (by omega) (by omega)] using this

theorem errorText_inj {name m m' : Text} {p p' : Pos} (h : errorText name p m = errorText name p' m') :
    p.line = p'.line ∧ p.col = p'.col ∧ m = m' := by
  unfold errorText at h
  simp only [List.append_assoc] at h
  have h := List.append_cancel_left h
  simp only [List.cons_append, List.nil_append, List.cons.injEq, true_and] at h
  obtain ⟨h1, h2⟩ := cut_inj (colon_natText _) (colon_natText _) h
  obtain ⟨h3, h4⟩ := cut_inj (colon_natText _) (colon_natText _) h2
  exact ⟨natText_inj h1, natText_inj h3, by simpa using h4⟩

theorem debug_prefix_all : (Tok.all.all fun k => Tok.all.all fun k' => !k.debug.isPrefixOf k'.debug || k == k') = true := by
  decide +kernel

theorem debug_prefix {k k' : Tok} {x y : Text} (h : k.debug ++ x = k'.debug ++ y) : k = k' ∧ x = y := by
  have key : ∀ {k k' : Tok}, k.debug <+: k'.debug → k = k' := by
    intro k k' h
    have := List.all_eq_true.1 (List.all_eq_true.1 debug_prefix_all k (Tok.mem_all k)) k' (Tok.mem_all k')
    rw [Bool.or_eq_true, Bool.not_eq_true', beq_iff_eq] at this
    rcases this with e | e
    · rw [List.isPrefixOf_iff_prefix.mpr h] at e; cases e
    · exact e
  have e : k = k' := by
    rcases List.prefix_or_prefix_of_prefix (List.prefix_append k.debug x) (h ▸ List.prefix_append k'.debug y) with h | h
    · exact key h
    · exact (key h).symm
  subst e
  exact ⟨rfl, List.append_cancel_left h⟩

theorem expected_inj {k1 k2 k1' k2' : Tok}
    (h : c!"expected " ++ k1.debug ++ c!", found " ++ k2.debug = c!"expected " ++ k1'.debug ++ c!", found " ++ k2'.debug) :
    k1 = k1' ∧ k2 = k2' := by
  simp only [List.append_assoc] at h
  have h := List.append_cancel_left h
  obtain ⟨rfl, h⟩ := debug_prefix h
  have h := List.append_cancel_left h
  have h : k2.debug ++ [] = k2'.debug ++ [] := by simpa using h
  exact ⟨rfl, (debug_prefix h).1⟩

end Msg
open Msg

/-! ### C60 -/

/-- **C60** Every message of the parser tells the truth: it has one of the six forms, the position is that of
the token it is about (at the end of the file that of the last token; in two of the forms that of the token
before), the kind it says was found is the kind of that token, and this is not a kind it asks for. -/
theorem C60_truthful (name src : Text) (l : Lexed) (p : Parsed) (entry : SK)
    (hl : lex name src = .ok l) (hp : parse name src entry = .ok p) :
    ∃ own, p.errors = l.errors ++ own ∧ ∀ e ∈ own, Truthful name l.tokens e := by
  obtain ⟨evs, errs, h1, h2⟩ := parse_inv hl hp
  exact ⟨errs, h2, events_true h1⟩

/-- **C60** No two kinds of tokens are called the same in messages; so a message `expected …, found …` can be
read in only one way. -/
theorem C60_readable (name : Text) (p p' : Pos) (k1 k2 k1' k2' : Tok)
    (h : errorText name p (c!"expected " ++ k1.debug ++ c!", found " ++ k2.debug) =
      errorText name p' (c!"expected " ++ k1'.debug ++ c!", found " ++ k2'.debug)) : k1 = k1' ∧ k2 = k2' :=
  expected_inj (errorText_inj h).2.2

/-- all kinds of messages -/
def exMessages : List (Text × Text) := [
  (c!"foo A end A;", c!"f:1:1: unexpected token 'IDENTIFIER' used as a class prefix"),
  (c!"model = end A;", c!"f:1:7: unexpected token ''='': doesn't match any type of class specifier"),
  (c!"model A initial x = 1; end A;", c!"f:1:9: unexpected token 'IDENTIFIER' following 'initial'. Expected 'equation' or 'algorithm'"),
  (c!"model A = B.+; end A;", c!"f:1:12: expected ';', found '.+'"),
  (c!"model A import B.; end A;", c!"f:1:17: unexpected token '';'' after '.'. Expected identifier or '{'"),
  (c!"model A Real x; end A", c!"f:1:21: expected ';', found EOF")]

theorem C60_truthful_ex : (exMessages.all fun x => match messages x.1 with
    | some ([], e :: _) => e == x.2
    | _ => false) = true := by
  decide +kernel

/-! ### C61 -/

/-- **C61, in part** The first message asks for the right token, unless the file has ended: if it says
`expected k, found k'` and `k'` is not the end of the file, then the text before the token it is about can be
completed to an accepted file in which the next token is of kind `k`. -/
theorem C61_expected_partial (name src : Text) (l : Lexed) (p : Parsed) (pos : Pos) (k k' : Tok) (es : List Text)
    (hl : lex name src = .ok l) (he : l.errors = []) (hp : parse name src .StoredDefinition = .ok p)
    (h : p.errors = errorText name pos (c!"expected " ++ k.debug ++ c!", found " ++ k'.debug) :: es)
    (hk : k' ≠ .EOF) :
    ∃ j t pre post, l.tokens[j]? = some t ∧ t.kind = k' ∧ k' ≠ k ∧ src = pre ++ post ∧ t.start = position pre ∧
      pos.line = t.start.line ∧ pos.col = t.start.col ∧
      ∃ rest p' t' more, parse name (pre ++ rest) .StoredDefinition = .ok p' ∧ p'.errors = [] ∧
        p'.tokens = l.tokens.take j ++ t' :: more ∧ t'.kind = k := by
  obtain ⟨evs, errs, h1, h2⟩ := parse_inv hl hp
  rw [he, List.nil_append, h] at h2
  rw [← h2] at h1
  obtain ⟨q, ext, extra, cs, hq, ⟨t, msg, ht, hm, ha⟩, hr, ho⟩ := events_viable (by decide) h1 (by intro x; simp [preKinds])
  obtain ⟨p1, p2, hm⟩ := errorText_inj hm
  rcases ha with ⟨k1, x, rfl, hx, hne, hmsg⟩ | ⟨rfl, ⟨_, k1, hmsg⟩ | ⟨m, hmsg⟩⟩
  · obtain ⟨rfl, rfl⟩ := expected_inj (hm.trans hmsg)
    have htx : t = x := by
      rcases ht with ht | ⟨ht, _⟩
      · rw [hx] at ht; exact (Option.some.inj ht).symm
      · rw [hx] at ht; cases ht
    subst htx
    rw [List.append_assoc] at hr
    obtain ⟨pre, post, rest, p', more, e1, e2, e3, e4, e5, e6⟩ := complete_text hl he hx hr ho
    cases more with
    | nil => simp at e6
    | cons t' more =>
      simp only [List.map_cons, List.singleton_append, List.cons.injEq] at e6
      exact ⟨q, t, pre, post, hx, rfl, hne, e1, e2, p1, p2, rest, p', t', more, e3, e4, e5, e6.1⟩
  · exact absurd (expected_inj (hm.trans hmsg)).2 hk
  · exfalso
    have := hm.trans hmsg
    simp at this

/-- a missing `]`, found at `;` -/
theorem C61_expected_ex :
    messages c!"model M\n  Real x[1, 2;\nend M;\n" = some ([], [c!"f:2:14: expected ']', found ';'"]) ∧
    messages c!"model M\n  Real x[1, 2]; end M;" = some ([], []) := by
  decide +kernel

/-- a file that ends behind a comma -/
def exEnded : Text := c!"type A = B[1,"

/-- tokens of the given kinds, each in a line of its own -/
def inLines (ks : List Tok) : List Token := ks.zipIdx.map fun x =>
  { idx := x.2, text := [], kind := x.1, start := ⟨0, x.2 + 1, 1⟩, stop := ⟨0, x.2 + 1, 1⟩ }

/-- the kinds of the tokens of the file, and `]` -/
def endedKinds : List Tok := [.TypeKw, .Identifier, .Equal, .Identifier, .LBracket, .UInt, .Comma, .RBracket]

/-- the first message is about the eighth token -/
def complains (ks : List Tok) : Bool :=
  match events [] (inLines ks) .StoredDefinition with
  | .ok (_, e :: _) => e == errorText [] ⟨0, 8, 1⟩ c!"expected IDENTIFIER, found ']'"
  | _ => false

/-- some tokens that follow -/
def further (k : Tok) : List Tok := endedKinds ++ [k, .Identifier, .Equal, .Identifier, .Semicolon]

theorem ended_complains : (complains endedKinds && Tok.all.all fun k => complains (further k)) = true := by
  decide +kernel

theorem inLines_get (ks : List Tok) (j : Nat) : (inLines ks)[j]? = (ks[j]?).map fun k =>
    { idx := j, text := [], kind := k, start := ⟨0, j + 1, 1⟩, stop := ⟨0, j + 1, 1⟩ } := by
  simp only [inLines, List.getElem?_map, List.getElem?_zipIdx, Nat.zero_add]
  cases ks[j]? <;> rfl

theorem inLines_length (ks : List Tok) : (inLines ks).length = ks.length := by simp [inLines]

theorem inLines_kinds (ks : List Tok) : (inLines ks).map (·.kind) = ks := by
  refine List.ext_getElem? fun j => ?_
  rw [List.getElem?_map, inLines_get]
  cases ks[j]? <;> rfl

/-- No accepted file begins with the tokens of `exEnded` and `]`. -/
theorem ended_never {name : Text} {toks : List Token} {evs : List Event} {rest : List Tok}
    (h : events name toks .StoredDefinition = .ok (evs, [])) (hk : toks.map (·.kind) = endedKinds ++ rest) : False := by
  have hall := ended_complains
  rw [Bool.and_eq_true] at hall
  cases rest with
  | nil =>
    rw [List.append_nil] at hk
    have hev := events_same (name := []) (name' := name) (toks := inLines endedKinds) (toks' := toks)
      (by rw [inLines_kinds, hk]) .StoredDefinition
    rw [h] at hev
    obtain ⟨evs', h'⟩ := same_nil hev
    have := hall.1
    unfold complains at this
    rw [h'] at this
    cases this
  | cons k rest =>
    have hc := List.all_eq_true.1 hall.2 k (Tok.mem_all k)
    unfold complains at hc
    split at hc
    · rename_i evs' e es he
      have hlen : (inLines (further k)).length = 13 := by rw [inLines_length]; rfl
      have ha : Agree (inLines (further k)) toks 9 := by
        refine ⟨by omega, ?_, ?_⟩
        · rw [← List.length_map (f := fun t : Token => t.kind), hk]; simp [endedKinds]
        · intro j hj
          rw [← List.getElem?_map, ← List.getElem?_map, inLines_kinds, hk]
          have e1 : further k = (endedKinds ++ [k]) ++ [.Identifier, .Equal, .Identifier, .Semicolon] := by simp [further]
          have e2 : endedKinds ++ k :: rest = (endedKinds ++ [k]) ++ rest := by simp
          have e3 : j < (endedKinds ++ [k]).length := by simpa [endedKinds] using hj
          rw [e1, e2, List.getElem?_append_left e3, List.getElem?_append_left e3]
      obtain ⟨q, hq, t, msg, ht, rfl, _⟩ := events_agree ha he h e List.mem_cons_self
      simp only [beq_iff_eq] at hc
      have hl : t.start.line = 8 := (errorText_inj hc).1
      have : ∀ {j : Nat} {t : Token}, (inLines (further k))[j]? = some t → t.start.line = j + 1 := by
        intro j t h
        rw [inLines_get, Option.map_eq_some_iff] at h
        obtain ⟨_, _, rfl⟩ := h
        rfl
      rcases ht with ht | ⟨_, ht⟩
      · have := this ht
        omega
      · rw [List.getLast?_eq_getElem?, hlen] at ht
        have : t.start.line = 12 + 1 := this ht
        omega
    · cases hc

/-- **C61 is false at the end of the file**: the message about `exEnded` asks for `]`, but after the comma
that would be wrong. -/
theorem C61_end_false : ¬ ∀ (name src : Text) (l : Lexed) (p : Parsed) (pos : Pos) (k : Tok) (es : List Text),
    lex name src = .ok l → l.errors = [] → parse name src .StoredDefinition = .ok p →
    p.errors = errorText name pos (c!"expected " ++ k.debug ++ c!", found " ++ Tok.debug .EOF) :: es →
    ∃ name' src' l' p' more, lex name' src' = .ok l' ∧ parse name' src' .StoredDefinition = .ok p' ∧ p'.errors = [] ∧
      l'.tokens.map (·.kind) = l.tokens.map (·.kind) ++ k :: more := by
  intro h
  have hw : messages exEnded = some ([], [c!"f:1:13: expected ']', found EOF", c!"f:1:13: expected ';', found EOF"]) := by
    decide +kernel
  have hk : (toksOf exEnded).map (·.kind) ++ [.RBracket] = endedKinds := by decide +kernel
  obtain ⟨⟨l, h1, h2⟩, p, h3, h4⟩ := of_messages hw
  obtain ⟨name', src', l', p', more, h5, h6, h7, h8⟩ := h c!"f" exEnded l p ⟨0, 1, 13⟩ .RBracket _ h1 h2 h3 h4
  have ht : toksOf exEnded = l.tokens := by
    unfold toksOf
    rw [h1]
  obtain ⟨evs, errs, h9, h10⟩ := parse_inv h5 h6
  rw [h7] at h10
  obtain ⟨_, rfl⟩ := List.append_eq_nil_iff.mp h10.symm
  refine ended_never (rest := more) h9 ?_
  rw [h8, ← ht, ← hk]
  simp

end Mofmt
