import Verif.Model.Lexer
import Verif.Proofs.Basic
/-
A pure scanner, and the proof that the lexer computes the same pieces.
-/
namespace Mofmt

/-! ### The scanner -/

/-- An optional exponent and what follows. -/
def expo : Text → Text × Text
  | c :: cs =>
    if c = 'e' ∨ c = 'E' then
      match cs with
      | d :: ds =>
        if d = '+' ∨ d = '-' then (c :: d :: ds.takeWhile isDigit, ds.dropWhile isDigit)
        else (c :: cs.takeWhile isDigit, cs.dropWhile isDigit)
      | [] => ([c], [])
    else ([], c :: cs)
  | [] => ([], [])

/-- A piece found by the scanner: kind, consumed text, rest; or an error message. -/
inductive Munch where
  | tok (k : Tok) (t rest : Text)
  | bad (msg t rest : Text)
  deriving DecidableEq, Repr

/-- Prepend consumed characters. -/
def Munch.pre (p : Text) : Munch → Munch
  | .tok k t r => .tok k (p ++ t) r
  | .bad m t r => .bad m (p ++ t) r

def munchNum (cs : Text) : Munch :=
  let d := cs.takeWhile isDigit
  match cs.dropWhile isDigit with
  | [] => .tok .UInt d []
  | c :: r =>
    if c = '.' then
      let e := expo (r.dropWhile isDigit)
      .tok .UReal (d ++ '.' :: (r.takeWhile isDigit ++ e.1)) e.2
    else
      let e := expo (c :: r)
      if e.1 = [] then .tok .UInt d e.2 else .tok .UReal (d ++ e.1) e.2

def munchStr : Text → Munch
  | '\\' :: c :: cs => (munchStr cs).pre ['\\', c]
  | '\\' :: [] => .bad c!"unclosed string" ['\\'] []
  | '"' :: cs => .tok .String ['"'] cs
  | c :: cs => (munchStr cs).pre [c]
  | [] => .bad c!"unclosed string" [] []

def munchQ : Text → Munch
  | '\\' :: c :: cs => (munchQ cs).pre ['\\', c]
  | '\\' :: [] => .bad c!"unclosed Q-IDENT" ['\\'] []
  | '\'' :: cs => .tok .Identifier ['\''] cs
  | c :: cs =>
    if isWordChar c || qidentAllowed.contains c then (munchQ cs).pre [c]
    else .bad (c!"unexpected character inside Q-IDENT: '" ++ [c] ++ c!"'") [c] cs
  | [] => .bad c!"unclosed Q-IDENT" [] []

def munchBlk : Text → Munch
  | '*' :: '/' :: cs => .tok .BlockComment ['*', '/'] cs
  | '*' :: [] => .bad c!"unclosed block comment" ['*'] []
  | c :: cs => (munchBlk cs).pre [c]
  | [] => .bad c!"unclosed block comment" [] []

/-- Two-character operators: is the next character one of the table? -/
def munchOp (table : List (Char × Tok)) (dflt : Tok) (cs : Text) : Munch :=
  match cs with
  | [] => .tok dflt [] []
  | c :: r =>
    match table.find? (·.1 == c) with
    | some (_, k) => .tok k [c] r
    | none => .tok dflt [] (c :: r)

/-- The piece that starts with the character `c`, which is not whitespace. -/
def munch (c : Char) (cs : Text) : Munch :=
  Munch.pre [c] <| match c with
  | ';' => .tok .Semicolon [] cs
  | ',' => .tok .Comma [] cs
  | '+' => .tok .Plus [] cs
  | '-' => .tok .Minus [] cs
  | '*' => .tok .Star [] cs
  | '^' => .tok .Flex [] cs
  | '(' => .tok .LParen [] cs
  | '{' => .tok .LCurly [] cs
  | '[' => .tok .LBracket [] cs
  | ')' => .tok .RParen [] cs
  | '}' => .tok .RCurly [] cs
  | ']' => .tok .RBracket [] cs
  | ':' => munchOp [('=', .Assign)] .Colon cs
  | '=' => munchOp [('=', .Eq)] .Equal cs
  | '<' => munchOp [('>', .Neq), ('=', .Leq)] .Les cs
  | '>' => munchOp [('=', .Geq)] .Gre cs
  | '.' => munchOp [('+', .DotPlus), ('-', .DotMinus), ('*', .DotStar), ('/', .DotSlash),
      ('^', .DotFlex)] .Dot cs
  | '"' => munchStr cs
  | '\'' => munchQ cs
  | '/' =>
    match cs with
    | [] => .tok .Slash [] []
    | d :: r =>
      if d = '/' then
        .tok .LineComment ((d :: r).takeWhile fun c => !(c == '\r' || c == '\n'))
          ((d :: r).dropWhile fun c => !(c == '\r' || c == '\n'))
      else if d = '*' then munchBlk (d :: r)
      else .tok .Slash [] (d :: r)
  | c =>
    if isDigit c then munchNum cs
    else if isAlpha c || c == '_' then
      .tok (wordKind (c :: cs.takeWhile isWordChar)) (cs.takeWhile isWordChar)
        (cs.dropWhile isWordChar)
    else .bad (c!"unexpected character: '" ++ [c] ++ c!"'") [] cs

def Munch.text : Munch → Text
  | .tok _ t _ => t
  | .bad _ t _ => t
def Munch.rest : Munch → Text
  | .tok _ _ r => r
  | .bad _ _ r => r

@[simp] theorem Munch.text_tok (k : Tok) (t r : Text) : (Munch.tok k t r).text = t := rfl
@[simp] theorem Munch.text_bad (m t r : Text) : (Munch.bad m t r).text = t := rfl
@[simp] theorem Munch.rest_tok (k : Tok) (t r : Text) : (Munch.tok k t r).rest = r := rfl
@[simp] theorem Munch.rest_bad (m t r : Text) : (Munch.bad m t r).rest = r := rfl
@[simp] theorem Munch.text_pre (p : Text) (m : Munch) : (m.pre p).text = p ++ m.text := by
  cases m <;> rfl
@[simp] theorem Munch.rest_pre (p : Text) (m : Munch) : (m.pre p).rest = m.rest := by
  cases m <;> rfl
theorem Munch.pre_pre (p q : Text) (m : Munch) : (m.pre q).pre p = m.pre (p ++ q) := by
  cases m <;> simp [Munch.pre]

/-! ### Nothing is lost -/

theorem expo_split (cs : Text) : (expo cs).1 ++ (expo cs).2 = cs := by
  unfold expo
  split
  · split
    · split
      · split <;> simp [List.takeWhile_append_dropWhile]
      · simp
    · simp
  · rfl

theorem munchNum_split (cs : Text) : (munchNum cs).text ++ (munchNum cs).rest = cs := by
  unfold munchNum
  have h := List.takeWhile_append_dropWhile (p := isDigit) (l := cs)
  split
  · rename_i h0
    rw [h0] at h
    simpa [Munch.text, Munch.rest] using h
  · rename_i c r h0
    rw [h0] at h
    split
    · rename_i hc; subst hc
      have h2 := List.takeWhile_append_dropWhile (p := isDigit) (l := r)
      have h3 := expo_split (r.dropWhile isDigit)
      simp only [Munch.text, Munch.rest]
      rw [← h3] at h2
      conv => rhs; rw [← h, ← h2]
      simp
    · have h3 := expo_split (c :: r)
      dsimp only
      split
      · rename_i he
        simp only [Munch.text, Munch.rest]
        rw [he] at h3
        simp at h3
        rw [h3, h]
      · simp only [Munch.text, Munch.rest]
        rw [List.append_assoc, h3, h]

theorem munchStr_split (cs : Text) : (munchStr cs).text ++ (munchStr cs).rest = cs := by
  induction cs using munchStr.induct <;> simp_all [munchStr]

theorem munchQ_split (cs : Text) : (munchQ cs).text ++ (munchQ cs).rest = cs := by
  induction cs using munchQ.induct <;> simp_all [munchQ]

theorem munchBlk_split (cs : Text) : (munchBlk cs).text ++ (munchBlk cs).rest = cs := by
  induction cs using munchBlk.induct <;> simp_all [munchBlk]

theorem munchOp_split (tb : List (Char × Tok)) (k : Tok) (cs : Text) :
    (munchOp tb k cs).text ++ (munchOp tb k cs).rest = cs := by
  unfold munchOp
  split
  · rfl
  · split <;> simp [Munch.text, Munch.rest]

theorem munch_split (c : Char) (cs : Text) : (munch c cs).text ++ (munch c cs).rest = c :: cs := by
  unfold munch
  simp only [Munch.text_pre, Munch.rest_pre, List.cons_append, List.nil_append]
  congr 1
  split <;> try first | rfl | exact munchOp_split _ _ _ | exact munchStr_split _ | exact munchQ_split _
  · split
    · rfl
    · split
      · exact List.takeWhile_append_dropWhile
      · split
        · exact munchBlk_split _
        · rfl
  · split
    · exact munchNum_split _
    · split
      · exact List.takeWhile_append_dropWhile
      · rfl

theorem munch_text_ne (c : Char) (cs : Text) : ∃ t, (munch c cs).text = c :: t := by
  unfold munch
  exact ⟨_, Munch.text_pre _ _⟩

end Mofmt
