import Verif.Props.Breaks
import Verif.Props.Lists
/-
C64, C65, C66: blanks between tokens; tokens at the beginnings and ends of lines.
-/
namespace Mofmt
open Lexical

/-! ### Specification -/

/-- Is there a blank between two tokens of these kinds on a line?  (`EOF` stands for the beginning of the file.) -/
def blankBetween (q k : Tok) : Bool := match q, k with
  | .EOF, _ => false
  -- `within ;`, and outputs that are left out
  | .Within, .Semicolon | .Comma, .RParen | .Comma, .Comma | .LParen, .Comma => true
  -- none before these
  | _, .Semicolon | _, .RParen | _, .RCurly | _, .RBracket | _, .Comma => false
  -- none after these
  | .Dot, _ | .LParen, _ | .LCurly, _ | .LBracket, _ => false
  -- names, calls, subscripts
  | .Identifier, .Dot | .Identifier, .LParen | .Identifier, .LBracket | .RBracket, .Dot | .RBracket, .LParen
  | .RParen, .LBracket
  | .Pure, .LParen | .Initial, .LParen | .Der, .LParen | .Connect, .LParen | .Enumeration, .LParen => false
  | _, _ => true

/-- signs, which are binary operators, too -/
def signs : List Tok := [.Plus, .Minus, .DotPlus, .DotMinus]

/-- lines do not begin with these -/
def neverFirst : List Tok := [.Comma, .Semicolon, .RParen, .RCurly, .RBracket, .Equal, .Assign, .In, .Then, .Loop, .Enumeration]

/-- lines do not end with these -/
def neverLast : List Tok := [.Dot, .Colon, .Plus, .Minus, .Star, .Slash, .Flex, .DotPlus, .DotMinus, .DotSlash, .DotFlex,
  .Gre, .Geq, .Les, .Leq, .Neq, .Eq, .Not, .And, .Or, .In, .ElseIf, .ElseWhen, .Partial, .Class, .Operator, .Expandable,
  .Model, .Function, .Record, .TypeKw, .Block, .Connector, .Package, .Pure, .Impure, .Initial, .Extends, .Import, .Within,
  .Final, .Encapsulated, .Enumeration, .Input, .Output, .Redeclare, .Inner, .Outer, .Replaceable, .Constrainedby, .Flow,
  .Stream, .Discrete, .Parameter, .Constant, .Each, .Annotation, .Der, .Connect]

/-! ### Pairs of tokens -/

theorem blank_table : ∀ q ∈ Tok.all, ∀ k ∈ Tok.all, q ∉ signs → ¬ (q = .Identifier ∧ k = .DotStar) →
    ((fullTabs.ok k .none).has q = true → blankBetween q k = false) ∧
    ((fullTabs.ok k .space).has q = true → blankBetween q k = true) := by
  decide +kernel

theorem line_table : ∀ q ∈ Tok.all, ∀ k ∈ Tok.all, ∀ b ∈ [Blank.Required, .Legal, .Illegal],
    (fullTabs.ok k (.brk b)).has q = true → k ∉ neverFirst ∧ q ∉ neverLast := by
  decide +kernel

/-- **C64** What stands between two tokens on the same line of the output: no comment, and a blank or nothing as the
kinds of the two tokens say.  After `+`, `-`, `.+`, `.-`, and between a name and `.*`, both are possible; see
`C64_sign`, `C64_import` and `C44_operators`. -/
theorem C64_blanks (eol name src out : Text) (p : Parsed) (h : Formatted eol name src p out) :
    ∃ gs : List Group, out = groupsText gs ++ eol ∧ gs.map (·.tok) = p.tokens ∧
      EachGroup (fun prev g => ∀ q, prev = some q →
        LineBreak eol g.white ∨
        g.comments = [] ∧ SameLine g.white ∧
        (q.kind ∉ signs → ¬ (q.kind = .Identifier ∧ g.tok.kind = .DotStar) →
          g.white = if blankBetween q.kind g.tok.kind then [' '] else [])) none gs := by
  obtain ⟨cs, ds, gs, a1, a2, a3, a4, a5, a6, a7, a8⟩ := h.groups
  refine ⟨gs.map (PGroup.toGroup eol), a8, by simpa [PGroup.toGroup, Function.comp_def] using a4, ?_⟩
  refine GroupsOK.each ?_ ds gs none a5
  intro prev d g hg q hq
  have hpair := hg.pair
  subst hq
  have hk : ((g.toGroup eol).tok).kind = g.tok.kind := rfl
  rw [hk]
  have htab := blank_table q.kind (mem_tok_all _) g.tok.kind (mem_tok_all _)
  rcases hg.white_cases eol with ⟨rfl, w1, w2⟩ | ⟨rfl, w1, w2⟩ | ⟨b, n, rfl, w1, _⟩
  · refine .inr ⟨w2, .inl w1, fun h1 h2 => ?_⟩
    rw [w1, (htab h1 h2).1 hpair]
    rfl
  · refine .inr ⟨w2, .inr w1, fun h1 h2 => ?_⟩
    rw [w1, (htab h1 h2).2 hpair]
    rfl
  · exact .inl w1

/-- **C65** A line of the output does not begin with a comma, a semicolon, a closing bracket, `=`, `:=`, `in`, `then`,
`loop` or `enumeration`; and what stands before a line break is not a dot, a binary operator, `not` or one of the
keywords that need something after them. -/
theorem C65_lines (eol name src out : Text) (p : Parsed) (h : Formatted eol name src p out) :
    ∃ gs : List Group, out = groupsText gs ++ eol ∧ gs.map (·.tok) = p.tokens ∧
      EachGroup (fun prev g => ∀ q, prev = some q → g.tok.kind ∈ neverFirst ∨ q.kind ∈ neverLast →
        g.comments = [] ∧ SameLine g.white) none gs := by
  obtain ⟨cs, ds, gs, a1, a2, a3, a4, a5, a6, a7, a8⟩ := h.groups
  refine ⟨gs.map (PGroup.toGroup eol), a8, by simpa [PGroup.toGroup, Function.comp_def] using a4, ?_⟩
  refine GroupsOK.each ?_ ds gs none a5
  intro prev d g hg q hq hor
  have hpair := hg.pair
  subst hq
  have hk : ((g.toGroup eol).tok).kind = g.tok.kind := rfl
  rw [hk] at hor
  rcases hg.white_cases eol with ⟨rfl, w1, w2⟩ | ⟨rfl, w1, w2⟩ | ⟨b, n, rfl, w1, _⟩
  · exact ⟨w2, .inl w1⟩
  · exact ⟨w2, .inr w1⟩
  · obtain ⟨h1, h2⟩ := line_table q.kind (mem_tok_all _) g.tok.kind (mem_tok_all _) b (by cases b <;> simp) hpair
    rcases hor with h | h
    · exact absurd h h1
    · exact absurd h h2

/-! ### Signs and imports -/

mutual
theorem layout_toks (t : Tree) (n : Nat) (w m : Bool) (d : Dec) : (t.layout n w m d).map (·.2) = t.leaves := by
  match t with
  | .tok t => rfl
  | .node k cs => exact layoutF_toks k cs n w m [] d
theorem layoutF_toks (k : SK) (cs : List Tree) (n : Nat) (w m : Bool) (pre : List Tree) (d : Dec) :
    (layoutF k n w m pre d cs).map (·.2) = leavesF cs := by
  match cs with
  | [] => rfl
  | c :: cs => rw [layoutF, List.map_append, layout_toks, layoutF_toks, leavesF]
end

/-- what stands between two neighbours -/
theorem after_child {tree : Tree} (hC : tree.Conforms) (hE : tree.hasEmpty = false) {k : SK} {pre post : List Tree}
    {x c : Tree} (hp : Part (.node k (pre ++ x :: c :: post)) tree) (hq : quietSym c.sym = true) {gp : Gap}
    (hg : ∀ m, gapAt k m (pre ++ [x]) c post = gp) {e s : Token} (he : x.end? = some e) (hs : c.start? = some s) :
    ∃ da n dz, tree.wholeLayout = da ++ (gp.at n, s) :: dz ∧ (da.map (·.2)).getLast? = some e := by
  have hcp : Part c tree := Part.trans (.there (by simp) .here) hp
  have hxp : Part x tree := Part.trans (.there (by simp) .here) hp
  obtain ⟨n, w, m, d, hA⟩ := hp.at
  obtain ⟨da, dz, h1⟩ := hA.layout
  obtain ⟨da', h2⟩ := layoutF_split k n w m pre [] x (c :: post) d
  rw [List.nil_append] at h2
  rw [Tree.layout, h2, layoutF, layoutF, hg] at h1
  obtain ⟨dz', h3⟩ := layout_quiet c (hcp.conforms hC) (hcp.full hE) hq
    (levelIn k n w (pre ++ [x]) c post) (chainChild k c.sym && wrappedAt k w (pre ++ [x]) c post)
    (passedAt k m (pre ++ [x]) c post) (Dec.or .none (gp.at (levelIn k n w (pre ++ [x]) c post))) s hs
  rw [h3] at h1
  generalize hx : x.layout _ _ _ _ = lx at h1
  refine ⟨da ++ da' ++ lx, levelIn k n w (pre ++ [x]) c post,
    dz' ++ layoutF k n w m (pre ++ [x] ++ [c]) Dec.none post ++ dz, ?_, ?_⟩
  · rw [h1]
    simp only [List.append_assoc, List.cons_append, Dec.or]
  · obtain ⟨y, y1, y2⟩ := end_leaves x (hxp.full hE)
    rw [he] at y2
    cases y2
    rw [List.map_append, ← hx, layout_toks, List.getLast?_append, y1]
    rfl

theorem groups_gap (eol : Text) (comments : List Token) {tree : Tree} {gp : Gap} (hg : gp = .none ∨ gp = .space) {e s : Token}
    (h : ∃ da n dz, tree.wholeLayout = da ++ (gp.at n, s) :: dz ∧ (da.map (·.2)).getLast? = some e) :
    Follows (groupsOf eol comments tree.wholeLayout) (some e) ⟨[], if gp = .space then [' '] else [], s⟩ := by
  obtain ⟨da, n, dz, h1, h2⟩ := h
  rw [h1, ← h2]
  rcases hg with rfl | rfl
  · exact groups_calm eol comments da dz .none s (.inl rfl)
  · exact groups_calm eol comments da dz .space s (.inr rfl)

/-- **C64** A sign is not separated from its operand: `-4`, `.-A`. -/
theorem C64_sign (eol name src out : Text) (p : Parsed) (h : Formatted eol name src p out) :
    ∃ gs tree, out = groupsText gs ++ eol ∧ gs.map (·.tok) = p.tokens ∧ buildTree p.tokens p.events = .ok tree ∧
      ∀ o y post, Part (.node .ArithmeticExpression (o :: y :: post)) tree → o.sym = .n .AddOperator → y.sym = .n .Term →
        ∀ op s, o.leaves = [op] → y.start? = some s → Follows gs (some op) ⟨[], [], s⟩ := by
  obtain ⟨cs, t1, o1, k1, _, hcs⟩ := h.laid
  refine ⟨_, _, o1, k1, t1, ?_⟩
  intro o y post hp ho hy op s hl hs
  rcases hcs with rfl | ⟨hC, hE⟩
  · cases hp with
    | there hm _ => cases hm
  · have he : o.end? = some op := by
      obtain ⟨z, z1, z2⟩ := end_leaves o ((Part.trans (.there (by simp) .here) hp : Part o _).full hE)
      rw [hl] at z1
      cases z1
      exact z2
    exact groups_gap eol p.comments (gp := .none) (.inl rfl)
      (after_child hC hE (pre := []) hp (by rw [hy]; rfl)
        (fun m => by rw [List.nil_append, gapAt, hy]; simp only [List.getLast?_singleton, Option.map_some, ho]; rfl) he hs)

/-- **C64** The `.*` at the end of an import is not separated from the name. -/
theorem C64_import (eol name src out : Text) (p : Parsed) (h : Formatted eol name src p out) :
    ∃ gs tree, out = groupsText gs ++ eol ∧ gs.map (·.tok) = p.tokens ∧ buildTree p.tokens p.events = .ok tree ∧
      ∀ pre x s post, Part (.node .ImportClause (pre ++ x :: .tok s :: post)) tree → x.sym = .n .Name → s.kind = .DotStar →
        ∀ e, x.end? = some e → Follows gs (some e) ⟨[], [], s⟩ := by
  obtain ⟨cs, t1, o1, k1, _, hcs⟩ := h.laid
  refine ⟨_, _, o1, k1, t1, ?_⟩
  intro pre x s post hp hx hk e he
  rcases hcs with rfl | ⟨hC, hE⟩
  · cases hp with
    | there hm _ => cases hm
  · exact groups_gap eol p.comments (gp := .none) (.inl rfl)
      (after_child hC hE hp rfl
        (fun m => by
          rw [gapAt, Tree.sym, hk]
          simp only [List.getLast?_append, List.getLast?_singleton, Option.some_or, Option.map_some, hx]
          rfl) he rfl)

/-! ### A file with signs and an import -/

def exSign : Text := c!"model M import A.B .*; Real x=- y+(-a . b)*c[ 1 ];end M;"
def exSignOut : Text := c!"model M\n\n  import A.B.*;\n  Real x = -y + (-a.b) * c[1];\n\nend M;\n"
def exSignP : Parsed := match parse c!"f" exSign .StoredDefinition with | .ok p => p | _ => ⟨[], [], [], []⟩
def exSignTree : Tree := resTree (buildTree exSignP.tokens exSignP.events)
def exSignSum : List Tree := kidsOf (exSignTree.find .ArithmeticExpression)
def exSignImport : List Tree := kidsOf (exSignTree.find .ImportClause)

set_option maxRecDepth 100000 in
theorem C64_case : Formatted c!"\n" c!"f" exSign exSignP exSignOut ∧
    buildTree exSignP.tokens exSignP.events = .ok exSignTree ∧
    (Part (.node .ArithmeticExpression exSignSum) exSignTree ∧
      exSignSum.map Tree.sym = [.n .AddOperator, .n .Term, .n .AddOperator, .n .Term] ∧
      exSignSum.map (fun c => (c.leaves.length, c.start?.isSome)) = [(1, true), (1, true), (1, true), (11, true)]) ∧
    (Part (.node .ImportClause exSignImport) exSignTree ∧
      exSignImport.map Tree.sym = [.t .Import, .n .Name, .t .DotStar] ∧
      exSignImport.map (fun c => c.end?.isSome) = [true, true, true]) :=
  ⟨⟨by decide_cbv, by decide_cbv, exSignOut.dropLast, by decide_cbv, by decide⟩, resTree_ok (by decide_cbv),
    ⟨find_kind _ (by decide_cbv), by decide_cbv, by decide_cbv⟩, ⟨find_kind _ (by decide_cbv), by decide_cbv, by decide_cbv⟩⟩

/-! ### The promise of the documentation -/

/-- What the documentation promises (code-style.md, Spaces): no blank before a semicolon, except after `within`, before a
comma, and after an opening bracket. -/
def PromisedSpaces (eol : Text) (prev : Option Token) (g : Group) : Prop := ∀ q, prev = some q →
  LineBreak eol g.white ∨
  ((g.tok.kind = .Semicolon → q.kind ≠ .Within → g.white = []) ∧
   (g.tok.kind = .Comma → g.white = []) ∧
   (q.kind ∈ [.LParen, .LBracket, .LCurly] → g.white = []))

set_option synthInstance.maxSize 1000 in
set_option synthInstance.maxHeartbeats 200000 in
theorem promise_table : ∀ q ∈ Tok.all, ∀ k ∈ Tok.all,
    ((fullTabs.ok k .none).has q = true → ¬ (q ∈ [Tok.LParen, .Comma] ∧ k = .Comma)) ∧
    ((fullTabs.ok k .space).has q = true → ¬ (q ∈ [Tok.LParen, .Comma] ∧ k = .Comma) →
      (k = .Semicolon → q = .Within) ∧ k ≠ .Comma ∧ q ∉ [Tok.LParen, .LBracket, .LCurly]) := by
  decide +kernel

/-- **C66** The promise is kept unless an output in `(a, , b) := f(x)` is left out: before the comma that follows it
there is a blank, also after the bracket. -/
theorem C66_spaces_partial (eol name src out : Text) (p : Parsed) (h : Formatted eol name src p out) :
    ∃ gs : List Group, out = groupsText gs ++ eol ∧ gs.map (·.tok) = p.tokens ∧
      EachGroup (fun prev g =>
        if ∃ q, prev = some q ∧ q.kind ∈ [.LParen, .Comma] ∧ g.tok.kind = .Comma
        then LineBreak eol g.white ∨ g.white = [' ']
        else PromisedSpaces eol prev g) none gs := by
  obtain ⟨cs, ds, gs, a1, a2, a3, a4, a5, a6, a7, a8⟩ := h.groups
  refine ⟨gs.map (PGroup.toGroup eol), a8, by simpa [PGroup.toGroup, Function.comp_def] using a4, ?_⟩
  refine GroupsOK.each ?_ ds gs none a5
  intro prev d g hg
  have hpair := hg.pair
  have hk : ((g.toGroup eol).tok).kind = g.tok.kind := rfl
  cases prev with
  | none =>
    rw [if_neg (by simp)]
    intro q hq
    cases hq
  | some q =>
    obtain ⟨t1, t2⟩ := promise_table q.kind (mem_tok_all _) g.tok.kind (mem_tok_all _)
    split
    · rename_i hex
      obtain ⟨_, hq, hc⟩ := hex
      cases hq
      rw [hk] at hc
      rcases hg.white_cases eol with ⟨rfl, w1, _⟩ | ⟨rfl, w1, _⟩ | ⟨b, n, rfl, w1, _⟩
      · exact absurd hc (t1 hpair)
      · exact .inr w1
      · exact .inl w1
    · rename_i hex
      intro q' hq
      cases hq
      rcases hg.white_cases eol with ⟨rfl, w1, _⟩ | ⟨rfl, w1, _⟩ | ⟨b, n, rfl, w1, _⟩
      · exact .inr ⟨fun _ _ => w1, fun _ => w1, fun _ => w1⟩
      · obtain ⟨u1, u2, u3⟩ := t2 hpair (fun hc => hex ⟨q, rfl, hc⟩)
        exact .inr ⟨fun hk hw => absurd (u1 hk) hw, fun hk => absurd hk u2, fun hk => absurd hk u3⟩
      · exact .inl w1

def exSkip : Text := c!"function f algorithm (,b,,c) := g(x); end f;"
def exSkipOut : Text := c!"function f\n\nalgorithm\n\n  ( , b, , c) := g(x);\n\nend f;\n"
def exSkipP : Parsed := match parse c!"f" exSkip .StoredDefinition with | .ok p => p | _ => ⟨[], [], [], []⟩

set_option maxRecDepth 100000 in
/-- **C66** The promise is not kept in general: in this output a blank follows the opening bracket, and a comma follows
the blank. -/
theorem C66_spaces_false : Formatted c!"\n" c!"f" exSkip exSkipP exSkipOut ∧
    ∃ a b, exSkipOut = a ++ c!"( , " ++ b :=
  ⟨⟨by decide_cbv, by decide_cbv, exSkipOut.dropLast, by decide_cbv, by decide⟩,
    c!"function f\n\nalgorithm\n\n  ", c!"b, , c) := g(x);\n\nend f;\n", by decide⟩

#print axioms C64_blanks
#print axioms C64_sign
#print axioms C64_import
#print axioms C65_lines
#print axioms C64_case
#print axioms C66_spaces_partial
#print axioms C66_spaces_false

end Mofmt
