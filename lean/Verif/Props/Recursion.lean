import Verif.Proofs.Recursion
import Verif.Props.Deep
import Verif.Props.Work
/-
C78: how deep the program calls itself follows from the nesting of the source, except for long lists of arguments.
-/
namespace Mofmt

open Lexical

/-! ### Any text -/

theorem depth_steps {name : Text} {toks : List Token} {body : SK → Cmd} : ∀ (n : Nat) (c : Cmd) (s : PState),
    2 * callDepth name toks body n c s ≤ steps name toks body n c s := by
  intro n
  induction n with
  | zero => intro c s; simp [callDepth]
  | succ n ih =>
    intro c s
    cases c with
    | skip | eval _ | look _ | unreachable | advance | expect _ | advErr _ _ _ => simp [callDepth]
    | seq a b =>
      have h1 := ih a s
      simp only [callDepth, steps]
      cases run name toks body n a s with
      | ok s' => have h2 := ih b s'; simp only; omega
      | panic _ => simp only; omega
      | fuel => simp only; omega
    | ite c a b =>
      simp only [callDepth, steps]
      cases evalCond toks c s with
      | ok r =>
        obtain ⟨t, s'⟩ := r
        have h1 := ih a s'
        have h2 := ih b s'
        cases t <;> simp <;> omega
      | panic _ => simp
      | fuel => simp
    | «while» c a =>
      simp only [callDepth, steps]
      cases evalCond toks c s with
      | ok r =>
        obtain ⟨t, s1⟩ := r
        have h1 := ih a s1
        cases t
        · simp
        · simp only [if_true]
          cases run name toks body n a s1 with
          | ok s2 => have h2 := ih (.while c a) s2; simp only; omega
          | panic _ => simp only; omega
          | fuel => simp only; omega
      | panic _ => simp
      | fuel => simp
    | call k =>
      have h1 := ih (body k) s.enter
      simp only [callDepth, steps]
      omega
    | ifk ks a b =>
      have h1 := ih a s
      have h2 := ih b s
      simp only [callDepth, steps]
      split <;> omega

/-- **C78** Whatever the tokens are and at whatever production the parser begins: its functions call each other at most linearly
deep in the number of tokens. -/
theorem C78_any (name : Text) (toks : List Token) (k : SK) (n : Nat) :
    callDepth name toks Grammar.body n (.call k) PState.init ≤ 505 * toks.length + 507 := by
  have h1 := depth_steps (name := name) (toks := toks) (body := Grammar.body) n (.call k) PState.init
  have h2 := C75_steps name toks k n
  omega

/-! ### Accepted files -/

mutual
theorem along_le (a b : Nat) (ha : a ≤ 1) (hb : b ≤ 1) (t : Tree) : t.along a b ≤ t.height := by
  match t with
  | .tok _ => simp [Tree.along]
  | .node k cs =>
    have := alongF_le a b ha hb k (k == .ClassDefinition) cs
    simp only [Tree.along, Tree.height]
    omega
theorem alongF_le (a b : Nat) (ha : a ≤ 1) (hb : b ≤ 1) (k : SK) (inside : Bool) (F : List Tree) :
    alongF a b k inside F ≤ 1 + heightF F := by
  match F with
  | [] => simp [alongF]
  | c :: cs =>
    have h1 := along_le a b ha hb c
    have h2 := alongF_le a b ha hb k (inside || c.isOpening) cs
    simp only [alongF, heightF]
    have h3 : (if inside = true then a else if isRest k c = true then b else 0) ≤ 1 := by
      split
      · exact ha
      · split <;> omega
    omega
end

/-- **C78** While the parser reads an accepted file, its functions call each other as deep as the tree of the file is high, or up
to two calls deeper. -/
theorem C78_calls (name src : Text) (p : Parsed) (h : parse name src .StoredDefinition = .ok p) (he : p.errors = [])
    (t : Tree) (ht : buildTree p.tokens p.events = .ok t) :
    t.height ≤ callDepth name p.tokens Grammar.body (parseFuel p.tokens.length) (.call .StoredDefinition) PState.init ∧
    callDepth name p.tokens Grammar.body (parseFuel p.tokens.length) (.call .StoredDefinition) PState.init ≤ t.height + 2 := by
  unfold parse at h
  rw [Res.bind_eq_ok] at h
  obtain ⟨l, hl, h⟩ := h
  rw [Res.bind_eq_ok] at h
  obtain ⟨⟨evs, errs⟩, h1, h⟩ := h
  simp only [Res.ok.injEq] at h
  subst h
  simp only [List.append_eq_nil_iff] at he
  obtain ⟨he, rfl⟩ := he
  have := events_deep h1 ht
  exact ⟨this.1, this.2.1⟩

/-- **C78** The tree of an accepted file is at most 24 times as high as the nesting of classes, blocks, conditional expressions and
brackets in the file, and in addition as high as the lists of arguments on the way have commas.  It is never lower than either of
them.  So the depth of the recursion does not depend on the length of the file otherwise. -/
theorem C78_nesting_partial (name src : Text) (p : Parsed) (h : parse name src .StoredDefinition = .ok p) (he : p.errors = [])
    (t : Tree) (ht : buildTree p.tokens p.events = .ok t) :
    t.height ≤ 24 * t.nesting + t.commas + 2 ∧ t.nesting ≤ t.height ∧ t.commas ≤ t.height := by
  refine ⟨?_, along_le _ _ (by omega) (by omega) t, along_le _ _ (by omega) (by omega) t⟩
  unfold parse at h
  rw [Res.bind_eq_ok] at h
  obtain ⟨l, hl, h⟩ := h
  rw [Res.bind_eq_ok] at h
  obtain ⟨⟨evs, errs⟩, h1, h⟩ := h
  simp only [Res.ok.injEq] at h
  subst h
  simp only [List.append_eq_nil_iff] at he
  obtain ⟨he, rfl⟩ := he
  have hc := (events_deep h1 ht).2.2
  obtain ⟨F, g1, g2, g3⟩ := events_conform h1
  have hb := buildTree_evs .StoredDefinition F
  simp only at ht
  rw [g1, g2, hb] at ht
  simp only [Res.ok.injEq] at ht
  subst ht
  have h2 := height_along _ _ _ rfl hc
  have h3 := along_split 24 (.node .StoredDefinition (pruneF F))
  have h4 : rankTable .StoredDefinition = 2 := rfl
  simp only [Tree.nesting, Tree.commas]
  omega

/-! ### The formatter -/

theorem fmtTreeN_eq {bodies : SK → FBody} : ∀ (n : Nat) (fn : SK) (a : Args) (t : Tree) (s : FState), t.height ≤ n →
    fmtTreeN bodies n fn a t s = fmtTree bodies fn a t s := by
  intro n
  induction n with
  | zero =>
    intro fn a t s h
    cases t with
    | tok t => simp [fmtTreeN, fmtTree]
    | node k cs => simp only [Tree.height] at h; omega
  | succ n ih =>
    intro fn a t s h
    cases t with
    | tok t => simp [fmtTreeN, fmtTree]
    | node k cs =>
      have hl : ∀ (b : FBody) (all cs : List Tree) (idx : Nat) (r : Regs) (s : FState), heightF cs ≤ n →
          fmtLoopN (fmtTreeN bodies n) b all cs idx r s = fmtLoop bodies b all cs idx r s := by
        intro b all cs
        induction cs with
        | nil => intro idx r s _; simp [fmtLoopN, fmtLoop]
        | cons c cs ihc =>
          intro idx r s h
          simp only [heightF] at h
          have h1 : (fun fn a s => fmtTreeN bodies n fn a c s) = fun fn a s => fmtTree bodies fn a c s := by
            funext fn a s
            exact ih fn a c s (by omega)
          have h2 := fun r s => ihc (idx + 1) r s (by omega)
          simp only [fmtLoopN, fmtLoop, h1, h2]
          cases c <;> rfl
      simp only [Tree.height] at h
      have h1 := fun r s => hl (bodies fn) cs cs 0 r s (by omega)
      simp only [fmtTreeN, fmtTree, h1]

/-- **C78** The formatting functions call each other at most as deep as the tree is high: if deeper calls fail, the result is the
same. -/
theorem C78_formatter (t : Tree) (comments : List Token) (n : Nat) (h : t.height ≤ n) : formatN n t comments = format t comments := by
  unfold formatN format
  split <;> simp_all [fmtTreeN_eq]

/-! ### Long lists -/

/-- a number as an expression -/
def numExpr (t : Tree) : Tree :=
  .node .Expression [.node .SimpleExpression [.node .LogicalExpression [.node .LogicalTerm [.node .LogicalFactor [.node .Relation
    [.node .ArithmeticExpression [.node .Term [.node .Factor [.node .Primary [t]]]]]]]]]]

/-- the rest of a list in `{ }` behind a comma; `l`: the commas and numbers that follow -/
def listRest : Token → List (Token × Token) → Tree
  | t, [] => .node .ArrayArgumentsNonFirst [numExpr (.tok t)]
  | t, (c, u) :: l => .node .ArrayArgumentsNonFirst [numExpr (.tok t), .tok c, listRest u l]

def listToks (l : List (Token × Token)) : List Token := l.flatMap fun x => [x.1, x.2]

def numbers (l : List (Token × Token)) : Prop := ∀ x ∈ l, x.1.kind = .Comma ∧ x.2.kind = .UInt

theorem listRest_leaves : ∀ (l : List (Token × Token)) (t : Token), (listRest t l).leaves = t :: listToks l
  | [], t => rfl
  | (c, u) :: l, t => by
    have := listRest_leaves l u
    simp [listRest, numExpr, Tree.leaves, leavesF, this, listToks]

theorem listRest_sym (t : Token) (l : List (Token × Token)) : (listRest t l).sym = .n .ArrayArgumentsNonFirst := by
  cases l <;> rfl

theorem listRest_fits : ∀ (l : List (Token × Token)) (t : Token), t.kind = .UInt → numbers l → (listRest t l).fits = true
  | [], t, h, _ => by
    simp only [listRest, numExpr, Tree.fits, fitsF, List.map_cons, List.map_nil, sym_tok, sym_node, h]
    decide +kernel
  | (c, u) :: l, t, h, hl => by
    have h1 := hl _ List.mem_cons_self
    dsimp only at h1
    have ih := listRest_fits l u h1.2 (fun z hz => hl z (List.mem_cons_of_mem _ hz))
    have h6 := listRest_sym u l
    simp only [listRest, numExpr, Tree.fits, fitsF, List.map_cons, List.map_nil, sym_tok, sym_node, h, h1.1, h6, ih, Bool.and_true]
    decide +kernel

theorem listRest_full : ∀ (l : List (Token × Token)) (t : Token), (listRest t l).hasEmpty = false
  | [], t => by simp [listRest, numExpr, Tree.hasEmpty, hasEmptyF]
  | (c, u) :: l, t => by simp [listRest, numExpr, Tree.hasEmpty, hasEmptyF, listRest_full l u]

theorem listRest_starts (p : SK) (t : Token) (l : List (Token × Token)) : (listRest t l).startsOk p = true := by
  cases l <;> exact startsOk_node _ _ _ (by decide)

theorem listRest_opens : ∀ (l : List (Token × Token)) (t : Token), (listRest t l).opensB = true
  | [], t => by simp [listRest, numExpr, Tree.opensB, opensFB, startsOk_node, startsOk_tok]
  | (c, u) :: l, t => by
    simp [listRest, numExpr, Tree.opensB, opensFB, listRest_opens l u, listRest_starts, startsOk_node, startsOk_tok]

theorem listRest_height : ∀ (l : List (Token × Token)) (t : Token), l.length ≤ (listRest t l).height
  | [], t => by simp
  | (c, u) :: l, t => by
    have := listRest_height l u
    simp only [listRest, Tree.height, heightF, List.length_cons]
    omega

theorem listRest_flat : ∀ (l : List (Token × Token)) (t : Token), numbers l → (listRest t l).along 1 0 = 0
  | [], t, _ => by simp [listRest, numExpr, Tree.along, alongF, isRest]
  | (c, u) :: l, t, hl => by
    have h1 := hl _ List.mem_cons_self
    dsimp only at h1
    have ih := listRest_flat l u (fun z hz => hl z (List.mem_cons_of_mem _ hz))
    simp [listRest, numExpr, Tree.along, alongF, isRest, ih, Tree.isOpening, h1.1]

/-- the tokens of `model A equation x = { 0, 0 }; end A;` but for further commas and numbers -/
structure Row where
  a : Token
  b : Token
  c : Token
  d : Token
  e : Token
  f : Token
  g : Token
  h : Token
  i : Token
  j : Token
  k : Token
  l : Token
  m : Token
  n : Token

def rowKinds : List Tok := [.Model, .Identifier, .Equation, .Identifier, .Equal, .LCurly, .UInt, .Comma, .UInt]
def rowEnd : List Tok := [.RCurly, .Semicolon, .End, .Identifier, .Semicolon]

def Row.Good (x : Row) : Prop :=
  [x.a, x.b, x.c, x.d, x.e, x.f, x.g, x.h, x.i].map (·.kind) = rowKinds ∧ [x.j, x.k, x.l, x.m, x.n].map (·.kind) = rowEnd

/-- the file with a long list -/
def rowFile (x : Row) (r : Tree) : List Tree :=
  [.node .ClassDefinition [.node .ClassPrefixes [.tok x.a], .node .ClassSpecifier [.node .LongClassSpecifier [.tok x.b,
    .node .Composition [.node .EquationSection [.tok x.c, .node .Equation [
      .node .SimpleExpression [.node .LogicalExpression [.node .LogicalTerm [.node .LogicalFactor [.node .Relation
        [.node .ArithmeticExpression [.node .Term [.node .Factor [.node .Primary [.node .ComponentReference [.tok x.d]]]]]]]]]],
      .tok x.e,
      .node .Expression [.node .SimpleExpression [.node .LogicalExpression [.node .LogicalTerm [.node .LogicalFactor [.node .Relation
        [.node .ArithmeticExpression [.node .Term [.node .Factor [.node .Primary [.tok x.f,
          .node .ArrayArguments [numExpr (.tok x.g), .tok x.h, r], .tok x.j]]]]]]]]]]], .tok x.k]],
    .tok x.l, .tok x.m]]], .tok x.n]

def rowToks (x : Row) (l : List (Token × Token)) : List Token :=
  [x.a, x.b, x.c, x.d, x.e, x.f, x.g, x.h, x.i] ++ listToks l ++ [x.j, x.k, x.l, x.m, x.n]

theorem row_reading (x : Row) (l : List (Token × Token)) (hx : x.Good) (hl : numbers l) :
    Reading .StoredDefinition (rowToks x l) (rowFile x (listRest x.i l)) ∧
      (Tree.node .StoredDefinition (rowFile x (listRest x.i l))).Opens := by
  obtain ⟨hx1, hx2⟩ := hx
  simp only [List.map_cons, List.map_nil, rowKinds, rowEnd, List.cons.injEq, and_true] at hx1 hx2
  obtain ⟨ha, hb, hc, hd, he, hf, hg, hh, hi⟩ := hx1
  obtain ⟨hj, hk, hl', hm, hn⟩ := hx2
  constructor
  · refine readingOf ?_ ?_ ?_
    · have ih := listRest_fits l x.i hi hl
      have h6 := listRest_sym x.i l
      simp only [rowFile, numExpr, Tree.fits, fitsF, List.map_cons, List.map_nil, sym_tok, sym_node, h6, ih, ha, hb, hc, hd, he, hf, hg, hh,
        hj, hk, hl', hm, hn, Bool.and_true]
      decide +kernel
    · simp [rowFile, numExpr, hasEmptyF, listRest_full, Tree.hasEmpty]
    · simp [rowFile, numExpr, rowToks, leavesF, Tree.leaves, listRest_leaves]
  · refine opensB_sound _ ?_
    simp [rowFile, numExpr, Tree.opensB, opensFB, listRest_opens l x.i, listRest_starts, startsOk_node, startsOk_tok]
    simp [Tree.startsOk, opens, leavesF, Tree.leaves, hd]

theorem row_nesting (x : Row) (l : List (Token × Token)) (hx : x.Good) (hl : numbers l) :
    (Tree.node .StoredDefinition (rowFile x (listRest x.i l))).nesting = 2 := by
  obtain ⟨hx1, hx2⟩ := hx
  simp only [List.map_cons, List.map_nil, rowKinds, rowEnd, List.cons.injEq, and_true] at hx1 hx2
  obtain ⟨ha, hb, hc, hd, he, hf, hg, hh, hi⟩ := hx1
  have h1 := listRest_flat l x.i hl
  simp [Tree.nesting, rowFile, numExpr, Tree.along, alongF, isRest, Tree.isOpening, hb, hc, he, hf, hh, hx2, h1]

theorem row_height (x : Row) (l : List (Token × Token)) :
    l.length ≤ (Tree.node .StoredDefinition (rowFile x (listRest x.i l))).height := by
  have := listRest_height l x.i
  simp only [rowFile, Tree.height, heightF]
  omega

/-! ### Their text -/

def rowOpen : List (Text × Chunk) := [(c!" ", .token .Model c!"model"), (c!" ", .token .Identifier c!"A"),
  (c!" ", .token .Equation c!"equation"), (c!" ", .token .Identifier c!"x"), (c!" ", .token .Equal c!"="), (c!" ", .token .LCurly c!"{"),
  (c!" ", .token .UInt c!"0"), (c!" ", .token .Comma c!","), (c!" ", .token .UInt c!"0")]
def rowMore : List (Text × Chunk) := [(c!" ", .token .Comma c!","), (c!" ", .token .UInt c!"0")]
def rowClose : List (Text × Chunk) := [(c!" ", .token .RCurly c!"}"), ([], .token .Semicolon c!";"), (c!" ", .token .End c!"end"),
  (c!" ", .token .Identifier c!"A"), ([], .token .Semicolon c!";")]

/-- the file: ` model A equation x = { 0 , 0`, then ` , 0` another `n` times, then ` }; end A;` -/
def rowText (n : Nat) : Text := c!" model A equation x = { 0 , 0" ++ (copies c!" , 0" n ++ c!" }; end A;")
def rowPieces (n : Nat) : List (Text × Chunk) := rowOpen ++ (copies rowMore n ++ rowClose)

theorem class0 : Class .UInt c!"0" := munch_class (c := '0') (cs := []) (k := .UInt) (r := []) (by decide)
theorem classX : Class .Identifier c!"x" := munch_class (c := 'x') (cs := []) (k := .Identifier) (r := []) (by decide)

theorem rowClose_divided : Divided c!" }; end A;" rowClose := by
  have h1 := divided_piece (k := .Semicolon) (t := c!";") (w := []) rfl rfl (apart_follows (by decide) rfl) (.done (w := []) rfl)
  have h2 := divided_piece (k := .Identifier) (t := c!"A") (w := c!" ") rfl classA (apart_follows (by decide) rfl) h1
  have h3 := divided_piece (k := .End) (t := c!"end") (w := c!" ") rfl rfl (apart_follows (by decide) rfl) h2
  have h4 := divided_piece (k := .Semicolon) (t := c!";") (w := []) rfl rfl (apart_follows (by decide) rfl) h3
  exact divided_piece (k := .RCurly) (t := c!"}") (w := c!" ") rfl rfl (apart_follows (by decide) rfl) h4

theorem rowMore_divided : ∀ n, Divided (copies c!" , 0" n ++ c!" }; end A;") (copies rowMore n ++ rowClose) ∧
    apart (copies c!" , 0" n ++ c!" }; end A;") = true
  | 0 => ⟨rowClose_divided, rfl⟩
  | n + 1 => by
    obtain ⟨h, ha⟩ := rowMore_divided n
    refine ⟨?_, rfl⟩
    have h2 := divided_piece (k := .UInt) (t := c!"0") (w := c!" ") rfl class0 (apart_follows (by decide) ha) h
    exact divided_piece (k := .Comma) (t := c!",") (w := c!" ") rfl rfl (apart_follows (by decide) rfl) h2

theorem row_divided (n : Nat) : Divided (rowText n) (rowPieces n) := by
  obtain ⟨h, ha⟩ := rowMore_divided n
  have h1 := divided_piece (k := .UInt) (t := c!"0") (w := c!" ") rfl class0 (apart_follows (by decide) ha) h
  have h2 := divided_piece (k := .Comma) (t := c!",") (w := c!" ") rfl rfl (apart_follows (by decide) rfl) h1
  have h3 := divided_piece (k := .UInt) (t := c!"0") (w := c!" ") rfl class0 (apart_follows (by decide) rfl) h2
  have h4 := divided_piece (k := .LCurly) (t := c!"{") (w := c!" ") rfl rfl (apart_follows (by decide) rfl) h3
  have h5 := divided_piece (k := .Equal) (t := c!"=") (w := c!" ") rfl rfl (apart_follows (by decide) rfl) h4
  have h6 := divided_piece (k := .Identifier) (t := c!"x") (w := c!" ") rfl classX (apart_follows (by decide) rfl) h5
  have h7 := divided_piece (k := .Equation) (t := c!"equation") (w := c!" ") rfl rfl (apart_follows (by decide) rfl) h6
  have h8 := divided_piece (k := .Identifier) (t := c!"A") (w := c!" ") rfl classA (apart_follows (by decide) rfl) h7
  exact divided_piece (k := .Model) (t := c!"model") (w := c!" ") rfl rfl (apart_follows (by decide) rfl) h8

theorem list_exists : ∀ (n : Nat) (ts : List Token), ts.map (·.kind) = copies [Tok.Comma, .UInt] n →
    ∃ l, l.length = n ∧ numbers l ∧ ts = listToks l
  | 0, ts, h => by
    simp [copies] at h
    exact ⟨[], rfl, by simp [numbers], by simp [h, listToks]⟩
  | n + 1, ts, h => by
    rcases ts with _ | ⟨a, _ | ⟨b, ts⟩⟩ <;> simp [copies] at h
    obtain ⟨l, h1, h2, rfl⟩ := list_exists n ts h.2.2
    refine ⟨(a, b) :: l, by simp [h1], ?_, by simp [listToks]⟩
    intro x hx
    rcases List.mem_cons.1 hx with rfl | hx
    · exact ⟨h.1, h.2.1⟩
    · exact h2 x hx

theorem row_exists (n : Nat) (ts : List Token) (h : ts.map (·.kind) = rowKinds ++ (copies [Tok.Comma, .UInt] n ++ rowEnd)) :
    ∃ x l, l.length = n ∧ x.Good ∧ numbers l ∧ ts = rowToks x l := by
  rw [List.map_eq_append_iff] at h
  obtain ⟨t1, t2, rfl, h1, h2⟩ := h
  rw [List.map_eq_append_iff] at h2
  obtain ⟨t2, t3, rfl, h2, h3⟩ := h2
  obtain ⟨l, h4, h5, rfl⟩ := list_exists n t2 h2
  rcases t1 with _ | ⟨a, _ | ⟨b, _ | ⟨c, _ | ⟨d, _ | ⟨e, _ | ⟨f, _ | ⟨g, _ | ⟨h, _ | ⟨i, _ | ⟨_, ts⟩⟩⟩⟩⟩⟩⟩⟩⟩⟩ <;>
    simp [rowKinds] at h1
  rcases t3 with _ | ⟨j, _ | ⟨k, _ | ⟨l', _ | ⟨m, _ | ⟨n, _ | ⟨_, ts⟩⟩⟩⟩⟩⟩ <;> simp [rowEnd] at h3
  exact ⟨⟨a, b, c, d, e, f, g, h, i, j, k, l', m, n⟩, l, h4, ⟨by simp [rowKinds, h1], by simp [rowEnd, h3]⟩, h5, by simp [rowToks]⟩

theorem rowPieces_mem (n : Nat) : ∀ x ∈ rowPieces n, x ∈ rowOpen ++ rowClose := by
  have : ∀ (l : List (Text × Chunk)) m, ∀ x ∈ copies l m, x ∈ l := by
    intro l m
    induction m with
    | zero => intro x hx; simp [copies] at hx
    | succ m ih =>
      intro x hx
      rw [copies] at hx
      rcases List.mem_append.1 hx with hx | hx
      · exact hx
      · exact ih x hx
  intro x hx
  rcases List.mem_append.1 hx with hx | hx
  · exact List.mem_append_left _ hx
  · rcases List.mem_append.1 hx with hx | hx
    · have := this _ _ x hx
      simp only [rowMore, List.mem_cons, List.not_mem_nil, or_false] at this
      rcases this with rfl | rfl <;> simp [rowOpen]
    · exact List.mem_append_right _ hx

/-- **C78** is false in general: the lists in `{ }` are read by a function that calls itself for the rest of the list.  For every `n`
there is a file of `4 n + 39` characters, with a list of numbers in braces in an equation of a class (nesting 2), that is accepted,
and the functions of the parser call each other `n` times while it is read; its tree is higher than `n`, too. -/
theorem C78_false (eol name : Text) (n : Nat) : ∃ src p out t, Formatted eol name src p out ∧
    buildTree p.tokens p.events = .ok t ∧ src.length = 4 * n + 39 ∧ t.nesting = 2 ∧ n ≤ t.height ∧
    n ≤ callDepth name p.tokens Grammar.body (parseFuel p.tokens.length) (.call .StoredDefinition) PState.init := by
  have hd := row_divided n
  have hmem := rowPieces_mem n
  have hkinds : (lexemes [] 0 (rowPieces n)).map (·.kind) = rowKinds ++ (copies [Tok.Comma, .UInt] n ++ rowEnd) := by
    rw [lexemes_pieceKinds, rowPieces, pieceKinds_append, pieceKinds_append, pieceKinds_copies]; rfl
  have htok : ∀ x ∈ rowPieces n, ∃ k t, x.2 = .token k t ∧ isComment ⟨0, t, k, ⟨0, 0, 0⟩, ⟨0, 0, 0⟩⟩ = false := by
    intro x hx
    have := hmem x hx
    simp only [rowOpen, rowClose, List.cons_append, List.nil_append, List.mem_cons, List.not_mem_nil, or_false] at this
    rcases this with rfl | rfl | rfl | rfl | rfl | rfl | rfl | rfl | rfl | rfl | rfl | rfl | rfl | rfl <;> exact ⟨_, _, rfl, rfl⟩
  have hcom : (lexemes [] 0 (rowPieces n)).filter (fun t => !isComment t) = lexemes [] 0 (rowPieces n) := by
    rw [List.filter_eq_self]
    intro t ht
    have hk : t.kind ∈ (lexemes [] 0 (rowPieces n)).map (·.kind) := List.mem_map_of_mem ht
    rw [lexemes_pieceKinds, pieceKinds, List.mem_filterMap] at hk
    obtain ⟨x, hx, hk⟩ := hk
    obtain ⟨k, u, e1, e2⟩ := htok x hx
    rw [e1] at hk
    simp at hk
    subst hk
    simpa [isComment] using e2
  obtain ⟨x, l, hl, hx, hg, hts⟩ := row_exists n _ hkinds
  obtain ⟨hr, ho⟩ := row_reading x l hx hg
  rw [← hts] at hr
  obtain ⟨p, hp, he⟩ := (C54_accepted_text name (rowText n)).2 ⟨rowPieces n, _, hd,
    fun y hy => by
      obtain ⟨k, u, e1, e2⟩ := htok y hy
      rw [e1]
      rfl,
    fun y hy t ht => by
      obtain ⟨k, u, e1, e2⟩ := htok y hy
      rw [e1] at ht
      cases ht
      simp [isComment] at e2,
    by rw [hcom]; exact hr, ho⟩
  obtain ⟨out, hf⟩ := C03_formatted eol name (rowText n) p hp he
  obtain ⟨_, _, h3, _, cs, _, _, hr', ho', ht, _⟩ := formatted_facts hf hd
  rw [h3, hcom] at hr'
  have hcs := C52_unambiguous .StoredDefinition _ _ _ (by decide) hr' ho' hr ho
  subst hcs
  have hh := row_height x l
  rw [hl] at hh
  refine ⟨rowText n, p, out, _, hf, ht, ?_, row_nesting x l hx hg, hh, ?_⟩
  · rw [rowText, List.length_append, List.length_append, copies_length]
    show 29 + (n * 4 + 10) = _
    omega
  · exact Nat.le_trans hh (C78_calls name (rowText n) p hp he _ ht).1

/-- the errors of a text, the number of its tokens, the depth of the calls and the height, nesting and commas of its tree -/
def depthsOf (src : Text) : List Nat :=
  match parse c!"f" src .StoredDefinition with
  | .ok p => match buildTree p.tokens p.events with
    | .ok t => [p.errors.length, p.tokens.length,
        callDepth c!"f" p.tokens Grammar.body (parseFuel p.tokens.length) (.call .StoredDefinition) PState.init,
        t.height, t.nesting, t.commas]
    | _ => []
  | _ => []

/-- Depths for a file with a class in a class; for one with much more, but less nested; and for lists of two and of ten numbers. -/
theorem C78_case : depthsOf (deepText 1) = [0, 10, 12, 10, 2, 0] ∧
    depthsOf c!"model A Real x; Real y; equation x = 1 + 2 + 3; y = 2; z = 3; end A; model B Real x; end B;" = [0, 36, 17, 17, 1, 0] ∧
    depthsOf (rowText 0) = [0, 14, 29, 29, 2, 0] ∧ depthsOf (rowText 8) = [0, 30, 37, 37, 2, 8] := by
  decide +kernel

end Mofmt
