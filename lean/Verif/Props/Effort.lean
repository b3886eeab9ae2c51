import Verif.Proofs.Effort
import Verif.Props.Recursion
/-
C80: the work of the formatter.
-/
namespace Mofmt

open Lexical

theorem light_bodies : ∀ k, Light 33 14 (Fmt.body k) := fun k => lightB_sound (by cases k <;> decide +kernel)

mutual
theorem size_eq (t : Tree) : t.size = t.leaves.length + t.nodes := by
  match t with
  | .tok _ => rfl
  | .node _ cs => have := sizeF_eq cs; simp only [Tree.size, Tree.leaves, Tree.nodes]; omega
theorem sizeF_eq (cs : List Tree) : sizeF cs = (leavesF cs).length + nodesF cs := by
  match cs with
  | [] => rfl
  | c :: cs =>
    have := size_eq c
    have := sizeF_eq cs
    simp only [sizeF, leavesF, nodesF, List.length_append]
    omega
end

/-- **C80** The work of the formatter, for any tree, also if it fails: at most 117 times the size of the tree (tokens and productions)
times its height, and one for every comment. -/
theorem C80_tree (t : Tree) (C : List Token) : formatWork t C ≤ 117 * (t.size * t.height) + C.length + 2 := by
  unfold formatWork
  split
  · omega
  · omega
  · rename_i k cs _
    have h1 := fmtWork_le light_bodies k {} (.node k cs) (FState.init C)
    have h2 : (1 + 14 + 3 * (33 + 1)) * (Tree.node k cs).total ≤ 117 * ((Tree.node k cs).size * (Tree.node k cs).height) :=
      Nat.mul_le_mul_left _ (total_le _)
    simp only [FState.init] at h1 ⊢
    omega

/-- **C80** For an accepted file the work of the formatter is at most proportional to the number of tokens times the depth of nesting
(and the length of the longest list of arguments), and the number of comments. -/
theorem C80_file (name src : Text) (p : Parsed) (h : parse name src .StoredDefinition = .ok p) (he : p.errors = [])
    (t : Tree) (ht : buildTree p.tokens p.events = .ok t) :
    formatWork t p.comments ≤
      117 * ((14 * p.tokens.length + 1) * (24 * t.nesting + t.commas + 2)) + p.comments.length + 2 := by
  have h1 := C80_tree t p.comments
  have h2 := C75_tree name src p h he t ht
  have h3 := (C78_nesting_partial name src p h he t ht).1
  have h4 : t.leaves = p.tokens := by
    obtain ⟨out, hf⟩ := C03_formatted [] name src p h he
    obtain ⟨cs, hc, _, h3, _⟩ := hf.laid
    have hc' : t = .node .StoredDefinition cs := by
      rw [ht] at hc
      simpa using hc
    rw [groupsOf_tok, ← hc', Tree.wholeLayout, layout_toks] at h3
    exact h3
  have h5 : t.size ≤ 14 * p.tokens.length + 1 := by
    rw [size_eq, h4]; omega
  have h6 := Nat.mul_le_mul h5 h3
  omega

/-! ### A bound from below -/

/-- every way through the statement calls the function `fn`, or fails -/
def FCmd.mustCall (fn : SK) : FCmd → Bool
  | .seq a b => a.mustCall fn || b.mustCall fn
  | .ite _ a b => a.mustCall fn && b.mustCall fn
  | .call fn' .. => fn' == fn
  | .unreachable => true
  | _ => false

theorem exec_lower {sub : SK → Args → FState → Res (Bool × FState)} {subWork : SK → Args → FState → Nat} {cx : Ctx} {B : Nat} {fn : SK}
    (hsub : ∀ a s x, sub fn a s = .ok x → B ≤ subWork fn a s) : ∀ (c : FCmd) (r : Regs) (s : FState) (x : Regs × FState),
    c.mustCall fn = true → execF sub cx c r s = .ok x → B ≤ execWork sub subWork cx c r s := by
  intro c
  induction c with
  | seq a b iha ihb =>
    intro r s x hm h
    simp only [execF, Res.bind_eq_ok] at h
    obtain ⟨⟨r1, s1⟩, h1, h2⟩ := h
    dsimp only at h2
    simp only [FCmd.mustCall, Bool.or_eq_true] at hm
    simp only [execWork, h1]
    rcases hm with hm | hm
    · have := iha r s _ hm h1; omega
    · have := ihb r1 s1 _ hm h2; omega
  | ite c a b iha ihb =>
    intro r s x hm h
    simp only [execF, Res.bind_eq_ok] at h
    obtain ⟨t, h1, h2⟩ := h
    simp only [FCmd.mustCall, Bool.and_eq_true] at hm
    simp only [execWork, h1]
    cases t with
    | true => have := iha r s _ hm.1 h2; simp only [if_true]; omega
    | false => have := ihb r s _ hm.2 h2; simp only [Bool.false_eq_true, if_false]; omega
  | call fn' m w o keep =>
    intro r s x hm h
    simp only [FCmd.mustCall, beq_iff_eq] at hm
    subst hm
    simp only [execF, Res.bind_eq_ok] at h
    obtain ⟨bm, h1, bw, h2, bo, h3, ⟨w', s1⟩, h4, h5⟩ := h
    have := hsub _ _ _ h4
    simp only [execWork, h1, h2, h3]
    exact Nat.le_trans this (Nat.le_trans (Nat.le_add_left _ _) (Nat.le_trans (Nat.le_add_left _ _) (Nat.le_add_left _ _)))
  | unreachable => intro r s x _ h; simp [execF] at h
  | _ => intro r s x hm; simp [FCmd.mustCall] at hm

mutual
/-- What `contains` looks at in the modifications of a tree that are on one line, as far as the functions for them are surely
called. -/
def Tree.least : Tree → Nat
  | .tok _ => 0
  | .node k cs => (if k = .ClassModification ∧ isMultiline cs = .ok false then hasWorkF .DescriptionString cs else 0) + leastF k cs
def leastF (k : SK) : List Tree → Nat
  | [] => 0
  | .tok _ :: cs => leastF k cs
  | .node k' ds :: cs => (if ((Fmt.body k).onTree k').mustCall k' then (Tree.node k' ds).least else 0) + leastF k cs
end

mutual
theorem least_le (k : SK) (a : Args) (cs : List Tree) (s : FState) (x : Bool × FState)
    (h : fmtTree Fmt.body k a (.node k cs) s = .ok x) : (Tree.node k cs).least ≤ fmtWork Fmt.body k a (.node k cs) s := by
  simp only [fmtTree, Res.bind_eq_ok] at h
  obtain ⟨⟨r1, s1⟩, h1, ⟨r2, s2⟩, h2, ⟨r3, s3⟩, h3, h4⟩ := h
  dsimp only at h2 h3
  have e := leastF_le k cs cs 0 r1 s1 _ h2
  simp only [Tree.least, fmtWork, h1, h2]
  by_cases hk : k = .ClassModification ∧ isMultiline cs = .ok false
  · obtain ⟨rfl, hm⟩ := hk
    have : hasWorkF .DescriptionString cs ≤ execWork (fun _ _ _ => .panic .unreachable) (fun _ _ _ => 0) { all := cs }
        (Fmt.body .ClassModification).pre { m := a.m, w := a.w, o := a.o } s := by
      have e1 : hasWorkF .DescriptionString cs ≤ condWork { all := cs } { m := a.m, w := a.w, o := a.o } (s.push .indent)
          (.or .treeMulti (.or (.treeHas .DescriptionString) (.treeHas .Description))) := by
        simp only [condWork, evalFC, hm]
        exact Nat.le_trans (Nat.le_trans (Nat.le_add_left _ _) (Nat.le_trans (Nat.le_add_left _ _) (Nat.le_add_right _ _)))
          (Nat.le_add_left _ _)
      exact Nat.le_trans (Nat.le_trans e1 (Nat.le_add_left _ _)) (Nat.le_add_left _ _)
    simp only [hm, and_self, if_true]
    exact Nat.add_le_add (Nat.le_trans this (Nat.le_add_left _ _)) (Nat.le_trans e (Nat.le_add_right _ _))
  · rw [if_neg hk, Nat.zero_add]
    exact Nat.le_trans e (Nat.le_trans (Nat.le_add_right _ _) (Nat.le_add_left _ _))
theorem leastF_le (k : SK) (all cs : List Tree) (idx : Nat) (r : Regs) (s : FState) (x : Regs × FState)
    (h : fmtLoop Fmt.body (Fmt.body k) all cs idx r s = .ok x) : leastF k cs ≤ loopWork Fmt.body (Fmt.body k) all cs idx r s := by
  match cs with
  | [] => simp [leastF]
  | .tok t :: rest =>
    simp only [fmtLoop, Res.bind_eq_ok] at h
    obtain ⟨⟨r1, s1⟩, h1, h2⟩ := h
    dsimp only at h2
    have e := leastF_le k all rest (idx + 1) r1 s1 _ h2
    simp only [leastF, loopWork, h1]
    omega
  | .node k' ds :: rest =>
    simp only [fmtLoop, Res.bind_eq_ok] at h
    obtain ⟨⟨r1, s1⟩, h1, h2⟩ := h
    dsimp only at h2
    have e := leastF_le k all rest (idx + 1) r1 s1 _ h2
    have hs := fun a s x h => least_le k' a ds s x h
    simp only [leastF, loopWork, h1]
    split
    · rename_i hm
      have := exec_lower (fn := k') (sub := fun fn a s => fmtTree Fmt.body fn a (.node k' ds) s)
        (subWork := fun fn a s => fmtWork Fmt.body fn a (.node k' ds) s) hs _ _ _ _ hm h1
      omega
    · omega
end

/-- **C80** A bound from below, for every tree that is formatted. -/
theorem C80_least (k : SK) (cs : List Tree) (C : List Token) (ms : List Marker) (hk : k ≠ .Error)
    (h : format (.node k cs) C = .ok ms) : (Tree.node k cs).least ≤ formatWork (.node k cs) C := by
  have e1 : format (.node k cs) C = (fmtTree Fmt.body k {} (.node k cs) (FState.init C)).bind fun (_, s) => .ok s.marks.reverse := by
    cases k <;> first | rfl | exact absurd rfl hk
  have e2 : formatWork (.node k cs) C = 1 + fmtWork Fmt.body k {} (.node k cs) (FState.init C) := by
    cases k <;> first | rfl | exact absurd rfl hk
  rw [e1, Res.bind_eq_ok] at h
  obtain ⟨x, h, _⟩ := h
  have := least_le k {} cs _ x h
  omega

/-! ### Modifications in modifications -/

/-- the tokens of `( y` and `)` -/
structure Wrap where
  a : Token
  b : Token
  c : Token

def Wrap.Good (x : Wrap) : Prop := x.a.kind = .LParen ∧ x.b.kind = .Identifier ∧ x.c.kind = .RParen

/-- a modification around others -/
def around (x : Wrap) (ts : List Tree) : Tree :=
  .node .Modification [.node .ClassModification [.tok x.a, .node .ArgumentList [.node .Argument [.node .ElementModificationOrReplaceable [
    .node .ElementModification (.node .Name [.tok x.b] :: ts)]]], .tok x.c]]

/-- modifications in modifications -/
def onion : Wrap → List Wrap → Tree
  | x, [] => around x []
  | x, y :: l => around x [onion y l]

def onionToks : Wrap → List Wrap → List Token
  | x, [] => [x.a, x.b, x.c]
  | x, y :: l => x.a :: x.b :: (onionToks y l ++ [x.c])

theorem onion_leaves : ∀ (l : List Wrap) (x : Wrap), (onion x l).leaves = onionToks x l
  | [], x => rfl
  | y :: l, x => by
    have := onion_leaves l y
    simp [onion, around, onionToks, Tree.leaves, leavesF, this]

theorem onion_sym (x : Wrap) (l : List Wrap) : (onion x l).sym = .n .Modification := by cases l <;> rfl

theorem onion_fits : ∀ (l : List Wrap) (x : Wrap), x.Good → (∀ y ∈ l, y.Good) → (onion x l).fits = true
  | [], x, h, _ => by
    simp only [onion, around, Tree.fits, fitsF, List.map_cons, List.map_nil, sym_tok, sym_node, h.1, h.2.1, h.2.2]
    decide +kernel
  | y :: l, x, h, hl => by
    have ih := onion_fits l y (hl _ List.mem_cons_self) (fun z hz => hl z (List.mem_cons_of_mem _ hz))
    have h6 := onion_sym y l
    simp only [onion, around, Tree.fits, fitsF, List.map_cons, List.map_nil, sym_tok, sym_node, h.1, h.2.1, h.2.2, h6, ih, Bool.and_true]
    decide +kernel

theorem onion_full : ∀ (l : List Wrap) (x : Wrap), (onion x l).hasEmpty = false
  | [], x => by simp [onion, around, Tree.hasEmpty, hasEmptyF]
  | y :: l, x => by simp [onion, around, Tree.hasEmpty, hasEmptyF, onion_full l y]

theorem onion_starts (p : SK) (x : Wrap) (l : List Wrap) : (onion x l).startsOk p = true := by
  cases l <;> exact startsOk_node _ _ _ (by decide)

theorem onion_opens : ∀ (l : List Wrap) (x : Wrap), (onion x l).opensB = true
  | [], x => by simp [onion, around, Tree.opensB, opensFB, startsOk_node, startsOk_tok]
  | y :: l, x => by
    simp [onion, around, Tree.opensB, opensFB, onion_opens l y, onion_starts, startsOk_node, startsOk_tok]

theorem onion_size : ∀ (l : List Wrap) (x : Wrap), (onion x l).size = 10 * (l.length + 1)
  | [], x => by simp [onion, around, Tree.size, sizeF]
  | y :: l, x => by
    have := onion_size l y
    simp only [onion, around, Tree.size, sizeF, this, List.length_cons]
    omega

theorem onion_plain : ∀ (l : List Wrap) (x : Wrap), (onion x l).hasKind .DescriptionString = false
  | [], x => by simp [onion, around, Tree.hasKind, containsKind]
  | y :: l, x => by
    have := onion_plain l y
    simp [onion, around, Tree.hasKind, containsKind, this]

mutual
theorem hasWork_plain (k : SK) (t : Tree) (h : t.hasKind k = false) : t.hasWork k = t.size := by
  match t with
  | .tok _ => rfl
  | .node k' cs =>
    simp only [Tree.hasKind] at h
    split at h
    · cases h
    · rename_i hk
      simp only [Tree.hasWork, Tree.size, hk, if_false, hasWorkF_plain k cs h]
theorem hasWorkF_plain (k : SK) (cs : List Tree) (h : containsKind k cs = false) : hasWorkF k cs = sizeF cs := by
  match cs with
  | [] => rfl
  | c :: cs =>
    simp only [containsKind] at h
    split at h
    · cases h
    · rename_i hk
      simp only [hasWorkF, sizeF, hasWork_plain k c (by simpa using hk), hk, if_false, Bool.false_eq_true, hasWorkF_plain k cs h]
end

/-- the tokens are on line 1 -/
def onLine (ts : List Token) : Prop := ∀ t ∈ ts, t.start.line = 1 ∧ t.stop.line = 1

theorem around_multi (x : Wrap) (c : Tree) (h : x.a.start.line = 1 ∧ x.c.stop.line = 1) :
    isMultiline [.tok x.a, c, .tok x.c] = .ok false := by
  simp [isMultiline, startOf, endOf, Tree.start?, Tree.end?, h.1, h.2]

theorem onion_least : ∀ (l : List Wrap) (x : Wrap), onLine (onionToks x l) → 5 * (l.length + 1) * (l.length + 1) ≤ (onion x l).least
  | [], x, h => by
    have hm := around_multi x (.node .ArgumentList [.node .Argument [.node .ElementModificationOrReplaceable [
      .node .ElementModification [.node .Name [.tok x.b]]]]]) ⟨(h x.a (by simp [onionToks])).1, (h x.c (by simp [onionToks])).2⟩
    have e : (onion x []).least = hasWorkF .DescriptionString [.tok x.a, .node .ArgumentList [.node .Argument [
        .node .ElementModificationOrReplaceable [.node .ElementModification [.node .Name [.tok x.b]]]]], .tok x.c] + 0 := by
      simp [onion, around, Tree.least, leastF, hm, Fmt.body, Fmt.modification, Fmt.classModification, Fmt.goM, Fmt.go, FCmd.mustCall]
    rw [e, hasWorkF_plain _ _ (by simp [containsKind, Tree.hasKind])]
    simp [sizeF, Tree.size]
  | y :: l, x, h => by
    have ih := onion_least l y (fun t ht => h t (by simp [onionToks, ht]))
    have hm := around_multi x (.node .ArgumentList [.node .Argument [.node .ElementModificationOrReplaceable [
      .node .ElementModification [.node .Name [.tok x.b], onion y l]]]]) ⟨(h x.a (by simp [onionToks])).1, (h x.c (by simp [onionToks])).2⟩
    have e : (onion x (y :: l)).least = hasWorkF .DescriptionString [.tok x.a, .node .ArgumentList [.node .Argument [
        .node .ElementModificationOrReplaceable [.node .ElementModification [.node .Name [.tok x.b], onion y l]]]], .tok x.c] +
          (onion y l).least := by
      have h6 : leastF .ElementModification [onion y l] = (onion y l).least := by
        cases l <;> simp [onion, around, leastF, Fmt.body, Fmt.elementModification, Fmt.go, FCmd.mustCall]
      simp [onion, around, Tree.least, leastF, hm, Fmt.body, Fmt.modification, Fmt.classModification, Fmt.goM, Fmt.go, FCmd.mustCall]
      rw [if_pos (by decide), if_pos (by decide), if_pos (by decide), h6]
    rw [e, hasWorkF_plain _ _ (by simp [containsKind, Tree.hasKind, onion_plain])]
    have := onion_size l y
    simp only [sizeF, Tree.size, this, List.length_cons]
    generalize l.length + 1 = m at *
    have : 5 * (m + 1) * (m + 1) = 5 * m * m + 10 * m + 5 := by
      simp only [Nat.mul_add, Nat.add_mul, Nat.mul_one]; omega
    omega

/-- the tokens of `model A Real x; end A;` -/
structure Frame' where
  a : Token
  b : Token
  c : Token
  d : Token
  e : Token
  f : Token
  g : Token
  h : Token

def frameKinds : List Tok := [.Model, .Identifier, .Identifier, .Identifier]
def frameEnd : List Tok := [.Semicolon, .End, .Identifier, .Semicolon]

def Frame'.Good (x : Frame') : Prop :=
  [x.a, x.b, x.c, x.d].map (·.kind) = frameKinds ∧ [x.e, x.f, x.g, x.h].map (·.kind) = frameEnd

/-- the file with a modification -/
def frameFile (x : Frame') (t : Tree) : List Tree :=
  [.node .ClassDefinition [.node .ClassPrefixes [.tok x.a], .node .ClassSpecifier [.node .LongClassSpecifier [.tok x.b,
    .node .Composition [.node .ElementList [.node .Element [.node .ComponentClause [.node .TypeSpecifier [.node .Name [.tok x.c]],
      .node .ComponentList [.node .ComponentDeclaration [.node .Declaration [.tok x.d, t]]]]], .tok x.e]],
    .tok x.f, .tok x.g]]], .tok x.h]

def frameToks (x : Frame') (y : Wrap) (l : List Wrap) : List Token :=
  [x.a, x.b, x.c, x.d] ++ onionToks y l ++ [x.e, x.f, x.g, x.h]

theorem frame_reading (x : Frame') (y : Wrap) (l : List Wrap) (hx : x.Good) (hy : y.Good) (hl : ∀ z ∈ l, z.Good) :
    Reading .StoredDefinition (frameToks x y l) (frameFile x (onion y l)) ∧
      (Tree.node .StoredDefinition (frameFile x (onion y l))).Opens := by
  obtain ⟨hx1, hx2⟩ := hx
  simp only [List.map_cons, List.map_nil, frameKinds, frameEnd, List.cons.injEq, and_true] at hx1 hx2
  obtain ⟨ha, hb, hc, hd⟩ := hx1
  obtain ⟨he, hf, hg, hh⟩ := hx2
  constructor
  · refine readingOf ?_ ?_ ?_
    · have ih := onion_fits l y hy hl
      have h6 := onion_sym y l
      simp only [frameFile, Tree.fits, fitsF, List.map_cons, List.map_nil, sym_tok, sym_node, h6, ih, ha, hb, hc, hd, he, hf, hg, hh,
        Bool.and_true]
      decide +kernel
    · simp [frameFile, hasEmptyF, onion_full, Tree.hasEmpty]
    · simp [frameFile, frameToks, leavesF, Tree.leaves, onion_leaves]
  · refine opensB_sound _ ?_
    simp [frameFile, Tree.opensB, opensFB, onion_opens l y, onion_starts, startsOk_node, startsOk_tok]

theorem frame_least (x : Frame') (y : Wrap) (l : List Wrap) :
    (Tree.node .StoredDefinition (frameFile x (onion y l))).least = (onion y l).least := by
  have h6 : leastF .Declaration [onion y l] = (onion y l).least := by
    cases l <;> simp [onion, around, leastF, Fmt.body, Fmt.declaration, Fmt.go, FCmd.mustCall]
  have h7 : ∀ cs k t, leastF k (.tok t :: cs) = leastF k cs := fun cs k t => by rw [leastF]
  have h8 : ∀ k k' cs, ((Fmt.body k).onTree k').mustCall k' = true → k' ≠ .ClassModification → ∀ ds, leastF k (.node k' cs :: ds) =
      leastF k' cs + leastF k ds := fun k k' cs h h' ds => by rw [leastF, if_pos h, Tree.least, if_neg (fun h => h' h.1), Nat.zero_add]
  have h9 : ∀ k, leastF k [] = 0 := fun k => by rw [leastF]
  rw [Tree.least, if_neg (by rintro ⟨h, _⟩; cases h), frameFile]
  simp only [h7, h9, Nat.zero_add, Nat.add_zero, h6, h8 .StoredDefinition .ClassDefinition _ (by decide) (by decide),
    h8 .ClassDefinition .ClassPrefixes _ (by decide) (by decide), h8 .ClassDefinition .ClassSpecifier _ (by decide) (by decide),
    h8 .ClassSpecifier .LongClassSpecifier _ (by decide) (by decide), h8 .LongClassSpecifier .Composition _ (by decide) (by decide),
    h8 .Composition .ElementList _ (by decide) (by decide), h8 .ElementList .Element _ (by decide) (by decide),
    h8 .Element .ComponentClause _ (by decide) (by decide), h8 .ComponentClause .TypeSpecifier _ (by decide) (by decide),
    h8 .TypeSpecifier .Name _ (by decide) (by decide), h8 .ComponentClause .ComponentList _ (by decide) (by decide),
    h8 .ComponentList .ComponentDeclaration _ (by decide) (by decide), h8 .ComponentDeclaration .Declaration _ (by decide) (by decide)]

/-! ### Their text -/

def framePre : List (Text × Chunk) := [(c!" ", .token .Model c!"model"), (c!" ", .token .Identifier c!"A"),
  (c!" ", .token .Identifier c!"Real"), (c!" ", .token .Identifier c!"x")]
def wrapOpen : List (Text × Chunk) := [(c!" ", .token .LParen c!"("), (c!" ", .token .Identifier c!"x")]
def wrapClose : List (Text × Chunk) := [(c!" ", .token .RParen c!")")]
def framePost : List (Text × Chunk) := [([], .token .Semicolon c!";"), (c!" ", .token .End c!"end"),
  (c!" ", .token .Identifier c!"A"), ([], .token .Semicolon c!";")]

/-- the file: ` model A Real x`, then ` ( x` `n + 1` times, then as many ` )`, then `; end A;` -/
def onionText (n : Nat) : Text := c!" model A Real x" ++ (copies c!" ( x" (n + 1) ++ (copies c!" )" (n + 1) ++ c!"; end A;"))
def onionPieces (n : Nat) : List (Text × Chunk) := framePre ++ (copies wrapOpen (n + 1) ++ (copies wrapClose (n + 1) ++ framePost))

theorem framePost_divided : Divided c!"; end A;" framePost := by
  have h1 := divided_piece (k := .Semicolon) (t := c!";") (w := []) rfl rfl (apart_follows (by decide) rfl) (.done (w := []) rfl)
  have h2 := divided_piece (k := .Identifier) (t := c!"A") (w := c!" ") rfl classA (apart_follows (by decide) rfl) h1
  have h3 := divided_piece (k := .End) (t := c!"end") (w := c!" ") rfl rfl (apart_follows (by decide) rfl) h2
  exact divided_piece (k := .Semicolon) (t := c!";") (w := []) rfl rfl (apart_follows (by decide) rfl) h3

theorem wrapClose_divided : ∀ n, Divided (copies c!" )" n ++ c!"; end A;") (copies wrapClose n ++ framePost) ∧
    apart (copies c!" )" n ++ c!"; end A;") = true
  | 0 => ⟨framePost_divided, rfl⟩
  | n + 1 => by
    obtain ⟨h, ha⟩ := wrapClose_divided n
    exact ⟨divided_piece (k := .RParen) (t := c!")") (w := c!" ") rfl rfl (apart_follows (by decide) ha) h, rfl⟩

theorem wrapOpen_divided {r : Text} {ps : List (Text × Chunk)} (h0 : Divided r ps) (ha0 : apart r = true) :
    ∀ n, Divided (copies c!" ( x" n ++ r) (copies wrapOpen n ++ ps) ∧ apart (copies c!" ( x" n ++ r) = true
  | 0 => ⟨h0, ha0⟩
  | n + 1 => by
    obtain ⟨h, ha⟩ := wrapOpen_divided h0 ha0 n
    refine ⟨?_, rfl⟩
    have h2 := divided_piece (k := .Identifier) (t := c!"x") (w := c!" ") rfl classX (apart_follows (by decide) ha) h
    exact divided_piece (k := .LParen) (t := c!"(") (w := c!" ") rfl rfl (apart_follows (by decide) rfl) h2

theorem classReal : Class .Identifier c!"Real" :=
  munch_class (c := 'R') (cs := c!"eal") (k := .Identifier) (r := []) (by decide)

theorem onion_divided (n : Nat) : Divided (onionText n) (onionPieces n) := by
  obtain ⟨h, ha⟩ := wrapOpen_divided (wrapClose_divided (n + 1)).1 (wrapClose_divided (n + 1)).2 (n + 1)
  have h1 := divided_piece (k := .Identifier) (t := c!"x") (w := c!" ") rfl classX (apart_follows (by decide) ha) h
  have h2 := divided_piece (k := .Identifier) (t := c!"Real") (w := c!" ") rfl classReal (apart_follows (by decide) rfl) h1
  have h3 := divided_piece (k := .Identifier) (t := c!"A") (w := c!" ") rfl classA (apart_follows (by decide) rfl) h2
  exact divided_piece (k := .Model) (t := c!"model") (w := c!" ") rfl rfl (apart_follows (by decide) rfl) h3

theorem onion_exists : ∀ (n : Nat) (ts : List Token),
    ts.map (·.kind) = copies [Tok.LParen, .Identifier] (n + 1) ++ copies [Tok.RParen] (n + 1) →
    ∃ x l, l.length = n ∧ x.Good ∧ (∀ y ∈ l, y.Good) ∧ ts = onionToks x l
  | 0, ts, h => by
    rcases ts with _ | ⟨a, _ | ⟨b, _ | ⟨c, _ | ⟨d, ts⟩⟩⟩⟩ <;> simp [copies] at h
    exact ⟨⟨a, b, c⟩, [], rfl, h, by simp, rfl⟩
  | n + 1, ts, h => by
    rw [copies, copies_last _ (n + 1)] at h
    rcases ts with _ | ⟨a, _ | ⟨b, ts⟩⟩
    · simp at h
    · simp at h
    simp only [List.map_cons, List.cons_append, List.nil_append, List.cons.injEq] at h
    obtain ⟨ha, hb, h⟩ := h
    rw [← List.append_assoc, List.map_eq_append_iff] at h
    obtain ⟨l1, l2, rfl, h1, h2⟩ := h
    obtain ⟨y, l, g1, g2, g3, rfl⟩ := onion_exists n l1 h1
    rcases l2 with _ | ⟨c, _ | ⟨d, ts⟩⟩ <;> simp at h2
    refine ⟨⟨a, b, c⟩, y :: l, by simp [g1], ⟨ha, hb, h2⟩, ?_, rfl⟩
    intro z hz
    rcases List.mem_cons.1 hz with rfl | hz
    · exact g2
    · exact g3 z hz

theorem frame_exists (n : Nat) (ts : List Token)
    (h : ts.map (·.kind) = frameKinds ++ (copies [Tok.LParen, .Identifier] (n + 1) ++ (copies [Tok.RParen] (n + 1) ++ frameEnd))) :
    ∃ x y l, l.length = n ∧ x.Good ∧ y.Good ∧ (∀ z ∈ l, z.Good) ∧ ts = frameToks x y l := by
  rw [List.map_eq_append_iff] at h
  obtain ⟨t1, t2, rfl, h1, h2⟩ := h
  rw [← List.append_assoc, List.map_eq_append_iff] at h2
  obtain ⟨t2, t3, rfl, h2, h3⟩ := h2
  obtain ⟨y, l, g1, g2, g3, rfl⟩ := onion_exists n t2 h2
  rcases t1 with _ | ⟨a, _ | ⟨b, _ | ⟨c, _ | ⟨d, _ | ⟨_, ts⟩⟩⟩⟩⟩ <;> simp [frameKinds] at h1
  rcases t3 with _ | ⟨e, _ | ⟨f, _ | ⟨g, _ | ⟨h, _ | ⟨_, ts⟩⟩⟩⟩⟩ <;> simp [frameEnd] at h3
  exact ⟨⟨a, b, c, d, e, f, g, h⟩, y, l, g1, ⟨by simp [frameKinds, h1], by simp [frameEnd, h3]⟩, g2, g3, by simp [frameToks]⟩

theorem copies_mem {α : Type} (l : List α) (m : Nat) : ∀ x ∈ copies l m, x ∈ l := by
  induction m with
  | zero => intro x hx; simp [copies] at hx
  | succ m ih =>
    intro x hx
    rw [copies] at hx
    rcases List.mem_append.1 hx with hx | hx
    · exact hx
    · exact ih x hx

theorem onionPieces_mem (n : Nat) : ∀ x ∈ onionPieces n, x ∈ framePre ++ wrapOpen ++ wrapClose ++ framePost := by
  intro x hx
  simp only [onionPieces, List.mem_append] at hx ⊢
  rcases hx with hx | hx | hx | hx
  · exact .inl (.inl (.inl hx))
  · exact .inl (.inl (.inr (copies_mem _ _ x hx)))
  · exact .inl (.inr (copies_mem _ _ x hx))
  · exact .inr hx

theorem lexemes_onLine : ∀ (ps : List (Text × Chunk)) (pre : Text) (i : Nat), newlines pre = 0 →
    (∀ x ∈ ps, ∃ k t, x.2 = .token k t ∧ newlines x.1 = 0 ∧ newlines t = 0) → onLine (lexemes pre i ps)
  | [], _, _, _, _ => by intro t ht; simp [lexemes] at ht
  | (w, c) :: ps, pre, i, hp, h => by
    obtain ⟨k, t, e, h1, h2⟩ := h _ List.mem_cons_self
    dsimp only at e h1
    subst e
    have e1 : newlines (pre ++ w) = 0 := by rw [newlines_append, hp, h1]
    have e2 : newlines (pre ++ w ++ t) = 0 := by rw [newlines_append, e1, h2]
    intro u hu
    rw [lexemes] at hu
    rcases List.mem_cons.1 hu with rfl | hu
    · simp only [position, e1, e2, and_self]
    · exact lexemes_onLine ps _ _ e2 (fun x hx => h x (List.mem_cons_of_mem _ hx)) u hu

/-- **C80** The bound is of the right order: for every `n` there is a file of `6 n + 29` characters, modifications in modifications on
one line, that is accepted, and the formatter looks at more than `5 (n + 1)²` tokens and productions: for every modification it searches
everything within for descriptions. -/
theorem C80_quadratic (eol name : Text) (n : Nat) : ∃ src p out t, Formatted eol name src p out ∧
    buildTree p.tokens p.events = .ok t ∧ src.length = 6 * n + 29 ∧ 5 * (n + 1) * (n + 1) ≤ formatWork t p.comments := by
  have hd := onion_divided n
  have hmem := onionPieces_mem n
  have hkinds : (lexemes [] 0 (onionPieces n)).map (·.kind) =
      frameKinds ++ (copies [Tok.LParen, .Identifier] (n + 1) ++ (copies [Tok.RParen] (n + 1) ++ frameEnd)) := by
    rw [lexemes_pieceKinds, onionPieces, pieceKinds_append, pieceKinds_append, pieceKinds_append, pieceKinds_copies, pieceKinds_copies]; rfl
  have htok : ∀ x ∈ onionPieces n, ∃ k t, x.2 = .token k t ∧ isComment ⟨0, t, k, ⟨0, 0, 0⟩, ⟨0, 0, 0⟩⟩ = false ∧
      newlines x.1 = 0 ∧ newlines t = 0 := by
    intro x hx
    have := hmem x hx
    simp only [framePre, wrapOpen, wrapClose, framePost, List.cons_append, List.nil_append, List.mem_cons, List.not_mem_nil,
      or_false] at this
    rcases this with rfl | rfl | rfl | rfl | rfl | rfl | rfl | rfl | rfl | rfl | rfl <;> exact ⟨_, _, rfl, rfl, rfl, rfl⟩
  have hcom : (lexemes [] 0 (onionPieces n)).filter (fun t => !isComment t) = lexemes [] 0 (onionPieces n) := by
    rw [List.filter_eq_self]
    intro t ht
    have hk : t.kind ∈ (lexemes [] 0 (onionPieces n)).map (·.kind) := List.mem_map_of_mem ht
    rw [lexemes_pieceKinds, pieceKinds, List.mem_filterMap] at hk
    obtain ⟨x, hx, hk⟩ := hk
    obtain ⟨k, u, e1, e2, _⟩ := htok x hx
    rw [e1] at hk
    simp at hk
    subst hk
    simpa [isComment] using e2
  have hline := lexemes_onLine (onionPieces n) [] 0 rfl (fun x hx => by
    obtain ⟨k, t, h1, _, h2, h3⟩ := htok x hx
    exact ⟨k, t, h1, h2, h3⟩)
  obtain ⟨x, y, l, hl, hx, hy, hg, hts⟩ := frame_exists n _ hkinds
  obtain ⟨hr, ho⟩ := frame_reading x y l hx hy hg
  rw [← hts] at hr
  obtain ⟨p, hp, he⟩ := (C54_accepted_text name (onionText n)).2 ⟨onionPieces n, _, hd,
    fun y hy => by
      obtain ⟨k, u, e1, e2, _⟩ := htok y hy
      rw [e1]
      rfl,
    fun y hy t ht => by
      obtain ⟨k, u, e1, e2, _⟩ := htok y hy
      rw [e1] at ht
      cases ht
      simp [isComment] at e2,
    by rw [hcom]; exact hr, ho⟩
  obtain ⟨out, hf⟩ := C03_formatted eol name (onionText n) p hp he
  obtain ⟨_, _, h3, _, cs, _, _, hr', ho', ht, _⟩ := formatted_facts hf hd
  rw [h3, hcom] at hr'
  have hcs := C52_unambiguous .StoredDefinition _ _ _ (by decide) hr' ho' hr ho
  subst hcs
  obtain ⟨tree, ms, _, f1, f2, _, _⟩ := C03_formatting_succeeds eol name (onionText n) p hp he
  rw [ht] at f1
  cases f1
  refine ⟨onionText n, p, out, _, hf, ht, ?_, ?_⟩
  · rw [onionText, List.length_append, List.length_append, List.length_append, copies_length, copies_length]
    show 15 + ((n + 1) * 4 + ((n + 1) * 2 + 8)) = _
    omega
  · have h1 := C80_least .StoredDefinition _ p.comments ms (by decide) f2
    rw [frame_least] at h1
    have h2 := onion_least l y (fun t ht => hline t (by rw [hts]; simp [frameToks, ht]))
    rw [hl] at h2
    omega

/-- the errors of a text, the number of its tokens, the size and height of its tree and the work of the formatter -/
def workOf (src : Text) : List Nat :=
  match parse c!"f" src .StoredDefinition with
  | .ok p => match buildTree p.tokens p.events with
    | .ok t => [p.errors.length, p.tokens.length, t.size, t.height, formatWork t p.comments]
    | _ => []
  | _ => []

/-- Tokens, size, height and work for modifications of depth 1, 2 and 10, and for a file with comments, but little nesting. -/
theorem C80_case : workOf (onionText 0) = [0, 11, 32, 18, 300] ∧ workOf (onionText 1) = [0, 14, 42, 24, 428] ∧
    workOf (onionText 9) = [0, 38, 122, 72, 2172] ∧
    workOf c!"model A Real x; /* c */ Real y; // d\n equation x = 1 + 2 + 3; y = 2; z = 3; end A; model B Real x; end B;" =
      [0, 36, 142, 17, 1465] := by
  decide +kernel

end Mofmt
