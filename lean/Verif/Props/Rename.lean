import Verif.Props.Insert
/-
C74: names, numbers, strings and the texts of comments do not influence the layout.
-/
namespace Mofmt
open Lexical

/-- The pieces are tokens and comments of the same kinds, one by one, on the same lines: nothing but their texts, and the blanks
between them, are different. -/
def SameForm : List (Text × Chunk) → List (Text × Chunk) → Prop
  | [], [] => True
  | (w, .token k t) :: ps, (w', .token k' t') :: ps' =>
    newlines w = newlines w' ∧ k = k' ∧ newlines t = newlines t' ∧ SameForm ps ps'
  | _, _ => False

/-- the group with other tokens and comments -/
def Group.sub (f : Token → Token) (g : Group) : Group := ⟨g.comments.map fun x => (x.1, f x.2), g.white, f g.tok⟩

/-- The change of tokens leaves everything but texts and columns. -/
structure KeepAll (f : Token → Token) : Prop where
  kind : ∀ t, (f t).kind = t.kind
  idx : ∀ t, (f t).idx = t.idx
  start : ∀ t, (f t).start.line = t.start.line
  stop : ∀ t, (f t).stop.line = t.stop.line

theorem KeepAll.lay {f : Token → Token} (h : KeepAll f) : KeepLay 0 f where
  kind := h.kind
  start := h.start
  stop := h.stop
  late t _ := by rw [h.idx]

/-! ### The groups -/

section
variable {f : Token → Token} (h : KeepAll f)
include h

theorem takeWhile_sub (t : Token) (cs : List Token) :
    (cs.map f).takeWhile (·.idx < (f t).idx) = (cs.takeWhile (·.idx < t.idx)).map f := by
  rw [List.takeWhile_map]
  congr 1
  congr 1
  funext c
  simp [h.idx]

theorem dropWhile_sub (t : Token) (cs : List Token) :
    (cs.map f).dropWhile (·.idx < (f t).idx) = (cs.dropWhile (·.idx < t.idx)).map f := by
  rw [List.dropWhile_map]
  congr 1
  congr 1
  funext c
  simp [h.idx]

omit h in
theorem inlineSegs_sub (cs : List Token) : ∀ first, inlineSegs first (cs.map f) = (inlineSegs first cs).map fun s => (s.1, f s.2) := by
  induction cs with
  | nil => intro _; rfl
  | cons c cs ih => intro first; simp [inlineSegs, ih]

theorem ownSegs_sub (n : Nat) : ∀ (cs : List Token) (w : Option Piece),
    ownSegs n w (cs.map f) = (ownSegs n w cs).map fun s => (s.1, f s.2)
  | [], _ => rfl
  | [c], _ => rfl
  | c :: d :: cs, w => by
    have ih := ownSegs_sub n (d :: cs) (some (gapPiece n d.start.line c.stop.line))
    rw [List.map_cons] at ih
    simp only [List.map_cons, ownSegs, h.start, h.stop, ih]

theorem lastLine_sub : ∀ (cs : List Token) (line : Nat), lastLine line (cs.map f) = lastLine line cs
  | [], _ => rfl
  | c :: cs, line => by simp only [List.map_cons, lastLine, h.stop, lastLine_sub cs]

theorem breakSegs_sub (first : Bool) (taken : List Token) (line : Nat) (b : Blank) (n : Nat) (t : Token) :
    breakSegs first (taken.map f) line b n (f t) =
      ((breakSegs first taken line b n t).1.map fun s => (s.1, f s.2), (breakSegs first taken line b n t).2) := by
  have e1 : (taken.map f).filter (fun c => !(c.start.line == line)) = (taken.filter (fun c => !(c.start.line == line))).map f := by
    rw [List.filter_map]; congr 1; congr 1; funext c; simp [h.start]
  have e2 : (taken.map f).filter (fun c => c.start.line == line) = (taken.filter (fun c => c.start.line == line)).map f := by
    rw [List.filter_map]; congr 1; congr 1; funext c; simp [h.start]
  have e3 : ∀ own : List Token, (own.map f).head?.map (fun c : Token => gapPiece n c.start.line line) =
      own.head?.map (fun c : Token => gapPiece n c.start.line line) := by
    intro own; cases own <;> simp [h.start]
  unfold breakSegs
  cases b <;> simp only [e1, e2, e3, inlineSegs_sub, ownSegs_sub h, lastLine_sub h, h.start, List.isEmpty_map, List.map_append]

theorem groups_sub (eol : Text) : ∀ (ds : List (Dec × Token)) (L L' : LS), L'.comments = L.comments.map f → L'.line = L.line →
    L'.out.isEmpty = L.out.isEmpty →
    (L'.groups (ds.map fun x => (x.1, f x.2))).map (PGroup.toGroup eol) = ((L.groups ds).map (PGroup.toGroup eol)).map (Group.sub f)
  | [], _, _, _, _, _ => rfl
  | (d, t) :: ds, L, L', hc, hl, ho => by
    have ih := groups_sub eol ds (L.step (d, t)) (L'.step (d, f t))
      (by
        cases d with
        | none => simp only [LS.step, LS.dec, LS.emit, hc, dropWhile_sub h]
        | space => simp only [LS.step, LS.dec, LS.emit, hc, dropWhile_sub h]
        | brk b n => simp only [LS.step, LS.dec, LS.emit, hc, dropWhile_sub h])
      (by
        cases d with
        | none => simp only [LS.step, LS.dec, LS.emit, h.stop]
        | space => simp only [LS.step, LS.dec, LS.emit, h.stop]
        | brk b n => simp only [LS.step, LS.dec, LS.emit, h.stop])
      rfl
    simp only [List.map_cons, LS.groups, ih, List.cons.injEq, and_true]
    cases d with
    | none => rfl
    | space => rfl
    | brk b n =>
      simp only [LS.group, hc, hl, ho, takeWhile_sub h, breakSegs_sub h, PGroup.toGroup, Group.sub, List.map_map]
      rfl

theorem groupsOf_sub (eol : Text) (cm : List Token) (ds : List (Dec × Token)) :
    groupsOf eol (cm.map f) (ds.map fun x => (x.1, f x.2)) = (groupsOf eol cm ds).map (Group.sub f) :=
  groups_sub h eol ds (LS.init cm) (LS.init (cm.map f)) rfl rfl rfl

end

/-! ### The substitution -/

theorem sub_exists : ∀ (ps ps' : List (Text × Chunk)) (pre pre' : Text) (i : Nat), SameForm ps ps' →
    newlines pre = newlines pre' →
    ∃ f, KeepAll f ∧ (lexemes pre i ps).map f = lexemes pre' i ps' ∧ ∀ t, t.idx < i → f t = t
  | [], [], _, _, _, _, _ => ⟨id, ⟨fun _ => rfl, fun _ => rfl, fun _ => rfl, fun _ => rfl⟩, rfl, fun _ _ => rfl⟩
  | (w, .token k t) :: ps, (w', .token k' t') :: ps', pre, pre', i, h, hn => by
    obtain ⟨h1, rfl, h3, h4⟩ := h
    obtain ⟨f, hf, hm, hid⟩ := sub_exists ps ps' (pre ++ w ++ t) (pre' ++ w' ++ t') (i + 1) h4
      (by simp only [newlines_append]; omega)
    have q1 : newlines (pre ++ w) = newlines (pre' ++ w') := by simp only [newlines_append]; omega
    have q2 : newlines (pre ++ w ++ t) = newlines (pre' ++ w' ++ t') := by simp only [newlines_append] at q1 ⊢; omega
    refine ⟨fun x => if x = ⟨i, t, k, position (pre ++ w), position (pre ++ w ++ t)⟩ then
        ⟨i, t', k, position (pre' ++ w'), position (pre' ++ w' ++ t')⟩ else f x, ⟨?_, ?_, ?_, ?_⟩, ?_, ?_⟩
    · intro x; split
      · rename_i e; rw [e]
      · exact hf.kind x
    · intro x; split
      · rename_i e; rw [e]
      · exact hf.idx x
    · intro x; split
      · rename_i e; rw [e]; simp only [position, q1]
      · exact hf.start x
    · intro x; split
      · rename_i e; rw [e]; simp only [position, q2]
      · exact hf.stop x
    · simp only [lexemes, List.map_cons, if_true, List.cons.injEq, true_and, ← hm]
      refine List.map_congr_left fun x hx => ?_
      have := (lexemes_idx ps _ _ x hx).1
      rw [if_neg]
      rintro rfl
      simp only at this
      omega
    · intro x hx
      simp only
      rw [if_neg (by rintro rfl; simp only at hx; omega)]
      exact hid x (by omega)
  | [], _ :: _, _, _, _, h, _ => by cases h
  | (_, .token _ _) :: _, [], _, _, _, h, _ => by cases h
  | (_, .token _ _) :: _, (_, .stray _) :: _, _, _, _, h, _ => by cases h
  | (_, .token _ _) :: _, (_, .broken _ _) :: _, _, _, _, h, _ => by cases h
  | (_, .token _ _) :: _, (_, .openString _) :: _, _, _, _, h, _ => by cases h
  | (_, .token _ _) :: _, (_, .openQuoted _) :: _, _, _, _, h, _ => by cases h
  | (_, .token _ _) :: _, (_, .openComment _) :: _, _, _, _, h, _ => by cases h
  | (_, .stray _) :: _, _, _, _, _, h, _ => by simp [SameForm] at h
  | (_, .broken _ _) :: _, _, _, _, _, h, _ => by simp [SameForm] at h
  | (_, .openString _) :: _, _, _, _, _, h, _ => by simp [SameForm] at h
  | (_, .openQuoted _) :: _, _, _, _, _, h, _ => by simp [SameForm] at h
  | (_, .openComment _) :: _, _, _, _, _, h, _ => by simp [SameForm] at h

theorem same_tokens : ∀ (ps ps' : List (Text × Chunk)), SameForm ps ps' → ∀ x ∈ ps', ∃ k t, x.2 = .token k t
  | [], [], _, x, hx => by cases hx
  | (w, .token k t) :: ps, (w', .token k' t') :: ps', h, x, hx => by
    rcases List.mem_cons.1 hx with rfl | hx
    · exact ⟨_, _, rfl⟩
    · exact same_tokens ps ps' h.2.2.2 x hx
  | [], _ :: _, h, _, _ => by cases h
  | (_, .token _ _) :: _, [], h, _, _ => by cases h
  | (_, .token _ _) :: _, (_, .stray _) :: _, h, _, _ => by cases h
  | (_, .token _ _) :: _, (_, .broken _ _) :: _, h, _, _ => by cases h
  | (_, .token _ _) :: _, (_, .openString _) :: _, h, _, _ => by cases h
  | (_, .token _ _) :: _, (_, .openQuoted _) :: _, h, _, _ => by cases h
  | (_, .token _ _) :: _, (_, .openComment _) :: _, h, _, _ => by cases h
  | (_, .stray _) :: _, _, h, _, _ => by simp [SameForm] at h
  | (_, .broken _ _) :: _, _, h, _, _ => by simp [SameForm] at h
  | (_, .openString _) :: _, _, h, _, _ => by simp [SameForm] at h
  | (_, .openQuoted _) :: _, _, h, _, _ => by simp [SameForm] at h
  | (_, .openComment _) :: _, _, h, _, _ => by simp [SameForm] at h

/-- the events of two accepted files with tokens of the same kinds -/
theorem formatted_events {eol name name' src src' out out' : Text} {p p' : Parsed} (h : Formatted eol name src p out)
    (h' : Formatted eol name' src' p' out') (hk : p'.tokens.map (·.kind) = p.tokens.map (·.kind)) : p'.events = p.events := by
  obtain ⟨l0, hl0, a1, a2, a3⟩ := parse_lex h.parsed h.accepted
  obtain ⟨l1, hl1, b1, b2, b3⟩ := parse_lex h'.parsed h'.accepted
  have hp := h.parsed
  simp only [parse, hl0, Res.bind_ok] at hp
  obtain ⟨⟨evs, errs⟩, g1, g2⟩ := Res.bind_eq_ok.1 hp
  have hp' := h'.parsed
  simp only [parse, hl1, Res.bind_ok] at hp'
  obtain ⟨⟨evs', errs'⟩, g1', g2'⟩ := Res.bind_eq_ok.1 hp'
  rw [← a1, ← b1] at hk
  obtain ⟨errs2, k1, k2⟩ := (C24_only_kinds name name' _ _ .StoredDefinition hk.symm).1 _ _ g1
  rw [k1] at g1'
  cases g1'
  simp only [Res.ok.injEq] at g2 g2'
  rw [← g2, ← g2']

/-- **C74** Take an accepted file, and give other texts to its names, numbers, strings and comments (of the same kinds and with
as many line breaks in them).  The result is accepted, too, unless the lexer panics, and its output is the output of the file
with the new texts in the places of the old ones: white space, tokens and comments printed before each token are the same.
(`f` maps the tokens and comments of the first file to those of the second one.) -/
theorem C74_renamed (eol name src out name' src' : Text) (p : Parsed) (l : Lexed) (ps ps' : List (Text × Chunk))
    (hf : Formatted eol name src p out) (hd : Divided src ps) (hd' : Divided src' ps') (hs : SameForm ps ps')
    (hl : lex name' src' = .ok l) :
    ∃ p' out' f gs, Formatted eol name' src' p' out' ∧
      (lexemes [] 0 ps).map f = lexemes [] 0 ps' ∧ p.tokens.map f = p'.tokens ∧ p.comments.map f = p'.comments ∧
      gs.map (·.tok) = p.tokens ∧
      out = groupsText gs ++ eol ∧ out' = groupsText (gs.map (Group.sub f)) ++ eol := by
  obtain ⟨tok, aw, tk, cm, cs, _, _, rd, op, bt, _, _, _⟩ := formatted_facts hf hd
  obtain ⟨f, kf, mf, _⟩ := sub_exists ps ps' [] [] 0 hs rfl
  have tok' := same_tokens ps ps' hs
  have hlex := C53_lexed name' src' _ hd'
  rw [hl, tokens_problems name' ps' [] tok'] at hlex
  have aw' : awkward false ps' = false := by
    cases e : awkward false ps' with
    | false => rfl
    | true => rw [e] at hlex; simp at hlex
  rw [aw'] at hlex
  simp only [Bool.false_eq_true, if_false, Res.ok.injEq] at hlex
  have kc : ∀ t, isComment (f t) = isComment t := fun t => by simp only [isComment, kf.kind]
  have ht : p.tokens.map f = l.tokens := by
    rw [hlex, tk, ← mf, List.filter_map]
    congr 1
    exact List.filter_congr fun t _ => by simp only [Function.comp, kc]
  have hc : p.comments.map f = l.comments := by
    rw [hlex, cm, ← mf]
    simp only [List.filter_map]
    congr 1
    exact List.filter_congr fun t _ => (kc t).symm
  obtain ⟨p', out', hf', e1, e2⟩ := accepted_kinds (name' := name') (src' := src') hf hl (by rw [hlex])
    (by rw [← ht, List.map_map]; exact List.map_congr_left fun t _ => (kf.kind t).symm)
  have hev : p'.events = p.events := formatted_events hf hf' (by
    rw [e1, ← ht, List.map_map]; exact List.map_congr_left fun t _ => kf.kind t)
  have bt' : buildTree p'.tokens p'.events = .ok ((Tree.node .StoredDefinition cs).map f) := by
    have := buildTree_map f p.tokens p.events
    rw [bt] at this
    rw [e1, ← ht, hev, this]
    rfl
  refine ⟨p', out', f, groupsOf eol p.comments (Tree.node .StoredDefinition cs).wholeLayout, hf', mf, by rw [e1, ht],
    by rw [e2, hc], ?_, laid_tree hf bt, ?_⟩
  · rw [groupsOf_tok, Tree.wholeLayout, layout_toks, Tree.leaves, rd.leaves]
  · rw [laid_tree hf' bt', e2, ← hc, wholeLayout_map kf.lay]
    exact congrArg (fun g => groupsText g ++ eol) (groupsOf_sub kf eol _ _)

def exNameA : List (Text × Chunk) :=
  [([], .token .Model c!"model"), (c!" ", .token .Identifier c!"A"), (c!"\n", .token .LineComment c!"// c"),
   (c!"\n\n\n", .token .Identifier c!"Real"), (c!" ", .token .Identifier c!"x"), (c!"  ", .token .Equal c!"="),
   ([], .token .UInt c!"1"), (c!" ", .token .String c!"\"a\nb\""), (c!" ", .token .Semicolon c!";"),
   (c!"\n", .token .End c!"end"), (c!" ", .token .Identifier c!"A"), ([], .token .Semicolon c!";")]
def exNameB : List (Text × Chunk) :=
  [([], .token .Model c!"model"), (c!" ", .token .Identifier c!"Tank"), (c!"\n", .token .LineComment c!"// a longer comment"),
   (c!"\n\n\n", .token .Identifier c!"T"), (c!"     ", .token .Identifier c!"'a level'"), ([], .token .Equal c!"="),
   ([], .token .UInt c!"1000"), ([], .token .String c!"\"\n\""), ([], .token .Semicolon c!";"),
   (c!"\n", .token .End c!"end"), (c!" ", .token .Identifier c!"Tank"), ([], .token .Semicolon c!";")]
def exNameOut : Text := c!"model A\n\n  // c\n\n  Real x = 1\n    \"a\nb\";\n\nend A;\n"
def exNameOut' : Text := c!"model Tank\n\n  // a longer comment\n\n  T 'a level' = 1000\n    \"\n\";\n\nend Tank;\n"

set_option maxRecDepth 100000 in
/-- The hypotheses of `C74_renamed` hold of a file and one with other names, another number, another string and another comment. -/
theorem C74_case : Formatted c!"\n" c!"f" (spread exNameA []) (exEditP (spread exNameA [])) exNameOut ∧
    Divided (spread exNameA []) exNameA ∧ Divided (spread exNameB []) exNameB ∧ SameForm exNameA exNameB ∧
    (∃ l, lex c!"f" (spread exNameB []) = .ok l) ∧
    Formatted c!"\n" c!"f" (spread exNameB []) (exEditP (spread exNameB [])) exNameOut' := by
  refine ⟨⟨by decide_cbv, by decide_cbv, exNameOut.dropLast, by decide_cbv, by decide⟩, dividedB_sound (by decide +kernel),
    dividedB_sound (by decide +kernel), ?_, ?_, ⟨by decide_cbv, by decide_cbv, exNameOut'.dropLast, by decide_cbv, by decide⟩⟩
  · simp only [exNameA, exNameB, SameForm, and_true, true_and]
    decide +kernel
  · exact ⟨match lex c!"f" (spread exNameB []) with | .ok l => l | _ => ⟨[], [], []⟩, by decide +kernel⟩

end Mofmt
