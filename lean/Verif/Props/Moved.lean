import Verif.Props.Insert
import Verif.Props.Beginning
import Verif.Proofs.Deeper
/-
C79: a part of a file is formatted in the same way wherever it stands.
-/
namespace Mofmt
open Lexical

/-! ### `within` -/

theorem within_only : ∀ k : SK, k ≠ .StoredDefinition →
    ((Gram.spec k).syms.all fun s => s != .t .Within && s != .n .StoredDefinition) = true := by
  intro k; cases k <;> decide +kernel

mutual
theorem no_within (t : Tree) (h : t.Conforms) (hs : t.sym ≠ .t .Within) (hk : t.sym ≠ .n .StoredDefinition) :
    ∀ x ∈ t.leaves, x.kind ≠ .Within := by
  match t with
  | .tok t =>
    intro x hx
    simp only [Tree.leaves, List.mem_singleton] at hx
    subst hx
    intro e
    exact hs (by simp [Tree.sym, e])
  | .node k cs =>
    have hw := List.all_eq_true.1 (within_only k fun e => hk (by simp [Tree.sym, e]))
    refine no_withinF cs h.2 fun c hc => ?_
    have := hw _ (syms_complete h.1 c.sym (List.mem_map_of_mem hc))
    simpa using this
theorem no_withinF (cs : List Tree) (h : ConformsF cs) (hs : ∀ c ∈ cs, c.sym ≠ .t .Within ∧ c.sym ≠ .n .StoredDefinition) :
    ∀ x ∈ leavesF cs, x.kind ≠ .Within := by
  match cs with
  | [] => intro x hx; cases hx
  | c :: cs =>
    intro x hx
    simp only [leavesF, List.mem_append] at hx
    obtain ⟨h1, h2⟩ := hs c (by simp)
    rcases hx with hx | hx
    · exact no_within c h.1 h1 h2 x hx
    · exact no_withinF cs h.2 (fun c hc => hs c (by simp [hc])) x hx
end

/-! ### One file -/

/-- the state after the first token of a part -/
def afterFirst (comments : List Token) (t : Token) : LS := ⟨[.txt t], comments, t.stop.line, t.kind⟩

/-- what is printed for a part, at level 0 -/
def partPieces (comments : List Token) (s : Tree) (t : Token) : List Piece :=
  .txt t :: ((afterFirst comments t).groups (s.layout 0 false false .none).tail).flatMap PGroup.pieces

theorem part_printed {eol name src out w : Text} {p : Parsed} {A X B : List (Text × Chunk)} {tree : Tree} {j : Tok} {t : Text}
    {k : SK} {cs : List Tree} {n : Nat} {b : Bool} (hf : Formatted eol name src p out)
    (hd : Divided src (A ++ (w, .token j t) :: X ++ B)) (hj : j ≠ .LineComment ∧ j ≠ .BlockComment)
    (ht : buildTree p.tokens p.events = .ok tree) (hk : selfContained k = true) (hl : Level tree (.node k cs) n b)
    (hx : leavesF cs = codeOf (spread A []) A.length ((w, .token j t) :: X)) :
    ∃ t0 d0 LA LB, t0 = ⟨A.length, t, j, position (spread A [] ++ w), position (spread A [] ++ w ++ t)⟩ ∧
      tree.wholeLayout = LA ++ ((d0, t0) :: ((Tree.node k cs).layout 0 false false .none).tail.map (decDeeper n)) ++ LB ∧
      LA.map (·.2) = codeOf [] 0 A ∧
      LB.map (·.2) = codeOf (spread (A ++ (w, .token j t) :: X) []) (A ++ (w, .token j t) :: X).length B ∧
      (Tree.node k cs).Conforms ∧ (Tree.node k cs).hasEmpty = false ∧ (Tree.node k cs).Opens ∧
      out = groupsText (groupsOf eol p.comments tree.wholeLayout) ++ eol ∧
      ∃ ga g gx gb, groupsOf eol p.comments tree.wholeLayout = ga ++ g :: gx ++ gb ∧
        ga.map (·.tok) = codeOf [] 0 A ∧ (g :: gx).map (·.tok) = leavesF cs ∧
        gb.map (·.tok) = codeOf (spread (A ++ (w, .token j t) :: X) []) (A ++ (w, .token j t) :: X).length B ∧
        g.tok.text ++ groupsText gx = textAt eol n (partPieces
          ((lexemes (spread A [] ++ w ++ t) (A.length + 1) X).filter isComment) (.node k cs) t0) := by
  obtain ⟨tokX, _, tkX, cmX, cs0, _, _, rd, op, bt, _, _, _⟩ := formatted_facts hf hd
  obtain ⟨cs1, t1, o1, k1, _⟩ := hf.laid
  rw [ht] at bt t1
  simp only [Res.ok.injEq] at bt t1
  subst bt
  simp only [Tree.node.injEq, true_and] at t1
  subst t1
  have hne : k ≠ .StoredDefinition := by rintro rfl; cases hk
  have hp := level_part hl
  have hE0 : (Tree.node .StoredDefinition cs0).hasEmpty = false := by
    have hne : cs0 ≠ [] := by
      rintro rfl
      cases hp with
      | here => exact hne rfl
      | there hc _ => cases hc
    simp [Tree.hasEmpty, rd.full, hne]
  obtain ⟨m, d, LA, LB, q1, q2⟩ := level_layout hl
  obtain ⟨rfl, rfl⟩ := q2 k cs rfl hk (by simp [Tree.sym, Ne.symm hne])
  -- the first token
  have isc : ∀ (a b c : _), isComment ⟨a, t, j, b, c⟩ = false := by
    intro a b c
    have := hj.1; have := hj.2
    cases j <;> first | rfl | contradiction
  have hx0 : leavesF cs = ⟨A.length, t, j, position (spread A [] ++ w), position (spread A [] ++ w ++ t)⟩ ::
      codeOf (spread A [] ++ w ++ t) (A.length + 1) X := by
    rw [hx]
    simp only [codeOf, lexemes, List.filter_cons, isc, Bool.not_false, if_true]
  generalize ht0 : Token.mk A.length t j (position (spread A [] ++ w)) (position (spread A [] ++ w ++ t)) = t0 at hx0
  have hshape : ∃ d0, (Tree.node k cs).layout n false false d =
      (d0, t0) :: ((Tree.node k cs).layout 0 false false .none).tail.map (decDeeper n) := by
    have e1 := layout_toks (.node k cs) n false false d
    have e2 := layout_before (.node k cs) n false false d ((Dec.none).deeper n)
    have e3 := layout_deeper (.node k cs) 0 n false false .none
    rw [Nat.zero_add] at e3
    rw [e3] at e2
    rw [Tree.leaves, hx0] at e1
    revert e1 e2
    generalize (Tree.node k cs).layout n false false d = L
    intro e1 e2
    cases L with
    | nil => cases e1
    | cons x L =>
      simp only [List.map_cons, List.cons.injEq] at e1
      rw [List.tail_cons, ← List.map_tail] at e2
      exact ⟨x.1, by rw [e2, ← e1.1]⟩
  obtain ⟨d0, hshape⟩ := hshape
  rw [hshape] at q1
  -- the tokens
  have nodup : p.tokens.Nodup := by
    obtain ⟨lx, hl, l1, l2, l3⟩ := parse_lex hf.parsed hf.accepted
    have := (lexed_wf hl).ts
    rw [l1] at this
    refine this.imp fun h e => ?_
    subst e
    omega
  have tokA : ∀ x ∈ A, ∃ k t, x.2 = .token k t := fun x hx => tokX x (by simp [hx])
  have tokAX : ∀ x ∈ A ++ (w, .token j t) :: X, ∃ k t, x.2 = .token k t := fun x hx => tokX x (List.mem_append_left _ hx)
  have hlx : lexemes [] 0 (A ++ (w, .token j t) :: X ++ B) = lexemes [] 0 A ++ t0 :: lexemes (spread A [] ++ w ++ t) (A.length + 1) X ++
      lexemes (spread (A ++ (w, .token j t) :: X) []) (A ++ (w, .token j t) :: X).length B := by
    rw [lexemes_append _ _ _ _ tokAX, lexemes_append _ _ _ _ tokA, List.nil_append, List.nil_append, Nat.zero_add, Nat.zero_add]
    rw [lexemes, ht0]
  have ict : isComment t0 = false := by rw [← ht0]; exact isc _ _ _
  have tk : p.tokens = codeOf [] 0 A ++ t0 :: (codeOf (spread A [] ++ w ++ t) (A.length + 1) X ++
      codeOf (spread (A ++ (w, .token j t) :: X) []) (A ++ (w, .token j t) :: X).length B) := by
    rw [tkX, hlx]
    simp only [codeOf, List.filter_append, List.filter_cons, ict, Bool.not_false, if_true, List.append_assoc, List.cons_append]
  have cm : p.comments = (lexemes [] 0 A).filter isComment ++ ((lexemes (spread A [] ++ w ++ t) (A.length + 1) X).filter isComment ++
      (lexemes (spread (A ++ (w, .token j t) :: X) []) (A ++ (w, .token j t) :: X).length B).filter isComment) := by
    rw [cmX, hlx]
    simp only [List.filter_append, List.filter_cons, ict, Bool.false_eq_true, if_false, List.append_assoc]
  have hds : (((Tree.node k cs).layout 0 false false .none).tail.map (decDeeper n)).map (·.2) =
      codeOf (spread A [] ++ w ++ t) (A.length + 1) X := by
    have e := layout_toks (.node k cs) n false false d
    rw [hshape, Tree.leaves, hx0] at e
    simpa using e
  have htoks : LA.map (·.2) = codeOf [] 0 A ∧
      LB.map (·.2) = codeOf (spread (A ++ (w, .token j t) :: X) []) (A ++ (w, .token j t) :: X).length B := by
    have e := layout_toks (.node .StoredDefinition cs0) 0 false false .none
    rw [Tree.wholeLayout] at q1
    rw [q1, Tree.leaves, rd.leaves, tk] at e
    have nd := nodup
    rw [tk, ← e] at nd
    rw [← e] at tk
    simp only [List.map_append, List.map_cons, List.append_assoc, List.cons_append] at e nd
    obtain ⟨e1, e2⟩ := app_unique nd e
    rw [hds, List.append_assoc (spread A [])] at e2
    exact ⟨e1, List.append_cancel_left e2⟩
  refine ⟨t0, d0, LA, LB, rfl, q1, htoks.1, htoks.2, hp.conforms rd.conforms, hp.full hE0, hp.opened op, o1, ?_⟩
  generalize hCA : (lexemes [] 0 A).filter isComment = CA at cm
  generalize hCX : (lexemes (spread A [] ++ w ++ t) (A.length + 1) X).filter isComment = CX at cm
  generalize hCB : (lexemes (spread (A ++ (w, .token j t) :: X) []) (A ++ (w, .token j t) :: X).length B).filter isComment = CB at cm
  have iCA : ∀ c ∈ CA, c.idx < A.length := fun c hc => by
    have := lexemes_idx _ _ _ c (List.mem_filter.1 (hCA ▸ hc)).1
    omega
  have iCX : ∀ c ∈ CX, A.length < c.idx := fun c hc => by
    have := lexemes_idx _ _ _ c (List.mem_filter.1 (hCX ▸ hc)).1
    omega
  have iCB : ∀ c ∈ CB, A.length + 1 + X.length ≤ c.idx := fun c hc => by
    have := lexemes_idx _ _ _ c (List.mem_filter.1 (hCB ▸ hc)).1
    simp only [List.length_append, List.length_cons] at this
    omega
  have it : ∀ {pre : Text} {i : Nat} {ps : List (Text × Chunk)} {ls : List (Dec × Token)}, ls.map (·.2) = codeOf pre i ps →
      ∀ z ∈ ls, i ≤ z.2.idx ∧ z.2.idx < i + ps.length := fun h z hz =>
    code_idx (by rw [← h]; exact List.mem_map_of_mem hz)
  have hid : t0.idx = A.length := by rw [← ht0]
  -- the comments after the first token
  have hS : (((LS.init p.comments).run LA).step (d0, t0)).comments = CX ++ CB := by
    obtain ⟨P', p1, p2⟩ := run_behind (CX ++ CB) LA CA fun z hz c hc => by
      have h1 := (it htoks.1 z hz).2
      rcases List.mem_append.1 hc with hc | hc
      · have := iCX c hc; omega
      · have := iCB c hc; omega
    rw [LS.step_left, run_comments]
    show (LA.foldl _ p.comments).dropWhile _ = _
    rw [cm, p2]
    refine dropWhile_all (fun c hc => ?_) fun c hc => ?_
    · have := iCA c (p1 c hc)
      show c.idx < t0.idx
      omega
    · show ¬ c.idx < t0.idx
      rcases List.mem_append.1 hc with hc | hc
      · have := iCX c hc; omega
      · have := iCB c hc; omega
  generalize hds' : ((Tree.node k cs).layout 0 false false .none).tail = ds at q1 hds
  have hgroups : ((((LS.init p.comments).run LA).step (d0, t0)).groups (ds.map (decDeeper n))).flatMap PGroup.pieces =
      (((afterFirst CX t0).groups ds).flatMap PGroup.pieces).map (Piece.deeper n) := by
    generalize hSS : ((LS.init p.comments).run LA).step (d0, t0) = S at hS
    have e : S = { ({ S with comments := CX } : LS) with comments := ({ S with comments := CX } : LS).comments ++ CB } := by
      cases S
      simp only at hS
      rw [hS]
    have hl : S.line = t0.stop.line := by rw [← hSS]; rfl
    have ho : S.out.isEmpty = false := by rw [← hSS]; rfl
    rw [e, groups_behind]
    · exact groups_deeper n ds (afterFirst CX t0) _ ho rfl hl
    · intro z hz c hc
      have := (it hds z hz).2
      have := iCB c hc
      omega
  refine ⟨((LS.init p.comments).groups LA).map (PGroup.toGroup eol), (((LS.init p.comments).run LA).group (d0, t0)).toGroup eol,
    ((((LS.init p.comments).run LA).step (d0, t0)).groups (ds.map (decDeeper n))).map (PGroup.toGroup eol),
    (((LS.init p.comments).run (LA ++ (d0, t0) :: ds.map (decDeeper n))).groups LB).map (PGroup.toGroup eol), ?_, ?_, ?_, ?_, ?_⟩
  · rw [q1, groupsOf, LS.groups_append, LS.groups_append, List.map_append, List.map_append]
    rfl
  · rw [List.map_map, ← htoks.1]; exact LS.groups_tok LA _
  · have : ∀ (L : LS) (x : Dec × Token), (L.group x).tok = x.2 := by
      intro L x
      obtain ⟨d, t⟩ := x
      cases d <;> rfl
    rw [hx0, List.map_cons, ← hds]
    have e := LS.groups_tok (ds.map (decDeeper n)) (((LS.init p.comments).run LA).step (d0, t0))
    rw [← e, List.map_map]
    simp only [PGroup.toGroup, this]
    rfl
  · rw [List.map_map, ← htoks.2]; exact LS.groups_tok LB _
  · rw [← groups_text, hgroups, textAt, partPieces]
    have : ∀ (L : LS) (x : Dec × Token), (L.group x).tok = x.2 := by
      intro L x
      obtain ⟨d, t⟩ := x
      cases d <;> rfl
    simp only [PGroup.toGroup, this, List.map_cons, Piece.deeper, piecesText, Piece.text, hds']

/-! ### Two files -/

/-- tokens at two places, without their numbers -/
def placeTok (e : Nat) (t : Token) : Token := moveTok e (bareTok t)

theorem keep_place (e : Nat) : KeepLay e (placeTok e) where
  kind _ := rfl
  start _ := rfl
  stop _ := rfl
  late t ht := keep_bare.late t ht

theorem place_alike {i1 i2 e1 e2 : Nat} {l l' : List Token} (h : Alikes i1 i2 e1 e2 l l') : (∀ x ∈ l, x.kind ≠ .Within) →
    l.map (placeTok e2) = l'.map (placeTok e1) := by
  induction h with
  | nil => exact fun _ => rfl
  | cons ht _ ih =>
    intro hw
    have h1 := hw _ (List.mem_cons_self ..)
    rw [List.map_cons, List.map_cons, ih fun x hx => hw x (List.mem_cons_of_mem _ hx)]
    congr 1
    simp only [placeTok, moveTok, bareTok, ht.kind, ht.text, if_neg h1, ht.start, ht.stop]

theorem same_parts (eol name1 src1 out1 w1 name2 src2 out2 w2 : Text) (p1 p2 : Parsed) (A1 A2 X B1 B2 : List (Text × Chunk))
    (tree1 tree2 : Tree) (j : Tok) (t : Text) (k : SK) (cs1 cs2 : List Tree) (n1 n2 : Nat) (b1 b2 : Bool)
    (hf1 : Formatted eol name1 src1 p1 out1) (hf2 : Formatted eol name2 src2 p2 out2)
    (hd1 : Divided src1 (A1 ++ (w1, .token j t) :: X ++ B1)) (hd2 : Divided src2 (A2 ++ (w2, .token j t) :: X ++ B2))
    (hj : j ≠ .LineComment ∧ j ≠ .BlockComment) (ht1 : buildTree p1.tokens p1.events = .ok tree1)
    (ht2 : buildTree p2.tokens p2.events = .ok tree2) (hk : selfContained k = true)
    (hl1 : Level tree1 (.node k cs1) n1 b1) (hl2 : Level tree2 (.node k cs2) n2 b2)
    (hx1 : leavesF cs1 = codeOf (spread A1 []) A1.length ((w1, .token j t) :: X))
    (hx2 : leavesF cs2 = codeOf (spread A2 []) A2.length ((w2, .token j t) :: X)) :
    ∃ ga1 g1 gx1 gb1 ga2 g2 gx2 gb2 ps, out1 = groupsText (ga1 ++ g1 :: gx1 ++ gb1) ++ eol ∧
      out2 = groupsText (ga2 ++ g2 :: gx2 ++ gb2) ++ eol ∧
      groupsOf eol p2.comments tree2.wholeLayout = ga2 ++ g2 :: gx2 ++ gb2 ∧
      ga1.map (·.tok) = codeOf [] 0 A1 ∧ (g1 :: gx1).map (·.tok) = leavesF cs1 ∧
      gb1.map (·.tok) = codeOf (spread (A1 ++ (w1, .token j t) :: X) []) (A1 ++ (w1, .token j t) :: X).length B1 ∧
      ga2.map (·.tok) = codeOf [] 0 A2 ∧ (g2 :: gx2).map (·.tok) = leavesF cs2 ∧
      gb2.map (·.tok) = codeOf (spread (A2 ++ (w2, .token j t) :: X) []) (A2 ++ (w2, .token j t) :: X).length B2 ∧
      g1.tok.text ++ groupsText gx1 = textAt eol n1 ps ∧ g2.tok.text ++ groupsText gx2 = textAt eol n2 ps := by
  obtain ⟨t1, _, _, _, rfl, _, _, _, c1, f1, o1, out1, ga1, g1, gx1, gb1, x1, y1, y2, y3, y4⟩ :=
    part_printed hf1 hd1 hj ht1 hk hl1 hx1
  obtain ⟨t2, _, _, _, rfl, _, _, _, c2, f2, o2, out2, ga2, g2, gx2, gb2, x2, z1, z2, z3, z4⟩ :=
    part_printed hf2 hd2 hj ht2 hk hl2 hx2
  refine ⟨ga1, g1, gx1, gb1, ga2, g2, gx2, gb2, _, by rw [out1, x1], by rw [out2, x2], x2, y1, y2, y3, z1, z2, z3, y4, ?_⟩
  rw [z4, text_bare, text_bare eol n2 (partPieces _ _ _)]
  congr 1
  -- the places
  have hne : k ≠ .StoredDefinition := by rintro rfl; cases hk
  have hno : k ≠ .OutputExpressionList := by rintro rfl; cases hk
  have al := lexemes_alike ((([] : Text), .token j t) :: X) (spread A1 [] ++ w1) (spread A2 [] ++ w2) A1.length A2.length
  have er : ∀ (pre w : Text) (i : Nat), lexemes (pre ++ w) i (([], .token j t) :: X) = lexemes pre i ((w, .token j t) :: X) := by
    intro pre w i
    rw [← lexemes_white, List.append_nil]
  rw [er, er] at al
  have alc := al.code
  have hn1 := no_within _ c1 (by simp [Tree.sym]) (by simp [Tree.sym, hne])
  have hsame : (Tree.node k cs1).map (placeTok (newlines (spread A2 [] ++ w2))) =
      (Tree.node k cs2).map (placeTok (newlines (spread A1 [] ++ w1))) := by
    have hp := place_alike (by rw [← codeOf, ← codeOf] at alc; exact alc.1) (by rw [← hx1]; exact hn1)
    rw [← hx1, ← hx2] at hp
    have e0 : ∀ (cs : List Tree), (Tree.node k cs).hasEmpty = false → hasEmptyF cs = false := by
      intro cs h
      simp only [Tree.hasEmpty, Bool.or_eq_false_iff] at h
      exact h.2
    have r1 : Reading k (leavesF cs1) cs1 := ⟨c1, e0 _ f1, rfl⟩
    have r2 : Reading k (leavesF cs2) cs2 := ⟨c2, e0 _ f2, rfl⟩
    have r1' := reading_map (f := placeTok (newlines (spread A2 [] ++ w2))) (fun _ => rfl) r1
    have r2' := reading_map (f := placeTok (newlines (spread A1 [] ++ w1))) (fun _ => rfl) r2
    rw [hp] at r1'
    have := C52_unambiguous k _ _ _ hno r1' (map_opens (f := placeTok _) (fun _ => rfl) (.node k cs1) o1) r2'
      (map_opens (f := placeTok _) (fun _ => rfl) (.node k cs2) o2)
    simp only [Tree.map, this]
  have hlay : ((Tree.node k cs1).layout 0 false false .none).map (·.1) = ((Tree.node k cs2).layout 0 false false .none).map (·.1) := by
    rw [← onSnd_fst (placeTok (newlines (spread A2 [] ++ w2))), ← layout_map (keep_place _), hsame, layout_map (keep_place _), onSnd_fst]
  have hdecs : AlikeDecs A1.length A2.length (newlines (spread A1 [] ++ w1)) (newlines (spread A2 [] ++ w2))
      ((Tree.node k cs1).layout 0 false false .none) ((Tree.node k cs2).layout 0 false false .none) := by
    refine alike_decs hlay ?_
    rw [layout_toks, layout_toks, Tree.leaves, Tree.leaves, hx1, hx2]
    exact alc.1
  have hcm := alc.2
  have isc : ∀ (a b c : _), isComment ⟨a, t, j, b, c⟩ = false := by
    intro a b c
    have := hj.1; have := hj.2
    cases j <;> first | rfl | contradiction
  simp only [lexemes, List.filter_cons, isc, Bool.false_eq_true, if_false] at hcm
  have hfirst : Alike A1.length A2.length (newlines (spread A1 [] ++ w1)) (newlines (spread A2 [] ++ w2))
      ⟨A1.length, t, j, position (spread A1 [] ++ w1), position (spread A1 [] ++ w1 ++ t)⟩
      ⟨A2.length, t, j, position (spread A2 [] ++ w2), position (spread A2 [] ++ w2 ++ t)⟩ := by
    refine ⟨by simp only; omega, rfl, rfl, ?_, ?_⟩ <;> simp only [position, newlines_append] <;> omega
  have htail : ∀ {a b : List (Dec × Token)} {i1 i2 e1 e2 : Nat}, AlikeDecs i1 i2 e1 e2 a b → AlikeDecs i1 i2 e1 e2 a.tail b.tail := by
    intro a b i1 i2 e1 e2 h
    cases h with
    | nil => exact .nil
    | cons _ h => exact h
  simp only [partPieces, List.map_cons]
  congr 1
  exact AlikeLS.pieces (htail hdecs) ⟨rfl, hcm, hfirst.stop⟩

/-- **C79** The same part of two files (the pieces `X` after a first token), such as a class, an element, an equation, a
declaration or a modification, is formatted in the same way: from its first token to its last, the outputs differ only in the
indentation of the lines. -/
theorem C79_same (eol name1 src1 out1 w1 name2 src2 out2 w2 : Text) (p1 p2 : Parsed) (A1 A2 X B1 B2 : List (Text × Chunk))
    (tree1 tree2 : Tree) (j : Tok) (t : Text) (k : SK) (cs1 cs2 : List Tree) (n1 n2 : Nat) (b1 b2 : Bool)
    (hf1 : Formatted eol name1 src1 p1 out1) (hf2 : Formatted eol name2 src2 p2 out2)
    (hd1 : Divided src1 (A1 ++ (w1, .token j t) :: X ++ B1)) (hd2 : Divided src2 (A2 ++ (w2, .token j t) :: X ++ B2))
    (hj : j ≠ .LineComment ∧ j ≠ .BlockComment) (ht1 : buildTree p1.tokens p1.events = .ok tree1)
    (ht2 : buildTree p2.tokens p2.events = .ok tree2) (hk : selfContained k = true)
    (hl1 : Level tree1 (.node k cs1) n1 b1) (hl2 : Level tree2 (.node k cs2) n2 b2)
    (hx1 : leavesF cs1 = codeOf (spread A1 []) A1.length ((w1, .token j t) :: X))
    (hx2 : leavesF cs2 = codeOf (spread A2 []) A2.length ((w2, .token j t) :: X)) :
    ∃ ga1 g1 gx1 gb1 ga2 g2 gx2 gb2 ps, out1 = groupsText (ga1 ++ g1 :: gx1 ++ gb1) ++ eol ∧
      out2 = groupsText (ga2 ++ g2 :: gx2 ++ gb2) ++ eol ∧
      ga1.map (·.tok) = codeOf [] 0 A1 ∧ (g1 :: gx1).map (·.tok) = leavesF cs1 ∧
      gb1.map (·.tok) = codeOf (spread (A1 ++ (w1, .token j t) :: X) []) (A1 ++ (w1, .token j t) :: X).length B1 ∧
      ga2.map (·.tok) = codeOf [] 0 A2 ∧ (g2 :: gx2).map (·.tok) = leavesF cs2 ∧
      gb2.map (·.tok) = codeOf (spread (A2 ++ (w2, .token j t) :: X) []) (A2 ++ (w2, .token j t) :: X).length B2 ∧
      g1.tok.text ++ groupsText gx1 = textAt eol n1 ps ∧ g2.tok.text ++ groupsText gx2 = textAt eol n2 ps := by
  obtain ⟨ga1, g1, gx1, gb1, ga2, g2, gx2, gb2, ps, h1, h2, _, h3⟩ := same_parts eol name1 src1 out1 w1 name2 src2 out2 w2 p1 p2 A1 A2 X B1 B2
    tree1 tree2 j t k cs1 cs2 n1 n2 b1 b2 hf1 hf2 hd1 hd2 hj ht1 ht2 hk hl1 hl2 hx1 hx2
  exact ⟨ga1, g1, gx1, gb1, ga2, g2, gx2, gb2, ps, h1, h2, h3⟩

/-! ### A class in a file of its own -/

/-- **C79** A class in a file, such as a class of a package, is formatted as in a file of its own, up to indentation: the text of the
class (the pieces `X` after a first token), followed by `;`, is an accepted file, and its output is, up to the indentation of
the lines, what is printed for the class in the larger file, followed by `;` and a line end. -/
theorem C79_class (eol name src out w name' src' w' v : Text) (p : Parsed) (A X B : List (Text × Chunk)) (tree : Tree) (j : Tok)
    (t : Text) (cs : List Tree) (n : Nat) (b : Bool) (hf : Formatted eol name src p out)
    (hd : Divided src (A ++ (w, .token j t) :: X ++ B)) (hj : j ≠ .LineComment ∧ j ≠ .BlockComment)
    (ht : buildTree p.tokens p.events = .ok tree) (hl : Level tree (.node .ClassDefinition cs) n b)
    (hx : leavesF cs = codeOf (spread A []) A.length ((w, .token j t) :: X))
    (hd' : Divided src' ((w', .token j t) :: X ++ [(v, .token .Semicolon c!";")])) :
    ∃ p' ga g gx gb ps, Formatted eol name' src' p' (textAt eol 0 ps ++ c!";" ++ eol) ∧
      out = groupsText (ga ++ g :: gx ++ gb) ++ eol ∧ ga.map (·.tok) = codeOf [] 0 A ∧ (g :: gx).map (·.tok) = leavesF cs ∧
      gb.map (·.tok) = codeOf (spread (A ++ (w, .token j t) :: X) []) (A ++ (w, .token j t) :: X).length B ∧
      g.tok.text ++ groupsText gx = textAt eol n ps := by
  obtain ⟨tokX, awX, _⟩ := formatted_facts hf hd
  obtain ⟨t1, _, _, _, rfl, _, _, _, c1, f1, o1, _⟩ := part_printed hf hd hj ht rfl hl hx
  -- the new file
  have tokS : ∀ x ∈ (w, .token j t) :: X, ∃ k t, x.2 = .token k t := fun x hx =>
    tokX x (List.mem_append_left _ (List.mem_append_right _ hx))
  have tokX' : ∀ x ∈ X, ∃ k t, x.2 = .token k t := fun x hx => tokS x (List.mem_cons_of_mem _ hx)
  have tokX2 : ∀ x ∈ (w', .token j t) :: X, ∃ k t, x.2 = .token k t := by
    intro x hx
    rcases List.mem_cons.1 hx with rfl | hx
    · exact ⟨j, t, rfl⟩
    · exact tokX' x hx
  have tok' : ∀ x ∈ (w', .token j t) :: X ++ [(v, .token .Semicolon c!";")], ∃ k t, x.2 = .token k t := by
    intro x hx
    rcases List.mem_append.1 hx with hx | hx
    · exact tokX2 x hx
    · rw [List.mem_singleton] at hx
      exact ⟨.Semicolon, c!";", by rw [hx]⟩
  have aw' : awkward false ((w', .token j t) :: X ++ [(v, .token .Semicolon c!";")]) = false := by
    have tokA : ∀ x ∈ A, ∃ k t, x.2 = .token k t := fun x hx => tokX x (by simp [hx])
    have tokAS : ∀ x ∈ A ++ (w, .token j t) :: X, ∃ k t, x.2 = .token k t := fun x hx => tokX x (List.mem_append_left _ hx)
    rw [awkward_append _ _ tokAS, awkward_append _ _ tokA] at awX
    simp only [Bool.or_eq_false_iff] at awX
    have h1 := awX.1.2
    rw [awkward_append _ _ tokX2]
    simp only [awkward, Bool.false_and, Bool.false_or] at h1 ⊢
    rw [h1]
    decide
  have hlex := C53_lexed name' src' _ hd'
  rw [aw', tokens_problems name' _ [] tok'] at hlex
  simp only [Bool.false_eq_true, if_false] at hlex
  have hlx : lexemes [] 0 ((w', .token j t) :: X ++ [(v, .token .Semicolon c!";")]) = lexemes [] 0 ((w', .token j t) :: X) ++
      lexemes (spread ((w', .token j t) :: X) []) ((w', .token j t) :: X).length [(v, .token .Semicolon c!";")] := by
    rw [lexemes_append _ _ _ _ tokX2, List.nil_append, Nat.zero_add]
  generalize hsemi : Token.mk ((w', Chunk.token j t) :: X).length c!";" .Semicolon (position (spread ((w', .token j t) :: X) [] ++ v))
    (position (spread ((w', .token j t) :: X) [] ++ v ++ c!";")) = u at hlx
  have hlu : lexemes (spread ((w', .token j t) :: X) []) ((w', .token j t) :: X).length [(v, .token .Semicolon c!";")] = [u] := by
    rw [← hsemi]; rfl
  have hcu : isComment u = false := by rw [← hsemi]; rfl
  have hku : u.kind = .Semicolon := by rw [← hsemi]
  have htu : u.text = c!";" := by rw [← hsemi]
  rw [hlu] at hlx
  have htk : (lexemes [] 0 ((w', .token j t) :: X ++ [(v, .token .Semicolon c!";")])).filter (fun t => !isComment t) =
      codeOf [] 0 ((w', .token j t) :: X) ++ [u] := by
    rw [hlx, List.filter_append, codeOf]
    simp [hcu]
  rw [htk] at hlex
  -- its tree
  have hn1 := no_within _ c1 (by simp [Tree.sym]) (by simp [Tree.sym])
  have al := lexemes_alike ((([] : Text), .token j t) :: X) (spread A [] ++ w) ([] ++ w') A.length 0
  have er : ∀ (pre w : Text) (i : Nat), lexemes (pre ++ w) i (([], .token j t) :: X) = lexemes pre i ((w, .token j t) :: X) := by
    intro pre w i
    rw [← lexemes_white, List.append_nil]
  rw [er, er] at al
  have hp := place_alike (by have := al.code.1; rw [← codeOf, ← codeOf] at this; exact this) (by rw [← hx]; exact hn1)
  rw [← hx] at hp
  let f : Token → Token := unmoveTok (newlines (spread A [] ++ w)) ∘ placeTok (newlines ([] ++ w'))
  have hfl : (leavesF cs).map f = (codeOf [] 0 ((w', .token j t) :: X)).map bareTok := by
    rw [← List.map_map, hp, List.map_map]
    refine List.map_congr_left fun x _ => ?_
    exact unmove_move _ _
  have kf : ∀ t, (f t).kind = t.kind := fun _ => rfl
  have hconf : (Tree.node .StoredDefinition [(Tree.node .ClassDefinition cs).map f, .tok (bareTok u)]).Conforms := by
    refine ⟨?_, map_conforms kf _ c1, trivial, trivial⟩
    have : [(Tree.node .ClassDefinition cs).map f, .tok (bareTok u)].map Tree.sym = [.n .ClassDefinition, .t .Semicolon] := by
      simp only [List.map_cons, List.map_nil, Tree.map, Tree.sym, bareTok, hku]
    rw [this]
    exact (der_iff _ _ _).1 ((der_iff _ _ _).1 ((nullable_iff _).1 (by decide +kernel)))
  have hread : Reading .StoredDefinition ((codeOf [] 0 ((w', .token j t) :: X) ++ [u]).map bareTok)
      [(Tree.node .ClassDefinition cs).map f, .tok (bareTok u)] := by
    refine ⟨hconf, ?_, ?_⟩
    · rw [hasEmptyF, map_hasEmpty, f1]
      rfl
    · simp only [leavesF, map_leaves, Tree.leaves, hfl, List.map_append, List.map_cons, List.map_nil, List.append_nil]
  have hopen : (Tree.node .StoredDefinition [(Tree.node .ClassDefinition cs).map f, .tok (bareTok u)]).Opens := by
    refine ⟨fun c hc => ?_, map_opens kf _ o1, trivial, trivial⟩
    simp only [List.mem_cons, List.not_mem_nil, or_false] at hc
    rcases hc with rfl | rfl
    · simp only [Tree.map, Tree.startsOk]
      split
      · rfl
      · rfl
    · rfl
  obtain ⟨p', out', ds, hf', pt, pc, bt', hds⟩ := accept_bare eol hlex rfl hread hopen
  obtain ⟨_, _, tk', _, cs0, _, _, rd', _, bt2, _⟩ := formatted_facts hf' hd'
  rw [bt'] at bt2
  simp only [Res.ok.injEq, Tree.node.injEq, true_and] at bt2
  subst bt2
  match ds, hds with
  | [], hds => cases hds
  | [_], hds => simp [mapTrees] at hds
  | _ :: _ :: _ :: _, hds => simp [mapTrees] at hds
  | [.tok _, _], hds => simp [mapTrees, Tree.map] at hds
  | [_, .node _ _], hds => simp [mapTrees, Tree.map] at hds
  | [.node k cs2, .tok u'], hds =>
    simp only [mapTrees, Tree.map, List.cons.injEq, Tree.node.injEq, Tree.tok.injEq, and_true] at hds
    obtain ⟨⟨rfl, hcs⟩, _⟩ := hds
    have hlv := rd'.leaves
    rw [tk', htk] at hlv
    simp only [leavesF, Tree.leaves, List.append_nil] at hlv
    obtain ⟨hlv2, hu⟩ := List.append_inj' hlv rfl
    simp only [List.cons.injEq, and_true] at hu
    subst hu
    have hlevel : levelIn .StoredDefinition 0 false [] (.node .ClassDefinition cs2) [.tok u'] = 0 := by
      simp [levelIn, extra, wrappedAt, exprPart, leaksF, Tree.sym, extraIn]
    have hl2 : Level (.node .StoredDefinition [.node .ClassDefinition cs2, .tok u']) (.node .ClassDefinition cs2) 0
        (chainChild .StoredDefinition (.n .ClassDefinition) && wrappedAt .StoredDefinition false [] (.node .ClassDefinition cs2) [.tok u']) := by
      have := Level.child (k := .StoredDefinition) (pre := []) (c := .node .ClassDefinition cs2) (post := [.tok u'])
        (tree := .node .StoredDefinition [.node .ClassDefinition cs2, .tok u']) .root
      rw [hlevel] at this
      exact this
    obtain ⟨ga1, g1, gx1, gb1, ga2, g2, gx2, gb2, ps, h1, h2, h3, h4, h5, h6, h7, h8, h9, h10, h11⟩ := same_parts eol name src out w
      name' src' out' w' p p' A [] X B [(v, .token .Semicolon c!";")] tree _ j t .ClassDefinition cs cs2 n 0 b _ hf hf' hd hd' hj ht
      bt' rfl hl hl2 hx hlv2
    refine ⟨p', ga1, g1, gx1, gb1, ps, ?_, h1, h4, h5, h6, h10⟩
    have e : out' = textAt eol 0 ps ++ c!";" ++ eol := by
      have hc2 : (Tree.node .ClassDefinition cs2).Conforms := rd'.conforms.2.1
      have he2 : (Tree.node .ClassDefinition cs2).hasEmpty = false := by
        have := rd'.full
        simp only [hasEmptyF, Bool.or_eq_false_iff] at this
        exact this.1
      obtain ⟨x, _, _, hx0⟩ := start_leaves _ he2
      obtain ⟨_, _, dz, hdz⟩ := layout_head (.node .ClassDefinition cs2) hc2 he2 rfl 0 false false .none x hx0
      have hwl : (Tree.node .StoredDefinition [.node .ClassDefinition cs2, .tok u']).wholeLayout =
          (.none, x) :: dz ++ [(.none, u')] := by
        rw [← hdz]
        simp only [Tree.wholeLayout]
        rw [Tree.layout, layoutF, layoutF, layoutF]
        have g1 : gapAt .StoredDefinition false [] (.node .ClassDefinition cs2) [.tok u'] = .none := by
          simp [gapAt, gapIn, breakBefore, spaceIn, Tree.sym]
        have g2 : gapAt .StoredDefinition false ([] ++ [.node .ClassDefinition cs2]) (.tok u') [] = .none := by
          simp [gapAt, gapIn, breakBefore, spaceIn, Tree.sym, hku]
        rw [g1, g2, hlevel]
        rfl
      have hga : ga2 = [] := by simpa [codeOf, lexemes] using h7
      subst hga
      have hlen : gb2.length = 1 := by
        have := congrArg List.length h9
        have hf1 : codeOf (spread ([] ++ (w', Chunk.token j t) :: X) []) ([] ++ (w', Chunk.token j t) :: X).length [(v, Chunk.token .Semicolon c!";")] =
            [u'] := by
          rw [List.nil_append, codeOf, hlu]
          simp [hcu]
        rw [hf1] at this
        simpa using this
      rw [hwl, groupsOf, LS.groups_append, List.map_append, List.nil_append] at h3
      have h3' := List.append_inj' h3 (by rw [hlen]; rfl)
      obtain ⟨a1, a2⟩ := h3'
      rw [h2, ← h11, ← a2]
      simp only [LS.groups, List.map_cons, List.cons.injEq] at a1
      rw [← a1.1]
      have app : ∀ a b : List Group, groupsText (a ++ b) = groupsText a ++ groupsText b := by
        intro a b
        simp only [groupsText, groupLexemes, lexemesText, List.flatMap_append]
      have one : ∀ (g : Group) (b : List Group), g.comments = [] → g.white = [] → groupsText (g :: b) = g.tok.text ++ groupsText b := by
        intro g b h1 h2
        simp [groupsText, groupLexemes, lexemesText, Group.lexemes, h1, h2]
      rw [List.nil_append, app, one _ _ rfl rfl]
      simp only [LS.groups, List.map_cons, List.map_nil]
      rw [one _ _ rfl rfl]
      simp [PGroup.toGroup, LS.group, htu, groupsText, groupLexemes, lexemesText]
    rw [← e]
    exact hf'

/-! ### Example -/

def exPackA : List (Text × Chunk) :=
  [([], .token .Package c!"package"), (c!" ", .token .Identifier c!"P"), (c!"\n", .token .LineComment c!"// about A")]
def exPackX : List (Text × Chunk) :=
  [(c!" ", .token .Identifier c!"A"), (c!" ", .token .LineComment c!"// a"), (c!"\n", .token .Identifier c!"Real"),
   (c!" ", .token .Identifier c!"x"), ([], .token .Equal c!"="), ([], .token .Identifier c!"f"), ([], .token .LParen c!"("),
   (c!"\n", .token .UInt c!"1"), ([], .token .RParen c!")"), ([], .token .Semicolon c!";"), (c!"\n", .token .End c!"end"),
   (c!" ", .token .Identifier c!"A")]
def exPackB : List (Text × Chunk) :=
  [([], .token .Semicolon c!";"), (c!"\n", .token .End c!"end"), (c!" ", .token .Identifier c!"P"), ([], .token .Semicolon c!";")]

def exPack : Text := spread (exPackA ++ (c!"\n", .token .Model c!"model") :: exPackX ++ exPackB) []
def exUnpacked : Text := spread ((([] : Text), .token .Model c!"model") :: exPackX ++ [([], .token .Semicolon c!";")]) []
def exPackOut : Text := c!"package P\n\n  // about A\n  model A // a\n\n    Real x = f(\n      1);\n\n  end A;\n\nend P;\n"
def exUnpackedOut : Text := c!"model A // a\n\n  Real x = f(\n    1);\n\nend A;\n"
/-- the tokens of the class in the tree -/
def exPackPath : List Nat := [0, 1, 0, 1, 0, 0, 0]

set_option maxRecDepth 100000 in
set_option maxHeartbeats 2000000 in
/-- The hypotheses of `C79_class` hold of a model in a package; the outputs of the package and of the model alone. -/
theorem C79_case : Formatted c!"\n" c!"f" exPack (exEditP exPack) exPackOut ∧
    Divided exPack (exPackA ++ (c!"\n", .token .Model c!"model") :: exPackX ++ exPackB) ∧
    buildTree (exEditP exPack).tokens (exEditP exPack).events = .ok (exEditTree exPack) ∧
    (∃ cs, Level (exEditTree exPack) (.node .ClassDefinition cs) 1 false ∧
      leavesF cs = codeOf (spread exPackA []) exPackA.length ((c!"\n", .token .Model c!"model") :: exPackX)) ∧
    Divided exUnpacked ((([] : Text), .token .Model c!"model") :: exPackX ++ [([], .token .Semicolon c!";")]) ∧
    Formatted c!"\n" c!"f" exUnpacked (exEditP exUnpacked) exUnpackedOut := by
  refine ⟨⟨by decide_cbv, by decide_cbv, exPackOut.dropLast, by decide_cbv, by decide⟩, dividedB_sound (by decide +kernel),
    resTree_ok (by decide_cbv), ?_, dividedB_sound (by decide +kernel),
    ⟨by decide_cbv, by decide_cbv, exUnpackedOut.dropLast, by decide_cbv, by decide⟩⟩
  obtain ⟨cs, h0, hl⟩ := levelAt_some (tree := exEditTree exPack) (path := exPackPath) (k := .ClassDefinition) (n := 1) (w := false)
    (by decide_cbv)
  have h1 : (levelAt exPackPath (exEditTree exPack) 0 false).map (fun z => z.1.leaves) =
      some (codeOf (spread exPackA []) exPackA.length ((c!"\n", .token .Model c!"model") :: exPackX)) := by decide +kernel
  rw [h0] at h1
  exact ⟨cs, hl, Option.some.inj h1⟩

end Mofmt
