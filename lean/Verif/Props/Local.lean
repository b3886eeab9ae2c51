import Verif.Props.Bare
import Verif.Props.Join
import Verif.Props.OneLine
import Verif.Props.Accept
import Verif.Proofs.AroundLayout
import Verif.Proofs.AroundText
/-
C72: an edit in one place of a file does not change the output in other places.
-/
namespace Mofmt
open Lexical

/-! ### Specification -/

/-- the tokens of some pieces, without the comments, after the text `pre` with `i` pieces -/
def codeOf (pre : Text) (i : Nat) (ps : List (Text × Chunk)) : List Token :=
  (lexemes pre i ps).filter fun t => !isComment t

/-! ### Proof -/

/-- a token on other lines -/
def moveTok (d : Nat) (t : Token) : Token :=
  ⟨t.idx, t.text, t.kind, ⟨t.start.pos, t.start.line + d, t.start.col⟩, ⟨t.stop.pos, t.stop.line + d, t.stop.col⟩⟩

def unmoveTok (d : Nat) (t : Token) : Token :=
  ⟨t.idx, t.text, t.kind, ⟨t.start.pos, t.start.line - d, t.start.col⟩, ⟨t.stop.pos, t.stop.line - d, t.stop.col⟩⟩

theorem keep_move (d : Nat) : KeepLay d (moveTok d) where
  kind _ := rfl
  start _ := rfl
  stop _ := rfl
  late _ _ := Iff.rfl

theorem unmove_move (d : Nat) (t : Token) : unmoveTok d (moveTok d t) = t := by
  simp [unmoveTok, moveTok]

theorem lexemes_bare (d : Nat) : ∀ (ps : List (Text × Chunk)) (pre q : Text) (i j : Nat), 1 ≤ i → 1 ≤ j →
    newlines pre = newlines q + d → (lexemes pre i ps).map bareTok = ((lexemes q j ps).map bareTok).map (moveTok d)
  | [], _, _, _, _, _, _, _ => rfl
  | (w, c) :: ps, pre, q, i, j, hi, hj, h => by
    have hn : ∀ t : Text, newlines (pre ++ w ++ t) = newlines (q ++ w ++ t) + d := by
      intro t
      simp only [newlines_append]
      omega
    cases c with
    | token k t =>
      have ih := lexemes_bare d ps (pre ++ w ++ t) (q ++ w ++ t) (i + 1) (j + 1) (by omega) (by omega) (hn t)
      have h0 := hn []
      have h1 := hn t
      simp only [List.append_nil] at h0
      have e1 : min 1 i = 1 := by omega
      have e2 : min 1 j = 1 := by omega
      have a1 : 1 + newlines (pre ++ w) = 1 + newlines (q ++ w) + d := by omega
      have a2 : 1 + newlines (pre ++ w ++ t) = 1 + newlines (q ++ w ++ t) + d := by omega
      simp only [lexemes, List.map_cons]
      rw [ih]
      congr 1
      simp only [bareTok, moveTok, position, e1, e2, a1, a2]
    | _ => exact lexemes_bare d ps _ _ i j hi hj (hn _)

theorem code_bare (ps : List (Text × Chunk)) (pre : Text) (i : Nat) (hi : 1 ≤ i) :
    (codeOf pre i ps).map bareTok = ((codeOf [] 1 ps).map bareTok).map (moveTok (newlines pre)) := by
  have h := lexemes_bare (newlines pre) ps pre [] i 1 hi (by omega) (by simp [newlines])
  rw [codeOf, codeOf, (map_filter_comment (f := bareTok) (fun _ => rfl) _).2, h,
    ← (map_filter_comment (f := moveTok (newlines pre)) (fun _ => rfl) _).2,
    ← (map_filter_comment (f := bareTok) (fun _ => rfl) _).2]

theorem app_unique {α : Type} : ∀ {a a' r r' : List α} {x : α}, (a ++ x :: r).Nodup → a ++ x :: r = a' ++ x :: r' → a = a' ∧ r = r'
  | [], [], _, _, _, _, h => ⟨rfl, (List.cons.inj h).2⟩
  | [], y :: a', r, r', x, hn, h => by
    simp only [List.nil_append, List.cons_append, List.cons.injEq] at h
    obtain ⟨rfl, rfl⟩ := h
    simp at hn
  | y :: a, [], r, r', x, hn, h => by
    simp only [List.nil_append, List.cons_append, List.cons.injEq] at h
    obtain ⟨rfl, rfl⟩ := h
    simp at hn
  | y :: a, z :: a', r, r', x, hn, h => by
    simp only [List.cons_append, List.cons.injEq] at h
    simp only [List.cons_append, List.nodup_cons] at hn
    obtain ⟨e1, e2⟩ := app_unique hn.2 h.2
    exact ⟨by rw [h.1, e1], e2⟩

theorem pairs_eq {α β : Type} : ∀ {a b : List (α × β)}, a.map (·.1) = b.map (·.1) → a.map (·.2) = b.map (·.2) → a = b
  | [], [], _, _ => rfl
  | [], _ :: _, h, _ => by cases h
  | _ :: _, [], h, _ => by cases h
  | x :: a, y :: b, h1, h2 => by
    simp only [List.map_cons, List.cons.injEq] at h1 h2
    rw [pairs_eq h1.2 h2.2, Prod.ext h1.1 h2.1]

theorem alike_decs {i1 i2 e1 e2 : Nat} : ∀ {a b : List (Dec × Token)}, a.map (·.1) = b.map (·.1) →
    Alikes i1 i2 e1 e2 (a.map (·.2)) (b.map (·.2)) → AlikeDecs i1 i2 e1 e2 a b
  | [], [], _, _ => .nil
  | [], _ :: _, h, _ => by cases h
  | _ :: _, [], h, _ => by cases h
  | (d, t) :: a, (d', t') :: b, h1, h2 => by
    simp only [List.map_cons, List.cons.injEq] at h1 h2
    obtain ⟨rfl, h1⟩ := h1
    cases h2 with
    | cons h3 h4 => exact .cons h3 (alike_decs h1 h4)

theorem onSnd_fst (f : Token → Token) (l : List (Dec × Token)) : (l.map (onSnd f)).map (·.1) = l.map (·.1) := by
  simp [onSnd, Function.comp_def]

theorem Alikes.code {i1 i2 e1 e2 : Nat} {l l' : List Token} (h : Alikes i1 i2 e1 e2 l l') :
    Alikes i1 i2 e1 e2 (l.filter fun t => !isComment t) (l'.filter fun t => !isComment t) ∧
    Alikes i1 i2 e1 e2 (l.filter isComment) (l'.filter isComment) := by
  have : ∀ t t', Alike i1 i2 e1 e2 t t' → isComment t' = isComment t := fun t t' h => by simp only [isComment, h.kind]
  exact ⟨h.filter fun t t' h => by rw [this t t' h], h.filter this⟩

/-- the groups of the parts of a file: those of the first part do not depend on the comments behind, those of the
last part not on the comments before, if it starts on the same line -/
theorem parts_groups (eol : Text) {A X Y : Nat} {CA CX CY CB CB' : List Token} {a x y b b' : List (Dec × Token)} {t t' : Token}
    {e1 e2 : Nat}
    (ha : ∀ z ∈ a, z.2.idx < A) (hx : ∀ z ∈ x, z.2.idx < A + X) (hy : ∀ z ∈ y, z.2.idx < A + Y)
    (cA : ∀ c ∈ CA, c.idx < A) (cX : ∀ c ∈ CX, A ≤ c.idx ∧ c.idx < A + X) (cY : ∀ c ∈ CY, A ≤ c.idx ∧ c.idx < A + Y)
    (cB : ∀ c ∈ CB, A + X ≤ c.idx) (cB' : ∀ c ∈ CB', A + Y ≤ c.idx)
    (ht : A + X ≤ t.idx) (ht' : A + Y ≤ t'.idx)
    (hb : AlikeDecs (A + X) (A + Y) e1 e2 ((.none, t) :: b) ((.none, t') :: b'))
    (hc : Alikes (A + X) (A + Y) e1 e2 CB CB') :
    ∃ ga gx gy gb gb', groupsOf eol (CA ++ (CX ++ CB)) (a ++ x ++ (.none, t) :: b) = ga ++ gx ++ gb ∧
      groupsOf eol (CA ++ (CY ++ CB')) (a ++ y ++ (.none, t') :: b') = ga ++ gy ++ gb' ∧
      ga.map (·.tok) = a.map (·.2) ∧ gx.map (·.tok) = x.map (·.2) ∧ gy.map (·.tok) = y.map (·.2) ∧
      gb.map (·.tok) = t :: b.map (·.2) ∧ gb'.map (·.tok) = t' :: b'.map (·.2) ∧
      gb'.map Group.shown = gb.map Group.shown := by
  have tok : ∀ (L : LS) (ds : List (Dec × Token)), ((L.groups ds).map (PGroup.toGroup eol)).map (·.tok) = ds.map (·.2) := by
    intro L ds
    rw [List.map_map]
    exact LS.groups_tok ds L
  have first : ∀ (R : List Token), (∀ c ∈ R, A ≤ c.idx) →
      (LS.init (CA ++ R)).groups a = (LS.init CA).groups a := by
    intro R hR
    refine groups_behind a (LS.init CA) R fun z hz c hc => ?_
    have := ha z hz
    have := hR c hc
    omega
  have last : ∀ (ds : List (Dec × Token)) (P R : List Token) (u : Token) (N : Nat), (∀ z ∈ ds, z.2.idx < N) →
      (∀ c ∈ P, c.idx < N) → (∀ c ∈ R, N ≤ c.idx) → N ≤ u.idx →
      (((LS.init (P ++ R)).run ds).step (.none, u)).comments = R.dropWhile (·.idx < u.idx) := by
    intro ds P R u N h1 h2 h3 h4
    obtain ⟨P', p1, p2⟩ := run_behind R ds P fun z hz c hc => by
      have := h1 z hz
      have := h3 c hc
      omega
    rw [LS.step_left, run_comments]
    show (ds.foldl _ (P ++ R)).dropWhile _ = _
    rw [p2]
    refine dropWhile_before fun c hc => ?_
    have := h2 c (p1 c hc)
    show c.idx < u.idx
    omega
  refine ⟨((LS.init CA).groups a).map (PGroup.toGroup eol),
    (((LS.init (CA ++ (CX ++ CB))).run a).groups x).map (PGroup.toGroup eol),
    (((LS.init (CA ++ (CY ++ CB'))).run a).groups y).map (PGroup.toGroup eol),
    (((LS.init (CA ++ (CX ++ CB))).run (a ++ x)).groups ((.none, t) :: b)).map (PGroup.toGroup eol),
    (((LS.init (CA ++ (CY ++ CB'))).run (a ++ y)).groups ((.none, t') :: b')).map (PGroup.toGroup eol),
    ?_, ?_, tok _ _, tok _ _, tok _ _, tok _ _, tok _ _, ?_⟩
  · rw [groupsOf, LS.groups_append, LS.groups_append, first, List.map_append, List.map_append]
    intro c hc
    rcases List.mem_append.1 hc with hc | hc
    · exact (cX c hc).1
    · have := cB c hc; omega
  · rw [groupsOf, LS.groups_append, LS.groups_append, first, List.map_append, List.map_append]
    intro c hc
    rcases List.mem_append.1 hc with hc | hc
    · exact (cY c hc).1
    · have := cB' c hc; omega
  · cases hb with
    | cons h3 h4 =>
      simp only [LS.groups, List.map_cons]
      rw [AlikeLS.groups eol h4 (L := ((LS.init (CA ++ (CX ++ CB))).run (a ++ x)).step (.none, t))]
      · congr 1
        exact shown_eq eol rfl rfl h3.text
      · refine ⟨rfl, ?_, h3.stop⟩
        rw [← List.append_assoc CA, ← List.append_assoc CA]
        rw [last (a ++ x) (CA ++ CX) CB t (A + X) ?_ ?_ cB ht, last (a ++ y) (CA ++ CY) CB' t' (A + Y) ?_ ?_ cB' ht']
        · exact hc.dropWhile h3
        · intro z hz
          rcases List.mem_append.1 hz with hz | hz
          · have := ha z hz; omega
          · exact hy z hz
        · intro z hz
          rcases List.mem_append.1 hz with hz | hz
          · have := cA z hz; omega
          · exact (cY z hz).2
        · intro z hz
          rcases List.mem_append.1 hz with hz | hz
          · have := ha z hz; omega
          · exact hx z hz
        · intro z hz
          rcases List.mem_append.1 hz with hz | hz
          · have := cA z hz; omega
          · exact (cX z hz).2

theorem code_idx {pre : Text} {i : Nat} {ps : List (Text × Chunk)} {t : Token} (h : t ∈ codeOf pre i ps) :
    i ≤ t.idx ∧ t.idx < i + ps.length := lexemes_idx _ _ _ t (List.mem_filter.1 h).1

theorem node_of {t : Tree} {k : SK} (h : t.sym = .n k) : ∃ cs, t = .node k cs := by
  cases t with
  | tok t => cases h
  | node j cs =>
    simp only [Tree.sym, Sym.n.injEq] at h
    exact ⟨cs, by rw [h]⟩

/-- a file with the tokens of a tree (without their places) is accepted, and its tree is this tree -/
theorem accept_bare (eol : Text) {name src : Text} {l : Lexed} (hl : lex name src = .ok l) (he : l.errors = [])
    {cs : List Tree} (hr : Reading .StoredDefinition (l.tokens.map bareTok) cs) (ho : (Tree.node .StoredDefinition cs).Opens) :
    ∃ p out ds, Formatted eol name src p out ∧ p.tokens = l.tokens ∧ p.comments = l.comments ∧
      buildTree p.tokens p.events = .ok (.node .StoredDefinition ds) ∧ mapTrees bareTok ds = cs := by
  obtain ⟨F, x1, x2, x3⟩ := events_accept (name := name) (by decide) hr ho
  obtain ⟨errs, y1, y2⟩ := (C24_only_kinds name name _ l.tokens .StoredDefinition (by
    rw [List.map_map]
    exact List.map_congr_left fun _ _ => rfl)).1 _ _ x1
  have y3 : errs = [] := List.length_eq_zero_iff.1 y2
  subst y3
  have hparse : parse name src .StoredDefinition = .ok ⟨l.tokens, l.comments, (Tree.node .StoredDefinition F).evs, []⟩ := by
    simp only [parse, hl, Res.bind_ok, y1, he, List.append_nil]
  obtain ⟨out, hf⟩ := C03_formatted eol name src _ hparse rfl
  obtain ⟨ds, t, _⟩ := hf.laid
  refine ⟨_, out, ds, hf, rfl, rfl, t, ?_⟩
  have e1 := buildTree_map bareTok l.tokens (Tree.node .StoredDefinition F).evs
  have e2 : buildTree l.tokens (Tree.node .StoredDefinition F).evs = .ok (.node .StoredDefinition ds) := t
  rw [e2, ← x3, buildTree_evs, x2] at e1
  have e3 := Res.ok.inj e1
  simp only [Tree.map, Tree.node.injEq, true_and] at e3
  exact e3.symm

/-- **C72** An edit in one place.  Replace an element, an equation or a statement of an accepted file (the pieces `X`) by
another element, equation or statement (the pieces `Y`) from which equally many indentations are left over.  The new file
is accepted, too, and its output differs only in that place: what is printed for the tokens before and after it, with the
white space and the comments between them, stays the same.  (`hs`: the new item does not start with `end` or `initial`.) -/
theorem C72_local_partial (eol name src out name' src' : Text) (p : Parsed) (A X Y B : List (Text × Chunk)) (l : Lexed) (tree : Tree)
    (k : SK) (cs ds : List Tree) (hf : Formatted eol name src p out) (hd : Divided src (A ++ X ++ B))
    (hd' : Divided src' (A ++ Y ++ B)) (hl : lex name' src' = .ok l) (he : l.errors = [])
    (ht : buildTree p.tokens p.events = .ok tree) (hk : k = .Element ∨ k = .Equation ∨ k = .Statement)
    (hX : Part (.node k cs) tree) (hx : leavesF cs = codeOf (spread A []) A.length X)
    (hY : Reading k (codeOf (spread A []) A.length Y) ds) (ho : (Tree.node k ds).Opens)
    (hs : ∀ t, (leavesF ds).head? = some t → t.kind ≠ .End ∧ t.kind ≠ .Initial)
    (hlk : (Tree.node k cs).leaks = (Tree.node k ds).leaks) :
    ∃ p' out' ga gx gy gb gb', Formatted eol name' src' p' out' ∧
      out = groupsText (ga ++ gx ++ gb) ++ eol ∧ out' = groupsText (ga ++ gy ++ gb') ++ eol ∧
      ga.map (·.tok) = codeOf [] 0 A ∧ gx.map (·.tok) = leavesF cs ∧ gy.map (·.tok) = leavesF ds ∧
      gb.map (·.tok) = codeOf (spread (A ++ X) []) (A ++ X).length B ∧
      gb'.map (·.tok) = codeOf (spread (A ++ Y) []) (A ++ Y).length B ∧
      gb'.map Group.shown = gb.map Group.shown := by
  -- the tokens of the files
  obtain ⟨tokX, awX, tkX, cmX, cs0, _, _, rd, op, bt, _, _, _⟩ := formatted_facts hf hd
  rw [ht] at bt
  simp only [Res.ok.injEq] at bt
  have hlex := C53_lexed name' src' _ hd'
  rw [hl] at hlex
  have awY : awkward false (A ++ Y ++ B) = false := by
    cases e : awkward false (A ++ Y ++ B) with
    | false => rfl
    | true => rw [e] at hlex; simp at hlex
  rw [awY] at hlex
  simp only [Bool.false_eq_true, if_false, Res.ok.injEq] at hlex
  have tokY : ∀ x ∈ A ++ Y ++ B, ∃ k t, x.2 = .token k t := problems_tokens name' _ [] (by rw [← he, hlex])
  have split : ∀ Z : List (Text × Chunk), (∀ x ∈ A ++ Z ++ B, ∃ k t, x.2 = .token k t) →
      lexemes [] 0 (A ++ Z ++ B) = lexemes [] 0 A ++ lexemes (spread A []) A.length Z ++
        lexemes (spread (A ++ Z) []) (A ++ Z).length B := by
    intro Z hZ
    have hA : ∀ x ∈ A, ∃ k t, x.2 = .token k t := fun x hx => hZ x (by simp [hx])
    have hAZ : ∀ x ∈ A ++ Z, ∃ k t, x.2 = .token k t := fun x hx => hZ x (List.mem_append_left _ hx)
    rw [lexemes_append _ _ _ _ hAZ, lexemes_append _ _ _ _ hA]
    simp
  have code : ∀ Z : List (Text × Chunk), (∀ x ∈ A ++ Z ++ B, ∃ k t, x.2 = .token k t) →
      (lexemes [] 0 (A ++ Z ++ B)).filter (fun t => !isComment t) = codeOf [] 0 A ++ codeOf (spread A []) A.length Z ++
        codeOf (spread (A ++ Z) []) (A ++ Z).length B ∧
      (lexemes [] 0 (A ++ Z ++ B)).filter isComment = (lexemes [] 0 A).filter isComment ++
        ((lexemes (spread A []) A.length Z).filter isComment ++
          (lexemes (spread (A ++ Z) []) (A ++ Z).length B).filter isComment) := by
    intro Z hZ
    rw [split Z hZ]
    simp only [codeOf, List.filter_append, List.append_assoc, and_self]
  rw [(code X tokX).1] at tkX
  rw [(code X tokX).2] at cmX
  have tkY : l.tokens = codeOf [] 0 A ++ codeOf (spread A []) A.length Y ++
        codeOf (spread (A ++ Y) []) (A ++ Y).length B := by rw [hlex, ← (code Y tokY).1]
  have cmY : l.comments = (lexemes [] 0 A).filter isComment ++
        ((lexemes (spread A []) A.length Y).filter isComment ++
          (lexemes (spread (A ++ Y) []) (A ++ Y).length B).filter isComment) := by rw [hlex, ← (code Y tokY).2]
  have nodup : p.tokens.Nodup := by
    obtain ⟨lx, hl, l1, l2, l3⟩ := parse_lex hf.parsed hf.accepted
    have := (lexed_wf hl).ts
    rw [l1] at this
    refine this.imp fun h e => ?_
    subst e
    omega
  -- the tree around the item
  have hitem : itemSym (.n k) = true := by rcases hk with rfl | rfl | rfl <;> rfl
  subst bt
  have hC0 := rd.conforms
  have hE0 : (Tree.node .StoredDefinition cs0).hasEmpty = false := by
    have hne : cs0 ≠ [] := by
      rintro rfl
      cases hX with
      | here => simp at hk
      | there hc _ => cases hc
    simp [Tree.hasEmpty, rd.full, hne]
  obtain ⟨C, hC⟩ := hX.around
  have hole : C ≠ .hole := by
    rintro rfl
    simp only [Around.plug, Tree.node.injEq] at hC
    rw [← hC.1] at hk
    simp at hk
  have hfull := hX.full hE0
  obtain ⟨x0, xs, hx0, _⟩ := start_leaves _ hfull
  simp only [Tree.leaves] at hx0
  have hYE : (Tree.node k ds).hasEmpty = false := by
    have hne : ds ≠ [] := by
      rintro rfl
      have := (nullable_iff _).2 hY.conforms.1
      rcases hk with rfl | rfl | rfl <;> revert this <;> decide +kernel
    simp [Tree.hasEmpty, hY.full, hne]
  have hlv := C.leaves (.node k cs)
  rw [← hC] at hlv
  simp only [Tree.leaves] at hlv
  rw [rd.leaves] at hlv
  have hbef : C.before = codeOf [] 0 A ∧ C.after = codeOf (spread (A ++ X) []) (A ++ X).length B := by
    have e := hlv
    rw [tkX, ← hx, hx0] at e
    have nd := nodup
    rw [tkX, ← hx, hx0] at nd
    simp only [List.append_assoc, List.cons_append] at e nd
    obtain ⟨e1, e2⟩ := app_unique nd e
    exact ⟨e1.symm, (List.append_cancel_left e2).symm⟩
  have hXlen : 1 ≤ X.length := by
    cases X with
    | nil => rw [hx] at hx0; simp [codeOf, lexemes] at hx0
    | cons _ _ => simp
  obtain ⟨y0, ys, hy0, _⟩ := start_leaves _ hYE
  simp only [Tree.leaves] at hy0
  have hYlen : 1 ≤ Y.length := by
    cases Y with
    | nil => rw [hY.leaves] at hy0; simp [codeOf, lexemes] at hy0
    | cons _ _ => simp
  -- the tree without the places of the tokens
  let B0 := (codeOf [] 1 B).map bareTok
  let d1 := newlines (spread (A ++ X) [])
  let d2 := newlines (spread (A ++ Y) [])
  have hB1 : (codeOf (spread (A ++ X) []) (A ++ X).length B).map bareTok = B0.map (moveTok d1) :=
    code_bare B _ _ (by rw [List.length_append]; omega)
  have hB2 : (codeOf (spread (A ++ Y) []) (A ++ Y).length B).map bareTok = B0.map (moveTok d2) :=
    code_bare B _ _ (by rw [List.length_append]; omega)
  let C0 := C.map bareTok (unmoveTok d1 ∘ bareTok)
  have hafter : C.after.map (unmoveTok d1 ∘ bareTok) = B0 := by
    rw [hbef.2, ← List.map_map, hB1, List.map_map]
    have : unmoveTok d1 ∘ moveTok d1 = id := funext fun t => unmove_move d1 t
    rw [this, List.map_id]
  have hC1 : C.map bareTok bareTok = C0.map id (moveTok d1) := by
    rw [Around.map_map]
    refine C.map_congr (fun _ _ => rfl) fun t ht => ?_
    rw [hbef.2] at ht
    have : bareTok t ∈ B0.map (moveTok d1) := by rw [← hB1]; exact List.mem_map_of_mem ht
    obtain ⟨u, _, hu⟩ := List.mem_map.1 this
    show bareTok t = moveTok d1 (unmoveTok d1 (bareTok t))
    rw [← hu, unmove_move]
  have hC2 : C0.map id (moveTok d2) = C.map bareTok (moveTok d2 ∘ unmoveTok d1 ∘ bareTok) := by
    rw [Around.map_map]; rfl
  let s1 := (Tree.node k cs).map bareTok
  let s2 := (Tree.node k ds).map bareTok
  have hT1 : (Tree.node .StoredDefinition cs0).map bareTok = (C0.map id (moveTok d1)).plug s1 := by
    rw [hC, Around.map_plug, hC1]
  have kb : ∀ t, (bareTok t).kind = t.kind := fun _ => rfl
  have kg : ∀ t, ((moveTok d2 ∘ unmoveTok d1 ∘ bareTok) t).kind = t.kind := fun _ => rfl
  -- the new tree
  have hsym2 : ((C0.map id (moveTok d2)).plug s2).sym = .n .StoredDefinition := by
    rw [hC2, Around.sym_map C (s := .node k cs) (by rfl), ← hC]; rfl
  obtain ⟨cs2, hcs2⟩ := node_of hsym2
  have hconf : ((C0.map id (moveTok d2)).plug s2).Conforms := by
    rw [hC2]
    exact C.conforms kb kg (s := .node k cs) (hC ▸ hC0) rfl (map_conforms kb _ hY.conforms)
  have hemp : ((C0.map id (moveTok d2)).plug s2).hasEmpty = false := by
    rw [hC2]
    exact C.full (s := .node k cs) (hC ▸ hE0) (by rw [map_hasEmpty]; exact hYE)
  have hopen : ((C0.map id (moveTok d2)).plug s2).Opens := by
    rw [hC2]
    refine C.opens kb kg (s := .node k cs) (hC ▸ op) rfl (map_opens kb _ ho) ?_ ?_
    · intro t h
      rw [map_leaves, Tree.leaves, List.head?_map] at h
      obtain ⟨u, hu, rfl⟩ := Option.map_eq_some_iff.1 h
      exact .inl (hs u hu)
    · rw [map_leaves, Tree.leaves, hy0]; simp
  have hleaves : ((C0.map id (moveTok d2)).plug s2).leaves = l.tokens.map bareTok := by
    rw [Around.leaves, hC2, Around.before_map, Around.after_map, map_leaves, Tree.leaves, hY.leaves, hbef.1, tkY,
      List.map_append, List.map_append, hB2, ← hafter, hbef.2, List.map_map]
  rw [hcs2] at hconf hemp hopen hleaves
  have hread : Reading .StoredDefinition (l.tokens.map bareTok) cs2 := by
    refine ⟨hconf, ?_, hleaves⟩
    simp only [Tree.hasEmpty, Bool.or_eq_false_iff] at hemp
    exact hemp.2
  obtain ⟨p', out', c2, hf', pt, pc, t2, hc2⟩ := accept_bare eol hl he hread hopen
  obtain ⟨c1, t1, o1, k1, _⟩ := hf.laid
  obtain ⟨c2', t2', o2, k2, _⟩ := hf'.laid
  rw [t2] at t2'
  simp only [Res.ok.injEq, Tree.node.injEq, true_and] at t2'
  rw [← t2', pc] at o2 k2
  rw [ht] at t1
  simp only [Res.ok.injEq] at t1
  rw [← t1] at o1 k1
  have hT2 : (Tree.node .StoredDefinition c2).map bareTok = (C0.map id (moveTok d2)).plug s2 := by
    rw [hcs2, Tree.map, hc2]
  -- the layouts
  have hpath : C0.onPath s1 ∧ (C0.plug s1).Conforms := by
    have hc : (C0.plug s1).Conforms :=
      C.conforms (f := bareTok) (g := unmoveTok d1 ∘ bareTok) kb (fun _ => rfl) (s := .node k cs) (hC ▸ hC0) rfl
        (map_conforms kb _ (hX.conforms hC0))
    refine ⟨(C0.path hc ?_).1, hc⟩
    show pathSym (.n k) = true
    rcases hk with rfl | rfl | rfl <;> rfl
  have hlk' : s1.leaks = s2.leaks := by
    rw [leaks_map keep_bare, leaks_map keep_bare]; exact hlk
  obtain ⟨LA, n', w', m', d', LB, q1, q2, q3, q4, _, q5⟩ := (C0.layouts (keep_move d1) (keep_move d2) (s := s1) (s1 := s1) (s2 := s2)
    rfl rfl hlk' hpath.2 hpath.1).2 0 false false .none
  rw [← hT1, layout_map keep_bare] at q1
  rw [← hT2, layout_map keep_bare] at q2
  obtain ⟨u0, LB', rfl⟩ := q5 hitem (by
    intro h
    cases C with
    | hole => exact hole rfl
    | node _ _ _ _ => exact Around.noConfusion h)
  obtain ⟨m1, b1, r1, r2, r3⟩ := List.map_eq_append_iff.1 q1
  obtain ⟨a1, xx1, rfl, r4, r5⟩ := List.map_eq_append_iff.1 r2
  obtain ⟨m2, b2, v1, v2, v3⟩ := List.map_eq_append_iff.1 q2
  obtain ⟨a2, xx2, rfl, v4, v5⟩ := List.map_eq_append_iff.1 v2
  have toks : ∀ (tr : Tree) (a x b : List (Dec × Token)) (TA TX TB : List Token), tr.layout 0 false false .none = a ++ x ++ b →
      tr.leaves = TA ++ TX ++ TB → a.length = TA.length → x.length = TX.length →
      a.map (·.2) = TA ∧ x.map (·.2) = TX ∧ b.map (·.2) = TB := by
    intro tr a x b TA TX TB h1 h2 h3 h4
    have e := layout_toks tr 0 false false .none
    rw [h1, h2, List.map_append, List.map_append] at e
    obtain ⟨e1, e2⟩ := List.append_inj e (by simp [h3, h4])
    obtain ⟨e3, e4⟩ := List.append_inj e1 (by simp [h3])
    exact ⟨e3, e4, e2⟩
  have lenA : LA.length = (codeOf [] 0 A).length := by
    have := congrArg List.length q3
    rw [List.length_map, Around.before_map, List.length_map, hbef.1] at this
    exact this
  have lenS : ∀ t : Tree, (t.layout n' w' m' d').length = t.leaves.length := fun t => by
    rw [← layout_toks t n' w' m' d', List.length_map]
  have lX : (Tree.node .StoredDefinition cs0).leaves = codeOf [] 0 A ++ leavesF cs ++
      codeOf (spread (A ++ X) []) (A ++ X).length B := by
    rw [Tree.leaves, rd.leaves, tkX, hx]
  have lY : (Tree.node .StoredDefinition c2).leaves = codeOf [] 0 A ++ leavesF ds ++
      codeOf (spread (A ++ Y) []) (A ++ Y).length B := by
    rw [hY.leaves, ← tkY, ← layout_toks _ 0 false false .none]
    rw [groupsOf_tok, pt] at k2
    exact k2
  obtain ⟨ta1, tx1, tb1⟩ := toks _ a1 xx1 b1 _ _ _ r1 lX (by rw [← lenA, ← r4, List.length_map]) (by
    have := congrArg List.length r5
    rw [List.length_map, lenS, map_leaves, List.length_map] at this
    exact this)
  obtain ⟨ta2, tx2, tb2⟩ := toks _ a2 xx2 b2 _ _ _ v1 lY (by rw [← lenA, ← v4, List.length_map]) (by
    have := congrArg List.length v5
    rw [List.length_map, lenS, map_leaves, List.length_map] at this
    exact this)
  have ha : a2 = a1 := by
    refine pairs_eq ?_ (by rw [ta1, ta2])
    rw [← onSnd_fst bareTok a1, ← onSnd_fst bareTok a2, r4, v4]
  subst ha
  have hb : b1.map (·.1) = b2.map (·.1) := by
    rw [← onSnd_fst bareTok b1, ← onSnd_fst bareTok b2, r3, v3, onSnd_fst, onSnd_fst]
  have alike := lexemes_alike B (spread (A ++ X) []) (spread (A ++ Y) []) (A ++ X).length (A ++ Y).length
  have hdec : AlikeDecs (A ++ X).length (A ++ Y).length d1 d2 b1 b2 :=
    alike_decs hb (by rw [tb1, tb2]; exact alike.code.1)
  match b1, b2, r3, v3, hdec, tb1, tb2, r1, v1 with
  | [], _, r3, _, _, _, _, _, _ => cases r3
  | _ :: _, [], _, v3, _, _, _, _, _ => cases v3
  | (e, t) :: b, (e', t') :: b', r3, v3, hdec, tb1, tb2, r1, v1 =>
    simp only [List.map_cons, onSnd, List.cons.injEq, Prod.mk.injEq] at r3 v3
    obtain ⟨⟨rfl, _⟩, _⟩ := r3
    obtain ⟨⟨rfl, _⟩, _⟩ := v3
    have it : ∀ {pre : Text} {i : Nat} {ps : List (Text × Chunk)} {ls : List (Dec × Token)}, ls.map (·.2) = codeOf pre i ps →
        ∀ z ∈ ls, i ≤ z.2.idx ∧ z.2.idx < i + ps.length := fun h z hz =>
      code_idx (by rw [← h]; exact List.mem_map_of_mem hz)
    have ic : ∀ {pre : Text} {i : Nat} {ps : List (Text × Chunk)}, ∀ c ∈ (lexemes pre i ps).filter isComment,
        i ≤ c.idx ∧ c.idx < i + ps.length := fun c hc => lexemes_idx _ _ _ c (List.mem_filter.1 hc).1
    have iB := it tb1 _ (List.mem_cons_self ..)
    have iB' := it tb2 _ (List.mem_cons_self ..)
    simp only [List.length_append] at hdec alike iB iB'
    obtain ⟨ga, gx, gy, gb, gb', z1, z2, z3, z4, z5, z6, z7, z8⟩ := parts_groups eol
      (CA := (lexemes [] 0 A).filter isComment) (CX := (lexemes (spread A []) A.length X).filter isComment)
      (CY := (lexemes (spread A []) A.length Y).filter isComment)
      (CB := (lexemes (spread (A ++ X) []) (A ++ X).length B).filter isComment)
      (CB' := (lexemes (spread (A ++ Y) []) (A ++ Y).length B).filter isComment) (a := a2) (x := xx1) (y := xx2)
      (fun z hz => by have := it ta1 z hz; omega) (fun z hz => (it (tx1.trans hx) z hz).2)
      (fun z hz => (it (tx2.trans hY.leaves) z hz).2) (fun c hc => by have := ic c hc; omega) ic ic
      (fun c hc => by have := ic c hc; rw [List.length_append] at this; exact this.1)
      (fun c hc => by have := ic c hc; rw [List.length_append] at this; exact this.1) iB.1 iB'.1 hdec
      (by rw [List.length_append, List.length_append]; exact alike.code.2)
    rw [cmX, Tree.wholeLayout, r1, z1] at o1
    rw [cmY, Tree.wholeLayout, v1, z2] at o2
    exact ⟨_, out', ga, gx, gy, gb, gb', hf', o1, o2, by rw [z3, ta1], by rw [z4, tx1], by rw [z5, tx2],
      by rw [z6, ← tb1]; rfl, by rw [z7, ← tb2]; rfl, z8⟩

/-- the texts of the outputs: they differ in the place of the item only -/
theorem C72_text_partial (eol name src out name' src' : Text) (p : Parsed) (A X Y B : List (Text × Chunk)) (l : Lexed) (tree : Tree)
    (k : SK) (cs ds : List Tree) (hf : Formatted eol name src p out) (hd : Divided src (A ++ X ++ B))
    (hd' : Divided src' (A ++ Y ++ B)) (hl : lex name' src' = .ok l) (he : l.errors = [])
    (ht : buildTree p.tokens p.events = .ok tree) (hk : k = .Element ∨ k = .Equation ∨ k = .Statement)
    (hX : Part (.node k cs) tree) (hx : leavesF cs = codeOf (spread A []) A.length X)
    (hY : Reading k (codeOf (spread A []) A.length Y) ds) (ho : (Tree.node k ds).Opens)
    (hs : ∀ t, (leavesF ds).head? = some t → t.kind ≠ .End ∧ t.kind ≠ .Initial)
    (hlk : (Tree.node k cs).leaks = (Tree.node k ds).leaks) :
    ∃ p' ga gx gy gb, Formatted eol name' src' p' (groupsText ga ++ groupsText gy ++ groupsText gb ++ eol) ∧
      out = groupsText ga ++ groupsText gx ++ groupsText gb ++ eol ∧
      ga.map (·.tok) = codeOf [] 0 A ∧ gx.map (·.tok) = leavesF cs ∧ gy.map (·.tok) = leavesF ds ∧
      gb.map (·.tok) = codeOf (spread (A ++ X) []) (A ++ X).length B := by
  obtain ⟨p', out', ga, gx, gy, gb, gb', h1, h2, h3, h4, h5, h6, h7, h8, h9⟩ :=
    C72_local_partial eol name src out name' src' p A X Y B l tree k cs ds hf hd hd' hl he ht hk hX hx hY ho hs hlk
  have app : ∀ a b c : List Group, groupsText (a ++ b ++ c) = groupsText a ++ groupsText b ++ groupsText c := by
    intro a b c
    simp only [groupsText, groupLexemes, lexemesText, List.flatMap_append]
  refine ⟨p', ga, gx, gy, gb, ?_, by rw [h2, app], h4, h5, h6, h7⟩
  rw [h3, app, groupsText_shown h9] at h1
  exact h1

/-! ### Example -/

/-- whether pieces divide the text they are spread to -/
def dividedB : List (Text × Chunk) → Bool
  | [] => true
  | (w, .token k (c :: t)) :: ps =>
    w.all ws && (match munch c (t ++ spread ps []) with | .tok k' t' r => k' == k && t' == c :: t && r == spread ps [] | _ => false) &&
      dividedB ps
  | _ => false

theorem dividedB_sound : ∀ {ps : List (Text × Chunk)}, dividedB ps = true → Divided (spread ps []) ps
  | [], _ => .done rfl
  | (w, .token k (c :: t)) :: ps, h => by
    simp only [dividedB, Bool.and_eq_true] at h
    obtain ⟨⟨h1, h2⟩, h3⟩ := h
    split at h2
    · rename_i k' t' r hm
      simp only [Bool.and_eq_true, beq_iff_eq] at h2
      obtain ⟨⟨rfl, rfl⟩, rfl⟩ := h2
      have := divided_token h1 hm (dividedB_sound h3)
      simpa [spread, Chunk.text] using this
    · cases h2
  | (_, .token _ []) :: _, h => by cases h
  | (_, .stray _) :: _, h => by cases h

def exEditA : List (Text × Chunk) :=
  [([], .token .Model c!"model"), (c!" ", .token .Identifier c!"A"), (c!"\n", .token .LineComment c!"// a"),
   (c!"\n", .token .Identifier c!"Real"), (c!" ", .token .Identifier c!"x"), ([], .token .Semicolon c!";"),
   (c!"\n", .token .Equation c!"equation"), (c!" ", .token .LineComment c!"// b")]
def exEditX : List (Text × Chunk) :=
  [(c!"\n", .token .Identifier c!"x"), ([], .token .Equal c!"="), ([], .token .UInt c!"1")]
def exEditY : List (Text × Chunk) :=
  [(c!"\n", .token .Identifier c!"x"), ([], .token .Equal c!"="), (c!"\n", .token .Identifier c!"f"),
   ([], .token .LParen c!"("), (c!"\n", .token .UInt c!"2"), ([], .token .RParen c!")"), (c!" ", .token .BlockComment c!"/* new */"),
   (c!"\n", .token .Plus c!"+"), (c!" ", .token .UInt c!"1")]
def exEditB : List (Text × Chunk) :=
  [([], .token .Semicolon c!";"), (c!" ", .token .LineComment c!"// c"), (c!"\n\n", .token .Identifier c!"y"),
   (c!" ", .token .Equal c!"="), (c!"\n", .token .Identifier c!"z"), ([], .token .Semicolon c!";"), (c!"\n", .token .End c!"end"),
   (c!" ", .token .Identifier c!"A"), ([], .token .Semicolon c!";")]

def exEditOld : Text := spread (exEditA ++ exEditX ++ exEditB) []
def exEditNew : Text := spread (exEditA ++ exEditY ++ exEditB) []
def exEditTree (src : Text) : Tree :=
  match parse c!"f" src .StoredDefinition with
  | .ok p => resTree (buildTree p.tokens p.events)
  | _ => .node .Name []
def exEditItem (src : Text) : List Tree := kidsOf ((exEditTree src).find .Equation)

def exEditP (src : Text) : Parsed := match parse c!"f" src .StoredDefinition with | .ok p => p | _ => ⟨[], [], [], []⟩
def exEditOldOut : Text := c!"model A\n\n  // a\n  Real x;\n\nequation // b\n\n  x = 1; // c\n\n  y = z;\n\nend A;\n"
def exEditNewOut : Text :=
  c!"model A\n\n  // a\n  Real x;\n\nequation // b\n\n  x = f(\n    2) /* new */\n    + 1; // c\n\n  y = z;\n\nend A;\n"

set_option maxRecDepth 100000 in
set_option maxHeartbeats 2000000 in
/-- The hypotheses of `C72_local_partial` hold of an equation and a longer one on four lines with a comment; the outputs. -/
theorem C72_case : Formatted c!"\n" c!"f" exEditOld (exEditP exEditOld) exEditOldOut ∧
    Divided exEditOld (exEditA ++ exEditX ++ exEditB) ∧ Divided exEditNew (exEditA ++ exEditY ++ exEditB) ∧
    (∃ l, lex c!"f" exEditNew = .ok l ∧ l.errors = []) ∧
    buildTree (exEditP exEditOld).tokens (exEditP exEditOld).events = .ok (exEditTree exEditOld) ∧
    Part (.node .Equation (exEditItem exEditOld)) (exEditTree exEditOld) ∧
    leavesF (exEditItem exEditOld) = codeOf (spread exEditA []) exEditA.length exEditX ∧
    Reading .Equation (codeOf (spread exEditA []) exEditA.length exEditY) (exEditItem exEditNew) ∧
    (Tree.node .Equation (exEditItem exEditNew)).Opens ∧
    (∀ t, (leavesF (exEditItem exEditNew)).head? = some t → t.kind ≠ .End ∧ t.kind ≠ .Initial) ∧
    (Tree.node .Equation (exEditItem exEditOld)).leaks = (Tree.node .Equation (exEditItem exEditNew)).leaks ∧
    Formatted c!"\n" c!"f" exEditNew (exEditP exEditNew) exEditNewOut := by
  refine ⟨⟨by decide_cbv, by decide_cbv, exEditOldOut.dropLast, by decide_cbv, by decide⟩, dividedB_sound (by decide +kernel),
    dividedB_sound (by decide +kernel), ?_, ?_, find_kind _ (by decide_cbv), by decide_cbv,
    readingOf (by decide +kernel) (by decide +kernel) (by decide +kernel), opensB_sound _ (by decide +kernel), ?_, by decide_cbv,
    ⟨by decide_cbv, by decide_cbv, exEditNewOut.dropLast, by decide_cbv, by decide⟩⟩
  · exact ⟨match lex c!"f" exEditNew with | .ok l => l | _ => ⟨[], [], []⟩, by decide_cbv, by decide_cbv⟩
  · exact resTree_ok (by decide_cbv)
  · have : (leavesF (exEditItem exEditNew)).head?.all (fun t => t.kind != .End && t.kind != .Initial) = true := by decide_cbv
    intro t h
    rw [h] at this
    simpa using this

set_option maxRecDepth 100000 in
/-- **C72** needs items from which equally many indentations are left over: after an equation with a wrapped left hand side the
rest of the file is printed deeper. -/
theorem C72_leftover_false :
    (∃ p, Formatted c!"\n" c!"f" c!"model A\nequation\nx = 1;\ny = z;\nend A;" p
      (c!"model A\n\nequation\n\n  " ++ c!"x = 1" ++ c!";\n  y = z;\n\nend A;\n")) ∧
    ∃ p, Formatted c!"\n" c!"f" c!"model A\nequation\na\n+ b = c;\ny = z;\nend A;" p
      (c!"model A\n\nequation\n\n  " ++ c!"a\n    + b = c" ++ c!";\n    y = z;\n\n  end A;\n") :=
  ⟨⟨exEditP c!"model A\nequation\nx = 1;\ny = z;\nend A;", by decide_cbv, by decide_cbv,
      c!"model A\n\nequation\n\n  x = 1;\n  y = z;\n\nend A;", by decide_cbv, by decide⟩,
    ⟨exEditP c!"model A\nequation\na\n+ b = c;\ny = z;\nend A;", by decide_cbv, by decide_cbv,
      c!"model A\n\nequation\n\n  a\n    + b = c;\n    y = z;\n\n  end A;", by decide_cbv, by decide⟩⟩


end Mofmt
