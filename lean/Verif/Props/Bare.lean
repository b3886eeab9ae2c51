import Verif.Props.Blanks
import Verif.Props.Lists
import Verif.Proofs.LayoutMap
/-
C62: comments do not influence the layout of the code.
-/
namespace Mofmt
open Lexical

/-! ### Specification -/

/-- What is left of a token when the comments around it are deleted: its kind, its text and its lines.  For `within` it
also matters whether something stands before it. -/
def bareTok (t : Token) : Token :=
  ⟨if t.kind = .Within then min 1 t.idx else 0, t.text, t.kind, ⟨0, t.start.line, 0⟩, ⟨0, t.stop.line, 0⟩⟩

/-- Two tokens with what stands before them are laid out in the same way: without or with a blank on the line of the
token before, or with a line break of the same sort and the same indentation. -/
def SameLayout (eol : Text) (prev : Option Token) (g : Group) (prev' : Option Token) (g' : Group) : Prop :=
  (g.comments = [] ∧ g'.comments = [] ∧ g.white = g'.white ∧ (g.white = [] ∨ g.white = [' '])) ∨
    ∃ b n, Breaks eol b n prev g ∧ Breaks eol b n prev' g'

/-- is the piece a comment? -/
def Lexical.Chunk.comment : Chunk → Bool
  | .token k _ => k == .LineComment || k == .BlockComment
  | _ => false

/-- a blank and the line breaks of a text -/
def hollow (t : Text) : Text := ' ' :: List.replicate (newlines t) '\n'

/-- The text without its comments: in place of each of them stand a blank and as many line breaks as it contains. -/
def uncommented (ps : List (Text × Chunk)) (tail : Text) : Text :=
  ps.flatMap (fun x => x.1 ++ if x.2.comment then hollow x.2.text else x.2.text) ++ tail

/-! ### Proof -/

theorem keep_bare : KeepLay 0 bareTok where
  kind _ := rfl
  start _ := rfl
  stop _ := rfl
  late t ht := by
    simp only [bareTok, if_pos ht]
    omega

/-- the state after some tokens is on the line of the last one -/
theorem group_same {eol : Text} {L L' : LS} {prev prev' : Option Token} (h : L.line = lineOf prev) (h' : L'.line = lineOf prev')
    (d : Dec) (t t' : Token) :
    SameLayout eol prev ((L.group (d, t)).toGroup eol) prev' ((L'.group (d, t')).toGroup eol) := by
  cases d with
  | none => exact .inl ⟨rfl, rfl, rfl, .inl rfl⟩
  | space => exact .inl ⟨rfl, rfl, rfl, .inr rfl⟩
  | brk b n => exact .inr ⟨b, n, LS.group_breaks eol L prev h b n t, LS.group_breaks eol L' prev' h' b n t'⟩

theorem split_at {α : Type} {a b a' b' : List α} {x y : α} (h : a ++ x :: b = a' ++ y :: b') (hl : a.length = a'.length) :
    a = a' ∧ x = y ∧ b = b' := by
  obtain ⟨h1, h2⟩ := List.append_inj h hl
  cases h2
  exact ⟨h1, rfl, rfl⟩

/-- **C62** Two accepted files with the same tokens on the same lines, whatever their comments are, are laid out in the
same way: what stands between two tokens is in both nothing, in both a blank, or in both a line break of the same sort
with the same indentation. -/
theorem C62_same_layout (eol name src out name' src' out' : Text) (p p' : Parsed) (h : Formatted eol name src p out)
    (h' : Formatted eol name' src' p' out') (ht : p'.tokens.map bareTok = p.tokens.map bareTok) :
    ∃ gs gs', out = groupsText gs ++ eol ∧ out' = groupsText gs' ++ eol ∧ gs.map (·.tok) = p.tokens ∧
      gs'.map (·.tok) = p'.tokens ∧ ∀ a g b a' g' b', gs = a ++ g :: b → gs' = a' ++ g' :: b' → a.length = a'.length →
        SameLayout eol (a.map (·.tok)).getLast? g (a'.map (·.tok)).getLast? g' := by
  obtain ⟨cs, t1, o1, k1, _⟩ := h.laid
  obtain ⟨cs', t2, o2, k2, _⟩ := h'.laid
  refine ⟨_, _, o1, o2, k1, k2, ?_⟩
  have hev : p'.events = p.events := by
    obtain ⟨l0, hl0, a1, a2, a3⟩ := parse_lex h.parsed h.accepted
    obtain ⟨l1, hl1, b1, b2, b3⟩ := parse_lex h'.parsed h'.accepted
    have hp := h.parsed
    simp only [parse, hl0, Res.bind_ok] at hp
    obtain ⟨⟨evs, errs⟩, g1, g2⟩ := Res.bind_eq_ok.1 hp
    have hp' := h'.parsed
    simp only [parse, hl1, Res.bind_ok] at hp'
    obtain ⟨⟨evs', errs'⟩, g1', g2'⟩ := Res.bind_eq_ok.1 hp'
    have hk : l0.tokens.map (·.kind) = l1.tokens.map (·.kind) := by
      have := congrArg (List.map (·.kind)) ht
      simp only [List.map_map] at this
      rw [a1, b1]
      exact this.symm
    obtain ⟨errs2, k1, k2⟩ := (C24_only_kinds name name' _ _ .StoredDefinition hk).1 _ _ g1
    rw [k1] at g1'
    cases g1'
    simp only [Res.ok.injEq] at g2 g2'
    rw [← g2, ← g2']
  have hm : (Tree.node .StoredDefinition cs').map bareTok = (Tree.node .StoredDefinition cs).map bareTok := by
    have e1 := buildTree_map bareTok p.tokens p.events
    have e2 := buildTree_map bareTok p'.tokens p'.events
    rw [t1] at e1
    rw [t2, ht, hev, e1] at e2
    exact (Res.ok.inj e2).symm
  have hds := wholeLayout_map keep_bare (Tree.node .StoredDefinition cs')
  rw [hm, wholeLayout_map keep_bare] at hds
  intro a g b a' g' b' hg hg' hlen
  obtain ⟨da, d, t, dz, e1, rfl, rfl⟩ := groups_split hg
  obtain ⟨da', d', t', dz', e1', rfl, rfl⟩ := groups_split hg'
  rw [e1, e1', List.map_append, List.map_append, List.map_cons, List.map_cons] at hds
  have hl : ∀ (eol : Text) (cm : List Token) (ds : List (Dec × Token)), (groupsOf eol cm ds).length = ds.length := by
    intro eol cm ds
    have := congrArg List.length (groupsOf_tok eol cm ds)
    simpa using this
  rw [hl, hl] at hlen
  obtain ⟨_, hd, _⟩ := split_at hds (by simpa using hlen)
  have hd' : d = d' := congrArg Prod.fst hd
  subst hd'
  have hline : ∀ (cm : List Token) (da : List (Dec × Token)), ((LS.init cm).run da).line =
      lineOf ((groupsOf eol cm da).map (·.tok)).getLast? := by
    intro cm da
    have := LS.run_last (LS.init cm) da none rfl
    rw [groupsOf_tok]
    simpa using this
  exact group_same (hline _ _) (hline _ _) d t t'

/-! ### Deleting the comments -/

/-- the pieces of the text without comments; `w`: white space before -/
def bareChunks : Text → List (Text × Chunk) → List (Text × Chunk)
  | _, [] => []
  | w, (v, c) :: ps => if c.comment then bareChunks (w ++ v ++ hollow c.text) ps else (w ++ v, c) :: bareChunks [] ps

/-- the white space at the end -/
def bareTail : Text → List (Text × Chunk) → Text → Text
  | w, [], tail => w ++ tail
  | w, (v, c) :: ps, tail => if c.comment then bareTail (w ++ v ++ hollow c.text) ps tail else bareTail [] ps tail

theorem hollow_ws (t : Text) : (hollow t).all ws = true := by
  simp only [hollow, List.all_cons, Bool.and_eq_true, List.all_eq_true, List.mem_replicate]
  refine ⟨by decide, ?_⟩
  rintro c ⟨_, rfl⟩
  decide

theorem newlines_hollow (t : Text) : newlines (hollow t) = newlines t := by
  generalize hn : newlines t = n
  rw [hollow, hn]
  clear hn
  have : newlines (' ' :: List.replicate n '\n') = newlines (List.replicate n '\n') := by
    simp [newlines]
  rw [this]
  induction n with
  | zero => rfl
  | succ n ih =>
    rw [List.replicate_succ]
    simp only [newlines, List.count_cons] at ih ⊢
    simp [ih]

theorem uncommented_cons (w : Text) (c : Chunk) (ps : List (Text × Chunk)) (tail : Text) :
    uncommented ((w, c) :: ps) tail = w ++ (if c.comment then hollow c.text else c.text) ++ uncommented ps tail := by
  simp [uncommented]

theorem bare_divided {src : Text} {ps : List (Text × Chunk)} (h : Divided src ps) :
    ∀ {tail : Text}, src = spread ps tail → (∀ x ∈ ps, ∃ k t, x.2 = .token k t) → ∀ w : Text, w.all ws = true →
      Divided (w ++ uncommented ps tail) (bareChunks w ps) := by
  induction h with
  | @done v hv =>
    intro tail he _ w hw
    have : v = tail := by simpa [spread] using he
    subst this
    refine .done ?_
    simp only [uncommented, List.flatMap_nil, List.nil_append, List.all_append, hw, hv, Bool.and_self]
  | @next v r c ps hv hq hd ih =>
    intro tail he ht w hw
    have hr : r = spread ps tail := by
      rw [spread_cons] at he
      exact List.append_cancel_left he
    subst hr
    have ih := ih rfl fun x hx => ht x (List.mem_cons_of_mem _ hx)
    obtain ⟨k, t, rfl⟩ := ht _ (List.mem_cons_self ..)
    rw [uncommented_cons, bareChunks]
    by_cases hc : (Chunk.token k t).comment = true
    · rw [if_pos hc, if_pos hc]
      have := ih (w ++ v ++ hollow t) (by simp only [List.all_append, hw, hv, hollow_ws, Bool.and_self])
      simpa only [List.append_assoc, Chunk.text] using this
    · rw [if_neg hc, if_neg hc]
      have := ih [] rfl
      have hb : (Chunk.token k t).Before (uncommented ps tail) := by
        cases ps with
        | nil =>
          refine before_head hq ?_
          simp [uncommented, spread]
        | cons x ps =>
          obtain ⟨u, q⟩ := x
          obtain ⟨k', t', e⟩ := ht (u, q) (by simp)
          simp only at e
          subst e
          rw [spread_cons] at hq
          rw [uncommented_cons]
          have hne : t' ≠ [] := by
            generalize spread ((u, Chunk.token k' t') :: ps) tail = s at hd
            cases hd with
            | next _ hq' _ => exact piece_text_ne _ hq'
          cases u with
          | cons d u => exact before_head hq rfl
          | nil =>
            by_cases hc' : (Chunk.token k' t').comment = true
            · rw [if_pos hc']
              refine before_space hq.1 (d := ' ') (by decide) ?_
              rintro rfl
              exact absurd rfl hc
            · rw [if_neg hc']
              refine before_head hq ?_
              cases t' with
              | nil => exact absurd rfl hne
              | cons d t' => rfl
      have := Divided.next (w := w ++ v) (by simp only [List.all_append, hw, hv, Bool.and_self]) hb this
      simpa only [List.append_assoc, Chunk.text, List.nil_append] using this

/-- the part of a token that does not depend on the comments -/
def coreOf (t : Token) : Text × Tok × Nat × Nat := (t.text, t.kind, t.start.line, t.stop.line)

theorem comment_iff (k : Tok) (t t' : Text) (i : Nat) (a b : Pos) :
    isComment ⟨i, t', k, a, b⟩ = (Chunk.token k t).comment := by
  simp only [isComment, Chunk.comment, Bool.decide_or]
  rfl

theorem bare_lexemes : ∀ (ps : List (Text × Chunk)) (pre pre' w : Text) (i i' : Nat),
    (∀ x ∈ ps, ∃ k t, x.2 = .token k t) → newlines pre' + newlines w = newlines pre →
    (lexemes pre' i' (bareChunks w ps)).map coreOf =
      ((lexemes pre i ps).filter fun t => !isComment t).map coreOf
  | [], _, _, _, _, _, _, _ => rfl
  | (v, c) :: ps, pre, pre', w, i, i', ht, hn => by
    obtain ⟨k, t, rfl⟩ := ht _ (List.mem_cons_self ..)
    have ht' : ∀ x ∈ ps, ∃ k t, x.2 = .token k t := fun x hx => ht x (List.mem_cons_of_mem _ hx)
    rw [bareChunks]
    by_cases hc : (Chunk.token k t).comment = true
    · rw [if_pos hc, lexemes, List.filter_cons_of_neg (by rw [comment_iff k t, hc]; decide)]
      refine bare_lexemes ps _ _ _ _ _ ht' ?_
      simp only [newlines_append, newlines_hollow, Chunk.text]
      omega
    · rw [if_neg hc, lexemes, lexemes, List.filter_cons_of_pos (by rw [comment_iff k t]; simpa using hc)]
      rw [List.map_cons, List.map_cons, bare_lexemes ps (pre ++ v ++ t) _ [] (i + 1) _ ht' ?_]
      · congr 1
        simp only [coreOf, position, newlines_append]
        have : newlines pre' + (newlines w + newlines v) = newlines pre + newlines v := by omega
        rw [this]
      · simp only [newlines_append]
        have : newlines [] = 0 := rfl
        omega

theorem bare_tokens : ∀ (ps : List (Text × Chunk)) (w : Text), (∀ x ∈ ps, ∃ k t, x.2 = .token k t) →
    ∀ x ∈ bareChunks w ps, ∃ k t, x.2 = .token k t ∧ x.2.comment = false
  | [], _, _ => by simp [bareChunks]
  | (v, c) :: ps, w, ht => by
    have ih := fun w => bare_tokens ps w fun x hx => ht x (List.mem_cons_of_mem _ hx)
    rw [bareChunks]
    by_cases hc : c.comment = true
    · rw [if_pos hc]
      exact ih _
    · rw [if_neg hc]
      intro x hx
      rcases List.mem_cons.1 hx with rfl | hx
      · obtain ⟨k, t, e⟩ := ht _ (List.mem_cons_self ..)
        exact ⟨k, t, e, by simpa using hc⟩
      · exact ih _ x hx

theorem bare_awkward : ∀ (ps : List (Text × Chunk)) (w : Text), (∀ x ∈ ps, ∃ k t, x.2 = .token k t) →
    awkward false ps = false → awkward false (bareChunks w ps) = false
  | [], _, _, _ => rfl
  | (v, c) :: ps, w, ht, h => by
    obtain ⟨k, t, rfl⟩ := ht _ (List.mem_cons_self ..)
    have ih := fun w => bare_awkward ps w fun x hx => ht x (List.mem_cons_of_mem _ hx)
    simp only [awkward, Bool.false_and, Bool.false_or, Bool.or_eq_false_iff] at h
    rw [bareChunks]
    split
    · exact ih _ h.2
    · simp only [awkward, Bool.false_and, Bool.false_or, Bool.or_eq_false_iff]
      exact ⟨h.1, ih _ h.2⟩

theorem lexemes_from : ∀ (ps : List (Text × Chunk)) (pre : Text) (i : Nat), (∀ x ∈ ps, ∃ k t, x.2 = .token k t) →
    ∀ t ∈ lexemes pre i ps, i ≤ t.idx
  | [], _, _, _ => by simp [lexemes]
  | (v, c) :: ps, pre, i, ht => by
    obtain ⟨k, t, rfl⟩ := ht _ (List.mem_cons_self ..)
    rw [lexemes]
    intro x hx
    rcases List.mem_cons.1 hx with rfl | hx
    · exact Nat.le_refl _
    · have := lexemes_from ps _ _ (fun x hx => ht x (List.mem_cons_of_mem _ hx)) x hx
      omega

theorem bareTok_eq {t t' : Token} (h : coreOf t = coreOf t') (hw : t.kind = .Within → min 1 t.idx = min 1 t'.idx) :
    bareTok t = bareTok t' := by
  simp only [coreOf, Prod.mk.injEq] at h
  obtain ⟨a, b, c, d⟩ := h
  simp only [bareTok, a, ← b, c, d, Token.mk.injEq, and_true]
  split
  · rename_i e
    exact hw e
  · rfl

theorem bareToks_eq : ∀ {l l' : List Token}, l.map coreOf = l'.map coreOf → (∀ t ∈ l, t.kind = .Within → 0 < t.idx) →
    (∀ t ∈ l', t.kind = .Within → 0 < t.idx) → l.map bareTok = l'.map bareTok
  | [], l', h, _, _ => by
    have : l' = [] := by simpa using h.symm
    rw [this]
  | t :: l, [], h, _, _ => by simp at h
  | t :: l, t' :: l', h, h1, h2 => by
    simp only [List.map_cons, List.cons.injEq] at h
    rw [List.map_cons, List.map_cons, bareToks_eq h.2 (fun x hx => h1 x (List.mem_cons_of_mem _ hx))
      (fun x hx => h2 x (List.mem_cons_of_mem _ hx)), bareTok_eq h.1]
    intro hk
    have hk' : t'.kind = .Within := by
      have := h.1
      simp only [coreOf, Prod.mk.injEq] at this
      rw [← this.2.1, hk]
    have := h1 t (List.mem_cons_self ..) hk
    have := h2 t' (List.mem_cons_self ..) hk'
    omega

theorem lexemes_chunk : ∀ (ps : List (Text × Chunk)) (pre : Text) (i : Nat) (t : Token), t ∈ lexemes pre i ps →
    ∃ v, (v, Chunk.token t.kind t.text) ∈ ps
  | [], _, _, _, h => by simp [lexemes] at h
  | (v, c) :: ps, pre, i, t, h => by
    have key : ∀ pre i, t ∈ lexemes pre i ps → ∃ v', (v', Chunk.token t.kind t.text) ∈ (v, c) :: ps := fun pre i h =>
      (lexemes_chunk ps pre i t h).imp fun _ h => List.mem_cons_of_mem _ h
    cases c with
    | token k u =>
      rw [lexemes] at h
      rcases List.mem_cons.1 h with rfl | h
      · exact ⟨v, List.mem_cons_self ..⟩
      · exact key _ _ h
    | _ => exact key _ _ h

/-- what the tokens of the text without comments are -/
theorem bare_same {ps : List (Text × Chunk)} (ht : ∀ x ∈ ps, ∃ k t, x.2 = .token k t)
    (hw : (ps.head?.all fun x => !x.2.comment) = true ∨ ∀ x ∈ ps, ∀ t, x.2 ≠ .token .Within t) :
    (lexemes [] 0 (bareChunks [] ps)).map bareTok =
      ((lexemes [] 0 ps).filter fun t => !isComment t).map bareTok := by
  rcases hw with hw | hw
  · cases ps with
    | nil => rfl
    | cons x ps =>
      obtain ⟨v, c⟩ := x
      obtain ⟨k, t, rfl⟩ := ht _ (List.mem_cons_self ..)
      have ht' : ∀ x ∈ ps, ∃ k t, x.2 = .token k t := fun x hx => ht x (List.mem_cons_of_mem _ hx)
      have hc : (Chunk.token k t).comment = false := by simpa using hw
      rw [bareChunks, if_neg (by simp [hc]), lexemes, lexemes, List.filter_cons_of_pos (by rw [comment_iff k t, hc]; rfl)]
      rw [List.map_cons, List.map_cons]
      congr 1
      refine bareToks_eq (bare_lexemes ps _ _ _ _ _ ht' ?_) ?_ ?_
      · simp [newlines]
      · intro x hx _
        have := lexemes_from _ _ _ (fun x hx => (bare_tokens ps [] ht' x hx).imp fun _ h => h.imp fun _ h => h.1) x hx
        omega
      · intro x hx _
        have := lexemes_from _ _ _ ht' x (List.mem_filter.1 hx).1
        omega
  · have hno : ∀ t ∈ (lexemes [] 0 ps).filter fun t => !isComment t, t.kind ≠ .Within := by
      intro t htm he
      obtain ⟨v, hv⟩ := lexemes_chunk ps [] 0 t (List.mem_filter.1 htm).1
      exact hw _ hv t.text (by rw [he])
    have hcore := bare_lexemes ps [] [] [] 0 0 ht rfl
    refine bareToks_eq hcore ?_ fun t htm he => absurd he (hno t htm)
    intro t htm he
    have : coreOf t ∈ ((lexemes [] 0 ps).filter fun t => !isComment t).map coreOf := by
      rw [← hcore]
      exact List.mem_map_of_mem htm
    obtain ⟨t', h1, h2⟩ := List.mem_map.1 this
    refine absurd ?_ (hno t' h1)
    simp only [coreOf, Prod.mk.injEq] at h2
    rw [h2.2.1, he]

/-- a file with other tokens of the same kinds is accepted, too -/
theorem accepted_kinds {eol name name' src src' out : Text} {p : Parsed} {l : Lexed} (hf : Formatted eol name src p out)
    (hl : lex name' src' = .ok l) (he : l.errors = []) (hk : p.tokens.map (·.kind) = l.tokens.map (·.kind)) :
    ∃ p' out', Formatted eol name' src' p' out' ∧ p'.tokens = l.tokens ∧ p'.comments = l.comments := by
  obtain ⟨l0, hl0, a1, a2, a3⟩ := parse_lex hf.parsed hf.accepted
  have hp := hf.parsed
  simp only [parse, hl0, Res.bind_ok] at hp
  obtain ⟨⟨evs, errs⟩, h1, h2⟩ := Res.bind_eq_ok.1 hp
  simp only [Res.ok.injEq] at h2
  have her : errs = [] := by
    have := hf.accepted
    rw [← h2] at this
    simp only [List.append_eq_nil_iff] at this
    exact this.2
  rw [a1] at h1
  obtain ⟨errs2, k1, k2⟩ := (C24_only_kinds name name' _ _ .StoredDefinition hk).1 _ _ h1
  have he' : errs2 = [] := by
    rw [her] at k2
    exact List.length_eq_zero_iff.mp k2
  have hp' : parse name' src' .StoredDefinition = .ok ⟨l.tokens, l.comments, evs, []⟩ := by
    simp only [parse, hl, Res.bind_ok, k1, he', he, List.append_nil]
  obtain ⟨out', h'⟩ := C03_formatted eol name' src' _ hp' rfl
  exact ⟨_, out', h', rfl, rfl⟩

/-- **C62** Take an accepted file and put a blank, with the line breaks that it contains, in the place of every comment.
The result is accepted and has no comments, and its output has the layout of the output of the file with comments.
(`hw`: the file does not begin with a comment, or it has no `within`.) -/
theorem C62_uncommented (eol name src out : Text) (p : Parsed) (ps : List (Text × Chunk)) (tail : Text)
    (h : Formatted eol name src p out) (hd : Divided src ps) (he : src = spread ps tail)
    (hw : (ps.head?.all fun x => !x.2.comment) = true ∨ ∀ x ∈ ps, ∀ t, x.2 ≠ .token .Within t) :
    ∃ p' out', Formatted eol name (uncommented ps tail) p' out' ∧ p'.comments = [] ∧
      p'.tokens.map bareTok = p.tokens.map bareTok ∧
      ∃ gs gs', out = groupsText gs ++ eol ∧ out' = groupsText gs' ++ eol ∧ gs.map (·.tok) = p.tokens ∧
        gs'.map (·.tok) = p'.tokens ∧ ∀ a g b a' g' b', gs = a ++ g :: b → gs' = a' ++ g' :: b' → a.length = a'.length →
          SameLayout eol (a.map (·.tok)).getLast? g (a'.map (·.tok)).getLast? g' := by
  obtain ⟨l0, hl0, a1, a2, a3⟩ := parse_lex h.parsed h.accepted
  have hlex := C53_lexed name src _ hd
  rw [hl0] at hlex
  have haw : awkward false ps = false := by
    cases e : awkward false ps with
    | false => rfl
    | true => rw [e] at hlex; simp at hlex
  rw [haw] at hlex
  simp only [Bool.false_eq_true, if_false, Res.ok.injEq] at hlex
  have ht : ∀ x ∈ ps, ∃ k t, x.2 = .token k t := problems_tokens name ps [] (by rw [← a3, hlex])
  have ht' := bare_tokens ps [] ht
  have hlex' := C53_lexed name _ _ (bare_divided hd he ht [] rfl)
  rw [bare_awkward ps [] ht haw, tokens_problems name _ _ fun x hx => (ht' x hx).imp fun _ h => h.imp fun _ h => h.1] at hlex'
  simp only [Bool.false_eq_true, if_false, List.nil_append] at hlex'
  have hnc : ∀ t ∈ lexemes [] 0 (bareChunks [] ps), isComment t = false := by
    intro t htm
    obtain ⟨v, hv⟩ := lexemes_chunk _ [] 0 t htm
    obtain ⟨_, _, _, hc⟩ := ht' _ hv
    rw [← hc]
    exact comment_iff ..
  have f1 : (lexemes [] 0 (bareChunks [] ps)).filter (fun t => !isComment t) = lexemes [] 0 (bareChunks [] ps) :=
    List.filter_eq_self.2 fun t htm => by rw [hnc t htm]; rfl
  have f2 : (lexemes [] 0 (bareChunks [] ps)).filter isComment = [] :=
    List.filter_eq_nil_iff.2 fun t htm => by rw [hnc t htm]; decide
  rw [f1, f2] at hlex'
  have hb := bare_same ht hw
  have htk : p.tokens = (lexemes [] 0 ps).filter fun t => !isComment t := by rw [← a1, hlex]
  rw [← htk] at hb
  have hk : p.tokens.map (·.kind) = (lexemes [] 0 (bareChunks [] ps)).map (·.kind) := by
    have := congrArg (List.map (·.kind)) hb
    simp only [List.map_map] at this
    exact this.symm
  obtain ⟨p', out', h', c1, c2⟩ := accepted_kinds h hlex' rfl hk
  have hb' : p'.tokens.map bareTok = p.tokens.map bareTok := by rw [c1]; exact hb
  exact ⟨p', out', h', c2, hb', C62_same_layout eol name src out name _ out' p p' h h' hb'⟩

/-! ### Example -/

/-- a comment that survives and one that is lost, which contains a line break -/
def exTwoComments : Text := c!"model A // c\n\nReal x /* a\nb */ = 1;\nend A;"

def exTwoCommentsDiv : List (Text × Chunk) :=
  [([], .token .Model c!"model"), (c!" ", .token .Identifier c!"A"), (c!" ", .token .LineComment c!"// c"),
   (c!"\n\n", .token .Identifier c!"Real"), (c!" ", .token .Identifier c!"x"),
   (c!" ", .token .BlockComment c!"/* a\nb */"), (c!" ", .token .Equal c!"="), (c!" ", .token .UInt c!"1"),
   ([], .token .Semicolon c!";"), (c!"\n", .token .End c!"end"), (c!" ", .token .Identifier c!"A"),
   ([], .token .Semicolon c!";")]

/-- The hypotheses of `C62_uncommented` hold of this text, and without comments it reads as follows. -/
example : Divided exTwoComments exTwoCommentsDiv ∧ exTwoComments = spread exTwoCommentsDiv [] ∧
    (exTwoCommentsDiv.head?.all fun x => !x.2.comment) = true ∧
    (∃ p, Formatted c!"\n" c!"f" exTwoComments p c!"model A // c\n\n  Real x = 1;\n\nend A;\n") ∧
    uncommented exTwoCommentsDiv [] = c!"model A  \n\nReal x  \n = 1;\nend A;" ∧
    ∃ p, Formatted c!"\n" c!"f" (uncommented exTwoCommentsDiv []) p c!"model A\n\n  Real x = 1;\n\nend A;\n" := by
  refine ⟨?_, by decide, rfl, ?_, by decide, ?_⟩
  · refine divided_token (w := []) (r := c!" A // c\n\nReal x /* a\nb */ = 1;\nend A;") (k := .Model) (c := 'm')
      (t := c!"odel") rfl (by decide +kernel) ?_
    refine divided_token (w := c!" ") (r := c!" // c\n\nReal x /* a\nb */ = 1;\nend A;") (k := .Identifier) (c := 'A')
      (t := []) rfl (by decide +kernel) ?_
    refine divided_token (w := c!" ") (r := c!"\n\nReal x /* a\nb */ = 1;\nend A;") (k := .LineComment) (c := '/')
      (t := c!"/ c") rfl (by decide +kernel) ?_
    refine divided_token (w := c!"\n\n") (r := c!" x /* a\nb */ = 1;\nend A;") (k := .Identifier) (c := 'R')
      (t := c!"eal") rfl (by decide +kernel) ?_
    refine divided_token (w := c!" ") (r := c!" /* a\nb */ = 1;\nend A;") (k := .Identifier) (c := 'x')
      (t := []) rfl (by decide +kernel) ?_
    refine divided_token (w := c!" ") (r := c!" = 1;\nend A;") (k := .BlockComment) (c := '/')
      (t := c!"* a\nb */") rfl (by decide +kernel) ?_
    refine divided_token (w := c!" ") (r := c!" 1;\nend A;") (k := .Equal) (c := '=') (t := []) rfl (by decide +kernel) ?_
    refine divided_token (w := c!" ") (r := c!";\nend A;") (k := .UInt) (c := '1') (t := []) rfl (by decide +kernel) ?_
    refine divided_token (w := []) (r := c!"\nend A;") (k := .Semicolon) (c := ';') (t := []) rfl (by decide +kernel) ?_
    refine divided_token (w := c!"\n") (r := c!" A;") (k := .End) (c := 'e') (t := c!"nd") rfl (by decide +kernel) ?_
    refine divided_token (w := c!" ") (r := c!";") (k := .Identifier) (c := 'A') (t := []) rfl (by decide +kernel) ?_
    exact divided_token (w := []) (r := []) (k := .Semicolon) (c := ';') (t := []) rfl (by decide +kernel) (.done rfl)
  · exact ⟨match parse c!"f" exTwoComments .StoredDefinition with | .ok p => p | _ => ⟨[], [], [], []⟩,
      by decide_cbv, by decide_cbv, c!"model A // c\n\n  Real x = 1;\n\nend A;", by decide_cbv, rfl⟩
  · exact ⟨match parse c!"f" (uncommented exTwoCommentsDiv []) .StoredDefinition with | .ok p => p | _ => ⟨[], [], [], []⟩,
      by decide_cbv, by decide_cbv, c!"model A\n\n  Real x = 1;\n\nend A;", by decide_cbv, rfl⟩

end Mofmt
