import Verif.Proofs.LibRun
import Verif.Props.Roundtrip
import Verif.Proofs.Influence
/-
The text of a tree whose root is any production, token by token.
-/
namespace Mofmt
open Lexical

/-! ### The layout -/

/-- the layout after the imagined token -/
def LS.after (C : List Token) (k : Tok) : LS := { out := [.txt fake], comments := C, line := 1, kind := k }

theorem LS.after_run (C : List Token) (k k' : Tok) : ∀ ds : List (Dec × Token),
    ((LS.after C k).run ds).out = ((LS.after C k').run ds).out
  | [] => rfl
  | (d, t) :: ds => by
    have : (LS.after C k).step (d, t) = (LS.after C k').step (d, t) := by cases d <;> rfl
    simp only [LS.run, List.foldl_cons, this]

theorem LS.dec_nil (L : LS) (d : Dec) : (L.dec d []).out = L.out ∨ (L.dec d []).out = .sp :: L.out := by
  cases d with
  | none => exact .inl rfl
  | space => exact .inr rfl
  | brk b n => exact .inl rfl

theorem kset_or (a b : KSet) (k : Tok) : KSet.has (a ||| b) k = (KSet.has a k || KSet.has b k) := by
  simp [KSet.has, Nat.testBit_or]

/-- Lookup in the tables with the beginning of the text. -/
def libOk (k : Tok) (g : Gap) : KSet := libTabs.ok k g ||| KSet.bit .EOF

theorem Pairs.libOk : ∀ {ds : List (Dec × Token)} {k : Tok}, Pairs libTabs.ok k ds → Pairs libOk k ds
  | [], _, _ => trivial
  | (d, t) :: ds, k, h => ⟨by rw [Mofmt.libOk, kset_or, h.1]; rfl, Pairs.libOk h.2⟩

theorem Pairs.libEof : ∀ {ds : List (Dec × Token)} {k : Tok}, Pairs libTabs.ok k ds → Pairs Mofmt.libOk .EOF ds
  | [], _, _ => trivial
  | (d, t) :: ds, k, h => ⟨by
      rw [Mofmt.libOk, kset_or]
      have : KSet.has (KSet.bit .EOF) .EOF = true := by decide
      rw [this, Bool.or_true], Pairs.libOk h.2⟩

/-- Formatting a tree that conforms to the grammar: the decisions, and what is printed. -/
theorem lib_format {k : SK} {cs : List Tree} {C : List Token} (hcs : cs ≠ []) (hE : hasEmptyF cs = false)
    (hCf : (Tree.node k cs).Conforms) (hw : WF (LS.init C) (leavesF cs)) :
    ∃ marks ds out n, format (.node k cs) C = .ok marks ∧ ds.map (·.2) = leavesF cs ∧ Pairs Mofmt.libOk .EOF ds ∧
      scanMarks marks.reverse = some (out, n) ∧
      ∃ lead tail, (lead = [] ∨ lead = [Piece.sp]) ∧ (tail = [] ∨ tail = [Piece.sp]) ∧
        lead ++ out.reverse = ((LS.after C .EOF).groups ds).flatMap PGroup.pieces ++ tail := by
  have hk : k ≠ .Error := by
    rintro rfl
    exact lang_none hCf.1
  have hsub := trTree_sound lib_valid (.node k cs) k cs rfl (by simp [Tree.hasEmpty, hcs, hE]) hCf
    (fun h => by cases h) []
  have hen : ({}, Gap.none, KSet.bit .LineComment) ∈ libTabs.entry k := List.mem_cons_self
  obtain ⟨w, es, ds, d', n', ex, h1, h2, h3, h4, h5, h6, h7, h8, h9, h10⟩ :=
    hsub _ hen (some fake) .none 0 rfl (by decide)
  rw [← trTree_deaf (.node k cs) k {} none (some fake) (.inr ⟨rfl, rfl⟩)] at h1
  have h8' : Walk ⟨.LineComment, .none, 0, leavesF cs⟩ es ds ⟨kindOf (lastT (some fake) es), d', n', []⟩ := by
    simpa [Tree.leaves, kindOf, fsOf, fake] using h8
  have hw' : WF (LS.after C .LineComment) (leavesF cs) := ⟨hw.cs, hw.cl, hw.ts, hw.tl, hw.ct⟩
  obtain ⟨s', g1, g2, g3, g4⟩ := h8'.playAll
    (s := { comments := C, marks := [.token fake], prevTok := .LineComment, prevLine := 1 })
    (L := LS.after C .LineComment) rfl
    (by
      rw [LS.dec_none]
      exact ⟨rfl, rfl, rfl, rfl, (fun h => by cases h), (fun _ h => by cases h)⟩) hw'
  have hsame : SameL (FState.init C)
      { comments := C, marks := [.token fake], prevTok := .LineComment, prevLine := 1 } :=
    ⟨rfl, rfl, [.token fake], .inl rfl, rfl, fun _ => rfl⟩
  have hpl := hsame.playAll es
  rw [g1] at hpl
  generalize hres : playAll es (FState.init C) = res at hpl
  cases hpl with
  | @ok s _ hs =>
    have hsim := trTree_sim Fmt.body (.node k cs) _ _ _ (FState.init C) _ _ _ h1 ⟨rfl, rfl⟩ hres
    obtain ⟨_, _, pre, p1, p2, p3⟩ := hs
    have hscan := g3.scan
    rw [p2] at hscan
    have hpre : ∃ o lead, scanMarks pre = some (o, 0) ∧ (lead = [] ∨ lead = [Piece.sp]) ∧
        o.reverse = [.txt fake] ++ lead := by
      rcases p1 with rfl | rfl
      · exact ⟨[.txt fake], [], rfl, .inl rfl, rfl⟩
      · exact ⟨[.sp, .txt fake], [.sp], rfl, .inr rfl, rfl⟩
    obtain ⟨o, lead, o1, o2, o3⟩ := hpre
    obtain ⟨out, q1, q2⟩ := scan_app hscan o1
    simp only at q1 q2
    have hds : ds.map (·.2) = leavesF cs := by
      have := h8'.todo
      rw [h8'.toks]
      simpa using this.symm
    refine ⟨s.marks.reverse, ds, out, n', ?_, hds, h9.pairs.libEof, by rw [List.reverse_reverse]; exact q1,
      lead, ?_⟩
    · simp only at hsim
      cases k <;> first | exact absurd rfl hk | (simp only [format, hsim]; rfl)
    · have hrun : ((LS.after C .LineComment).run ds).out.reverse =
          [.txt fake] ++ ((LS.after C .EOF).groups ds).flatMap PGroup.pieces := by
        rw [LS.after_run C .LineComment .EOF, LS.run_out]; rfl
      have hrev := congrArg List.reverse q2
      rw [List.reverse_append, o3] at hrev
      rcases LS.dec_nil ((LS.after C .LineComment).run ds) d' with hd | hd
      · rw [hd, hrun] at hrev
        refine ⟨[], o2, .inl rfl, ?_⟩
        simp only [List.cons_append, List.nil_append, List.cons.injEq, true_and] at hrev
        simp [hrev]
      · rw [hd, List.reverse_cons, hrun] at hrev
        refine ⟨[.sp], o2, .inr rfl, ?_⟩
        simp only [List.cons_append, List.nil_append, List.cons.injEq, true_and] at hrev
        rw [hrev]

/-! ### The lexemes -/

/-- a blank before the first lexeme is dropped -/
theorem segs_lead {l : List Seg} {R : List Piece} (h : .sp :: R = l.flatMap Seg.pieces) :
    ∃ t rest, l = (some .sp, t) :: rest ∧ R = ((none, t) :: rest : List Seg).flatMap Seg.pieces := by
  cases l with
  | nil => cases h
  | cons s rest =>
    obtain ⟨w, t⟩ := s
    cases w with
    | none => simp [Seg.pieces] at h
    | some p =>
      simp only [List.flatMap_cons, Seg.pieces, Option.toList_some, List.cons_append, List.nil_append,
        List.cons.injEq] at h
      obtain ⟨rfl, h⟩ := h
      exact ⟨t, rest, rfl, by simp [Seg.pieces, h]⟩

theorem pieces_segs (gs : List PGroup) :
    gs.flatMap PGroup.pieces = (gs.flatMap PGroup.segs).flatMap Seg.pieces := by
  induction gs with
  | nil => rfl
  | cons g gs ih =>
    simp only [List.flatMap_cons, List.flatMap_append, ih]
    simp [PGroup.pieces, PGroup.segs, Seg.pieces]

/-- what is parsed, for any production -/
theorem parse_lexK {name src : Text} {k : SK} {p : Parsed} (h : parse name src k = .ok p) :
    ∃ l errs, lex name src = .ok l ∧ l.tokens = p.tokens ∧ l.comments = p.comments ∧
      p.errors = l.errors ++ errs ∧ events name p.tokens k = .ok (p.events, errs) := by
  obtain ⟨l, hl, h⟩ := Res.bind_eq_ok.1 h
  obtain ⟨⟨evs, errs⟩, h2, h⟩ := Res.bind_eq_ok.1 h
  simp only [Res.ok.injEq] at h
  subst h
  exact ⟨l, errs, hl, rfl, rfl, rfl, h2⟩

/-- The facts about the order of tokens and comments. -/
theorem parse_order {name src : Text} {k : SK} {p : Parsed} (h : parse name src k = .ok p) :
    Order p.tokens p.comments ∧ (∀ t ∈ p.tokens, ∀ c ∈ p.comments, c.idx ≠ t.idx) ∧
      (∀ c ∈ p.comments, isComment c = true) ∧ (∀ t ∈ p.tokens, isComment t = false) ∧
      p.tokens.Pairwise (fun a b => a.idx < b.idx) ∧ p.comments.Pairwise (fun a b => a.idx < b.idx) ∧
      WF (LS.init p.comments) p.tokens ∧
      ∀ t ∈ p.tokens ++ p.comments, Class t.kind t.text ∧ asciiEnd t.text = true := by
  obtain ⟨lx, errs, hl, l1, l2, _, _⟩ := parse_lexK h
  obtain ⟨all, o1, o2, o3, o4⟩ := lexed_order hl
  have hcm : ∀ c ∈ p.comments, c ∈ all ∧ isComment c = true := by
    intro c hc; rw [← l2, o2] at hc; exact List.mem_filter.mp hc
  have htm : ∀ t ∈ p.tokens, t ∈ all ∧ isComment t = false := by
    intro t ht; rw [← l1, o1] at ht; have := List.mem_filter.mp ht; exact ⟨this.1, by simpa using this.2⟩
  refine ⟨⟨?_, fun c hc => o4 c (hcm c hc).1, ?_, ?_⟩, ?_, fun c hc => (hcm c hc).2, fun t ht => (htm t ht).2,
    ?_, ?_, ?_, ?_⟩
  · rw [← l2, o2]; exact o3.sublist List.filter_sublist
  · intro t ht c hc hi
    rcases pairwise_two o3 (htm t ht).1 (hcm c hc).1 with rfl | h | h
    · omega
    · exact h.2
    · have := h.1; omega
  · intro t ht
    refine ⟨?_, ?_⟩
    · intro hk
      have := (htm t ht).2
      simp [isComment, hk] at this
    · intro hk
      have := ((C19_classes _ _ _ hl).1 t (l1 ▸ ht)).1
      rw [hk] at this
      cases this
  · intro t ht c hc
    rcases pairwise_two o3 (hcm c hc).1 (htm t ht).1 with h | h | h
    · subst h
      have := (htm c ht).2
      rw [(hcm c hc).2] at this; cases this
    · have := h.1; omega
    · have := h.1; omega
  · rw [← l1, o1]; exact (o3.sublist List.filter_sublist).imp (fun h => h.1)
  · rw [← l2, o2]; exact (o3.sublist List.filter_sublist).imp (fun h => h.1)
  · rw [← l1, ← l2]; exact lexed_wf hl
  · have hcl := C19_classes _ _ _ hl
    have ha := lex_asciiEnd hl
    rw [l1, l2] at hcl ha
    intro t ht
    refine ⟨?_, ha t ht⟩
    rcases List.mem_append.mp ht with ht | ht
    · exact (hcl.1 t ht).1
    · exact (hcl.2 t ht).1

/-- The lexemes of groups with the white space before them. -/
theorem groups_filters {eol name src : Text} {k : SK} {p : Parsed} (h : parse name src k = .ok p)
    {ok : Tok → Gap → KSet} {ds : List (Dec × Token)} {gs : List PGroup} (a3 : ds.map (·.2) = p.tokens)
    (a4 : gs.map (·.tok) = p.tokens) (a5 : GroupsOK ok p.comments none ds gs) :
    ((gs.flatMap PGroup.segs).map (·.2)).filter (fun t => !isComment t) = p.tokens ∧
    (((gs.flatMap PGroup.segs).map (·.2)).filter isComment).Sublist p.comments ∧
    ∀ x ∈ (gs.flatMap PGroup.segs).map (segLex eol), SameLine x.1 ∨ LineBreak eol x.1 := by
  obtain ⟨_, hne, hC, hT, hts, hcs, _, _⟩ := parse_order h
  have hls : (groupLexemes (gs.map (PGroup.toGroup eol))).map (·.2) = (gs.flatMap PGroup.segs).map (·.2) := by
    rw [groupLexemes_segs, List.map_map]; rfl
  rw [← groupLexemes_segs, ← hls]
  have hm := GroupsOK.mem ds gs none a5
  have hf := lexemes_filter hC (gs.map (PGroup.toGroup eol)) (by
      intro g hg
      obtain ⟨g', hg', rfl⟩ := List.mem_map.mp hg
      exact hT _ (a4 ▸ List.mem_map_of_mem (f := (·.tok)) hg'))
    (by
      intro g hg
      obtain ⟨g', hg', rfl⟩ := List.mem_map.mp hg
      obtain ⟨d, pr, hk⟩ := hm.2 g' hg'
      exact hk.com_mem eol)
  refine ⟨?_, ?_, ?_⟩
  · rw [hf.1, ← a4]; simp [PGroup.toGroup, Function.comp_def]
  · rw [hf.2]
    obtain ⟨k, s1, _⟩ := GroupsOK.sublist (eol := eol) hcs ds gs none a5 (a3 ▸ hts) (by
      intro x hx
      exact ⟨Nat.zero_le _, hne _ (a3 ▸ List.mem_map_of_mem hx)⟩)
    rw [List.flatMap_map]
    exact s1.trans (List.filter_sublist)
  · intro x hx
    simp only [groupLexemes, List.mem_flatMap, List.mem_map] at hx
    obtain ⟨g, ⟨g', hg', rfl⟩, hx⟩ := hx
    obtain ⟨d, pr, hk⟩ := hm.2 g' hg'
    exact hk.com_white eol x hx

theorem libOk_full {j k : Tok} {g : Gap} (h1 : j ≠ .LineComment) (h2 : j ≠ .EOF)
    (h : (Mofmt.libOk k g).has j = true) : (fullTabs.ok k g).has j = true := by
  simp only [libOk, libTabs, kset_or, Bool.or_eq_true] at h
  have b : ∀ x : Tok, j ≠ x → KSet.has (KSet.bit x) j = false := by
    intro x hx
    have := KSet.has_of [x] j
    have e : KSet.of [x] = KSet.bit x := by simp [KSet.of]
    rw [e] at this
    rw [this]
    simpa using hx
  rcases h with (h | h) | h
  · exact h
  · rw [b _ h1] at h; cases h
  · rw [b _ h2] at h; cases h

theorem GroupsOK.full {C T : List Token} (hO : Order T C) : ∀ (ds : List (Dec × Token)) (gs : List PGroup) (t : Token),
    t ∈ T → (∀ x ∈ ds, x.2 ∈ T) → GroupsOK Mofmt.libOk C (some t) ds gs →
    GroupsOK fullTabs.ok C (some t) ds gs
  | [], [], _, _, _, _ => trivial
  | [], _ :: _, _, _, _, h => h.elim
  | _ :: _, [], _, _, _, h => h.elim
  | x :: ds, g :: gs, t, ht, hT, h => by
    have hx := hT x List.mem_cons_self
    obtain ⟨k1, k2⟩ := hO.kinds t ht
    exact ⟨⟨libOk_full k1 k2 h.1.pair, h.1.none, h.1.space, h.1.brk, h.1.com⟩, h.2.1,
      GroupsOK.full hO ds gs x.2 hx (fun y hy => hT y (List.mem_cons_of_mem _ hy)) h.2.2⟩

theorem GOK.chain_first {ok : Tok → Gap → KSet} {C T : List Token} {d : Dec} {g : PGroup}
    (h : GOK ok C Option.none d g) (hO : Order T C) (hL : LineCommentsEnd C) : Chain Option.none g.segs := by
  cases d with
  | none =>
    obtain ⟨h1, h2⟩ := h.none rfl
    rw [PGroup.segs, h1, h2]
    exact ⟨trivial, trivial⟩
  | space =>
    obtain ⟨h1, h2⟩ := h.space rfl
    rw [PGroup.segs, h1, h2]
    exact ⟨trivial, trivial⟩
  | brk b n =>
    obtain ⟨h1, h2, _, _⟩ := h.brk b n rfl
    have hpw : (g.comments.map (·.2)).Pairwise (fun a b => a.idx < b.idx) := by
      rw [h2]; exact (hO.sorted.sublist List.filter_sublist).imp (fun h => h.1)
    refine Chain.append (com_chain (prev := .none) (hd := g.comments.head?) hL (by simp) _ _ h.com
      (.inl ⟨rfl, fun _ => rfl⟩) ?_ hpw ?_) ⟨?_, trivial⟩
    · intro s hs
      have hm : s.2 ∈ commentsFrom (indexAfter .none) g.tok.idx C := h2 ▸ List.mem_map_of_mem hs
      simp only [commentsFrom, List.mem_filter, decide_eq_true_eq] at hm
      refine ⟨hm.1, ?_⟩
      have hl := hO.lines s.2 hm.1
      simp only [lineOf]; omega
    · intro s hs he
      cases hc : g.comments with
      | nil => rw [hc] at hs; cases hs
      | cons x xs =>
        rw [hc] at hs he hpw
        simp only [List.head?_cons, Option.some.injEq, List.tail_cons] at hs he
        subst he
        simp only [List.map_cons, List.pairwise_cons] at hpw
        have := hpw.1 x.2 (List.mem_map_of_mem hs)
        omega
    · have : ∀ o, NextO o (g.white, g.tok) := by
        intro o
        cases o with
        | none => trivial
        | some t => exact .inl h1
      exact this _

theorem GroupsOK.chain_first {C T : List Token} (hO : Order T C) (hL : LineCommentsEnd C)
    (ds : List (Dec × Token)) (gs : List PGroup) (h : GroupsOK Mofmt.libOk C none ds gs) (hT : ∀ x ∈ ds, x.2 ∈ T) :
    Chain none (gs.flatMap PGroup.segs) := by
  match ds, gs with
  | [], [] => trivial
  | [], _ :: _ => exact h.elim
  | _ :: _, [] => exact h.elim
  | x :: ds, g :: gs =>
    rw [List.flatMap_cons]
    refine Chain.append (h.1.chain_first hO hL) ?_
    rw [g.segs_last]
    simp only [h.2.1]
    have hx := hT x List.mem_cons_self
    have hT' : ∀ y ∈ ds, y.2 ∈ T := fun y hy => hT y (List.mem_cons_of_mem _ hy)
    refine GroupsOK.chain hO hL ds gs (some x.2) (GroupsOK.full hO ds gs x.2 hx hT' h.2.2) hT' ?_
    rintro t ⟨⟩
    exact hx

theorem leavesF_ne {cs : List Tree} (hcs : cs ≠ []) (hE : hasEmptyF cs = false) : leavesF cs ≠ [] := by
  cases cs with
  | nil => exact absurd rfl hcs
  | cons c cs =>
    simp only [hasEmptyF, Bool.or_eq_false_iff] at hE
    simp only [leavesF]
    intro h
    exact leaves_ne hE.1 (List.append_eq_nil_iff.mp h).1

/-- The text of a tree that conforms to the grammar. -/
theorem lib_text {name src : Text} {k : SK} {p : Parsed} {cs : List Tree} (h : parse name src k = .ok p)
    (hcs : cs ≠ []) (hE : hasEmptyF cs = false) (hCf : (Tree.node k cs).Conforms)
    (hl : leavesF cs = p.tokens) (hb : buildTree p.tokens p.events = .ok (.node k cs)) :
    ∃ (l : List Seg) (tail : Text), (tail = [] ∨ tail = [' ']) ∧
      (∀ eol, prettyPrint eol p.tokens p.comments p.events = .ok (lexemesText (l.map (segLex eol)) ++ tail)) ∧
      (l.map (·.2)).filter (fun t => !isComment t) = p.tokens ∧
      ((l.map (·.2)).filter isComment).Sublist p.comments ∧
      (∀ eol, ∀ x ∈ l.map (segLex eol), SameLine x.1 ∨ LineBreak eol x.1) ∧
      (LineCommentsEnd p.comments → Chain none l) ∧
      ∀ t, (l.map (·.2)).getLast? = some t → t ∈ p.tokens := by
  obtain ⟨hO, hne, hC, hT, hts, hcs', hw, _⟩ := parse_order h
  obtain ⟨marks, ds, out, n, f1, f2, f3, f4, lead, tail, t1, t2, t3⟩ :=
    lib_format (C := p.comments) hcs hE hCf (hl ▸ hw)
  rw [hl] at f2
  have hgs : GroupsOK Mofmt.libOk p.comments none ds ((LS.after p.comments .EOF).groups ds) := by
    refine groups_ok ds _ none ⟨?_, rfl, rfl, fun _ => rfl⟩ (f2 ▸ ⟨hw.cs, hw.cl, hw.ts, hw.tl, hw.ct⟩) f3 ?_
    · simp [LS.after, indexAfter, List.filter_eq_self.mpr]
    · intro x hx
      exact ⟨Nat.zero_le _, hne _ (f2 ▸ List.mem_map_of_mem hx)⟩
  have htok := LS.groups_tok ds (LS.after p.comments .EOF)
  rw [f2] at htok
  have hfil := fun eol => groups_filters (eol := eol) h f2 htok hgs
  have hch : LineCommentsEnd p.comments → Chain none (((LS.after p.comments .EOF).groups ds).flatMap PGroup.segs) :=
    fun hL => GroupsOK.chain_first hO hL ds _ hgs (fun x hx => f2 ▸ List.mem_map_of_mem hx)
  have hlast : ∀ t, ((((LS.after p.comments .EOF).groups ds).flatMap PGroup.segs).map (·.2)).getLast? = some t →
      t ∈ p.tokens := by
    rw [← htok]
    intro t ht
    rcases List.eq_nil_or_concat ((LS.after p.comments .EOF).groups ds) with h | ⟨gs', g, h⟩
    · rw [h] at ht; cases ht
    · rw [h] at ht ⊢
      simp [PGroup.segs] at ht
      subst ht
      simp
  rw [pieces_segs] at t3
  generalize ((LS.after p.comments .EOF).groups ds).flatMap PGroup.segs = l at t3 hfil hch hlast
  have hpr : ∀ eol, prettyPrint eol p.tokens p.comments p.events = .ok (piecesText eol out.reverse) := by
    intro eol
    have := printMarks_scan (eol := eol) f4
    rw [List.reverse_reverse] at this
    simp only [prettyPrint, hb, Res.bind_ok, f1, this]
  have htail : ∀ eol, ∃ x, (x = [] ∨ x = [' ']) ∧ piecesText eol tail = x := by
    intro eol
    rcases t2 with rfl | rfl
    · exact ⟨_, .inl rfl, rfl⟩
    · exact ⟨_, .inr rfl, rfl⟩
  have hseg : ∀ (eol : Text) (l : List Seg), piecesText eol (l.flatMap Seg.pieces) = lexemesText (l.map (segLex eol)) :=
    fun eol l => segs_text eol l
  have htt : ∃ x : Text, (x = [] ∨ x = [' ']) ∧ ∀ eol, piecesText eol tail = x := by
    rcases t2 with rfl | rfl
    · exact ⟨_, .inl rfl, fun _ => rfl⟩
    · exact ⟨_, .inr rfl, fun _ => rfl⟩
  obtain ⟨x, x1, x2⟩ := htt
  rcases t1 with rfl | rfl
  · refine ⟨l, x, x1, ?_, (hfil []).1, (hfil []).2.1, fun eol => (hfil eol).2.2, hch, hlast⟩
    intro eol
    rw [hpr, ← List.nil_append out.reverse, t3, piecesText_append, hseg, x2]
  · cases hlnil : l with
    | nil =>
      have := (hfil []).1
      rw [hlnil] at this
      simp only [List.map_nil, List.filter_nil] at this
      have hle : leavesF cs = [] := by rw [hl, ← this]
      exact absurd hle (leavesF_ne hcs hE)
    | cons s l' =>
      have hs : l.flatMap Seg.pieces = s.pieces ++ l'.flatMap Seg.pieces := by rw [hlnil]; rfl
      have hR : ∃ R, l.flatMap Seg.pieces = .sp :: R ∧ out.reverse = R ++ tail := by
        cases hf : l.flatMap Seg.pieces with
        | nil => rw [hf] at hs; simp [Seg.pieces] at hs
        | cons y R =>
          rw [hf] at t3
          simp only [List.cons_append, List.nil_append, List.cons.injEq] at t3
          exact ⟨R, by rw [t3.1], t3.2⟩
      obtain ⟨R, r1, r2⟩ := hR
      obtain ⟨t, rest, e1, e2⟩ := segs_lead r1.symm
      have e3 : (((none, t) :: rest : List Seg).map (·.2)) = l.map (·.2) := by rw [e1]; rfl
      refine ⟨(none, t) :: rest, x, x1, ?_, by rw [e3]; exact (hfil []).1, by rw [e3]; exact (hfil []).2.1, ?_, ?_, by rw [e3]; exact hlast⟩
      · intro eol
        rw [hpr, r2, piecesText_append, x2, e2, hseg]
      · intro eol y hy
        rcases List.mem_cons.mp hy with rfl | hy
        · exact .inl (.inl rfl)
        · refine (hfil eol).2.2 y ?_
          rw [e1]; exact List.mem_cons_of_mem _ hy
      · intro hL
        have := hch hL
        rw [e1] at this
        exact ⟨trivial, this.2⟩

end Mofmt
