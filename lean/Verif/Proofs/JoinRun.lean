import Verif.Proofs.Join
/-
Two files, one after the other: tree, markers and text.
-/
set_option linter.unusedSectionVars false

namespace Mofmt

/-! ### Trees over other tokens of the same kinds -/

section
variable {f : Token → Token} (hk : ∀ t, (f t).kind = t.kind)

include hk in
theorem sym_map (t : Tree) : (t.map f).sym = t.sym := by
  cases t with
  | tok t => simp only [Tree.map, Tree.sym, hk]
  | node k cs => rfl

mutual
theorem map_leaves (t : Tree) : (t.map f).leaves = t.leaves.map f := by
  match t with
  | .tok t => rfl
  | .node k cs => simp only [Tree.map, Tree.leaves, mapF_leaves cs]
theorem mapF_leaves (cs : List Tree) : leavesF (mapTrees f cs) = (leavesF cs).map f := by
  match cs with
  | [] => rfl
  | c :: cs => simp only [mapTrees, leavesF, map_leaves c, mapF_leaves cs, List.map_append]
end

mutual
theorem map_hasEmpty (t : Tree) : (t.map f).hasEmpty = t.hasEmpty := by
  match t with
  | .tok t => rfl
  | .node k cs =>
    simp only [Tree.map, Tree.hasEmpty, mapF_hasEmpty cs]
    congr 1
    cases cs <;> rfl
theorem mapF_hasEmpty (cs : List Tree) : hasEmptyF (mapTrees f cs) = hasEmptyF cs := by
  match cs with
  | [] => rfl
  | c :: cs => simp only [mapTrees, hasEmptyF, map_hasEmpty c, mapF_hasEmpty cs]
end

include hk in
theorem mapF_syms (cs : List Tree) : (mapTrees f cs).map Tree.sym = cs.map Tree.sym := by
  rw [mapTrees_eq, List.map_map]
  exact List.map_congr_left fun c _ => sym_map hk c

include hk in
mutual
theorem map_conforms (t : Tree) (h : t.Conforms) : (t.map f).Conforms := by
  match t with
  | .tok t => trivial
  | .node k cs =>
    simp only [Tree.map, Tree.Conforms] at h ⊢
    exact ⟨by rw [mapF_syms hk]; exact h.1, mapF_conforms cs h.2⟩
theorem mapF_conforms (cs : List Tree) (h : ConformsF cs) : ConformsF (mapTrees f cs) := by
  match cs with
  | [] => trivial
  | c :: cs => exact ⟨map_conforms c h.1, mapF_conforms cs h.2⟩
end

include hk in
theorem map_startsOk (p : SK) (t : Tree) : (t.map f).startsOk p = t.startsOk p := by
  cases t with
  | tok t => rfl
  | node k cs =>
    simp only [Tree.map, Tree.startsOk, mapF_leaves]
    cases leavesF cs with
    | nil => rfl
    | cons x xs => simp only [List.map_cons, hk]

include hk in
mutual
theorem map_opens (t : Tree) (h : t.Opens) : (t.map f).Opens := by
  match t with
  | .tok t => trivial
  | .node k cs =>
    simp only [Tree.map, Tree.Opens] at h ⊢
    refine ⟨?_, mapF_opens cs h.2⟩
    intro c hc
    rw [mapTrees_eq] at hc
    obtain ⟨d, hd, rfl⟩ := List.mem_map.1 hc
    rw [map_startsOk hk]
    exact h.1 d hd
theorem mapF_opens (cs : List Tree) (h : OpensF cs) : OpensF (mapTrees f cs) := by
  match cs with
  | [] => trivial
  | c :: cs => exact ⟨map_opens c h.1, mapF_opens cs h.2⟩
end
end

mutual
theorem map_same {f : Token → Token} (t : Tree) (h : ∀ x ∈ t.leaves, f x = x) : t.map f = t := by
  match t with
  | .tok t => simp only [Tree.map, h t (by simp [Tree.leaves])]
  | .node k cs => simp only [Tree.map, mapF_same cs h]
theorem mapF_same {f : Token → Token} (cs : List Tree) (h : ∀ x ∈ leavesF cs, f x = x) : mapTrees f cs = cs := by
  match cs with
  | [] => rfl
  | c :: cs =>
    simp only [leavesF, List.mem_append] at h
    simp only [mapTrees, map_same c (fun x hx => h x (.inl hx)), mapF_same cs (fun x hx => h x (.inr hx))]
end

/-! ### Stored definitions -/

theorem star_append {r : RE} {u v : List Sym} (h : Lang (.star r) u) (h' : Lang (.star r) v) : Lang (.star r) (u ++ v) := by
  generalize e : RE.star r = x at h
  induction h with
  | starNil => cases e; exact h'
  | starCons h1 h2 _ ih =>
    cases e
    rw [List.append_assoc]
    exact .starCons h1 (ih rfl)
  | _ => cases e

theorem star_last {r : RE} {a : Sym} (hr : ∀ w, Lang r w → ∃ v, w = v ++ [a]) {u : List Sym} (h : Lang (.star r) u) :
    u = [] ∨ ∃ v, u = v ++ [a] := by
  generalize e : RE.star r = x at h
  induction h with
  | starNil => exact .inl rfl
  | starCons h1 h2 _ ih =>
    cases e
    right
    rcases ih rfl with rfl | ⟨v, rfl⟩
    · obtain ⟨v, rfl⟩ := hr _ h1
      exact ⟨v, by simp⟩
    · exact ⟨_, (List.append_assoc ..).symm⟩
  | _ => cases e

/-- `[final] class_definition ";"` -/
def storedItem : RE := Gram.cat [Gram.opt (Gram.T .Final), Gram.N .ClassDefinition, Gram.T .Semicolon]

theorem storedItem_last (w : List Sym) (h : Lang storedItem w) : ∃ v, w = v ++ [.t .Semicolon] := by
  simp only [storedItem, Gram.cat, Gram.T, Gram.N] at h
  obtain ⟨u, v, rfl, _, h⟩ := lang_seq.1 h
  obtain ⟨u', v', rfl, _, h⟩ := lang_seq.1 h
  rw [lang_sym.1 h]
  exact ⟨u ++ u', by simp⟩

theorem stored_last {w : List Sym} (h : Lang (Gram.spec .StoredDefinition) w) : w = [] ∨ ∃ v, w = v ++ [.t .Semicolon] := by
  obtain ⟨u, v, rfl, h1, h2⟩ := lang_seq.1 h
  rcases star_last storedItem_last h2 with rfl | ⟨v, rfl⟩
  · rcases lang_alt.1 h1 with h1 | h1
    · obtain ⟨x, y, rfl, _, h⟩ := lang_seq.1 h1
      obtain ⟨x', y', rfl, _, h⟩ := lang_seq.1 h
      rw [lang_sym.1 h]
      exact .inr ⟨x ++ x', by simp⟩
    · rw [lang_eps.1 h1]; exact .inl rfl
  · exact .inr ⟨u ++ v, by simp⟩

theorem stored_star {a : Sym} {w : List Sym} (h : Lang (Gram.spec .StoredDefinition) (a :: w)) (ha : a ≠ .t .Within) :
    Lang (.star storedItem) (a :: w) := by
  obtain ⟨u, v, e, h1, h2⟩ := lang_seq.1 h
  rcases lang_alt.1 h1 with h1 | h1
  · obtain ⟨x, y, rfl, h, _⟩ := lang_seq.1 h1
    rw [lang_sym.1 h] at e
    exact absurd (List.cons.inj e).1 ha
  · rw [lang_eps.1 h1] at e
    rw [List.nil_append] at e
    rw [e]
    exact h2

theorem stored_join {u v : List Sym} (h : Lang (Gram.spec .StoredDefinition) u) (h' : Lang (.star storedItem) v) :
    Lang (Gram.spec .StoredDefinition) (u ++ v) := by
  obtain ⟨x, y, rfl, h1, h2⟩ := lang_seq.1 h
  rw [List.append_assoc]
  exact .seq h1 (star_append h2 h')

theorem star_syms {w : List Sym} (h : Lang (.star storedItem) w) :
    ∀ a ∈ w, a = .t .Final ∨ a = .n .ClassDefinition ∨ a = .t .Semicolon := by
  intro a ha
  have := syms_complete h a ha
  simpa [storedItem, Gram.cat, Gram.opt, Gram.T, Gram.N, RE.syms] using this

/-- The first definition of a file that does not start with `within` or `final`. -/
theorem stored_first {toks : List Token} {cs : List Tree} (h : Reading .StoredDefinition toks cs) {t0 : Token}
    {ts : List Token} (ht : toks = t0 :: ts) (h1 : t0.kind ≠ .Within) (h2 : t0.kind ≠ .Final) :
    Lang (.star storedItem) (cs.map Tree.sym) ∧ ∃ ds rest, cs = .node .ClassDefinition ds :: rest ∧
      (Tree.node .ClassDefinition ds).Conforms ∧ hasEmptyF ds = false ∧ ∃ us, leavesF ds = t0 :: us := by
  have hc := h.conforms
  simp only [Tree.Conforms] at hc
  obtain ⟨hc1, hc2⟩ := hc
  have hl := h.leaves
  have hf := h.full
  rw [ht] at hl
  cases cs with
  | nil => simp [leavesF] at hl
  | cons c cs =>
    simp only [List.map_cons] at hc1 ⊢
    have hW : c.sym ≠ .t .Within := by
      cases c with
      | tok x =>
        simp only [leavesF, Tree.leaves, List.singleton_append, List.cons.injEq] at hl
        rw [Tree.sym, hl.1]; simpa using h1
      | node k ds => simp [Tree.sym]
    have hs := stored_star hc1 hW
    refine ⟨hs, ?_⟩
    have hfirst : c.sym = .t .Final ∨ c.sym = .n .ClassDefinition := by
      generalize e : RE.star storedItem = x at hs
      generalize e2 : c.sym :: cs.map Tree.sym = y at hs
      induction hs with
      | starNil => cases e2
      | starCons h3 h4 _ ih =>
        cases e
        simp only [storedItem, Gram.cat, Gram.opt, Gram.T, Gram.N] at h3
        obtain ⟨u, v, rfl, h5, h6⟩ := lang_seq.1 h3
        rcases lang_alt.1 h5 with h5 | h5
        · rw [lang_sym.1 h5] at e2
          exact .inl (List.cons.inj e2).1
        · rw [lang_eps.1 h5] at e2
          obtain ⟨u', v', rfl, h7, _⟩ := lang_seq.1 h6
          rw [lang_sym.1 h7] at e2
          exact .inr (List.cons.inj e2).1
      | _ => cases e
    cases c with
    | tok x =>
      simp only [leavesF, Tree.leaves, List.singleton_append, List.cons.injEq] at hl
      rcases hfirst with e | e
      · simp only [Tree.sym, Sym.t.injEq, hl.1] at e
        exact absurd e h2
      · simp [Tree.sym] at e
    | node k ds =>
      rcases hfirst with e | e
      · simp [Tree.sym] at e
      · simp only [Tree.sym, Sym.n.injEq] at e
        subst e
        simp only [hasEmptyF, Tree.hasEmpty, Bool.or_eq_false_iff] at hf
        refine ⟨ds, cs, rfl, hc2.1, hf.1.2, ?_⟩
        simp only [leavesF, Tree.leaves] at hl
        cases hd : leavesF ds with
        | nil =>
          have := hf.1
          cases ds with
          | nil => simp at this
          | cons d ds =>
            obtain ⟨x, xs, hx, _⟩ := start_leaves (.node .ClassDefinition (d :: ds)) (by simp [Tree.hasEmpty, hf.1.2])
            simp only [Tree.leaves, hd] at hx
            cases hx
        | cons x xs =>
          rw [hd] at hl
          simp only [List.cons_append, List.cons.injEq] at hl
          exact ⟨xs, by rw [hl.1]⟩

/-! ### Markers -/

/-- The token further down in a file. -/
def Token.shift (n d : Nat) (t : Token) : Token :=
  { t with idx := t.idx + n, start := { t.start with line := t.start.line + d },
           stop := { t.stop with line := t.stop.line + d } }

/-- Tokens with a number below `n`. -/
def Token.below (n : Nat) (t : Token) : Token := if t.idx < n then t else { t with idx := 0 }

theorem below_idx {n : Nat} (h : 0 < n) (t : Token) : (t.below n).idx < n := by
  unfold Token.below
  split
  · assumption
  · exact h

theorem below_same {n : Nat} {t : Token} (h : t.idx < n) : t.below n = t := by simp [Token.below, h]

theorem Twin.same (B : Base) (f : Token → Token) (h : ∀ t, ∀ c ∈ B.later, ¬ c.idx < (f t).idx)
    (h' : ∀ t, ∀ c ∈ B.later', ¬ c.idx < (f t).idx) : Twin B True Eq f f :=
  ⟨fun _ _ => .rfl, fun _ _ => .rfl, fun _ => rfl, fun _ => rfl, fun _ => rfl, fun _ => rfl, h, h'⟩

theorem sameGaps_eq : SameGaps Eq := by
  rintro x _ y _ rfl rfl; rfl

theorem sameGaps_shift (d : Nat) : SameGaps fun x y => y = x + d := by
  rintro x _ y _ rfl rfl
  omega

theorem twin_shift (B : Base) (n d : Nat) (h : B.later = []) (h' : B.later' = []) :
    Twin B False (fun x y => y = x + d) id (Token.shift n d) :=
  ⟨fun t u => by simp [Token.shift], fun h => h.elim, fun _ => rfl, fun _ => rfl, fun _ => rfl, fun _ => rfl,
    by simp [h], by simp [h']⟩

theorem dropWhile_all {n : Nat} : ∀ {l m : List Token}, (∀ c ∈ l, c.idx < n) → (∀ c ∈ m, ¬ c.idx < n) →
    (l ++ m).dropWhile (·.idx < n) = m
  | [], m, _, h => (takeWhile_off h).2
  | c :: l, m, h, h' => by
    have := h c (List.mem_cons_self ..)
    simp only [List.cons_append, List.dropWhile_cons, this, decide_true, if_true]
    exact dropWhile_all (fun c hc => h c (List.mem_cons_of_mem _ hc)) h'

theorem mapTrees_id (cs : List Tree) : mapTrees id cs = cs := mapF_same cs fun _ _ => rfl

theorem marks_id (ms : List Marker) : ms.map (Marker.map id) = ms := by
  conv => rhs; rw [← List.map_id ms]
  apply List.map_congr_left
  intro m _
  cases m <;> rfl

/-- The first file, followed by something. -/
theorem first_run {ds : List Tree} {last : Token} {C1 L : List Token} {n : Nat} (hn : ∀ t ∈ leavesF ds, t.idx < n)
    (hl : last.idx < n) (hC : ∀ c ∈ C1, c.idx < last.idx) (hL : ∀ c ∈ L, n ≤ c.idx) (hk : last.kind = .Semicolon)
    {all : List Tree} {i : Nat} {s : FState}
    (h : fmtLoop Fmt.body Fmt.storedDefinition all (ds ++ [.tok last]) i {} (FState.init C1) = .ok ({}, s)) :
    fmtLoop Fmt.body Fmt.storedDefinition all (ds ++ [.tok last]) i {} (FState.init (C1 ++ L)) =
      .ok ({}, { s with comments := L, prevTok := .Semicolon, prevLine := last.stop.line }) := by
  let f := Token.below n
  have h0 : 0 < n := by omega
  let B : Base := { later' := L, pool := (· ∈ C1) }
  have hf : Twin B True Eq f f := .same B f (by simp [B]) (fun t c hc => by
    have := hL c hc
    have := below_idx h0 t
    simp only [f]; omega)
  have e : mapTrees f ds = ds := mapF_same ds fun x hx => below_same (hn x hx)
  have eC : C1.map f = C1 := by
    conv => rhs; rw [← List.map_id C1]
    exact List.map_congr_left fun c hc => below_same (by have := hC c hc; omega)
  have hs : TwinS B Eq f f (FState.init C1) (FState.init (C1 ++ L)) :=
    ⟨⟨C1, fun _ h => h, by simp [B, FState.init, eC], by simp [B, FState.init, eC]⟩, ⟨[], rfl, rfl⟩, rfl, rfl, rfl⟩
  have key := fmtLoop_twin sameGaps_eq hf Fmt.body (.inl trivial) Fmt.storedDefinition (.inl trivial) [] ds 0 {} hs
  rw [e] at key
  rw [fmtLoop_append stored_here all [] [.tok last] ds i 0 0] at h ⊢
  obtain ⟨⟨r1, s1⟩, h1, h2⟩ := Res.bind_eq_ok.1 h
  simp only [mapTrees] at key
  rw [h1] at key
  generalize hy : fmtLoop Fmt.body Fmt.storedDefinition [] ds 0 {} (FState.init (C1 ++ L)) = y at key ⊢
  cases key with
  | ok hxy =>
    rename_i y
    obtain ⟨r2, s2⟩ := y
    obtain ⟨rfl, hxy⟩ := hxy
    simp only at hxy h2
    obtain ⟨cs, c1, c2, c3⟩ := hxy.comments
    obtain ⟨ms, m1, m2⟩ := hxy.marks
    have htok : ∀ s : FState, fmtLoop Fmt.body Fmt.storedDefinition [] [.tok last] 0 r1 s = .ok (r1, s.handleToken last) := by
      intro s
      simp [fmtLoop, hk, Fmt.storedDefinition, fblk, execF]
    rw [htok] at h2
    simp only [Res.ok.injEq, Prod.mk.injEq] at h2
    obtain ⟨rfl, rfl⟩ := h2
    simp only [Res.bind_ok, htok]
    congr 2
    have hcs : ∀ c ∈ cs.map f, c.idx < last.idx := by
      intro c hc
      obtain ⟨d, hd, rfl⟩ := List.mem_map.1 hc
      have := hC d (c1 d hd)
      simp only [f, below_same (show d.idx < n by omega)]
      exact this
    have hd : s2.comments.dropWhile (·.idx < last.idx) = L := by
      rw [c3]
      exact dropWhile_all hcs fun c hc => by have := hL c hc; omega
    simp only [FState.handleToken, FState.dropTaken, hd, hk, m1, m2, B]

/-- The marker between two files. -/
def gapMark (d : Nat) : Marker := if d > 1 then .blank else .break

theorem handleBreak_none {s : FState} {t : Token} (h : ∀ c ∈ s.comments, ¬ c.idx < t.idx)
    (hl : s.prevLine ≤ t.start.line) :
    s.handleBreak t .Legal = .ok (s.push (gapMark (t.start.line - s.prevLine))) := by
  have h1 : s.taken t = [] := (takeWhile_off h).1
  have h2 : s.dropTaken t = s := by
    cases s
    simp only [FState.dropTaken, FState.mk.injEq, and_true]
    exact (takeWhile_off h).2
  simp [FState.handleBreak, h1, h2, pushInlines, pushComments, pushGap, subLine, hl, gapMark]

/-- The second file, after something. -/
theorem second_run {T2 : List Token} {cs : List Tree} (hr : Reading .StoredDefinition T2 cs) {t0 : Token}
    {ts : List Token} (ht : T2 = t0 :: ts) (h1 : t0.kind ≠ .Within) (h2 : t0.kind ≠ .Final) {C2 : List Token}
    (hC : ∀ c ∈ C2, ¬ c.idx < t0.idx) {n d : Nat} {M : List Marker} {l : Nat} (hl : l ≤ t0.start.line + d) {s : FState}
    (h : fmtLoop Fmt.body Fmt.storedDefinition [] cs 0 {} (FState.init C2) = .ok ({}, s)) :
    ∃ s', fmtLoop Fmt.body Fmt.storedDefinition [] (mapTrees (Token.shift n d) cs) 0 {}
        ⟨C2.map (Token.shift n d), M, .Semicolon, l⟩ = .ok ({}, s') ∧
      s'.marks = s.marks.map (Marker.map (Token.shift n d)) ++ gapMark (t0.start.line + d - l) :: M := by
  obtain ⟨hs, ds, rest, rfl, hc, he, us, hu⟩ := stored_first hr ht h1 h2
  let g := Token.shift n d
  let B : Base := { right := gapMark (t0.start.line + d - l) :: M }
  let R : Nat → Nat → Prop := fun x y => y = x + d
  have hf : Twin B False R id g := twin_shift B n d rfl rfl
  have hR : SameGaps R := sameGaps_shift d
  have hst : Tree.start? (.node .ClassDefinition ds) = some t0 := by
    obtain ⟨x, xs, hx, e⟩ := start_leaves (.node .ClassDefinition ds) (by
      cases ds with
      | nil => simp [leavesF] at hu
      | cons a ds => simp [Tree.hasEmpty, he])
    simp only [Tree.leaves, hu, List.cons.injEq] at hx
    rw [e, hx.1]
  have hst' : startTok ((Tree.node .ClassDefinition ds).map g) = .ok (g t0) := by
    rw [startTok, start_map, hst]; rfl
  let s0 : FState := ⟨C2.map g, M, .Semicolon, l⟩
  let s1 : FState := s0.push (gapMark (t0.start.line + d - l))
  have hbrk : s0.handleBreak (g t0) .Legal = .ok s1 := by
    refine handleBreak_none ?_ hl
    intro c hc
    obtain ⟨x, hx, rfl⟩ := List.mem_map.1 hc
    have := hC x hx
    simp only [g, Token.shift]; omega
  have hdrop : C2.dropWhile (·.idx < t0.idx) = C2 := (takeWhile_off hC).2
  have hdrop' : (C2.map g).dropWhile (·.idx < (g t0).idx) = C2.map g := (takeWhile_off (by
    intro c hc
    obtain ⟨x, hx, rfl⟩ := List.mem_map.1 hc
    have := hC x hx
    simp only [g, Token.shift]; omega)).2
  have htw : TwinS B R id g ((FState.init C2).handleToken t0) (s1.handleToken (g t0)) := by
    refine ⟨⟨C2, fun _ _ => trivial, ?_, ?_⟩, ⟨[.token t0], ?_, ?_⟩, rfl, rfl, rfl⟩
    · simp [FState.handleToken, FState.dropTaken, FState.init, hdrop, B]
    · simp only [FState.handleToken, FState.dropTaken, s1, s0, FState.push, hdrop', B, List.append_nil]
    · rfl
    · rfl
  have hcl := class_twin hR hf ds hc he hu htw
  have eL : fmtLoop Fmt.body Fmt.storedDefinition [] (Tree.node .ClassDefinition ds :: rest) 0 {} (FState.init C2) =
      (fmtTree Fmt.body .ClassDefinition {} (.node .ClassDefinition ds) (FState.init C2)).bind fun x =>
        fmtLoop Fmt.body Fmt.storedDefinition [] rest 1 {} x.2 := by
    rw [fmtLoop]
    simp [Fmt.storedDefinition, fblk, FCmd.when, Fmt.go, execF, evalFC, FState.init, Res.bind_bind]
  have eR : fmtLoop Fmt.body Fmt.storedDefinition [] (mapTrees g (Tree.node .ClassDefinition ds :: rest)) 0 {} s0 =
      (fmtTree Fmt.body .ClassDefinition {} (.node .ClassDefinition (mapTrees g ds)) s1).bind fun x =>
        fmtLoop Fmt.body Fmt.storedDefinition [] (mapTrees g rest) 1 {} x.2 := by
    simp only [Tree.map] at hst'
    rw [mapTrees, Tree.map, fmtLoop]
    have hp : s0.prevTok = .Semicolon := rfl
    simp [Fmt.storedDefinition, fblk, FCmd.when, Fmt.go, execF, evalFC, Res.bind_bind, hp, Ctx.target, hst', hbrk]
  rw [eL] at h
  rw [mapTrees_id] at hcl
  have hall := hcl.bind (f := fun x => fmtLoop Fmt.body Fmt.storedDefinition [] rest 1 {} x.2)
    (g := fun x => fmtLoop Fmt.body Fmt.storedDefinition [] (mapTrees g rest) 1 {} x.2)
    (S := TwinRS B R id g) (fun x y hxy => by
      have := stored_twin hR hf [] rest 1 {} (fun c hc => by
        rw [sym_map (f := g) (fun _ => rfl)]
        rcases star_syms hs c.sym (List.mem_map.2 ⟨c, List.mem_cons_of_mem _ hc, rfl⟩) with e | e | e <;> rw [e] <;> simp) hxy.2
      rw [mapTrees_id rest] at this
      exact this)
  rw [h, ← eR] at hall
  show ∃ s', fmtLoop Fmt.body Fmt.storedDefinition [] (mapTrees g _) 0 {} s0 = .ok ({}, s') ∧ _
  generalize fmtLoop Fmt.body Fmt.storedDefinition [] (mapTrees g (Tree.node .ClassDefinition ds :: rest)) 0 {} s0 = y at hall ⊢
  cases hall with
  | ok hxy =>
    rename_i y
    obtain ⟨r, s'⟩ := y
    obtain ⟨e, hxy⟩ := hxy
    simp only at e hxy
    subst e
    obtain ⟨ms, m1, m2⟩ := hxy.marks
    refine ⟨s', rfl, ?_⟩
    rw [m1, m2, marks_id]
    simp [B, g]

theorem format_stored (cs : List Tree) (C : List Token) : format (.node .StoredDefinition cs) C =
    (fmtLoop Fmt.body Fmt.storedDefinition [] cs 0 {} (FState.init C)).bind fun x => .ok x.2.marks.reverse := by
  have h1 : (Fmt.body .StoredDefinition).pre = .skip := rfl
  have h2 : (Fmt.body .StoredDefinition).post = .skip := rfl
  have h3 : Fmt.body .StoredDefinition = Fmt.storedDefinition := rfl
  rw [format, fmtTree]
  · simp only [h1, h2, execF, Res.bind_ok, Res.bind_bind]
    rw [h3, fmtLoop_here (bodies := Fmt.body) stored_here cs [] cs 0 0]
  · intro h; cases h

theorem conformsF_app : ∀ {F G : List Tree}, ConformsF F → ConformsF G → ConformsF (F ++ G)
  | [], _, _, h => h
  | _ :: _, _, h, h' => ⟨h.1, conformsF_app h.2 h'⟩

theorem opensF_app : ∀ {F G : List Tree}, OpensF F → OpensF G → OpensF (F ++ G)
  | [], _, _, h => h
  | _ :: _, _, h, h' => ⟨h.1, opensF_app h.2 h'⟩

/-- The last token of a file. -/
theorem stored_end {T cs} {last : Token} {ini : List Token} (h : Reading .StoredDefinition T cs)
    (ht : T = ini ++ [last]) : last.kind = .Semicolon ∧ ∃ ds, cs = ds ++ [.tok last] ∧ leavesF ds = ini := by
  have hc := h.conforms
  simp only [Tree.Conforms] at hc
  have hl := h.leaves
  rcases stored_last hc.1 with e | ⟨v, e⟩
  · simp only [List.map_eq_nil_iff] at e
    subst e
    simp [leavesF, ht] at hl
  · obtain ⟨ds, es, rfl, e1, e2⟩ := List.map_eq_append_iff.1 e
    cases es with
    | nil => simp at e2
    | cons c es =>
      simp only [List.map_cons, List.cons.injEq, List.map_eq_nil_iff] at e2
      obtain ⟨e2, rfl⟩ := e2
      cases c with
      | node k ds => simp [Tree.sym] at e2
      | tok x =>
        simp only [leavesF_append, leavesF, Tree.leaves, List.append_nil, ht] at hl
        obtain ⟨h1, h2⟩ := List.append_inj' hl rfl
        simp only [List.cons.injEq, and_true] at h2
        subst h2
        simp only [Tree.sym, Sym.t.injEq] at e2
        exact ⟨e2, ds, rfl, h1⟩

section
variable {T1 T2 C1 C2 : List Token} {cs1 cs2 : List Tree} {t0 last : Token} {ini ts : List Token} {n d : Nat}
  (hr1 : Reading .StoredDefinition T1 cs1) (hr2 : Reading .StoredDefinition T2 cs2)
  (hT1 : T1 = ini ++ [last]) (hT2 : T2 = t0 :: ts) (hw : t0.kind ≠ .Within) (hn : t0.kind ≠ .Final)
include hr1 hr2 hT2 hw hn

theorem join_reading : Reading .StoredDefinition (T1 ++ T2.map (Token.shift n d)) (cs1 ++ mapTrees (Token.shift n d) cs2) where
  conforms := by
    have h1 := hr1.conforms
    have h2 := hr2.conforms
    simp only [Tree.Conforms] at h1 h2 ⊢
    refine ⟨?_, conformsF_app h1.2 (mapF_conforms (f := Token.shift n d) (fun _ => rfl) _ h2.2)⟩
    rw [List.map_append, mapF_syms (f := Token.shift n d) (fun _ => rfl)]
    exact stored_join h1.1 (stored_first hr2 hT2 hw hn).1
  full := by rw [hasEmptyF_append, mapF_hasEmpty, hr1.full, hr2.full]; rfl
  leaves := by rw [leavesF_append, mapF_leaves, hr1.leaves, hr2.leaves]

omit hr1 hr2 hT2 hw hn in
theorem join_opens (ho1 : (Tree.node .StoredDefinition cs1).Opens) (ho2 : (Tree.node .StoredDefinition cs2).Opens) :
    (Tree.node .StoredDefinition (cs1 ++ mapTrees (Token.shift n d) cs2)).Opens := by
  have h2 := map_opens (f := Token.shift n d) (fun _ => rfl) _ ho2
  simp only [Tree.map, Tree.Opens] at ho1 h2 ⊢
  refine ⟨?_, opensF_app ho1.2 h2.2⟩
  intro c hc
  rcases List.mem_append.1 hc with hc | hc
  · exact ho1.1 c hc
  · exact h2.1 c hc

include hT1 in
theorem join_format (hi : ∀ t ∈ T1, t.idx < n) (hC1 : ∀ c ∈ C1, c.idx < last.idx) (hC2 : ∀ c ∈ C2, ¬ c.idx < t0.idx)
    (hl : last.stop.line ≤ t0.start.line + d) {m1 m2 : List Marker}
    (h1 : format (.node .StoredDefinition cs1) C1 = .ok m1) (h2 : format (.node .StoredDefinition cs2) C2 = .ok m2) :
    format (.node .StoredDefinition (cs1 ++ mapTrees (Token.shift n d) cs2)) (C1 ++ C2.map (Token.shift n d)) =
      .ok (m1 ++ gapMark (t0.start.line + d - last.stop.line) :: m2.map (Marker.map (Token.shift n d))) := by
  obtain ⟨hk, ds, rfl, hds⟩ := stored_end hr1 hT1
  rw [format_stored] at h1 h2 ⊢
  obtain ⟨⟨r1, s1⟩, a1, a2⟩ := Res.bind_eq_ok.1 h1
  obtain ⟨⟨r2, s2⟩, b1, b2⟩ := Res.bind_eq_ok.1 h2
  have e1 := stored_still a1
  have e2 := stored_still b1
  subst e1 e2
  simp only [Res.ok.injEq] at a2 b2
  have hlast : last.idx < n := hi last (by rw [hT1]; simp)
  have h3 := first_run (C1 := C1) (L := C2.map (Token.shift n d)) (n := n)
    (fun t ht => hi t (by rw [hT1, ← hds]; exact List.mem_append_left _ ht)) hlast hC1
    (fun c hc => by
      obtain ⟨x, _, rfl⟩ := List.mem_map.1 hc
      simp only [Token.shift]; omega) hk a1
  obtain ⟨s', h4, h5⟩ := second_run hr2 hT2 hw hn hC2 (n := n) (d := d) (M := s1.marks) hl b1
  rw [fmtLoop_append (bodies := Fmt.body) stored_here [] [] _ (ds ++ [Tree.tok last]) 0 0 0, h3]
  simp only [Res.bind_ok, h4, h5]
  rw [← a2, ← b2]
  simp
end

/-! ### Text -/

theorem printMarks_app (eol : Text) (b : List Marker) : ∀ (a : List Marker) (n : Nat) (t : Text),
    printMarks eol a n = .ok t → printMarks eol (a ++ b) n =
      (printMarks eol b (n + a.count .indent - a.count .dedent)).bind fun u => .ok (t ++ u)
  | [], n, t, h => by
    simp only [printMarks, Res.ok.injEq] at h
    subst h
    simp
    cases printMarks eol b n <;> rfl
  | m :: a, n, t, h => by
    cases m with
    | indent =>
      simp only [printMarks, List.cons_append] at h ⊢
      rw [printMarks_app eol b a _ t h]
      simp only [List.count_cons_self, List.count_cons_of_ne (show Marker.indent ≠ .dedent by simp)]
      congr 2; omega
    | dedent =>
      simp only [printMarks, List.cons_append] at h ⊢
      split at h
      · simp at h
      · rename_i hn
        rw [if_neg hn, printMarks_app eol b a _ t h]
        simp only [List.count_cons_self, List.count_cons_of_ne (show Marker.dedent ≠ .indent by simp)]
        congr 2; omega
    | _ =>
      simp only [printMarks, List.cons_append] at h ⊢
      obtain ⟨u, h1, h2⟩ := Res.bind_eq_ok.1 h
      simp only [Res.ok.injEq] at h2
      rw [printMarks_app eol b a _ u h1, ← h2]
      simp only [List.count_cons, Res.bind_bind, Res.bind_ok]
      simp

/-- The text between two files: the end of the line, and an empty line if there are two line breaks. -/
theorem printMarks_gap (eol : Text) (d : Nat) {m1 m2 : List Marker} {t1 t2 : Text} (h1 : printMarks eol m1 0 = .ok t1)
    (h2 : printMarks eol m2 0 = .ok t2) (hb : m1.count .indent = m1.count .dedent) :
    printMarks eol (m1 ++ gapMark d :: m2) 0 = .ok (t1 ++ eol ++ (if d > 1 then eol else []) ++ t2) := by
  rw [printMarks_app eol _ m1 0 t1 h1, hb]
  unfold gapMark
  split <;> simp [printMarks, h2, indentText]

end Mofmt
