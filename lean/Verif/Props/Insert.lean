import Verif.Props.Local
import Verif.Proofs.Insert
/-
C73: another element, equation or statement does not change the output for the rest of the file.
-/
namespace Mofmt
open Lexical

/-- the piece of a semicolon -/
def semiPiece (w : Text) : Text × Chunk := (w, .token .Semicolon c!";")

/-- the token of a semicolon behind other pieces -/
def semiTok (pre : Text) (i : Nat) (A : List (Text × Chunk)) (w : Text) : Token :=
  ⟨i + A.length, c!";", .Semicolon, position (pre ++ spread A [] ++ w), position (pre ++ spread A [] ++ w ++ c!";")⟩

theorem semi_lexemes {pre : Text} {i : Nat} {A : List (Text × Chunk)} (w : Text) (h : ∀ x ∈ A, ∃ k t, x.2 = .token k t) :
    lexemes pre i (A ++ [semiPiece w]) = lexemes pre i A ++ [semiTok pre i A w] := by
  rw [lexemes_append _ _ _ _ h]; rfl

theorem semi_code {pre : Text} {i : Nat} {A : List (Text × Chunk)} (w : Text) (h : ∀ x ∈ A, ∃ k t, x.2 = .token k t) :
    codeOf pre i (A ++ [semiPiece w]) = codeOf pre i A ++ [semiTok pre i A w] ∧
    (lexemes pre i (A ++ [semiPiece w])).filter isComment = (lexemes pre i A).filter isComment := by
  rw [codeOf, semi_lexemes w h, List.filter_append, List.filter_append]
  exact ⟨rfl, by simp [semiTok, isComment]⟩

theorem semi_line {pre : Text} {i : Nat} {A : List (Text × Chunk)} {w : Text} :
    (semiTok pre i A w).stop.line = 1 + newlines (pre ++ spread (A ++ [semiPiece w]) []) := by
  simp [semiTok, position, semiPiece, spread, Chunk.text]

theorem concat_of {α β : Type} {f : α → β} {l : List α} {xs : List β} {x : β} (h : l.map f = xs ++ [x]) :
    ∃ l' z, l = l' ++ [z] ∧ l'.map f = xs ∧ f z = x := by
  obtain ⟨l1, l2, rfl, h1, h2⟩ := List.map_eq_append_iff.1 h
  match l2, h2 with
  | [z], h2 =>
    simp only [List.map_cons, List.map_nil, List.cons.injEq, and_true] at h2
    exact ⟨l1, z, rfl, h1, h2⟩
  | [], h2 => cases h2
  | _ :: _ :: _, h2 => simp at h2

/-- the groups of two files of which one has another item -/
theorem insert_core (eol : Text) {A Y B : List (Text × Chunk)} {w w' : Text}
    (tok : ∀ x ∈ A ++ [semiPiece w] ++ (Y ++ [semiPiece w']) ++ B, ∃ k t, x.2 = .token k t) {T1 T2 : Tree} {C0 : Around}
    {k it : SK} (hk : listItem k = some it) {pre post ds : List Tree} {t t' : Token} (ht : t.kind = .Semicolon)
    (ht' : t'.kind = .Semicolon) (hp : pre ≠ []) (hC : (C0.plug (.node k (pre ++ .tok t :: post))).Conforms) {d1 d2 : Nat}
    (hT1 : T1.map bareTok = (C0.map id (moveTok d1)).plug (.node k (pre ++ .tok t :: mapTrees (moveTok d1) post)))
    (hT2 : T2.map bareTok = (C0.map id (moveTok d2)).plug
      (.node k (pre ++ .tok t :: .node it ds :: .tok t' :: mapTrees (moveTok d2) post)))
    (l1 : T1.leaves = codeOf [] 0 (A ++ [semiPiece w]) ++
      codeOf (spread (A ++ [semiPiece w]) []) (A ++ [semiPiece w]).length B)
    (l2 : T2.leaves = codeOf [] 0 (A ++ [semiPiece w]) ++
      codeOf (spread (A ++ [semiPiece w]) []) (A ++ [semiPiece w]).length (Y ++ [semiPiece w']) ++
      codeOf (spread (A ++ [semiPiece w] ++ (Y ++ [semiPiece w'])) []) (A ++ [semiPiece w] ++ (Y ++ [semiPiece w'])).length B)
    (n1 : C0.before.length + ((leavesF pre).length + 1) = (codeOf [] 0 (A ++ [semiPiece w])).length)
    (n2 : (leavesF ds).length + 1 = (codeOf (spread (A ++ [semiPiece w]) []) (A ++ [semiPiece w]).length (Y ++ [semiPiece w'])).length)
    (hlk : (Tree.node it ds).leaks = 0) :
    ∃ ga gy gb gb',
      groupsOf eol ((lexemes [] 0 (A ++ [semiPiece w] ++ B)).filter isComment) T1.wholeLayout = ga ++ gb ∧
      groupsOf eol ((lexemes [] 0 (A ++ [semiPiece w] ++ (Y ++ [semiPiece w']) ++ B)).filter isComment) T2.wholeLayout =
        ga ++ gy ++ gb' ∧
      ga.map (·.tok) = codeOf [] 0 (A ++ [semiPiece w]) ∧
      gy.map (·.tok) = codeOf (spread (A ++ [semiPiece w]) []) (A ++ [semiPiece w]).length (Y ++ [semiPiece w']) ∧
      gb.map (·.tok) = codeOf (spread (A ++ [semiPiece w]) []) (A ++ [semiPiece w]).length B ∧
      gb'.map (·.tok) = codeOf (spread (A ++ [semiPiece w] ++ (Y ++ [semiPiece w'])) [])
        (A ++ [semiPiece w] ++ (Y ++ [semiPiece w'])).length B ∧
      gb'.map Group.shown = gb.map Group.shown := by
  have tA : ∀ x ∈ A, ∃ k t, x.2 = .token k t := fun x hx => tok x (by simp [hx])
  have tPA : ∀ x ∈ A ++ [semiPiece w], ∃ k t, x.2 = .token k t := fun x hx =>
    tok x (List.mem_append_left _ (List.mem_append_left _ hx))
  have tY : ∀ x ∈ Y, ∃ k t, x.2 = .token k t := fun x hx => tok x (by simp [hx])
  have tN : ∀ x ∈ A ++ [semiPiece w] ++ (Y ++ [semiPiece w']), ∃ k t, x.2 = .token k t := fun x hx =>
    tok x (List.mem_append_left _ hx)
  -- the layouts
  obtain ⟨k1, k2, k3⟩ := list_kind hk
  obtain ⟨hleaks, hlay⟩ := insert_layout (keep_move d1) (keep_move d2) (post := post) hk hp ht ht' hlk
  have hpath := (C0.path hC k2).1
  obtain ⟨LA, n', w1, m', d', LB, q1, q2, q3, q4, _, _⟩ := (C0.layouts (keep_move d1) (keep_move d2)
    (s := .node k (pre ++ .tok t :: post))
    (s1 := .node k (pre ++ .tok t :: mapTrees (moveTok d1) post))
    (s2 := .node k (pre ++ .tok t :: .node it ds :: .tok t' :: mapTrees (moveTok d2) post)) rfl rfl hleaks hC hpath).2 0 false false .none
  obtain ⟨LP, LY, LQ, p1, p2, p3, p4, p5⟩ := hlay n' w1 m' d'
  rw [← hT1, layout_map keep_bare, p1, ← List.append_assoc, List.append_assoc (LA ++ LP), ← List.map_append] at q1
  rw [← hT2, layout_map keep_bare, p2, ← List.append_assoc, ← List.append_assoc, List.append_assoc (LA ++ LP ++ LY), ← List.map_append] at q2
  obtain ⟨a1, b1, r1, r2, r3⟩ := List.map_eq_append_iff.1 q1
  obtain ⟨m2, b2, v1, v2, v3⟩ := List.map_eq_append_iff.1 q2
  obtain ⟨a2, y, rfl, v4, v5⟩ := List.map_eq_append_iff.1 v2
  have lenP : (LA ++ LP).length = (codeOf [] 0 (A ++ [semiPiece w])).length := by
    have e1 := congrArg List.length q3
    have e2 := congrArg List.length p3
    simp only [List.length_map, List.length_append, List.length_cons, List.length_nil] at e1 e2
    rw [List.length_append, ← n1]
    omega
  have lenY : LY.length = (codeOf (spread (A ++ [semiPiece w]) []) (A ++ [semiPiece w]).length (Y ++ [semiPiece w'])).length := by
    have e2 := congrArg List.length p4
    simp only [List.length_map, List.length_append, List.length_cons, List.length_nil] at e2
    rw [← n2]
    omega
  have t1 := layout_toks T1 0 false false .none
  rw [r1, l1, List.map_append] at t1
  obtain ⟨ta1, tb1⟩ := List.append_inj t1 (by rw [List.length_map, ← lenP, ← r2, List.length_map])
  have t2 := layout_toks T2 0 false false .none
  rw [v1, l2, List.map_append, List.map_append] at t2
  have la2 : (a2.map (·.2)).length = (codeOf [] 0 (A ++ [semiPiece w])).length := by
    rw [List.length_map, ← lenP, ← v4, List.length_map]
  obtain ⟨t3, tb2⟩ := List.append_inj t2 (by
    rw [List.length_append, List.length_append, la2, ← lenY, ← v5, List.length_map, List.length_map])
  obtain ⟨ta2, ty⟩ := List.append_inj t3 la2
  have ha : a2 = a1 := by
    refine pairs_eq ?_ (by rw [ta1, ta2])
    rw [← onSnd_fst bareTok a1, ← onSnd_fst bareTok a2, r2, v4]
  subst ha
  have hb : b1.map (·.1) = b2.map (·.1) := by
    rw [← onSnd_fst bareTok b1, ← onSnd_fst bareTok b2, r3, v3, onSnd_fst, onSnd_fst]
  -- the text
  have alike := lexemes_alike B (spread (A ++ [semiPiece w]) []) (spread (A ++ [semiPiece w] ++ (Y ++ [semiPiece w'])) [])
    (A ++ [semiPiece w]).length (A ++ [semiPiece w] ++ (Y ++ [semiPiece w'])).length
  have hdec := alike_decs hb (by rw [tb1, tb2]; exact alike.code.1)
  have ta1' := ta1
  have ty' := ty
  rw [(semi_code w tA).1] at ta1'
  rw [(semi_code w' tY).1] at ty'
  obtain ⟨a, ⟨g, u⟩, rfl, ea, eu⟩ := concat_of ta1'
  obtain ⟨y, ⟨g', u'⟩, rfl, ey, eu'⟩ := concat_of ty'
  simp only at eu eu'
  have iu : u.idx = A.length := by rw [eu]; simp [semiTok]
  have iu' : u'.idx = A.length + 1 + Y.length := by rw [eu']; simp [semiTok]
  have it : ∀ {pre : Text} {i : Nat} {ps : List (Text × Chunk)} {ls : List (Dec × Token)}, ls.map (·.2) = codeOf pre i ps →
      ∀ z ∈ ls, i ≤ z.2.idx ∧ z.2.idx < i + ps.length := fun h z hz =>
    code_idx (by rw [← h]; exact List.mem_map_of_mem hz)
  have ic : ∀ {pre : Text} {i : Nat} {ps : List (Text × Chunk)}, ∀ c ∈ (lexemes pre i ps).filter isComment,
      i ≤ c.idx ∧ c.idx < i + ps.length := fun c hc => lexemes_idx _ _ _ c (List.mem_filter.1 hc).1
  rw [List.length_append (as := A ++ [semiPiece w])] at hdec alike
  obtain ⟨ga, gy, gb, gb', z1, z2, z3, z4, z5, z6, z7⟩ := insert_groups eol (A := (A ++ [semiPiece w]).length)
    (Y := (Y ++ [semiPiece w']).length) (CA := (lexemes [] 0 A).filter isComment)
    (CY := (lexemes (spread (A ++ [semiPiece w]) []) (A ++ [semiPiece w]).length Y).filter isComment)
    (CB := (lexemes (spread (A ++ [semiPiece w]) []) (A ++ [semiPiece w]).length B).filter isComment)
    (CB' := (lexemes (spread (A ++ [semiPiece w] ++ (Y ++ [semiPiece w'])) [])
      ((A ++ [semiPiece w]).length + (Y ++ [semiPiece w']).length) B).filter isComment)
    (a := a) (y := y) (g := g) (g' := g') (t := u) (t' := u')
    (fun z hz => by have := it ea z hz; simp only [List.length_append]; omega)
    (fun z hz => by have := it ey z hz; simp only [List.length_append] at this ⊢; omega)
    (by simp [iu]) (by rw [iu']; simp only [List.length_append, List.length_cons, List.length_nil]; omega)
    (fun c hc => by have := ic c hc; omega)
    (fun c hc => by have := ic c hc; simp only [List.length_append, List.length_cons, List.length_nil] at this ⊢; omega)
    (fun c hc => (ic c hc).1) (fun c hc => (ic c hc).1)
    (e1 := newlines (spread (A ++ [semiPiece w]) [])) (e2 := newlines (spread (A ++ [semiPiece w] ++ (Y ++ [semiPiece w'])) []))
    (by
      rw [eu, eu', semi_line, semi_line]
      have : spread (A ++ [semiPiece w] ++ (Y ++ [semiPiece w'])) [] = spread (A ++ [semiPiece w]) [] ++ spread (Y ++ [semiPiece w']) [] := by
        simp [spread]
      rw [this, List.nil_append]
      omega)
    hdec alike.code.2
  refine ⟨ga, gy, gb, gb', ?_, ?_, by rw [z3, ← ta1]; simp, by rw [z4, ← ty]; simp, by rw [z5, tb1], by rw [z6, tb2], z7⟩
  · rw [lexemes_append _ _ _ _ tPA, List.filter_append, (semi_code w tA).2, Tree.wholeLayout, r1, List.nil_append, Nat.zero_add]
    exact z1
  · rw [lexemes_append _ _ _ _ tN, lexemes_append _ _ _ _ tPA, List.filter_append, List.filter_append, (semi_code w tA).2,
      List.nil_append, List.nil_append, Nat.zero_add, Nat.zero_add, (semi_code w' tY).2, Tree.wholeLayout, v1, List.append_assoc _ (List.filter _ _),
      List.length_append (as := A ++ [semiPiece w])]
    exact z2

theorem Around.part (C : Around) (s : Tree) : Part s (C.plug s) := by
  induction C with
  | hole => exact .here
  | node k pre c post ih => exact .there (by simp) ih

theorem Part.opened {s t : Tree} (h : Part s t) : t.Opens → s.Opens := by
  induction h with
  | here => exact id
  | there hc _ ih => exact fun h => ih (opensF_iff.1 h.2 _ hc)

theorem head_app {α : Type} {a b : List α} (h : a ≠ []) : (a ++ b).head? = a.head? := by
  cases a with
  | nil => exact absurd rfl h
  | cons x a => rfl

/-- a tree with some children of a production replaced by others: `ms'` are bare trees -/
theorem swap_tree {C : Around} {k : SK} {pre ms post ms' : List Tree} {d d' : Nat} {B0 : List Token}
    (hC : (C.plug (.node k (pre ++ ms ++ post))).Conforms) (hE : (C.plug (.node k (pre ++ ms ++ post))).hasEmpty = false)
    (hO : (C.plug (.node k (pre ++ ms ++ post))).Opens) (hpre : pre ≠ [])
    (hB : (leavesF post ++ C.after).map bareTok = B0.map (moveTok d))
    (hL : Lang (Gram.spec k) (pre.map Tree.sym ++ ms'.map Tree.sym ++ post.map Tree.sym)) (hc : ConformsF ms')
    (he : hasEmptyF ms' = false) (ho : ∀ c ∈ ms', c.startsOk k = true ∧ c.Opens) :
    ∃ (C0 : Around) (pre0 post0 : List Tree), pre0 = mapTrees bareTok pre ∧ post0 = mapTrees (unmoveTok d ∘ bareTok) post ∧
      C0.before = C.before.map bareTok ∧
      (C.plug (.node k (pre ++ ms ++ post))).map bareTok =
        (C0.map id (moveTok d)).plug (.node k (pre0 ++ mapTrees bareTok ms ++ mapTrees (moveTok d) post0)) ∧
      (C0.plug (.node k (pre0 ++ mapTrees bareTok ms ++ post0))).Conforms ∧
      (C0.plug (.node k (pre0 ++ ms' ++ post0))).Conforms ∧
      ((C0.map id (moveTok d')).plug (.node k (pre0 ++ ms' ++ mapTrees (moveTok d') post0))).Conforms ∧
      ((C0.map id (moveTok d')).plug (.node k (pre0 ++ ms' ++ mapTrees (moveTok d') post0))).hasEmpty = false ∧
      ((C0.map id (moveTok d')).plug (.node k (pre0 ++ ms' ++ mapTrees (moveTok d') post0))).Opens ∧
      ((C0.map id (moveTok d')).plug (.node k (pre0 ++ ms' ++ mapTrees (moveTok d') post0))).sym =
        (C.plug (.node k (pre ++ ms ++ post))).sym ∧
      ((C0.map id (moveTok d')).plug (.node k (pre0 ++ ms' ++ mapTrees (moveTok d') post0))).leaves =
        C.before.map bareTok ++ (leavesF pre).map bareTok ++ leavesF ms' ++ B0.map (moveTok d') := by
  have mt : ∀ (f : Token → Token) (a b : List Tree), mapTrees f (a ++ b) = mapTrees f a ++ mapTrees f b := by
    intro f a b; simp only [mapTrees_list, List.map_append]
  have hB' : (leavesF post ++ C.after).map (unmoveTok d ∘ bareTok) = B0 := by
    rw [← List.map_map, hB, List.map_map]
    have : unmoveTok d ∘ moveTok d = id := funext fun t => unmove_move d t
    rw [this, List.map_id]
  have back : ∀ x ∈ leavesF post ++ C.after, bareTok x = (moveTok d ∘ unmoveTok d ∘ bareTok) x := by
    intro x hx
    have : bareTok x ∈ B0.map (moveTok d) := by rw [← hB]; exact List.mem_map_of_mem hx
    obtain ⟨u, _, hu⟩ := List.mem_map.1 this
    show bareTok x = moveTok d (unmoveTok d (bareTok x))
    rw [← hu, unmove_move]
  have kb : ∀ t, (bareTok t).kind = t.kind := fun _ => rfl
  have ku : ∀ t, ((unmoveTok d ∘ bareTok) t).kind = t.kind := fun _ => rfl
  have kg : ∀ t, ((moveTok d' ∘ unmoveTok d ∘ bareTok) t).kind = t.kind := fun _ => rfl
  have hX : Part (.node k (pre ++ ms ++ post)) (C.plug (.node k (pre ++ ms ++ post))) := C.part _
  have hXc := hX.conforms hC
  have hXe := hX.full hE
  have hXo : (Tree.node k (pre ++ ms ++ post)).Opens := hX.opened hO
  obtain ⟨hXl, hXf⟩ := hXc
  obtain ⟨c12, c3⟩ := conformsF_parts.1 hXf
  obtain ⟨c1, c2⟩ := conformsF_parts.1 c12
  simp only [Tree.hasEmpty, hasEmptyF_app, Bool.or_eq_false_iff] at hXe
  obtain ⟨_, ⟨e1, e2⟩, e3⟩ := hXe
  simp only [Tree.Opens, opensF_iff, List.mem_append] at hXo
  have conf : ∀ g : Token → Token, (∀ t, (g t).kind = t.kind) →
      (Tree.node k (mapTrees bareTok pre ++ ms' ++ mapTrees g post)).Conforms := by
    intro g hg
    refine ⟨?_, conformsF_parts.2 ⟨conformsF_parts.2 ⟨mapF_conforms kb _ c1, hc⟩, mapF_conforms hg _ c3⟩⟩
    rw [List.map_append, List.map_append, mapF_syms kb, mapF_syms hg]
    exact hL
  have hne : mapTrees bareTok pre ≠ [] := by
    rw [mapTrees_list]
    simpa using hpre
  refine ⟨C.map bareTok (unmoveTok d ∘ bareTok), mapTrees bareTok pre, mapTrees (unmoveTok d ∘ bareTok) post, rfl, rfl,
    Around.before_map .., ?_, ?_, ?_, ?_, ?_, ?_, ?_, ?_⟩
  · rw [Around.map_plug, Around.map_map, mapTrees_comp, Tree.map, mt, mt,
      mapF_congr_leaves post fun x hx => back x (List.mem_append_left _ hx),
      C.map_congr (f := bareTok) (f' := id ∘ bareTok) (fun _ _ => rfl) fun x hx => back x (List.mem_append_right _ hx)]
  · refine C.conforms kb ku hC rfl ⟨?_, conformsF_parts.2 ⟨conformsF_parts.2 ⟨mapF_conforms kb _ c1, mapF_conforms kb _ c2⟩,
      mapF_conforms ku _ c3⟩⟩
    rw [List.map_append, List.map_append, mapF_syms kb, mapF_syms kb, mapF_syms ku]
    simpa only [List.map_append] using hXl
  · exact C.conforms kb ku hC rfl (conf _ ku)
  · rw [Around.map_map, mapTrees_comp]
    exact C.conforms kb kg hC rfl (conf _ kg)
  · rw [Around.map_map, mapTrees_comp]
    refine C.full hE ?_
    simp only [Tree.hasEmpty, hasEmptyF_app, mapF_hasEmpty, e1, he, e3, Bool.or_false]
    simp [hne]
  · rw [Around.map_map, mapTrees_comp]
    have hnl : leavesF (mapTrees bareTok pre) ≠ [] := by
      intro h
      rw [mapF_leaves, List.map_eq_nil_iff] at h
      obtain ⟨x, xs, hx, _⟩ := start_leaves (.node k pre) (by
        simp only [Tree.hasEmpty, e1, Bool.or_false]
        simpa using hpre)
      rw [Tree.leaves, h] at hx
      cases hx
    refine C.opens kb kg hO rfl ?_ ?_ ?_
    · simp only [Tree.Opens, opensF_iff, List.mem_append, mapTrees_list, List.mem_map]
      constructor
      · rintro t ((⟨u, hu, rfl⟩ | h) | ⟨u, hu, rfl⟩)
        · rw [map_startsOk kb]; exact hXo.1 u (.inl (.inl hu))
        · exact (ho t h).1
        · rw [map_startsOk kg]; exact hXo.1 u (.inr hu)
      · rintro t ((⟨u, hu, rfl⟩ | h) | ⟨u, hu, rfl⟩)
        · exact map_opens kb u (hXo.2 u (.inl (.inl hu)))
        · exact (ho t h).2
        · exact map_opens kg u (hXo.2 u (.inr hu))
    · intro t h
      refine .inr ?_
      rw [Tree.leaves, leavesF_app, leavesF_app, List.append_assoc, head_app hnl, mapF_leaves,
        List.head?_map, Option.map_eq_some_iff] at h
      obtain ⟨u, hu, rfl⟩ := h
      rw [Tree.leaves, leavesF_app, leavesF_app, List.append_assoc, head_app (by
        intro h; rw [h] at hu; cases hu), hu]
      rfl
    · rw [Tree.leaves, leavesF_app, leavesF_app]
      intro h
      simp only [List.append_eq_nil_iff] at h
      exact hnl h.1.1
  · rw [Around.map_map]
    exact Around.sym_map C rfl
  · rw [Around.leaves, Around.before_map, Around.after_map, Around.before_map, Around.after_map, Tree.leaves, leavesF_app, leavesF_app,
      mapF_leaves, mapF_leaves, mapF_leaves, List.map_id]
    have : B0.map (moveTok d') = ((leavesF post).map (unmoveTok d ∘ bareTok)).map (moveTok d') ++
        (C.after.map (unmoveTok d ∘ bareTok)).map (moveTok d') := by
      rw [← List.map_append, ← List.map_append, hB']
    rw [this]
    simp only [List.append_assoc]

/-- the tokens of a file that lexes without errors -/
theorem lexed_tokens {name src : Text} {l : Lexed} {ps : List (Text × Chunk)} (hd : Divided src ps) (hl : lex name src = .ok l)
    (he : l.errors = []) : (∀ x ∈ ps, ∃ k t, x.2 = .token k t) ∧ l.tokens = codeOf [] 0 ps ∧
      l.comments = (lexemes [] 0 ps).filter isComment := by
  have hlex := C53_lexed name src _ hd
  rw [hl] at hlex
  have aw : awkward false ps = false := by
    cases e : awkward false ps with
    | false => rfl
    | true => rw [e] at hlex; simp at hlex
  rw [aw] at hlex
  simp only [Bool.false_eq_true, if_false, Res.ok.injEq] at hlex
  exact ⟨problems_tokens name _ [] (by rw [← he, hlex]), by rw [hlex]; rfl, by rw [hlex]⟩

theorem code_append {pre : Text} {i : Nat} {ps qs : List (Text × Chunk)} (h : ∀ x ∈ ps, ∃ k t, x.2 = .token k t) :
    codeOf pre i (ps ++ qs) = codeOf pre i ps ++ codeOf (pre ++ spread ps []) (i + ps.length) qs := by
  rw [codeOf, lexemes_append _ _ _ _ h, List.filter_append]; rfl

theorem tokens_nodup {eol name src out : Text} {p : Parsed} (hf : Formatted eol name src p out) : p.tokens.Nodup := by
  obtain ⟨lx, hl, l1, l2, l3⟩ := parse_lex hf.parsed hf.accepted
  have := (lexed_wf hl).ts
  rw [l1] at this
  refine this.imp fun h e => ?_
  subst e
  omega

/-- the output of a file from its tree and comments -/
theorem laid_tree {eol name src out : Text} {p : Parsed} {tree : Tree} (hf : Formatted eol name src p out)
    (ht : buildTree p.tokens p.events = .ok tree) :
    out = groupsText (groupsOf eol p.comments tree.wholeLayout) ++ eol := by
  obtain ⟨c, t, o, _⟩ := hf.laid
  rw [ht] at t
  simp only [Res.ok.injEq] at t
  rw [t, o]

theorem item_full {k it : SK} (h : listItem k = some it) {toks : List Token} {ds : List Tree} (hr : Reading it toks ds) :
    (Tree.node it ds).hasEmpty = false := by
  have hne : ds ≠ [] := by
    rintro rfl
    have := (nullable_iff _).2 hr.conforms.1
    unfold listItem at h
    split at h <;> cases h <;> revert this <;> decide +kernel
  simp [Tree.hasEmpty, hr.full, hne]

theorem semiTok_shift (P X : List (Text × Chunk)) (x : Text) :
    semiTok [] 0 (P ++ X) x = semiTok (spread P []) P.length X x := by
  simp [semiTok, spread]

/-- a token of a tree from its place among the leaves -/
theorem leaf_at {C : Around} {k : SK} {a b : List Tree} {t u : Token} {L M : List Token}
    (h : (C.plug (.node k (a ++ .tok t :: b))).leaves = L ++ u :: M) (hl : C.before.length + (leavesF a).length = L.length) :
    t = u := by
  rw [C.leaves, Tree.leaves, leavesF_app, leavesF, Tree.leaves] at h
  simp only [List.append_assoc, List.cons_append, List.nil_append] at h
  rw [← List.append_assoc] at h
  have := (List.append_inj h (by simpa using hl)).2
  exact (List.cons.inj this).1

/-- the trees that become a token and its neighbours -/
theorem map_split {f : Token → Token} {cs P R : List Tree} {u : Token} (h : mapTrees f cs = P ++ .tok u :: R) :
    ∃ a t b, cs = a ++ .tok t :: b ∧ (leavesF a).length = (leavesF P).length := by
  rw [mapTrees_list] at h
  obtain ⟨a, r, rfl, h1, h2⟩ := List.map_eq_append_iff.1 h
  obtain ⟨c, b, rfl, h2, h3⟩ := List.map_eq_cons_iff.1 h2
  cases c with
  | node _ _ => cases h2
  | tok t => exact ⟨a, t, b, rfl, by rw [← h1, ← mapTrees_list, mapF_leaves, List.length_map]⟩

/-- the trees that become a tree with a part -/
theorem part_inv (f : Token → Token) (C : Around) {k : SK} {cs : List Tree} : ∀ {T : Tree}, T.map f = C.plug (.node k cs) →
    ∃ (C' : Around) (cs' : List Tree), T = C'.plug (.node k cs') ∧ mapTrees f cs' = cs ∧ C'.before.map f = C.before := by
  induction C with
  | hole =>
    intro T h
    cases T with
    | tok t => cases h
    | node j ds =>
      simp only [Around.plug, Tree.map, Tree.node.injEq] at h
      obtain ⟨rfl, h⟩ := h
      exact ⟨.hole, ds, rfl, h, rfl⟩
  | node j pre C post ih =>
    intro T h
    cases T with
    | tok t => cases h
    | node j' ds =>
      simp only [Around.plug, Tree.map, Tree.node.injEq] at h
      obtain ⟨rfl, h⟩ := h
      rw [mapTrees_list] at h
      obtain ⟨a, b, rfl, h1, h2⟩ := List.map_eq_append_iff.1 h
      obtain ⟨c, b, rfl, h2, h3⟩ := List.map_eq_cons_iff.1 h2
      obtain ⟨C', cs', rfl, h4, h5⟩ := ih h2
      refine ⟨.node _ a C' b, cs', rfl, h4, ?_⟩
      simp only [Around.before, List.map_append, h5, ← h1]
      rw [← mapTrees_list, mapF_leaves]

/-- an item is inserted behind a semicolon: the groups of both files, and the two semicolons in the new tree -/
theorem insert_bare (eol name src out name' src' w w' : Text) (p : Parsed) (A Y B : List (Text × Chunk)) (l : Lexed) (tree : Tree)
    (k it : SK) (pre post ds : List Tree) (hf : Formatted eol name src p out) (hd : Divided src (A ++ [semiPiece w] ++ B))
    (hd' : Divided src' (A ++ [semiPiece w] ++ (Y ++ [semiPiece w']) ++ B)) (hl : lex name' src' = .ok l) (he : l.errors = [])
    (ht : buildTree p.tokens p.events = .ok tree) (hk : listItem k = some it)
    (hX : Part (.node k (pre ++ .tok (semiTok [] 0 A w) :: post)) tree)
    (hY : Reading it ((codeOf (spread (A ++ [semiPiece w]) []) (A ++ [semiPiece w]).length Y).map bareTok) ds)
    (ho : (Tree.node it ds).Opens) (hs : (Tree.node it ds).startsOk k = true)
    (hlk : (Tree.node it ds).leaks = 0) :
    ∃ p' out' tree' ga gy gb gb', Formatted eol name' src' p' out' ∧ buildTree p'.tokens p'.events = .ok tree' ∧
      groupsOf eol p.comments tree.wholeLayout = ga ++ gb ∧ groupsOf eol p'.comments tree'.wholeLayout = ga ++ gy ++ gb' ∧
      ga.map (·.tok) = codeOf [] 0 (A ++ [semiPiece w]) ∧
      gy.map (·.tok) = codeOf (spread (A ++ [semiPiece w]) []) (A ++ [semiPiece w]).length (Y ++ [semiPiece w']) ∧
      gb.map (·.tok) = codeOf (spread (A ++ [semiPiece w]) []) (A ++ [semiPiece w]).length B ∧
      gb'.map (·.tok) = codeOf (spread (A ++ [semiPiece w] ++ (Y ++ [semiPiece w'])) [])
        (A ++ [semiPiece w] ++ (Y ++ [semiPiece w'])).length B ∧
      gb'.map Group.shown = gb.map Group.shown ∧
      (∃ pre' post', Part (.node k (pre' ++ .tok (semiTok [] 0 A w) :: post')) tree') ∧
      ∃ pre' post', Part (.node k (pre' ++ .tok (semiTok [] 0 (A ++ [semiPiece w] ++ Y) w') :: post')) tree' := by
  have hbk : ∀ t, (bareTok t).kind = t.kind := fun _ => rfl
  obtain ⟨tokX, awX, tkX, cmX, cs0, _, _, rd, op, bt, _, _, _⟩ := formatted_facts hf hd
  rw [ht] at bt
  simp only [Res.ok.injEq] at bt
  subst bt
  obtain ⟨tokY, tkY, cmY⟩ := lexed_tokens hd' hl he
  have tA : ∀ x ∈ A, ∃ k t, x.2 = .token k t := fun x hx => tokY x (by simp [hx])
  have tPA : ∀ x ∈ A ++ [semiPiece w], ∃ k t, x.2 = .token k t := fun x hx =>
    tokY x (List.mem_append_left _ (List.mem_append_left _ hx))
  have tY : ∀ x ∈ Y, ∃ k t, x.2 = .token k t := fun x hx => tokY x (by simp [hx])
  have tN : ∀ x ∈ A ++ [semiPiece w] ++ (Y ++ [semiPiece w']), ∃ k t, x.2 = .token k t := fun x hx =>
    tokY x (List.mem_append_left _ hx)
  have tkX' : p.tokens = codeOf [] 0 (A ++ [semiPiece w] ++ B) := tkX
  rw [code_append tPA, List.nil_append, Nat.zero_add] at tkX'
  rw [code_append tN, code_append tPA, List.nil_append, List.nil_append, Nat.zero_add, Nat.zero_add] at tkY
  have hE0 : (Tree.node .StoredDefinition cs0).hasEmpty = false := by
    have hne : cs0 ≠ [] := by
      rintro rfl
      generalize hg : Tree.node k (pre ++ .tok (semiTok [] 0 A w) :: post) = g at hX
      cases hX with
      | here => simp at hg
      | there hc _ => cases hc
    simp [Tree.hasEmpty, rd.full, hne]
  have hcf := (hX.conforms rd.conforms)
  have hpre : pre ≠ [] := by
    rintro rfl
    exact list_second hk hcf.1
  obtain ⟨C, hC⟩ := hX.around
  have hsplit : pre ++ .tok (semiTok [] 0 A w) :: post = (pre ++ [.tok (semiTok [] 0 A w)]) ++ [] ++ post := by simp
  rw [hsplit] at hC
  have hlv := C.leaves (.node k (pre ++ .tok (semiTok [] 0 A w) :: post))
  rw [hsplit, ← hC, ← hsplit, Tree.leaves, rd.leaves, Tree.leaves, leavesF_app, leavesF, Tree.leaves] at hlv
  have nd := tokens_nodup hf
  obtain ⟨b1, b2⟩ : codeOf [] 0 A = C.before ++ leavesF pre ∧
      codeOf (spread (A ++ [semiPiece w]) []) (A ++ [semiPiece w]).length B = leavesF post ++ C.after := by
    rw [tkX', (semi_code w tA).1] at nd hlv
    simp only [List.append_assoc, List.cons_append, List.nil_append] at hlv nd
    refine app_unique nd ?_
    simpa only [List.append_assoc] using hlv
  have hsym : (Tree.node it ds).sym = .n it := rfl
  obtain ⟨C0, pre0, post0, h0, hp0, hb0, g1, g2, g3, g4, g5, g6, g7, g8⟩ := swap_tree (C := C) (k := k)
    (pre := pre ++ [.tok (semiTok [] 0 A w)]) (ms := []) (post := post)
    (ms' := [.node it ds, .tok (bareTok (semiTok (spread (A ++ [semiPiece w]) []) (A ++ [semiPiece w]).length Y w'))])
    (d := newlines (spread (A ++ [semiPiece w]) [])) (d' := newlines (spread (A ++ [semiPiece w] ++ (Y ++ [semiPiece w'])) []))
    (B0 := (codeOf [] 1 B).map bareTok)
    (hC ▸ rd.conforms) (hC ▸ hE0) (hC ▸ op) (by simp)
    (by rw [← b2]; exact code_bare B _ _ (by simp))
    (by
      have := hcf.1
      simp only [List.map_append, List.map_cons] at this
      simp only [List.map_append, List.map_cons, List.map_nil, List.append_assoc, List.cons_append, List.nil_append]
      exact (list_insert hk).1 this)
    (by simp only [ConformsF]; exact ⟨hY.conforms, trivial, trivial⟩)
    (by simp only [hasEmptyF, item_full hk hY]; rfl)
    (by
      intro c hc
      simp only [List.mem_cons, List.not_mem_nil, or_false] at hc
      rcases hc with rfl | rfl
      · exact ⟨hs, ho⟩
      · exact ⟨rfl, trivial⟩)
  rw [← hC] at g1 g7
  obtain ⟨cs2, hcs2⟩ := node_of g7
  have hleaves : leavesF cs2 = l.tokens.map bareTok := by
    have := congrArg Tree.leaves hcs2
    rw [g8, Tree.leaves] at this
    rw [← this, tkY, List.map_append, List.map_append, code_bare B (spread (A ++ [semiPiece w] ++ (Y ++ [semiPiece w'])) []) _ (by simp; omega),
      (semi_code w tA).1, (semi_code w' tY).1, b1]
    simp [leavesF, Tree.leaves, hY.leaves]
  have hread : Reading .StoredDefinition (l.tokens.map bareTok) cs2 := by
    rw [hcs2] at g4 g5
    refine ⟨g4, ?_, hleaves⟩
    simp only [Tree.hasEmpty, Bool.or_eq_false_iff] at g5
    exact g5.2
  obtain ⟨p', out', c2, hf', pt, pc, t2, hc2⟩ := accept_bare eol hl he hread (hcs2 ▸ g6)
  have l2 : (Tree.node .StoredDefinition c2).leaves = l.tokens := by
    obtain ⟨c, t, _, k2, _⟩ := hf'.laid
    rw [t2] at t
    simp only [Res.ok.injEq] at t
    rw [← t, groupsOf_tok, Tree.wholeLayout, layout_toks, pt] at k2
    exact k2
  have hm : ∀ (x : Token), mapTrees bareTok (pre ++ [.tok x]) = mapTrees bareTok pre ++ [.tok (bareTok x)] := by
    intro x; simp [mapTrees_list, Tree.map]
  subst h0
  obtain ⟨ga, gy, gb, gb', z1, z2, z3⟩ := insert_core eol (A := A) (Y := Y) (B := B) (w := w) (w' := w') tokY
    (T1 := .node .StoredDefinition cs0) (T2 := .node .StoredDefinition c2) (C0 := C0) hk (pre := mapTrees bareTok pre)
    (post := post0) (ds := ds) (t := bareTok (semiTok [] 0 A w))
    (t' := bareTok (semiTok (spread (A ++ [semiPiece w]) []) (A ++ [semiPiece w]).length Y w')) rfl rfl
    (by rw [mapTrees_list]; simpa using hpre)
    (by simpa [hm, mapTrees] using g2) (d1 := newlines (spread (A ++ [semiPiece w]) []))
    (d2 := newlines (spread (A ++ [semiPiece w] ++ (Y ++ [semiPiece w'])) []))
    (by rw [g1]; simp [hm, mapTrees])
    (by rw [Tree.map, hc2, ← hcs2]; simp [hm])
    (by rw [Tree.leaves, rd.leaves, tkX'])
    (by rw [l2, tkY])
    (by rw [hb0, (semi_code w tA).1, b1, mapF_leaves]; simp)
    (by rw [(semi_code w' tY).1, hY.leaves]; simp)
    hlk
  -- the two semicolons
  have hmap : (Tree.node .StoredDefinition c2).map bareTok = (C0.map id
      (moveTok (newlines (spread (A ++ [semiPiece w] ++ (Y ++ [semiPiece w'])) [])))).plug (.node k
        (mapTrees bareTok pre ++ .tok (bareTok (semiTok [] 0 A w)) :: .node it ds ::
          .tok (bareTok (semiTok (spread (A ++ [semiPiece w]) []) (A ++ [semiPiece w]).length Y w')) ::
          mapTrees (moveTok (newlines (spread (A ++ [semiPiece w] ++ (Y ++ [semiPiece w'])) []))) post0)) := by
    rw [Tree.map, hc2, ← hcs2]; simp [hm]
  obtain ⟨C', cs', q1, q2, q3⟩ := part_inv bareTok _ hmap
  have q4 : C'.before.length = C.before.length := by
    have := congrArg List.length q3
    rwa [List.length_map, Around.before_map, List.length_map, hb0, List.length_map] at this
  have b1' := congrArg List.length b1
  simp only [List.length_append] at b1'
  have q5 : C'.plug (.node k cs') = .node .StoredDefinition c2 := q1.symm
  rw [← q5, tkY, (semi_code w tA).1, (semi_code w' tY).1] at l2
  obtain ⟨a1, t1, r1, v1, v2⟩ := map_split q2
  have hY2 : mapTrees bareTok cs' = (mapTrees bareTok pre ++ [.tok (bareTok (semiTok [] 0 A w)), .node it ds]) ++
      .tok (bareTok (semiTok (spread (A ++ [semiPiece w]) []) (A ++ [semiPiece w]).length Y w')) ::
          mapTrees (moveTok (newlines (spread (A ++ [semiPiece w] ++ (Y ++ [semiPiece w'])) []))) post0 := by
    rw [q2]; simp
  obtain ⟨a2, t2', r2, v3, v4⟩ := map_split hY2
  have s1 : t1 = semiTok [] 0 A w := by
    refine leaf_at (L := codeOf [] 0 A) (by rw [← v1, l2]; simp only [List.append_assoc, List.cons_append, List.nil_append]; rfl) ?_
    rw [v2, mapF_leaves, List.length_map]
    omega
  have s2 : t2' = semiTok [] 0 (A ++ [semiPiece w] ++ Y) w' := by
    rw [semiTok_shift]
    refine leaf_at (L := codeOf [] 0 A ++ [semiTok [] 0 A w] ++ codeOf (spread (A ++ [semiPiece w]) []) (A ++ [semiPiece w]).length Y)
      (by rw [← v3, l2]; simp only [List.append_assoc, List.cons_append, List.nil_append]; rfl) ?_
    rw [v4]
    simp only [leavesF_app, leavesF, Tree.leaves, mapF_leaves, List.length_append, List.length_map, hY.leaves, List.length_cons,
      List.length_nil]
    omega
  have part : Part (.node k cs') (.node .StoredDefinition c2) := q5 ▸ C'.part _
  exact ⟨p', out', _, ga, gy, gb, gb', hf', t2, by rw [cmX]; exact z1, by rw [pc, cmY]; exact z2, z3.1, z3.2.1, z3.2.2.1, z3.2.2.2.1,
    z3.2.2.2.2, ⟨a1, r1, s1 ▸ v1 ▸ part⟩, a2, r2, s2 ▸ v3 ▸ part⟩

/-- **C73** Another item.  Insert an element, an equation or a statement with its semicolon (the pieces `Y` and a semicolon)
directly behind the semicolon `t` of another one (in a production of kind `k`), such that no indentation is left over from it.
The new file is accepted, too, and its output is the output of the old one with the text of the new item inserted: what is
printed for the tokens before and behind it, with the white space and the comments between them, stays the same. -/
theorem C73_insert_partial (eol name src out name' src' w w' : Text) (p : Parsed) (A Y B : List (Text × Chunk)) (l : Lexed) (tree : Tree)
    (k it : SK) (pre post ds : List Tree) (hf : Formatted eol name src p out) (hd : Divided src (A ++ [semiPiece w] ++ B))
    (hd' : Divided src' (A ++ [semiPiece w] ++ (Y ++ [semiPiece w']) ++ B)) (hl : lex name' src' = .ok l) (he : l.errors = [])
    (ht : buildTree p.tokens p.events = .ok tree) (hk : listItem k = some it)
    (hX : Part (.node k (pre ++ .tok (semiTok [] 0 A w) :: post)) tree)
    (hY : Reading it (codeOf (spread (A ++ [semiPiece w]) []) (A ++ [semiPiece w]).length Y) ds) (ho : (Tree.node it ds).Opens)
    (hs : ∀ t, (leavesF ds).head? = some t → t.kind ≠ .End ∧ t.kind ≠ .Initial)
    (hlk : (Tree.node it ds).leaks = 0) :
    ∃ p' out' ga gy gb gb', Formatted eol name' src' p' out' ∧
      out = groupsText (ga ++ gb) ++ eol ∧ out' = groupsText (ga ++ gy ++ gb') ++ eol ∧
      ga.map (·.tok) = codeOf [] 0 (A ++ [semiPiece w]) ∧
      gy.map (·.tok) = codeOf (spread (A ++ [semiPiece w]) []) (A ++ [semiPiece w]).length (Y ++ [semiPiece w']) ∧
      gb.map (·.tok) = codeOf (spread (A ++ [semiPiece w]) []) (A ++ [semiPiece w]).length B ∧
      gb'.map (·.tok) = codeOf (spread (A ++ [semiPiece w] ++ (Y ++ [semiPiece w'])) [])
        (A ++ [semiPiece w] ++ (Y ++ [semiPiece w'])).length B ∧
      gb'.map Group.shown = gb.map Group.shown := by
  have hbk : ∀ t, (bareTok t).kind = t.kind := fun _ => rfl
  obtain ⟨p', out', tree', ga, gy, gb, gb', hf', t2, z1, z2, z3, z4, z5, z6, z7, _⟩ := insert_bare eol name src out name' src' w w' p A Y B l tree k it pre
    post (mapTrees bareTok ds) hf hd hd' hl he ht hk hX
    ⟨map_conforms hbk _ hY.conforms, by rw [mapF_hasEmpty]; exact hY.full, by rw [mapF_leaves, hY.leaves]⟩
    (map_opens hbk _ ho)
    (by
      have := map_startsOk hbk k (Tree.node it ds)
      rw [Tree.map] at this
      rw [this]
      simp only [Tree.startsOk]
      cases e : leavesF ds with
      | nil => rfl
      | cons t ts =>
        obtain ⟨h1, h2⟩ := hs t (by rw [e]; rfl)
        simp [opens, h1, h2])
    (by
      have := leaks_map keep_bare (Tree.node it ds)
      rw [Tree.map] at this
      rw [this, hlk])
  exact ⟨p', out', ga, gy, gb, gb', hf', by rw [laid_tree hf ht, z1], by rw [laid_tree hf' t2, z2], ⟨z3, z4, z5, z6, z7⟩⟩

/-- an item behind a semicolon is left out: the groups of both files, and the tree of the new one -/
theorem delete_full (eol name src out name' src' w w' : Text) (p : Parsed) (A Y B : List (Text × Chunk)) (tree : Tree)
    (k it : SK) (pre post ds : List Tree) (hf : Formatted eol name src p out)
    (hd : Divided src (A ++ [semiPiece w] ++ (Y ++ [semiPiece w']) ++ B)) (hd' : Divided src' (A ++ [semiPiece w] ++ B))
    (ht : buildTree p.tokens p.events = .ok tree) (hk : listItem k = some it)
    (hX : Part (.node k (pre ++ .tok (semiTok [] 0 A w) :: .node it ds ::
      .tok (semiTok (spread (A ++ [semiPiece w]) []) (A ++ [semiPiece w]).length Y w') :: post)) tree)
    (hlk : (Tree.node it ds).leaks = 0) :
    ∃ p' out' tree' ga gy gb gb', Formatted eol name' src' p' out' ∧ buildTree p'.tokens p'.events = .ok tree' ∧
      groupsOf eol p.comments tree.wholeLayout = ga ++ gy ++ gb ∧ groupsOf eol p'.comments tree'.wholeLayout = ga ++ gb' ∧
      (ga.map (·.tok) = codeOf [] 0 (A ++ [semiPiece w]) ∧
      gy.map (·.tok) = codeOf (spread (A ++ [semiPiece w]) []) (A ++ [semiPiece w]).length (Y ++ [semiPiece w']) ∧
      gb.map (·.tok) = codeOf (spread (A ++ [semiPiece w] ++ (Y ++ [semiPiece w'])) [])
        (A ++ [semiPiece w] ++ (Y ++ [semiPiece w'])).length B ∧
      gb'.map (·.tok) = codeOf (spread (A ++ [semiPiece w]) []) (A ++ [semiPiece w]).length B ∧
      gb'.map Group.shown = gb.map Group.shown) ∧
      leavesF ds = codeOf (spread (A ++ [semiPiece w]) []) (A ++ [semiPiece w]).length Y ∧
      ∃ (C' : Around) (cs' : List Tree), tree' = C'.plug (.node k cs') ∧ C'.before.length + (leavesF pre).length = (codeOf [] 0 A).length ∧
        mapTrees bareTok cs' = mapTrees bareTok (pre ++ [.tok (semiTok [] 0 A w)]) ++
          mapTrees (moveTok (newlines (spread (A ++ [semiPiece w]) [])) ∘
            unmoveTok (newlines (spread (A ++ [semiPiece w] ++ (Y ++ [semiPiece w'])) [])) ∘ bareTok) post := by
  have hbk : ∀ t, (bareTok t).kind = t.kind := fun _ => rfl
  obtain ⟨tokX, awX, tkX, cmX, cs0, _, _, rd, op, bt, _, _, _⟩ := formatted_facts hf hd
  rw [ht] at bt
  simp only [Res.ok.injEq] at bt
  subst bt
  have tA : ∀ x ∈ A, ∃ k t, x.2 = .token k t := fun x hx => tokX x (by simp [hx])
  have tPA : ∀ x ∈ A ++ [semiPiece w], ∃ k t, x.2 = .token k t := fun x hx =>
    tokX x (List.mem_append_left _ (List.mem_append_left _ hx))
  have tY : ∀ x ∈ Y, ∃ k t, x.2 = .token k t := fun x hx => tokX x (by simp [hx])
  have tPY : ∀ x ∈ Y ++ [semiPiece w'], ∃ k t, x.2 = .token k t := fun x hx =>
    tokX x (List.mem_append_left _ (List.mem_append_right _ hx))
  have tN : ∀ x ∈ A ++ [semiPiece w] ++ (Y ++ [semiPiece w']), ∃ k t, x.2 = .token k t := fun x hx =>
    tokX x (List.mem_append_left _ hx)
  have tM : ∀ x ∈ A ++ [semiPiece w] ++ B, ∃ k t, x.2 = .token k t := fun x hx =>
    (List.mem_append.1 hx).elim (tPA x) fun h => tokX x (List.mem_append_right _ h)
  have awY : awkward false (A ++ [semiPiece w] ++ B) = false := by
    rw [awkward_append _ _ tN, awkward_append _ _ tPA] at awX
    rw [awkward_append _ _ tPA]
    simp only [Bool.or_eq_false_iff] at awX ⊢
    exact ⟨awX.1.1, awX.2⟩
  have hl := C53_lexed name' src' _ hd'
  rw [awY, tokens_problems name' _ [] tM] at hl
  simp only [Bool.false_eq_true, if_false] at hl
  generalize hlg : (Lexed.mk ((lexemes [] 0 (A ++ [semiPiece w] ++ B)).filter (fun t => !isComment t))
    ((lexemes [] 0 (A ++ [semiPiece w] ++ B)).filter isComment) []) = l at hl
  have he : l.errors = [] := by rw [← hlg]
  obtain ⟨-, tkY, cmY⟩ := lexed_tokens hd' hl he
  rw [code_append tPA, List.nil_append, Nat.zero_add] at tkY
  have tkX' : p.tokens = codeOf [] 0 (A ++ [semiPiece w] ++ (Y ++ [semiPiece w']) ++ B) := tkX
  rw [code_append tN, code_append tPA, List.nil_append, List.nil_append, Nat.zero_add, Nat.zero_add] at tkX'
  have hE0 : (Tree.node .StoredDefinition cs0).hasEmpty = false := by
    have hne : cs0 ≠ [] := by
      rintro rfl
      generalize hg : Tree.node k (pre ++ .tok (semiTok [] 0 A w) :: .node it ds ::
        .tok (semiTok (spread (A ++ [semiPiece w]) []) (A ++ [semiPiece w]).length Y w') :: post) = g at hX
      cases hX with
      | here => simp at hg
      | there hc _ => cases hc
    simp [Tree.hasEmpty, rd.full, hne]
  have hcf := (hX.conforms rd.conforms)
  have hpre : pre ≠ [] := by
    rintro rfl
    exact list_second hk hcf.1
  obtain ⟨C, hC⟩ := hX.around
  have hsplit : pre ++ .tok (semiTok [] 0 A w) :: .node it ds ::
      .tok (semiTok (spread (A ++ [semiPiece w]) []) (A ++ [semiPiece w]).length Y w') :: post =
      (pre ++ [.tok (semiTok [] 0 A w)]) ++ [.node it ds,
        .tok (semiTok (spread (A ++ [semiPiece w]) []) (A ++ [semiPiece w]).length Y w')] ++ post := by simp
  have hlv := C.leaves (.node k (pre ++ .tok (semiTok [] 0 A w) :: .node it ds ::
      .tok (semiTok (spread (A ++ [semiPiece w]) []) (A ++ [semiPiece w]).length Y w') :: post))
  rw [← hC, Tree.leaves, rd.leaves, Tree.leaves, leavesF_app, leavesF, leavesF, leavesF, Tree.leaves, Tree.leaves,
    Tree.leaves] at hlv
  rw [hsplit] at hC
  have nd := tokens_nodup hf
  obtain ⟨b1, b2, b3⟩ : codeOf [] 0 A = C.before ++ leavesF pre ∧
      codeOf (spread (A ++ [semiPiece w]) []) (A ++ [semiPiece w]).length Y = leavesF ds ∧
      codeOf (spread (A ++ [semiPiece w] ++ (Y ++ [semiPiece w'])) [])
        (A ++ [semiPiece w] ++ (Y ++ [semiPiece w'])).length B = leavesF post ++ C.after := by
    rw [tkX', (semi_code w tA).1, (semi_code w' tY).1] at nd hlv
    simp only [List.append_assoc, List.cons_append, List.nil_append] at hlv nd
    rw [← List.append_assoc C.before] at hlv
    obtain ⟨x1, x2⟩ := app_unique nd hlv
    have nd2 := (List.nodup_append.1 nd).2.1
    rw [List.nodup_cons] at nd2
    obtain ⟨x3, x4⟩ := app_unique nd2.2 x2
    exact ⟨x1, x3, by simpa only [List.append_assoc, List.cons_append, List.nil_append] using x4⟩
  obtain ⟨C0, pre0, post0, h0, hp0, hb0, g1, g2, g3, g4, g5, g6, g7, g8⟩ := swap_tree (C := C) (k := k)
    (pre := pre ++ [.tok (semiTok [] 0 A w)])
    (ms := [.node it ds, .tok (semiTok (spread (A ++ [semiPiece w]) []) (A ++ [semiPiece w]).length Y w')]) (post := post)
    (ms' := [])
    (d := newlines (spread (A ++ [semiPiece w] ++ (Y ++ [semiPiece w'])) [])) (d' := newlines (spread (A ++ [semiPiece w]) []))
    (B0 := (codeOf [] 1 B).map bareTok)
    (hC ▸ rd.conforms) (hC ▸ hE0) (hC ▸ op) (by simp)
    (by rw [← b3]; exact code_bare B _ _ (by simp; omega))
    (by
      have := hcf.1
      simp only [List.map_append, List.map_cons] at this
      simp only [List.map_append, List.map_cons, List.map_nil, List.append_assoc, List.cons_append, List.nil_append]
      exact (list_insert hk).2 this)
    trivial rfl (by simp)
  rw [← hC] at g1 g7
  obtain ⟨cs2, hcs2⟩ := node_of g7
  have hleaves : leavesF cs2 = l.tokens.map bareTok := by
    have := congrArg Tree.leaves hcs2
    rw [g8, Tree.leaves] at this
    rw [← this, tkY, List.map_append, code_bare B (spread (A ++ [semiPiece w]) []) _ (by simp), (semi_code w tA).1, b1]
    simp [leavesF, Tree.leaves]
  have hread : Reading .StoredDefinition (l.tokens.map bareTok) cs2 := by
    rw [hcs2] at g4 g5
    refine ⟨g4, ?_, hleaves⟩
    simp only [Tree.hasEmpty, Bool.or_eq_false_iff] at g5
    exact g5.2
  obtain ⟨p', out', c2, hf', pt, pc, t2, hc2⟩ := accept_bare eol hl he hread (hcs2 ▸ g6)
  have l2 : (Tree.node .StoredDefinition c2).leaves = l.tokens := by
    obtain ⟨c, t, _, k2, _⟩ := hf'.laid
    rw [t2] at t
    simp only [Res.ok.injEq] at t
    rw [← t, groupsOf_tok, Tree.wholeLayout, layout_toks, pt] at k2
    exact k2
  have hm : ∀ (x : Token), mapTrees bareTok (pre ++ [.tok x]) = mapTrees bareTok pre ++ [.tok (bareTok x)] := by
    intro x; simp [mapTrees_list, Tree.map]
  subst h0
  obtain ⟨ga, gy, gb, gb', z1, z2, z3, z4, z5, z6, z7⟩ := insert_core eol (A := A) (Y := Y) (B := B) (w := w) (w' := w') tokX
    (T1 := .node .StoredDefinition c2) (T2 := .node .StoredDefinition cs0) (C0 := C0) hk (pre := mapTrees bareTok pre)
    (post := post0) (ds := mapTrees bareTok ds) (t := bareTok (semiTok [] 0 A w))
    (t' := bareTok (semiTok (spread (A ++ [semiPiece w]) []) (A ++ [semiPiece w]).length Y w')) rfl rfl
    (by rw [mapTrees_list]; simpa using hpre)
    (by simpa [hm, mapTrees] using g3) (d1 := newlines (spread (A ++ [semiPiece w]) []))
    (d2 := newlines (spread (A ++ [semiPiece w] ++ (Y ++ [semiPiece w'])) []))
    (by rw [Tree.map, hc2, ← hcs2]; simp [hm])
    (by rw [g1]; simp [hm, mapTrees, Tree.map])
    (by rw [l2, tkY])
    (by rw [Tree.leaves, rd.leaves, tkX'])
    (by rw [hb0, (semi_code w tA).1, b1, mapF_leaves]; simp)
    (by rw [(semi_code w' tY).1, mapF_leaves, b2]; simp)
    (by
      have := leaks_map keep_bare (Tree.node it ds)
      rw [Tree.map] at this
      rw [this, hlk])
  refine ⟨p', out', _, ga, gy, gb', gb, hf', t2, by rw [cmX]; exact z2, by rw [pc, cmY]; exact z1, ⟨z3, z4, z6, z5, z7.symm⟩, b2.symm, ?_⟩
  obtain ⟨C', cs', e1, e2, e3⟩ := part_inv bareTok _
    (Eq.trans (show Tree.map bareTok (.node .StoredDefinition c2) = _ by rw [Tree.map, hc2]) hcs2.symm)
  refine ⟨C', cs', e1, ?_, ?_⟩
  · have := congrArg List.length e3
    rw [List.length_map, Around.before_map, List.length_map, hb0, List.length_map] at this
    rw [b1, this, List.length_append]
  · rw [e2, hp0, mapTrees_comp]
    simp

/-- **C73** One item less.  The same for a file in which an element, an equation or a statement from which no indentation is left
over stands directly behind the semicolon of another one: without
it, the file is still accepted, and what is printed for the other tokens stays the same. -/
theorem C73_delete_partial (eol name src out name' src' w w' : Text) (p : Parsed) (A Y B : List (Text × Chunk)) (tree : Tree)
    (k it : SK) (pre post ds : List Tree) (hf : Formatted eol name src p out)
    (hd : Divided src (A ++ [semiPiece w] ++ (Y ++ [semiPiece w']) ++ B)) (hd' : Divided src' (A ++ [semiPiece w] ++ B))
    (ht : buildTree p.tokens p.events = .ok tree) (hk : listItem k = some it)
    (hX : Part (.node k (pre ++ .tok (semiTok [] 0 A w) :: .node it ds ::
      .tok (semiTok (spread (A ++ [semiPiece w]) []) (A ++ [semiPiece w]).length Y w') :: post)) tree)
    (hlk : (Tree.node it ds).leaks = 0) :
    ∃ p' out' ga gy gb gb', Formatted eol name' src' p' out' ∧
      out = groupsText (ga ++ gy ++ gb) ++ eol ∧ out' = groupsText (ga ++ gb') ++ eol ∧
      ga.map (·.tok) = codeOf [] 0 (A ++ [semiPiece w]) ∧
      gy.map (·.tok) = codeOf (spread (A ++ [semiPiece w]) []) (A ++ [semiPiece w]).length (Y ++ [semiPiece w']) ∧
      gb.map (·.tok) = codeOf (spread (A ++ [semiPiece w] ++ (Y ++ [semiPiece w'])) [])
        (A ++ [semiPiece w] ++ (Y ++ [semiPiece w'])).length B ∧
      gb'.map (·.tok) = codeOf (spread (A ++ [semiPiece w]) []) (A ++ [semiPiece w]).length B ∧
      gb'.map Group.shown = gb.map Group.shown := by
  obtain ⟨p', out', tree', ga, gy, gb, gb', hf', t2, z1, z2, z3, _⟩ := delete_full eol name src out name' src' w w' p A Y B tree k it pre
    post ds hf hd hd' ht hk hX hlk
  exact ⟨p', out', ga, gy, gb, gb', hf', by rw [laid_tree hf ht, z1], by rw [laid_tree hf' t2, z2], z3⟩

def tokIs (t : Token) : Tree → Bool
  | .tok u => u == t
  | _ => false

theorem tokIs_eq {t : Token} {s : Tree} (h : tokIs t s = true) : s = .tok t := by
  cases s with
  | tok u => simp only [tokIs, beq_iff_eq] at h; rw [h]
  | node _ _ => cases h

theorem kids_eq {k : SK} {s : Tree} (h : (s.sym == .n k) = true) : .node k (kidsOf s) = s := by
  cases s with
  | tok u => simp [Tree.sym] at h
  | node k' cs => simp only [Tree.sym, beq_iff_eq, Sym.n.injEq] at h; rw [h]; rfl

theorem three_split {l : List Tree} (d a : Tree) (h : 2 < l.length) (h2 : l.getD 2 d = a) : l.take 2 ++ a :: l.drop 3 = l := by
  subst h2
  simp [List.getD, h]

theorem five_split {l : List Tree} (d a b c : Tree) (h : 4 < l.length) (h2 : l.getD 2 d = a) (h3 : l.getD 3 d = b)
    (h4 : l.getD 4 d = c) : l.take 2 ++ a :: b :: c :: l.drop 5 = l := by
  subst h2 h3 h4
  have h' : 2 < l.length := by omega
  have h'' : 3 < l.length := by omega
  simp [List.getD, h, h', h'']

def exMoreA : List (Text × Chunk) :=
  [([], .token .Model c!"model"), (c!" ", .token .Identifier c!"A"), (c!"\n", .token .Equation c!"equation"),
   (c!"\n\n", .token .Identifier c!"x"), (c!" ", .token .Equal c!"="), (c!" ", .token .UInt c!"1")]
def exMoreY : List (Text × Chunk) :=
  [(c!"\n", .token .BlockComment c!"/* n */"), (c!" ", .token .Identifier c!"v"), (c!" ", .token .Equal c!"="),
   ([], .token .Identifier c!"f"), ([], .token .LParen c!"("), (c!"\n", .token .UInt c!"2"), ([], .token .RParen c!")")]
def exMoreB : List (Text × Chunk) :=
  [(c!" ", .token .LineComment c!"// c"), (c!"\n\n", .token .Identifier c!"y"),
   (c!" ", .token .Equal c!"="), (c!"\n", .token .Identifier c!"z"), ([], .token .Semicolon c!";"), (c!"\n", .token .End c!"end"),
   (c!" ", .token .Identifier c!"A"), ([], .token .Semicolon c!";")]
def exMoreOld : Text := spread (exMoreA ++ [semiPiece c!" "] ++ exMoreB) []
def exMoreNew : Text := spread (exMoreA ++ [semiPiece c!" "] ++ (exMoreY ++ [semiPiece []]) ++ exMoreB) []
def exMoreSection (src : Text) : List Tree := kidsOf ((exEditTree src).find .EquationSection)
def exMoreItem : List Tree := kidsOf ((exMoreSection exMoreNew).getD 3 (.node .Name []))
def exMoreOldOut : Text := c!"model A\n\nequation\n\n  x = 1; // c\n\n  y = z;\n\nend A;\n"
def exMoreNewOut : Text := c!"model A\n\nequation\n\n  x = 1;\n  /* n */\n  v = f(\n    2); // c\n\n  y = z;\n\nend A;\n"

set_option maxRecDepth 100000 in
set_option maxHeartbeats 2000000 in
/-- The hypotheses of `C73_insert_partial` and `C73_delete_partial` hold of a file with two equations and another one between them. -/
theorem C73_case : Formatted c!"\n" c!"f" exMoreOld (exEditP exMoreOld) exMoreOldOut ∧
    Formatted c!"\n" c!"f" exMoreNew (exEditP exMoreNew) exMoreNewOut ∧
    Divided exMoreOld (exMoreA ++ [semiPiece c!" "] ++ exMoreB) ∧
    Divided exMoreNew (exMoreA ++ [semiPiece c!" "] ++ (exMoreY ++ [semiPiece []]) ++ exMoreB) ∧
    (∃ l, lex c!"f" exMoreNew = .ok l ∧ l.errors = []) ∧
    buildTree (exEditP exMoreOld).tokens (exEditP exMoreOld).events = .ok (exEditTree exMoreOld) ∧
    buildTree (exEditP exMoreNew).tokens (exEditP exMoreNew).events = .ok (exEditTree exMoreNew) ∧
    Part (.node .EquationSection ((exMoreSection exMoreOld).take 2 ++ .tok (semiTok [] 0 exMoreA c!" ") ::
      (exMoreSection exMoreOld).drop 3)) (exEditTree exMoreOld) ∧
    Part (.node .EquationSection ((exMoreSection exMoreNew).take 2 ++ .tok (semiTok [] 0 exMoreA c!" ") ::
      .node .Equation exMoreItem :: .tok (semiTok (spread (exMoreA ++ [semiPiece c!" "]) [])
        (exMoreA ++ [semiPiece c!" "]).length exMoreY []) :: (exMoreSection exMoreNew).drop 5)) (exEditTree exMoreNew) ∧
    Reading .Equation (codeOf (spread (exMoreA ++ [semiPiece c!" "]) []) (exMoreA ++ [semiPiece c!" "]).length exMoreY) exMoreItem ∧
    (Tree.node .Equation exMoreItem).Opens ∧
    (∀ t, (leavesF exMoreItem).head? = some t → t.kind ≠ .End ∧ t.kind ≠ .Initial) ∧
    (Tree.node .Equation exMoreItem).leaks = 0 := by
  have e1 : (exMoreSection exMoreOld).take 2 ++ .tok (semiTok [] 0 exMoreA c!" ") :: (exMoreSection exMoreOld).drop 3 =
      exMoreSection exMoreOld :=
    three_split (.node .Name []) _ (by decide +kernel) (tokIs_eq (by decide +kernel))
  have e2 : (exMoreSection exMoreNew).take 2 ++ .tok (semiTok [] 0 exMoreA c!" ") ::
      .node .Equation exMoreItem :: .tok (semiTok (spread (exMoreA ++ [semiPiece c!" "]) [])
        (exMoreA ++ [semiPiece c!" "]).length exMoreY []) :: (exMoreSection exMoreNew).drop 5 = exMoreSection exMoreNew :=
    five_split (.node .Name []) _ _ _ (by decide +kernel) (tokIs_eq (by decide +kernel)) (kids_eq (by decide +kernel)).symm
      (tokIs_eq (by decide +kernel))
  rw [e1, e2]
  refine ⟨⟨by decide_cbv, by decide_cbv, exMoreOldOut.dropLast, by decide_cbv, by decide⟩,
    ⟨by decide_cbv, by decide_cbv, exMoreNewOut.dropLast, by decide_cbv, by decide⟩, dividedB_sound (by decide +kernel),
    dividedB_sound (by decide +kernel), ?_, resTree_ok (by decide +kernel), resTree_ok (by decide +kernel),
    find_kind _ (by decide +kernel), find_kind _ (by decide +kernel),
    readingOf (by decide +kernel) (by decide +kernel) (by decide +kernel), opensB_sound _ (by decide +kernel), ?_, by decide +kernel⟩
  · exact ⟨match lex c!"f" exMoreNew with | .ok l => l | _ => ⟨[], [], []⟩, by decide +kernel, by decide +kernel⟩
  · have : (leavesF exMoreItem).head?.all (fun t => t.kind != .End && t.kind != .Initial) = true := by decide +kernel
    intro t h
    rw [h] at this
    simpa using this

set_option maxRecDepth 100000 in
/-- **C73** needs an item from which no indentation is left over: behind an equation with a wrapped left hand side the rest of
the file is printed deeper. -/
theorem C73_leftover_false :
    (∃ p, Formatted c!"\n" c!"f" c!"model A\nequation\nx = 1;\ny = z;\nend A;" p
      (c!"model A\n\nequation\n\n  x = 1;" ++ c!"\n  y = z;\n\nend A;\n")) ∧
    ∃ p, Formatted c!"\n" c!"f" c!"model A\nequation\nx = 1;\na\n+ b = c;\ny = z;\nend A;" p
      (c!"model A\n\nequation\n\n  x = 1;" ++ c!"\n  a\n    + b = c;" ++ c!"\n    y = z;\n\n  end A;\n") :=
  ⟨⟨exEditP c!"model A\nequation\nx = 1;\ny = z;\nend A;", by decide_cbv, by decide_cbv,
      c!"model A\n\nequation\n\n  x = 1;\n  y = z;\n\nend A;", by decide_cbv, by decide⟩,
    ⟨exEditP c!"model A\nequation\nx = 1;\na\n+ b = c;\ny = z;\nend A;", by decide_cbv, by decide_cbv,
      c!"model A\n\nequation\n\n  x = 1;\n  a\n    + b = c;\n    y = z;\n\n  end A;", by decide_cbv, by decide⟩⟩


end Mofmt
