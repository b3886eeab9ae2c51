import Verif.Props.Insert
/-
C82: two neighbouring elements, equations or statements that are swapped are swapped in the output, too.
-/
namespace Mofmt
open Lexical

/-- pieces up to a semicolon stay the same pieces in front of any other text -/
theorem divided_cut : ∀ {A : List (Text × Chunk)} {w src : Text} {B : List (Text × Chunk)}, (∀ x ∈ A, ∃ k t, x.2 = .token k t) →
    Divided src (A ++ semiPiece w :: B) →
    ∃ r, src = spread (A ++ [semiPiece w]) [] ++ r ∧ Divided r B ∧
      ∀ r' B', Divided r' B' → Divided (spread (A ++ [semiPiece w]) [] ++ r') (A ++ semiPiece w :: B')
  | [], w, _, B, _, h => by
    cases h with
    | next hw hp hd =>
      refine ⟨_, ?_, hd, fun r' B' h' => ?_⟩
      · simp [spread, semiPiece]
      · have := Divided.next (p := .token .Semicolon c!";") hw (semicolon_before r') h'
        simpa [spread, semiPiece] using this
  | (a, q) :: A, w, _, B, hA, h => by
    obtain ⟨k, t, e⟩ := hA _ (List.mem_cons_self ..)
    simp only at e
    subst e
    cases h with
    | next hw hp hd =>
      obtain ⟨r, h1, h2, h3⟩ := divided_cut (fun x hx => hA x (List.mem_cons_of_mem _ hx)) hd
      subst h1
      refine ⟨r, by simp [spread], h2, fun r' B' h' => ?_⟩
      have hne : spread (A ++ [semiPiece w]) [] ≠ [] := by simp [spread, semiPiece, Chunk.text]
      have := Divided.next hw (before_head hp (r' := spread (A ++ [semiPiece w]) [] ++ r') (by
        cases e : spread (A ++ [semiPiece w]) [] with
        | nil => exact absurd e hne
        | cons c s => rfl)) (h3 r' B' h')
      simpa [spread] using this

theorem code_length (ps : List (Text × Chunk)) {s s' : Text} {i i' : Nat} (h : 1 ≤ i) (h' : 1 ≤ i') :
    (codeOf s i ps).length = (codeOf s' i' ps).length := by
  have h1 := congrArg List.length (code_bare ps s i h)
  have h2 := congrArg List.length (code_bare ps s' i' h')
  simp only [List.length_map] at h1 h2
  omega

theorem leaves_of {eol name src out : Text} {p : Parsed} {tree : Tree} {ps : List (Text × Chunk)} (hf : Formatted eol name src p out)
    (ht : buildTree p.tokens p.events = .ok tree) (hd : Divided src ps) : tree.leaves = codeOf [] 0 ps := by
  obtain ⟨_, _, tk, _, cs, _, _, rd, _, bt, _⟩ := formatted_facts hf hd
  rw [ht] at bt
  simp only [Res.ok.injEq] at bt
  subst bt
  rw [Tree.leaves, rd.leaves]
  exact tk

/-- an item can be moved to another place of the file -/
theorem moved_item {k it : SK} {ys : List Tree} {Y : List (Text × Chunk)} {s : Text} {n : Nat} (hc : (Tree.node it ys).Conforms)
    (hE : (Tree.node it ys).hasEmpty = false) (ho : (Tree.node it ys).Opens) (hs : (Tree.node it ys).startsOk k = true)
    (hlk : (Tree.node it ys).leaks = 0) (hlv : leavesF ys = codeOf s n Y) (hn : 1 ≤ n) (s' : Text) (n' : Nat) (hn' : 1 ≤ n') :
    ∃ ds, Reading it ((codeOf s' n' Y).map bareTok) ds ∧ (Tree.node it ds).Opens ∧ (Tree.node it ds).startsOk k = true ∧
      (Tree.node it ds).leaks = 0 := by
  have hB := code_bare Y s n hn
  have back : ∀ x ∈ leavesF ys, bareTok x = (moveTok (newlines s) ∘ unmoveTok (newlines s) ∘ bareTok) x := by
    intro x hx
    have : bareTok x ∈ ((codeOf [] 1 Y).map bareTok).map (moveTok (newlines s)) := by
      rw [← hB, ← hlv]; exact List.mem_map_of_mem hx
    obtain ⟨u, _, hu⟩ := List.mem_map.1 this
    show bareTok x = moveTok _ (unmoveTok _ (bareTok x))
    rw [← hu, unmove_move]
  have kg : ∀ t, ((moveTok (newlines s') ∘ unmoveTok (newlines s) ∘ bareTok) t).kind = t.kind := fun _ => rfl
  refine ⟨mapTrees (moveTok (newlines s') ∘ unmoveTok (newlines s) ∘ bareTok) ys, ⟨map_conforms kg _ hc, ?_, ?_⟩, map_opens kg _ ho, ?_, ?_⟩
  · rw [mapF_hasEmpty]
    simp only [Tree.hasEmpty, Bool.or_eq_false_iff] at hE
    exact hE.2
  · rw [mapF_leaves, hlv, code_bare Y s' n' hn', ← List.map_map, ← List.map_map, hB, List.map_map (g := unmoveTok _)]
    have : unmoveTok (newlines s) ∘ moveTok (newlines s) = id := funext fun t => unmove_move _ t
    rw [this, List.map_id]
  · have := map_startsOk kg k (Tree.node it ys)
    rw [Tree.map] at this
    rw [this, hs]
  · have h1 := leaks_map keep_bare (Tree.node it ys)
    have h2 := leaks_map (keep_move (newlines s)) (Tree.node it (mapTrees (unmoveTok (newlines s) ∘ bareTok) ys))
    have h3 := leaks_map (keep_move (newlines s')) (Tree.node it (mapTrees (unmoveTok (newlines s) ∘ bareTok) ys))
    rw [Tree.map, mapTrees_comp] at h2 h3
    rw [Tree.map, mapF_congr_leaves ys back] at h1
    rw [h3, ← h2, h1, hlk]

theorem lex_tokens (name : Text) {src : Text} {ps : List (Text × Chunk)} (hd : Divided src ps) (ht : ∀ x ∈ ps, ∃ k t, x.2 = .token k t)
    (ha : awkward false ps = false) : ∃ l, lex name src = .ok l ∧ l.errors = [] := by
  have hl := C53_lexed name src _ hd
  rw [ha, tokens_problems name _ [] ht] at hl
  simp only [Bool.false_eq_true, if_false] at hl
  exact ⟨_, hl, rfl⟩

/-- the text with the two items swapped consists of the same pieces, swapped -/
theorem swapped_text {w x y v : Text} {A X Y B : List (Text × Chunk)}
    (ht : ∀ q ∈ A ++ [semiPiece w] ++ (X ++ [semiPiece x]) ++ (Y ++ [semiPiece y]) ++ B, ∃ k t, q.2 = .token k t)
    (hd : Divided (spread (A ++ [semiPiece w] ++ (X ++ [semiPiece x]) ++ (Y ++ [semiPiece y]) ++ B) v)
      (A ++ [semiPiece w] ++ (X ++ [semiPiece x]) ++ (Y ++ [semiPiece y]) ++ B)) :
    Divided (spread (A ++ [semiPiece w] ++ (X ++ [semiPiece x]) ++ B) v) (A ++ [semiPiece w] ++ (X ++ [semiPiece x]) ++ B) ∧
    Divided (spread (A ++ [semiPiece w] ++ (Y ++ [semiPiece y]) ++ B) v) (A ++ [semiPiece w] ++ (Y ++ [semiPiece y]) ++ B) ∧
    Divided (spread (A ++ [semiPiece w] ++ (Y ++ [semiPiece y]) ++ (X ++ [semiPiece x]) ++ B) v)
      (A ++ [semiPiece w] ++ (Y ++ [semiPiece y]) ++ (X ++ [semiPiece x]) ++ B) := by
  simp only [List.append_assoc, List.cons_append, List.nil_append] at hd ht ⊢
  obtain ⟨r1, a1, a2, a3⟩ := divided_cut (fun q hq => ht q (by simp [hq])) hd
  obtain ⟨r2, b1, b2, b3⟩ := divided_cut (fun q hq => ht q (by simp [hq])) a2
  obtain ⟨r3, c1, c2, c3⟩ := divided_cut (fun q hq => ht q (by simp [hq])) b2
  have hr : spread B v = r3 := by
    rw [b1, c1] at a1
    simp only [spread, List.flatMap_append, List.flatMap_cons, List.flatMap_nil, List.append_nil, List.append_assoc] at a1 ⊢
    simpa using a1
  subst hr
  refine ⟨?_, ?_, ?_⟩
  · have := a3 _ _ (b3 _ _ c2)
    simpa [spread] using this
  · have := a3 _ _ (c3 _ _ c2)
    simpa [spread] using this
  · have := a3 _ _ (c3 _ _ (b3 _ _ c2))
    simpa [spread] using this

/-- **C82** Two items in the other order.  Swap two neighbouring elements, equations or statements (the pieces `X` and `Y`, each
with its semicolon) that stand behind another one, such that no indentation is left over from them.  The new file is accepted,
too, and its output is the output of the old one with the texts of the two items swapped: what is printed for each token, with
the white space and the comments before it, stays the same. -/
theorem C82_swap_partial (eol name out name' w x y v : Text) (p : Parsed) (A X Y B : List (Text × Chunk)) (tree : Tree)
    (k it : SK) (pre post xs ys : List Tree)
    (hf : Formatted eol name (spread (A ++ [semiPiece w] ++ (X ++ [semiPiece x]) ++ (Y ++ [semiPiece y]) ++ B) v) p out)
    (hd : Divided (spread (A ++ [semiPiece w] ++ (X ++ [semiPiece x]) ++ (Y ++ [semiPiece y]) ++ B) v)
      (A ++ [semiPiece w] ++ (X ++ [semiPiece x]) ++ (Y ++ [semiPiece y]) ++ B))
    (ht : buildTree p.tokens p.events = .ok tree) (hk : listItem k = some it)
    (hX : Part (.node k (pre ++ .tok (semiTok [] 0 A w) :: .node it xs ::
      .tok (semiTok [] 0 (A ++ [semiPiece w] ++ X) x) :: .node it ys ::
      .tok (semiTok [] 0 (A ++ [semiPiece w] ++ (X ++ [semiPiece x]) ++ Y) y) :: post)) tree)
    (hlx : (Tree.node it xs).leaks = 0) (hly : (Tree.node it ys).leaks = 0) :
    ∃ p' out' ga gx gy gb gx' gy' gb',
      Formatted eol name' (spread (A ++ [semiPiece w] ++ (Y ++ [semiPiece y]) ++ (X ++ [semiPiece x]) ++ B) v) p' out' ∧
      out = groupsText (ga ++ gx ++ gy ++ gb) ++ eol ∧ out' = groupsText (ga ++ gy' ++ gx' ++ gb') ++ eol ∧
      p.tokens = ga.map (·.tok) ++ gx.map (·.tok) ++ gy.map (·.tok) ++ gb.map (·.tok) ∧
      p'.tokens = ga.map (·.tok) ++ gy'.map (·.tok) ++ gx'.map (·.tok) ++ gb'.map (·.tok) ∧
      ga.map (·.tok) = codeOf [] 0 (A ++ [semiPiece w]) ∧
      gx.map (·.tok) = codeOf (spread (A ++ [semiPiece w]) []) (A ++ [semiPiece w]).length (X ++ [semiPiece x]) ∧
      gy'.map (·.tok) = codeOf (spread (A ++ [semiPiece w]) []) (A ++ [semiPiece w]).length (Y ++ [semiPiece y]) ∧
      gx'.map Group.shown = gx.map Group.shown ∧ gy'.map Group.shown = gy.map Group.shown ∧
      gb'.map Group.shown = gb.map Group.shown := by
  obtain ⟨tok, aw, tk, cm, cs0, _, _, rd, op, bt, _⟩ := formatted_facts hf hd
  have bt0 := bt
  rw [ht] at bt0
  simp only [Res.ok.injEq] at bt0
  subst bt0
  obtain ⟨d1, d2, d3⟩ := swapped_text tok hd
  have tA : ∀ q ∈ A, ∃ k t, q.2 = .token k t := fun q hq => tok q (by simp [hq])
  have tXx : ∀ q ∈ X, ∃ k t, q.2 = .token k t := fun q hq => tok q (by simp [hq])
  have tYy : ∀ q ∈ Y, ∃ k t, q.2 = .token k t := fun q hq => tok q (by simp [hq])
  have tB : ∀ q ∈ B, ∃ k t, q.2 = .token k t := fun q hq => tok q (by simp [hq])
  have tS : ∀ u, ∀ q ∈ [semiPiece u], ∃ k t, q.2 = .token k t := fun u q hq => by
    simp only [List.mem_singleton] at hq; subst hq; exact ⟨_, _, rfl⟩
  have ta : ∀ {P Q : List (Text × Chunk)}, (∀ q ∈ P, ∃ k t, q.2 = .token k t) → (∀ q ∈ Q, ∃ k t, q.2 = .token k t) →
      ∀ q ∈ P ++ Q, ∃ k t, q.2 = .token k t := fun h1 h2 q hq => (List.mem_append.1 hq).elim (h1 q) (h2 q)
  have tAw := ta tA (tS w)
  have tXs := ta tXx (tS x)
  have tYs := ta tYy (tS y)
  have aws : awkward false A = false ∧ awkward false X = false ∧ awkward false Y = false ∧ awkward false B = false ∧
      awkward false [semiPiece w] = false ∧ awkward false [semiPiece x] = false ∧ awkward false [semiPiece y] = false := by
    rw [awkward_append _ _ (ta (ta tAw tXs) tYs), awkward_append _ _ (ta tAw tXs), awkward_append _ _ tAw, awkward_append _ _ tA,
      awkward_append _ _ tXx, awkward_append _ _ tYy] at aw
    simp only [Bool.or_eq_false_iff] at aw
    exact ⟨aw.1.1.1.1, aw.1.1.2.1, aw.1.2.1, aw.2, aw.1.1.1.2, aw.1.1.2.2, aw.1.2.2⟩
  obtain ⟨l3, hl3, he3⟩ := lex_tokens name' d3 (ta (ta (ta tAw tYs) tXs) tB) (by
    rw [awkward_append _ _ (ta (ta tAw tYs) tXs), awkward_append _ _ (ta tAw tYs), awkward_append _ _ tAw, awkward_append _ _ tA,
      awkward_append _ _ tXx, awkward_append _ _ tYy]
    simp [aws])
  have hE0 : (Tree.node .StoredDefinition cs0).hasEmpty = false := by
    have hne : cs0 ≠ [] := by
      rintro rfl
      obtain ⟨C, hC⟩ := hX.around
      cases C <;> simp [Around.plug] at hC
    simp [Tree.hasEmpty, rd.full, hne]
  have px : Part (.node it xs) (.node .StoredDefinition cs0) := (Part.there (by simp) .here).trans hX
  have py : Part (.node it ys) (.node .StoredDefinition cs0) := (Part.there (by simp) .here).trans hX
  have hop : ∀ c : Tree, c ∈ _ → c.startsOk k = true := (hX.opened op).1
  -- first without `Y`, then with `Y` in front of `X`
  have e1 : A ++ [semiPiece w] ++ (X ++ [semiPiece x]) = A ++ [semiPiece w] ++ X ++ [semiPiece x] := by simp
  have e2 : A ++ [semiPiece w] ++ (Y ++ [semiPiece y]) = A ++ [semiPiece w] ++ Y ++ [semiPiece y] := by simp
  obtain ⟨p1, out1, tree1, a1, y1, b1, b1', f1, t1, u1, u2, ⟨u3, u4, u5, u6, u7⟩, u8, C1, cs1, u9, u10, u11⟩ :=
    delete_full eol name _ out name' _ x y p (A ++ [semiPiece w] ++ X) Y B _ k it
      (pre ++ [.tok (semiTok [] 0 A w), .node it xs]) post ys hf (e1 ▸ hd) (e1 ▸ d1) ht hk
      (by rw [← e1, ← semiTok_shift]; simpa using hX) hly
  obtain ⟨ds1, i1, i2, i3, i4⟩ := moved_item (k := k) (py.conforms rd.conforms) (py.full hE0) (py.opened op) (hop _ (by simp)) hly u8
    (by simp; omega) (spread (A ++ [semiPiece w]) []) (A ++ [semiPiece w]).length (by simp)
  -- first without `X`, then with `X` behind `Y`
  obtain ⟨p2, out2, tree2, a3, x3, yb3, yb3', f2, t2, k1, k2, ⟨k3, k4, k5, k6, k7⟩, k8, C2, cs2, k9, k10, k11⟩ :=
    delete_full eol name _ out name' (spread (A ++ [semiPiece w] ++ (Y ++ [semiPiece y]) ++ B) v) w x p A X (Y ++ [semiPiece y] ++ B) _ k it pre
      (.node it ys :: .tok (semiTok [] 0 (A ++ [semiPiece w] ++ (X ++ [semiPiece x]) ++ Y) y) :: post) xs hf
      (by simpa using hd) (by simpa using d2) ht hk (by rw [← semiTok_shift]; exact hX) hlx
  obtain ⟨ds2, j1, j2, j3, j4⟩ := moved_item (k := k) (px.conforms rd.conforms) (px.full hE0) (px.opened op) (hop _ (by simp)) hlx k8
    (by simp) (spread (A ++ [semiPiece w] ++ (Y ++ [semiPiece y])) []) (A ++ [semiPiece w] ++ (Y ++ [semiPiece y])).length (by simp; omega)
  have hsp1 : ∃ R, mapTrees bareTok cs1 = mapTrees bareTok pre ++ .tok (bareTok (semiTok [] 0 A w)) :: R := by
    apply Exists.intro
    rw [u11]
    simp only [mapTrees_list, List.map_append, List.map_cons, Tree.map, List.append_assoc, List.cons_append]
    rfl
  obtain ⟨_, hsp1⟩ := hsp1
  obtain ⟨q1, s1, r1, v1, v2⟩ := map_split hsp1
  subst v1 u9
  have hs1 : s1 = semiTok [] 0 A w := by
    have := leaves_of f1 t1 (e1 ▸ d1)
    rw [← e1, List.append_assoc, code_append tAw, (semi_code w tA).1] at this
    refine leaf_at (L := codeOf [] 0 A) (by simpa using this) ?_
    rw [v2, mapF_leaves, List.length_map]
    rw [code_append tAw, (semi_code w tA).1] at u10
    have := congrArg List.length k8
    simp only [leavesF_app, leavesF, Tree.leaves, List.length_append, List.nil_append, List.length_cons, List.length_nil,
      Nat.zero_add] at u10 this
    omega
  subst hs1
  have hsp2 : ∃ R, mapTrees bareTok cs2 = (mapTrees bareTok (pre ++ [.tok (semiTok [] 0 A w)]) ++
      mapTrees (moveTok (newlines (spread (A ++ [semiPiece w]) [])) ∘
            unmoveTok (newlines (spread (A ++ [semiPiece w] ++ (X ++ [semiPiece x])) [])) ∘ bareTok) [.node it ys]) ++
      .tok ((moveTok (newlines (spread (A ++ [semiPiece w]) [])) ∘
            unmoveTok (newlines (spread (A ++ [semiPiece w] ++ (X ++ [semiPiece x])) [])) ∘ bareTok)
        (semiTok [] 0 (A ++ [semiPiece w] ++ (X ++ [semiPiece x]) ++ Y) y)) :: R := by
    apply Exists.intro
    rw [k11]
    simp only [mapTrees_list, List.map_append, List.map_cons, Tree.map, List.append_assoc, List.cons_append, List.map_nil,
      List.nil_append]
    rfl
  obtain ⟨_, hsp2⟩ := hsp2
  obtain ⟨q2, s2, r2, v3, v4⟩ := map_split hsp2
  subst v3 k9
  have hs2 : s2 = semiTok [] 0 (A ++ [semiPiece w] ++ Y) y := by
    have := leaves_of f2 t2 d2
    rw [e2, code_append (ta (ta tAw tYy) (tS y)), (semi_code y (ta tAw tYy)).1] at this
    refine leaf_at (L := codeOf [] 0 (A ++ [semiPiece w] ++ Y)) (by simpa using this) ?_
    rw [v4, code_append tAw, (semi_code w tA).1]
    have := congrArg List.length u8
    rw [code_length Y (s' := [] ++ spread (A ++ [semiPiece w]) []) (i' := 0 + (A ++ [semiPiece w]).length) (by simp; omega) (by simp)] at this
    simp only [leavesF_app, leavesF, Tree.leaves, mapF_leaves, List.length_append, List.nil_append, List.length_cons, List.length_nil,
      Nat.zero_add, List.length_map, List.append_nil] at this k10 ⊢
    omega
  subst hs2
  obtain ⟨p3, out3, tree3, a2, y2, xb, xb', f3, t3, w1, w2, w3, w4, w5, w6, w7, _⟩ :=
    insert_bare eol name' _ out1 name' (spread (A ++ [semiPiece w] ++ (Y ++ [semiPiece y]) ++ (X ++ [semiPiece x]) ++ B) v) w y p1 A Y (X ++ [semiPiece x] ++ B) l3 _ k it q1 r1 ds1 f1 (by simpa using d1)
      (by simpa using d3) hl3 he3 t1 hk (C1.part _) i1 i2 i3 i4
  obtain ⟨p4, out4, tree4, ay, x4, b4, b4', f4, t4, m1, m2, m3, m4, m5, m6, m7, _⟩ :=
    insert_bare eol name' _ out2 name'
      (spread (A ++ [semiPiece w] ++ (Y ++ [semiPiece y]) ++ (X ++ [semiPiece x]) ++ B) v) y x p2 (A ++ [semiPiece w] ++ Y) X B l3 _ k it q2 r2 ds2 f2 (by simpa using d2)
      (by simpa using d3) hl3 he3 t2 hk (C2.part _) (e2 ▸ j1) j2 j3 j4
  have hp : p4 = p3 := by
    have := f4.parsed
    rw [f3.parsed] at this
    simpa using this.symm
  subst hp
  have htt : tree4 = tree3 := by
    rw [t3] at t4
    simpa using t4.symm
  subst htt
  rw [u2] at w1
  rw [k2] at m1
  rw [w2] at m2
  rw [u1] at k1
  have L : ∀ {g : List Group} {t : List Token}, g.map (·.tok) = t → g.length = t.length := fun h => by
    rw [← h, List.length_map]
  have nXs : (codeOf [] 0 (A ++ [semiPiece w] ++ X ++ [semiPiece x])).length = (codeOf [] 0 (A ++ [semiPiece w])).length +
      (codeOf (spread (A ++ [semiPiece w]) []) (A ++ [semiPiece w]).length (X ++ [semiPiece x])).length := by
    rw [← e1, code_append tAw, List.length_append, List.nil_append, Nat.zero_add]
  have nYs : (codeOf [] 0 (A ++ [semiPiece w] ++ Y ++ [semiPiece y])).length = (codeOf [] 0 (A ++ [semiPiece w])).length +
      (codeOf (spread (A ++ [semiPiece w]) []) (A ++ [semiPiece w]).length (Y ++ [semiPiece y])).length := by
    rw [← e2, code_append tAw, List.length_append, List.nil_append, Nat.zero_add]
  have nY := code_length (Y ++ [semiPiece y]) (s := spread (A ++ [semiPiece w] ++ X ++ [semiPiece x]) [])
    (i := (A ++ [semiPiece w] ++ X ++ [semiPiece x]).length) (s' := spread (A ++ [semiPiece w]) [])
    (i' := (A ++ [semiPiece w]).length) (by simp; omega) (by simp)
  have g1 := L u3
  have g2 := L u4
  have g3 := L w3
  have g4 := L w4
  have g5 := L k3
  have g6 := L k4
  have g7 := L m3
  -- the groups of `X`
  obtain ⟨gx, hgx⟩ : ∃ gx, a1 = a2 ++ gx := ⟨a1.drop a2.length, by
    have := congrArg (List.take a2.length) w1
    rw [List.take_left, List.take_append_of_le_length (by omega)] at this
    conv => lhs; rw [← List.take_append_drop a2.length a1, this]⟩
  subst hgx
  rw [List.append_assoc] at w1
  have hxb := (List.append_cancel_left w1).symm
  subst hxb
  rw [List.map_append] at w7
  obtain ⟨gx', gb', hxb', hgx', hgb'⟩ := List.map_eq_append_iff.1 w7
  subst hxb'
  -- the groups of `Y`
  rw [List.length_append] at g1
  simp only [List.append_assoc] at k1
  obtain ⟨z1, z2⟩ := List.append_inj k1 (by omega)
  subst z1
  obtain ⟨z3, z4⟩ := List.append_inj z2 (by omega)
  subst z3 z4
  obtain ⟨yy, hyy⟩ : ∃ yy, ay = a2 ++ yy := ⟨ay.drop a2.length, by
    have := congrArg (List.take a2.length) m1
    rw [List.take_left, List.take_append_of_le_length (by omega)] at this
    conv => lhs; rw [← List.take_append_drop a2.length ay, ← this]⟩
  subst hyy
  rw [List.append_assoc] at m1
  have hyb := List.append_cancel_left m1
  subst hyb
  rw [List.map_append, List.map_append] at k7
  rw [List.length_append] at g7
  obtain ⟨z5, _⟩ := List.append_inj k7 (by simp only [List.length_map]; omega)
  simp only [List.append_assoc] at m2
  obtain ⟨z6, _⟩ := List.append_inj (List.append_cancel_left m2) (by omega)
  subst z6
  have tks : ∀ {n s o : Text} {P : Parsed} {T : Tree}, Formatted eol n s P o → buildTree P.tokens P.events = .ok T →
      (groupsOf eol P.comments T.wholeLayout).map (·.tok) = P.tokens := by
    intro n s o P T hF hT
    obtain ⟨c, t, _, q, _⟩ := hF.laid
    rw [hT] at t
    simp only [Res.ok.injEq] at t
    rw [t, q]
  refine ⟨p4, out3, a2, gx, y1, b1, gx', y2, gb', f3, ?_, ?_, ?_, ?_, w3, k4, w4, hgx', z5, by rw [hgb', u7]⟩
  · rw [laid_tree hf ht, u1]
  · rw [laid_tree f3 t3, w2]; simp
  · rw [← tks hf ht, u1]; simp
  · rw [← tks f3 t3, w2]; simp

theorem seven_split {l : List Tree} (d a b c e f : Tree) (h : 6 < l.length) (h2 : l.getD 2 d = a) (h3 : l.getD 3 d = b)
    (h4 : l.getD 4 d = c) (h5 : l.getD 5 d = e) (h6 : l.getD 6 d = f) : l.take 2 ++ a :: b :: c :: e :: f :: l.drop 7 = l := by
  subst h2 h3 h4 h5 h6
  have h' : 2 < l.length := by omega
  have h'' : 3 < l.length := by omega
  have h3' : 4 < l.length := by omega
  have h4' : 5 < l.length := by omega
  simp [List.getD, h, h', h'', h3', h4']

def exSwapY : List (Text × Chunk) := exMoreB.take 4
def exSwapB : List (Text × Chunk) := exMoreB.drop 5
def exSwapOld : Text :=
  spread (exMoreA ++ [semiPiece c!" "] ++ (exMoreY ++ [semiPiece []]) ++ (exSwapY ++ [semiPiece []]) ++ exSwapB) []
def exSwapNew : Text :=
  spread (exMoreA ++ [semiPiece c!" "] ++ (exSwapY ++ [semiPiece []]) ++ (exMoreY ++ [semiPiece []]) ++ exSwapB) []
def exSwapItem (n : Nat) : List Tree := kidsOf ((exMoreSection exSwapOld).getD n (.node .Name []))
def exSwapNewOut : Text := c!"model A\n\nequation\n\n  x = 1; // c\n\n  y = z;\n  /* n */\n  v = f(\n    2);\n\nend A;\n"

set_option maxRecDepth 100000 in
set_option maxHeartbeats 2000000 in
/-- The hypotheses of `C82_swap_partial` hold of a file with three equations, two of them with comments; the output for the
second and the third one is swapped. -/
theorem C82_case : Formatted c!"\n" c!"f" exSwapOld (exEditP exSwapOld) exMoreNewOut ∧
    Formatted c!"\n" c!"f" exSwapNew (exEditP exSwapNew) exSwapNewOut ∧
    Divided exSwapOld (exMoreA ++ [semiPiece c!" "] ++ (exMoreY ++ [semiPiece []]) ++ (exSwapY ++ [semiPiece []]) ++ exSwapB) ∧
    buildTree (exEditP exSwapOld).tokens (exEditP exSwapOld).events = .ok (exEditTree exSwapOld) ∧
    Part (.node .EquationSection ((exMoreSection exSwapOld).take 2 ++ .tok (semiTok [] 0 exMoreA c!" ") ::
      .node .Equation (exSwapItem 3) :: .tok (semiTok [] 0 (exMoreA ++ [semiPiece c!" "] ++ exMoreY) []) ::
      .node .Equation (exSwapItem 5) ::
      .tok (semiTok [] 0 (exMoreA ++ [semiPiece c!" "] ++ (exMoreY ++ [semiPiece []]) ++ exSwapY) []) ::
      (exMoreSection exSwapOld).drop 7)) (exEditTree exSwapOld) ∧
    (Tree.node .Equation (exSwapItem 3)).leaks = 0 ∧ (Tree.node .Equation (exSwapItem 5)).leaks = 0 := by
  have e2 : (exMoreSection exSwapOld).take 2 ++ .tok (semiTok [] 0 exMoreA c!" ") ::
      .node .Equation (exSwapItem 3) :: .tok (semiTok [] 0 (exMoreA ++ [semiPiece c!" "] ++ exMoreY) []) ::
      .node .Equation (exSwapItem 5) ::
      .tok (semiTok [] 0 (exMoreA ++ [semiPiece c!" "] ++ (exMoreY ++ [semiPiece []]) ++ exSwapY) []) ::
      (exMoreSection exSwapOld).drop 7 = exMoreSection exSwapOld :=
    seven_split (.node .Name []) _ _ _ _ _ (by decide +kernel) (tokIs_eq (by decide +kernel)) (kids_eq (by decide +kernel)).symm
      (tokIs_eq (by decide +kernel)) (kids_eq (by decide +kernel)).symm (tokIs_eq (by decide +kernel))
  rw [e2]
  exact ⟨⟨by decide_cbv, by decide_cbv, exMoreNewOut.dropLast, by decide_cbv, by decide⟩,
    ⟨by decide_cbv, by decide_cbv, exSwapNewOut.dropLast, by decide_cbv, by decide⟩, dividedB_sound (by decide +kernel),
    resTree_ok (by decide +kernel), find_kind _ (by decide +kernel), by decide +kernel, by decide +kernel⟩

set_option maxRecDepth 100000 in
/-- **C82** needs items from which no indentation is left over: an equation with a wrapped left hand side indents what comes
behind it. -/
theorem C82_leftover_false :
    (∃ p, Formatted c!"\n" c!"f" c!"model A\nequation\nx = 1;\ny = z;\na\n+ b = c;\nend A;" p
      (c!"model A\n\nequation\n\n  x = 1;" ++ c!"\n  y = z;" ++ c!"\n  a\n    + b = c;" ++ c!"\n\n  end A;\n")) ∧
    ∃ p, Formatted c!"\n" c!"f" c!"model A\nequation\nx = 1;\na\n+ b = c;\ny = z;\nend A;" p
      (c!"model A\n\nequation\n\n  x = 1;" ++ c!"\n  a\n    + b = c;" ++ c!"\n    y = z;\n\n  end A;\n") :=
  ⟨⟨exEditP c!"model A\nequation\nx = 1;\ny = z;\na\n+ b = c;\nend A;", by decide_cbv, by decide_cbv,
      c!"model A\n\nequation\n\n  x = 1;\n  y = z;\n  a\n    + b = c;\n\n  end A;", by decide_cbv, by decide⟩,
    C73_leftover_false.2⟩

end Mofmt
