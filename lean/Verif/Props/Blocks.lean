import Verif.Props.Indent
import Verif.Proofs.ListRun
/-
C68: blocks and classes are aligned.
-/
namespace Mofmt

/-! ### Specification -/

/-- the equations and statements with contents of their own -/
def blockKind : SK → Bool
  | .IfEquation | .ForEquation | .WhenEquation | .IfStatement | .ForStatement | .WhileStatement | .WhenStatement => true
  | _ => false

/-- the keywords that begin a line in a block -/
def blockWord : Sym → Bool
  | .t .ElseIf | .t .Else | .t .ElseWhen | .t .End => true
  | _ => false

/-- the contents of a block -/
def blockItem : Sym → Bool
  | .n .Equation | .n .Statement => true
  | _ => false

/-- The part `s` of the tree begins a line of the output; the line is indented by `n` levels. -/
def BeginsLine (eol : Text) (gs : List Group) (s : Tree) (n : Nat) : Prop :=
  ∃ x b prev g, s.start? = some x ∧ g.tok = x ∧ Follows gs prev g ∧ Breaks eol b n prev g

/-- sections of a class, and the keywords between them -/
def sectionSym : Sym → Bool
  | .t .Public | .t .Protected | .t .External | .n .EquationSection | .n .AlgorithmSection => true
  | _ => false

/-- elements, equations and statements in the sections of a class -/
def memberSym : SK → Sym → Bool
  | .ElementList, .n .Element | .EquationSection, .n .Equation | .AlgorithmSection, .n .Statement => true
  | _, _ => false

/-- the class `c`, with `ls` after its prefixes -/
def LongClass (c : Tree) (ls : List Tree) : Prop :=
  ∃ b, c = .node .ClassDefinition (b ++ [.node .ClassSpecifier [.node .LongClassSpecifier ls]])

/-! ### Tables -/

def blockSym : Sym → Bool
  | .n k => blockKind k
  | .t _ => false

theorem block_parent : ∀ k, (Gram.spec k).syms.all (fun s => !blockSym s || k == .Equation || k == .Statement) = true := by
  intro k; cases k <;> decide +kernel

theorem block_alone : ∀ k, checkG (adjStep fun _ s => !blockSym s) (fun st => st.2) (Gram.spec k) (none, true) = true := by
  intro k; cases k <;> decide +kernel

theorem item_first : ∀ k, (Gram.spec k).first.all (fun s => !blockItem s) = true := by
  intro k; cases k <;> decide +kernel

theorem item_next : ∀ k, checkG (adjStep fun p s => !blockItem s || (breakBefore k (some p) s).isSome) (fun st => st.2)
    (Gram.spec k) (none, true) = true := by
  intro k; cases k <;> decide +kernel

theorem block_break {k : SK} {s : Sym} (hk : blockKind k = true) (hs : s ∈ (Gram.spec k).syms)
    (h : blockWord s = true ∨ blockItem s = true) (p : Option Sym) : breakBefore k p s = some .Legal := by
  have h' : s ∈ [Sym.t .ElseIf, .t .Else, .t .ElseWhen, .t .End, .n .Equation, .n .Statement] := by
    rcases h with h | h
    · unfold blockWord at h; split at h <;> first | cases h; done | simp
    · unfold blockItem at h; split at h <;> first | cases h; done | simp
  simp only [List.mem_cons, List.not_mem_nil, or_false] at h'
  cases k <;> first
    | (cases hk; done)
    | (rcases h' with rfl | rfl | rfl | rfl | rfl | rfl <;> first | rfl | (exfalso; revert hs; decide +kernel))

theorem block_extra {k : SK} {s : Sym} (hk : blockKind k = true) (hs : s ∈ (Gram.spec k).syms)
    (h : blockWord s = true ∨ blockItem s = true) (p : Option Sym) (a b c d : Bool) :
    extraIn k p s a b c d = if blockItem s then 1 else 0 := by
  have h' : s ∈ [Sym.t .ElseIf, .t .Else, .t .ElseWhen, .t .End, .n .Equation, .n .Statement] := by
    rcases h with h | h
    · unfold blockWord at h; split at h <;> first | cases h; done | simp
    · unfold blockItem at h; split at h <;> first | cases h; done | simp
  simp only [List.mem_cons, List.not_mem_nil, or_false] at h'
  cases k <;> first
    | (cases hk; done)
    | (rcases h' with rfl | rfl | rfl | rfl | rfl | rfl <;> first | rfl | (exfalso; revert hs; decide +kernel))

theorem block_plain {k : SK} (hk : blockKind k = true) : exprPart k = false := by
  cases k <;> first | rfl | cases hk

/-- what is needed about the tree -/
theorem Formatted.lined {eol name src out : Text} {p : Parsed} (h : Formatted eol name src p out) :
    ∃ gs tree, out = groupsText gs ++ eol ∧ gs.map (·.tok) = p.tokens ∧ buildTree p.tokens p.events = .ok tree ∧
      tree.sym = .n .StoredDefinition ∧
      (∀ s, Part s tree → s ≠ tree → tree.Conforms ∧ tree.hasEmpty = false) ∧
      ∀ k pre c post n w, Level tree (.node k (pre ++ c :: post)) n w →
        ∀ b x, breakBefore k (pre.getLast?.map Tree.sym) c.sym = some b → c.start? = some x →
          ∃ prev g, g.tok = x ∧ Follows gs prev g ∧ Breaks eol b (levelIn k n w pre c post) prev g := by
  obtain ⟨gs, tree, h1, h2, h3, h4⟩ := C46_breaks eol name src out p h
  obtain ⟨cs, c1, c2, c3, c4⟩ := accepted_tree h.parsed h.accepted
  rw [h3] at c1
  cases c1
  refine ⟨gs, _, h1, h2, h3, rfl, ?_, h4⟩
  intro s hs hne
  cases hs with
  | here => exact absurd rfl hne
  | there hm _ =>
    refine ⟨c4, ?_⟩
    have : cs ≠ [] := fun h0 => by rw [h0] at hm; cases hm
    simp [Tree.hasEmpty, this, c3]

/-- what is known about the output -/
def Lined (eol : Text) (gs : List Group) (tree : Tree) : Prop :=
  ∀ k pre c post n w, Level tree (.node k (pre ++ c :: post)) n w →
    ∀ b x, breakBefore k (pre.getLast?.map Tree.sym) c.sym = some b → c.start? = some x →
      ∃ prev g, g.tok = x ∧ Follows gs prev g ∧ Breaks eol b (levelIn k n w pre c post) prev g

/-- neighbours -/
theorem adj_child {R : Sym → Sym → Bool} {k : SK} (hR : checkG (adjStep R) (fun st => st.2) (Gram.spec k) (none, true) = true)
    {pre post : List Tree} {c : Tree} (hC : Tree.Conforms (.node k (pre ++ c :: post))) {q : Tree} (hq : pre.getLast? = some q) :
    R q.sym c.sym = true := by
  obtain ⟨pre', rfl⟩ := List.getLast?_eq_some_iff.1 hq
  refine adj_pair (pre := pre'.map Tree.sym) (post := post.map Tree.sym) ?_
    (st := (none, true))
  have := checkG_sound hR hC.1
  simpa using this

/-- equations and statements begin lines -/
theorem item_begins {eol : Text} {gs : List Group} {tree : Tree} (hL : Lined eol gs tree) (hC : tree.Conforms)
    (hE : tree.hasEmpty = false) (hr : tree.sym = .n .StoredDefinition) {s : Tree} (hs : blockItem s.sym = true) {n : Nat}
    {w : Bool} (hl : Level tree s n w) : BeginsLine eol gs s n := by
  cases hl with
  | root => rw [hr] at hs; cases hs
  | @child k pre c post n w hp =>
    have hCp := (level_part hp).conforms hC
    obtain ⟨x, xs, _, hx⟩ := start_leaves s ((level_part (Level.child hp)).full hE)
    have hb : ∃ b, breakBefore k (pre.getLast?.map Tree.sym) s.sym = some b := by
      cases hq : pre.getLast? with
      | none =>
        rw [List.getLast?_eq_none_iff] at hq
        subst hq
        have h0 := hCp.1
        rw [List.nil_append, List.map_cons] at h0
        have := List.all_eq_true.1 (item_first k) _ (first_complete h0)
        rw [hs] at this
        cases this
      | some q =>
        have := adj_child (item_next k) hCp hq
        simp only [hs, Bool.not_true, Bool.false_or] at this
        exact Option.isSome_iff_exists.1 this
    obtain ⟨b, hb⟩ := hb
    obtain ⟨prev, g, g1, g2, g3⟩ := hL k pre s post n w hp b x hb hx
    exact ⟨x, b, prev, g, hx, g1, g2, g3⟩

/-- blocks begin lines -/
theorem block_begins {eol : Text} {gs : List Group} {tree : Tree} (hL : Lined eol gs tree) (hC : tree.Conforms)
    (hE : tree.hasEmpty = false) (hr : tree.sym = .n .StoredDefinition) {k : SK} (hk : blockKind k = true) {cs : List Tree}
    {n : Nat} {w : Bool} (hl : Level tree (.node k cs) n w) : BeginsLine eol gs (.node k cs) n := by
  cases hl with
  | root => cases hr; cases hk
  | @child k' pre _ post n' w' hl' =>
    have hCp := (level_part hl').conforms hC
    have hk' := List.all_eq_true.1 (block_parent k') _ (syms_complete hCp.1 (.n k) (by simp [Tree.sym]))
    simp only [blockSym, hk, Bool.not_true, Bool.false_or, Bool.or_eq_true, beq_iff_eq] at hk'
    have hpre : pre = [] := by
      cases hq : pre.getLast? with
      | none => exact List.getLast?_eq_none_iff.1 hq
      | some q =>
        have := adj_child (block_alone k') hCp hq
        simp [blockSym, Tree.sym, hk] at this
    subst hpre
    have hlev : levelIn k' n' w' [] (.node k cs) post = n' := by
      have h5 : extraIn k' none (.n k) = fun _ _ _ _ => 0 := by
        funext a b c d
        rcases hk' with rfl | rfl <;> cases k <;> first | rfl | cases hk
      rcases hk' with rfl | rfl <;> simp [levelIn, extra, h5, Tree.sym, wrappedAt, exprPart, leaksF]
    rw [hlev]
    obtain ⟨x, b, prev, g, g1, g2, g3, g4⟩ := item_begins hL hC hE hr (by rcases hk' with rfl | rfl <;> rfl) hl'
    exact ⟨x, b, prev, g, g1, g2, g3, g4⟩

/-- **C68** Blocks (`if`, `for`, `when`, `while`).  A block begins a line; its keywords `elseif`, `else`, `elsewhen` and
`end` begin lines with the same indentation, the equations and statements in it lines that are indented one level
deeper.  Missing: the indentation of wrapped left hand sides in the block (`leaksF`) is not undone, so that what follows
is shifted to the right (C11); see `C68_blocks_false`. -/
theorem C68_blocks_partial (eol name src out : Text) (p : Parsed) (h : Formatted eol name src p out) :
    ∃ gs tree, out = groupsText gs ++ eol ∧ gs.map (·.tok) = p.tokens ∧ buildTree p.tokens p.events = .ok tree ∧
      ∀ k cs, Part (.node k cs) tree → blockKind k = true →
        ∃ n, BeginsLine eol gs (.node k cs) n ∧
          ∀ pre c post, cs = pre ++ c :: post →
            (blockWord c.sym = true → BeginsLine eol gs c (n + leaksF k pre)) ∧
            (blockItem c.sym = true → BeginsLine eol gs c (n + 1 + leaksF k pre)) := by
  obtain ⟨gs, tree, h1, h2, h3, hr, h4, hL⟩ := h.lined
  refine ⟨gs, tree, h1, h2, h3, ?_⟩
  intro k cs hp hk
  have hne : Tree.node k cs ≠ tree := by
    rintro rfl
    cases hr
    cases hk
  obtain ⟨hC, hE⟩ := h4 _ hp hne
  obtain ⟨n, w, hl⟩ := hp.level
  refine ⟨n, block_begins hL hC hE hr hk hl, ?_⟩
  rintro pre c post rfl
  have hCp := hp.conforms hC
  have hm : c.sym ∈ (Gram.spec k).syms := syms_complete hCp.1 c.sym (by simp)
  obtain ⟨x, xs, _, hx⟩ := start_leaves c ((level_part (Level.child hl)).full hE)
  have key : (blockWord c.sym = true ∨ blockItem c.sym = true) →
      BeginsLine eol gs c (n + (if blockItem c.sym then 1 else 0) + leaksF k pre) := by
    intro hw
    obtain ⟨prev, g, g1, g2, g3⟩ := hL k pre c post n w hl _ x (block_break hk hm hw _) hx
    have hlev : levelIn k n w pre c post = n + (if blockItem c.sym then 1 else 0) + leaksF k pre := by
      rw [levelIn, extra, block_extra hk hm hw, wrappedAt, block_plain hk]
      simp
    rw [hlev] at g3
    exact ⟨x, _, prev, g, hx, g1, g2, g3⟩
  refine ⟨fun hw => ?_, fun hi => ?_⟩
  · have hn : blockItem c.sym = false := by
      cases hb : blockItem c.sym
      · rfl
      · unfold blockWord at hw
        split at hw <;> first | cases hw; done | (rename_i hs; rw [hs] at hb; cases hb)
    simpa [hn] using key (.inl hw)
  · simpa [hi] using key (.inr hi)

/-! ### Classes -/

theorem leaksF_split {k : SK} {pre : List Tree} {c : Tree} {post : List Tree} (h : leaksF k (pre ++ c :: post) = 0) :
    leaksF k pre = 0 ∧ c.leaks = 0 := by
  rw [leaksF_append, leaksF] at h
  omega

/-- the children before the class in an element are tokens -/
def preTok : Bool × Bool → Sym → Bool × Bool := fun st s => match s with
  | .t _ => st
  | .n k => (false, st.2 && (st.1 || k != .ClassDefinition))

theorem element_pre : checkG preTok (fun st => st.2) (Gram.spec .Element) (true, true) = true := by decide +kernel

theorem preTok_false : ∀ (w : List Sym) (b : Bool), (w.foldl preTok (b, false)).2 = false
  | [], _ => rfl
  | .t _ :: w, b => preTok_false w b
  | .n _ :: w, b => by rw [List.foldl_cons]; exact preTok_false w _

theorem preTok_late : ∀ {pre : List Tree} {post : List Sym} {b : Bool},
    ((pre.map Tree.sym ++ .n .ClassDefinition :: post).foldl preTok (false, b)).2 = false
  | [], post, b => by
    rw [List.map_nil, List.nil_append, List.foldl_cons]
    simp [preTok, preTok_false]
  | .tok _ :: pre, post, b => preTok_late (pre := pre)
  | .node _ _ :: pre, post, b => by
    rw [List.map_cons, List.cons_append, List.foldl_cons]
    exact preTok_late (pre := pre)

theorem preTok_leaks {k : SK} : ∀ {pre : List Tree} {post : List Sym},
    ((pre.map Tree.sym ++ .n .ClassDefinition :: post).foldl preTok (true, true)).2 = true → leaksF k pre = 0
  | [], _, _ => rfl
  | .tok t :: pre, post, h => by
    have := preTok_leaks (k := k) (pre := pre) (post := post) h
    rw [leaksF, this]
    cases k <;> rfl
  | .node j cs :: pre, post, h => by
    rw [List.map_cons, List.cons_append, List.foldl_cons] at h
    have h' := preTok_late (pre := pre) (post := post) (b := (preTok (true, true) (.n j)).2)
    rw [show Tree.sym (.node j cs) = .n j from rfl] at h
    rw [show preTok (true, true) (.n j) = (false, (preTok (true, true) (.n j)).2) from rfl, h'] at h
    cases h

theorem plain_level {tree : Tree} {k : SK} {pre post : List Tree} {c : Tree} {n e : Nat} {w : Bool}
    (hl : Level tree (.node k (pre ++ c :: post)) n w) (hk : exprPart k = false) (h0 : leaksF k pre = 0)
    (he : ∀ a b d f, extraIn k (pre.getLast?.map Tree.sym) c.sym a b d f = e) : ∃ w', Level tree c (n + e) w' := by
  have := Level.child hl
  rw [levelIn, extra, he, wrappedAt, hk, h0] at this
  exact ⟨_, this⟩

theorem element_parent : ∀ k, (Gram.spec k).syms.all (fun s => s != .n .Element || k == .ElementList) = true := by
  intro k; cases k <;> decide +kernel

theorem elements_parent : ∀ k, (Gram.spec k).syms.all (fun s => s != .n .ElementList || k == .Composition) = true := by
  intro k; cases k <;> decide +kernel

/-- elements begin lines -/
theorem element_begins {eol : Text} {gs : List Group} {tree : Tree} (hL : Lined eol gs tree) (hC : tree.Conforms)
    (hE : tree.hasEmpty = false) (hr : tree.sym = .n .StoredDefinition) {s : Tree} (hs : s.sym = .n .Element) {n : Nat}
    {w : Bool} (hl : Level tree s n w) : BeginsLine eol gs s n := by
  cases hl with
  | root => rw [hr] at hs; cases hs
  | @child k pre c post n w hp =>
    have hCp := (level_part hp).conforms hC
    obtain ⟨x, xs, _, hx⟩ := start_leaves s ((level_part (Level.child hp)).full hE)
    have hk := List.all_eq_true.1 (element_parent k) _ (syms_complete hCp.1 (.n .Element) (by rw [← hs]; simp))
    simp only [Bool.or_eq_true, bne_iff_ne, ne_eq, not_true_eq_false, false_or, beq_iff_eq] at hk
    subst hk
    cases hq : pre.getLast? with
    | some q =>
      obtain ⟨prev, g, g1, g2, g3⟩ := hL .ElementList pre s post n w hp .Legal x (by rw [hq, hs]; rfl) hx
      exact ⟨x, _, prev, g, hx, g1, g2, g3⟩
    | none =>
      rw [List.getLast?_eq_none_iff] at hq
      subst hq
      have hlev : levelIn .ElementList n w [] s post = n := by
        simp [levelIn, extra, hs, extraIn, wrappedAt, exprPart, leaksF]
      rw [hlev]
      rw [List.nil_append] at hp hCp
      generalize hg : Tree.node .ElementList (s :: post) = els at hp hCp
      cases hp with
      | root => rw [← hg] at hr; cases hr
      | @child k' pre' _ post' n' w' hp' =>
        subst hg
        have hCp' := (level_part hp').conforms hC
        have hk' := List.all_eq_true.1 (elements_parent k') _ (syms_complete hCp'.1 (.n .ElementList) (by simp [Tree.sym]))
        simp only [Bool.or_eq_true, bne_iff_ne, ne_eq, not_true_eq_false, false_or, beq_iff_eq] at hk'
        subst hk'
        obtain ⟨prev, g, g1, g2, g3⟩ := hL .Composition pre' _ post' n' w' hp' .Required x rfl hx
        exact ⟨x, _, prev, g, hx, g1, g2, g3⟩

/-- **C68** Classes.  If no equation or statement of a class has a wrapped left hand side, the class is aligned: `end` and
the sections begin lines that are indented like the line on which the class begins; elements, equations and statements
begin lines that are indented one level deeper.  A class that is an element begins on a line that the element begins;
the classes of a file are not indented (if there are no wrapped left hand sides before them). -/
theorem C68_classes_partial (eol name src out : Text) (p : Parsed) (h : Formatted eol name src p out) :
    ∃ gs tree, out = groupsText gs ++ eol ∧ gs.map (·.tok) = p.tokens ∧ buildTree p.tokens p.events = .ok tree ∧
      ∀ c ls, Part c tree → LongClass c ls → c.leaks = 0 →
        ∃ n,
          (∀ a z, Part (.node .Element (a ++ c :: z)) tree → BeginsLine eol gs (.node .Element (a ++ c :: z)) n) ∧
          (∀ a z, tree = .node .StoredDefinition (a ++ c :: z) → n = leaksF .StoredDefinition a) ∧
          (∀ l1 e l2, ls = l1 ++ e :: l2 → e.sym = .t .End → BeginsLine eol gs e n) ∧
          (∀ l1 cs l2 pre d post, ls = l1 ++ .node .Composition cs :: l2 → cs = pre ++ d :: post →
            (sectionSym d.sym = true → BeginsLine eol gs d n) ∧
            (∀ j d1 e d2, d = .node j (d1 ++ e :: d2) → memberSym j e.sym = true → BeginsLine eol gs e (n + 1))) := by
  obtain ⟨gs, tree, h1, h2, h3, hr, h4, hL⟩ := h.lined
  refine ⟨gs, tree, h1, h2, h3, ?_⟩
  rintro c ls hp ⟨b, hb⟩ hlk
  have hne : c ≠ tree := by
    rintro rfl
    rw [hb] at hr
    cases hr
  obtain ⟨hC, hE⟩ := h4 _ hp hne
  obtain ⟨⟨n, w, hl⟩, huniq⟩ := C46_unique eol name src out p h tree h3 c hp
  have hcs : c.sym = .n .ClassDefinition := by rw [hb]; rfl
  refine ⟨n, ?_, ?_, ?_⟩
  · intro a z ha
    obtain ⟨n', w', hl'⟩ := ha.level
    have hCp := ha.conforms hC
    have h0 : leaksF .Element a = 0 := by
      refine preTok_leaks (post := z.map Tree.sym) ?_
      have := checkG_sound element_pre hCp.1
      simpa [hcs] using this
    obtain ⟨w'', hl''⟩ := plain_level (e := 0) hl' rfl h0 (by intros; rw [hcs]; rfl)
    obtain ⟨rfl, _⟩ := huniq _ _ _ _ hl hl''
    exact element_begins hL hC hE hr rfl hl'
  · intro a z ha
    have hl' : Level tree tree 0 false := .root
    rw [ha] at hl' huniq hl
    have := Level.child hl'
    obtain ⟨rfl, _⟩ := huniq _ _ _ _ hl this
    simp [levelIn, extra, hcs, extraIn, wrappedAt, exprPart]
  · subst hb
    rw [Tree.leaks] at hlk
    obtain ⟨k1, k2⟩ := leaksF_split hlk
    obtain ⟨w1, l1⟩ := plain_level (e := 0) hl rfl k1 (by intros; rfl)
    obtain ⟨w2, l2⟩ := plain_level (pre := []) (e := 0) l1 rfl rfl (by intros; rfl)
    have k3 : leaksF .LongClassSpecifier ls = 0 := by
      rw [Tree.leaks] at k2
      exact (leaksF_split (pre := []) k2).2
    refine ⟨?_, ?_⟩
    · rintro m1 e m2 rfl he
      obtain ⟨x, xs, _, hx⟩ := start_leaves e ((level_part (Level.child l2)).full hE)
      obtain ⟨prev, g, g1, g2, g3⟩ := hL _ m1 e m2 _ _ l2 .Required x (by rw [he]; rfl) hx
      have hlev : levelIn .LongClassSpecifier (n + 0 + 0) w2 m1 e m2 = n := by
        simp [levelIn, extra, he, extraIn, wrappedAt, exprPart, (leaksF_split k3).1]
      rw [hlev] at g3
      exact ⟨x, _, prev, g, hx, g1, g2, g3⟩
    · rintro m1 cs m2 pre d post rfl rfl
      obtain ⟨w3, l3⟩ := plain_level (e := 0) l2 rfl (leaksF_split k3).1 (by intros; rfl)
      have k4 := (leaksF_split k3).2
      rw [Tree.leaks] at k4
      refine ⟨fun hd => ?_, ?_⟩
      · obtain ⟨x, xs, _, hx⟩ := start_leaves d ((level_part (Level.child l3)).full hE)
        have hbr : ∃ bl, breakBefore .Composition (pre.getLast?.map Tree.sym) d.sym = some bl := by
          unfold sectionSym at hd
          split at hd <;> first | (cases hd; done) | (rename_i hs; rw [hs]; exact ⟨_, rfl⟩)
        obtain ⟨bl, hbr⟩ := hbr
        obtain ⟨prev, g, g1, g2, g3⟩ := hL _ pre d post _ _ l3 bl x hbr hx
        have hlev : levelIn .Composition (n + 0 + 0 + 0) w3 pre d post = n := by
          unfold sectionSym at hd
          split at hd <;> first | (cases hd; done) |
            (rename_i hs; simp [levelIn, extra, hs, extraIn, wrappedAt, exprPart, (leaksF_split k4).1])
        rw [hlev] at g3
        exact ⟨x, _, prev, g, hx, g1, g2, g3⟩
      · rintro j d1 e d2 rfl hm
        have k5 := (leaksF_split k4).2
        rw [Tree.leaks] at k5
        have hcase : (j = .ElementList ∧ e.sym = .n .Element) ∨ ((j = .EquationSection ∨ j = .AlgorithmSection) ∧ blockItem e.sym = true) := by
          unfold memberSym at hm
          split at hm <;> first | (cases hm; done) | skip
          · exact .inl ⟨rfl, by assumption⟩
          · exact .inr ⟨.inl rfl, by rename_i hs; rw [hs]; rfl⟩
          · exact .inr ⟨.inr rfl, by rename_i hs; rw [hs]; rfl⟩
        rcases hcase with ⟨rfl, he⟩ | ⟨hj, he⟩
        · obtain ⟨w4, l4⟩ := plain_level (e := 1) l3 rfl (leaksF_split k4).1 (by intros; rfl)
          obtain ⟨w5, l5⟩ := plain_level (e := 0) l4 rfl (leaksF_split k5).1 (by intros; rw [he]; rfl)
          exact element_begins hL hC hE hr he l5
        · obtain ⟨w4, l4⟩ := plain_level (e := 0) l3 rfl (leaksF_split k4).1 (by intros; rcases hj with rfl | rfl <;> rfl)
          obtain ⟨w5, l5⟩ := plain_level (e := 1) l4 (by rcases hj with rfl | rfl <;> rfl) (leaksF_split k5).1
            (by intros; rcases hj with rfl | rfl <;> rfl)
          exact item_begins hL hC hE hr he l5

/-! ### Concrete cases -/

def exAligned : Text := c!"package P model A Real x; equation if a then b=c; else x=2; end if; end A; end P;"
def exAlignedOut : Text :=
  c!"package P\n\n  model A\n\n    Real x;\n\n  equation\n\n    if a then\n      b = c;\n    else\n      x = 2;\n    end if;\n\n  end A;\n\nend P;\n"
def exAlignedP : Parsed := match parse c!"f" exAligned .StoredDefinition with | .ok p => p | _ => ⟨[], [], [], []⟩
def exAlignedTree : Tree := resTree (buildTree exAlignedP.tokens exAlignedP.events)

def longOf : List Tree → Option (List Tree)
  | [] => none
  | [.node .ClassSpecifier [.node .LongClassSpecifier ls]] => some ls
  | _ :: cs => longOf cs

theorem longOf_sound : ∀ (cs ls : List Tree), longOf cs = some ls → LongClass (.node .ClassDefinition cs) ls
  | [], ls, h => by cases h
  | c :: cs, ls, h => by
    unfold longOf at h
    split at h
    · cases h
    · rename_i heq
      cases h
      cases heq
      exact ⟨[], rfl⟩
    · rename_i heq
      cases heq
      obtain ⟨b, hb⟩ := longOf_sound cs ls h
      cases hb
      exact ⟨c :: b, rfl⟩

set_option maxRecDepth 100000 in
set_option maxHeartbeats 2000000 in
theorem C68_case : Formatted c!"\n" c!"f" exAligned exAlignedP exAlignedOut ∧
    buildTree exAlignedP.tokens exAlignedP.events = .ok exAlignedTree ∧
    (Part (.node .IfEquation (kidsOf (exAlignedTree.find .IfEquation))) exAlignedTree ∧
      leaksF .IfEquation (kidsOf (exAlignedTree.find .IfEquation)) = 0 ∧
      (kidsOf (exAlignedTree.find .IfEquation)).map (fun c => (blockWord c.sym, blockItem c.sym)) =
        [(false, false), (false, false), (false, false), (false, true), (false, false), (true, false), (false, true),
          (false, false), (true, false), (false, false)]) ∧
    ∃ c ls, Part c exAlignedTree ∧ LongClass c ls ∧ c.leaks = 0 := by
  refine ⟨⟨by decide_cbv, by decide_cbv, exAlignedOut.dropLast, by decide_cbv, by decide⟩, resTree_ok (by decide_cbv),
    ⟨find_kind _ (by decide_cbv), by decide_cbv, by decide_cbv⟩, ?_⟩
  have hs : (longOf (kidsOf (exAlignedTree.find .ClassDefinition))).isSome = true := by decide_cbv
  obtain ⟨ls, hls⟩ := Option.isSome_iff_exists.1 hs
  have hp : Part (.node .ClassDefinition (kidsOf (exAlignedTree.find .ClassDefinition))) exAlignedTree :=
    find_kind _ (by decide_cbv)
  have h0 : leaksF .ClassDefinition (kidsOf (exAlignedTree.find .ClassDefinition)) = 0 := by decide_cbv
  exact ⟨_, ls, hp, longOf_sound _ _ hls, by rw [Tree.leaks, h0]⟩

def exShifted : Text := c!"model A\nequation\nif a then\nb\n+ c = d;\nend if;\nend A;"
def exShiftedOut : Text := c!"model A\n\nequation\n\n  if a then\n    b\n      + c = d;\n    end if;\n\n  end A;\n"

set_option maxRecDepth 100000 in
/-- **C68** Without the condition about wrapped left hand sides, blocks and classes are not aligned: in this output neither
`if` and `end if` nor `model` and `end` are. -/
theorem C68_blocks_false : ∃ p, Formatted c!"\n" c!"f" exShifted p exShiftedOut ∧
    exShiftedOut = c!"model A" ++ c!"\n\nequation\n\n" ++ c!"  if a then" ++ c!"\n    b\n      + c = d;\n" ++
      c!"    end if;" ++ c!"\n\n" ++ c!"  end A;" ++ c!"\n" :=
  ⟨match parse c!"f" exShifted .StoredDefinition with | .ok p => p | _ => ⟨[], [], [], []⟩,
    ⟨by decide_cbv, by decide_cbv, exShiftedOut.dropLast, by decide_cbv, by decide⟩, by decide⟩

#print axioms C68_blocks_partial
#print axioms C68_classes_partial
#print axioms C68_case
#print axioms C68_blocks_false

end Mofmt
