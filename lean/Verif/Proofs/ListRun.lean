import Verif.Spec.Lists
import Verif.Props.Whole
/-
Where the items of lists stand.
-/
namespace Mofmt

/-! ### Places in the layout -/

/-- the part `s` of a tree with the parameters of its layout -/
inductive At (tree : Tree) : Tree → Nat → Bool → Bool → Dec → Prop
  | root : At tree tree 0 false false .none
  | child {k pre c post n w m d} : At tree (.node k (pre ++ c :: post)) n w m d →
      At tree c (levelIn k n w pre c post) (chainChild k c.sym && wrappedAt k w pre c post) (passedAt k m pre c post)
        ((if pre.isEmpty then d else .none).or ((gapAt k m pre c post).at (levelIn k n w pre c post)))

theorem At.part {tree s : Tree} {n w m d} (h : At tree s n w m d) : Part s tree := by
  induction h with
  | root => exact .here
  | child _ ih => exact Part.trans (.there (by simp) .here) ih

theorem Part.at {tree s : Tree} (h : Part s tree) : ∃ n w m d, At tree s n w m d := by
  have key : ∀ {t : Tree}, Part s t → ∀ n w m d, At tree t n w m d → ∃ n w m d, At tree s n w m d := by
    intro t h
    induction h with
    | here => exact fun n w m d h => ⟨n, w, m, d, h⟩
    | @there k cs c hc _ ih =>
      intro n w m d hl
      obtain ⟨pre, post, rfl⟩ := List.append_of_mem hc
      exact ih _ _ _ _ hl.child
  exact key h _ _ _ _ .root

theorem layoutF_split (k : SK) (n : Nat) (w m : Bool) : ∀ (pre done : List Tree) (c : Tree) (post : List Tree) (d : Dec),
    ∃ da, layoutF k n w m done d (pre ++ c :: post) = da ++ layoutF k n w m (done ++ pre) (if pre.isEmpty then d else .none) (c :: post)
  | [], done, c, post, d => ⟨[], by simp⟩
  | x :: pre, done, c, post, d => by
    obtain ⟨da, h⟩ := layoutF_split k n w m pre (done ++ [x]) c post .none
    rw [List.cons_append, layoutF, h]
    simp only [List.append_assoc, List.singleton_append, List.isEmpty_cons, ite_self, Bool.false_eq_true, if_false]
    rw [← List.append_assoc]
    exact ⟨_, rfl⟩

theorem At.layout {tree s : Tree} {n w m d} (h : At tree s n w m d) :
    ∃ da dz, tree.wholeLayout = da ++ (s.layout n w m d ++ dz) := by
  induction h with
  | root => exact ⟨[], [], by simp [Tree.wholeLayout]⟩
  | @child k pre c post n w m d _ ih =>
    obtain ⟨da, dz, h⟩ := ih
    obtain ⟨da', h'⟩ := layoutF_split k n w m pre [] c post d
    rw [Tree.layout, h', layoutF] at h
    exact ⟨da ++ da', _, by rw [h]; simp; rfl⟩

theorem Part.conforms {s t : Tree} (h : Part s t) : t.Conforms → s.Conforms := by
  induction h with
  | here => exact id
  | there hc _ ih => exact fun h => ih (conformsF_mem h.2 _ hc)

theorem Part.full {s t : Tree} (h : Part s t) : t.hasEmpty = false → s.hasEmpty = false := by
  induction h with
  | here => exact id
  | there hc _ ih =>
    intro h
    simp only [Tree.hasEmpty, Bool.or_eq_false_iff] at h
    exact ih (hasEmptyF_mem h.2 _ hc)

/-! ### The first token of an item -/

/-- productions whose first token is not separated by the production from what is before it -/
def quiet : SK → Bool
  | .Expression | .SimpleExpression | .LogicalExpression | .LogicalTerm | .LogicalFactor | .Relation
  | .ArithmeticExpression | .Term | .Factor | .Primary | .AddOperator | .ComponentReference
  | .FunctionArgument | .FunctionPartialApplication | .NamedArgument | .Argument | .ElementModificationOrReplaceable
  | .ElementModification | .ElementReplaceable | .ElementRedeclaration | .Name | .InheritanceModification
  | .EnumerationLiteral | .Subscript | .TypeSpecifier | .ComponentDeclaration | .Declaration | .ExpressionList
  | .ArrayArguments => true
  | _ => false

def quietSym : Sym → Bool
  | .t _ => true
  | .n k => quiet k

def bools : List Bool := [false, true]

theorem mem_bools (b : Bool) : b ∈ bools := by cases b <;> simp [bools]

/-- for all facts -/
def allFacts (P : Facts → Bool) : Bool :=
  bools.all fun a => bools.all fun b => bools.all fun c => bools.all fun d => bools.all fun e => bools.all fun f => bools.all fun g =>
    P ⟨a, b, c, d, e, f, g⟩

theorem allFacts_sound {P : Facts → Bool} (h : allFacts P = true) (f : Facts) : P f = true := by
  simp only [allFacts, List.all_eq_true] at h
  exact h _ (mem_bools _) _ (mem_bools _) _ (mem_bools _) _ (mem_bools _) _ (mem_bools _) _ (mem_bools _) _ (mem_bools _)

theorem quiet_first : ∀ k, quiet k = true → (Gram.spec k).first.all (fun s => quietSym s &&
    allFacts fun f => gapIn k none s f == .none) = true := by
  intro k; cases k <;> first | (intro h; cases h; done) | (intro _; decide +kernel)

theorem quiet_child {k : SK} {c : Tree} {cs : List Tree} (hC : Tree.Conforms (.node k (c :: cs))) (hq : quiet k = true) :
    quietSym c.sym = true ∧ ∀ m, gapAt k m [] c cs = .none := by
  have h1 := hC.1
  rw [List.map_cons] at h1
  have := List.all_eq_true.1 (quiet_first k hq) _ (first_complete h1)
  simp only [Bool.and_eq_true] at this
  exact ⟨this.1, fun m => by simpa [gapAt] using allFacts_sound this.2 _⟩

theorem layout_quiet : ∀ (s : Tree), s.Conforms → s.hasEmpty = false → quietSym s.sym = true → ∀ n w m d x, s.start? = some x →
    ∃ dz, s.layout n w m d = (d, x) :: dz
  | .tok t, _, _, _, n, w, m, d, x, hx => by cases hx; exact ⟨[], rfl⟩
  | .node k [], _, _, _, n, w, m, d, x, hx => by cases hx
  | .node k (c :: cs), hC, hE, hq, n, w, m, d, x, hx => by
    obtain ⟨h1, h2⟩ := quiet_child hC hq
    simp only [Tree.hasEmpty, Bool.or_eq_false_iff, hasEmptyF] at hE
    obtain ⟨dz, h⟩ := layout_quiet c hC.2.1 hE.2.1 h1 (levelIn k n w [] c cs) (chainChild k c.sym && wrappedAt k w [] c cs)
      (passedAt k m [] c cs) d x hx
    rw [Tree.layout, layoutF, h2, Gap.at, Dec.or_none, h]
    exact ⟨_, rfl⟩

theorem layout_brk : ∀ (s : Tree), s.hasEmpty = false → ∀ n w m b l x, s.start? = some x →
    ∃ dz, s.layout n w m (.brk b l) = (.brk b l, x) :: dz
  | .tok t, _, n, w, m, b, l, x, hx => by cases hx; exact ⟨[], rfl⟩
  | .node k [], _, n, w, m, b, l, x, hx => by cases hx
  | .node k (c :: cs), hE, n, w, m, b, l, x, hx => by
    simp only [Tree.hasEmpty, Bool.or_eq_false_iff, hasEmptyF] at hE
    obtain ⟨dz, h⟩ := layout_brk c hE.2.1 (levelIn k n w [] c cs) (chainChild k c.sym && wrappedAt k w [] c cs)
      (passedAt k m [] c cs) b l x hx
    rw [Tree.layout, layoutF, Dec.or, h]
    · exact ⟨_, rfl⟩
    · intro h; cases h

/-! ### Tables -/

/-- does a child contribute items? -/
def contrib : Sym → Bool
  | .t k => k == .Identifier || k == .For
  | .n k => k != .ForIndices

/-- a break, or a blank or nothing -/
def wrapGap (b : Bool) (g : Gap) : Bool := g == breakOrNone b || g == breakOrSpace b

/-- what is decided -/
def DecOK (b : Bool) (d : Dec) : Prop := if b then ∃ n, d = .brk .Illegal n else d = .none ∨ d = .space

theorem wrapGap_ok {b : Bool} {g : Gap} (h : wrapGap b g = true) (n : Nat) : DecOK b (g.at n) := by
  simp only [wrapGap, Bool.or_eq_true, beq_iff_eq] at h
  cases b <;> rcases h with rfl | rfl <;> simp [DecOK, breakOrNone, breakOrSpace, Gap.at]

/-- neighbours in a part of a list -/
def partOk (k : SK) (p s : Sym) : Bool := !contrib s || allFacts fun f => wrapGap f.broken (gapIn k (some p) s f)

def itemOk : Sym → Bool
  | .t _ => true
  | .n k => listPart k || quiet k

theorem part_next : ∀ k, listPart k = true → checkG (adjStep (partOk k)) (fun st => st.2) (Gram.spec k) (none, true) = true := by
  intro k; cases k <;> first | (intro h; cases h; done) | (intro _; decide +kernel)

theorem part_first : ∀ k, listPart k = true → (Gram.spec k).first.all (fun s => allFacts fun f => gapIn k none s f == .none) = true := by
  intro k; cases k <;> first | (intro h; cases h; done) | (intro _; decide +kernel)

/-- parts of lists that are wrapped with the list -/
def plainPart : SK → Bool
  | .FunctionArguments | .FunctionArgumentsNonFirst | .NamedArguments | .ArrayArguments | .ArrayArgumentsNonFirst => true
  | _ => false

def subOk (k : SK) : Sym → Bool
  | .t _ => true
  | .n j => !listPart j || (plainPart j && bools.all fun b => bools.all fun d => bools.all fun s => passedIn k (.n j) b d s == b)

theorem part_syms : ∀ k, listPart k = true → (Gram.spec k).syms.all (fun s => !contrib s || (itemOk s && subOk k s)) = true := by
  intro k; cases k <;> first | (intro h; cases h; done) | (intro _; decide +kernel)

theorem plain_broken {j : SK} (h : plainPart j = true) (m : Bool) (cs : List Tree) : brokenIn j m cs = m := by
  unfold plainPart at h
  split at h <;> first | rfl | cases h

/-- what decides about a child of a list -/
def wrapFact (k : SK) (f : Facts) : Bool := if k = .ShortClassSpecifier then f.passed else f.broken

/-- a child between the brackets of a list -/
def subIn (k : SK) : Sym → Bool
  | .t _ => k != .ShortClassSpecifier
  | .n j => if k = .ShortClassSpecifier then j == .EnumList else !listPart j ||
      bools.all fun b => bools.all fun d => bools.all fun s => passedIn k (.n j) b d s == (b && (s || k != .Primary || plainPart j))

/-- neighbours in a list -/
def inOk (k : SK) (p s : Sym) : Bool := !contrib s || (itemOk s && subIn k s && (k != .Primary || quietSym s) &&
  allFacts fun f => wrapGap (wrapFact k f) (gapIn k (some p) s f))

/-- before, in and after the brackets -/
def inStep (k : SK) (st : Sym × Nat × Bool) (s : Sym) : Sym × Nat × Bool :=
  if st.2.1 = 0 then (s, if opensIn k s then 1 else 0, st.2.2 && !closesIn k s)
  else if st.2.1 = 1 then (s, if closesIn k s then 2 else 1, st.2.2 && !opensIn k s && (closesIn k s || inOk k st.1 s))
  else (s, 2, st.2.2 && !opensIn k s && !closesIn k s)

def inFine (st : Sym × Nat × Bool) : Bool := st.2.2 && st.2.1 != 1

/-- lists with brackets -/
def bracketed : SK → Bool
  | .FunctionCallArgs | .ClassModification | .ClassOrInheritanceModification | .ConnectEquation | .ExternalFunctionCall
  | .FunctionPartialApplication | .DerClassSpecifier | .ShortClassSpecifier | .ImportClause | .Primary | .ArraySubscripts => true
  | _ => false

theorem in_ok : ∀ k, bracketed k = true → checkG (inStep k) inFine (Gram.spec k) (.t .EOF, 0, true) = true := by
  intro k; cases k <;> first | (intro h; cases h; done) | (intro _; decide +kernel)

theorem opens_bracketed {k : SK} {s : Sym} (h : opensIn k s = true) : bracketed k = true := by
  unfold opensIn at h
  split at h <;> first | rfl | cases h

theorem in_bad {k : SK} : ∀ (w : List Sym) (p : Sym) (i : Nat), (w.foldl (inStep k) (p, i, false)).2.2 = false
  | [], _, _ => rfl
  | s :: w, p, i => by
    rw [List.foldl_cons]
    simp only [inStep, Bool.false_and]
    split
    · exact in_bad w _ _
    · split
      · exact in_bad w _ _
      · exact in_bad w _ _

/-- no brackets -/
def Plain (k : SK) (cs : List Tree) : Prop := ∀ c ∈ cs, opensIn k c.sym = false ∧ closesIn k c.sym = false

theorem plain_nil (k : SK) : Plain k [] := by
  intro c hc
  cases hc

theorem in_after {k : SK} : ∀ (cs : List Tree) (p : Sym), inFine ((cs.map Tree.sym).foldl (inStep k) (p, 2, true)) = true → Plain k cs
  | [], _, _ => fun c hc => by cases hc
  | c :: cs, p, h => by
    rw [List.map_cons, List.foldl_cons] at h
    cases ho : opensIn k c.sym <;> cases hc : closesIn k c.sym <;> simp [inStep, ho, hc, inFine, in_bad] at h
    have := in_after cs _ (by simpa [inFine] using h)
    intro x hx
    rcases List.mem_cons.1 hx with rfl | hx
    · exact ⟨ho, hc⟩
    · exact this x hx

theorem in_inside {k : SK} : ∀ (cs : List Tree) (p : Sym), inFine ((cs.map Tree.sym).foldl (inStep k) (p, 1, true)) = true →
    ∃ ins c post, cs = ins ++ c :: post ∧ closesIn k c.sym = true ∧ Plain k ins ∧ Plain k post ∧
      ∀ i1 x i2, ins = i1 ++ x :: i2 → inOk k ((i1.getLast?.map Tree.sym).getD p) x.sym = true
  | [], _, h => by simp [inFine] at h
  | c :: cs, p, h => by
    rw [List.map_cons, List.foldl_cons] at h
    cases ho : opensIn k c.sym
    · cases hc : closesIn k c.sym
      · cases hk : inOk k p c.sym
        · simp [inStep, ho, hc, hk, inFine, in_bad] at h
        · simp only [inStep, ho, hc, hk] at h
          obtain ⟨ins, c', post, rfl, h1, h2, h3, h4⟩ := in_inside cs c.sym (by simpa using h)
          refine ⟨c :: ins, c', post, rfl, h1, ?_, h3, ?_⟩
          · intro x hx
            rcases List.mem_cons.1 hx with rfl | hx
            · exact ⟨ho, hc⟩
            · exact h2 x hx
          · intro i1 x i2 hi
            cases i1 with
            | nil => cases hi; exact hk
            | cons y i1 =>
              cases hi
              have := h4 i1 x i2 rfl
              cases i1 with
              | nil => exact this
              | cons z i1 =>
                rw [List.getLast?_cons_cons]
                cases hl : (z :: i1).getLast? with
                | none => simp at hl
                | some l => rw [hl] at this; exact this
      · simp only [inStep, ho, hc] at h
        exact ⟨[], c, cs, rfl, hc, plain_nil k, in_after cs _ (by simpa using h), fun i1 x i2 hi => by cases i1 <;> cases hi⟩
    · simp [inStep, ho, inFine, in_bad] at h

theorem in_before {k : SK} : ∀ (cs : List Tree) (p : Sym), inFine ((cs.map Tree.sym).foldl (inStep k) (p, 0, true)) = true →
    Plain k cs ∨ ∃ pre o ins c post, cs = pre ++ o :: (ins ++ c :: post) ∧ opensIn k o.sym = true ∧ closesIn k c.sym = true ∧
      Plain k pre ∧ Plain k ins ∧ Plain k post ∧
      ∀ i1 x i2, ins = i1 ++ x :: i2 → inOk k ((i1.getLast?.map Tree.sym).getD o.sym) x.sym = true
  | [], _, _ => .inl fun c hc => by cases hc
  | c :: cs, p, h => by
    rw [List.map_cons, List.foldl_cons] at h
    cases hc : closesIn k c.sym
    · cases ho : opensIn k c.sym
      · have hP : ∀ {l}, Plain k l → Plain k (c :: l) := by
          intro l hl x hx
          rcases List.mem_cons.1 hx with rfl | hx
          · exact ⟨ho, hc⟩
          · exact hl x hx
        rcases in_before cs c.sym (by simpa [inStep, ho, hc] using h) with h | ⟨pre, o, ins, c', post, rfl, h1, h2, h3, h4⟩
        · exact .inl (hP h)
        · exact .inr ⟨c :: pre, o, ins, c', post, rfl, h1, h2, hP h3, h4⟩
      · obtain ⟨ins, c', post, rfl, h1, h2⟩ := in_inside cs c.sym (by simpa [inStep, ho, hc] using h)
        exact .inr ⟨[], c, ins, c', post, rfl, ho, h1, plain_nil k, h2⟩
    · simp [inStep, hc, inFine, in_bad] at h

theorem inside_plain {k : SK} {cs : List Tree} (hk : k ≠ .ComponentList) (h : Plain k cs) : inside k cs = [] := by
  rw [inside, if_neg hk]
  have := List.dropWhile_append_of_pos (p := fun c => !opensIn k c.sym) (l₁ := cs) (l₂ := [])
    (fun x hx => by simp [(h x hx).1])
  rw [List.append_nil] at this
  simp [this]

theorem inside_eq {k : SK} {pre ins post : List Tree} {o c : Tree} (hk : k ≠ .ComponentList) (ho : opensIn k o.sym = true)
    (hc : closesIn k c.sym = true) (h1 : Plain k pre) (h2 : Plain k ins) : inside k (pre ++ o :: (ins ++ c :: post)) = ins := by
  rw [inside, if_neg hk, List.dropWhile_append_of_pos (fun x hx => by simp [(h1 x hx).1])]
  rw [List.dropWhile_cons_of_neg (by simp [ho]), List.drop_succ_cons, List.drop_zero,
    List.takeWhile_append_of_pos (fun x hx => by simp [(h2 x hx).2]), List.takeWhile_cons_of_neg (by simp [hc])]
  simp

/-- The brackets of a list. -/
theorem list_split {k : SK} {cs : List Tree} (hC : Tree.Conforms (.node k cs)) (hk : k ≠ .ComponentList) (hi : inside k cs ≠ []) :
    bracketed k = true ∧ ∃ pre o ins c post, cs = pre ++ o :: (ins ++ c :: post) ∧ inside k cs = ins ∧ opensIn k o.sym = true ∧
      closesIn k c.sym = true ∧ Plain k pre ∧ Plain k ins ∧ Plain k post ∧
      ∀ i1 x i2, ins = i1 ++ x :: i2 → inOk k ((i1.getLast?.map Tree.sym).getD o.sym) x.sym = true := by
  cases hb : bracketed k
  · refine absurd (inside_plain hk fun c _ => ?_) hi
    constructor
    · cases h : opensIn k c.sym
      · rfl
      · rw [opens_bracketed h] at hb; cases hb
    · cases h : closesIn k c.sym
      · rfl
      · unfold closesIn at h
        split at h <;> first | cases hb; done | cases h
  · refine ⟨rfl, ?_⟩
    rcases in_before cs _ (checkG_sound (in_ok k hb) hC.1) with h | ⟨pre, o, ins, c, post, rfl, h1, h2, h3, h4, h5⟩
    · exact absurd (inside_plain hk h) hi
    · exact ⟨pre, o, ins, c, post, rfl, inside_eq hk h1 h2 h3 h4, h1, h2, h3, h4, h5⟩

end Mofmt
