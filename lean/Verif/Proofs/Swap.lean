import Verif.Proofs.Around
import Verif.Spec.Swap
import Verif.Props.Spacing
import Verif.Proofs.Multi
import Verif.Proofs.FmtSound
/-
The layout around any part of a tree does not depend on what is in it, as long as the part looks the same from outside.
-/
namespace Mofmt

theorem Looks.refl (x : Tree) : Looks x x := ⟨rfl, rfl, fun _ => rfl, fun _ => rfl, rfl, rfl, rfl, rfl, rfl, fun _ _ => rfl, rfl, rfl⟩

/-- trees that pairwise look the same -/
inductive LooksF : List Tree → List Tree → Prop
  | nil : LooksF [] []
  | cons {x y : Tree} {xs ys : List Tree} : Looks x y → LooksF xs ys → LooksF (x :: xs) (y :: ys)

theorem LooksF.refl : ∀ xs : List Tree, LooksF xs xs
  | [] => .nil
  | x :: xs => .cons (.refl x) (.refl xs)

theorem LooksF.append {a a' b b' : List Tree} (h1 : LooksF a a') (h2 : LooksF b b') : LooksF (a ++ b) (a' ++ b') := by
  induction h1 with
  | nil => exact h2
  | cons h _ ih => exact .cons h ih

theorem LooksF.length {a b : List Tree} (h : LooksF a b) : a.length = b.length := by
  induction h with
  | nil => rfl
  | cons _ _ ih => simp [ih]

theorem head_append_map {α β : Type} (f : α → β) {a a' b b' : List α} (h1 : a.head?.map f = a'.head?.map f)
    (h2 : b.head?.map f = b'.head?.map f) : (a ++ b).head?.map f = (a' ++ b').head?.map f := by
  cases a <;> cases a' <;> simp_all

theorem last_append_map {α β : Type} (f : α → β) {a a' b b' : List α} (h1 : a.getLast?.map f = a'.getLast?.map f)
    (h2 : b.getLast?.map f = b'.getLast?.map f) : (a ++ b).getLast?.map f = (a' ++ b').getLast?.map f := by
  rw [List.getLast?_append, List.getLast?_append]
  cases hb : b.getLast? <;> cases hb' : b'.getLast? <;> simp_all

theorem LooksF.head {a b : List Tree} (h : LooksF a b) :
    (leavesF a).head?.map (fun t => t.start.line) =
    (leavesF b).head?.map (fun t => t.start.line) := by
  induction h with
  | nil => rfl
  | cons h _ ih => exact head_append_map _ h.head ih

theorem LooksF.last {a b : List Tree} (h : LooksF a b) :
    (leavesF a).getLast?.map (fun t => t.stop.line) = (leavesF b).getLast?.map (fun t => t.stop.line) := by
  induction h with
  | nil => rfl
  | cons h _ ih => exact last_append_map _ h.last ih

theorem LooksF.spans {a b : List Tree} (h : LooksF a b) : spansLines a = spansLines b := by
  have h1 := h.head
  have h2 := h.last
  unfold spansLines
  cases e1 : (leavesF a).head? <;> cases e2 : (leavesF b).head? <;> cases e3 : (leavesF a).getLast? <;>
    cases e4 : (leavesF b).getLast? <;> simp_all

theorem Looks.lineOf {x y : Tree} (h : Looks x y) (k : Tok) {xs ys : List Tree} (hs : lineOfTok k xs = lineOfTok k ys) :
    lineOfTok k (x :: xs) = lineOfTok k (y :: ys) := by
  have h1 := h.sym
  have h2 := h.first
  cases x <;> cases y <;> simp_all [lineOfTok, Tree.sym, Tree.start?]

theorem LooksF.lineOf {a b : List Tree} (h : LooksF a b) (k : Tok) : lineOfTok k a = lineOfTok k b := by
  induction h with
  | nil => rfl
  | cons h _ ih => exact h.lineOf k ih

theorem LooksF.apart {a b : List Tree} (h : LooksF a b) (o c : Tok) : bracketsApart o c a = bracketsApart o c b := by
  unfold bracketsApart
  rw [h.lineOf, h.lineOf]

theorem LooksF.occurs {a b : List Tree} (h : LooksF a b) {k : SK} (hk : k = .Description ∨ k = .DescriptionString) :
    occursF k a = occursF k b := by
  induction h with
  | nil => rfl
  | cons h _ ih => simp only [occursF, h.desc k hk, ih]

theorem LooksF.getLast {a b : List Tree} (h : LooksF a b) :
    (a.getLast? = none ∧ b.getLast? = none) ∨ ∃ x y, a.getLast? = some x ∧ b.getLast? = some y ∧ Looks x y := by
  induction h with
  | nil => exact .inl ⟨rfl, rfl⟩
  | @cons x y xs ys h h2 ih =>
    right
    rcases ih with ⟨e1, e2⟩ | ⟨u, v, e1, e2, e3⟩
    · have : xs = [] := List.getLast?_eq_none_iff.1 e1
      have : ys = [] := List.getLast?_eq_none_iff.1 e2
      subst_vars
      exact ⟨x, y, rfl, rfl, h⟩
    · exact ⟨u, v, by rw [List.getLast?_cons, e1]; rfl, by rw [List.getLast?_cons, e2]; rfl, e3⟩

theorem LooksF.getHead {a b : List Tree} (h : LooksF a b) :
    (a.head? = none ∧ b.head? = none) ∨ ∃ x y, a.head? = some x ∧ b.head? = some y ∧ Looks x y := by
  cases h with
  | nil => exact .inl ⟨rfl, rfl⟩
  | cons h _ => exact .inr ⟨_, _, rfl, rfl, h⟩

/-- optional trees that look the same -/
def LooksO (a b : Option Tree) : Prop := (a = none ∧ b = none) ∨ ∃ x y, a = some x ∧ b = some y ∧ Looks x y

theorem Looks.wrapsAt {k : SK} {p p' : Option Tree} {o o' : Tree} {n n' : Option Tree} (hp : LooksO p p') (ho : Looks o o')
    (hn : LooksO n n') : Mofmt.wrapsAt k p o n = Mofmt.wrapsAt k p' o' n' := by
  unfold Mofmt.wrapsAt
  rw [ho.sym]
  congr 1
  have h1 : (p.bind Tree.end?).map (fun t => t.stop.line) = (p'.bind Tree.end?).map (fun t => t.stop.line) := by
    rcases hp with ⟨rfl, rfl⟩ | ⟨x, y, rfl, rfl, h⟩
    · rfl
    · exact h.final
  have h2 : (n.bind Tree.start?).map (fun t => t.start.line) = (n'.bind Tree.start?).map (fun t => t.start.line) := by
    rcases hn with ⟨rfl, rfl⟩ | ⟨x, y, rfl, rfl, h⟩
    · rfl
    · exact h.first
  cases e1 : p.bind Tree.end? <;> cases e2 : p'.bind Tree.end? <;> cases e3 : n.bind Tree.start? <;>
    cases e4 : n'.bind Tree.start? <;> simp_all

theorem LooksF.wraps {k : SK} {a b : List Tree} (h : LooksF a b) : ∀ {p p' : Option Tree}, LooksO p p' →
    wrapsF k p a = wrapsF k p' b := by
  induction h with
  | nil => intro _ _ _; rfl
  | cons h h2 ih =>
    intro p p' hp
    simp only [wrapsF]
    rw [h.wrapsAt hp h2.getHead, h.sym, h.wraps, ih (.inr ⟨_, _, rfl, rfl, h⟩)]

theorem LooksF.leaks {k : SK} {a b : List Tree} (h : LooksF a b) : leaksF k a = leaksF k b := by
  induction h with
  | nil => rfl
  | cons h h2 ih => simp only [leaksF, h.leaks, h.sym, h.wraps, ih]

theorem LooksF.startOf {a b : List Tree} (h : LooksF a b) :
    (startOf a).map (fun t => t.start.line) = (startOf b).map (fun t => t.start.line) := by
  cases h with
  | nil => rfl
  | cons h _ => exact h.first

theorem endOf_last (a : List Tree) : endOf a = a.getLast?.bind Tree.end? := by
  induction a with
  | nil => rfl
  | cons x a ih =>
    cases a with
    | nil => rfl
    | cons y a => 
      rw [endOf]
      · exact ih
      · simp

theorem LooksF.endOf {a b : List Tree} (h : LooksF a b) :
    (endOf a).map (fun t => t.stop.line) = (endOf b).map (fun t => t.stop.line) := by
  rw [endOf_last, endOf_last]
  rcases h.getLast with ⟨e1, e2⟩ | ⟨x, y, e1, e2, h⟩
  · rw [e1, e2]
  · rw [e1, e2]; exact h.final

theorem LooksF.node {a b : List Tree} (h : LooksF a b) (k : SK)
    (hi : condSym (.n k) = true → (Tree.node k a).condWide = (Tree.node k b).condWide) : Looks (.node k a) (.node k b) where
  sym := rfl
  head := h.head
  ifs := hi
  within h := by cases h
  last := h.last
  first := h.startOf
  final := h.endOf
  wraps := h.wraps (.inl ⟨rfl, rfl⟩)
  leaks := h.leaks
  desc j hj := by simp only [Tree.occurs, h.occurs hj]
  kids := h.occurs (.inl rfl)
  comma := by
    rcases h.getLast with ⟨e1, e2⟩ | ⟨x, y, e1, e2, h⟩
    · simp only [Tree.kids, e1, e2]
    · simp only [Tree.kids, e1, e2, Option.map_some, h.sym]

theorem LooksF.broken {a b : List Tree} (h : LooksF a b) (k : SK) (m : Bool) : brokenIn k m a = brokenIn k m b := by
  unfold brokenIn
  rw [h.spans, h.occurs (.inl rfl), h.occurs (.inr rfl), h.length, h.apart]

theorem LooksF.mid {pre pre' post post' : List Tree} {c c' : Tree} (h1 : LooksF pre pre') (h : Looks c c') (h2 : LooksF post post') :
    LooksF (pre ++ c :: post) (pre' ++ c' :: post') := h1.append (.cons h h2)

theorem LooksF.lastSym {a b : List Tree} (h : LooksF a b) : a.getLast?.map Tree.sym = b.getLast?.map Tree.sym := by
  rcases h.getLast with ⟨e1, e2⟩ | ⟨x, y, e1, e2, h⟩
  · rw [e1, e2]
  · rw [e1, e2, Option.map_some, Option.map_some, h.sym]

theorem gapIn_within {k : SK} {p : Option Sym} {s : Sym} {f : Facts} (x : Bool) (h : s ≠ .t .Within) :
    gapIn k p s f = gapIn k p s { f with late := x } := by
  cases k <;> try rfl
  simp only [gapIn, spaceIn]
  split
  · rfl
  · split <;> first | rfl | exact absurd rfl h

theorem gapIn_ifs {k : SK} {p : Option Sym} {s : Sym} {f : Facts} (x : Bool) (h : condSym s = false) :
    gapIn k p s f = gapIn k p s { f with longIf := x } := by
  cases k <;> try rfl
  all_goals
    simp only [gapIn, spaceIn]
    split
    · rfl
    · split <;> first | rfl | exact absurd h (by decide)

theorem extraIn_ifs {k : SK} {p : Option Sym} {s : Sym} {a b c : Bool} (x y : Bool) (h : condSym s = false) :
    extraIn k p s a b c x = extraIn k p s a b c y := by
  unfold extraIn
  split <;> first | rfl | exact absurd h (by decide)

section
variable {pre pre' post post' : List Tree} {c c' : Tree} (h1 : LooksF pre pre') (h : Looks c c') (h2 : LooksF post post')
include h1 h h2

theorem Looks.passed (k : SK) (m : Bool) : passedAt k m pre c post = passedAt k m pre' c' post' := by
  unfold passedAt
  have := h1.mid h h2
  simp only [this.broken, this.length, h.sym, h.kids]

theorem Looks.gap (k : SK) (m : Bool) : gapAt k m pre c post = gapAt k m pre' c' post' := by
  have hc : ∀ f : Facts, gapIn k (pre.getLast?.map Tree.sym) c.sym { f with late := (match c.leaves.head? with
      | some t => decide (t.idx > 0)
      | none => false) } =
    gapIn k (pre'.getLast?.map Tree.sym) c'.sym { f with late := (match c'.leaves.head? with
      | some t => decide (t.idx > 0)
      | none => false) } := by
    intro f
    rw [h1.lastSym, ← h.sym]
    by_cases e : c.sym = .t .Within
    · rw [h.within e]
    · rw [gapIn_within true e, gapIn_within (f := { f with late := (match c'.leaves.head? with
        | some t => decide (t.idx > 0)
        | none => false) }) true e]
  unfold gapAt
  have hm := (h1.mid h h2).broken k m
  have e1 := Looks.passed h1 h h2 k m
  have e2 := h.wrapsAt (k := k) h1.getLast h2.getHead
  have e3 : (pre.getLast?.bind fun d => d.kids.getLast?.map Tree.sym) = some (.t .Comma) ↔
      (pre'.getLast?.bind fun d => d.kids.getLast?.map Tree.sym) = some (.t .Comma) := by
    rcases h1.getLast with ⟨e1, e2⟩ | ⟨x, y, e1, e2, h⟩
    · rw [e1, e2]
    · rw [e1, e2]; simp only [Option.bind_some, h.comma]
  rw [hm, e1, e2, h1.length, decide_eq_decide.2 e3]
  have hi : ∀ (P : Option Sym) (f : Facts), gapIn k P c.sym { f with longIf := c.condWide } =
      gapIn k P c.sym { f with longIf := c'.condWide } := by
    intro P f
    cases e : condSym c.sym with
    | true => rw [h.ifs e]
    | false => rw [gapIn_ifs c'.condWide e]
  exact (hi _ ⟨_, _, true, _, _, _, _⟩).trans (hc ⟨_, _, _, _, true, _, _⟩)

theorem Looks.extra (k : SK) : extra k pre c post = extra k pre' c' post' := by
  unfold Mofmt.extra
  have := h1.mid h h2
  have hi : ∀ a b d, extraIn k (pre'.getLast?.map Tree.sym) c.sym a b d c.condWide =
      extraIn k (pre'.getLast?.map Tree.sym) c.sym a b d c'.condWide := by
    intro a b d
    cases e : condSym c.sym with
    | true => rw [h.ifs e]
    | false => rw [extraIn_ifs _ _ e]
  simp only [this.spans, this.length, this.apart, h1.lastSym, ← h.sym, h.kids]
  exact hi _ _ _

theorem Looks.wrapsTo (k : SK) : ∀ {p p' : Option Tree}, LooksO p p' →
    wrapsTo k p pre c post = wrapsTo k p' pre' c' post' := by
  induction h1 with
  | nil => intro p p' hp; exact h.wrapsAt hp h2.getHead
  | cons h3 h4 ih =>
    intro p p' hp
    simp only [Mofmt.wrapsTo]
    rw [h3.wrapsAt hp (h4.append (.cons h .nil)).getHead, h3.sym, h3.wraps, ih (.inr ⟨_, _, rfl, rfl, h3⟩)]

theorem Looks.wrapped (k : SK) (w : Bool) : wrappedAt k w pre c post = wrappedAt k w pre' c' post' := by
  unfold wrappedAt
  rw [Looks.wrapsTo h1 h h2 k (.inl ⟨rfl, rfl⟩)]

theorem Looks.level (k : SK) (n : Nat) (w : Bool) : levelIn k n w pre c post = levelIn k n w pre' c' post' := by
  unfold levelIn
  rw [Looks.extra h1 h h2, Looks.wrapped h1 h h2, h1.leaks]

end

/-- the layout of some children with another part in its place -/
theorem layoutF_swap (k : SK) (n : Nat) (w m : Bool) {x y : Tree} (h : Looks x y) (post : List Tree) :
    ∀ (pre q q' : List Tree) (d : Dec), LooksF q q' → ∃ LA n' w' m' d' LB,
      layoutF k n w m q d (pre ++ x :: post) = LA ++ x.layout n' w' m' d' ++ LB ∧
      layoutF k n w m q' d (pre ++ y :: post) = LA ++ y.layout n' w' m' d' ++ LB ∧
      LA.map (·.2) = leavesF pre ∧ LB.map (·.2) = leavesF post := by
  have tail : ∀ (cs q q' : List Tree) (d : Dec), LooksF q q' → layoutF k n w m q d cs = layoutF k n w m q' d cs := by
    intro cs
    induction cs with
    | nil => intro q q' d _; rfl
    | cons c cs ih =>
      intro q q' d hq
      simp only [layoutF]
      rw [Looks.level hq (.refl c) (.refl cs), Looks.wrapped hq (.refl c) (.refl cs), Looks.passed hq (.refl c) (.refl cs),
        Looks.gap hq (.refl c) (.refl cs), ih _ _ _ (hq.append (.refl [c]))]
  intro pre
  induction pre with
  | nil =>
    intro q q' d hq
    refine ⟨[], _, _, _, _, _, by rw [List.nil_append, layoutF]; rfl, ?_, rfl, layoutF_toks ..⟩
    rw [List.nil_append, layoutF, Looks.level hq h (.refl post), Looks.wrapped hq h (.refl post), Looks.passed hq h (.refl post),
        Looks.gap hq h (.refl post), h.sym, tail _ _ _ _ (hq.append (.cons h .nil))]
    rfl
  | cons c pre ih =>
    intro q q' d hq
    obtain ⟨LA, n', w', m', d', LB, e1, e2, e3, e4⟩ := ih (q ++ [c]) (q' ++ [c]) .none (hq.append (.refl _))
    have hp := (LooksF.refl pre).mid h (.refl post)
    rw [List.cons_append, List.cons_append, layoutF, layoutF, e1, e2, Looks.level hq (.refl c) hp,
      Looks.wrapped hq (.refl c) hp, Looks.passed hq (.refl c) hp, Looks.gap hq (.refl c) hp]
    exact ⟨c.layout (levelIn k n w q' c (pre ++ y :: post)) (chainChild k c.sym && wrappedAt k w q' c (pre ++ y :: post))
      (passedAt k m q' c (pre ++ y :: post)) (d.or ((gapAt k m q' c (pre ++ y :: post)).at (levelIn k n w q' c (pre ++ y :: post))))
      ++ LA, n', w', m', d', LB, by simp only [← List.append_assoc], by simp only [← List.append_assoc],
      by rw [List.map_append, e3, layout_toks]; rfl, e4⟩

/-! ### Conditional expressions -/

/-- expressions that do not begin with `if` -/
def plainKinds : List SK := [.SimpleExpression, .LogicalExpression, .LogicalTerm, .LogicalFactor, .Relation, .ArithmeticExpression,
  .AddOperator, .Term, .Factor, .Primary, .Name, .ComponentReference, .TypeSpecifier, .FunctionPartialApplication]

theorem plain_first : ∀ k ∈ plainKinds, ∀ s ∈ (Gram.spec k).first,
    (match s with | .t j => j != .If | .n j => plainKinds.contains j) = true := by decide +kernel

theorem plain_leaves (N : Nat) : ∀ {k : SK} {cs : List Tree}, sizeOf cs ≤ N → k ∈ plainKinds → Tree.Conforms (.node k cs) →
    Tree.hasEmpty (.node k cs) = false → (leavesF cs).head?.map Token.kind ≠ some .If := by
  induction N with
  | zero =>
    intro k cs hn
    cases cs <;> simp at hn
  | succ N ih =>
    intro k cs hn hk hC hE
    simp only [Tree.hasEmpty, Bool.or_eq_false_iff, List.isEmpty_eq_false_iff] at hE
    obtain ⟨c, cs, rfl⟩ := List.exists_cons_of_ne_nil hE.1
    have h := plain_first k hk _ (first_complete (c := c.sym) (u := cs.map Tree.sym) hC.1)
    have hcm : c ∈ c :: cs := by simp
    cases c with
    | tok t =>
      simp only [Tree.sym, bne_iff_ne, ne_eq] at h
      simpa [leavesF, Tree.leaves] using h
    | node j es =>
      have hsz : sizeOf es ≤ N := by
        have := List.sizeOf_lt_of_mem hcm
        simp only [Tree.node.sizeOf_spec] at this
        omega
      have hc := hasEmptyF_mem hE.2 _ hcm
      have := ih hsz (List.contains_iff_mem.1 h) (conformsF_mem hC.2 _ hcm) hc
      obtain ⟨x, xs, e, _⟩ := start_leaves _ hc
      simp only [Tree.leaves] at e
      rw [leavesF, Tree.leaves, e]
      rw [e] at this
      exact this

theorem cond_first : ∀ k, condSym (.n k) = true → ∀ s ∈ (Gram.spec k).first,
    (match s with | .t _ => true | .n j => condSym (.n j) || plainKinds.contains j) = true := by
  intro k; cases k <;> decide +kernel

/-- whether the first symbol is one of `condSym`, and whether there are more -/
def condStep : Option (Bool × Bool) → Sym → Option (Bool × Bool)
  | none, s => some (condSym s, false)
  | some (b, _), _ => some (b, true)

theorem cond_alone : ∀ k, condSym (.n k) = true → checkG condStep (fun o => o != some (true, true)) (Gram.spec k) none = true := by
  intro k; cases k <;> decide +kernel

theorem condStep_more (b : Bool) : ∀ w : List Sym, w ≠ [] → ∀ m, w.foldl condStep (some (b, m)) = some (b, true)
  | [_], _, _ => rfl
  | _ :: t :: w, _, m => condStep_more b (t :: w) (by simp) true

/-- a conditional expression is one before and after the change -/
theorem node_ifs {k j : SK} {pre post : List Tree} {c c' : Tree} (h : Looks c c') (hj : c.sym = .n j)
    (C1 : Tree.Conforms (.node k (pre ++ c :: post))) (C2 : Tree.Conforms (.node k (pre ++ c' :: post)))
    (E1 : Tree.hasEmpty (.node k (pre ++ c :: post)) = false) (E2 : Tree.hasEmpty (.node k (pre ++ c' :: post)) = false)
    (hk : condSym (.n k) = true) : (Tree.node k (pre ++ c :: post)).condWide = (Tree.node k (pre ++ c' :: post)).condWide := by
  have sp : ∀ cs, spansLines [Tree.node k cs] = spansLines cs := by
    intro cs; simp [spansLines, leavesF, Tree.leaves]
  have hs := ((LooksF.refl pre).mid h (.refl post)).spans
  simp only [Tree.hasEmpty, Bool.or_eq_false_iff, List.isEmpty_eq_false_iff] at E1 E2
  have e1 : c.hasEmpty = false := hasEmptyF_mem E1.2 _ (by simp)
  have e2 : c'.hasEmpty = false := hasEmptyF_mem E2.2 _ (by simp)
  have f1 : c.Conforms := conformsF_mem C1.2 _ (by simp)
  have f2 : c'.Conforms := conformsF_mem C2.2 _ (by simp)
  obtain ⟨x, xs, a1, _⟩ := start_leaves _ e1
  obtain ⟨y, ys, b1, _⟩ := start_leaves _ e2
  cases pre with
  | cons p0 pre =>
    have e0 : p0.hasEmpty = false := hasEmptyF_mem E1.2 _ (by simp)
    obtain ⟨z, zs, c1, _⟩ := start_leaves _ e0
    simp only [Tree.condWide, sp, hs]
    simp only [Tree.leaves, List.cons_append, leavesF, c1, List.head?_cons]
  | nil =>
    have hfirst := cond_first k hk _ (first_complete (c := c.sym) (u := post.map Tree.sym) C1.1)
    rw [hj] at hfirst
    simp only [Bool.or_eq_true] at hfirst
    cases hc : condSym (.n j) with
    | true =>
      have := checkG_sound (cond_alone k hk) C1.1
      simp only [List.nil_append, List.map_cons, List.foldl_cons, condStep, hj, hc] at this
      have hp : post = [] := by
        cases post with
        | nil => rfl
        | cons q post =>
          rw [condStep_more true _ (by simp)] at this
          simp at this
      subst hp
      have one : ∀ t : Tree, (Tree.node k ([] ++ [t])).condWide = t.condWide := by
        intro t; simp [Tree.condWide, spansLines, Tree.leaves, leavesF]
      rw [one, one]
      exact h.ifs (by rw [hj]; exact hc)
    | false =>
      rw [hc] at hfirst
      have hm : j ∈ plainKinds := List.contains_iff_mem.1 (hfirst.resolve_left (by simp))
      have key : ∀ t : Tree, t.sym = .n j → t.Conforms → t.hasEmpty = false → t.leaves.head?.map Token.kind ≠ some .If := by
        intro t ht hC hE
        cases t with
        | tok t => cases ht
        | node i es =>
          simp only [Tree.sym, Sym.n.injEq] at ht
          subst ht
          exact plain_leaves _ (Nat.le_refl _) hm hC hE
      have k1 := key c hj f1 e1
      have k2 := key c' (h.sym ▸ hj) f2 e2
      rw [a1] at k1
      rw [b1] at k2
      simp only [List.head?_cons, Option.map_some, ne_eq] at k1 k2
      simp only [Tree.condWide, List.nil_append, Tree.leaves, leavesF, a1, b1, List.cons_append, List.head?_cons, Option.map_some, k1, k2]
      simp

theorem Around.plug_sym {x : Tree} {j : SK} (hx : x.sym = .n j) (C : Around) : ∃ i, (C.plug x).sym = .n i := by
  cases C with
  | hole => exact ⟨j, hx⟩
  | node k _ _ _ => exact ⟨k, rfl⟩

/-- trees with parts that look the same -/
theorem Around.looks {x y : Tree} (h : Looks x y) {j : SK} (hx : x.sym = .n j) (C : Around) (C1 : (C.plug x).Conforms)
    (C2 : (C.plug y).Conforms) (E1 : (C.plug x).hasEmpty = false) (E2 : (C.plug y).hasEmpty = false) :
    Looks (C.plug x) (C.plug y) := by
  induction C with
  | hole => exact h
  | node k pre c post ih =>
    have e1 := E1
    have e2 := E2
    simp only [Around.plug, Tree.hasEmpty, Bool.or_eq_false_iff] at e1 e2
    have := ih (conformsF_mem C1.2 _ (by simp)) (conformsF_mem C2.2 _ (by simp)) (hasEmptyF_mem e1.2 _ (by simp))
      (hasEmptyF_mem e2.2 _ (by simp))
    obtain ⟨i, hi⟩ := c.plug_sym hx
    exact ((LooksF.refl pre).mid this (.refl post)).node k (node_ifs this hi C1 C2 E1 E2)

/-- the layout of a tree with another part in its place -/
theorem Around.swap {x y : Tree} (h : Looks x y) {j : SK} (hx : x.sym = .n j) (C : Around) (C1 : (C.plug x).Conforms)
    (C2 : (C.plug y).Conforms) (E1 : (C.plug x).hasEmpty = false) (E2 : (C.plug y).hasEmpty = false) : ∀ n w m d, ∃ LA n' w' m' d' LB,
    (C.plug x).layout n w m d = LA ++ x.layout n' w' m' d' ++ LB ∧
    (C.plug y).layout n w m d = LA ++ y.layout n' w' m' d' ++ LB ∧
    LA.map (·.2) = C.before ∧ LB.map (·.2) = C.after := by
  induction C with
  | hole => exact fun n w m d => ⟨[], n, w, m, d, [], by simp [Around.plug], by simp [Around.plug], rfl, rfl⟩
  | node k pre c post ih =>
    intro n w m d
    have e1 := E1
    have e2 := E2
    simp only [Around.plug, Tree.hasEmpty, Bool.or_eq_false_iff] at e1 e2
    have f1 : (c.plug x).Conforms := conformsF_mem C1.2 _ (by simp)
    have f2 : (c.plug y).Conforms := conformsF_mem C2.2 _ (by simp)
    have f3 : (c.plug x).hasEmpty = false := hasEmptyF_mem e1.2 _ (by simp)
    have f4 : (c.plug y).hasEmpty = false := hasEmptyF_mem e2.2 _ (by simp)
    obtain ⟨LA, n', w', m', d', LB, e1, e2, e3, e4⟩ := layoutF_swap k n w m (c.looks h hx f1 f2 f3 f4) post pre [] [] d .nil
    obtain ⟨LA', n'', w'', m'', d'', LB', g1, g2, g3, g4⟩ := ih f1 f2 f3 f4 n' w' m' d'
    refine ⟨LA ++ LA', n'', w'', m'', d'', LB' ++ LB, ?_, ?_, ?_, ?_⟩
    · simp only [Around.plug, Tree.layout]; rw [e1, g1]; simp only [List.append_assoc]
    · simp only [Around.plug, Tree.layout]; rw [e2, g2]; simp only [List.append_assoc]
    · rw [List.map_append, e3, g3]; rfl
    · rw [List.map_append, e4, g4]; rfl

end Mofmt
