import Verif.Proofs.Around
import Verif.Proofs.Multi
import Verif.Proofs.Steps
import Verif.Props.Spacing
/-
The layout around an element, an equation or a statement does not depend on what is in it.
-/
namespace Mofmt

/-- the productions from a file down to its elements, equations and statements: a production and its child -/
def pathIn : SK → Sym → Bool
  | .StoredDefinition, .n .ClassDefinition | .ClassDefinition, .n .ClassSpecifier
  | .ClassSpecifier, .n .LongClassSpecifier | .LongClassSpecifier, .n .Composition
  | .Composition, .n .ElementList | .Composition, .n .EquationSection | .Composition, .n .AlgorithmSection
  | .ElementList, .n .Element | .Element, .n .ClassDefinition
  | .EquationSection, .n .Equation | .AlgorithmSection, .n .Statement
  | .Equation, .n .IfEquation | .Equation, .n .ForEquation | .Equation, .n .WhenEquation
  | .Statement, .n .IfStatement | .Statement, .n .ForStatement | .Statement, .n .WhileStatement | .Statement, .n .WhenStatement
  | .IfEquation, .n .Equation | .ForEquation, .n .Equation | .WhenEquation, .n .Equation
  | .IfStatement, .n .Statement | .ForStatement, .n .Statement | .WhileStatement, .n .Statement
  | .WhenStatement, .n .Statement => true
  | _, _ => false

/-- the children on the way -/
def pathSym : Sym → Bool
  | .n .ClassDefinition | .n .ClassSpecifier | .n .LongClassSpecifier | .n .Composition | .n .ElementList
  | .n .EquationSection | .n .AlgorithmSection | .n .Element | .n .Equation | .n .Statement | .n .IfEquation
  | .n .ForEquation | .n .WhenEquation | .n .IfStatement | .n .ForStatement | .n .WhileStatement | .n .WhenStatement => true
  | _ => false

/-- the productions on the way -/
def pathKind : SK → Bool
  | .StoredDefinition => true
  | k => pathSym (.n k)

theorem path_parent : ∀ (k : SK), ((Gram.spec k).syms.all fun s => !pathSym s || pathIn k s) = true := by
  intro k; cases k <;> decide +kernel

theorem pathIn_kind {k : SK} {s : Sym} (h : pathIn k s = true) : pathKind k = true := by
  unfold pathIn at h
  split at h <;> first | rfl | cases h

theorem pathIn_sym {k : SK} {s : Sym} (h : pathIn k s = true) : pathSym s = true := by
  unfold pathIn at h
  split at h <;> first | rfl | cases h

theorem pathIn_n {k : SK} {s : Sym} (h : pathIn k s = true) : ∃ j, s = .n j := by
  unfold pathIn at h
  split at h <;> first | exact ⟨_, rfl⟩ | cases h

/-- all productions around a part are on the way -/
def Around.onPath (s : Tree) : Around → Prop
  | .hole => True
  | .node k _ c _ => pathIn k (c.plug s).sym = true ∧ c.onPath s

theorem Around.path (C : Around) {s : Tree} (hC : (C.plug s).Conforms) (hs : pathSym s.sym = true) :
    C.onPath s ∧ (C ≠ .hole → pathKind (match C with | .node k _ _ _ => k | .hole => .Error) = true) := by
  induction C with
  | hole => exact ⟨trivial, fun h => absurd rfl h⟩
  | node k pre c post ih =>
    have hc : (c.plug s).Conforms := by
      have := hC.2
      rw [conformsF_parts] at this
      exact this.2.1
    obtain ⟨i1, i2⟩ := ih hc
    have hsym : pathSym (c.plug s).sym = true := by
      cases c with
      | hole => exact hs
      | node j pre' c' post' =>
        have h1 := pathIn_kind i1.1
        simp only [Around.plug, Tree.sym]
        revert h1
        cases j <;> first | (intro _; rfl) | skip
        all_goals first | (intro h; cases h; done) | skip
        -- a stored definition is not inside anything
        intro _
        have hm := syms_complete hC.1 (.n .StoredDefinition) (by simp [Around.plug, Tree.sym])
        exfalso
        revert hm
        cases k <;> decide +kernel
    have hm := syms_complete hC.1 (c.plug s).sym (by simp)
    have hp := List.all_eq_true.1 (path_parent k) _ hm
    rw [hsym] at hp
    have hp : pathIn k (c.plug s).sym = true := by simpa using hp
    exact ⟨⟨hp, i1⟩, fun _ => pathIn_kind hp⟩

/-! ### The layout of productions on the way -/

def Tree.longIf (c : Tree) : Bool := spansLines [c] && decide ((c.leaves.head?.map Token.kind) = some .If)

def Tree.lateIn (c : Tree) : Bool := match c.leaves.head? with
  | some t => decide (t.idx > 0)
  | none => false

def endsComma (prev : Option Tree) : Bool := decide ((prev.bind fun d => d.kids.getLast?.map Tree.sym) = some (.t .Comma))

/-- the layout of the children of a production on the way: it does not depend on the children behind; `i` children come
before, the last one is `prev`, `lk` indentations have not been undone -/
def plainF (k : SK) (n : Nat) (prev : Option Tree) (i lk : Nat) (d : Dec) : List Tree → List (Dec × Token)
  | [] => []
  | c :: cs =>
    let l := n + extraIn k (prev.map Tree.sym) c.sym false false (occursF .Description c.kids) c.longIf + lk
    c.layout l false false (d.or ((gapIn k (prev.map Tree.sym) c.sym
        ⟨false, false, c.longIf, false, c.lateIn, endsComma prev, i == 1⟩).at l)) ++
      plainF k n (some c) (i + 1) (lk + (c.leaks + if leakChild k c.sym && c.wraps then 1 else 0)) .none cs

theorem path_table {k : SK} (h : pathKind k = true) : exprPart k = false ∧ (∀ s, operatorIn k s = false) ∧
    (∀ s, chainChild k s = false) ∧ (∀ s a b c, passedIn k s a b c = false) ∧ (∀ m all, brokenIn k m all = false) ∧
    ∀ p s a b c d, extraIn k p s a b c d = extraIn k p s false false c d := by
  revert h
  cases k <;> first
    | (intro h; cases h; done)
    | (intro _
       refine ⟨rfl, fun s => ?_, fun s => ?_, fun s a b c => ?_, fun m all => rfl, fun p s a b c d => ?_⟩
       · rfl
       · rfl
       · rfl
       · first
         | rfl
         | (cases s with
            | t x => cases x <;> rfl
            | n j => cases j <;> rfl))

theorem leaksF_snoc (k : SK) (pre : List Tree) (c : Tree) :
    leaksF k (pre ++ [c]) = leaksF k pre + (c.leaks + if leakChild k c.sym && c.wraps then 1 else 0) := by
  induction pre with
  | nil => simp [leaksF]
  | cons d pre ih => simp only [List.cons_append, leaksF, ih, Nat.add_assoc]

theorem layoutF_plain {k : SK} (hk : pathKind k = true) (n : Nat) (w m : Bool) : ∀ (cs pre : List Tree) (d : Dec),
    layoutF k n w m pre d cs = plainF k n pre.getLast? pre.length (leaksF k pre) d cs
  | [], _, _ => rfl
  | c :: cs, pre, d => by
    obtain ⟨e1, e2, e3, e4, e5, e6⟩ := path_table hk
    have hw : wrappedAt k w pre c cs = false := by rw [wrappedAt, e1]; rfl
    have hl : levelIn k n w pre c cs =
        n + extraIn k (pre.getLast?.map Tree.sym) c.sym false false (occursF .Description c.kids) c.longIf + leaksF k pre := by
      rw [levelIn, extra, hw, e6]
      simp [Tree.longIf]
    have hp : passedAt k m pre c cs = false := e4 ..
    have hg : gapAt k m pre c cs = gapIn k (pre.getLast?.map Tree.sym) c.sym
        ⟨false, false, c.longIf, false, c.lateIn, endsComma pre.getLast?, pre.length == 1⟩ := by
      rw [gapAt, hp, e5, wrapsAt, e2]
      rfl
    have ih := layoutF_plain hk n w m cs (pre ++ [c]) .none
    rw [List.getLast?_concat, List.length_append, leaksF_snoc] at ih
    rw [layoutF, plainF, hl, hw, hp, hg, ih, Bool.and_false]
    rfl

theorem plainF_toks (k : SK) (n : Nat) : ∀ (cs : List Tree) (prev : Option Tree) (i lk : Nat) (d : Dec),
    (plainF k n prev i lk d cs).map (·.2) = leavesF cs
  | [], _, _, _, _ => rfl
  | c :: cs, prev, i, lk, d => by rw [plainF, List.map_append, layout_toks, plainF_toks k n cs, leavesF]

theorem plainF_append (k : SK) (n : Nat) : ∀ (a b : List Tree) (prev : Option Tree) (i lk : Nat) (d : Dec),
    ∃ d', (a = [] → d' = d) ∧ (a ≠ [] → d' = .none) ∧ plainF k n prev i lk d (a ++ b) = plainF k n prev i lk d a ++
      plainF k n (a.getLast?.or prev) (i + a.length) (lk + leaksF k a) d' b
  | [], b, prev, i, lk, d => ⟨d, fun _ => rfl, fun h => absurd rfl h, by simp [plainF, leaksF]⟩
  | c :: a, b, prev, i, lk, d => by
    obtain ⟨d', h1, h2, h3⟩ := plainF_append k n a b (some c) (i + 1)
      (lk + (c.leaks + if leakChild k c.sym && c.wraps then 1 else 0)) .none
    refine ⟨d', (fun h => by cases h), fun _ => ?_, ?_⟩
    · by_cases ha : a = []
      · exact h1 ha
      · exact h2 ha
    · rw [List.cons_append, plainF, plainF, h3, List.append_assoc]
      have e1 : (c :: a).getLast?.or prev = a.getLast?.or (some c) := by
        cases a with
        | nil => rfl
        | cons x a => simp [List.getLast?_cons]
      rw [e1, leaksF, List.length_cons]
      have e2 : i + 1 + a.length = i + (a.length + 1) := by omega
      rw [e2]
      have e3 : ∀ x y z : Nat, lk + (x + y) + z = lk + (x + y + z) := fun x y z => by omega
      rw [e3]

theorem path_gap {k : SK} {s : Sym} (h : pathIn k s = true) :
    (∀ p a b c d, extraIn k p s false false a b = extraIn k p s false false c d) ∧ leakChild k s = false ∧
    (∀ p a c d e a' c', gapIn k p s ⟨false, false, a, false, c, d, e⟩ = gapIn k p s ⟨false, false, a', false, c', d, e⟩) ∧
    ∀ q a c d e d', gapIn k (some s) q ⟨false, false, a, false, c, d, e⟩ =
      gapIn k (some s) q ⟨false, false, a, false, c, d', e⟩ := by
  unfold pathIn at h
  split at h
  all_goals first | (cases h; done) | skip
  all_goals
    refine ⟨fun p a b c d => ?_, rfl, fun p a c d e a' c' => ?_, fun q a c d e d' => ?_⟩
    · first
      | rfl
      | (cases p with
         | none => rfl
         | some q => cases q with
           | t x => cases x <;> rfl
           | n j => cases j <;> rfl)
    · cases p with
      | none => rfl
      | some q => cases q with
        | t x => cases x <;> rfl
        | n j => cases j <;> rfl
    · cases q with
      | t x => cases x <;> rfl
      | n j => cases j <;> rfl

/-- elements, equations and statements -/
def itemSym : Sym → Bool
  | .n .Element | .n .Equation | .n .Statement => true
  | _ => false

/-- what follows an item -/
def semiStep (st : Bool × Bool) (s : Sym) : Bool × Bool := (itemSym s, st.2 && (!st.1 || s == .t .Semicolon))

theorem semi_all (k : SK) : checkG semiStep (fun st => st.2 && !st.1) (Gram.spec k) (false, true) = true := by
  cases k <;> decide +kernel

theorem semi_false : ∀ (w : List Sym) (b : Bool), (w.foldl semiStep (b, false)).2 = false
  | [], _ => rfl
  | s :: w, b => by simp only [List.foldl_cons, semiStep, Bool.false_and]; exact semi_false w _

theorem semi_next {s : Sym} (hs : itemSym s = true) : ∀ {pre post : List Sym} {st : Bool × Bool},
    ((((pre ++ s :: post).foldl semiStep st).2 && !((pre ++ s :: post).foldl semiStep st).1) = true) →
    ∃ post', post = .t .Semicolon :: post'
  | [], [], st, h => by simp [semiStep, hs] at h
  | [], q :: post, st, h => by
    by_cases hq : q = .t .Semicolon
    · exact ⟨post, by rw [hq]⟩
    · have : (semiStep (semiStep st s) q).2 = false := by simp [semiStep, hs, hq]
      simp only [List.nil_append, List.foldl_cons, Bool.and_eq_true] at h
      have e : semiStep (semiStep st s) q = ((semiStep (semiStep st s) q).1, false) := Prod.ext rfl this
      rw [e, semi_false] at h
      exact absurd h.1 (by decide)
  | c :: pre, post, st, h => semi_next hs (pre := pre) h

/-- after an item stands a semicolon -/
theorem item_semi {k : SK} {pre post : List Tree} {s : Tree} (hC : (Tree.node k (pre ++ s :: post)).Conforms)
    (hs : itemSym s.sym = true) : ∃ t post', post = .tok t :: post' ∧ t.kind = .Semicolon := by
  have h := checkG_sound (semi_all k) hC.1
  rw [List.map_append, List.map_cons] at h
  obtain ⟨post', h⟩ := semi_next hs h
  cases post with
  | nil => cases h
  | cons c cs =>
    cases c with
    | node j ds => cases h
    | tok t =>
      simp only [List.map_cons, List.cons.injEq, Tree.sym, Sym.t.injEq] at h
      exact ⟨t, cs, rfl, h.1⟩

theorem item_gap {k : SK} {s : Sym} (h : pathIn k s = true) (hs : itemSym s = true) (F : Facts) :
    gapIn k (some s) (.t .Semicolon) F = .none := by
  unfold pathIn at h
  split at h
  all_goals first | (cases h; done) | (cases hs; done) | rfl

section
variable {f : Token → Token} {δ : Nat} (hf : KeepLay δ f)
include hf

theorem longIf_same (c : Tree) : (c.map f).longIf = c.longIf := longIf_map hf c

omit hf in
theorem endsComma_map (hk : ∀ t, (f t).kind = t.kind) (prev : Option Tree) :
    endsComma (prev.map (Tree.map f)) = endsComma prev := by
  cases prev with
  | none => rfl
  | some d =>
    unfold endsComma
    have : (d.map f).kids.getLast?.map Tree.sym = d.kids.getLast?.map Tree.sym := by
      rw [kids_map, mapTrees_list, List.getLast?_map]
      cases d.kids.getLast? with
      | none => rfl
      | some t => simp [sym_map hk]
    simp only [Option.map_some, Option.bind_some, this]

theorem plainF_map (k : SK) (n : Nat) : ∀ (cs : List Tree) (prev : Option Tree) (i lk : Nat) (d : Dec),
    plainF k n (prev.map (Tree.map f)) i lk d (mapTrees f cs) = (plainF k n prev i lk d cs).map (onSnd f)
  | [], _, _, _, _ => rfl
  | c :: cs, prev, i, lk, d => by
    have ih := plainF_map k n cs (some c) (i + 1) (lk + (c.leaks + if leakChild k c.sym && c.wraps then 1 else 0)) .none
    have hp : (prev.map (Tree.map f)).map Tree.sym = prev.map Tree.sym := by
      cases prev with
      | none => rfl
      | some x => simp [sym_map hf.kind]
    have hg : gapIn k (prev.map Tree.sym) c.sym
        ⟨false, false, c.longIf, false, (c.map f).lateIn, endsComma prev, i == 1⟩ =
        gapIn k (prev.map Tree.sym) c.sym ⟨false, false, c.longIf, false, c.lateIn, endsComma prev, i == 1⟩ := by
      refine gapIn_from fun hs => ?_
      cases c with
      | node j ds => cases hs
      | tok t =>
        simp only [Tree.sym, Sym.t.injEq] at hs
        simp only [Tree.map, Tree.lateIn, Tree.leaves, List.head?_cons]
        exact decide_eq_decide.2 (hf.late t hs)
    rw [mapTrees, plainF, plainF, List.map_append, sym_map hf.kind, hp, longIf_same hf, kids_map, occursF_map,
      leaks_map hf, wraps_map hf, layout_map hf, endsComma_map hf.kind, hg]
    rw [← ih]
    rfl
end

theorem plainF_prev {k : SK} (n : Nat) {x y : Tree} (hp : pathIn k x.sym = true) (hs : y.sym = x.sym) (i lk : Nat) (d : Dec)
    (cs : List Tree) : plainF k n (some x) i lk d cs = plainF k n (some y) i lk d cs := by
  cases cs with
  | nil => rfl
  | cons c cs =>
    rw [plainF, plainF]
    simp only [Option.map_some, hs]
    rw [(path_gap hp).2.2.2 c.sym _ _ (endsComma (some x)) _ (endsComma (some y))]

/-- the layout of a tree with another part in its place -/
theorem Around.layouts {f1 f2 : Token → Token} {d1 d2 : Nat} (h1 : KeepLay d1 f1) (h2 : KeepLay d2 f2) {s s1 s2 : Tree}
    (y1 : s1.sym = s.sym) (y2 : s2.sym = s.sym) (hl : s1.leaks = s2.leaks) (C : Around) :
    (C.plug s).Conforms → C.onPath s →
    ((C.map id f1).plug s1).leaks = ((C.map id f2).plug s2).leaks ∧
    ∀ n w m d, ∃ LA n' w' m' d' LB,
      ((C.map id f1).plug s1).layout n w m d = LA ++ s1.layout n' w' m' d' ++ LB.map (onSnd f1) ∧
      ((C.map id f2).plug s2).layout n w m d = LA ++ s2.layout n' w' m' d' ++ LB.map (onSnd f2) ∧
      LA.map (·.2) = C.before ∧ LB.map (·.2) = C.after ∧
      (C = .hole → LB = []) ∧ (itemSym s.sym = true → C ≠ .hole → ∃ t LB', LB = (.none, t) :: LB') := by
  induction C with
  | hole => exact fun _ _ => ⟨hl, fun n w m d => ⟨[], n, w, m, d, [], by simp [Around.map, Around.plug],
      by simp [Around.map, Around.plug], rfl, rfl, fun _ => rfl, fun _ h => absurd rfl h⟩⟩
  | node k pre c post ih =>
    intro hC hP
    have hc : (c.plug s).Conforms := by
      have := hC.2
      rw [conformsF_parts] at this
      exact this.2.1
    obtain ⟨i1, i2⟩ := ih hc hP.2
    have hp := hP.1
    have hk := pathIn_kind hp
    have e1 : ((c.map id f1).plug s1).sym = (c.plug s).sym := Around.sym_map c y1
    have e2 : ((c.map id f2).plug s2).sym = (c.plug s).sym := Around.sym_map c y2
    obtain ⟨q1, q2, q3, q4⟩ := path_gap hp
    have hid : mapTrees id pre = pre := mapF_same pre fun _ _ => rfl
    have hleaks : ∀ (g : Token → Token) (δ : Nat), KeepLay δ g → ∀ x : Tree, x.sym = (c.plug s).sym →
        leaksF k (pre ++ x :: mapTrees g post) = leaksF k pre + x.leaks + leaksF k post := by
      intro g δ hg x hx
      have : ∀ a b : List Tree, leaksF k (a ++ b) = leaksF k a + leaksF k b := by
        intro a b
        induction a with
        | nil => simp [leaksF]
        | cons y a ih => simp only [List.cons_append, leaksF, ih]; omega
      rw [this, leaksF, leaksF_map hg, hx, q2]
      simp [Nat.add_assoc]
    refine ⟨?_, fun n w m d => ?_⟩
    · simp only [Around.map, Around.plug, Tree.leaks, hid]
      rw [hleaks f1 d1 h1 _ e1, hleaks f2 d2 h2 _ e2, i1]
    · obtain ⟨j, hj⟩ : ∃ j, (c.plug s).sym = .n j := by
        exact pathIn_n hp
      let l := n + extraIn k (pre.getLast?.map Tree.sym) (c.plug s).sym false false false false + leaksF k pre
      obtain ⟨dd, _, _, hd⟩ : ∃ dd, (pre = [] → dd = d) ∧ (pre ≠ [] → dd = Dec.none) ∧ ∀ b,
          plainF k n none 0 0 d (pre ++ b) = plainF k n none 0 0 d pre ++
            plainF k n pre.getLast? pre.length (leaksF k pre) dd b := by
        refine ⟨if pre = [] then d else .none, (fun h => by rw [if_pos h]), (fun h => by rw [if_neg h]), fun b => ?_⟩
        obtain ⟨d', g1, g2, g3⟩ := plainF_append k n pre b none 0 0 d
        have : d' = if pre = [] then d else .none := by
          split
          · exact g1 ‹_›
          · exact g2 ‹_›
        rw [g3, this]
        simp
      let D := dd.or ((gapIn k (pre.getLast?.map Tree.sym) (c.plug s).sym
        ⟨false, false, false, false, false, endsComma pre.getLast?, pre.length == 1⟩).at l)
      obtain ⟨LA, n', w', m', d', LB, k1, k2, k4, k5, k0, k3⟩ := i2 l false false D
      have step : ∀ (g : Token → Token) (δ : Nat), KeepLay δ g → ∀ x : Tree, x.sym = (c.plug s).sym →
          (Tree.node k (pre ++ x :: mapTrees g post)).layout n w m d =
            plainF k n none 0 0 d pre ++ x.layout l false false D ++
              (plainF k n (some (.node j [])) (pre.length + 1) (leaksF k pre + x.leaks) .none post).map (onSnd g) := by
        intro g δ hg x hx
        rw [Tree.layout, layoutF_plain hk]
        simp only [List.getLast?_nil, List.length_nil, leaksF]
        rw [hd, plainF]
        simp only [hx, q2]
        rw [q1 _ _ _ false false, q3 _ _ _ _ _ false false, ← plainF_map hg]
        have hpx : pathIn k x.sym = true := by rw [hx]; exact hp
        rw [plainF_prev n hpx (y := .node j []) (by rw [hx, hj]; rfl)]
        simp only [Bool.false_and, Bool.false_eq_true, if_false, Nat.add_zero, List.append_assoc]
        rfl
      refine ⟨plainF k n none 0 0 d pre ++ LA, n', w', m', d', LB ++
        plainF k n (some (.node j [])) (pre.length + 1) (leaksF k pre + ((c.map id f1).plug s1).leaks) .none post, ?_, ?_, ?_, ?_, (fun h => by cases h), ?_⟩
      · simp only [Around.map, Around.plug, hid]
        rw [step f1 d1 h1 _ e1, k1]
        simp [List.append_assoc]
      · simp only [Around.map, Around.plug, hid]
        rw [step f2 d2 h2 _ e2, k2, i1]
        simp [List.append_assoc]
      · rw [List.map_append, plainF_toks, k4]; rfl
      · rw [List.map_append, plainF_toks, k5]; rfl
      · intro hi _
        by_cases hh : c = .hole
        · subst hh
          obtain ⟨t, post', rfl, ht⟩ := item_semi (s := s) hC hi
          rw [k0 rfl, List.nil_append, plainF]
          simp only [Around.plug] at hj hp
          have hg := fun F => item_gap hp hi F
          rw [hj] at hg
          simp only [Option.map_some, Tree.sym, ht, hg, Tree.layout]
          exact ⟨t, _, rfl⟩
        · obtain ⟨t, LB', rfl⟩ := k3 hi hh
          exact ⟨t, _, rfl⟩

end Mofmt
