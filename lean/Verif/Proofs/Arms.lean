import Verif.Proofs.Pair
/-
Formatting tokens that have been moved: the children of a tree.
-/
namespace Mofmt
open Lexical (newlines)

/-- arms that depend on whether an `if` expression is on several lines -/
def miArm (s : Sym) : Bool := s == .n .Expression || s == .n .ModificationExpression || s == .n .FunctionArgument

/-- arms that depend on whether the next operand is on another line -/
def nkArm : SK → Sym → Bool
  | .LogicalExpression, .t .Or => true
  | .LogicalTerm, .t .And => true
  | .Factor, .t .Flex => true
  | .Factor, .t .DotFlex => true
  | .Relation, .n .RelationalOperator => true
  | .ArithmeticExpression, .n .AddOperator => true
  | .Term, .n .MulOperator => true
  | _, _ => false

def rdyArm : Sym → Bool
  | .n k => readyKinds.contains k
  | .t _ => false

/-- the condition `tokIdxPos` is known -/
def wiArm (s : Sym) : Bool := s == .t .Within

def armOk (fn : SK) (pos : Bool) (s : Sym) : Bool :=
  (fn == .ShortClassSpecifier && s == .n .EnumList) ||
  pairOk (wiArm s) (miArm s) (nkArm fn s) (rdyArm s) s pos false false (upCmd (Fmt.body fn) s)

theorem arms_first : ∀ fn, ∀ s ∈ (Gram.spec fn).first, armOk fn false s = true := by
  intro fn; cases fn <;> decide +kernel

theorem arms_syms : ∀ fn, ∀ s ∈ (Gram.spec fn).syms, armOk fn true s = true := by
  intro fn; cases fn <;> decide +kernel

variable {φ : Token → Token}

/-! ### Operators -/

theorem pendAfter_append (p : Pend) (a b : List TEv) : pendAfter p (a ++ b) = pendAfter (pendAfter p a) b := by
  induction a generalizing p with
  | nil => rfl
  | cons e a ih => cases e <;> exact ih _

theorem lastT_of_one {es : List TEv} {t : Token} (h : toks es = [t]) (q : Option Token) : lastT q es = some t := by
  induction es generalizing q with
  | nil => simp [toks] at h
  | cons e es ih =>
    cases e with
    | tok u =>
      simp only [toks, List.cons.injEq] at h
      obtain ⟨rfl, h⟩ := h
      exact lastT_of_nil h _
    | _ => exact ih h _

theorem pendAfter_ind {es : List TEv} (h : ∀ e ∈ es, e.ind = true) (p : Pend) : pendAfter p es = p := by
  induction es with
  | nil => rfl
  | cons e es ih =>
    have h1 := h e List.mem_cons_self
    cases e <;> simp [TEv.ind] at h1 <;> exact ih (fun e he => h e (List.mem_cons_of_mem _ he))

/-- the block before an operator -/
theorem wrapBefore_events {sub : SK → Args → Option Token → Res (Bool × List TEv)} {cx : Ctx} {r r' : Regs}
    {q : Option Token} {es : List TEv} (hnt : ∃ k ds rest, cx.rest = .node k ds :: rest)
    (h : trF sub cx Fmt.wrapBefore r q = .ok (r', es)) :
    ∃ b t i, nb cx q = .ok b ∧ (∀ e ∈ i, e.ind = true) ∧
      es = i ++ [if b then .brk t .Illegal else .space] := by
  obtain ⟨k, ds, rest, hr⟩ := hnt
  have h0 : evalFC cx r (fsOf q) .nextTree = .ok true := by simp only [evalFC, hr]
  simp only [Fmt.wrapBefore, FCmd.when, fblk] at h
  rw [trF, h0, Res.bind_ok, if_pos rfl] at h
  obtain ⟨⟨r1, e1⟩, h1, h⟩ := Res.bind_eq_ok.1 h
  obtain ⟨⟨r2, e2⟩, h2, h⟩ := Res.bind_eq_ok.1 h
  cases h
  obtain ⟨b, h3, h1⟩ := Res.bind_eq_ok.1 h1
  cases h1
  have hb : nb cx q = .ok b := h3
  cases hw : r.w <;> cases b <;>
    simp [trF, evalFC, Regs.set, Regs.get, hw, Res.bind_eq_ok] at h2
  · obtain ⟨_, _, h2⟩ := h2
    exact ⟨false, default, [], hb, by simp, by simp [← h2]⟩
  · obtain ⟨_, _, ⟨t, _, _, h4⟩, _, h5⟩ := h2
    subst h4; subst h5
    exact ⟨true, t, [.indent], hb, by simp [TEv.ind], rfl⟩
  · obtain ⟨_, _, h2⟩ := h2
    exact ⟨false, default, [], hb, by simp, by simp [← h2]⟩
  · obtain ⟨t, h2, h4, h5⟩ := h2
    subst h5
    exact ⟨true, t, [], hb, by simp, rfl⟩

/-- events around an operator -/
structure OpEvents (cx : Ctx) (c : Tree) (q : Option Token) (es : List TEv) : Prop where
  ex : ∃ b t i oe, nb cx q = .ok b ∧ (∀ e ∈ i, e.ind = true) ∧ toks oe = c.leaves ∧
    es = i ++ (if b then TEv.brk t .Illegal else .space) :: (oe ++ [.space])

theorem opArm_events {sub : SK → Args → Option Token → Res (Bool × List TEv)} {cx : Ctx} {c : Tree}
    (hc : cx.cur = some c) (hsub : ∀ fn a q w es, c.sym = .n fn → sub fn a q = .ok (w, es) → toks es = c.leaves)
    {P : FCmd} (ho : once c.sym P false = some true) {r r' : Regs} {q : Option Token} {es : List TEv}
    (hnt : ∃ k ds rest, cx.rest = .node k ds :: rest)
    (h : trF sub cx (fblk [Fmt.wrapBefore, P, .space]) r q = .ok (r', es)) : OpEvents cx c q es := by
  obtain ⟨⟨r1, e1⟩, h1, h⟩ := Res.bind_eq_ok.1 h
  obtain ⟨⟨r2, e2⟩, h2, h⟩ := Res.bind_eq_ok.1 h
  cases h
  obtain ⟨⟨r3, e3⟩, h3, h2⟩ := Res.bind_eq_ok.1 h2
  obtain ⟨⟨r4, e4⟩, h4, h2⟩ := Res.bind_eq_ok.1 h2
  cases h2
  cases h4
  obtain ⟨b, t, i, g1, g2, rfl⟩ := wrapBefore_events hnt h1
  have := once_toks hc hsub ho h3
  exact ⟨b, t, i, e3, g1, g2, by simpa using this.2, by simp⟩

theorem addArm_events {sub : SK → Args → Option Token → Res (Bool × List TEv)} {cx : Ctx} {c : Tree}
    (hc : cx.cur = some c) (hsub : ∀ fn a q w es, c.sym = .n fn → sub fn a q = .ok (w, es) → toks es = c.leaves)
    {P : FCmd} (ho : once c.sym P false = some true) {r r' : Regs} {q : Option Token} {es : List TEv}
    (hnt : ∃ k ds rest, cx.rest = .node k ds :: rest) (hi : cx.idx > 0)
    (h : trF sub cx (fblk [.when (.idxGt 0) Fmt.wrapBefore, P, .when (.idxGt 0) .space]) r q = .ok (r', es)) :
    OpEvents cx c q es := by
  have he : ∀ r q, evalFC cx r (fsOf q) (.idxGt 0) = .ok true := by intro r q; simp [evalFC, hi]
  refine opArm_events hc hsub ho hnt (r := r) (r' := r') ?_
  simp only [fblk, FCmd.when, trF] at h ⊢
  simp only [he, Res.bind_ok, if_true] at h
  exact h

/-- After an operator the next operand is below if and only if it was. -/
theorem OpEvents.below {cx : Ctx} {c : Tree} {op : Token} {q : Option Token} {es es2 : List TEv} {p : Pend}
    (h : OpEvents cx c q es) (hl : c.leaves = [op]) (hn : newlines op.text = 0)
    {d : Tree} {rest : List Tree} (hr : cx.rest = d :: rest) (h2 : toks es2 = d.leaves) (hd : d.hasEmpty = false)
    (hT : Track φ q p (es ++ es2)) : ∀ b, nb cx q = .ok b → nb (cx.map φ) (q.map φ) = .ok b := by
  intro b hb
  obtain ⟨b', t, i, oe, g1, g2, g3, rfl⟩ := h.ex
  rw [hb] at g1
  cases g1
  obtain ⟨x, hx1, hx2⟩ : ∃ x xs, d.leaves = x :: xs ∧ d.start? = some x := start_leaves d hd
  obtain ⟨hx2, hx3⟩ := hx2
  have hnb : nb (cx.map φ) (q.map φ) = .ok (decide ((φ x).start.line > lineOf (q.map φ))) := by
    have : (cx.map φ).target .next = .ok (φ x) := target_move (t := .next) (by simp [Ctx.target, hr, startTok, hx3])
    simp only [nb, evalFC, this, Res.bind_ok]
    rfl
  rw [hnb]
  rw [hl] at g3
  rw [List.append_assoc, Track.append, ind_lastT g2, pendAfter_ind g2] at hT
  obtain ⟨-, hT⟩ := hT
  rw [List.cons_append, List.append_assoc] at hT
  have key : ∀ {p : Pend}, Track φ q p (oe ++ ([.space] ++ es2)) → (φ x).start.line = (φ op).stop.line := by
    intro p hT
    rw [Track.append, Track.append, lastT_of_one g3] at hT
    have := hT.2.2.beside (t := x) (by rw [h2, hx2])
    simpa [lastT, lineOf] using this
  have stop : ∀ {p : Pend} {oe es : List TEv} {q : Option Token}, toks oe = [op] → Track φ q p (oe ++ es) →
      (φ op).stop.line = (φ op).start.line + newlines op.text := by
    intro p oe
    induction oe generalizing p with
    | nil => intro es q h; simp [toks] at h
    | cons e oe ih =>
      intro es q h hT
      cases e with
      | tok u =>
        simp only [toks, List.cons.injEq] at h
        obtain ⟨rfl, h⟩ := h
        exact hT.2.1
      | space => exact ih h hT.2
      | brk _ _ => exact ih h hT.2
      | indent => exact ih h hT
      | dedent => exact ih h hT
  cases b
  · simp only [Bool.false_eq_true, if_false] at hT
    have hT := hT.2
    have h3 := key hT
    have h4 := stop g3 hT
    have h5 := (Track.append.1 hT).1.beside g3
    simp only [Res.ok.injEq, decide_eq_false_iff_not]
    omega
  · simp only [if_true] at hT
    have hT := hT.2
    have h3 := key hT
    have h4 := stop g3 hT
    have h5 := (Track.append.1 hT).1.below op (by simp [g3])
    simp only [Res.ok.injEq, decide_eq_true_eq]
    omega

/-! ### The call within an arm -/

/-- all calls have `is_multiline` false -/
def plainCalls : FCmd → Bool
  | .seq a b => plainCalls a && plainCalls b
  | .ite _ a b => plainCalls a && plainCalls b
  | .call _ m _ _ _ => m == .false
  | _ => true

theorem once_call {sub : SK → Args → Option Token → Res (Bool × List TEv)} {cx : Ctx} {k : SK} :
    ∀ {cmd : FCmd} {r r' : Regs} {q : Option Token} {es : List TEv},
    once (.n k) cmd false = some true → trF sub cx cmd r q = .ok (r', es) →
    ∃ pre es' post a w, es = pre ++ es' ++ post ∧ sub k a (lastT q pre) = .ok (w, es') ∧
      (plainCalls cmd = true → a.m = false) := by
  intro cmd
  induction cmd with
  | seq a b ih1 ih2 =>
    intro r r' q es ho h
    obtain ⟨⟨r1, e1⟩, h1, h⟩ := Res.bind_eq_ok.1 h
    obtain ⟨⟨r2, e2⟩, h2, h⟩ := Res.bind_eq_ok.1 h
    cases h
    simp only [once, Option.bind_eq_some_iff] at ho
    obtain ⟨em, o1, o2⟩ := ho
    cases em
    · obtain ⟨pre, es', post, a', w, rfl, h3, h4⟩ := ih2 o2 h2
      exact ⟨e1 ++ pre, es', post, a', w, by simp, by rw [lastT_append]; exact h3,
        fun hp => h4 (by simp [plainCalls] at hp; exact hp.2)⟩
    · obtain ⟨pre, es', post, a', w, rfl, h3, h4⟩ := ih1 o1 h1
      exact ⟨pre, es', post ++ e2, a', w, by simp, h3, fun hp => h4 (by simp [plainCalls] at hp; exact hp.1)⟩
  | ite g a b ih1 ih2 =>
    intro r r' q es ho h
    simp only [once] at ho
    obtain ⟨t, h1, h⟩ := Res.bind_eq_ok.1 h
    split at ho
    · rename_i heq
      cases t
      · obtain ⟨pre, es', post, a', w, rfl, h3, h4⟩ := ih2 (by rw [← heq]; exact ho) h
        exact ⟨pre, es', post, a', w, rfl, h3, fun hp => h4 (by simp [plainCalls] at hp; exact hp.2)⟩
      · obtain ⟨pre, es', post, a', w, rfl, h3, h4⟩ := ih1 ho h
        exact ⟨pre, es', post, a', w, rfl, h3, fun hp => h4 (by simp [plainCalls] at hp; exact hp.1)⟩
    · cases ho
  | call fn m w o keep =>
    intro r r' q es ho h
    simp only [once] at ho
    split at ho
    · rename_i hs
      cases hs
      obtain ⟨m', h1, h⟩ := Res.bind_eq_ok.1 h
      obtain ⟨w', h2, h⟩ := Res.bind_eq_ok.1 h
      obtain ⟨o', h3, h⟩ := Res.bind_eq_ok.1 h
      obtain ⟨⟨x, ee⟩, h4, h⟩ := Res.bind_eq_ok.1 h
      simp only [Res.ok.injEq, Prod.mk.injEq] at h
      obtain ⟨-, rfl⟩ := h
      refine ⟨[], ee, [], _, x, by simp, h4, fun hp => ?_⟩
      simp only [plainCalls, beq_iff_eq] at hp
      subst hp
      cases h1
      rfl
    · cases ho
  | _ => intro r r' q es ho; simp [once] at ho

/-! ### `if` expressions -/

/-- kinds that do not begin with `if` -/
def noIfKinds : List SK := [
  .SimpleExpression, .LogicalExpression, .LogicalTerm, .LogicalFactor, .Relation, .ArithmeticExpression, .AddOperator,
  .Term, .Factor, .Primary, .ComponentReference, .FunctionPartialApplication]

theorem noIf_closed : ∀ k ∈ noIfKinds, ∀ s ∈ (Gram.spec k).first,
    s ≠ .t .If ∧ ∀ j, s = .n j → j ∈ noIfKinds := by
  have : (noIfKinds.all fun k => (Gram.spec k).first.all fun s => match s with
    | .t x => x != .If
    | .n j => noIfKinds.contains j) = true := by decide +kernel
  intro k hk s hs
  have := List.all_eq_true.1 (List.all_eq_true.1 this k hk) s hs
  refine ⟨?_, ?_⟩
  · rintro rfl; simp at this
  · rintro j rfl; exact List.contains_iff_mem.mp this

theorem start_noIf (c : Tree) (hC : c.Conforms) (h0 : c.sym ≠ .t .If) (hk : ∀ j, c.sym = .n j → j ∈ noIfKinds) :
    ∀ t, c.start? = some t → t.kind ≠ .If := by
  intro t ht
  match c with
  | .tok u =>
    simp only [Tree.start?, Option.some.injEq] at ht
    subst ht
    intro h
    exact h0 (by simp [Tree.sym, h])
  | .node k [] => simp [Tree.start?, startOf] at ht
  | .node k (d :: ds) =>
    have hf := noIf_closed k (hk k rfl) d.sym (first_complete (u := ds.map Tree.sym) (by simpa using hC.1))
    exact start_noIf d hC.2.1 hf.1 hf.2 t ht
termination_by sizeOf c

theorem expr_if {cs : List Tree} (hC : Tree.Conforms (.node .Expression cs)) {t : Token}
    (ht : startOf cs = some t) (hk : t.kind = .If) : ∃ ds, cs = .tok t :: ds := by
  cases cs with
  | nil => simp [startOf] at ht
  | cons d ds =>
    have hf : d.sym ∈ (Gram.spec .Expression).first := first_complete (u := ds.map Tree.sym) (by simpa using hC.1)
    have hff : ∀ s ∈ (Gram.spec .Expression).first, s = .t .If ∨ s = .n .SimpleExpression := by decide
    have ht : d.start? = some t := ht
    rcases hff _ hf with h | h
    · cases d with
      | node k es => simp [Tree.sym] at h
      | tok u =>
        simp only [Tree.start?, Option.some.injEq] at ht
        subst ht
        exact ⟨ds, rfl⟩
    · refine absurd hk (start_noIf d hC.2.1 (by rw [h]; simp) ?_ t ht)
      intro j hj
      rw [h] at hj
      cases hj
      decide

/-- formatting of `if` expressions -/
theorem expr_if_events {cs : List Tree} (hC : Tree.Conforms (.node .Expression cs))
    (hE : Tree.hasEmpty (.node .Expression cs) = false) (hS : SrcOK (leavesF cs)) {t : Token}
    (ht : startOf cs = some t) (hk : t.kind = .If) {a : Args} (ha : a.m = false) {q : Option Token} {w : Bool}
    {es : List TEv} (h : subOf (.node .Expression cs) .Expression a q = .ok (w, es)) :
    (isMultiline cs = .ok true → Interior es) ∧ (isMultiline cs = .ok false → NoBrk es) := by
  have hE' := hE
  simp only [Tree.hasEmpty, Bool.or_eq_false_iff, List.isEmpty_eq_false_iff] at hE
  constructor
  · intro hm
    obtain ⟨r1, e1, ess, r2, r3, e3, h1, h2, h3, h4, h5, i1, i3⟩ := trTree_inv h
    have hr : r1.m = true := by
      have h1' : trF noSub { all := cs } (.seq (.set .m .treeMulti) (.set .c .false)) { m := a.m, w := a.w, o := a.o } q
        = .ok (r1, e1) := h1
      simp only [trF, evalFC, hm, Res.bind_ok, Res.ok.injEq, Prod.mk.injEq, Regs.set] at h1'
      rw [← h1'.1]
    obtain ⟨ds, rfl⟩ := expr_if hC ht hk
    have hw := hC.1
    simp only [List.map_cons, Tree.sym, hk] at hw
    have := if_word hw
    obtain ⟨a', u, b, d, g1, g2, g3⟩ := steps_interior hC hE.2 h2 (by simpa [Tree.sym, hk] using this) hr
    refine ⟨e1 ++ a', u, b, d ++ e3, ?_, ?_, ?_⟩
    · rw [h5, g1]; simp
    · rw [toks_append]; simp [g2]
    · rw [toks_append]; simp [g3]
  · intro hm
    obtain ⟨l, hl⟩ := onLine_of_single hE.1 hE.2 hS hm
    exact (calm _ hC hE' l hl (fun k' cs' he => by cases he; exact expr_unforced (by decide) hC) .Expression a q w es rfl
      (by decide) ha h).1

theorem plain_all : ∀ fn, ∀ s ∈ (Gram.spec fn).syms, miArm s = true → plainCalls (upCmd (Fmt.body fn) s) = true := by
  intro fn; cases fn <;> decide

theorem wrapper_words : ∀ k, k = .ModificationExpression ∨ k = .FunctionArgument → ∀ w, Lang (Gram.spec k) w →
    w = [.n .Expression] ∨ w = [.t .Break] ∨ w = [.n .FunctionPartialApplication] := by
  rintro k (rfl | rfl) w h
  · have h : Lang (.alt (.sym (.n .Expression)) (.sym (.t .Break))) w := h
    rcases lang_alt.1 h with h | h
    · exact .inl (lang_sym.1 h)
    · exact .inr (.inl (lang_sym.1 h))
  · have h : Lang (.alt (.sym (.n .FunctionPartialApplication)) (.sym (.n .Expression))) w := h
    rcases lang_alt.1 h with h | h
    · exact .inr (.inr (lang_sym.1 h))
    · exact .inl (lang_sym.1 h)

/-- what begins with `if` consists of an `if` expression -/
theorem if_events {k : SK} (hmi : miArm (.n k) = true) {cs : List Tree} (hC : Tree.Conforms (.node k cs))
    (hE : Tree.hasEmpty (.node k cs) = false) (hS : SrcOK (leavesF cs)) {t : Token}
    (ht : startOf cs = some t) (hk : t.kind = .If) {a : Args} (ha : a.m = false) {q : Option Token} {w : Bool}
    {es : List TEv} (h : subOf (.node k cs) k a q = .ok (w, es)) :
    (isMultiline cs = .ok true → Interior es) ∧ (isMultiline cs = .ok false → NoBrk es) := by
  simp only [miArm, Bool.or_eq_true, beq_iff_eq, Sym.n.injEq] at hmi
  rcases hmi with (rfl | hmi) | hmi
  · exact expr_if_events hC hE hS ht hk ha h
  all_goals
    have hw := wrapper_words k (by simp [hmi]) _ hC.1
    obtain ⟨c, rfl⟩ : ∃ c, cs = [c] := by
      cases cs with
      | nil => simp at hw
      | cons c cs => cases cs with
        | nil => exact ⟨c, rfl⟩
        | cons d cs => simp at hw
    have hc : c.sym = .n .Expression := by
      simp only [List.map_cons, List.map_nil, List.cons.injEq, and_true] at hw
      rcases hw with h1 | h1 | h1
      · exact h1
      · refine absurd hk (start_noIf c hC.2.1 (by rw [h1]; simp) (by intro j hj; rw [h1] at hj; cases hj) t ht)
      · refine absurd hk (start_noIf c hC.2.1 (by rw [h1]; simp)
          (by intro j hj; rw [h1] at hj; cases hj; decide) t ht)
    cases c with
    | tok u => simp [Tree.sym] at hc
    | node j ds =>
      simp only [Tree.sym, Sym.n.injEq] at hc
      subst hc
      simp only [Tree.hasEmpty, hasEmptyF, Bool.or_eq_false_iff, and_true] at hE
      have hm : isMultiline [.node .Expression ds] = isMultiline ds := rfl
      rw [hm]
      obtain ⟨r1, e1, ess, r2, r3, e3, h1, h2, h3, h4, h5, i1, i3⟩ := trTree_inv h
      cases h2 with
      | cons g1 g2 =>
        cases g2
        subst hmi
        obtain ⟨m', k1, g1⟩ := Res.bind_eq_ok.1 g1
        obtain ⟨w', k2, g1⟩ := Res.bind_eq_ok.1 g1
        obtain ⟨o', k3, g1⟩ := Res.bind_eq_ok.1 g1
        obtain ⟨⟨y, ee⟩, k4, g1⟩ := Res.bind_eq_ok.1 g1
        simp only [Res.ok.injEq, Prod.mk.injEq] at g1
        obtain ⟨-, rfl⟩ := g1
        cases k1
        have := expr_if_events hC.2.1 (by simpa [Tree.hasEmpty] using hE.2) (by simpa [leavesF, Tree.leaves] using hS) ht hk
          (a := ⟨_, w', o'⟩) rfl k4
        subst h5
        refine ⟨fun hm => ?_, fun hm => ?_⟩
        · obtain ⟨a', u, b, d, g1, g2, g3⟩ := this.1 hm
          refine ⟨e1 ++ a', u, b, d ++ e3, ?_, ?_, ?_⟩
          · rw [g1]; simp
          · rw [toks_append]; simp [g2]
          · rw [toks_append]; simp [g3]
        · simpa using ((ind_noBrk i1).append (this.2 hm)).append (ind_noBrk i3)

end Mofmt
