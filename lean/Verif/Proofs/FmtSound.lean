import Verif.Proofs.Trace
import Verif.Proofs.FmtAbs
/-
Soundness of the symbolic execution of the formatting functions.
-/
namespace Mofmt

/-! ### Small facts -/

theorem chk_all {T : Tabs} {β : Type} : ∀ {l : List β} {f : β → Bool},
    (Alg.chk T).all l f = true ↔ ∀ x ∈ l, f x = true
  | [], f => by simp [Alg.all, Alg.chk]
  | [x], f => by simp [Alg.all]
  | x :: y :: l, f => by
    have : (Alg.chk T).all (x :: y :: l) f = (f x && (Alg.chk T).all (y :: l) f) := rfl
    rw [this, Bool.and_eq_true, chk_all]
    simp

theorem chk_both {T : Tabs} {a b : Bool} : (Alg.chk T).both a b = true ↔ a = true ∧ b = true := by
  simp [Alg.chk]
theorem chk_bad {T : Tabs} : (Alg.chk T).bad = false := rfl
theorem chk_good {T : Tabs} : (Alg.chk T).good = true := rfl

theorem subset_has {m p : KSet} {k : Tok} (h : subset m p = true) (hk : m.has k = true) :
    p.has k = true := by
  simp [subset] at h
  have := KSet.has_diff m p k
  rw [h, KSet.has_zero, hk] at this
  simpa using this

/-! ### Trees without empty productions -/

mutual
theorem start_leaves (t : Tree) (h : t.hasEmpty = false) :
    ∃ x xs, t.leaves = x :: xs ∧ t.start? = some x := by
  match t with
  | .tok x => exact ⟨x, [], rfl, rfl⟩
  | .node k cs =>
    simp only [Tree.hasEmpty, Bool.or_eq_false_iff] at h
    simp only [Tree.leaves, Tree.start?]
    exact startF_leaves cs (by simpa using h.1) h.2
theorem startF_leaves (cs : List Tree) (hne : cs ≠ []) (h : hasEmptyF cs = false) :
    ∃ x xs, leavesF cs = x :: xs ∧ startOf cs = some x := by
  match cs with
  | [] => exact absurd rfl hne
  | c :: cs =>
    simp only [hasEmptyF, Bool.or_eq_false_iff] at h
    obtain ⟨x, xs, h1, h2⟩ := start_leaves c h.1
    exact ⟨x, xs ++ leavesF cs, by simp [leavesF, h1], by simp [startOf, h2]⟩
end

mutual
theorem end_leaves (t : Tree) (h : t.hasEmpty = false) :
    ∃ x, t.leaves.getLast? = some x ∧ t.end? = some x := by
  match t with
  | .tok x => exact ⟨x, rfl, rfl⟩
  | .node k cs =>
    simp only [Tree.hasEmpty, Bool.or_eq_false_iff] at h
    simp only [Tree.leaves, Tree.end?]
    exact endF_leaves cs (by simpa using h.1) h.2
theorem endF_leaves (cs : List Tree) (hne : cs ≠ []) (h : hasEmptyF cs = false) :
    ∃ x, (leavesF cs).getLast? = some x ∧ endOf cs = some x := by
  match cs with
  | [] => exact absurd rfl hne
  | [c] =>
    simp only [hasEmptyF, Bool.or_eq_false_iff] at h
    obtain ⟨x, h1, h2⟩ := end_leaves c h.1
    exact ⟨x, by simp [leavesF, h1], by simp [endOf, h2]⟩
  | c :: d :: cs =>
    simp only [hasEmptyF, Bool.or_eq_false_iff] at h
    obtain ⟨x, h1, h2⟩ := endF_leaves (d :: cs) (by simp) (by simp [hasEmptyF, h.2])
    refine ⟨x, ?_, by simpa [endOf] using h2⟩
    rw [leavesF, List.getLast?_append, h1]; rfl
end

theorem isMultiline_ok {cs : List Tree} (hne : cs ≠ []) (h : hasEmptyF cs = false) :
    ∃ b, isMultiline cs = .ok b := by
  obtain ⟨x, xs, _, h1⟩ := startF_leaves cs hne h
  obtain ⟨y, _, h2⟩ := endF_leaves cs hne h
  simp [isMultiline, h1, h2]

/-! ### What is known in one iteration -/

/-- The abstract context describes the context; `lc` are the tokens of the current child, `after` the
tokens after the whole tree. -/
structure CtxOK (cx : ACtx) (C : Ctx) (lc after : List Token) : Prop where
  cur : cx.cur = C.cur.map Tree.sym
  nxt : cx.nxt = C.rest.head?.map Tree.sym
  idx : cx.idx = min C.idx 4
  len : cx.T = 9 ∨ cx.T = min C.all.length 4
  allNe : C.all ≠ []
  allE : hasEmptyF C.all = false
  curE : ∀ t, C.cur = some t → t.hasEmpty = false ∧ t.leaves = lc
  restE : hasEmptyF C.rest = false

def todoOf (C : Ctx) (lc after : List Token) (em : Bool) : List Token :=
  (if em then [] else lc) ++ (leavesF C.rest ++ after)

/-- The abstract state describes the state: with `q` printed last, `d` pending, indentation `n`; `n0` is the
indentation at the start of the function. -/
structure Conc (flat : Bool) (cx : ACtx) (C : Ctx) (n0 : Nat) (a : FAbs) (r : Regs)
    (q : Option Token) (d : Dec) (n : Nat) : Prop where
  gap : d.gap = a.gap
  prev : a.prev.has (kindOf q) = true
  lo : n0 + a.lo ≤ n
  hi : flat = true → n ≤ n0 + a.hi
  regs : a.r = r
  nb : flat = true → binKind cx.fn = true → cx.idx > 0 → a.em = false →
    ∀ u, C.target .next = .ok u → u.start.line ≤ lineOf q

theorem Conc.setPrev {flat : Bool} {cx : ACtx} {C : Ctx} {n0 : Nat} {a : FAbs}
    {r : Regs} {q : Option Token} {d : Dec} {n : Nat} (h : Conc flat cx C n0 a r q d n)
    (p : KSet) (hp : p.has (kindOf q) = true) : Conc flat cx C n0 { a with prev := p } r q d n :=
  ⟨h.gap, hp, h.lo, h.hi, h.regs, h.nb⟩

theorem sym_isN {o : Option Tree} (h : isN (o.map Tree.sym) = true) : ∃ k cs, o = some (.node k cs) := by
  match o with
  | none => simp [isN] at h
  | some (.tok _) => simp [isN, Tree.sym] at h
  | some (.node k cs) => exact ⟨k, cs, rfl⟩

section
variable {T : Tabs} {cx : ACtx} {C : Ctx} {lc after : List Token} {n0 : Nat}

theorem target_cur (hc : CtxOK cx C lc after) (h : cx.cur.isSome = true) :
    ∃ t xs, C.target .cur = .ok t ∧ lc = t :: xs := by
  rw [hc.cur] at h
  cases hcur : C.cur with
  | none => rw [hcur] at h; simp at h
  | some c =>
    obtain ⟨h1, h2⟩ := hc.curE c hcur
    obtain ⟨x, xs, h3, h4⟩ := start_leaves c h1
    exact ⟨x, xs, by simp [Ctx.target, hcur, startTok, h4], by rw [← h2, h3]⟩

theorem target_next (hc : CtxOK cx C lc after) (h : cx.nxt.isSome = true) :
    ∃ t xs, C.target .next = .ok t ∧ leavesF C.rest = t :: xs := by
  rw [hc.nxt] at h
  cases hr : C.rest with
  | nil => rw [hr] at h; simp at h
  | cons c rest =>
    have he := hc.restE
    rw [hr] at he
    simp only [hasEmptyF, Bool.or_eq_false_iff] at he
    obtain ⟨x, xs, h3, h4⟩ := start_leaves c he.1
    exact ⟨x, xs ++ leavesF rest, by simp [Ctx.target, hr, startTok, h4], by simp [leavesF, h3]⟩

theorem evalA_sound (hc : CtxOK cx C lc after) {r : Regs} {q : Option Token} {d : Dec} {n : Nat} :
    ∀ (c : FCond) (a : FAbs) (k : Bool → FAbs → Bool),
    evalA (Alg.chk T) T.flat cx c a k = true → Conc T.flat cx C n0 a r q d n →
    ∃ b a', evalFC C r (fsOf q) c = .ok b ∧ k b a' = true ∧ Conc T.flat cx C n0 a' r q d n ∧
      a'.em = a.em := by
  intro c
  -- an outcome that does not refine the state
  have plain : ∀ {c : FCond} {a : FAbs} {k : Bool → FAbs → Bool} (b : Bool), evalFC C r (fsOf q) c = .ok b →
      k b a = true → Conc T.flat cx C n0 a r q d n →
      ∃ b a', evalFC C r (fsOf q) c = .ok b ∧ k b a' = true ∧ Conc T.flat cx C n0 a' r q d n ∧
        a'.em = a.em := fun b h1 h2 h3 => ⟨b, _, h1, h2, h3, rfl⟩
  -- both outcomes are possible
  have any : ∀ {c : FCond} {a : FAbs} {k : Bool → FAbs → Bool}, (∃ b, evalFC C r (fsOf q) c = .ok b) →
      k true a = true ∧ k false a = true → Conc T.flat cx C n0 a r q d n →
      ∃ b a', evalFC C r (fsOf q) c = .ok b ∧ k b a' = true ∧ Conc T.flat cx C n0 a' r q d n ∧
        a'.em = a.em := by
    rintro c a k ⟨b, hb⟩ ⟨h1, h2⟩ h3
    refine ⟨b, a, hb, ?_, h3, rfl⟩
    cases b <;> assumption
  -- the current child is a tree
  have curN : isN cx.cur = true → ∃ k cs, C.cur = some (.node k cs) ∧ cs ≠ [] ∧ hasEmptyF cs = false := by
    intro h
    rw [hc.cur] at h
    obtain ⟨k, cs, hk⟩ := sym_isN h
    have := (hc.curE _ hk).1
    simp only [Tree.hasEmpty, Bool.or_eq_false_iff] at this
    exact ⟨k, cs, hk, by simpa using this.1, this.2⟩
  induction c with
  | false => intro a k h hC; exact plain false rfl h hC
  | reg v => intro a k h hC; exact plain (r.get v) rfl (by rw [← hC.regs]; exact h) hC
  | treeMulti =>
    intro a k h hC
    exact any (isMultiline_ok hc.allNe hc.allE) (chk_both.mp h) hC
  | treeHas x => intro a k h hC; exact any ⟨_, rfl⟩ (chk_both.mp h) hC
  | parenMulti x y => intro a k h hC; exact any ⟨_, rfl⟩ (chk_both.mp h) hC
  | lenGt m =>
    intro a k h hC
    simp only [evalA] at h
    split at h
    · simp [chk_bad] at h
    · rename_i hT
      have := hc.len
      refine plain _ rfl ?_ hC
      have e : decide (cx.T > m) = decide (C.all.length > m) := by
        congr 1; apply propext; omega
      rw [e] at h; exact h
  | lenEq m =>
    intro a k h hC
    simp only [evalA] at h
    split at h
    · simp [chk_bad] at h
    · rename_i hT
      have := hc.len
      refine plain _ rfl ?_ hC
      have e : (cx.T == m) = (C.all.length == m) := by
        rw [Bool.eq_iff_iff]; simp only [beq_iff_eq]; omega
      rw [e] at h; exact h
  | curMulti =>
    intro a k h hC
    simp only [evalA] at h
    split at h
    · rename_i hn
      obtain ⟨kk, cs, h1, h2, h3⟩ := curN hn
      refine any ?_ (chk_both.mp h) hC
      simp only [evalFC, Ctx.curChildren, h1, Res.bind_ok]
      exact isMultiline_ok h2 h3
    · simp [chk_bad] at h
  | curStartIs x =>
    intro a k h hC
    simp only [evalA] at h
    split at h
    · rename_i hn
      obtain ⟨t, xs, h1, h2⟩ := target_cur hc hn
      exact any ⟨_, by simp only [evalFC, h1, Res.bind_ok]; rfl⟩ (chk_both.mp h) hC
    · simp [chk_bad] at h
  | curHas x =>
    intro a k h hC
    simp only [evalA] at h
    split at h
    · rename_i hn
      obtain ⟨kk, cs, h1, h2, h3⟩ := curN hn
      exact any ⟨_, by simp only [evalFC, Ctx.curChildren, h1, Res.bind_ok]; rfl⟩ (chk_both.mp h) hC
    · simp [chk_bad] at h
  | curEmpty =>
    intro a k h hC
    simp only [evalA] at h
    split at h
    · rename_i hn
      obtain ⟨kk, cs, h1, h2, h3⟩ := curN hn
      refine plain false ?_ h hC
      simp only [evalFC, Ctx.curChildren, h1, Res.bind_ok]
      cases cs <;> simp_all
    · simp [chk_bad] at h
  | prevTok t =>
    intro a k h hC
    simp only [evalA] at h
    obtain ⟨h1, h2⟩ := chk_both.mp h
    have hk : (fsOf q).prevTok = kindOf q := rfl
    by_cases ht : kindOf q = t
    · have hp : KSet.has (KSet.inter a.prev (KSet.bit t)) (kindOf q) = true := by
        rw [KSet.has_inter, KSet.has_bit, hC.prev]; simp [ht]
      rw [if_neg (by intro e; rw [e, KSet.has_zero] at hp; cases hp)] at h1
      exact ⟨true, _, by simp [evalFC, hk, ht], h1, hC.setPrev _ hp, rfl⟩
    · have hp : KSet.has (KSet.diff a.prev (KSet.bit t)) (kindOf q) = true := by
        rw [KSet.has_diff, KSet.has_bit, hC.prev]
        have : ¬ t = kindOf q := fun e => ht e.symm
        simp [this]
      rw [if_neg (by intro e; rw [e, KSet.has_zero] at hp; cases hp)] at h2
      exact ⟨false, _, by simp [evalFC, hk, ht], h2, hC.setPrev _ hp, rfl⟩
  | prevRuleIn ks => intro a k h hC; exact plain _ rfl (by rw [← hC.regs]; exact h) hC
  | idxGt m =>
    intro a k h hC
    simp only [evalA] at h
    split at h
    · simp [chk_bad] at h
    · have := hc.idx
      refine plain _ rfl ?_ hC
      have e : decide (cx.idx > m) = decide (C.idx > m) := by
        congr 1; apply propext; omega
      rw [e] at h; exact h
  | idxEq m =>
    intro a k h hC
    simp only [evalA] at h
    split at h
    · simp [chk_bad] at h
    · have := hc.idx
      refine plain _ rfl ?_ hC
      have e : (cx.idx == m) = (C.idx == m) := by
        rw [Bool.eq_iff_iff]; simp only [beq_iff_eq]; omega
      rw [e] at h; exact h
  | tokIdxPos =>
    intro a k h hC
    simp only [evalA] at h
    split at h
    · rename_i hn
      obtain ⟨t, xs, h1, h2⟩ := target_cur hc hn
      exact any ⟨_, by simp only [evalFC, h1, Res.bind_ok]; rfl⟩ (chk_both.mp h) hC
    · simp [chk_bad] at h
  | nextTree =>
    intro a k h hC
    simp only [evalA, hc.nxt] at h
    match hr : C.rest with
    | [] => rw [hr] at h; exact plain false (by simp [evalFC, hr]) h hC
    | .tok t :: rest => rw [hr] at h; exact plain false (by simp [evalFC, hr]) h hC
    | .node kk cs :: rest => rw [hr] at h; exact plain true (by simp [evalFC, hr]) h hC
  | nextTreeU =>
    intro a k h hC
    simp only [evalA, hc.nxt] at h
    match hr : C.rest with
    | [] => rw [hr] at h; simp [chk_bad] at h
    | .tok t :: rest => rw [hr] at h; exact plain false (by simp [evalFC, hr]) h hC
    | .node kk cs :: rest => rw [hr] at h; exact plain true (by simp [evalFC, hr]) h hC
  | nextTok =>
    intro a k h hC
    simp only [evalA, hc.nxt] at h
    match hr : C.rest with
    | [] => rw [hr] at h; exact plain false (by simp [evalFC, hr]) h hC
    | .tok t :: rest => rw [hr] at h; exact plain true (by simp [evalFC, hr]) h hC
    | .node kk cs :: rest => rw [hr] at h; exact plain false (by simp [evalFC, hr]) h hC
  | nextBelow =>
    intro a k h hC
    simp only [evalA] at h
    split at h
    · rename_i hn
      obtain ⟨t, xs, h1, h2⟩ := target_next hc hn
      split at h
      · rename_i hf
        simp only [Bool.and_eq_true, decide_eq_true_eq, Bool.not_eq_true'] at hf
        obtain ⟨⟨⟨f1, f2⟩, f3⟩, f4⟩ := hf
        have := hC.nb f1 f2 f3 f4 t h1
        refine plain false ?_ h hC
        have hl : (fsOf q).prevLine = lineOf q := rfl
        simp only [evalFC, h1, Res.bind_ok, hl]
        simp; exact this
      · exact any ⟨_, by simp only [evalFC, h1, Res.bind_ok]; rfl⟩ (chk_both.mp h) hC
    · simp [chk_bad] at h
  | not c ih =>
    intro a k h hC
    obtain ⟨b, a', h1, h2, h3, h4⟩ := ih a _ h hC
    exact ⟨!b, a', by simp [evalFC, h1], h2, h3, h4⟩
  | and c e ih1 ih2 =>
    intro a k h hC
    obtain ⟨b, a', h1, h2, h3, h4⟩ := ih1 a _ h hC
    cases b with
    | false => exact ⟨false, a', by simp [evalFC, h1], h2, h3, h4⟩
    | true =>
      obtain ⟨b', a'', g1, g2, g3, g4⟩ := ih2 a' _ h2 h3
      exact ⟨b', a'', by simp [evalFC, h1, g1], g2, g3, g4.trans h4⟩
  | or c e ih1 ih2 =>
    intro a k h hC
    obtain ⟨b, a', h1, h2, h3, h4⟩ := ih1 a _ h hC
    cases b with
    | true => exact ⟨true, a', by simp [evalFC, h1], h2, h3, h4⟩
    | false =>
      obtain ⟨b', a'', g1, g2, g3, g4⟩ := ih2 a' _ h2 h3
      exact ⟨b', a'', by simp [evalFC, h1, g1], g2, g3, g4.trans h4⟩


/-! ### Statements -/

/-- Decisions for a sequence of tokens after a token of kind `k` are allowed by the table. -/
def Pairs (ok : Tok → Gap → KSet) : Tok → List (Dec × Token) → Prop
  | _, [] => True
  | k, (d, t) :: ds => (ok t.kind d.gap).has k = true ∧ Pairs ok t.kind ds

mutual
/-- The first token of every production. -/
def Tree.starts : Tree → List (SK × Token)
  | .tok _ => []
  | .node k cs => match startOf cs with
    | some t => (k, t) :: startsF cs
    | none => startsF cs
/-- The first token of every production of a forest. -/
def startsF : List Tree → List (SK × Token)
  | [] => []
  | t :: ts => t.starts ++ startsF ts
end

/-- The productions are entered as the table says. -/
def StOK (entry : SK → List (Args × Gap × KSet)) (l : List (SK × Token)) (ds : List (Dec × Token)) : Prop :=
  ∀ x ∈ l, ∃ d, (d, x.2) ∈ ds ∧ ∃ e ∈ entry x.1, e.2.1 = .none ∨ e.2.1 = d.gap

theorem StOK.mono {entry : SK → List (Args × Gap × KSet)} {l : List (SK × Token)}
    {ds ds' : List (Dec × Token)} (h : StOK entry l ds) (hs : ∀ x ∈ ds, x ∈ ds') : StOK entry l ds' := by
  intro x hx
  obtain ⟨d, h1, h2⟩ := h x hx
  exact ⟨d, hs _ h1, h2⟩

theorem StOK.append {entry : SK → List (Args × Gap × KSet)} {l l' : List (SK × Token)}
    {ds : List (Dec × Token)} (h : StOK entry l ds) (h' : StOK entry l' ds) : StOK entry (l ++ l') ds := by
  intro x hx
  rcases List.mem_append.mp hx with hx | hx
  · exact h x hx
  · exact h' x hx

/-- kind of the last token -/
def lastKind (k : Tok) : List (Dec × Token) → Tok
  | [] => k
  | (_, t) :: ds => lastKind t.kind ds

theorem LS.run_kind (L : LS) (ds : List (Dec × Token)) : (L.run ds).kind = lastKind L.kind ds := by
  induction ds generalizing L with
  | nil => rfl
  | cons x xs ih => simp only [LS.run, List.foldl_cons]; exact (ih (L.step x))

theorem LS.run_append (L : LS) (a b : List (Dec × Token)) : L.run (a ++ b) = (L.run a).run b := by
  simp [LS.run, List.foldl_append]

theorem Pairs.append {ok : Tok → Gap → KSet} {k : Tok} {a b : List (Dec × Token)} (h1 : Pairs ok k a)
    (h2 : Pairs ok (lastKind k a) b) : Pairs ok k (a ++ b) := by
  induction a generalizing k with
  | nil => exact h2
  | cons x xs ih => exact ⟨h1.1, ih h1.2 h2⟩

/-- What a piece of a run puts out after a token of kind `k`: the decisions `ds`, with `d` pending before and
`d'` after. -/
structure Emit (T : Tabs) (k : Tok) (d : Dec) (ds : List (Dec × Token)) (d' : Dec) : Prop where
  pairs : Pairs T.ok k ds
  ext : d ≠ .none → (ds = [] ∧ d' = d) ∨ ∃ t rest, ds = (d, t) :: rest

theorem Emit.refl (T : Tabs) (k : Tok) (d : Dec) : Emit T k d [] d := ⟨trivial, fun _ => .inl ⟨rfl, rfl⟩⟩

theorem Walk.kind {u v : WSt} {es : List TEv} {ds : List (Dec × Token)} (h : Walk u es ds v) :
    v.k = lastKind u.k ds := by
  induction h <;> simp_all [lastKind]

theorem Emit.trans {T : Tabs} {u v : WSt} {es : List TEv} {d2 : Dec}
    {a b : List (Dec × Token)} (h1 : Emit T u.k u.d a v.d)
    (h2 : Emit T v.k v.d b d2) (hw : Walk u es a v) : Emit T u.k u.d (a ++ b) d2 := by
  refine ⟨h1.pairs.append (by have := h2.pairs; rwa [hw.kind] at this), ?_⟩
  intro hd
  rcases h1.ext hd with ⟨rfl, e⟩ | ⟨t, rest, rfl⟩
  · have := h2.ext (by rw [e]; exact hd)
    rw [e] at this
    simpa using this
  · exact .inr ⟨t, rest ++ b, rfl⟩

/-- Calling the formatting function for `fn` on the tree `t` goes as the tables say. -/
def SubOK (T : Tabs) (sub : SK → Args → Option Token → Res (Bool × List TEv)) (fn : SK) (t : Tree)
    (after : List Token) : Prop :=
  ∀ (e : Args × Gap × KSet), e ∈ T.entry fn → ∀ (q : Option Token) (d : Dec) (n : Nat),
    d.gap = e.2.1 → e.2.2.has (kindOf q) = true →
    ∃ w es ds d' n' ex, sub fn e.1 q = .ok (w, es) ∧ ex ∈ T.exit fn e.1 ∧ ex.w = w ∧ d'.gap = ex.gap ∧
      ex.mask.has (kindOf (lastT q es)) = true ∧ n + ex.lo ≤ n' ∧ (T.flat = true → n' ≤ n + ex.hi) ∧
      Walk ⟨kindOf q, d, n, t.leaves ++ after⟩ es ds ⟨kindOf (lastT q es), d', n', after⟩ ∧
      Emit T (kindOf q) d ds d' ∧ StOK T.entry t.starts ds

/-- The result of a statement. -/
def ExecOK (T : Tabs) (cx : ACtx) (C : Ctx) (lc after : List Token) (n0 : Nat) (a : FAbs) (q : Option Token)
    (d : Dec) (n : Nat) (k : FAbs → Bool) (res : Res (Regs × List TEv)) : Prop :=
  ∃ r' es a' ds d' n', res = .ok (r', es) ∧ k a' = true ∧
    Conc T.flat cx C n0 a' r' (lastT q es) d' n' ∧ Emit T (kindOf q) d ds d' ∧
    Walk ⟨kindOf q, d, n, todoOf C lc after a.em⟩ es ds
      ⟨kindOf (lastT q es), d', n', todoOf C lc after a'.em⟩ ∧ (a.em = true → a'.em = true) ∧
    (a.em = false → a'.em = true → ∀ t, C.cur = some t → StOK T.entry t.starts ds)

theorem ExecOK.pure {r : Regs} {q : Option Token} {a a' : FAbs} {es : List TEv} {d d' : Dec} {n n' : Nat}
    {k : FAbs → Bool} (hk : k a' = true) (hq : lastT q es = q) (hC : Conc T.flat cx C n0 a' r q d' n')
    (hem : a'.em = a.em) (hd : d ≠ .none → d' = d)
    (hw : Walk ⟨kindOf q, d, n, todoOf C lc after a.em⟩ es [] ⟨kindOf q, d', n', todoOf C lc after a.em⟩) :
    ExecOK T cx C lc after n0 a q d n k (.ok (r, es)) :=
  ⟨r, es, a', [], d', n', rfl, hk, by rw [hq]; exact hC, ⟨trivial, fun h => .inl ⟨rfl, hd h⟩⟩,
    by rw [hem, hq]; exact hw, fun h => hem ▸ h, fun h1 h2 => by rw [hem, h1] at h2; cases h2⟩

theorem ExecOK.congrEm {a a0 : FAbs} {q : Option Token} {d : Dec} {n : Nat} {k : FAbs → Bool}
    {res : Res (Regs × List TEv)}
    (h : ExecOK T cx C lc after n0 a q d n k res) (hem : a.em = a0.em) :
    ExecOK T cx C lc after n0 a0 q d n k res := by
  unfold ExecOK at *
  rw [hem] at h
  exact h

theorem spaceA_sound {r : Regs} {q : Option Token} {d : Dec} {n : Nat} {a : FAbs} {k : FAbs → Bool}
    (h : spaceA (Alg.chk T) a k = true) (hC : Conc T.flat cx C n0 a r q d n) :
    ExecOK T cx C lc after n0 a q d n k (.ok (r, [.space])) := by
  unfold spaceA at h
  split at h
  · rename_i hg
    simp only [Bool.and_eq_true, decide_eq_true_eq, Bool.not_eq_true'] at hg
    have hd : d = .none := by
      have := hC.gap; rw [hg.1] at this
      cases d <;> simp [Dec.gap] at this ⊢
    subst hd
    refine ExecOK.pure (d' := .space) (n' := n) h rfl ?_ rfl (by simp) (.space (.nil _))
    exact ⟨rfl, hC.prev, hC.lo, hC.hi, hC.regs, hC.nb⟩
  · simp [chk_bad] at h

theorem okTarget_sound (hc : CtxOK cx C lc after) {t : Target} {a : FAbs} (h : okTarget cx t a = true) :
    ∃ x xs, C.target t = .ok x ∧ todoOf C lc after a.em = x :: xs := by
  cases t with
  | cur =>
    simp only [okTarget, Bool.and_eq_true, Bool.not_eq_true'] at h
    obtain ⟨x, xs, h1, h2⟩ := target_cur hc h.1
    exact ⟨x, xs ++ (leavesF C.rest ++ after), h1, by simp [todoOf, h.2, h2]⟩
  | next =>
    simp only [okTarget, Bool.and_eq_true] at h
    obtain ⟨x, xs, h1, h2⟩ := target_next hc h.1
    exact ⟨x, xs ++ after, h1, by simp [todoOf, h.2, h2]⟩

theorem breakA_sound (hc : CtxOK cx C lc after) {r : Regs} {q : Option Token} {d : Dec} {n : Nat}
    {a : FAbs} {k : FAbs → Bool} {t : Target} {b : Blank}
    (h : breakA (Alg.chk T) cx t b a k = true) (hC : Conc T.flat cx C n0 a r q d n) :
    ExecOK T cx C lc after n0 a q d n k ((C.target t).bind fun tok => .ok (r, [.brk tok b])) := by
  unfold breakA at h
  split at h
  · rename_i hg
    simp only [Bool.and_eq_true, decide_eq_true_eq] at hg
    have hd : d = .none := by
      have := hC.gap; rw [hg.1] at this
      cases d <;> simp [Dec.gap] at this ⊢
    subst hd
    obtain ⟨x, xs, h1, h2⟩ := okTarget_sound hc hg.2
    simp only [h1, Res.bind_ok]
    refine ExecOK.pure (d' := .brk b n) (n' := n) h rfl ?_ rfl (by simp) ?_
    · exact ⟨rfl, hC.prev, hC.lo, hC.hi, hC.regs, hC.nb⟩
    · rw [h2]; exact .brk (.nil _)
  · simp [chk_bad] at h

/-- Statements go as the symbolic execution says. -/
theorem execA_sound (hc : CtxOK cx C lc after) {sub : SK → Args → Option Token → Res (Bool × List TEv)}
    (hsub : ∀ fn cs, C.cur = some (.node fn cs) → SubOK T sub fn (.node fn cs) (leavesF C.rest ++ after)) :
    ∀ (cmd : FCmd) (a : FAbs) (k : FAbs → Bool) (r : Regs) (q : Option Token) (d : Dec) (n : Nat),
    execA (Alg.chk T) T.flat T.exit cx cmd a k = true → Conc T.flat cx C n0 a r q d n →
    ExecOK T cx C lc after n0 a q d n k (trF sub C cmd r q) := by
  intro cmd
  induction cmd with
  | skip => intro a k r q d n h hC; exact ExecOK.pure h rfl hC rfl (fun _ => rfl) (.nil _)
  | seq c e ih1 ih2 =>
    intro a k r q d n h hC
    obtain ⟨r1, e1, a1, ds1, d1, n1, h1, h2, h3, h4, h5, h6, h7⟩ := ih1 a _ r q d n h hC
    obtain ⟨r2, e2, a2, ds2, d2, n2, g1, g2, g3, g4, g5, g6, g7⟩ := ih2 a1 k r1 (lastT q e1) d1 n1 h2 h3
    refine ⟨r2, e1 ++ e2, a2, ds1 ++ ds2, d2, n2, by simp [trF, h1, g1], g2, ?_, Emit.trans h4 g4 h5, ?_, ?_, ?_⟩
    · rw [lastT_append]; exact g3
    · rw [lastT_append]; exact h5.append g5
    · exact fun e => g6 (h6 e)
    · intro e1 e2 t ht
      by_cases hm : a1.em = true
      · exact (h7 e1 hm t ht).mono (fun x hx => List.mem_append_left _ hx)
      · exact (g7 (by simpa using hm) e2 t ht).mono (fun x hx => List.mem_append_right _ hx)
  | ite c x y ih1 ih2 =>
    intro a k r q d n h hC
    obtain ⟨b, a', h1, h2, h3, h4⟩ := evalA_sound hc c a _ h hC
    simp only [trF, h1, Res.bind_ok]
    cases b with
    | true => exact (ih1 a' k r q d n h2 h3).congrEm h4
    | false => exact (ih2 a' k r q d n h2 h3).congrEm h4
  | space => intro a k r q d n h hC; exact spaceA_sound h hC
  | indent =>
    intro a k r q d n h hC
    simp only [execA] at h
    split at h
    · simp [chk_bad] at h
    · rename_i he
      have hk : kindOf q ≠ .EOF := by
        intro e
        exact he (by rw [← e]; exact hC.prev)
      refine ExecOK.pure (d' := d) (n' := n + 1) h rfl ?_ rfl (fun _ => rfl) (.indent hk (.nil _))
      refine ⟨hC.gap, hC.prev, ?_, ?_, hC.regs, hC.nb⟩
      · have := hC.lo; simp only; omega
      · intro hf
        have := hC.hi hf
        simp only [hf, if_true]; omega
  | dedent =>
    intro a k r q d n h hC
    simp only [execA] at h
    split at h
    · simp [chk_bad] at h
    · rename_i he
      simp only [Bool.or_eq_true, beq_iff_eq, not_or] at he
      have hk : kindOf q ≠ .EOF := by
        intro e
        exact he.1 (by rw [← e]; exact hC.prev)
      have hlo := hC.lo
      obtain ⟨n', rfl⟩ : ∃ n', n = n' + 1 := ⟨n - 1, by omega⟩
      refine ExecOK.pure (d' := d) (n' := n') h rfl ?_ rfl (fun _ => rfl) (.dedent hk (.nil _))
      refine ⟨hC.gap, hC.prev, ?_, ?_, hC.regs, hC.nb⟩
      · simp only; omega
      · intro hf
        have := hC.hi hf
        simp only; omega
  | tok =>
    intro a k r q d n h hC
    simp only [execA] at h
    split at h
    · rename_i t ht
      split at h
      · simp [chk_bad] at h
      · rename_i he
        simp only [Bool.or_eq_true, decide_eq_true_eq, not_or, Bool.not_eq_true] at he
        simp only [Alg.chk, Bool.and_eq_true] at h
        rw [hc.cur] at ht
        match hcur : C.cur with
        | none => rw [hcur] at ht; simp at ht
        | some (.node _ _) => rw [hcur] at ht; simp [Tree.sym] at ht
        | some (.tok x) =>
          rw [hcur] at ht; simp [Tree.sym] at ht
          have hlc : lc = [x] := by have := (hc.curE _ hcur).2; simpa [Tree.leaves] using this.symm
          have htd : todoOf C lc after a.em = x :: (leavesF C.rest ++ after) := by
            simp [todoOf, he.1, hlc]
          have htd2 : todoOf C lc after true = leavesF C.rest ++ after := by simp [todoOf]
          refine ⟨r, [.tok x], _, [(d, x)], .none, n, by simp [trF, hcur], h.2, ?_, ?_, ?_, ?_, ?_⟩
          · refine ⟨rfl, ?_, hC.lo, hC.hi, hC.regs, ?_⟩
            · show KSet.has (KSet.bit t) x.kind = true
              rw [KSet.has_bit, ht]; simp
            · intro _ _ _ e; simp at e
          · refine ⟨⟨?_, trivial⟩, fun _ => .inr ⟨x, [], rfl⟩⟩
            rw [ht, hC.gap]
            exact subset_has h.1 hC.prev
          · rw [htd]
            simp only [htd2]
            exact .tok (.nil _)
          · intro _; rfl
          · intro _ _ t' ht'
            rw [hcur] at ht'; cases ht'
            intro y hy; simp [Tree.starts] at hy
    · simp [chk_bad] at h
  | brk t b => intro a k r q d n h hC; exact breakA_sound hc h hC
  | bos c t =>
    intro a k r q d n h hC
    obtain ⟨b, a', h1, h2, h3, h4⟩ := evalA_sound hc c a _ h hC
    split at h2
    · rename_i hok
      obtain ⟨x, xs, g1, g2⟩ := okTarget_sound hc hok
      cases b with
      | true =>
        have := breakA_sound hc h2 h3
        rw [g1] at this
        simp only [trF, h1, Res.bind_ok, g1, if_true]
        exact this.congrEm h4
      | false =>
        have := spaceA_sound (lc := lc) (after := after) h2 h3
        simp only [trF, h1, Res.bind_ok, g1]
        exact this.congrEm h4
    · simp [chk_bad] at h2
  | call fn m w o keep =>
    intro a k r q d n h hC
    simp only [execA] at h
    split at h
    · rename_i hg
      simp only [Bool.and_eq_true, decide_eq_true_eq, Bool.not_eq_true'] at hg
      obtain ⟨bm, a1, h1, h2, h3, h4⟩ := evalA_sound hc m a _ h hC
      obtain ⟨bw, a2, h5, h6, h7, h8⟩ := evalA_sound hc w a1 _ h2 h3
      obtain ⟨bo, a3, h9, h10, h11, h12⟩ := evalA_sound hc o a2 _ h6 h7
      have hem : a3.em = false := by rw [h12, h8, h4]; exact hg.2
      simp only [Alg.chk, Bool.and_eq_true, List.any_eq_true, decide_eq_true_eq] at h10
      obtain ⟨⟨e, he, ⟨e1, e2⟩, e3⟩, h13⟩ := h10
      have h13 := (chk_all (T := T)).mp h13
      have hcur := hg.1
      rw [hc.cur] at hcur
      match hcc : C.cur with
      | none => rw [hcc] at hcur; simp at hcur
      | some (.tok _) => rw [hcc] at hcur; simp [Tree.sym] at hcur
      | some (.node fn' cs) =>
        rw [hcc] at hcur; simp [Tree.sym] at hcur; subst hcur
        have hlc : lc = (Tree.node fn' cs).leaves := (hc.curE _ hcc).2.symm
        have htd : todoOf C lc after a.em = (Tree.node fn' cs).leaves ++ (leavesF C.rest ++ after) := by
          simp [todoOf, hg.2, hlc]
        have htd2 : todoOf C lc after true = leavesF C.rest ++ after := by simp [todoOf]
        obtain ⟨w', es, ds, d', n', ex, i1, i2, i3, i4, i5, i6, i7, i8, i9, i10⟩ :=
          hsub fn' cs hcc e he q d n (by rw [e2]; exact h11.gap) (subset_has e3 h11.prev)
        rw [e1] at i1 i2
        refine ⟨if keep then { r with w := w' } else r, es, _, ds, d', n', ?_, h13 ex i2, ?_, i9, ?_, ?_, ?_⟩
        · simp only [trF, h1, h5, h9, Res.bind_ok, i1]
        · refine ⟨i4, i5, ?_, ?_, ?_, ?_⟩
          · have := h11.lo; simp only; omega
          · intro hf
            have := h11.hi hf
            have := i7 hf
            simp only; omega
          · simp only [h11.regs, i3]
          · intro _ _ _ e; simp at e
        · rw [htd2, htd]; exact i8
        · intro _; rfl
        · intro _ _ t ht
          rw [hcc] at ht; cases ht; exact i10
    · simp [chk_bad] at h
  | set v c =>
    intro a k r q d n h hC
    obtain ⟨b, a', h1, h2, h3, h4⟩ := evalA_sound hc c a _ h hC
    simp only [trF, h1, Res.bind_ok]
    refine (ExecOK.pure (a := a') (n' := n) h2 rfl ?_ rfl (fun _ => rfl) (.nil _)).congrEm h4
    exact ⟨h3.gap, h3.prev, h3.lo, h3.hi, by simp only [h3.regs], h3.nb⟩
  | setPrevRule =>
    intro a k r q d n h hC
    simp only [execA] at h
    split at h
    · rename_i x hx
      rw [hc.cur] at hx
      match hcur : C.cur with
      | none => rw [hcur] at hx; simp at hx
      | some (.tok _) => rw [hcur] at hx; simp [Tree.sym] at hx
      | some (.node k' cs) =>
        rw [hcur] at hx; simp [Tree.sym] at hx; subst hx
        simp only [trF, hcur]
        refine ExecOK.pure (n' := n) h rfl ?_ rfl (fun _ => rfl) (.nil _)
        exact ⟨hC.gap, hC.prev, hC.lo, hC.hi, by simp only [hC.regs], hC.nb⟩
    · simp [chk_bad] at h
  | unreachable => intro a k r q d n h hC; simp [execA, chk_bad] at h

end

end Mofmt
