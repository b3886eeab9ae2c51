import Verif.Proofs.Depth
/-
The indentation of every child.
-/
namespace Mofmt

/-! ### The check at a child -/

theorem d_state (k : SK) (tm v pm : Option Bool) (s : Sym) : ∀ (w : List Sym), ∃ ok,
    (w ++ [s]).foldl (dStep k tm v pm) (dInit k tm v pm) =
      ⟨w.foldl (lvStep (senv k tm v pm) k) (lvInit (senv k tm v pm) k), w.getLast?, some s, ok⟩ := by
  intro w
  rcases List.eq_nil_or_concat w with rfl | ⟨w', s', rfl⟩
  · exact ⟨true, rfl⟩
  · rw [List.concat_eq_append]
    obtain ⟨ok, h⟩ := d_state k tm v pm s' w'
    rw [List.foldl_append, h]
    exact ⟨_, by simp [dStep]; rfl⟩
termination_by w => w.length
decreasing_by simp_all

theorem d_bad (k : SK) (tm v pm : Option Bool) : ∀ (w : List Sym) (st : DSt), st.ok = false →
    (w.foldl (dStep k tm v pm) st).ok = false
  | [], st, h => h
  | s :: w, st, h => by
    rw [List.foldl_cons]
    refine d_bad k tm v pm w _ ?_
    unfold dStep
    split
    · exact h
    · simp [h]

theorem site_at {k : SK} {tm v pm : Option Bool} {w : List Sym} {s : Sym} {v' : List Sym}
    (h : dFine k tm v pm ((w ++ s :: v').foldl (dStep k tm v pm) (dInit k tm v pm)) = true) :
    siteFine k tm v pm (w.foldl (lvStep (senv k tm v pm) k) (lvInit (senv k tm v pm) k)) w.getLast? s v'.head? = true := by
  obtain ⟨ok, hs⟩ := d_state k tm v pm s w
  have hw : w ++ s :: v' = (w ++ [s]) ++ v' := by simp
  rw [hw, List.foldl_append, hs] at h
  cases v' with
  | nil =>
    simp only [List.foldl_nil, dFine, Bool.and_eq_true] at h
    exact h.2
  | cons s' v' =>
    rw [List.foldl_cons] at h
    simp only [dFine, Bool.and_eq_true] at h
    cases hf : siteFine k tm v pm (w.foldl (lvStep (senv k tm v pm) k) (lvInit (senv k tm v pm) k)) w.getLast? s (some s')
    · have := d_bad k tm v pm v' (dStep k tm v pm ⟨w.foldl (lvStep (senv k tm v pm) k) (lvInit (senv k tm v pm) k), w.getLast?, some s, ok⟩ s')
        (by simp [dStep, hf])
      rw [this] at h
      cases h.1
    · exact hf

/-! ### The facts -/

theorem extraIn_spread {k p s a b c d} (a') (h : k ≠ .ComponentList) : extraIn k p s a b c d = extraIn k p s a' b c d := by
  unfold extraIn
  split <;> first | rfl | exact absurd rfl h

theorem extraIn_apart {k p s a b c d} (b') (h : k ≠ .ShortClassSpecifier) (h' : k ≠ .ImportClause) :
    extraIn k p s a b c d = extraIn k p s a b' c d := by
  unfold extraIn
  split <;> first | rfl | exact absurd rfl h | exact absurd rfl h'

theorem extraIn_described {k p s a b c d} (c') (h : k ≠ .ShortClassSpecifier) :
    extraIn k p s a b c d = extraIn k p s a b c' d := by
  unfold extraIn
  split <;> first | rfl | exact absurd rfl h

theorem extraIn_longIf {k p s a b c d} (d') (h : k ≠ .Modification) (h1 : k ≠ .Equation) (h2 : k ≠ .Statement)
    (h3 : k ≠ .NamedArgument) : extraIn k p s a b c d = extraIn k p s a b c d' := by
  unfold extraIn
  split <;> first | rfl | exact absurd rfl h | exact absurd rfl h1 | exact absurd rfl h2 | exact absurd rfl h3

/-- a fact, if it is used -/
def fact (u b : Bool) : Option Bool := if u then some b else none

theorem fact_mem (u b : Bool) : fact u b ∈ facts u := mem_facts u b

theorem extraIn_facts (k : SK) (p : Option Sym) (s : Sym) (a1 a2 b c d : Bool) :
    extraIn k p s ((fact (usesTm k) a1).getD false && (fact (usesTm k) a2).getD false) ((fact (usesPm k) b).getD false)
      ((fact (usesCh k) c).getD false) ((fact (usesCm k) d).getD false) = extraIn k p s (a1 && a2) b c d := by
  have e1 : ∀ x y z, extraIn k p s ((fact (usesTm k) a1).getD false && (fact (usesTm k) a2).getD false) x y z
      = extraIn k p s (a1 && a2) x y z := by
    intro x y z
    cases h : usesTm k
    · exact extraIn_spread _ (by intro hk; subst hk; cases h)
    · rfl
  have e2 : ∀ x y z, extraIn k p s x ((fact (usesPm k) b).getD false) y z = extraIn k p s x b y z := by
    intro x y z
    cases h : usesPm k
    · exact extraIn_apart _ (by intro hk; subst hk; cases h) (by intro hk; subst hk; cases h)
    · rfl
  have e3 : ∀ x y z, extraIn k p s x y ((fact (usesCh k) c).getD false) z = extraIn k p s x y c z := by
    intro x y z
    cases h : usesCh k
    · exact extraIn_described _ (by intro hk; subst hk; cases h)
    · rfl
  have e4 : ∀ x y z, extraIn k p s x y z ((fact (usesCm k) d).getD false) = extraIn k p s x y z d := by
    intro x y z
    cases h : usesCm k
    · exact extraIn_longIf _ (by intro hk; subst hk; cases h) (by intro hk; subst hk; cases h)
        (by intro hk; subst hk; cases h) (by intro hk; subst hk; cases h)
    · rfl
  rw [e1, e2, e3, e4]

/-- the brackets occur once, in order -/
def pairStep (op cl : Tok) (st : Bool × Bool × Bool) (s : Sym) : Bool × Bool × Bool :=
  if s = .t op then (true, st.2.1, st.2.2 && !st.1 && op != cl)
  else if s = .t cl then (st.1, true, st.2.2 && st.1 && !st.2.1) else st

theorem pairs_ok : ∀ k, usesPm k = true → checkG (pairStep (bracketsOf k).1 (bracketsOf k).2) (fun st => st.2.2) (Gram.spec k)
    (false, false, true) = true := by
  intro k; cases k <;> first | (intro h; cases h; done) | (intro _; decide +kernel)

theorem pair_bad {op cl : Tok} : ∀ (w : List Sym) (a b : Bool), (w.foldl (pairStep op cl) (a, b, false)).2.2 = false
  | [], _, _ => rfl
  | s :: w, a, b => by
    rw [List.foldl_cons]
    simp only [pairStep, Bool.false_and]
    split
    · exact pair_bad w _ _
    · split
      · exact pair_bad w _ _
      · exact pair_bad w _ _

/-- after both brackets -/
theorem scanClose_done {op cl : Tok} {line : Nat} : ∀ (cs : List Tree) (b : Bool),
    ((cs.map Tree.sym).foldl (pairStep op cl) (true, true, true)).2.2 = true → scanClose cl line cs b = b
  | [], b, _ => rfl
  | .node k ds :: cs, b, h => scanClose_done cs b (by simpa [pairStep, Tree.sym] using h)
  | .tok t :: cs, b, h => by
    simp only [List.map_cons, Tree.sym, List.foldl_cons, pairStep, Sym.t.injEq] at h
    rw [scanClose]
    split at h
    · simp [pair_bad] at h
    · split at h
      · simp [pair_bad] at h
      · rename_i h2
        rw [if_neg h2]
        exact scanClose_done cs b h

theorem scanClose_eq {op cl : Tok} {line : Nat} : ∀ (cs : List Tree),
    ((cs.map Tree.sym).foldl (pairStep op cl) (true, false, true)).2.2 = true → scanClose cl line cs false =
      match lineOfTok cl cs with | some b => decide (line < b) | none => false
  | [], _ => rfl
  | .node k ds :: cs, h => scanClose_eq cs (by simpa [pairStep, Tree.sym] using h)
  | .tok t :: cs, h => by
    simp only [List.map_cons, Tree.sym, List.foldl_cons, pairStep, Sym.t.injEq] at h
    rw [scanClose, lineOfTok]
    split at h
    · simp [pair_bad] at h
    · split at h
      · rename_i h2
        rw [if_pos h2, if_pos h2, scanClose_done cs _ h]
      · rename_i h2
        rw [if_neg h2, if_neg h2]
        exact scanClose_eq cs h

theorem scanParens_eq {op cl : Tok} : ∀ (cs : List Tree),
    ((cs.map Tree.sym).foldl (pairStep op cl) (false, false, true)).2.2 = true → scanParens op cl cs = bracketsApart op cl cs
  | [], _ => rfl
  | .node k ds :: cs, h => scanParens_eq cs (by simpa [pairStep, Tree.sym] using h)
  | .tok t :: cs, h => by
    simp only [List.map_cons, Tree.sym, List.foldl_cons, pairStep, Sym.t.injEq] at h
    rw [scanParens, bracketsApart, lineOfTok, lineOfTok]
    split at h
    · rename_i h1
      have hne : op ≠ cl := by
        rintro rfl
        simp [pair_bad] at h
      rw [if_pos h1, if_pos h1, if_neg (by rw [h1]; exact hne)]
      have h : ((cs.map Tree.sym).foldl (pairStep op cl) (true, false, true)).2.2 = true := by
        have hb : (op != cl) = true := by simpa using hne
        simpa [hb] using h
      rw [scanClose_eq cs h]
      cases lineOfTok cl cs <;> rfl
    · split at h
      · simp [pair_bad] at h
      · rename_i h1 h2
        rw [if_neg h1, if_neg h1, if_neg h2]
        exact scanParens_eq cs h

theorem isMultiline_eq {cs : List Tree} (h : hasEmptyF cs = false) {b : Bool} (hb : isMultiline cs = .ok b) :
    b = spansLines cs := by
  cases cs with
  | nil => cases hb
  | cons c cs =>
    obtain ⟨x, xs, h1, h2⟩ := startF_leaves (c :: cs) (by simp) h
    obtain ⟨y, h3, h4⟩ := endF_leaves (c :: cs) (by simp) h
    simp only [isMultiline, h2, h4] at hb
    cases hb
    simp only [spansLines, h3]
    simp [h1]

mutual
theorem hasKind_eq (k : SK) : (t : Tree) → t.hasKind k = t.occurs k
  | .tok _ => rfl
  | .node k' cs => by
    rw [Tree.hasKind, Tree.occurs, contains_eq k cs]
    by_cases h : k' = k <;> simp [h]
theorem contains_eq (k : SK) : (cs : List Tree) → containsKind k cs = occursF k cs
  | [] => rfl
  | c :: cs => by
    rw [containsKind, occursF, contains_eq k cs, hasKind_eq k c]
    cases c.occurs k <;> simp
end

/-- Is the child a conditional expression on several lines? -/
def longIf (c : Tree) : Bool := spansLines [c] && decide ((c.leaves.head?.map Token.kind) = some .If)

/-- what the check takes to be known -/
def senvAt (k : SK) (all : List Tree) (c : Tree) : SEnv :=
  senv k (fact (usesTm k) (spansLines all)) (fact (usesTm k) (decide (all.length > 1)))
    (fact (usesPm k) (bracketsApart (bracketsOf k).1 (bracketsOf k).2 all)) (fact (usesCm k) (longIf c))
    (fact (usesCh k) (occursF .Description c.kids))

theorem fact_some {u b x : Bool} (h : fact u b = some x) : x = b ∧ u = true := by
  cases u
  · cases h
  · cases h; exact ⟨rfl, rfl⟩

theorem treeOK_tree {k : SK} {all : List Tree} (hC : Tree.Conforms (.node k all)) (hE : hasEmptyF all = false) :
    TreeOK (senv k (fact (usesTm k) (spansLines all)) (fact (usesTm k) (decide (all.length > 1)))
    (fact (usesPm k) (bracketsApart (bracketsOf k).1 (bracketsOf k).2 all))) { all } := by
  refine ⟨?_, ?_, ?_, fun _ h => (by cases h), fun _ h => (by cases h)⟩
  · intro x hx b hb
    rw [(fact_some hx).1]
    exact isMultiline_eq hE hb
  · intro x hx
    exact (fact_some hx).1
  · intro x hx
    obtain ⟨h1, h2⟩ := fact_some hx
    rw [h1]
    exact (scanParens_eq all (checkG_sound (pairs_ok k h2) hC.1)).symm

theorem treeOK_at {k : SK} {all : List Tree} (hC : Tree.Conforms (.node k all)) (hE : hasEmptyF all = false) {c : Tree}
    (hc : c ∈ all) {idx : Nat} {rest : List Tree} : TreeOK (senvAt k all c) { all, cur := some c, idx, rest } := by
  have h := treeOK_tree hC hE
  refine ⟨h.tm, h.v, h.pm, ?_, ?_⟩
  · intro x hx r s b hb
    rw [(fact_some hx).1]
    have hEc := hasEmptyF_mem hE c hc
    cases c with
    | tok t => cases hb
    | node j ds =>
      obtain ⟨b1, h1, hb⟩ := Res.bind_eq_ok.1 hb
      have hEd := hEc
      simp only [Tree.hasEmpty, Bool.or_eq_false_iff] at hEd
      have hsp : b1 = spansLines [.node j ds] := by
        rw [isMultiline_eq hEd.2 h1]
        simp [spansLines, leavesF, Tree.leaves]
      obtain ⟨y, ys, h2, h3⟩ := start_leaves _ hEc
      simp only [longIf, ← hsp, h2, List.head?_cons, Option.map_some, Option.some.injEq]
      cases b1
      · cases hb; rfl
      · simp only [if_true, evalFC, Ctx.target, startTok, h3, Res.bind_ok] at hb
        cases hb
        simp
  · intro x hx r s b hb
    rw [(fact_some hx).1]
    cases c with
    | tok t => cases hb
    | node j ds =>
      cases hb
      exact contains_eq _ ds

/-- The check gives the indentation of the rules. -/
theorem okCur_extra {k : SK} {pre post : List Tree} {c : Tree} {σ : Sg} {p : Option Sym} (hp : p = prevSym pre)
    (h : okCur k p c.sym (senvAt k (pre ++ c :: post) c).tm (senvAt k (pre ++ c :: post) c).v
      (senvAt k (pre ++ c :: post) c).pm (senvAt k (pre ++ c :: post) c).cm (senvAt k (pre ++ c :: post) c).ch σ = true) :
    σ.d = extra k pre c post + wPart k σ := by
  simp only [okCur, beq_iff_eq] at h
  rw [h]
  simp only [senvAt, senv]
  rw [extraIn_facts, extra, hp]
  rfl

/-! ### Wraps before a child -/

/-- wraps among some children -/
def wrapsU (k : SK) : Option Tree → List Tree → Option Tree → Bool
  | _, [], _ => false
  | prev, d :: pre, next =>
    (wrapsAt k prev d (pre.head?.or next) || (chainChild k d.sym && d.wraps)) || wrapsU k (some d) pre next

theorem wrapsTo_eq (k : SK) (c : Tree) (post : List Tree) : ∀ (pre : List Tree) (prev : Option Tree),
    wrapsTo k prev pre c post = (wrapsU k prev pre (some c) || wrapsAt k (pre.getLast?.or prev) c post.head?)
  | [], prev => by simp [wrapsTo, wrapsU]
  | d :: pre, prev => by
    rw [wrapsTo, wrapsU, wrapsTo_eq k c post pre (some d)]
    have h1 : (pre ++ [c]).head? = pre.head?.or (some c) := by cases pre <;> rfl
    have h2 : (pre.getLast?.or (some d)) = ((d :: pre).getLast?.or prev) := by
      cases pre with
      | nil => rfl
      | cons x xs => rw [List.getLast?_cons_cons]; cases h : (x :: xs).getLast? <;> simp_all
    rw [h1, h2]
    simp only [Bool.or_assoc]

theorem wrapsU_snoc (k : SK) (c : Tree) (next : Option Tree) : ∀ (pre : List Tree) (prev : Option Tree),
    wrapsU k prev (pre ++ [c]) next = (wrapsU k prev pre (some c) ||
      (wrapsAt k (pre.getLast?.or prev) c next || (chainChild k c.sym && c.wraps)))
  | [], prev => by simp [wrapsU]
  | d :: pre, prev => by
    rw [List.cons_append, wrapsU, wrapsU, wrapsU_snoc k c next pre (some d)]
    have h1 : (pre ++ [c]).head?.or next = pre.head?.or (some c) := by cases pre <;> simp
    have h2 : (pre.getLast?.or (some d)) = ((d :: pre).getLast?.or prev) := by
      cases pre with
      | nil => rfl
      | cons x xs => rw [List.getLast?_cons_cons]; cases h : (x :: xs).getLast? <;> simp_all
    rw [h1, h2]
    simp only [Bool.or_assoc]

/-! ### Invariants of the loop -/

theorem steps_inv {b : FBody} {all : List Tree} {q : Option Token} {r' : Regs} {I : List Tree → Regs → List TEv → Prop}
    (hI : ∀ pre c post r r1 ev e, all = pre ++ c :: post → I pre r ev →
      trF (subOf c) { all, cur := some c, idx := pre.length, rest := post } (upCmd b c.sym) r (lastT q ev) = .ok (r1, e) →
      I (pre ++ [c]) r1 (ev ++ e)) :
    ∀ {pre done : List Tree} {c : Tree} {post : List Tree} {r : Regs} {ev : List TEv} {ess : List (List TEv)},
    all = done ++ (pre ++ c :: post) → I done r ev → Steps b all (pre ++ c :: post) done.length r (lastT q ev) ess r' →
    ∃ ea e eb r1 r2, ess = ea ++ e :: eb ∧ ea.length = pre.length ∧ I (done ++ pre) r1 (ev ++ ea.flatten) ∧
      trF (subOf c) { all, cur := some c, idx := (done ++ pre).length, rest := post } (upCmd b c.sym) r1
        (lastT q (ev ++ ea.flatten)) = .ok (r2, e) ∧ I (done ++ pre ++ [c]) r2 (ev ++ ea.flatten ++ e)
  | [], done, c, post, r, ev, ess, ha, h0, h => by
    cases h with
    | @cons _ _ _ _ _ r1 e ess' _ g1 g2 =>
      exact ⟨[], e, ess', r, r1, rfl, rfl, by simpa using h0, by simpa using g1,
        by simpa using hI done c post r r1 ev e ha h0 g1⟩
  | d :: pre, done, c, post, r, ev, ess, ha, h0, h => by
    cases h with
    | @cons _ _ _ _ _ r1 e ess' _ g1 g2 =>
      have h1 := hI done d (pre ++ c :: post) r r1 ev e ha h0 g1
      have hl : done.length + 1 = (done ++ [d]).length := by simp
      rw [hl, ← lastT_append] at g2
      obtain ⟨ea, e', eb, r3, r4, rfl, k1, k2, k3, k4⟩ := steps_inv hI (done := done ++ [d]) (by simpa using ha) h1 g2
      refine ⟨e :: ea, e', eb, r3, r4, rfl, by simp [k1], by simpa using k2, by simpa using k3, by simpa using k4⟩

theorem Steps.length {b : FBody} {all cs : List Tree} {idx : Nat} {r r' : Regs} {q : Option Token} {ess : List (List TEv)}
    (h : Steps b all cs idx r q ess r') : ess.length = cs.length := by
  induction h with
  | nil => rfl
  | cons _ _ ih => simp [ih]

/-- What holds before every child. -/
structure Before (k : SK) (all : List Tree) (a : Args) (q : Option Token) (e1 : List TEv) (pre : List Tree) (r : Regs)
    (ev : List TEv) : Prop where
  lv : LvAt k all pre a ((pre.map Tree.sym).foldl (lvStep (senv k (fact (usesTm k) (spansLines all))
    (fact (usesTm k) (decide (all.length > 1))) (fact (usesPm k) (bracketsApart (bracketsOf k).1 (bracketsOf k).2 all))) k)
    (lvInit (senv k (fact (usesTm k) (spansLines all)) (fact (usesTm k) (decide (all.length > 1)))
      (fact (usesPm k) (bracketsApart (bracketsOf k).1 (bracketsOf k).2 all))) k)) r (e1 ++ ev)
  regs : RegsBefore k pre all r
  last : toks ev = leavesF pre
  w : exprPart k = true → ∀ post, all = pre ++ post → r.w = (a.w || wrapsU k none pre post.head?)

theorem toks_last {q : Option Token} {ev : List TEv} {pre : List Tree} (h : toks ev = leavesF pre)
    (hE : ∀ x ∈ pre, x.hasEmpty = false) : ∀ x, pre.getLast? = some x → lastT q ev = x.end? := by
  intro x hx
  obtain ⟨t, h1, h2⟩ := end_leaves x (hE x (List.mem_of_getLast? hx))
  rw [h2]
  refine lastT_toks ev q t ?_
  rw [h]
  rcases List.eq_nil_or_concat pre with rfl | ⟨pre', d, rfl⟩
  · cases hx
  · rw [List.concat_eq_append, List.getLast?_concat] at hx
    cases hx
    rw [List.concat_eq_append, leavesF_append]
    simp [leavesF, h1]

theorem before_step {k : SK} {all : List Tree} (hC : Tree.Conforms (.node k all)) (hE : hasEmptyF all = false)
    {a : Args} {q : Option Token} {e1 : List TEv} {pre post : List Tree} {c : Tree} {r r1 : Regs} {ev e : List TEv}
    (ha : all = pre ++ c :: post) (h : Before k all a q e1 pre r ev)
    (g : trF (subOf c) { all, cur := some c, idx := pre.length, rest := post } (upCmd (Fmt.body k) c.sym) r (lastT q ev)
      = .ok (r1, e)) : Before k all a q e1 (pre ++ [c]) r1 (ev ++ e) := by
  have hm : c ∈ all := by rw [ha]; simp
  have hsym := syms_complete hC.1 c.sym (List.mem_map_of_mem hm)
  have hCc := conformsF_mem hC.2 c hm
  have hEc := hasEmptyF_mem hE c hm
  refine ⟨?_, ?_, ?_, ?_⟩
  · obtain ⟨σ, m1, p1, p2, p3, p4⟩ := h.lv.ex
    obtain ⟨_, σ', m2, q1, q2, q3, q4⟩ := lv_sound (k := k) (c := c) ((treeOK_tree hC hE).at _ rfl) rfl (netOK c hCc hEc)
      ((calls_ok k).2.2 _ hsym) (once_all k _ hsym) p1 g
    refine ⟨σ', ?_, q1, by rw [q2, p2], by rw [q3, p3], ?_⟩
    · rw [List.map_append, List.foldl_append]
      exact mem_dedup.2 (List.mem_flatMap.2 ⟨σ, m1, m2⟩)
    · rw [← List.append_assoc, net_append, p4, q4, leaksF_append]
      simp [leaksF, leakAt]
      omega
  · intro P h0 hs
    exact hs pre c _ r r1 _ e rfl (h.regs P h0 hs) g
  · have := once_toks (c := c) rfl (printed c hCc) (once_all k _ hsym) g
    rw [toks_append, h.last, leavesF_append, this.2]
    simp [leavesF]
  · intro hk post' ha'
    have hp : post' = post := by
      have : pre ++ c :: post = pre ++ c :: post' := by rw [← ha, ha']; simp
      simpa using this.symm
    subst hp
    have hEp : ∀ x ∈ pre, x.hasEmpty = false := fun x hx => hasEmptyF_mem hE x (by rw [ha]; simp [hx])
    have hEs : hasEmptyF post' = false := by
      rw [ha, hasEmptyF_append, hasEmptyF] at hE
      simp only [Bool.or_eq_false_iff] at hE
      exact hE.2.2
    have hw := wraps_step hk hC.1 ha rfl hEp ⟨hEc, hEs⟩ rfl
      (toks_last h.last hEp) (fun hs hf h => wraps_run c hCc hEc hs hf h) g
    rw [hw, h.w hk _ ha, wrapsU_snoc]
    simp [Bool.or_assoc]

/-! ### The statements for a child -/

theorem leadD_sound {sub : SK → Args → Option Token → Res (Bool × List TEv)} {ev : Bool → Sg → FCond → Option Bool} {cx : Ctx}
    {q : Option Token} {pr : SK} (hev : EvOK ev cx q pr) :
    ∀ {cmd : FCmd} {r r' : Regs} {es : List TEv} {σ σ' : Sg} {res : Option Blank},
    r.prevRule = pr → σ.Rel r → leadD ev cmd σ = some (res, σ') → trF sub cx cmd r q = .ok (r', es) →
    (∀ b, res = some b → ∃ i t z, es = i ++ .brk t b :: z ∧ (∀ e ∈ i, e.ind = true) ∧ cx.target .cur = .ok t ∧
      net i = σ'.d - σ.d) ∧
    (res = none → (∀ e ∈ es, e.ind = true) ∧ σ'.Rel r' ∧ r'.prevRule = pr ∧ net es = σ'.d - σ.d) ∧ σ'.w = σ.w ∧ σ'.w0 = σ.w0 := by
  intro cmd
  induction cmd with
  | skip =>
    intro r r' es σ σ' res hp hr hl h
    cases hl; cases h
    exact ⟨fun b hb => (by cases hb), fun _ => ⟨by simp, hr, hp, by simp [net]⟩, rfl, rfl⟩
  | seq a b iha ihb =>
    intro r r' es σ σ' res hp hr hl h
    obtain ⟨⟨r1, e1⟩, h1, h⟩ := Res.bind_eq_ok.1 h
    obtain ⟨⟨r2, e2⟩, h2, h⟩ := Res.bind_eq_ok.1 h
    cases h
    simp only [leadD] at hl
    split at hl
    · cases hl
    · rename_i bl y hy
      cases hl
      obtain ⟨k1, _, k3⟩ := iha hp hr hy h1
      refine ⟨fun b hb => ?_, fun hb => (by cases hb), k3⟩
      obtain ⟨i, t, z, g1, g2, g3, g4⟩ := k1 b hb
      exact ⟨i, t, z ++ e2, by simp [g1], g2, g3, g4⟩
    · rename_i y hy
      obtain ⟨_, k2, k3, k4⟩ := iha hp hr hy h1
      obtain ⟨g1, g2, g3, g4⟩ := k2 rfl
      rw [ind_lastT g1] at h2
      obtain ⟨m1, m2, m3, m4⟩ := ihb g3 g2 hl h2
      refine ⟨fun b hb => ?_, fun hb => ?_, m3.trans k3, m4.trans k4⟩
      · obtain ⟨i, t, z, n1, n2, n3, n4⟩ := m1 b hb
        refine ⟨e1 ++ i, t, z, by simp [n1], ?_, n3, by rw [net_append, g4, n4]; omega⟩
        intro e he
        rcases List.mem_append.mp he with he | he
        · exact g1 e he
        · exact n2 e he
      · obtain ⟨n1, n2, n3, n4⟩ := m2 hb
        refine ⟨?_, n2, n3, by rw [net_append, g4, n4]; omega⟩
        intro e he
        rcases List.mem_append.mp he with he | he
        · exact g1 e he
        · exact n1 e he
  | ite c a b iha ihb =>
    intro r r' es σ σ' res hp hr hl h
    obtain ⟨t, h1, h⟩ := Res.bind_eq_ok.1 h
    simp only [leadD] at hl
    split at hl
    · rename_i hk
      have := hev (fun _ => ⟨rfl, hp⟩) hr hk h1
      subst this
      exact iha hp hr hl h
    · rename_i hk
      have := hev (fun _ => ⟨rfl, hp⟩) hr hk h1
      subst this
      exact ihb hp hr hl h
    · cases hl
  | indent =>
    intro r r' es σ σ' res hp hr hl h
    cases hl; cases h
    exact ⟨fun b hb => (by cases hb), fun _ => ⟨by simp [TEv.ind], ⟨hr.m, hr.w, hr.o, hr.c, hr.x⟩, hp, by simp [net]; omega⟩, rfl, rfl⟩
  | dedent =>
    intro r r' es σ σ' res hp hr hl h
    cases hl; cases h
    exact ⟨fun b hb => (by cases hb), fun _ => ⟨by simp [TEv.ind], ⟨hr.m, hr.w, hr.o, hr.c, hr.x⟩, hp, by simp [net]; omega⟩, rfl, rfl⟩
  | brk tg bl =>
    intro r r' es σ σ' res hp hr hl h
    cases tg with
    | next => cases hl
    | cur =>
      cases hl
      obtain ⟨t, h1, h⟩ := Res.bind_eq_ok.1 h
      cases h
      refine ⟨fun b hb => ?_, fun hb => (by cases hb), rfl, rfl⟩
      cases hb
      exact ⟨[], t, [], rfl, by simp, h1, by simp [net]⟩
  | set g c =>
    intro r r' es σ σ' res hp hr hl h
    cases g with
    | x =>
      simp only [leadD, Option.map_eq_some_iff] at hl
      obtain ⟨b, hb, hl⟩ := hl
      cases hl
      obtain ⟨t, h1, h⟩ := Res.bind_eq_ok.1 h
      cases h
      have := hev (fun _ => ⟨rfl, hp⟩) hr hb h1
      subst this
      exact ⟨fun b hb => (by cases hb), fun _ => ⟨by simp, ⟨hr.m, hr.w, hr.o, hr.c, rfl⟩, hp, by simp [net]⟩, rfl, rfl⟩
    | _ => cases hl
  | _ => intro r r' es σ σ' res hp hr hl h; cases hl

/-- what happens at a child; `L`: the level before -/
structure ArmDepth (G : Int → Token → Prop) (k : SK) (n : Nat) (a : Args) (pre : List Tree) (c : Tree) (post : List Tree)
    (q : Option Token) (L : Int) (r : Regs) (e : List TEv) : Prop where
  brks : Brks G L e
  call : ∀ fn, c.sym = .n fn → ∃ x y z a' w', e = x ++ y ++ z ∧ toks x = [] ∧
    a'.w = (chainChild k c.sym && wrappedAt k a.w pre c post) ∧ subOf c fn a' q = .ok (w', y) ∧
    L + net x = levelIn k n a.w pre c post
  row : operatorIn k c.sym = false → ∀ b, breakBefore k (prevSym pre) c.sym = some b → ∃ i t z, e = i ++ .brk t b :: z ∧ (∀ e ∈ i, e.ind = true) ∧
    L + net i = levelIn k n a.w pre c post
  comp : ∀ fn, c.sym = .n fn → fn = .Composition → kindOf q ∈ beforeComposition
  op : operatorIn k c.sym = true → L = (n + extra k pre c post + leaksF k pre : Nat) + (if exprPart k then b2i r.w - b2i a.w else 0)

theorem chain_expr : ∀ k s, chainChild k s = true → exprPart k = true := by
  intro k s h
  unfold chainChild at h
  split at h <;> first | rfl | cases h

/-- the level at a place where the check is passed -/
theorem level_calc {k : SK} {n : Nat} {a : Args} {pre post : List Tree} {c : Tree} {σ : Sg} {W : Bool}
    (h1 : σ.d = extra k pre c post + wPart k σ) (h2 : σ.w = W) (h3 : σ.w0 = a.w) (h4 : exprPart k = true → W = (a.w || wrapsTo k none pre c post)) :
    (n : Int) + leaksF k pre + σ.d = levelIn k n a.w pre c post := by
  rw [h1, levelIn, wPart, wrappedAt, h2, h3]
  cases hk : exprPart k
  · simp; omega
  · rw [← h4 hk]
    have hm : a.w = true → W = true := fun h => by rw [h4 hk, h]; rfl
    clear h1 h2 h3 h4
    revert hm
    cases a.w <;> cases W <;> simp [b2i] <;> omega

theorem arm_depth {G : Int → Token → Prop} {k : SK} {all : List Tree} (hC : Tree.Conforms (.node k all)) (hE : hasEmptyF all = false)
    {a : Args} {q : Option Token} {e1 : List TEv} {pre post : List Tree} {c : Tree} {r r1 : Regs} {ev e : List TEv} {n : Nat}
    (ha : all = pre ++ c :: post) (hQ : k = .Composition → kindOf q ∈ beforeComposition) (h : Before k all a q e1 pre r ev)
    (g : trF (subOf c) { all, cur := some c, idx := pre.length, rest := post } (upCmd (Fmt.body k) c.sym) r (lastT q ev)
      = .ok (r1, e))
    (hG1 : ∀ t, c.start? = some t → G (levelIn k n a.w pre c post) t)
    (hG2 : ∀ fn a' w' es, c.sym = .n fn → a'.w = (chainChild k c.sym && wrappedAt k a.w pre c post) →
      (fn = .Composition → kindOf (lastT q ev) ∈ beforeComposition) → subOf c fn a' (lastT q ev) = .ok (w', es) →
      Brks G (levelIn k n a.w pre c post) es)
    (hG3 : ∀ d post', post = d :: post' → ∀ t, d.start? = some t → G (levelIn k n a.w (pre ++ [c]) d post') t) :
    ArmDepth G k n a pre c post (lastT q ev) (n + net (e1 ++ ev)) r e := by
  have hm : c ∈ all := by rw [ha]; simp
  have hsym := syms_complete hC.1 c.sym (List.mem_map_of_mem hm)
  have hCc := conformsF_mem hC.2 c hm
  have hEc := hasEmptyF_mem hE c hm
  have hEp : ∀ x ∈ pre, x.hasEmpty = false := fun x hx => hasEmptyF_mem hE x (by rw [ha]; simp [hx])
  have hEs : hasEmptyF post = false := by
    rw [ha, hasEmptyF_append, hasEmptyF] at hE
    simp only [Bool.or_eq_false_iff] at hE
    exact hE.2.2
  have hEn : Tree.hasEmpty (.node k (pre ++ c :: post)) = false := by
    simp only [Tree.hasEmpty, Bool.or_eq_false_iff]
    exact ⟨by simp, ha ▸ hE⟩
  have hqc : pre = [] → lastT q ev = q := by
    rintro rfl
    rw [lastT_eq, h.last]
    rfl
  have hA : Agree k (prevSym pre) { all, cur := some c, idx := pre.length, rest := post } r (lastT q ev) := by
    subst ha
    refine agree_at hC hEn ?_ (fun h1 h2 => (hqc h2).symm ▸ hQ h1) h.regs
    intro t ht
    exact lastT_toks ev q t (by rw [h.last, ht])
  have hev : EvOK (evK k (prevSym pre) (senvAt k all c)) { all, cur := some c, idx := pre.length, rest := post } (lastT q ev)
      r.prevRule := evK_ok hA (treeOK_at hC hE hm (idx := pre.length) (rest := post))
  -- the child is a composition
  have hcomp : ∀ fn, c.sym = .n fn → fn = .Composition → kindOf (lastT q ev) ∈ beforeComposition := by
    rintro fn hs rfl
    have hk := composition_parent k (hs ▸ hsym)
    subst hk
    subst ha
    rcases List.eq_nil_or_concat pre with rfl | ⟨pre', d, rfl⟩
    · have := first_complete (u := post.map Tree.sym) (c := Sym.n .Composition) (r := Gram.spec .LongClassSpecifier)
        (by simpa [hs] using hC.1)
      exact absurd this (by decide)
    · rw [List.concat_eq_append] at *
      have hassoc : pre' ++ [d] ++ c :: post = pre' ++ d :: c :: post := by simp
      rw [hassoc] at hC hEn
      have hadj := checkG_sound before_comp hC.1
      simp only [List.map_append, List.map_cons] at hadj
      have hadj := adj_pair hadj
      obtain ⟨t, k1, k2, k3⟩ := prev_kind hC hEn
      rw [lastT_toks ev q t (by rw [h.last, k1])]
      simp only [beforeComp, hs, bne_self_eq_false, Bool.false_or, List.contains_iff_mem, List.mem_cons,
        List.not_mem_nil, or_false] at hadj
      simp only [kindOf]
      rcases hadj with hadj | hadj | hadj
      · rw [k2 _ hadj]; decide
      · have := k3 _ _ hadj rfl
        simp only [List.mem_singleton] at this
        rw [this]; decide
      · have := k3 _ _ hadj rfl
        simp only [List.mem_singleton] at this
        rw [this]; decide
  -- the check
  obtain ⟨σ, m1, p1, p2, p3, p4⟩ := h.lv.ex
  have hdk := checkG_sound (depth_ok k _ (fact_mem (usesTm k) (spansLines all)) _ (fact_mem (usesTm k) (decide (all.length > 1))) _
    (fact_mem (usesPm k) (bracketsApart (bracketsOf k).1 (bracketsOf k).2 all))) hC.1
  have hmap : all.map Tree.sym = pre.map Tree.sym ++ c.sym :: post.map Tree.sym := by rw [ha]; simp
  rw [hmap] at hdk
  have hsf := site_at hdk
  have hsf := List.all_eq_true.1 (List.all_eq_true.1 (List.all_eq_true.1 hsf _ (fact_mem (usesCm k) (longIf c))) _
    (fact_mem (usesCh k) (occursF .Description c.kids))) σ m1
  rw [List.getLast?_map] at hsf
  change (sites (evK k (prevSym pre) (senvAt k all c)) c.sym (okCur k (prevSym pre) c.sym (senvAt k all c).tm (senvAt k all c).v
    (senvAt k all c).pm (senvAt k all c).cm (senvAt k all c).ch) (okNext k c.sym (post.map Tree.sym).head? (senvAt k all c).tm
    (senvAt k all c).v (senvAt k all c).pm) false (upCmd (Fmt.body k) c.sym) σ && (!operatorIn k c.sym || okCur k (prevSym pre) c.sym
    (senvAt k all c).tm (senvAt k all c).v (senvAt k all c).pm (senvAt k all c).cm (senvAt k all c).ch σ) &&
    rowFine k (prevSym pre) c.sym (okCur k (prevSym pre) c.sym (senvAt k all c).tm (senvAt k all c).v
    (senvAt k all c).pm (senvAt k all c).cm (senvAt k all c).ch) (leadD (evK k (prevSym pre) (senvAt k all c))
    (upCmd (Fmt.body k) c.sym) σ)) = true at hsf
  simp only [Bool.and_eq_true] at hsf
  obtain ⟨⟨s1, s2⟩, s3⟩ := hsf
  have hoc : ∀ {σ' : Sg}, okCur k (prevSym pre) c.sym (senvAt k all c).tm (senvAt k all c).v (senvAt k all c).pm
      (senvAt k all c).cm (senvAt k all c).ch σ' = true → σ'.d = extra k pre c post + wPart k σ' := by
    intro σ' ho
    rw [ha] at ho
    exact okCur_extra rfl ho
  -- wraps
  have hw1 : exprPart k = true → r1.w = (r.w || (wrapsAt k pre.getLast? c post.head? || (chainChild k c.sym && c.wraps))) := by
    intro hk
    exact wraps_step hk hC.1 ha rfl hEp ⟨hEc, hEs⟩ rfl (toks_last h.last hEp)
      (fun hs hf h => wraps_run c hCc hEc hs hf h) g
  have hw0 : exprPart k = true → r.w = (a.w || wrapsU k none pre (some c)) := fun hk => h.w hk (c :: post) ha
  have hwt : wrapsTo k none pre c post = (wrapsU k none pre (some c) || wrapsAt k pre.getLast? c post.head?) := by
    rw [wrapsTo_eq]
    cases pre.getLast? <;> rfl
  have hop : ∀ {k' : SK} {o : Tree} {x y : Option Tree}, operatorIn k' o.sym = false → wrapsAt k' x o y = false := by
    intro k' o x y ho
    simp [wrapsAt, ho]
  have hop' : chainChild k c.sym = true → operatorIn k c.sym = false := by
    intro hch
    have := (chain_arms k (chain_expr _ _ hch)).2.2 c.sym hsym
    split at this
    · rw [hch] at this; cases this
    · rename_i ho; simpa using ho
  have hwrapped : ∀ {W : Bool}, (exprPart k = true → W = (a.w || wrapsTo k none pre c post)) →
      (chainChild k c.sym && wrappedAt k a.w pre c post) = (chainChild k c.sym && W) := by
    intro W hW
    cases hch : chainChild k c.sym
    · rfl
    · rw [wrappedAt, chain_expr _ _ hch, hW (chain_expr _ _ hch)]
      simp
  have hrow : operatorIn k c.sym = false → exprPart k = true → r.w = (a.w || wrapsTo k none pre c post) := by
    intro ho hk
    rw [hw0 hk, hwt, hop ho, Bool.or_false]
  have hL : ∀ {es : List TEv} {L : Int}, net (e1 ++ ev) = L → (n : Int) + net (e1 ++ ev) = n + L := fun h => by rw [h]
  have key : ∀ (W : Bool) (_ : exprPart k = true → W = (a.w || wrapsTo k none pre c post)),
      (Brks G (n + net (e1 ++ ev)) e ∧ ∀ fn, c.sym = .n fn → ∃ x y z a' w', e = x ++ y ++ z ∧ toks x = [] ∧
        a'.w = (chainChild k c.sym && W) ∧ subOf c fn a' (lastT q ev) = .ok (w', y) ∧
        (n : Int) + net (e1 ++ ev) + net x = levelIn k n a.w pre c post) →
      ArmDepth G k n a pre c post (lastT q ev) (n + net (e1 ++ ev)) r e := by
    rintro W hW ⟨b1, b2⟩
    refine ⟨b1, ?_, ?_, hcomp, ?_⟩
    · intro fn hs
      obtain ⟨x, y, z, a', w', y1, y2, y3, y4, y5⟩ := b2 fn hs
      exact ⟨x, y, z, a', w', y1, y2, by rw [y3, hwrapped hW], y4, y5⟩
    · intro ho b hb
      rw [rowFine, hb] at s3
      simp only at s3
      split at s3
      · rename_i b' σ' hl
        simp only [Bool.and_eq_true, beq_iff_eq] at s3
        obtain ⟨z1, z2, z3, z4⟩ := leadD_sound hev rfl p1 hl g
        obtain ⟨i, t, z, w1, w2, w3, w4⟩ := z1 b (by rw [s3.1])
        refine ⟨i, t, z, w1, w2, ?_⟩
        rw [p4, w4, ← level_calc (hoc s3.2) rfl (z4.trans p3) (fun hk => by rw [z3, p1.w]; exact hrow ho hk)]
        omega
      · cases s3
    · intro ho
      rw [ho] at s2
      simp only [Bool.not_true, Bool.false_or] at s2
      rw [p4, hoc s2, wPart, p1.w, p3]
      omega
  cases hch : chainChild k c.sym
  · -- the child is not a part of the same expression
    have hW : exprPart k = true → r1.w = (a.w || wrapsTo k none pre c post) := by
      intro hk
      rw [hw1 hk, hw0 hk, hwt, hch]
      simp [Bool.or_assoc]
    refine key r1.w hW ?_
    have hwf := wFirst_ok k c.sym hsym
    rw [hch, Bool.false_or] at hwf
    have R := sites_sound (G := G) (W := r1.w) (w0 := a.w) (L0 := n + leaksF k pre) (k := k) (c := c) hev rfl (netOK c hCc hEc) (printed c hCc)
      (hC := by
        intro σ' r' o1 o2 o3 o4
        have hlev := level_calc (n := n) (hoc o1) (o2.w.trans o3) o4 hW
        rw [hlev]
        refine ⟨?_, ?_⟩
        · intro t ht
          refine hG1 t ?_
          simp only [Ctx.target, startTok] at ht
          split at ht
          · rename_i hh; cases ht; exact hh
          · cases ht
        · intro fn a' w' es hs ha' hsub
          exact hG2 fn a' w' es hs (by rw [ha', hwrapped hW]) (hcomp fn hs) hsub)
      (hN := by
        intro σ' r' o1 o2 o3 o4 t ht
        cases post with
        | nil => cases ht
        | cons d post' =>
          simp only [List.map_cons, List.head?_cons, okNext, Bool.and_eq_true, Bool.not_eq_true'] at o1
          have hod := List.all_eq_true.1 (List.all_eq_true.1 o1.2 _ (fact_mem (usesCm k) (longIf d))) _
            (fact_mem (usesCh k) (occursF .Description d.kids))
          have ha2 : all = (pre ++ [c]) ++ d :: post' := by rw [ha]; simp
          have hext : σ'.d = extra k (pre ++ [c]) d post' + wPart k σ' := by
            refine okCur_extra (p := some c.sym) (by simp [prevSym]) ?_
            rw [← ha2]
            exact hod
          have hlev := level_calc (n := n) (a := a) hext (o2.w.trans o3) o4 (by
            intro hk
            rw [hw1 hk, hw0 hk, wrapsTo_eq, wrapsU_snoc, hop o1.1]
            simp [hch, Bool.or_assoc])
          have hl : (n : Int) + leaksF k pre + leakAt k c + σ'.d = levelIn k n a.w (pre ++ [c]) d post' := by
            rw [← hlev, leaksF_append]
            simp [leaksF, leakAt]
            omega
          rw [hl]
          refine hG3 d post' rfl t ?_
          simp only [Ctx.target, startTok] at ht
          split at ht
          · rename_i hh; cases ht; exact hh
          · cases ht)
      ((calls_ok k).2.2 _ hsym) hwf (once_all k _ hsym) p1 p3 (fun _ => rfl) (fun _ => ⟨rfl, rfl⟩) s1 g
    refine ⟨?_, ?_⟩
    · have := R.brks
      rw [p4]
      simpa [Int.add_assoc, Int.add_comm, Int.add_left_comm] using this
    · intro fn hs
      obtain ⟨x, y, z, a', w', σ', t1, t2, t3, t4, t5, t6, t7, t8⟩ := R.call rfl rfl fn hs
      refine ⟨x, y, z, a', w', t1, t2, t3, t4, ?_⟩
      rw [← level_calc (hoc t5) t6 t7 hW, p4, t8]
      omega
  · -- it is
    have hk := chain_expr _ _ hch
    have hW := hrow (hop' hch)
    refine key r.w hW ?_
    have harm := (chain_arms k hk).2.2 c.sym hsym
    rw [if_neg (by rw [hop' hch]; simp), if_pos hch] at harm
    cases hs : c.sym with
    | t j => rw [hs] at harm; cases harm
    | n j =>
      rw [hs] at harm
      simp only [chainArm, Bool.and_eq_true, decide_eq_true_eq] at harm
      rw [hs] at g
      obtain ⟨a', x1, x2⟩ := passesW_sound harm.1 g
      have hsite : okCur k (prevSym pre) c.sym (senvAt k all c).tm (senvAt k all c).v (senvAt k all c).pm
          (senvAt k all c).cm (senvAt k all c).ch σ = true := by
        have h' := harm.1
        rw [← hs] at h'
        unfold passesW at h'
        split at h'
        · rename_i hcmd
          rw [hcmd] at s1
          simpa [sites] using s1
        · cases h'
      have hlev := level_calc (n := n) (hoc hsite) p1.w p3 hW
      have hnet : (n : Int) + net (e1 ++ ev) = levelIn k n a.w pre c post := by
        rw [← hlev, p4]
        omega
      have haw : a'.w = (chainChild k c.sym && wrappedAt k a.w pre c post) := by
        rw [hwrapped hW, hch, x1, Bool.true_and]
      refine ⟨?_, ?_⟩
      · rw [hnet]
        exact hG2 j a' _ e hs haw (hcomp j hs) x2
      · intro fn hf
        cases hf
        exact ⟨[], e, [], a', _, by simp, rfl, by rw [← hs, hch, x1, Bool.true_and], x2, by simpa [net] using hnet⟩

end Mofmt
