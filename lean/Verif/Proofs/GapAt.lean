import Verif.Proofs.GapFacts
/-
The layout of every production: the check at a child.
-/
namespace Mofmt

/-! ### The facts at a child -/

def nfAt (k : SK) (m : Bool) (all : List Tree) : NF :=
  ⟨fact (usesTm k) (spansLines all), fact (usesTm k) (decide (all.length > 1)),
    fact (usesPm k) (bracketsApart (bracketsOf k).1 (bracketsOf k).2 all), fact (usesM k) (brokenIn k m all),
    fact (usesL2 k) (decide (all.length > 2)), fact (usesL3 k) (all.length == 3)⟩

/-- Does the child before end with a comma? -/
def commaBefore (pre : List Tree) : Bool :=
  decide ((pre.getLast?.bind fun d => d.kids.getLast?.map Tree.sym) = some (.t .Comma))

/-- Is the child not the first lexeme of the file? -/
def lateAt (c : Tree) : Bool := match c.leaves.head? with
  | some t => decide (t.idx > 0)
  | none => false

def cfAt (k : SK) (pre : List Tree) (c : Tree) (post : List Tree) : CF :=
  ⟨fact (usesCm k) (longIf c), fact (usesCh k) (occursF .Description c.kids),
    fact (usesBl k) (wrapsAt k pre.getLast? c post.head?), fact (usesLt k) (lateAt c), fact (usesCo k) (commaBefore pre)⟩

def envAt (k : SK) (m : Bool) (pre : List Tree) (c : Tree) (post : List Tree) : XEnv :=
  ⟨k, prevSym pre, c.sym, (post.map Tree.sym).head?, min pre.length 4, nfAt k m (pre ++ c :: post), cfAt k pre c post⟩

theorem nfAt_mem (k : SK) (m : Bool) (all : List Tree) : nfAt k m all ∈ nfs k := by
  simp only [nfs, List.mem_flatMap, List.mem_map]
  exact ⟨_, fact_mem _ _, _, fact_mem _ _, _, fact_mem _ _, _, fact_mem _ _, _, fact_mem _ _, _, fact_mem _ _, rfl⟩

theorem cfAt_mem (k : SK) (pre : List Tree) (c : Tree) (post : List Tree) : cfAt k pre c post ∈ cfs k := by
  simp only [cfs, List.mem_flatMap, List.mem_map]
  exact ⟨_, fact_mem _ _, _, fact_mem _ _, _, fact_mem _ _, _, fact_mem _ _, _, fact_mem _ _, rfl⟩

theorem nfAt_agrees (k : SK) (m : Bool) (all : List Tree) : (nfAt k m all).agrees (min all.length 4) = true := by
  have h1 : decide (min all.length 4 > 1) = decide (all.length > 1) := by
    rw [decide_eq_decide]; omega
  have h2 : decide (min all.length 4 > 2) = decide (all.length > 2) := by
    rw [decide_eq_decide]; omega
  have h3 : (min all.length 4 == 3) = (all.length == 3) := by
    rw [Bool.eq_iff_iff, beq_iff_eq, beq_iff_eq]; omega
  simp only [NF.agrees, nfAt, h1, h2, h3]
  cases usesTm k <;> cases usesL2 k <;> cases usesL3 k <;> simp [fact]

theorem broken_facts (k : SK) (m : Bool) (all : List Tree) : (nfAt k m all).broken k = brokenIn k m all := by
  cases k <;> rfl

theorem passedIn_described {k s b d l} (d') (h : usesCh k = false) : passedIn k s b d l = passedIn k s b d' l := by
  unfold passedIn
  split <;> first | rfl | cases h

theorem passedIn_single {k s b d l} (l') (h : usesL3 k = false) : passedIn k s b d l = passedIn k s b d l' := by
  unfold passedIn
  split <;> first | rfl | cases h

theorem passed_facts (k : SK) (m : Bool) (pre : List Tree) (c : Tree) (post : List Tree) :
    passedIn k c.sym ((nfAt k m (pre ++ c :: post)).broken k) ((cfAt k pre c post).ch.getD false)
      ((nfAt k m (pre ++ c :: post)).l3.getD false) = passedAt k m pre c post := by
  rw [broken_facts, passedAt]
  have e1 : ∀ x y, passedIn k c.sym x ((cfAt k pre c post).ch.getD false) y = passedIn k c.sym x (occursF .Description c.kids) y := by
    intro x y
    simp only [cfAt]
    cases h : usesCh k
    · exact passedIn_described _ h
    · rfl
  have e2 : ∀ x y, passedIn k c.sym x y ((nfAt k m (pre ++ c :: post)).l3.getD false) =
      passedIn k c.sym x y ((pre ++ c :: post).length == 3) := by
    intro x y
    simp only [nfAt]
    cases h : usesL3 k
    · exact passedIn_single _ h
    · rfl
  rw [e1, e2]

theorem gapIn_longIf {k p s} {f : Facts} (x) (h : usesCm k = false) : gapIn k p s f = gapIn k p s { f with longIf := x } := by
  unfold gapIn spaceIn
  cases k <;> first | rfl | cases h

theorem gapIn_wraps {k p s} {f : Facts} (x) (h : usesBl k = false) : gapIn k p s f = gapIn k p s { f with wraps := x } := by
  unfold gapIn spaceIn
  cases k <;> first | rfl | cases h

theorem gapIn_late {k p s} {f : Facts} (x) (h : usesLt k = false) : gapIn k p s f = gapIn k p s { f with late := x } := by
  unfold gapIn spaceIn
  cases k <;> first | rfl | cases h

theorem gapIn_comma {k p s} {f : Facts} (x) (h : usesCo k = false) : gapIn k p s f = gapIn k p s { f with comma := x } := by
  unfold gapIn spaceIn
  cases k <;> first | rfl | cases h

theorem gap_facts (k : SK) (m : Bool) (pre : List Tree) (c : Tree) (post : List Tree) :
    gapIn k (prevSym pre) c.sym (envAt k m pre c post).facts = gapAt k m pre c post := by
  have h2 : (min pre.length 4 == 1) = (pre.length == 1) := by
    rw [Bool.eq_iff_iff, beq_iff_eq, beq_iff_eq]; omega
  have hf : (envAt k m pre c post).facts = ⟨brokenIn k m (pre ++ c :: post), passedAt k m pre c post,
      (fact (usesCm k) (longIf c)).getD false, (fact (usesBl k) (wrapsAt k pre.getLast? c post.head?)).getD false,
      (fact (usesLt k) (lateAt c)).getD false, (fact (usesCo k) (commaBefore pre)).getD false, pre.length == 1⟩ := by
    rw [← broken_facts, ← passed_facts, ← h2]
    rfl
  rw [hf, gapAt]
  change _ = gapIn k (prevSym pre) c.sym ⟨brokenIn k m (pre ++ c :: post), passedAt k m pre c post, longIf c,
    wrapsAt k pre.getLast? c post.head?, lateAt c, commaBefore pre, pre.length == 1⟩
  generalize brokenIn k m (pre ++ c :: post) = x1, passedAt k m pre c post = x2, longIf c = x3,
    wrapsAt k pre.getLast? c post.head? = x4, lateAt c = x5, commaBefore pre = x6, (pre.length == 1) = x7
  have e3 : ∀ a b y1 y2 y3 y4, gapIn k (prevSym pre) c.sym ⟨a, b, (fact (usesCm k) x3).getD false, y1, y2, y3, y4⟩ =
      gapIn k (prevSym pre) c.sym ⟨a, b, x3, y1, y2, y3, y4⟩ := by
    intro a b y1 y2 y3 y4
    cases h : usesCm k
    · exact gapIn_longIf _ h
    · rfl
  have e4 : ∀ a b y1 y2 y3 y4, gapIn k (prevSym pre) c.sym ⟨a, b, y1, (fact (usesBl k) x4).getD false, y2, y3, y4⟩ =
      gapIn k (prevSym pre) c.sym ⟨a, b, y1, x4, y2, y3, y4⟩ := by
    intro a b y1 y2 y3 y4
    cases h : usesBl k
    · exact gapIn_wraps _ h
    · rfl
  have e5 : ∀ a b y1 y2 y3 y4, gapIn k (prevSym pre) c.sym ⟨a, b, y1, y2, (fact (usesLt k) x5).getD false, y3, y4⟩ =
      gapIn k (prevSym pre) c.sym ⟨a, b, y1, y2, x5, y3, y4⟩ := by
    intro a b y1 y2 y3 y4
    cases h : usesLt k
    · exact gapIn_late _ h
    · rfl
  have e6 : ∀ a b y1 y2 y3 y4, gapIn k (prevSym pre) c.sym ⟨a, b, y1, y2, y3, (fact (usesCo k) x6).getD false, y4⟩ =
      gapIn k (prevSym pre) c.sym ⟨a, b, y1, y2, y3, x6, y4⟩ := by
    intro a b y1 y2 y3 y4
    cases h : usesCo k
    · exact gapIn_comma _ h
    · rfl
  rw [e3, e4, e5, e6]

/-! ### Conditions -/

theorem evX_ok {k : SK} {m : Bool} {pre post : List Tree} {c : Tree} (hC : Tree.Conforms (.node k (pre ++ c :: post)))
    (hE : hasEmptyF (pre ++ c :: post) = false) {r0 : Regs} {q0 : Option Token}
    (hA : Agree k (prevSym pre) { all := pre ++ c :: post, cur := some c, idx := pre.length, rest := post } r0 q0)
    (hq : (setAt k (prevSym pre)).has (kindOf q0) = true) (hl : ∀ x, pre.getLast? = some x → q0 = x.end?) :
    EvOK (evX (envAt k m pre c post)) { all := pre ++ c :: post, cur := some c, idx := pre.length, rest := post } q0 r0.prevRule := by
  have hev : EvOK (evK k (prevSym pre) (senvAt k (pre ++ c :: post) c))
      { all := pre ++ c :: post, cur := some c, idx := pre.length, rest := post } q0 r0.prevRule :=
    evK_ok hA (treeOK_at hC hE (by simp) (idx := pre.length) (rest := post))
  have hEc := hasEmptyF_mem hE c (by simp)
  have hEs : ∀ x ∈ post, x.hasEmpty = false := fun x hx => hasEmptyF_mem hE x (by simp [hx])
  have hEp : ∀ x ∈ pre, x.hasEmpty = false := fun x hx => hasEmptyF_mem hE x (by simp [hx])
  intro e σ r q g
  induction g with
  | nextTree =>
    intro b v he hr h1 h2
    cases post with
    | nil => cases h1; cases h2; rfl
    | cons d post => cases d <;> cases h1 <;> cases h2 <;> rfl
  | nextTreeU =>
    intro b v he hr h1 h2
    cases post with
    | nil => cases h2
    | cons d post => cases d <;> cases h1 <;> cases h2 <;> rfl
  | nextTok =>
    intro b v he hr h1 h2
    cases post with
    | nil => cases h1; cases h2; rfl
    | cons d post => cases d <;> cases h1 <;> cases h2 <;> rfl
  | idxGt n =>
    intro b v he hr h1 h2
    cases h2
    have h1 : (if n < 4 then some (decide (min pre.length 4 > n)) else none) = some b := h1
    change decide (pre.length > n) = b
    split at h1
    · cases h1
      rw [decide_eq_decide]; omega
    · cases h1
  | idxEq n =>
    intro b v he hr h1 h2
    cases h2
    have h1 : (if n < 4 then some (min pre.length 4 == n) else none) = some b := h1
    change (pre.length == n) = b
    split at h1
    · cases h1
      rw [Bool.eq_iff_iff, beq_iff_eq, beq_iff_eq]; omega
    · cases h1
  | lenGt n =>
    intro b v he hr h1 h2
    by_cases hn : n = 2
    · subst hn
      cases h2
      have h1 : fact (usesL2 k) (decide ((pre ++ c :: post).length > 2)) = some b := h1
      exact (fact_some h1).1.symm
    · refine hev he hr ?_ h2
      unfold evX at h1
      split at h1 <;> first | (rename_i hh; cases hh; done) | skip
      all_goals first | exact h1 | (rename_i hh; cases hh; exact absurd rfl hn)
  | lenEq n =>
    intro b v he hr h1 h2
    by_cases hn : n = 3
    · subst hn
      cases h2
      have h1 : fact (usesL3 k) ((pre ++ c :: post).length == 3) = some b := h1
      exact (fact_some h1).1.symm
    · refine hev he hr ?_ h2
      unfold evX at h1
      split at h1 <;> first | (rename_i hh; cases hh; done) | skip
      all_goals first | exact h1 | (rename_i hh; cases hh; exact absurd rfl hn)
  | nextBelow =>
    intro b v he hr h1 h2
    have h1 : (if e || (prevSym pre).isNone || !operatorIn k c.sym then none
      else fact (usesBl k) (wrapsAt k pre.getLast? c post.head?)) = some b := h1
    split at h1
    · cases h1
    · rename_i hn
      simp only [Bool.or_eq_true, not_or, Bool.not_eq_true, Bool.not_eq_false'] at hn
      obtain ⟨⟨n1, n2⟩, n3⟩ := hn
      have h1 := (fact_some h1).1
      obtain ⟨rfl, _⟩ := he n1
      cases hp : pre.getLast? with
      | none => rw [prevSym, hp] at n2; cases n2
      | some d =>
        obtain ⟨t, _, e2⟩ := end_leaves d (hEp d (List.mem_of_getLast? hp))
        have hq' := hl d hp
        subst hq'
        cases post with
        | nil => cases h2
        | cons y ys =>
          obtain ⟨x, xs, _, s2⟩ := start_leaves y (hEs y (by simp))
          simp only [evalFC, Ctx.target, startTok, s2, Res.bind_ok] at h2
          cases h2
          rw [h1]
          simp only [wrapsAt, n3, hp, Option.bind_some, e2, s2, List.head?_cons, Bool.true_and]
          rfl
  | tokIdxPos =>
    intro b v he hr h1 h2
    have h1 : fact (usesLt k) (lateAt c) = some b := h1
    obtain ⟨x, xs, s1, s2⟩ := start_leaves c hEc
    simp only [evalFC, Ctx.target, startTok, s2, Res.bind_ok] at h2
    cases h2
    rw [(fact_some h1).1, lateAt, s1]
    rfl
  | curEmpty =>
    intro b v he hr h1 h2
    cases h1
    cases c with
    | tok t => cases h2
    | node j ds =>
      cases h2
      simp only [Tree.hasEmpty, Bool.or_eq_false_iff, List.isEmpty_eq_false_iff] at hEc
      cases ds with
      | nil => exact absurd rfl hEc.1
      | cons _ _ => rfl
  | prevTok t =>
    intro b v he hr h1 h2
    have h1 : (if e then none else (setAt k (prevSym pre)).says t) = some b := h1
    split at h1
    · cases h1
    · rename_i hn
      obtain ⟨rfl, _⟩ := he (by simpa using hn)
      cases h2
      exact TokSet.says_sound hq h1
  | not a ih =>
    intro b v he hr h1 h2
    simp only [evX, Option.map_eq_some_iff] at h1
    obtain ⟨b', h1, rfl⟩ := h1
    obtain ⟨v', h3, h2⟩ := Res.bind_eq_ok.1 h2
    cases h2
    rw [ih he hr h1 h3]
  | and a b iha ihb =>
    intro b' v he hr h1 h2
    simp only [evX] at h1
    split at h1
    · rename_i hk
      cases h1
      exact hev he hr hk h2
    · obtain ⟨v', h3, h2⟩ := Res.bind_eq_ok.1 h2
      split at h1
      · rename_i hk
        have := iha he hr hk h3
        subst this
        exact ihb he hr h1 h2
      · rename_i hk
        have := iha he hr hk h3
        subst this
        cases h1; cases h2; rfl
      · cases h1
  | _ => intro b v he hr h1 h2; exact hev he hr h1 h2

/-! ### The check at a child -/

/-- what the arm before leaves pending, before `s` -/
def trailTo (k : SK) (nf : NF) (w : List Sym) (s : Sym) : Gap := ((w ++ [s]).foldl (gStep k nf) (gInit k nf)).T

theorem g_state (k : SK) (nf : NF) (s : Sym) : ∀ (w : List Sym), ∃ ok,
    (w ++ [s]).foldl (gStep k nf) (gInit k nf) =
      ⟨w.foldl (lvStep (senv k nf.tm nf.v nf.pm) k) (lvInit (senv k nf.tm nf.v nf.pm) k), w.getLast?, some s, min w.length 4,
        trailTo k nf w s, ok⟩ := by
  intro w
  rcases List.eq_nil_or_concat w with rfl | ⟨w', s', rfl⟩
  · exact ⟨true, rfl⟩
  · rw [List.concat_eq_append]
    obtain ⟨ok, h⟩ := g_state k nf s' w'
    refine ⟨((w' ++ [s'] ++ [s]).foldl (gStep k nf) (gInit k nf)).ok, ?_⟩
    have hT : trailTo k nf (w' ++ [s']) s = ((w' ++ [s'] ++ [s]).foldl (gStep k nf) (gInit k nf)).T := rfl
    rw [hT, List.foldl_append, h]
    simp only [List.foldl_cons, List.foldl_nil, gStep, List.foldl_append, List.getLast?_concat, up4, List.length_append,
      List.length_cons, List.length_nil, GSt.mk.injEq, true_and, and_true]
    omega
termination_by w => w.length
decreasing_by simp_all

theorem g_bad (k : SK) (nf : NF) : ∀ (w : List Sym) (st : GSt), st.ok = false → (w.foldl (gStep k nf) st).ok = false
  | [], st, h => h
  | s :: w, st, h => by
    rw [List.foldl_cons]
    refine g_bad k nf w _ ?_
    unfold gStep
    split
    · exact h
    · simp [h]

/-- what the arm at `s` leaves pending -/
def trailFrom (k : SK) (nf : NF) (w : List Sym) (s : Sym) : List Sym → Gap
  | [] => endGap k s
  | s' :: _ => trailTo k nf (w ++ [s]) s'

theorem gap_at {k : SK} {nf : NF} {w : List Sym} {s : Sym} {v' : List Sym} (ha : nf.agrees (min (w ++ s :: v').length 4) = true)
    (h : gFine k nf ((w ++ s :: v').foldl (gStep k nf) (gInit k nf)) = true) :
    (∀ cf ∈ cfs k, ∀ σ ∈ sel nf (w.foldl (lvStep (senv k nf.tm nf.v nf.pm) k) (lvInit (senv k nf.tm nf.v nf.pm) k)),
      armFine ⟨k, w.getLast?, s, v'.head?, min w.length 4, nf, cf⟩ (trailTo k nf w s) (trailFrom k nf w s v') σ = true) ∧
    (v' = [] → s ≠ .n .OutputExpressionList) := by
  obtain ⟨ok, hs⟩ := g_state k nf s w
  have key : ∀ {next T'}, gArm k nf ⟨w.foldl (lvStep (senv k nf.tm nf.v nf.pm) k) (lvInit (senv k nf.tm nf.v nf.pm) k), w.getLast?,
      some s, min w.length 4, trailTo k nf w s, ok⟩ s next T' = true →
      ∀ cf ∈ cfs k, ∀ σ ∈ sel nf (w.foldl (lvStep (senv k nf.tm nf.v nf.pm) k) (lvInit (senv k nf.tm nf.v nf.pm) k)),
      armFine ⟨k, w.getLast?, s, next, min w.length 4, nf, cf⟩ (trailTo k nf w s) T' σ = true :=
    fun h cf hcf σ hσ => List.all_eq_true.1 (List.all_eq_true.1 h cf hcf) σ hσ
  cases v' with
  | nil =>
    rw [hs] at h
    have hu : up4 (min w.length 4) = min (w ++ [s]).length 4 := by simp [up4]; omega
    simp only [gFine, hu, ha, Bool.not_true, Bool.false_or, Bool.and_eq_true, bne_iff_ne] at h
    exact ⟨key h.1.2, fun _ => h.2⟩
  | cons s' v' =>
    refine ⟨?_, fun h => (by cases h)⟩
    have hw : w ++ s :: s' :: v' = (w ++ [s] ++ [s']) ++ v' := by simp
    -- the last state
    have hok : ((w ++ s :: s' :: v').foldl (gStep k nf) (gInit k nf)).ok = true := by
      rcases List.eq_nil_or_concat (w ++ s :: s' :: v') with hn | ⟨l, x, hn⟩
      · cases w <;> cases hn
      · rw [List.concat_eq_append] at hn
        rw [hn] at ha h ⊢
        obtain ⟨ok', hs'⟩ := g_state k nf x l
        rw [hs'] at h ⊢
        have hu : up4 (min l.length 4) = min (l ++ [x]).length 4 := by simp [up4]; omega
        simp only [gFine, hu, ha, Bool.not_true, Bool.false_or, Bool.and_eq_true, bne_iff_ne] at h
        exact h.1.1
    rw [hw, List.foldl_append] at hok
    have hok1 : ((w ++ [s] ++ [s']).foldl (gStep k nf) (gInit k nf)).ok = true := by
      cases hb : ((w ++ [s] ++ [s']).foldl (gStep k nf) (gInit k nf)).ok
      · rw [g_bad k nf v' _ hb] at hok; cases hok
      · rfl
    have hT : trailFrom k nf w s (s' :: v') = ((w ++ [s] ++ [s']).foldl (gStep k nf) (gInit k nf)).T := rfl
    rw [hT]
    rw [List.foldl_append, hs] at hok1 ⊢
    simp only [List.foldl_cons, List.foldl_nil, gStep, Bool.and_eq_true] at hok1 ⊢
    exact key hok1.2

end Mofmt
