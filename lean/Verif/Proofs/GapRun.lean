import Verif.Proofs.GapAt
/-
The layout of every production.
-/
namespace Mofmt

/-- what is left pending by a tree -/
def tailDec : Tree → Dec
  | .tok _ => .none
  | .node k cs => match cs.getLast? with
    | some d => (endGap k d.sym).at 0
    | none => .none

theorem tailDec_node (k : SK) (cs : List Tree) : tailDec (.node k cs) = match cs.getLast? with
    | some d => (endGap k d.sym).at 0
    | none => .none := rfl

theorem conformsF_left : ∀ {a b : List Tree}, ConformsF (a ++ b) → ConformsF a
  | [], _, _ => trivial
  | _ :: _, _, h => ⟨h.1, conformsF_left h.2⟩

theorem endGap_cases (k : SK) (s : Sym) : endGap k s = .none ∨ endGap k s = .space ∧ k = .OutputExpressionList ∧ s = .t .Comma := by
  unfold endGap
  split
  · rename_i h; exact .inr ⟨rfl, h⟩
  · exact .inl rfl

theorem endGap_at (k : SK) (s : Sym) (n : Nat) : (endGap k s).at n = (endGap k s).at 0 := by
  rcases endGap_cases k s with h | ⟨h, _⟩ <;> rw [h] <;> rfl

theorem comma_user : ∀ k, .n .OutputExpressionList ∈ (Gram.spec k).syms → usesCo k = true := by
  intro k; cases k <;> decide

theorem operator_user : ∀ k s, operatorIn k s = true → usesBl k = true := by
  intro k s h
  unfold operatorIn at h
  split at h <;> first | rfl | cases h

/-- what is pending after the child before -/
def prevTail (pre : List Tree) : Dec := match pre.getLast? with
  | some d => tailDec d
  | none => .none

theorem prevTail_eq {k : SK} {pre : List Tree} (hs : ∀ d ∈ pre, d.sym ∈ (Gram.spec k).syms) (n : Nat) :
    prevTail pre = (tailGap (prevSym pre) (fact (usesCo k) (commaBefore pre))).at n := by
  unfold prevTail
  cases h : pre.getLast? with
  | none => simp [prevSym, h, tailGap, Gap.at]
  | some d =>
    have hd := hs d (List.mem_of_getLast? h)
    simp only [prevSym, h, Option.map_some, tailGap, commaBefore, Option.bind_some, Option.or_some]
    cases d with
    | tok t => simp [tailDec, Tree.sym, Gap.at]
    | node j ds =>
      rw [tailDec_node]
      change _ = (if some (Sym.n j) = some (Sym.n .OutputExpressionList) ∧ fact (usesCo k) (decide ((ds.getLast?.map Tree.sym) = some (.t .Comma))) = some true
        then Gap.space else Gap.none).at n
      by_cases hj : j = .OutputExpressionList
      · subst hj
        rw [comma_user k hd]
        cases hl : ds.getLast? with
        | none => simp [fact, Gap.at]
        | some x =>
          by_cases hx : x.sym = .t .Comma <;> simp [endGap, fact, hx, Gap.at]
      · cases hl : ds.getLast? with
        | none => simp [hj, Gap.at]
        | some x => simp [endGap, hj, Gap.at]

/-- one decision -/
theorem one_gap {tg T g : Gap} {n l : Nat} (h1 : (tg.isNone || (T.isNone && g.isNone)) = true) (h2 : (T.isNone || g.isNone) = true)
    (h3 : T.isBrk = true → n = l) : ((tg.at l).or (T.at n)).or (g.at l) = (tg.or (T.or g)).at l := by
  cases tg <;> cases T <;> cases g <;> simp_all [Gap.isNone, Gap.isBrk, Gap.at, Gap.or, Dec.or]

theorem Dec.or_assoc (a b c : Dec) : (a.or b).or c = a.or (b.or c) := by cases a <;> rfl

theorem Dec.or_none (a : Dec) : a.or .none = a := by cases a <;> rfl

/-- the run on a tree gives its layout -/
def LayoutOK (c : Tree) : Prop := ∀ fn a q w es u ds v, c.sym = .n fn → (beforeSet fn).has (kindOf q) = true →
  subOf c fn a q = .ok (w, es) → Walk u es ds v → ds = c.layout u.n a.w a.m u.d ∧ v.d = tailDec c

/-- What happens at a child. -/
theorem arm_layout {k : SK} {all : List Tree} (hC : Tree.Conforms (.node k all)) (hE : hasEmptyF all = false) {a : Args}
    {q : Option Token} (hq : (beforeSet k).has (kindOf q) = true) {e1 : List TEv} {pre post : List Tree} {c : Tree} {r r1 : Regs}
    {ev e : List TEv} {n : Nat} (ha : all = pre ++ c :: post) (h : Before k all a q e1 pre r ev)
    (hm : usesM k = true → r.m = brokenIn k a.m all) (ih : LayoutOK c)
    (g : trF (subOf c) { all, cur := some c, idx := pre.length, rest := post } (upCmd (Fmt.body k) c.sym) r (lastT q ev)
      = .ok (r1, e)) {u v : WSt} {ds : List (Dec × Token)} (hw : Walk u e ds v) (hu : (u.n : Int) = n + net (e1 ++ ev)) {dd : Dec}
    (hdd : pre ≠ [] → dd = .none)
    (hd : u.d = dd.or ((prevTail pre).or ((trailTo k (nfAt k a.m all) (pre.map Tree.sym) c.sym).at u.n))) :
    ds = c.layout (levelIn k n a.w pre c post) (chainChild k c.sym && wrappedAt k a.w pre c post) (passedAt k a.m pre c post)
        (dd.or ((gapAt k a.m pre c post).at (levelIn k n a.w pre c post))) ∧
      v.d = (tailDec c).or ((trailFrom k (nfAt k a.m all) (pre.map Tree.sym) c.sym (post.map Tree.sym)).at v.n) := by
  have hmem : c ∈ all := by rw [ha]; simp
  have hsym := syms_complete hC.1 c.sym (List.mem_map_of_mem hmem)
  have hsyms : ∀ d ∈ pre, d.sym ∈ (Gram.spec k).syms := fun d hd =>
    syms_complete hC.1 d.sym (List.mem_map_of_mem (by rw [ha]; simp [hd]))
  have hEp : ∀ x ∈ pre, x.hasEmpty = false := fun x hx => hasEmptyF_mem hE x (by rw [ha]; simp [hx])
  have hEn : Tree.hasEmpty (.node k (pre ++ c :: post)) = false := by
    simp only [Tree.hasEmpty, Bool.or_eq_false_iff]
    exact ⟨by simp, ha ▸ hE⟩
  have hqc : pre = [] → lastT q ev = q := by
    rintro rfl
    rw [lastT_eq, h.last]
    rfl
  have hset : (setAt k (prevSym pre)).has (kindOf (lastT q ev)) = true := by
    refine set_at ?_ ?_ h.last hq
    · have := hC.2
      rw [ha] at this
      exact conformsF_left this
    · rw [ha, hasEmptyF_append] at hE
      simp only [Bool.or_eq_false_iff] at hE
      exact hE.1
  have hA : Agree k (prevSym pre) { all := pre ++ c :: post, cur := some c, idx := pre.length, rest := post } r (lastT q ev) := by
    subst ha
    refine agree_at hC hEn ?_ ?_ h.regs
    · intro t ht
      exact lastT_toks ev q t (by rw [h.last, ht])
    · rintro rfl rfl
      rw [hqc rfl]
      simpa [beforeSet, TokSet.has] using hq
  have hev : EvOK (evX (envAt k a.m pre c post)) { all := pre ++ c :: post, cur := some c, idx := pre.length, rest := post } (lastT q ev) r.prevRule :=
    evX_ok (ha ▸ hC) (ha ▸ hE) hA hset (toks_last h.last hEp)
  -- the check
  obtain ⟨σ, m1, p1, p2, p3, p4⟩ := h.lv.ex
  have hgk := List.all_eq_true.1 (gaps_ok k) _ (nfAt_mem k a.m all)
  have hgk := checkG_sound hgk hC.1
  have hmap : all.map Tree.sym = pre.map Tree.sym ++ c.sym :: post.map Tree.sym := by rw [ha]; simp
  have hagr : (nfAt k a.m all).agrees (min (pre.map Tree.sym ++ c.sym :: post.map Tree.sym).length 4) = true := by
    rw [← hmap, List.length_map]
    exact nfAt_agrees k a.m all
  rw [hmap] at hgk
  have hsel : σ ∈ sel (nfAt k a.m all) ((pre.map Tree.sym).foldl (lvStep (senv k (nfAt k a.m all).tm (nfAt k a.m all).v (nfAt k a.m all).pm) k)
      (lvInit (senv k (nfAt k a.m all).tm (nfAt k a.m all).v (nfAt k a.m all).pm) k)) := by
    unfold sel
    split
    · rename_i b hb
      obtain ⟨hb, hus⟩ := fact_some hb
      refine List.mem_filter.2 ⟨m1, ?_⟩
      rw [beq_iff_eq, p1.m, hm hus, hb]
    · exact m1
  have hgl : (pre.map Tree.sym).getLast? = prevSym pre := by rw [List.getLast?_map]; rfl
  have hfine := (gap_at hagr hgk).1 _ (cfAt_mem k pre c post) σ hsel
  rw [hgl, List.length_map] at hfine
  generalize hT : trailTo k (nfAt k a.m all) (pre.map Tree.sym) c.sym = T at *
  generalize hT' : trailFrom k (nfAt k a.m all) (pre.map Tree.sym) c.sym (post.map Tree.sym) = T' at *
  subst ha
  change armFine (envAt k a.m pre c post) T T' σ = true at hfine
  unfold armFine at hfine
  split at hfine
  · cases hfine
  rename_i o hx
  split at hfine
  rotate_left
  · cases hfine
  rename_i co g0 t0 hco hg0 ht0
  simp only [Bool.and_eq_true] at hfine
  obtain ⟨⟨⟨⟨⟨⟨⟨⟨⟨f1, f2⟩, f3⟩, f4⟩, f5⟩, f6⟩, f7⟩, f8⟩, f9⟩, f10⟩ := hfine
  have S := exec_sound (σ0 := σ) (es := []) hev rfl rfl (s := ⟨σ, [], none, []⟩) rfl
    ⟨fun _ => p1, rfl, fun _ => ⟨rfl, rfl, rfl, by simp [net]⟩, fun co h => (by cases h)⟩ hx g
  obtain ⟨x, y, z, he, sx, sz, sc, sd, sw⟩ := S.done co hco
  rw [List.nil_append] at he
  subst he
  -- the level
  have hW : exprPart k = true → co.σ.w = (a.w || wrapsTo k none pre c post) := by
    intro hk
    have f2 : (!exprPart k || co.σ.w == (σ.w || ((prevSym pre).isSome && operatorIn k c.sym &&
      (fact (usesBl k) (wrapsAt k pre.getLast? c post.head?)).getD false))) = true := f2
    rw [hk] at f2
    simp only [Bool.not_true, Bool.false_or, beq_iff_eq] at f2
    have hw0 : r.w = (a.w || wrapsU k none pre (some c)) := h.w hk (c :: post) rfl
    rw [f2, p1.w, hw0, wrapsTo_eq, Bool.or_assoc]
    congr 2
    cases hp : pre.getLast? with
    | none => simp [prevSym, hp, wrapsAt]
    | some d =>
      simp only [prevSym, hp, Option.map_some, Option.isSome_some, Bool.true_and, Option.some_or]
      cases ho : operatorIn k c.sym
      · simp [wrapsAt, ho]
      · rw [operator_user k _ ho]; rfl
  have hlev : (n : Int) + net (e1 ++ ev) + net x = levelIn k n a.w pre c post := by
    have hlc := level_calc (k := k) (n := n) (a := a) (σ := co.σ) (W := co.σ.w) (okCur_extra rfl f1) rfl (sw.trans p3) hW
    rw [← hlc, p4, sd]
    omega
  have hwr : co.w = (chainChild k c.sym && wrappedAt k a.w pre c post) := by
    have f4 : (co.w == (chainChild k c.sym && co.σ.w)) = true := f4
    rw [beq_iff_eq] at f4
    rw [f4]
    cases hch : chainChild k c.sym
    · rfl
    · rw [wrappedAt, chain_expr _ _ hch, hW (chain_expr _ _ hch)]
      simp
  have hpm : co.m = passedAt k a.m pre c post := by
    rw [← passed_facts]
    exact beq_iff_eq.1 f3
  have hgap : (tailGap (prevSym pre) (fact (usesCo k) (commaBefore pre))).or (T.or g0) = gapAt k a.m pre c post := by
    rw [← gap_facts]
    exact beq_iff_eq.1 f6
  -- the walk
  obtain ⟨u2, d12, d3, hds, hw12, hw3⟩ := hw.split
  obtain ⟨u1, d1, d2, hds', hw1, hw2⟩ := hw12.split
  subst hds' hds
  obtain ⟨k1, k2, k3⟩ := walk_gap hw1 sx hg0
  obtain ⟨j1, j2, j3⟩ := walk_gap hw3 sz ht0
  subst k1 j1
  have hl1 : u1.n = levelIn k n a.w pre c post := by
    have := hw1.level
    omega
  have hdec : u1.d = dd.or ((gapAt k a.m pre c post).at u1.n) := by
    rw [k3, hd, prevTail_eq hsyms u1.n, ← hgap, Dec.or_assoc]
    congr 1
    refine one_gap f7 f8 ?_
    intro hb
    have f9 : (!T.isBrk || o.lead == []) = true := f9
    rw [hb] at f9
    simp only [Bool.not_true, Bool.false_or, beq_iff_eq] at f9
    rw [f9] at sx
    have := List.map_eq_nil_iff.1 sx
    subst this
    cases hw1
    rfl
  have hcore : d2 = c.layout u1.n co.w co.m u1.d ∧ u2.d = tailDec c := by
    cases c with
    | tok t =>
      have sc : y = [.tok t] := sc
      subst sc
      cases hw2 with
      | tok h => cases h; exact ⟨rfl, rfl⟩
    | node j js =>
      obtain ⟨o', w', sc⟩ := sc
      exact ih j ⟨co.m, co.w, o'⟩ _ w' y u1 d2 u2 rfl (TokSet.within_has f10 hset) sc hw2
  refine ⟨?_, ?_⟩
  · rw [List.nil_append, List.append_nil, hcore.1, hwr, hpm, hdec, hl1]
  · rw [j3, hcore.2, beq_iff_eq.1 f5]

/-- what is pending before the children to come -/
def pendAt (k : SK) (nf : NF) (pre : List Tree) : List Tree → Gap
  | c :: _ => trailTo k nf (pre.map Tree.sym) c.sym
  | [] => match pre.getLast? with
    | some d => endGap k d.sym
    | none => .none

theorem loop_layout {k : SK} {all : List Tree} (hC : Tree.Conforms (.node k all)) (hE : hasEmptyF all = false) (hne : all ≠ [])
    {a : Args} {q : Option Token} (hq : (beforeSet k).has (kindOf q) = true) {e1 : List TEv} {n : Nat} (ih : ∀ c ∈ all, LayoutOK c) :
    ∀ {post pre : List Tree} {r r2 : Regs} {ev : List TEv} {ess : List (List TEv)} {u v : WSt} {ds : List (Dec × Token)} {dd : Dec},
    all = pre ++ post → Before k all a q e1 pre r ev → (usesM k = true → r.m = brokenIn k a.m all) →
    Steps (Fmt.body k) all post pre.length r (lastT q ev) ess r2 → Walk u ess.flatten ds v → (u.n : Int) = n + net (e1 ++ ev) →
    (pre ≠ [] → dd = .none) → u.d = dd.or ((prevTail pre).or ((pendAt k (nfAt k a.m all) pre post).at u.n)) →
    ds = layoutF k n a.w a.m pre dd post ∧ v.d = tailDec (.node k all) := by
  intro post
  induction post with
  | nil =>
    intro pre r r2 ev ess u v ds dd ha hB hm hS hw hu hdd hd
    cases hS
    cases hw
    rw [List.append_nil] at ha
    subst ha
    refine ⟨rfl, ?_⟩
    rw [hd, hdd hne]
    rcases List.eq_nil_or_concat all with rfl | ⟨l, x, rfl⟩
    · exact absurd rfl hne
    · rw [List.concat_eq_append] at *
      have hx : x.sym ≠ .n .OutputExpressionList := by
        have hgk := checkG_sound (List.all_eq_true.1 (gaps_ok k) _ (nfAt_mem k a.m (l ++ [x]))) hC.1
        have hagr := nfAt_agrees k a.m (l ++ [x])
        rw [List.map_append, List.map_cons, List.map_nil] at hgk
        refine (gap_at (w := l.map Tree.sym) (v' := []) ?_ hgk).2 rfl
        simpa using hagr
      have ht : tailDec x = .none := by
        cases x with
        | tok t => rfl
        | node j js =>
          simp only [tailDec]
          split
          · rename_i y _
            rcases endGap_cases j y.sym with h | ⟨_, h, _⟩
            · rw [h]; rfl
            · exact absurd (by rw [Tree.sym, h]) hx
          · rfl
      rw [tailDec_node]
      simp only [prevTail, pendAt, List.getLast?_concat, ht]
      rw [endGap_at]
      rfl
  | cons c post ihp =>
    intro pre r r2 ev ess u v ds dd ha hB hm hS hw hu hdd hd
    cases hS with
    | @cons _ _ _ _ _ r1 e ess' _ g1 g2 =>
      rw [List.flatten_cons] at hw
      obtain ⟨u1, d1, d2, rfl, hw1, hw2⟩ := hw.split
      have hmem : c ∈ all := by rw [ha]; simp
      have hsym := syms_complete hC.1 c.sym (List.mem_map_of_mem hmem)
      obtain ⟨h1, h2⟩ := arm_layout hC hE hq ha hB hm (ih c hmem) g1 hw1 hu hdd hd
      have hB1 := before_step hC hE ha hB g1
      have hm1 : usesM k = true → r1.m = brokenIn k a.m all := by
        intro hu
        rw [fixesM_sound (fixesM_arms k hu c.sym hsym) g1, hm hu]
      have hlen : pre.length + 1 = (pre ++ [c]).length := by simp
      rw [hlen, ← lastT_append] at g2
      have hl := hw1.level
      have hu1 : (u1.n : Int) = n + net (e1 ++ (ev ++ e)) := by
        rw [hl, hu, ← List.append_assoc, net_append (e1 ++ ev)]
        omega
      have hpend : trailFrom k (nfAt k a.m all) (pre.map Tree.sym) c.sym (post.map Tree.sym) =
          pendAt k (nfAt k a.m all) (pre ++ [c]) post := by
        cases post with
        | nil => simp [trailFrom, pendAt]
        | cons d post => simp [trailFrom, pendAt]
      obtain ⟨h3, h4⟩ := ihp (dd := .none) (by simpa using ha) hB1 hm1 g2 hw2 hu1 (fun _ => rfl) (by
        rw [h2, hpend]
        simp [prevTail]
        rfl)
      refine ⟨?_, h4⟩
      rw [layoutF, h1, h3]

mutual
theorem layoutOK : (c : Tree) → c.Conforms → c.hasEmpty = false → LayoutOK c
  | .tok _, _, _ => fun _ _ _ _ _ _ _ _ hs => (by cases hs)
  | .node k all, hC, hE => by
    intro fn a q w es u ds v hs hq h hw
    cases hs
    simp only [Tree.hasEmpty, Bool.or_eq_false_iff, List.isEmpty_eq_false_iff] at hE
    have ih := layoutOKF all hC.2 hE.2
    obtain ⟨r1, e1, ess, r2, r3, e3, h1, h2, h3, rfl, rfl, i1, i3⟩ := trTree_inv h
    obtain ⟨u2, d12, d3, rfl, hw12, hw3⟩ := hw.split
    obtain ⟨u1, d1, d2, rfl, hw1, hw2⟩ := hw12.split
    obtain ⟨rfl, k2⟩ := hw1.ind i1
    obtain ⟨rfl, k4⟩ := hw3.ind i3
    have hl := hw1.level
    obtain ⟨g1, g2⟩ := loop_layout hC hE.2 hE.1 hq (e1 := e1) (n := u.n) ih (pre := []) (ev := []) (dd := u.d) rfl
      (before_first hC hE.2 h1) (fun hu => broken_first hu hC hE.2 h1) h2 hw2 (by simpa using hl) (fun h => absurd rfl h) (by
        rw [k2]
        cases all with
        | nil => exact absurd rfl hE.1
        | cons c all => exact (Dec.or_none _).symm)
    refine ⟨?_, by rw [k4, g2]⟩
    rw [List.nil_append, List.append_nil, g1]
    rfl
theorem layoutOKF : (cs : List Tree) → ConformsF cs → hasEmptyF cs = false → ∀ c ∈ cs, LayoutOK c
  | [], _, _, c, h => by cases h
  | d :: cs, hC, hE, c, h => by
    simp only [hasEmptyF, Bool.or_eq_false_iff] at hE
    rcases List.mem_cons.1 h with h | h
    · rw [h]; exact layoutOK d hC.1 hE.1
    · exact layoutOKF cs hC.2 hE.2 c h
end

end Mofmt
