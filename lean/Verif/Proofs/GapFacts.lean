import Verif.Proofs.GapExec
import Verif.Proofs.GapCheck
/-
The layout of every production: the facts.
-/
namespace Mofmt

/-! ### Tokens before a child -/

theorem TokSet.within_has {a b : TokSet} (h : a.within b = true) {t : Tok} (ht : a.has t = true) : b.has t = true := by
  cases a with
  | only l => exact List.all_eq_true.1 h t (List.contains_iff_mem.1 ht)
  | except l =>
    cases b with
    | only _ => cases h
    | except l' =>
      simp only [TokSet.has, Bool.not_eq_true', List.contains_eq_mem, decide_eq_false_iff_not] at ht ⊢
      intro hm
      exact ht (by simpa using List.all_eq_true.1 h t hm)

theorem TokSet.says_sound {s : TokSet} {j t : Tok} {b : Bool} (hs : s.has j = true) (h : s.says t = some b) :
    decide (j = t) = b := by
  cases s with
  | only l =>
    simp only [TokSet.says] at h
    simp only [TokSet.has, List.contains_eq_mem, decide_eq_true_eq] at hs
    split at h
    · split at h
      · rename_i ha
        cases h
        simpa using List.all_eq_true.1 ha j hs
      · cases h
    · rename_i hn
      cases h
      simp only [decide_eq_false_iff_not]
      rintro rfl
      exact hn (by simpa using hs)
  | except l =>
    simp only [TokSet.says] at h
    simp only [TokSet.has, Bool.not_eq_true', List.contains_eq_mem, decide_eq_false_iff_not] at hs
    split at h
    · rename_i hn
      cases h
      simp only [decide_eq_false_iff_not]
      rintro rfl
      exact hs (by simpa using hn)
    · cases h

mutual
theorem last_set : (c : Tree) → c.Conforms → c.hasEmpty = false → ∀ k, c.sym = .n k →
    ∃ t, c.leaves.getLast? = some t ∧ (lastSet k).has t.kind = true
  | .tok _, _, _, _, hs => by cases hs
  | .node k cs, hC, hE, k', hs => by
    cases hs
    have h := checkG_sound (lastSet_ok k) hC.1
    rw [fold_last] at h
    simp only [Tree.hasEmpty, Bool.or_eq_false_iff, List.isEmpty_eq_false_iff] at hE
    obtain ⟨d, hd⟩ : ∃ d, cs.getLast? = some d := by
      cases hh : cs.getLast? with
      | none => exact absurd (List.getLast?_eq_none_iff.1 hh) hE.1
      | some d => exact ⟨d, rfl⟩
    obtain ⟨t, h1, h2, h3⟩ := last_setF cs hC.2 hE.2 d hd
    rw [List.getLast?_map, hd, Option.map_some, Option.some_or] at h
    refine ⟨t, h1, ?_⟩
    cases d with
    | tok t' => rw [h2 _ rfl]; exact h
    | node j ds => exact TokSet.within_has h (h3 j rfl)
theorem last_setF : (cs : List Tree) → ConformsF cs → hasEmptyF cs = false → ∀ d, cs.getLast? = some d →
    ∃ t, (leavesF cs).getLast? = some t ∧ (∀ j, d.sym = .t j → t.kind = j) ∧
      (∀ j, d.sym = .n j → (lastSet j).has t.kind = true)
  | [], _, _, _, h => by cases h
  | [c], hC, hE, d, h => by
    simp only [List.getLast?_singleton, Option.some.injEq] at h
    subst h
    simp only [hasEmptyF, Bool.or_false] at hE
    cases hc : c with
    | tok t => exact ⟨t, rfl, fun j hj => (by cases hj; rfl), fun j hj => (by cases hj)⟩
    | node k ds =>
      subst hc
      obtain ⟨t, h1, h2⟩ := last_set (.node k ds) hC.1 hE k rfl
      exact ⟨t, by simpa [leavesF] using h1, fun j hj => (by cases hj), fun j hj => (by cases hj; exact h2)⟩
  | c :: e :: cs, hC, hE, d, h => by
    simp only [hasEmptyF, Bool.or_eq_false_iff] at hE
    rw [List.getLast?_cons_cons] at h
    obtain ⟨t, h1, h2⟩ := last_setF (e :: cs) hC.2 (by simpa [hasEmptyF] using hE.2) d h
    refine ⟨t, ?_, h2⟩
    rw [leavesF, List.getLast?_append, h1]
    rfl
end

/-- the kind of the token before a child -/
theorem set_at {k : SK} {pre : List Tree} (hC : ConformsF pre) (hE : hasEmptyF pre = false) {q : Option Token}
    {ev : List TEv} (hl : toks ev = leavesF pre) (hq : (beforeSet k).has (kindOf q) = true) :
    (setAt k (prevSym pre)).has (kindOf (lastT q ev)) = true := by
  rw [lastT_eq, hl]
  cases h : pre.getLast? with
  | none =>
    rw [List.getLast?_eq_none_iff] at h
    subst h
    exact hq
  | some d =>
    obtain ⟨t, h1, h2, h3⟩ := last_setF pre hC hE d h
    rw [h1, prevSym, h]
    simp only [Option.map_some, Option.some_or, kindOf]
    cases hs : d.sym with
    | t j => rw [h2 j hs]; simp [setAt, TokSet.has]
    | n j => exact h3 j hs

/-! ### The variable for lists on several lines -/

def fixesM : FCmd → Bool
  | .seq a b => fixesM a && fixesM b
  | .ite _ a b => fixesM a && fixesM b
  | .set .m _ => false
  | _ => true

theorem fixesM_sound {sub : SK → Args → Option Token → Res (Bool × List TEv)} {cx : Ctx} : ∀ {cmd : FCmd} {r r' : Regs}
    {q : Option Token} {es : List TEv}, fixesM cmd = true → trF sub cx cmd r q = .ok (r', es) → r'.m = r.m := by
  intro cmd
  induction cmd with
  | skip => intro r r' q es _ h; cases h; rfl
  | seq a b iha ihb =>
    intro r r' q es hn h
    simp only [fixesM, Bool.and_eq_true] at hn
    obtain ⟨⟨r1, e1⟩, h1, h⟩ := Res.bind_eq_ok.1 h
    obtain ⟨⟨r2, e2⟩, h2, h⟩ := Res.bind_eq_ok.1 h
    cases h
    exact (ihb hn.2 h2).trans (iha hn.1 h1)
  | ite c a b iha ihb =>
    intro r r' q es hn h
    simp only [fixesM, Bool.and_eq_true] at hn
    obtain ⟨t, h1, h⟩ := Res.bind_eq_ok.1 h
    cases t
    · exact ihb hn.2 h
    · exact iha hn.1 h
  | space => intro r r' q es _ h; cases h; rfl
  | indent => intro r r' q es _ h; cases h; rfl
  | dedent => intro r r' q es _ h; cases h; rfl
  | tok =>
    intro r r' q es _ h
    simp only [trF] at h
    split at h
    · cases h; rfl
    · cases h
  | brk t b =>
    intro r r' q es _ h
    obtain ⟨t, h1, h⟩ := Res.bind_eq_ok.1 h
    cases h; rfl
  | bos c t =>
    intro r r' q es _ h
    obtain ⟨t, h1, h⟩ := Res.bind_eq_ok.1 h
    obtain ⟨t', h2, h⟩ := Res.bind_eq_ok.1 h
    cases h; rfl
  | call fn m w o keep =>
    intro r r' q es _ h
    obtain ⟨m', h1, h⟩ := Res.bind_eq_ok.1 h
    obtain ⟨w', h2, h⟩ := Res.bind_eq_ok.1 h
    obtain ⟨o', h3, h⟩ := Res.bind_eq_ok.1 h
    obtain ⟨⟨x, ee⟩, h4, h⟩ := Res.bind_eq_ok.1 h
    cases h
    cases keep <;> rfl
  | set v c =>
    intro r r' q es hn h
    obtain ⟨t, h1, h⟩ := Res.bind_eq_ok.1 h
    cases h
    cases v <;> first | rfl | cases hn
  | setPrevRule =>
    intro r r' q es _ h
    simp only [trF] at h
    split at h
    · cases h; rfl
    · cases h
  | unreachable => intro r r' q es _ h; cases h

theorem fixesM_arms : ∀ k, usesM k = true → ∀ s ∈ (Gram.spec k).syms, fixesM (upCmd (Fmt.body k) s) = true := by
  intro k; cases k <;> decide

theorem pairs_more : ∀ k, (k == .DerClassSpecifier || k == .ExternalFunctionCall || k == .FunctionPartialApplication) = true →
    checkG (pairStep .LParen .RParen) (fun st => st.2.2) (Gram.spec k) (false, false, true) = true := by
  intro k; cases k <;> first | (intro h; cases h; done) | (intro _; decide +kernel)

theorem broken_first {k : SK} (hk : usesM k = true) {all : List Tree} (hC : Tree.Conforms (.node k all)) (hE : hasEmptyF all = false)
    {a : Args} {q : Option Token} {r1 : Regs} {e1 : List TEv}
    (h : trF noSub { all } (Fmt.body k).pre { m := a.m, w := a.w, o := a.o } q = .ok (r1, e1)) :
    r1.m = brokenIn k a.m all := by
  have hm : ∀ {b : Bool}, isMultiline all = .ok b → b = spansLines all := fun h => isMultiline_eq hE h
  have hor : ∀ {r : Regs} {e : List TEv}, trF noSub { all } (.when (.not (.reg .m)) (.set .m .treeMulti)) { m := a.m, w := a.w, o := a.o } q = .ok (r, e) →
      r.m = (a.m || spansLines all) := by
    intro r e h
    obtain ⟨t, h1, h⟩ := Res.bind_eq_ok.1 h
    cases h1
    cases ham : a.m
    · simp only [ham, Regs.get, Bool.not_false, if_true] at h
      obtain ⟨t, h1, h⟩ := Res.bind_eq_ok.1 h
      cases h
      exact (hm h1).trans rfl
    · simp only [ham, Regs.get, Bool.not_true, Bool.false_eq_true, if_false] at h
      cases h
      rfl
  have hset : ∀ {r r' : Regs} {e : List TEv} {q : Option Token}, trF noSub { all } (.set .m .treeMulti) r q = .ok (r', e) → r'.m = spansLines all := by
    intro r r' e q h
    obtain ⟨t, h1, h⟩ := Res.bind_eq_ok.1 h
    cases h
    exact hm h1
  have hpar : ∀ {r r' : Regs} {e : List TEv} {q : Option Token}, trF noSub { all } (.set .m (.parenMulti .LParen .RParen)) r q = .ok (r', e) →
      r'.m = scanParens .LParen .RParen all := by
    intro r r' e q h
    obtain ⟨t, h1, h⟩ := Res.bind_eq_ok.1 h
    cases h
    cases h1
    rfl
  have hseq : ∀ {x y : FCmd} {r r' : Regs} {e : List TEv} {q : Option Token}, trF noSub { all } (.seq x y) r q = .ok (r', e) →
      ∃ r1 e1 e2 q', trF noSub { all } x r q = .ok (r1, e1) ∧ trF noSub { all } y r1 q' = .ok (r', e2) := by
    intro x y r r' e q h
    obtain ⟨⟨r1, e1⟩, h1, h⟩ := Res.bind_eq_ok.1 h
    obtain ⟨⟨r2, e2⟩, h2, h⟩ := Res.bind_eq_ok.1 h
    cases h
    exact ⟨r1, e1, e2, _, h1, h2⟩
  cases k
  case FunctionArguments => cases h; rfl
  case FunctionArgumentsNonFirst => cases h; rfl
  case ArrayArguments => cases h; rfl
  case ArrayArgumentsNonFirst => cases h; rfl
  case NamedArguments => cases h; rfl
  case EnumList => exact hor h
  case ImportList => exact hor h
  case ArgumentOrInheritanceModificationList => exact hor h
  case ArgumentList => exact hor h
  case ExpressionList => exact hor h
  case Primary => exact hset h
  case DerClassSpecifier => rw [hpar h]; exact scanParens_eq all (checkG_sound (pairs_more _ rfl) hC.1)
  case FunctionPartialApplication => rw [hpar h]; exact scanParens_eq all (checkG_sound (pairs_more _ rfl) hC.1)
  case ExternalFunctionCall =>
    obtain ⟨_, _, _, _, h1, h2⟩ := hseq h
    rw [hpar h2]; exact scanParens_eq all (checkG_sound (pairs_more _ rfl) hC.1)
  case ConnectEquation => obtain ⟨_, _, _, _, h1, h2⟩ := hseq h; rw [fixesM_sound rfl h2]; exact hset h1
  case Expression => obtain ⟨_, _, _, _, h1, h2⟩ := hseq h; rw [fixesM_sound rfl h2]; exact hset h1
  case FunctionCallArgs => obtain ⟨_, _, _, _, h1, h2⟩ := hseq h; rw [fixesM_sound rfl h2]; exact hset h1
  case DescriptionString => obtain ⟨_, _, _, _, h1, h2⟩ := hseq h; rw [fixesM_sound rfl h2]; exact hset h1
  case ArraySubscripts => obtain ⟨_, _, _, _, h1, h2⟩ := hseq h; exact hset h2
  case ClassModification =>
    obtain ⟨_, _, _, _, h1, h2⟩ := hseq h
    obtain ⟨t, h1, h⟩ := Res.bind_eq_ok.1 h2
    cases h
    obtain ⟨t', h3, h1⟩ := Res.bind_eq_ok.1 h1
    have := hm h3
    subst this
    simp only [Regs.set, brokenIn]
    cases hs : spansLines all
    · rw [hs] at h1
      simp only [Bool.false_eq_true, if_false, evalFC, Res.bind_ok] at h1
      rw [contains_eq, contains_eq] at h1
      cases h5 : occursF .DescriptionString all <;> rw [h5] at h1 <;> cases h1 <;> rfl
    · rw [hs] at h1
      cases h1
      rfl
  case ClassOrInheritanceModification =>
    obtain ⟨_, _, _, _, h1, h2⟩ := hseq h
    obtain ⟨t, h1, h⟩ := Res.bind_eq_ok.1 h2
    cases h
    obtain ⟨t', h3, h1⟩ := Res.bind_eq_ok.1 h1
    have := hm h3
    subst this
    simp only [Regs.set, brokenIn]
    cases hs : spansLines all
    · rw [hs] at h1
      cases h1
      rfl
    · rw [hs] at h1
      cases h1
      rfl
  all_goals cases hk

end Mofmt
