import Verif.Proofs.Mid
/-
Formatting tokens that have been moved: trees.
-/
namespace Mofmt
open Lexical (newlines)

variable {φ : Token → Token}

/-! ### Before and after the loop -/

/-- conditions that do not depend on lines -/
def condsOk : FCmd → Bool
  | .seq a b => condsOk a && condsOk b
  | .ite c a b => condOk false false false false false false c && condsOk a && condsOk b
  | .set _ c => condOk false false false false false false c
  | _ => true

theorem silent_pair (hk : ∀ t, (φ t).kind = t.kind) {all : List Tree} : ∀ {cmd : FCmd} {r r' : Regs}
    {q : Option Token} {es : List TEv}, silent cmd = true → condsOk cmd = true →
    trF noSub { all } cmd r q = .ok (r', es) → trF noSub { all := mapTrees φ all } cmd r (q.map φ) = .ok (r', es) := by
  have hx : ∀ q, PCtx φ false false false { all } q := fun q =>
    ⟨hk, by simp, by simp, by simp⟩
  have ev : ∀ {r : Regs} {q : Option Token} {c : FCond} {b : Bool}, condOk false false false false false false c = true →
      evalFC { all } r (fsOf q) c = .ok b → evalFC { all := mapTrees φ all } r (fsOf (q.map φ)) c = .ok b :=
    fun hc h => evalFC_pair (hx _) (by simp) (by simp) (fun _ => rfl) hc h
  intro cmd
  induction cmd with
  | skip => intro r r' q es _ _ h; cases h; rfl
  | seq a b ih1 ih2 =>
    intro r r' q es hs hc h
    simp only [silent, condsOk, Bool.and_eq_true] at hs hc
    obtain ⟨⟨r1, e1⟩, h1, h⟩ := Res.bind_eq_ok.1 h
    obtain ⟨⟨r2, e2⟩, h2, h⟩ := Res.bind_eq_ok.1 h
    cases h
    have g2 := ih2 hs.2 hc.2 h2
    rw [ind_lastT (silent_ind hs.1 h1)] at g2
    simp only [trF, ih1 hs.1 hc.1 h1, Res.bind_ok, ind_lastT (silent_ind hs.1 h1), g2]
  | ite c a b ih1 ih2 =>
    intro r r' q es hs hc h
    simp only [silent, condsOk, Bool.and_eq_true] at hs hc
    obtain ⟨t, h1, h⟩ := Res.bind_eq_ok.1 h
    simp only [trF, ev hc.1.1 h1, Res.bind_ok]
    cases t
    · exact ih2 hs.2 hc.2 h
    · exact ih1 hs.1 hc.1.2 h
  | indent => intro r r' q es _ _ h; cases h; rfl
  | dedent => intro r r' q es _ _ h; cases h; rfl
  | set v c =>
    intro r r' q es hs hc h
    obtain ⟨t, h1, h⟩ := Res.bind_eq_ok.1 h
    cases h
    simp only [trF, ev hc h1, Res.bind_ok]
  | _ => intro r r' q es hs; cases hs

def areaKinds : List SK := areas.map Prod.fst

theorem pre_plain : ∀ fn, fn ∈ areaKinds ∨ condsOk (Fmt.body fn).pre = true := by intro fn; cases fn <;> decide
theorem post_plain : ∀ fn, condsOk (Fmt.body fn).post = true := by intro fn; cases fn <;> decide

/-- what the formatting function looks at -/
def Area.val : Area → List Tree → Res Bool
  | .whole, cs => isMultiline cs
  | .paren op cl, cs => .ok (scanParens op cl cs)

/-- the value of `is_multiline` -/
def preVal (fn : SK) (am : Bool) (cs : List Tree) (v : Bool) : Bool :=
  match fn with
  | .EnumList | .ImportList | .ArgumentOrInheritanceModificationList | .ArgumentList | .ExpressionList => am || v
  | .ClassOrInheritanceModification => v && decide (cs.length > 2)
  | .ClassModification => v || (containsKind .DescriptionString cs || containsKind .Description cs)
  | _ => v

def preEv (fn : SK) (m : Bool) (len : Nat) : List TEv :=
  match fn with
  | .ComponentList => if m && decide (len > 1) then [.indent] else []
  | .ExternalFunctionCall | .ClassOrInheritanceModification | .ClassModification | .ConnectEquation | .FunctionCallArgs
  | .ArraySubscripts | .DescriptionString => [.indent]
  | _ => []

theorem pre_eq {fn : SK} {A : Area} (hA : (fn, A) ∈ areas) {cs : List Tree} {v : Bool} (hv : A.val cs = .ok v)
    (a : Args) (q : Option Token) :
    trF noSub { all := cs } (Fmt.body fn).pre { m := a.m, w := a.w, o := a.o } q =
      .ok ({ m := preVal fn a.m cs v, w := a.w, o := a.o }, preEv fn (preVal fn a.m cs v) cs.length) := by
  simp only [areas, List.mem_cons, Prod.mk.injEq, List.not_mem_nil, or_false] at hA
  rcases hA with h | h | h | h | h | h | h | h | h | h | h | h | h | h | h | h | h | h | h <;> obtain ⟨rfl, rfl⟩ := h <;>
    simp only [Area.val, Res.ok.injEq] at hv
  case inr.inr.inr.inr.inr.inr.inl => cases v <;> simp [Fmt.body, Fmt.shortClassSpecifier, Fmt.derClassSpecifier, Fmt.enumList, Fmt.externalFunctionCall,
      Fmt.importClause, Fmt.importList, Fmt.classOrInheritanceModification, Fmt.argumentOrInheritanceModificationList,
      Fmt.componentList, Fmt.classModification, Fmt.argumentList, Fmt.connectEquation, Fmt.expression, Fmt.primary,
      Fmt.functionCallArgs, Fmt.functionPartialApplication, Fmt.expressionList, Fmt.arraySubscripts,
      Fmt.descriptionString, FCmd.when, fblk, trF, evalFC, Regs.get, Regs.set, hv, preVal, preEv]
  case inr.inr.inr.inr.inr.inr.inr.inr.inl =>
    cases v <;> by_cases hl : cs.length > 1 <;> simp [Fmt.body, Fmt.shortClassSpecifier, Fmt.derClassSpecifier, Fmt.enumList, Fmt.externalFunctionCall,
      Fmt.importClause, Fmt.importList, Fmt.classOrInheritanceModification, Fmt.argumentOrInheritanceModificationList,
      Fmt.componentList, Fmt.classModification, Fmt.argumentList, Fmt.connectEquation, Fmt.expression, Fmt.primary,
      Fmt.functionCallArgs, Fmt.functionPartialApplication, Fmt.expressionList, Fmt.arraySubscripts,
      Fmt.descriptionString, FCmd.when, fblk, trF, evalFC, Regs.get, Regs.set, hv, preVal, preEv, hl]
  case inr.inr.inr.inr.inr.inr.inr.inr.inr.inl =>
    cases v <;> cases hd : containsKind .DescriptionString cs <;> simp [Fmt.body, Fmt.shortClassSpecifier, Fmt.derClassSpecifier, Fmt.enumList, Fmt.externalFunctionCall,
      Fmt.importClause, Fmt.importList, Fmt.classOrInheritanceModification, Fmt.argumentOrInheritanceModificationList,
      Fmt.componentList, Fmt.classModification, Fmt.argumentList, Fmt.connectEquation, Fmt.expression, Fmt.primary,
      Fmt.functionCallArgs, Fmt.functionPartialApplication, Fmt.expressionList, Fmt.arraySubscripts,
      Fmt.descriptionString, FCmd.when, fblk, trF, evalFC, Regs.get, Regs.set, hv, preVal, preEv, hd]
  all_goals
    cases ha : a.m <;> cases v <;>
    simp [Fmt.body, Fmt.shortClassSpecifier, Fmt.derClassSpecifier, Fmt.enumList, Fmt.externalFunctionCall,
      Fmt.importClause, Fmt.importList, Fmt.classOrInheritanceModification, Fmt.argumentOrInheritanceModificationList,
      Fmt.componentList, Fmt.classModification, Fmt.argumentList, Fmt.connectEquation, Fmt.expression, Fmt.primary,
      Fmt.functionCallArgs, Fmt.functionPartialApplication, Fmt.expressionList, Fmt.arraySubscripts,
      Fmt.descriptionString, FCmd.when, fblk, trF, evalFC, Regs.get, Regs.set, hv, preVal, preEv]

/-! ### The value of `is_multiline` on moved tokens -/

theorem unforced_toks {cs : List Tree} (h : ∀ c ∈ cs, ∀ k ds, c ≠ .node k ds) : Unforced cs := by
  intro j _
  induction cs with
  | nil => rfl
  | cons c cs ih =>
    cases c with
    | node k ds => exact absurd rfl (h (.node k ds) (by simp) k ds)
    | tok t => simp [containsKind, Tree.hasKind, ih (fun c hc => h c (by simp [hc]))]

theorem description_toks : ∀ s ∈ (Gram.spec .DescriptionString).syms, ∀ k, s ≠ .n k := by
  have : ∀ s ∈ (Gram.spec .DescriptionString).syms, (match s with | .n _ => false | .t _ => true) = true := by decide
  rintro s hs k rfl
  exact Bool.noConfusion (this _ hs)

theorem coim_len : ∀ w, Lang (Gram.spec .ClassOrInheritanceModification) w → w.length ≤ 2 → ∀ k, .n k ∉ w := by
  have : checkG (fun (st : Nat × Bool) s => (min (st.1 + 1) 3, st.2 || (match s with | .n _ => true | .t _ => false)))
      (fun st => st.1 == 3 || !st.2) (Gram.spec .ClassOrInheritanceModification) (0, false) = true := by decide +kernel
  intro w hw hl k hk
  have h := checkG_sound this hw
  have key : ∀ (w : List Sym) (n : Nat) (b : Bool),
      w.foldl (fun (st : Nat × Bool) s => (min (st.1 + 1) 3, st.2 || (match s with | .n _ => true | .t _ => false)))
        (min n 3, b) = (min (n + w.length) 3, b || w.any fun s => match s with | .n _ => true | .t _ => false) := by
    intro w
    induction w with
    | nil => intro n b; simp
    | cons s w ih =>
      intro n b
      have e : min (min n 3 + 1) 3 = min (n + 1) 3 := by omega
      simp only [List.foldl_cons, e, ih, List.length_cons, List.any_cons, Bool.or_assoc]
      have e2 : n + 1 + w.length = n + (w.length + 1) := by omega
      rw [e2]
  have h0 := key w 0 false
  simp only [Nat.zero_min] at h0
  rw [h0] at h
  simp only [Bool.or_eq_true, beq_iff_eq, Bool.not_eq_true', Bool.false_or] at h
  rcases h with h | h
  · omega
  · have := List.any_eq_false.1 h _ hk
    simp at this

/-- The children of `whole` areas have nothing on lines of its own, unless the area is settled. -/
theorem whole_unforced {fn : SK} (hA : (fn, Area.whole) ∈ areas) {cs : List Tree} (hC : Tree.Conforms (.node fn cs))
    (hset : settledAt fn cs) {a : Args} (hR : Ready fn a (.node fn cs)) (hv : isMultiline cs = .ok false)
    (hm : preVal fn a.m cs false = false) : Unforced cs ∨ (fn = .ComponentList ∧ cs.length ≤ 1) := by
  by_cases hx : fn ∈ exprKinds
  · exact .inl (expr_unforced hx hC)
  have hkinds : fn = .EnumList ∨ fn = .ClassOrInheritanceModification ∨ fn = .ArgumentOrInheritanceModificationList ∨
      fn = .ComponentList ∨ fn = .ClassModification ∨ fn = .ArgumentList ∨ fn = .DescriptionString := by
    revert hA hx
    clear hv hm hR hset hC
    cases fn <;> decide
  rcases hkinds with rfl | rfl | rfl | rfl | rfl | rfl | rfl
  · refine .inl (hR (by decide) ?_ _ _ rfl)
    simpa [preVal] using hm
  · exact .inl (hset hv)
  · refine .inl (hR (by decide) ?_ _ _ rfl)
    simpa [preVal] using hm
  · by_cases hl : cs.length > 1
    · exact .inl (hset hl hv)
    · exact .inr ⟨rfl, by omega⟩
  · simp only [preVal, Bool.false_or, Bool.or_eq_false_iff] at hm
    exact .inl (hset hv hm.1 hm.2)
  · refine .inl (hR (by decide) ?_ _ _ rfl)
    simpa [preVal] using hm
  · refine .inl (unforced_toks ?_)
    intro c hc k ds he
    refine description_toks c.sym (syms_complete hC.1 _ (List.mem_map_of_mem hc)) k ?_
    rw [he]; rfl

theorem whole_calm : ∀ fn, (fn, Area.whole) ∈ areas → fn ∈ calmKinds ∨ calmOk fn = true := by
  intro fn; cases fn <;> decide +kernel

/-- for one component `is_multiline` has no influence -/
theorem component_one {cs : List Tree} (hC : Tree.Conforms (.node .ComponentList cs)) (hl : cs.length ≤ 1)
    (hne : cs ≠ []) : indW .ComponentList (min cs.length 4) 0 none (cs.map Tree.sym) = true := by
  cases cs with
  | nil => exact absurd rfl hne
  | cons c cs =>
    cases cs with
    | cons d cs => simp at hl
    | nil =>
      have : c.sym ∈ (Gram.spec .ComponentList).first := first_complete (u := []) (by simpa using hC.1)
      have h2 : ∀ s ∈ (Gram.spec .ComponentList).first, indW .ComponentList 1 0 none [s] = true := by decide
      exact h2 _ this

theorem preVal_mono {fn : SK} {am : Bool} {cs : List Tree} {v : Bool} :
    (preVal fn am cs v = true → preVal fn am cs true = true) ∧
    (preVal fn am cs v = false → preVal fn am cs false = false) := by
  unfold preVal
  cases v <;> split <;> simp

theorem enum_only : ∀ fn, SK.EnumList ∈ ((Gram.spec fn).syms.filterMap fun s => match s with
    | .n k => some k
    | .t _ => none) → fn = .ShortClassSpecifier := by
  intro fn; cases fn <;> decide

theorem paren_areas {fn : SK} {op cl : Tok} (hA : (fn, Area.paren op cl) ∈ areas) :
    op ≠ cl ∧ op ∈ flatKinds ∧ cl ∈ flatKinds := by
  simp only [areas, List.mem_cons, Prod.mk.injEq, Area.paren.injEq, List.not_mem_nil, or_false, reduceCtorEq, and_false,
    false_or] at hA
  rcases hA with h | h | h | h | h <;> obtain ⟨-, rfl, rfl⟩ := h <;> decide

/-- Either the value is the same, or it has no influence, or there is an enumeration with descriptions. -/
theorem same_m {fn : SK} {A : Area} (hA : (fn, A) ∈ areas) (hk : ∀ t, (φ t).kind = t.kind) {cs : List Tree}
    (hne : cs ≠ []) (hC : Tree.Conforms (.node fn cs)) (hE : hasEmptyF cs = false) (hS : SrcOK (leavesF cs))
    (hset : settledAt fn cs) {a : Args} (hR : Ready fn a (.node fn cs)) {v v' : Bool} (hv : A.val cs = .ok v)
    (hv' : A.val (mapTrees φ cs) = .ok v') {r r' : Regs} {q : Option Token} {p : Pend} {ess : List (List TEv)}
    (h : Steps (Fmt.body fn) cs cs 0 r q ess r') (hr : r.m = preVal fn a.m cs v) (hT : Track φ q p ess.flatten) :
    preVal fn a.m cs v' = preVal fn a.m cs v ∨
    (indW fn (min cs.length 4) 0 none (cs.map Tree.sym) = true ∧ (fn = .ComponentList → cs.length ≤ 1)) ∨
    (fn = .ShortClassSpecifier ∧ r.m = false ∧ v' = true ∧
      ∃ ds, .node .EnumList ds ∈ cs ∧ containsKind .Description ds = true) := by
  have hw := area_word hA hC.1 (by simpa using hne)
  have hlen : (cs.map Tree.sym).length = cs.length := by simp
  rw [hlen] at hw
  have htk := steps_toks_flat hC h
  rcases hw.2 with hh | ⟨ho, hi⟩
  · cases hm : preVal fn a.m cs v
    · cases v with
      | true =>
        left
        cases v'
        · exact preVal_mono.2 hm
        · exact hm
      | false =>
        rw [hm] at hr
        cases A with
        | whole =>
          rcases whole_unforced hA hC hset hR hv hm with hu | ⟨rfl, hl⟩
          · obtain ⟨l, hl⟩ := onLine_of_single hne hE hS hv
            have hok : calmOk fn = true := (whole_calm fn hA).elim (calm_all fn) id
            have hnb := (calm_steps hok hl hu (calmF cs hC.2 hE l hl hu) h (fun c hc => hc)
              (fun c hc => syms_complete hC.1 _ (List.mem_map_of_mem hc)) hr
              (fun _ c hc => by
                cases cs with
                | nil => cases hc
                | cons d ds =>
                  simp only [List.head?_cons, Option.some.injEq] at hc
                  subst hc
                  exact first_complete (by simpa using hC.1))
              (fun h => by omega)).1
            have := hnb.single hT hne hE htk (hS.flat_of_line hl)
            have hv' : isMultiline (mapTrees φ cs) = .ok v' := hv'
            rw [this] at hv'
            cases hv'
            exact .inl hm
          · exact .inr (.inl ⟨component_one hC hl hne, fun _ => hl⟩)
        | paren op cl =>
          simp only [Area.val, Res.ok.injEq] at hv hv'
          by_cases hen : ∀ ds, .node .EnumList ds ∈ cs → containsKind .Description ds = false
          · have hpa := paren_areas hA
            have := calm_mid hA hpa.1 hpa.2 hk hne hC hE hS hv hen h hr hT
            rw [this] at hv'
            subst hv'
            exact .inl hm
          · cases v'
            · exact .inl hm
            · refine .inr (.inr ?_)
              have hen : ∃ ds, .node .EnumList ds ∈ cs ∧ containsKind .Description ds = true := by
                false_or_by_contra
                rename_i hc
                refine hen fun ds hd => ?_
                cases hcd : containsKind .Description ds
                · rfl
                · exact absurd ⟨ds, hd, hcd⟩ hc
              obtain ⟨ds, hd, hcd⟩ := hen
              refine ⟨?_, hr, rfl, ds, hd, hcd⟩
              refine enum_only fn (List.mem_filterMap.2 ⟨_, syms_complete hC.1 _ (List.mem_map_of_mem hd), rfl⟩)
    · left
      rw [hm] at hr
      have hv1 : v' = true := by
        cases A with
        | whole =>
          have := (steps_interior hC hE h hh hr).multi hT hne hE htk
          have hv' : isMultiline (mapTrees φ cs) = .ok v' := hv'
          rw [this] at hv'
          cases hv'
          rfl
        | paren op cl =>
          simp only [Area.val, Res.ok.injEq] at hv'
          obtain ⟨o, c, h1, h2, h3, h4, h5⟩ := steps_parens hC hE h hh hr hw.1 hT
          rw [scanParens_true (paren_areas hA).1 hk hw.1 h1 h2 h3 h4 h5] at hv'
          exact hv'.symm
      rw [hv1]
      exact preVal_mono.1 hm
  · refine .inr (.inl ⟨hi, ?_⟩)
    rintro rfl
    simp only [hotOnly, beq_self_eq_true, Bool.true_and, decide_eq_false_iff_not] at ho
    omega

/-! ### Enumerations -/

theorem enum_once : ∀ w, Lang (Gram.spec .ShortClassSpecifier) w → (w.filter (· == .n .EnumList)).length ≤ 1 := by
  have : checkG (fun (n : Nat) s => if s == Sym.n .EnumList then min (n + 1) 2 else n)
      (fun n => decide (n ≤ 1)) (Gram.spec .ShortClassSpecifier) 0 = true := by decide +kernel
  intro w hw
  have h := checkG_sound this hw
  have key : ∀ (w : List Sym) (n : Nat),
      w.foldl (fun (n : Nat) s => if s == Sym.n .EnumList then min (n + 1) 2 else n) (min n 2) =
        min (n + (w.filter (· == .n .EnumList)).length) 2 := by
    intro w
    induction w with
    | nil => intro n; simp
    | cons s w ih =>
      intro n
      simp only [List.foldl_cons, List.filter_cons]
      split
      · have e : min (min n 2 + 1) 2 = min (n + 1) 2 := by omega
        rw [e, ih, List.length_cons]
        congr 1
        omega
      · exact ih n
  have h0 := key w 0
  simp only [Nat.zero_min] at h0
  rw [h0] at h
  simp only [decide_eq_true_eq] at h
  omega

theorem scs_arms (s : Sym) (hs : s ≠ .n .EnumList) (e : Env) :
    indep e (upCmd (Fmt.body .ShortClassSpecifier) s) = true ∧ noSetM (upCmd (Fmt.body .ShortClassSpecifier) s) = true := by
  cases s with
  | t k => cases k <;> exact ⟨rfl, rfl⟩
  | n k => cases k <;> first | exact absurd rfl hs | exact ⟨rfl, rfl⟩

/-- an enumeration with descriptions makes `is_multiline` true -/
theorem scs_converge {all : List Tree} : ∀ {cs : List Tree} {idx : Nat} {r r' : Regs} {q : Option Token}
    {ess : List (List TEv)}, Steps (Fmt.body .ShortClassSpecifier) all cs idx r q ess r' → r.m = false →
    ((cs.map Tree.sym).filter (· == .n .EnumList)).length ≤ 1 →
    (∃ ds, .node .EnumList ds ∈ cs ∧ containsKind .Description ds = true) →
    Steps (Fmt.body .ShortClassSpecifier) all cs idx (r.withM true) q ess r'
  | [], idx, r, r', q, ess, _, _, _, hex => by obtain ⟨ds, hd, _⟩ := hex; cases hd
  | c :: rest, idx, r, r', q, ess, h, hm, hone, hex => by
    cases h with
    | @cons _ _ _ _ _ r1 e ess' _ h1 h2 =>
    obtain ⟨ds, hd, hD⟩ := hex
    by_cases hs : c.sym = .n .EnumList
    · have hc : c = .node .EnumList ds := by
        rcases List.mem_cons.mp hd with h | h
        · exact h.symm
        · rw [List.map_cons, List.filter_cons, if_pos (by simp [hs]), List.length_cons] at hone
          have : Sym.n .EnumList ∈ (rest.map Tree.sym).filter (· == .n .EnumList) :=
            List.mem_filter.2 ⟨List.mem_map.2 ⟨_, h, rfl⟩, by simp⟩
          have := List.length_pos_of_mem this
          omega
      subst hc
      refine .cons ?_ h2
      rw [← h1]
      have e1 : ∀ (cx : Ctx) (r : Regs), cx.cur = some (.node .EnumList ds) →
          trF (subOf (.node .EnumList ds)) cx (.when (.not (.reg .m)) (.set .m (.curHas .Description))) r q =
            .ok (r.withM true, []) := by
        intro cx r hcx
        cases hr : r.m
        · simp [FCmd.when, trF, evalFC, Regs.get, hr, Ctx.curChildren, hcx, hD, Regs.set, Regs.withM]
        · simp only [FCmd.when, trF, evalFC, Regs.get, hr, Bool.not_true, Res.bind_ok, Bool.false_eq_true, if_false,
            Regs.withM, Res.ok.injEq, Prod.mk.injEq, and_true]
          rw [← hr]
      have e2 : upCmd (Fmt.body .ShortClassSpecifier) (Tree.sym (.node .EnumList ds)) =
          .seq (.when (.not (.reg .m)) (.set .m (.curHas .Description))) (fblk [
            .when (.reg .m) (fblk [.indent, .brk .cur .Illegal]),
            Fmt.goM .EnumList (.reg .m),
            .when (.reg .m) .dedent]) := rfl
      rw [e2, trF, trF, e1 _ _ rfl, e1 _ _ rfl]
      rfl
    · have ha := scs_arms c.sym hs ⟨(rest.map Tree.sym).head?, min idx 4, min all.length 4, none⟩
      refine .cons (indep_sound true (envOK none) (fun x hx => by cases hx) ha.1 h1) ?_
      refine scs_converge h2 (by rw [noSetM_sound ha.2 h1]; exact hm) ?_ ⟨ds, ?_, hD⟩
      · rw [List.map_cons, List.filter_cons] at hone
        split at hone
        · simp only [List.length_cons] at hone; omega
        · exact hone
      · rcases List.mem_cons.mp hd with h | h
        · rw [← h] at hs; exact absurd rfl hs
        · exact h

/-! ### Trees -/

theorem post_indep : ∀ fn ∈ areaKinds, ∀ len ∈ [1, 2, 3, 4], (fn = .ComponentList → len = 1) →
    indep ⟨none, 0, len, none⟩ (Fmt.body fn).post = true := by decide +kernel

theorem preVal_map (fn : SK) (am : Bool) (cs : List Tree) (v : Bool) :
    preVal fn am (mapTrees φ cs) v = preVal fn am cs v := by
  simp only [preVal, containsKind_map, mapTrees_len]

theorem ind_map {es : List TEv} (h : ∀ e ∈ es, e.ind = true) : es.map (TEv.map φ) = es := by
  induction es with
  | nil => rfl
  | cons e es ih =>
    have h1 := h e List.mem_cons_self
    rw [List.map_cons, ih (fun e he => h e (List.mem_cons_of_mem _ he))]
    cases e <;> simp [TEv.ind] at h1 <;> rfl

theorem map_sym (hk : ∀ t, (φ t).kind = t.kind) (cs : List Tree) : (mapTrees φ cs).map Tree.sym = cs.map Tree.sym := by
  rw [mapTrees_eq, List.map_map]
  exact List.map_congr_left fun c _ => sym_move hk c

/-- A tree whose children can be moved. -/
theorem node_moves (hk : ∀ t, (φ t).kind = t.kind) {k : SK} {cs : List Tree} (hC : Tree.Conforms (.node k cs))
    (hE : Tree.hasEmpty (.node k cs) = false) (hS : SrcOK (leavesF cs)) (hset : settledAt k cs)
    (hK : ∀ c ∈ cs, Known φ k c) : Moves φ (.node k cs) := by
  intro fn a q p w es hs hR h hT
  cases hs
  simp only [Tree.hasEmpty, Bool.or_eq_false_iff, List.isEmpty_eq_false_iff] at hE
  obtain ⟨r1, e1, ess, r2, r3, e3, h1, h2, h3, rfl, rfl, i1, i3⟩ := trTree_inv h
  have hTs : Track φ q p ess.flatten := by
    have := (Track.append.1 (Track.append.1 hT).1).2
    rwa [ind_lastT i1, pendAfter_ind i1] at this
  have hfirst : 0 = 0 → ∀ c, cs.head? = some c → c.sym ∈ (Gram.spec k).first := by
    intro _ c hc
    cases cs with
    | nil => cases hc
    | cons d ds =>
      simp only [List.head?_cons, Option.some.injEq] at hc
      subst hc
      exact first_complete (by simpa using hC.1)
  have hmapev : (e1 ++ ess.flatten ++ e3).map (TEv.map φ) =
      e1 ++ (ess.map (List.map (TEv.map φ))).flatten ++ e3 := by
    simp only [List.map_append, ind_map i1, ind_map i3, List.map_flatten]
  have hflat : (ess.map (List.map (TEv.map φ))).flatten = ess.flatten.map (TEv.map φ) := by
    rw [List.map_flatten]
  -- the parts fit together
  have fit : ∀ {r1' r2' r3' : Regs},
      trF noSub { all := mapTrees φ cs } (Fmt.body k).pre { m := a.m, w := a.w, o := a.o } (q.map φ) = .ok (r1', e1) →
      Steps (Fmt.body k) (mapTrees φ cs) (mapTrees φ cs) 0 r1' (q.map φ) (ess.map (List.map (TEv.map φ))) r2' →
      trF noSub { all := mapTrees φ cs } (Fmt.body k).post r2' ((lastT q ess.flatten).map φ) = .ok (r3', e3) →
      r3'.w = r3.w →
      subOf (Tree.map φ (.node k cs)) k a (q.map φ) = .ok (r3.w, (e1 ++ ess.flatten ++ e3).map (TEv.map φ)) := by
    intro r1' r2' r3' k1 k2 k3 k4
    refine trTree_steps.2 ⟨r1', e1, _, r2', r3', e3, k1, by rw [ind_lastT i1]; exact k2, ?_, k4.symm, hmapev⟩
    rw [lastT_append, ind_lastT i1, hflat, lastT_map]
    exact k3
  have hpost := silent_pair hk (silent_all k).2 (post_plain k) h3
  have hsteps : (k = .ClassModification ∨ k = .ClassOrInheritanceModification → r1.m = false →
      ∀ j ds, .node j ds ∈ cs → Unforced ds) →
      Steps (Fmt.body k) (mapTrees φ cs) (mapTrees φ cs) 0 r1 (q.map φ) (ess.map (List.map (TEv.map φ))) r2 :=
    steps_pair hk h2 hTs hK hfirst
  by_cases hA : ∃ A, (k, A) ∈ areas
  · obtain ⟨A, hA⟩ := hA
    have hval : ∃ v, A.val cs = .ok v := by
      cases A with
      | whole => exact isMultiline_ok hE.1 hE.2
      | paren op cl => exact ⟨_, rfl⟩
    obtain ⟨v, hv⟩ := hval
    have hval' : ∃ v', A.val (mapTrees φ cs) = .ok v' := by
      cases A with
      | whole => exact isMultiline_move hv
      | paren op cl => exact ⟨_, rfl⟩
    obtain ⟨v', hv'⟩ := hval'
    have hp := pre_eq hA hv a q
    rw [h1] at hp
    simp only [Res.ok.injEq, Prod.mk.injEq] at hp
    obtain ⟨rfl, rfl⟩ := hp
    have hp' := pre_eq hA hv' a (q.map φ)
    rw [preVal_map, mapTrees_len] at hp'
    have hst := hsteps (by
      rintro (rfl | rfl) hm j ds hd
      · have hAw : A = .whole := by
          simp only [areas, List.mem_cons, Prod.mk.injEq, List.not_mem_nil, or_false, reduceCtorEq, false_and, false_or,
            true_and] at hA
          exact hA
        subst hAw
        have hm : preVal .ClassModification a.m cs v = false := hm
        simp only [preVal, Bool.or_eq_false_iff] at hm
        rw [hm.1] at hv
        exact (Unforced.child (hset hv hm.2.1 hm.2.2) hd).1
      · have hAw : A = .whole := by
          simp only [areas, List.mem_cons, Prod.mk.injEq, List.not_mem_nil, or_false, reduceCtorEq, false_and, false_or,
            true_and] at hA
          exact hA
        subst hAw
        have hm : preVal .ClassOrInheritanceModification a.m cs v = false := hm
        simp only [preVal, Bool.and_eq_false_iff, decide_eq_false_iff_not] at hm
        rcases hm with hm | hm
        · rw [hm] at hv
          exact (Unforced.child (hset hv) hd).1
        · exact absurd (List.mem_map_of_mem hd) (coim_len _ hC.1 (by simpa using hm) j))
    rcases same_m hA hk hE.1 hC hE.2 hS hset hR hv hv' h2 rfl hTs with he | ⟨hi, hcl⟩ | ⟨rfl, hm, hv1, ds, hd, hD⟩
    · rw [he] at hp'
      exact fit hp' hst hpost rfl
    · have hlen : min (mapTrees φ cs).length 4 = min cs.length 4 := by rw [mapTrees_len]
      have hx := steps_indep (preVal k a.m cs v') hst (v := none) (by rw [hlen, map_sym hk]; exact hi)
        (fun b hb => by cases hb)
      have hkA : k ∈ areaKinds := List.mem_map.2 ⟨(k, A), hA, rfl⟩
      have hlm : min cs.length 4 ∈ [1, 2, 3, 4] := by
        cases cs with
        | nil => exact absurd rfl hE.1
        | cons c cs => exact len_mem c cs
      have hpi := post_indep k hkA _ hlm (fun h => by
        have := hcl h
        have : cs.length ≠ 0 := by simpa using hE.1
        omega)
      have hps := indep_sound (preVal k a.m cs v') (cx := { all := mapTrees φ cs })
        (e := ⟨none, 0, min cs.length 4, none⟩) ⟨rfl, rfl, by rw [mapTrees_len]⟩ (fun x hx => by cases hx) hpi hpost
      refine fit (r1' := Regs.withM { m := preVal k a.m cs v, w := a.w, o := a.o } (preVal k a.m cs v'))
        ?_ hx hps rfl
      rw [hp']
      have : preEv k (preVal k a.m cs v') cs.length = preEv k (preVal k a.m cs v) cs.length := by
        unfold preEv
        split
        · have := hcl rfl
          have h1 : ¬ cs.length > 1 := by omega
          simp [h1]
        all_goals rfl
      rw [this]
      rfl
    · have hm : preVal .ShortClassSpecifier a.m cs v = false := hm
      have hx := scs_converge hst hm (by rw [map_sym hk]; exact enum_once _ hC.1)
        ⟨mapTrees φ ds, by rw [mapTrees_eq]; exact List.mem_map.2 ⟨_, hd, rfl⟩, by rw [containsKind_map]; exact hD⟩
      refine fit ?_ hx hpost rfl
      rw [hp', hv1]
      rfl
  · have hA' : k ∉ areaKinds := by
      intro h
      obtain ⟨⟨k', A⟩, hm, rfl⟩ := List.mem_map.1 h
      exact hA ⟨A, hm⟩
    refine fit (silent_pair hk (silent_all k).1 ((pre_plain k).resolve_left hA') h1) (hsteps ?_) hpost rfl
    rintro (rfl | rfl) <;> exact absurd (by decide) hA'

mutual
/-- Moving the tokens of a settled tree to where they are printed does not change what is printed. -/
theorem moves (hk : ∀ t, (φ t).kind = t.kind) (c : Tree) (hC : c.Conforms) (hE : c.hasEmpty = false)
    (hS : SrcOK c.leaves) (hi : ∀ t ∈ c.leaves, t.kind = .Within → (t.idx > 0 ↔ (φ t).idx > 0)) (hset : c.Settled) : Moves φ c := by
  match c with
  | .tok t => intro fn a q p w es hs; cases hs
  | .node k cs =>
    have hE' := hE
    simp only [Tree.hasEmpty, Bool.or_eq_false_iff, List.isEmpty_eq_false_iff] at hE
    have ih := movesF hk cs hC.2 hE.2 hS hi hset.2
    refine node_moves hk hC hE' hS hset.1 fun c hc => ⟨syms_complete hC.1 _ (List.mem_map_of_mem hc),
      conformsF_mem hC.2 c hc, hasEmptyF_mem hE.2 c hc, SrcOK.sub hS (leaves_sublist hc), ?_, ih c hc⟩
    intro t ht
    exact hi t (leaves_mem hc t ht)
theorem movesF (hk : ∀ t, (φ t).kind = t.kind) (cs : List Tree) (hC : ConformsF cs) (hE : hasEmptyF cs = false)
    (hS : SrcOK (leavesF cs)) (hi : ∀ t ∈ leavesF cs, t.kind = .Within → (t.idx > 0 ↔ (φ t).idx > 0)) (hset : SettledF cs) :
    ∀ c ∈ cs, Moves φ c := by
  match cs with
  | [] => intro c hc; cases hc
  | c :: cs =>
    simp only [hasEmptyF, Bool.or_eq_false_iff] at hE
    intro d hd
    have hd' : d = c ∨ d ∈ cs := by simpa using hd
    by_cases hdc : d = c
    · rw [hdc]
      exact moves hk c hC.1 hE.1 (hS.sub (by rw [leavesF]; exact List.sublist_append_left _ _))
        (fun t ht => hi t (by simp [leavesF, ht])) hset.1
    · exact movesF hk cs hC.2 hE.2 (hS.sub (by rw [leavesF]; exact List.sublist_append_right _ _))
        (fun t ht => hi t (by simp [leavesF, ht])) hset.2 d (hd'.resolve_left hdc)
end

end Mofmt
