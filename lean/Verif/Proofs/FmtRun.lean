import Verif.Proofs.FmtSound
/-
The formatting functions go as the tables say: induction on the tree.
-/
namespace Mofmt

/-! ### Lengths of words -/

theorem lens_sound {r : RE} {u : List Sym} (h : Lang r u) : min u.length 4 ∈ lens r := by
  induction h with
  | eps => simp [lens]
  | sym a => simp [lens]
  | altL _ ih => simp only [lens, mem_dedup]; exact List.mem_append_left _ ih
  | altR _ ih => simp only [lens, mem_dedup]; exact List.mem_append_right _ ih
  | seq _ _ ih1 ih2 =>
    simp only [lens, mem_dedup, List.mem_flatMap, List.mem_map]
    exact ⟨_, ih1, _, ih2, by rw [List.length_append]; omega⟩
  | @starNil a =>
    simp only [lens]
    split
    · rename_i h; exact h.1
    · simp
  | @starCons a u v _ _ ih1 ih2 =>
    simp only [lens] at ih2 ⊢
    split
    · rename_i h
      rw [if_pos h] at ih2
      have := h.2 _ ih1 _ ih2
      rw [List.length_append]
      rwa [show min (u.length + v.length) 4 = min (min u.length 4 + min v.length 4) 4 by omega]
    · have : min (u ++ v).length 4 ≤ 4 := by omega
      generalize min (u ++ v).length 4 = m at *
      simp only [List.mem_cons, List.not_mem_nil, or_false]; omega

theorem feasible_sound {T i n : Nat} {r : RE} {u : List Sym} (hT : T = 9 ∨ T = min n 4) (h : Lang r u)
    (hn : min (i + min u.length 4) 4 = min n 4) : feasible T i r = true := by
  rcases hT with rfl | rfl
  · simp [feasible]
  · simp only [feasible, Bool.or_eq_true, List.any_eq_true, beq_iff_eq]
    exact .inr ⟨_, lens_sound h, hn⟩

/-! ### Lines -/

theorem LS.run_line (L : LS) : ∀ (ds : List (Dec × Token)) (t : Token),
    (ds.map (·.2)).getLast? = some t → (L.run ds).line = t.stop.line
  | [], t, h => by simp at h
  | [x], t, h => by simp at h; subst h; rfl
  | x :: y :: ds, t, h => by
    have h' : ((y :: ds).map (·.2)).getLast? = some t := by simpa using h
    have := LS.run_line (L.step x) (y :: ds) t h'
    simpa [LS.run] using this

/-! ### Contexts -/

theorem Conc.change {flat : Bool} {cx cx' : ACtx} {C C' : Ctx} {n0 : Nat}
    {a : FAbs} {em : Bool} {r : Regs} {q : Option Token} {d : Dec} {n : Nat}
    (h : Conc flat cx C n0 a r q d n)
    (nb : flat = true → binKind cx'.fn = true → cx'.idx > 0 → em = false →
      ∀ u, C'.target .next = .ok u → u.start.line ≤ lineOf q) :
    Conc flat cx' C' n0 { a with em := em } r q d n :=
  ⟨h.gap, h.prev, h.lo, h.hi, h.regs, nb⟩

theorem Conc.weaken {flat : Bool} {cx : ACtx} {C : Ctx} {n0 : Nat}
    {a b : FAbs} {r : Regs} {q : Option Token} {d : Dec} {n : Nat}
    (h : Conc flat cx C n0 a r q d n) (hg : a.gap = b.gap) (hp : subset a.prev b.prev = true)
    (hlo : b.lo ≤ a.lo) (hhi : a.hi ≤ b.hi) (hr : a.r = b.r) (he : a.em = b.em) :
    Conc flat cx C n0 b r q d n :=
  ⟨by rw [← hg]; exact h.gap, subset_has hp h.prev, by have := h.lo; omega,
   fun hf => by have := h.hi hf; omega, by rw [← hr]; exact h.regs,
   fun a1 a2 a3 a4 => h.nb a1 a2 a3 (by rw [he]; exact a4)⟩

theorem subsumes_spec {x y : Hd} (h : subsumes y x = true) :
    x.up = y.up ∧ x.idx = y.idx ∧ x.T = y.T ∧ x.a.gap = y.a.gap ∧ x.a.r = y.a.r ∧ x.re = y.re ∧
    subset x.a.prev y.a.prev = true ∧ y.a.lo ≤ x.a.lo ∧ x.a.hi ≤ y.a.hi ∧ x.a.em = y.a.em := by
  simp only [subsumes, sameKey, Bool.and_eq_true, decide_eq_true_eq, beq_iff_eq] at h
  obtain ⟨⟨h1, h2, h3, h4, h5, h6⟩, h7, h8, h9, h10⟩ := h
  exact ⟨h1, h2, h3, h4, h5, h6, h7, h8, h9, h10⟩

/-- the context after the loop -/
def endCtx (fn : SK) (T : Nat) : ACtx := { fn, cur := none, nxt := none, idx := 0, T }

theorem trLoop_eq (bodies : SK → FBody) (b : FBody) (all : List Tree) (c : Tree) (rest : List Tree)
    (idx : Nat) (r : Regs) (q : Option Token) :
    trLoop bodies b all (c :: rest) idx r q =
      (trF (fun fn a q => trTree bodies fn a c q) { all, cur := some c, idx, rest }
        (upCmd b c.sym) r q).bind
      fun (r, es) => (trLoop bodies b all rest (idx + 1) r (lastT q es)).bind fun (r, es') =>
        .ok (r, es ++ es') := by
  cases c <;> (rw [trLoop]; rfl)

section
variable {T : Tabs}

theorem trLoop_sound (cs : List Tree) (fn : SK) (e : Args × Gap × KSet) (hs : List Hd)
    (hst : ∀ h ∈ hs, stepA (Alg.chk T) T.flat T.exit fn h (fun h => hs.any (subsumes · h))
      (fun a => (T.exit fn e.1).any (exOk · a)) = true)
    (all : List Tree) (idx : Nat) (after : List Token) (n0 : Nat) (h : Hd) (hh : h ∈ hs)
    (hallNe : all ≠ []) (hallE : hasEmptyF all = false)
    (hE : hasEmptyF cs = false)
    (hch : ∀ t ∈ cs, ∀ fn cs', t = .node fn cs' → ∀ after,
      SubOK T (fun fn a q => trTree Fmt.body fn a t q) fn t after)
    (hP : T.flat = true → binKind fn = true → flatPairs cs) (hem : h.a.em = false)
    (c : Tree) (rest : List Tree) (hcs : cs = c :: rest) (hup : c.sym = h.up)
    (hre : Lang h.re (rest.map Tree.sym)) (hidx : h.idx = min idx 4)
    (hTn : h.T = 9 ∨ h.T = min all.length 4) (hlen : idx + cs.length = all.length)
    (hidxlen : cs.length ≠ 0)
    (r : Regs) (q : Option Token) (d : Dec) (n : Nat)
    (hC : Conc T.flat { fn, cur := some h.up, nxt := rest.head?.map Tree.sym, idx := h.idx, T := h.T }
      { all, cur := some c, idx, rest } n0 h.a r q d n) :
    ∃ r' es a' ds d' n', trLoop Fmt.body (Fmt.body fn) all cs idx r q = .ok (r', es) ∧
      execA (Alg.chk T) T.flat T.exit (endCtx fn h.T) (Fmt.body fn).post a'
        (fun a => (T.exit fn e.1).any (exOk · a)) = true ∧
      Conc T.flat (endCtx fn h.T) { all } n0 a' r' (lastT q es) d' n' ∧ Emit T (kindOf q) d ds d' ∧
      Walk ⟨kindOf q, d, n, leavesF cs ++ after⟩ es ds ⟨kindOf (lastT q es), d', n', after⟩ ∧
      StOK T.entry (startsF cs) ds ∧ a'.em = true := by
  match cs with
  | [] => cases hcs
  | c' :: rest' =>
    cases hcs
    simp only [hasEmptyF, Bool.or_eq_false_iff] at hE
    have hc : CtxOK { fn, cur := some h.up, nxt := rest.head?.map Tree.sym, idx := h.idx, T := h.T }
        { all, cur := some c, idx, rest } c.leaves after :=
      ⟨by simp [hup], rfl, hidx, hTn, hallNe, hallE, by
        intro t ht; simp at ht; subst ht; exact ⟨hE.1, rfl⟩, hE.2⟩
    have hsub : ∀ fn cs, (⟨all, some c, idx, rest⟩ : Ctx).cur = some (.node fn cs) →
        SubOK T (fun fn a q => trTree Fmt.body fn a c q) fn (.node fn cs)
          (leavesF (⟨all, some c, idx, rest⟩ : Ctx).rest ++ after) := by
      intro fn cs hcur
      simp only [Option.some.injEq] at hcur
      rw [← hcur]
      exact hch c List.mem_cons_self fn cs hcur _
    have hstep := hst h hh
    simp only [stepA] at hstep
    rw [chk_both] at hstep
    obtain ⟨hs1, hs2⟩ := hstep
    rw [trLoop_eq, hup]
    have htd2 : todoOf ⟨all, some c, idx, rest⟩ c.leaves after true = leavesF rest ++ after := by
      simp [todoOf]
    match rest, hE, hch, hP, hre, hlen, hC, hc, hsub, htd2 with
    | [], hE, hch, hP, hre, hlen, hC, hc, hsub, htd2 =>
      have hnull : h.re.nullable = true := (nullable_iff _).mpr hre
      have hfe : feasible h.T (h.idx + 1) .eps = true :=
        feasible_sound hTn .eps (by simp at hlen ⊢; omega)
      rw [hnull, hfe] at hs2
      simp only [Bool.and_self, if_true] at hs2
      obtain ⟨r1, s1, a1, ds1, d1, n1, f1, f2, f3, f4, f5, f6, f7⟩ :=
        execA_sound hc hsub _ _ _ r q d n hs2 hC
      simp only at f2
      split at f2
      · rename_i hem1
        refine ⟨r1, s1, a1, ds1, d1, n1, ?_, f2, ?_, f4, ?_, ?_, hem1⟩
        · simp only [f1, Res.bind_ok, trLoop, List.append_nil]
        · have := f3.change (C' := { all }) (cx' := endCtx fn h.T) (em := a1.em)
            (by intro _ _ h3; simp [endCtx] at h3)
          exact this
        · rw [hem1, htd2] at f5
          simp only [todoOf, hem, leavesF] at f5
          simpa [leavesF] using f5
        · have := f7 hem hem1 c rfl
          simpa [startsF] using this
      · simp [chk_bad] at f2
    | c2 :: rest2, hE, hch, hP, hre, hlen, hC, hc, hsub, htd2 =>
      rw [List.map_cons] at hre
      rw [chk_all] at hs1
      have hs1 := hs1 c2.sym (mem_dedup.mpr (first_complete hre))
      have hres := (der_iff c2.sym _ _).mpr hre
      rw [if_pos (feasible_sound hTn hres (by simp at hlen ⊢; omega))] at hs1
      obtain ⟨r1, s1, a1, ds1, d1, n1, f1, f2, f3, f4, f5, f6, f7⟩ :=
        execA_sound hc hsub _ _ _ r q d n hs1 hC
      simp only at f2
      split at f2
      · rename_i hem1
        have f5' : Walk ⟨kindOf q, d, n, leavesF (c :: c2 :: rest2) ++ after⟩ s1 ds1
            ⟨kindOf (lastT q s1), d1, n1, leavesF (c2 :: rest2) ++ after⟩ := by
          rw [hem1, htd2] at f5
          simp only [todoOf, hem, leavesF] at f5
          simpa [leavesF] using f5
        have hds1 : toks s1 = c.leaves := by
          have := f5'.todo
          simp only [leavesF, List.append_assoc, List.append_cancel_right_eq] at this
          exact this.symm
        rw [List.any_eq_true] at f2
        obtain ⟨h2, hh2, hsb⟩ := f2
        obtain ⟨q1, q2, q3, q4, q5, q6, q7, q8, q9, q10⟩ := subsumes_spec hsb
        simp only at q1 q2 q3 q4 q5 q6 q7 q8 q9 q10
        have hC2 : Conc T.flat
            { fn, cur := some h2.up, nxt := rest2.head?.map Tree.sym, idx := h2.idx, T := h2.T }
            { all, cur := some c2, idx := idx + 1, rest := rest2 } n0 h2.a r1 (lastT q s1) d1 n1 := by
          have := f3.change (C' := { all, cur := some c2, idx := idx + 1, rest := rest2 })
            (cx' := { fn, cur := some h2.up, nxt := rest2.head?.map Tree.sym, idx := h2.idx, T := h2.T })
            (em := false) (by
              intro hf hb _ _ u hu
              have hp := hP hf hb
              match rest2, hu with
              | [], hu => simp [Ctx.target] at hu
              | y :: rest3, hu =>
                simp only [flatPairs] at hp
                obtain ⟨z, z1, z2⟩ := end_leaves c hE.1
                rw [lastT_toks _ _ z (by rw [hds1]; exact z1)]
                simp only [Ctx.target, startTok] at hu
                cases hy : y.start? with
                | none => rw [hy] at hu; simp at hu
                | some u' =>
                  rw [hy] at hu; simp at hu; subst hu
                  exact hp.1 z u' z2 hy)
          exact this.weaken q4 q7 q8 q9 q5 q10
        have hE2 : hasEmptyF (c2 :: rest2) = false := hE.2
        have hP2 : T.flat = true → binKind fn = true → flatPairs (c2 :: rest2) := by
          intro hf hb
          have hp := hP hf hb
          match rest2 with
          | [] => simp [flatPairs]
          | y :: rest3 => simp only [flatPairs] at hp ⊢; exact hp.2
        obtain ⟨r2, s2, a2, ds2, d2, n2, e1, e2, e3, e4, e5, e6, e7⟩ :=
          trLoop_sound (c2 :: rest2) fn e hs hst all (idx + 1) after n0 h2 hh2 hallNe hallE hE2
            (fun t ht => hch t (List.mem_cons_of_mem _ ht)) hP2 (by rw [← q10]) c2 rest2 rfl q1 (by rw [← q6]; exact hres)
            (by rw [← q2, hidx]; omega) (by rw [← q3]; exact hTn) (by simp at hlen ⊢; omega) (by simp)
            r1 (lastT q s1) d1 n1 hC2
        rw [← q3] at e2 e3
        refine ⟨r2, s1 ++ s2, a2, ds1 ++ ds2, d2, n2, ?_, e2, ?_, Emit.trans f4 e4 f5', ?_, ?_, e7⟩
        · simp only [f1, Res.bind_ok, e1]
        · rw [lastT_append]; exact e3
        · rw [lastT_append]; exact f5'.append e5
        · rw [startsF]
          refine StOK.append ?_ (e6.mono fun x hx => List.mem_append_right _ hx)
          exact (f7 hem hem1 c rfl).mono fun x hx => List.mem_append_left _ hx
      · simp [chk_bad] at f2

variable (hT : T.Valid)
include hT

theorem trNode_sound (t : Tree) (fn : SK) (hfn : ∃ cs, t = .node fn cs) (hE : t.hasEmpty = false)
    (hCf : t.Conforms) (hF : T.flat = true → t.NoWrap)
    (hch : ∀ k cs, t = .node k cs → ∀ t ∈ cs, ∀ fn cs', t = .node fn cs' → ∀ after,
      SubOK T (fun fn a q => trTree Fmt.body fn a t q) fn t after) (after : List Token) :
    SubOK T (fun fn a q => trTree Fmt.body fn a t q) fn t after := by
  match t with
  | .tok x => obtain ⟨cs, h⟩ := hfn; cases h
  | .node fn' cs =>
    obtain ⟨cs', hcs⟩ := hfn
    cases hcs
    simp only [Tree.hasEmpty, Bool.or_eq_false_iff, List.isEmpty_eq_false_iff] at hE
    simp only [Tree.Conforms] at hCf
    intro e he q d n hd hk
    have hchk := hT fn e he
    simp only [chkEntry] at hchk
    generalize headsOf T.flat T.exit fn e = hs at hchk
    simp only [chkHeads, Bool.and_eq_true, List.all_eq_true] at hchk
    obtain ⟨hen, hst⟩ := hchk
    simp only [enterA, chk_all] at hen
    -- the statements before the loop
    obtain ⟨Tn, hTmem, hTn⟩ : ∃ Tn, Tn ∈ (if usesLen fn then (lens (Gram.spec fn)).filter (0 < ·) else [9]) ∧
        (Tn = 9 ∨ Tn = min cs.length 4) := by
      by_cases hu : usesLen fn = true
      · rw [if_pos hu]
        refine ⟨min cs.length 4, ?_, .inr rfl⟩
        rw [List.mem_filter]
        have := lens_sound hCf.1
        rw [List.length_map] at this
        refine ⟨this, ?_⟩
        have : cs.length ≠ 0 := by simpa using hE.1
        simp; omega
      · rw [if_neg hu]; exact ⟨9, by simp, .inl rfl⟩
    have hc0 : CtxOK (endCtx fn Tn) { all := cs } (leavesF cs) after :=
      ⟨rfl, rfl, rfl, hTn, hE.1, hE.2, by intro t ht; simp at ht, rfl⟩
    have h1 := hen Tn hTmem
    have hC0 : Conc T.flat (endCtx fn Tn) { all := cs } n
        { gap := e.2.1, prev := e.2.2, lo := 0, hi := 0, em := false,
          r := { m := e.1.m, w := e.1.w, o := e.1.o } }
        { m := e.1.m, w := e.1.w, o := e.1.o } q d n := by
      refine ⟨hd, hk, by simp, by simp, rfl, ?_⟩
      intro _ _ h3; simp [endCtx] at h3
    obtain ⟨r1, s1, a1, ds1, d1, n1, f1, f2, f3, f4, f5, f6, f7⟩ :=
      execA_sound hc0 (by intro fn cs h; simp at h) _ _ _ _ _ _ _ h1 hC0
      (sub := fun _ _ _ => .panic .unreachable)
    simp only at f2
    split at f2
    · simp [chk_bad] at f2
    rename_i hem
    have hem : a1.em = false := by simpa using hem
    have htk1 : toks s1 = [] := by
      rw [hem] at f5
      have := congrArg List.length f5.todo
      rw [List.length_append] at this
      exact List.length_eq_zero_iff.mp (by simp only at this; omega)
    have hds1 : ds1 = [] := by
      have := f5.toks
      rw [htk1, List.map_eq_nil_iff] at this
      exact this
    subst hds1
    rw [chk_all] at f2
    -- the loop
    have hch := hch fn cs rfl
    cases cs with
    | nil => exact absurd rfl hE.1
    | cons c rest =>
    have hlang := hCf.1
    rw [List.map_cons] at hlang
    have g1 := f2 c.sym (mem_dedup.mpr (first_complete hlang))
    have hres := (der_iff c.sym _ _).mpr hlang
    rw [if_pos (feasible_sound hTn hres (by simp; omega)), List.any_eq_true] at g1
    obtain ⟨h, hh, hsub⟩ := g1
    obtain ⟨q1, q2, q3, q4, q5, q6, q7, q8, q9, q10⟩ := subsumes_spec hsub
    simp only at q1 q2 q3 q4 q5 q6 q7 q8 q9 q10
    have hC1 : Conc T.flat { fn, cur := some h.up, nxt := rest.head?.map Tree.sym, idx := h.idx, T := h.T }
        { all := c :: rest, cur := some c, idx := 0, rest } n h.a r1 (lastT q s1) d1 n1 := by
      have := f3.change (C' := { all := c :: rest, cur := some c, idx := 0, rest })
        (cx' := { fn, cur := some h.up, nxt := rest.head?.map Tree.sym, idx := h.idx, T := h.T })
        (em := a1.em) (by
          intro _ _ h3; simp [← q2] at h3)
      exact this.weaken q4 q7 q8 q9 q5 q10
    have hlp := trLoop_sound (c :: rest) fn e hs hst (c :: rest) 0 after n h hh (by simp) (by simp [hE.2])
      hE.2 hch (fun hf hb => (hF hf).1 hb) (by rw [← q10]; exact hem)
      c rest rfl q1 (by rw [← q6]; exact hres) (by rw [← q2]; simp) (by rw [← q3]; exact hTn) (by simp)
      (by simp) r1 (lastT q s1) d1 n1 hC1
    obtain ⟨r2, s2, a2, ds2, d2, n2, e1, e2, e3, e4, e5, e6, e7⟩ := hlp
    -- the statements after it
    have hcE : CtxOK (endCtx fn h.T) { all := c :: rest } [] after :=
      ⟨rfl, rfl, rfl, by rw [← q3]; exact hTn, by simp, hE.2, by intro t ht; simp at ht, rfl⟩
    obtain ⟨r3, s3, a3, ds3, d3, n3, g1, g2, g3, g4, g5, g6, g7⟩ :=
      execA_sound hcE (by intro fn cs h; simp at h) _ _ _ _ _ _ _ e2 e3
      (sub := fun _ _ _ => .panic .unreachable)
    have htk3 : toks s3 = [] := by
      have := g5.todo
      simp [todoOf, leavesF] at this
      exact this
    have hds3 : ds3 = [] := by
      have := g5.toks
      rw [htk3, List.map_eq_nil_iff] at this
      exact this
    subst hds3
    rw [List.any_eq_true] at g2
    obtain ⟨ex, x1, x2⟩ := g2
    simp only [exOk, Bool.and_eq_true, decide_eq_true_eq] at x2
    obtain ⟨⟨⟨⟨x3, x4⟩, x5⟩, x6⟩, x7⟩ := x2
    have htd : ∀ em, todoOf { all := c :: rest } [] after em = after := by intro em; simp [todoOf, leavesF]
    have hl3 : lastT q (s1 ++ s2 ++ s3) = lastT (lastT (lastT q s1) s2) s3 := by
      rw [lastT_append, lastT_append]
    have hf5 : Walk ⟨kindOf q, d, n, leavesF (c :: rest) ++ after⟩ s1 []
        ⟨kindOf (lastT q s1), d1, n1, leavesF (c :: rest) ++ after⟩ := by
      simpa [todoOf, hem, leavesF] using f5
    have hg5 : Walk ⟨kindOf (lastT (lastT q s1) s2), d2, n2, after⟩ s3 []
        ⟨kindOf (lastT (lastT (lastT q s1) s2) s3), d3, n3, after⟩ := by
      simpa [todoOf, leavesF] using g5
    refine ⟨r3.w, s1 ++ s2 ++ s3, ds2, d3, n3, ex, ?_, x1, by rw [x3, g3.regs], by rw [x4]; exact g3.gap,
      by rw [hl3]; exact subset_has x5 g3.prev, by have := g3.lo; omega, ?_, ?_, ?_, ?_⟩
    · simp only
      rw [trTree]
      simp only [f1, Res.bind_ok, e1, lastT_append, g1]
    · intro hf
      have := g3.hi hf; omega
    · rw [hl3]
      have := (hf5.append e5).append hg5
      simpa [Tree.leaves] using this
    · have h12 := Emit.trans f4 e4 hf5
      have := Emit.trans (v := ⟨_, _, _, after⟩) h12 g4 (hf5.append e5)
      simpa using this
    · -- starts
      have hst2 : startOf (c :: rest) = c.start? := rfl
      obtain ⟨x, xs, y1, y2⟩ := startF_leaves (c :: rest) (by simp) hE.2
      have hsx : StOK T.entry [(fn, x)] ds2 := by
        intro z hz
        simp at hz; subst hz
        simp only
        have e5' : ds2.map (·.2) = leavesF (c :: rest) := by
          rw [e5.toks]
          have := e5.todo
          simpa using this.symm
        rw [y1] at e5'
        match ds2, e5' with
        | (dd, tt) :: ds', e5' =>
          simp only [List.map_cons, List.cons.injEq] at e5'
          obtain ⟨rfl, _⟩ := e5'
          refine ⟨dd, by simp, e, he, ?_⟩
          by_cases hn : e.2.1 = .none
          · exact .inl hn
          · right
            have hdn : d ≠ .none := by intro h; rw [h] at hd; exact hn hd.symm
            have hx := f4.ext hdn
            rcases hx with ⟨_, hx⟩ | ⟨_, _, hx⟩
            · subst hx
              rcases e4.ext hdn with ⟨hx, _⟩ | ⟨tt', rr, hx⟩
              · cases hx
              · simp only [List.cons.injEq, Prod.mk.injEq] at hx
                rw [hx.1.1, hd]
            · cases hx
      have : (Tree.node fn (c :: rest)).starts = [(fn, x)] ++ startsF (c :: rest) := by
        rw [Tree.starts, y2]; rfl
      rw [this]
      exact hsx.append e6

mutual
theorem trTree_sound (t : Tree) (fn : SK) (cs : List Tree) (hfn : t = .node fn cs) (hE : t.hasEmpty = false)
    (hCf : t.Conforms) (hF : T.flat = true → t.NoWrap) (after : List Token) :
    SubOK T (fun fn a q => trTree Fmt.body fn a t q) fn t after := by
  match t with
  | .tok x => cases hfn
  | .node k cs' =>
    refine trNode_sound hT _ fn ⟨cs, hfn⟩ hE hCf hF ?_ after
    intro k2 cs2 h2
    cases h2
    simp only [Tree.hasEmpty, Bool.or_eq_false_iff] at hE
    exact trForest_sound cs' hE.2 hCf.2 (fun hf => (hF hf).2)
theorem trForest_sound (cs : List Tree) (hE : hasEmptyF cs = false) (hCf : ConformsF cs)
    (hF : T.flat = true → NoWrapF cs) :
    ∀ t ∈ cs, ∀ fn cs', t = .node fn cs' → ∀ after,
      SubOK T (fun fn a q => trTree Fmt.body fn a t q) fn t after := by
  match cs with
  | [] => intro t ht; cases ht
  | c :: rest =>
    simp only [hasEmptyF, Bool.or_eq_false_iff] at hE
    intro t ht fn cs' hfn after
    by_cases hc : t = c
    · rw [hc] at hfn ⊢
      exact trTree_sound c fn cs' hfn hE.1 hCf.1 (fun hf => (hF hf).1) after
    · have ht' : t ∈ rest := by
        rcases List.mem_cons.mp ht with h | h
        · exact absurd h hc
        · exact h
      exact trForest_sound rest hE.2 hCf.2 (fun hf => (hF hf).2) t ht' fn cs' hfn after
end
end

end Mofmt
