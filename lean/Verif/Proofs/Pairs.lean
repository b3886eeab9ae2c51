import Verif.Proofs.Arms
/-
Formatting tokens that have been moved: the loop over the children.
-/
namespace Mofmt
open Lexical (newlines)

variable {φ : Token → Token}

theorem sym_move (hk : ∀ t, (φ t).kind = t.kind) (c : Tree) : (c.map φ).sym = c.sym := by
  cases c <;> simp [Tree.map, Tree.sym, hk]

theorem isMultiline_move {cs : List Tree} {b : Bool} (h : isMultiline cs = .ok b) :
    ∃ b', isMultiline (mapTrees φ cs) = .ok b' := by
  unfold isMultiline at h ⊢
  split at h
  · rename_i x y hx hy
    simp [startOf_map, endOf_map, hx, hy]
  · cases h

/-- The value of the condition on `if` expressions. -/
theorem cif_pair {fn : SK} {all rest : List Tree} {c : Tree} {idx : Nat} {r r' : Regs} {q : Option Token} {p : Pend}
    {e : List TEv} (hk : ∀ t, (φ t).kind = t.kind) (hs : c.sym ∈ (Gram.spec fn).syms) (hC : c.Conforms)
    (hE : c.hasEmpty = false) (hS : SrcOK c.leaves)
    (h : trF (subOf c) { all, cur := some c, idx, rest } (upCmd (Fmt.body fn) c.sym) r q = .ok (r', e))
    (hT : Track φ q p e) (hmi : miArm c.sym = true) (b : Bool)
    (hb : evalFC { all, cur := some c, idx, rest } {} (fsOf none) cIf = .ok b) :
    evalFC (Ctx.map φ { all, cur := some c, idx, rest }) {} (fsOf none) cIf = .ok b := by
  cases c with
  | tok t => simp [miArm, Tree.sym] at hmi
  | node k cs =>
    have hne := hE
    simp only [Tree.hasEmpty, Bool.or_eq_false_iff, List.isEmpty_eq_false_iff] at hne
    obtain ⟨v, hv, hb⟩ := Res.bind_eq_ok.1 hb
    have hv : isMultiline cs = .ok v := hv
    obtain ⟨t, xs, hl, ht⟩ := startF_leaves cs hne.1 hne.2
    have htar : Ctx.target { all, cur := some (.node k cs), idx, rest } .cur = .ok t := by
      simp [Ctx.target, startTok, Tree.start?, ht]
    have htar' := target_move (φ := φ) htar
    have hcm : (Ctx.map φ { all, cur := some (.node k cs), idx, rest }).curChildren = .ok (mapTrees φ cs) :=
      curChildren_move rfl
    have hbk : b = (v && decide (t.kind = .If)) := by
      cases v
      · cases hb; rfl
      · simp only [evalFC, htar, Res.bind_ok, if_true, Res.ok.injEq] at hb
        simp [← hb]
    have goal : ∀ v', isMultiline (mapTrees φ cs) = .ok v' →
        evalFC (Ctx.map φ { all, cur := some (.node k cs), idx, rest }) {} (fsOf none) cIf =
          .ok (v' && decide (t.kind = .If)) := by
      intro v' h'
      simp only [cIf, evalFC, hcm, Res.bind_ok, h', htar', hk]
      cases v'
      · rfl
      · exact congrArg Res.ok (by simp [hk])
    by_cases hif : t.kind = .If
    · obtain ⟨pre, es', post, a, w, rfl, g1, g2⟩ := once_call (once_all fn _ hs) h
      have ha := g2 (plain_all fn _ hs hmi)
      have hT' := (Track.append.1 (Track.append.1 hT).1).2
      have htk : toks es' = leavesF cs := printed _ hC k a _ w es' rfl g1
      have hev := if_events hmi hC hE hS ht hif ha g1
      rw [hbk]
      apply goal
      cases v
      · obtain ⟨l, hl⟩ := onLine_of_single hne.1 hne.2 hS hv
        exact (hev.2 hv).single hT' hne.1 hne.2 htk (SrcOK.flat_of_line hS hl)
      · exact (hev.1 hv).multi hT' hne.1 hne.2 htk
    · obtain ⟨v', hv'⟩ := isMultiline_move (φ := φ) hv
      rw [goal v' hv', hbk]
      simp [hif]

/-- the operator is a single token -/
theorem op_leaves {fn : SK} {c : Tree} (hn : nkArm fn c.sym = true) (hC : c.Conforms) :
    ∃ op, c.leaves = [op] ∧ op.kind ∈ flatKinds := by
  cases c with
  | tok t =>
    refine ⟨t, rfl, ?_⟩
    simp only [Tree.sym, nkArm] at hn
    generalize hkk : t.kind = kk at hn ⊢
    cases fn <;> first | exact Bool.noConfusion hn | (cases kk <;> first | exact Bool.noConfusion hn | decide)
  | node k cs =>
    have hkk : k = .RelationalOperator ∨ k = .AddOperator ∨ k = .MulOperator := by
      simp only [Tree.sym] at hn
      unfold nkArm at hn
      split at hn <;> simp_all
    have hw : ∃ j ∈ flatKinds, cs.map Tree.sym = [.t j] := by
      have h := hC.1
      have key : ∀ {ks : List Tok} {w : List Sym}, Lang (Gram.anyT ks) w → ∃ j ∈ ks, w = [.t j] := by
        intro ks
        induction ks with
        | nil => intro w h; exact absurd h lang_none
        | cons k ks ih =>
          intro w h
          cases ks with
          | nil => exact ⟨k, by simp, lang_sym.1 h⟩
          | cons k' ks =>
            rcases lang_alt.1 h with h | h
            · exact ⟨k, by simp, lang_sym.1 h⟩
            · obtain ⟨j, hj, hw⟩ := ih h
              exact ⟨j, List.mem_cons_of_mem _ hj, hw⟩
      rcases hkk with rfl | rfl | rfl
      all_goals
        obtain ⟨j, hj, hw⟩ := key h
        refine ⟨j, ?_, hw⟩
        clear hw
        revert hj
        revert j
        decide
    obtain ⟨j, hj, hw⟩ := hw
    cases cs with
    | nil => simp at hw
    | cons d ds =>
      cases ds with
      | cons _ _ => simp at hw
      | nil =>
        cases d with
        | node _ _ => simp [Tree.sym] at hw
        | tok t =>
          simp only [List.map_cons, List.map_nil, Tree.sym, List.cons.injEq, Sym.t.injEq, and_true] at hw
          exact ⟨t, by simp [Tree.leaves, leavesF], hw ▸ hj⟩

theorem op_events {fn : SK} {all rest : List Tree} {c : Tree} {idx : Nat} {r r' : Regs} {q : Option Token}
    {e : List TEv} (hC : c.Conforms) (hn : nkArm fn c.sym = true) (hi : idx > 0)
    (hnt : ∃ k ds rest', rest = .node k ds :: rest')
    (h : trF (subOf c) { all, cur := some c, idx, rest } (upCmd (Fmt.body fn) c.sym) r q = .ok (r', e)) :
    OpEvents { all, cur := some c, idx, rest } c q e := by
  have hp := printed c hC
  generalize hs : c.sym = s at hn h
  unfold nkArm at hn
  split at hn
  · exact opArm_events rfl hp (P := .tok) (by rw [hs]; rfl) hnt h
  · exact opArm_events rfl hp (P := .tok) (by rw [hs]; rfl) hnt h
  · exact opArm_events rfl hp (P := .tok) (by rw [hs]; rfl) hnt h
  · exact opArm_events rfl hp (P := .tok) (by rw [hs]; rfl) hnt h
  · exact opArm_events rfl hp (P := Fmt.go .RelationalOperator) (by rw [hs]; rfl) hnt h
  · exact addArm_events rfl hp (P := Fmt.go .AddOperator) (by rw [hs]; rfl) hnt hi h
  · exact opArm_events rfl hp (P := Fmt.go .MulOperator) (by rw [hs]; rfl) hnt h
  · cases hn

theorem rdy_kinds : ∀ fn, ∀ s ∈ (Gram.spec fn).syms, rdyArm s = true →
    fn = .ShortClassSpecifier ∨ fn = .ClassModification ∨ fn = .ClassOrInheritanceModification := by
  intro fn; cases fn <;> decide

theorem mod_keeps : ∀ fn, fn = .ClassModification ∨ fn = .ClassOrInheritanceModification →
    ∀ s ∈ (Gram.spec fn).syms, noSetM (upCmd (Fmt.body fn) s) = true := by
  rintro fn (rfl | rfl) <;> decide

/-- the arm of enumerations -/
theorem enum_arm {all rest : List Tree} {cs : List Tree} {idx : Nat} {r r' : Regs} {q : Option Token} {p : Pend}
    {e : List TEv} (hC : Tree.Conforms (.node .EnumList cs)) (hM : Moves φ (.node .EnumList cs))
    (hx : PCtx φ false false false { all, cur := some (.node .EnumList cs), idx, rest } q)
    (h : trF (subOf (.node .EnumList cs)) { all, cur := some (.node .EnumList cs), idx, rest }
      (upCmd (Fmt.body .ShortClassSpecifier) (.n .EnumList)) r q = .ok (r', e)) (hT : Track φ q p e) :
    trF (subOf (Tree.map φ (.node .EnumList cs))) (Ctx.map φ { all, cur := some (.node .EnumList cs), idx, rest })
      (upCmd (Fmt.body .ShortClassSpecifier) (.n .EnumList)) r (q.map φ) = .ok (r', e.map (TEv.map φ)) := by
  obtain ⟨⟨r1, e1⟩, h1, h⟩ := Res.bind_eq_ok.1 h
  obtain ⟨⟨r2, e2⟩, h2, h⟩ := Res.bind_eq_ok.1 h
  cases h
  have hT := Track.append.1 hT
  have hp := printed _ hC
  have g1 := trF_pair (rdy := false) (pos := false) (nt := false) (pr := false) hx rfl hp hM (by rfl)
    (by simp) (by simp) (fun _ => rfl) (by simp) h1 hT.1
  have he1 : e1 = [] ∧ (r1.m = false → containsKind .Description cs = false) := by
    obtain ⟨t, k1, h1⟩ := Res.bind_eq_ok.1 h1
    cases hm : r.m
    · simp only [evalFC, Regs.get, hm, Res.bind_ok, Res.ok.injEq] at k1
      subst k1
      simp only [Bool.not_false, if_true, trF, evalFC, Ctx.curChildren, Res.bind_ok, Res.ok.injEq, Prod.mk.injEq] at h1
      obtain ⟨rfl, rfl⟩ := h1
      exact ⟨rfl, fun h => h⟩
    · simp only [evalFC, Regs.get, hm, Res.bind_ok, Res.ok.injEq] at k1
      subst k1
      simp only [Bool.not_true, Bool.false_eq_true, if_false, trF, Res.ok.injEq, Prod.mk.injEq] at h1
      obtain ⟨rfl, rfl⟩ := h1
      exact ⟨rfl, fun h => by rw [hm] at h; cases h⟩
  obtain ⟨rfl, hU⟩ := he1
  have g2 := trF_pair (rdy := true) (pos := false) (nt := false) (pr := false) hx rfl hp hM (by rfl)
    (by simp) (by simp) (fun _ => rfl) (fun _ hm k cs' he => by cases he; exact enum_unforced hC (hU hm)) h2 hT.2
  exact Res.bind_eq_ok.2 ⟨_, g1, Res.bind_eq_ok.2 ⟨_, g2, rfl⟩⟩

/-- what is known about the children -/
structure Known (φ : Token → Token) (fn : SK) (c : Tree) : Prop where
  sym : c.sym ∈ (Gram.spec fn).syms
  conf : c.Conforms
  full : c.hasEmpty = false
  src : SrcOK c.leaves
  idx : ∀ t ∈ c.leaves, t.kind = .Within → (t.idx > 0 ↔ (φ t).idx > 0)
  moves : Moves φ c

/-- The loop on moved tokens. -/
theorem steps_pair {fn : SK} {all : List Tree} (hk : ∀ t, (φ t).kind = t.kind) :
    ∀ {cs : List Tree} {idx : Nat} {r r' : Regs} {q : Option Token} {p : Pend} {ess : List (List TEv)},
    Steps (Fmt.body fn) all cs idx r q ess r' → Track φ q p ess.flatten → (∀ c ∈ cs, Known φ fn c) →
    (idx = 0 → ∀ c, cs.head? = some c → c.sym ∈ (Gram.spec fn).first) →
    (fn = .ClassModification ∨ fn = .ClassOrInheritanceModification → r.m = false →
      ∀ k ds, .node k ds ∈ cs → Unforced ds) →
    Steps (Fmt.body fn) (mapTrees φ all) (mapTrees φ cs) idx r (q.map φ) (ess.map (List.map (TEv.map φ))) r'
  | [], idx, r, r', q, p, ess, h, _, _, _, _ => by cases h; exact .nil _ _ _
  | c :: rest, idx, r, r', q, p, ess, h, hT, hK, hf, hU => by
    cases h with
    | @cons _ _ _ _ _ r1 e ess' _ h1 h2 =>
    have hTe : Track φ q p (e ++ ess'.flatten) := hT
    have hT1 := Track.append.1 hTe
    have hc := hK c (by simp)
    have hx : PCtx φ (wiArm c.sym) (miArm c.sym) (nkArm fn c.sym) { all, cur := some c, idx, rest } q := by
      refine ⟨hk, ?_, ?_, ?_⟩
      · intro hw d hd t ht
        cases hd
        simp only [wiArm, beq_iff_eq] at hw
        cases c with
        | node k ds => cases hw
        | tok x =>
          simp only [Tree.leaves, List.mem_singleton] at ht
          subst ht
          exact hc.idx t (by simp [Tree.leaves]) (by simpa [Tree.sym] using hw)
      · intro hmi b hb
        exact cif_pair hk hc.sym hc.conf hc.full hc.src h1 hT1.1 hmi b hb
      · rintro hn hi ⟨k, ds, rest', hr⟩
        have hr : rest = .node k ds :: rest' := hr
        subst hr
        obtain ⟨op, hl, hop⟩ := op_leaves hn hc.conf
        have hev := op_events hc.conf hn hi ⟨k, ds, rest', rfl⟩ h1
        cases h2 with
        | @cons _ _ _ _ _ _ e2 ess2 _ h3 h4 =>
        have hd := hK (.node k ds) (by simp)
        have ht2 : toks e2 = (Tree.node k ds).leaves := by
          have := once_toks rfl (printed _ hd.conf) (once_all _ _ hd.sym) h3
          simpa using this.2
        have hT2 : Track φ q p (e ++ e2) := by
          have : Track φ q p ((e ++ e2) ++ ess2.flatten) := by simpa using hTe
          exact (Track.append.1 this).1
        exact hev.below hl (hc.src.flat op (by simp [hl]) hop) rfl ht2 hd.full hT2
    have harm : armOk fn (decide (idx > 0)) c.sym = true := by
      cases idx with
      | zero => exact arms_first fn _ (hf rfl c rfl)
      | succ n => exact arms_syms fn _ hc.sym
    have key : trF (subOf (c.map φ)) (Ctx.map φ { all, cur := some c, idx, rest }) (upCmd (Fmt.body fn) c.sym) r
        (q.map φ) = .ok (r1, e.map (TEv.map φ)) := by
      by_cases hsp : fn = .ShortClassSpecifier ∧ c.sym = .n .EnumList
      · obtain ⟨rfl, hs⟩ := hsp
        cases c with
        | tok t => simp [Tree.sym] at hs
        | node k ds =>
          simp only [Tree.sym, Sym.n.injEq] at hs
          subst hs
          exact enum_arm hc.conf hc.moves ⟨hx.kind, by simp, by simp, by simp⟩ h1 hT1.1
      · simp only [armOk, Bool.or_eq_true, Bool.and_eq_true, beq_iff_eq] at harm
        refine trF_pair hx rfl (printed _ hc.conf) hc.moves (harm.resolve_left hsp) (fun h => by simpa using h)
          (by simp) (fun _ => rfl) ?_ h1 hT1.1
        intro hrd hm k ds he
        subst he
        rcases rdy_kinds fn _ hc.sym hrd with h | h
        · refine absurd ⟨h, ?_⟩ hsp
          subst h
          have : ∀ s ∈ (Gram.spec .ShortClassSpecifier).syms, rdyArm s = true → s = .n .EnumList := by decide
          exact this _ hc.sym hrd
        · exact hU h hm k ds (by simp)
    have ih := steps_pair hk h2 hT1.2 (fun d hd => hK d (by simp [hd])) (fun h0 => by omega)
      (fun hfn hm k ds hd => by
        rw [noSetM_sound (mod_keeps fn hfn _ hc.sym) h1] at hm
        exact hU hfn hm k ds (by simp [hd]))
    rw [← sym_move hk c] at key
    rw [← lastT_map] at ih
    exact .cons key ih

end Mofmt
