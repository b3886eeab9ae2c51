import Verif.Proofs.FmtRel
import Verif.Proofs.FmtRep
import Verif.Proofs.LexClass
import Verif.Props.Accept
/-
Two files, one after the other: the formatter.
-/
set_option linter.unusedSectionVars false

namespace Mofmt

/-! ### Statements that look at the current child only -/

def FCond.here : FCond → Bool
  | .treeMulti | .treeHas _ | .lenGt _ | .lenEq _ | .parenMulti _ _ | .idxGt _ | .idxEq _ | .nextTree | .nextTreeU
  | .nextTok | .nextBelow => Bool.false
  | .not a => a.here
  | .and a b | .or a b => a.here && b.here
  | _ => Bool.true

def FCmd.here : FCmd → Bool
  | .seq a b => a.here && b.here
  | .ite c a b => c.here && a.here && b.here
  | .brk t _ => t == .cur
  | .bos c t => c.here && t == .cur
  | .call _ m w o _ => m.here && w.here && o.here
  | .set _ c => c.here
  | _ => Bool.true

theorem evalFC_here {cx cx' : Ctx} (h : cx.cur = cx'.cur) (r : Regs) (s : FState) : ∀ c : FCond, c.here = true →
    evalFC cx r s c = evalFC cx' r s c := by
  intro c
  induction c with
  | not a ih => intro hc; simp only [evalFC, ih hc]
  | and a b iha ihb =>
    intro hc
    simp only [FCond.here, Bool.and_eq_true] at hc
    simp only [evalFC, iha hc.1, ihb hc.2]
  | or a b iha ihb =>
    intro hc
    simp only [FCond.here, Bool.and_eq_true] at hc
    simp only [evalFC, iha hc.1, ihb hc.2]
  | _ => intro hc; first | (simp [FCond.here] at hc; done) | simp only [evalFC, Ctx.curChildren, Ctx.target, h]

theorem execF_here {cx cx' : Ctx} (h : cx.cur = cx'.cur) (sub : SK → Args → FState → Res (Bool × FState)) :
    ∀ (c : FCmd) (r : Regs) (s : FState), c.here = true → execF sub cx c r s = execF sub cx' c r s
  | .skip, _, _, _ | .space, _, _, _ | .indent, _, _, _ | .dedent, _, _, _ | .unreachable, _, _, _ => rfl
  | .seq a b, r, s, hc => by
    simp only [FCmd.here, Bool.and_eq_true] at hc
    simp only [execF, execF_here h sub a r s hc.1]
    congr 1; funext x
    exact execF_here h sub b _ _ hc.2
  | .ite c a b, r, s, hc => by
    simp only [FCmd.here, Bool.and_eq_true] at hc
    simp only [execF, evalFC_here h r s c hc.1.1, execF_here h sub a r s hc.1.2, execF_here h sub b r s hc.2]
  | .tok, _, _, _ => by simp only [execF, h]
  | .brk t b, r, s, hc => by
    simp only [FCmd.here, beq_iff_eq] at hc
    subst hc
    simp only [execF, Ctx.target, h]
  | .bos c t, r, s, hc => by
    simp only [FCmd.here, Bool.and_eq_true, beq_iff_eq] at hc
    obtain ⟨h1, rfl⟩ := hc
    simp only [execF, Ctx.target, h, evalFC_here h r s c h1]
  | .call fn m w o keep, r, s, hc => by
    simp only [FCmd.here, Bool.and_eq_true] at hc
    simp only [execF, evalFC_here h r s m hc.1.1, evalFC_here h r s w hc.1.2, evalFC_here h r s o hc.2]
  | .set v c, r, s, hc => by simp only [execF, evalFC_here h r s c hc]
  | .setPrevRule, _, _, _ => by simp only [execF, h]

structure FBody.Here (b : FBody) : Prop where
  onTok : ∀ k, (b.onTok k).here = true
  onTree : ∀ k, (b.onTree k).here = true

theorem Res.bind_bind {α β γ : Type} (r : Res α) (k : α → Res β) (k' : β → Res γ) :
    (r.bind k).bind k' = r.bind fun a => (k a).bind k' := by
  cases r <;> rfl

section
variable {bodies : SK → FBody} {b : FBody} (hb : b.Here)
include hb

theorem fmtLoop_here (all all' : List Tree) : ∀ (cs : List Tree) (i i' : Nat) (r : Regs) (s : FState),
    fmtLoop bodies b all cs i r s = fmtLoop bodies b all' cs i' r s
  | [], _, _, _, _ => by simp only [fmtLoop]
  | c :: cs, i, i', r, s => by
    simp only [fmtLoop]
    rw [execF_here (cx := { all, cur := some c, idx := i, rest := cs })
      (cx' := { all := all', cur := some c, idx := i', rest := cs }) rfl _ _ r s
      (by cases c with
        | tok t => exact hb.onTok _
        | node k ds => exact hb.onTree _)]
    congr 1; funext x
    exact fmtLoop_here all all' cs _ _ _ _

theorem fmtLoop_append (all all' : List Tree) (ds : List Tree) : ∀ (cs : List Tree) (i i' i'' : Nat) (r : Regs) (s : FState),
    fmtLoop bodies b all (cs ++ ds) i r s =
      (fmtLoop bodies b all' cs i' r s).bind fun x => fmtLoop bodies b all' ds i'' x.1 x.2
  | [], i, i', i'', r, s => by
    show fmtLoop bodies b all ds i r s = _
    rw [fmtLoop_here hb all all' ds i i'' r s]
    simp only [fmtLoop, Res.bind_ok]
  | c :: cs, i, i', i'', r, s => by
    simp only [List.cons_append, fmtLoop, Res.bind_bind]
    rw [execF_here (cx := { all, cur := some c, idx := i, rest := cs ++ ds })
      (cx' := { all := all', cur := some c, idx := i', rest := cs }) rfl _ _ r s
      (by cases c with
        | tok t => exact hb.onTok _
        | node k ds => exact hb.onTree _)]
    congr 1; funext x
    exact fmtLoop_append all all' ds cs _ _ _ _ _
end

theorem stored_here : Fmt.storedDefinition.Here :=
  ⟨fun k => by cases k <;> decide, fun k => by cases k <;> decide⟩

theorem body_plain (k : SK) (hk : k ≠ .StoredDefinition) : (Fmt.body k).Plain := by
  have h : ∀ k : SK, k ≠ .StoredDefinition → (Fmt.body k).pre.plain = true ∧ (Fmt.body k).post.plain = true := by
    intro k; cases k <;> decide
  have h1 : ∀ t ∈ Tok.all, (Fmt.body k).onTok t |>.plain := by
    revert hk; cases k <;> decide
  have h2 : ∀ k', ((Fmt.body k).onTree k').plain = true := by
    intro k'; revert hk; cases k <;> cases k' <;> decide
  exact ⟨(h k hk).1, fun t => h1 t (Tok.mem_all t), h2, (h k hk).2⟩


/-! ### Statements that set no variable -/

def FCmd.still : FCmd → Bool
  | .seq a b => a.still && b.still
  | .ite _ a b => a.still && b.still
  | .call _ _ _ _ keep => !keep
  | .set _ _ | .setPrevRule => Bool.false
  | _ => Bool.true

theorem execF_still {cx : Ctx} {sub : SK → Args → FState → Res (Bool × FState)} (c : FCmd) : ∀ {r r' : Regs}
    {s s' : FState}, c.still = true → execF sub cx c r s = .ok (r', s') → r' = r := by
  induction c with
  | seq a b iha ihb =>
    intro r r' s s' hc h
    simp only [FCmd.still, Bool.and_eq_true] at hc
    simp only [execF] at h
    obtain ⟨⟨r1, s1⟩, h1, h2⟩ := Res.bind_eq_ok.1 h
    rw [ihb hc.2 h2, iha hc.1 h1]
  | ite c a b iha ihb =>
    intro r r' s s' hc h
    simp only [FCmd.still, Bool.and_eq_true] at hc
    simp only [execF] at h
    obtain ⟨x, h1, h2⟩ := Res.bind_eq_ok.1 h
    split at h2
    · exact iha hc.1 h2
    · exact ihb hc.2 h2
  | tok =>
    intro r r' s s' _ h
    simp only [execF] at h
    split at h
    · simp only [Res.ok.injEq, Prod.mk.injEq] at h; exact h.1.symm
    · simp at h
  | brk t b =>
    intro r r' s s' _ h
    simp only [execF] at h
    obtain ⟨x, h1, h2⟩ := Res.bind_eq_ok.1 h
    obtain ⟨y, h3, h4⟩ := Res.bind_eq_ok.1 h2
    simp only [Res.ok.injEq, Prod.mk.injEq] at h4; exact h4.1.symm
  | bos c t =>
    intro r r' s s' _ h
    simp only [execF] at h
    obtain ⟨x, h1, h2⟩ := Res.bind_eq_ok.1 h
    obtain ⟨y, h3, h4⟩ := Res.bind_eq_ok.1 h2
    obtain ⟨z, h5, h6⟩ := Res.bind_eq_ok.1 h4
    simp only [Res.ok.injEq, Prod.mk.injEq] at h6; exact h6.1.symm
  | call fn m w o keep =>
    intro r r' s s' hc h
    simp only [FCmd.still, Bool.not_eq_true'] at hc
    subst hc
    simp only [execF] at h
    obtain ⟨x, h1, h2⟩ := Res.bind_eq_ok.1 h
    obtain ⟨y, h3, h4⟩ := Res.bind_eq_ok.1 h2
    obtain ⟨z, h5, h6⟩ := Res.bind_eq_ok.1 h4
    obtain ⟨u, h7, h8⟩ := Res.bind_eq_ok.1 h6
    simp only [Bool.false_eq_true, if_false, Res.ok.injEq, Prod.mk.injEq] at h8; exact h8.1.symm
  | set => intro r r' s s' hc; simp [FCmd.still] at hc
  | setPrevRule => intro r r' s s' hc; simp [FCmd.still] at hc
  | unreachable => intro r r' s s' _ h; simp [execF] at h
  | _ => intro r r' s s' _ h; simp only [execF, Res.ok.injEq, Prod.mk.injEq] at h; exact h.1.symm

theorem stored_still {all : List Tree} : ∀ {cs : List Tree} {i : Nat} {r r' : Regs} {s s' : FState},
    fmtLoop Fmt.body Fmt.storedDefinition all cs i r s = .ok (r', s') → r' = r
  | [], _, _, _, _, _, h => by simp only [fmtLoop, Res.ok.injEq, Prod.mk.injEq] at h; exact h.1.symm
  | c :: cs, i, r, r', s, s', h => by
    simp only [fmtLoop] at h
    obtain ⟨⟨r1, s1⟩, h1, h2⟩ := Res.bind_eq_ok.1 h
    rw [stored_still h2]
    refine execF_still _ ?_ h1
    cases c with
    | tok t =>
      have : ∀ k ∈ Tok.all, (Fmt.storedDefinition.onTok k).still = true := by decide
      exact this _ (Tok.mem_all _)
    | node k ds => cases k <;> rfl

/-! ### The loop over the definitions of a file -/

section
variable {B : Base} {R : Nat → Nat → Prop} {f g : Token → Token} (hR : SameGaps R) (hf : Twin B False R f g)
include hR hf

theorem stored_twin (all : List Tree) : ∀ (cs : List Tree) (i : Nat) (r : Regs) {s s' : FState},
    (∀ c ∈ cs, (c.map g).sym ≠ .t .Within) → TwinS B R f g s s' →
    ResRel (TwinRS B R f g) (fmtLoop Fmt.body Fmt.storedDefinition (mapTrees f all) (mapTrees f cs) i r s)
      (fmtLoop Fmt.body Fmt.storedDefinition (mapTrees g all) (mapTrees g cs) i r s')
  | [], _, _, _, _, _, h => by simp only [mapTrees, fmtLoop]; exact .ok ⟨rfl, h⟩
  | .tok t :: rest, i, r, s, s', hw, h => by
    simp only [mapTrees, fmtLoop]
    simp only [Tree.map, hf.kind]
    have hk : ∀ k ∈ Tok.all, k ≠ .Within → (Fmt.storedDefinition.onTok k).plain = true := by decide
    have ht : (g t).kind ≠ .Within := fun e => hw _ (List.mem_cons_self ..) (by simp only [Tree.map, Tree.sym, e])
    refine (execF_twin hR hf (sub := fun fn a s => fmtTree Fmt.body fn a (.tok (f t)) s)
      (sub' := fun fn a s => fmtTree Fmt.body fn a (.tok (g t)) s)
      (fun fn a s s' _ _ => by simp only [fmtTree]; exact .panic)
      { all := all, cur := some (.tok t), idx := i, rest := rest } _ _ (.inr (hk _ (Tok.mem_all _) ht)) h).bind
      fun x y hxy => ?_
    obtain ⟨x1, x2⟩ := x
    obtain ⟨y1, y2⟩ := y
    obtain ⟨e, hxy⟩ := hxy
    simp only at e hxy
    subst e
    exact stored_twin all rest (i + 1) x1 (fun c hc => hw c (List.mem_cons_of_mem _ hc)) hxy
  | .node k ds :: rest, i, r, s, s', hw, h => by
    simp only [mapTrees, fmtLoop]
    have h1 := fun fn a s s' hn (h : TwinS B R f g s s') =>
      fmtTree_twin hR hf Fmt.body (.inr body_plain) fn hn a (.node k ds) h
    simp only [Tree.map] at h1 ⊢
    have hk : (Fmt.storedDefinition.onTree k).plain = true := by cases k <;> decide
    refine (execF_twin hR hf (sub := fun fn a s => fmtTree Fmt.body fn a (.node k (mapTrees f ds)) s)
      (sub' := fun fn a s => fmtTree Fmt.body fn a (.node k (mapTrees g ds)) s) h1
      { all := all, cur := some (.node k ds), idx := i, rest := rest } _ _ (.inr hk) h).bind fun x y hxy => ?_
    obtain ⟨x1, x2⟩ := x
    obtain ⟨y1, y2⟩ := y
    obtain ⟨e, hxy⟩ := hxy
    simp only at e hxy
    subst e
    exact stored_twin all rest (i + 1) x1 (fun c hc => hw c (List.mem_cons_of_mem _ hc)) hxy

/-- The rest of a formatting function. -/
theorem rest_twin {fn : SK} (hn : fn ≠ .StoredDefinition) (all cs : List Tree) (i : Nat) {x y : Regs × FState}
    (h : TwinRS B R f g x y) :
    ResRel (TwinRS B R f g)
      ((fmtLoop Fmt.body (Fmt.body fn) (mapTrees f all) (mapTrees f cs) i x.1 x.2).bind fun x =>
        (execF (fun _ _ _ => .panic .unreachable) { all := mapTrees f all } (Fmt.body fn).post x.1 x.2).bind fun x =>
          .ok (x.1.w, x.2))
      ((fmtLoop Fmt.body (Fmt.body fn) (mapTrees g all) (mapTrees g cs) i y.1 y.2).bind fun x =>
        (execF (fun _ _ _ => .panic .unreachable) { all := mapTrees g all } (Fmt.body fn).post x.1 x.2).bind fun x =>
          .ok (x.1.w, x.2)) := by
  obtain ⟨x1, x2⟩ := x
  obtain ⟨y1, y2⟩ := y
  obtain ⟨e, h⟩ := h
  simp only at e h
  subst e
  refine (fmtLoop_twin hR hf Fmt.body (.inr body_plain) (Fmt.body fn) (.inr (body_plain fn hn)) all cs i x1 h).bind
    fun x y hxy => ?_
  obtain ⟨x1, x2⟩ := x
  obtain ⟨y1, y2⟩ := y
  obtain ⟨e, hxy⟩ := hxy
  simp only at e hxy
  subst e
  refine (execF_twin hR hf (fun _ _ _ _ _ _ => .panic) { all } _ _ (.inr (body_plain fn hn).post) hxy).bind
    fun x y hxy => ?_
  obtain ⟨x1, x2⟩ := x
  obtain ⟨y1, y2⟩ := y
  obtain ⟨e, hxy⟩ := hxy
  simp only at e hxy
  subst e
  exact .ok ⟨rfl, hxy⟩

theorem prefixes_twin (k : SK) (e : Token) (es : List Tree) {s s' : FState}
    (h : TwinS B R f g (s.handleToken (f e)) (s'.handleToken (g e))) :
    ResRel (TwinRS B R f g) (fmtTree Fmt.body .ClassPrefixes {} (.node k (mapTrees f (.tok e :: es))) s)
      (fmtTree Fmt.body .ClassPrefixes {} (.node k (mapTrees g (.tok e :: es))) s') := by
  have := rest_twin hR hf (fn := .ClassPrefixes) (by decide) (.tok e :: es) es 1
    (x := ({}, s.handleToken (f e))) (y := ({}, s'.handleToken (g e))) ⟨rfl, h⟩
  simp only [mapTrees, Tree.map] at this ⊢
  simp only [fmtTree, fmtLoop, Fmt.body, Fmt.classPrefixes, fblk, FCmd.when, execF, evalFC, Res.bind_ok] at this ⊢
  simpa using this

theorem class_twin (ds : List Tree) (hc : (Tree.node .ClassDefinition ds).Conforms) (he : hasEmptyF ds = false)
    {t0 : Token} {ts : List Token} (hl : leavesF ds = t0 :: ts) {s s' : FState}
    (h : TwinS B R f g (s.handleToken (f t0)) (s'.handleToken (g t0))) :
    ResRel (TwinRS B R f g) (fmtTree Fmt.body .ClassDefinition {} (.node .ClassDefinition (mapTrees f ds)) s)
      (fmtTree Fmt.body .ClassDefinition {} (.node .ClassDefinition (mapTrees g ds)) s') := by
  simp only [Tree.Conforms] at hc
  obtain ⟨hc, hcs⟩ := hc
  cases ds with
  | nil => simp [leavesF] at hl
  | cons d ds =>
    simp only [List.map_cons, Gram.spec, Gram.cat, Gram.opt, Gram.T, Gram.N] at hc
    cases d with
    | tok e =>
      simp only [leavesF, Tree.leaves, List.singleton_append, List.cons.injEq] at hl
      obtain ⟨rfl, _⟩ := hl
      have := rest_twin hR hf (fn := .ClassDefinition) (by decide) (.tok e :: ds) ds 1
        (x := ({}, (s.handleToken (f e)).push .space)) (y := ({}, (s'.handleToken (g e)).push .space)) ⟨rfl, push_twin h .space⟩
      simp only [mapTrees, Tree.map] at this ⊢
      simp only [fmtTree, fmtLoop, Fmt.body, Fmt.classDefinition, fblk, execF, Res.bind_ok] at this ⊢
      simpa using this
    | node k es =>
      have hk : k = .ClassPrefixes := by
        obtain ⟨v, w, e, h1, h2⟩ := lang_seq.1 hc
        rcases lang_alt.1 h1 with h1 | h1
        · rw [lang_sym.1 h1] at e; simp [Tree.sym] at e
        · rw [lang_eps.1 h1] at e
          obtain ⟨v', w', e', h3, _⟩ := lang_seq.1 h2
          rw [lang_sym.1 h3] at e'
          subst e'
          simpa [Tree.sym] using (List.cons.inj e).1
      subst hk
      simp only [ConformsF, Tree.Conforms] at hcs
      have hes : ∃ x es', es = .tok x :: es' := by
        cases es with
        | nil => simp [hasEmptyF, Tree.hasEmpty] at he
        | cons c es =>
          cases c with
          | tok x => exact ⟨x, es, rfl⟩
          | node k' cs' =>
            exfalso
            have hm := syms_complete hcs.1.1 (.n k') (by simp [Tree.sym])
            revert hm
            cases k' <;> decide
      obtain ⟨x, es', rfl⟩ := hes
      simp only [leavesF, Tree.leaves, List.cons_append, List.cons.injEq] at hl
      obtain ⟨rfl, _⟩ := hl
      have hp := prefixes_twin hR hf .ClassPrefixes x es' h
      simp only [mapTrees, Tree.map] at hp ⊢
      rw [fmtTree, fmtTree]
      have hpre : (Fmt.body .ClassDefinition).pre = .skip := rfl
      simp only [hpre, execF, Res.bind_ok]
      rw [fmtLoop, fmtLoop]
      simp only [Fmt.body, Fmt.classDefinition, Fmt.go, fblk, execF, evalFC, Res.bind_ok, Res.bind_bind, Bool.false_eq_true, if_false]
      refine hp.bind fun a b hab => ?_
      exact rest_twin hR hf (fn := .ClassDefinition) (by decide) (.node .ClassPrefixes (.tok x :: es') :: ds) ds 1
        (x := ({}, a.2)) (y := ({}, b.2)) ⟨rfl, hab.2⟩
end

end Mofmt
