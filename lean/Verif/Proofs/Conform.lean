import Verif.Proofs.ParserAbs
/-
Accepted files conform to the grammar: the root production.
-/
namespace Mofmt

section
variable {toks : List Token} {name : Text}

theorem expect_clean {m : Nat} {k : Tok} {s s' : PState} (hle : s.pos ≤ toks.length)
    (h : run name toks Grammar.body m (.expect k) s = .ok s')
    (her : s'.errors.length ≤ s.errors.length) :
    ∃ t, t.kind = k ∧ s.pos < toks.length ∧ Grew toks s s' [.tok t] := by
  cases m with
  | zero => simp [run] at h
  | succ m =>
    simp only [run, evalCond, Res.bind_eq_ok] at h
    obtain ⟨⟨b, s2⟩, ⟨⟨k', s1⟩, h1, h2⟩, h3⟩ := h
    obtain ⟨e1, e2, e3, e4, e5⟩ := nth_sound h1
    dsimp only at h2
    split at h2
    · rename_i hkk
      simp only [beq_iff_eq] at hkk
      simp only [Res.bind_eq_ok, Res.ok.injEq, Prod.mk.injEq] at h2
      obtain ⟨s3, h4, rfl, rfl⟩ := h2
      simp only [if_true, Res.ok.injEq] at h3
      subst h3
      obtain ⟨t, ht, g, _, _⟩ := advance_grew (by omega) h4
      have hk : t.kind = k := by
        rw [← hkk, e4]
        simp only [e2] at ht
        simp [kindAt, ht]
      refine ⟨t, hk, ?_, ?_⟩
      · have := (List.getElem?_eq_some_iff.mp ht).1
        omega
      · have := (Grew.refl (s := s) (s' := s1) hle e1 e2 ⟨[], by simp [e3]⟩).trans g
        simpa using this
    · simp only [Res.ok.injEq, Prod.mk.injEq] at h2
      obtain ⟨rfl, rfl⟩ := h2
      simp only [Bool.false_eq_true, if_false, Res.bind_eq_ok] at h3
      obtain ⟨⟨k2, s4⟩, h5, h6⟩ := h3
      obtain ⟨_, _, f3⟩ := nth_grew h5
      obtain ⟨_, _, _, _, e, f4⟩ := error_grew h6
      rw [f4] at her
      rw [List.length_append, f3, e3] at her
      simp at her
      omega

/-- nothing known yet -/
def fresh (re : RE) : PAbs := { re, k0 := KSet.all, k1 := KSet.all, lo := 9 }

theorem fresh_knows (re : RE) (s : PState) : Knows toks (fresh re) s :=
  ⟨by simp [fresh], by simp [fresh], fun h => by simp [fresh] at h, fun h => by simp [fresh] at h⟩

open Gram in
/-- one class of a file -/
def classItem : RE := cat [opt (T .Final), N .ClassDefinition, T .Semicolon]

theorem classItem_check :
    (match absRun preKinds (.eval (.consume .Final)) (fresh classItem) with
    | some as => as.all fun a1 => match absRun preKinds (.call .ClassDefinition) a1 with
      | some as2 => as2.all fun a2 => (a2.re.der (.t .Semicolon)).nullable
      | none => false
    | none => false) = true := by decide +kernel

theorem classItem_sound {j : Nat} {s s' : PState} (hle : s.pos ≤ toks.length)
    (h : run name toks Grammar.body j (blk [.eval (.consume .Final), .call .ClassDefinition,
      .expect .Semicolon]) s = .ok s') (her : s'.errors.length ≤ s.errors.length) :
    ∃ F, Grew toks s s' F ∧ ConfF F ∧ Lang classItem ((pruneF F).map Tree.sym) := by
  cases j with
  | zero => simp [run] at h
  | succ j =>
  simp only [blk, run, Res.bind_eq_ok] at h
  obtain ⟨s1, h1, h2⟩ := h
  cases j with
  | zero => simp [run] at h1
  | succ j =>
  rw [run, Res.bind_eq_ok] at h2
  obtain ⟨s2, h2, h3⟩ := h2
  obtain ⟨_, g1⟩ := run_grew' _ _ hle h1
  obtain ⟨_, g2⟩ := run_grew' _ _ g1.le h2
  obtain ⟨_, g3⟩ := run_grew' _ _ g2.le h3
  have e1 := g1.errs_le
  have e2 := g2.errs_le
  have e3 := g3.errs_le
  have p1 := g1.pos
  have p2 := g2.pos
  obtain ⟨t, hk, hlt, g3⟩ := expect_clean g2.le h3 (by omega)
  have hc := classItem_check
  split at hc
  · rename_i as ha
    obtain ⟨a1, hm1, F1, hs1⟩ := absRun_sound absOk_all (j + 1) (j + 1) (Nat.le_refl _) _ h1 hle (by omega)
      (by omega) (fresh_knows _ _) ha
    simp only [List.all_eq_true] at hc
    have hc1 := hc a1 hm1
    split at hc1
    · rename_i as2 ha2
      obtain ⟨a2, hm2, F2, hs2⟩ := absRun_sound absOk_all j j (Nat.le_refl _) _ h2 g1.le (by omega) (by omega)
        hs1.knows ha2
      simp only [List.all_eq_true] at hc1
      have hn := (nullable_iff _).mp (hc1 a2 hm2)
      have hs := hs1.trans hs2
      refine ⟨F1 ++ F2 ++ [.tok t], hs.grew.trans g3, confF_append.mpr ⟨hs.conf, by simp [ConfF, Tree.Conf]⟩,
        ?_⟩
      rw [der_iff] at hn
      have := hs.lang _ hn
      simpa [pruneF, Tree.pruned, Tree.sym, hk, fresh] using this
    · simp at hc1
  · simp at hc

theorem classes_sound : ∀ (j : Nat) {s s' : PState}, s.pos ≤ toks.length →
    run name toks Grammar.body j (.while (.not .eof) (blk [.eval (.consume .Final),
      .call .ClassDefinition, .expect .Semicolon])) s = .ok s' →
    s'.errors.length ≤ s.errors.length →
    ∃ F, Grew toks s s' F ∧ ConfF F ∧ Lang (.star classItem) ((pruneF F).map Tree.sym) ∧
      s'.pos = toks.length
  | 0, s, s', hle, h, her => by simp [run] at h
  | j + 1, s, s', hle, h, her => by
    rw [run, Res.bind_eq_ok] at h
    obtain ⟨⟨b, s1⟩, h1, h2⟩ := h
    simp only [evalCond, Res.bind, Res.ok.injEq, Prod.mk.injEq] at h1
    obtain ⟨rfl, rfl⟩ := h1
    dsimp only at h2
    split at h2
    · rw [Res.bind_eq_ok] at h2
      obtain ⟨s2, h2, h3⟩ := h2
      obtain ⟨_, g2⟩ := run_grew' _ _ hle h2
      obtain ⟨_, g3⟩ := run_grew' _ _ g2.le h3
      have e2 := g2.errs_le
      have e3 := g3.errs_le
      obtain ⟨F, g, c, l⟩ := classItem_sound hle h2 (by omega)
      obtain ⟨G, g', c', l', p'⟩ := classes_sound j g2.le h3 (by omega)
      exact ⟨F ++ G, g.trans g', confF_append.mpr ⟨c, c'⟩, by
        rw [pruneF_append, List.map_append]; exact .starCons l l', p'⟩
    · rename_i hb
      simp only [Res.ok.injEq] at h2; subst h2
      exact ⟨[], Grew.refl hle rfl rfl ⟨[], by simp⟩, by simp [ConfF], by simp [pruneF]; exact .starNil,
        by simpa [PState.eof] using hb⟩

open Gram in
/-- the optional first part of a file -/
def withinItem : RE := opt (cat [T .Within, opt (N .Name), T .Semicolon])

theorem withinItem_check :
    (match absRun preKinds (.when (.not (.check .Semicolon)) (.call .Name))
        ((fresh withinItem).pass .Within) with
      | some as2 => as2.all fun a2 => (a2.re.der (.t .Semicolon)).nullable
      | none => false) = true := by decide +kernel

theorem within_sound {j : Nat} {s s' : PState} (hle : s.pos ≤ toks.length)
    (h : run name toks Grammar.body j (.when (.consume .Within) (blk [
      .when (.not (.check .Semicolon)) (.call .Name), .expect .Semicolon])) s = .ok s')
    (her : s'.errors.length ≤ s.errors.length) :
    ∃ F, Grew toks s s' F ∧ ConfF F ∧ Lang withinItem ((pruneF F).map Tree.sym) := by
  cases j with
  | zero => simp [run] at h
  | succ j =>
  rw [Cmd.when, run, Res.bind_eq_ok] at h
  obtain ⟨⟨b, s1⟩, h1, h2⟩ := h
  obtain ⟨_, g1, e1⟩ := evalCond_grew _ hle h1
  dsimp only at h2
  split at h2
  · rename_i hb; subst hb
    cases j with
    | zero => simp [run] at h2
    | succ j =>
    replace h2 : run name toks Grammar.body (j + 1) (.seq _ (.expect .Semicolon)) s1 = .ok s' := h2
    rw [run, Res.bind_eq_ok] at h2
    obtain ⟨s2, h2, h3⟩ := h2
    obtain ⟨_, g2⟩ := run_grew' _ _ g1.le h2
    obtain ⟨_, g3⟩ := run_grew' _ _ g2.le h3
    have e2 := g2.errs_le
    have e3 := g3.errs_le
    have p1 := g1.pos
    have p2 := g2.pos
    rw [← e1] at her
    obtain ⟨t, hk, hlt, g3⟩ := expect_clean g2.le h3 (by omega)
    obtain ⟨a1, hm1, F1, hs1⟩ := cond_sound _ hle (fresh_knows withinItem s) h1 (by omega)
    have : a1 = (fresh withinItem).pass .Within := by
      simpa [absCond, fresh] using hm1
    subst this
    have hc := withinItem_check
    split at hc
    · rename_i as2 ha2
      obtain ⟨a2, hm2, F2, hs2⟩ := absRun_sound absOk_all j j (Nat.le_refl _) _ h2 g1.le (by omega)
        (by omega) hs1.knows ha2
      simp only [List.all_eq_true] at hc
      have hn := (nullable_iff _).mp (hc a2 hm2)
      have hs := hs1.trans hs2
      refine ⟨F1 ++ F2 ++ [.tok t], hs.grew.trans g3,
        confF_append.mpr ⟨hs.conf, by simp [ConfF, Tree.Conf]⟩, ?_⟩
      rw [der_iff] at hn
      have := hs.lang _ hn
      simpa [pruneF, Tree.pruned, Tree.sym, hk, fresh] using this
    · simp at hc
  · rename_i hb
    simp only [Bool.not_eq_true] at hb; subst hb
    cases j with
    | zero => simp [run] at h2
    | succ j =>
    simp only [run, Res.ok.injEq] at h2; subst h2
    simp only [evalCond, Res.bind_eq_ok] at h1
    obtain ⟨⟨k', s3⟩, h3, h4⟩ := h1
    obtain ⟨f1, f2, f3⟩ := nth_grew h3
    dsimp only at h4
    split at h4
    · simp [Res.bind_eq_ok] at h4
    · simp only [Res.ok.injEq, Prod.mk.injEq] at h4
      obtain ⟨_, rfl⟩ := h4
      exact ⟨[], Grew.refl hle f1 f2 ⟨[], by simp [f3]⟩, by simp [ConfF],
        by simp [pruneF]; exact .altR .eps⟩

end

mutual
theorem conforms_pruned (t : Tree) (h : t.Conf) : ConformsF t.pruned := by
  match t with
  | .tok _ => simp [Tree.pruned, ConformsF, Tree.Conforms]
  | .node k cs =>
    simp only [Tree.Conf] at h
    have := conforms_pruneF cs h.2
    simp only [Tree.pruned]
    cases hp : pruneF cs with
    | nil => simp [ConformsF]
    | cons c cs' =>
      rw [hp] at h this
      simp only [ConformsF, Tree.Conforms, and_true]
      exact ⟨h.1, this⟩
theorem conforms_pruneF (F : List Tree) (h : ConfF F) : ConformsF (pruneF F) := by
  match F with
  | [] => simp [pruneF, ConformsF]
  | t :: ts =>
    simp only [ConfF] at h
    have h1 := conforms_pruned t h.1
    have h2 := conforms_pruneF ts h.2
    have app : ∀ a b : List Tree, ConformsF a → ConformsF b → ConformsF (a ++ b) := by
      intro a b ha hb
      induction a with
      | nil => exact hb
      | cons x xs ih => simp only [ConformsF] at ha; exact ⟨ha.1, ih ha.2⟩
    simp only [pruneF]
    exact app _ _ h1 h2
end

/-- The parse of an accepted file describes a tree that conforms to the grammar. -/
theorem events_conform {name : Text} {toks : List Token} {evs : List Event}
    (h : events name toks .StoredDefinition = .ok (evs, [])) :
    ∃ cs, evs = (Tree.node .StoredDefinition cs).evs ∧ toks = leavesF cs ∧
      (Tree.node .StoredDefinition (pruneF cs)).Conforms := by
  unfold events at h
  rw [Res.bind_eq_ok] at h
  obtain ⟨s, h1, h2⟩ := h
  simp at h2
  obtain ⟨rfl, herr⟩ := h2
  cases hf : parseFuel toks.length with
  | zero => simp [parseFuel] at hf
  | succ n =>
    rw [hf, run, Res.bind_eq_ok] at h1
    obtain ⟨s1, h1, h2⟩ := h1
    simp at h2
    have hb : Grammar.body .StoredDefinition = Grammar.storedDefinition := rfl
    rw [hb] at h1
    cases n with
    | zero => simp [run] at h1
    | succ n =>
      replace h1 : run name toks Grammar.body (n + 1) (.seq _ (.while _ _)) PState.init.enter = .ok s1 := h1
      rw [run, Res.bind_eq_ok] at h1
      obtain ⟨s2, h3, h4⟩ := h1
      have hle : PState.init.enter.pos ≤ toks.length := by simp [PState.init, PState.enter]
      obtain ⟨_, g1⟩ := run_grew' _ _ hle h3
      obtain ⟨_, g2⟩ := run_grew' _ _ g1.le h4
      have e1 := g1.errs_le
      have e2 := g2.errs_le
      have e3 : s1.errors = [] := by rw [← h2] at herr; exact herr
      rw [e3] at e2
      simp only [List.length_nil] at e2
      obtain ⟨F, gF, cF, lF⟩ := within_sound hle h3 (by omega)
      obtain ⟨G, gG, cG, lG, pG⟩ := classes_sound n g1.le h4 (by rw [e3]; simp)
      have g := gF.trans gG
      refine ⟨F ++ G, ?_, ?_, ?_, ?_⟩
      · rw [← h2]
        simp [PState.exit, g.evs, PState.init, PState.enter, Tree.evs]
      · have := g.rest
        simpa [PState.init, PState.enter, pG] using this
      · rw [pruneF_append, List.map_append]
        exact .seq lF lG
      · exact conforms_pruneF _ (confF_append.mpr ⟨cF, cG⟩)

end Mofmt
