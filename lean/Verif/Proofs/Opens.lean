import Verif.Spec.Accept
import Verif.Proofs.Conform
/-
The parser never starts an equation at `end`, nor directly in an equation section at `initial`: an analysis
of the commands that follows the tests made just before each call.
-/
namespace Mofmt
namespace Open

/-- the kinds the current token may have when the condition holds and when it does not -/
def tests : Cond → KSet → KSet × KSet
  | .check k, m => (m.inter (KSet.bit k), m.diff (KSet.bit k))
  | .checkAny ks, m => (m.inter (KSet.of ks), m.diff (KSet.of ks))
  | .not c, m => ((tests c m).2, (tests c m).1)
  | .and a b, m => ((tests b (tests a m).1).1, KSet.all)
  | .eof, m => (m, m)
  | _, _ => (KSet.all, KSet.all)

/-- Is every equation called where the current token, known to be in `m` at first, may start it? -/
def calls (p : SK) : Cmd → KSet → Bool
  | .seq a b, m => calls p a m && calls p b KSet.all
  | .ite c a b, m => calls p a (tests c m).1 && calls p b (tests c m).2
  | .while c a, _ => calls p a (tests c KSet.all).1
  | .ifk _ a b, m => calls p a m && calls p b m
  | .call k, m => k != .Equation || (!m.has .End && (p != .EquationSection || !m.has .Initial))
  | _, _ => true

theorem calls_all (p : SK) : calls p (Grammar.body p) KSet.all = true := by
  cases p <;> decide +kernel

/-- `opens` for the trees of a forest directly in `p` -/
def StartF (p : SK) (F : List Tree) : Prop := (∀ c ∈ F, c.startsOk p = true) ∧ OpensF F

theorem opensF_append : ∀ {F G : List Tree}, OpensF F → OpensF G → OpensF (F ++ G)
  | [], _, _, h => h
  | _ :: _, _, h, h' => ⟨h.1, opensF_append h.2 h'⟩

theorem StartF.append {p : SK} {F G : List Tree} (h : StartF p F) (h' : StartF p G) : StartF p (F ++ G) :=
  ⟨fun c hc => (List.mem_append.mp hc).elim (h.1 c) (h'.1 c), opensF_append h.2 h'.2⟩

theorem StartF.nil {p : SK} : StartF p [] := ⟨by simp, trivial⟩
theorem StartF.tok {p : SK} {t : Token} : StartF p [.tok t] := ⟨by simp [Tree.startsOk], by simp [OpensF, Tree.Opens]⟩

section
variable {name : Text} {toks : List Token}

/-- evaluating a condition passes tokens only, and what `tests` says about the current token holds -/
theorem evalCond_tests (c : Cond) : ∀ {m : KSet} {s s' : PState} {b : Bool}, s.pos ≤ toks.length →
    m.has (kindAt toks s 0) = true → evalCond toks c s = .ok (b, s') →
    (∃ F, Grew toks s s' F ∧ ∀ p, StartF p F) ∧ (if b then (tests c m).1 else (tests c m).2).has (kindAt toks s' 0) = true := by
  induction c with
  | check k =>
    intro m s s' b hle hm h
    simp only [evalCond, Res.bind_eq_ok] at h
    obtain ⟨⟨k', s1⟩, h1, h2⟩ := h
    simp at h2; obtain ⟨rfl, rfl⟩ := h2
    obtain ⟨e1, e2, e3, e4, e5⟩ := nth_sound h1
    refine ⟨⟨[], Grew.refl hle e1 e2 ⟨[], by simp [e3]⟩, fun _ => .nil⟩, ?_⟩
    have hk : kindAt toks s1 0 = kindAt toks s 0 := by simp [kindAt, e2]
    rw [hk, ← e4]
    rw [← e4] at hm
    by_cases hc : k' = k
    · subst hc; simp [tests, hm]
    · have hc2 : ¬ k = k' := fun e => hc e.symm
      simp [tests, hm, hc, hc2]
  | checkAny ks =>
    intro m s s' b hle hm h
    simp only [evalCond, Res.bind_eq_ok] at h
    obtain ⟨⟨k', s1⟩, h1, h2⟩ := h
    simp only [Res.ok.injEq, Prod.mk.injEq] at h2; obtain ⟨rfl, rfl⟩ := h2
    obtain ⟨e1, e2, e3, e4, e5⟩ := nth_sound h1
    refine ⟨⟨[], Grew.refl hle e1 e2 ⟨[], by simp [e3]⟩, fun _ => .nil⟩, ?_⟩
    have hk : kindAt toks s1 0 = kindAt toks s 0 := by simp [kindAt, e2]
    rw [hk, ← e4]
    rw [← e4] at hm
    cases hc : ks.contains k' <;> simp only [Bool.false_eq_true, if_false, if_true, tests, KSet.has_diff, KSet.has_inter,
      KSet.has_of, hc, hm] <;> rfl
  | nthIs n k =>
    intro m s s' b hle hm h
    simp only [evalCond, Res.bind_eq_ok] at h
    obtain ⟨⟨k', s1⟩, h1, h2⟩ := h
    simp only [Res.ok.injEq, Prod.mk.injEq] at h2; obtain ⟨rfl, rfl⟩ := h2
    obtain ⟨e1, e2, e3, e4, e5⟩ := nth_sound h1
    refine ⟨⟨[], Grew.refl hle e1 e2 ⟨[], by simp [e3]⟩, fun _ => .nil⟩, ?_⟩
    split <;> simp [tests]
  | consume k =>
    intro m s s' b hle hm h
    simp only [evalCond, Res.bind_eq_ok] at h
    obtain ⟨⟨k', s1⟩, h1, h2⟩ := h
    obtain ⟨e1, e2, e3, e4, e5⟩ := nth_sound h1
    have g := Grew.refl hle e1 e2 ⟨[], by simp [e3]⟩
    dsimp only at h2
    refine ⟨?_, by split <;> simp [tests]⟩
    split at h2
    · simp only [Res.bind_eq_ok, Res.ok.injEq, Prod.mk.injEq] at h2
      obtain ⟨s2, h3, rfl, rfl⟩ := h2
      obtain ⟨t, _, g2, _⟩ := advance_grew g.le h3
      exact ⟨_, g.trans g2, fun _ => by simpa using StartF.tok⟩
    · simp only [Res.ok.injEq, Prod.mk.injEq] at h2
      obtain ⟨rfl, rfl⟩ := h2
      exact ⟨[], g, fun _ => .nil⟩
  | eof =>
    intro m s s' b hle hm h
    simp only [evalCond, Res.ok.injEq, Prod.mk.injEq] at h
    obtain ⟨rfl, rfl⟩ := h
    exact ⟨⟨[], Grew.refl hle rfl rfl ⟨[], by simp⟩, fun _ => .nil⟩, by split <;> simpa [tests] using hm⟩
  | not c ih =>
    intro m s s' b hle hm h
    simp only [evalCond, Res.bind_eq_ok] at h
    obtain ⟨⟨t, s1⟩, h1, h2⟩ := h
    simp only [Res.ok.injEq, Prod.mk.injEq] at h2; obtain ⟨rfl, rfl⟩ := h2
    obtain ⟨g, hk⟩ := ih hle hm h1
    refine ⟨g, ?_⟩
    cases t <;> simpa [tests] using hk
  | and a b iha ihb =>
    intro m s s' t hle hm h
    simp only [evalCond, Res.bind_eq_ok] at h
    obtain ⟨⟨t1, s1⟩, h1, h2⟩ := h
    obtain ⟨⟨F, g, sF⟩, hk⟩ := iha hle hm h1
    dsimp only at h2
    cases t1 with
    | true =>
      obtain ⟨⟨G, g2, sG⟩, hk2⟩ := ihb g.le hk h2
      refine ⟨⟨_, g.trans g2, fun p => (sF p).append (sG p)⟩, ?_⟩
      cases t with
      | true => simpa [tests] using hk2
      | false => simp [tests]
    | false =>
      simp only [Bool.false_eq_true, if_false, Res.ok.injEq, Prod.mk.injEq] at h2
      obtain ⟨rfl, rfl⟩ := h2
      exact ⟨⟨F, g, sF⟩, by simp [tests]⟩
  | or a b iha ihb =>
    intro m s s' t hle hm h
    simp only [evalCond, Res.bind_eq_ok] at h
    obtain ⟨⟨t1, s1⟩, h1, h2⟩ := h
    obtain ⟨⟨F, g, sF⟩, hk⟩ := iha hle hm h1
    refine ⟨?_, by split <;> simp [tests]⟩
    dsimp only at h2
    split at h2
    · simp only [Res.ok.injEq, Prod.mk.injEq] at h2
      obtain ⟨rfl, rfl⟩ := h2
      exact ⟨F, g, sF⟩
    · obtain ⟨⟨G, g2, sG⟩, _⟩ := ihb (m := KSet.all) g.le (by simp) h2
      exact ⟨_, g.trans g2, fun p => (sF p).append (sG p)⟩

/-- the first leaf of what was parsed is the token at the old position -/
theorem first_leaf {s s' : PState} {F : List Tree} {t : Token} {ts : List Token} (g : Grew toks s s' F)
    (h : leavesF F = t :: ts) : kindAt toks s 0 = t.kind := by
  have := g.rest
  rw [h] at this
  have h2 : toks[s.pos]? = some t := by
    rw [← Nat.add_zero s.pos, ← List.getElem?_drop, this]; rfl
  simp [kindAt, h2]

theorem run_opens : ∀ (n : Nat) (c : Cmd) {p : SK} {m : KSet} {s s' : PState}, s.pos ≤ toks.length →
    m.has (kindAt toks s 0) = true → calls p c m = true →
    run name toks Grammar.body n c s = .ok s' → ∃ F, Grew toks s s' F ∧ StartF p F := by
  intro n
  induction n with
  | zero => intro c p m s s' _ _ _ h; simp [run] at h
  | succ n ih =>
    intro c p m s s' hle hm hc h
    cases c with
    | skip => simp [run] at h; subst h; exact ⟨[], Grew.refl hle rfl rfl ⟨[], by simp⟩, .nil⟩
    | seq a b =>
      simp only [run, Res.bind_eq_ok] at h
      obtain ⟨s1, h1, h2⟩ := h
      simp only [calls, Bool.and_eq_true] at hc
      obtain ⟨F, g1, p1⟩ := ih a hle hm hc.1 h1
      obtain ⟨G, g2, p2⟩ := ih b g1.le (by simp) hc.2 h2
      exact ⟨_, g1.trans g2, p1.append p2⟩
    | ite c a b =>
      simp only [run, Res.bind_eq_ok] at h
      obtain ⟨⟨t, s1⟩, h1, h2⟩ := h
      simp only [calls, Bool.and_eq_true] at hc
      obtain ⟨⟨F, g1, p1⟩, hk⟩ := evalCond_tests c hle hm h1
      dsimp only at h2
      cases t with
      | true =>
        obtain ⟨G, g2, p2⟩ := ih a g1.le hk hc.1 h2
        exact ⟨_, g1.trans g2, (p1 p).append p2⟩
      | false =>
        obtain ⟨G, g2, p2⟩ := ih b g1.le hk hc.2 h2
        exact ⟨_, g1.trans g2, (p1 p).append p2⟩
    | «while» c a =>
      simp only [run, Res.bind_eq_ok] at h
      obtain ⟨⟨t, s1⟩, h1, h2⟩ := h
      obtain ⟨⟨F, g1, p1⟩, hk⟩ := evalCond_tests (m := KSet.all) c hle (by simp) h1
      dsimp only at h2
      cases t with
      | true =>
        simp only [if_true, Res.bind_eq_ok] at h2
        obtain ⟨s2, h3, h4⟩ := h2
        obtain ⟨G, g2, p2⟩ := ih a g1.le hk (by simpa [calls] using hc) h3
        obtain ⟨H, g3, p3⟩ := ih _ g2.le (by simp) (m := KSet.all) (by simpa [calls] using hc) h4
        exact ⟨_, (g1.trans g2).trans g3, ((p1 p).append p2).append p3⟩
      | false =>
        simp at h2; subst h2
        exact ⟨F, g1, p1 p⟩
    | eval c =>
      simp only [run, Res.bind_eq_ok] at h
      obtain ⟨⟨t, s1⟩, h1, h2⟩ := h
      simp at h2; subst h2
      obtain ⟨⟨F, g1, p1⟩, _⟩ := evalCond_tests c hle hm h1
      exact ⟨F, g1, p1 p⟩
    | expect k =>
      simp only [run, Res.bind_eq_ok] at h
      obtain ⟨⟨t, s1⟩, h1, h2⟩ := h
      obtain ⟨⟨F, g1, p1⟩, _⟩ := evalCond_tests _ hle hm h1
      dsimp only at h2
      split at h2
      · simp at h2; subst h2; exact ⟨F, g1, p1 p⟩
      · simp only [Res.bind_eq_ok] at h2
        obtain ⟨⟨k', s2⟩, h3, h4⟩ := h2
        obtain ⟨e1, e2, e3⟩ := nth_grew h3
        obtain ⟨f1, f2, _, _, e, f3⟩ := error_grew h4
        exact ⟨_, g1.trans (Grew.refl (s := s1) g1.le (by rw [f1, e1]) (by rw [f2, e2])
          ⟨[e], by rw [f3, e3]⟩), by simpa using p1 p⟩
    | advance =>
      simp only [run] at h
      obtain ⟨t, _, g, _⟩ := advance_grew hle h
      exact ⟨_, g, .tok⟩
    | call k =>
      simp only [run, Res.bind_eq_ok] at h
      obtain ⟨s1, h1, h2⟩ := h
      simp at h2; subst h2
      obtain ⟨F, g, pF⟩ := ih (Grammar.body k) (s := s.enter) (by simpa [PState.enter] using hle)
        (m := KSet.all) (by simp) (calls_all k) h1
      have hE : k ≠ .Error := by
        rintro rfl
        cases n <;> simp [run, Grammar.body] at h1
      refine ⟨_, exit_grew (s := s) (s1 := s.enter) rfl rfl ⟨[], by simp [PState.enter]⟩ g
        (fun h => absurd h hE), ?_, ?_⟩
      · intro c hcm
        simp only [List.mem_singleton] at hcm
        subst hcm
        simp only [Tree.startsOk]
        split
        · rfl
        · rename_i t ts hl
          have hk := first_leaf g hl
          have hk2 : kindAt toks s.enter 0 = kindAt toks s 0 := rfl
          rw [hk2] at hk
          rw [hk] at hm
          simp only [calls, Bool.or_eq_true, bne_iff_ne, Bool.and_eq_true, Bool.not_eq_true'] at hc
          by_cases hq : k = .Equation
          · subst hq
            rcases hc with hc | ⟨h3, h4⟩
            · exact absurd rfl hc
            · have n1 : t.kind ≠ .End := by intro e; rw [e, h3] at hm; simp at hm
              have n2 : p = .EquationSection → t.kind ≠ .Initial := by
                intro e e2
                rcases h4 with h4 | h4
                · exact h4 e
                · rw [e2, h4] at hm; simp at hm
              simp only [opens, beq_self_eq_true, Bool.true_and, Bool.not_eq_true', Bool.or_eq_false_iff,
                beq_eq_false_iff_ne, Bool.and_eq_false_iff]
              refine ⟨n1, ?_⟩
              by_cases hp : p = .EquationSection
              · exact .inr (n2 hp)
              · exact .inl hp
          · simp [opens, hq]
      · exact ⟨pF, trivial⟩
    | advErr m' pre post =>
      simp only [run, Res.bind_eq_ok] at h
      obtain ⟨⟨k', s1⟩, h1, s2, h2, s3, h3, h4⟩ := h
      simp at h4; subst h4
      obtain ⟨e1, e2, e3⟩ := nth_grew h1
      obtain ⟨f1, f2, _, _, e, f3⟩ := error_grew h2
      have hle2 : s2.enter.pos ≤ toks.length := by
        simp [PState.enter]; rw [f2]; dsimp only; omega
      obtain ⟨t, _, g, _, g4⟩ := advance_grew hle2 h3
      have hev : s2.evs.length = s.evs.length := by rw [f1, e1]
      rw [hev]
      refine ⟨_, exit_grew (s := s) (s1 := s2.enter) (by simp [PState.enter, f1, e1])
        (by simp [PState.enter, f2, e2]) ⟨[e], by simp [PState.enter, f3, e3]⟩ g ?_, ?_, ?_⟩
      · intro _
        simp only [PState.enter] at g4
        rw [g4, f3, e3]; simp
      · intro c hcm
        simp only [List.mem_singleton] at hcm
        subst hcm
        simp [Tree.startsOk, leavesF, Tree.leaves, opens]
      · simp [OpensF, Tree.Opens, Tree.startsOk]
    | look m' =>
      simp only [run, Res.bind_eq_ok] at h
      obtain ⟨⟨k', s1⟩, h1, h2⟩ := h
      simp at h2; subst h2
      obtain ⟨e1, e2, e3⟩ := nth_grew h1
      exact ⟨[], Grew.refl hle e1 e2 ⟨[], by simp [e3]⟩, .nil⟩
    | ifk ks a b =>
      simp only [run] at h
      simp only [calls, Bool.and_eq_true] at hc
      split at h
      · exact ih a hle hm hc.1 h
      · exact ih b hle hm hc.2 h
    | unreachable => simp [run] at h

end

mutual
theorem pruned_opens (p : SK) (t : Tree) (h1 : t.startsOk p = true) (h2 : t.Opens) : StartF p t.pruned := by
  match t with
  | .tok _ => exact .tok
  | .node k cs =>
    simp only [Tree.Opens] at h2
    have := pruneF_opens k cs h2
    simp only [Tree.pruned]
    cases hp : pruneF cs with
    | nil => exact .nil
    | cons c cs' =>
      rw [hp] at this
      refine ⟨?_, ?_⟩
      · intro d hd
        simp only [List.mem_singleton] at hd
        subst hd
        simpa only [Tree.startsOk, ← hp, leaves_pruneF] using h1
      · exact ⟨this, trivial⟩
theorem pruneF_opens (p : SK) (F : List Tree) (h : StartF p F) : StartF p (pruneF F) := by
  match F with
  | [] => exact .nil
  | t :: ts =>
    simp only [pruneF]
    exact (pruned_opens p t (h.1 t (by simp)) h.2.1).append
      (pruneF_opens p ts ⟨fun c hc => h.1 c (by simp [hc]), h.2.2⟩)
end

/-- The parser never starts an equation at `end`, nor directly in an equation section at `initial`. -/
theorem events_opens {name : Text} {toks : List Token} {k : SK} {evs : List Event} {errs : List Text}
    (h : events name toks k = .ok (evs, errs)) :
    ∃ F, evs = (Tree.node k F).evs ∧ (∃ r, toks = leavesF F ++ r) ∧ (Tree.node k (pruneF F)).Opens := by
  unfold events at h
  rw [Res.bind_eq_ok] at h
  obtain ⟨s, h1, h2⟩ := h
  simp at h2
  obtain ⟨rfl, herr⟩ := h2
  cases hf : parseFuel toks.length with
  | zero => simp [parseFuel] at hf
  | succ n =>
    rw [hf, run, Res.bind_eq_ok] at h1
    obtain ⟨s1, h1, h2⟩ := h1
    simp at h2
    obtain ⟨F, g, pF⟩ := run_opens n (Grammar.body k) (p := k) (m := KSet.all) (by simp [PState.init, PState.enter])
      (by simp) (calls_all k) h1
    refine ⟨F, ?_, ⟨_, by simpa [PState.init, PState.enter] using g.rest⟩, pruneF_opens k F pF⟩
    rw [← h2]
    simp [PState.exit, g.evs, PState.init, PState.enter, Tree.evs]

mutual
theorem count_evs (t : Tree) : (t.evs.filter (· == .advance)).length = t.leaves.length := by
  match t with
  | .tok _ => simp [Tree.evs, Tree.leaves]
  | .node k cs => simp [Tree.evs, Tree.leaves, List.filter_cons, ← count_evsF cs]
theorem count_evsF (F : List Tree) : ((evsF F).filter (· == .advance)).length = (leavesF F).length := by
  match F with
  | [] => rfl
  | t :: ts => simp [evsF, leavesF, count_evs t, count_evsF ts]
end

/-- two descriptions of the same tokens by the same events -/
theorem evs_leaves {F G : List Tree} {k : SK} (h : (Tree.node k F).evs = (Tree.node k G).evs) {r : List Token}
    (hr : leavesF F = leavesF G ++ r) : leavesF F = leavesF G := by
  have h1 := count_evs (.node k F)
  rw [h, count_evs] at h1
  simp only [Tree.leaves, hr, List.length_append] at h1
  have : r = [] := List.length_eq_zero_iff.mp (by omega)
  rw [hr, this, List.append_nil]

end Open
end Mofmt
