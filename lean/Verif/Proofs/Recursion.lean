import Verif.Proofs.Opens
import Verif.Proofs.Build
import Verif.Proofs.Regex
import Verif.Spec.Recursion
import Verif.Spec.Work
/-
How deep the grammar functions call themselves: the depth of the calls is the height of the tree they describe, up to productions
without tokens; and productions nest only as deep as the text does, except for the rests of lists.
-/
namespace Mofmt

/-! ### Calls that pass no token -/

/-- If the condition holds, has a token been passed? -/
def condAdv : Cond → Bool
  | .consume _ => true
  | .and a b => condAdv a || condAdv b
  | .or a b => condAdv a && condAdv b
  | _ => false
/-- Does the statement pass a token, if it reports nothing?  `A`: for grammar functions. -/
def surelyAdv (A : SK → Bool) : Cmd → Bool
  | .seq a b => surelyAdv A a || surelyAdv A b
  | .ite c a b => (condAdv c || surelyAdv A a) && surelyAdv A b
  | .expect _ => true
  | .advance => true
  | .call k => A k
  | .advErr _ _ _ => true
  | .ifk _ a b => surelyAdv A a && surelyAdv A b
  | .unreachable => true
  | _ => false
/-- How deep are the calls of a statement that passes no token?  `H`: for the bodies of grammar functions. -/
def idleDepth (A : SK → Bool) (H : SK → Nat) : Cmd → Nat
  | .seq a b => max (idleDepth A H a) (if surelyAdv A a then 0 else idleDepth A H b)
  | .ite c a b => max (if condAdv c then 0 else idleDepth A H a) (idleDepth A H b)
  | .while c a => if condAdv c || surelyAdv A a then 0 else idleDepth A H a
  | .call k => if A k then 0 else 1 + H k
  | .ifk _ a b => max (idleDepth A H a) (idleDepth A H b)
  | _ => 0

/-- the grammar functions that may pass no token -/
def idleKinds : List SK :=
  [.StoredDefinition, .BasePrefix, .Composition, .ElementList, .TypePrefix, .ModificationExpression, .OutputExpressionList, .Subscript,
    .Description, .DescriptionString]
def advTable (k : SK) : Bool := !idleKinds.contains k
/-- how deep the calls in their bodies are then -/
def idleTable (k : SK) : Nat := if [SK.Composition, .ComponentClause, .ComponentClause1, .Description].contains k then 1 else 0

theorem adv_all : ∀ k, advTable k = true → surelyAdv advTable (Grammar.body k) = true := by
  intro k; cases k <;> decide +kernel
theorem idle_all : ∀ k, idleDepth advTable idleTable (Grammar.body k) ≤ idleTable k := by
  intro k; cases k <;> decide +kernel

section
variable {toks : List Token} {name : Text}

theorem condAdv_sound : ∀ (c : Cond) {s s' : PState}, condAdv c = true → s.pos ≤ toks.length → evalCond toks c s = .ok (true, s') →
    s.pos < s'.pos := by
  intro c
  induction c with
  | consume k =>
    intro s s' _ hle h
    simp only [evalCond, Res.bind_eq_ok] at h
    obtain ⟨⟨k', s1⟩, h1, h2⟩ := h
    obtain ⟨_, h4, _⟩ := nth_grew h1
    dsimp only at h2
    split at h2
    · simp only [Res.bind_eq_ok] at h2
      obtain ⟨s2, h6, h7⟩ := h2
      simp at h7
      subst h7
      obtain ⟨t, _, _, h8, _⟩ := advance_grew (by omega) h6
      omega
    · simp at h2
  | and a b iha ihb =>
    intro s s' hc hle h
    simp only [evalCond, Res.bind_eq_ok] at h
    obtain ⟨⟨t, s1⟩, h1, h2⟩ := h
    dsimp only at h2
    split at h2
    · rename_i ht; subst ht
      obtain ⟨F, g1, _⟩ := evalCond_grew a hle h1
      obtain ⟨G, g2, _⟩ := evalCond_grew b g1.le h2
      have p1 := g1.pos
      have p2 := g2.pos
      simp only [condAdv, Bool.or_eq_true] at hc
      rcases hc with hc | hc
      · have := iha hc hle h1; omega
      · have := ihb hc g1.le h2; omega
    · simp at h2
  | or a b iha ihb =>
    intro s s' hc hle h
    simp only [evalCond, Res.bind_eq_ok] at h
    obtain ⟨⟨t, s1⟩, h1, h2⟩ := h
    dsimp only at h2
    obtain ⟨F, g1, _⟩ := evalCond_grew a hle h1
    have p1 := g1.pos
    simp only [condAdv, Bool.and_eq_true] at hc
    split at h2
    · rename_i ht; subst ht
      simp at h2; subst h2
      exact iha hc.1 hle h1
    · have := ihb hc.2 g1.le h2; omega
  | _ => intro s s' hc; simp [condAdv] at hc

theorem surelyAdv_sound : ∀ (n : Nat) (c : Cmd) {s s' : PState}, surelyAdv advTable c = true → s.pos ≤ toks.length →
    run name toks Grammar.body n c s = .ok s' → s'.errors.length ≤ s.errors.length → s.pos < s'.pos := by
  intro n
  induction n with
  | zero => intro c s s' _ _ h; simp [run] at h
  | succ n ih =>
    intro c s s' hc hle h her
    cases c with
    | skip | «while» _ _ | eval _ | look _ => simp [surelyAdv] at hc
    | unreachable => simp [run] at h
    | seq a b =>
      simp only [run, Res.bind_eq_ok] at h
      obtain ⟨s1, h1, h2⟩ := h
      obtain ⟨_, g1⟩ := run_grew' _ _ hle h1
      obtain ⟨_, g2⟩ := run_grew' _ _ g1.le h2
      have e1 := g1.errs_le
      have e2 := g2.errs_le
      have p1 := g1.pos
      have p2 := g2.pos
      simp only [surelyAdv, Bool.or_eq_true] at hc
      rcases hc with hc | hc
      · have := ih a hc hle h1 (by omega); omega
      · have := ih b hc g1.le h2 (by omega); omega
    | ite c a b =>
      simp only [run, Res.bind_eq_ok] at h
      obtain ⟨⟨t, s1⟩, h1, h2⟩ := h
      obtain ⟨_, g1, e1⟩ := evalCond_grew _ hle h1
      have p1 := g1.pos
      dsimp only at h2
      obtain ⟨_, g2⟩ : ∃ F, Grew toks s1 s' F := by split at h2 <;> exact run_grew' _ _ g1.le h2
      have p2 := g2.pos
      simp only [surelyAdv, Bool.and_eq_true, Bool.or_eq_true] at hc
      split at h2
      · rename_i ht; subst ht
        rcases hc.1 with hc | hc
        · have := condAdv_sound _ hc hle h1; omega
        · have := ih a hc g1.le h2 (by rw [e1]; exact her); omega
      · have := ih b hc.2 g1.le h2 (by rw [e1]; exact her); omega
    | ifk ks a b =>
      simp only [run] at h
      simp only [surelyAdv, Bool.and_eq_true] at hc
      split at h
      · exact ih a hc.1 hle h her
      · exact ih b hc.2 hle h her
    | expect k =>
      obtain ⟨t, _, _, g⟩ := expect_clean hle h her
      have := g.pos
      simp [leavesF, Tree.leaves] at this
      omega
    | advance =>
      simp only [run] at h
      obtain ⟨_, _, _, h1, _⟩ := advance_grew hle h
      omega
    | call k =>
      simp only [run, Res.bind_eq_ok] at h
      obtain ⟨s1, h1, h2⟩ := h
      simp at h2; subst h2
      have := ih (Grammar.body k) (adv_all k hc) (s := s.enter) (by simpa [PState.enter] using hle) h1
        (by simpa [PState.enter, PState.exit] using her)
      simpa [PState.enter, PState.exit] using this
    | advErr m pre post =>
      simp only [run, Res.bind_eq_ok] at h
      obtain ⟨⟨k', s1⟩, h1, s2, h2, s3, h3, h4⟩ := h
      simp at h4; subst h4
      obtain ⟨_, e2, _⟩ := nth_grew h1
      obtain ⟨_, f2, _⟩ := error_grew h2
      dsimp only at f2
      obtain ⟨_, _, _, g4, _⟩ := advance_grew (s := s2.enter) (by simp [PState.enter]; omega) h3
      simp [PState.enter, PState.exit] at g4 ⊢
      omega

theorem idleDepth_sound : ∀ (n : Nat) (c : Cmd) {s s' : PState}, s.pos ≤ toks.length →
    run name toks Grammar.body n c s = .ok s' → s'.errors.length ≤ s.errors.length → s'.pos = s.pos →
    callDepth name toks Grammar.body n c s ≤ idleDepth advTable idleTable c := by
  intro n
  induction n with
  | zero => intro c s s' _ h; simp [run] at h
  | succ n ih =>
    intro c s s' hle h her hp
    cases c with
    | skip | eval _ | look _ | unreachable | advance | expect _ | advErr _ _ _ => simp [callDepth]
    | seq a b =>
      simp only [run, Res.bind_eq_ok] at h
      obtain ⟨s1, h1, h2⟩ := h
      obtain ⟨_, g1⟩ := run_grew' _ _ hle h1
      obtain ⟨_, g2⟩ := run_grew' _ _ g1.le h2
      have e1 := g1.errs_le
      have e2 := g2.errs_le
      have p1 := g1.pos
      have p2 := g2.pos
      have i1 := ih a hle h1 (by omega) (by omega)
      have i2 := ih b g1.le h2 (by omega) (by omega)
      have hn : surelyAdv advTable a ≠ true := by
        intro hc
        have := surelyAdv_sound n a hc hle h1 (by omega)
        omega
      simp only [callDepth, idleDepth, h1, if_neg hn]
      omega
    | ite c a b =>
      simp only [run, Res.bind_eq_ok] at h
      obtain ⟨⟨t, s1⟩, h1, h2⟩ := h
      obtain ⟨_, g1, e1⟩ := evalCond_grew _ hle h1
      have p1 := g1.pos
      dsimp only at h2
      obtain ⟨_, g2⟩ : ∃ F, Grew toks s1 s' F := by split at h2 <;> exact run_grew' _ _ g1.le h2
      have p2 := g2.pos
      simp only [callDepth, idleDepth, h1]
      split at h2
      · rename_i ht; subst ht
        have := ih a g1.le h2 (by rw [e1]; exact her) (by omega)
        have hn : condAdv c ≠ true := by
          intro hc
          have := condAdv_sound _ hc hle h1
          omega
        simp only [if_neg hn, if_true]
        omega
      · rename_i ht
        have := ih b g1.le h2 (by rw [e1]; exact her) (by omega)
        simp only [if_neg ht]
        omega
    | «while» c a =>
      simp only [run, Res.bind_eq_ok] at h
      obtain ⟨⟨t, s1⟩, h1, h2⟩ := h
      obtain ⟨_, g1, e1⟩ := evalCond_grew _ hle h1
      have p1 := g1.pos
      dsimp only at h2
      simp only [callDepth, h1]
      split at h2
      · rename_i ht; subst ht
        simp only [Res.bind_eq_ok] at h2
        obtain ⟨s2, h3, h4⟩ := h2
        obtain ⟨_, g2⟩ := run_grew' _ _ g1.le h3
        obtain ⟨_, g3⟩ := run_grew' _ _ g2.le h4
        have e2 := g2.errs_le
        have e3 := g3.errs_le
        have p2 := g2.pos
        have p3 := g3.pos
        rw [← e1] at her
        have i1 := ih a g1.le h3 (by omega) (by omega)
        have i2 := ih _ g2.le h4 (by omega) (by omega)
        have hn : (condAdv c || surelyAdv advTable a) ≠ true := by
          intro hc
          simp only [Bool.or_eq_true] at hc
          rcases hc with hc | hc
          · have := condAdv_sound _ hc hle h1; omega
          · have := surelyAdv_sound n a hc g1.le h3 (by omega); omega
        simp only [h3, if_true]
        simp only [idleDepth, if_neg hn] at i2 ⊢
        omega
      · rename_i ht
        simp [if_neg ht]
    | ifk ks a b =>
      simp only [run] at h
      simp only [callDepth, idleDepth]
      split at h
      · rename_i ht
        have := ih a hle h her hp
        simp only [if_pos ht]
        omega
      · rename_i ht
        have := ih b hle h her hp
        simp only [if_neg ht]
        omega
    | call k =>
      have hn : advTable k ≠ true := by
        intro hc
        have := surelyAdv_sound (n + 1) (.call k) hc hle h her
        omega
      simp only [run, Res.bind_eq_ok] at h
      obtain ⟨s1, h1, h2⟩ := h
      simp at h2; subst h2
      have := ih (Grammar.body k) (s := s.enter) (by simpa [PState.enter] using hle) h1
        (by simpa [PState.enter, PState.exit] using her) (by simpa [PState.enter, PState.exit] using hp)
      have h3 := idle_all k
      simp only [callDepth, idleDepth, if_neg hn]
      omega

end

/-! ### The depth of the calls is the height of the tree -/

theorem heightF_append : ∀ a b : List Tree, heightF (a ++ b) = max (heightF a) (heightF b)
  | [], b => by simp [heightF]
  | t :: a, b => by simp only [List.cons_append, heightF, heightF_append a b]; omega

mutual
/-- the productions without tokens in the tree are at most `e` high -/
def Tree.low (e : Nat) : Tree → Prop
  | .tok _ => True
  | .node _ cs => (leavesF cs = [] → 1 + heightF cs ≤ e) ∧ lowF e cs
/-- the productions without tokens in the forest are at most `e` high -/
def lowF (e : Nat) : List Tree → Prop
  | [] => True
  | t :: ts => t.low e ∧ lowF e ts
end

theorem lowF_append (e : Nat) : ∀ a b : List Tree, lowF e (a ++ b) ↔ lowF e a ∧ lowF e b
  | [], b => by simp [lowF]
  | t :: a, b => by simp only [List.cons_append, lowF, lowF_append e a b]; exact and_assoc.symm

theorem lowF_flat (e : Nat) : ∀ F : List Tree, heightF F = 0 → lowF e F
  | [], _ => trivial
  | .tok _ :: F, h => ⟨trivial, lowF_flat e F (by simpa [heightF, Tree.height] using h)⟩
  | .node _ _ :: _, h => by simp only [heightF, Tree.height] at h; omega

section
variable {toks : List Token} {name : Text}

theorem evalCond_flat (c : Cond) : ∀ {s s' : PState} {b : Bool}, s.pos ≤ toks.length →
    evalCond toks c s = .ok (b, s') → ∃ F, Grew toks s s' F ∧ s'.errors = s.errors ∧ heightF F = 0 := by
  induction c with
  | check k | checkAny ks | nthIs n k =>
    intro s s' b hle h
    simp only [evalCond, Res.bind_eq_ok] at h
    obtain ⟨⟨k', s1⟩, h1, h2⟩ := h
    simp at h2
    obtain ⟨_, rfl⟩ := h2
    obtain ⟨h3, h4, h5⟩ := nth_grew h1
    exact ⟨[], Grew.refl hle h3 h4 ⟨[], by simp [h5]⟩, h5, rfl⟩
  | consume k =>
    intro s s' b hle h
    simp only [evalCond, Res.bind_eq_ok] at h
    obtain ⟨⟨k', s1⟩, h1, h2⟩ := h
    obtain ⟨h3, h4, h5⟩ := nth_grew h1
    have g1 : Grew toks s s1 [] := Grew.refl hle h3 h4 ⟨[], by simp [h5]⟩
    split at h2
    · simp only [Res.bind_eq_ok] at h2
      obtain ⟨s2, h6, h7⟩ := h2
      simp at h7
      obtain ⟨_, rfl⟩ := h7
      obtain ⟨t, _, g2, _, h8⟩ := advance_grew (by omega) h6
      exact ⟨_, g1.trans g2, by rw [h8, h5], rfl⟩
    · simp at h2
      obtain ⟨_, rfl⟩ := h2
      exact ⟨[], g1, h5, rfl⟩
  | eof =>
    intro s s' b hle h
    simp [evalCond] at h
    obtain ⟨_, rfl⟩ := h
    exact ⟨[], Grew.refl hle rfl rfl ⟨[], by simp⟩, rfl, rfl⟩
  | not c ih =>
    intro s s' b hle h
    simp only [evalCond, Res.bind_eq_ok] at h
    obtain ⟨⟨k', s1⟩, h1, h2⟩ := h
    simp at h2
    obtain ⟨_, rfl⟩ := h2
    exact ih hle h1
  | and a b iha ihb =>
    intro s s' t hle h
    simp only [evalCond, Res.bind_eq_ok] at h
    obtain ⟨⟨k', s1⟩, h1, h2⟩ := h
    obtain ⟨F, g1, e1, z1⟩ := iha hle h1
    dsimp only at h2
    split at h2
    · obtain ⟨G, g2, e2, z2⟩ := ihb g1.le h2
      exact ⟨_, g1.trans g2, by rw [e2, e1], by rw [heightF_append, z1, z2]; rfl⟩
    · simp at h2
      obtain ⟨_, rfl⟩ := h2
      exact ⟨F, g1, e1, z1⟩
  | or a b iha ihb =>
    intro s s' t hle h
    simp only [evalCond, Res.bind_eq_ok] at h
    obtain ⟨⟨k', s1⟩, h1, h2⟩ := h
    obtain ⟨F, g1, e1, z1⟩ := iha hle h1
    dsimp only at h2
    split at h2
    · simp at h2
      obtain ⟨_, rfl⟩ := h2
      exact ⟨F, g1, e1, z1⟩
    · obtain ⟨G, g2, e2, z2⟩ := ihb g1.le h2
      exact ⟨_, g1.trans g2, by rw [e2, e1], by rw [heightF_append, z1, z2]; rfl⟩

theorem run_deep : ∀ (n : Nat) (c : Cmd) {s s' : PState}, s.pos ≤ toks.length →
    run name toks Grammar.body n c s = .ok s' → s'.errors.length ≤ s.errors.length →
    ∃ F, Grew toks s s' F ∧ heightF F = callDepth name toks Grammar.body n c s ∧ lowF 2 F := by
  intro n
  induction n with
  | zero => intro c s s' _ h; simp [run] at h
  | succ n ih =>
    intro c s s' hle h her
    cases c with
    | skip => simp [run] at h; subst h; exact ⟨[], Grew.refl hle rfl rfl ⟨[], by simp⟩, rfl, trivial⟩
    | unreachable => simp [run] at h
    | seq a b =>
      simp only [run, Res.bind_eq_ok] at h
      obtain ⟨s1, h1, h2⟩ := h
      obtain ⟨_, g1⟩ := run_grew' _ _ hle h1
      obtain ⟨_, g2⟩ := run_grew' _ _ g1.le h2
      have e1 := g1.errs_le
      have e2 := g2.errs_le
      obtain ⟨F, a1, b1, c1⟩ := ih a hle h1 (by omega)
      obtain ⟨G, a2, b2, c2⟩ := ih b g1.le h2 (by omega)
      exact ⟨F ++ G, a1.trans a2, by rw [heightF_append, b1, b2]; simp only [callDepth, h1], (lowF_append ..).2 ⟨c1, c2⟩⟩
    | ite c a b =>
      simp only [run, Res.bind_eq_ok] at h
      obtain ⟨⟨t, s1⟩, h1, h2⟩ := h
      obtain ⟨F, g1, e1, z1⟩ := evalCond_flat _ hle h1
      dsimp only at h2
      rw [← e1] at her
      simp only [callDepth, h1]
      split at h2
      · rename_i ht; subst ht
        obtain ⟨G, a2, b2, c2⟩ := ih a g1.le h2 her
        exact ⟨F ++ G, g1.trans a2, by rw [heightF_append, z1, b2]; simp, (lowF_append ..).2 ⟨lowF_flat 2 F z1, c2⟩⟩
      · rename_i ht
        obtain ⟨G, a2, b2, c2⟩ := ih b g1.le h2 her
        exact ⟨F ++ G, g1.trans a2, by rw [heightF_append, z1, b2]; simp [if_neg ht], (lowF_append ..).2 ⟨lowF_flat 2 F z1, c2⟩⟩
    | «while» c a =>
      simp only [run, Res.bind_eq_ok] at h
      obtain ⟨⟨t, s1⟩, h1, h2⟩ := h
      obtain ⟨F, g1, e1, z1⟩ := evalCond_flat _ hle h1
      dsimp only at h2
      simp only [callDepth, h1]
      split at h2
      · rename_i ht; subst ht
        simp only [Res.bind_eq_ok] at h2
        obtain ⟨s2, h3, h4⟩ := h2
        obtain ⟨_, g2⟩ := run_grew' _ _ g1.le h3
        obtain ⟨_, g3⟩ := run_grew' _ _ g2.le h4
        have e2 := g2.errs_le
        have e3 := g3.errs_le
        rw [← e1] at her
        obtain ⟨G, a2, b2, c2⟩ := ih a g1.le h3 (by omega)
        obtain ⟨H, a3, b3, c3⟩ := ih _ g2.le h4 (by omega)
        exact ⟨F ++ G ++ H, (g1.trans a2).trans a3, by rw [heightF_append, heightF_append, z1, b2, b3]; simp [h3],
          (lowF_append ..).2 ⟨(lowF_append ..).2 ⟨lowF_flat 2 F z1, c2⟩, c3⟩⟩
      · rename_i ht
        simp at h2; subst h2
        exact ⟨F, g1, by simp [if_neg ht, z1], lowF_flat 2 F z1⟩
    | eval c =>
      simp only [run, Res.bind_eq_ok] at h
      obtain ⟨⟨t, s1⟩, h1, h2⟩ := h
      simp at h2; subst h2
      obtain ⟨F, g1, _, z1⟩ := evalCond_flat c hle h1
      exact ⟨F, g1, by simp [callDepth, z1], lowF_flat 2 F z1⟩
    | expect k =>
      obtain ⟨t, _, _, g⟩ := expect_clean hle h her
      exact ⟨_, g, rfl, by simp [lowF, Tree.low]⟩
    | advance =>
      simp only [run] at h
      obtain ⟨t, _, g, _⟩ := advance_grew hle h
      exact ⟨_, g, rfl, by simp [lowF, Tree.low]⟩
    | look m =>
      simp only [run, Res.bind_eq_ok] at h
      obtain ⟨⟨k', s1⟩, h1, h2⟩ := h
      simp at h2; subst h2
      obtain ⟨e1, e2, e3⟩ := nth_grew h1
      exact ⟨[], Grew.refl hle e1 e2 ⟨[], by simp [e3]⟩, rfl, trivial⟩
    | ifk ks a b =>
      simp only [run] at h
      simp only [callDepth]
      split at h
      · rename_i ht
        rw [if_pos ht]
        exact ih a hle h her
      · rename_i ht
        rw [if_neg ht]
        exact ih b hle h her
    | advErr m pre post =>
      exfalso
      simp only [run, Res.bind_eq_ok] at h
      obtain ⟨⟨k', s1⟩, h1, s2, h2, s3, h3, h4⟩ := h
      simp at h4; subst h4
      obtain ⟨e1, e2, e3⟩ := nth_grew h1
      obtain ⟨f1, f2, _, _, e, f3⟩ := error_grew h2
      dsimp only at f2
      obtain ⟨_, _, _, _, g4⟩ := advance_grew (s := s2.enter) (by simp [PState.enter]; omega) h3
      simp only [PState.enter] at g4
      simp only [PState.exit, g4, f3, e3, List.length_append, List.length_singleton] at her
      omega
    | call k =>
      have hd := idleDepth_sound (n + 1) (.call k) hle h her
      simp only [run, Res.bind_eq_ok] at h
      obtain ⟨s1, h1, h2⟩ := h
      simp at h2; subst h2
      obtain ⟨F, g, b1, c1⟩ := ih (Grammar.body k) (s := s.enter) (by simpa [PState.enter] using hle) h1
        (by simpa [PState.enter, PState.exit] using her)
      refine ⟨[.node k F], exit_grew (s := s) (s1 := s.enter) rfl rfl ⟨[], by simp [PState.enter]⟩ g ?_, ?_, ?_, trivial⟩
      · intro hk; subst hk
        cases n <;> simp [run, Grammar.body] at h1
      · simp [heightF, Tree.height, callDepth, b1]
      · refine ⟨fun hl => ?_, c1⟩
        have hp := g.pos
        rw [hl] at hp
        simp only [PState.enter, List.length_nil, Nat.add_zero] at hp
        have := hd (by simpa [PState.exit] using hp)
        simp only [callDepth, idleDepth] at this
        rw [b1]
        have ht : idleTable k ≤ 1 := by unfold idleTable; split <;> omega
        split at this <;> omega

mutual
theorem height_pruned (t : Tree) (h : t.low 2) : heightF t.pruned ≤ t.height ∧ t.height ≤ heightF t.pruned + 2 := by
  match t with
  | .tok _ => simp [Tree.pruned, heightF, Tree.height]
  | .node k cs =>
    simp only [Tree.low] at h
    have h1 := height_pruneF cs h.2
    have h2 := leaves_pruneF cs
    simp only [Tree.pruned, Tree.height]
    cases hp : pruneF cs with
    | nil =>
      rw [hp] at h2
      have := h.1 h2.symm
      simp only [heightF]
      omega
    | cons c cs' =>
      rw [hp] at h1
      simp only [heightF, Tree.height] at h1 ⊢
      omega
theorem height_pruneF (F : List Tree) (h : lowF 2 F) : heightF (pruneF F) ≤ heightF F ∧ heightF F ≤ heightF (pruneF F) + 2 := by
  match F with
  | [] => simp [pruneF, heightF]
  | t :: ts =>
    simp only [lowF] at h
    have h1 := height_pruned t h.1
    have h2 := height_pruneF ts h.2
    simp only [pruneF, heightF_append, heightF]
    omega
end

/-- the calls and the tree of an accepted file -/
theorem events_deep {evs : List Event} (h : events name toks .StoredDefinition = .ok (evs, [])) {t : Tree}
    (ht : buildTree toks evs = .ok t) :
    t.height ≤ callDepth name toks Grammar.body (parseFuel toks.length) (.call .StoredDefinition) PState.init ∧
    callDepth name toks Grammar.body (parseFuel toks.length) (.call .StoredDefinition) PState.init ≤ t.height + 2 ∧ t.Conforms := by
  obtain ⟨cs, g1, g2, g3⟩ := events_conform h
  unfold events at h
  rw [Res.bind_eq_ok] at h
  obtain ⟨s, h1, h2⟩ := h
  simp at h2
  obtain ⟨h2, h3⟩ := h2
  have hle : PState.init.pos ≤ toks.length := by simp [PState.init]
  cases hf : parseFuel toks.length with
  | zero => simp [parseFuel] at hf
  | succ n =>
    rw [hf] at h1
    have h4 := h1
    rw [run, Res.bind_eq_ok] at h4
    obtain ⟨s1, h4, h5⟩ := h4
    simp at h5
    have her : s1.errors.length ≤ PState.init.enter.errors.length := by
      rw [← h5] at h3
      simp [PState.exit] at h3
      simp [h3]
    obtain ⟨F, g, hh, hl⟩ := run_deep n (Grammar.body .StoredDefinition) (s := PState.init.enter) (by simpa [PState.enter] using hle) h4 her
    have hev : evs = (Tree.node .StoredDefinition F).evs := by
      rw [← h2, ← h5]
      simp [PState.exit, g.evs, PState.init, PState.enter, Tree.evs]
    have hlv : toks = leavesF F := by
      have hr := g.rest
      simp only [PState.init, PState.enter, List.drop_zero] at hr
      rw [g1] at hev
      rw [g2] at hr ⊢
      exact Open.evs_leaves hev hr
    have hb := buildTree_evs .StoredDefinition F
    rw [← hev, ← hlv, ht] at hb
    simp only [Res.ok.injEq] at hb
    have hp := height_pruneF F hl
    have hcs := buildTree_evs .StoredDefinition cs
    rw [← g1, ← g2, ht] at hcs
    simp only [Res.ok.injEq] at hcs
    rw [hb]
    simp only [callDepth, Tree.height, ← hh]
    rw [← hb, hcs]
    exact ⟨by omega, by omega, g3⟩

end

/-! ### The height of trees that conform to the grammar -/

/-- symbols behind which a level of nesting begins -/
def Sym.isOpening : Sym → Bool
  | .t k => [Tok.LParen, .LBracket, .LCurly, .If, .For, .While, .When].contains k
  | .n _ => false

theorem isOpening_sym (t : Tree) : t.isOpening = t.sym.isOpening := by cases t <;> rfl

/-- Does every word contain an opening token? -/
def RE.allOpen : RE → Bool
  | .none => true
  | .eps => false
  | .sym a => a.isOpening
  | .alt a b => a.allOpen && b.allOpen
  | .seq a b => a.allOpen || b.allOpen
  | .star _ => false

theorem allOpen_sound {r : RE} {u : List Sym} (h : Lang r u) : r.allOpen = true → u.any Sym.isOpening = true := by
  induction h with
  | eps => simp [RE.allOpen]
  | sym a => simp [RE.allOpen]
  | altL _ ih => intro h; simp only [RE.allOpen, Bool.and_eq_true] at h; exact ih h.1
  | altR _ ih => intro h; simp only [RE.allOpen, Bool.and_eq_true] at h; exact ih h.2
  | seq _ _ ih1 ih2 =>
    intro h
    simp only [RE.allOpen, Bool.or_eq_true] at h
    rw [List.any_append, Bool.or_eq_true]
    exact h.imp ih1 ih2
  | starNil => simp [RE.allOpen]
  | starCons => simp [RE.allOpen]

/-- Do all productions in the words that stand behind no opening token satisfy `p`? -/
def RE.early (p : SK → Bool) : RE → Bool
  | .none => true
  | .eps => true
  | .sym (.t _) => true
  | .sym (.n c) => p c
  | .alt a b => a.early p && b.early p
  | .seq a b => a.early p && (a.allOpen || b.early p)
  | .star a => a.early p

/-- the productions that stand behind no opening token satisfy `p` -/
def EarlyOk (p : SK → Bool) : List Sym → Prop
  | [] => True
  | .n c :: u => p c = true ∧ EarlyOk p u
  | .t k :: u => (Sym.t k).isOpening = true ∨ EarlyOk p u

theorem earlyOk_append {p : SK → Bool} : ∀ {u v : List Sym}, EarlyOk p u → (u.any Sym.isOpening = true ∨ EarlyOk p v) →
    EarlyOk p (u ++ v)
  | [], v, _, h => by simpa using h
  | .n c :: u, v, hu, h => ⟨hu.1, earlyOk_append hu.2 (by simpa [Sym.isOpening] using h)⟩
  | .t k :: u, v, hu, h => by
    rcases hu with hu | hu
    · exact .inl hu
    · rw [List.any_cons, Bool.or_eq_true, or_assoc] at h
      rcases h with h | h
      · exact .inl h
      · exact .inr (earlyOk_append hu h)

theorem early_sound {p : SK → Bool} {r : RE} {u : List Sym} (h : Lang r u) : r.early p = true → EarlyOk p u := by
  induction h with
  | eps => intro _; trivial
  | sym a => cases a with
    | t k => intro _; exact .inr trivial
    | n c => intro h; exact ⟨h, trivial⟩
  | altL _ ih => intro h; simp only [RE.early, Bool.and_eq_true] at h; exact ih h.1
  | altR _ ih => intro h; simp only [RE.early, Bool.and_eq_true] at h; exact ih h.2
  | seq l1 _ ih1 ih2 =>
    intro h
    simp only [RE.early, Bool.and_eq_true, Bool.or_eq_true] at h
    exact earlyOk_append (ih1 h.1) (h.2.imp (allOpen_sound l1) ih2)
  | starNil => intro _; trivial
  | starCons _ _ ih1 ih2 =>
    intro h
    exact earlyOk_append (ih1 h) (.inr (ih2 h))

/-- how high a production is without the productions inside of classes and behind opening tokens and in the rests of lists -/
def rankTable : SK → Nat
  | .ClassSpecifier => 23
  | .LongClassSpecifier => 22
  | .Composition | .ArgumentOrInheritanceModificationList | .ArgumentList => 21
  | .ElementList | .Argument => 20
  | .Element | .ElementModificationOrReplaceable | .ElementRedeclaration => 19
  | .ComponentClause | .ElementReplaceable => 18
  | .ComponentList | .ComponentClause1 | .FunctionArguments => 17
  | .ComponentDeclaration | .ComponentDeclaration1 | .FunctionArgumentsNonFirst => 16
  | .Declaration | .ElementModification | .NamedArguments => 15
  | .Modification | .EquationSection | .AlgorithmSection | .ForIndices | .ArrayArguments | .NamedArgument => 14
  | .ModificationExpression | .Equation | .Statement | .ForIndex | .ArrayArgumentsNonFirst | .FunctionArgument |
      .OutputExpressionList | .ExpressionList | .Subscript => 13
  | .Expression => 12
  | .SimpleExpression => 11
  | .LogicalExpression => 10
  | .LogicalTerm => 9
  | .LogicalFactor => 8
  | .Relation => 7
  | .ArithmeticExpression => 6
  | .EnumList | .ShortClassDefinition | .Term => 5
  | .ShortClassSpecifier | .EnumerationLiteral | .ImportClause | .Factor => 4
  | .ExternalFunctionCall | .ExtendsClause | .ConstrainingClause | .Primary | .ResultReference | .FunctionPartialApplication |
      .Description => 3
  | .StoredDefinition | .InheritanceModification | .TypeSpecifier | .ComponentReference | .AnnotationClause => 2
  | _ => 1
/-- is it the rest of a list, or of lower rank? -/
def stepOk (k c : SK) : Bool :=
  (k == c && [SK.FunctionArgumentsNonFirst, .ArrayArgumentsNonFirst, .NamedArguments].contains k) || rankTable c + 1 ≤ rankTable k

theorem ranks : ∀ k, k ≠ .ClassDefinition → (Gram.spec k).early (stepOk k) = true := by
  intro k; cases k <;> decide +kernel
theorem rank_range : ∀ k, 1 ≤ rankTable k ∧ rankTable k ≤ 23 := by
  intro k; cases k <;> decide +kernel

mutual
theorem height_along (t : Tree) (k : SK) (cs : List Tree) (ht : t = .node k cs) (h : t.Conforms) :
    t.height ≤ rankTable k + t.along 24 1 := by
  match t, ht with
  | .node k cs, rfl =>
    simp only [Tree.Conforms] at h
    have h1 := (rank_range k).1
    have := heightF_along cs k (k == .ClassDefinition) h.2 (by
      by_cases hk : k = .ClassDefinition
      · exact .inl (by simp [hk])
      · exact .inr (early_sound h.1 (ranks k hk)))
    simp only [Tree.height, Tree.along]
    omega
theorem heightF_along (F : List Tree) (k : SK) (inside : Bool) (h : ConformsF F)
    (hi : inside = true ∨ EarlyOk (stepOk k) (F.map Tree.sym)) : 1 + heightF F ≤ rankTable k + alongF 24 1 k inside F := by
  match F with
  | [] => have := (rank_range k).1; simp only [heightF, alongF]; omega
  | c :: cs =>
    simp only [ConformsF] at h
    have h1 := (rank_range k).1
    have h2 := heightF_along cs k (inside || c.isOpening) h.2 (by
      rcases hi with hi | hi
      · exact .inl (by simp [hi])
      · cases c with
        | node c ds => exact .inr hi.2
        | tok t =>
          rcases hi with hi | hi
          · exact .inl (by rw [isOpening_sym, show (Tree.tok t).sym = .t t.kind from rfl, hi]; simp)
          · exact .inr hi)
    have h3 : 1 + c.height ≤ rankTable k + ((if inside then 24 else if isRest k c then 1 else 0) + c.along 24 1) := by
      match c, h.1 with
      | .tok _, _ => simp only [Tree.height]; omega
      | .node c ds, h =>
        have h4 := height_along (.node c ds) c ds rfl h
        have h5 := (rank_range c).2
        rcases hi with hi | hi
        · simp only [hi, if_true]; omega
        · have h6 := hi.1
          simp only [stepOk, Bool.or_eq_true, decide_eq_true_eq] at h6
          split
          · omega
          · rcases h6 with h6 | h6
            · have h7 : isRest k (.node c ds) = true := h6
              simp only [Bool.and_eq_true, beq_iff_eq] at h6
              rw [if_pos h7, h6.1]
              omega
            · omega
    simp only [heightF, alongF]
    omega
end

mutual
theorem along_split (a : Nat) (t : Tree) : t.along a 1 ≤ a * t.along 1 0 + t.along 0 1 := by
  match t with
  | .tok _ => simp [Tree.along]
  | .node k cs => exact alongF_split a k (k == .ClassDefinition) cs
theorem alongF_split (a : Nat) (k : SK) (inside : Bool) (F : List Tree) :
    alongF a 1 k inside F ≤ a * alongF 1 0 k inside F + alongF 0 1 k inside F := by
  match F with
  | [] => simp [alongF]
  | c :: cs =>
    have h1 := along_split a c
    have h2 := alongF_split a k (inside || c.isOpening) cs
    simp only [alongF]
    have h3 : a * alongF 1 0 k (inside || c.isOpening) cs ≤
        a * max ((if inside then 1 else if isRest k c then 0 else 0) + c.along 1 0) (alongF 1 0 k (inside || c.isOpening) cs) :=
      Nat.mul_le_mul_left _ (Nat.le_max_right ..)
    have h4 : a * ((if inside then 1 else if isRest k c then 0 else 0) + c.along 1 0) ≤
        a * max ((if inside then 1 else if isRest k c then 0 else 0) + c.along 1 0) (alongF 1 0 k (inside || c.isOpening) cs) :=
      Nat.mul_le_mul_left _ (Nat.le_max_left ..)
    rw [Nat.mul_add] at h4
    split at h4 <;> (try split at h4) <;> simp_all <;> omega
end

end Mofmt
