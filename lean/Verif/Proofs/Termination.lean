import Verif.Proofs.ParserForest
import Verif.Model.Grammar
/-
The parser interpreter never runs out of fuel.

Every look-ahead costs a life and every advance consumes a token, so `M` decreases.  Between two such
steps only boundedly many nested calls can happen; `ht` computes the bound from the bodies.
-/
namespace Mofmt

/-- Does evaluating the condition surely look ahead? -/
def condLooks : Cond → Bool
  | .check _ | .checkAny _ | .nthIs _ _ | .consume _ => true
  | .eof => false
  | .not c => condLooks c
  | .and a _ => condLooks a
  | .or a _ => condLooks a

section
variable (L : SK → Bool) (H : SK → Nat)

/-- Does running the command surely look ahead or advance? -/
def looks : Cmd → Bool
  | .skip => false
  | .seq a b => looks a || looks b
  | .ite c a b => condLooks c || (looks a && looks b)
  | .while c _ => condLooks c
  | .eval c => condLooks c
  | .expect _ => true
  | .advance => true
  | .call k => L k
  | .advErr _ _ _ => true
  | .look _ => true
  | .ifk _ a b => looks a && looks b
  | .unreachable => true

/-- Depth of the evaluation of the command until the first look-ahead or advance. -/
def ht : Cmd → Nat
  | .seq a b => 1 + max (ht a) (if looks L a then 0 else ht b)
  | .ite c a b => 1 + if condLooks c then 0 else max (ht a) (ht b)
  | .while c a => 1 + if condLooks c then 0 else ht a
  | .call k => 1 + H k
  | .ifk _ a b => 1 + max (ht a) (ht b)
  | _ => 1

/-- All parts of the command are at most `B` deep, and loops look ahead. -/
def fits (B : Nat) : Cmd → Bool
  | .seq a b => ht L H (.seq a b) ≤ B && fits B a && fits B b
  | .ite c a b => ht L H (.ite c a b) ≤ B && fits B a && fits B b
  | .while c a => ht L H (.while c a) ≤ B && fits B a && (condLooks c || looks L a)
  | .ifk ks a b => ht L H (.ifk ks a b) ≤ B && fits B a && fits B b
  | c => ht L H c ≤ B
end

variable {toks : List Token} {name : Text} {body : SK → Cmd} {L : SK → Bool} {H : SK → Nat} {B : Nat}

/-- The decreasing measure. -/
def M (toks : List Token) (s : PState) : Nat := (toks.length - s.pos) * 101 + s.lifes

/-- Bounds that hold of every parser state. -/
def Ok (toks : List Token) (s : PState) : Prop := s.pos ≤ toks.length ∧ s.lifes ≤ 100

theorem nth_M {n : Nat} {s s' : PState} {k : Tok} (hs : Ok toks s)
    (h : s.nth toks n = .ok (k, s')) : Ok toks s' ∧ M toks s' < M toks s := by
  unfold PState.nth at h
  split at h
  · split at h <;> simp at h
  · simp at h
    obtain ⟨_, rfl⟩ := h
    unfold Ok at *
    simp only [M]
    omega

theorem advance_M {s s' : PState} (hs : Ok toks s) (h : s.advance toks = .ok s') :
    Ok toks s' ∧ M toks s' < M toks s := by
  unfold PState.advance PState.eof at h
  split at h
  · simp at h
  · rename_i hne
    simp at h
    subst h
    simp at hne
    unfold Ok at *
    simp only [M]
    omega

theorem error_M {s s' : PState} {msg : Text} (hs : Ok toks s) (h : s.error name toks msg = .ok s') :
    Ok toks s' ∧ M toks s' = M toks s := by
  obtain ⟨_, h1, h2, _⟩ := error_grew h
  simp only [Ok, M, h1, ← h2]
  exact ⟨hs, trivial⟩

theorem evalCond_M (c : Cond) : ∀ {s s' : PState} {b : Bool}, Ok toks s →
    evalCond toks c s = .ok (b, s') →
    Ok toks s' ∧ M toks s' ≤ M toks s ∧ (condLooks c = true → M toks s' < M toks s) := by
  induction c with
  | check k =>
    intro s s' b hs h
    simp only [evalCond, Res.bind_eq_ok] at h
    obtain ⟨⟨k', s1⟩, h1, h2⟩ := h
    simp at h2
    obtain ⟨_, rfl⟩ := h2
    have := nth_M hs h1
    exact ⟨this.1, by omega, fun _ => this.2⟩
  | checkAny ks =>
    intro s s' b hs h
    simp only [evalCond, Res.bind_eq_ok] at h
    obtain ⟨⟨k', s1⟩, h1, h2⟩ := h
    simp at h2
    obtain ⟨_, rfl⟩ := h2
    have := nth_M hs h1
    exact ⟨this.1, by omega, fun _ => this.2⟩
  | nthIs n k =>
    intro s s' b hs h
    simp only [evalCond, Res.bind_eq_ok] at h
    obtain ⟨⟨k', s1⟩, h1, h2⟩ := h
    simp at h2
    obtain ⟨_, rfl⟩ := h2
    have := nth_M hs h1
    exact ⟨this.1, by omega, fun _ => this.2⟩
  | consume k =>
    intro s s' b hs h
    simp only [evalCond, Res.bind_eq_ok] at h
    obtain ⟨⟨k', s1⟩, h1, h2⟩ := h
    have m1 := nth_M hs h1
    split at h2
    · simp only [Res.bind_eq_ok] at h2
      obtain ⟨s2, h6, h7⟩ := h2
      simp at h7
      obtain ⟨_, rfl⟩ := h7
      have m2 := advance_M m1.1 h6
      exact ⟨m2.1, by omega, fun _ => by omega⟩
    · simp at h2
      obtain ⟨_, rfl⟩ := h2
      exact ⟨m1.1, by omega, fun _ => m1.2⟩
  | eof =>
    intro s s' b hs h
    simp [evalCond] at h
    obtain ⟨_, rfl⟩ := h
    exact ⟨hs, Nat.le_refl _, by simp [condLooks]⟩
  | not c ih =>
    intro s s' b hs h
    simp only [evalCond, Res.bind_eq_ok] at h
    obtain ⟨⟨k', s1⟩, h1, h2⟩ := h
    simp at h2
    obtain ⟨_, rfl⟩ := h2
    exact ih hs h1
  | and a b iha ihb =>
    intro s s' t hs h
    simp only [evalCond, Res.bind_eq_ok] at h
    obtain ⟨⟨k', s1⟩, h1, h2⟩ := h
    have m1 := iha hs h1
    dsimp only at h2
    split at h2
    · have m2 := ihb m1.1 h2
      exact ⟨m2.1, by omega, fun h => by have := m1.2.2 h; omega⟩
    · simp at h2
      obtain ⟨_, rfl⟩ := h2
      exact m1
  | or a b iha ihb =>
    intro s s' t hs h
    simp only [evalCond, Res.bind_eq_ok] at h
    obtain ⟨⟨k', s1⟩, h1, h2⟩ := h
    have m1 := iha hs h1
    dsimp only at h2
    split at h2
    · simp at h2
      obtain ⟨_, rfl⟩ := h2
      exact m1
    · have m2 := ihb m1.1 h2
      exact ⟨m2.1, by omega, fun h => by have := m1.2.2 h; omega⟩

theorem run_M (hL : ∀ k, L k = true → looks L (body k) = true) :
    ∀ (n : Nat) (c : Cmd) {s s' : PState}, Ok toks s → run name toks body n c s = .ok s' →
    Ok toks s' ∧ M toks s' ≤ M toks s ∧ (looks L c = true → M toks s' < M toks s) := by
  intro n
  induction n with
  | zero => intro c s s' _ h; simp [run] at h
  | succ n ih =>
    intro c s s' hs h
    cases c with
    | skip => simp [run] at h; subst h; exact ⟨hs, Nat.le_refl _, by simp [looks]⟩
    | seq a b =>
      simp only [run, Res.bind_eq_ok] at h
      obtain ⟨s1, h1, h2⟩ := h
      have m1 := ih a hs h1
      have m2 := ih b m1.1 h2
      refine ⟨m2.1, by omega, fun h => ?_⟩
      simp only [looks, Bool.or_eq_true] at h
      rcases h with h | h
      · have := m1.2.2 h; omega
      · have := m2.2.2 h; omega
    | ite c a b =>
      simp only [run, Res.bind_eq_ok] at h
      obtain ⟨⟨t, s1⟩, h1, h2⟩ := h
      have m1 := evalCond_M c hs h1
      simp only [looks, Bool.or_eq_true, Bool.and_eq_true]
      dsimp only at h2
      split at h2
      · have m2 := ih a m1.1 h2
        refine ⟨m2.1, by omega, fun h => ?_⟩
        rcases h with h | h
        · have := m1.2.2 h; omega
        · have := m2.2.2 h.1; omega
      · have m2 := ih b m1.1 h2
        refine ⟨m2.1, by omega, fun h => ?_⟩
        rcases h with h | h
        · have := m1.2.2 h; omega
        · have := m2.2.2 h.2; omega
    | «while» c a =>
      simp only [run, Res.bind_eq_ok] at h
      obtain ⟨⟨t, s1⟩, h1, h2⟩ := h
      have m1 := evalCond_M c hs h1
      dsimp only at h2
      split at h2
      · simp only [Res.bind_eq_ok] at h2
        obtain ⟨s2, h3, h4⟩ := h2
        have m2 := ih a m1.1 h3
        have m3 := ih _ m2.1 h4
        exact ⟨m3.1, by omega, fun h => by have := m1.2.2 h; omega⟩
      · simp at h2; subst h2
        exact m1
    | eval c =>
      simp only [run, Res.bind_eq_ok] at h
      obtain ⟨⟨t, s1⟩, h1, h2⟩ := h
      simp at h2; subst h2
      exact evalCond_M c hs h1
    | expect k =>
      simp only [run, Res.bind_eq_ok] at h
      obtain ⟨⟨t, s1⟩, h1, h2⟩ := h
      have m1 := evalCond_M _ hs h1
      have m1' := m1.2.2 rfl
      dsimp only at h2
      split at h2
      · simp at h2; subst h2; exact ⟨m1.1, m1.2.1, fun _ => m1'⟩
      · simp only [Res.bind_eq_ok] at h2
        obtain ⟨⟨k', s2⟩, h3, h4⟩ := h2
        have m2 := nth_M m1.1 h3
        have m3 := error_M m2.1 h4
        exact ⟨m3.1, by omega, fun _ => by omega⟩
    | advance =>
      simp only [run] at h
      have := advance_M hs h
      exact ⟨this.1, by omega, fun _ => this.2⟩
    | call k =>
      simp only [run, Res.bind_eq_ok] at h
      obtain ⟨s1, h1, h2⟩ := h
      simp at h2; subst h2
      have m := ih (body k) (s := s.enter) hs h1
      exact ⟨m.1, m.2.1, fun h => m.2.2 (hL k h)⟩
    | advErr m pre post =>
      simp only [run, Res.bind_eq_ok] at h
      obtain ⟨⟨k', s1⟩, h1, s2, h2, s3, h3, h4⟩ := h
      simp at h4; subst h4
      have m1 := nth_M hs h1
      have m2 := error_M m1.1 h2
      have m3 : Ok toks s3 ∧ M toks s3 < M toks s2 := advance_M (s := s2.enter) m2.1 h3
      have e : M toks (s3.exit s2.evs.length .Error) = M toks s3 := rfl
      exact ⟨m3.1, by omega, fun _ => by omega⟩
    | look m =>
      simp only [run, Res.bind_eq_ok] at h
      obtain ⟨⟨k', s1⟩, h1, h2⟩ := h
      simp at h2; subst h2
      have := nth_M hs h1
      exact ⟨this.1, by omega, fun _ => this.2⟩
    | ifk ks a b =>
      simp only [run] at h
      simp only [looks, Bool.and_eq_true]
      split at h
      · have m := ih a hs h
        exact ⟨m.1, m.2.1, fun h => m.2.2 h.1⟩
      · have m := ih b hs h
        exact ⟨m.1, m.2.1, fun h => m.2.2 h.2⟩
    | unreachable => simp [run] at h

theorem nth_ne_fuel {n : Nat} {s : PState} : s.nth toks n ≠ .fuel := by
  unfold PState.nth
  split
  · split <;> simp
  · simp

theorem advance_ne_fuel {s : PState} : s.advance toks ≠ .fuel := by
  unfold PState.advance; split <;> simp

theorem error_ne_fuel {s : PState} {msg : Text} : s.error name toks msg ≠ .fuel := by
  unfold PState.error
  split
  · simp
  · split <;> simp

theorem evalCond_ne_fuel (c : Cond) : ∀ (s : PState), evalCond toks c s ≠ .fuel := by
  induction c with
  | check | checkAny | nthIs =>
    intro s h
    simp only [evalCond, Res.bind_eq_fuel] at h
    rcases h with h | ⟨_, _, h⟩
    · exact nth_ne_fuel h
    · simp at h
  | consume k =>
    intro s h
    simp only [evalCond, Res.bind_eq_fuel] at h
    rcases h with h | ⟨_, _, h⟩
    · exact nth_ne_fuel h
    · split at h
      · simp only [Res.bind_eq_fuel] at h
        rcases h with h | ⟨_, _, h⟩
        · exact advance_ne_fuel h
        · simp at h
      · simp at h
  | eof => intro s h; simp [evalCond] at h
  | not c ih =>
    intro s h
    simp only [evalCond, Res.bind_eq_fuel] at h
    rcases h with h | ⟨_, _, h⟩
    · exact ih _ h
    · simp at h
  | and a b iha ihb | or a b iha ihb =>
    intro s h
    simp only [evalCond, Res.bind_eq_fuel] at h
    rcases h with h | ⟨_, _, h⟩
    · exact iha _ h
    · split at h
      · first | exact ihb _ h | simp at h
      · first | exact ihb _ h | simp at h

theorem ht_le (c : Cmd) (h : fits L H B c = true) : ht L H c ≤ B := by
  cases c <;> simp_all [fits]

theorem run_ne_fuel (hL : ∀ k, L k = true → looks L (body k) = true)
    (hH : ∀ k, ht L H (body k) ≤ H k) (hB : ∀ k, fits L H B (body k) = true) :
    ∀ (n : Nat) (c : Cmd) {s : PState}, Ok toks s → fits L H B c = true →
    M toks s * B + ht L H c ≤ n → run name toks body n c s ≠ .fuel := by
  have key : ∀ {m m' : Nat}, m' < m → m' * B + B ≤ m * B := fun {m m'} h => by
    rw [← Nat.succ_mul]; exact Nat.mul_le_mul_right B h
  have mono : ∀ {m m' : Nat}, m' ≤ m → m' * B ≤ m * B := fun {m m'} h => Nat.mul_le_mul_right B h
  intro n
  induction n with
  | zero =>
    intro c s _ _ h
    exfalso
    have : 0 < ht L H c := by cases c <;> simp [ht] <;> omega
    omega
  | succ n ih =>
    intro c s hs hf hn h
    cases c with
    | skip => simp [run] at h
    | seq a b =>
      simp only [run, Res.bind_eq_fuel] at h
      simp only [fits, Bool.and_eq_true] at hf
      simp only [ht] at hn
      rcases h with h | ⟨s1, h1, h2⟩
      · exact ih a hs hf.1.2 (by omega) h
      · have m1 := run_M hL n a hs h1
        refine ih b m1.1 hf.2 ?_ h2
        have hb := ht_le b hf.2
        by_cases hl : looks L a = true
        · have := key (m1.2.2 hl); omega
        · have := mono m1.2.1
          simp [hl] at hn
          omega
    | ite c a b =>
      simp only [run, Res.bind_eq_fuel] at h
      simp only [fits, Bool.and_eq_true] at hf
      simp only [ht] at hn
      rcases h with h | ⟨⟨t, s1⟩, h1, h2⟩
      · exact evalCond_ne_fuel _ _ h
      · have m1 := evalCond_M c hs h1
        have ha := ht_le a hf.1.2
        have hb := ht_le b hf.2
        have : M toks s1 * B + max (ht L H a) (ht L H b) ≤ n := by
          by_cases hl : condLooks c = true
          · have := key (m1.2.2 hl); omega
          · have := mono m1.2.1
            simp [hl] at hn
            omega
        dsimp only at h2
        split at h2
        · exact ih a m1.1 hf.1.2 (by omega) h2
        · exact ih b m1.1 hf.2 (by omega) h2
    | «while» c a =>
      simp only [run, Res.bind_eq_fuel] at h
      have hw := ht_le _ hf
      have hf' := hf
      simp only [fits, Bool.and_eq_true, Bool.or_eq_true] at hf
      simp only [ht] at hn
      rcases h with h | ⟨⟨t, s1⟩, h1, h2⟩
      · exact evalCond_ne_fuel _ _ h
      · have m1 := evalCond_M c hs h1
        have ha := ht_le a hf.1.2
        dsimp only at h2
        split at h2
        · simp only [Res.bind_eq_fuel] at h2
          rcases h2 with h2 | ⟨s2, h3, h4⟩
          · refine ih a m1.1 hf.1.2 ?_ h2
            by_cases hl : condLooks c = true
            · have := key (m1.2.2 hl); omega
            · have := mono m1.2.1
              simp [hl] at hn
              omega
          · have m2 := run_M hL n a m1.1 h3
            refine ih _ m2.1 hf' ?_ h4
            have : M toks s2 < M toks s := by
              rcases hf.2 with hl | hl
              · have := m1.2.2 hl; omega
              · have := m2.2.2 hl; omega
            have := key this
            omega
        · simp at h2
    | eval c =>
      simp only [run, Res.bind_eq_fuel] at h
      rcases h with h | ⟨_, _, h⟩
      · exact evalCond_ne_fuel _ _ h
      · simp at h
    | expect k =>
      simp only [run, Res.bind_eq_fuel] at h
      rcases h with h | ⟨⟨t, s1⟩, h1, h2⟩
      · exact evalCond_ne_fuel _ _ h
      · dsimp only at h2
        split at h2
        · simp at h2
        · simp only [Res.bind_eq_fuel] at h2
          rcases h2 with h | ⟨_, _, h⟩
          · exact nth_ne_fuel h
          · exact error_ne_fuel h
    | advance => exact advance_ne_fuel h
    | call k =>
      simp only [run, Res.bind_eq_fuel] at h
      simp only [ht] at hn
      rcases h with h | ⟨_, _, h⟩
      · have := hH k
        exact ih (body k) (s := s.enter) hs (hB k)
          (by have e : M toks s.enter = M toks s := rfl; rw [e]; omega) h
      · simp at h
    | advErr m pre post =>
      simp only [run, Res.bind_eq_fuel] at h
      rcases h with h | ⟨_, _, h | ⟨_, _, h | ⟨_, _, h⟩⟩⟩
      · exact nth_ne_fuel h
      · exact error_ne_fuel h
      · exact advance_ne_fuel h
      · simp at h
    | look m =>
      simp only [run, Res.bind_eq_fuel] at h
      rcases h with h | ⟨_, _, h⟩
      · exact nth_ne_fuel h
      · simp at h
    | ifk ks a b =>
      simp only [run] at h
      simp only [fits, Bool.and_eq_true] at hf
      simp only [ht] at hn
      split at h
      · exact ih a hs hf.1.2 (by omega) h
      · exact ih b hs hf.2 (by omega) h
    | unreachable => simp [run] at h

end Mofmt
