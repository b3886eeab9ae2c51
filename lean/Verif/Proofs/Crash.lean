import Verif.Model.Crash
import Verif.Proofs.Early
/-
Two token lists that agree up to a place make the parser panic at the same place, or behind it.
-/
namespace Mofmt
open Via

variable {name name' : Text} {toks toks' : List Token} {m : Nat}

theorem Stop.res_of {α : Type} (s : PState) (r : Res α) : (Stop.of s r).res = r := by
  cases r <;> rfl

theorem Stop.res_bind {α β : Type} (x : Stop α) (f : α → Stop β) : (x.bind f).res = x.res.bind fun a => (f a).res := by
  cases x <;> rfl

theorem condC_res (toks : List Token) (c : Cond) : ∀ s, (condC toks c s).res = evalCond toks c s := by
  induction c with
  | check k => intro s; simp only [condC, evalCond, Stop.res_bind, Stop.res_of]; rfl
  | checkAny k => intro s; simp only [condC, evalCond, Stop.res_bind, Stop.res_of]; rfl
  | nthIs n k => intro s; simp only [condC, evalCond, Stop.res_bind, Stop.res_of]; rfl
  | consume k =>
    intro s
    simp only [condC, evalCond, Stop.res_bind, Stop.res_of]
    congr 1; funext x
    split
    · simp only [Stop.res_bind, Stop.res_of]; rfl
    · rfl
  | eof => intro s; rfl
  | not c ih => intro s; simp only [condC, evalCond, Stop.res_bind, ih]; rfl
  | and a b iha ihb =>
    intro s
    simp only [condC, evalCond, Stop.res_bind, iha]
    congr 1; funext x
    split
    · exact ihb _
    · rfl
  | or a b iha ihb =>
    intro s
    simp only [condC, evalCond, Stop.res_bind, iha]
    congr 1; funext x
    split
    · rfl
    · exact ihb _

/-- the interpreter that keeps the state at a panic is otherwise the same -/
theorem runC_res (name : Text) (toks : List Token) (body : SK → Cmd) : ∀ (n : Nat) (c : Cmd) (s : PState),
    (runC name toks body n c s).res = run name toks body n c s := by
  intro n
  induction n with
  | zero => intro c s; rfl
  | succ n ih =>
    intro c s
    cases c with
    | skip => rfl
    | seq a b => simp only [runC, run, Stop.res_bind, ih]
    | ite c a b =>
      simp only [runC, run, Stop.res_bind, condC_res]
      congr 1; funext x
      split <;> exact ih ..
    | «while» c a =>
      simp only [runC, run, Stop.res_bind, condC_res]
      congr 1; funext x
      split
      · simp only [Stop.res_bind, ih]
      · rfl
    | eval c => simp only [runC, run, Stop.res_bind, condC_res]; rfl
    | expect k =>
      simp only [runC, run, Stop.res_bind, condC_res]
      congr 1; funext x
      split
      · rfl
      · simp only [Stop.res_bind, Stop.res_of]
    | advance => simp only [runC, run, Stop.res_of]
    | call k => simp only [runC, run, Stop.res_bind, ih]; rfl
    | advErr m pre post =>
      simp only [runC, run, Stop.res_bind, Stop.res_of]
      rfl
    | look m => simp only [runC, run, Stop.res_bind, Stop.res_of]; rfl
    | ifk ks a b =>
      simp only [runC, run]
      split <;> exact ih ..
    | unreachable => rfl

/-! ### The position never decreases -/

/-- the outcome is not before the position -/
def Stop.From (p : Nat) (π : α → PState) : Stop α → Prop
  | .ok a => p ≤ (π a).pos
  | .crash s _ => p ≤ s.pos
  | .fuel => True

theorem Stop.From.bind {α β : Type} {p : Nat} {π : α → PState} {ρ : β → PState} {x : Stop α} {f : α → Stop β} (h : x.From p π)
    (hf : ∀ a, (f a).From (π a).pos ρ) : (x.bind f).From p ρ := by
  cases x with
  | ok a =>
    have := hf a
    simp only [Stop.bind]
    simp only [Stop.From] at h
    revert this
    cases f a <;> simp only [Stop.From] <;> intro this <;> first | trivial | omega
  | crash s q => exact h
  | fuel => trivial

theorem nth_from (toks : List Token) (n : Nat) (s : PState) : (Stop.of s (s.nth toks n)).From s.pos (·.2) := by
  unfold PState.nth
  split
  · split <;> exact Nat.le_refl _
  · exact Nat.le_refl _

theorem advance_from (toks : List Token) (s : PState) : (Stop.of s (s.advance toks)).From s.pos id := by
  unfold PState.advance
  split
  · exact Nat.le_refl _
  · exact Nat.le_succ _

theorem error_from (name : Text) (toks : List Token) (msg : Text) (s : PState) :
    (Stop.of s (s.error name toks msg)).From s.pos id := by
  unfold PState.error
  split
  · exact Nat.le_refl _
  · split <;> exact Nat.le_refl _

theorem condC_from (toks : List Token) (c : Cond) : ∀ s : PState, (condC toks c s).From s.pos (·.2) := by
  induction c with
  | check k => intro s; exact (nth_from ..).bind fun _ => Nat.le_refl _
  | checkAny k => intro s; exact (nth_from ..).bind fun _ => Nat.le_refl _
  | nthIs n k => intro s; exact (nth_from ..).bind fun _ => Nat.le_refl _
  | consume k =>
    intro s
    refine (nth_from ..).bind fun x => ?_
    dsimp only
    split
    · exact (advance_from ..).bind fun _ => Nat.le_refl _
    · exact Nat.le_refl _
  | eof => intro s; exact Nat.le_refl _
  | not c ih => intro s; exact (ih s).bind fun _ => Nat.le_refl _
  | and a b iha ihb =>
    intro s
    refine (iha s).bind fun x => ?_
    dsimp only
    split
    · exact ihb _
    · exact Nat.le_refl _
  | or a b iha ihb =>
    intro s
    refine (iha s).bind fun x => ?_
    dsimp only
    split
    · exact Nat.le_refl _
    · exact ihb _

theorem runC_from (name : Text) (toks : List Token) (body : SK → Cmd) : ∀ (n : Nat) (c : Cmd) (s : PState),
    (runC name toks body n c s).From s.pos id := by
  intro n
  induction n with
  | zero => intro c s; trivial
  | succ n ih =>
    intro c s
    cases c with
    | skip => exact Nat.le_refl _
    | seq a b => exact (ih a s).bind fun t => ih b t
    | ite c a b =>
      refine (condC_from toks c s).bind fun x => ?_
      dsimp only
      split <;> exact ih ..
    | «while» c a =>
      refine (condC_from toks c s).bind fun x => ?_
      dsimp only
      split
      · exact (ih ..).bind fun t => ih _ t
      · exact Nat.le_refl _
    | eval c => exact (condC_from toks c s).bind fun _ => Nat.le_refl _
    | expect k =>
      refine (condC_from toks (.consume k) s).bind fun x => ?_
      dsimp only
      split
      · exact Nat.le_refl _
      · exact (nth_from ..).bind fun x => error_from ..
    | advance => exact advance_from ..
    | call k => exact (ih _ s.enter).bind (p := s.pos) fun t => Nat.le_refl t.pos
    | advErr m pre post =>
      refine (nth_from ..).bind fun x => (error_from ..).bind fun t => ?_
      exact (advance_from toks t.enter).bind (p := t.pos) fun u => Nat.le_refl u.pos
    | look m => exact (nth_from ..).bind fun _ => Nat.le_refl _
    | ifk ks a b =>
      simp only [runC]
      split <;> exact ih ..
    | unreachable => exact Nat.le_refl _

/-! ### The position is one of the file -/

/-- the outcome is in the file, and the parser does not get stuck in an empty file -/
def Stop.Inside (toks : List Token) (π : α → PState) : Stop α → Prop
  | .ok a => (π a).pos ≤ toks.length
  | .crash s p => s.pos ≤ toks.length ∧ (p = .stuck → toks ≠ [])
  | .fuel => True

theorem Stop.Inside.bind {α β : Type} {π : α → PState} {ρ : β → PState} {x : Stop α} {f : α → Stop β} (h : x.Inside toks π)
    (hf : ∀ a, (π a).pos ≤ toks.length → (f a).Inside toks ρ) : (x.bind f).Inside toks ρ := by
  cases x with
  | ok a => exact hf a h
  | crash s q => exact h
  | fuel => trivial

theorem nth_inside (n : Nat) (s : PState) (h : s.pos ≤ toks.length) : (Stop.of s (s.nth toks n)).Inside toks (·.2) := by
  unfold PState.nth
  split
  · split
    · exact ⟨h, nofun⟩
    · refine ⟨h, fun _ => ?_⟩
      rintro rfl
      simp_all
  · exact h

theorem advance_inside (s : PState) (h : s.pos ≤ toks.length) : (Stop.of s (s.advance toks)).Inside toks id := by
  unfold PState.advance PState.eof
  split
  · exact ⟨h, nofun⟩
  · rename_i hp
    simp only [beq_iff_eq] at hp
    exact (show s.pos + 1 ≤ toks.length by omega)

theorem error_inside (msg : Text) (s : PState) (h : s.pos ≤ toks.length) : (Stop.of s (s.error name toks msg)).Inside toks id := by
  unfold PState.error
  split
  · exact h
  · split
    · exact h
    · exact ⟨h, nofun⟩

theorem condC_inside (c : Cond) : ∀ s : PState, s.pos ≤ toks.length → (condC toks c s).Inside toks (·.2) := by
  induction c with
  | check k => intro s h; exact (nth_inside _ s h).bind fun _ h => h
  | checkAny k => intro s h; exact (nth_inside _ s h).bind fun _ h => h
  | nthIs n k => intro s h; exact (nth_inside _ s h).bind fun _ h => h
  | consume k =>
    intro s h
    refine (nth_inside _ s h).bind fun x h => ?_
    dsimp only
    split
    · exact (advance_inside _ h).bind fun _ h => h
    · exact h
  | eof => intro s h; exact h
  | not c ih => intro s h; exact (ih s h).bind fun _ h => h
  | and a b iha ihb =>
    intro s h
    refine (iha s h).bind fun x h => ?_
    dsimp only
    split
    · exact ihb _ h
    · exact h
  | or a b iha ihb =>
    intro s h
    refine (iha s h).bind fun x h => ?_
    dsimp only
    split
    · exact h
    · exact ihb _ h

theorem runC_inside (body : SK → Cmd) : ∀ (n : Nat) (c : Cmd) (s : PState), s.pos ≤ toks.length →
    (runC name toks body n c s).Inside toks id := by
  intro n
  induction n with
  | zero => intro c s _; trivial
  | succ n ih =>
    intro c s h
    cases c with
    | skip => exact h
    | seq a b => exact (ih a s h).bind fun t h => ih b t h
    | ite c a b =>
      refine (condC_inside c s h).bind fun x h => ?_
      dsimp only
      split <;> exact ih _ _ h
    | «while» c a =>
      refine (condC_inside c s h).bind fun x h => ?_
      dsimp only
      split
      · exact (ih _ _ h).bind fun t h => ih _ t h
      · exact h
    | eval c => exact (condC_inside c s h).bind fun _ h => h
    | expect k =>
      refine (condC_inside (.consume k) s h).bind fun x h => ?_
      dsimp only
      split
      · exact h
      · exact (nth_inside _ _ h).bind fun x h => error_inside _ _ h
    | advance => exact advance_inside s h
    | call k => exact (ih _ s.enter h).bind fun t h => h
    | advErr m pre post =>
      exact (nth_inside _ s h).bind fun x h => (error_inside _ _ h).bind fun t h =>
        (advance_inside t.enter h).bind fun u h => h
    | look m => exact (nth_inside _ s h).bind fun _ h => h
    | ifk ks a b =>
      simp only [runC]
      split <;> exact ih _ _ h
    | unreachable => exact ⟨h, nofun⟩

/-! ### Two runs -/

/-- the same for all that follows, including the patience of the parser -/
def SamePlace (s s' : PState) : Prop := s'.pos = s.pos ∧ s'.last = s.last ∧ s'.lifes = s.lifes

/-- both outcomes are alike, or the first one is not before the last two tokens of the common beginning -/
def SameRun (m : Nat) (π : α → PState) (R : α → α → Prop) : Stop α → Stop α → Prop
  | .ok a, x => m ≤ (π a).pos + 2 ∨ ∃ a', x = .ok a' ∧ R a a'
  | .crash s p, x => m ≤ s.pos + 2 ∨ ∃ s', x = .crash s' p
  | .fuel, _ => True

theorem SameRun.bind {α β : Type} {π : α → PState} {ρ : β → PState} {R : α → α → Prop} {Q : β → β → Prop} {x x' : Stop α}
    {f f' : α → Stop β} (h : SameRun m π R x x') (hf : ∀ a a', R a a' → SameRun m ρ Q (f a) (f' a')) (hm : ∀ a, (f a).From (π a).pos ρ) :
    SameRun m ρ Q (x.bind f) (x'.bind f') := by
  cases x with
  | ok a =>
    rcases h with h | ⟨a', rfl, h⟩
    · have := hm a
      simp only [Stop.bind]
      revert this
      cases f a with
      | ok b => intro h'; simp only [Stop.From] at h'; exact .inl (by omega)
      | crash s p => intro h'; simp only [Stop.From] at h'; exact .inl (by omega)
      | fuel => intro _; trivial
    · exact hf a a' h
  | crash s p =>
    rcases h with h | ⟨s', rfl⟩
    · exact .inl h
    · exact .inr ⟨s', rfl⟩
  | fuel => trivial

/-- the condition looks at most two tokens ahead -/
def condTwo : Cond → Bool
  | .nthIs n _ => n ≤ 2
  | .not c => condTwo c
  | .and a b | .or a b => condTwo a && condTwo b
  | _ => true

def two : Cmd → Bool
  | .seq a b => two a && two b
  | .ite c a b => condTwo c && two a && two b
  | .while c a => condTwo c && two a
  | .eval c => condTwo c
  | .advErr n _ _ | .look n => n ≤ 2
  | .ifk _ a b => two a && two b
  | _ => true

theorem two_body (k : SK) : two (Grammar.body k) = true := by
  cases k <;> decide +kernel

/-- the second components are alike, and the first ones are equal -/
def SameBy {α : Type} (a a' : α × PState) : Prop := a'.1 = a.1 ∧ SamePlace a.2 a'.2

theorem nth_sim (ha : Agree toks toks' m) {n : Nat} (hn : n ≤ 2) {s s' : PState} (hs : SamePlace s s') :
    SameRun m (·.2) SameBy (Stop.of s (s.nth toks n)) (Stop.of s' (s'.nth toks' n)) := by
  obtain ⟨h1, h2, h3⟩ := hs
  unfold PState.nth
  rw [h3, h1]
  have h4 := ha.le
  have h5 := ha.le'
  by_cases hm : m ≤ s.pos + 2
  · split
    · split <;> exact .inl hm
    · exact .inl hm
  · have e := ha.eq (s.pos + n) (by omega)
    have n1 : toks.isEmpty = false := by cases toks <;> simp_all
    have n2 : toks'.isEmpty = false := by cases toks' <;> simp_all
    rw [n1, n2, e]
    split
    · exact .inr ⟨s', rfl⟩
    · exact .inr ⟨_, rfl, rfl, rfl, rfl, rfl⟩

theorem advance_sim (ha : Agree toks toks' m) {s s' : PState} (hs : SamePlace s s') :
    SameRun m id SamePlace (Stop.of s (s.advance toks)) (Stop.of s' (s'.advance toks')) := by
  obtain ⟨h1, h2, h3⟩ := hs
  have h4 := ha.le
  have h5 := ha.le'
  unfold PState.advance PState.eof
  by_cases hm : m ≤ s.pos + 2
  · split
    · exact .inl hm
    · exact .inl (show m ≤ s.pos + 1 + 2 by omega)
  · have n1 : (s.pos == toks.length) = false := by simp; omega
    have n2 : (s'.pos == toks'.length) = false := by simp; omega
    rw [n1, n2]
    exact .inr ⟨_, rfl, by simp [h1], h2, rfl⟩

theorem error_sim (ha : Agree toks toks' m) {msg msg' : Text} {s s' : PState} (hs : SamePlace s s') :
    SameRun m id SamePlace (Stop.of s (s.error name toks msg)) (Stop.of s' (s'.error name' toks' msg')) := by
  obtain ⟨h1, h2, h3⟩ := hs
  have h4 := ha.le
  have h5 := ha.le'
  unfold PState.error
  by_cases hm : m ≤ s.pos + 2
  · split
    · exact .inl hm
    · split <;> exact .inl hm
  · rw [List.getElem?_eq_getElem (show s.pos < toks.length by omega),
      List.getElem?_eq_getElem (show s'.pos < toks'.length by omega)]
    exact .inr ⟨_, rfl, h1, h2, h3⟩

theorem ok_sim {α : Type} {π : α → PState} {R : α → α → Prop} {a a' : α} (h : R a a') : SameRun m π R (.ok a) (.ok a') :=
  .inr ⟨a', rfl, h⟩

theorem condC_sim (ha : Agree toks toks' m) (c : Cond) : ∀ {s s' : PState}, condTwo c = true → SamePlace s s' →
    SameRun m (·.2) SameBy (condC toks c s) (condC toks' c s') := by
  induction c with
  | check k =>
    intro s s' _ hs
    exact (nth_sim ha (by omega) hs).bind (fun a a' h => ok_sim ⟨by simp [h.1], h.2⟩) fun _ => Nat.le_refl _
  | checkAny k =>
    intro s s' _ hs
    exact (nth_sim ha (by omega) hs).bind (fun a a' h => ok_sim ⟨by simp [h.1], h.2⟩) fun _ => Nat.le_refl _
  | nthIs n k =>
    intro s s' hc hs
    exact (nth_sim ha (by simpa [condTwo] using hc) hs).bind (fun a a' h => ok_sim ⟨by simp [h.1], h.2⟩) fun _ => Nat.le_refl _
  | consume k =>
    intro s s' _ hs
    refine (nth_sim ha (by omega) hs).bind (fun a a' h => ?_) fun x => ?_
    · dsimp only
      rw [h.1]
      split
      · exact (advance_sim ha h.2).bind (fun a a' h => ok_sim ⟨rfl, h⟩) fun _ => Nat.le_refl _
      · exact ok_sim ⟨rfl, h.2⟩
    · dsimp only
      split
      · exact (advance_from ..).bind fun _ => Nat.le_refl _
      · exact Nat.le_refl _
  | eof =>
    intro s s' _ hs
    simp only [condC, PState.eof]
    have h4 := ha.le
    have h5 := ha.le'
    have h1 := hs.1
    by_cases hm : m ≤ s.pos + 2
    · exact .inl hm
    · have n1 : (s.pos == toks.length) = false := by simp; omega
      have n2 : (s'.pos == toks'.length) = false := by simp; omega
      rw [n1, n2]
      exact ok_sim ⟨rfl, hs⟩
  | not c ih =>
    intro s s' hc hs
    exact (ih hc hs).bind (fun a a' h => ok_sim ⟨by simp [h.1], h.2⟩) fun _ => Nat.le_refl _
  | and a b iha ihb =>
    intro s s' hc hs
    simp only [condTwo, Bool.and_eq_true] at hc
    refine (iha hc.1 hs).bind (fun a a' h => ?_) fun x => ?_
    · dsimp only
      rw [h.1]
      split
      · exact ihb hc.2 h.2
      · exact ok_sim ⟨rfl, h.2⟩
    · dsimp only
      split
      · exact condC_from ..
      · exact Nat.le_refl _
  | or a b iha ihb =>
    intro s s' hc hs
    simp only [condTwo, Bool.and_eq_true] at hc
    refine (iha hc.1 hs).bind (fun a a' h => ?_) fun x => ?_
    · dsimp only
      rw [h.1]
      split
      · exact ok_sim ⟨rfl, h.2⟩
      · exact ihb hc.2 h.2
    · dsimp only
      split
      · exact Nat.le_refl _
      · exact condC_from ..

theorem runC_sim (ha : Agree toks toks' m) : ∀ (n n' : Nat) (c : Cmd) {s s' : PState}, n ≤ n' → two c = true → SamePlace s s' →
    SameRun m id SamePlace (runC name toks Grammar.body n c s) (runC name' toks' Grammar.body n' c s') := by
  intro n
  induction n with
  | zero => intro n' c s s' _ _ _; trivial
  | succ n ih' =>
    intro n' c s s' hn hc hs
    obtain ⟨n', rfl⟩ : ∃ k, n' = k + 1 := ⟨n' - 1, by omega⟩
    have ih := fun (c : Cmd) {s s' : PState} => ih' n' c (s := s) (s' := s') (by omega)
    cases c with
    | skip => exact ok_sim hs
    | seq a b =>
      simp only [two, Bool.and_eq_true] at hc
      exact (ih a hc.1 hs).bind (fun t t' h => ih b hc.2 h) fun t => runC_from ..
    | ite c a b =>
      simp only [two, Bool.and_eq_true] at hc
      refine (condC_sim ha c hc.1.1 hs).bind (fun x x' h => ?_) fun x => ?_
      · dsimp only
        rw [h.1]
        split
        · exact ih a hc.1.2 h.2
        · exact ih b hc.2 h.2
      · dsimp only
        split <;> exact runC_from ..
    | «while» c a =>
      have hc0 := hc
      simp only [two, Bool.and_eq_true] at hc
      refine (condC_sim ha c hc.1 hs).bind (fun x x' h => ?_) fun x => ?_
      · dsimp only
        rw [h.1]
        split
        · exact (ih a hc.2 h.2).bind (fun t t' h => ih _ hc0 h) fun t => runC_from ..
        · exact ok_sim h.2
      · dsimp only
        split
        · exact (runC_from ..).bind fun t => runC_from ..
        · exact Nat.le_refl _
    | eval c => exact (condC_sim ha c hc hs).bind (fun x x' h => ok_sim h.2) fun _ => Nat.le_refl _
    | expect k =>
      refine (condC_sim ha (.consume k) rfl hs).bind (fun x x' h => ?_) fun x => ?_
      · dsimp only
        rw [h.1]
        split
        · exact ok_sim h.2
        · exact (nth_sim ha (by omega) h.2).bind (fun y y' h => error_sim ha h.2) fun _ => error_from ..
      · dsimp only
        split
        · exact Nat.le_refl _
        · exact (nth_from ..).bind fun x => error_from ..
    | advance => exact advance_sim ha hs
    | call k =>
      exact (ih _ (two_body k) (s := s.enter) (s' := s'.enter) hs).bind (fun t t' h => ok_sim h) fun t => Nat.le_refl t.pos
    | advErr j pre post =>
      refine (nth_sim ha (by simpa [two] using hc) hs).bind (fun x x' h => (error_sim ha h.2).bind (fun t t' h => ?_) fun t => ?_) fun x =>
        (error_from ..).bind fun t => ?_
      · exact (advance_sim ha (s := t.enter) (s' := t'.enter) h).bind (fun u u' h => ok_sim h) fun u => Nat.le_refl u.pos
      · exact (advance_from toks t.enter).bind (p := t.pos) fun u => Nat.le_refl u.pos
      · exact (advance_from toks t.enter).bind (p := t.pos) fun u => Nat.le_refl u.pos
    | look j => exact (nth_sim ha (by simpa [two] using hc) hs).bind (fun x x' h => ok_sim h.2) fun _ => Nat.le_refl _
    | ifk ks a b =>
      simp only [two, Bool.and_eq_true] at hc
      simp only [runC]
      rw [hs.2.1]
      split
      · exact ih a hc.1 hs
      · exact ih b hc.2 hs
    | unreachable => exact .inr ⟨s', rfl⟩

end Mofmt
