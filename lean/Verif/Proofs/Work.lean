import Verif.Proofs.ParserMore
import Verif.Spec.Work
/-
The work of the parser is linear: every look-ahead and every advance pays for ten steps.
-/
namespace Mofmt

/-- Every look-ahead pays for ten steps. -/
def condK (c : Cond) : Int := if condLooks c then 10 else 0
/-- What remains at least of the payments for look-aheads and advances after the steps of the statement; `S`: for grammar functions. -/
def gain (S : SK → Int) : Cmd → Int
  | .skip => -1
  | .seq a b => gain S a + gain S b - 1
  | .ite c a b => condK c - 1 - c.size + min (gain S a) (gain S b)
  | .while c _ => condK c - 1 - c.size
  | .eval c => condK c - 1 - c.size
  | .expect _ => 10 - 3
  | .advance => 10 - 1
  | .call k => S k
  | .advErr _ _ _ => 10 - 5
  | .look _ => 10 - 1
  | .ifk _ a b => min (gain S a) (gain S b) - 1
  | .unreachable => 0
/-- The rounds of all loops pay for themselves. -/
def loopsOk (S : SK → Int) : Cmd → Bool
  | .seq a b => loopsOk S a && loopsOk S b
  | .ite _ a b => loopsOk S a && loopsOk S b
  | .while c a => decide (0 ≤ gain S a + (condK c - 1 - c.size)) && loopsOk S a
  | .ifk _ a b => loopsOk S a && loopsOk S b
  | _ => true
/-- How many steps are at most not paid for if the run of the statement fails; `P`: for grammar functions. -/
def rest (S P : SK → Int) : Cmd → Int
  | .seq a b => 1 + max (rest S P a) (rest S P b - gain S a)
  | .ite c a b => 1 + c.size + max 0 (max (rest S P a) (rest S P b) - condK c)
  | .while c a => 1 + c.size + max 0 (rest S P a - condK c)
  | .eval c => 1 + c.size
  | .expect _ => 3
  | .call k => P k
  | .advErr _ _ _ => 5
  | .ifk _ a b => 1 + max (rest S P a) (rest S P b)
  | _ => 1

variable {toks : List Token} {name : Text} {body : SK → Cmd} {S P : SK → Int}

theorem rest_nonneg (hP : ∀ k, 0 ≤ P k) (c : Cmd) : 0 ≤ rest S P c := by
  induction c with
  | seq a b ha hb => simp only [rest]; omega
  | ite c a b ha hb => simp only [rest]; omega
  | «while» c a ha => simp only [rest]; omega
  | ifk ks a b ha hb => simp only [rest]; omega
  | call k => exact hP k
  | eval c => simp only [rest]; omega
  | _ => simp [rest]

theorem cond_paid {c : Cond} {s s' : PState} {b : Bool} (hs : Ok toks s) (h : evalCond toks c s = .ok (b, s')) :
    Ok toks s' ∧ (10 * (M toks s' : Int) + condK c ≤ 10 * M toks s) := by
  obtain ⟨h1, h2, h3⟩ := evalCond_M c hs h
  refine ⟨h1, ?_⟩
  unfold condK
  split
  · have := h3 ‹_›; omega
  · omega

theorem run_ok (hs : ∀ k, looks (fun _ => true) (body k) = true) {n : Nat} {c : Cmd} {s s' : PState} (h : Ok toks s)
    (hr : run name toks body n c s = .ok s') : Ok toks s' :=
  (run_M (L := fun _ => true) (fun k _ => hs k) n c h hr).1

theorem steps_paid (hk : ∀ k, looks (fun _ => true) (body k) = true) (hS : ∀ k, S k + 2 ≤ gain S (body k))
    (hP : ∀ k, 2 + rest S P (body k) ≤ P k) (hP0 : ∀ k, 0 ≤ P k) (hl : ∀ k, loopsOk S (body k) = true) :
    ∀ (n : Nat) (c : Cmd) (s : PState), loopsOk S c = true → Ok toks s →
      (∀ s', run name toks body n c s = .ok s' →
        (steps name toks body n c s : Int) + 10 * M toks s' + gain S c ≤ 10 * M toks s) ∧
      ((∀ s', run name toks body n c s ≠ .ok s') → (steps name toks body n c s : Int) ≤ 10 * M toks s + rest S P c) := by
  intro n
  induction n with
  | zero =>
    intro c s _ _
    refine ⟨fun s' h => by simp [run] at h, fun _ => ?_⟩
    have := rest_nonneg (S := S) hP0 c
    simp only [steps]
    omega
  | succ n ih =>
    intro c s hc hs
    cases c with
    | skip =>
      refine ⟨fun s' h => ?_, fun h => absurd rfl (h s)⟩
      simp [run] at h
      subst h
      simp only [steps, gain]; omega
    | seq a b =>
      simp only [loopsOk, Bool.and_eq_true] at hc
      obtain ⟨a1, a2⟩ := ih a s hc.1 hs
      cases hr : run name toks body n a s with
      | ok s1 =>
        have o1 := run_ok hk hs hr
        have a1 := a1 s1 hr
        obtain ⟨b1, b2⟩ := ih b s1 hc.2 o1
        simp only [run, hr, Res.bind_ok, steps, gain, rest]
        refine ⟨fun s' h => ?_, fun h => ?_⟩
        · have := b1 s' h; omega
        · have := b2 h; omega
      | panic x =>
        have a2 := a2 (by rw [hr]; simp)
        simp only [run, hr, Res.bind, steps, rest]
        exact ⟨fun s' h => by simp at h, fun _ => by omega⟩
      | fuel =>
        have a2 := a2 (by rw [hr]; simp)
        simp only [run, hr, Res.bind, steps, rest]
        exact ⟨fun s' h => by simp at h, fun _ => by omega⟩
    | ite c a b =>
      simp only [loopsOk, Bool.and_eq_true] at hc
      cases hr : evalCond toks c s with
      | ok x =>
        obtain ⟨t, s1⟩ := x
        obtain ⟨o1, c1⟩ := cond_paid hs hr
        obtain ⟨a1, a2⟩ := ih a s1 hc.1 o1
        obtain ⟨b1, b2⟩ := ih b s1 hc.2 o1
        simp only [run, hr, Res.bind_ok, steps, gain, rest]
        cases t with
        | true =>
          simp only [if_true]
          refine ⟨fun s' h => ?_, fun h => ?_⟩
          · have := a1 s' h; omega
          · have := a2 h; omega
        | false =>
          simp only [Bool.false_eq_true, if_false]
          refine ⟨fun s' h => ?_, fun h => ?_⟩
          · have := b1 s' h; omega
          · have := b2 h; omega
      | panic x =>
        simp only [run, hr, Res.bind, steps, rest]
        exact ⟨fun s' h => by simp at h, fun _ => by omega⟩
      | fuel =>
        simp only [run, hr, Res.bind, steps, rest]
        exact ⟨fun s' h => by simp at h, fun _ => by omega⟩
    | «while» c a =>
      have hw := hc
      simp only [loopsOk, Bool.and_eq_true, decide_eq_true_eq] at hc
      cases hr : evalCond toks c s with
      | ok x =>
        obtain ⟨t, s1⟩ := x
        obtain ⟨o1, c1⟩ := cond_paid hs hr
        obtain ⟨a1, a2⟩ := ih a s1 hc.2 o1
        simp only [run, hr, Res.bind_ok, steps, gain, rest]
        cases t with
        | true =>
          simp only [if_true]
          cases hr1 : run name toks body n a s1 with
          | ok s2 =>
            have o2 := run_ok hk o1 hr1
            obtain ⟨b1, b2⟩ := ih (.while c a) s2 hw o2
            have a1 := a1 s2 hr1
            simp only [Res.bind_ok]
            simp only [gain] at b1
            simp only [rest] at b2
            refine ⟨fun s' h => ?_, fun h => ?_⟩
            · have := b1 s' h; push_cast; omega
            · have := b2 h; push_cast; omega
          | panic x =>
            have a2 := a2 (by rw [hr1]; simp)
            simp only [Res.bind]
            exact ⟨fun s' h => by simp at h, fun _ => by push_cast; omega⟩
          | fuel =>
            have a2 := a2 (by rw [hr1]; simp)
            simp only [Res.bind]
            exact ⟨fun s' h => by simp at h, fun _ => by push_cast; omega⟩
        | false =>
          simp only [Bool.false_eq_true, if_false]
          refine ⟨fun s' h => ?_, fun h => absurd rfl (h s1)⟩
          cases h
          omega
      | panic x =>
        simp only [run, hr, Res.bind, steps, rest]
        exact ⟨fun s' h => by simp at h, fun _ => by omega⟩
      | fuel =>
        simp only [run, hr, Res.bind, steps, rest]
        exact ⟨fun s' h => by simp at h, fun _ => by omega⟩
    | eval c =>
      refine ⟨fun s' h => ?_, fun h => ?_⟩
      · simp only [run, Res.bind_eq_ok] at h
        obtain ⟨⟨t, s1⟩, h1, h2⟩ := h
        simp at h2; subst h2
        have := (cond_paid hs h1).2
        simp only [steps, gain]; omega
      · simp only [steps, rest]; omega
    | expect k =>
      refine ⟨fun s' h => ?_, fun h => ?_⟩
      · have := (run_M (L := fun _ => true) (fun k _ => hk k) _ _ hs h).2.2 rfl
        simp only [steps, gain]; omega
      · simp only [steps, rest]; omega
    | advance =>
      refine ⟨fun s' h => ?_, fun h => ?_⟩
      · have := (run_M (L := fun _ => true) (fun k _ => hk k) _ _ hs h).2.2 rfl
        simp only [steps, gain]; omega
      · simp only [steps, rest]; omega
    | call k =>
      obtain ⟨b1, b2⟩ := ih (body k) s.enter (hl k) hs
      have e : M toks s.enter = M toks s := rfl
      have h1 := hS k
      have h2 := hP k
      cases hr : run name toks body n (body k) s.enter with
      | ok s1 =>
        have b1 := b1 s1 hr
        simp only [run, hr, Res.bind_ok, steps, gain]
        refine ⟨fun s' h => ?_, fun h => absurd rfl (h _)⟩
        cases h
        have e' : M toks (s1.exit s.evs.length k) = M toks s1 := rfl
        omega
      | panic x =>
        have b2 := b2 (by rw [hr]; simp)
        simp only [run, hr, Res.bind, steps, rest]
        exact ⟨fun s' h => by simp at h, fun _ => by omega⟩
      | fuel =>
        have b2 := b2 (by rw [hr]; simp)
        simp only [run, hr, Res.bind, steps, rest]
        exact ⟨fun s' h => by simp at h, fun _ => by omega⟩
    | advErr m pre post =>
      refine ⟨fun s' h => ?_, fun h => ?_⟩
      · have := (run_M (L := fun _ => true) (fun k _ => hk k) _ _ hs h).2.2 rfl
        simp only [steps, gain]; omega
      · simp only [steps, rest]; omega
    | look m =>
      refine ⟨fun s' h => ?_, fun h => ?_⟩
      · have := (run_M (L := fun _ => true) (fun k _ => hk k) _ _ hs h).2.2 rfl
        simp only [steps, gain]; omega
      · simp only [steps, rest]; omega
    | ifk ks a b =>
      simp only [loopsOk, Bool.and_eq_true] at hc
      obtain ⟨a1, a2⟩ := ih a s hc.1 hs
      obtain ⟨b1, b2⟩ := ih b s hc.2 hs
      simp only [run, steps, gain, rest]
      split
      · refine ⟨fun s' h => ?_, fun h => ?_⟩
        · have := a1 s' h; omega
        · have := a2 h; omega
      · refine ⟨fun s' h => ?_, fun h => ?_⟩
        · have := b1 s' h; omega
        · have := b2 h; omega
    | unreachable =>
      refine ⟨fun s' h => by simp [run] at h, fun _ => ?_⟩
      simp only [steps, rest]; omega

/-! ### The grammar -/

/-- `gain` of the grammar functions -/
def gainTable (k : SK) : Int :=
  [-2, 1, 10, 10, 10, 10, 10, 10, 4, 10, 10, 10, 5, 10, 2, 10, 10, 9, 10, 10, 10, 10, 10, 10, 10, 10, 10, 10, 10, 10, 4,
   10, 10, 10, 10, 10, 10, 10, 10, 10, 10, 10, 10, 10, 10, 10, 10, 10, 10, 10, 10, 10, 10, 10, 10, 10, 10, 10, 10, 10,
   10, 7, 10, 7, 10, 7, 10, 10, 9, 4, 10, 10, 10, 10, 10, 10, 10, 10, 10, 10, 10, 4, 10, 10, 4, 9, 5, 10].getD k.ctorIdx 0

/-- `rest` of the grammar functions -/
def restTable (k : SK) : Int :=
  [3, 5, 5, 5, 4, 5, 6, 6, 5, 9, 6, 11, 5, 6, 8, 4, 6, 6, 6, 6, 6, 5, 6, 9, 6, 12, 9, 6, 6, 4, 5, 6, 7, 4, 5, 9, 6, 6, 9,
   9, 8, 5, 5, 15, 7, 7, 7, 6, 6, 9, 6, 7, 7, 7, 6, 10, 15, 12, 9, 6, 11, 3, 8, 3, 11, 3, 8, 5, 5, 6, 5, 4, 6, 4, 4, 13,
   13, 9, 6, 4, 6, 5, 13, 6, 5, 7, 4, 6].getD k.ctorIdx 0

theorem gain_all : ∀ k, gainTable k + 2 ≤ gain gainTable (Grammar.body k) := by
  intro k; cases k <;> decide +kernel

theorem rest_all : ∀ k, 2 + rest gainTable restTable (Grammar.body k) ≤ restTable k := by
  intro k; cases k <;> decide +kernel

theorem loops_all : ∀ k, loopsOk gainTable (Grammar.body k) = true := by
  intro k; cases k <;> decide +kernel

theorem table_range : ∀ k, 0 ≤ restTable k ∧ restTable k ≤ 15 ∧ -2 ≤ gainTable k := by
  intro k; cases k <;> decide +kernel

/-- the steps of any run of a grammar function -/
theorem steps_call (n : Nat) (k : SK) : steps name toks Grammar.body n (.call k) PState.init ≤ 1010 * toks.length + 1015 := by
  have hs : Ok toks PState.init := by simp [Ok, PState.init]
  have hM : M toks PState.init = toks.length * 101 + 100 := rfl
  obtain ⟨h1, h2⟩ := steps_paid (S := gainTable) (P := restTable) (body := Grammar.body) (toks := toks) (name := name)
    grammar_looks gain_all rest_all (fun k => (table_range k).1) loops_all n (.call k) PState.init rfl hs
  have ht := table_range k
  by_cases h : ∃ s', run name toks Grammar.body n (.call k) PState.init = .ok s'
  · obtain ⟨s', h⟩ := h
    have := h1 s' h
    simp only [gain] at this
    omega
  · have := h2 (fun s' hr => h ⟨s', hr⟩)
    simp only [rest] at this
    omega

end Mofmt
