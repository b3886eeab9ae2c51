import Verif.Spec.Messages
import Verif.Proofs.Viable
/-
Every message of the parser tells the truth.
-/
namespace Mofmt
namespace Msg
open Via

/-- nothing is known -/
def top : PAbs := { re := .eps, k0 := KSet.all, k1 := KSet.all, lo := 9 }

/-- What is known after a command of which only this is used: a look at a token. -/
def after : Cmd → PAbs → PAbs
  | .look n, a => a.set n (a.get n)
  | _, _ => top

/-- Does every complaint name a token that is not wanted, whatever the state described by `a`? -/
def tells : Cmd → PAbs → Bool
  | .seq c d, a => tells c a && tells d (after c a)
  | .ite c x y, a => (absCond c a).all fun o => if o.1 then tells x o.2 else tells y o.2
  | .while c x, _ => (absCond c top).all fun o => !o.1 || tells x o.2
  | .advErr n pre post, a => pre == c!"unexpected token '" && complaints.any fun c =>
      c.text == post && c.ahead == n && c.wanted.all fun k => !(a.get n).has k
  | .ifk ks x y, a =>
    if a.lo = 0 ∨ a.lo = 1 then
      (a.assume a.lo (KSet.of ks)).all (tells x) && (a.exclude a.lo (KSet.of ks)).all (tells y)
    else tells x a && tells y a
  | _, _ => true

theorem tells_all (k : SK) : tells (Grammar.body k) top = true := by
  cases k <;> decide +kernel

section
variable {name : Text} {toks : List Token}

/-- all new messages are true -/
def True_ (name : Text) (toks : List Token) (s s' : PState) : Prop :=
  ∃ new, s'.errors = s.errors ++ new ∧ ∀ e ∈ new, Truthful name toks e

theorem True_.same {s s' : PState} (h : s'.errors = s.errors) : True_ name toks s s' := ⟨[], by simp [h], by simp⟩

theorem True_.trans {s1 s2 s3 : PState} (h1 : True_ name toks s1 s2) (h2 : True_ name toks s2 s3) : True_ name toks s1 s3 := by
  obtain ⟨a, e1, f1⟩ := h1
  obtain ⟨b, e2, f2⟩ := h2
  refine ⟨a ++ b, by rw [e2, e1, List.append_assoc], ?_⟩
  intro e he
  rcases List.mem_append.mp he with he | he
  · exact f1 e he
  · exact f2 e he

theorem True_.later {s t s' : PState} (he : t.errors = s.errors) (h : True_ name toks t s') : True_ name toks s s' := by
  unfold True_ at *
  rwa [he] at h

theorem knows_top (s : PState) : Knows toks top s :=
  ⟨by simp [top], by simp [top], fun h => by simp [top] at h, fun h => by simp [top] at h⟩

theorem kindNo_at (s : PState) (n : Nat) : kindNo toks (s.pos + n) = kindAt toks s n := rfl

theorem error_true {s s' : PState} {msg : Text} (h : s.error name toks msg = .ok s')
    (ht : ∀ t, Shown toks s.pos t → Truthful name toks (errorText name t.start msg)) : True_ name toks s s' := by
  unfold PState.error at h
  split at h
  · rename_i t hx
    simp at h; subst h
    exact ⟨_, rfl, by simpa using ht t (.inl hx)⟩
  · rename_i hn
    split at h
    · rename_i t hx
      simp at h; subst h
      exact ⟨_, rfl, by simpa using ht t (.inr ⟨by simpa using hn, hx⟩)⟩
    · simp at h

theorem after_knows {n : Nat} (c : Cmd) {s s1 : PState} {a : PAbs} (hk : Knows toks a s)
    (h : run name toks Grammar.body n c s = .ok s1) : Knows toks (after c a) s1 := by
  cases c
  case look i =>
    cases n with
    | zero => simp [run] at h
    | succ n =>
      simp only [run, Res.bind_eq_ok] at h
      obtain ⟨⟨k', s2⟩, h1, h2⟩ := h
      simp only [Res.ok.injEq] at h2; subst h2
      obtain ⟨_, e2, _, e4, e5⟩ := nth_sound h1
      exact (set_sound hk e2 (by rw [e5, e4]) (get_sound hk i)).1
  all_goals exact knows_top _

theorem run_true : ∀ (n : Nat) (c : Cmd) {s s' : PState} {a : PAbs}, s.pos ≤ toks.length →
    (s.pos < toks.length → Knows toks a s ∧ tells c a = true) →
    run name toks Grammar.body n c s = .ok s' → True_ name toks s s' := by
  intro n
  induction n with
  | zero => intro c s s' a _ _ h; simp [run] at h
  | succ n ih =>
    intro c s s' a hle hk h
    -- behind the last token nothing has to be known
    have cond : ∀ {c : Cond} {x y : Cmd} {b : Bool} {s1 s' : PState} {a : PAbs},
        (s.pos < toks.length → Knows toks a s ∧
          ((absCond c a).all fun o => if o.1 then tells x o.2 else tells y o.2) = true) →
        evalCond toks c s = .ok (b, s1) → run name toks Grammar.body n (if b then x else y) s1 = .ok s' →
        True_ name toks s s' := by
      intro c x y b s1 s' a hk h1 h2
      obtain ⟨F, g, e⟩ := evalCond_grew c hle h1
      have hp := Grew.pos_le g
      by_cases hend : s1.pos < toks.length
      · obtain ⟨hk, ht⟩ := hk (by omega)
        obtain ⟨a1, hm, F, hs⟩ := cond_sound c hle hk h1 hend
        have := List.all_eq_true.1 ht _ hm
        cases b with
        | true => exact (ih x g.le (fun _ => ⟨hs.knows, this⟩) h2).later e
        | false => exact (ih y g.le (fun _ => ⟨hs.knows, this⟩) h2).later e
      · exact (ih _ (a := top) g.le (fun h => absurd h hend) h2).later e
    cases c with
    | skip => simp [run] at h; subst h; exact .same rfl
    | seq c d =>
      simp only [run, Res.bind_eq_ok] at h
      obtain ⟨s1, h1, h2⟩ := h
      obtain ⟨F, g⟩ := run_grew' n c hle h1
      have hp := Grew.pos_le g
      simp only [tells, Bool.and_eq_true] at hk
      exact (ih c hle (fun h => ⟨(hk h).1, (hk h).2.1⟩) h1).trans
        (ih d g.le (fun h => ⟨after_knows c (hk (by omega)).1 h1, (hk (by omega)).2.2⟩) h2)
    | ite c x y =>
      simp only [run, Res.bind_eq_ok] at h
      obtain ⟨⟨b, s1⟩, h1, h2⟩ := h
      simp only [tells] at hk
      exact cond hk h1 (by cases b <;> exact h2)
    | «while» c x =>
      simp only [run, Res.bind_eq_ok] at h
      obtain ⟨⟨b, s1⟩, h1, h2⟩ := h
      cases b with
      | true =>
        simp only [if_true, Res.bind_eq_ok] at h2
        obtain ⟨s2, h3, h4⟩ := h2
        obtain ⟨F, g, e⟩ := evalCond_grew c hle h1
        obtain ⟨F2, g2⟩ := run_grew' n x g.le h3
        have hp := Grew.pos_le g
        have hp2 := Grew.pos_le g2
        refine True_.trans (cond (x := x) (y := .skip) (a := top) (fun h => ⟨knows_top _, ?_⟩) h1 h3)
          (ih (.while c x) (a := top) g2.le (fun h => ⟨knows_top _, ?_⟩) h4)
        · have := (hk h).2
          simp only [tells, List.all_eq_true] at this ⊢
          intro o ho
          have := this o ho
          cases ho : o.1
          · simp
          · simpa [ho] using this
        · exact (hk (by omega)).2
      | false =>
        simp only [Bool.false_eq_true, if_false, Res.ok.injEq] at h2; subst h2
        exact .same (evalCond_errors c h1)
    | eval c =>
      simp only [run, Res.bind_eq_ok] at h
      obtain ⟨⟨b, s1⟩, h1, h2⟩ := h
      simp at h2; subst h2
      exact .same (evalCond_errors c h1)
    | expect k =>
      simp only [run, Res.bind_eq_ok] at h
      obtain ⟨⟨b, s1⟩, h1, h2⟩ := h
      have e1 := evalCond_errors _ h1
      dsimp only at h2
      split at h2
      · simp only [Res.ok.injEq] at h2; subst h2
        exact .same e1
      · rename_i hb
        simp only [Bool.not_eq_true] at hb
        subst hb
        obtain ⟨hp1, hkk⟩ : s1.pos = s.pos ∧ kindAt toks s 0 ≠ k := by
          simp only [evalCond, Res.bind_eq_ok] at h1
          obtain ⟨⟨k', s3⟩, h3, h4⟩ := h1
          obtain ⟨_, f2, _, f4, _⟩ := nth_sound h3
          dsimp only at h4 f2 f4
          split at h4
          · simp [Res.bind_eq_ok] at h4
          · rename_i hne
            simp at h4; rw [← h4]
            exact ⟨f2, by rw [← f4]; simpa using hne⟩
        simp only [Res.bind_eq_ok] at h2
        obtain ⟨⟨k', s2⟩, h3, h4⟩ := h2
        obtain ⟨_, f2, f3, f4, _⟩ := nth_sound h3
        dsimp only at f2 f3 f4 h4
        refine True_.later (f3.trans e1) (error_true h4 ?_)
        intro t ht
        have hkn : kindNo toks s2.pos = k' := by
          rw [f4, kindAt_pos hp1, f2, hp1]; rfl
        rw [← hkn]
        refine .expected ht ?_
        rw [hkn, f4, kindAt_pos hp1]
        exact hkk
    | advance => rw [run] at h; exact .same (advance_errors h)
    | call k =>
      simp only [run, Res.bind_eq_ok] at h
      obtain ⟨s1, h1, h2⟩ := h
      simp at h2; subst h2
      change True_ name toks s.enter s1
      exact ih (Grammar.body k) (s := s.enter) (a := top) hle (fun _ => ⟨knows_top _, tells_all k⟩) h1
    | advErr i pre post =>
      simp only [run, Res.bind_eq_ok] at h
      obtain ⟨⟨k', s1⟩, h1, s2, h2, s3, h3, h4⟩ := h
      simp at h4; subst h4
      obtain ⟨_, e2, e3, e4, _⟩ := nth_sound h1
      have e5 : s3.errors = s2.enter.errors := advance_errors h3
      change s3.errors = s2.errors at e5
      dsimp only at e2 e3 e4 h2
      have hlt : s.pos < toks.length := by
        have e6 : s2.pos = s1.pos := by
          unfold PState.error at h2
          split at h2
          · simp at h2; rw [← h2]
          · split at h2
            · simp at h2; rw [← h2]
            · simp at h2
        unfold PState.advance PState.eof at h3
        split at h3
        · simp at h3
        · rename_i hne
          simp only [PState.enter, beq_iff_eq] at hne
          omega
      obtain ⟨hkn, ht⟩ := hk hlt
      simp only [tells, Bool.and_eq_true, beq_iff_eq, List.any_eq_true, List.all_eq_true, Bool.not_eq_true'] at ht
      obtain ⟨rfl, c, hc, ⟨rfl, rfl⟩, hw⟩ := ht
      have key : True_ name toks s1 s2 := by
        refine error_true h2 ?_
        intro t ht
        have hkn' : kindNo toks (s1.pos + c.ahead) = k' := by rw [e4, e2]; rfl
        rw [← hkn']
        refine .unexpected ?_ hc ?_
        · rcases ht with ht | ⟨ht, _⟩
          · exact ht
          · omega
        · intro hm
          have := hw _ hm
          rw [hkn', e4, get_sound hkn] at this
          cases this
      obtain ⟨new, f1, f2⟩ := key
      exact ⟨new, by show s3.errors = _; rw [e5, f1, e3], f2⟩
    | look i =>
      simp only [run, Res.bind_eq_ok] at h
      obtain ⟨⟨k', s1⟩, h1, h2⟩ := h
      simp only [Res.ok.injEq] at h2; subst h2
      exact .same (nth_sound h1).2.2.1
    | ifk ks x y =>
      simp only [run] at h
      by_cases hend : s.pos < toks.length
      · obtain ⟨hk, ht⟩ := hk hend
        simp only [tells] at ht
        split at ht
        · rename_i hlo
          have hl' : s.last = kindAt toks s a.lo := by
            rcases hlo with e | e
            · rw [e]; exact hk.l0 e
            · rw [e]; exact hk.l1 e
          simp only [Bool.and_eq_true, List.all_eq_true] at ht
          split at h
          · rename_i hcc
            rw [hl'] at hcc
            obtain ⟨a1, hm1, hk1, _⟩ := assume_sound (a := a) (n := a.lo) (p := KSet.of ks) hk rfl hl'
              (by rw [KSet.has_of]; exact hcc)
            exact ih x hle (fun _ => ⟨hk1, ht.1 _ hm1⟩) h
          · rename_i hcc
            rw [hl'] at hcc
            simp only [Bool.not_eq_true] at hcc
            obtain ⟨a1, hm1, hk1, _⟩ := exclude_sound (a := a) (n := a.lo) (p := KSet.of ks) hk rfl hl'
              (by rw [KSet.has_of]; exact hcc)
            exact ih y hle (fun _ => ⟨hk1, ht.2 _ hm1⟩) h
        · simp only [Bool.and_eq_true] at ht
          split at h
          · exact ih x hle (fun _ => ⟨hk, ht.1⟩) h
          · exact ih y hle (fun _ => ⟨hk, ht.2⟩) h
      · split at h
        · exact ih x (a := top) hle (fun h => absurd h hend) h
        · exact ih y (a := top) hle (fun h => absurd h hend) h
    | unreachable => simp [run] at h

theorem events_true {k : SK} {evs : List Event} {errs : List Text} (h : events name toks k = .ok (evs, errs)) :
    ∀ e ∈ errs, Truthful name toks e := by
  unfold events at h
  rw [Res.bind_eq_ok] at h
  obtain ⟨s, h1, h2⟩ := h
  simp at h2
  obtain ⟨_, rfl⟩ := h2
  obtain ⟨new, e, f⟩ := run_true _ (.call k) (a := top) (Nat.zero_le _) (fun _ => ⟨knows_top _, rfl⟩) h1
  rw [e]
  simpa [PState.init] using f

end
end Msg
end Mofmt
