import Verif.Proofs.Cli
/-
Lemmas about runs over several files.
-/
namespace Mofmt

theorem formatAll_cons (w : World) (check : Bool) (p : Text) (ps : List Text) (s : Proc) :
    (∃ s1, Outcome w check p s (s1, none) ∧ formatAll w check (p :: ps) s = formatAll w check ps s1) ∨
    (∃ s1 e, Outcome w check p s (s1, some e) ∧ formatAll w check (p :: ps) s = (s1, e)) := by
  have h := formatOne_outcome w check p s
  simp only [formatAll]
  cases hr : formatOne w check p s with
  | mk s1 e =>
    rw [hr] at h
    cases e with
    | none => exact .inl ⟨s1, h, rfl⟩
    | some e => exact .inr ⟨s1, e, h, rfl⟩

/-- What one file adds to the log. -/
theorem outcome_log {w : World} {check : Bool} {p : Text} {s s1 : Proc} {e : Option End}
    (h : Outcome w check p s (s1, e)) :
    ∃ new, s1.log = s.log ++ new ∧ s1.disk = replay new s.disk ∧
      ∀ o ∈ new, ∀ f, o.writes f = true → check = false ∧ w.inode p = some f ∧
        ∃ out, FormatsTo w s.disk p out := by
  cases h with
  | rejected h1 h2 => exact ⟨_, rfl, rfl, by simp [h2]⟩
  | passed _ _ _ h2 => exact ⟨_, rfl, rfl, by simp [h2]⟩
  | failed _ _ _ h2 => exact ⟨_, rfl, rfl, by simp [h2]⟩
  | @written f out h1 h2 h3 =>
    refine ⟨[.truncate f, .append f (encode out)], by simp [Proc.emit], rfl, ?_⟩
    intro o ho g hg
    simp at ho
    rcases ho with rfl | rfl <;> simp [Op.writes] at hg <;> subst hg <;> exact ⟨h1, h3, out, h2⟩
  | @partly f n out h1 h2 h3 =>
    refine ⟨[.truncate f, .append f ((encode out).take n)], by simp [Proc.emit], rfl, ?_⟩
    intro o ho g hg
    simp at ho
    rcases ho with rfl | rfl <;> simp [Op.writes] at hg <;> subst hg <;> exact ⟨h1, h3, out, h2⟩
  | crashed => exact ⟨[], by simp, rfl, by simp⟩

theorem formatAll_log (w : World) (check : Bool) (ps : List Text) : ∀ (s : Proc),
    ∃ new, (formatAll w check ps s).1.log = s.log ++ new ∧
      (formatAll w check ps s).1.disk = replay new s.disk ∧
      ∀ o ∈ new, ∀ f, o.writes f = true → check = false ∧
        ∃ p ∈ ps, ModelicaName p ∧ w.inode p = some f := by
  induction ps with
  | nil => intro s; exact ⟨[], by simp [formatAll], rfl, by simp⟩
  | cons p ps ih =>
    intro s
    rcases formatAll_cons w check p ps s with ⟨s1, h1, h2⟩ | ⟨s1, e, h1, h2⟩
    · obtain ⟨new1, a1, a2, a3⟩ := outcome_log h1
      obtain ⟨new2, b1, b2, b3⟩ := ih s1
      rw [h2]
      refine ⟨new1 ++ new2, by rw [b1, a1]; simp, by rw [b2, a2, replay_append], ?_⟩
      intro o ho f hf
      simp at ho
      rcases ho with ho | ho
      · obtain ⟨c1, c2, out, c3⟩ := a3 o ho f hf
        exact ⟨c1, p, by simp, c3.choose_spec.choose_spec.choose_spec.1, c2⟩
      · obtain ⟨c1, q, c2, c3⟩ := b3 o ho f hf
        exact ⟨c1, q, by simp [c2], c3⟩
    · obtain ⟨new1, a1, a2, a3⟩ := outcome_log h1
      rw [h2]
      refine ⟨new1, a1, a2, ?_⟩
      intro o ho f hf
      obtain ⟨c1, c2, out, c3⟩ := a3 o ho f hf
      exact ⟨c1, p, by simp, c3.choose_spec.choose_spec.choose_spec.1, c2⟩

theorem replay_silent {log : List Op} {f : Nat} (h : ∀ o ∈ log, o.writes f = false) (d : Disk) :
    replay log d f = d f := by
  induction log generalizing d with
  | nil => rfl
  | cons o os ih =>
    rw [replay, ih (fun o' h' => h o' (by simp [h'])), apply_not_writes (h o (by simp))]

/-- Files all of whose paths are rejected are not written, and make the run fail. -/
theorem formatAll_rejected (w : World) (check : Bool) (f : Nat) (ps : List Text) : ∀ (s : Proc),
    (∀ q ∈ ps, w.inode q = some f → Rejected w s.disk q) →
    (∃ new, (formatAll w check ps s).1.log = s.log ++ new ∧ ∀ o ∈ new, o.writes f = false) ∧
    (formatAll w check ps s).1.disk f = s.disk f ∧
    (s.code = 1 ∨ (∃ q ∈ ps, w.inode q = some f) →
      ∀ c, (formatAll w check ps s).2 = .exit c → c = 1) := by
  induction ps with
  | nil =>
    intro s _
    refine ⟨⟨[], by simp [formatAll], by simp⟩, rfl, ?_⟩
    intro h c hc
    simp [formatAll] at h hc
    omega
  | cons p ps ih =>
    intro s hrej
    have keep : ∀ s1 e, Outcome w check p s (s1, e) → s1.disk f = s.disk f ∧
        (∃ new, s1.log = s.log ++ new ∧ ∀ o ∈ new, o.writes f = false) ∧
        (s.code = 1 ∨ w.inode p = some f → s1.code = 1 ∨ ∃ e', e = some e') := by
      intro s1 e ho
      have hnw : ∃ new, s1.log = s.log ++ new ∧ s1.disk = replay new s.disk ∧
          ∀ o ∈ new, o.writes f = false := by
        obtain ⟨new, a1, a2, a3⟩ := outcome_log ho
        refine ⟨new, a1, a2, ?_⟩
        intro o hm
        cases hw : o.writes f with
        | false => rfl
        | true =>
          obtain ⟨_, c2, out, c3⟩ := a3 o hm f hw
          exact absurd c3 (fun h => not_both (hrej p (by simp) c2) h)
      obtain ⟨new, a1, a2, a3⟩ := hnw
      refine ⟨by rw [a2, replay_silent a3], ⟨new, a1, a3⟩, ?_⟩
      intro hcond
      cases ho with
      | rejected => exact .inl rfl
      | passed h1 h2 _ _ =>
        rcases hcond with hcond | hcond
        · exact .inl hcond
        · exact absurd h2 (fun h => not_both (hrej p (by simp) hcond) h)
      | failed => exact .inl rfl
      | written h1 h2 h3 =>
        rcases hcond with hcond | hcond
        · exact .inl hcond
        · exact absurd h2 (fun h => not_both (hrej p (by simp) hcond) h)
      | partly => exact .inr ⟨_, rfl⟩
      | crashed => exact .inr ⟨_, rfl⟩
    rcases formatAll_cons w check p ps s with ⟨s1, h1, h2⟩ | ⟨s1, e, h1, h2⟩
    · obtain ⟨k1, ⟨new, k2, k3⟩, k4⟩ := keep s1 none h1
      have hrej' : ∀ q ∈ ps, w.inode q = some f → Rejected w s1.disk q := by
        intro q hq hf
        refine rejected_congr ?_ (hrej q (by simp [hq]) hf)
        intro g hg
        rw [hf] at hg; simp at hg; subst hg; exact k1.symm
      obtain ⟨⟨new2, i1, i2⟩, i3, i4⟩ := ih s1 hrej'
      rw [h2]
      refine ⟨⟨new ++ new2, by rw [i1, k2]; simp, ?_⟩, by rw [i3, k1], ?_⟩
      · intro o ho
        simp at ho
        rcases ho with ho | ho
        · exact k3 o ho
        · exact i2 o ho
      · intro hcond c hc
        refine i4 ?_ c hc
        rcases hcond with hcond | ⟨q, hq, hf⟩
        · rcases k4 (.inl hcond) with h | ⟨_, h⟩
          · exact .inl h
          · simp at h
        · simp at hq
          rcases hq with rfl | hq
          · rcases k4 (.inr hf) with h | ⟨_, h⟩
            · exact .inl h
            · simp at h
          · exact .inr ⟨q, hq, hf⟩
    · obtain ⟨k1, k2, _⟩ := keep s1 (some e) h1
      rw [h2]
      refine ⟨k2, k1, ?_⟩
      intro _ c hc
      cases h1 with
      | partly => simp at hc
      | crashed h3 => exact absurd hc (h3 c)

/-- The file is fine for the given mode. -/
def Good (w : World) (check : Bool) (d : Disk) (p : Text) : Prop :=
  ∃ out, FormatsTo w d p out ∧ (check = true → Contains w d p out)

theorem good_congr {w : World} {check : Bool} {d d' : Disk} {p : Text}
    (h : ∀ f, w.inode p = some f → d f = d' f) : Good w check d p → Good w check d' p := by
  rintro ⟨out, h1, h2⟩
  refine ⟨out, formatsTo_congr h h1, fun hc => ?_⟩
  obtain ⟨f, h3, h4⟩ := h2 hc
  exact ⟨f, h3, by rw [← h f h3]; exact h4⟩

theorem outcome_disk_other {w : World} {check : Bool} {p : Text} {s s1 : Proc} {e : Option End}
    (h : Outcome w check p s (s1, e)) (g : Nat)
    (hg : check = true ∨ w.inode p ≠ some g) : s1.disk g = s.disk g := by
  obtain ⟨new, _, h2, h3⟩ := outcome_log h
  rw [h2]
  apply replay_silent
  intro o ho
  cases hw : o.writes g with
  | false => rfl
  | true =>
    obtain ⟨a, b, _⟩ := h3 o ho g hw
    rcases hg with hg | hg
    · simp [a] at hg
    · exact absurd b hg

theorem formatAll_exit (w : World) (check : Bool) (ps : List Text) : ∀ (s : Proc),
    (check = true ∨ DistinctFiles w ps) → s.code ≤ 1 →
    ∀ c, (formatAll w check ps s).2 = .exit c →
      c ≤ 1 ∧ (c = 0 ↔ s.code = 0 ∧ ∀ p ∈ ps, Good w check s.disk p) := by
  induction ps with
  | nil =>
    intro s _ hs c hc
    simp [formatAll] at hc
    subst hc
    simp [hs]
  | cons p ps ih =>
    intro s hd hs c hc
    rcases formatAll_cons w check p ps s with ⟨s1, h1, h2⟩ | ⟨s1, e, h1, h2⟩
    · rw [h2] at hc
      have hd' : check = true ∨ DistinctFiles w ps := hd.imp id (fun h => h.2)
      have hother : ∀ q ∈ ps, ∀ g, w.inode q = some g → s1.disk g = s.disk g := by
        intro q hq g hg
        apply outcome_disk_other h1
        rcases hd with h | h
        · exact .inl h
        · exact .inr fun hp => h.1 q hq g hp hg
      have hgood : (∀ q ∈ ps, Good w check s1.disk q) ↔ ∀ q ∈ ps, Good w check s.disk q :=
        ⟨fun h q hq => good_congr (hother q hq) (h q hq),
         fun h q hq => good_congr (fun f hf => (hother q hq f hf).symm) (h q hq)⟩
      have hcode : s1.code ≤ 1 ∧ (s1.code = 0 ↔ s.code = 0 ∧ Good w check s.disk p) := by
        cases h1 with
        | rejected hr _ =>
          refine ⟨by simp, by simp; rintro _ ⟨out, h, _⟩; exact not_both hr h⟩
        | passed hc' hf hcont _ => exact ⟨hs, by simp [Proc.emit]; exact fun _ => ⟨_, hf, fun _ => hcont⟩⟩
        | failed hc' hf hcont _ =>
          refine ⟨by simp, by simp; rintro _ ⟨out, h, h'⟩; exact hcont (formatsTo_inj h hf ▸ h' hc')⟩
        | written hc' hf hi =>
          refine ⟨hs, ?_⟩
          simp only [Proc.emit]
          exact ⟨fun h => ⟨h, _, hf, by simp [hc']⟩, fun h => h.1⟩
      obtain ⟨i1, i2⟩ := ih s1 hd' hcode.1 c hc
      refine ⟨i1, ?_⟩
      rw [i2, hcode.2, hgood]
      simp [and_assoc]
    · rw [h2] at hc
      cases h1 with
      | partly => simp at hc
      | crashed h3 => exact absurd hc (h3 c)

theorem formatAll_written (w : World) (ps : List Text) : ∀ (s : Proc), DistinctFiles w ps →
    ∀ c, (formatAll w false ps s).2 = .exit c →
    (∀ p ∈ ps, ∀ f out, w.inode p = some f → FormatsTo w s.disk p out →
      (formatAll w false ps s).1.disk f = some (encode out)) ∧
    (∀ f, (¬ ∃ p ∈ ps, w.inode p = some f ∧ ∃ out, FormatsTo w s.disk p out) →
      (formatAll w false ps s).1.disk f = s.disk f) := by
  induction ps with
  | nil => intro s _ c _; exact ⟨by simp, fun f _ => rfl⟩
  | cons p ps ih =>
    intro s hd c hc
    rcases formatAll_cons w false p ps s with ⟨s1, h1, h2⟩ | ⟨s1, e, h1, h2⟩
    · rw [h2] at hc ⊢
      obtain ⟨i1, i2⟩ := ih s1 hd.2 c hc
      have hother : ∀ q ∈ ps, ∀ g, w.inode q = some g → s1.disk g = s.disk g := by
        intro q hq g hg
        exact outcome_disk_other h1 g (.inr fun hp => hd.1 q hq g hp hg)
      constructor
      · intro q hq f out hf hfo
        simp at hq
        rcases hq with rfl | hq
        · have hnone : ¬ ∃ p ∈ ps, w.inode p = some f ∧ ∃ out, FormatsTo w s1.disk p out := by
            rintro ⟨r, hr, hrf, _⟩
            exact hd.1 r hr f hf hrf
          rw [i2 f hnone]
          rcases outcome_disk h1 with ⟨_, h | h⟩ | ⟨g, out', _, _, h4, h5, h6⟩ | ⟨_, _, _, _, h, _⟩
          · simp at h
          · exact absurd ⟨out, rfl, hfo⟩ h
          · rw [hf] at h5; simp at h5; subst h5
            rw [h6, formatsTo_inj h4 hfo]; simp
          · simp at h
        · exact i1 q hq f out hf (formatsTo_congr (fun g hg => (hother q hq g hg).symm) hfo)
      · intro f hnone
        have hn2 : ¬ ∃ p ∈ ps, w.inode p = some f ∧ ∃ out, FormatsTo w s1.disk p out := by
          rintro ⟨r, hr, hrf, out, hro⟩
          exact hnone ⟨r, by simp [hr], hrf, out, formatsTo_congr (hother r hr) hro⟩
        rw [i2 f hn2]
        rcases outcome_disk h1 with ⟨h, _⟩ | ⟨g, out', _, _, h4, h5, h6⟩ | ⟨_, _, _, _, h, _⟩
        · rw [h]
        · rw [h6]
          by_cases hfg : f = g
          · subst hfg
            exact absurd ⟨p, by simp, h5, out', h4⟩ hnone
          · simp [hfg]
        · simp at h
    · rw [h2] at hc
      cases h1 with
      | partly => simp at hc
      | crashed h3 => exact absurd hc (h3 c)

/-! ### Independence of the history -/

/-- Effect of processing, as a function of the disk only. -/
structure Delta where
  disk : Disk
  log : List Op
  bad : Bool

def Delta.on (x : Delta) (s : Proc) : Proc :=
  { disk := x.disk, log := s.log ++ x.log, code := if x.bad then 1 else s.code }

theorem writeFile_delta (w : World) (f : Nat) (b : Bytes) (d : Disk) :
    ∃ (x : Delta) (e : Option End), (∀ c, e ≠ some (.exit c)) ∧
      ∀ s : Proc, s.disk = d → writeFile w f b s = (x.on s, e) := by
  have two : ∀ b' : Bytes, ∀ s : Proc, s.disk = d → (s.emit (.truncate f)).emit (.append f b') =
      Delta.on ⟨(Op.append f b').apply ((Op.truncate f).apply d), [.truncate f, .append f b'], false⟩ s := by
    intro b' s hs
    simp [Delta.on, Proc.emit, ← hs]
  unfold writeFile
  cases w.sink f with
  | locked => exact ⟨⟨d, [], false⟩, some (.panic .io), by simp, fun s hs => by simp [Delta.on, ← hs]⟩
  | full n =>
    by_cases hn : b.length ≤ n
    · exact ⟨_, none, by simp, fun s hs => by simp only [hn, if_true]; rw [two b s hs]⟩
    · exact ⟨_, some (.panic .io), by simp, fun s hs => by simp only [hn, if_false]; rw [two (b.take n) s hs]⟩
  | free => exact ⟨_, none, by simp, fun s hs => by rw [two b s hs]⟩

theorem formatOne_delta (w : World) (check : Bool) (p : Text) (d : Disk) :
    ∃ (x : Delta) (e : Option End), (∀ c, e ≠ some (.exit c)) ∧
      ∀ s : Proc, s.disk = d → formatOne w check p s = (x.on s, e) := by
  have hread : ∀ s : Proc, s.disk = d → readFile w s p = readFile w ⟨d, [], 0⟩ p := by
    intro s hs; simp [readFile, hs]
  unfold formatOne
  cases h1 : readFile w ⟨d, [], 0⟩ p with
  | error m =>
    refine ⟨⟨d, [.err (p ++ c!": error: " ++ m)], true⟩, none, by simp, ?_⟩
    intro s hs
    rw [hread s hs, h1]
    simp [Delta.on, Proc.emit, Op.apply, hs]
  | ok src =>
    cases h2 : parse p src .StoredDefinition with
    | panic e =>
      refine ⟨⟨d, [], false⟩, some (.panic e), by simp, ?_⟩
      intro s hs
      rw [hread s hs, h1]
      simp [h2, Delta.on, ← hs]
    | fuel =>
      refine ⟨⟨d, [], false⟩, some .fuel, by simp, ?_⟩
      intro s hs
      rw [hread s hs, h1]
      simp [h2, Delta.on, ← hs]
    | ok q =>
      by_cases h3 : q.errors.isEmpty = true
      · cases h4 : output w q with
        | panic e =>
          refine ⟨⟨d, [], false⟩, some (.panic e), by simp, ?_⟩
          intro s hs
          rw [hread s hs, h1]
          simp only [h2, h3, h4, if_true]
          simp [Delta.on, ← hs]
        | fuel =>
          refine ⟨⟨d, [], false⟩, some .fuel, by simp, ?_⟩
          intro s hs
          rw [hread s hs, h1]
          simp only [h2, h3, h4, if_true]
          simp [Delta.on, ← hs]
        | ok out =>
          cases check with
          | true =>
            by_cases h5 : out = src
            · refine ⟨⟨d, [.out (p ++ c!": check passed")], false⟩, none, by simp, ?_⟩
              intro s hs
              rw [hread s hs, h1]
              simp only [h2, h3, h4, h5, if_true]
              simp [Delta.on, Proc.emit, Op.apply, ← hs]
            · refine ⟨⟨d, [.out (p ++ c!": check failed")], true⟩, none, by simp, ?_⟩
              intro s hs
              rw [hread s hs, h1]
              simp only [h2, h3, h4, h5, if_true, if_false]
              simp [Delta.on, Proc.emit, Op.apply, ← hs]
          | false =>
            cases h6 : w.inode p with
            | none =>
              refine ⟨⟨d, [], false⟩, some (.panic .io), by simp, ?_⟩
              intro s hs
              rw [hread s hs, h1]
              simp only [h2, h3, h4, if_true]
              simp [Delta.on, ← hs]
            | some f =>
              obtain ⟨x, e, k1, k2⟩ := writeFile_delta w f (encode out) d
              refine ⟨x, e, k1, ?_⟩
              intro s hs
              rw [hread s hs, h1]
              simp only [h2, h3, h4, if_true]
              exact k2 s hs
      · refine ⟨⟨d, [.out (c!"Syntax errors detected:\n" ++ joinLines q.errors)], true⟩, none,
          by simp, ?_⟩
        intro s hs
        rw [hread s hs, h1]
        simp only [h2, h3]
        simp [Delta.on, Proc.emit, Op.apply, hs]

/-- How a run ends, given whether it met a problem and the code before. -/
def endOfRun (bad : Bool) (code : Nat) : Option End → End
  | none => .exit (if bad then 1 else code)
  | some e => e

theorem formatAll_delta (w : World) (check : Bool) (ps : List Text) : ∀ (d : Disk),
    ∃ (x : Delta) (e : Option End), (∀ c, e ≠ some (.exit c)) ∧
      ∀ s : Proc, s.disk = d → formatAll w check ps s = (x.on s, endOfRun x.bad s.code e) := by
  induction ps with
  | nil =>
    intro d
    refine ⟨⟨d, [], false⟩, none, by simp, ?_⟩
    intro s hs
    simp [formatAll, Delta.on, endOfRun, ← hs]
  | cons p ps ih =>
    intro d
    obtain ⟨x, e, he, h1⟩ := formatOne_delta w check p d
    cases e with
    | some e =>
      refine ⟨x, some e, he, ?_⟩
      intro s hs
      rw [formatAll, h1 s hs]
      rfl
    | none =>
      obtain ⟨y, e', he', h2⟩ := ih x.disk
      refine ⟨⟨y.disk, x.log ++ y.log, x.bad || y.bad⟩, e', he', ?_⟩
      intro s hs
      rw [formatAll, h1 s hs]
      change formatAll w check ps (x.on s) = _
      rw [h2 (x.on s) rfl]
      cases hx : x.bad <;> cases hy : y.bad <;> cases e' <;> simp [Delta.on, endOfRun, hx, hy]

/-! ### Crashes -/

theorem crash_append {a b : List Op} {d x : Disk} (h : CrashState (a ++ b) d x) :
    CrashState a d x ∨ CrashState b (replay a d) x := by
  cases h with
  | @between pre post h =>
    rw [List.append_eq_append_iff] at h
    rcases h with ⟨c, h1, h2⟩ | ⟨c, h1, h2⟩
    · right
      rw [h1, replay_append]
      exact .between h2
    · left
      exact .between h1
  | @during pre f u v post h =>
    rw [List.append_eq_append_iff] at h
    rcases h with ⟨c, h1, h2⟩ | ⟨c, h1, h2⟩
    · right
      rw [h1, List.append_assoc, replay_append]
      exact .during h2
    · cases c with
      | nil =>
        simp at h1 h2
        right
        rw [← h1, replay_append]
        have : CrashState b (replay a d) (replay ([] ++ [.append f u]) (replay a d)) :=
          .during (pre := []) (v := v) (post := post) (by simp [h2])
        simpa using this
      | cons o c =>
        simp at h2
        obtain ⟨rfl, h2⟩ := h2
        left
        exact .during h1

theorem crash_silent {a : List Op} {d x : Disk} (hs : ∀ o ∈ a, ∀ f, o.writes f = false)
    (h : CrashState a d x) : x = d := by
  funext f
  cases h with
  | between h => exact replay_silent (fun o ho => hs o (by simp [h, ho]) f) d
  | @during pre g u v post h =>
    have := hs (.append g (u ++ v)) (by simp [h]) g
    simp [Op.writes] at this

/-- A state of the disk in which every file has its old content or its formatted text, except for at most
one file, which may contain a beginning of its formatted text. -/
def NearlyDone (w : World) (ps : List Text) (d x : Disk) : Prop :=
  ∃ g, (∀ f, f ≠ g → x f = d f ∨
      ∃ p ∈ ps, w.inode p = some f ∧ ∃ out, FormatsTo w d p out ∧ x f = some (encode out)) ∧
    (x g = d g ∨ ∃ p ∈ ps, w.inode p = some g ∧ ∃ out u v, FormatsTo w d p out ∧ encode out = u ++ v ∧ x g = some u)

theorem crash_pair {f : Nat} {out : Bytes} {d x : Disk}
    (h : CrashState [.truncate f, .append f out] d x) :
    (x = d ∨ ∃ u v, out = u ++ v ∧ x = fun g => if g = f then some u else d g) := by
  have two : ∀ u, replay [.truncate f, .append f u] d = fun g => if g = f then some u else d g := by
    intro u; funext g; exact write_twice f u d g
  cases h with
  | @between pre post h =>
    match pre, h with
    | [], _ => exact .inl rfl
    | [o], h =>
      simp at h
      obtain ⟨rfl, _⟩ := h
      refine .inr ⟨[], out, rfl, ?_⟩
      funext g; simp [replay, Op.apply]
    | [o, o'], h =>
      simp at h
      obtain ⟨rfl, rfl, _⟩ := h
      exact .inr ⟨out, [], by simp, two out⟩
    | o :: o' :: o'' :: r, h => simp at h
  | @during pre g u v post h =>
    match pre, h with
    | [], h => simp at h
    | [o], h =>
      simp at h
      obtain ⟨rfl, ⟨rfl, rfl⟩, _⟩ := h
      exact .inr ⟨u, v, rfl, two u⟩
    | o :: o' :: r, h => simp at h

theorem formatAll_crash (w : World) (ps : List Text) : ∀ (s : Proc), DistinctFiles w ps →
    ∀ new, (formatAll w false ps s).1.log = s.log ++ new → ∀ x, CrashState new s.disk x →
      NearlyDone w ps s.disk x := by
  induction ps with
  | nil =>
    intro s _ new hn x hx
    simp [formatAll] at hn
    subst hn
    have := crash_silent (by simp) hx
    subst this
    exact ⟨0, fun _ _ => .inl rfl, .inl rfl⟩
  | cons p ps ih =>
    intro s hd new hn x hx
    -- a crash while the first file is processed
    have first : ∀ s1 e, Outcome w false p s (s1, e) → ∃ new1, s1.log = s.log ++ new1 ∧
        s1.disk = replay new1 s.disk ∧
        (CrashState new1 s.disk x → NearlyDone w (p :: ps) s.disk x) := by
      intro s1 e ho
      have quiet : ∀ o : Op, (∀ f, o.writes f = false) → CrashState [o] s.disk x →
          NearlyDone w (p :: ps) s.disk x := by
        intro o ho h
        have := crash_silent (by simpa using ho) h
        subst this
        exact ⟨0, fun _ _ => .inl rfl, .inl rfl⟩
      cases ho with
      | rejected _ h2 => exact ⟨_, rfl, rfl, quiet _ h2⟩
      | passed h => simp at h
      | failed h => simp at h
      | @written f out h1 h2 h3 =>
        refine ⟨[.truncate f, .append f (encode out)], by simp [Proc.emit], rfl, ?_⟩
        intro h
        rcases crash_pair h with rfl | ⟨u, v, e, rfl⟩
        · exact ⟨0, fun _ _ => .inl rfl, .inl rfl⟩
        · refine ⟨f, fun g hg => .inl (by simp [hg]), .inr ⟨p, by simp, h3, out, u, v, h2, e, by simp⟩⟩
      | @partly f n out h1 h2 h3 =>
        refine ⟨[.truncate f, .append f ((encode out).take n)], by simp [Proc.emit], rfl, ?_⟩
        intro h
        rcases crash_pair h with rfl | ⟨u, v, e, rfl⟩
        · exact ⟨0, fun _ _ => .inl rfl, .inl rfl⟩
        · refine ⟨f, fun g hg => .inl (by simp [hg]), .inr ⟨p, by simp, h3, out, u, v ++ (encode out).drop n, h2, ?_, by simp⟩⟩
          rw [← List.append_assoc, ← e, List.take_append_drop]
      | crashed =>
        refine ⟨[], by simp, rfl, ?_⟩
        intro h
        have := crash_silent (by simp) h
        subst this
        exact ⟨0, fun _ _ => .inl rfl, .inl rfl⟩
    rcases formatAll_cons w false p ps s with ⟨s1, h1, h2⟩ | ⟨s1, e, h1, h2⟩
    · obtain ⟨new1, a1, a2, a3⟩ := first s1 none h1
      obtain ⟨new2, b1, _, _⟩ := formatAll_log w false ps s1
      rw [h2, b1, a1] at hn
      simp at hn
      subst hn
      rcases crash_append hx with hx | hx
      · exact a3 hx
      · rw [← a2] at hx
        obtain ⟨g, n1, n2⟩ := ih s1 hd.2 new2 b1 x hx
        have hother : ∀ q ∈ ps, ∀ k, w.inode q = some k → s1.disk k = s.disk k := by
          intro q hq k hk
          exact outcome_disk_other h1 k (.inr fun hp => hd.1 q hq k hp hk)
        have now : ∀ k, s1.disk k = s.disk k ∨ (w.inode p = some k ∧ ∃ out, FormatsTo w s.disk p out ∧
            s1.disk k = some (encode out)) := by
          intro k
          rcases outcome_disk h1 with ⟨h, _⟩ | ⟨f, out', _, _, h4, h5, h6⟩ | ⟨_, _, _, _, h, _⟩
          · exact .inl (by rw [h])
          · by_cases hk : k = f
            · subst hk; exact .inr ⟨h5, out', h4, by simp [h6]⟩
            · exact .inl (by simp [h6, hk])
          · simp at h
        refine ⟨g, ?_, ?_⟩
        · intro f hf
          rcases n1 f hf with h | ⟨q, hq, hqf, out, ho, hx'⟩
          · rcases now f with h' | ⟨k1, out, k2, k3⟩
            · exact .inl (by rw [h, h'])
            · exact .inr ⟨p, by simp, k1, out, k2, by rw [h, k3]⟩
          · exact .inr ⟨q, by simp [hq], hqf, out, formatsTo_congr (hother q hq) ho, hx'⟩
        · rcases n2 with h | ⟨q, hq, hqf, out, u, v, ho, e, hx'⟩
          · rcases now g with h' | ⟨k1, out, k2, k3⟩
            · exact .inl (by rw [h, h'])
            · exact .inr ⟨p, by simp, k1, out, encode out, [], k2, by simp, by rw [h, k3]⟩
          · exact .inr ⟨q, by simp [hq], hqf, out, u, v, formatsTo_congr (hother q hq) ho, e, hx'⟩
    · obtain ⟨new1, a1, a2, a3⟩ := first s1 (some e) h1
      rw [h2, a1] at hn
      simp at hn
      subst hn
      exact a3 hx

end Mofmt
