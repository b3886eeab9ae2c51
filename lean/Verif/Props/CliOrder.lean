import Verif.Props.CliReport
import Verif.Props.Parser
/-
The order of the paths on the command line, and one run instead of several: C84.
-/
namespace Mofmt

/-! ### What processing a file does to the disk, without the messages -/

theorem parse_name {name name' src : Text} {entry : SK} :
    (∀ q, parse name src entry = .ok q → ∃ q', parse name' src entry = .ok q' ∧ q'.tokens = q.tokens ∧
      q'.comments = q.comments ∧ q'.events = q.events ∧ (q'.errors = [] ↔ q.errors = [])) := by
  intro q h
  simp only [parse, Res.bind_eq_ok] at h
  obtain ⟨l, hl, ⟨evs, errs⟩, he, hq⟩ := h
  cases hq
  obtain ⟨es, h1, h2⟩ := (C41_name_irrelevant name name' src).1 l hl
  obtain ⟨errs', h3, h4⟩ := (C24_only_kinds name name' l.tokens l.tokens entry rfl).1 evs errs he
  refine ⟨⟨l.tokens, l.comments, evs, es ++ errs'⟩, ?_, rfl, rfl, rfl, ?_⟩
  · simp only [parse, h1, Res.bind_ok, h3]
  · rw [← List.length_eq_zero_iff, ← List.length_eq_zero_iff, List.length_append, List.length_append, h2, h4]

/-- The disk with other contents of a file. -/
def upd (d : Disk) (f : Nat) (b : Option Bytes) : Disk := fun g => if g = f then b else d g

theorem upd_same (d : Disk) (f : Nat) : upd d f (d f) = d := by
  funext g; simp only [upd]; split
  · rename_i h; rw [h]
  · rfl

def room : Sink → Bytes → Bool
  | .locked, _ => false
  | .full n, b => b.length ≤ n
  | .free, _ => true

/-- What becomes of the contents of a file, and whether there is something to complain about; `none` if the run ends. -/
def fileStep (w : World) (check : Bool) (f : Nat) : Option Bytes → Option (Option Bytes × Bool)
  | none => some (none, true)
  | some b =>
    match decode b with
    | none => some (some b, true)
    | some src =>
      match parse [] src .StoredDefinition with
      | .ok q =>
        if q.errors.isEmpty then
          match output w q with
          | .ok out =>
            if check then some (some b, !(out == src))
            else if room (w.sink f) (encode out) then some (some (encode out), false) else none
          | _ => none
        else some (some b, true)
      | _ => none

def diskStep (w : World) (check : Bool) (p : Text) (d : Disk) : Option (Disk × Bool) :=
  if isModelica p then
    match w.inode p with
    | none => some (d, true)
    | some f => (fileStep w check f (d f)).map fun x => (upd d f x.1, x.2)
  else some (d, true)

/-- Processing of a file agrees with `diskStep`. -/
def RunSteps (r : Proc × Option End) (code : Nat) : Option (Disk × Bool) → Prop
  | some (d, bad) => r.2 = none ∧ r.1.disk = d ∧ r.1.code = if bad then 1 else code
  | none => ∃ e, r.2 = some e ∧ ∀ c, e ≠ .exit c

theorem write_disk (s : Proc) (f : Nat) (b : Bytes) :
    ((s.emit (.truncate f)).emit (.append f b)).disk = upd s.disk f (some b) := by
  funext g
  simp only [Proc.emit, Op.apply, upd]
  by_cases h : g = f <;> simp [h]

theorem formatOne_step (w : World) (check : Bool) (p : Text) (s : Proc) :
    RunSteps (formatOne w check p s) s.code (diskStep w check p s.disk) := by
  unfold formatOne readFile diskStep
  by_cases hm : isModelica p
  · simp only [hm, if_true]
    cases hi : w.inode p with
    | none => exact ⟨rfl, rfl, rfl⟩
    | some f =>
      simp only [Option.bind_some]
      cases hd : s.disk f with
      | none =>
        refine ⟨rfl, ?_, rfl⟩
        show s.disk = upd s.disk f none
        rw [← hd, upd_same]
      | some b =>
        have hsame : s.disk = upd s.disk f (some b) := by rw [← hd, upd_same]
        simp only [fileStep]
        cases decode b with
        | none => exact ⟨rfl, hsame, rfl⟩
        | some src =>
          simp only
          cases hp : parse [] src .StoredDefinition with
          | panic e =>
            have : ∀ q, parse p src .StoredDefinition ≠ .ok q := by
              intro q hq
              obtain ⟨q', h, _⟩ := parse_name (name' := []) q hq
              rw [hp] at h; cases h
            cases hq : parse p src .StoredDefinition with
            | ok q => exact absurd hq (this q)
            | panic e => exact ⟨_, rfl, by simp⟩
            | fuel => exact ⟨_, rfl, by simp⟩
          | fuel =>
            have : ∀ q, parse p src .StoredDefinition ≠ .ok q := by
              intro q hq
              obtain ⟨q', h, _⟩ := parse_name (name' := []) q hq
              rw [hp] at h; cases h
            cases hq : parse p src .StoredDefinition with
            | ok q => exact absurd hq (this q)
            | panic e => exact ⟨_, rfl, by simp⟩
            | fuel => exact ⟨_, rfl, by simp⟩
          | ok q =>
            obtain ⟨q', h, h1, h2, h3, h4⟩ := parse_name (name' := p) q hp
            have ho : output w q' = output w q := by simp only [output, h1, h2, h3]
            have he : q'.errors.isEmpty = q.errors.isEmpty := by
              rw [Bool.eq_iff_iff]; simpa using h4
            rw [h]
            simp only [he, ho]
            by_cases hq : q.errors.isEmpty
            · simp only [hq, if_true]
              cases output w q with
              | panic e => exact ⟨_, rfl, by simp⟩
              | fuel => exact ⟨_, rfl, by simp⟩
              | ok out =>
                simp only
                cases check with
                | true =>
                  simp only [if_true]
                  by_cases hs : out = src
                  · rw [if_pos hs, beq_iff_eq.2 hs]
                    exact ⟨rfl, hsame, rfl⟩
                  · rw [if_neg hs, beq_eq_false_iff_ne.2 hs]
                    exact ⟨rfl, hsame, rfl⟩
                | false =>
                  simp only [Bool.false_eq_true, if_false, writeFile]
                  cases w.sink f with
                  | locked => exact ⟨_, rfl, by simp⟩
                  | free => exact ⟨rfl, write_disk .., rfl⟩
                  | full n =>
                    simp only [room]
                    by_cases hn : (encode out).length ≤ n
                    · simp only [hn, if_true, decide_true]
                      exact ⟨rfl, write_disk .., rfl⟩
                    · simp only [hn, if_false, decide_false]
                      exact ⟨_, rfl, by simp⟩
            · simp only [hq]
              exact ⟨rfl, hsame, rfl⟩
  · simp only [hm]
    exact ⟨rfl, rfl, rfl⟩

/-- All files, one after the other. -/
def diskSteps (w : World) (check : Bool) : List Text → Disk → Option (Disk × Bool)
  | [], d => some (d, false)
  | p :: ps, d => (diskStep w check p d).bind fun x => (diskSteps w check ps x.1).map fun y => (y.1, x.2 || y.2)

theorem formatAll_steps (w : World) (check : Bool) : ∀ (ps : List Text) (s : Proc),
    match diskSteps w check ps s.disk with
    | some (d, bad) => (formatAll w check ps s).2 = .exit (if bad then 1 else s.code) ∧ (formatAll w check ps s).1.disk = d
    | none => ∀ c, (formatAll w check ps s).2 ≠ .exit c
  | [], s => ⟨rfl, rfl⟩
  | p :: ps, s => by
    have h1 := formatOne_step w check p s
    simp only [diskSteps, formatAll]
    cases hs : diskStep w check p s.disk with
    | none =>
      rw [hs] at h1
      obtain ⟨e, h1, h2⟩ := h1
      cases hf : formatOne w check p s with
      | mk s1 e' =>
        rw [hf] at h1
        cases h1
        exact h2
    | some x =>
      rw [hs] at h1
      obtain ⟨h1, h2, h3⟩ := h1
      cases hf : formatOne w check p s with
      | mk s1 e' =>
        rw [hf] at h1 h2 h3
        cases h1
        have ih := formatAll_steps w check ps s1
        simp only at h2 h3
        rw [h2] at ih
        simp only [Option.bind_some]
        cases hr : diskSteps w check ps x.1 with
        | none => rw [hr] at ih; exact ih
        | some y =>
          rw [hr] at ih
          refine ⟨?_, ih.2⟩
          show (formatAll w check ps s1).2 = _
          rw [ih.1, h3]
          cases x.2 <;> cases y.2 <;> rfl

theorem diskStep_cases (w : World) (check : Bool) (p : Text) :
    (∀ d, diskStep w check p d = some (d, true)) ∨
      ∃ f, ∀ d, diskStep w check p d = (fileStep w check f (d f)).map fun x => (upd d f x.1, x.2) := by
  unfold diskStep
  by_cases hp : isModelica p
  · simp only [hp, if_true]
    cases hi : w.inode p with
    | none => exact .inl fun _ => rfl
    | some f => exact .inr ⟨f, fun _ => rfl⟩
  · exact .inl fun _ => by simp [hp]

theorem two_steps (w : World) (check : Bool) (p q : Text) (d : Disk) :
    ((diskStep w check p d).bind fun x => (diskStep w check q x.1).map fun y => (y.1, x.2 || y.2)) =
      (diskStep w check q d).bind fun x => (diskStep w check p x.1).map fun y => (y.1, x.2 || y.2) := by
  rcases diskStep_cases w check p with hp | ⟨f, hp⟩ <;> rcases diskStep_cases w check q with hq | ⟨g, hq⟩ <;>
    simp only [hp, hq]
  · cases h : fileStep w check g (d g) <;> simp [h]
  · cases h : fileStep w check f (d f) <;> simp [h]
  · by_cases hfg : f = g
    · subst hfg; rfl
    · have e1 : ∀ b, upd d f b g = d g := fun b => by simp [upd, Ne.symm hfg]
      have e2 : ∀ b, upd d g b f = d f := fun b => by simp [upd, hfg]
      have e3 : ∀ b b', upd (upd d f b) g b' = upd (upd d g b') f b := by
        intro b b'; funext k
        simp only [upd]
        by_cases h1 : k = g
        · subst h1; simp [Ne.symm hfg]
        · simp [h1]
      cases h1 : fileStep w check f (d f) <;> cases h2 : fileStep w check g (d g) <;>
        simp [e1, e2, h1, h2, e3, Bool.or_comm]

theorem diskSteps_perm {w : World} {check : Bool} {ps qs : List Text} (h : ps.Perm qs) :
    ∀ d, diskSteps w check ps d = diskSteps w check qs d := by
  induction h with
  | nil => intro d; rfl
  | cons p _ ih => intro d; simp only [diskSteps, ih]
  | swap p q ps =>
    intro d
    have := congrArg (fun o : Option (Disk × Bool) => o.bind fun x =>
      (diskSteps w check ps x.1).map fun y => (y.1, x.2 || y.2)) (two_steps w check q p d)
    simp only [diskSteps, Option.bind_assoc, Option.bind_map, Option.map_bind] at this ⊢
    simpa [Function.comp_def, Option.map_map, Bool.or_assoc] using this
  | trans _ _ ih1 ih2 => intro d; rw [ih1, ih2]

theorem collect_perm {w : World} {args args' : List Text} (h : args.Perm args') :
    ∀ fs, collect w args = .ok fs → ∃ fs', collect w args' = .ok fs' ∧ fs.Perm fs' := by
  induction h with
  | nil => intro fs h; exact ⟨fs, h, .refl _⟩
  | cons a _ ih =>
    intro fs h
    simp only [collect, Res.bind_eq_ok] at h ⊢
    obtain ⟨x, hx, y, hy, he⟩ := h
    cases he
    obtain ⟨y', h1, h2⟩ := ih y hy
    exact ⟨_, ⟨x, hx, y', h1, rfl⟩, h2.append_left x⟩
  | swap a b as =>
    intro fs h
    simp only [collect, Res.bind_eq_ok] at h ⊢
    obtain ⟨x, hx, y, ⟨z, hz, v, hv, he'⟩, he⟩ := h
    cases he; cases he'
    refine ⟨_, ⟨z, hz, _, ⟨x, hx, v, hv, rfl⟩, rfl⟩, ?_⟩
    rw [← List.append_assoc, ← List.append_assoc]
    exact List.perm_append_comm.append_right v
  | trans _ _ ih1 ih2 =>
    intro fs h
    obtain ⟨f1, h1, p1⟩ := ih1 fs h
    obtain ⟨f2, h2, p2⟩ := ih2 f1 h1
    exact ⟨f2, h2, p1.trans p2⟩

/-! ### C84 -/

/-- **C84** The order of the paths does not matter: if a run finishes, then with the same paths in any other order it finishes
with the same exit code and leaves all files with the same contents.  Paths may occur twice and lead to the same file. -/
theorem C84_order (w : World) (check : Bool) (args args' : List Text) (d : Disk) (c : Nat) (h : args.Perm args')
    (hc : (formatFiles w check args d).2 = .exit c) :
    (formatFiles w check args' d).2 = .exit c ∧ (formatFiles w check args' d).1.disk = (formatFiles w check args d).1.disk := by
  unfold formatFiles at hc ⊢
  cases hfs : collect w args with
  | panic e => simp [hfs] at hc
  | fuel => simp [hfs] at hc
  | ok fs =>
    obtain ⟨fs', h1, h2⟩ := collect_perm h fs hfs
    simp only [hfs, h1] at hc ⊢
    have a := formatAll_steps w check fs ⟨d, [], 0⟩
    have b := formatAll_steps w check fs' ⟨d, [], 0⟩
    have e : diskSteps w check fs' d = diskSteps w check fs d := (diskSteps_perm h2 d).symm
    simp only [e] at a b
    cases hr : diskSteps w check fs d with
    | none => rw [hr] at a; exact absurd hc (a c)
    | some y =>
      rw [hr] at a b
      rw [hc] at a
      exact ⟨by rw [b.1, ← a.1], by rw [b.2, a.2]⟩

theorem distinct_perm {w : World} {ps qs : List Text} (h : ps.Perm qs) : DistinctFiles w ps → DistinctFiles w qs := by
  induction h with
  | nil => exact id
  | cons p hp ih => exact fun h => ⟨fun q hq => h.1 q (hp.mem_iff.2 hq), ih h.2⟩
  | swap p q ps =>
    rintro ⟨h1, h2, h3⟩
    refine ⟨fun r hr f hf => ?_, fun r hr => h1 r (by simp [hr]), h3⟩
    rcases List.mem_cons.1 hr with rfl | hr
    · exact fun h => h1 p (by simp) f h hf
    · exact h2 r hr f hf
  | trans _ _ ih1 ih2 => exact fun h => ih2 (ih1 h)

theorem reports_perm {w : World} {check : Bool} {d : Disk} {fs fs' : List Text} (h : fs.Perm fs') :
    ∀ {rs rs'}, Reports w check d fs rs → Reports w check d fs' rs' → rs.Perm rs' := by
  have one : ∀ {fs rs rs'}, Reports w check d fs rs → Reports w check d fs rs' → rs = rs' := by
    intro fs rs rs' h
    induction h generalizing rs' with
    | nil => intro h'; cases h'; rfl
    | cons h1 _ ih => intro h'; cases h' with | cons k1 k2 => rw [C59_unique w check d _ _ _ h1 k1, ih k2]
  have ex : ∀ {fs fs' rs}, fs.Perm fs' → Reports w check d fs rs → ∃ rs', Reports w check d fs' rs' ∧ rs.Perm rs' := by
    intro fs fs' rs h
    induction h generalizing rs with
    | nil => exact fun h => ⟨_, h, .refl _⟩
    | cons p _ ih =>
      intro h; cases h with | cons k1 k2 =>
      obtain ⟨rs', h1, h2⟩ := ih k2
      exact ⟨_, .cons k1 h1, h2.cons _⟩
    | swap p q ps =>
      intro h; cases h with | cons k1 k2 => cases k2 with | cons k2 k3 =>
      exact ⟨_, .cons k2 (.cons k1 k3), .swap ..⟩
    | trans _ _ ih1 ih2 =>
      intro h
      obtain ⟨r1, h1, p1⟩ := ih1 h
      obtain ⟨r2, h2, p2⟩ := ih2 h1
      exact ⟨r2, h2, p1.trans p2⟩
  intro rs rs' h1 h2
  obtain ⟨rs'', h3, h4⟩ := ex h h1
  rwa [one h2 h3]

/-- **C84** What a run does and says about the files is the same in any other order of the paths: its report is cut into one piece
per file, and the report of the other run consists of the same pieces in another order.  In format mode the files are assumed to
be distinct. -/
theorem C84_reports (w : World) (check : Bool) (args args' fs : List Text) (d : Disk) (c : Nat) (h : args.Perm args')
    (hfs : collect w args = .ok fs) (hd : check = true ∨ DistinctFiles w fs) (hc : (formatFiles w check args d).2 = .exit c) :
    ∃ fs' rs rs', collect w args' = .ok fs' ∧ fs.Perm fs' ∧ Reports w check d fs rs ∧ Reports w check d fs' rs' ∧ rs.Perm rs' ∧
      (formatFiles w check args d).1.log = rs.flatten ∧ (formatFiles w check args' d).1.log = rs'.flatten := by
  obtain ⟨fs', h1, h2⟩ := collect_perm h fs hfs
  obtain ⟨rs, h3, h4⟩ := C59_reports w check args fs d c hfs hd hc
  obtain ⟨rs', h5, h6⟩ := C59_reports w check args' fs' d c h1 (hd.imp id (distinct_perm h2)) (C84_order w check args args' d c h hc).1
  exact ⟨fs', rs, rs', h1, h2, h3, h5, reports_perm h2 h3 h5, h4, h6⟩

theorem collect_append (w : World) : ∀ (a b fs gs : List Text), collect w a = .ok fs → collect w b = .ok gs →
    collect w (a ++ b) = .ok (fs ++ gs)
  | [], _, _, _, h, h' => by cases h; exact h'
  | a :: as, b, fs, gs, h, h' => by
    simp only [collect, Res.bind_eq_ok, List.cons_append] at h ⊢
    obtain ⟨x, hx, y, hy, he⟩ := h
    cases he
    exact ⟨x, hx, _, collect_append w as b y gs hy h', by simp⟩

theorem formatAll_append (w : World) (check : Bool) : ∀ (a b : List Text) (s : Proc),
    formatAll w check (a ++ b) s = match formatAll w check a s with
      | (s', .exit _) => formatAll w check b s'
      | r => r
  | [], b, s => rfl
  | p :: a, b, s => by
    have h1 := formatOne_step w check p s
    simp only [List.cons_append, formatAll]
    cases hf : formatOne w check p s with
    | mk s1 e =>
      cases e with
      | none => exact formatAll_append w check a b s1
      | some e =>
        rw [hf] at h1
        cases hs : diskStep w check p s.disk with
        | none =>
          rw [hs] at h1
          obtain ⟨e', h1, h2⟩ := h1
          cases h1
          cases e with
          | exit c => exact absurd rfl (h2 c)
          | panic _ => rfl
          | fuel => rfl
        | some x => rw [hs] at h1; cases h1.1

theorem formatAll_exit_code (w : World) (check : Bool) : ∀ (ps : List Text) (s : Proc) (c : Nat),
    (formatAll w check ps s).2 = .exit c → (formatAll w check ps s).1.code = c
  | [], s, c, h => by simp only [formatAll] at h ⊢; cases h; rfl
  | p :: ps, s, c, h => by
    have h1 := formatOne_step w check p s
    simp only [formatAll] at h ⊢
    cases hf : formatOne w check p s with
    | mk s1 e =>
      rw [hf] at h h1
      cases e with
      | none => exact formatAll_exit_code w check ps s1 c h
      | some e =>
        cases hs : diskStep w check p s.disk with
        | none => rw [hs] at h1; obtain ⟨e', h1, h2⟩ := h1; cases h1; exact absurd h (h2 c)
        | some x => rw [hs] at h1; cases h1.1

/-- **C84** One run over all paths does the same as two runs one after the other, each over a part of them: it ends as the first
one if that one does not finish, otherwise as the second one, except that the exit code also tells about the first one; what is
done and said is the same in the same order.  All directories are assumed to be listable. -/
theorem C84_apart (w : World) (check : Bool) (a b fs gs : List Text) (d : Disk)
    (hf : collect w a = .ok fs) (hg : collect w b = .ok gs) :
    ((∀ c, (formatFiles w check a d).2 ≠ .exit c) ∧ formatFiles w check (a ++ b) d = formatFiles w check a d) ∨
    ∃ c, (formatFiles w check a d).2 = .exit c ∧
      (formatFiles w check (a ++ b) d).1.disk = (formatFiles w check b (formatFiles w check a d).1.disk).1.disk ∧
      (formatFiles w check (a ++ b) d).1.log =
        (formatFiles w check a d).1.log ++ (formatFiles w check b (formatFiles w check a d).1.disk).1.log ∧
      (formatFiles w check (a ++ b) d).2 = match (formatFiles w check b (formatFiles w check a d).1.disk).2 with
        | .exit c' => .exit (max c c')
        | e => e := by
  unfold formatFiles
  simp only [hf, hg, collect_append w a b fs gs hf hg]
  rw [formatAll_append]
  cases hr : formatAll w check fs ⟨d, [], 0⟩ with
  | mk s1 e =>
    cases e with
    | panic p => exact .inl ⟨by simp, rfl⟩
    | fuel => exact .inl ⟨by simp, rfl⟩
    | exit c =>
      right
      refine ⟨c, rfl, ?_⟩
      have hcode := formatAll_exit_code w check fs ⟨d, [], 0⟩ c (by rw [hr])
      rw [hr] at hcode
      have h01 := formatAll_steps w check fs ⟨d, [], 0⟩
      obtain ⟨x, e, he, hx⟩ := formatAll_delta w check gs s1.disk
      simp only
      rw [hx s1 rfl, hx ⟨s1.disk, [], 0⟩ rfl]
      refine ⟨rfl, by simp [Delta.on], ?_⟩
      have hc : c = 0 ∨ c = 1 := by
        cases hs : diskSteps w check fs d with
        | none => simp only [hs, hr] at h01; exact absurd rfl (h01 c)
        | some y =>
          simp only [hs, hr] at h01
          have := h01.1
          simp only [End.exit.injEq] at this
          split at this <;> omega
      simp only at hcode
      cases e with
      | some e =>
        cases e with
        | exit c' => exact absurd rfl (he c')
        | panic _ => rfl
        | fuel => rfl
      | none =>
        simp only [endOfRun, hcode]
        cases x.bad
        · simp
        · rcases hc with rfl | rfl <;> rfl

theorem collect_locked {w : World} : ∀ {args : List Text}, (∃ a ∈ args, HasLocked (w.tree a)) → collect w args = .panic .io
  | [], h => by obtain ⟨a, h, _⟩ := h; simp at h
  | a :: as, h => by
    simp only [collect]
    have ha : argFiles w a = .panic .io ∨ (∃ fs, argFiles w a = .ok fs) ∧ ¬ HasLocked (w.tree a) := by
      unfold argFiles
      cases ht : w.tree a with
      | leaf => exact .inr ⟨⟨_, rfl⟩, fun h => by cases h⟩
      | locked => exact .inl rfl
      | dir es =>
        by_cases hl : HasLocked (.dir es)
        · exact .inl ((filesFrom_ok a _).2 hl)
        · exact .inr ⟨(filesFrom_ok a _).1 hl, hl⟩
    rcases ha with ha | ⟨⟨fs, ha⟩, hn⟩
    · rw [ha]; rfl
    · obtain ⟨b, hb, hl⟩ := h
      rcases List.mem_cons.1 hb with rfl | hb
      · exact absurd hl hn
      · rw [ha, Res.bind_ok, collect_locked ⟨b, hb, hl⟩]; rfl

/-- **C84** A directory that cannot be listed, anywhere among the paths or below them, ends the run before anything is done or said.
Here one run differs from several. -/
theorem C84_locked (w : World) (check : Bool) (args : List Text) (d : Disk) (h : ∃ a ∈ args, HasLocked (w.tree a)) :
    (formatFiles w check args d).2 = .panic .io ∧ (formatFiles w check args d).1.log = [] ∧
      (formatFiles w check args d).1.disk = d := by
  simp [formatFiles, collect_locked h]

/-- Three paths, two of which lead to the same file, in two orders: one file has a syntax error, the other one is rewritten twice. -/
theorem C84_case :
    (main exWorld [c!"a.mo", c!"b.mo", c!"s"] exDisk).2 = .exit 1 ∧
    (main exWorld [c!"s", c!"b.mo", c!"a.mo"] exDisk).2 = .exit 1 ∧
    (main exWorld [c!"a.mo", c!"b.mo", c!"s"] exDisk).1.disk 0 = some (encode c!"model A\n\nend A;\n") ∧
    (main exWorld [c!"s", c!"b.mo", c!"a.mo"] exDisk).1.disk 0 = some (encode c!"model A\n\nend A;\n") ∧
    (main exWorld [c!"--check", c!"a.mo", c!"b.mo"] exDisk).1.log =
      [.out c!"a.mo: check failed", .out c!"Syntax errors detected:\nb.mo:1:16: expected ';', found 'end'"] ∧
    (main exWorld [c!"--check", c!"b.mo", c!"a.mo"] exDisk).1.log =
      [.out c!"Syntax errors detected:\nb.mo:1:16: expected ';', found 'end'", .out c!"a.mo: check failed"] := by
  refine ⟨by decide_cbv, by decide_cbv, by decide_cbv, by decide_cbv, by decide_cbv, by decide_cbv⟩

/-- For a run that does not finish the order matters: a file is rewritten or not, depending on whether it is named before the
file on which the parser panics.  And a directory that cannot be listed keeps a file from being rewritten that is named before it. -/
theorem C84_unfinished_false :
    (main exWorld [c!"c.mo", c!"a.mo"] exDisk).1.log = [] ∧
    (main exWorld [c!"a.mo", c!"c.mo"] exDisk).1.log = [.truncate 0, .append 0 (encode c!"model A\n\nend A;\n")] ∧
    (main { exWorld with tree := fun p => if p = c!"x" then .locked else .leaf } [c!"a.mo", c!"x"] exDisk).1.log = [] ∧
    (main { exWorld with tree := fun p => if p = c!"x" then .locked else .leaf } [c!"a.mo"] exDisk).1.log =
      [.truncate 0, .append 0 (encode c!"model A\n\nend A;\n")] := by
  refine ⟨by decide_cbv, by decide_cbv, by decide_cbv, by decide_cbv⟩

#print axioms C84_order
#print axioms C84_reports
#print axioms C84_apart
#print axioms C84_locked

end Mofmt
