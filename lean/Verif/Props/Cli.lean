import Verif.Proofs.CliRun
/-
Properties of the command line program: C28 - C34, C36.
-/
namespace Mofmt

/-! ### A concrete environment used in examples and witnesses -/

/-- Three files: `a.mo` (0) can be reformatted, `b.mo` (1) has a syntax error, `c.mo` (2) makes the parser
panic; `d.txt` (3) is not a Modelica file; `s` is a directory that contains `a.mo` and `d.txt`. -/
def exWorld : World where
  tree p := if p = c!"s" then .dir [(c!"a.mo", .leaf), (c!"d.txt", .leaf)] else .leaf
  inode p :=
    if p = c!"a.mo" ∨ p = c!"s/a.mo" then some 0
    else if p = c!"b.mo" then some 1
    else if p = c!"c.mo" then some 2
    else if p = c!"d.txt" ∨ p = c!"s/d.txt" then some 3
    else none
  sink _ := .free
  complaint _ := c!"No such file or directory (os error 2)"
  eol := c!"\n"

def exDisk : Disk := fun f =>
  if f = 0 then some (encode c!"model A  end A;") else if f = 1 then some (encode c!"model B Real x end B;")
  else if f = 2 then some (encode c!"model") else if f = 3 then some (encode c!"text") else none

/-! ### C28 -/

/-- **C28** With `--check` no file changes, whatever the files contain and however the run ends: no
operation of the run writes to a file (so a crash at any moment is harmless, too). -/
theorem C28_check_never_writes (w : World) (args : List Text) (d : Disk) :
    (main w (c!"--check" :: args) d).1.disk = d ∧
    ∀ o ∈ (main w (c!"--check" :: args) d).1.log, ∀ f, o.writes f = false := by
  have key : ∀ s : Proc, (∀ fs, ∃ new, (formatAll w true fs s).1.log = s.log ++ new ∧
      (formatAll w true fs s).1.disk = s.disk ∧ ∀ o ∈ new, ∀ f, o.writes f = false) := by
    intro s fs
    obtain ⟨new, h1, h2, h3⟩ := formatAll_log w true fs s
    have h4 : ∀ o ∈ new, ∀ f, o.writes f = false := by
      intro o ho f
      cases hw : o.writes f with
      | false => rfl
      | true => have := (h3 o ho f hw).1; simp at this
    refine ⟨new, h1, ?_, h4⟩
    rw [h2]; funext f
    exact replay_silent (fun o ho => h4 o ho f) _
  simp only [main]
  split
  · rename_i h; simp at h
  · split
    · rename_i h; simp at h
    · simp only [if_true]
      split
      · simp [Proc.emit, Op.apply, Op.writes]
      · unfold formatFiles
        cases hc : collect w args with
        | ok fs =>
          obtain ⟨new, h1, h2, h3⟩ := key ⟨d, [], 0⟩ fs
          dsimp only
          rw [h1, h2]
          simpa using h3
        | panic e => simp
        | fuel => simp

/-- Check mode on one file that would be changed, one with an error, one that makes the run panic. -/
example : (main exWorld [c!"--check", c!"s", c!"b.mo", c!"c.mo"] exDisk).2 = .panic .assert ∧
    (main exWorld [c!"--check", c!"s", c!"b.mo", c!"c.mo"] exDisk).1.log.length = 2 := by
  decide_cbv

/-! ### C29 -/

/-- **C29** A file for which the parser reports errors (under every listed path that leads to it) is not
written at any moment, keeps its content, and if the run finishes its exit code is 1. -/
theorem C29_errors_untouched (w : World) (check : Bool) (args fs : List Text) (d : Disk) (f : Nat)
    (src p : Text) (hfs : collect w args = .ok fs) (hp : p ∈ fs) (hpf : w.inode p = some f)
    (hd : d f = some (encode src))
    (hbad : ∀ q ∈ fs, w.inode q = some f →
      ∃ r, parse q src .StoredDefinition = .ok r ∧ r.errors ≠ []) :
    (∀ o ∈ (formatFiles w check args d).1.log, o.writes f = false) ∧
    (formatFiles w check args d).1.disk f = some (encode src) ∧
    ∀ c, (formatFiles w check args d).2 = .exit c → c = 1 := by
  have hrej : ∀ q ∈ fs, w.inode q = some f → Rejected w d q := by
    intro q hq hqf
    obtain ⟨r, h1, h2⟩ := hbad q hq hqf
    exact .inr (.inr ⟨src, r, ⟨f, hqf, hd⟩, h1, h2⟩)
  obtain ⟨⟨new, h1, h2⟩, h3, h4⟩ := formatAll_rejected w check f fs ⟨d, [], 0⟩ hrej
  unfold formatFiles
  simp only [hfs]
  refine ⟨?_, by rw [h3]; exact hd, h4 (.inr ⟨p, hp, hpf⟩)⟩
  rw [h1]; simpa using h2

example : collect exWorld [c!"a.mo", c!"b.mo"] = .ok [c!"a.mo", c!"b.mo"] ∧
    (match parse c!"b.mo" c!"model B Real x end B;" .StoredDefinition with
      | .ok r => r.errors != [] | _ => false) = true ∧
    (main exWorld [c!"a.mo", c!"b.mo"] exDisk).2 = .exit 1 := by
  decide_cbv

/-! ### C30 -/

/-- **C30** When a run over the files `fs` finishes with an exit code, the code is 0 or 1, and it is 0
exactly if every listed file was readable Modelica, parsed without errors, and (in check mode) equal to its
formatted text.  In format mode the files are assumed to be distinct. -/
theorem C30_exit_code (w : World) (check : Bool) (args fs : List Text) (d : Disk) (c : Nat)
    (hfs : collect w args = .ok fs) (hd : check = true ∨ DistinctFiles w fs)
    (hc : (formatFiles w check args d).2 = .exit c) :
    (c = 0 ∨ c = 1) ∧
    (c = 0 ↔ ∀ p ∈ fs, ∃ out, FormatsTo w d p out ∧ (check = true → Contains w d p out)) := by
  unfold formatFiles at hc
  simp only [hfs] at hc
  have := formatAll_exit w check fs ⟨d, [], 0⟩ hd (by simp) c hc
  refine ⟨by omega, ?_⟩
  rw [this.2]
  simp [Good]

/-- A run that did not finish (a panic) does not have exit code 0. -/
theorem C30_panic_not_zero (e : End) (h : e.code = some 0) : e = .exit 0 := by
  cases e <;> simp_all [End.code]

/-- Wrong usage never looks like success: without any path the exit code is 1. -/
theorem C30_usage (w : World) (d : Disk) : (main w [] d).2 = .exit 1 ∧
    (main w [c!"--check"] d).2 = .exit 1 := by
  constructor <;> rfl

/-- The exit code is 0 after formatting, 1 when the unformatted file is checked. -/
example : (main exWorld [c!"a.mo"] exDisk).2 = .exit 0 ∧
    (main exWorld [c!"--check", c!"a.mo"] exDisk).2 = .exit 1 ∧
    (main exWorld [c!"--check", c!"a.mo"] (main exWorld [c!"a.mo"] exDisk).1.disk).2 = .exit 0 := by
  decide_cbv

/-! ### C31 -/

/-- **C31** Listing a directory gives exactly the files below it whose name ends in `.mo` (after at least one
character), unless some directory cannot be listed, in which case the run panics before any file is
touched. -/
theorem C31_directory_listing (p : Text) (t : DirTree) :
    (∀ fs, filesFrom p t = .ok fs → ∀ q, q ∈ fs ↔ Below p t q ∧ ModelicaName q) ∧
    (¬ HasLocked t → ∃ fs, filesFrom p t = .ok fs) ∧
    (HasLocked t → filesFrom p t = .panic .io) :=
  ⟨fun _ h => filesFrom_spec p t h, (filesFrom_ok p t).1, (filesFrom_ok p t).2⟩

/-- **C31** Every write of a run goes to a file reached by a listed path that ends in `.mo`. -/
theorem C31_only_modelica_written (w : World) (args : List Text) (d : Disk) :
    ∀ o ∈ (main w args d).1.log, ∀ f, o.writes f = true →
      ∃ fs p, collect w args = .ok fs ∧ p ∈ fs ∧ ModelicaName p ∧ w.inode p = some f := by
  have key : ∀ check as, ∀ o ∈ (formatFiles w check as d).1.log, ∀ f, o.writes f = true →
      check = false ∧ ∃ fs p, collect w as = .ok fs ∧ p ∈ fs ∧ ModelicaName p ∧ w.inode p = some f := by
    intro check as o ho f hw
    unfold formatFiles at ho
    cases hc : collect w as with
    | ok fs =>
      simp only [hc] at ho
      obtain ⟨new, h1, _, h3⟩ := formatAll_log w check fs ⟨d, [], 0⟩
      rw [h1] at ho
      simp at ho
      obtain ⟨k1, p, k2, k3, k4⟩ := h3 o ho f hw
      exact ⟨k1, fs, p, rfl, k2, k3, k4⟩
    | panic e => simp [hc] at ho
    | fuel => simp [hc] at ho
  intro o ho f hw
  unfold main at ho
  split at ho
  · simp [Proc.emit] at ho; subst ho; simp [Op.writes] at hw
  · rename_i a rest
    dsimp only at ho
    split at ho
    · simp [Proc.emit] at ho; subst ho; simp [Op.writes] at hw
    · split at ho
      · simp [Proc.emit] at ho; subst ho; simp [Op.writes] at hw
      · split at ho
        · split at ho
          · simp [Proc.emit] at ho; subst ho; simp [Op.writes] at hw
          · have := (key _ _ o ho f hw).1
            simp at this
        · split at ho
          · simp [Proc.emit] at ho; subst ho; simp [Op.writes] at hw
          · exact (key _ _ o ho f hw).2

/-- A directory with a Modelica file and another file; `.mo` alone is not a Modelica file name. -/
example : collect exWorld [c!"s"] = .ok [c!"s/a.mo"] ∧ isModelica c!".mo" = false ∧
    isModelica c!"x.y.mo" = true ∧ isModelica c!"x.mo/y" = false := by
  decide_cbv

/-! ### C32 -/

/-- **C32** After a format run over distinct files that finished, every listed Modelica file that parsed
without errors contains the formatted text of its old content followed by the end of line, and every other
file is unchanged. -/
theorem C32_writes_formatted (w : World) (args fs : List Text) (d : Disk) (c : Nat)
    (hfs : collect w args = .ok fs) (hd : DistinctFiles w fs)
    (hc : (formatFiles w false args d).2 = .exit c) :
    (∀ p ∈ fs, ∀ f src q, w.inode p = some f → d f = some (encode src) → ModelicaName p →
      parse p src .StoredDefinition = .ok q → q.errors = [] →
      ∃ t, prettyPrint w.eol q.tokens q.comments q.events = .ok t ∧
        (formatFiles w false args d).1.disk f = some (encode (t ++ w.eol))) ∧
    (∀ f, (¬ ∃ p ∈ fs, w.inode p = some f ∧ ∃ out, FormatsTo w d p out) →
      (formatFiles w false args d).1.disk f = d f) := by
  unfold formatFiles at hc ⊢
  simp only [hfs] at hc ⊢
  obtain ⟨h1, h2⟩ := formatAll_written w fs ⟨d, [], 0⟩ hd c hc
  refine ⟨?_, h2⟩
  intro p hp f src q hpf hdf hm hpq hqe
  -- the run finished, so pretty-printing this file did not panic
  have hex : ∃ out, FormatsTo w d p out := by
    have := formatAll_exit w false fs ⟨d, [], 0⟩ (.inr hd) (by simp) c hc
    by_cases hc0 : c = 0
    · obtain ⟨out, h, _⟩ := (this.2.1 hc0).2 p hp
      exact ⟨out, h⟩
    · -- some other file was bad; look at the run again
      have aux : ∀ (ps : List Text) (s : Proc), DistinctFiles w ps → p ∈ ps → s.disk f = some (encode src) →
          (∃ c, (formatAll w false ps s).2 = .exit c) → ∃ out, FormatsTo w s.disk p out := by
        intro ps
        induction ps with
        | nil => intro s _ h; simp at h
        | cons r ps ih =>
          intro s hds hmem hsf ⟨c, hcc⟩
          rcases formatAll_cons w false r ps s with ⟨s1, k1, k2⟩ | ⟨s1, e, k1, k2⟩
          · simp at hmem
            rcases hmem with rfl | hmem
            · cases k1 with
              | rejected hr _ =>
                rcases hr with hr | hr | ⟨src', q', hr1, hr2, hr3⟩
                · exact absurd hm hr
                · exact absurd ⟨src, f, hpf, hsf⟩ hr
                · have := contains_inj hr1 ⟨f, hpf, hsf⟩
                  subst this
                  rw [hpq] at hr2; simp at hr2; subst hr2
                  exact absurd hqe hr3
              | passed h => simp at h
              | failed h => simp at h
              | written _ h _ => exact ⟨_, h⟩
            · rw [k2] at hcc
              have hsame : s1.disk f = s.disk f :=
                outcome_disk_other k1 f (.inr fun h => hds.1 p hmem f h hpf)
              obtain ⟨out, ho⟩ := ih s1 hds.2 hmem (by rw [hsame]; exact hsf) ⟨c, hcc⟩
              refine ⟨out, formatsTo_congr ?_ ho⟩
              intro g hg
              rw [hpf] at hg; simp at hg; subst hg; exact hsame
          · rw [k2] at hcc
            cases k1 with
            | partly => simp at hcc
            | crashed h3 => exact absurd hcc (h3 c)
      exact aux fs ⟨d, [], 0⟩ hd hp hdf ⟨c, hc⟩
  obtain ⟨out, ho⟩ := hex
  obtain ⟨src', q', t, m1, m2, m3, m4, m5, m6⟩ := id ho
  have e1 := contains_inj m2 ⟨f, hpf, hdf⟩
  subst e1
  rw [hpq] at m3; simp at m3; subst m3
  exact ⟨t, m5, by rw [h1 p hp f out hpf ho, m6]⟩

/-- The distinct-file hypothesis is met and the file changes. -/
example : (main exWorld [c!"b.mo", c!"a.mo"] exDisk).2 = .exit 1 ∧
    (main exWorld [c!"b.mo", c!"a.mo"] exDisk).1.disk 0 = some (encode c!"model A\n\nend A;\n") ∧
    (main exWorld [c!"b.mo", c!"a.mo"] exDisk).1.disk 1 = exDisk 1 := by
  decide_cbv

example : DistinctFiles exWorld [c!"b.mo", c!"a.mo"] := by
  refine ⟨?_, ?_, trivial⟩
  · intro q hq f h1 h2
    simp at hq; subst hq
    have a : exWorld.inode c!"b.mo" = some 1 := by decide
    have b : exWorld.inode c!"a.mo" = some 0 := by decide
    rw [a] at h1; rw [b] at h2
    simp at h1 h2; omega
  · intro q hq; simp at hq

/-! ### C33 -/

/-- **C33 is false** as stated: a file with a syntax error that makes the parser panic ends the run, the
files listed after it are not processed. -/
theorem C33_false : (main exWorld [c!"c.mo", c!"a.mo"] exDisk).2 = .panic .assert ∧
    (main exWorld [c!"c.mo", c!"a.mo"] exDisk).1.log = [] ∧
    (main exWorld [c!"a.mo"] exDisk).2 = .exit 0 ∧
    (main exWorld [c!"a.mo"] exDisk).1.disk 0 ≠ exDisk 0 := by
  decide_cbv

/-- **C33** (what holds): a file that is unreadable, not Modelica, or for which errors are *reported*, and
whose file is not listed before it, does not influence the rest of the run: without it the disk afterwards is
the same, and the operations are the same except for its message.  Missing: files that make the parser
panic. -/
theorem C33_partial (w : World) (check : Bool) (a b : List Text) (p : Text) (s : Proc)
    (hp : Rejected w s.disk p)
    (hother : ∀ q ∈ a, ∀ f, w.inode q = some f → w.inode p ≠ some f) :
    (formatAll w check (a ++ p :: b) s).1.disk = (formatAll w check (a ++ b) s).1.disk ∧
    ((∃ c, (formatAll w check (a ++ p :: b) s).2 = .exit c) ↔
      ∃ c, (formatAll w check (a ++ b) s).2 = .exit c) ∧
    ∃ l1 l2 l3, (formatAll w check (a ++ p :: b) s).1.log = l1 ++ l2 ++ l3 ∧
      (formatAll w check (a ++ b) s).1.log = l1 ++ l3 ∧ ∀ o ∈ l2, ∀ f, o.writes f = false := by
  induction a generalizing s with
  | nil =>
    simp only [List.nil_append]
    obtain ⟨y, e, he, hy⟩ := formatAll_delta w check b s.disk
    rcases formatAll_cons w check p b s with ⟨s1, h1, h2⟩ | ⟨s1, e, h1, h2⟩
    · cases h1 with
      | @rejected o _ h3 =>
        have hd : ({ s.emit o with code := 1 } : Proc).disk = s.disk := apply_silent h3 _
        rw [h2, hy _ hd, hy s rfl]
        refine ⟨rfl, ?_, ⟨s.log, [o], y.log, by simp [Delta.on, Proc.emit], by simp [Delta.on],
          by simpa using h3⟩⟩
        cases e with
        | none => simp [endOfRun]
        | some e =>
          simp only [endOfRun]
      | passed _ h _ _ => exact absurd h (fun h => not_both hp h)
      | failed _ h _ _ => exact absurd h (fun h => not_both hp h)
      | written _ h _ => exact absurd h (fun h => not_both hp h)
    · cases h1 with
      | partly _ h _ => exact absurd h (fun h => not_both hp h)
      | crashed _ h => exact absurd hp h
  | cons q a ih =>
    simp only [List.cons_append]
    obtain ⟨x, e, he, hx⟩ := formatOne_delta w check q s.disk
    simp only [formatAll]
    have ho := formatOne_outcome w check q s
    rw [hx s rfl] at ho ⊢
    cases e with
    | some e =>
      exact ⟨rfl, Iff.rfl, ⟨_, [], [], by simp; rfl, by simp, by simp⟩⟩
    | none =>
      refine ih (x.on s) ?_ (fun r hr => hother r (by simp [hr]))
      refine rejected_congr ?_ hp
      intro f hf
      exact (outcome_disk_other ho f (.inr fun h => hother q (by simp) f h hf)).symm

/-- The hypotheses are met by a file with a reported error between two others. -/
example : (main exWorld [c!"b.mo", c!"s"] exDisk).1.disk 0 = some (encode c!"model A\n\nend A;\n") ∧
    (main exWorld [c!"s"] exDisk).1.disk 0 = some (encode c!"model A\n\nend A;\n") ∧
    (main exWorld [c!"b.mo", c!"s"] exDisk).2 = .exit 1 ∧ (main exWorld [c!"s"] exDisk).2 = .exit 0 := by
  decide_cbv

/-! ### C34 -/

/-- **C34 is false**: `fs::write` first empties the file, so a crash can leave an empty file that is neither
the old nor the new text. -/
theorem C34_false : ∃ (w : World) (args : List Text) (d : Disk) (old new : Text) (x : Disk),
    d 0 = some (encode old) ∧ (main w args d).1.disk 0 = some (encode new) ∧ CrashState (main w args d).1.log d x ∧
    x 0 ≠ some (encode old) ∧ x 0 ≠ some (encode new) := by
  refine ⟨exWorld, [c!"a.mo"], exDisk, c!"model A  end A;", c!"model A\n\nend A;\n",
    replay [.truncate 0] exDisk, by decide, by decide_cbv, ?_, by decide, by decide⟩
  have : (main exWorld [c!"a.mo"] exDisk).1.log =
      [.truncate 0] ++ [.append 0 (encode c!"model A\n\nend A;\n")] := by decide_cbv
  exact .between this

/-- **C34** (what holds): whenever the process dies during a format run over distinct files, or writing fails, every
file contains its old bytes or its formatted text, except for at most one file, which contains a beginning of the bytes
of its formatted text.  Missing: that this one file is intact, which is false. -/
theorem C34_partial (w : World) (args fs : List Text) (d x : Disk) (hfs : collect w args = .ok fs)
    (hd : DistinctFiles w fs) (hx : CrashState (formatFiles w false args d).1.log d x) :
    ∃ g, (∀ f, f ≠ g → x f = d f ∨
        ∃ p ∈ fs, w.inode p = some f ∧ ∃ out, FormatsTo w d p out ∧ x f = some (encode out)) ∧
      (x g = d g ∨ ∃ p ∈ fs, w.inode p = some g ∧ ∃ out u v, FormatsTo w d p out ∧ encode out = u ++ v ∧
        x g = some u) := by
  unfold formatFiles at hx
  simp only [hfs] at hx
  exact formatAll_crash w fs ⟨d, [], 0⟩ hd _ (by simp) x hx

/-! ### C36 -/

/-- **C36 is false**: `--check` after the first path is taken for another path and the file is modified. -/
theorem C36_false : c!"--check" ∈ [c!"a.mo", c!"--check"] ∧
    (main exWorld [c!"a.mo", c!"--check"] exDisk).1.disk 0 = some (encode c!"model A\n\nend A;\n") ∧
    exDisk 0 = some (encode c!"model A  end A;") := by
  refine ⟨by decide, by decide_cbv, by decide⟩

/-- **C36** (what holds): if `--check` is the first argument, or an option is, no file is modified.  Missing:
other positions, where it is false. -/
theorem C36_partial (w : World) (a : Text) (rest : List Text) (d : Disk) (h : a.head? = some '-') :
    (main w (a :: rest) d).1.disk = d := by
  by_cases hc : a = c!"--check"
  · subst hc; exact (C28_check_never_writes w rest d).1
  · simp only [main, hc, if_false, h, if_true]
    split
    · rfl
    · split <;> rfl

#print axioms C28_check_never_writes
#print axioms C29_errors_untouched
#print axioms C30_exit_code
#print axioms C30_panic_not_zero
#print axioms C30_usage
#print axioms C31_directory_listing
#print axioms C31_only_modelica_written
#print axioms C32_writes_formatted
#print axioms C33_false
#print axioms C33_partial
#print axioms C34_false
#print axioms C34_partial
#print axioms C36_false
#print axioms C36_partial

end Mofmt
