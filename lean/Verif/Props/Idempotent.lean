import Verif.Proofs.Settle
import Verif.Props.CliEnd
/-
Formatting again: C12, C13.
-/
namespace Mofmt
open Lexical

theorem tree_eq {p : Parsed} {a b : Tree} (ha : buildTree p.tokens p.events = .ok a)
    (hb : buildTree p.tokens p.events = .ok b) : a = b := by
  rw [ha] at hb
  exact Res.ok.inj hb

/-! ### C12 -/

/-- **C12** (part) If the layout of the source is steady, the output is a fixed point: it is accepted, and
formatting it (under any name) gives the same text.  Missing: sources in which a list written on one line
contains a description or a constraining clause, and sources in which something stands behind a comment with line
breaks, or behind a line comment that ends with a single carriage return; for these it is false. -/
theorem C12_steady_partial (eol name src out name' : Text) (p : Parsed) (h : Formatted eol name src p out)
    (he : IsEol eol) (hs : Steady p) : ∃ p', Formatted eol name' out p' out := by
  obtain ⟨cs, ds, φ, p', hr⟩ := h.runs he hs.line name'
  exact ⟨p', hr.again hs.long (hs.lists _ hr.tree)⟩

/-- Every output is accepted and steady. -/
theorem C12_output_steady (eol name src out name' : Text) (p : Parsed) (h : Formatted eol name src p out)
    (he : IsEol eol) (hL : LineCommentsEnd p.comments) :
    ∃ p', parse name' out .StoredDefinition = .ok p' ∧ p'.errors = [] ∧ Steady p' := by
  obtain ⟨cs, ds, φ, p', hr⟩ := h.runs he hL name'
  exact ⟨p', hr.parsed, hr.accepted, hr.ends.1, hr.ends.2, fun t ht => tree_eq ht hr.tree' ▸ hr.settled⟩

/-- **C12** (part) Formatting twice reaches a fixed point, whatever the layout of the source: the second output is
a fixed point.  The only hypothesis is that line comments end their lines (carriage returns stand only before
line feeds, see `C01_no_lone_cr`). -/
theorem C12_twice_partial (eol name src out name' name'' : Text) (p : Parsed) (h : Formatted eol name src p out)
    (he : IsEol eol) (hL : LineCommentsEnd p.comments) :
    ∃ p' out', Formatted eol name' out p' out' ∧ ∃ p'', Formatted eol name'' out' p'' out' := by
  obtain ⟨p', h1, h2, h3⟩ := C12_output_steady eol name src out name' p h he hL
  obtain ⟨out', hf⟩ := C03_formatted eol name' out p' h1 h2
  exact ⟨p', out', hf, C12_steady_partial eol name' out out' name'' p' hf he h3⟩

/-- a list of components on one line, with a description -/
def exUnsettled : Text := c!"model A Real a \"d\", b; end A;"
def exUnsettled1 : Text := c!"model A\n\n  Real a\n    \"d\", b;\n\nend A;\n"
def exUnsettled2 : Text := c!"model A\n\n  Real\n    a\n      \"d\",\n    b;\n\nend A;\n"

/-- **C12 is false** as stated: the description moves to a line of its own, and because of this the second run
puts the components on lines of their own. -/
theorem C12_false : ∃ p p', Formatted c!"\n" c!"f" exUnsettled p exUnsettled1 ∧
    Formatted c!"\n" c!"f" exUnsettled1 p' exUnsettled2 ∧ exUnsettled1 ≠ exUnsettled2 := by
  refine ⟨match parse c!"f" exUnsettled .StoredDefinition with | .ok p => p | _ => ⟨[], [], [], []⟩,
    match parse c!"f" exUnsettled1 .StoredDefinition with | .ok p => p | _ => ⟨[], [], [], []⟩,
    ⟨by decide_cbv, by decide_cbv, exUnsettled1.dropLast, by decide_cbv, by decide⟩,
    ⟨by decide_cbv, by decide_cbv, exUnsettled2.dropLast, by decide_cbv, by decide⟩, by decide⟩

/-- a comment with a line break inside, and something behind it -/
def exLong : Text := c!"model A\n  Real x; /* a\n b */ Real y;\nend A;\n"
def exLong1 : Text := c!"model A\n\n  Real x; /* a\n b */\n  Real y;\n\nend A;\n"
def exLong2 : Text := c!"model A\n\n  Real x; /* a\n b */\n\n  Real y;\n\nend A;\n"

/-- The same for comments with line breaks: the text behind such a comment goes to a new line, and the second run
puts an empty line before it. -/
theorem C12_false_comment : ∃ p p', Formatted c!"\n" c!"f" exLong p exLong1 ∧
    Formatted c!"\n" c!"f" exLong1 p' exLong2 ∧ exLong1 ≠ exLong2 := by
  refine ⟨match parse c!"f" exLong .StoredDefinition with | .ok p => p | _ => ⟨[], [], [], []⟩,
    match parse c!"f" exLong1 .StoredDefinition with | .ok p => p | _ => ⟨[], [], [], []⟩,
    ⟨by decide_cbv, by decide_cbv, exLong1.dropLast, by decide_cbv, by decide⟩,
    ⟨by decide_cbv, by decide_cbv, exLong2.dropLast, by decide_cbv, by decide⟩, by decide⟩

/-! ### Cases meeting the hypotheses -/

/-- test for `settledAt` -/
def settledAtB (k : SK) (cs : List Tree) : Bool :=
  let u := forcedKinds.all fun f => !containsKind f cs
  let s := match isMultiline cs with | .ok false => true | _ => false
  match k with
  | .ComponentList => !(decide (cs.length > 1) && s) || u
  | .ClassOrInheritanceModification => !s || u
  | .ClassModification => !(s && !containsKind .DescriptionString cs && !containsKind .Description cs) || u
  | _ => true

theorem settledAtB_sound {k : SK} {cs : List Tree} (h : settledAtB k cs = true) : settledAt k cs := by
  have hu : (forcedKinds.all fun f => !containsKind f cs) = true → Unforced cs := by
    intro h f hf
    simpa using List.all_eq_true.1 h f hf
  unfold settledAtB at h
  cases k <;> first
    | trivial
    | (intro h1 h2 h3
       rw [h1] at h
       exact hu (by simpa [h2, h3] using h))
    | (intro h1 h2
       rw [h2] at h
       exact hu (by simpa [h1] using h))
    | (intro h2
       rw [h2] at h
       exact hu (by simpa using h))

mutual
/-- test for `Settled` -/
def settledB : Tree → Bool
  | .tok _ => true
  | .node k cs => settledAtB k cs && settledFB cs
def settledFB : List Tree → Bool
  | [] => true
  | c :: cs => settledB c && settledFB cs
end

mutual
theorem settledB_sound (t : Tree) (h : settledB t = true) : t.Settled := by
  match t with
  | .tok _ => trivial
  | .node k cs =>
    simp only [settledB, Bool.and_eq_true] at h
    exact ⟨settledAtB_sound h.1, settledFB_sound cs h.2⟩
theorem settledFB_sound (ts : List Tree) (h : settledFB ts = true) : SettledF ts := by
  match ts with
  | [] => trivial
  | c :: cs =>
    simp only [settledFB, Bool.and_eq_true] at h
    exact ⟨settledB_sound c h.1, settledFB_sound cs h.2⟩
end

/-- test for `Steady` -/
def steadyB (p : Parsed) : Bool :=
  lineCommentsEndB p.comments &&
  (p.comments.all fun c => !decide (0 < newlines c.text) || (p.tokens ++ p.comments).all fun x =>
    !decide (c.idx < x.idx) || decide (c.stop.line < x.start.line)) &&
  match buildTree p.tokens p.events with | .ok t => settledB t | _ => true

theorem steadyB_sound {p : Parsed} (h : steadyB p = true) : Steady p := by
  simp only [steadyB, Bool.and_eq_true] at h
  refine ⟨lineCommentsEndB_sound h.1.1, ?_, ?_⟩
  · intro c hc hn x hx hi
    have h1 := List.all_eq_true.1 h.1.2 c hc
    simp only [hn, decide_true, Bool.not_true, Bool.false_or] at h1
    have h2 := List.all_eq_true.1 h1 x hx
    simpa [hi] using h2
  · intro t ht
    have h3 := h.2
    rw [ht] at h3
    exact settledB_sound t h3

/-- Descriptions, comments (one of them with a line break) and a list of components on several lines. -/
def exSteady : Text := c!"model A // a\n Real x \"d\"; /* b\n c */\n Real y,\n z \"e\"; equation x+\n y=z; end A;"

set_option maxRecDepth 8000 in
example : ∃ p out, Formatted c!"\n" c!"f" exSteady p out ∧ p.comments.length = 2 ∧ Steady p ∧ out ≠ exSteady := by
  have h : (pipeline c!"f" exSteady).any (fun x => x.1.errors.isEmpty && x.1.comments.length == 2 &&
      steadyB x.1) = true := by decide_cbv
  obtain ⟨⟨p, t, m⟩, hx, h⟩ := pipeline_any h
  obtain ⟨h1, h2, h3⟩ := pipeline_eq hx
  simp only [Bool.and_eq_true, List.isEmpty_iff, beq_iff_eq] at h
  obtain ⟨out, ho⟩ := C03_formatted c!"\n" _ _ p h1 h.1.1
  refine ⟨p, out, ho, h.1.2, steadyB_sound h.2, ?_⟩
  obtain ⟨t, _, rfl⟩ := ho.text
  intro he
  have := congrArg List.getLast? he
  simp [exSteady] at this

/-! ### C13 -/

/-- The arguments are paths: there is one, and the first one is not an option. -/
def Paths (args : List Text) : Prop := ∃ a rest, args = a :: rest ∧ a.head? ≠ some '-'

theorem main_format {w : World} {args : List Text} {d : Disk} (h : Paths args) :
    main w args d = formatFiles w false args d := by
  obtain ⟨a, rest, rfl, ha⟩ := h
  have hn : ∀ b : Text, b.head? = some '-' → a ≠ b := by
    rintro b hb rfl
    exact ha hb
  simp only [main]
  rw [if_neg, if_neg, if_neg (hn _ rfl), if_neg ha]
  · rintro (h | h)
    · exact hn _ rfl h
    · exact hn _ rfl h
  · rintro (h | h)
    · exact hn _ rfl h
    · exact hn _ rfl h

theorem main_check {w : World} {args : List Text} {d : Disk} (h : Paths args) :
    main w (c!"--check" :: args) d = formatFiles w true args d := by
  obtain ⟨a, rest, rfl, ha⟩ := h
  simp only [main]
  rw [if_neg (by decide), if_neg (by decide), if_pos trivial, if_neg (by simp)]

theorem check_passes {w : World} {args fs : List Text} {d : Disk} (hfs : collect w args = .ok fs)
    (h : ∀ p ∈ fs, ∃ out, FormatsTo w d p out ∧ Contains w d p out) : (formatFiles w true args d).2 = .exit 0 := by
  obtain ⟨c, hc⟩ := (C43_run_finishes w true args fs d hfs (.inl rfl)).2 (by
    intro p hp src hm hcon
    obtain ⟨out, ⟨src', q, t, m1, m2, m3, m4, m5, m6⟩, _⟩ := h p hp
    have := contains_inj m2 hcon
    subst this
    exact ⟨q, m3, fun _ h => by cases h⟩)
  have := (C30_exit_code w true args fs d c hfs (.inl rfl) hc).2.2 (by
    intro p hp
    obtain ⟨out, h1, h2⟩ := h p hp
    exact ⟨out, h1, fun _ => h2⟩)
  rw [hc, this]

/-- what a format run with exit code 0 leaves behind -/
theorem format_done {w : World} {args fs : List Text} {d : Disk} (hfs : collect w args = .ok fs)
    (hd : DistinctFiles w fs) (hc : (formatFiles w false args d).2 = .exit 0) :
    ∀ p ∈ fs, ∃ f src q out, ModelicaName p ∧ w.inode p = some f ∧ d f = some (encode src) ∧
      Formatted w.eol p src q out ∧ (formatFiles w false args d).1.disk f = some (encode out) := by
  intro p hp
  obtain ⟨out, ⟨src, q, t, m1, ⟨f, hf, m2⟩, m3, m4, m5, m6⟩, _⟩ :=
    (C30_exit_code w false args fs d 0 hfs (.inr hd) hc).2.1 rfl p hp
  obtain ⟨t', h5, h6⟩ := (C32_writes_formatted w args fs d 0 hfs hd hc).1 p hp f src q hf m2 m1 m3 m4
  rw [m5] at h5
  cases h5
  exact ⟨f, src, q, out, m1, hf, m2, ⟨m3, m4, t, m5, m6⟩, by rw [m6]; exact h6⟩

/-- **C13** (part) If all listed files are steady and formatting them succeeds, a check afterwards passes.
Missing: files that are not steady, for which it is false. -/
theorem C13_steady_partial (w : World) (args fs : List Text) (d : Disk) (he : IsEol w.eol) (ha : Paths args)
    (hfs : collect w args = .ok fs) (hd : DistinctFiles w fs)
    (hs : ∀ p ∈ fs, ∀ src q, Contains w d p src → parse p src .StoredDefinition = .ok q → Steady q)
    (hc : (main w args d).2 = .exit 0) :
    (main w (c!"--check" :: args) (main w args d).1.disk).2 = .exit 0 := by
  rw [main_format ha] at hc ⊢
  rw [main_check ha]
  refine check_passes hfs fun p hp => ?_
  obtain ⟨f, src, q, out, h1, h2, h4, h5, h6⟩ := format_done hfs hd hc p hp
  obtain ⟨q', h7⟩ := C12_steady_partial w.eol p src out p q h5 he (hs p hp src q ⟨f, h2, h4⟩ h5.parsed)
  obtain ⟨t, t1, t2⟩ := h7.text
  exact ⟨out, ⟨out, q', t, h1, ⟨f, h2, h6⟩, h7.parsed, h7.accepted, t1, t2⟩, ⟨f, h2, h6⟩⟩

/-- **C13** (part) After formatting twice a check always passes, if line comments end their lines in the listed
files and there is room for the new texts. -/
theorem C13_twice_partial (w : World) (args fs : List Text) (d : Disk) (he : IsEol w.eol) (ha : Paths args)
    (hfs : collect w args = .ok fs) (hd : DistinctFiles w fs)
    (hs : ∀ p ∈ fs, ∀ src q, Contains w d p src → parse p src .StoredDefinition = .ok q → LineCommentsEnd q.comments)
    (hr : ∀ p ∈ fs, ∀ f, w.inode p = some f → w.sink f = .free)
    (hc : (main w args d).2 = .exit 0) :
    (main w args (main w args d).1.disk).2 = .exit 0 ∧
    (main w (c!"--check" :: args) (main w args (main w args d).1.disk).1.disk).2 = .exit 0 := by
  rw [main_format ha] at hc
  have hdone := format_done hfs hd hc
  have h2 : (main w args (main w args d).1.disk).2 = .exit 0 := by
    rw [main_format ha, main_format ha]
    obtain ⟨c, hc'⟩ := (C43_run_finishes w false args fs (formatFiles w false args d).1.disk hfs (.inr hd)).2 (by
      intro p hp src hm hcon
      obtain ⟨f, src', q, out, h1, h2, h4, h5, h6⟩ := hdone p hp
      obtain ⟨q', g1, g2, g3⟩ := C12_output_steady w.eol p src' out p q h5 he (hs p hp src' q ⟨f, h2, h4⟩ h5.parsed)
      have := contains_inj hcon ⟨f, h2, h6⟩
      subst this
      obtain ⟨out', g4⟩ := C03_formatted w.eol p src q' g1 g2
      obtain ⟨t, t1, t2⟩ := g4.text
      exact ⟨q', g1, fun _ _ => ⟨f, t, h2, t1, by rw [hr p hp f h2]; trivial⟩⟩)
    have := (C30_exit_code w false args fs _ c hfs (.inr hd) hc').2.2 (by
      intro p hp
      obtain ⟨f, src', q, out, h1, h2, h4, h5, h6⟩ := hdone p hp
      obtain ⟨q', g1, g2, g3⟩ := C12_output_steady w.eol p src' out p q h5 he (hs p hp src' q ⟨f, h2, h4⟩ h5.parsed)
      obtain ⟨out', g4⟩ := C03_formatted w.eol p out q' g1 g2
      obtain ⟨t, t1, t2⟩ := g4.text
      exact ⟨out', ⟨out, q', t, h1, ⟨f, h2, h6⟩, g1, g2, t1, t2⟩, fun h => by cases h⟩)
    rw [hc', this]
  refine ⟨h2, C13_steady_partial w args fs _ he ha hfs hd ?_ h2⟩
  intro p hp src q hcon hpq
  rw [main_format ha] at hcon
  obtain ⟨f, src', q0, out, h1, h2, h4, h5, h6⟩ := hdone p hp
  obtain ⟨q', g1, g2, g3⟩ := C12_output_steady w.eol p src' out p q0 h5 he (hs p hp src' q0 ⟨f, h2, h4⟩ h5.parsed)
  have := contains_inj hcon ⟨f, h2, h6⟩
  subst this
  rw [hpq] at g1
  cases g1
  exact g3

/-- **C13 is false** as stated: the file of `C12_false` is formatted, and a check afterwards fails. -/
theorem C13_false : (main exWorld [c!"a.mo"] (fun _ => some (encode exUnsettled))).2 = .exit 0 ∧
    (main exWorld [c!"--check", c!"a.mo"] (main exWorld [c!"a.mo"] (fun _ => some (encode exUnsettled))).1.disk).2 = .exit 1 := by
  refine ⟨by decide_cbv, by decide_cbv⟩

set_option maxRecDepth 8000 in
/-- A file that meets the hypotheses of `C13_steady_partial`, and one that meets only those of
`C13_twice_partial`. -/
example : Paths [c!"a.mo"] ∧ collect exWorld [c!"a.mo"] = .ok [c!"a.mo"] ∧ DistinctFiles exWorld [c!"a.mo"] ∧
    IsEol exWorld.eol ∧ (main exWorld [c!"a.mo"] (fun _ => some (encode exSteady))).2 = .exit 0 ∧
    (main exWorld [c!"a.mo"] (fun _ => some (encode exUnsettled))).2 = .exit 0 := by
  refine ⟨⟨_, _, rfl, by decide⟩, by decide_cbv, ⟨by simp, trivial⟩, .inl rfl, by decide_cbv, by decide_cbv⟩

#print axioms C12_steady_partial
#print axioms C12_output_steady
#print axioms C12_twice_partial
#print axioms C12_false
#print axioms C12_false_comment
#print axioms C13_steady_partial
#print axioms C13_twice_partial
#print axioms C13_false

end Mofmt
