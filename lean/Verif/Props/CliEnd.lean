import Verif.Props.Layout
import Verif.Props.Cli
/-
When a run of the command line program finishes: C43.
-/
namespace Mofmt

/-- The bytes can be written. -/
def Room : Sink → Bytes → Prop
  | .locked, _ => False
  | .full n, b => b.length ≤ n
  | .free, _ => True

/-- Processing the file does not end the run: if it is readable Modelica the parser returns, and if it is to be
rewritten it can be opened for writing and there is room for the new text. -/
def Survives (w : World) (check : Bool) (d : Disk) (p : Text) : Prop :=
  ∀ src, ModelicaName p → Contains w d p src → ∃ q, parse p src .StoredDefinition = .ok q ∧
    (q.errors = [] → check = false → ∃ f t, w.inode p = some f ∧
      prettyPrint w.eol q.tokens q.comments q.events = .ok t ∧ Room (w.sink f) (encode (t ++ w.eol)))

theorem survives_congr {w : World} {check : Bool} {d d' : Disk} {p : Text}
    (h : ∀ f, w.inode p = some f → d f = d' f) : Survives w check d p ↔ Survives w check d' p := by
  have hc : ∀ src, Contains w d p src ↔ Contains w d' p src := by
    intro src
    constructor
    · rintro ⟨f, h1, h2⟩; exact ⟨f, h1, by rw [← h f h1]; exact h2⟩
    · rintro ⟨f, h1, h2⟩; exact ⟨f, h1, by rw [h f h1]; exact h2⟩
  simp only [Survives, hc]

theorem formatOne_survives (w : World) (check : Bool) (p : Text) (s : Proc) :
    (formatOne w check p s).2 = none ↔ Survives w check s.disk p := by
  unfold formatOne
  cases hr : readFile w s p with
  | error m =>
    simp only [true_iff]
    intro src hm hc
    have := (readFile_iff w s p src).2 ⟨hm, hc⟩
    rw [hr] at this
    cases this
  | ok src =>
    obtain ⟨hm, hcon⟩ := (readFile_iff w s p src).1 hr
    have hiff : ∀ P : Text → Prop, (∀ src', ModelicaName p → Contains w s.disk p src' → P src') ↔ P src := by
      intro P
      exact ⟨fun h => h src hm hcon, fun h src' _ h' => contains_inj hcon h' ▸ h⟩
    rw [Survives, hiff (fun src => ∃ q, parse p src .StoredDefinition = .ok q ∧
      (q.errors = [] → check = false → ∃ f t, w.inode p = some f ∧
        prettyPrint w.eol q.tokens q.comments q.events = .ok t ∧ Room (w.sink f) (encode (t ++ w.eol))))]
    dsimp only
    cases hp : parse p src .StoredDefinition with
    | panic e => simp
    | fuel => simp
    | ok q =>
      dsimp only
      simp only [Res.ok.injEq, exists_eq_left', List.isEmpty_iff]
      by_cases he : q.errors = []
      · obtain ⟨t, ht⟩ : ∃ t, prettyPrint w.eol q.tokens q.comments q.events = .ok t := by
          obtain ⟨_, _, t, _, _, _, h⟩ := C03_formatting_succeeds w.eol p src q hp he
          exact ⟨t, h⟩
        have ho : output w q = .ok (t ++ w.eol) := (output_iff w q _).2 ⟨t, ht, rfl⟩
        simp only [he, if_true, ho, true_implies]
        cases check with
        | true =>
          simp only [if_true, reduceCtorEq, false_implies, iff_true]
          split <;> rfl
        | false =>
          simp only [Bool.false_eq_true, if_false, true_implies]
          cases hi : w.inode p with
          | none => simp
          | some f =>
            simp only [Option.some.injEq, ht, Res.ok.injEq]
            have hr : (∃ f' t', f = f' ∧ t = t' ∧ Room (w.sink f') (encode (t' ++ w.eol))) ↔
                Room (w.sink f) (encode (t ++ w.eol)) := by
              constructor
              · rintro ⟨_, _, rfl, rfl, h⟩; exact h
              · exact fun h => ⟨f, t, rfl, rfl, h⟩
            rw [hr, writeFile]
            cases hw : w.sink f with
            | locked => simp [Room]
            | full n =>
              simp only [Room]
              by_cases hn : (encode (t ++ w.eol)).length ≤ n <;> simp [hn]
            | free => simp [Room]
      · simp [he]

/-- **C43** A run finishes with an exit code exactly if no listed file ends it: the parser returns for every
readable Modelica file, and (in format mode) every accepted file can be written and there is room for its new text.  In particular nothing else
(building the tree, formatting, printing) can end a run.  In format mode the files are assumed to be
distinct. -/
theorem C43_run_finishes (w : World) (check : Bool) (args fs : List Text) (d : Disk)
    (hfs : collect w args = .ok fs) (hd : check = true ∨ DistinctFiles w fs) :
    (∃ c, (formatFiles w check args d).2 = .exit c) ↔ ∀ p ∈ fs, Survives w check d p := by
  have key : ∀ (ps : List Text) (s : Proc), (check = true ∨ DistinctFiles w ps) →
      ((∃ c, (formatAll w check ps s).2 = .exit c) ↔ ∀ p ∈ ps, Survives w check s.disk p) := by
    intro ps
    induction ps with
    | nil => intro s _; simp [formatAll]
    | cons p ps ih =>
      intro s hds
      have hds' : check = true ∨ DistinctFiles w ps := hds.imp id fun h => h.2
      have ho := formatOne_outcome w check p s
      have hsv := formatOne_survives w check p s
      simp only [formatAll]
      cases hf : formatOne w check p s with
      | mk s1 e =>
        rw [hf] at ho hsv
        cases e with
        | none =>
          simp only [true_iff] at hsv
          simp only [List.mem_cons, forall_eq_or_imp, hsv, true_and]
          rw [ih s1 hds']
          refine forall_congr' fun r => forall_congr' fun hr => survives_congr fun f hrf => ?_
          refine outcome_disk_other ho f (hds.imp id fun h hpf => ?_)
          exact h.1 r hr f hpf hrf
        | some e =>
          simp only [reduceCtorEq, false_iff] at hsv
          simp only [List.mem_cons, forall_eq_or_imp, hsv, false_and, iff_false]
          cases ho with
          | partly => rintro ⟨c, hc⟩; simp at hc
          | crashed h1 _ => rintro ⟨c, hc⟩; exact h1 c hc
  unfold formatFiles
  simp only [hfs]
  exact key fs ⟨d, [], 0⟩ hd

/-- Two files survive, the third one ends the run; a file that cannot be written does, too, but not in check
mode. -/
example : collect exWorld [c!"a.mo", c!"b.mo"] = .ok [c!"a.mo", c!"b.mo"] ∧
    (main exWorld [c!"a.mo", c!"b.mo"] exDisk).2 = .exit 1 ∧
    (main exWorld [c!"a.mo", c!"b.mo", c!"c.mo"] exDisk).2 = .panic .assert ∧
    (main { exWorld with sink := fun _ => .locked } [c!"a.mo"] exDisk).2 = .panic .io ∧
    (main { exWorld with sink := fun _ => .full 5 } [c!"a.mo"] exDisk).2 = .panic .io ∧
    (main { exWorld with sink := fun _ => .full 5 } [c!"a.mo"] exDisk).1.disk 0 = some (encode c!"model") ∧
    (main { exWorld with sink := fun _ => .locked } [c!"--check", c!"a.mo"] exDisk).2 = .exit 1 := by
  refine ⟨by decide_cbv, by decide_cbv, by decide_cbv, by decide_cbv, by decide_cbv, by decide_cbv, by decide_cbv⟩

#print axioms C43_run_finishes

end Mofmt
