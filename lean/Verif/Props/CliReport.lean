import Verif.Props.CliEnd
/-
What a run of the command line program says: C59.
-/
namespace Mofmt

theorem report_congr {w : World} {check : Bool} {d d' : Disk} {p : Text} {r : List Op}
    (h : ∀ f, w.inode p = some f → d f = d' f) (hr : Report w check d p r) : Report w check d' p r := by
  have hc : ∀ src, Contains w d p src → Contains w d' p src := by
    rintro src ⟨f, h1, h2⟩; exact ⟨f, h1, by rw [← h f h1]; exact h2⟩
  have hc' : ∀ src, Contains w d' p src → Contains w d p src := by
    rintro src ⟨f, h1, h2⟩; exact ⟨f, h1, by rw [h f h1]; exact h2⟩
  cases hr with
  | notModelica h1 => exact .notModelica h1
  | unreadable h1 h2 => exact .unreadable h1 fun f hf => by rw [← h f hf]; exact h2 f hf
  | notText h1 h2 h3 h4 => exact .notText h1 h2 (by rw [← h _ h2]; exact h3) h4
  | errors h1 h2 h3 h4 => exact .errors h1 (hc _ h2) h3 h4
  | passed h1 h2 h3 => exact .passed h1 (formatsTo_congr h h2) (hc _ h3)
  | failed h1 h2 h3 => exact .failed h1 (formatsTo_congr h h2) fun h => h3 (hc' _ h)
  | written h1 h2 h3 => exact .written h1 (formatsTo_congr h h2) h3

theorem reports_congr {w : World} {check : Bool} {d d' : Disk} {fs : List Text} {rs : List (List Op)}
    (hr : Reports w check d fs rs) (h : ∀ p ∈ fs, ∀ f, w.inode p = some f → d f = d' f) : Reports w check d' fs rs := by
  induction hr with
  | nil => exact .nil
  | cons h1 _ ih =>
    exact .cons (report_congr (h _ (by simp)) h1) (ih fun p hp => h p (by simp [hp]))

/-- A file that is not written to the end. -/
def Unfinished (w : World) (check : Bool) (d : Disk) (p : Text) (ops : List Op) : Prop :=
  ops = [] ∨ ∃ f out n, check = false ∧ FormatsTo w d p out ∧ w.inode p = some f ∧
    ops = [.truncate f, .append f ((encode out).take n)]

theorem formatOne_report (w : World) (check : Bool) (p : Text) (s : Proc) :
    ∃ ops, (formatOne w check p s).1.log = s.log ++ ops ∧
      ((formatOne w check p s).2 = none ∧ Report w check s.disk p ops ∨
        (∃ e, (formatOne w check p s).2 = some e ∧ ∀ c, e ≠ .exit c) ∧ Unfinished w check s.disk p ops) := by
  unfold formatOne
  split
  · rename_i m h
    refine ⟨_, rfl, .inl ⟨rfl, ?_⟩⟩
    unfold readFile at h
    split at h
    · rename_i hm
      rw [isModelica_iff] at hm
      cases hi : w.inode p with
      | none =>
        rw [hi] at h
        simp only [Option.bind_none, Except.error.injEq] at h
        subst h
        exact .unreadable hm (by simp [hi])
      | some f =>
        rw [hi] at h
        simp only [Option.bind_some] at h
        cases hd : s.disk f with
        | none =>
          rw [hd] at h
          simp only [Except.error.injEq] at h
          subst h
          exact .unreadable hm (by intro g hg; rw [hi] at hg; cases hg; exact hd)
        | some b =>
          rw [hd] at h
          dsimp only at h
          split at h
          · rename_i hb
            simp only [Except.error.injEq] at h
            subst h
            have := Report.notText (check := check) hm hi hd (by
              rintro t rfl
              rw [decode_encode] at hb
              cases hb)
            simpa using this
          · cases h
    · rename_i hm
      rw [isModelica_iff] at hm
      simp only [Except.error.injEq] at h
      subst h
      have := Report.notModelica (w := w) (check := check) (d := s.disk) hm
      simpa using this
  · rename_i src h
    have hr := (readFile_iff w s p src).1 h
    split
    · rename_i e _
      exact ⟨[], by simp, .inr ⟨⟨_, rfl, by simp⟩, .inl rfl⟩⟩
    · exact ⟨[], by simp, .inr ⟨⟨_, rfl, by simp⟩, .inl rfl⟩⟩
    · rename_i q hp
      split
      · rename_i he
        have he : q.errors = [] := by simpa using he
        split
        · exact ⟨[], by simp, .inr ⟨⟨_, rfl, by simp⟩, .inl rfl⟩⟩
        · exact ⟨[], by simp, .inr ⟨⟨_, rfl, by simp⟩, .inl rfl⟩⟩
        · rename_i out ho
          obtain ⟨t, ht, hout⟩ := (output_iff w q out).1 ho
          have hf : FormatsTo w s.disk p out := ⟨src, q, t, hr.1, hr.2, hp, he, ht, hout⟩
          split
          · rename_i hc
            split
            · rename_i hs
              exact ⟨_, rfl, .inl ⟨rfl, .passed hc hf (by rw [hs]; exact hr.2)⟩⟩
            · rename_i hs
              exact ⟨_, rfl, .inl ⟨rfl, .failed hc hf (fun h' => hs (contains_inj h' hr.2))⟩⟩
          · rename_i hc
            have hc : check = false := by simpa using hc
            split
            · exact ⟨[], by simp, .inr ⟨⟨_, rfl, by simp⟩, .inl rfl⟩⟩
            · rename_i f hf'
              unfold writeFile
              split
              · exact ⟨[], by simp, .inr ⟨⟨_, rfl, by simp⟩, .inl rfl⟩⟩
              · split
                · exact ⟨_, by simp [Proc.emit], .inl ⟨rfl, .written hc hf hf'⟩⟩
                · rename_i n _ _
                  exact ⟨[.truncate f, .append f ((encode out).take n)], by simp [Proc.emit],
                    .inr ⟨⟨_, rfl, by simp⟩, .inr ⟨f, out, n, hc, hf, hf', rfl⟩⟩⟩
              · exact ⟨_, by simp [Proc.emit], .inl ⟨rfl, .written hc hf hf'⟩⟩
      · rename_i he
        exact ⟨_, rfl, .inl ⟨rfl, by rw [joinLines_eq]; exact .errors hr.1 hr.2 hp (by simpa using he)⟩⟩

theorem formatAll_reports (w : World) (check : Bool) : ∀ (ps : List Text) (s : Proc),
    (check = true ∨ DistinctFiles w ps) →
    (∃ c rs, (formatAll w check ps s).2 = .exit c ∧ Reports w check s.disk ps rs ∧
      (formatAll w check ps s).1.log = s.log ++ rs.flatten) ∨
    ∃ done p rest rs ops, ps = done ++ p :: rest ∧ (∀ c, (formatAll w check ps s).2 ≠ .exit c) ∧
      Reports w check s.disk done rs ∧ Unfinished w check s.disk p ops ∧
      (formatAll w check ps s).1.log = s.log ++ rs.flatten ++ ops
  | [], s, _ => .inl ⟨s.code, [], rfl, .nil, by simp [formatAll]⟩
  | p :: ps, s, hd => by
    obtain ⟨ops, h1, h2⟩ := formatOne_report w check p s
    have ho := formatOne_outcome w check p s
    simp only [formatAll]
    cases hf : formatOne w check p s with
    | mk s1 e =>
      rw [hf] at h1 h2 ho
      rcases h2 with ⟨rfl, h2⟩ | ⟨⟨e', rfl, h3⟩, h2⟩
      · have hother : ∀ q ∈ ps, ∀ g, w.inode q = some g → s1.disk g = s.disk g := by
          intro q hq g hg
          refine outcome_disk_other ho g (hd.imp id fun h hp => ?_)
          exact h.1 q hq g hp hg
        have hd' : check = true ∨ DistinctFiles w ps := hd.imp id fun h => h.2
        rcases formatAll_reports w check ps s1 hd' with ⟨c, rs, k1, k2, k3⟩ | ⟨done, q, rest, rs, us, k0, k1, k2, k3, k4⟩
        · refine .inl ⟨c, ops :: rs, k1, .cons h2 (reports_congr k2 hother), ?_⟩
          show (formatAll w check ps s1).1.log = _
          rw [k3, h1]; simp
        · refine .inr ⟨p :: done, q, rest, ops :: rs, us, by simp [k0], k1, .cons h2 (reports_congr k2 ?_), ?_, ?_⟩
          · intro r hr
            exact hother r (by simp [k0, hr])
          · rcases k3 with k3 | ⟨f, out, n, m1, m2, m3, m4⟩
            · exact .inl k3
            · exact .inr ⟨f, out, n, m1, formatsTo_congr (hother q (by simp [k0])) m2, m3, m4⟩
          · show (formatAll w check ps s1).1.log = _
            rw [k4, h1]; simp
      · exact .inr ⟨[], p, ps, [], ops, rfl, h3, .nil, h2, by simpa using h1⟩

/-- **C59** What a run does and says.  If it finishes, then for every listed file in this order, and nothing else: one
message (not Modelica, unreadable, not UTF-8, its syntax errors, check passed, check failed), or, in format mode for an
accepted file, its rewriting without a message.  In format mode the files are assumed to be distinct. -/
theorem C59_reports (w : World) (check : Bool) (args fs : List Text) (d : Disk) (c : Nat)
    (hfs : collect w args = .ok fs) (hd : check = true ∨ DistinctFiles w fs)
    (hc : (formatFiles w check args d).2 = .exit c) :
    ∃ rs, Reports w check d fs rs ∧ (formatFiles w check args d).1.log = rs.flatten := by
  unfold formatFiles at hc ⊢
  simp only [hfs] at hc ⊢
  rcases formatAll_reports w check fs ⟨d, [], 0⟩ hd with ⟨c', rs, _, h2, h3⟩ | ⟨_, _, _, _, _, _, h, _⟩
  · exact ⟨rs, h2, by simpa using h3⟩
  · exact absurd hc (h c)

/-- **C59** If a run does not finish, it has done and said the same about the files before the one at which it stopped;
of that file it has written a part or nothing, and nothing is said or done about the others. -/
theorem C59_stopped (w : World) (check : Bool) (args fs : List Text) (d : Disk)
    (hfs : collect w args = .ok fs) (hd : check = true ∨ DistinctFiles w fs)
    (hc : ∀ c, (formatFiles w check args d).2 ≠ .exit c) :
    ∃ done p rest rs ops, fs = done ++ p :: rest ∧ Reports w check d done rs ∧
      (ops = [] ∨ ∃ f out n, check = false ∧ FormatsTo w d p out ∧ w.inode p = some f ∧
        ops = [.truncate f, .append f ((encode out).take n)]) ∧
      (formatFiles w check args d).1.log = rs.flatten ++ ops := by
  unfold formatFiles at hc ⊢
  simp only [hfs] at hc ⊢
  rcases formatAll_reports w check fs ⟨d, [], 0⟩ hd with ⟨c', _, h, _⟩ | ⟨done, p, rest, rs, ops, h1, _, h3, h4, h5⟩
  · exact absurd h (hc c')
  · exact ⟨done, p, rest, rs, ops, h1, h3, h4, by simpa using h5⟩

/-- **C59** A file has one report. -/
theorem C59_unique (w : World) (check : Bool) (d : Disk) (p : Text) (r r' : List Op) (h : Report w check d p r)
    (h' : Report w check d p r') : r = r' := by
  have name : ∀ {out}, FormatsTo w d p out → ModelicaName p := fun h => h.choose_spec.choose_spec.choose_spec.1
  have cont : ∀ {out}, FormatsTo w d p out → ∃ src, Contains w d p src := fun h =>
    ⟨_, h.choose_spec.choose_spec.choose_spec.2.1⟩
  have read : ∀ {src}, Contains w d p src → ¬ ∀ f, w.inode p = some f → d f = none := by
    rintro src ⟨f, h1, h2⟩ h
    rw [h f h1] at h2
    cases h2
  have text : ∀ {src f b}, Contains w d p src → w.inode p = some f → d f = some b → ¬ ∀ t, b ≠ encode t := by
    rintro src f b ⟨g, h1, h2⟩ h3 h4 h
    rw [h1] at h3
    cases h3
    rw [h2] at h4
    cases h4
    exact h src rfl
  have errs : ∀ {src q out}, Contains w d p src → parse p src .StoredDefinition = .ok q → q.errors ≠ [] →
      ¬ FormatsTo w d p out := fun h1 h2 h3 h4 => not_both (.inr (.inr ⟨_, _, h1, h2, h3⟩)) h4
  cases h with
  | notModelica h1 =>
    cases h' with
    | notModelica => rfl
    | unreadable h => exact absurd h h1
    | notText h => exact absurd h h1
    | errors h => exact absurd h h1
    | passed _ h => exact absurd (name h) h1
    | failed _ h => exact absurd (name h) h1
    | written _ h => exact absurd (name h) h1
  | unreadable h1 h2 =>
    cases h' with
    | notModelica h => exact absurd h1 h
    | unreadable => rfl
    | notText _ k1 k2 => rw [h2 _ k1] at k2; cases k2
    | errors _ h => exact absurd h2 (read h)
    | passed _ h => exact absurd h2 (read (cont h).choose_spec)
    | failed _ h => exact absurd h2 (read (cont h).choose_spec)
    | written _ h => exact absurd h2 (read (cont h).choose_spec)
  | notText h1 h2 h3 h4 =>
    cases h' with
    | notModelica h => exact absurd h1 h
    | unreadable _ k => rw [k _ h2] at h3; cases h3
    | notText => rfl
    | errors _ h => exact absurd h4 (text h h2 h3)
    | passed _ h => exact absurd h4 (text (cont h).choose_spec h2 h3)
    | failed _ h => exact absurd h4 (text (cont h).choose_spec h2 h3)
    | written _ h => exact absurd h4 (text (cont h).choose_spec h2 h3)
  | errors h1 h2 h3 h4 =>
    cases h' with
    | notModelica h => exact absurd h1 h
    | unreadable _ k => exact absurd k (read h2)
    | notText _ k1 k2 k3 => exact absurd k3 (text h2 k1 k2)
    | errors _ k2 k3 =>
      have := contains_inj h2 k2
      subst this
      rw [h3] at k3
      cases k3
      rfl
    | passed _ h => exact absurd h (errs h2 h3 h4)
    | failed _ h => exact absurd h (errs h2 h3 h4)
    | written _ h => exact absurd h (errs h2 h3 h4)
  | passed h1 h2 h3 =>
    cases h' with
    | notModelica h => exact absurd (name h2) h
    | unreadable _ k => exact absurd k (read h3)
    | notText _ k1 k2 k3 => exact absurd k3 (text h3 k1 k2)
    | errors _ k1 k2 k3 => exact absurd h2 (errs k1 k2 k3)
    | passed => rfl
    | failed _ k1 k2 => rw [formatsTo_inj h2 k1] at h3; exact absurd h3 k2
    | written k => rw [h1] at k; cases k
  | failed h1 h2 h3 =>
    cases h' with
    | notModelica h => exact absurd (name h2) h
    | unreadable _ k => exact absurd k (read (cont h2).choose_spec)
    | notText _ k1 k2 k3 => exact absurd k3 (text (cont h2).choose_spec k1 k2)
    | errors _ k1 k2 k3 => exact absurd h2 (errs k1 k2 k3)
    | passed _ k1 k2 => rw [formatsTo_inj k1 h2] at k2; exact absurd k2 h3
    | failed => rfl
    | written k => rw [h1] at k; cases k
  | written h1 h2 h3 =>
    cases h' with
    | notModelica h => exact absurd (name h2) h
    | unreadable _ k => exact absurd k (read (cont h2).choose_spec)
    | notText _ k1 k2 k3 => exact absurd k3 (text (cont h2).choose_spec k1 k2)
    | errors _ k1 k2 k3 => exact absurd h2 (errs k1 k2 k3)
    | passed k => rw [h1] at k; cases k
    | failed k => rw [h1] at k; cases k
    | written _ k1 k2 =>
      rw [formatsTo_inj h2 k1]
      rw [h3] at k2
      cases k2
      rfl

/-- A run over a text file, a file that does not exist, one with a syntax error, and one that can be formatted. -/
example : collect exWorld [c!"d.txt", c!"x.mo", c!"b.mo", c!"a.mo"] = .ok [c!"d.txt", c!"x.mo", c!"b.mo", c!"a.mo"] ∧
    (main exWorld [c!"d.txt", c!"x.mo", c!"b.mo", c!"a.mo"] exDisk).2 = .exit 1 ∧
    (main exWorld [c!"d.txt", c!"x.mo", c!"b.mo", c!"a.mo"] exDisk).1.log = [
      .err c!"d.txt: error: d.txt is not a Modelica file",
      .err c!"x.mo: error: No such file or directory (os error 2)",
      .out c!"Syntax errors detected:\nb.mo:1:16: expected ';', found 'end'",
      .truncate 0, .append 0 (encode c!"model A\n\nend A;\n")] := by
  refine ⟨by decide_cbv, by decide_cbv, by decide_cbv⟩

/-- A file in another encoding, and a check. -/
example : (main exWorld [c!"--check", c!"b.mo", c!"a.mo"] (fun f => if f = 1 then some [0xff] else exDisk f)).1.log = [
      .err c!"b.mo: error: stream did not contain valid UTF-8", .out c!"a.mo: check failed"] := by
  decide_cbv

/-- No room on the device: the file keeps what could be written, and the next file is not reached. -/
example : (main { exWorld with sink := fun _ => .full 7 } [c!"a.mo", c!"b.mo"] exDisk).2 = .panic .io ∧
    (main { exWorld with sink := fun _ => .full 7 } [c!"a.mo", c!"b.mo"] exDisk).1.log =
      [.truncate 0, .append 0 (encode c!"model A")] := by
  refine ⟨by decide_cbv, by decide_cbv⟩

#print axioms C59_reports
#print axioms C59_stopped
#print axioms C59_unique

end Mofmt
