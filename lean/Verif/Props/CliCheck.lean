import Verif.Props.CliReport
/-
C91: `--check` tells what formatting would do.
-/
namespace Mofmt

theorem formatsTo_unique {w : World} {d : Disk} {p out out' : Text} (h : FormatsTo w d p out)
    (h' : FormatsTo w d p out') : out = out' := by
  obtain ⟨src, q, t, _, ⟨f, a1, a2⟩, a3, _, a4, rfl⟩ := h
  obtain ⟨src', q', t', _, ⟨f', b1, b2⟩, b3, _, b4, rfl⟩ := h'
  rw [a1] at b1; cases b1
  rw [a2] at b2
  have := encode_inj (Option.some.inj b2)
  subst this
  rw [a3] at b3; cases b3
  rw [a4] at b4; cases b4
  rfl

/-- **C91** Checking tells what formatting would do.  If formatting some distinct files would finish, then checking
them finishes, and it ends with exit code 0 exactly if formatting would end with exit code 0 and change nothing on
the disk.  Of the listed files, formatting would change exactly those that are accepted and not equal to their
formatted text, which are those of which `--check` says that the check failed. -/
theorem C91_check_predicts (w : World) (args fs : List Text) (d : Disk) (c : Nat) (hfs : collect w args = .ok fs)
    (hd : DistinctFiles w fs) (hc : (formatFiles w false args d).2 = .exit c) :
    (∃ c', (formatFiles w true args d).2 = .exit c' ∧
      (c' = 0 ↔ c = 0 ∧ (formatFiles w false args d).1.disk = d)) ∧
    ∀ f, (formatFiles w false args d).1.disk f ≠ d f ↔
      ∃ p ∈ fs, w.inode p = some f ∧ ∃ out, FormatsTo w d p out ∧ ¬ Contains w d p out ∧
        Report w true d p [.out (p ++ c!": check failed")] := by
  obtain ⟨new, same⟩ := C32_writes_formatted w args fs d c hfs hd hc
  have written : ∀ p ∈ fs, ∀ f out, w.inode p = some f → FormatsTo w d p out →
      (formatFiles w false args d).1.disk f = some (encode out) := by
    rintro p hp f out hf ⟨src, q, t, h1, ⟨g, h2, h3⟩, h4, h5, h6, rfl⟩
    rw [hf] at h2; cases h2
    obtain ⟨t', h7, h8⟩ := new p hp f src q hf h3 h1 h4 h5
    rw [h6] at h7; cases h7
    exact h8
  have changed : ∀ f, (formatFiles w false args d).1.disk f ≠ d f ↔
      ∃ p ∈ fs, w.inode p = some f ∧ ∃ out, FormatsTo w d p out ∧ ¬ Contains w d p out := by
    intro f
    constructor
    · intro h
      by_cases he : ∃ p ∈ fs, w.inode p = some f ∧ ∃ out, FormatsTo w d p out
      · obtain ⟨p, hp, hf, out, ho⟩ := he
        refine ⟨p, hp, hf, out, ho, ?_⟩
        rintro ⟨g, h1, h2⟩
        rw [hf] at h1; cases h1
        exact h ((written p hp f out hf ho).trans h2.symm)
      · exact absurd (same f he) h
    · rintro ⟨p, hp, hf, out, ho, hn⟩ h
      rw [written p hp f out hf ho] at h
      exact hn ⟨f, hf, h.symm⟩
  have hsv := (C43_run_finishes w false args fs d hfs (.inr hd)).1 ⟨c, hc⟩
  obtain ⟨c', hc'⟩ := (C43_run_finishes w true args fs d hfs (.inl rfl)).2 (by
    intro p hp src h1 h2
    obtain ⟨q, h3, _⟩ := hsv p hp src h1 h2
    exact ⟨q, h3, fun _ h => by cases h⟩)
  have e0 := (C30_exit_code w false args fs d c hfs (.inr hd) hc).2
  have e1 := (C30_exit_code w true args fs d c' hfs (.inl rfl) hc').2
  refine ⟨⟨c', hc', ?_⟩, ?_⟩
  · rw [e1, e0]
    constructor
    · intro h
      refine ⟨fun p hp => ?_, ?_⟩
      · obtain ⟨out, h1, _⟩ := h p hp
        exact ⟨out, h1, fun h => by cases h⟩
      · funext f
        apply Classical.byContradiction
        intro hne
        obtain ⟨p, hp, _, out, h1, h2⟩ := (changed f).1 hne
        obtain ⟨out', h3, h4⟩ := h p hp
        exact h2 (formatsTo_unique h3 h1 ▸ h4 rfl)
    · rintro ⟨h1, h2⟩ p hp
      obtain ⟨out, h3, _⟩ := h1 p hp
      refine ⟨out, h3, fun _ => ?_⟩
      obtain ⟨src, q, t, _, ⟨f, h5, _⟩, _⟩ := id h3
      have := written p hp f out h5 h3
      rw [h2] at this
      exact ⟨f, h5, this⟩
  · intro f
    rw [changed f]
    constructor
    · rintro ⟨p, hp, hf, out, h1, h2⟩
      exact ⟨p, hp, hf, out, h1, h2, .failed rfl h1 h2⟩
    · rintro ⟨p, hp, hf, out, h1, h2, _⟩
      exact ⟨p, hp, hf, out, h1, h2⟩

/-- A file that formatting changes; after that it would not be changed. -/
theorem C91_case :
    (main exWorld [c!"--check", c!"a.mo"] exDisk).2 = .exit 1 ∧
    exDisk 0 = some (encode c!"model A  end A;") ∧
    (main exWorld [c!"a.mo"] exDisk).1.disk 0 = some (encode c!"model A\n\nend A;\n") ∧
    (main exWorld [c!"--check", c!"a.mo"] (main exWorld [c!"a.mo"] exDisk).1.disk).2 = .exit 0 ∧
    collect exWorld [c!"a.mo"] = .ok [c!"a.mo"] ∧ DistinctFiles exWorld [c!"a.mo"] := by
  refine ⟨by decide_cbv, rfl, by decide_cbv, by decide_cbv, by decide_cbv, ?_⟩
  exact ⟨by simp, trivial⟩

end Mofmt
