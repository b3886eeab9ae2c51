import Verif.Props.Cli
/-
C90: what the options do.
-/
namespace Mofmt

/-- The options that ask for information. -/
def infoOptions : List Text := [c!"-h", c!"--help", c!"-v", c!"--version"]

/-- The arguments name something to do: paths, possibly after `--check`. -/
def NamesPaths (check : Bool) (args paths : List Text) : Prop :=
  paths ≠ [] ∧ if check then args = c!"--check" :: paths
    else args = paths ∧ ∀ a ∈ args.head?, a.head? ≠ some '-'

/-- **C90** Every list of arguments is of exactly one of these forms.  If it names paths, possibly after
`--check`, the files are processed.  Otherwise nothing is read and nothing but one line is written, whatever the
disk and the file system are: to standard output, with exit code 0, exactly if the first argument asks for
help or for the version; to standard error, with exit code 1, if not.  An unknown option is named in that line. -/
theorem C90_options (args : List Text) :
    (∃ check paths, NamesPaths check args paths ∧ ∀ w d, main w args d = formatFiles w check paths d) ∨
    ((∀ check paths, ¬ NamesPaths check args paths) ∧ ∃ line : Text, ∀ w d, (main w args d).1.disk = d ∧
      ((∃ a rest, args = a :: rest ∧ a ∈ infoOptions) →
        (main w args d).1.log = [.out line] ∧ (main w args d).2 = .exit 0) ∧
      ((∀ a rest, args = a :: rest → a ∉ infoOptions) →
        (main w args d).1.log = [.err line] ∧ (main w args d).2 = .exit 1) ∧
      (∀ a rest, args = a :: rest → a ∉ c!"--check" :: infoOptions → ∃ x y, line = x ++ a ++ y)) := by
  cases args with
  | nil =>
    refine .inr ⟨?_, _, fun w d => ⟨rfl, ?_, fun _ => ⟨rfl, rfl⟩, ?_⟩⟩
    · rintro check paths ⟨h1, h2⟩
      cases check
      · exact h1 h2.1.symm
      · cases h2
    · rintro ⟨a, rest, h, _⟩; cases h
    · intro a rest h; cases h
  | cons a rest =>
    have noAsk : a.head? = some '-' → (a = c!"--check" → rest = []) → ∀ check paths, ¬ NamesPaths check (a :: rest) paths := by
      rintro h0 h check paths ⟨h1, h2⟩
      cases check
      · exact h2.2 a (by simp) h0
      · simp only [if_true, List.cons.injEq] at h2
        exact h1 (h2.2 ▸ h h2.1)
    by_cases hh : a = c!"-h" ∨ a = c!"--help"
    · refine .inr ⟨noAsk ?_ ?_, help, fun w d => ⟨?_, fun _ => ?_, fun h => ?_, fun b r e hb => ?_⟩⟩
      · rcases hh with rfl | rfl <;> rfl
      · intro e; subst e; exact absurd hh (by decide)
      · rcases hh with rfl | rfl <;> rfl
      · rcases hh with rfl | rfl <;> exact ⟨rfl, rfl⟩
      · exact absurd (by rcases hh with rfl | rfl <;> decide) (h a rest rfl)
      · cases e; exact absurd (by rcases hh with rfl | rfl <;> decide) hb
    by_cases hv : a = c!"-v" ∨ a = c!"--version"
    · refine .inr ⟨noAsk ?_ ?_, c!"mofmt, " ++ version, fun w d => ⟨?_, fun _ => ?_, fun h => ?_, fun b r e hb => ?_⟩⟩
      · rcases hv with rfl | rfl <;> rfl
      · intro e; subst e; exact absurd hv (by decide)
      · rcases hv with rfl | rfl <;> rfl
      · rcases hv with rfl | rfl <;> exact ⟨rfl, rfl⟩
      · exact absurd (by rcases hv with rfl | rfl <;> decide) (h a rest rfl)
      · cases e; exact absurd (by rcases hv with rfl | rfl <;> decide) hb
    have hi : a ∉ infoOptions := by
      simp only [infoOptions, List.mem_cons, List.not_mem_nil, or_false]
      simp only [not_or] at hh hv ⊢
      exact ⟨hh.1, hh.2, hv.1, hv.2⟩
    by_cases hc : a = c!"--check"
    · subst hc
      cases rest with
      | nil =>
        refine .inr ⟨noAsk rfl fun _ => rfl, _, fun w d => ⟨rfl, ?_, fun _ => ⟨rfl, rfl⟩, ?_⟩⟩
        · rintro ⟨b, r, e, hb⟩; cases e; exact absurd hb hi
        · intro b r e hb; cases e; simp at hb
      | cons b rest =>
        refine .inl ⟨true, b :: rest, ⟨by simp, by simp⟩, fun w d => ?_⟩
        rfl
    by_cases hd : a.head? = some '-'
    · refine .inr ⟨noAsk hd fun e => absurd e hc, c!"Unrecognized option: '" ++ a ++ c!"'.\n" ++ help,
        fun w d => ?_⟩
      have hm : main w (a :: rest) d =
          ((⟨d, [], 0⟩ : Proc).emit (.err (c!"Unrecognized option: '" ++ a ++ c!"'.\n" ++ help)), .exit 1) := by
        unfold main
        simp only [if_neg hh, if_neg hv, if_neg hc, if_pos hd]
      rw [hm]
      refine ⟨rfl, ?_, fun _ => ⟨rfl, rfl⟩, ?_⟩
      · rintro ⟨b, r, e, hb⟩; cases e; exact absurd hb hi
      · intro b r e _
        cases e
        exact ⟨c!"Unrecognized option: '", c!"'.\n" ++ help, by simp⟩
    · refine .inl ⟨false, a :: rest, ⟨by simp, rfl, by simpa using hd⟩, fun w d => ?_⟩
      unfold main
      simp only [if_neg hh, if_neg hv, if_neg hc, if_neg hd]

/-- The forms occur: help although paths follow, an unknown option, paths, and `--check` without paths. -/
theorem C90_case (w : World) (d : Disk) :
    (main w [c!"--help", c!"a.mo"] d).2 = .exit 0 ∧ (main w [c!"--chek", c!"a.mo"] d).2 = .exit 1 ∧
    (main w [c!"--chek", c!"a.mo"] d).1.disk = d ∧ NamesPaths false [c!"a.mo", c!"--check"] [c!"a.mo", c!"--check"] ∧
    NamesPaths true [c!"--check", c!"a.mo"] [c!"a.mo"] ∧ (main w [c!"--check"] d).2 = .exit 1 :=
  ⟨rfl, rfl, rfl, ⟨by simp, rfl, by decide⟩, ⟨by simp, rfl⟩, rfl⟩

end Mofmt
