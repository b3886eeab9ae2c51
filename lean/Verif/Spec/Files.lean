import Verif.Model.Cli
/-
Specification vocabulary for the command line program: which files are meant, what they contain, what a
crash can leave behind.
-/
namespace Mofmt

/-- What may follow the last name of a path without changing its meaning: slashes, also with a dot after
them. -/
inductive Trail : Text → Prop where
  | nil : Trail []
  | slash {t} : Trail t → Trail ('/' :: t)
  | dot {t} : Trail t → Trail ('/' :: '.' :: t)

/-- `n` is the last name of the path `p`: it stands at the beginning or after a slash, and it is none of the
names `.` and `..` that have a special meaning. -/
def LastName (p n : Text) : Prop :=
  ∃ dir tail, p = dir ++ n ++ tail ∧ (dir = [] ∨ ∃ d, dir = d ++ ['/']) ∧ Trail tail ∧
    '/' ∉ n ∧ n ≠ [] ∧ n ≠ c!"." ∧ n ≠ c!".."

/-- The name of a Modelica file: something, then `.mo`. -/
def ModelicaName (p : Text) : Prop := ∃ stem, stem ≠ [] ∧ LastName p (stem ++ c!".mo")

/-- The path leads to a file that contains the text `src`, as UTF-8. -/
def Contains (w : World) (d : Disk) (p src : Text) : Prop := ∃ f, w.inode p = some f ∧ d f = some (encode src)

/-- The path of the entry `n` of the directory with the path `p`: exactly one slash is between them if `p` ends
with at most one. -/
inductive Entered : Text → Text → Text → Prop where
  | slash (d n) : Entered (d ++ ['/']) n (d ++ '/' :: n)
  | plain {p} (n) : (∀ d, p ≠ d ++ ['/']) → Entered p n (p ++ '/' :: n)

/-- `q` is a path of a file found below the path `p` that denotes `t`. -/
inductive Below : Text → DirTree → Text → Prop where
  | here {p} : Below p .leaf p
  | there {p es n t r q} : (n, t) ∈ es → Entered p n r → Below r t q → Below p (.dir es) q

/-- A directory that cannot be listed occurs. -/
inductive HasLocked : DirTree → Prop where
  | here : HasLocked .locked
  | there {es n t} : (n, t) ∈ es → HasLocked t → HasLocked (.dir es)

/-- The file is readable Modelica, it is parsed without errors, and its formatted text is `out`. -/
def FormatsTo (w : World) (d : Disk) (p out : Text) : Prop :=
  ∃ src q t, ModelicaName p ∧ Contains w d p src ∧ parse p src .StoredDefinition = .ok q ∧
    q.errors = [] ∧ prettyPrint w.eol q.tokens q.comments q.events = .ok t ∧ out = t ++ w.eol

/-- The file is not Modelica, or unreadable, or syntax errors are reported. -/
def Rejected (w : World) (d : Disk) (p : Text) : Prop :=
  ¬ ModelicaName p ∨ (¬ ∃ src, Contains w d p src) ∨
    ∃ src q, Contains w d p src ∧ parse p src .StoredDefinition = .ok q ∧ q.errors ≠ []

/-- The operation changes the file `f`. -/
def Op.writes (f : Nat) : Op → Bool
  | .truncate g => g == f
  | .append g _ => g == f
  | _ => false

/-- The effect of a list of operations. -/
def replay : List Op → Disk → Disk
  | [], d => d
  | o :: os, d => replay os (o.apply d)

/-- What can be on the disk if the process is killed at some moment of a run with the given operations:
the effect of some first operations, or in addition a part of the bytes being written. -/
inductive CrashState (log : List Op) (d : Disk) : Disk → Prop where
  | between {pre post} : log = pre ++ post → CrashState log d (replay pre d)
  | during {pre f u v post} : log = pre ++ .append f (u ++ v) :: post →
      CrashState log d (replay (pre ++ [.append f u]) d)

/-- What a run does and says about one file, the disk being `d`. -/
inductive Report (w : World) (check : Bool) (d : Disk) (p : Text) : List Op → Prop where
  | notModelica : ¬ ModelicaName p → Report w check d p [.err (p ++ c!": error: " ++ p ++ c!" is not a Modelica file")]
  | unreadable : ModelicaName p → (∀ f, w.inode p = some f → d f = none) →
      Report w check d p [.err (p ++ c!": error: " ++ w.complaint p)]
  | notText {f b} : ModelicaName p → w.inode p = some f → d f = some b → (∀ t, b ≠ encode t) →
      Report w check d p [.err (p ++ c!": error: stream did not contain valid UTF-8")]
  | errors {src q} : ModelicaName p → Contains w d p src → parse p src .StoredDefinition = .ok q → q.errors ≠ [] →
      Report w check d p [.out (c!"Syntax errors detected:\n" ++ (q.errors.intersperse c!"\n").flatten)]
  | passed {out} : check = true → FormatsTo w d p out → Contains w d p out →
      Report w check d p [.out (p ++ c!": check passed")]
  | failed {out} : check = true → FormatsTo w d p out → ¬ Contains w d p out →
      Report w check d p [.out (p ++ c!": check failed")]
  | written {f out} : check = false → FormatsTo w d p out → w.inode p = some f →
      Report w check d p [.truncate f, .append f (encode out)]

/-- The reports `rs` are those of the files `fs`, one for each in this order. -/
inductive Reports (w : World) (check : Bool) (d : Disk) : List Text → List (List Op) → Prop where
  | nil : Reports w check d [] []
  | cons {p fs r rs} : Report w check d p r → Reports w check d fs rs → Reports w check d (p :: fs) (r :: rs)

/-- No two paths of the list lead to the same file. -/
def DistinctFiles (w : World) : List Text → Prop
  | [] => True
  | p :: ps => (∀ q ∈ ps, ∀ f, w.inode p = some f → w.inode q ≠ some f) ∧ DistinctFiles w ps

end Mofmt
