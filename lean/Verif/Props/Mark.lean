import Verif.Props.Viable
import Verif.Props.CliEnd
/-
C93: files that begin with a byte order mark.
-/
namespace Mofmt
open Lexical

namespace Mark

/-- A token begins with an ASCII character that is not white. -/
theorem class_start {k : Tok} {c : Char} {t : Text} (h : Class k (c :: t)) : c.toNat < 128 ∧ ws c = false := by
  have hd : ∀ c : Char, digit c = true → c.toNat < 128 ∧ ws c = false := by
    intro c h
    simp only [digit, decide_eq_true_eq] at h
    have h1 : 48 ≤ c.toNat := h.1
    have h2 : c.toNat ≤ 57 := h.2
    refine ⟨by omega, ?_⟩
    simp only [ws, decide_eq_false_iff_not]
    rintro (rfl | rfl | rfl | rfl | rfl) <;> revert h1 <;> decide
  have hw : ∀ c : Char, wordStart c = true → c.toNat < 128 ∧ ws c = false := by
    intro c h
    simp only [wordStart, letter, Bool.or_eq_true, decide_eq_true_eq] at h
    have h1 : 65 ≤ c.toNat ∧ c.toNat ≤ 122 := by
      rcases h with (⟨h1, h2⟩ | ⟨h1, h2⟩) | rfl
      · have h1 : 97 ≤ c.toNat := h1
        have h2 : c.toNat ≤ 122 := h2
        omega
      · have h1 : 65 ≤ c.toNat := h1
        have h2 : c.toNat ≤ 90 := h2
        omega
      · decide
    refine ⟨by omega, ?_⟩
    simp only [ws, decide_eq_false_iff_not]
    rintro (rfl | rfl | rfl | rfl | rfl) <;> revert h1 <;> decide
  have sp : ∀ k, spelling k = some (c :: t) → c.toNat < 128 ∧ ws c = false := by
    intro k h
    cases k <;> simp only [spelling, Option.some.injEq, List.cons.injEq, reduceCtorEq] at h <;>
      (obtain ⟨rfl, _⟩ := h; decide)
  cases k with
  | EOF => exact h.elim
  | Bool =>
    rcases h with h | h <;> (simp only [List.cons.injEq] at h; obtain ⟨rfl, _⟩ := h; decide)
  | Identifier =>
    rcases h with ⟨h, _⟩ | ⟨b, h, _⟩
    · simp only [isWord, Bool.and_eq_true] at h
      exact hw c h.1
    · cases h; decide
  | String => obtain ⟨b, h, _⟩ := h; cases h; decide
  | UInt =>
    have := h.2
    simp only [List.all_cons, Bool.and_eq_true] at this
    exact hd c this.1
  | UReal =>
    obtain ⟨ds, fr, ex, h1, h2, h3, _⟩ := h
    cases ds with
    | nil => exact absurd rfl h2
    | cons e ds =>
      simp only [List.cons_append, List.cons.injEq] at h1
      simp only [List.all_cons, Bool.and_eq_true] at h3
      exact h1.1 ▸ hd e h3.1
  | LineComment => obtain ⟨b, h, _⟩ := h; cases h; decide
  | BlockComment => obtain ⟨b, h, _⟩ := h; cases h; decide
  | _ => exact sp _ h

/-- A character before a text that is neither ASCII nor part of a token. -/
theorem divided_marked {c : Char} {src : Text} {ps : List (Text × Chunk)} (hc : 128 ≤ c.toNat) (h : Divided src ps) :
    Divided (c :: src) (([], .stray c) :: ps) := by
  have hw : ws c = false := by
    simp only [ws, decide_eq_false_iff_not]
    rintro (rfl | rfl | rfl | rfl | rfl) <;> revert hc <;> decide
  have hb : (Chunk.stray c).Before src := ⟨hw, fun k t h => by have := (class_start h).1; omega⟩
  exact Divided.next (w := []) (p := .stray c) rfl hb h

/-- After the mark the lexer panics exactly if a token follows at once. -/
theorem awkward_marked {src : Text} {ps : List (Text × Chunk)} (h : Divided src ps) (ha : awkward false ps = false)
    (hn : ∀ x ∈ ps, x.2.problem = none) :
    awkward true ps = true ↔ ∃ d r, src = d :: r ∧ ws d = false := by
  cases h with
  | done hw =>
    simp only [awkward, Bool.false_eq_true, false_iff]
    rintro ⟨d, r, rfl, hd⟩
    simp [hd] at hw
  | @next w r p ps hw hp _ =>
    cases p with
    | token k t =>
      simp only [awkward, Bool.false_and, Bool.false_or, Bool.or_eq_false_iff] at ha
      simp only [awkward, ha.1, ha.2, Bool.true_and, Bool.or_false, List.isEmpty_iff]
      constructor
      · rintro rfl
        cases t with
        | nil => exact absurd rfl (class_ne_nil hp.1)
        | cons d t => exact ⟨d, t ++ r, rfl, (class_start hp.1).2⟩
      · rintro ⟨d, r', e, hd⟩
        cases w with
        | nil => rfl
        | cons d' w =>
          simp only [List.cons_append, List.cons.injEq] at e
          simp [e.1, hd] at hw
    | stray c => exact absurd (hn _ List.mem_cons_self) (by simp [Chunk.problem])
    | broken b c => exact absurd (hn _ List.mem_cons_self) (by simp [Chunk.problem])
    | openString b => exact absurd (hn _ List.mem_cons_self) (by simp [Chunk.problem])
    | openQuoted b => exact absurd (hn _ List.mem_cons_self) (by simp [Chunk.problem])
    | openComment b => exact absurd (hn _ List.mem_cons_self) (by simp [Chunk.problem])

end Mark
open Mark Via

/-- **C93 is false** of files that begin with a token or a comment, as nearly all do: if such a file is accepted, then
the same file with a byte order mark (or another character that is not ASCII) before it makes the formatter panic, in
the lexer. -/
theorem C93_mark_panics (name src : Text) (c d : Char) (r : Text) (p : Parsed) (entry : SK) (hc : 128 ≤ c.toNat)
    (hp : parse name src .StoredDefinition = .ok p) (he : p.errors = []) (hs : src = d :: r) (hd : ws d = false) :
    parse name (c :: src) entry = .panic .slice := by
  obtain ⟨ps, h, _⟩ := C53_divided src
  simp only [parse, Res.bind_eq_ok] at hp
  obtain ⟨l, hl, ⟨evs, errs⟩, h1, hq⟩ := hp
  cases hq
  simp only [List.append_eq_nil_iff] at he
  rw [C53_lexed name src ps h] at hl
  split at hl
  · cases hl
  · rename_i ha
    simp only [Bool.not_eq_true] at ha
    simp only [Res.ok.injEq] at hl
    subst hl
    have hn := (problems_nil name ps []).1 he.1
    have hm := (awkward_marked h ha hn).2 ⟨d, r, hs, hd⟩
    have hx : awkward false (([], .stray c) :: ps) = true := by
      have : endsAscii [c] = false := by simp [endsAscii]; omega
      simp only [awkward, Chunk.text, this, Bool.not_false, hm]
    simp only [parse, C53_lexed name (c :: src) _ (divided_marked hc h), hx, if_true]
    rfl

/-- **C93, what holds**: if white space follows the mark, then the mark is reported, in line 1 and column 1, and
nothing else. -/
theorem C93_mark_reported_partial (name src : Text) (c : Char) (p : Parsed) (hc : 128 ≤ c.toNat)
    (hp : parse name src .StoredDefinition = .ok p) (he : p.errors = []) (hs : ∀ d r, src = d :: r → ws d = true) :
    ∃ q, parse name (c :: src) .StoredDefinition = .ok q ∧
      q.errors = [name ++ c!":1:1: unexpected character: '" ++ [c] ++ c!"'"] := by
  obtain ⟨ps, h, _⟩ := C53_divided src
  simp only [parse, Res.bind_eq_ok] at hp
  obtain ⟨l, hl, ⟨evs, errs⟩, h1, hq⟩ := hp
  cases hq
  simp only [List.append_eq_nil_iff] at he
  rw [C53_lexed name src ps h] at hl
  split at hl
  · cases hl
  · rename_i ha
    simp only [Bool.not_eq_true] at ha
    simp only [Res.ok.injEq] at hl
    subst hl
    have hn := (problems_nil name ps []).1 he.1
    have hm : awkward true ps = false := by
      cases e : awkward true ps with
      | false => rfl
      | true =>
        obtain ⟨d, r, e1, e2⟩ := (awkward_marked h ha hn).1 e
        rw [hs d r e1] at e2
        cases e2
    have hx : awkward false (([], .stray c) :: ps) = false := by
      have : endsAscii [c] = false := by simp [endsAscii]; omega
      simp only [awkward, Chunk.text, this, Bool.not_false, hm]
    have hk : ((lexemes [] 0 ps).filter (fun t => !isComment t)).map (·.kind) =
        ((lexemes [] 0 (([], .stray c) :: ps)).filter (fun t => !isComment t)).map (·.kind) := by
      rw [lexemes_kinds, lexemes_kinds]
      rfl
    obtain ⟨errs', h4, h5⟩ := (C24_only_kinds name name _ _ .StoredDefinition hk).1 evs errs h1
    rw [he.2, List.length_nil, List.length_eq_zero_iff] at h5
    subst h5
    refine ⟨_, by simp only [parse, C53_lexed name (c :: src) _ (divided_marked hc h), hx]; rw [if_neg (by simp)]; simp only [Res.bind_ok, h4]; rfl, ?_⟩
    have hr := (problems_nil name ps [c]).2 hn
    have h10 : Nat.toDigits 10 1 = ['1'] := by decide
    simp only [List.append_nil, problems, Chunk.problem, Chunk.text]
    simp [errorText, position, newlines, column, natText, hr, h10]

/-- **C93 is false** of whole runs: a run that comes upon such a file ends in a panic, with `--check` and without. -/
theorem C93_run_panics (w : World) (check : Bool) (args fs : List Text) (d : Disk) (path src : Text) (c e : Char)
    (r : Text) (p : Parsed) (hfs : collect w args = .ok fs) (hd : check = true ∨ DistinctFiles w fs) (hm : path ∈ fs)
    (hn : ModelicaName path) (hc : 128 ≤ c.toNat) (ht : Contains w d path (c :: src))
    (hp : parse path src .StoredDefinition = .ok p) (he : p.errors = []) (hs : src = e :: r) (hw : ws e = false) :
    ¬ ∃ code, (formatFiles w check args d).2 = .exit code := by
  rw [C43_run_finishes w check args fs d hfs hd]
  intro h
  obtain ⟨q, h1, _⟩ := h path hm _ hn ht
  rw [C93_mark_panics path src c e r p _ hc hp he hs hw] at h1
  cases h1

/-- The byte order mark. -/
theorem C93_case :
    (match parse c!"f" c!"model A end A;" .StoredDefinition with | .ok p => p.errors.isEmpty | _ => false) = true ∧
    parse c!"f" c!"\uFEFFmodel A end A;" .StoredDefinition = .panic .slice ∧
    (match parse c!"f" c!"\uFEFF\nmodel A end A;" .StoredDefinition with | .ok p => p.errors | _ => []) =
      [c!"f:1:1: unexpected character: '\uFEFF'"] ∧
    (main exWorld [c!"a.mo"] (fun _ => some (encode c!"\uFEFFmodel A end A;"))).2 = .panic .slice := by
  refine ⟨by decide +kernel, by decide +kernel, by decide +kernel, by decide_cbv⟩

end Mofmt
