import Verif.Proofs.LexWork
import Verif.Props.Effort
/-
C81: the work of the lexer and of a whole run.
-/
namespace Mofmt

open Lexical

/-- **C81** The lexer looks at and takes characters, makes tokens and messages and compares words with keywords a number of times that
is linear in the length of the text, whatever stands in it; and it takes every character. -/
theorem C81_lexer (name src : Text) (l : Lexed) (h : lex name src = .ok l) :
    src.length ≤ lexWork name src ∧ lexWork name src ≤ 65 * src.length + 1 := lexWork_le h

mutual
theorem height_le_size : ∀ t : Tree, t.height ≤ t.size
  | .tok _ => by simp [Tree.height, Tree.size]
  | .node k cs => by
    have := heights_le_sizes cs
    simp only [Tree.height, Tree.size]
    omega
theorem heights_le_sizes : ∀ cs : List Tree, heightF cs ≤ sizeF cs
  | [] => by simp [heightF]
  | c :: cs => by
    have := height_le_size c
    have := heights_le_sizes cs
    simp only [heightF, sizeF]
    omega
end

/-- **C81** For an accepted file the work of a whole run, from the text to the output, is at most quadratic in the length of the file. -/
theorem C81_run (eol name src out : Text) (p : Parsed) (h : Formatted eol name src p out) : ∃ t ms, buildTree p.tokens p.events = .ok t ∧
    format t p.comments = .ok ms ∧
    fileWork name src p t ms out ≤ 23010 * (src.length * src.length) + (5481 + 2 * eol.length) * src.length + 2158 + eol.length := by
  obtain ⟨txt, hp, ho⟩ := h.text
  obtain ⟨t, ht, hp⟩ := Res.bind_eq_ok.1 hp
  obtain ⟨ms, hm, hp⟩ := Res.bind_eq_ok.1 hp
  refine ⟨t, ms, ht, hm, ?_⟩
  obtain ⟨l, hl, _, _, _⟩ := parse_lex h.parsed h.accepted
  have a1 := (lexWork_le hl).2
  have a2 := C75_steps name p.tokens .StoredDefinition (parseFuel p.tokens.length)
  obtain ⟨a3, a4⟩ := C75_parsed name src _ p h.parsed
  have a5 := C80_tree t p.comments
  have a6 := C75_tree name src p h.parsed h.accepted t ht
  have a7 := (C77_markers t _ _ hm).1
  have a8 := (C77_output eol name src out p h).2
  have a9 : t.leaves = p.tokens := by
    obtain ⟨cs, hc, _, h3, _⟩ := h.laid
    have hc' : t = .node .StoredDefinition cs := by
      rw [ht] at hc
      simpa using hc
    rw [groupsOf_tok, ← hc', Tree.wholeLayout, layout_toks] at h3
    exact h3
  rw [a9] at a7
  have b1 : t.size ≤ 14 * src.length + 1 := by
    rw [size_eq, a9]; omega
  have b2 : t.size * t.height ≤ (14 * src.length + 1) * (14 * src.length + 1) :=
    Nat.mul_le_mul b1 (Nat.le_trans (height_le_size t) b1)
  have b3 : (14 * src.length + 1) * (14 * src.length + 1) = 196 * (src.length * src.length) + 28 * src.length + 1 := by
    simp only [Nat.add_mul, Nat.mul_add, Nat.mul_one, Nat.one_mul]
    rw [show 14 * src.length * (14 * src.length) = 196 * (src.length * src.length) by
      rw [Nat.mul_mul_mul_comm]]
    omega
  have b4 : src.length * (2 * eol.length + 78 * src.length + 7) =
      2 * (eol.length * src.length) + 78 * (src.length * src.length) + 7 * src.length := by
    simp only [Nat.mul_add]
    rw [Nat.mul_left_comm src.length 2, Nat.mul_left_comm src.length 78, Nat.mul_comm src.length eol.length, Nat.mul_comm src.length 7]
  have b5 : (5481 + 2 * eol.length) * src.length = 5481 * src.length + 2 * (eol.length * src.length) := by
    rw [Nat.add_mul, Nat.mul_assoc]
  unfold fileWork
  omega

/-- **C81** The order cannot be improved: for every `n` there is an accepted file of `6 n + 29` characters for which the work is more
than `5 (n + 1)²`. -/
theorem C81_order (eol name : Text) (n : Nat) : ∃ src p out t ms, Formatted eol name src p out ∧ buildTree p.tokens p.events = .ok t ∧
    format t p.comments = .ok ms ∧ src.length = 6 * n + 29 ∧ 5 * (n + 1) * (n + 1) ≤ fileWork name src p t ms out := by
  obtain ⟨src, p, out, t, h, ht, hl, hw⟩ := C80_quadratic eol name n
  obtain ⟨t', ms, ht', hm, _⟩ := C81_run eol name src out p h
  rw [ht] at ht'
  cases ht'
  refine ⟨src, p, out, t, ms, h, ht, hm, hl, ?_⟩
  unfold fileWork
  omega

/-- The work of the lexer for some texts, the last with two errors: all characters are looked at, and words are compared with the
keywords. -/
theorem C81_case : lexWork c!"f" c!"" = 1 ∧ lexWork c!"f" c!"x" = 63 ∧ lexWork c!"f" c!"model A end A;" = 269 ∧
    lexWork c!"f" c!"/* a * b */ \"x\\\"y\" 'q q' 1.5e-3 <> $ \"" = 65 ∧
    (∃ l, lex c!"f" c!"/* a * b */ \"x\\\"y\" 'q q' 1.5e-3 <> $ \"" = .ok l ∧ l.errors.length = 2 ∧ l.tokens.length = 4) := by
  refine ⟨by decide +kernel, by decide +kernel, by decide +kernel, by decide +kernel, ?_⟩
  refine ⟨_, rfl, ?_⟩
  decide +kernel

end Mofmt
