import Verif.Props.Lexer
import Verif.Props.Messages
import Verif.Props.Lexemes
/-
C89: the messages about a file are in the order of the places they name, and there are not too many.
-/
namespace Mofmt
open Lexical

/-- An earlier place in a file: an earlier line, or the same line and an earlier column. -/
def Pos.Before (p q : Pos) : Prop := p.line < q.line ∨ p.line = q.line ∧ p.col < q.col

namespace MsgOrder

/-! ### Positions -/

theorem before_trans {p q r : Pos} (h : p.Before q) (h' : q.Before r) : p.Before r := by
  simp only [Pos.Before] at *
  omega

theorem position_snoc (p : Text) (c : Char) : (position p).Before (position (p ++ [c])) := by
  unfold Pos.Before position newlines column
  by_cases h : c = '\n'
  · subst h; simp
  · right
    have h' : ¬ '\n' = c := fun e => h e.symm
    simp [List.count_append, h]

theorem position_append (p : Text) : ∀ (t : Text), t ≠ [] → (position p).Before (position (p ++ t)) := by
  intro t
  induction t generalizing p with
  | nil => intro h; exact absurd rfl h
  | cons c t ih =>
    intro _
    cases t with
    | nil => exact position_snoc p c
    | cons d t =>
      have := ih (p ++ [c]) (by simp)
      rw [List.append_assoc, List.singleton_append] at this
      exact before_trans (position_snoc p c) this

/-- Of two beginnings of a text, that with fewer bytes ends earlier. -/
theorem position_bytes {p q a b : Text} (h : p ++ a = q ++ b) (hlt : bytes p < bytes q) :
    (position p).Before (position q) := by
  rcases List.append_eq_append_iff.1 h with ⟨t, ht, _⟩ | ⟨t, ht, _⟩
  · subst ht
    refine position_append p t ?_
    intro e; subst e; simp at hlt
  · subst ht
    rw [bytes_append] at hlt
    omega

/-! ### Lexical errors -/

theorem chunk_text_ne {p : Chunk} {m : Text} (h : p.problem = some m) : p.text ≠ [] := by
  cases p <;> simp [Chunk.problem, Chunk.text] at *

theorem problems_ordered (name : Text) : ∀ (ps : List (Text × Chunk)) (pre : Text),
    ∃ ms : List (Pos × Text), problems name pre ps = ms.map (fun m => errorText name m.1 m.2) ∧
      ms.Pairwise (fun a b => a.1.Before b.1) ∧ (∀ m ∈ ms, m.1 = position pre ∨ (position pre).Before m.1) ∧
      ms.length ≤ (ps.flatMap fun p => p.2.text).length
  | [], pre => ⟨[], rfl, .nil, by simp, by simp⟩
  | (w, p) :: ps, pre => by
    obtain ⟨ms, h1, h2, h3, h4⟩ := problems_ordered name ps (pre ++ w ++ p.text)
    have hw : position (pre ++ w) = position pre ∨ (position pre).Before (position (pre ++ w)) := by
      cases w with
      | nil => left; simp
      | cons c w => right; exact position_append _ _ (by simp)
    have later : ∀ x : Pos, x = position (pre ++ w) ∨ (position (pre ++ w)).Before x →
        x = position pre ∨ (position pre).Before x := by
      rintro x (rfl | hx)
      · exact hw
      · rcases hw with e | e
        · right; rw [← e]; exact hx
        · exact Or.inr (before_trans e hx)
    have after : ∀ m ∈ ms, m.1 = position (pre ++ w) ∨ (position (pre ++ w)).Before m.1 := by
      intro m hm
      rcases h3 m hm with e | e
      · rw [e]
        cases ht : p.text with
        | nil => left; simp
        | cons c t => right; exact position_append _ _ (by simp)
      · cases ht : p.text with
        | nil => right; rw [ht] at e; simpa using e
        | cons c t =>
          right
          rw [ht] at e
          exact before_trans (position_append _ (c :: t) (by simp)) e
    unfold problems
    cases hp : p.problem with
    | none =>
      refine ⟨ms, by simpa using h1, h2, fun m hm => later _ (after m hm), ?_⟩
      simp only [List.flatMap_cons, List.length_append]
      omega
    | some t =>
      have hne := chunk_text_ne hp
      refine ⟨(position (pre ++ w), t) :: ms, by rw [h1]; rfl, List.pairwise_cons.2 ⟨?_, h2⟩, ?_, ?_⟩
      · intro m hm
        have := position_append (pre ++ w) p.text hne
        rcases h3 m hm with e | e
        · rw [e]; exact this
        · exact before_trans this e
      · intro m hm
        rcases List.mem_cons.1 hm with rfl | hm
        · exact hw
        · exact later _ (after m hm)
      · have : p.text.length ≠ 0 := fun e => hne (List.length_eq_zero_iff.1 e)
        simp only [List.flatMap_cons, List.length_append, List.length_cons]
        omega

theorem divided_length {src : Text} {ps : List (Text × Chunk)} (h : Divided src ps) :
    (ps.flatMap fun p => p.2.text).length ≤ src.length := by
  induction h with
  | done _ => simp
  | next _ _ _ ih => simp only [List.flatMap_cons, List.length_append]; omega

/-! ### Syntax errors -/

variable {name : Text} {toks : List Token}

/-- The messages so far name tokens with increasing indices. -/
def Sorted (name : Text) (toks : List Token) (pos : Nat) (es : List Text) : Prop :=
  ∃ ms : List (Nat × Token × Text), es = ms.map (fun m => errorText name m.2.1.start m.2.2) ∧
    (∀ m ∈ ms, toks[m.1]? = some m.2.1) ∧ ms.Pairwise (fun a b => a.1 ≤ b.1) ∧ ∀ m ∈ ms, m.1 ≤ pos

/-- Every message costs two of the hundred looks at a token. -/
def Few (s : PState) : Prop := 2 * s.errors.length + s.lifes ≤ 100 * (s.pos + 1)

structure Orderly (name : Text) (toks : List Token) (s : PState) : Prop where
  sorted : Sorted name toks s.pos s.errors
  few : Few s
  le : s.pos ≤ toks.length

theorem Sorted.later {pos pos' : Nat} {es : List Text} (h : Sorted name toks pos es) (hle : pos ≤ pos') :
    Sorted name toks pos' es := by
  obtain ⟨ms, h1, h2, h3, h4⟩ := h
  exact ⟨ms, h1, h2, h3, fun m hm => Nat.le_trans (h4 m hm) hle⟩

theorem error_sorted {s s' : PState} {m : Text} (hs : Sorted name toks s.pos s.errors)
    (h : s.error name toks m = .ok s') : Sorted name toks s'.pos s'.errors ∧ s'.pos = s.pos ∧
      s'.lifes = s.lifes ∧ s'.errors.length = s.errors.length + 1 := by
  obtain ⟨ms, h1, h2, h3, h4⟩ := hs
  have key : ∀ (i : Nat) (t : Token), toks[i]? = some t → (∀ m ∈ ms, m.1 ≤ i) → i ≤ s.pos →
      Sorted name toks s.pos (s.errors ++ [errorText name t.start m]) := by
    intro i t ht hi hle
    refine ⟨ms ++ [(i, t, m)], by simp [h1], ?_, ?_, ?_⟩
    · intro x hx
      rcases List.mem_append.1 hx with hx | hx
      · exact h2 x hx
      · simp at hx; subst hx; exact ht
    · rw [List.pairwise_append]
      refine ⟨h3, by simp, ?_⟩
      intro x hx y hy
      simp at hy; subst hy
      exact hi x hx
    · intro x hx
      rcases List.mem_append.1 hx with hx | hx
      · exact h4 x hx
      · simp at hx; subst hx; exact hle
  unfold PState.error at h
  split at h
  · rename_i t ht
    simp at h; subst h
    exact ⟨key s.pos t ht h4 (Nat.le_refl _), rfl, rfl, by simp⟩
  · rename_i hnone
    split at h
    · rename_i t ht
      simp at h; subst h
      have hlen : toks.length ≤ s.pos := by simpa using hnone
      rw [List.getLast?_eq_getElem?] at ht
      refine ⟨key (toks.length - 1) t ht ?_ (by omega), rfl, rfl, by simp⟩
      intro x hx
      have := (List.getElem?_eq_some_iff.1 (h2 x hx)).1
      omega
    · simp at h

theorem nth_few {n : Nat} {s s' : PState} {k : Tok} (h : s.nth toks n = .ok (k, s')) :
    s'.pos = s.pos ∧ s'.errors = s.errors ∧ s'.lifes + 1 = s.lifes := by
  obtain ⟨_, h1, h2⟩ := nth_grew h
  refine ⟨h1, h2, ?_⟩
  unfold PState.nth at h
  split at h
  · split at h <;> simp at h
  · simp at h; obtain ⟨_, rfl⟩ := h; simp; omega

theorem advance_few {s s' : PState} (h : s.advance toks = .ok s') :
    s'.pos = s.pos + 1 ∧ s'.errors = s.errors ∧ s'.lifes = 100 ∧ s'.pos ≤ toks.length ∨ toks.length < s.pos := by
  unfold PState.advance at h
  split at h
  · simp at h
  · rename_i he
    simp at h
    subst h
    simp [PState.eof] at he
    simp
    omega

theorem nth_orderly {n : Nat} {s s' : PState} {k : Tok} (hs : Orderly name toks s)
    (h : s.nth toks n = .ok (k, s')) : Orderly name toks s' := by
  obtain ⟨h1, h2, h3⟩ := nth_few h
  refine ⟨by rw [h1, h2]; exact hs.sorted, ?_, by rw [h1]; exact hs.le⟩
  have := hs.few
  unfold Few at *
  rw [h1, h2]; omega

theorem advance_orderly {s s' : PState} (hs : Orderly name toks s)
    (h : s.advance toks = .ok s') : Orderly name toks s' := by
  obtain ⟨h1, h2, h3, h4⟩ := (advance_few h).resolve_right (by have := hs.le; omega)
  refine ⟨by rw [h1, h2]; exact hs.sorted.later (by omega), ?_, by omega⟩
  have := hs.few
  unfold Few at *
  rw [h1, h2, h3]; omega

theorem evalCond_orderly (c : Cond) : ∀ {s s' : PState} {b : Bool}, Orderly name toks s →
    evalCond toks c s = .ok (b, s') → Orderly name toks s' := by
  induction c with
  | check k | checkAny ks | nthIs n k =>
    intro s s' b hs h
    simp only [evalCond, Res.bind_eq_ok] at h
    obtain ⟨⟨k', s1⟩, h1, h2⟩ := h
    simp at h2
    rw [← h2.2]
    exact nth_orderly hs h1
  | consume k =>
    intro s s' b hs h
    simp only [evalCond, Res.bind_eq_ok] at h
    obtain ⟨⟨k', s1⟩, h1, h2⟩ := h
    split at h2
    · simp only [Res.bind_eq_ok] at h2
      obtain ⟨s2, h3, h4⟩ := h2
      simp at h4
      rw [← h4.2]
      exact advance_orderly (nth_orderly hs h1) h3
    · simp at h2
      rw [← h2.2]
      exact nth_orderly hs h1
  | eof => intro s s' b hs h; simp [evalCond] at h; rw [← h.2]; exact hs
  | not c ih =>
    intro s s' b hs h
    simp only [evalCond, Res.bind_eq_ok] at h
    obtain ⟨⟨k', s1⟩, h1, h2⟩ := h
    simp at h2
    rw [← h2.2]
    exact ih hs h1
  | and a b iha ihb | or a b iha ihb =>
    intro s s' t hs h
    simp only [evalCond, Res.bind_eq_ok] at h
    obtain ⟨⟨k', s1⟩, h1, h2⟩ := h
    dsimp only at h2
    split at h2
    · first
        | exact ihb (iha hs h1) h2
        | (simp at h2; rw [← h2.2]; exact iha hs h1)
    · first
        | exact ihb (iha hs h1) h2
        | (simp at h2; rw [← h2.2]; exact iha hs h1)

theorem run_orderly {body : SK → Cmd} : ∀ (n : Nat) (c : Cmd) {s s' : PState},
    Orderly name toks s → run name toks body n c s = .ok s' → Orderly name toks s' := by
  intro n
  induction n with
  | zero => intro c s s' _ h; simp [run] at h
  | succ n ih =>
    intro c s s' hs h
    cases c with
    | skip => simp [run] at h; subst h; exact hs
    | seq a b =>
      simp only [run, Res.bind_eq_ok] at h
      obtain ⟨s1, h1, h2⟩ := h
      exact ih b (ih a hs h1) h2
    | ite c a b =>
      simp only [run, Res.bind_eq_ok] at h
      obtain ⟨⟨t, s1⟩, h1, h2⟩ := h
      have := evalCond_orderly c hs h1
      dsimp only at h2
      split at h2
      · exact ih a this h2
      · exact ih b this h2
    | «while» c a =>
      simp only [run, Res.bind_eq_ok] at h
      obtain ⟨⟨t, s1⟩, h1, h2⟩ := h
      have := evalCond_orderly c hs h1
      dsimp only at h2
      split at h2
      · simp only [Res.bind_eq_ok] at h2
        obtain ⟨s2, h3, h4⟩ := h2
        exact ih _ (ih a this h3) h4
      · simp at h2; subst h2; exact this
    | eval c =>
      simp only [run, Res.bind_eq_ok] at h
      obtain ⟨⟨t, s1⟩, h1, h2⟩ := h
      simp at h2; subst h2
      exact evalCond_orderly c hs h1
    | expect k =>
      simp only [run, Res.bind_eq_ok] at h
      obtain ⟨⟨t, s1⟩, h1, h2⟩ := h
      have h0 := evalCond_orderly _ hs h1
      dsimp only at h2
      split at h2
      · simp at h2; subst h2; exact h0
      · rename_i ht
        simp only [evalCond, Res.bind_eq_ok] at h1
        obtain ⟨⟨k0, s0⟩, h5, h6⟩ := h1
        dsimp only at h6
        split at h6
        · simp only [Res.bind_eq_ok] at h6
          obtain ⟨_, _, h7⟩ := h6
          simp at h7
          exact absurd h7.1 ht
        · simp at h6
          obtain ⟨_, rfl⟩ := h6
          simp only [Res.bind_eq_ok] at h2
          obtain ⟨⟨k', s2⟩, h3, h4⟩ := h2
          obtain ⟨a1, a2, a3⟩ := nth_few h5
          obtain ⟨b1, b2, b3⟩ := nth_few h3
          obtain ⟨c0, c1, c2, c3⟩ := error_sorted (nth_orderly h0 h3).sorted h4
          refine ⟨c0, ?_, by rw [c1, b1]; exact h0.le⟩
          have := hs.few
          unfold Few at *
          rw [c1, c2, c3, b1, b2, a1, a2]
          omega
    | advance => rw [run] at h; exact advance_orderly hs h
    | call k =>
      simp only [run, Res.bind_eq_ok] at h
      obtain ⟨s1, h1, h2⟩ := h
      simp at h2; subst h2
      have := ih _ (s := s.enter) ⟨hs.sorted, hs.few, hs.le⟩ h1
      exact ⟨this.sorted, this.few, this.le⟩
    | advErr m pre post =>
      simp only [run, Res.bind_eq_ok] at h
      obtain ⟨⟨k', s1⟩, h1, s2, h2, s3, h3, h4⟩ := h
      simp at h4; subst h4
      obtain ⟨a1, a2, a3⟩ := nth_few h1
      obtain ⟨c0, c1, c2, c3⟩ := error_sorted (nth_orderly hs h1).sorted h2
      obtain ⟨b1, b2, b3, b4⟩ := (advance_few h3).resolve_right (by
        change ¬ toks.length < s2.pos
        have := hs.le; omega)
      change s3.pos = s2.pos + 1 at b1
      change s3.errors = s2.errors at b2
      refine ⟨?_, ?_, b4⟩
      · change Sorted name toks s3.pos s3.errors
        rw [b1, b2]; exact c0.later (by omega)
      · change 2 * s3.errors.length + s3.lifes ≤ 100 * (s3.pos + 1)
        have := hs.few
        unfold Few at this
        rw [b1, b2, b3, c1, c3, a1, a2]
        omega
    | look m =>
      simp only [run, Res.bind_eq_ok] at h
      obtain ⟨⟨k', s1⟩, h1, h2⟩ := h
      simp at h2; subst h2
      exact nth_orderly hs h1
    | ifk ks a b =>
      simp only [run] at h
      split at h
      · exact ih a hs h
      · exact ih b hs h
    | unreachable => simp [run] at h

end MsgOrder
open MsgOrder

/-! ### C89 -/

/-- **C89** The messages about a file are first those of the lexer and then those of the parser, each in the
order of the lines and columns they name; no two of the lexer name the same place.  There is at most one
message of the lexer for every character, and there are at most fifty of the parser for every token and the
end of the file. -/
theorem C89_order (name src : Text) (entry : SK) (l : Lexed) (p : Parsed) (hl : lex name src = .ok l)
    (hp : parse name src entry = .ok p) :
    ∃ lexical syntactic : List (Pos × Text),
      p.errors = (lexical ++ syntactic).map (fun m => errorText name m.1 m.2) ∧
      l.errors = lexical.map (fun m => errorText name m.1 m.2) ∧
      lexical.Pairwise (fun a b => a.1.Before b.1) ∧
      syntactic.Pairwise (fun a b => a.1 = b.1 ∨ a.1.Before b.1) ∧
      lexical.length ≤ src.length ∧ syntactic.length ≤ 50 * (l.tokens.length + 1) := by
  obtain ⟨evs, errs, h1, h2⟩ := parse_inv hl hp
  obtain ⟨ps, hd⟩ := divided_exists src
  have hlx := C53_lexed name src ps hd
  rw [hl] at hlx
  split at hlx
  · cases hlx
  simp only [Res.ok.injEq] at hlx
  obtain ⟨ms, a1, a2, _, a4⟩ := problems_ordered name ps []
  have hle : l.errors = ms.map (fun m => errorText name m.1 m.2) := by rw [hlx]; exact a1
  unfold events at h1
  rw [Res.bind_eq_ok] at h1
  obtain ⟨s, h3, h4⟩ := h1
  simp at h4
  have ho := run_orderly (name := name) (toks := l.tokens) _ _
    ⟨⟨[], rfl, by simp, .nil, by simp⟩, by simp [Few, PState.init], by simp [PState.init]⟩ h3
  obtain ⟨ns, b1, b2, b3, _⟩ := ho.sorted
  refine ⟨ms, ns.map fun m => (m.2.1.start, m.2.2), ?_, hle, a2, ?_, Nat.le_trans a4 (divided_length hd), ?_⟩
  · rw [h2, hle, ← h4.2, b1]
    simp [Function.comp_def]
  · rw [List.pairwise_map]
    obtain ⟨all, c1, _, _, c4, c5⟩ := C39_source_order name src l hl
    have hsorted : l.tokens.Pairwise (fun a b => a.stop.pos ≤ b.start.pos) := by
      rw [c1]
      exact (c4.imp fun h => h.1).filter _
    have hpos := (C17_positions name src l hl).1
    refine List.Pairwise.imp_of_mem ?_ b3
    intro x y hx hy hxy
    have ex := b2 x hx
    have ey := b2 y hy
    rcases Nat.lt_or_eq_of_le hxy with hlt | heq
    · right
      obtain ⟨ix, ex⟩ := List.getElem?_eq_some_iff.1 ex
      obtain ⟨iy, ey⟩ := List.getElem?_eq_some_iff.1 ey
      have hb := List.pairwise_iff_getElem.1 hsorted x.1 y.1 ix iy hlt
      rw [ex, ey] at hb
      have mx : x.2.1 ∈ l.tokens := ex ▸ List.getElem_mem ix
      have my : y.2.1 ∈ l.tokens := ey ▸ List.getElem_mem iy
      have hx' := (c5 x.2.1 (by rw [c1] at mx; exact (List.mem_filter.1 mx).1)).1
      obtain ⟨p1, q1, e1, f1, _⟩ := hpos _ (List.mem_append_left _ mx)
      obtain ⟨p2, q2, e2, f2, _⟩ := hpos _ (List.mem_append_left _ my)
      rw [f1, f2]
      rw [List.append_assoc] at e1 e2
      refine position_bytes (e1.symm.trans e2) ?_
      have g1 : x.2.1.start.pos = bytes p1 := by rw [f1]; rfl
      have g2 : y.2.1.start.pos = bytes p2 := by rw [f2]; rfl
      omega
    · left
      rw [heq, ey] at ex
      simp at ex
      rw [ex]
  · have := ho.few
    unfold Few at this
    have hle := ho.le
    rw [b1] at this
    simp only [List.length_map] at *
    omega

/-- Two errors of the lexer and three of the parser.  The list as a whole is not in the order of the file. -/
theorem C89_case : messages c!"model A\n  Real x = ?1;\n  Real = 3 #;\nequation\n  x = ;\nend A" = some
    ([c!"f:2:12: unexpected character: '?'", c!"f:3:12: unexpected character: '#'"],
     [c!"f:2:12: unexpected character: '?'", c!"f:3:12: unexpected character: '#'",
      c!"f:3:8: expected IDENTIFIER, found '='", c!"f:5:7: expected IDENTIFIER, found ';'",
      c!"f:6:5: expected ';', found EOF"]) := by
  decide +kernel

end Mofmt
