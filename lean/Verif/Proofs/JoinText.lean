import Verif.Proofs.JoinRun
import Verif.Proofs.Blanks
import Verif.Props.Indent
/-
Two files, one after the other: their tokens.
-/
namespace Mofmt
open Lexical

theorem semicolon_before (r : Text) : (Chunk.token .Semicolon c!";").Before r := by
  have hf : follows .Semicolon r = true := by
    cases r with
    | nil => rfl
    | cons d r => rfl
  obtain ⟨c, cs, e, hm⟩ := munch_relex (k := .Semicolon) (t := c!";") rfl hf
  rw [e] at hm
  refine ⟨rfl, ?_, by simp⟩
  rw [e]
  exact munch_longest hm

theorem ws_append {a b : Text} (h : a.all ws = true) (h' : b.all ws = true) : (a ++ b).all ws = true := by
  rw [List.all_append, h, h']; rfl

/-- A text that ends with `;`, then a text. -/
theorem divided_append {s2 w2 : Text} {q : Chunk} {qs : List (Text × Chunk)} (h2 : Divided s2 ((w2, q) :: qs)) {v : Text} :
    ∀ {ps : List (Text × Chunk)} {w s1 : Text}, Divided s1 (ps ++ [(w, .token .Semicolon c!";")]) →
    s1 = spread (ps ++ [(w, .token .Semicolon c!";")]) v → (∀ x ∈ ps, ∃ k t, x.2 = .token k t) →
    Divided (s1 ++ s2) (ps ++ [(w, .token .Semicolon c!";")] ++ (v ++ w2, q) :: qs)
  | [], w, s1, h1, hs, _ => by
    cases h1 with
    | next hw hp hd =>
      rename_i r
      rw [List.nil_append, spread_cons] at hs
      have hr : r = v := by
        have := List.append_cancel_left hs
        simpa [spread] using this
      subst hr
      have hv : r.all ws = true := by cases hd; assumption
      cases h2 with
      | next hw2 hq hd2 =>
        rename_i r2
        have := Divided.next (ws_append hv hw2) hq hd2
        have e : w ++ (Chunk.token .Semicolon c!";").text ++ r ++ (w2 ++ q.text ++ r2) =
            w ++ (Chunk.token .Semicolon c!";").text ++ (r ++ w2 ++ q.text ++ r2) := by simp
        rw [e]
        exact .next hw (semicolon_before _) this
  | (w', p) :: ps, w, s1, h1, hs, ht => by
    obtain ⟨k, t, e⟩ := ht _ (List.mem_cons_self ..)
    simp only at e
    subst e
    replace h1 : Divided s1 ((w', .token k t) :: (ps ++ [(w, .token .Semicolon c!";")])) := h1
    cases h1 with
    | next hw hp hd =>
      rename_i r
      rw [List.cons_append, spread_cons] at hs
      have hr := List.append_cancel_left hs
      have ih := divided_append h2 hd hr (fun x hx => ht x (List.mem_cons_of_mem _ hx))
      rw [List.append_assoc]
      refine .next hw (before_head hp ?_) ih
      have hne : r ≠ [] := by
        rw [hr]; simp [spread, Chunk.text]
      cases r with
      | nil => exact absurd rfl hne
      | cons c r => rfl

theorem lexemes_append : ∀ (ps qs : List (Text × Chunk)) (pre : Text) (i : Nat), (∀ x ∈ ps, ∃ k t, x.2 = .token k t) →
    lexemes pre i (ps ++ qs) = lexemes pre i ps ++ lexemes (pre ++ spread ps []) (i + ps.length) qs
  | [], qs, pre, i, _ => by simp [spread, lexemes]
  | (w, p) :: ps, qs, pre, i, h => by
    obtain ⟨k, t, e⟩ := h _ (List.mem_cons_self ..)
    simp only at e
    subst e
    simp only [List.cons_append, lexemes]
    rw [lexemes_append ps qs _ _ (fun x hx => h x (List.mem_cons_of_mem _ hx)), spread_cons]
    simp only [Chunk.text, List.append_assoc, List.length_cons]
    rw [show i + 1 + ps.length = i + (ps.length + 1) by omega]

theorem lexemes_white (pre v w : Text) (q : Chunk) (qs : List (Text × Chunk)) (i : Nat) :
    lexemes pre i ((v ++ w, q) :: qs) = lexemes (pre ++ v) i ((w, q) :: qs) := by
  cases q <;> simp [lexemes]

theorem lexemes_idx : ∀ (ps : List (Text × Chunk)) (pre : Text) (i : Nat), ∀ x ∈ lexemes pre i ps,
    i ≤ x.idx ∧ x.idx < i + ps.length
  | [], _, _, x, h => by cases h
  | (w, p) :: ps, pre, i, x, h => by
    have key : ∀ pre' j, i ≤ j → j ≤ i + 1 → x ∈ lexemes pre' j ps → i ≤ x.idx ∧ x.idx < i + (ps.length + 1) := by
      intro pre' j h1 h2 hx
      have := lexemes_idx ps pre' j x hx
      omega
    cases p with
    | token k t =>
      rcases List.mem_cons.1 h with rfl | h
      · simp
      · exact key _ (i + 1) (by omega) (by omega) h
    | _ => exact key _ i (by omega) (by omega) h

/-- A token without its columns. -/
def Token.lines (t : Token) : Token :=
  { t with start := ⟨0, t.start.line, 0⟩, stop := ⟨0, t.stop.line, 0⟩ }

theorem keep_lines : Keep Token.lines := ⟨fun _ => rfl, fun _ => rfl, fun _ => rfl, fun _ => rfl, fun _ => rfl⟩

theorem lexemes_shift : ∀ (ps : List (Text × Chunk)) (pre q : Text) (n i : Nat),
    (lexemes (pre ++ q) (i + n) ps).map Token.lines =
      ((lexemes q i ps).map Token.lines).map (Token.shift n (newlines pre))
  | [], _, _, _, _ => rfl
  | (w, p) :: ps, pre, q, n, i => by
    have other := fun p : Chunk => lexemes_shift ps pre (q ++ w ++ p.text) n i
    simp only [← List.append_assoc] at other
    cases p with
    | token k t =>
      have ih := lexemes_shift ps pre (q ++ w ++ t) n (i + 1)
      rw [show i + 1 + n = i + n + 1 by omega] at ih
      simp only [← List.append_assoc] at ih
      simp only [lexemes, List.map_cons, ih, List.cons.injEq, and_true]
      simp [Token.lines, Token.shift, position, newlines_append]
      omega
    | stray c => exact other (.stray c)
    | broken b c => exact other (.broken b c)
    | openString b => exact other (.openString b)
    | openQuoted b => exact other (.openQuoted b)
    | openComment b => exact other (.openComment b)

theorem awkward_append : ∀ (ps qs : List (Text × Chunk)), (∀ x ∈ ps, ∃ k t, x.2 = .token k t) →
    awkward false (ps ++ qs) = (awkward false ps || awkward false qs)
  | [], qs, _ => by simp [awkward]
  | (w, p) :: ps, qs, h => by
    obtain ⟨k, t, e⟩ := h _ (List.mem_cons_self ..)
    simp only at e
    subst e
    simp only [List.cons_append, awkward, awkward_append ps qs (fun x hx => h x (List.mem_cons_of_mem _ hx)), Bool.or_assoc]

/-- What is known about an accepted file. -/
theorem formatted_facts {eol name src out : Text} {p : Parsed} (h : Formatted eol name src p out)
    {ps : List (Text × Chunk)} (hd : Divided src ps) :
    (∀ x ∈ ps, ∃ k t, x.2 = .token k t) ∧ awkward false ps = false ∧
    p.tokens = (lexemes [] 0 ps).filter (fun t => !isComment t) ∧ p.comments = (lexemes [] 0 ps).filter isComment ∧
    ∃ cs m t, Reading .StoredDefinition p.tokens cs ∧ (Tree.node .StoredDefinition cs).Opens ∧
      buildTree p.tokens p.events = .ok (.node .StoredDefinition cs) ∧
      format (.node .StoredDefinition cs) p.comments = .ok m ∧ printMarks eol m 0 = .ok t ∧ out = t ++ eol := by
  obtain ⟨l0, hl0, a1, a2, a3⟩ := parse_lex h.parsed h.accepted
  have hlex := C53_lexed name src _ hd
  rw [hl0] at hlex
  have haw : awkward false ps = false := by
    cases e : awkward false ps with
    | false => rfl
    | true => rw [e] at hlex; simp at hlex
  rw [haw] at hlex
  simp only [Bool.false_eq_true, if_false, Res.ok.injEq] at hlex
  refine ⟨problems_tokens name ps [] (by rw [← a3, hlex]), haw, by rw [← a1, hlex], by rw [← a2, hlex], ?_⟩
  obtain ⟨l, cs, b1, b2, b3, b4⟩ := (C51_accepted_iff name src).1 ⟨p, h.parsed, h.accepted⟩
  obtain ⟨p', c1, c2, c3, c4⟩ := C50_grammatical_accepted_partial name src _ l cs b1 b2 (by decide) b3 b4
  have hp := h.parsed
  rw [c1] at hp
  simp only [Res.ok.injEq] at hp
  subst hp
  obtain ⟨t, t1, t2⟩ := h.text
  simp only [prettyPrint, c4, Res.bind_ok] at t1
  obtain ⟨m, m1, m2⟩ := Res.bind_eq_ok.1 t1
  exact ⟨cs, m, t, c3 ▸ b3, b4, c4, m1, m2, t2⟩

end Mofmt
