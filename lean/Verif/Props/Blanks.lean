import Verif.Proofs.Blanks
/-
C57: what of the white space of a source matters.
-/
namespace Mofmt
open Lexical

/-- **C57** Two texts with the same pieces, and with the same line breaks between them as far as none, one and
several are concerned, are formatted to the same text or both not accepted. -/
theorem C57_same_breaks (eol name name' src src' : Text) (l : Twice) (h : Divided src l.first)
    (h' : Divided src' l.second) (hb : ∀ x ∈ l, sameBreaks x.1 x.2.1) (out : Text) :
    (∃ p, Formatted eol name src p out) ↔ ∃ p, Formatted eol name' src' p out := by
  constructor
  · rintro ⟨p, hf⟩
    exact formatted_twice h h' hb hf
  · rintro ⟨p, hf⟩
    let l' : Twice := l.map fun x => (x.2.1, x.1, x.2.2)
    have e1 : l'.first = l.second := by simp [l', Twice.first, Twice.second, Function.comp_def]
    have e2 : l'.second = l.first := by simp [l', Twice.first, Twice.second, Function.comp_def]
    refine formatted_twice (l := l') (e1 ▸ h') (e2 ▸ h) ?_ hf
    intro x hx
    obtain ⟨y, hy, rfl⟩ := List.mem_map.1 hx
    exact (hb y hy).symm

/-- **C57** Take an accepted text and replace the white space between its tokens by any other white space with the
same line breaks, as far as none, one and several are concerned.  Blanks may be added everywhere; they may be removed
as long as something remains of them.  Then the output is the same. -/
theorem C57_respaced (eol name name' src : Text) (w w' : Text) (q : Chunk) (l : Twice) (tail : Text)
    (h : Divided src ((w, q) :: l.first)) (ht : ∀ x ∈ (w, w', q) :: l, ∃ k t, x.2.2 = .token k t)
    (hw : w'.all ws = true) (hr : respaced q l tail) (hb : ∀ x ∈ (w, w', q) :: l, sameBreaks x.1 x.2.1) (out : Text) :
    (∃ p, Formatted eol name src p out) ↔
      ∃ p, Formatted eol name' (spread ((w', q) :: l.second) tail) p out := by
  obtain ⟨k, t, e⟩ := ht _ (List.mem_cons_self ..)
  simp only at e
  subst e
  refine C57_same_breaks eol name name' src _ ((w, w', .token k t) :: l) h ?_ hb out
  cases h with
  | next hw0 hq hd =>
    rename_i r
    obtain ⟨i1, i2⟩ := divided_respaced l k t r tail hq hd (fun x hx => ht x (List.mem_cons_of_mem _ hx)) hr
    rw [spread_cons]
    exact .next hw i1 i2

/-- **C57** It does not matter whether the lines of a text end as on Windows or not, if no token or comment goes over
several lines. -/
theorem C57_crlf (eol name src : Text) (ps : List (Text × Chunk)) (h : Divided src ps)
    (ht : ∀ x ∈ ps, (∃ k t, x.2 = .token k t) ∧ '\n' ∉ x.2.text) (out : Text) :
    (∃ p, Formatted eol name src p out) ↔ ∃ p, Formatted eol name (crlf src) p out := by
  obtain ⟨tail, h1, h2⟩ := divided_spread h
  let l : Twice := ps.map fun x => (x.1, crlf x.1, x.2)
  have e1 : l.first = ps := by simp [l, Twice.first, Function.comp_def]
  have e2 : l.second = ps.map fun x => (crlf x.1, x.2) := by simp [l, Twice.second, Function.comp_def]
  have hc : crlf src = spread l.second (crlf tail) := by
    rw [h2, e2]
    exact crlf_spread ps tail fun x hx => (ht x hx).2
  refine C57_same_breaks eol name name src _ l (e1 ▸ h) ?_ ?_ out
  · rw [hc]
    cases ps with
    | nil =>
      exact .done (crlf_ws h1)
    | cons x ps =>
      obtain ⟨w, q⟩ := x
      obtain ⟨⟨k, t, e⟩, _⟩ := ht _ (List.mem_cons_self ..)
      simp only at e
      subst e
      cases h with
      | next hw0 hq hd =>
        rename_i r
        rw [spread_cons] at h2
        have hr := crlf_respaced ps k t r tail hq hd (List.append_cancel_left h2) h1
          (fun x hx => (ht x (List.mem_cons_of_mem _ hx)).1)
        have ht' : ∀ x ∈ ps.map (fun x => (x.1, crlf x.1, x.2)), ∃ k t, x.2.2 = .token k t := by
          intro x hx
          obtain ⟨y, hy, rfl⟩ := List.mem_map.1 hx
          exact (ht y (List.mem_cons_of_mem _ hy)).1
        have ef : Twice.first (ps.map fun x => (x.1, crlf x.1, x.2)) = ps := by
          simp [Twice.first, Function.comp_def]
        obtain ⟨i1, i2⟩ := divided_respaced (ps.map fun x => (x.1, crlf x.1, x.2)) k t r (crlf tail) hq
          (by rw [ef]; exact hd) ht' hr
        have := Divided.next (crlf_ws hw0) i1 i2
        rw [← spread_cons] at this
        exact this
  · intro x hx
    obtain ⟨y, hy, rfl⟩ := List.mem_map.1 hx
    simp only [sameBreaks, crlf_newlines]

/-! ### Examples -/

/-- Two texts, cut at their white space. -/
def exTwice : Twice :=
  [([], c!"\t", .token .Model c!"model"), (c!" ", c!"  ", .token .Identifier c!"A"),
   ([], c!" ", .token .LineComment c!"// c"), (c!"\n\n\n\n", c!"\r\n \n ", .token .End c!"end"),
   (c!" ", c!"\x0c", .token .Identifier c!"A"), ([], c!" ", .token .Semicolon c!";")]

def exFirst : Text := c!"model A// c\n\n\n\nend A;"
def exSecond : Text := c!"\tmodel  A // c\r\n \n end\x0cA ;\n"

theorem divided_token {w r : Text} {k : Tok} {c : Char} {t : Text} {ps : List (Text × Chunk)} (hw : w.all ws = true)
    (hm : munch c (t ++ r) = .tok k (c :: t) r) (h : Divided r ps) :
    Divided (w ++ c :: t ++ r) ((w, .token k (c :: t)) :: ps) :=
  .next hw (token_before hm) h

theorem exTwice_first : Divided exFirst exTwice.first := by
  refine divided_token (w := []) (r := c!" A// c\n\n\n\nend A;") (k := .Model) (c := 'm') (t := c!"odel") rfl
    (by decide +kernel) ?_
  refine divided_token (w := c!" ") (r := c!"// c\n\n\n\nend A;") (k := .Identifier) (c := 'A') (t := []) rfl
    (by decide +kernel) ?_
  refine divided_token (w := []) (r := c!"\n\n\n\nend A;") (k := .LineComment) (c := '/') (t := c!"/ c") rfl
    (by decide +kernel) ?_
  refine divided_token (w := c!"\n\n\n\n") (r := c!" A;") (k := .End) (c := 'e') (t := c!"nd") rfl
    (by decide +kernel) ?_
  refine divided_token (w := c!" ") (r := c!";") (k := .Identifier) (c := 'A') (t := []) rfl (by decide +kernel) ?_
  exact divided_token (w := []) (r := []) (k := .Semicolon) (c := ';') (t := []) rfl (by decide +kernel) (.done rfl)

/-- The hypotheses of `C57_respaced` hold of these texts, and the first one is accepted. -/
example : Divided exFirst exTwice.first ∧ respaced (.token .Model c!"model") exTwice.tail c!"\n" ∧
    spread exTwice.second c!"\n" = exSecond ∧ (∀ x ∈ exTwice, sameBreaks x.1 x.2.1) ∧
    ∃ p, Formatted c!"\n" c!"f" exFirst p c!"model A // c\n\nend A;\n" := by
  refine ⟨exTwice_first, ?_, by decide, by decide, ?_⟩
  · simp [exTwice, respaced, replaces, ws]
  · exact ⟨match parse c!"f" exFirst .StoredDefinition with | .ok p => p | _ => ⟨[], [], [], []⟩,
      by decide_cbv, by decide_cbv, c!"model A // c\n\nend A;", by decide_cbv, rfl⟩

/-- So the second one has the same output. -/
example : ∃ p, Formatted c!"\n" c!"g" exSecond p c!"model A // c\n\nend A;\n" := by
  refine (C57_respaced c!"\n" c!"f" c!"g" exFirst [] c!"\t" (.token .Model c!"model") exTwice.tail c!"\n"
    exTwice_first ?_ rfl ?_ (by decide) _).1 ?_
  · intro x hx
    simp only [exTwice, List.tail_cons, List.mem_cons, List.not_mem_nil, or_false] at hx
    rcases hx with rfl | rfl | rfl | rfl | rfl | rfl <;> exact ⟨_, _, rfl⟩
  · simp [exTwice, respaced, replaces, ws]
  · exact ⟨match parse c!"f" exFirst .StoredDefinition with | .ok p => p | _ => ⟨[], [], [], []⟩,
      by decide_cbv, by decide_cbv, c!"model A // c\n\nend A;", by decide_cbv, rfl⟩

/-- `C57_crlf` applies to the first text. -/
example : (∀ x ∈ exTwice.first, (∃ k t, x.2 = .token k t) ∧ '\n' ∉ x.2.text) ∧
    crlf exFirst = c!"model A// c\r\n\r\n\r\n\r\nend A;" := by
  refine ⟨?_, by decide⟩
  intro x hx
  simp only [exTwice, Twice.first, List.map_cons, List.map_nil, List.mem_cons, List.not_mem_nil, or_false] at hx
  rcases hx with rfl | rfl | rfl | rfl | rfl | rfl <;> exact ⟨⟨_, _, rfl⟩, by decide⟩

/-- One line break and two are not the same. -/
def exOne : Text := c!"model A Real x;\nReal y;end A;"
def exTwo : Text := c!"model A Real x;\n\nReal y;end A;"

example : (∃ p, Formatted c!"\n" c!"f" exOne p c!"model A\n\n  Real x;\n  Real y;\n\nend A;\n") ∧
    (∃ p, Formatted c!"\n" c!"f" exTwo p c!"model A\n\n  Real x;\n\n  Real y;\n\nend A;\n") :=
  ⟨⟨match parse c!"f" exOne .StoredDefinition with | .ok p => p | _ => ⟨[], [], [], []⟩,
      by decide_cbv, by decide_cbv, c!"model A\n\n  Real x;\n  Real y;\n\nend A;", by decide_cbv, rfl⟩,
    ⟨match parse c!"f" exTwo .StoredDefinition with | .ok p => p | _ => ⟨[], [], [], []⟩,
      by decide_cbv, by decide_cbv, c!"model A\n\n  Real x;\n\n  Real y;\n\nend A;", by decide_cbv, rfl⟩⟩

end Mofmt
