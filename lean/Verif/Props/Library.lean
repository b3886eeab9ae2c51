import Verif.Proofs.LibText
import Verif.Props.Accept
/-
C69: the library functions `parse` and `pretty_print` with any production.
-/
namespace Mofmt
open Lexical

/-! ### Tokens that are left -/

mutual
theorem evs_count (t : Tree) : t.evs.count .advance = t.leaves.length := by
  match t with
  | .tok _ => rfl
  | .node k cs =>
    simp only [Tree.evs, Tree.leaves, List.count_cons, List.count_append, List.count_nil, evsF_count cs]
    simp
theorem evsF_count (F : List Tree) : (evsF F).count .advance = (leavesF F).length := by
  match F with
  | [] => rfl
  | t :: ts => simp only [evsF, leavesF, List.count_append, List.length_append, evs_count t, evsF_count ts]
end

theorem buildTree_rest (k : SK) (cs : List Tree) (rest : List Token) (hr : rest ≠ []) :
    buildTree (leavesF cs ++ rest) (Tree.node k cs).evs = .panic .assert := by
  have h1 : (Tree.node k cs).evs.getLast? = some .exit := by simp [Tree.evs, List.getLast?_cons]
  have h2 : (Tree.node k cs).evs.dropLast = .enter k :: evsF cs := by
    simp only [Tree.evs]
    rw [← List.cons_append, List.dropLast_concat]
  unfold buildTree
  rw [h1, h2]
  simp only [buildLoop]
  have := buildLoop_forest cs k [] [] [] rest
  simp only [List.append_nil] at this
  rw [this]
  simp [buildLoop, hr]

/-- The tree that `build_tree` makes of the events of the parser. -/
theorem parse_build {name src : Text} {k : SK} {p : Parsed} (h : parse name src k = .ok p) :
    ∃ cs rest, p.tokens = leavesF cs ++ rest ∧ hasEmptyF cs = false ∧
      p.events.count .advance = (leavesF cs).length ∧
      buildTree p.tokens p.events = (if rest = [] then .ok (.node k cs) else .panic .assert) := by
  obtain ⟨l, errs, _, _, _, _, h5⟩ := parse_lexK h
  obtain ⟨cs, rest, h6, h7, _⟩ := events_tree h5
  refine ⟨pruneF cs, rest, by rw [leaves_pruneF]; exact h7, hasEmpty_pruneF cs, ?_, ?_⟩
  · have := evs_count (.node k cs)
    rw [leaves_pruneF, h6, this, Tree.leaves]
  · by_cases hr : rest = []
    · subst hr
      rw [if_pos rfl, h6, h7, List.append_nil, buildTree_evs]
    · rw [if_neg hr, h6, h7]
      exact buildTree_rest k cs rest hr

/-- **C69** Whatever production is asked for, the parser takes tokens from the beginning of the text.  If it has taken all of
them (`advance` events), `build_tree` returns a tree of the production over exactly these tokens; if it has left
tokens, `build_tree` and `pretty_print` panic. -/
theorem C69_all_or_panic (eol name src : Text) (k : SK) (p : Parsed) (h : parse name src k = .ok p) :
    p.events.count .advance ≤ p.tokens.length ∧
    (p.events.count .advance = p.tokens.length →
      ∃ cs, buildTree p.tokens p.events = .ok (.node k cs) ∧ leavesF cs = p.tokens ∧ hasEmptyF cs = false) ∧
    (p.events.count .advance < p.tokens.length →
      buildTree p.tokens p.events = .panic .assert ∧
      prettyPrint eol p.tokens p.comments p.events = .panic .assert) := by
  obtain ⟨cs, rest, h1, h2, h3, h4⟩ := parse_build h
  have hlen : p.tokens.length = (leavesF cs).length + rest.length := by rw [h1, List.length_append]
  refine ⟨by omega, ?_, ?_⟩
  · intro he
    have hr : rest = [] := List.length_eq_zero_iff.mp (by omega)
    subst hr
    exact ⟨cs, by rw [h4, if_pos rfl], by rw [h1, List.append_nil], h2⟩
  · intro hlt
    have hr : rest ≠ [] := by
      rintro rfl
      simp at hlen; omega
    rw [if_neg hr] at h4
    exact ⟨h4, by simp only [prettyPrint, h4]; rfl⟩

/-! ### Formatting any production -/

/-- **C69** (part) If the tree built from the events conforms to the grammar, `pretty_print` succeeds, whatever the
production: the text consists of all tokens and some of the comments, in order; before each of them there is nothing, a
blank, or one or two line ends and an even number of blanks; at most one blank follows.  Missing: trees that do
not conform to the grammar (`C69_trailing_false`). -/
theorem C69_production_partial (eol name src : Text) (k : SK) (p : Parsed) (tree : Tree) (h : parse name src k = .ok p)
    (hb : buildTree p.tokens p.events = .ok tree) (hc : tree.Conforms) (ht : p.tokens ≠ []) :
    ∃ ls tail, prettyPrint eol p.tokens p.comments p.events = .ok (lexemesText ls ++ tail) ∧
      (tail = [] ∨ tail = [' ']) ∧
      (ls.map (·.2)).filter (fun t => !isComment t) = p.tokens ∧
      ((ls.map (·.2)).filter isComment).Sublist p.comments ∧
      ∀ x ∈ ls, SameLine x.1 ∨ LineBreak eol x.1 := by
  obtain ⟨cs, rest, h1, h2, h3, h4⟩ := parse_build h
  rw [hb] at h4
  split at h4
  · rename_i hr
    subst hr
    cases h4
    rw [List.append_nil] at h1
    have hcs : cs ≠ [] := by
      rintro rfl
      exact ht (by rw [h1]; rfl)
    obtain ⟨l, tail, t1, t2, t3, t4, t5, t6, t7⟩ := lib_text h hcs h2 hc h1.symm hb
    have e : (l.map (segLex eol)).map (·.2) = l.map (·.2) := by rw [List.map_map]; rfl
    exact ⟨l.map (segLex eol), tail, t2 eol, t1, by rw [e]; exact t3, by rw [e]; exact t4, t5 eol⟩
  · cases h4

/-- The separation of the lexemes, with a blank or nothing at the end. -/
theorem Chain.sep_tail {eol : Text} (he : IsEol eol) {tail : Text} (ht : tail = [] ∨ tail = [' ']) :
    ∀ (l : List Seg) (o : Option Token), Chain o l → (∀ s ∈ l, Class s.2.kind s.2.text) →
    (∀ t, (l.map (·.2)).getLast? = some t → t.kind ≠ .LineComment) → Sep (l.map (segLex eol)) tail
  | [], _, _, _, _ => trivial
  | [s], _, _, _, hl => by
    refine ⟨?_, trivial⟩
    have hk := hl s.2 rfl
    rcases ht with rfl | rfl
    · rfl
    · show (!sticks s.2.kind ' ') = true
      revert hk
      cases s.2.kind <;> first | (intro h; rfl) | (intro h; exact absurd rfl h)
  | s :: s' :: l, o, h, hc, hl => by
    refine ⟨?_, Chain.sep_tail he ht (s' :: l) _ h.2 (fun x hx => hc x (List.mem_cons_of_mem _ hx)) ?_⟩
    · have : lexemesText (List.map (segLex eol) (s' :: l)) ++ tail =
          wtext eol s'.1 ++ (s'.2.text ++ (lexemesText (l.map (segLex eol)) ++ tail)) := by
        simp [lexemesText, segLex]
      rw [this]
      exact Next.follows he h.2.1 (hc s' (by simp)) _
    · intro t h'
      exact hl t (by rw [List.map_cons, List.map_cons, List.getLast?_cons_cons]; exact h')

/-- **C69** (part) If moreover no error was reported and line comments end their lines, the text can be read back with the
same production: no errors, the same tokens, the same events. -/
theorem C69_read_back_partial (eol name src out name' : Text) (k : SK) (p : Parsed) (tree : Tree)
    (h : parse name src k = .ok p) (he : p.errors = []) (hb : buildTree p.tokens p.events = .ok tree)
    (hc : tree.Conforms) (ht : p.tokens ≠ []) (heol : IsEol eol) (hL : LineCommentsEnd p.comments)
    (ho : prettyPrint eol p.tokens p.comments p.events = .ok out) :
    ∃ p', parse name' out k = .ok p' ∧ p'.errors = [] ∧ p'.events = p.events ∧
      p'.tokens.map kindText = p.tokens.map kindText ∧
      (p'.comments.map kindText).Sublist (p.comments.map kindText) := by
  obtain ⟨cs, rest, h1, h2, h3, h4⟩ := parse_build h
  rw [hb] at h4
  split at h4
  · rename_i hr
    subst hr
    cases h4
    rw [List.append_nil] at h1
    have hcs : cs ≠ [] := by
      rintro rfl
      exact ht (by rw [h1]; rfl)
    obtain ⟨l, tail, t1, t2, t3, t4, t5, t6, t7⟩ := lib_text h hcs h2 hc h1.symm hb
    obtain ⟨hO, hne, hC, hT, hts, hcs', hw, hcl⟩ := parse_order h
    have hmem : ∀ s ∈ l, s.2 ∈ p.tokens ++ p.comments := by
      intro s hs
      have hs' : s.2 ∈ l.map (·.2) := List.mem_map_of_mem hs
      rw [List.mem_append]
      cases hc : isComment s.2 with
      | false => left; rw [← t3]; exact List.mem_filter.mpr ⟨hs', by simp [hc]⟩
      | true => right; exact t4.mem (List.mem_filter.mpr ⟨hs', hc⟩)
    have hcm : ∀ s ∈ l, Class s.2.kind s.2.text ∧ asciiEnd s.2.text = true := fun s hs => hcl _ (hmem s hs)
    obtain ⟨lx, l1, l2, l3, l4⟩ := lex_lexemes (name := name') (ls := l.map (segLex eol)) (tail := tail)
      (fun x hx => white_ws heol (t5 eol x hx))
      (fun x hx => by obtain ⟨s, hs, rfl⟩ := List.mem_map.mp hx; exact (hcm s hs).1)
      (fun x hx => by obtain ⟨s, hs, rfl⟩ := List.mem_map.mp hx; exact (hcm s hs).2)
      (by rcases t1 with rfl | rfl <;> decide)
      (Chain.sep_tail heol t1 l none (t6 hL) (fun s hs => (hcm s hs).1) (fun t h' => (hO.kinds t (t7 t h')).1))
    have e : (l.map (segLex eol)).map (·.2) = l.map (·.2) := by rw [List.map_map]; rfl
    rw [e] at l3 l4
    rw [t3] at l3
    obtain ⟨l0, errs, k1, k2, k3, k4, k5⟩ := parse_lexK h
    have herr : errs = [] := by rw [he] at k4; exact (List.append_eq_nil_iff.mp k4.symm).2
    subst herr
    have hk : p.tokens.map (·.kind) = lx.tokens.map (·.kind) := by
      have := congrArg (List.map Prod.fst) l3
      simp only [List.map_map] at this
      exact this.symm
    obtain ⟨errs', h5, h6⟩ := (C24_only_kinds name name' p.tokens lx.tokens k hk).1 _ _ k5
    have he' : errs' = [] := by simpa using h6
    subst he'
    have hout : out = lexemesText (l.map (segLex eol)) ++ tail := by
      rw [t2 eol] at ho
      cases ho; rfl
    refine ⟨⟨lx.tokens, lx.comments, p.events, []⟩, ?_, rfl, rfl, l3, ?_⟩
    · unfold parse
      rw [hout, l1, Res.bind_ok, h5, Res.bind_ok, l2]; rfl
    · simp only
      rw [l4]
      exact t4.map kindText
  · cases h4

/-- **C69** (part) Every grammatical text of a production can be formatted with the library, and the result is again
such a text, with the same tokens.  Here grammatical is meant as in C50, independently of the parser: the tokens are
the leaves of a tree of the grammar whose root is the production.  Missing: the equations that the parser refuses (C50), output
expression lists (not a rule of the language), texts without tokens, and line comments that do not end their
lines. -/
theorem C69_grammatical_partial (eol name src : Text) (k : SK) (l : Lexed) (cs : List Tree)
    (hl : lex name src = .ok l) (he : l.errors = []) (hk : k ≠ .OutputExpressionList) (hr : Reading k l.tokens cs)
    (ho : (Tree.node k cs).Opens) (ht : l.tokens ≠ []) (heol : IsEol eol) (hL : LineCommentsEnd l.comments) :
    ∃ p out, parse name src k = .ok p ∧ p.errors = [] ∧ prettyPrint eol p.tokens p.comments p.events = .ok out ∧
      ∀ name', ∃ p', parse name' out k = .ok p' ∧ p'.errors = [] ∧ p'.events = p.events ∧
        p'.tokens.map kindText = l.tokens.map kindText := by
  obtain ⟨p, p1, p2, p3, p4⟩ := C50_grammatical_accepted_partial name src k l cs hl he hk hr ho
  have hcm : p.comments = l.comments := by
    obtain ⟨l0, errs, k1, k2, k3, k4, k5⟩ := parse_lexK p1
    rw [hl] at k1
    cases k1
    exact k3.symm
  obtain ⟨ls, tail, q1, _⟩ := C69_production_partial eol name src k p _ p1 p4 hr.conforms (by rw [p3]; exact ht)
  refine ⟨p, _, p1, p2, q1, ?_⟩
  intro name'
  obtain ⟨p', r1, r2, r3, r4, _⟩ := C69_read_back_partial eol name src _ name' k p _ p1 p2 p4 hr.conforms
    (by rw [p3]; exact ht) heol (by rw [hcm]; exact hL) q1
  exact ⟨p', r1, r2, r3, by rw [r4, p3]⟩

/-! ### Cases -/

/-- the result of the library functions, and whether the tree conforms to the grammar -/
def libRun (k : SK) (src : Text) : Option (Nat × Bool × Option Text) :=
  match parse c!"f" src k with
  | .ok p => some (p.errors.length, (match buildTree p.tokens p.events with | .ok t => t.fits | _ => false),
      match prettyPrint c!"\n" p.tokens p.comments p.events with | .ok s => some s | _ => none)
  | _ => none

theorem libRun_ok {k : SK} {src out : Text} (h : libRun k src = some (0, true, some out)) :
    ∃ p tree, parse c!"f" src k = .ok p ∧ p.errors = [] ∧ buildTree p.tokens p.events = .ok tree ∧ tree.Conforms ∧
      prettyPrint c!"\n" p.tokens p.comments p.events = .ok out := by
  unfold libRun at h
  split at h
  · rename_i p hp
    simp only [Option.some.injEq, Prod.mk.injEq] at h
    obtain ⟨h1, h2, h3⟩ := h
    split at h2
    · rename_i t hb
      split at h3
      · rename_i s hs
        cases h3
        exact ⟨p, t, hp, List.length_eq_zero_iff.mp h1, hb, fits_conforms t h2, hs⟩
      · cases h3
    · cases h2
  · cases h

set_option maxRecDepth 100000 in
/-- **C69** Texts that meet the hypotheses: an equation over two lines with a comment, a list of components, whose text begins
with a blank. -/
theorem C69_case :
    (∃ p tree, parse c!"f" c!"der(x)=a // c\n + b" .Equation = .ok p ∧ p.errors = [] ∧
      buildTree p.tokens p.events = .ok tree ∧ tree.Conforms ∧
      prettyPrint c!"\n" p.tokens p.comments p.events = .ok c!"der(x) = a // c\n  + b") ∧
    (∃ p tree, parse c!"f" c!"x,y" .ComponentList = .ok p ∧ p.errors = [] ∧
      buildTree p.tokens p.events = .ok tree ∧ tree.Conforms ∧
      prettyPrint c!"\n" p.tokens p.comments p.events = .ok c!" x, y") :=
  ⟨libRun_ok (by decide_cbv), libRun_ok (by decide_cbv)⟩

set_option maxRecDepth 100000 in
/-- **C69 is false for accepted texts in general**: `a,` as a list of expressions is accepted without errors and all
tokens are taken, but `pretty_print` panics; `a.` as a component reference is accepted and printed, although it
does not conform to the grammar. -/
theorem C69_trailing_false :
    (∃ p, parse c!"f" c!"a," .ExpressionList = .ok p ∧ p.errors = [] ∧ p.events.count .advance = p.tokens.length ∧
      prettyPrint c!"\n" p.tokens p.comments p.events = .panic .unwrap) ∧
    (∃ p, parse c!"f" c!"a." .ComponentReference = .ok p ∧ p.errors = [] ∧
      prettyPrint c!"\n" p.tokens p.comments p.events = .ok c!"a.") :=
  ⟨⟨match parse c!"f" c!"a," .ExpressionList with | .ok p => p | _ => ⟨[], [], [], []⟩, by decide_cbv⟩,
   ⟨match parse c!"f" c!"a." .ComponentReference with | .ok p => p | _ => ⟨[], [], [], []⟩, by decide_cbv⟩⟩

set_option maxRecDepth 100000 in
/-- **C69** Tokens that are left: `x + 2 )` as a simple expression is accepted without errors; `pretty_print` panics. -/
theorem C69_left_over :
    ∃ p, parse c!"f" c!"x + 2 )" .SimpleExpression = .ok p ∧ p.errors = [] ∧
      p.events.count .advance < p.tokens.length ∧
      prettyPrint c!"\n" p.tokens p.comments p.events = .panic .assert :=
  ⟨match parse c!"f" c!"x + 2 )" .SimpleExpression with | .ok p => p | _ => ⟨[], [], [], []⟩, by decide_cbv⟩

#print axioms C69_all_or_panic
#print axioms C69_production_partial
#print axioms C69_read_back_partial
#print axioms C69_grammatical_partial
#print axioms C69_case
#print axioms C69_trailing_false
#print axioms C69_left_over

end Mofmt
