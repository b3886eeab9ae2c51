import Verif.Proofs.OneLine
import Verif.Proofs.Settle
import Verif.Props.Layout
/-
Expressions on one line within a file.
-/
namespace Mofmt
open Lexical

/-! ### Events and text -/

/-- the text of events without line breaks -/
def evText : List TEv → Text
  | [] => []
  | .tok t :: es => t.text ++ evText es
  | .space :: es => ' ' :: evText es
  | _ :: es => evText es

theorem evText_append (a b : List TEv) : evText (a ++ b) = evText a ++ evText b := by
  induction a with
  | nil => rfl
  | cons e a ih => cases e <;> simp [evText, ih]

theorem evText_clean (es : List TEv) : evText (clean es) = evText es := by
  induction es with
  | nil => rfl
  | cons e es ih =>
    cases e with
    | tok t => exact congrArg (t.text ++ ·) ih
    | space => exact congrArg (' ' :: ·) ih
    | indent => exact ih
    | dedent => exact ih
    | brk t b => exact ih

theorem evText_opt (b : Bool) : evText (optEv b) = optBlank b := by cases b <;> rfl

mutual
theorem lineEv_text (c : Tree) : evText c.lineEv = c.oneLine := by
  match c with
  | .tok t => simp [Tree.lineEv, Tree.oneLine, evText]
  | .node k cs => exact lineEvF_text k 0 .none cs
theorem lineEvF_text (k : SK) (i : Nat) (prev : Option Sym) (cs : List Tree) :
    evText (lineEvF k i prev cs) = oneLineF k i prev cs := by
  match cs with
  | [] =>
    cases prev with
    | none => simp [lineEvF, oneLineF, evText]
    | some p => simp [lineEvF, oneLineF, evText_opt]
  | c :: cs =>
    rw [lineEvF, oneLineF, evText_append, evText_append, evText_opt, lineEv_text c, lineEvF_text k (i + 1) _ cs]
end

mutual
theorem lineEv_noBrk (c : Tree) : NoBrk c.lineEv := by
  match c with
  | .tok t => intro t' b h; simp [Tree.lineEv] at h
  | .node k cs => exact lineEvF_noBrk k 0 .none cs
theorem lineEvF_noBrk (k : SK) (i : Nat) (prev : Option Sym) (cs : List Tree) : NoBrk (lineEvF k i prev cs) := by
  have ho : ∀ b, NoBrk (optEv b) := by
    intro b t b' h
    cases b <;> simp [optEv] at h
  match cs with
  | [] =>
    cases prev with
    | none => intro t b h; simp [lineEvF] at h
    | some p => rw [lineEvF]; exact ho _
  | c :: cs =>
    rw [lineEvF]
    exact ((ho _).append (lineEv_noBrk c)).append (lineEvF_noBrk k (i + 1) _ cs)
end

theorem noBrk_clean {es : List TEv} (h : NoBrk (clean es)) : NoBrk es := by
  intro t b hm
  exact h t b (List.mem_filter.mpr ⟨hm, rfl⟩)

/-! ### No blanks at the ends -/

theorem oel_not_first : ∀ k ∈ lineKinds, k ≠ .OutputExpressionList → .n .OutputExpressionList ∉ (Gram.spec k).first := by
  decide

theorem oel_not_last : ∀ k ∈ lineKinds, k ≠ .OutputExpressionList →
    checkG (fun (_ : Option Sym) s => some s) (fun o => o != some (.n .OutputExpressionList)) (Gram.spec k) none
    = true := by
  decide +kernel

/-- begins with a token -/
def TokHead (es : List TEv) : Prop := ∃ t r, es = .tok t :: r
/-- ends with a token -/
def TokEnd (es : List TEv) : Prop := ∃ t r, es = r ++ [.tok t]

theorem lineEv_head (n : Nat) : ∀ {k : SK} {cs : List Tree}, sizeOf cs ≤ n → Tree.Conforms (.node k cs) →
    Tree.hasEmpty (.node k cs) = false → k ∈ lineKinds → k ≠ .OutputExpressionList →
    TokHead (Tree.lineEv (.node k cs)) := by
  induction n with
  | zero =>
    intro k cs hn
    cases cs <;> simp at hn
  | succ n ih =>
  intro k cs hn hC hE hk hO
  simp only [Tree.hasEmpty, Bool.or_eq_false_iff, List.isEmpty_eq_false_iff] at hE
  cases cs with
  | nil => exact absurd rfl hE.1
  | cons c rest =>
    have hb : blankBefore k (0 == 1) none c.sym = false := by
      unfold blankBefore
      split <;> simp_all
    rw [Tree.lineEv, lineEvF, hb]
    cases c with
    | tok t => exact ⟨t, _, rfl⟩
    | node kd ds =>
      have hf := first_complete (c := .n kd) (u := rest.map Tree.sym) (by simpa [Tree.sym] using hC.1)
      have hkd : kd ∈ lineKinds := by
        have := lineKinds_closed k hk (.n kd) (syms_complete hC.1 _ (by simp [Tree.sym]))
        simpa using this
      have hmem : Tree.node kd ds ∈ Tree.node kd ds :: rest := by simp
      have hsz : sizeOf ds ≤ n := by
        have := List.sizeOf_lt_of_mem hmem
        simp only [Tree.node.sizeOf_spec] at this
        omega
      obtain ⟨t, r, he⟩ := ih hsz (conformsF_mem hC.2 _ hmem) (hasEmptyF_mem hE.2 _ hmem) hkd (by
        rintro rfl; exact oel_not_first k hk hO hf)
      rw [he]
      exact ⟨t, r ++ lineEvF k (0 + 1) (some (.n kd)) rest, by simp [optEv, Tree.sym]⟩

theorem lineEvF_snoc (k : SK) (c : Tree) : ∀ (ds : List Tree) (i : Nat) (prev : Option Sym), ∃ r,
    lineEvF k i prev (ds ++ [c]) = r ++ c.lineEv ++ optEv (blankAfter k c.sym)
  | [], i, prev => ⟨optEv (blankBefore k (i == 1) prev c.sym), by simp [lineEvF]⟩
  | d :: ds, i, prev => by
    obtain ⟨r, hr⟩ := lineEvF_snoc k c ds (i + 1) (some d.sym)
    refine ⟨optEv (blankBefore k (i == 1) prev d.sym) ++ d.lineEv ++ r, ?_⟩
    rw [List.cons_append, lineEvF, hr]
    simp

theorem lineEv_end (n : Nat) : ∀ {k : SK} {cs : List Tree}, sizeOf cs ≤ n → Tree.Conforms (.node k cs) →
    Tree.hasEmpty (.node k cs) = false → k ∈ lineKinds → k ≠ .OutputExpressionList →
    TokEnd (Tree.lineEv (.node k cs)) := by
  induction n with
  | zero =>
    intro k cs hn
    cases cs <;> simp at hn
  | succ n ih =>
  intro k cs hn hC hE hk hO
  simp only [Tree.hasEmpty, Bool.or_eq_false_iff, List.isEmpty_eq_false_iff] at hE
  obtain ⟨ds, c, rfl⟩ := (List.eq_nil_or_concat cs).resolve_left hE.1
  rw [List.concat_eq_append] at *
  have hcm : c ∈ ds ++ [c] := by simp
  have hs := checkG_sound (oel_not_last k hk hO) hC.1
  rw [foldl_last] at hs
  simp only [List.map_append, List.map_cons, List.map_nil, List.getLast?_append, List.getLast?_singleton,
    Option.some_or, bne_iff_ne, ne_eq, Option.some.injEq] at hs
  obtain ⟨r, hr⟩ := lineEvF_snoc k c ds 0 none
  have hb : blankAfter k c.sym = false := by simp [blankAfter, hO]
  rw [Tree.lineEv, hr, hb]
  cases c with
  | tok t => exact ⟨t, r, by simp [optEv, Tree.lineEv]⟩
  | node kd es =>
    have hkd : kd ∈ lineKinds := by
      have := lineKinds_closed k hk (.n kd) (syms_complete hC.1 _ (by simp [Tree.sym]))
      simpa using this
    have hsz : sizeOf es ≤ n := by
      have := List.sizeOf_lt_of_mem hcm
      simp only [Tree.node.sizeOf_spec] at this
      omega
    obtain ⟨t, r', he⟩ := ih hsz (conformsF_mem hC.2 _ hcm) (hasEmptyF_mem hE.2 _ hcm) hkd (by
      rintro rfl; exact hs rfl)
    exact ⟨t, r ++ r', by rw [he]; simp [optEv]⟩

/-! ### A part of the tree -/

theorem whole_plain : ∀ K, ∀ k ∈ wholeKinds, .n k ∈ (Gram.spec K).syms → plainCalls (upCmd (Fmt.body K) (.n k)) = true := by
  intro K; cases K <;> decide

theorem whole_line : ∀ k ∈ wholeKinds, k ∈ lineKinds ∧ k ≠ .OutputExpressionList := by decide

/-- the events of a part of a tree among those of the tree -/
theorem part_events {k : SK} (hk : k ∈ wholeKinds) {ds : List Tree} : ∀ {c : Tree}, Part (.node k ds) c → c.Conforms →
    c.hasEmpty = false → ∀ {K a q w es}, c.sym = .n K → subOf c K a q = .ok (w, es) →
    (c = .node k ds → a.m = false) →
    Tree.Conforms (.node k ds) ∧ Tree.hasEmpty (.node k ds) = false ∧
    ∃ x y z a' w', es = x ++ y ++ z ∧ a'.m = false ∧ subOf (.node k ds) k a' (lastT q x) = .ok (w', y) := by
  intro c hp
  induction hp with
  | here =>
    intro hC hE K a q w es hs h hm
    cases hs
    exact ⟨hC, hE, [], es, [], a, w, by simp, hm rfl, h⟩
  | @there k' cs c hc hp ih =>
    intro hC hE K a q w es hs h _
    cases hs
    simp only [Tree.hasEmpty, Bool.or_eq_false_iff, List.isEmpty_eq_false_iff] at hE
    obtain ⟨r1, e1, ess, r2, r3, e3, h1, h2, h3, rfl, rfl, i1, i3⟩ := trTree_inv h
    obtain ⟨pre, post, rfl⟩ := List.append_of_mem hc
    obtain ⟨ea, e, eb, ra, rb, rfl, g1, g2⟩ := steps_at h2
    have hsym := syms_complete hC.1 c.sym (List.mem_map_of_mem hc)
    cases c with
    | tok t => cases hp
    | node kd es =>
      obtain ⟨x, y, z, a', w', rfl, g3, g4⟩ := once_call (k := kd) (once_all k' _ hsym) g2
      obtain ⟨j1, j2, x', y', z', a'', w'', rfl, j3, j4⟩ := ih (conformsF_mem hC.2 _ hc) (hasEmptyF_mem hE.2 _ hc) rfl g3 (by
        intro he
        cases he
        exact g4 (whole_plain k' _ hk hsym))
      refine ⟨j1, j2, e1 ++ ea.flatten ++ x ++ x', y', z' ++ z ++ eb.flatten ++ e3, a'', w'', by simp, j3, ?_⟩
      rw [← j4]
      simp only [lastT_append, ind_lastT i1]

/-! ### Decisions -/

theorem Walk.split {v : WSt} {a b : List TEv} : ∀ {u : WSt} {ds : List (Dec × Token)}, Walk u (a ++ b) ds v →
    ∃ w da db, ds = da ++ db ∧ Walk u a da w ∧ Walk w b db v := by
  induction a with
  | nil => intro u ds h; exact ⟨u, [], ds, rfl, .nil _, h⟩
  | cons e a ih =>
    intro u ds h
    cases h with
    | tok h => obtain ⟨w, da, db, rfl, h1, h2⟩ := ih h; exact ⟨w, _ :: da, db, rfl, .tok h1, h2⟩
    | space h => obtain ⟨w, da, db, rfl, h1, h2⟩ := ih h; exact ⟨w, da, db, rfl, .space h1, h2⟩
    | indent hk h => obtain ⟨w, da, db, rfl, h1, h2⟩ := ih h; exact ⟨w, da, db, rfl, .indent hk h1, h2⟩
    | dedent hk h => obtain ⟨w, da, db, rfl, h1, h2⟩ := ih h; exact ⟨w, da, db, rfl, .dedent hk h1, h2⟩
    | brk h => obtain ⟨w, da, db, rfl, h1, h2⟩ := ih h; exact ⟨w, da, db, rfl, .brk h1, h2⟩

/-- the blank of a decision -/
def Dec.blank : Dec → Text
  | .space => [' ']
  | _ => []

/-- the text of decisions without line breaks -/
def decsText (ds : List (Dec × Token)) : Text := ds.flatMap fun x => x.1.blank ++ x.2.text

def Calm (d : Dec) : Prop := d = .none ∨ d = .space

theorem Walk.text {u v : WSt} {es : List TEv} {ds : List (Dec × Token)} (h : Walk u es ds v) (hn : NoBrk es)
    (hd : Calm u.d) : u.d.blank ++ evText es = decsText ds ++ v.d.blank ∧ (∀ x ∈ ds, Calm x.1) ∧ Calm v.d := by
  induction h with
  | nil w => exact ⟨by simp [evText, decsText], by simp, hd⟩
  | @tok k d n t todo es ds w h ih =>
    obtain ⟨i1, i2, i3⟩ := ih (NoBrk.right (a := [.tok t]) hn) (.inl rfl)
    refine ⟨?_, ?_, i3⟩
    · simp only [evText, decsText, List.flatMap_cons, List.append_assoc] at i1 ⊢
      rw [← i1]; simp [Dec.blank]
    · intro x hx
      rcases List.mem_cons.mp hx with rfl | hx
      · exact hd
      · exact i2 x hx
  | @space k n todo es ds w h ih =>
    obtain ⟨i1, i2, i3⟩ := ih (NoBrk.right (a := [.space]) hn) (.inr rfl)
    exact ⟨by simpa [evText, Dec.blank] using i1, i2, i3⟩
  | @indent k d n todo es ds w hk h ih =>
    obtain ⟨i1, i2, i3⟩ := ih (NoBrk.right (a := [.indent]) hn) hd
    exact ⟨by simpa [evText] using i1, i2, i3⟩
  | @dedent k d n todo es ds w hk h ih =>
    obtain ⟨i1, i2, i3⟩ := ih (NoBrk.right (a := [.dedent]) hn) hd
    exact ⟨by simpa [evText] using i1, i2, i3⟩
  | @brk k n t b todo es ds w h ih => exact absurd List.mem_cons_self (hn t b)

theorem Walk.ind {u v : WSt} {es : List TEv} {ds : List (Dec × Token)} (h : Walk u es ds v) (hi : ∀ e ∈ es, e.ind = true) :
    ds = [] ∧ v.d = u.d := by
  induction h with
  | nil w => exact ⟨rfl, rfl⟩
  | indent hk h ih => exact ih fun e he => hi e (List.mem_cons_of_mem _ he)
  | dedent hk h ih => exact ih fun e he => hi e (List.mem_cons_of_mem _ he)
  | tok h ih => exact absurd (hi _ List.mem_cons_self) (by simp [TEv.ind])
  | space h ih => exact absurd (hi _ List.mem_cons_self) (by simp [TEv.ind])
  | brk h ih => exact absurd (hi _ List.mem_cons_self) (by simp [TEv.ind])

/-- events whose first one that matters is a token -/
theorem clean_head {t : Token} {r : List TEv} : ∀ {es : List TEv}, clean es = .tok t :: r →
    ∃ a b, es = a ++ .tok t :: b ∧ (∀ e ∈ a, e.ind = true) ∧ clean b = r
  | [], h => by simp [clean] at h
  | e :: es, h => by
    by_cases he : e.ind = true
    · have : clean es = .tok t :: r := by
        rw [← h]; simp [clean, he]
      obtain ⟨a, b, rfl, h1, h2⟩ := clean_head this
      exact ⟨e :: a, b, rfl, by simpa using ⟨he, h1⟩, h2⟩
    · have : clean (e :: es) = e :: clean es := by simp [clean, he]
      rw [this] at h
      simp only [List.cons.injEq] at h
      obtain ⟨rfl, h⟩ := h
      exact ⟨[], es, rfl, by simp, h⟩

theorem Walk.end_tok {u v : WSt} {es : List TEv} {ds : List (Dec × Token)} (h : Walk u es ds v) :
    ∀ {t : Token} {r : List TEv}, clean es = r ++ [.tok t] → v.d = .none := by
  have key : ∀ {u v : WSt} {es : List TEv} {ds : List (Dec × Token)}, Walk u es ds v →
      (clean es = [] → v.d = u.d) ∧ (∀ t r, clean es = r ++ [.tok t] → v.d = .none) := by
    intro u v es ds h
    induction h with
    | nil w => exact ⟨fun _ => rfl, fun t r h => by simp [clean] at h⟩
    | @tok k d n t todo es ds w h ih =>
      have hc : clean (.tok t :: es) = .tok t :: clean es := rfl
      refine ⟨fun h => (by rw [hc] at h; cases h), fun t' r h => ?_⟩
      rw [hc] at h
      cases r with
      | nil =>
        simp only [List.nil_append, List.cons.injEq] at h
        exact ih.1 h.2
      | cons e r =>
        simp only [List.cons_append, List.cons.injEq] at h
        exact ih.2 _ _ h.2
    | @space k n todo es ds w h ih =>
      have hc : clean (.space :: es) = .space :: clean es := rfl
      refine ⟨fun h => (by rw [hc] at h; cases h), fun t' r h => ?_⟩
      rw [hc] at h
      cases r with
      | nil => simp at h
      | cons e r =>
        simp only [List.cons_append, List.cons.injEq] at h
        exact ih.2 _ _ h.2
    | @brk k n t b todo es ds w h ih =>
      have hc : clean (.brk t b :: es) = .brk t b :: clean es := rfl
      refine ⟨fun h => (by rw [hc] at h; cases h), fun t' r h => ?_⟩
      rw [hc] at h
      cases r with
      | nil => simp at h
      | cons e r =>
        simp only [List.cons_append, List.cons.injEq] at h
        exact ih.2 _ _ h.2
    | indent hk h ih => exact ih
    | dedent hk h ih => exact ih
  intro t r hc
  exact (key h).2 t r hc

/-- The decisions for a part that begins and ends with a token and has no line breaks. -/
theorem Walk.part {u v : WSt} {es : List TEv} {ds : List (Dec × Token)} (h : Walk u es ds v) (hn : NoBrk es)
    (hh : TokHead (clean es)) (hE : TokEnd (clean es)) :
    ∃ d t ms, ds = (d, t) :: ms ∧ (∀ x ∈ ms, Calm x.1) ∧ evText es = t.text ++ decsText ms := by
  obtain ⟨t, r, hh⟩ := hh
  obtain ⟨t', r', hE⟩ := hE
  have hv := h.end_tok hE
  obtain ⟨a, b, rfl, h1, h2⟩ := clean_head hh
  obtain ⟨w, da, db, rfl, w1, w2⟩ := h.split
  obtain ⟨rfl, w3⟩ := w1.ind h1
  cases w2 with
  | @tok k d n t todo es ds w h =>
    have hn' : NoBrk b := NoBrk.right (a := [.tok t]) (NoBrk.right hn)
    obtain ⟨g1, g2, g3⟩ := h.text hn' (.inl rfl)
    refine ⟨d, t, ds, rfl, g2, ?_⟩
    have ha : evText a = [] := by rw [← evText_clean, clean_ind h1]; rfl
    rw [hv] at g1
    simp only [Dec.blank, List.nil_append, List.append_nil] at g1
    rw [evText_append, ha, List.nil_append, evText, g1]

/-! ### Groups -/

theorem LS.groups_append : ∀ (a b : List (Dec × Token)) (L : LS),
    L.groups (a ++ b) = L.groups a ++ (L.run a).groups b
  | [], _, _ => rfl
  | x :: a, b, L => by
    rw [List.cons_append, LS.groups, LS.groups_append a b, LS.groups]
    rfl

theorem LS.groups_calm (eol : Text) : ∀ (ms : List (Dec × Token)) (L : LS), (∀ x ∈ ms, Calm x.1) →
    (∀ g ∈ (L.groups ms).map (PGroup.toGroup eol), g.comments = [] ∧ SameLine g.white) ∧
    groupsText ((L.groups ms).map (PGroup.toGroup eol)) = decsText ms
  | [], _, _ => ⟨by simp [LS.groups], rfl⟩
  | (d, t) :: ms, L, h => by
    obtain ⟨i1, i2⟩ := LS.groups_calm eol ms (L.step (d, t)) fun x hx => h x (List.mem_cons_of_mem _ hx)
    have hd := h (d, t) List.mem_cons_self
    simp only [LS.groups, List.map_cons]
    have hg : (L.group (d, t)).toGroup eol = ⟨[], d.blank, t⟩ := by
      rcases hd with hd | hd <;> (simp only at hd; subst hd; rfl)
    rw [hg]
    refine ⟨?_, ?_⟩
    · intro g hgm
      rcases List.mem_cons.mp hgm with rfl | hgm
      · refine ⟨rfl, ?_⟩
        rcases hd with hd | hd <;> (simp only at hd; subst hd)
        · exact .inl rfl
        · exact .inr rfl
      · exact i1 g hgm
    · simp only [groupsText, groupLexemes, List.flatMap_cons, Group.lexemes, List.nil_append, lexemesText] at i2 ⊢
      simp only [decsText, List.flatMap_cons, List.flatMap_append]
      rw [show ms.flatMap (fun x => x.1.blank ++ x.2.text) = decsText ms from rfl, ← i2]
      simp

/-- The groups of an expression on one line. -/
theorem Formatted.line_part {eol name src out : Text} {p : Parsed} (h : Formatted eol name src p out) :
    ∃ (gs : List Group) (tree : Tree), out = groupsText gs ++ eol ∧ gs.map (·.tok) = p.tokens ∧
      buildTree p.tokens p.events = .ok tree ∧
      ∀ k ds l, k ∈ wholeKinds → Part (.node k ds) tree → OnLine l (leavesF ds) →
        PrintedAs gs (leavesF ds) (Tree.oneLine (.node k ds)) := by
  obtain ⟨lx, hl, l1, l2, l3⟩ := parse_lex h.parsed h.accepted
  have hw : WF (LS.init p.comments) p.tokens := l1 ▸ l2 ▸ lexed_wf hl
  obtain ⟨cs, c1, c2, c3, c4⟩ := accepted_tree h.parsed h.accepted
  by_cases hcs : cs = []
  · subst hcs
    obtain ⟨cs', ds, gs, a1, a2, a3, a4, a5, a6, a7, a8⟩ := h.groups
    refine ⟨_, _, a8, by simpa [PGroup.toGroup, Function.comp_def] using a4, c1, ?_⟩
    intro k ds l hk hp
    cases hp with
    | here => exact absurd hk (by decide)
    | there hc _ => cases hc
  · obtain ⟨w, es, ds, n, t1, t2, t3, t4, _⟩ := format_traced full_valid (by decide) (by decide) hcs c3 c4
      (by intro h; cases h)
    obtain ⟨marks, g1, g2⟩ := format_of_trace t1 t2 (c2 ▸ hw)
    have hd : ds.map (·.2) = p.tokens := by
      rw [← c2, t2.toks]
      simpa using t2.todo.symm
    refine ⟨((LS.init p.comments).groups ds).map (PGroup.toGroup eol), _, ?_, ?_, c1, ?_⟩
    · obtain ⟨t, h1, h2⟩ := h.text
      have := printMarks_scan (eol := eol) g2
      rw [List.reverse_reverse] at this
      simp only [prettyPrint, c1, Res.bind_ok, g1, this] at h1
      rw [h2]
      cases h1
      rw [LS.run_out]
      have : (LS.init p.comments).out.reverse = [] := rfl
      rw [this, List.nil_append, groups_text]
    · rw [List.map_map]
      exact (LS.groups_tok ds (LS.init p.comments)).trans hd
    · intro k ps l hk hp hl
      obtain ⟨j1, j2, x, y, z, a', w', rfl, j3, j4⟩ := part_events hk hp c4 (by simp [Tree.hasEmpty, hcs, c3]) rfl t1
        (by rintro he; rfl)
      obtain ⟨k1, k2⟩ := whole_line k hk
      have hc := (line_tree _ (Nat.le_refl _) j1 j2 k1 l hl k a' _ w' y rfl k1 j3 (fun h => absurd h k2) j4).1
      have htk : toks y = leavesF ps := printed _ j1 k a' _ w' y rfl j4
      rw [List.append_assoc] at t2
      obtain ⟨v1, da, db, rfl, w1, w2⟩ := t2.split
      obtain ⟨v2, dy, dz, rfl, w2, w3⟩ := w2.split
      obtain ⟨d, t, ms, rfl, m1, m2⟩ := w2.part (noBrk_clean (hc ▸ lineEv_noBrk _))
        (hc ▸ lineEv_head _ (Nat.le_refl _) j1 j2 k1 k2) (hc ▸ lineEv_end _ (Nat.le_refl _) j1 j2 k1 k2)
      have htk' := w2.toks
      rw [htk] at htk'
      rw [LS.groups_append, LS.groups_append, LS.groups]
      obtain ⟨o1, o2⟩ := LS.groups_calm eol ms (((LS.init p.comments).run da).step (d, t)) m1
      rw [List.map_append, List.map_append, List.map_cons]
      refine ⟨_, PGroup.toGroup eol (((LS.init p.comments).run da).group (d, t)), _, _, (List.append_assoc ..).symm, ?_, o1, ?_⟩
      · rw [← htk']
        simp only [List.map_cons, List.map_map]
        refine congr (congrArg _ ?_) (LS.groups_tok ms _)
        exact LS.group_tok ..
      · rw [o2]
        have : (PGroup.toGroup eol (((LS.init p.comments).run da).group (d, t))).tok = t := LS.group_tok ..
        rw [this, ← m2, ← evText_clean, hc, lineEv_text]

/-! ### The second run -/

mutual
theorem oneLine_map {φ : Token → Token} (hk : ∀ t, (φ t).kind = t.kind) (c : Tree)
    (ht : ∀ t ∈ c.leaves, (φ t).text = t.text) : (c.map φ).oneLine = c.oneLine := by
  match c with
  | .tok t => exact ht t (by simp [Tree.leaves])
  | .node k cs => exact oneLineF_map hk k 0 none cs ht
theorem oneLineF_map {φ : Token → Token} (hk : ∀ t, (φ t).kind = t.kind) (k : SK) (i : Nat) (prev : Option Sym)
    (cs : List Tree) (ht : ∀ t ∈ leavesF cs, (φ t).text = t.text) :
    oneLineF k i prev (mapTrees φ cs) = oneLineF k i prev cs := by
  match cs with
  | [] => rfl
  | c :: cs =>
    rw [leavesF] at ht
    rw [mapTrees, oneLineF, oneLineF, sym_move hk c, oneLine_map hk c fun t h => ht t (List.mem_append_left _ h),
      oneLineF_map hk k (i + 1) _ cs fun t h => ht t (List.mem_append_right _ h)]
end

theorem Part.map (φ : Token → Token) {s c : Tree} (h : Part s c) : Part (s.map φ) (c.map φ) := by
  induction h with
  | here => exact .here
  | @there k cs c hc _ ih =>
    refine .there (k := k) (cs := mapTrees φ cs) ?_ ih
    rw [mapTrees_eq]
    exact List.mem_map_of_mem hc

theorem Part.leaves {s c : Tree} (h : Part s c) : ∀ t ∈ s.leaves, t ∈ c.leaves := by
  induction h with
  | here => exact fun t h => h
  | @there k cs c hc _ ih =>
    intro t ht
    rw [Tree.leaves]
    exact leaves_mem hc _ (ih t ht)

theorem NoBrk.onLine {φ : Token → Token} : ∀ {es : List TEv} {q : Option Token} {p : Pend}, Track φ q p es → NoBrk es →
    (∀ t ∈ toks es, newlines t.text = 0) → ∃ l, OnLine l ((toks es).map φ)
  | [], _, _, _, _, _ => ⟨0, fun t h => by simp [toks] at h⟩
  | .tok t :: es, q, p, hT, hn, ht => by
    obtain ⟨t1, t2, t3⟩ := hT
    simp only [toks, List.mem_cons, forall_eq_or_imp] at ht
    have i := (t3.flat (by simp) (NoBrk.right (a := [.tok t]) hn) ht.2).1
    refine ⟨(φ t).stop.line, fun u hu => ?_⟩
    simp only [toks, List.map_cons, List.mem_cons, List.mem_map] at hu
    rcases hu with rfl | ⟨y, hy, rfl⟩
    · omega
    · exact i y hy
  | .space :: es, q, p, hT, hn, ht => NoBrk.onLine (es := es) hT.2 (NoBrk.right (a := [.space]) hn) ht
  | .brk t b :: es, q, p, hT, hn, ht => absurd List.mem_cons_self (hn t b)
  | .indent :: es, q, p, hT, hn, ht => NoBrk.onLine (es := es) hT (NoBrk.right (a := [.indent]) hn) ht
  | .dedent :: es, q, p, hT, hn, ht => NoBrk.onLine (es := es) hT (NoBrk.right (a := [.dedent]) hn) ht

theorem Runs.text_eq {eol name' out : Text} {p : Parsed} {cs : List Tree} {ds : List (Dec × Token)}
    {φ : Token → Token} {p' : Parsed} (h : Runs eol name' out p cs ds φ p') : ∀ t ∈ p.tokens, (φ t).text = t.text := by
  intro t ht
  have : ((LS.init p.comments).groups ds).map (·.tok) = p.tokens := (LS.groups_tok ds _).trans h.toks
  rw [← this, List.mem_map] at ht
  obtain ⟨g, hg, rfl⟩ := ht
  refine (h.placed.line (g.white, g.tok) ?_).2.2.2
  rw [List.mem_flatMap]
  exact ⟨g, hg, by simp [PGroup.segs]⟩

/-- An expression on one line is on one line in the output. -/
theorem Runs.stays {eol name' out : Text} {p : Parsed} {cs : List Tree} {ds : List (Dec × Token)}
    {φ : Token → Token} {p' : Parsed} (h : Runs eol name' out p cs ds φ p')
    (hl : ∀ t ∈ p.tokens, t.stop.line = t.start.line + newlines t.text) {k : SK} {ps : List Tree} {l : Nat}
    (hk : k ∈ wholeKinds) (hp : Part (.node k ps) (.node .StoredDefinition cs)) (ho : OnLine l (leavesF ps)) :
    ∃ l', OnLine l' ((leavesF ps).map φ) := by
  have hcs : cs ≠ [] := by
    rintro rfl
    cases hp with
    | here => exact absurd hk (by decide)
    | there hc _ => cases hc
  obtain ⟨w, es, n, t1, t2⟩ := h.run hcs
  have hT : Track φ none .none es := walk_track t2 (q := none) (L := LS.init p.comments) (i := 0) h.placed
  obtain ⟨j1, j2, x, y, z, a', w', rfl, j3, j4⟩ := part_events hk hp h.conf (by simp [Tree.hasEmpty, hcs, h.full]) rfl t1
    (by rintro he; rfl)
  obtain ⟨k1, k2⟩ := whole_line k hk
  have hc := (line_tree _ (Nat.le_refl _) j1 j2 k1 l ho k a' _ w' y rfl k1 j3 (fun h => absurd h k2) j4).1
  have htk : Mofmt.toks y = leavesF ps := printed _ j1 k a' _ w' y rfl j4
  rw [← htk]
  rw [List.append_assoc, Track.append, Track.append] at hT
  refine NoBrk.onLine hT.2.1 (noBrk_clean (hc ▸ lineEv_noBrk _)) ?_
  rw [htk]
  intro t ht
  have h1 := ho t ht
  have h2 := hl t (by
    have := hp.leaves t ht
    rwa [Tree.leaves, h.leaves] at this)
  omega

end Mofmt
