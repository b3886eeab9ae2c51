import Verif.Proofs.OneLineRun
import Verif.Proofs.Pairs
/-
The run of a file at a child of a part of its tree.
-/
namespace Mofmt

/-- the events of a part of a tree -/
theorem part_run {k : SK} {ds : List Tree} : ∀ {c : Tree}, Part (.node k ds) c → c.Conforms →
    c.hasEmpty = false → ∀ {K a q w es}, c.sym = .n K → subOf c K a q = .ok (w, es) →
    Tree.Conforms (.node k ds) ∧ Tree.hasEmpty (.node k ds) = false ∧
    ∃ x y z a' w', es = x ++ y ++ z ∧ subOf (.node k ds) k a' (lastT q x) = .ok (w', y) := by
  intro c hp
  induction hp with
  | here =>
    intro hC hE K a q w es hs h
    cases hs
    exact ⟨hC, hE, [], es, [], a, w, by simp, h⟩
  | @there k' cs c hc hp ih =>
    intro hC hE K a q w es hs h
    cases hs
    simp only [Tree.hasEmpty, Bool.or_eq_false_iff, List.isEmpty_eq_false_iff] at hE
    obtain ⟨r1, e1, ess, r2, r3, e3, h1, h2, h3, rfl, rfl, i1, i3⟩ := trTree_inv h
    obtain ⟨pre, post, rfl⟩ := List.append_of_mem hc
    obtain ⟨ea, e, eb, ra, rb, rfl, g1, g2⟩ := steps_at h2
    have hsym := syms_complete hC.1 c.sym (List.mem_map_of_mem hc)
    cases c with
    | tok t => cases hp
    | node kd es =>
      obtain ⟨x, y, z, a', w', rfl, g3, g4⟩ := once_call (k := kd) (once_all k' _ hsym) g2
      obtain ⟨j1, j2, x', y', z', a'', w'', rfl, j4⟩ := ih (conformsF_mem hC.2 _ hc) (hasEmptyF_mem hE.2 _ hc) rfl g3
      refine ⟨j1, j2, e1 ++ ea.flatten ++ x ++ x', y', z' ++ z ++ eb.flatten ++ e3, a'', w'', by simp, ?_⟩
      rw [← j4]
      simp only [lastT_append, ind_lastT i1]

/-- the local variables before a child: every invariant of the loop holds of them -/
def RegsBefore (k : SK) (pre : List Tree) (all : List Tree) (r : Regs) : Prop :=
  ∀ P : List Tree → Regs → Prop,
    (∀ (a : Args) (q : Option Token) (r : Regs) (e : List TEv),
      trF noSub { all } (Fmt.body k).pre { m := a.m, w := a.w, o := a.o } q = .ok (r, e) → P [] r) →
    (∀ (pre : List Tree) (d : Tree) (cx : Ctx) (r r' : Regs) (q : Option Token) (e : List TEv), cx.cur = some d → P pre r →
      trF (subOf d) cx (upCmd (Fmt.body k) d.sym) r q = .ok (r', e) → P (pre ++ [d]) r') →
    P pre r

theorem steps_regs {b : FBody} {all : List Tree} {P : List Tree → Regs → Prop}
    (hP : ∀ (pre : List Tree) (d : Tree) (cx : Ctx) (r r' : Regs) (q : Option Token) (e : List TEv), cx.cur = some d → P pre r →
      trF (subOf d) cx (upCmd b d.sym) r q = .ok (r', e) → P (pre ++ [d]) r') :
    ∀ {pre : List Tree} {c : Tree} {post : List Tree} {idx : Nat} {r r' : Regs} {q : Option Token} {ess : List (List TEv)}
    {done : List Tree}, P done r →
    Steps b all (pre ++ c :: post) idx r q ess r' →
    ∃ ea e eb r1 r2, ess = ea ++ e :: eb ∧ ea.length = pre.length ∧
      trF (subOf c) { all, cur := some c, idx := idx + pre.length, rest := post } (upCmd b c.sym) r1
        (lastT q ea.flatten) = .ok (r2, e) ∧ P (done ++ pre) r1
  | [], c, post, idx, r, r', q, ess, done, hd, h => by
    cases h with
    | @cons _ _ _ _ _ r1 e ess' _ h1 h2 => exact ⟨[], e, ess', _, _, rfl, rfl, h1, by simpa using hd⟩
  | d :: pre, c, post, idx, r, r', q, ess, done, hd, h => by
    cases h with
    | @cons _ _ _ _ _ r1 e ess' _ h1 h2 =>
      obtain ⟨ea, e', eb, r1', r2, rfl, g1, g2, g3⟩ := steps_regs hP (hP done d _ r r1 q e rfl hd h1) h2
      refine ⟨e :: ea, e', eb, r1', r2, rfl, by simp [g1], ?_, by simpa using g3⟩
      have : idx + 1 + pre.length = idx + (d :: pre).length := by simp only [List.length_cons]; omega
      rw [this] at g2
      rw [List.flatten_cons, lastT_append]
      exact g2

/-- All invariants at once. -/
theorem steps_before {b : FBody} {all : List Tree} {pre : List Tree} {c : Tree} {post : List Tree}
    {r r' : Regs} {q : Option Token} {ess : List (List TEv)} (h : Steps b all (pre ++ c :: post) 0 r q ess r') :
    ∃ ea e eb r1 r2, ess = ea ++ e :: eb ∧ ea.length = pre.length ∧
      trF (subOf c) { all, cur := some c, idx := pre.length, rest := post } (upCmd b c.sym) r1
        (lastT q ea.flatten) = .ok (r2, e) ∧
      ∀ P : List Tree → Regs → Prop, P [] r →
        (∀ (pre : List Tree) (d : Tree) (cx : Ctx) (r r' : Regs) (q : Option Token) (e : List TEv), cx.cur = some d → P pre r →
          trF (subOf d) cx (upCmd b d.sym) r q = .ok (r', e) → P (pre ++ [d]) r') → P pre r1 := by
  obtain ⟨ea, e, eb, r1, r2, h1, h2, h3, h4⟩ := steps_regs (done := [])
    (P := fun pre r1 => ∀ P : List Tree → Regs → Prop, P [] r →
        (∀ (pre : List Tree) (d : Tree) (cx : Ctx) (r r' : Regs) (q : Option Token) (e : List TEv), cx.cur = some d → P pre r →
          trF (subOf d) cx (upCmd b d.sym) r q = .ok (r', e) → P (pre ++ [d]) r') → P pre r1)
    (fun pre d cx r r' q e hc hi hr P h0 hs => hs pre d cx r r' q e hc (hi P h0 hs) hr)
    (fun P h0 hs => h0) h
  rw [Nat.zero_add] at h3
  exact ⟨ea, e, eb, r1, r2, h1, h2, h3, h4⟩

/-- the events of a child -/
theorem child_run {k : SK} {pre : List Tree} {c : Tree} {post : List Tree}
    (hC : Tree.Conforms (.node k (pre ++ c :: post))) {a : Args} {q : Option Token} {w : Bool} {es : List TEv}
    (h : subOf (.node k (pre ++ c :: post)) k a q = .ok (w, es)) :
    ∃ x y z r1 r2, es = x ++ y ++ z ∧ toks x = leavesF pre ∧
      trF (subOf c) { all := pre ++ c :: post, cur := some c, idx := pre.length, rest := post }
        (upCmd (Fmt.body k) c.sym) r1 (lastT q x) = .ok (r2, y) ∧ RegsBefore k pre (pre ++ c :: post) r1 := by
  obtain ⟨r1, e1, ess, r2, r3, e3, h1, h2, h3, rfl, rfl, i1, i3⟩ := trTree_inv h
  have ht := h2.toks (fun c hc => once_all _ _ (syms_complete hC.1 _ (List.mem_map_of_mem hc))) (printedF _ hC.2)
  obtain ⟨ea, e, eb, ra, rb, rfl, g1, g2, g3⟩ := steps_before h2
  refine ⟨e1 ++ ea.flatten, e, eb.flatten ++ e3, ra, rb, by simp, ?_, ?_, ?_⟩
  · rw [toks_append, ind_toks i1, List.nil_append, toks_flatten, leavesF_flatten]
    rw [List.map_append, List.map_append] at ht
    rw [(List.append_inj ht (by simp [g1])).1]
  · rw [lastT_append, ind_lastT i1]
    exact g2
  · intro P h0 hs
    exact g3 P (h0 a q r1 e1 h1) hs

/-- the events of a child of a file -/
structure ChildRun (k : SK) (pre : List Tree) (c : Tree) (post : List Tree) (all : List (Dec × Token)) : Prop where
  conforms : Tree.Conforms (.node k (pre ++ c :: post))
  full : Tree.hasEmpty (.node k (pre ++ c :: post)) = false
  ex : ∃ (r1 r2 : Regs) (q : Option Token) (y : List TEv) (u1 u2 : WSt) (da dy dz : List (Dec × Token)),
    trF (subOf c) { all := pre ++ c :: post, cur := some c, idx := pre.length, rest := post }
      (upCmd (Fmt.body k) c.sym) r1 q = .ok (r2, y) ∧
    Walk u1 y dy u2 ∧ all = da ++ dy ++ dz ∧ (da.map (·.2)).getLast? = q ∧
    (leavesF pre) <:+ da.map (·.2) ∧ dy.map (·.2) = c.leaves ∧ (leavesF post) <+: dz.map (·.2) ∧
    (∃ es v, Walk u2 es dz v) ∧ RegsBefore k pre (pre ++ c :: post) r1

theorem lastT_eq (es : List TEv) (q : Option Token) : lastT q es = ((toks es).getLast?).or q := by
  cases h : (toks es).getLast? with
  | some t => rw [lastT_toks es q t h]; rfl
  | none =>
    rw [List.getLast?_eq_none_iff] at h
    simp only [Option.none_or]
    induction es with
    | nil => rfl
    | cons e es ih => cases e <;> simp [toks] at h <;> exact ih h

theorem child_walk {k : SK} {pre : List Tree} {c : Tree} {post : List Tree} {tree : Tree} {K : SK}
    (hp : Part (.node k (pre ++ c :: post)) tree) (hC : tree.Conforms) (hE : tree.hasEmpty = false)
    (hs : tree.sym = .n K) {a : Args} {w : Bool} {es : List TEv} {u v : WSt} {ds : List (Dec × Token)}
    (h : subOf tree K a none = .ok (w, es)) (hw : Walk u es ds v) : ChildRun k pre c post ds := by
  obtain ⟨h1, h2, x, y, z, a', w', rfl, h3⟩ := part_run hp hC hE hs h
  have hy : toks y = leavesF (pre ++ c :: post) := printed _ h1 k a' _ w' y rfl h3
  obtain ⟨x', y', z', r1, r2, rfl, h4, h5, h6⟩ := child_run h1 h3
  rw [List.append_assoc] at hw
  obtain ⟨v1, d1, d2, rfl, w1, hw⟩ := hw.split
  rw [List.append_assoc, List.append_assoc] at hw
  obtain ⟨v2, d3, d4, rfl, w2, hw⟩ := hw.split
  obtain ⟨v3, d5, d6, rfl, w3, hw⟩ := hw.split
  have hc : toks y' = c.leaves := by
    have hm : c ∈ pre ++ c :: post := by simp
    have := once_toks (c := c) rfl (printedF _ h1.2 c hm)
      (once_all k _ (syms_complete h1.1 _ (List.mem_map_of_mem hm))) h5
    simpa using this.2
  rw [toks_append, toks_append, h4, hc, leavesF_append, leavesF, ← List.append_assoc] at hy
  have hz : toks z' = leavesF post := List.append_cancel_left hy
  refine ⟨h1, h2, r1, r2, _, y', v2, v3, d1 ++ d3, d5, d6, h5, w3, by simp, ?_, ?_, ?_, ?_, ⟨_, _, hw⟩, h6⟩
  · rw [List.map_append, w1.toks, w2.toks, lastT_eq, lastT_eq, List.getLast?_append]
    simp
  · rw [List.map_append, w2.toks, h4]; exact List.suffix_append ..
  · rw [w3.toks, hc]
  · rw [hw.toks, toks_append, hz]; exact List.prefix_append ..

/-- The file's output as groups, and the run at every child. -/
theorem Formatted.children {eol name src out : Text} {p : Parsed} (h : Formatted eol name src p out) :
    ∃ (ds : List (Dec × Token)) (cs : List Tree), out = groupsText (((LS.init p.comments).groups ds).map (PGroup.toGroup eol)) ++ eol ∧
      ds.map (·.2) = p.tokens ∧ buildTree p.tokens p.events = .ok (.node .StoredDefinition cs) ∧ leavesF cs = p.tokens ∧
      WF (LS.init p.comments) (ds.map (·.2)) ∧
      ∀ k pre c post, Part (.node k (pre ++ c :: post)) (.node .StoredDefinition cs) → ChildRun k pre c post ds := by
  obtain ⟨lx, hl, l1, l2, l3⟩ := parse_lex h.parsed h.accepted
  have hw : WF (LS.init p.comments) p.tokens := l1 ▸ l2 ▸ lexed_wf hl
  obtain ⟨cs, c1, c2, c3, c4⟩ := accepted_tree h.parsed h.accepted
  by_cases hcs : cs = []
  · subst hcs
    obtain ⟨cs', ds, gs, a1, a2, a3, a4, a5, a6, a7, a8⟩ := h.groups
    have ht : p.tokens = [] := c2.symm
    rw [ht] at a4
    have hg : gs = [] := List.map_eq_nil_iff.mp a4
    subst hg
    refine ⟨[], [], a8, ht.symm, c1, c2, (by rw [ht] at hw; exact hw), ?_⟩
    intro k pre c post hp
    generalize hl : pre ++ c :: post = l at hp
    cases hp with
    | here => cases pre <;> cases hl
    | there hc _ => cases hc
  · obtain ⟨w, es, ds, n, t1, t2, t3, t4, _⟩ := format_traced full_valid (by decide) (by decide) hcs c3 c4
      (by intro h; cases h)
    obtain ⟨marks, g1, g2⟩ := format_of_trace t1 t2 (c2 ▸ hw)
    have hd : ds.map (·.2) = p.tokens := by
      rw [← c2, t2.toks]
      simpa using t2.todo.symm
    refine ⟨ds, cs, ?_, hd, c1, c2, hd ▸ hw, ?_⟩
    · obtain ⟨t, h1, h2⟩ := h.text
      have := printMarks_scan (eol := eol) g2
      rw [List.reverse_reverse] at this
      simp only [prettyPrint, c1, Res.bind_ok, g1, this] at h1
      rw [h2]
      cases h1
      rw [LS.run_out]
      have : (LS.init p.comments).out.reverse = [] := rfl
      rw [this, List.nil_append, groups_text]
    · intro k pre c post hp
      exact child_walk hp c4 (by simp [Tree.hasEmpty, hcs, c3]) rfl t1 t2

end Mofmt
