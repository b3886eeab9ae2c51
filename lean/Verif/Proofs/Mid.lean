import Verif.Proofs.Pairs
/-
What is between parentheses on one line stays on one line.
-/
namespace Mofmt
open Lexical (newlines)

variable {φ : Token → Token}

/-- kinds that may be between parentheses -/
def midKind : Sym → Bool
  | .t _ => true
  | .n k => exprKinds.contains k || k == .EnumList

def midArm (fn : SK) (s : Sym) : Bool :=
  midKind s && !isForced s && calmArm false fn false s && calmArm false fn true s

def midStep (A : Area) (fn : SK) (st : Nat × Bool) (s : Sym) : Nat × Bool :=
  (A.next st.1 s, st.2 &&
    (if st.1 = 1 || A.next st.1 s = 1 then midArm fn s
      else if st.1 = 0 then noSetM (upCmd (Fmt.body fn) s) else true))

def Area.isParen : Area → Bool
  | .paren _ _ => true
  | .whole => false

theorem mids_ok : ∀ x ∈ areas, x.2.isParen = true →
    checkG (midStep x.2 x.1) (fun st => st.2) (Gram.spec x.1) (0, true) = true := by
  decide +kernel

/-- the conditions on a word with parentheses -/
theorem mid_fold {op cl : Tok} {fn : SK} (hoc : op ≠ cl) : ∀ {a b d : List Tree} {o c : Token}, o.kind = op → c.kind = cl →
    NoPar op cl a → NoPar op cl b →
    ((((a ++ .tok o :: (b ++ .tok c :: d)).map Tree.sym).foldl (midStep (.paren op cl) fn) (0, true)).2 = true) →
    (∀ x ∈ a, noSetM (upCmd (Fmt.body fn) x.sym) = true) ∧
    (∀ x ∈ .tok o :: (b ++ [.tok c]), midArm fn x.sym = true) := by
  have mono : ∀ (w : List Sym) (st : Nat × Bool), (w.foldl (midStep (.paren op cl) fn) st).2 = true → st.2 = true := by
    intro w
    induction w with
    | nil => intro st h; exact h
    | cons s w ih =>
      intro st h
      have := ih _ h
      simp only [midStep, Bool.and_eq_true] at this
      exact this.1
  have noP : ∀ {x : Tree} {xs : List Tree} {n : Nat}, NoPar op cl (x :: xs) → Area.next (.paren op cl) n x.sym = n := by
    intro x xs n h
    cases x with
    | node k ds => simp [Area.next, Tree.sym]
    | tok t =>
      have := h t (by simp)
      simp [Area.next, Tree.sym, this.1, this.2]
  have inside : ∀ {b d : List Tree} {c : Token} {ok : Bool}, c.kind = cl → NoPar op cl b →
      (((b ++ .tok c :: d).map Tree.sym).foldl (midStep (.paren op cl) fn) (1, ok)).2 = true →
      ∀ x ∈ b ++ [.tok c], midArm fn x.sym = true := by
    intro b
    induction b with
    | nil =>
      intro d c ok hc _ h x hx
      simp only [List.nil_append, List.map_cons, List.foldl_cons] at h
      have := mono _ _ h
      simp only [midStep, Bool.and_eq_true] at this
      simp only [List.nil_append, List.mem_singleton] at hx
      subst hx
      simpa using this.2
    | cons y b ih =>
      intro d c ok hc hb h x hx
      simp only [List.cons_append, List.map_cons, List.foldl_cons] at h
      have h1 := mono _ _ h
      simp only [midStep, Bool.and_eq_true] at h1
      have hn : midStep (.paren op cl) fn (1, ok) y.sym = (1, (midStep (.paren op cl) fn (1, ok) y.sym).2) := by
        simp only [midStep, noP hb]
      rw [hn] at h
      simp only [List.cons_append, List.mem_cons] at hx
      rcases hx with rfl | hx
      · simpa using h1.2
      · exact ih hc hb.tail h x hx
  intro a
  suffices ∀ {b d : List Tree} {o c : Token} {ok : Bool}, o.kind = op → c.kind = cl →
    NoPar op cl a → NoPar op cl b →
    ((((a ++ .tok o :: (b ++ .tok c :: d)).map Tree.sym).foldl (midStep (.paren op cl) fn) (0, ok)).2 = true) →
    (∀ x ∈ a, noSetM (upCmd (Fmt.body fn) x.sym) = true) ∧
    (∀ x ∈ .tok o :: (b ++ [.tok c]), midArm fn x.sym = true) by
    intro b d o c ho hc ha hb h
    exact this ho hc ha hb h
  induction a with
  | nil =>
    intro b d o c ok ho hc _ hb h
    refine ⟨by simp, ?_⟩
    simp only [List.nil_append, List.map_cons, List.foldl_cons] at h
    have h1 := mono _ _ h
    have hnx : Area.next (.paren op cl) 0 (Tree.sym (.tok o)) = 1 := by simp [Area.next, Tree.sym, ho]
    simp only [midStep, hnx, Bool.and_eq_true] at h1
    have hn : midStep (.paren op cl) fn (0, ok) (Tree.sym (.tok o)) =
        (1, (midStep (.paren op cl) fn (0, ok) (Tree.sym (.tok o))).2) := by
      simp only [midStep, hnx]
    rw [hn] at h
    intro x hx
    rcases List.mem_cons.mp hx with rfl | hx
    · simpa using h1.2
    · exact inside hc hb h x hx
  | cons y a ih =>
    intro b d o c ok ho hc ha hb h
    simp only [List.cons_append, List.map_cons, List.foldl_cons] at h
    have h1 := mono _ _ h
    simp only [midStep, noP ha, Bool.and_eq_true] at h1
    have hn : midStep (.paren op cl) fn (0, ok) y.sym = (0, (midStep (.paren op cl) fn (0, ok) y.sym).2) := by
      simp only [midStep, noP ha]
    rw [hn] at h
    have := ih ho hc ha.tail hb h
    refine ⟨?_, this.2⟩
    intro x hx
    rcases List.mem_cons.mp hx with rfl | hx
    · simpa using h1.2
    · exact this.1 x hx

/-- arms that keep `is_multiline` -/
theorem noSetM_pre {b : FBody} {all : List Tree} : ∀ {u v : List Tree} {idx : Nat} {r r' : Regs} {q : Option Token}
    {ess : List (List TEv)}, Steps b all (u ++ v) idx r q ess r' → (∀ x ∈ u, noSetM (upCmd b x.sym) = true) →
    ∃ ess1 ess2 r1, ess = ess1 ++ ess2 ∧ r1.m = r.m ∧
      Steps b all v (idx + u.length) r1 (lastT q ess1.flatten) ess2 r'
  | [], v, idx, r, r', q, ess, h, _ => ⟨[], ess, r, rfl, rfl, h⟩
  | c :: u, v, idx, r, r', q, ess, h, hn => by
    cases h with
    | @cons _ _ _ _ _ r1 e ess' _ h1 h2 =>
    obtain ⟨ess1, ess2, r2, rfl, g1, g2⟩ := noSetM_pre h2 (fun x hx => hn x (by simp [hx]))
    refine ⟨e :: ess1, ess2, r2, rfl, g1.trans (noSetM_sound (hn c (by simp)) h1), ?_⟩
    rw [List.flatten_cons, lastT_append]
    have : idx + (c :: u).length = idx + 1 + u.length := by simp only [List.length_cons]; omega
    rw [this]
    exact g2

/-- between the parentheses -/
theorem mid_pre {fn : SK} {all : List Tree} {l : Nat} : ∀ {u v : List Tree} {idx : Nat} {r r' : Regs}
    {q : Option Token} {ess : List (List TEv)}, Steps (Fmt.body fn) all (u ++ v) idx r q ess r' →
    (∀ x ∈ u, midArm fn x.sym = true) →
    (∀ x ∈ u, x.Conforms ∧ x.hasEmpty = false ∧ OnLine l x.leaves ∧ x.sym ∈ (Gram.spec fn).syms) →
    (∀ ds, .node .EnumList ds ∈ u → containsKind .Description ds = false) → r.m = false →
    ∃ ess1 ess2, ess = ess1 ++ ess2 ∧ NoBrk ess1.flatten ∧ toks ess1.flatten = leavesF u
  | [], v, idx, r, r', q, ess, h, _, _, _, _ => ⟨[], ess, rfl, by intro t b hm; simp at hm, rfl⟩
  | c :: u, v, idx, r, r', q, ess, h, ha, hc, hE, hm => by
    cases h with
    | @cons _ _ _ _ _ r1 e ess' _ h1 h2 =>
    have ha1 := ha c (by simp)
    have hc1 := hc c (by simp)
    simp only [midArm, Bool.and_eq_true, Bool.not_eq_true'] at ha1
    have hU : ∀ k ds, c = .node k ds → Unforced ds ∧ k ∉ forcedKinds := by
      intro k ds he
      subst he
      refine ⟨?_, ?_⟩
      · have := ha1.1.1.1
        simp only [midKind, Tree.sym, Bool.or_eq_true, beq_iff_eq] at this
        rcases this with h | rfl
        · exact expr_unforced (List.contains_iff_mem.mp h) hc1.1
        · exact enum_unforced hc1.1 (hE ds (by simp))
      · have := ha1.1.1.2
        intro hf
        simp only [isForced, Tree.sym] at this
        rw [List.contains_iff_mem.mpr hf] at this
        cases this
    have harm : calmArm false fn (decide (idx > 0)) c.sym = true := by
      cases idx with
      | zero => exact ha1.1.2
      | succ n => exact ha1.2
    have j := calmArm_sound (l := l) (pos := decide (idx > 0)) (wh := false)
      ⟨by simp, by simp, fun d hd => by cases hd; exact hc1.2.2.1, fun k ds hd => by cases hd; exact hU k ds rfl, by simp,
        by simp⟩ (calm c hc1.1 hc1.2.1 l hc1.2.2.1 (fun k ds he => (hU k ds he).1)) harm hm (by simp) h1
    obtain ⟨ess1, ess2, rfl, g1, g2⟩ := mid_pre h2 (fun x hx => ha x (by simp [hx])) (fun x hx => hc x (by simp [hx]))
      (fun ds hd => hE ds (by simp [hd])) j.2.1
    refine ⟨e :: ess1, ess2, rfl, j.1.append g1, ?_⟩
    have := once_toks rfl (printed _ hc1.1) (once_all _ _ hc1.2.2.2) h1
    rw [List.flatten_cons, toks_append, g2, this.2]
    rfl

theorem leavesF_app (a b : List Tree) : leavesF (a ++ b) = leavesF a ++ leavesF b := by
  simp [leavesF_flatten]

/-- Parentheses on one line stay on one line. -/
theorem calm_mid {fn : SK} {op cl : Tok} (hA : (fn, Area.paren op cl) ∈ areas) (hoc : op ≠ cl)
    (hf : op ∈ flatKinds ∧ cl ∈ flatKinds) (hk : ∀ t, (φ t).kind = t.kind) {cs : List Tree} (hne : cs ≠ [])
    (hC : Tree.Conforms (.node fn cs)) (hE : hasEmptyF cs = false) (hS : SrcOK (leavesF cs))
    (hv : scanParens op cl cs = false)
    (hEn : ∀ ds, .node .EnumList ds ∈ cs → containsKind .Description ds = false)
    {r r' : Regs} {q : Option Token} {p : Pend} {ess : List (List TEv)}
    (h : Steps (Fmt.body fn) cs cs 0 r q ess r') (hm : r.m = false) (hT : Track φ q p ess.flatten) :
    scanParens op cl (mapTrees φ cs) = false := by
  have hw := (area_word hA hC.1 (by simpa using hne)).1
  have hmid := checkG_sound (mids_ok _ hA rfl) hC.1
  rw [mapTrees_eq]
  rcases phW_zero hw with g | ⟨a, o, b, c, d, rfl, g1, g2, g3, g4, g5⟩
  · exact scanParens_noPar (g.map hk)
  · have hfold := mid_fold hoc g1 g2 g3 g4 hmid
    rw [scanParens_split g1 g2 g3 g4 g5, decide_eq_false_iff_not] at hv
    have hcs : a ++ .tok o :: (b ++ .tok c :: d) = a ++ ((.tok o :: (b ++ [.tok c])) ++ d) := by simp
    have hSm : SrcOK (leavesF (.tok o :: (b ++ [.tok c]))) := by
      refine hS.sub ?_
      rw [hcs, leavesF_app, leavesF_app]
      exact (List.sublist_append_left _ _).trans (List.sublist_append_right _ _)
    have hlv : leavesF (.tok o :: (b ++ [.tok c])) = o :: (leavesF b ++ [c]) := by
      simp [leavesF, Tree.leaves]
    have hl : OnLine o.start.line (leavesF (.tok o :: (b ++ [.tok c]))) := by
      rw [hlv] at hSm ⊢
      intro t ht
      have hb := hSm.between (y := c) (by rw [← List.cons_append, List.getLast?_append]; simp) t ht
      have h1 := hSm.lines t ht
      have h2 := hSm.lines c (by simp)
      have h3 := hSm.flat c (by simp) (g2 ▸ hf.2)
      omega
    have hcs' : a ++ ((.tok o :: (b ++ [.tok c])) ++ d) = a ++ .tok o :: (b ++ .tok c :: d) := hcs.symm
    have h' : Steps (Fmt.body fn) (a ++ .tok o :: (b ++ .tok c :: d)) (a ++ ((.tok o :: (b ++ [.tok c])) ++ d)) 0 r q
      ess r' := by rw [hcs']; exact h
    obtain ⟨ea, eb, r1, rfl, hm1, s2⟩ := noSetM_pre h' hfold.1
    rw [hm] at hm1
    have hmem : ∀ x ∈ .tok o :: (b ++ [.tok c]), x ∈ a ++ .tok o :: (b ++ .tok c :: d) := by
      intro x hx; rw [hcs]; exact List.mem_append_right _ (List.mem_append_left _ hx)
    obtain ⟨em, ed, rfl, hnb, htk⟩ := mid_pre s2 hfold.2 (l := o.start.line)
      (fun x hx => ⟨conformsF_mem hC.2 x (hmem x hx), hasEmptyF_mem hE x (hmem x hx),
        fun t ht => hl t (leaves_mem hx t ht), syms_complete hC.1 _ (List.mem_map_of_mem (hmem x hx))⟩)
      (fun ds hd => hEn ds (hmem _ hd)) hm1
    have hTm : Track φ (lastT q ea.flatten) (pendAfter p ea.flatten) em.flatten := by
      rw [List.flatten_append, List.flatten_append] at hT
      exact (Track.append.1 (Track.append.1 hT).2).1
    have hEm : hasEmptyF (.tok o :: (b ++ [.tok c])) = false := by
      have : ∀ xs : List Tree, (∀ x ∈ xs, x.hasEmpty = false) → hasEmptyF xs = false := by
        intro xs
        induction xs with
        | nil => intro _; rfl
        | cons x xs ih =>
          intro h
          simp only [hasEmptyF, h x (by simp), ih (fun y hy => h y (by simp [hy])), Bool.or_self]
      exact this _ (fun x hx => hasEmptyF_mem hE x (hmem x hx))
    have hs := hnb.single hTm (by simp) hEm htk (hSm.flat_of_line hl)
    have hmono := (hTm.mono.1 c (by rw [htk, hlv]; simp)).2
    have hend : endOf (.tok o :: (b ++ [.tok c])) = some c := by
      obtain ⟨y, h3, h4⟩ := endF_leaves (.tok o :: (b ++ [.tok c])) (by simp) hEm
      rw [h4, ← h3, hlv, ← List.cons_append, List.getLast?_append]
      simp
    simp only [isMultiline, startOf_map, endOf_map, hend, startOf, Tree.start?, Option.map_some, Res.ok.injEq,
      decide_eq_false_iff_not] at hs
    have hmp : (a ++ .tok o :: (b ++ .tok c :: d)).map (Tree.map φ) =
        a.map (Tree.map φ) ++ .tok (φ o) :: (b.map (Tree.map φ) ++ .tok (φ c) :: d.map (Tree.map φ)) := by
      simp [Tree.map]
    rw [hmp, scanParens_split (by rw [hk, g1]) (by rw [hk, g2]) (g3.map hk) (g4.map hk) (g5.map hk)]
    simp only [decide_eq_false_iff_not]
    omega

end Mofmt
