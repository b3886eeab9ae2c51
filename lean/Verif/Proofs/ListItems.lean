import Verif.Proofs.ListRun
/-
The items of lists.
-/
namespace Mofmt

/-! ### Lines -/

/-- tokens in source order -/
def InOrder (ts : List Token) : Prop :=
  ts.Pairwise (fun a b => a.stop.line ≤ b.start.line) ∧ ∀ t ∈ ts, t.start.line ≤ t.stop.line

theorem InOrder.part {a b c : List Token} (h : InOrder (a ++ b ++ c)) : InOrder b := by
  refine ⟨(List.pairwise_append.1 (List.pairwise_append.1 h.1).1).2.1, fun t ht => h.2 t (by simp [ht])⟩

theorem InOrder.head {x : Token} {xs : List Token} (h : InOrder (x :: xs)) : ∀ t ∈ x :: xs, x.start.line ≤ t.start.line := by
  intro t ht
  rcases List.mem_cons.1 ht with rfl | ht
  · exact Nat.le_refl _
  · have := List.rel_of_pairwise_cons h.1 ht
    have := h.2 x (by simp)
    omega

theorem InOrder.last {x : Token} {xs : List Token} (h : InOrder (xs ++ [x])) : ∀ t ∈ xs ++ [x], t.stop.line ≤ x.stop.line := by
  intro t ht
  rcases List.mem_append.1 ht with ht | ht
  · have := (List.pairwise_append.1 h.1).2.2 t ht x (by simp)
    have := h.2 x (by simp)
    omega
  · rw [List.mem_singleton.1 ht]
    exact Nat.le_refl _

theorem spans_of {cs : List Tree} (h : InOrder (leavesF cs)) {a b : Token} (ha : a ∈ leavesF cs) (hb : b ∈ leavesF cs)
    (hab : a.start.line < b.stop.line) : spansLines cs = true := by
  rw [spansLines]
  generalize leavesF cs = l at *
  cases hh : l.head? with
  | none => rw [List.head?_eq_none_iff] at hh; subst hh; cases ha
  | some x =>
    cases hl : l.getLast? with
    | none => rw [List.getLast?_eq_none_iff] at hl; subst hl; cases ha
    | some y =>
      obtain ⟨xs, rfl⟩ := List.head?_eq_some_iff.1 hh
      obtain ⟨ys, hy⟩ := List.getLast?_eq_some_iff.1 hl
      have h1 := h.head a ha
      rw [hy] at h hb
      have h2 := h.last b hb
      simp only [decide_eq_true_eq]
      omega

theorem spans_inv {cs : List Tree} (h : spansLines cs = true) : ∃ a ∈ leavesF cs, ∃ b ∈ leavesF cs, a.start.line < b.stop.line := by
  rw [spansLines] at h
  split at h
  · rename_i a b ha hb
    exact ⟨a, List.mem_of_head? ha, b, List.mem_of_getLast? hb, by simpa using h⟩
  · cases h

theorem lineOfTok_skip {t : Tok} : ∀ {pre : List Tree} (cs : List Tree), (∀ c ∈ pre, c.sym ≠ .t t) →
    lineOfTok t (pre ++ cs) = lineOfTok t cs
  | [], cs, _ => rfl
  | .node k ds :: pre, cs, h => by
    rw [List.cons_append, lineOfTok]
    exact lineOfTok_skip cs fun c hc => h c (by simp [hc])
  | .tok x :: pre, cs, h => by
    have : x.kind ≠ t := fun he => h (.tok x) (by simp) (by simp [Tree.sym, he])
    rw [List.cons_append, lineOfTok, if_neg this]
    exact lineOfTok_skip cs fun c hc => h c (by simp [hc])

theorem lineOfTok_here {t : Tok} {x : Token} {cs : List Tree} (h : x.kind = t) : lineOfTok t (.tok x :: cs) = some x.start.line := by
  rw [lineOfTok, if_pos h]

/-- brackets around something on several lines -/
theorem brackets_of {k : SK} {op cl : Tok} (hne : op ≠ cl) (ho : ∀ s, opensIn k s = true ↔ s = .t op) (hc : ∀ s, closesIn k s = true ↔ s = .t cl)
    {pre ins post : List Tree} {o c : Tree} (h1 : opensIn k o.sym = true) (h2 : closesIn k c.sym = true) (h3 : Plain k pre)
    (h4 : Plain k ins) (hO : InOrder (leavesF (pre ++ o :: (ins ++ c :: post)))) {a b : Token} (ha : a ∈ leavesF ins)
    (hb : b ∈ leavesF ins) (hab : a.start.line < b.stop.line) : bracketsApart op cl (pre ++ o :: (ins ++ c :: post)) = true := by
  have hp : ∀ {l}, Plain k l → ∀ x ∈ l, x.sym ≠ .t op ∧ x.sym ≠ .t cl := by
    intro l hl x hx
    constructor
    · intro he
      have := (hl x hx).1
      rw [(ho _).2 he] at this
      cases this
    · intro he
      have := (hl x hx).2
      rw [(hc _).2 he] at this
      cases this
  have h1 := (ho _).1 h1
  have h2 := (hc _).1 h2
  cases o with
  | node k cs => cases h1
  | tok o =>
  cases c with
  | node k cs => cases h2
  | tok c =>
  have h1 : o.kind = op := by cases h1; rfl
  have h2 : c.kind = cl := by cases h2; rfl
  rw [bracketsApart, lineOfTok_skip _ (fun x hx => (hp h3 x hx).1), lineOfTok_here h1, lineOfTok_skip _ (fun x hx => (hp h3 x hx).2),
    lineOfTok, if_neg (by rw [h1]; exact hne), lineOfTok_skip _ (fun x hx => (hp h4 x hx).2), lineOfTok_here h2]
  have hO' := hO.1
  simp only [leavesF_append, leavesF, Tree.leaves, List.singleton_append, List.pairwise_append, List.pairwise_cons, List.mem_cons, List.mem_append] at hO'
  have g1 := hO'.2.1.1 a (.inl ha)
  have g2 := hO'.2.1.2.2.2 b hb c (.inl rfl)
  have g3 := hO.2 o (by simp [leavesF_append, leavesF, Tree.leaves])
  simp only [decide_eq_true_eq]
  omega

/-- A list with a line break in it is wrapped. -/
theorem wrapped_of {k : SK} {cs : List Tree} (hC : Tree.Conforms (.node k cs)) (hO : InOrder (leavesF cs))
    (hk : k = .ComponentList → cs.length > 1) {a b : Token} (ha : a ∈ leavesF (inside k cs)) (hb : b ∈ leavesF (inside k cs))
    (hab : a.start.line < b.stop.line) : listWrapped k cs = true := by
  by_cases hk' : k = .ComponentList
  · subst hk'
    rw [inside, if_pos rfl] at ha hb
    simp [listWrapped, spans_of hO ha hb hab, hk rfl]
  · obtain ⟨hbr, pre, o, ins, c, post, rfl, h1, h2, h3, h4, h5, h6, h7⟩ := list_split hC hk' (by intro h; rw [h] at ha; cases ha)
    rw [h1] at ha hb
    have hs : spansLines (pre ++ o :: (ins ++ c :: post)) = true := by
      refine spans_of hO ?_ ?_ hab <;> simp [leavesF_append, leavesF, ha, hb]
    have hbk : ∀ op cl, op ≠ cl → (∀ s, opensIn k s = true ↔ s = .t op) → (∀ s, closesIn k s = true ↔ s = .t cl) →
        bracketsApart op cl (pre ++ o :: (ins ++ c :: post)) = true := fun op cl hne ho hc =>
      brackets_of hne ho hc h2 h3 h4 h5 hO ha hb hab
    have hopen : ∀ {s}, opensIn k s = true → ∃ t, s = .t t := by
      intro s h
      unfold opensIn at h
      split at h <;> first | exact ⟨_, rfl⟩ | cases h
    unfold bracketed at hbr
    split at hbr <;> first | cases hbr; done | skip
    all_goals first
      | exact hs
      | (simp only [listWrapped, hs, Bool.true_or]; done)
      | (simp only [listWrapped]
         refine (hbk _ _ (by decide) (fun s => ?_) fun s => ?_) <;>
          (cases s with
            | n j => simp [opensIn, closesIn]
            | t t => cases t <;> simp [opensIn, closesIn]))
      | (simp only [listWrapped, Bool.or_eq_true]
         refine .inl (hbk _ _ (by decide) (fun s => ?_) fun s => ?_) <;>
          (cases s with
            | n j => simp [opensIn, closesIn]
            | t t => cases t <;> simp [opensIn, closesIn]))

/-! ### Items -/

theorem itemsF_mem {it : Tree} : ∀ {cs : List Tree}, it ∈ itemsF cs → ∃ pre c post, cs = pre ++ c :: post ∧ it ∈ c.itemsIn
  | [], h => by simp [itemsF] at h
  | c :: cs, h => by
    rw [itemsF, List.mem_append] at h
    rcases h with h | h
    · exact ⟨[], c, cs, rfl, h⟩
    · obtain ⟨pre, c', post, rfl, h'⟩ := itemsF_mem h
      exact ⟨c :: pre, c', post, rfl, h'⟩

theorem itemsIn_contrib {it c : Tree} (h : it ∈ c.itemsIn) : contrib c.sym = true := by
  cases c with
  | tok t =>
    rw [Tree.itemsIn] at h
    split at h
    · rename_i hk
      simpa [contrib, Tree.sym] using hk
    · cases h
  | node k cs =>
    rw [Tree.itemsIn] at h
    by_cases hk : k = .ForIndices
    · subst hk; simp [listPart] at h
    · simp [contrib, Tree.sym, hk]

/-- `it` is somewhere in the tree, and it is decided to wrap before it iff `b` -/
def Put (tree : Tree) (b : Bool) (it : Tree) : Prop :=
  ∃ n w m d, At tree it n w m d ∧ DecOK b d ∧ quietSym it.sym = true

theorem items_tree {tree : Tree} {b : Bool} : ∀ (c : Tree) {n w m d}, c.Conforms → At tree c n w m d → DecOK b d → itemOk c.sym = true →
    (∀ k cs, c = .node k cs → listPart k = true → brokenIn k m cs = b) → ∀ it ∈ c.itemsIn, Put tree b it
  | .tok t, n, w, m, d, hC, hA, hd, _, _, it, hi => by
    rw [Tree.itemsIn] at hi
    split at hi
    · rw [List.mem_singleton.1 hi]
      exact ⟨n, w, m, d, hA, hd, rfl⟩
    · cases hi
  | .node k cs, n, w, m, d, hC, hA, hd, hok, hb, it, hi => by
    rw [Tree.itemsIn] at hi
    by_cases hk : listPart k = true
    · rw [if_pos hk] at hi
      obtain ⟨pre, c, post, hcs, hit⟩ := itemsF_mem hi
      have hb := hb k cs rfl hk
      have hmem : c ∈ cs := by rw [hcs]; simp
      have hcon := itemsIn_contrib hit
      have hsy := List.all_eq_true.1 (part_syms k hk) _ (syms_complete hC.1 c.sym (List.mem_map_of_mem hmem))
      simp only [hcon, Bool.not_true, Bool.false_or, Bool.and_eq_true] at hsy
      have hCc := conformsF_mem hC.2 c hmem
      have hlt : sizeOf c < sizeOf cs := List.sizeOf_lt_of_mem hmem
      subst hcs
      refine items_tree c hCc hA.child ?_ hsy.1 ?_ it hit
      · cases pre with
        | nil =>
          have h1 := hC.1
          rw [List.nil_append, List.map_cons] at h1
          have := allFacts_sound (List.all_eq_true.1 (part_first k hk) _ (first_complete h1))
          have hg : gapAt k m [] c post = .none := by simpa [gapAt] using this _
          rw [hg]
          simpa [Gap.at, Dec.or_none] using hd
        | cons x pre =>
          have hp : partOk k ((x :: pre).getLast (by simp)).sym c.sym = true := by
            have := checkG_sound (part_next k hk) hC.1
            rw [← List.dropLast_concat_getLast (l := x :: pre) (by simp)] at this
            simp only [List.map_append, List.map_cons, List.map_nil, List.append_assoc, List.singleton_append] at this
            exact adj_pair this
          simp only [partOk, hcon, Bool.not_true, Bool.false_or] at hp
          have := allFacts_sound hp
          simp only [List.isEmpty_cons, Bool.false_eq_true, if_false, Dec.or]
          refine wrapGap_ok ?_ _
          rw [gapAt, List.getLast?_eq_some_getLast (by simp : x :: pre ≠ [])]
          rw [← hb]
          exact this _
      · rintro j ds rfl hj
        have h := hsy.2
        simp only [Tree.sym, subOk, hj, Bool.not_true, Bool.false_or, Bool.and_eq_true] at h
        rw [plain_broken h.1, passedAt]
        have := h.2
        simp only [List.all_eq_true, beq_iff_eq] at this
        rw [← hb]
        exact this _ (mem_bools _) _ (mem_bools _) _ (mem_bools _)
    · rw [if_neg hk] at hi
      split at hi
      · cases hi
      · rw [List.mem_singleton.1 hi]
        refine ⟨n, w, m, d, hA, hd, ?_⟩
        simpa [itemOk, Tree.sym, hk, quietSym] using hok
termination_by c => sizeOf c
decreasing_by
  simp only [Tree.node.sizeOf_spec]
  omega

theorem part_broken {j : SK} (h : listPart j = true) (m : Bool) (cs : List Tree) :
    brokenIn j m cs = (m || (!plainPart j && spansLines cs)) := by
  unfold listPart at h
  split at h <;> first | (simp [brokenIn, plainPart]; done) | cases h

theorem broken_wrapped {k : SK} (hb : bracketed k = true) (hk : k ≠ .ShortClassSpecifier) {cs : List Tree} (hl : cs.length > 2) (m : Bool) :
    brokenIn k m cs = listWrapped k cs := by
  unfold bracketed at hb
  split at hb <;> first | rfl | (simp [brokenIn, listWrapped, hl]; done) | exact absurd rfl hk | cases hb

/-- the list of an enumeration -/
def enumOnly (p s : Sym) : Bool := (s != .n .EnumList || p == .t .LParen) && (p != .n .EnumList || s == .t .RParen)

theorem enum_adj : checkG (adjStep enumOnly) (fun st => st.2) (Gram.spec .ShortClassSpecifier) (none, true) = true := by
  decide +kernel

theorem enum_alone {cs pre ins post : List Tree} {o c : Tree} (hC : Tree.Conforms (.node .ShortClassSpecifier cs))
    (hcs : cs = pre ++ o :: (ins ++ c :: post)) (hp : Plain .ShortClassSpecifier ins) {i1 i2 : List Tree} {x : Tree}
    (hi : ins = i1 ++ x :: i2) (hx : x.sym = .n .EnumList) : ins = [x] := by
  have h := checkG_sound enum_adj hC.1
  have h1 : i1 = [] := by
    rcases List.eq_nil_or_concat i1 with h1 | ⟨i, y, rfl⟩
    · exact h1
    · have hm : y ∈ ins := by rw [hi]; simp
      have : enumOnly y.sym x.sym = true := by
        have e : cs.map Tree.sym = (pre ++ o :: i).map Tree.sym ++ y.sym :: x.sym :: (i2 ++ c :: post).map Tree.sym := by
          rw [hcs, hi]; simp
        rw [e] at h
        exact adj_pair h
      simp only [enumOnly, hx, Bool.and_eq_true, Bool.or_eq_true] at this
      rcases this.1 with h | h
      · simp at h
      · have := (hp y hm).1
        rw [beq_iff_eq.1 h] at this
        cases this
  have h2 : i2 = [] := by
    cases i2 with
    | nil => rfl
    | cons y i =>
      have hm : y ∈ ins := by rw [hi]; simp
      have : enumOnly x.sym y.sym = true := by
        have e : cs.map Tree.sym = (pre ++ o :: i1).map Tree.sym ++ x.sym :: y.sym :: (i ++ c :: post).map Tree.sym := by
          rw [hcs, hi]; simp
        rw [e] at h
        exact adj_pair h
      simp only [enumOnly, hx, Bool.and_eq_true, Bool.or_eq_true] at this
      rcases this.2 with h | h
      · simp at h
      · have := (hp y hm).2
        rw [beq_iff_eq.1 h] at this
        cases this
  rw [hi, h1, h2]
  rfl

theorem occurs_single (c : Tree) {j : SK} (h : c.sym ≠ .n j) : occursF j [c] = occursF j c.kids := by
  cases c with
  | tok t => simp [occursF, Tree.occurs, Tree.kids]
  | node k cs =>
    have : k ≠ j := fun he => h (by simp [Tree.sym, he])
    simp [occursF, Tree.occurs, Tree.kids, this]

/-- a child between the brackets -/
theorem bracket_child {tree : Tree} {k : SK} {cs : List Tree} {n w m d} (hA : At tree (.node k cs) n w m d)
    (hC : Tree.Conforms (.node k cs)) (hbr : bracketed k = true)
    {pre ins post : List Tree} {o c : Tree} (hcs : cs = pre ++ o :: (ins ++ c :: post)) (hins : inside k cs = ins) (hP : Plain k ins)
    {i1 i2 : List Tree} {x : Tree} (hi : ins = i1 ++ x :: i2) (hcon : contrib x.sym = true)
    (hok : inOk k ((i1.getLast?.map Tree.sym).getD o.sym) x.sym = true) :
    itemOk x.sym = true ∧ (k ≠ .Primary ∨ quietSym x.sym = true) ∧ ∃ n w m d, At tree x n w m d ∧ DecOK (listWrapped k cs) d ∧
      (∀ j ds, x = .node j ds → listPart j = true → (k = .Primary → cs.length ≤ 3) → m = listWrapped k cs) := by
  simp only [inOk, hcon, Bool.not_true, Bool.false_or, Bool.and_eq_true] at hok
  obtain ⟨⟨⟨h1, h2⟩, h3⟩, h4⟩ := hok
  have hlen : cs.length > 2 := by
    rw [hcs, hi]
    simp
    omega
  have hcs' : cs = (pre ++ o :: i1) ++ x :: (i2 ++ c :: post) := by rw [hcs, hi]; simp
  have hlast : (pre ++ o :: i1).getLast?.map Tree.sym = some ((i1.getLast?.map Tree.sym).getD o.sym) := by
    rcases List.eq_nil_or_concat i1 with rfl | ⟨i, y, rfl⟩
    · simp
    · have : pre ++ o :: i.concat y = (pre ++ o :: i) ++ [y] := by simp
      rw [this, List.getLast?_concat, List.concat_eq_append, List.getLast?_concat]
      rfl
  have hpass : k = .ShortClassSpecifier → passedAt k m (pre ++ o :: i1) x (i2 ++ c :: post) = listWrapped k cs := by
    rintro rfl
    have hx : x.sym = .n .EnumList := by
      cases hxs : x.sym with
      | t t => rw [hxs] at h2; cases h2
      | n j =>
        rw [hxs] at h2
        simp only [subIn, if_pos, beq_iff_eq] at h2
        rw [h2]
    have := enum_alone hC hcs hP hi hx
    rw [passedAt, hx, passedIn, ← hcs', listWrapped, hins, this, occurs_single x (by rw [hx]; intro h; cases h)]
    rfl
  have hpart : ∀ j ds, x = .node j ds → listPart j = true → (k = .Primary → cs.length ≤ 3) →
      passedAt k m (pre ++ o :: i1) x (i2 ++ c :: post) = listWrapped k cs := by
    rintro j ds rfl hj hl
    by_cases hk : k = .ShortClassSpecifier
    · exact hpass hk
    · simp only [Tree.sym, subIn, if_neg hk, hj, Bool.not_true, Bool.false_or, List.all_eq_true, beq_iff_eq] at h2
      have := h2 (brokenIn k m cs) (mem_bools _) (occursF .Description ds) (mem_bools _) (cs.length == 3) (mem_bools _)
      rw [passedAt, ← hcs', Tree.sym]
      simp only [Tree.kids]
      rw [this, broken_wrapped hbr hk hlen]
      by_cases hp : k = .Primary
      · have : (cs.length == 3) = true := by
          have := hl hp
          simp
          omega
        simp [this]
      · simp [hp]
  subst hcs'
  refine ⟨h1, ?_, _, _, _, _, hA.child, ?_, hpart⟩
  · by_cases hp : k = .Primary
    · subst hp
      exact .inr (by simpa using h3)
    · exact .inl hp
  · have hne : (pre ++ o :: i1).isEmpty = false := by simp
    rw [hne]
    simp only [Bool.false_eq_true, if_false, Dec.or]
    refine wrapGap_ok ?_ _
    have := allFacts_sound h4
    rw [gapAt, hlast]
    by_cases hk : k = .ShortClassSpecifier
    · rw [← hpass hk]
      simp only [wrapFact, if_pos hk] at this
      exact this _
    · rw [← broken_wrapped hbr hk hlen m]
      simp only [wrapFact, if_neg hk] at this
      exact this _

/-! ### Lists of components -/

def compOnly (p s : Sym) : Bool := s != .n .ComponentList || allFacts fun f => gapIn .ComponentClause (some p) s f == .none

theorem comp_adj : checkG (adjStep compOnly) (fun st => st.2) (Gram.spec .ComponentClause) (none, true) = true := by
  decide +kernel

theorem comp_first : (Gram.spec .ComponentClause).first.all (fun s => s != .n .ComponentList) = true := by decide +kernel

theorem comp_parent : ∀ k, .n .ComponentList ∈ (Gram.spec k).syms → k = .ComponentClause := by
  intro k; cases k <;> first | (intro _; rfl) | (intro h; exact absurd h (by decide))

theorem comp_dec {tree : Tree} (hT : tree.sym = .n .StoredDefinition) (hCt : tree.Conforms) {cs : List Tree} {n w m d}
    (hA : At tree (.node .ComponentList cs) n w m d) : d = .none := by
  generalize hs : Tree.node .ComponentList cs = s at hA
  cases hA with
  | root => subst hs; cases hT
  | @child k pre c post n w m d hA =>
    have hC := hA.part.conforms hCt
    have hsym : s.sym = .n .ComponentList := by rw [← hs]; rfl
    have hk := comp_parent k (hsym ▸ syms_complete hC.1 s.sym (List.mem_map_of_mem (by simp)))
    subst hk
    rcases List.eq_nil_or_concat pre with rfl | ⟨pre, p, rfl⟩
    · have h1 := hC.1
      rw [List.nil_append, List.map_cons] at h1
      have := List.all_eq_true.1 comp_first _ (first_complete h1)
      rw [hsym] at this
      cases this
    · have := checkG_sound comp_adj hC.1
      simp only [List.concat_eq_append, List.map_append, List.map_cons, List.append_assoc, List.singleton_append] at this
      have := adj_pair this
      simp only [compOnly, hsym, bne_self_eq_false, Bool.false_or] at this
      have := allFacts_sound this
      have hg : gapAt .ComponentClause m (pre.concat p) s post = .none := by
        rw [gapAt, hsym]
        simp only [List.concat_eq_append, List.getLast?_append, List.getLast?_singleton, Option.some_or, Option.map_some]
        simpa using this _
      rw [hg]
      simp [Gap.at, Dec.or]

theorem comp_gap (p : Option Sym) (f : Facts) : gapIn .ComponentList p (.n .ComponentDeclaration) f = breakOrSpace f.broken := rfl

theorem comp_syms : (Gram.spec .ComponentList).syms.all (fun s => !contrib s || s == .n .ComponentDeclaration) = true := by decide +kernel

theorem comp_items {tree : Tree} (hT : tree.sym = .n .StoredDefinition) (hCt : tree.Conforms) {cs : List Tree} {n w m d}
    (hA : At tree (.node .ComponentList cs) n w m d) {it : Tree} (hi : it ∈ itemsF cs) : Put tree (listWrapped .ComponentList cs) it := by
  have hd := comp_dec hT hCt hA
  have hC := hA.part.conforms hCt
  obtain ⟨pre, c, post, rfl, hit⟩ := itemsF_mem hi
  have hs := List.all_eq_true.1 comp_syms _ (syms_complete hC.1 c.sym (List.mem_map_of_mem (by simp)))
  simp only [itemsIn_contrib hit, Bool.not_true, Bool.false_or, beq_iff_eq] at hs
  refine items_tree c (conformsF_mem hC.2 c (by simp)) hA.child ?_ (by rw [hs]; rfl) ?_ it hit
  · have hg : gapAt .ComponentList m pre c post = breakOrSpace (brokenIn .ComponentList m (pre ++ c :: post)) := by
      rw [gapAt, hs, comp_gap]
    rw [hd, ite_self, Dec.or, hg]
    exact wrapGap_ok (by simp [wrapGap, brokenIn, listWrapped]) _
  · rintro j ds rfl hj
    cases hs
    cases hj

/-- Where the items of a list stand. -/
theorem list_items {tree : Tree} (hT : tree.sym = .n .StoredDefinition) (hCt : tree.Conforms) {k : SK} {cs : List Tree} {n w m d}
    (hA : At tree (.node k cs) n w m d) (hO : InOrder (leavesF cs)) {it : Tree} (hi : it ∈ listItems k cs) :
    Put tree (listWrapped k cs) it := by
  have hC := hA.part.conforms hCt
  by_cases hk : k = .ComponentList
  · subst hk
    rw [listItems, if_neg (by simp), inside, if_pos rfl] at hi
    exact comp_items hT hCt hA hi
  have hne : inside k cs ≠ [] := by
    intro h
    rw [listItems, h] at hi
    split at hi <;> simp [itemsF] at hi
  obtain ⟨hbr, pre, o, ins, c, post, hcs, h1, h2, h3, h4, h5, h6, h7⟩ := list_split hC hk hne
  rw [listItems, h1] at hi
  split at hi
  · rename_i hp
    obtain ⟨hm, hnode⟩ := List.mem_filter.1 hi
    obtain ⟨i1, i2, hi⟩ := List.append_of_mem hm
    have hmc : it ∈ cs := by rw [hcs]; simp [hm]
    have hcon : contrib it.sym = true := by
      have hs := syms_complete hC.1 it.sym (List.mem_map_of_mem hmc)
      rw [hp.1] at hs
      cases it with
      | tok t => cases hnode
      | node j ds =>
        have : (Gram.spec .Primary).syms.all (fun s => match s with | .t _ => true | .n j => contrib (.n j)) = true := by decide +kernel
        exact List.all_eq_true.1 this _ hs
    obtain ⟨_, g2, n', w', m', d', g3, g4, _⟩ := bracket_child hA hC hbr hcs h1 h5 hi hcon (h7 _ _ _ hi)
    exact ⟨n', w', m', d', g3, g4, g2.resolve_left (fun h => h hp.1)⟩
  · rename_i hp
    obtain ⟨i1, x, i2, hi, hit⟩ := itemsF_mem hi
    obtain ⟨g1, _, n', w', m', d', g3, g4, g5⟩ := bracket_child hA hC hbr hcs h1 h5 hi (itemsIn_contrib hit) (h7 _ _ _ hi)
    refine items_tree x (conformsF_mem hC.2 x (by rw [hcs, hi]; simp)) g3 g4 g1 ?_ it hit
    intro j ds hx hj
    have hm := g5 j ds hx hj (fun h => by
      have : ¬ cs.length > 3 := fun h' => hp ⟨h, h'⟩
      omega)
    rw [part_broken hj, hm]
    cases hw : listWrapped k cs
    · cases hs : spansLines ds
      · simp
      · obtain ⟨a, ha, b, hb, hab⟩ := spans_inv hs
        have hsub : ∀ t ∈ leavesF ds, t ∈ leavesF (inside k cs) := by
          intro t ht
          rw [h1, hi, hx]
          simp [leavesF_append, leavesF, Tree.leaves, ht]
        rw [wrapped_of hC hO (fun h => absurd h hk) (hsub a ha) (hsub b hb) hab] at hw
        cases hw
    · rfl

end Mofmt
