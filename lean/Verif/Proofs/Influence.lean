import Verif.Proofs.Multi
/-
The variable `is_multiline` over the loop of a formatting function.
-/
namespace Mofmt
open Lexical (newlines)

theorem envOK {all rest : List Tree} {c : Tree} {idx : Nat} (v : Option Bool) :
    EnvOK ⟨(rest.map Tree.sym).head?, min idx 4, min all.length 4, v⟩ { all, cur := some c, idx, rest } :=
  ⟨by cases rest <;> rfl, rfl, rfl⟩

/-- Without influence the variable can be changed. -/
theorem steps_indep {fn : SK} {all : List Tree} (x : Bool) : ∀ {cs : List Tree} {idx : Nat} {r r' : Regs}
    {q : Option Token} {ess : List (List TEv)} {v : Option Bool}, Steps (Fmt.body fn) all cs idx r q ess r' →
    indW fn (min all.length 4) idx v (cs.map Tree.sym) = true → (∀ b, v = some b → r.c = b) →
    Steps (Fmt.body fn) all cs idx (r.withM x) q ess (r'.withM x)
  | [], idx, r, r', q, ess, v, h, _, _ => by cases h; exact .nil _ _ _
  | c :: rest, idx, r, r', q, ess, v, h, hi, hv => by
    cases h with
    | cons h1 h2 =>
    simp only [List.map_cons, indW, Bool.and_eq_true] at hi
    exact .cons (indep_sound x (envOK v) hv hi.1 h1)
      (steps_indep x h2 hi.2 (after_sound (e := ⟨_, _, _, v⟩) (envOK v) hv h1))

/-- With a break there is one in the events of some child. -/
theorem steps_hot {A : Area} {fn : SK} {all : List Tree} : ∀ {cs : List Tree} {idx ph : Nat} {r r' : Regs}
    {q : Option Token} {ess : List (List TEv)} {v : Option Bool}, Steps (Fmt.body fn) all cs idx r q ess r' →
    hotsW A fn (min all.length 4) idx ph v (cs.map Tree.sym) = true → (∀ b, v = some b → r.c = b) → r.m = true →
    (∀ c ∈ cs, Printed c) → (∀ c ∈ cs, c.leaves ≠ []) →
    ∃ pre c post ea e eb, cs = pre ++ c :: post ∧ ess = ea ++ e :: eb ∧ ea.length = pre.length ∧
      ∃ a t b d, e = a ++ .brk t b :: d ∧
        ((A.span (phW A ph (pre.map Tree.sym)) (min (idx + pre.length) 4) (post.map Tree.sym).head? c.sym).bef = true ∨
          ((A.span (phW A ph (pre.map Tree.sym)) (min (idx + pre.length) 4) (post.map Tree.sym).head? c.sym).self = true
            ∧ toks a ≠ [])) ∧
        ((A.span (phW A ph (pre.map Tree.sym)) (min (idx + pre.length) 4) (post.map Tree.sym).head? c.sym).aft = true ∨
          ((A.span (phW A ph (pre.map Tree.sym)) (min (idx + pre.length) 4) (post.map Tree.sym).head? c.sym).fin = true
            ∧ toks a = []))
  | [], idx, ph, r, r', q, ess, v, h, hh, _, _, _, _ => by simp [hotsW] at hh
  | c :: rest, idx, ph, r, r', q, ess, v, h, hh, hv, hm, hp, hl => by
    cases h with
    | @cons _ _ _ _ _ r1 e ess _ h1 h2 =>
    simp only [List.map_cons, hotsW, Bool.or_eq_true, Bool.and_eq_true] at hh
    rcases hh with hh | ⟨hk, hh⟩
    · obtain ⟨a, t, b, d, rfl, g1, g2⟩ := hot_sound rfl (hl c List.mem_cons_self)
        (hp c List.mem_cons_self) (envOK v) hv hh hm h1
      refine ⟨[], c, rest, [], _, ess, rfl, rfl, rfl, a, t, b, d, rfl, ?_, ?_⟩
      · simpa [phW] using g1
      · simpa [phW] using g2
    · obtain ⟨pre, c', post, ea, e', eb, rfl, rfl, g1, g2⟩ := steps_hot h2 hh
        (after_sound (e := ⟨_, _, _, v⟩) (envOK v) hv h1) (keepsM_sound (envOK v) hv hk hm h1)
        (fun c hc => hp c (List.mem_cons_of_mem _ hc)) (fun c hc => hl c (List.mem_cons_of_mem _ hc))
      refine ⟨c :: pre, c', post, e :: ea, e', eb, rfl, rfl, by simp [g1], ?_⟩
      have hi : idx + (c :: pre).length = idx + 1 + pre.length := by simp only [List.length_cons]; omega
      rw [hi]
      exact g2

/-! ### The whole tree -/

theorem leaves_ne {c : Tree} (h : c.hasEmpty = false) : c.leaves ≠ [] := by
  obtain ⟨x, xs, h1, _⟩ := start_leaves c h
  simp [h1]

theorem hasEmptyF_mem {cs : List Tree} (h : hasEmptyF cs = false) : ∀ c ∈ cs, c.hasEmpty = false := by
  induction cs with
  | nil => intro c hc; cases hc
  | cons d cs ih =>
    simp only [hasEmptyF, Bool.or_eq_false_iff] at h
    intro c hc
    rcases List.mem_cons.mp hc with rfl | hc
    · exact h.1
    · exact ih h.2 c hc

theorem conformsF_mem {cs : List Tree} (h : ConformsF cs) : ∀ c ∈ cs, c.Conforms := by
  induction cs with
  | nil => intro c hc; cases hc
  | cons d cs ih =>
    intro c hc
    rcases List.mem_cons.mp hc with rfl | hc
    · exact h.1
    · exact ih h.2 c hc

/-- the events of the children of a conforming tree -/
theorem steps_toks_eq {fn : SK} {cs : List Tree} (hC : Tree.Conforms (.node fn cs)) {r r' : Regs}
    {q : Option Token} {ess : List (List TEv)} (h : Steps (Fmt.body fn) cs cs 0 r q ess r') :
    ess.map Mofmt.toks = cs.map Tree.leaves :=
  h.toks (fun c hc => once_all _ _ (syms_complete hC.1 _ (List.mem_map_of_mem hc))) (printedF cs hC.2)

theorem steps_toks_flat {fn : SK} {cs : List Tree} (hC : Tree.Conforms (.node fn cs)) {r r' : Regs}
    {q : Option Token} {ess : List (List TEv)} (h : Steps (Fmt.body fn) cs cs 0 r q ess r') :
    Mofmt.toks ess.flatten = leavesF cs := by
  rw [toks_flatten, steps_toks_eq hC h, leavesF_flatten]

/-- a break with tokens before and after it -/
def Interior (es : List TEv) : Prop := ∃ a t b d, es = a ++ .brk t b :: d ∧ toks a ≠ [] ∧ toks d ≠ []

theorem steps_interior {fn : SK} {cs : List Tree} (hC : Tree.Conforms (.node fn cs))
    (hE : hasEmptyF cs = false) {r r' : Regs} {q : Option Token} {ess : List (List TEv)}
    (h : Steps (Fmt.body fn) cs cs 0 r q ess r')
    (hh : hotsW .whole fn (min cs.length 4) 0 0 none (cs.map Tree.sym) = true) (hm : r.m = true) :
    Interior ess.flatten := by
  have ht := steps_toks_eq hC h
  have hl : ∀ c ∈ cs, c.leaves ≠ [] := fun c hc => leaves_ne (hasEmptyF_mem hE c hc)
  obtain ⟨pre, c, post, ea, e, eb, rfl, rfl, hlen, a, t, b, d, rfl, g1, g2⟩ :=
    steps_hot h hh (by simp) hm (printedF _ hC.2) hl
  simp only [List.map_append, List.map_cons] at ht
  have hi := List.append_inj ht (by simp [hlen])
  simp only [List.cons.injEq] at hi
  obtain ⟨i1, i2, i3⟩ := hi
  refine ⟨ea.flatten ++ a, t, b, d ++ eb.flatten, by simp, ?_, ?_⟩
  · rw [toks_append]
    rcases g1 with g1 | g1
    · simp only [Area.span, decide_eq_true_eq] at g1
      cases pre with
      | nil => simp at g1
      | cons x pre =>
        have : toks ea.flatten ≠ [] := by
          rw [toks_flatten, i1]
          simp [hl x (by simp)]
        simp [this]
    · simp [g1.2]
  · rw [toks_append]
    rcases g2 with g2 | g2
    · simp only [Area.span] at g2
      cases post with
      | nil => simp at g2
      | cons x post =>
        have : toks eb.flatten ≠ [] := by
          rw [toks_flatten, i3]
          simp [hl x (by simp)]
        simp [this]
    · rw [toks_append, g2.2, List.nil_append] at i2
      have : toks d ≠ [] := by
        intro hd
        simp only [toks] at i2
        exact hl c (by simp) (by rw [← i2, hd])
      simp [this]

variable {φ : Token → Token}

/-- a break inside puts the first and the last token on different lines -/
theorem Interior.multi {es : List TEv} (h : Interior es) {q : Option Token} {p : Pend} (hT : Track φ q p es)
    {cs : List Tree} (hne : cs ≠ []) (hE : hasEmptyF cs = false) (ht : toks es = leavesF cs) :
    isMultiline (mapTrees φ cs) = .ok true := by
  obtain ⟨a, t, b, d, rfl, ha, hd⟩ := h
  obtain ⟨x, xs, h1, h2⟩ := startF_leaves cs hne hE
  obtain ⟨y, h3, h4⟩ := endF_leaves cs hne hE
  rw [toks_append] at ht
  simp only [toks] at ht
  have hx : x ∈ toks a := by
    cases hta : toks a with
    | nil => exact absurd hta ha
    | cons z zs =>
      rw [hta, h1] at ht
      simp only [List.cons_append, List.cons.injEq] at ht
      simp [ht.1]
  have hy : y ∈ toks d := by
    rw [← ht, List.getLast?_append] at h3
    cases htd : (toks d).getLast? with
    | none => exact absurd (List.getLast?_eq_none_iff.mp htd) hd
    | some z =>
      rw [htd] at h3
      simp only [Option.some_or, Option.some.injEq] at h3
      rw [← h3]
      exact List.mem_of_getLast? htd
  have g1 := hT.split hx hy
  have g2 := (hT.mono.1 x (by rw [toks_append]; exact List.mem_append_left _ hx)).2
  have g3 := (hT.mono.1 y (by rw [toks_append]; simp [toks, hy])).2
  simp only [isMultiline, startOf_map, endOf_map, h2, h4, Option.map_some, Res.ok.injEq, decide_eq_true_eq]
  omega

/-- no break keeps the tokens on one line -/
theorem NoBrk.single {es : List TEv} (h : NoBrk es) {q : Option Token} {p : Pend} (hT : Track φ q p es)
    {cs : List Tree} (hne : cs ≠ []) (hE : hasEmptyF cs = false) (ht : toks es = leavesF cs)
    (hn : ∀ t ∈ leavesF cs, newlines t.text = 0) :
    isMultiline (mapTrees φ cs) = .ok false := by
  obtain ⟨x, xs, h1, h2⟩ := startF_leaves cs hne hE
  obtain ⟨y, h3, h4⟩ := endF_leaves cs hne hE
  have key : ∀ {es : List TEv} {q : Option Token} {p : Pend}, Track φ q p es → NoBrk es →
      (∀ t ∈ toks es, newlines t.text = 0) → ∀ x xs, toks es = x :: xs → ∀ y ∈ toks es,
      (φ y).stop.line = (φ x).start.line := by
    intro es
    induction es with
    | nil => intro q p _ _ _ x xs h; simp [toks] at h
    | cons e es ih =>
      intro q p hT hn ht x xs h y hy
      have hn' : NoBrk es := NoBrk.right (a := [e]) (b := es) hn
      cases e with
      | tok t =>
        obtain ⟨t1, t2, t3⟩ := hT
        simp only [toks, List.mem_cons, forall_eq_or_imp, List.cons.injEq] at ht h hy
        obtain ⟨rfl, rfl⟩ := h
        have i := (t3.flat (by simp) hn' ht.2).1
        have h5 : lineOf ((some t).map φ) = (φ t).stop.line := rfl
        rcases hy with rfl | hy
        · omega
        · have := i y hy; omega
      | space => exact ih hT.2 hn' ht x xs h y hy
      | brk t b => exact absurd List.mem_cons_self (hn t b)
      | indent => exact ih hT hn' ht x xs h y hy
      | dedent => exact ih hT hn' ht x xs h y hy
  have := key hT h (by rw [ht]; exact hn) x xs (by rw [ht, h1]) y (by rw [ht]; exact List.mem_of_getLast? h3)
  simp only [isMultiline, startOf_map, endOf_map, h2, h4, Option.map_some, this]
  simp

/-! ### Parentheses -/

def NoPar (op cl : Tok) (cs : List Tree) : Prop := ∀ t, Tree.tok t ∈ cs → t.kind ≠ op ∧ t.kind ≠ cl

theorem phW_three {op cl : Tok} : ∀ w, phW (.paren op cl) 3 w = 3
  | [] => rfl
  | s :: w => by
    have : Area.next (.paren op cl) 3 s = 3 := by simp [Area.next]
    rw [phW, this, phW_three w]

theorem phW_two {op cl : Tok} : ∀ {cs : List Tree}, phW (.paren op cl) 2 (cs.map Tree.sym) = 0 ∨
    phW (.paren op cl) 2 (cs.map Tree.sym) = 2 → NoPar op cl cs
  | [], _ => by intro t ht; cases ht
  | c :: cs, h => by
    simp only [List.map_cons, phW, Area.next] at h
    split at h
    · simp [phW_three] at h
    · split at h
      · simp [phW_three] at h
      · rename_i h1 h2
        intro t ht
        rcases List.mem_cons.mp ht with rfl | ht
        · exact ⟨fun h => h1 (by simp [Tree.sym, h]), fun h => h2 (by simp [Tree.sym, h])⟩
        · exact phW_two h t ht

theorem phW_one {op cl : Tok} : ∀ {cs : List Tree}, phW (.paren op cl) 1 (cs.map Tree.sym) = 0 ∨
    phW (.paren op cl) 1 (cs.map Tree.sym) = 2 →
    ∃ b c d, cs = b ++ .tok c :: d ∧ c.kind = cl ∧ NoPar op cl b ∧ NoPar op cl d
  | [], h => by simp [phW] at h
  | c :: cs, h => by
    simp only [List.map_cons, phW, Area.next] at h
    split at h
    · simp [phW_three] at h
    · rename_i h1
      split at h
      · rename_i h2
        cases c with
        | node k ds => simp [Tree.sym] at h2
        | tok t =>
          refine ⟨[], t, cs, rfl, by simpa [Tree.sym] using h2, by (intro t ht; cases ht), phW_two (by simpa using h)⟩
      · rename_i h2
        obtain ⟨b, x, d, rfl, g1, g2, g3⟩ := phW_one h
        refine ⟨c :: b, x, d, rfl, g1, ?_, g3⟩
        intro t ht
        rcases List.mem_cons.mp ht with rfl | ht
        · exact ⟨fun h => h1 (by simp [Tree.sym, h]), fun h => h2 (by simp [Tree.sym, h])⟩
        · exact g2 t ht

theorem phW_zero {op cl : Tok} : ∀ {cs : List Tree}, phW (.paren op cl) 0 (cs.map Tree.sym) = 0 ∨
    phW (.paren op cl) 0 (cs.map Tree.sym) = 2 →
    NoPar op cl cs ∨ ∃ a o b c d, cs = a ++ .tok o :: (b ++ .tok c :: d) ∧ o.kind = op ∧ c.kind = cl ∧
      NoPar op cl a ∧ NoPar op cl b ∧ NoPar op cl d
  | [], h => by left; intro t ht; cases ht
  | c :: cs, h => by
    simp only [List.map_cons, phW, Area.next] at h
    split at h
    · rename_i h1
      cases c with
      | node k ds => simp [Tree.sym] at h1
      | tok t =>
        obtain ⟨b, x, d, rfl, g1, g2, g3⟩ := phW_one (by simpa using h)
        exact .inr ⟨[], t, b, x, d, rfl, by simpa [Tree.sym] using h1, g1, by (intro t ht; cases ht), g2, g3⟩
    · rename_i h1
      split at h
      · simp [phW_three] at h
      · rename_i h2
        have hn : ∀ t, c = .tok t → t.kind ≠ op ∧ t.kind ≠ cl := by
          rintro t rfl
          exact ⟨fun h => h1 (by simp [Tree.sym, h]), fun h => h2 (by simp [Tree.sym, h])⟩
        rcases phW_zero h with g | ⟨a, o, b, x, d, rfl, g1, g2, g3, g4, g5⟩
        · left
          intro t ht
          rcases List.mem_cons.mp ht with rfl | ht
          · exact hn t rfl
          · exact g t ht
        · refine .inr ⟨c :: a, o, b, x, d, rfl, g1, g2, ?_, g4, g5⟩
          intro t ht
          rcases List.mem_cons.mp ht with rfl | ht
          · exact hn t rfl
          · exact g3 t ht

theorem NoPar.tail {op cl : Tok} {c : Tree} {cs : List Tree} (h : NoPar op cl (c :: cs)) : NoPar op cl cs :=
  fun t ht => h t (List.mem_cons_of_mem _ ht)

theorem scanClose_noPar {op cl : Tok} {l : Nat} : ∀ {cs ds : List Tree} {b : Bool}, NoPar op cl cs →
    scanClose cl l (cs ++ ds) b = scanClose cl l ds b
  | [], _, _, _ => rfl
  | .tok t :: cs, ds, b, h => by
    simp only [List.cons_append, scanClose, (h t (by simp)).2, if_false, scanClose_noPar h.tail]
  | .node k es :: cs, ds, b, h => by simp only [List.cons_append, scanClose, scanClose_noPar h.tail]

theorem scanParens_skip {op cl : Tok} : ∀ {cs ds : List Tree}, NoPar op cl cs →
    scanParens op cl (cs ++ ds) = scanParens op cl ds
  | [], _, _ => rfl
  | .tok t :: cs, ds, h => by
    simp only [List.cons_append, scanParens, (h t (by simp)).1, if_false, scanParens_skip h.tail]
  | .node k es :: cs, ds, h => by simp only [List.cons_append, scanParens, scanParens_skip h.tail]

theorem scanParens_noPar {op cl : Tok} {cs : List Tree} (h : NoPar op cl cs) : scanParens op cl cs = false := by
  have := scanParens_skip (ds := []) h
  simpa [scanParens] using this

theorem scanParens_split {op cl : Tok} {a b d : List Tree} {o c : Token} (ho : o.kind = op) (hc : c.kind = cl)
    (ha : NoPar op cl a) (hb : NoPar op cl b) (hd : NoPar op cl d) :
    scanParens op cl (a ++ .tok o :: (b ++ .tok c :: d)) = decide (c.start.line > o.start.line) := by
  rw [scanParens_skip ha]
  simp only [scanParens, ho, if_true]
  rw [scanClose_noPar hb]
  simp only [scanClose, hc, if_true]
  have := scanClose_noPar (l := o.start.line) (ds := []) (b := decide (c.start.line > o.start.line)) hd
  simpa [scanClose] using this

theorem NoPar.map {op cl : Tok} (hk : ∀ t, (φ t).kind = t.kind) {cs : List Tree} (h : NoPar op cl cs) :
    NoPar op cl (cs.map (Tree.map φ)) := by
  intro t ht
  obtain ⟨c, hc, he⟩ := List.mem_map.mp ht
  cases c with
  | node k ds => simp [Tree.map] at he
  | tok u =>
    simp only [Tree.map, Tree.tok.injEq] at he
    subst he
    rw [hk]
    exact h u hc

/-- the children up to a position have not reached the opening token, or are between the parentheses -/
theorem phW_append (A : Area) : ∀ (u v : List Sym) (ph : Nat), phW A ph (u ++ v) = phW A (phW A ph u) v
  | [], _, _ => rfl
  | s :: u, v, ph => by simp only [List.cons_append, phW, phW_append A u v]

theorem phW_pre_one {op cl : Tok} : ∀ {cs : List Tree} {ph : Nat}, ph = 0 →
    phW (.paren op cl) ph (cs.map Tree.sym) = 1 → ∃ o, Tree.tok o ∈ cs ∧ o.kind = op
  | [], ph, h0, h => by subst h0; simp [phW] at h
  | c :: cs, ph, h0, h => by
    subst h0
    simp only [List.map_cons, phW, Area.next] at h
    split at h
    · rename_i h1
      cases c with
      | node k ds => simp [Tree.sym] at h1
      | tok t => exact ⟨t, by simp, by simpa [Tree.sym] using h1⟩
    · split at h
      · simp [phW_three] at h
      · obtain ⟨o, h1, h2⟩ := phW_pre_one rfl h
        exact ⟨o, List.mem_cons_of_mem _ h1, h2⟩

/-- With a break in the parentheses the closing one is on a later line. -/
theorem steps_parens {fn : SK} {op cl : Tok} {cs : List Tree} (hC : Tree.Conforms (.node fn cs))
    (hE : hasEmptyF cs = false) {r r' : Regs} {q : Option Token} {ess : List (List TEv)}
    (h : Steps (Fmt.body fn) cs cs 0 r q ess r')
    (hh : hotsW (.paren op cl) fn (min cs.length 4) 0 0 none (cs.map Tree.sym) = true) (hm : r.m = true)
    (hw : phW (.paren op cl) 0 (cs.map Tree.sym) = 0 ∨ phW (.paren op cl) 0 (cs.map Tree.sym) = 2)
    {p : Pend} (hT : Track φ q p ess.flatten) :
    ∃ o c, Tree.tok o ∈ cs ∧ Tree.tok c ∈ cs ∧ o.kind = op ∧ c.kind = cl ∧ (φ o).start.line < (φ c).start.line := by
  have ht := steps_toks_eq hC h
  have hl : ∀ c ∈ cs, c.leaves ≠ [] := fun c hc => leaves_ne (hasEmptyF_mem hE c hc)
  obtain ⟨pre, c, post, ea, e, eb, rfl, rfl, hlen, a, t, b, d, rfl, g1, g2⟩ :=
    steps_hot h hh (by simp) hm (printedF _ hC.2) hl
  simp only [List.map_append, List.map_cons] at ht hw
  have hi := List.append_inj ht (by simp [hlen])
  simp only [List.cons.injEq] at hi
  obtain ⟨i1, i2, i3⟩ := hi
  rw [phW_append] at hw
  -- tokens of later children come after the break
  have hpost : ∀ u, Tree.tok u ∈ post → u ∈ toks eb.flatten := by
    intro u hu
    rw [toks_flatten, i3]
    exact List.mem_flatten.mpr ⟨[u], List.mem_map.mpr ⟨_, hu, rfl⟩, by simp⟩
  have hpre : ∀ u, Tree.tok u ∈ pre → u ∈ toks ea.flatten := by
    intro u hu
    rw [toks_flatten, i1]
    exact List.mem_flatten.mpr ⟨[u], List.mem_map.mpr ⟨_, hu, rfl⟩, by simp⟩
  have hes : (ea ++ (a ++ .brk t b :: d) :: eb).flatten = (ea.flatten ++ a) ++ .brk t b :: (d ++ eb.flatten) := by simp
  rw [hes] at hT
  have fin : ∀ o x, o ∈ toks (ea.flatten ++ a) → x ∈ toks (d ++ eb.flatten) → (φ o).start.line < (φ x).start.line := by
    intro o x ho hx
    have g1 := hT.split ho hx
    have g2 := (hT.mono.1 o (by rw [toks_append]; exact List.mem_append_left _ ho)).2
    omega
  simp only [Area.span] at g1 g2
  split at g1
  · rename_i hs
    simp only [Bool.and_eq_true, decide_eq_true_eq, beq_iff_eq] at hs
    cases c with
    | node k ds => simp [Tree.sym] at hs
    | tok o =>
      have ho : o.kind = op := by simpa [Tree.sym] using hs.2
      simp only [hs.1, phW, Area.next, hs.2, if_true] at hw
      obtain ⟨_, x, _, hx, hxk, _, _⟩ := phW_one hw
      refine ⟨o, x, by simp, by simp [hx], ho, hxk, fin o x ?_ ?_⟩
      · have h2 : toks a ≠ [] := by simpa using g1
        rw [toks_append] at i2 ⊢
        simp only [Tree.leaves] at i2
        cases hta : toks a with
        | nil => exact absurd hta h2
        | cons z zs =>
          rw [hta] at i2
          simp only [List.cons_append, List.cons.injEq] at i2
          simp [i2.1]
      · rw [toks_append]
        exact List.mem_append_right _ (hpost x (by simp [hx]))
  · split at g1
    · rename_i hs
      simp only [Bool.and_eq_true, decide_eq_true_eq, bne_iff_ne] at hs
      obtain ⟨o, ho, hok⟩ := phW_pre_one rfl hs.1.1
      simp only [hs.1.1, phW, Area.next, hs.1.2, hs.2, if_false] at hw
      obtain ⟨_, x, _, hx, hxk, _, _⟩ := phW_one hw
      refine ⟨o, x, by simp [ho], by simp [hx], hok, hxk, fin o x ?_ ?_⟩
      · rw [toks_append]
        exact List.mem_append_left _ (hpre o ho)
      · rw [toks_append]
        exact List.mem_append_right _ (hpost x (by simp [hx]))
    · simp at g1

/-- … and the search for parentheses finds this out. -/
theorem scanParens_true {op cl : Tok} (hoc : op ≠ cl) (hk : ∀ t, (φ t).kind = t.kind) {cs : List Tree}
    (hw : phW (.paren op cl) 0 (cs.map Tree.sym) = 0 ∨ phW (.paren op cl) 0 (cs.map Tree.sym) = 2)
    {o c : Token} (ho : Tree.tok o ∈ cs) (hc : Tree.tok c ∈ cs) (hok : o.kind = op) (hck : c.kind = cl)
    (hl : (φ o).start.line < (φ c).start.line) : scanParens op cl (mapTrees φ cs) = true := by
  rcases phW_zero hw with g | ⟨a, o', b, c', d, rfl, g1, g2, g3, g4, g5⟩
  · exact absurd hok (g o ho).1
  · have e1 : o = o' := by
      simp only [List.mem_append, List.mem_cons, Tree.tok.injEq] at ho
      rcases ho with h | h | h | h | h
      · exact absurd hok (g3 o h).1
      · exact h
      · exact absurd hok (g4 o h).1
      · subst h; exact absurd (hok.symm.trans g2) hoc
      · exact absurd hok (g5 o h).1
    have e2 : c = c' := by
      simp only [List.mem_append, List.mem_cons, Tree.tok.injEq] at hc
      rcases hc with h | h | h | h | h
      · exact absurd hck (g3 c h).2
      · subst h; exact absurd (g1.symm.trans hck) hoc
      · exact absurd hck (g4 c h).2
      · exact h
      · exact absurd hck (g5 c h).2
    subst e1 e2
    rw [mapTrees_eq]
    simp only [List.map_append, List.map_cons, Tree.map]
    rw [scanParens_split (by rw [hk]; exact g1) (by rw [hk]; exact g2) (g3.map hk) (g4.map hk) (g5.map hk)]
    simpa using hl

end Mofmt
