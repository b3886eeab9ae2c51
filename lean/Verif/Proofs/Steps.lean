import Verif.Proofs.FmtRun
/-
Runs of formatting functions, child by child.
-/
namespace Mofmt

/-! ### Symbols of regular expressions -/

/-- all symbols -/
def RE.syms : RE → List Sym
  | .none => []
  | .eps => []
  | .sym a => [a]
  | .alt a b => a.syms ++ b.syms
  | .seq a b => a.syms ++ b.syms
  | .star a => a.syms

theorem syms_complete {r : RE} {w : List Sym} (h : Lang r w) : ∀ s ∈ w, s ∈ r.syms := by
  induction h with
  | eps => intro s hs; cases hs
  | sym a => intro s hs; exact hs
  | altL _ ih => intro s hs; exact List.mem_append_left _ (ih s hs)
  | altR _ ih => intro s hs; exact List.mem_append_right _ (ih s hs)
  | seq _ _ ih1 ih2 =>
    intro s hs
    rcases List.mem_append.mp hs with hs | hs
    · exact List.mem_append_left _ (ih1 s hs)
    · exact List.mem_append_right _ (ih2 s hs)
  | starNil => intro s hs; cases hs
  | starCons _ _ ih1 ih2 =>
    intro s hs
    rcases List.mem_append.mp hs with hs | hs
    · exact ih1 s hs
    · exact ih2 s hs

/-! ### Child by child -/

/-- formatting functions cannot be called before and after the loop -/
def noSub : SK → Args → Option Token → Res (Bool × List TEv) := fun _ _ _ => .panic .unreachable

/-- the formatting functions applied to a child -/
def subOf (c : Tree) : SK → Args → Option Token → Res (Bool × List TEv) := fun fn a q => trTree Fmt.body fn a c q

/-- The loop over the children, with the events of every child. -/
inductive Steps (b : FBody) (all : List Tree) :
    List Tree → Nat → Regs → Option Token → List (List TEv) → Regs → Prop
  | nil (idx r q) : Steps b all [] idx r q [] r
  | cons {c rest idx r q r1 e ess r'} :
      trF (subOf c) { all, cur := some c, idx, rest } (upCmd b c.sym) r q = .ok (r1, e) →
      Steps b all rest (idx + 1) r1 (lastT q e) ess r' →
      Steps b all (c :: rest) idx r q (e :: ess) r'

theorem trLoop_steps {b : FBody} {all : List Tree} : ∀ {cs : List Tree} {idx : Nat} {r r' : Regs}
    {q : Option Token} {es : List TEv},
    trLoop Fmt.body b all cs idx r q = .ok (r', es) ↔ ∃ ess, Steps b all cs idx r q ess r' ∧ es = ess.flatten
  | [], idx, r, r', q, es => by
    rw [trLoop]
    constructor
    · intro h; cases h; exact ⟨[], .nil _ _ _, rfl⟩
    · rintro ⟨ess, h, rfl⟩; cases h; rfl
  | c :: rest, idx, r, r', q, es => by
    rw [trLoop_eq]
    constructor
    · intro h
      obtain ⟨⟨r1, e1⟩, h1, h⟩ := Res.bind_eq_ok.1 h
      obtain ⟨⟨r2, e2⟩, h2, h⟩ := Res.bind_eq_ok.1 h
      cases h
      obtain ⟨ess, g1, rfl⟩ := trLoop_steps.1 h2
      exact ⟨e1 :: ess, .cons h1 g1, rfl⟩
    · rintro ⟨ess, h, rfl⟩
      cases h with
      | cons h1 h2 =>
        have h1' : trF (fun fn a q => trTree Fmt.body fn a c q) { all, cur := some c, idx, rest }
          (upCmd b c.sym) r q = .ok (_, _) := h1
        simp only [h1', Res.bind_ok, trLoop_steps.2 ⟨_, h2, rfl⟩]
        rfl

theorem trTree_steps {fn k : SK} {a : Args} {cs : List Tree} {q : Option Token} {w : Bool} {es : List TEv} :
    trTree Fmt.body fn a (.node k cs) q = .ok (w, es) ↔
    ∃ r1 e1 ess r2 r3 e3,
      trF noSub { all := cs } (Fmt.body fn).pre { m := a.m, w := a.w, o := a.o } q = .ok (r1, e1) ∧
      Steps (Fmt.body fn) cs cs 0 r1 (lastT q e1) ess r2 ∧
      trF noSub { all := cs } (Fmt.body fn).post r2 (lastT q (e1 ++ ess.flatten)) = .ok (r3, e3) ∧
      w = r3.w ∧ es = e1 ++ ess.flatten ++ e3 := by
  rw [trTree]
  constructor
  · intro h
    obtain ⟨⟨r1, e1⟩, h1, h⟩ := Res.bind_eq_ok.1 h
    obtain ⟨⟨r2, e2⟩, h2, h⟩ := Res.bind_eq_ok.1 h
    obtain ⟨⟨r3, e3⟩, h3, h⟩ := Res.bind_eq_ok.1 h
    cases h
    obtain ⟨ess, g1, rfl⟩ := trLoop_steps.1 h2
    exact ⟨r1, e1, ess, r2, r3, e3, h1, g1, h3, rfl, rfl⟩
  · rintro ⟨r1, e1, ess, r2, r3, e3, h1, h2, h3, rfl, rfl⟩
    have h1' : trF (fun _ _ _ => .panic .unreachable) { all := cs } (Fmt.body fn).pre
      { m := a.m, w := a.w, o := a.o } q = .ok (r1, e1) := h1
    have h3' : trF (fun _ _ _ => .panic .unreachable) { all := cs } (Fmt.body fn).post r2
      (lastT q (e1 ++ ess.flatten)) = .ok (r3, e3) := h3
    simp only [h1', Res.bind_ok, trLoop_steps.2 ⟨_, h2, rfl⟩, h3']

/-! ### Statements before and after the loop -/

/-- no more than changes of indentation and of local variables -/
def silent : FCmd → Bool
  | .skip => true
  | .seq a b => silent a && silent b
  | .ite _ a b => silent a && silent b
  | .indent => true
  | .dedent => true
  | .set _ _ => true
  | _ => false

theorem silent_all : ∀ k, silent (Fmt.body k).pre = true ∧ silent (Fmt.body k).post = true := by
  intro k; cases k <;> decide

/-- a change of indentation -/
def TEv.ind : TEv → Bool
  | .indent => true
  | .dedent => true
  | _ => false

theorem silent_ind {sub : SK → Args → Option Token → Res (Bool × List TEv)} {cx : Ctx} : ∀ {cmd : FCmd}
    {r r' : Regs} {q : Option Token} {es : List TEv}, silent cmd = true → trF sub cx cmd r q = .ok (r', es) →
    ∀ e ∈ es, e.ind = true
  | .skip, r, r', q, es, _, h => by cases h; simp
  | .seq a b, r, r', q, es, hs, h => by
    simp only [silent, Bool.and_eq_true] at hs
    obtain ⟨⟨r1, e1⟩, h1, h⟩ := Res.bind_eq_ok.1 h
    obtain ⟨⟨r2, e2⟩, h2, h⟩ := Res.bind_eq_ok.1 h
    cases h
    intro e he
    rcases List.mem_append.mp he with he | he
    · exact silent_ind hs.1 h1 e he
    · exact silent_ind hs.2 h2 e he
  | .ite c a b, r, r', q, es, hs, h => by
    simp only [silent, Bool.and_eq_true] at hs
    obtain ⟨t, h1, h⟩ := Res.bind_eq_ok.1 h
    cases t
    · exact silent_ind hs.2 h
    · exact silent_ind hs.1 h
  | .indent, r, r', q, es, _, h => by cases h; simp [TEv.ind]
  | .dedent, r, r', q, es, _, h => by cases h; simp [TEv.ind]
  | .set v c, r, r', q, es, _, h => by
    obtain ⟨t, h1, h⟩ := Res.bind_eq_ok.1 h
    cases h; simp
  | .space, _, _, _, _, hs, _ => by cases hs
  | .tok, _, _, _, _, hs, _ => by cases hs
  | .brk _ _, _, _, _, _, hs, _ => by cases hs
  | .bos _ _, _, _, _, _, hs, _ => by cases hs
  | .call _ _ _ _ _, _, _, _, _, hs, _ => by cases hs
  | .setPrevRule, _, _, _, _, hs, _ => by cases hs
  | .unreachable, _, _, _, _, hs, _ => by cases hs

theorem ind_lastT {es : List TEv} (h : ∀ e ∈ es, e.ind = true) (q : Option Token) : lastT q es = q := by
  induction es with
  | nil => rfl
  | cons e es ih =>
    have h1 := h e List.mem_cons_self
    cases e <;> simp [TEv.ind] at h1 <;> exact ih (fun e he => h e (List.mem_cons_of_mem _ he))

theorem ind_toks {es : List TEv} (h : ∀ e ∈ es, e.ind = true) : toks es = [] := by
  induction es with
  | nil => rfl
  | cons e es ih =>
    have h1 := h e List.mem_cons_self
    cases e <;> simp [TEv.ind] at h1 <;> exact ih (fun e he => h e (List.mem_cons_of_mem _ he))

/-- `trTree_steps` with what is known about the first and the last statements -/
theorem trTree_inv {fn k : SK} {a : Args} {cs : List Tree} {q : Option Token} {w : Bool} {es : List TEv}
    (h : trTree Fmt.body fn a (.node k cs) q = .ok (w, es)) :
    ∃ r1 e1 ess r2 r3 e3,
      trF noSub { all := cs } (Fmt.body fn).pre { m := a.m, w := a.w, o := a.o } q = .ok (r1, e1) ∧
      Steps (Fmt.body fn) cs cs 0 r1 q ess r2 ∧
      trF noSub { all := cs } (Fmt.body fn).post r2 (lastT q ess.flatten) = .ok (r3, e3) ∧
      w = r3.w ∧ es = e1 ++ ess.flatten ++ e3 ∧ (∀ e ∈ e1, e.ind = true) ∧ (∀ e ∈ e3, e.ind = true) := by
  obtain ⟨r1, e1, ess, r2, r3, e3, h1, h2, h3, h4, h5⟩ := trTree_steps.1 h
  have i1 := silent_ind (silent_all fn).1 h1
  rw [ind_lastT i1] at h2
  rw [lastT_append, ind_lastT i1] at h3
  exact ⟨r1, e1, ess, r2, r3, e3, h1, h2, h3, h4, h5, i1, silent_ind (silent_all fn).2 h3⟩

/-! ### Every child is printed once -/

/-- Prints the current child `s` once; `e`: has it been printed? -/
def once (s : Sym) : FCmd → Bool → Option Bool
  | .skip, e => some e
  | .seq a b, e => (once s a e).bind (once s b)
  | .ite _ a b, e => if once s a e = once s b e then once s a e else none
  | .tok, e => match s with
    | .t _ => if e then none else some true
    | .n _ => none
  | .call fn _ _ _ _, e => if s = .n fn then (if e then none else some true) else none
  | .unreachable, _ => none
  | _, e => some e

theorem once_all : ∀ k, ∀ s ∈ (Gram.spec k).syms, once s (upCmd (Fmt.body k) s) false = some true := by
  intro k; cases k <;> decide

theorem once_toks {sub : SK → Args → Option Token → Res (Bool × List TEv)} {cx : Ctx} {c : Tree}
    (hc : cx.cur = some c) (hsub : ∀ fn a q w es, c.sym = .n fn → sub fn a q = .ok (w, es) → toks es = c.leaves) :
    ∀ {cmd : FCmd} {r r' : Regs} {q : Option Token} {es : List TEv} {e e' : Bool},
    once c.sym cmd e = some e' → trF sub cx cmd r q = .ok (r', es) →
    (e = true → e' = true) ∧ toks es = if e' && !e then c.leaves else []
  | .skip, r, r', q, es, e, e', ho, h => by cases h; cases ho; simp [toks]
  | .seq a b, r, r', q, es, e, e', ho, h => by
    obtain ⟨⟨r1, e1⟩, h1, h⟩ := Res.bind_eq_ok.1 h
    obtain ⟨⟨r2, e2⟩, h2, h⟩ := Res.bind_eq_ok.1 h
    cases h
    simp only [once, Option.bind_eq_some_iff] at ho
    obtain ⟨em, o1, o2⟩ := ho
    have i1 := once_toks hc hsub o1 h1
    have i2 := once_toks hc hsub o2 h2
    rw [toks_append, i1.2, i2.2]
    refine ⟨fun he => i2.1 (i1.1 he), ?_⟩
    cases e <;> cases em <;> cases e' <;> simp_all
  | .ite g a b, r, r', q, es, e, e', ho, h => by
    simp only [once] at ho
    obtain ⟨t, h1, h⟩ := Res.bind_eq_ok.1 h
    split at ho
    · rename_i heq
      cases t
      · exact once_toks hc hsub (by rw [← heq]; exact ho) h
      · exact once_toks hc hsub ho h
    · cases ho
  | .tok, r, r', q, es, e, e', ho, h => by
    cases c with
    | node k cs => simp [once, Tree.sym] at ho
    | tok t =>
      simp only [trF, hc] at h
      cases h
      simp only [once, Tree.sym] at ho
      split at ho
      · cases ho
      · cases ho
        rename_i he
        simp [toks, he, Tree.leaves]
  | .call fn m w o keep, r, r', q, es, e, e', ho, h => by
    simp only [once] at ho
    split at ho
    · rename_i hs
      split at ho
      · cases ho
      · cases ho
        rename_i he
        obtain ⟨m', h1, h⟩ := Res.bind_eq_ok.1 h
        obtain ⟨w', h2, h⟩ := Res.bind_eq_ok.1 h
        obtain ⟨o', h3, h⟩ := Res.bind_eq_ok.1 h
        obtain ⟨⟨x, ee⟩, h4, h⟩ := Res.bind_eq_ok.1 h
        cases h
        simp [he, hsub _ _ _ _ _ hs h4]
    · cases ho
  | .space, r, r', q, es, e, e', ho, h => by cases h; cases ho; simp [toks]
  | .indent, r, r', q, es, e, e', ho, h => by cases h; cases ho; simp [toks]
  | .dedent, r, r', q, es, e, e', ho, h => by cases h; cases ho; simp [toks]
  | .brk t b, r, r', q, es, e, e', ho, h => by
    obtain ⟨t, h1, h⟩ := Res.bind_eq_ok.1 h
    cases h; cases ho; simp [toks]
  | .bos g t, r, r', q, es, e, e', ho, h => by
    obtain ⟨b, h1, h⟩ := Res.bind_eq_ok.1 h
    obtain ⟨t, h2, h⟩ := Res.bind_eq_ok.1 h
    cases h; cases ho
    cases b <;> simp [toks]
  | .set v g, r, r', q, es, e, e', ho, h => by
    obtain ⟨b, h1, h⟩ := Res.bind_eq_ok.1 h
    cases h; cases ho; simp [toks]
  | .setPrevRule, r, r', q, es, e, e', ho, h => by
    simp only [trF] at h
    split at h
    · cases h; cases ho; simp [toks]
    · cases h
  | .unreachable, r, r', q, es, e, e', ho, h => by cases ho

/-- the child is printed -/
def Printed (c : Tree) : Prop :=
  ∀ fn a q w es, c.sym = .n fn → subOf c fn a q = .ok (w, es) → toks es = c.leaves

theorem Steps.toks {b : FBody} {all : List Tree} {cs : List Tree} {idx : Nat} {r r' : Regs}
    {q : Option Token} {ess : List (List TEv)} (h : Steps b all cs idx r q ess r')
    (ho : ∀ c ∈ cs, once c.sym (upCmd b c.sym) false = some true) (hs : ∀ c ∈ cs, Printed c) :
    ess.map Mofmt.toks = cs.map Tree.leaves := by
  induction h with
  | nil => rfl
  | cons h1 h2 ih =>
    have := once_toks rfl (hs _ List.mem_cons_self) (ho _ List.mem_cons_self) h1
    simp only [List.map_cons]
    rw [ih (fun c hc => ho c (List.mem_cons_of_mem _ hc)) (fun c hc => hs c (List.mem_cons_of_mem _ hc)), this.2]
    rfl

theorem toks_flatten (ess : List (List TEv)) : toks ess.flatten = (ess.map toks).flatten := by
  induction ess with
  | nil => rfl
  | cons e ess ih => simp [toks_append, ih]

theorem leavesF_flatten (cs : List Tree) : leavesF cs = (cs.map Tree.leaves).flatten := by
  induction cs with
  | nil => rfl
  | cons c cs ih => simp [leavesF, ih]

mutual
theorem printed (c : Tree) (hC : c.Conforms) : Printed c := by
  match c with
  | .tok t => intro fn a q w es hs; cases hs
  | .node k cs =>
    intro fn a q w es hs h
    cases hs
    obtain ⟨r1, e1, ess, r2, r3, e3, h1, h2, h3, h4, h5, i1, i3⟩ := trTree_inv h
    subst h5
    rw [toks_append, toks_append, ind_toks i1, ind_toks i3, toks_flatten,
      h2.toks (fun c hc => once_all _ _ (syms_complete hC.1 _ (List.mem_map_of_mem hc))) (printedF cs hC.2),
      ← leavesF_flatten]
    simp [Tree.leaves]
theorem printedF (cs : List Tree) (hC : ConformsF cs) : ∀ c ∈ cs, Printed c := by
  match cs with
  | [] => intro c hc; cases hc
  | c :: cs =>
    intro d hd
    have hd' : d = c ∨ d ∈ cs := by simpa using hd
    by_cases hdc : d = c
    · rw [hdc]; exact printed c hC.1
    · exact printedF cs hC.2 d (hd'.resolve_left hdc)
end

end Mofmt
