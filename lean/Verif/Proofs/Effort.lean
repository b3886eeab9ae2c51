import Verif.Spec.Effort
import Verif.Spec.Recursion
import Verif.Proofs.Numbers
/-
The work of the formatter, by the formatting functions.
-/
namespace Mofmt

/-! ### Looking at trees -/

theorem size_pos (t : Tree) : 1 ≤ t.size := by cases t <;> simp [Tree.size]

mutual
theorem startWork_le (t : Tree) : t.startWork ≤ t.size := by
  match t with
  | .tok _ => exact Nat.le_refl _
  | .node _ cs => have := startWorkF_le cs; simp only [Tree.startWork, Tree.size]; omega
theorem startWorkF_le (cs : List Tree) : startWorkF cs ≤ sizeF cs := by
  match cs with
  | [] => exact Nat.le_refl _
  | c :: cs => have := startWork_le c; simp only [startWorkF, sizeF]; omega
end

mutual
theorem endWork_le (t : Tree) : t.endWork ≤ t.size := by
  match t with
  | .tok _ => exact Nat.le_refl _
  | .node _ cs => have := endWorkF_le cs; simp only [Tree.endWork, Tree.size]; omega
theorem endWorkF_le (cs : List Tree) : endWorkF cs ≤ sizeF cs := by
  match cs with
  | [] => exact Nat.le_refl _
  | [c] => have := endWork_le c; simp only [endWorkF, sizeF]; omega
  | c :: d :: cs => have := endWorkF_le (d :: cs); simp only [endWorkF, sizeF] at *; omega
end

mutual
theorem hasWork_le (k : SK) (t : Tree) : t.hasWork k ≤ t.size := by
  match t with
  | .tok _ => exact Nat.le_refl _
  | .node _ cs => have := hasWorkF_le k cs; simp only [Tree.hasWork, Tree.size]; split <;> omega
theorem hasWorkF_le (k : SK) (cs : List Tree) : hasWorkF k cs ≤ sizeF cs := by
  match cs with
  | [] => exact Nat.le_refl _
  | c :: cs =>
    have := hasWork_le k c
    have := hasWorkF_le k cs
    simp only [hasWorkF, sizeF]
    split <;> omega
end

theorem length_size : ∀ cs : List Tree, cs.length ≤ sizeF cs
  | [] => Nat.le_refl _
  | c :: cs => by have := length_size cs; have := size_pos c; simp only [List.length_cons, sizeF]; omega

/-- the first tree -/
def headSize : List Tree → Nat
  | [] => 0
  | c :: _ => c.size

/-- the current child -/
def Ctx.curSize (cx : Ctx) : Nat :=
  match cx.cur with
  | some t => t.size
  | none => 0

/-- What one condition or statement can look at is less than `U`, unless it looks at the whole tree. -/
def Ctx.Near (cx : Ctx) (U : Nat) : Prop := 1 + cx.curSize + headSize cx.rest ≤ U

theorem targetWork_le {cx : Ctx} {U : Nat} (h : cx.Near U) (t : Target) : 1 + cx.targetWork t ≤ U := by
  unfold Ctx.Near at h
  cases t with
  | cur =>
    simp only [Ctx.targetWork, Ctx.curSize] at *
    cases hc : cx.cur with
    | none => rw [hc] at h; simp only at *; omega
    | some t => rw [hc] at h; have := startWork_le t; simp only at *; omega
  | next =>
    simp only [Ctx.targetWork]
    cases hc : cx.rest with
    | nil => simp only; omega
    | cons t ts => rw [hc] at h; have := startWork_le t; simp only [headSize] at *; omega

theorem curWork_le {cx : Ctx} {U : Nat} (h : cx.Near U) (f : List Tree → Nat) (hf : ∀ cs, f cs ≤ sizeF cs) : 1 + cx.curWork f ≤ U := by
  unfold Ctx.Near at h
  simp only [Ctx.curWork, Ctx.curSize] at *
  split
  · rename_i k cs hc
    rw [hc] at h
    have := hf cs
    simp only [Tree.size] at h
    omega
  · omega

/-! ### Conditions -/

/-- how often a condition looks -/
def FCond.units : FCond → Nat
  | .treeMulti | .curMulti => 2
  | .prevRuleIn ks => 1 + ks.length
  | .not a => 1 + a.units
  | .and a b => 1 + a.units + b.units
  | .or a b => 1 + a.units + b.units
  | _ => 1

/-- does a condition look at the whole tree -/
def FCond.wide : FCond → Bool
  | .treeMulti | .treeHas _ | .parenMulti _ _ => true
  | .not a => a.wide
  | .and a b => a.wide || b.wide
  | .or a b => a.wide || b.wide
  | _ => Bool.false

theorem condWork_le {cx : Ctx} {U : Nat} (h : cx.Near U) (r : Regs) (s : FState) : ∀ c : FCond,
    (c.wide = Bool.false ∨ 1 + sizeF cx.all ≤ U) → condWork cx r s c ≤ c.units * U := by
  have h1 : 1 ≤ U := by unfold Ctx.Near at h; omega
  intro c
  induction c with
  | treeMulti =>
    intro hw
    have := startWorkF_le cx.all
    have := endWorkF_le cx.all
    simp only [FCond.wide, Bool.true_eq_false, false_or] at hw
    simp only [condWork, FCond.units]
    omega
  | treeHas k =>
    intro hw
    have := hasWorkF_le k cx.all
    simp only [FCond.wide, Bool.true_eq_false, false_or] at hw
    simp only [condWork, FCond.units]
    omega
  | parenMulti a b =>
    intro hw
    have := length_size cx.all
    simp only [FCond.wide, Bool.true_eq_false, false_or] at hw
    simp only [condWork, FCond.units]
    omega
  | curMulti =>
    intro _
    have := curWork_le h startWorkF startWorkF_le
    have := curWork_le h endWorkF endWorkF_le
    simp only [condWork, FCond.units]
    omega
  | curHas k =>
    intro _
    have := curWork_le h (hasWorkF k) (hasWorkF_le k)
    simp only [condWork, FCond.units]
    omega
  | curStartIs k => intro _; have := targetWork_le h .cur; simp only [condWork, FCond.units]; omega
  | tokIdxPos => intro _; have := targetWork_le h .cur; simp only [condWork, FCond.units]; omega
  | nextBelow => intro _; have := targetWork_le h .next; simp only [condWork, FCond.units]; omega
  | prevRuleIn ks => intro _; simp only [condWork, FCond.units]; exact Nat.le_mul_of_pos_right _ h1
  | not a ih =>
    intro hw
    have := ih hw
    simp only [condWork, FCond.units, Nat.add_mul]
    omega
  | and a b iha ihb =>
    intro hw
    simp only [FCond.wide, Bool.or_eq_false_iff] at hw
    have := iha (hw.imp_left (·.1))
    have := ihb (hw.imp_left (·.2))
    simp only [condWork, FCond.units, Nat.add_mul]
    split <;> omega
  | or a b iha ihb =>
    intro hw
    simp only [FCond.wide, Bool.or_eq_false_iff] at hw
    have := iha (hw.imp_left (·.1))
    have := ihb (hw.imp_left (·.2))
    simp only [condWork, FCond.units, Nat.add_mul]
    split <;> omega
  | _ => intro _; simp only [condWork, FCond.units]; omega

/-! ### Statements -/

/-- how often a statement looks -/
def FCmd.units : FCmd → Nat
  | .seq a b => 1 + a.units + b.units
  | .ite c a b => 1 + c.units + max a.units b.units
  | .brk _ _ => 1
  | .bos c _ => 1 + c.units + 1
  | .call _ m w o _ => 1 + m.units + w.units + o.units
  | .set _ c => 1 + c.units
  | _ => 1

/-- does a statement look at the whole tree -/
def FCmd.wide : FCmd → Bool
  | .seq a b => a.wide || b.wide
  | .ite c a b => c.wide || a.wide || b.wide
  | .bos c _ => c.wide
  | .call _ m w o _ => m.wide || w.wide || o.wide
  | .set _ c => c.wide
  | _ => false

/-- comments that are left -/
def Res.left {α : Type} : Res (α × FState) → Nat
  | .ok (_, s) => s.comments.length
  | _ => 0

theorem handleBreak_left {tok : Token} {b : Blank} {s s' : FState} (h : s.handleBreak tok b = .ok s') :
    (s.taken tok).length + s'.comments.length = s.comments.length := by
  have e := taken_length tok s
  unfold FState.handleBreak at h
  simp only at h
  rw [Res.bind_eq_ok] at h
  obtain ⟨⟨line, s1⟩, h1, h2⟩ := h
  obtain ⟨i1, _⟩ := pushInlines_load 0 0 ((s.taken tok).filter fun c => c.start.line == s.prevLine) (s.dropTaken tok)
  obtain ⟨c1, _⟩ := pushComments_load 0 0 b _ _ _ _ _ h1
  dsimp only at h2
  have k : s'.comments = s1.comments := by
    split at h2
    · exact (pushGap_load 0 0 h2).1
    · simp only [Res.ok.injEq] at h2; subst h2; rfl
    · split at h2
      · exact (pushGap_load 0 0 h2).1
      · simp only [Res.ok.injEq] at h2; subst h2; rfl
  have c1' : s1.comments = (s.dropTaken tok).comments := by
    rw [c1]
    split
    · exact i1
    · exact i1
  rw [k, c1']
  omega

theorem taken_le (tok : Token) (s : FState) : (s.taken tok).length ≤ s.comments.length := by
  have := taken_length tok s; omega

theorem execWork_le {sub : SK → Args → FState → Res (Bool × FState)} {subWork : SK → Args → FState → Nat} {cx : Ctx} {U B : Nat}
    (hn : cx.Near U) (hsub : ∀ fn a s, subWork fn a s + (sub fn a s).left ≤ B + s.comments.length) :
    ∀ (c : FCmd) (r : Regs) (s : FState), (c.wide = false ∨ 1 + sizeF cx.all ≤ U) →
      execWork sub subWork cx c r s + (execF sub cx c r s).left ≤ c.units * U + c.calls * B + s.comments.length := by
  have h1 : 1 ≤ U := by unfold Ctx.Near at hn; omega
  intro c
  induction c with
  | skip => intro r s _; simp only [execWork, execF, Res.left, FCmd.units]; omega
  | space => intro r s _; simp only [execWork, execF, Res.left, FCmd.units, FState.push]; omega
  | indent => intro r s _; simp only [execWork, execF, Res.left, FCmd.units, FState.push]; omega
  | dedent => intro r s _; simp only [execWork, execF, Res.left, FCmd.units, FState.push]; omega
  | unreachable => intro r s _; simp only [execWork, execF, Res.left, FCmd.units]; omega
  | setPrevRule =>
    intro r s _
    simp only [execWork, execF, FCmd.units]
    split <;> simp only [Res.left] <;> omega
  | seq a b iha ihb =>
    intro r s hw
    simp only [FCmd.wide, Bool.or_eq_false_iff] at hw
    have e1 := iha r s (hw.imp_left (·.1))
    simp only [execWork, execF, FCmd.units, FCmd.calls, Nat.add_mul]
    cases he : execF sub cx a r s with
    | ok x =>
      obtain ⟨r1, s1⟩ := x
      have e2 := ihb r1 s1 (hw.imp_left (·.2))
      rw [he] at e1
      simp only [Res.left, Res.bind] at *
      omega
    | panic p => rw [he] at e1; simp only [Res.left, Res.bind] at *; omega
    | fuel => rw [he] at e1; simp only [Res.left, Res.bind] at *; omega
  | ite c a b iha ihb =>
    intro r s hw
    simp only [FCmd.wide, Bool.or_eq_false_iff] at hw
    have e0 := condWork_le hn r s c (hw.imp_left (·.1.1))
    have e1 := iha r s (hw.imp_left (·.1.2))
    have e2 := ihb r s (hw.imp_left (·.2))
    have m1 : a.calls * B ≤ max a.calls b.calls * B := Nat.mul_le_mul_right _ (Nat.le_max_left ..)
    have m2 : b.calls * B ≤ max a.calls b.calls * B := Nat.mul_le_mul_right _ (Nat.le_max_right ..)
    have u1 : a.units * U ≤ max a.units b.units * U := Nat.mul_le_mul_right _ (Nat.le_max_left ..)
    have u2 : b.units * U ≤ max a.units b.units * U := Nat.mul_le_mul_right _ (Nat.le_max_right ..)
    simp only [execWork, execF, FCmd.units, FCmd.calls, Nat.add_mul]
    cases he : evalFC cx r s c with
    | ok t => cases t <;> simp only [Res.bind, if_true, Bool.false_eq_true, if_false] <;> omega
    | panic p => simp only [Res.bind, Res.left]; omega
    | fuel => simp only [Res.bind, Res.left]; omega
  | tok =>
    intro r s _
    simp only [execWork, execF, FCmd.units]
    cases hc : cx.cur with
    | none => simp only [Res.left]; omega
    | some c =>
      cases c with
      | tok t =>
        have := taken_length t s
        simp only [Res.left, FState.handleToken]
        omega
      | node k cs => simp only [Res.left]; omega
  | brk t b =>
    intro r s _
    have e0 := targetWork_le hn t
    simp only [execWork, execF, FCmd.units]
    cases he : cx.target t with
    | ok tok =>
      have := taken_le tok s
      cases hb : s.handleBreak tok b with
      | ok s' => have := handleBreak_left hb; simp only [Res.bind, hb, Res.left]; omega
      | panic p => simp only [Res.bind, hb, Res.left]; omega
      | fuel => simp only [Res.bind, hb, Res.left]; omega
    | panic p => simp only [Res.bind, Res.left]; omega
    | fuel => simp only [Res.bind, Res.left]; omega
  | bos c t =>
    intro r s hw
    have e0 := targetWork_le hn t
    have e1 := condWork_le hn r s c hw
    simp only [execWork, execF, FCmd.units, Nat.add_mul]
    cases hc : evalFC cx r s c with
    | ok b =>
      cases he : cx.target t with
      | ok tok =>
        have := taken_le tok s
        cases b with
        | true =>
          cases hb : s.handleBreak tok .Illegal with
          | ok s' => have := handleBreak_left hb; simp only [Res.bind, FState.breakOrSpace, hb, Res.left, if_true]; omega
          | panic p => simp only [Res.bind, FState.breakOrSpace, hb, Res.left, if_true]; omega
          | fuel => simp only [Res.bind, FState.breakOrSpace, hb, Res.left, if_true]; omega
        | false =>
          simp only [Res.bind, FState.breakOrSpace, Res.left, Bool.false_eq_true, if_false, FState.push]; omega
      | panic p => simp only [Res.bind, Res.left]; omega
      | fuel => simp only [Res.bind, Res.left]; omega
    | panic p => simp only [Res.bind, Res.left]; omega
    | fuel => simp only [Res.bind, Res.left]; omega
  | call fn m w o keep =>
    intro r s hw
    simp only [FCmd.wide, Bool.or_eq_false_iff] at hw
    have e1 := condWork_le hn r s m (hw.imp_left (·.1.1))
    have e2 := condWork_le hn r s w (hw.imp_left (·.1.2))
    have e3 := condWork_le hn r s o (hw.imp_left (·.2))
    simp only [execWork, execF, FCmd.units, FCmd.calls, Nat.add_mul, Nat.one_mul]
    cases hm : evalFC cx r s m with
    | ok bm =>
      cases hw' : evalFC cx r s w with
      | ok bw =>
        cases ho : evalFC cx r s o with
        | ok bo =>
          have e4 := hsub fn { m := bm, w := bw, o := bo } s
          cases hs : sub fn { m := bm, w := bw, o := bo } s with
          | ok x => obtain ⟨w', s'⟩ := x; rw [hs] at e4; simp only [Res.bind, hs, Res.left] at *; omega
          | panic p => rw [hs] at e4; simp only [Res.bind, hs, Res.left] at *; omega
          | fuel => rw [hs] at e4; simp only [Res.bind, hs, Res.left] at *; omega
        | panic p => simp only [Res.bind, Res.left]; omega
        | fuel => simp only [Res.bind, Res.left]; omega
      | panic p => simp only [Res.bind, Res.left]; omega
      | fuel => simp only [Res.bind, Res.left]; omega
    | panic p => simp only [Res.bind, Res.left]; omega
    | fuel => simp only [Res.bind, Res.left]; omega
  | set v c =>
    intro r s hw
    have e1 := condWork_le hn r s c hw
    simp only [execWork, execF, FCmd.units, Nat.add_mul]
    cases hc : evalFC cx r s c <;> simp only [Res.bind, Res.left] <;> omega

/-! ### Formatting functions -/

/-- bounds for the formatting functions: `kl` for the statements for a child, `kf` for the others -/
structure Light (kl kf : Nat) (b : FBody) : Prop where
  tok : ∀ k, (b.onTok k).units ≤ kl ∧ (b.onTok k).calls = 0 ∧ (b.onTok k).wide = false
  tree : ∀ k, (b.onTree k).units ≤ kl ∧ (b.onTree k).calls ≤ 1 ∧ (b.onTree k).wide = false
  around : b.pre.units + b.post.units ≤ kf ∧ b.pre.calls = 0 ∧ b.post.calls = 0

mutual
/-- the sizes of all productions of a tree together -/
def Tree.total : Tree → Nat
  | .tok _ => 0
  | .node _ cs => 1 + sizeF cs + totalF cs
def totalF : List Tree → Nat
  | [] => 0
  | t :: ts => t.total + totalF ts
end

mutual
theorem total_le (t : Tree) : t.total ≤ t.size * t.height := by
  match t with
  | .tok _ => simp [Tree.total]
  | .node _ cs =>
    have := totalF_le cs
    simp only [Tree.total, Tree.size, Tree.height, Nat.mul_add, Nat.add_mul, Nat.one_mul, Nat.mul_one]
    omega
theorem totalF_le (cs : List Tree) : totalF cs ≤ sizeF cs * heightF cs := by
  match cs with
  | [] => simp [totalF]
  | c :: cs =>
    have h1 := total_le c
    have h2 := totalF_le cs
    have m1 : c.size * c.height ≤ c.size * max c.height (heightF cs) := Nat.mul_le_mul_left _ (Nat.le_max_left ..)
    have m2 : sizeF cs * heightF cs ≤ sizeF cs * max c.height (heightF cs) := Nat.mul_le_mul_left _ (Nat.le_max_right ..)
    simp only [totalF, sizeF, heightF, Nat.add_mul]
    omega
end

theorem headSize_tail (cs : List Tree) : headSize cs + sizeF cs.tail = sizeF cs := by
  cases cs <;> simp [headSize, sizeF]

mutual
theorem fmtWork_le {bodies : SK → FBody} {kl kf : Nat} (hb : ∀ k, Light kl kf (bodies k)) (fn : SK) (a : Args) (t : Tree)
    (s : FState) : fmtWork bodies fn a t s + (fmtTree bodies fn a t s).left ≤
      1 + (1 + kf + 3 * (kl + 1)) * t.total + s.comments.length := by
  match t with
  | .tok _ => simp only [fmtWork, fmtTree, Res.left]; omega
  | .node k cs =>
    obtain ⟨a1, a2, a3⟩ := (hb fn).around
    have hn : Ctx.Near { all := cs } (1 + sizeF cs) := by simp only [Ctx.Near, Ctx.curSize, headSize]; omega
    have ns : ∀ (fn : SK) (a : Args) (s : FState),
        (fun (_ : SK) (_ : Args) (_ : FState) => 0) fn a s +
          ((fun (_ : SK) (_ : Args) (_ : FState) => Res.panic (α := Bool × FState) .unreachable) fn a s).left ≤ 0 + s.comments.length := by
      intro fn a s; simp [Res.left]
    have e1 := execWork_le hn ns (bodies fn).pre { m := a.m, w := a.w, o := a.o } s (.inr (Nat.le_refl _))
    rw [a2] at e1
    have ku : (bodies fn).pre.units * (1 + sizeF cs) + (bodies fn).post.units * (1 + sizeF cs) ≤ kf * (1 + sizeF cs) := by
      rw [← Nat.add_mul]; exact Nat.mul_le_mul_right _ a1
    have kt : (kl + 1) * (2 * sizeF cs + sizeF cs.tail) ≤ 3 * (kl + 1) * (1 + sizeF cs) := by
      have : 2 * sizeF cs + sizeF cs.tail ≤ 3 * (1 + sizeF cs) := by have := headSize_tail cs; omega
      rw [Nat.mul_comm 3, Nat.mul_assoc]
      exact Nat.mul_le_mul_left _ this
    simp only [fmtWork, fmtTree, Tree.total]
    rw [Nat.mul_add, Nat.add_mul, Nat.add_mul, Nat.one_mul]
    generalize hT : (1 + kf + 3 * (kl + 1)) * totalF cs = T
    generalize hX : kf * (1 + sizeF cs) = X at *
    generalize hY : 3 * (kl + 1) * (1 + sizeF cs) = Y at *
    cases he : execF (fun _ _ _ => .panic .unreachable) { all := cs } (bodies fn).pre { m := a.m, w := a.w, o := a.o } s with
    | ok x =>
      obtain ⟨r1, s1⟩ := x
      have e2 := loopWork_le hb (bodies fn) (hb fn) cs cs 0 r1 s1
      rw [hT] at e2
      rw [he] at e1
      simp only [Res.left, Res.bind] at e1 ⊢
      cases hl : fmtLoop bodies (bodies fn) cs cs 0 r1 s1 with
      | ok x =>
        obtain ⟨r2, s2⟩ := x
        have e3 := execWork_le hn ns (bodies fn).post r2 s2 (.inr (Nat.le_refl _))
        rw [a3] at e3
        rw [hl] at e2
        simp only [Res.left] at e2 ⊢
        cases hp : execF (fun _ _ _ => .panic .unreachable) { all := cs } (bodies fn).post r2 s2 with
        | ok x => obtain ⟨r3, s3⟩ := x; rw [hp] at e3; simp only [Res.left] at e3 ⊢; omega
        | panic p => rw [hp] at e3; simp only [Res.left] at e3 ⊢; omega
        | fuel => rw [hp] at e3; simp only [Res.left] at e3 ⊢; omega
      | panic p => rw [hl] at e2; simp only [Res.left] at e2 ⊢; omega
      | fuel => rw [hl] at e2; simp only [Res.left] at e2 ⊢; omega
    | panic p => rw [he] at e1; simp only [Res.left, Res.bind] at e1 ⊢; omega
    | fuel => rw [he] at e1; simp only [Res.left, Res.bind] at e1 ⊢; omega
theorem loopWork_le {bodies : SK → FBody} {kl kf : Nat} (hb : ∀ k, Light kl kf (bodies k)) (b : FBody) (hb' : Light kl kf b)
    (all cs : List Tree) (idx : Nat) (r : Regs) (s : FState) :
    loopWork bodies b all cs idx r s + (fmtLoop bodies b all cs idx r s).left ≤
      (kl + 1) * (2 * sizeF cs + sizeF cs.tail) + (1 + kf + 3 * (kl + 1)) * totalF cs + s.comments.length := by
  match cs with
  | [] => simp [loopWork, fmtLoop, Res.left]
  | c :: rest =>
    have hc := fun fn a s => fmtWork_le hb fn a c s
    have hr := fun r s => loopWork_le hb b hb' all rest (idx + 1) r s
    have hn : Ctx.Near { all, cur := some c, idx, rest } (1 + c.size + headSize rest) := by
      simp only [Ctx.Near, Ctx.curSize]; omega
    have hu : ∀ u, u ≤ kl → 1 + u * (1 + c.size + headSize rest) + 1 + (kl + 1) * (2 * sizeF rest + sizeF rest.tail) ≤
        (kl + 1) * (2 * sizeF (c :: rest) + sizeF rest) := by
      intro u hu
      have h1 := size_pos c
      have h2 := headSize_tail rest
      have h3 : u * (1 + c.size + headSize rest) ≤ kl * (1 + c.size + headSize rest) := Nat.mul_le_mul_right _ hu
      have h4 : (kl + 1) * (1 + c.size + headSize rest) = kl * (1 + c.size + headSize rest) + (1 + c.size + headSize rest) := by
        rw [Nat.add_mul, Nat.one_mul]
      have h5 : (kl + 1) * (1 + c.size + headSize rest) + (kl + 1) * (2 * sizeF rest + sizeF rest.tail) ≤
          (kl + 1) * (2 * sizeF (c :: rest) + sizeF rest) := by
        rw [← Nat.mul_add]
        refine Nat.mul_le_mul_left _ ?_
        simp only [sizeF]
        omega
      omega
    have ht : (1 + kf + 3 * (kl + 1)) * totalF (c :: rest) =
        (1 + kf + 3 * (kl + 1)) * c.total + (1 + kf + 3 * (kl + 1)) * totalF rest := by rw [totalF, Nat.mul_add]
    simp only [List.tail_cons]
    rw [ht]
    generalize (1 + kf + 3 * (kl + 1)) * c.total = X at *
    generalize (1 + kf + 3 * (kl + 1)) * totalF rest = Y at *
    generalize (kl + 1) * (2 * sizeF rest + sizeF rest.tail) = Z at *
    generalize (kl + 1) * (2 * sizeF (c :: rest) + sizeF rest) = V at *
    have key : ∀ cmd : FCmd, cmd.units ≤ kl → cmd.calls ≤ 1 → cmd.wide = false →
        1 + execWork (fun fn a s => fmtTree bodies fn a c s) (fun fn a s => fmtWork bodies fn a c s)
            { all, cur := some c, idx, rest } cmd r s +
          (match execF (fun fn a s => fmtTree bodies fn a c s) { all, cur := some c, idx, rest } cmd r s with
            | .ok (r, s) => loopWork bodies b all rest (idx + 1) r s
            | _ => 0) +
          ((execF (fun fn a s => fmtTree bodies fn a c s) { all, cur := some c, idx, rest } cmd r s).bind
            fun (r, s) => fmtLoop bodies b all rest (idx + 1) r s).left ≤ V + (X + Y) + s.comments.length := by
      intro cmd h1 h2 h3
      have e1 := execWork_le (sub := fun fn a s => fmtTree bodies fn a c s) (subWork := fun fn a s => fmtWork bodies fn a c s)
        (B := 1 + X) hn hc cmd r s (.inl h3)
      have e2 := hu _ h1
      have e3 : cmd.calls * (1 + X) ≤ 1 + X := by
        rcases Nat.le_one_iff_eq_zero_or_eq_one.1 h2 with h | h <;> rw [h] <;> simp
      cases he : execF (fun fn a s => fmtTree bodies fn a c s) { all, cur := some c, idx, rest } cmd r s with
      | ok x =>
        obtain ⟨r1, s1⟩ := x
        have e4 := hr r1 s1
        rw [he] at e1
        simp only [Res.left, Res.bind] at *
        omega
      | panic p => rw [he] at e1; simp only [Res.left, Res.bind] at *; omega
      | fuel => rw [he] at e1; simp only [Res.left, Res.bind] at *; omega
    cases c with
    | tok t =>
      obtain ⟨h1, h2, h3⟩ := hb'.tok t.kind
      have := key _ h1 (by omega) h3
      simp only [loopWork, fmtLoop]
      omega
    | node k ds =>
      obtain ⟨h1, h2, h3⟩ := hb'.tree k
      have := key _ h1 h2 h3
      simp only [loopWork, fmtLoop]
      omega
end

/-- the bounds, checked -/
def lightB (kl kf : Nat) (b : FBody) : Bool :=
  Tok.all.all (fun k => decide ((b.onTok k).units ≤ kl ∧ (b.onTok k).calls = 0 ∧ (b.onTok k).wide = false)) &&
  SK.all.all (fun k => decide ((b.onTree k).units ≤ kl ∧ (b.onTree k).calls ≤ 1 ∧ (b.onTree k).wide = false)) &&
  decide (b.pre.units + b.post.units ≤ kf ∧ b.pre.calls = 0 ∧ b.post.calls = 0)

theorem lightB_sound {kl kf : Nat} {b : FBody} (h : lightB kl kf b = true) : Light kl kf b := by
  simp only [lightB, Bool.and_eq_true, List.all_eq_true, decide_eq_true_eq] at h
  exact ⟨fun k => h.1.1 k (by cases k <;> decide), fun k => h.1.2 k (by cases k <;> decide), h.2⟩

end Mofmt
