import Verif.Spec.Numbers
import Verif.Proofs.Basic
/-
The number of markers, by the formatting functions.
-/
namespace Mofmt

/-! ### Markers -/

/-- weight of a marker: `i` for an indentation, `o` for another -/
def Marker.weight (i o : Nat) : Marker → Nat
  | .indent => i
  | _ => o

def weigh (i o : Nat) : List Marker → Nat
  | [] => 0
  | m :: ms => m.weight i o + weigh i o ms

/-- the most that a statement pushes, calls and comments aside -/
def FCmd.cost (i o : Nat) : FCmd → Nat
  | .seq a b => a.cost i o + b.cost i o
  | .ite _ a b => max (a.cost i o) (b.cost i o)
  | .indent => i
  | .space | .dedent | .tok => o
  | .brk _ _ | .bos _ _ => 2 * o
  | _ => 0

/-- the most calls that a statement makes -/
def FCmd.calls : FCmd → Nat
  | .seq a b => a.calls + b.calls
  | .ite _ a b => max a.calls b.calls
  | .call .. => 1
  | _ => 0

/-- markers pushed, and comments that can still become markers -/
def FState.load (i o : Nat) (s : FState) : Nat := weigh i o s.marks + 2 * o * s.comments.length

theorem taken_length (tok : Token) (s : FState) :
    s.comments.length = (s.taken tok).length + (s.dropTaken tok).comments.length := by
  simp only [FState.taken, FState.dropTaken]
  rw [← List.length_append, List.takeWhile_append_dropWhile]

theorem pushInlines_load (i o : Nat) : ∀ (cs : List Token) (s : FState),
    (pushInlines cs s).comments = s.comments ∧ weigh i o (pushInlines cs s).marks ≤ weigh i o s.marks + 2 * o * cs.length
  | [], s => by simp [pushInlines]
  | c :: cs, s => by
    unfold pushInlines
    simp only
    obtain ⟨h1, h2⟩ := pushInlines_load i o cs ((if s.marks.isEmpty then s else s.push .space).push (.token c))
    refine ⟨by rw [h1]; split <;> rfl, Nat.le_trans h2 ?_⟩
    have e : 2 * o * (c :: cs).length = 2 * o * cs.length + 2 * o := by rw [List.length_cons, Nat.mul_succ]
    rw [e]
    split <;> simp only [FState.push, weigh, Marker.weight] <;> omega

theorem pushGap_load (i o : Nat) {x line : Nat} {s s' : FState} (h : pushGap x line s = .ok s') :
    s'.comments = s.comments ∧ weigh i o s'.marks = weigh i o s.marks + o := by
  unfold pushGap at h
  rw [Res.bind_eq_ok] at h
  obtain ⟨d, _, h⟩ := h
  simp only [Res.ok.injEq] at h
  subst h
  refine ⟨rfl, ?_⟩
  simp only [FState.push, weigh]
  split <;> simp only [Marker.weight] <;> omega

theorem pushComments_load (i o : Nat) (b : Blank) : ∀ (cs : List Token) (line : Nat) (s : FState) (l : Nat) (s' : FState),
    pushComments b cs line s = .ok (l, s') →
    s'.comments = s.comments ∧ weigh i o s'.marks ≤ weigh i o s.marks + 2 * o * cs.length
  | [], line, s, l, s', h => by
    simp only [pushComments, Res.ok.injEq, Prod.mk.injEq] at h
    obtain ⟨_, rfl⟩ := h
    simp
  | c :: cs, line, s, l, s', h => by
    unfold pushComments at h
    simp only at h
    rw [Res.bind_eq_ok] at h
    obtain ⟨s1, h1, h2⟩ := h
    have k : s1.comments = s.comments ∧ weigh i o s1.marks ≤ weigh i o s.marks + o := by
      split at h1
      · split at h1
        · have := pushGap_load i o h1; exact ⟨this.1, by omega⟩
        · simp only [Res.ok.injEq] at h1; subst h1; exact ⟨rfl, by omega⟩
      · have := pushGap_load i o h1; exact ⟨this.1, by omega⟩
    obtain ⟨a, b⟩ := pushComments_load i o b cs _ _ l s' h2
    refine ⟨by rw [a]; exact k.1, ?_⟩
    have e : 2 * o * (c :: cs).length = 2 * o * cs.length + 2 * o := by rw [List.length_cons, Nat.mul_succ]
    rw [e]
    simp only [FState.push, weigh, Marker.weight] at b
    omega

theorem filter_split (p : Token → Bool) : ∀ l : List Token,
    (l.filter p).length + (l.filter fun x => !p x).length = l.length
  | [] => rfl
  | x :: l => by
    have := filter_split p l
    cases h : p x <;> simp [h] <;> omega

theorem handleBreak_load (i o : Nat) {tok : Token} {b : Blank} {s s' : FState} (h : s.handleBreak tok b = .ok s') :
    s'.load i o ≤ s.load i o + 2 * o := by
  unfold FState.handleBreak at h
  simp only at h
  rw [Res.bind_eq_ok] at h
  obtain ⟨⟨line, s1⟩, h1, h2⟩ := h
  have e0 := taken_length tok s
  have e1 := filter_split (fun c => c.start.line == s.prevLine) (s.taken tok)
  obtain ⟨i1, i2⟩ := pushInlines_load i o ((s.taken tok).filter fun c => c.start.line == s.prevLine) (s.dropTaken tok)
  obtain ⟨c1, c2⟩ := pushComments_load i o b _ _ _ _ _ h1
  dsimp only at h2
  have k : s'.comments = s1.comments ∧ weigh i o s'.marks ≤ weigh i o s1.marks + (if b = .Required then o else o) := by
    split at h2
    · have := pushGap_load i o h2; exact ⟨this.1, by simp; omega⟩
    · simp only [Res.ok.injEq] at h2; subst h2
      exact ⟨rfl, by simp [FState.push, weigh, Marker.weight]; omega⟩
    · split at h2
      · have := pushGap_load i o h2; exact ⟨this.1, by simp; omega⟩
      · simp only [Res.ok.injEq] at h2; subst h2; exact ⟨rfl, by simp⟩
  have m0 : (s.dropTaken tok).marks = s.marks := rfl
  rw [m0] at i2
  have c2' : weigh i o s1.marks ≤ weigh i o s.marks + o + 2 * o * (s.taken tok).length := by
    have e2 : 2 * o * ((s.taken tok).filter fun c => c.start.line == s.prevLine).length +
        2 * o * ((s.taken tok).filter fun c => !(c.start.line == s.prevLine)).length = 2 * o * (s.taken tok).length := by
      rw [← Nat.mul_add, e1]
    by_cases hb : b = .Required
    · simp only [hb, if_true, FState.push, weigh, Marker.weight] at c2
      omega
    · simp only [hb, if_false] at c2
      omega
  have c1' : s1.comments = (s.dropTaken tok).comments := by
    rw [c1]
    split
    · exact i1
    · exact i1
  simp only [FState.load]
  rw [k.1, c1', e0, Nat.mul_add]
  have := k.2
  simp only [ite_self] at this
  omega

theorem handleToken_load (i o : Nat) (tok : Token) (s : FState) : (s.handleToken tok).load i o ≤ s.load i o + o := by
  have e := taken_length tok s
  simp only [FState.load, FState.handleToken, weigh, Marker.weight]
  have : (s.dropTaken tok).marks = s.marks := rfl
  rw [this, e, Nat.mul_add]
  omega

theorem execF_load (i o : Nat) {sub : SK → Args → FState → Res (Bool × FState)} {cx : Ctx} {B : Nat}
    (hsub : ∀ fn a s w s', sub fn a s = .ok (w, s') → s'.load i o ≤ s.load i o + B) :
    ∀ (c : FCmd) (r : Regs) (s : FState) (r' : Regs) (s' : FState), execF sub cx c r s = .ok (r', s') →
      s'.load i o ≤ s.load i o + c.cost i o + c.calls * B := by
  intro c
  induction c with
  | skip =>
    intro r s r' s' h
    simp only [execF, Res.ok.injEq, Prod.mk.injEq] at h
    obtain ⟨_, rfl⟩ := h
    omega
  | seq a b iha ihb =>
    intro r s r' s' h
    simp only [execF, Res.bind_eq_ok] at h
    obtain ⟨⟨r1, s1⟩, h1, h2⟩ := h
    dsimp only at h2
    have e1 := iha _ _ _ _ h1
    have e2 := ihb _ _ _ _ h2
    simp only [FCmd.cost, FCmd.calls, Nat.add_mul]
    omega
  | ite c a b iha ihb =>
    intro r s r' s' h
    simp only [execF, Res.bind_eq_ok] at h
    obtain ⟨t, h1, h2⟩ := h
    have m1 : a.calls * B ≤ max a.calls b.calls * B := Nat.mul_le_mul_right _ (Nat.le_max_left ..)
    have m2 : b.calls * B ≤ max a.calls b.calls * B := Nat.mul_le_mul_right _ (Nat.le_max_right ..)
    simp only [FCmd.cost, FCmd.calls]
    cases t with
    | true => have := iha _ _ _ _ h2; omega
    | false => have := ihb _ _ _ _ h2; omega
  | space =>
    intro r s r' s' h
    simp only [execF, Res.ok.injEq, Prod.mk.injEq] at h
    obtain ⟨_, rfl⟩ := h
    simp only [FState.load, FState.push, weigh, Marker.weight, FCmd.cost, FCmd.calls]
    omega
  | indent =>
    intro r s r' s' h
    simp only [execF, Res.ok.injEq, Prod.mk.injEq] at h
    obtain ⟨_, rfl⟩ := h
    simp only [FState.load, FState.push, weigh, Marker.weight, FCmd.cost, FCmd.calls]
    omega
  | dedent =>
    intro r s r' s' h
    simp only [execF, Res.ok.injEq, Prod.mk.injEq] at h
    obtain ⟨_, rfl⟩ := h
    simp only [FState.load, FState.push, weigh, Marker.weight, FCmd.cost, FCmd.calls]
    omega
  | tok =>
    intro r s r' s' h
    simp only [execF] at h
    split at h
    · simp only [Res.ok.injEq, Prod.mk.injEq] at h
      obtain ⟨_, rfl⟩ := h
      have := handleToken_load i o ‹Token› s
      simp only [FCmd.cost, FCmd.calls]
      omega
    · cases h
  | brk t b =>
    intro r s r' s' h
    simp only [execF, Res.bind_eq_ok] at h
    obtain ⟨tok, _, s1, h2, h3⟩ := h
    simp only [Res.ok.injEq, Prod.mk.injEq] at h3
    obtain ⟨_, rfl⟩ := h3
    have := handleBreak_load i o h2
    simp only [FCmd.cost, FCmd.calls]
    omega
  | bos c t =>
    intro r s r' s' h
    simp only [execF, Res.bind_eq_ok] at h
    obtain ⟨b, _, tok, _, s1, h2, h3⟩ := h
    simp only [Res.ok.injEq, Prod.mk.injEq] at h3
    obtain ⟨_, rfl⟩ := h3
    simp only [FCmd.cost, FCmd.calls]
    unfold FState.breakOrSpace at h2
    split at h2
    · have := handleBreak_load i o h2; omega
    · simp only [Res.ok.injEq] at h2
      subst h2
      simp only [FState.load, FState.push, weigh, Marker.weight]
      omega
  | call fn m w o' keep =>
    intro r s r' s' h
    simp only [execF, Res.bind_eq_ok] at h
    obtain ⟨_, _, _, _, _, _, ⟨w', s1⟩, h2, h3⟩ := h
    simp only [Res.ok.injEq, Prod.mk.injEq] at h3
    obtain ⟨_, rfl⟩ := h3
    have := hsub _ _ _ _ _ h2
    simp only [FCmd.cost, FCmd.calls]
    omega
  | set v c =>
    intro r s r' s' h
    simp only [execF, Res.bind_eq_ok] at h
    obtain ⟨_, _, h3⟩ := h
    simp only [Res.ok.injEq, Prod.mk.injEq] at h3
    obtain ⟨_, rfl⟩ := h3
    omega
  | setPrevRule =>
    intro r s r' s' h
    simp only [execF] at h
    split at h
    · simp only [Res.ok.injEq, Prod.mk.injEq] at h
      obtain ⟨_, rfl⟩ := h
      omega
    · cases h
  | unreachable =>
    intro r s r' s' h
    simp [execF] at h

/-- The bounds for the formatting functions: `ct` for a token, `cn` for a subtree, `cf` for the rest. -/
structure Bounded (i o ct cn cf : Nat) (b : FBody) : Prop where
  tok : ∀ k, (b.onTok k).cost i o ≤ ct ∧ (b.onTok k).calls = 0
  tree : ∀ k, (b.onTree k).cost i o ≤ cn ∧ (b.onTree k).calls ≤ 1
  around : b.pre.cost i o + b.post.cost i o ≤ cf ∧ b.pre.calls = 0 ∧ b.post.calls = 0

mutual
theorem fmtTree_load {bodies : SK → FBody} {i o ct cn cf : Nat} (hb : ∀ k, Bounded i o ct cn cf (bodies k)) (fn : SK)
    (a : Args) (t : Tree) (s : FState) (w : Bool) (s' : FState) (h : fmtTree bodies fn a t s = .ok (w, s')) :
    s'.load i o + cn ≤ s.load i o + ct * t.leaves.length + (cn + cf) * t.nodes := by
  match t with
  | .tok _ => simp [fmtTree] at h
  | .node k cs =>
    unfold fmtTree at h
    simp only [Res.bind_eq_ok] at h
    obtain ⟨⟨r1, s1⟩, h1, ⟨r2, s2⟩, h2, ⟨r3, s3⟩, h3, h4⟩ := h
    simp only [Res.ok.injEq, Prod.mk.injEq] at h4
    obtain ⟨_, rfl⟩ := h4
    dsimp only at h2 h3
    have e1 := execF_load i o (B := 0) (fun _ _ _ _ _ h => by cases h) _ _ _ _ _ h1
    have e3 := execF_load i o (B := 0) (fun _ _ _ _ _ h => by cases h) _ _ _ _ _ h3
    have e2 := fmtLoop_load hb (bodies fn) (hb fn) cs cs 0 r1 s1 r2 s2 h2
    obtain ⟨a1, a2, a3⟩ := (hb fn).around
    rw [a2] at e1
    rw [a3] at e3
    have e4 : (cn + cf) * (Tree.node k cs).nodes = cn + cf + (cn + cf) * nodesF cs := by
      rw [Tree.nodes, Nat.mul_add, Nat.mul_one]
    rw [e4]
    show _ ≤ _ + ct * (leavesF cs).length + _
    omega
theorem fmtLoop_load {bodies : SK → FBody} {i o ct cn cf : Nat} (hb : ∀ k, Bounded i o ct cn cf (bodies k)) (b : FBody)
    (hb' : Bounded i o ct cn cf b) (all cs : List Tree) (idx : Nat) (r : Regs) (s : FState) (r' : Regs) (s' : FState)
    (h : fmtLoop bodies b all cs idx r s = .ok (r', s')) :
    s'.load i o ≤ s.load i o + ct * (leavesF cs).length + (cn + cf) * nodesF cs := by
  match cs with
  | [] =>
    simp only [fmtLoop, Res.ok.injEq, Prod.mk.injEq] at h
    obtain ⟨_, rfl⟩ := h
    omega
  | .tok t :: rest =>
    unfold fmtLoop at h
    rw [Res.bind_eq_ok] at h
    obtain ⟨⟨r1, s1⟩, h1, h2⟩ := h
    have e1 := execF_load i o (B := 0) (fun fn a s w s' h => by simp [fmtTree] at h) _ _ _ _ _ h1
    have e2 := fmtLoop_load hb b hb' all rest (idx + 1) r1 s1 r' s' h2
    have := hb'.tok t.kind
    have e3 : (leavesF (.tok t :: rest)).length = (leavesF rest).length + 1 := by simp [leavesF, Tree.leaves]
    have e4 : nodesF (.tok t :: rest) = nodesF rest := by simp [nodesF, Tree.nodes]
    rw [e3, e4, Nat.mul_succ]
    simp only at e1
    omega
  | .node k cs :: rest =>
    unfold fmtLoop at h
    rw [Res.bind_eq_ok] at h
    obtain ⟨⟨r1, s1⟩, h1, h2⟩ := h
    have e0 := fun fn a s w s' h => fmtTree_load hb fn a (.node k cs) s w s' h
    have e2 := fmtLoop_load hb b hb' all rest (idx + 1) r1 s1 r' s' h2
    have hk := hb'.tree k
    have hcn : cn ≤ (cn + cf) * (Tree.node k cs).nodes := by
      rw [Tree.nodes, Nat.mul_add, Nat.mul_one]; omega
    generalize hX : ct * (Tree.node k cs).leaves.length = X at e0
    generalize hY : (cn + cf) * (Tree.node k cs).nodes = Y at e0 hcn
    have e1 := execF_load i o (B := X + (Y - cn)) (fun fn a s w s' h => by have := e0 fn a s w s' h; omega) _ _ _ _ _ h1
    have e3 : (leavesF (.node k cs :: rest)).length = (Tree.node k cs).leaves.length + (leavesF rest).length := by
      simp [leavesF]
    have e4 : nodesF (.node k cs :: rest) = (Tree.node k cs).nodes + nodesF rest := rfl
    rw [e3, e4, Nat.mul_add, Nat.mul_add, hX, hY]
    simp only at e1
    have e5 : (b.onTree k).calls * (X + (Y - cn)) ≤ X + (Y - cn) := by
      rcases Nat.le_one_iff_eq_zero_or_eq_one.1 hk.2 with h | h <;> rw [h] <;> simp
    omega
end

/-- the bounds, checked -/
def boundedB (i o ct cn cf : Nat) (b : FBody) : Bool :=
  Tok.all.all (fun k => decide ((b.onTok k).cost i o ≤ ct ∧ (b.onTok k).calls = 0)) &&
  SK.all.all (fun k => decide ((b.onTree k).cost i o ≤ cn ∧ (b.onTree k).calls ≤ 1)) &&
  decide (b.pre.cost i o + b.post.cost i o ≤ cf ∧ b.pre.calls = 0 ∧ b.post.calls = 0)

theorem boundedB_sound {i o ct cn cf : Nat} {b : FBody} (h : boundedB i o ct cn cf b = true) : Bounded i o ct cn cf b := by
  simp only [boundedB, Bool.and_eq_true, List.all_eq_true, decide_eq_true_eq] at h
  exact ⟨fun k => h.1.1 k (by cases k <;> decide), fun k => h.1.2 k (by cases k <;> decide), h.2⟩

theorem bounded_marks : ∀ k, Bounded 1 1 5 6 2 (Fmt.body k) := fun k => boundedB_sound (by cases k <;> decide +kernel)

theorem bounded_indents : ∀ k, Bounded 1 0 1 2 1 (Fmt.body k) := fun k => boundedB_sound (by cases k <;> decide +kernel)

theorem weigh_append (i o : Nat) : ∀ a b : List Marker, weigh i o (a ++ b) = weigh i o a + weigh i o b
  | [], b => by simp [weigh]
  | m :: a, b => by simp only [List.cons_append, weigh, weigh_append i o a b]; omega

theorem weigh_reverse (i o : Nat) : ∀ a : List Marker, weigh i o a.reverse = weigh i o a
  | [] => rfl
  | m :: a => by rw [List.reverse_cons, weigh_append, weigh_reverse i o a]; simp [weigh]; omega

theorem weigh_length : ∀ a : List Marker, weigh 1 1 a = a.length
  | [] => rfl
  | m :: a => by cases m <;> simp [weigh, Marker.weight, weigh_length a] <;> omega

theorem weigh_indents : ∀ a : List Marker, weigh 1 0 a = indents a
  | [] => rfl
  | m :: a => by
    have := weigh_indents a
    cases m <;> simp [weigh, Marker.weight, indents] at this ⊢ <;> omega

theorem format_load {i o ct cn cf : Nat} (hb : ∀ k, Bounded i o ct cn cf (Fmt.body k)) {t : Tree} {C : List Token}
    {ms : List Marker} (h : format t C = .ok ms) :
    weigh i o ms ≤ ct * t.leaves.length + (cn + cf) * t.nodes + 2 * o * C.length := by
  unfold format at h
  split at h
  · cases h
  · simp only [Res.ok.injEq] at h
    subst h
    simp [weigh]
  · rw [Res.bind_eq_ok] at h
    obtain ⟨⟨w, s⟩, h1, h2⟩ := h
    simp only [Res.ok.injEq] at h2
    subst h2
    have := fmtTree_load hb _ _ _ _ _ _ h1
    rw [weigh_reverse]
    simp only [FState.load, FState.init, weigh] at this
    omega

end Mofmt
