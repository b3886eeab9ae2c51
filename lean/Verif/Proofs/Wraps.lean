import Verif.Spec.Indent
import Verif.Proofs.BreakRun
/-
The variable `wrapped` of the formatting functions of expressions.
-/
namespace Mofmt

theorem wrapBefore_w {sub : SK → Args → Option Token → Res (Bool × List TEv)} {cx : Ctx} {r r' : Regs}
    {q : Option Token} {es : List TEv} (hnt : ∃ k ds rest, cx.rest = .node k ds :: rest)
    (h : trF sub cx Fmt.wrapBefore r q = .ok (r', es)) :
    ∃ b, nb cx q = .ok b ∧ r'.w = (r.w || b) := by
  obtain ⟨k, ds, rest, hr⟩ := hnt
  have h0 : evalFC cx r (fsOf q) .nextTree = .ok true := by simp only [evalFC, hr]
  simp only [Fmt.wrapBefore, FCmd.when, fblk] at h
  rw [trF, h0, Res.bind_ok, if_pos rfl] at h
  obtain ⟨⟨r1, e1⟩, h1, h⟩ := Res.bind_eq_ok.1 h
  obtain ⟨⟨r2, e2⟩, h2, h⟩ := Res.bind_eq_ok.1 h
  cases h
  obtain ⟨b, h3, h1⟩ := Res.bind_eq_ok.1 h1
  cases h1
  refine ⟨b, h3, ?_⟩
  cases hw : r.w <;> cases b <;>
    simp [trF, evalFC, Regs.set, Regs.get, hw, Res.bind_eq_ok] at h2
  · obtain ⟨_, h2, _⟩ := h2
    subst h2; rfl
  · obtain ⟨_, _, ⟨_, _, h4, _⟩, h2, _⟩ := h2
    subst h2; subst h4; rfl
  · obtain ⟨_, h2, _⟩ := h2
    subst h2; rfl
  · obtain ⟨_, _, h2, _⟩ := h2
    subst h2; rfl

/-- leaves `wrapped` alone -/
def keepsW : FCmd → Bool
  | .seq a b => keepsW a && keepsW b
  | .ite _ a b => keepsW a && keepsW b
  | .set v _ => v != .w
  | .call _ _ _ _ keep => !keep
  | _ => true

theorem keepsW_sound {sub : SK → Args → Option Token → Res (Bool × List TEv)} {cx : Ctx} : ∀ {cmd : FCmd} {r r' : Regs}
    {q : Option Token} {es : List TEv}, keepsW cmd = true → trF sub cx cmd r q = .ok (r', es) → r'.w = r.w := by
  intro cmd
  induction cmd with
  | seq a b ih1 ih2 =>
    intro r r' q es hk h
    simp only [keepsW, Bool.and_eq_true] at hk
    obtain ⟨⟨r1, e1⟩, h1, h⟩ := Res.bind_eq_ok.1 h
    obtain ⟨⟨r2, e2⟩, h2, h⟩ := Res.bind_eq_ok.1 h
    cases h
    rw [ih2 hk.2 h2, ih1 hk.1 h1]
  | ite c a b ih1 ih2 =>
    intro r r' q es hk h
    simp only [keepsW, Bool.and_eq_true] at hk
    obtain ⟨t, g1, h⟩ := Res.bind_eq_ok.1 h
    cases t
    · exact ih2 hk.2 h
    · exact ih1 hk.1 h
  | skip => intro r r' q es hk h; cases h; rfl
  | space => intro r r' q es hk h; cases h; rfl
  | indent => intro r r' q es hk h; cases h; rfl
  | dedent => intro r r' q es hk h; cases h; rfl
  | tok =>
    intro r r' q es hk h
    simp only [trF] at h
    split at h
    · cases h; rfl
    · cases h
  | brk t b =>
    intro r r' q es hk h
    obtain ⟨t, g1, h⟩ := Res.bind_eq_ok.1 h
    cases h; rfl
  | bos c t =>
    intro r r' q es hk h
    obtain ⟨b, g1, h⟩ := Res.bind_eq_ok.1 h
    obtain ⟨t, g2, h⟩ := Res.bind_eq_ok.1 h
    cases h; rfl
  | call fn m w o keep =>
    intro r r' q es hk h
    obtain ⟨m', h1, h⟩ := Res.bind_eq_ok.1 h
    obtain ⟨w', h2, h⟩ := Res.bind_eq_ok.1 h
    obtain ⟨o', h3, h⟩ := Res.bind_eq_ok.1 h
    obtain ⟨⟨y, ee⟩, h4, h⟩ := Res.bind_eq_ok.1 h
    cases h
    cases keep
    · rfl
    · cases hk
  | set v c =>
    intro r r' q es hk h
    obtain ⟨b, h1, h⟩ := Res.bind_eq_ok.1 h
    cases h
    cases v <;> first | rfl | cases hk
  | setPrevRule =>
    intro r r' q es hk h
    simp only [trF] at h
    split at h
    · cases h; rfl
    · cases h
  | unreachable => intro r r' q es hk h; cases h

/-- a call that passes `wrapped` on -/
def passesW : FCmd → Option SK
  | .call fn _ (.reg .w) _ true => some fn
  | _ => none

theorem passesW_sound {sub : SK → Args → Option Token → Res (Bool × List TEv)} {cx : Ctx} {cmd : FCmd} {fn : SK} {r r' : Regs}
    {q : Option Token} {es : List TEv} (hp : passesW cmd = some fn) (h : trF sub cx cmd r q = .ok (r', es)) :
    ∃ a, a.w = r.w ∧ sub fn a q = .ok (r'.w, es) := by
  unfold passesW at hp
  split at hp
  · cases hp
    obtain ⟨m', h1, h⟩ := Res.bind_eq_ok.1 h
    obtain ⟨w', h2, h⟩ := Res.bind_eq_ok.1 h
    obtain ⟨o', h3, h⟩ := Res.bind_eq_ok.1 h
    obtain ⟨⟨y, ee⟩, h4, h⟩ := Res.bind_eq_ok.1 h
    cases h
    cases h2
    exact ⟨_, rfl, h4⟩
  · cases hp

def chainArm (k : SK) : Sym → Bool
  | .n j => passesW (upCmd (Fmt.body k) (.n j)) = some j && exprPart j
  | .t _ => false

theorem chain_arms : ∀ k, exprPart k = true → keepsW (Fmt.body k).pre = true ∧ keepsW (Fmt.body k).post = true ∧
    ∀ s ∈ (Gram.spec k).syms, if operatorIn k s then chainChild k s = false else if chainChild k s then
      chainArm k s = true else keepsW (upCmd (Fmt.body k) s) = true := by
  intro k; cases k <;> decide

theorem nb_eq {all rest : List Tree} {c y : Tree} {idx : Nat} {s : Token} {q : Option Token}
    (hs : y.start? = some s) : nb { all, cur := some c, idx, rest := y :: rest } q = .ok (decide (s.start.line > lineOf q)) := by
  simp [nb, evalFC, Ctx.target, startTok, hs, fsOf]

/-- `wrapped` after an operator -/
theorem op_w {fn : SK} {all rest : List Tree} {c : Tree} {idx : Nat} {r r' : Regs} {q : Option Token}
    {e : List TEv} (hn : nkArm fn c.sym = true) (hnt : ∃ k ds rest', rest = .node k ds :: rest')
    (h : trF (subOf c) { all, cur := some c, idx, rest } (upCmd (Fmt.body fn) c.sym) r q = .ok (r', e)) :
    (idx > 0 → ∃ b, nb { all, cur := some c, idx, rest } q = .ok b ∧ r'.w = (r.w || b)) ∧
    (idx = 0 → c.sym = .n .AddOperator → r'.w = r.w) := by
  have hop : ∀ {P : FCmd}, keepsW P = true → trF (subOf c) { all, cur := some c, idx, rest }
      (fblk [Fmt.wrapBefore, P, .space]) r q = .ok (r', e) →
      ∃ b, nb { all, cur := some c, idx, rest } q = .ok b ∧ r'.w = (r.w || b) := by
    intro P hP h
    obtain ⟨⟨r1, e1⟩, h1, h⟩ := Res.bind_eq_ok.1 h
    obtain ⟨⟨r2, e2⟩, h2, h⟩ := Res.bind_eq_ok.1 h
    cases h
    obtain ⟨b, g1, g2⟩ := wrapBefore_w hnt h1
    refine ⟨b, g1, ?_⟩
    rw [← g2]
    exact keepsW_sound (by simp [fblk, keepsW, hP]) h2
  have h' := h
  generalize hs : c.sym = s at hn h
  unfold nkArm at hn
  split at hn
  · exact ⟨fun _ => hop (P := .tok) rfl h, fun _ hc => by cases hc⟩
  · exact ⟨fun _ => hop (P := .tok) rfl h, fun _ hc => by cases hc⟩
  · exact ⟨fun _ => hop (P := .tok) rfl h, fun _ hc => by cases hc⟩
  · exact ⟨fun _ => hop (P := .tok) rfl h, fun _ hc => by cases hc⟩
  · exact ⟨fun _ => hop (P := Fmt.go .RelationalOperator) rfl h, fun _ hc => by cases hc⟩
  · constructor
    · intro hi
      have he : ∀ r q, evalFC { all, cur := some c, idx, rest } r (fsOf q) (.idxGt 0) = .ok true := by
        intro r q; simp [evalFC, hi]
      refine hop (P := Fmt.go .AddOperator) rfl ?_
      have h : trF (subOf c) { all, cur := some c, idx, rest }
        (fblk [.when (.idxGt 0) Fmt.wrapBefore, Fmt.go .AddOperator, .when (.idxGt 0) .space]) r q = .ok (r', e) := h
      simp only [fblk, FCmd.when, trF] at h ⊢
      simp only [he, Res.bind_ok, if_true] at h
      exact h
    · intro hi _
      subst hi
      have h : trF (subOf c) { all, cur := some c, idx := 0, rest }
        (fblk [.when (.idxGt 0) Fmt.wrapBefore, Fmt.go .AddOperator, .when (.idxGt 0) .space]) r q = .ok (r', e) := h
      obtain ⟨⟨r1, e1⟩, h1, h⟩ := Res.bind_eq_ok.1 h
      obtain ⟨⟨r2, e2⟩, h2, h⟩ := Res.bind_eq_ok.1 h
      cases h
      cases h1
      exact keepsW_sound (by rfl) h2
  · exact ⟨fun _ => hop (P := Fmt.go .MulOperator) rfl h, fun _ hc => by cases hc⟩
  · cases hn

/-- operators do not come first, except for signs -/
def firstOk (k : SK) (st : Bool × Bool) (s : Sym) : Bool × Bool :=
  (false, st.2 && (!st.1 || !operatorIn k s || s == .n .AddOperator))

theorem op_first : ∀ k, exprPart k = true → checkG (firstOk k) (fun st => st.2) (Gram.spec k) (true, true) = true := by
  intro k; cases k <;> first | (intro h; cases h; done) | (intro _; decide +kernel)

theorem firstOk_head {k : SK} {s : Sym} {w : List Sym} (h : ((s :: w).foldl (firstOk k) (true, true)).2 = true) :
    operatorIn k s = true → s = .n .AddOperator := by
  intro ho
  have key : ∀ (w : List Sym) (b : Bool), (w.foldl (firstOk k) (b, false)).2 = false := by
    intro w
    induction w with
    | nil => intro b; rfl
    | cons s w ih => intro b; simp only [List.foldl_cons, firstOk, Bool.false_and]; exact ih _
  simp only [List.foldl_cons, firstOk, ho] at h
  cases hs : (s == Sym.n .AddOperator)
  · simp [hs, key] at h
  · simpa using hs

theorem op_last : ∀ k, exprPart k = true → checkG (fun _ s => operatorIn k s) (fun st => !st) (Gram.spec k) false = true := by
  intro k; cases k <;> first | (intro h; cases h; done) | (intro _; decide +kernel)

/-- `wrapped` after a child -/
theorem wraps_step {k : SK} (hk : exprPart k = true) {all pre cs : List Tree} {c : Tree} {prev : Option Tree}
    (hL : Lang (Gram.spec k) (all.map Tree.sym)) (ha : all = pre ++ c :: cs) (hp : prev = pre.getLast?)
    (hEp : ∀ x ∈ pre, x.hasEmpty = false) (hE : c.hasEmpty = false ∧ hasEmptyF cs = false) {idx : Nat} {r r1 : Regs}
    {q : Option Token} {e : List TEv} (hi : idx = pre.length) (hq : ∀ x, prev = some x → q = x.end?)
    (hrun : ∀ {fn a q w es}, c.sym = .n fn → exprPart fn = true → subOf c fn a q = .ok (w, es) → w = (a.w || c.wraps))
    (g1 : trF (subOf c) { all, cur := some c, idx, rest := cs } (upCmd (Fmt.body k) c.sym) r q = .ok (r1, e)) :
    r1.w = (r.w || (wrapsAt k prev c cs.head? || (chainChild k c.sym && c.wraps))) := by
  have hsym := syms_complete hL c.sym (List.mem_map_of_mem (by simp [ha]))
  have k3 := (chain_arms k hk).2.2 c.sym hsym
  split at k3
  · rename_i ho
    rw [k3, Bool.false_and, Bool.or_false]
    have hnt : cs ≠ [] → ∃ k ds rest', cs = .node k ds :: rest' := by
      intro hne
      cases cs with
      | nil => exact absurd rfl hne
      | cons y ys =>
        have := checkG_sound (op_next k) hL
        rw [ha] at this
        simp only [List.map_append, List.map_cons] at this
        have := adj_pair this
        simp only [opNext, ho, Bool.not_true, Bool.false_or] at this
        cases y with
        | tok t => cases this
        | node k ds => exact ⟨k, ds, ys, rfl⟩
    have hne : cs ≠ [] := by
      rintro rfl
      have := checkG_sound (op_last k hk) hL
      rw [ha] at this
      simp [ho] at this
    obtain ⟨j, ds, rest, rfl⟩ := hnt hne
    have hw := op_w (operatorIn_eq k _ ▸ ho) ⟨j, ds, rest, rfl⟩ g1
    simp only [hasEmptyF, Bool.or_eq_false_iff] at hE
    obtain ⟨s, ss, j1, j2⟩ := start_leaves _ hE.2.1
    rw [nb_eq j2] at hw
    cases hpr : prev with
    | none =>
      rw [hpr] at hp
      have hpre : pre = [] := List.getLast?_eq_none_iff.mp hp.symm
      subst hpre
      have := checkG_sound (op_first k hk) hL
      rw [ha] at this
      rw [hw.2 hi (firstOk_head this ho)]
      simp [wrapsAt]
    | some x =>
      have hidx : idx > 0 := by
        rw [hi]
        cases pre with
        | nil => rw [hpr] at hp; cases hp
        | cons _ _ => simp
      have hx : x.hasEmpty = false := by
        rw [hpr] at hp
        exact hEp x (List.mem_of_getLast? hp.symm)
      obtain ⟨t, t1, t2⟩ := end_leaves x hx
      obtain ⟨b, b1, b2⟩ := hw.1 hidx
      cases b1
      rw [b2, hq x hpr, t2]
      simp [wrapsAt, ho, t2, j2, lineOf]
  · rename_i ho
    have hwf : wrapsAt k prev c cs.head? = false := by simp [wrapsAt, ho]
    rw [hwf, Bool.false_or]
    split at k3
    · rename_i hc
      cases c with
      | tok t => cases k3
      | node j ds =>
        have k3 : chainArm k (.n j) = true := k3
        simp only [chainArm, Bool.and_eq_true, decide_eq_true_eq] at k3
        obtain ⟨a, j1, j2⟩ := passesW_sound k3.1 g1
        rw [hc, Bool.true_and, ← j1]
        exact hrun rfl k3.2 j2
    · rename_i hc
      rw [keepsW_sound k3 g1]
      simp [hc]

mutual
/-- `wrapped` tells if the expression wraps. -/
theorem wraps_run : (t : Tree) → t.Conforms → t.hasEmpty = false → ∀ {fn a q w es}, t.sym = .n fn → exprPart fn = true →
    subOf t fn a q = .ok (w, es) → w = (a.w || t.wraps)
  | .tok _, _, _, _, _, _, _, _, hs, _, _ => by cases hs
  | .node k cs, hC, hE, fn, a, q, w, es, hs, hk, h => by
    cases hs
    simp only [Tree.hasEmpty, Bool.or_eq_false_iff] at hE
    obtain ⟨r1, e1, ess, r2, r3, e3, h1, h2, h3, rfl, rfl, i1, i3⟩ := trTree_inv h
    obtain ⟨k1, k2, k3⟩ := chain_arms k hk
    rw [keepsW_sound k2 h3, Tree.wraps]
    have hw : r1.w = a.w := by rw [keepsW_sound k1 h1]
    rw [← hw]
    exact wraps_steps cs hk (fun s hs => by simpa using hs) hC.1 [] none rfl (by simp) (by simp) hC.2 hE.2 h2 (by simp) (by simp)
/-- `wraps_run` for the children -/
theorem wraps_steps : (cs : List Tree) → {k : SK} → exprPart k = true → {all : List Tree} → (∀ c ∈ cs, c ∈ all) →
    Lang (Gram.spec k) (all.map Tree.sym) → ∀ (pre : List Tree) (prev : Option Tree), all = pre ++ cs →
    prev = pre.getLast? → (∀ x ∈ pre, x.hasEmpty = false) → ConformsF cs → hasEmptyF cs = false → ∀ {idx : Nat} {r r' : Regs} {q : Option Token} {ess : List (List TEv)},
    Steps (Fmt.body k) all cs idx r q ess r' → idx = pre.length → (∀ x, prev = some x → q = x.end?) →
    r'.w = (r.w || wrapsF k prev cs)
  | [], k, _, all, _, _, pre, prev, _, _, _, _, _, idx, r, r', q, ess, h, _, _ => by
    cases h
    simp [wrapsF]
  | c :: cs, k, hk, all, hm, hL, pre, prev, ha, hp, hEp, hC, hE, idx, r, r', q, ess, h, hi, hq => by
    cases h with
    | @cons _ _ _ _ _ r1 e ess' _ g1 g2 =>
      simp only [hasEmptyF, Bool.or_eq_false_iff] at hE
      have hsym := syms_complete hL c.sym (List.mem_map_of_mem (hm c List.mem_cons_self))
      have ht : toks e = c.leaves := by
        have := once_toks (c := c) rfl (printed c hC.1) (once_all k _ hsym) g1
        simpa using this.2
      have ih := wraps_steps cs hk (fun d hd => hm d (List.mem_cons_of_mem _ hd)) hL (pre ++ [c]) (some c) (by simp [ha])
        (by simp) (by intro x hx; rcases List.mem_append.mp hx with hx | hx; exact hEp x hx; cases List.mem_singleton.mp hx; exact hE.1)
        hC.2 hE.2 g2 (by simp [hi]) (by
          intro x hx
          cases hx
          obtain ⟨t, j1, j2⟩ := end_leaves c hE.1
          rw [j2, lastT_toks e q t (by rw [ht]; exact j1)])
      rw [ih, wrapsF]
      have hstep := wraps_step hk hL ha hp hEp hE hi hq (fun hs hf h => wraps_run c hC.1 hE.1 hs hf h) g1
      rw [hstep, Bool.or_assoc]
end

end Mofmt
