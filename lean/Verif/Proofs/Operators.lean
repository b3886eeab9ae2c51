import Verif.Proofs.BreakGroups
/-
Binary operators.
-/
namespace Mofmt

/-! ### Neighbours -/

/-- all neighbours are related -/
def adjStep (R : Sym → Sym → Bool) (st : Option Sym × Bool) (s : Sym) : Option Sym × Bool :=
  (some s, st.2 && match st.1 with
    | none => true
    | some a => R a s)

theorem adj_false {R : Sym → Sym → Bool} : ∀ (w : List Sym) (p : Option Sym), (w.foldl (adjStep R) (p, false)).2 = false
  | [], _ => rfl
  | s :: w, p => by simp only [List.foldl_cons, adjStep, Bool.false_and]; exact adj_false w _

theorem adj_pair {R : Sym → Sym → Bool} {a b : Sym} {post : List Sym} : ∀ {pre : List Sym} {st : Option Sym × Bool},
    ((pre ++ a :: b :: post).foldl (adjStep R) st).2 = true → R a b = true
  | [], st, h => by
    simp only [List.nil_append, List.foldl_cons, adjStep] at h
    cases hR : R a b
    · simp [hR, adj_false] at h
    · rfl
  | c :: pre, st, h => adj_pair (pre := pre) h

/-- after an operator an operand follows -/
def opNext (k : SK) (a b : Sym) : Bool := !operatorIn k a || (match b with | .n _ => true | .t _ => false)

theorem op_next : ∀ k, checkG (adjStep (opNext k)) (fun st => st.2) (Gram.spec k) (none, true) = true := by
  intro k; cases k <;> decide +kernel

theorem operatorIn_eq (k : SK) (s : Sym) : operatorIn k s = nkArm k s := by
  unfold operatorIn nkArm
  split <;> first | rfl | (split <;> first | rfl | simp_all)

/-! ### The decisions at an operator -/

theorem ChildRun.operator {k : SK} {pre post : List Tree} {x o y : Tree} {all : List (Dec × Token)}
    (h : ChildRun k (pre ++ [x]) o (y :: post) all) (ho : operatorIn k o.sym = true) {e op s : Token}
    (he : x.end? = some e) (hl : o.leaves = [op]) (hs : y.start? = some s) :
    ∃ da d dz, all = da ++ (d, op) :: (.space, s) :: dz ∧ (da.map (·.2)).getLast? = some e ∧
      (if s.start.line > e.stop.line then ∃ n, d = .brk .Illegal n else d = .space) := by
  obtain ⟨r1, r2, q, es, u1, u2, da, dy, dz, h1, h2, rfl, h4, h5, h6, h7, ⟨ez, v, h8⟩, _⟩ := h.ex
  have hE := h.full
  simp only [Tree.hasEmpty, Bool.or_eq_false_iff] at hE
  have hEx := hasEmptyF_mem hE.2 x (by simp)
  have hEy := hasEmptyF_mem hE.2 y (by simp)
  have hCo := conformsF_mem h.conforms.2 o (by simp)
  have hnt : ∃ k ds rest', y :: post = .node k ds :: rest' := by
    have := checkG_sound (op_next k) h.conforms.1
    simp only [List.map_append, List.map_cons, List.map_nil] at this
    have := adj_pair this
    simp only [opNext, ho, Bool.not_true, Bool.false_or] at this
    cases y with
    | tok t => cases this
    | node k ds => exact ⟨k, ds, post, rfl⟩
  have hq : q = some e := by
    obtain ⟨e', g1, g2⟩ := end_leaves x hEx
    rw [he] at g2
    cases g2
    rw [← h4]
    obtain ⟨d0, hd0⟩ := h5
    rw [← hd0, leavesF_append, leavesF]
    simp [leavesF, g1]
  subst hq
  have hev := op_events hCo (operatorIn_eq k _ ▸ ho) (by simp) hnt h1
  obtain ⟨b, t, i, oe, g1, g2, g3, rfl⟩ := hev.ex
  obtain ⟨sx, ss, g4, g5⟩ := start_leaves y hEy
  rw [hs] at g5
  cases g5
  have hb : b = decide (s.start.line > e.stop.line) := by
    have : nb { all := pre ++ [x] ++ o :: y :: post, cur := some o, idx := (pre ++ [x]).length, rest := y :: post } (some e)
        = .ok (decide (s.start.line > e.stop.line)) := by
      simp only [nb, evalFC, Ctx.target, startTok]
      obtain ⟨k', ds', rest', hr⟩ := hnt
      cases hr
      simp [startTok, hs, fsOf, lineOf]
    rw [this] at g1
    cases g1
    rfl
  obtain ⟨w1, d1, d2, rfl, k1, k2⟩ := h2.split
  obtain ⟨rfl, k3⟩ := k1.ind g2
  simp only [List.nil_append] at h4 h6 ⊢
  -- the operator
  have hop : ∃ d, d2 = [(d, op)] ∧ u2.d = .space ∧ (if b then ∃ n, d = .brk .Illegal n else d = .space) := by
    have hsp : ∀ {w u : WSt} {es : List TEv} {ds : List (Dec × Token)}, Walk w (oe ++ [.space]) ds u → u.d = .space := by
      intro w u es ds h
      obtain ⟨w', _, _, _, _, hh⟩ := h.split
      cases hh with
      | space hh => cases hh; rfl
    rw [hl] at h6
    obtain ⟨⟨d, t'⟩, rfl, ht⟩ : ∃ z, d2 = [z] ∧ z.2 = op := by
      cases d2 with
      | nil => simp at h6
      | cons z zs =>
        cases zs with
        | nil => exact ⟨z, rfl, by simpa using h6⟩
        | cons _ _ => simp at h6
    cases ht
    refine ⟨d, rfl, ?_⟩
    cases b with
    | true =>
      simp only [if_true] at k2 ⊢
      cases k2 with
      | brk k2 => exact ⟨hsp (es := []) k2, _, k2.pending (by simp) rfl⟩
    | false =>
      simp only [Bool.false_eq_true, if_false] at k2 ⊢
      cases k2 with
      | space k2 => exact ⟨hsp (es := []) k2, k2.pending (by simp) rfl⟩
  obtain ⟨d, rfl, hu, hd⟩ := hop
  rw [leavesF, g4] at h7
  cases dz with
  | nil => simp at h7
  | cons z dz =>
    have hz : z.2 = s := by
      simp only [List.map_cons, List.cons_append, List.cons_prefix_cons] at h7
      exact h7.1.symm
    have hz1 := h8.pending (by rw [hu]; simp) rfl
    obtain ⟨z1, z2⟩ := z
    simp only at hz hz1
    subst hz
    rw [hu] at hz1
    subst hz1
    refine ⟨da, d, dz, by simp, h4, ?_⟩
    rw [hb] at hd
    simpa using hd

end Mofmt
