import Verif.Proofs.AroundLayout
import Verif.Proofs.AroundText
/-
Another item in a list of elements, equations or statements.
-/
namespace Mofmt
open RE

/-- the items that stand in such a production, each with a semicolon -/
def listItem : SK → Option SK
  | .ElementList => some .Element
  | .EquationSection | .IfEquation | .ForEquation | .WhenEquation => some .Equation
  | .AlgorithmSection | .IfStatement | .ForStatement | .WhileStatement | .WhenStatement => some .Statement
  | _ => none

/-! ### The grammar -/

/-- the derivatives by all words of some symbols -/
def reach (syms : List Sym) : Nat → List RE → List RE
  | 0, S => S
  | n + 1, S => reach syms n ((S.flatMap fun q => syms.map (RE.der · q)).foldl (fun S q => if q ∈ S then S else S ++ [q]) S)

def closedB (r : RE) (S : List RE) : Bool := r ∈ S && S.all fun q => r.syms.all fun a => q.der a ∈ S

def derBy (r : RE) (w : List Sym) : RE := w.foldl (fun r a => r.der a) r

theorem derBy_iff : ∀ (w : List Sym) (r : RE) (v : List Sym), Lang (derBy r w) v ↔ Lang r (w ++ v)
  | [], _, _ => Iff.rfl
  | a :: w, r, v => by rw [derBy, List.foldl_cons, ← derBy, derBy_iff w, der_iff]; rfl

theorem closed_derBy {r : RE} {S : List RE} (h : closedB r S = true) {w : List Sym} (hw : ∀ a ∈ w, a ∈ r.syms) :
    derBy r w ∈ S := by
  simp only [closedB, Bool.and_eq_true, List.all_eq_true, decide_eq_true_eq] at h
  have key : ∀ (w : List Sym) (q : RE), q ∈ S → (∀ a ∈ w, a ∈ r.syms) → derBy q w ∈ S := by
    intro w
    induction w with
    | nil => exact fun q hq _ => hq
    | cons a w ih =>
      intro q hq hw
      exact ih _ (h.2 q hq a (hw a (by simp))) fun b hb => hw b (by simp [hb])
  exact key w r h.1 hw

def insertB (k it : SK) : Bool :=
  let S := reach (Gram.spec k).syms 12 [Gram.spec k]
  closedB (Gram.spec k) S && S.all fun q => ((q.der (.t .Semicolon)).der (.n it)).der (.t .Semicolon) == q.der (.t .Semicolon)

theorem insert_all (k it : SK) (h : listItem k = some it) : insertB k it = true := by
  unfold listItem at h
  split at h <;> cases h <;> decide +kernel

/-- after a semicolon another item may stand -/
theorem list_insert {k it : SK} (h : listItem k = some it) {u v : List Sym} :
    Lang (Gram.spec k) (u ++ .t .Semicolon :: v) ↔
    Lang (Gram.spec k) (u ++ .t .Semicolon :: .n it :: .t .Semicolon :: v) := by
  have hb := insert_all k it h
  simp only [insertB, Bool.and_eq_true, List.all_eq_true, beq_iff_eq] at hb
  have key : (∀ a ∈ u, a ∈ (Gram.spec k).syms) → (((derBy (Gram.spec k) u).der (.t .Semicolon)).der (.n it)).der (.t .Semicolon) =
      (derBy (Gram.spec k) u).der (.t .Semicolon) := fun hu => hb.2 _ (closed_derBy hb.1 hu)
  have e : ∀ (hu : ∀ a ∈ u, a ∈ (Gram.spec k).syms), Lang (Gram.spec k) (u ++ .t .Semicolon :: v) ↔
      Lang (Gram.spec k) (u ++ .t .Semicolon :: .n it :: .t .Semicolon :: v) := by
    intro hu
    rw [← derBy_iff, ← derBy_iff, ← der_iff, ← der_iff (.t .Semicolon) _ (.n it :: _), ← der_iff (.n it), ← der_iff (.t .Semicolon) (RE.der (.n it) _)]
    rw [key hu]
  constructor
  · intro hw
    exact (e fun a ha => syms_complete hw a (by simp [ha])).1 hw
  · intro hw
    exact (e fun a ha => syms_complete hw a (by simp [ha])).2 hw

/-- such a production does not begin with a semicolon -/
theorem list_second {k it : SK} (h : listItem k = some it) {v : List Sym} : ¬ Lang (Gram.spec k) (.t .Semicolon :: v) := by
  intro hw
  rw [← der_iff] at hw
  have : RE.der (.t .Semicolon) (Gram.spec k) = .none := by
    unfold listItem at h
    split at h <;> first | (cases h; done) | decide +kernel
  rw [this] at hw
  cases hw

theorem list_kind {k it : SK} (h : listItem k = some it) : pathKind k = true ∧ pathSym (.n k) = true ∧ pathIn k (.n it) = true := by
  unfold listItem at h
  split at h <;> cases h <;> exact ⟨rfl, rfl, rfl⟩

/-! ### The layout -/

/-- the layout behind a semicolon does not depend on how many children come before it -/
theorem plainF_later {k : SK} (n : Nat) {x y : Tree} (hx : x.sym = y.sym) (hc : endsComma (some x) = endsComma (some y))
    {i j : Nat} (hi : 2 ≤ i) (hj : 2 ≤ j) (lk : Nat) (d : Dec) : ∀ (cs : List Tree),
    plainF k n (some x) i lk d cs = plainF k n (some y) j lk d cs
  | [] => rfl
  | c :: cs => by
    have e : ∀ (cs : List Tree) (prev : Option Tree) (i j lk : Nat) (d : Dec), 2 ≤ i → 2 ≤ j →
        plainF k n prev i lk d cs = plainF k n prev j lk d cs := by
      intro cs
      induction cs with
      | nil => intros; rfl
      | cons c cs ih =>
        intro prev i j lk d hi hj
        rw [plainF, plainF]
        have h1 : (i == 1) = (j == 1) := by
          have a : i ≠ 1 := by omega
          have b : j ≠ 1 := by omega
          rw [beq_false_of_ne a, beq_false_of_ne b]
        rw [h1, ih (some c) (i + 1) (j + 1) _ _ (by omega) (by omega)]
    rw [e _ _ i j _ _ hi hj, plainF, plainF]
    simp only [Option.map_some, hx, hc]

/-- the layout of a production with and without another item behind a semicolon -/
theorem insert_layout {f1 f2 : Token → Token} {d1 d2 : Nat} (h1 : KeepLay d1 f1) (h2 : KeepLay d2 f2) {k it : SK}
    (hk : listItem k = some it) {pre post ds : List Tree} {t t' : Token} (hp : pre ≠ []) (ht : t.kind = .Semicolon)
    (ht' : t'.kind = .Semicolon) (hl : (Tree.node it ds).leaks = 0) :
    (Tree.node k (pre ++ .tok t :: mapTrees f1 post)).leaks =
      (Tree.node k (pre ++ .tok t :: .node it ds :: .tok t' :: mapTrees f2 post)).leaks ∧
    ∀ n w m d, ∃ LA LY LB : List (Dec × Token),
      (Tree.node k (pre ++ .tok t :: mapTrees f1 post)).layout n w m d = LA ++ LB.map (onSnd f1) ∧
      (Tree.node k (pre ++ .tok t :: .node it ds :: .tok t' :: mapTrees f2 post)).layout n w m d = LA ++ LY ++ LB.map (onSnd f2) ∧
      LA.map (·.2) = leavesF pre ++ [t] ∧ LY.map (·.2) = leavesF ds ++ [t'] ∧ LB.map (·.2) = leavesF post := by
  obtain ⟨k1, k2, k3⟩ := list_kind hk
  have app : ∀ a b : List Tree, leaksF k (a ++ b) = leaksF k a + leaksF k b := by
    intro a b
    induction a with
    | nil => simp [leaksF]
    | cons y a ih => simp only [List.cons_append, leaksF, ih]; omega
  have hz : ∀ t : Token, (Tree.tok t).leaks = 0 := fun _ => rfl
  have hlt : ∀ t : Token, t.kind = .Semicolon → (leakChild k (Tree.tok t).sym && (Tree.tok t).wraps) = false := by
    intro t ht
    simp only [Tree.sym, ht]
    unfold listItem at hk
    split at hk <;> first | (cases hk; done) | rfl
  have hli : leakChild k (Tree.node it ds).sym = false := (path_gap k3).2.1
  have g1 : leaksF k (pre ++ .tok t :: mapTrees f1 post) = leaksF k pre + leaksF k post := by
    rw [app, leaksF, hz, hlt t ht, leaksF_map h1]; simp
  have hseg : leaksF k (pre ++ [.tok t, .node it ds, .tok t']) = leaksF k pre := by
    rw [app]
    simp only [leaksF, hz, hl, hlt t ht, hlt t' ht', hli, Bool.false_and]
    simp
  have g2 : leaksF k (pre ++ .tok t :: .node it ds :: .tok t' :: mapTrees f2 post) = leaksF k pre + leaksF k post := by
    have : pre ++ .tok t :: .node it ds :: .tok t' :: mapTrees f2 post =
        (pre ++ [.tok t, .node it ds, .tok t']) ++ mapTrees f2 post := by simp
    rw [this, app, hseg, leaksF_map h2]
  refine ⟨by rw [Tree.leaks, Tree.leaks, g1, g2], fun n w m d => ?_⟩
  have hlen : 1 ≤ pre.length := List.length_pos_iff.2 hp
  let P := pre ++ [Tree.tok t]
  let M := [Tree.node it ds, .tok t']
  have hP : P ≠ [] := by simp [P]
  have hM : M ≠ [] := by simp [M]
  have e1 : pre ++ .tok t :: mapTrees f1 post = P ++ mapTrees f1 post := by simp [P]
  have e2 : pre ++ .tok t :: .node it ds :: .tok t' :: mapTrees f2 post = P ++ (M ++ mapTrees f2 post) := by simp [P, M]
  obtain ⟨x1, _, y1, z1⟩ := plainF_append k n P (mapTrees f1 post) none 0 0 d
  obtain ⟨x2, _, y2, z2⟩ := plainF_append k n P (M ++ mapTrees f2 post) none 0 0 d
  obtain ⟨x3, _, y3, z3⟩ := plainF_append k n M (mapTrees f2 post) (P.getLast?.or none) (0 + P.length) (0 + leaksF k P) .none
  have hlP : leaksF k P = leaksF k pre := by
    show leaksF k (pre ++ [.tok t]) = _
    rw [leaksF_snoc, hz, hlt t ht]; rfl
  have hlM : leaksF k M = 0 := by
    show leaksF k [.node it ds, .tok t'] = 0
    simp only [leaksF, hz, hl, hlt t' ht', hli, Bool.false_and]
    simp
  have gP : P.getLast? = some (.tok t) := by simp [P]
  have gM : M.getLast? = some (.tok t') := by simp [M]
  refine ⟨plainF k n none 0 0 d P, plainF k n (some (.tok t)) P.length (leaksF k pre) .none M,
    plainF k n (some (.tok t)) P.length (leaksF k pre) .none post, ?_, ?_, ?_, ?_, plainF_toks ..⟩
  · rw [Tree.layout, layoutF_plain k1, e1]
    simp only [List.getLast?_nil, List.length_nil, leaksF]
    rw [z1, y1 hP, gP, hlP, Nat.zero_add, Nat.zero_add, ← plainF_map h1]
    simp only [Option.some_or]
    rw [plainF_later n (x := .tok t) (y := (Tree.tok t).map f1) (by simp [Tree.map, Tree.sym, h1.kind]) rfl (i := P.length) (j := P.length)
      (by simp [P]; omega) (by simp [P]; omega)]
    rfl
  · rw [Tree.layout, layoutF_plain k1, e2]
    simp only [List.getLast?_nil, List.length_nil, leaksF]
    rw [z2, y2 hP, z3, y3 hM, gP, gM, hlP, hlM, Nat.zero_add, Nat.zero_add, Nat.add_zero, ← plainF_map h2, List.append_assoc]
    simp only [Option.some_or]
    rw [plainF_later n (x := .tok t') (y := (Tree.tok t).map f2) (by simp [Tree.map, Tree.sym, h2.kind, ht, ht']) rfl
      (i := P.length + M.length) (j := P.length) (by simp [P, M]) (by simp [P]; omega)]
    rfl
  · rw [plainF_toks]
    show leavesF (pre ++ [.tok t]) = _
    rw [leavesF_app]; rfl
  · rw [plainF_toks]
    simp [M, leavesF, Tree.leaves]

/-! ### The text -/

theorem insert_groups (eol : Text) {A Y : Nat} {CA CY CB CB' : List Token} {a y b b' : List (Dec × Token)} {g g' : Dec} {t t' : Token}
    {e1 e2 : Nat} (ha : ∀ z ∈ a, z.2.idx < A) (hy : ∀ z ∈ y, z.2.idx < A + Y) (ht : t.idx < A) (ht' : A ≤ t'.idx ∧ t'.idx < A + Y)
    (cA : ∀ c ∈ CA, c.idx < t.idx) (cY : ∀ c ∈ CY, A ≤ c.idx ∧ c.idx < t'.idx)
    (cB : ∀ c ∈ CB, A ≤ c.idx) (cB' : ∀ c ∈ CB', A + Y ≤ c.idx) (hl : t.stop.line + e2 = t'.stop.line + e1)
    (hb : AlikeDecs A (A + Y) e1 e2 b b') (hc : Alikes A (A + Y) e1 e2 CB CB') :
    ∃ ga gy gb gb', groupsOf eol (CA ++ CB) (a ++ [(g, t)] ++ b) = ga ++ gb ∧
      groupsOf eol (CA ++ (CY ++ CB')) (a ++ [(g, t)] ++ (y ++ [(g', t')]) ++ b') = ga ++ gy ++ gb' ∧
      ga.map (·.tok) = a.map (·.2) ++ [t] ∧ gy.map (·.tok) = y.map (·.2) ++ [t'] ∧
      gb.map (·.tok) = b.map (·.2) ∧ gb'.map (·.tok) = b'.map (·.2) ∧
      gb'.map Group.shown = gb.map Group.shown := by
  have tok : ∀ (L : LS) (ds : List (Dec × Token)), ((L.groups ds).map (PGroup.toGroup eol)).map (·.tok) = ds.map (·.2) := by
    intro L ds
    rw [List.map_map]
    exact LS.groups_tok ds L
  have first : ∀ (R : List Token), (∀ c ∈ R, A ≤ c.idx) →
      (LS.init (CA ++ R)).groups (a ++ [(g, t)]) = (LS.init CA).groups (a ++ [(g, t)]) := by
    intro R hR
    refine groups_behind _ (LS.init CA) R fun z hz c hc => ?_
    have := hR c hc
    rcases List.mem_append.1 hz with hz | hz
    · have := ha z hz; omega
    · simp only [List.mem_singleton] at hz; subst hz; show t.idx ≤ _; omega
  have last : ∀ (ds : List (Dec × Token)) (P R : List Token) (g : Dec) (u : Token), (∀ z ∈ ds, ∀ c ∈ R, z.2.idx ≤ c.idx) →
      (∀ c ∈ P, c.idx < u.idx) → (∀ c ∈ R, u.idx < c.idx) →
      ((LS.init (P ++ R)).run (ds ++ [(g, u)])).comments = R := by
    intro ds P R g u h1 h2 h3
    obtain ⟨P', p1, p2⟩ := run_behind R ds P h1
    rw [run_comments, List.foldl_append]
    show (ds.foldl _ (P ++ R)).dropWhile _ = _
    rw [p2, dropWhile_before fun c hc => h2 c (p1 c hc)]
    cases R with
    | nil => rfl
    | cons c R =>
      rw [List.dropWhile_cons_of_neg]
      have := h3 c (by simp)
      simp only [decide_eq_true_eq]
      omega
  have line : ∀ (L : LS) (ds : List (Dec × Token)) (g : Dec) (u : Token), (L.run (ds ++ [(g, u)])).line = u.stop.line ∧
      (L.run (ds ++ [(g, u)])).out.isEmpty = false := by
    intro L ds g u
    have : L.run (ds ++ [(g, u)]) = (L.run ds).step (g, u) := by simp [LS.run]
    rw [this]
    exact ⟨rfl, rfl⟩
  refine ⟨((LS.init CA).groups (a ++ [(g, t)])).map (PGroup.toGroup eol),
    (((LS.init (CA ++ (CY ++ CB'))).run (a ++ [(g, t)])).groups (y ++ [(g', t')])).map (PGroup.toGroup eol),
    (((LS.init (CA ++ CB)).run (a ++ [(g, t)])).groups b).map (PGroup.toGroup eol),
    (((LS.init (CA ++ (CY ++ CB'))).run (a ++ [(g, t)] ++ (y ++ [(g', t')]))).groups b').map (PGroup.toGroup eol),
    ?_, ?_, by rw [tok]; simp, by rw [tok]; simp, tok _ _, tok _ _, ?_⟩
  · rw [groupsOf, LS.groups_append, first _ cB, List.map_append]
  · rw [groupsOf, LS.groups_append, LS.groups_append, first, List.map_append, List.map_append]
    intro c hc
    rcases List.mem_append.1 hc with hc | hc
    · exact (cY c hc).1
    · have := cB' c hc; omega
  · refine AlikeLS.groups eol hb ⟨?_, ?_, ?_⟩
    · rw [← List.append_assoc (a ++ _), (line _ _ _ _).2, (line _ _ _ _).2]
    · rw [last a CA CB g t ?_ cA ?_, ← List.append_assoc CA, ← List.append_assoc (a ++ _), last (a ++ [(g, t)] ++ y) (CA ++ CY) CB' g' t' ?_ ?_ ?_]
      · exact hc
      · intro z hz c hc
        have := cB' c hc
        simp only [List.mem_append, List.mem_singleton] at hz
        rcases hz with (hz | rfl) | hz
        · have := ha z hz; omega
        · show t.idx ≤ _; omega
        · have := hy z hz; omega
      · intro c hc
        rcases List.mem_append.1 hc with hc | hc
        · have := cA c hc; omega
        · exact (cY c hc).2
      · intro c hc
        have := cB' c hc
        omega
      · intro z hz c hc
        have := cB c hc
        have := ha z hz
        omega
      · intro c hc
        have := cB c hc
        omega
    · rw [← List.append_assoc (a ++ _), (line _ _ _ _).1, (line _ _ _ _).1]
      exact hl

end Mofmt
