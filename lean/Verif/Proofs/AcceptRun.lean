import Verif.Proofs.AcceptTable
import Verif.Proofs.Conform
/-
Soundness of the symbolic execution in Accept.lean.
-/
namespace Mofmt
namespace Acc

/-! ### Sets -/

theorem has_or (a b : KSet) (k : Tok) : KSet.has (a ||| b) k = (KSet.has a k || KSet.has b k) := by
  simp [KSet.has, Nat.testBit_or]

theorem has_union {k : Tok} : ∀ {l : List KSet} {m : KSet}, m ∈ l → m.has k = true → (union l).has k = true
  | x :: xs, m, hm, h => by
    simp only [union, List.foldr_cons, has_or, Bool.or_eq_true]
    rcases List.mem_cons.1 hm with rfl | hm
    · exact .inl h
    · exact .inr (has_union hm h)

theorem has_subset {a b : KSet} {k : Tok} (h : subset a b = true) (hk : a.has k = true) : b.has k = true := by
  simp only [subset, decide_eq_true_eq] at h
  have := KSet.has_diff a b k
  rw [h, KSet.has_zero, hk] at this
  simpa using this

theorem split_mem {m ks : KSet} {f : KSet → St} {k : Tok} (h : m.has k = true) :
    ∃ m', (ks.has k, f m') ∈ split m ks f ∧ m'.has k = true := by
  unfold split
  cases hb : ks.has k with
  | true =>
    have h1 : (KSet.inter m ks).has k = true := by simp [h, hb]
    refine ⟨KSet.inter m ks, ?_, h1⟩
    unfold pick
    split
    · rename_i e; rw [e, KSet.has_zero] at h1; simp at h1
    · simp
  | false =>
    have h1 : (KSet.diff m ks).has k = true := by simp [h, hb]
    refine ⟨KSet.diff m ks, ?_, h1⟩
    simp only [pick]
    rw [if_neg (c := KSet.diff m ks = 0) (by intro e; rw [e, KSet.has_zero] at h1; simp at h1)]
    simp

theorem shut_opens {p k : SK} {x : Tok} (h : opens p k x = true) : (shut p k).has x = false := by
  unfold shut
  unfold opens at h
  split
  · rename_i e; subst e
    simp only [beq_self_eq_true, Bool.true_and] at h
    split
    · rename_i e; subst e
      simp at h
      simp [h.1, h.2]
    · rename_i e
      simp at h
      simp [h.1]
  · exact KSet.has_zero _

/-! ### Trees -/

mutual
theorem leaves_pos (t : Tree) (h : t.hasEmpty = false) : ∃ x xs, t.leaves = x :: xs := by
  match t with
  | .tok x => exact ⟨x, [], rfl⟩
  | .node k cs =>
    simp only [Tree.hasEmpty, Bool.or_eq_false_iff] at h
    exact leavesF_pos cs (by simpa using h.1) h.2
theorem leavesF_pos (cs : List Tree) (hne : cs ≠ []) (h : hasEmptyF cs = false) :
    ∃ x xs, leavesF cs = x :: xs := by
  match cs with
  | [] => exact absurd rfl hne
  | c :: cs =>
    simp only [hasEmptyF, Bool.or_eq_false_iff] at h
    obtain ⟨x, xs, e⟩ := leaves_pos c h.1
    exact ⟨x, xs ++ leavesF cs, by simp [leavesF, e]⟩
end

/-- Children of `p` the theorem speaks about. -/
structure Good (p : SK) (cs : List Tree) : Prop where
  conf : ConformsF cs
  full : hasEmptyF cs = false
  starts : ∀ c ∈ cs, c.startsOk p = true
  opens : OpensF cs

theorem Good.tail {p : SK} {c : Tree} {cs : List Tree} (h : Good p (c :: cs)) : Good p cs where
  conf := h.conf.2
  full := by have := h.full; simp only [hasEmptyF, Bool.or_eq_false_iff] at this; exact this.2
  starts := fun d hd => h.starts d (List.mem_cons_of_mem _ hd)
  opens := h.opens.2

theorem Good.head_full {p : SK} {c : Tree} {cs : List Tree} (h : Good p (c :: cs)) : c.hasEmpty = false := by
  have := h.full; simp only [hasEmptyF, Bool.or_eq_false_iff] at this; exact this.1

/-- the children of a child -/
theorem Good.down {p k : SK} {ds cs : List Tree} (h : Good p (.node k ds :: cs)) :
    Good k ds ∧ Lang (Gram.spec k) (ds.map Tree.sym) ∧ ds ≠ [] := by
  have hc := h.conf.1
  have hf := h.head_full
  have ho := h.opens.1
  simp only [Tree.Conforms] at hc
  simp only [Tree.hasEmpty, Bool.or_eq_false_iff] at hf
  simp only [Tree.Opens] at ho
  exact ⟨⟨hc.2, hf.2, ho.1, ho.2⟩, hc.1, by simpa using hf.1⟩

/-- first kind of a list of tokens -/
def kd (l : List Token) (n : Nat) : Tok := ((l[n]?).map (·.kind)).getD .EOF

section
variable {T : Tab}

mutual
theorem firstIn_has (hT : ∀ k, k ≠ .Error → subset (firsts T k (Gram.spec k)) (T.fst k) = true)
    {p : SK} (c : Tree) (hc : c.Conforms) (hf : c.hasEmpty = false) (hs : c.startsOk p = true)
    (ho : c.Opens) (x : Token) (xs : List Token) (hl : c.leaves = x :: xs) :
    (firstIn T p c.sym).has x.kind = true := by
  match c with
  | .tok t =>
    simp only [Tree.leaves, List.cons.injEq] at hl
    simp [Tree.sym, firstIn, hl.1]
  | .node k cs =>
    simp only [Tree.Conforms] at hc
    simp only [Tree.hasEmpty, Bool.or_eq_false_iff] at hf
    simp only [Tree.Opens] at ho
    simp only [Tree.leaves] at hl
    simp only [Tree.startsOk, hl] at hs
    have hne : k ≠ .Error := by rintro rfl; exact lang_none hc.1
    simp only [Tree.sym, firstIn, KSet.has_diff, Bool.and_eq_true, Bool.not_eq_true']
    refine ⟨?_, shut_opens hs⟩
    apply has_subset (hT k hne)
    exact firsts_has hT cs hc.1 hc.2 hf.2 ho.1 ho.2 x xs hl
theorem firsts_has (hT : ∀ k, k ≠ .Error → subset (firsts T k (Gram.spec k)) (T.fst k) = true)
    {p : SK} {r : RE} (cs : List Tree) (hL : Lang r (cs.map Tree.sym)) (hc : ConformsF cs)
    (hf : hasEmptyF cs = false) (hs : ∀ c ∈ cs, c.startsOk p = true) (ho : OpensF cs)
    (x : Token) (xs : List Token) (hl : leavesF cs = x :: xs) : (firsts T p r).has x.kind = true := by
  match cs with
  | [] => simp [leavesF] at hl
  | c :: cs' =>
    simp only [ConformsF] at hc
    simp only [hasEmptyF, Bool.or_eq_false_iff] at hf
    simp only [OpensF] at ho
    obtain ⟨y, ys, e⟩ := leaves_pos c hf.1
    have hx : y = x := by simp [leavesF, e] at hl; exact hl.1
    subst hx
    have h1 := firstIn_has hT (p := p) c hc.1 hf.1 (hs c (by simp)) ho.1 y ys e
    refine has_union (List.mem_map.mpr ⟨c.sym, mem_dedup.mpr (first_complete (u := cs'.map Tree.sym) ?_), rfl⟩) h1
    simpa using hL
end

variable (T) in
/-- what comes after the production `p` -/
structure Foll (p : SK) (rest : List Token) : Prop where
  kind : (T.fol p).has (kd rest 0) = true
  dot : p = .Name → kd rest 0 = .Dot → kd rest 1 = .LCurly

theorem kd_append {a b : List Token} {x : Token} {xs : List Token} (h : a = x :: xs) : kd (a ++ b) 0 = x.kind := by
  simp [kd, h]

/-- The next token after some children. -/
theorem follows_has (hT : ∀ k, k ≠ .Error → subset (firsts T k (Gram.spec k)) (T.fst k) = true)
    {p : SK} {r : RE} {cs : List Tree} {rest : List Token} (hg : Good p cs) (hL : Lang r (cs.map Tree.sym))
    (hr : Foll T p rest) : (follows T p r).has (kd (leavesF cs ++ rest) 0) = true := by
  unfold follows
  rw [has_or, Bool.or_eq_true]
  cases cs with
  | nil =>
    right
    rw [if_pos ((nullable_iff r).mpr (by simpa using hL))]
    simpa [leavesF] using hr.kind
  | cons c cs =>
    left
    obtain ⟨x, xs, e⟩ := leavesF_pos (c :: cs) (by simp) hg.full
    rw [kd_append e]
    exact firsts_has hT _ hL hg.conf hg.full hg.starts hg.opens x xs e

theorem second_has (hT : ∀ k, k ≠ .Error → subset (firsts T k (Gram.spec k)) (T.fst k) = true) :
    ∀ (n : Nat) {j : SK} {cs : List Tree} {x : Token} {xs : List Token}, Good j cs →
    Lang (Gram.spec j) (cs.map Tree.sym) → leavesF cs = x :: xs →
    (xs = [] → (second T n j x.kind).2 = true) ∧
    (∀ y ys, xs = y :: ys → (second T n j x.kind).1.has y.kind = true) := by
  intro n
  induction n with
  | zero => intro j cs x xs _ _ _; exact ⟨fun _ => rfl, fun y ys _ => by simp [second]⟩
  | succ n ih =>
    intro j cs x xs hg hL hl
    cases cs with
    | nil => simp [leavesF] at hl
    | cons c cs =>
    have hL' : Lang (Gram.spec j) (c.sym :: cs.map Tree.sym) := by simpa using hL
    have hm : c.sym ∈ dedup (Gram.spec j).first := mem_dedup.mpr (first_complete hL')
    have hd := (der_iff c.sym (Gram.spec j) _).mpr hL'
    have fold : ∀ (l : List (KSet × Bool)) (q : KSet × Bool), q ∈ l →
        (q.2 = true → (l.foldr (fun q a => (q.1 ||| a.1, q.2 || a.2)) ((0 : KSet), false)).2 = true) ∧
        (∀ k, q.1.has k = true → KSet.has (l.foldr (fun q a => (q.1 ||| a.1, q.2 || a.2)) ((0 : KSet), false)).1 k = true) := by
      intro l
      induction l with
      | nil => intro q hq; cases hq
      | cons z zs ihz =>
        intro q hq
        simp only [List.foldr_cons, has_or, Bool.or_eq_true]
        rcases List.mem_cons.1 hq with rfl | hq
        · exact ⟨fun h => .inl h, fun k h => .inl h⟩
        · exact ⟨fun h => .inr ((ihz q hq).1 h), fun k h => .inr ((ihz q hq).2 k h)⟩
    have rest : ∀ z zs, leavesF cs = z :: zs → (firsts T j ((Gram.spec j).der c.sym)).has z.kind = true :=
      fun z zs e => firsts_has hT cs hd hg.tail.conf hg.tail.full hg.tail.starts hg.tail.opens z zs e
    have last : leavesF cs = [] → ((Gram.spec j).der c.sym).nullable = true := by
      intro e
      cases cs with
      | nil => exact (nullable_iff _).mpr (by simpa using hd)
      | cons d ds =>
        obtain ⟨z, zs, e'⟩ := leavesF_pos (d :: ds) (by simp) hg.tail.full
        rw [e'] at e; simp at e
    suffices ∃ q ∈ ((dedup (Gram.spec j).first).map fun b =>
        match b with
        | .t k => if k = x.kind then (firsts T j ((Gram.spec j).der b), ((Gram.spec j).der b).nullable) else ((0 : KSet), false)
        | .n i =>
          if (firstIn T j b).has x.kind then
            if (second T n i x.kind).2 then
              ((second T n i x.kind).1 ||| firsts T j ((Gram.spec j).der b), ((Gram.spec j).der b).nullable)
            else ((second T n i x.kind).1, false)
          else (0, false)), (xs = [] → q.2 = true) ∧ (∀ y ys, xs = y :: ys → q.1.has y.kind = true) by
      obtain ⟨q, hq, h1, h2⟩ := this
      have := fold _ q hq
      exact ⟨fun e => this.1 (h1 e), fun y ys e => this.2 _ (h2 y ys e)⟩
    match c, hg, hL, hl, hL', hm, hd, rest, last with
    | .tok t, hg, hL, hl, hL', hm, hd, rest, last =>
      replace hm : Sym.t t.kind ∈ dedup (Gram.spec j).first := hm
      refine ⟨_, List.mem_map.mpr ⟨.t t.kind, hm, rfl⟩, ?_⟩
      have hl2 : t :: leavesF cs = x :: xs := hl
      simp only [List.cons.injEq] at hl2
      obtain ⟨hx, hl2⟩ := hl2
      subst hx
      simp only [if_true]
      exact ⟨fun e => last (hl2.trans e), fun y ys e => rest y ys (hl2.trans e)⟩
    | .node i ds, hg, hL, hl, hL', hm, hd, rest, last =>
      obtain ⟨g1, g2, g3⟩ := hg.down
      obtain ⟨y, ys, e⟩ := leavesF_pos ds g3 g1.full
      have hx : y = x ∧ ys ++ leavesF cs = xs := by simpa [leavesF, Tree.leaves, e] using hl
      obtain ⟨rfl, rfl⟩ := hx
      have hf := firstIn_has hT (p := j) (.node i ds) hg.conf.1 hg.head_full (hg.starts _ (by simp)) hg.opens.1 y ys e
      obtain ⟨i1, i2⟩ := ih g1 g2 e
      replace hm : Sym.n i ∈ dedup (Gram.spec j).first := hm
      refine ⟨_, List.mem_map.mpr ⟨.n i, hm, rfl⟩, ?_⟩
      replace hf : (firstIn T j (.n i)).has y.kind = true := hf
      replace rest : ∀ z zs, leavesF cs = z :: zs → (firsts T j ((Gram.spec j).der (.n i))).has z.kind = true := rest
      replace last : leavesF cs = [] → ((Gram.spec j).der (.n i)).nullable = true := last
      simp only [if_pos hf]
      constructor
      · intro h
        obtain ⟨h1, h2⟩ := List.append_eq_nil_iff.1 h
        rw [if_pos (i1 h1)]
        exact last h2
      · intro z zs h
        cases ys with
        | nil =>
          rw [if_pos (i1 rfl)]
          simp only [has_or, Bool.or_eq_true]
          exact .inr (rest z zs (by simpa using h))
        | cons w ws =>
          simp only [List.cons_append, List.cons.injEq] at h
          obtain ⟨rfl, _⟩ := h
          have := i2 w ws rfl
          split
          · simp only [has_or, Bool.or_eq_true]; exact .inl this
          · exact this

theorem third_has (hT : ∀ k, k ≠ .Error → subset (firsts T k (Gram.spec k)) (T.fst k) = true)
    {j : SK} {cs : List Tree} {rest : List Token} (hg : Good j cs) (hne : cs ≠ [])
    (hL : Lang (Gram.spec j) (cs.map Tree.sym)) : (third T j).has (kd (leavesF cs ++ rest) 2) = true := by
  cases cs with
  | nil => exact absurd rfl hne
  | cons c cs =>
  have hL' : Lang (Gram.spec j) (c.sym :: cs.map Tree.sym) := by simpa using hL
  have hm : c.sym ∈ dedup (Gram.spec j).first := mem_dedup.mpr (first_complete hL')
  have hd := (der_iff c.sym (Gram.spec j) _).mpr hL'
  match c, hg, hL, hL', hm, hd with
  | .node i ds, _, _, _, hm, _ =>
    replace hm : Sym.n i ∈ dedup (Gram.spec j).first := hm
    exact has_union (List.mem_map.mpr ⟨.n i, hm, rfl⟩) (by simp)
  | .tok t, hg, hL, hL', hm, hd =>
    replace hm : Sym.t t.kind ∈ dedup (Gram.spec j).first := hm
    replace hd : Lang ((Gram.spec j).der (.t t.kind)) (cs.map Tree.sym) := hd
    refine has_union (List.mem_map.mpr ⟨.t t.kind, hm, rfl⟩) ?_
    dsimp only
    split
    · simp
    · rename_i hn
      cases cs with
      | nil => exact absurd ((nullable_iff _).mpr (by simpa using hd)) hn
      | cons d ds =>
        have hd' : Lang ((Gram.spec j).der (.t t.kind)) (d.sym :: ds.map Tree.sym) := by simpa using hd
        have hm2 := mem_dedup.mpr (first_complete hd')
        have hdd := (der_iff d.sym _ _).mpr hd'
        match d, hg, hdd, hm2 with
        | .node i _, _, _, hm2 =>
          replace hm2 : Sym.n i ∈ dedup ((Gram.spec j).der (.t t.kind)).first := hm2
          exact has_union (List.mem_map.mpr ⟨.n i, hm2, rfl⟩) (by simp)
        | .tok u, hg, hdd, hm2 =>
          replace hm2 : Sym.t u.kind ∈ dedup ((Gram.spec j).der (.t t.kind)).first := hm2
          refine has_union (List.mem_map.mpr ⟨.t u.kind, hm2, rfl⟩) ?_
          replace hdd : Lang (((Gram.spec j).der (.t t.kind)).der (.t u.kind)) (ds.map Tree.sym) := hdd
          dsimp only
          split
          · simp
          · rename_i hn2
            cases ds with
            | nil => exact absurd ((nullable_iff _).mpr (by simpa using hdd)) hn2
            | cons e es =>
              have gt := hg.tail.tail
              obtain ⟨z, zs, ez⟩ := leavesF_pos (e :: es) (by simp) gt.full
              have := firsts_has hT _ hdd gt.conf gt.full gt.starts gt.opens z zs ez
              have hk : kd (leavesF (.tok t :: .tok u :: e :: es) ++ rest) 2 = z.kind := by
                rw [leavesF, leavesF, ez]
                simp [Tree.leaves, kd]
              rw [hk]; exact this


/-! ### States -/

variable {toks : List Token} {name : Text}

theorem kindAt_kd {s : PState} {l : List Token} (h : toks.drop s.pos = l) (n : Nat) : kindAt toks s n = kd l n := by
  simp only [kindAt, kd, ← h, List.getElem?_drop]

variable (toks) in
/-- The abstract state describes the state: `cs` are the children of `p` still to come, `rest` the tokens
after the production, `u` the number of lookaheads made when it was entered. -/
structure At (p : SK) (rest : List Token) (u : Nat) (st : St) (s : PState) (cs : List Tree) : Prop where
  here : toks.drop s.pos = leavesF cs ++ rest
  le : s.pos ≤ toks.length
  shape : match st.a with
    | none => cs = []
    | some a => ∃ c cs', cs = c :: cs' ∧ c.sym = a ∧ Lang st.r (cs'.map Tree.sym)
  x : st.x.has (kindAt toks s 0) = true
  life : s.lifes ≤ 100
  used : 100 ≤ s.lifes + (if st.adv then st.off else u + st.off)
  last : st.now = true → s.last = kindAt toks s 0
  ls : st.now = false → st.ls.has s.last = true

variable (toks) in
/-- From `s` to `s'` the children `cs` without `cs'` were passed, and no error was reported. -/
def Did (s s' : PState) (cs cs' : List Tree) : Prop :=
  ∃ F, Grew toks s s' F ∧ s'.errors = s.errors ∧ cs = pruneF F ++ cs'

theorem Did.refl {s s' : PState} (hle : s.pos ≤ toks.length) (he : s'.evs = s.evs) (hp : s'.pos = s.pos)
    (hr : s'.errors = s.errors) (cs : List Tree) : Did toks s s' cs cs :=
  ⟨[], Grew.refl hle he hp ⟨[], by simp [hr]⟩, hr, by simp [pruneF]⟩

theorem Did.trans {s1 s2 s3 : PState} {c1 c2 c3 : List Tree} (h1 : Did toks s1 s2 c1 c2)
    (h2 : Did toks s2 s3 c2 c3) : Did toks s1 s3 c1 c3 := by
  obtain ⟨F, g1, e1, d1⟩ := h1
  obtain ⟨G, g2, e2, d2⟩ := h2
  exact ⟨F ++ G, g1.trans g2, e2.trans e1, by rw [d1, d2]; simp⟩

theorem Good.suffix {p : SK} {a b : List Tree} (h : Good p (a ++ b)) : Good p b := by
  induction a with
  | nil => exact h
  | cons c cs ih => exact ih h.tail

theorem Did.good {p : SK} {s s' : PState} {cs cs' : List Tree} (h : Did toks s s' cs cs') (hg : Good p cs) :
    Good p cs' := by
  obtain ⟨F, _, _, e⟩ := h
  rw [e] at hg
  exact hg.suffix

variable (T) in
/-- the table is closed -/
def Closed : Prop := ∀ k, k ≠ .Error → subset (firsts T k (Gram.spec k)) (T.fst k) = true

section
variable {p : SK} {rest : List Token} {u : Nat}

theorem starts_at (hT : Closed T) (hr : Foll T p rest) {r : RE} {adv : Bool} {off : Nat} {s : PState}
    {cs : List Tree} (hg : Good p cs) (hL : Lang r (cs.map Tree.sym)) (hh : toks.drop s.pos = leavesF cs ++ rest)
    (hle : s.pos ≤ toks.length) (hlife : s.lifes ≤ 100)
    (hu : 100 ≤ s.lifes + (if adv then off else u + off)) :
    ∃ st ∈ starts T p r adv off, At toks p rest u st s cs := by
  cases cs with
  | nil =>
    have hn : r.nullable = true := (nullable_iff r).mpr (by simpa using hL)
    refine ⟨_, List.mem_append_right _ (by rw [if_pos hn]; exact List.mem_singleton.2 rfl), ?_⟩
    exact ⟨hh, hle, rfl, by rw [kindAt_kd hh]; simpa [leavesF] using hr.kind, hlife, hu, by simp, by simp⟩
  | cons c cs =>
    have hL' : Lang r (c.sym :: cs.map Tree.sym) := by simpa using hL
    refine ⟨_, List.mem_append_left _ (List.mem_map.mpr ⟨c.sym, mem_dedup.mpr (first_complete hL'), rfl⟩), ?_⟩
    obtain ⟨x, xs, e⟩ := leaves_pos c hg.head_full
    refine ⟨hh, hle, ⟨c, cs, rfl, rfl, (der_iff _ _ _).mpr hL'⟩, ?_, hlife, hu, by simp, by simp⟩
    rw [kindAt_kd hh, leavesF, List.append_assoc, kd_append e]
    exact firstIn_has hT c hg.conf.1 hg.head_full (hg.starts _ (by simp)) hg.opens.1 x xs e

theorem nthSet_has (hT : Closed T) (hr : Foll T p rest) {st : St} {s : PState} {cs : List Tree}
    (hg : Good p cs) (h : At toks p rest u st s cs) (n : Nat) :
    (nthSet T p n st).has (kindAt toks s n) = true := by
  have hx := h.x
  have hs := h.shape
  rw [kindAt_kd h.here] at hx ⊢
  unfold nthSet
  split
  · rename_i hn; subst hn
    split
    · rename_i ha
      rw [ha] at hs
      simp only at hs
      subst hs
      split
      · rename_i h1
        rw [h1.2] at hx
        simp [leavesF] at hx
        have := hr.dot h1.1 hx.symm
        simp [leavesF, this]
      · simp
    · rename_i k ha
      rw [ha] at hs
      obtain ⟨c, cs', rfl, hc, hL⟩ := hs
      match c, hg with
      | .tok t, hg =>
        have := follows_has hT hg.tail hL hr
        simpa [leavesF, Tree.leaves, kd] using this
      | .node _ _, _ => simp [Tree.sym] at hc
    · rename_i j ha
      rw [ha] at hs
      obtain ⟨c, cs', rfl, hc, hL⟩ := hs
      match c, hc, hg with
      | .tok _, hc, _ => simp [Tree.sym] at hc
      | .node i ds, hc, hg =>
        simp only [Tree.sym, Sym.n.injEq] at hc
        subst hc
        obtain ⟨g1, g2, g3⟩ := hg.down
        obtain ⟨y, ys, e⟩ := leavesF_pos ds g3 g1.full
        have hy : kd (leavesF (.node i ds :: cs') ++ rest) 0 = y.kind := by
          simp [leavesF, Tree.leaves, e, kd]
        rw [hy] at hx
        obtain ⟨i1, i2⟩ := second_has hT 20 g1 g2 e
        refine has_union (List.mem_map.mpr ⟨y.kind, List.mem_filter.mpr ⟨by cases y.kind <;> decide, hx⟩, rfl⟩) ?_
        cases ys with
        | nil =>
          rw [if_pos (i1 rfl), has_or, Bool.or_eq_true]
          right
          have := follows_has hT hg.tail hL hr
          simpa [leavesF, Tree.leaves, kd, e] using this
        | cons z zs =>
          have h1 := i2 z zs rfl
          have : kd (leavesF (.node i ds :: cs') ++ rest) 1 = z.kind := by
            simp [leavesF, Tree.leaves, e, kd]
          rw [this]
          split
          · rw [has_or, Bool.or_eq_true]; exact .inl h1
          · exact h1
  · split
    · rename_i hn; subst hn
      split
      · rename_i j ha
        rw [ha] at hs
        obtain ⟨c, cs', rfl, hc, hL⟩ := hs
        match c, hc, hg with
        | .tok _, hc, _ => simp [Tree.sym] at hc
        | .node i ds, hc, hg =>
          simp only [Tree.sym, Sym.n.injEq] at hc
          subst hc
          obtain ⟨g1, g2, g3⟩ := hg.down
          have := third_has hT (rest := leavesF cs' ++ rest) g1 g3 g2
          simpa [leavesF, Tree.leaves] using this
      · simp
    · simp

/-- one lookahead -/
theorem tick_at {st st1 : St} {s : PState} {cs : List Tree} (hu : u ≤ T.en p) (ht : tick T p st = some st1)
    (h : At toks p rest u st s cs) (n : Nat) :
    st1 = { st with off := st.off + 1 } ∧
    s.nth toks n = .ok (kindAt toks s n, { s with lifes := s.lifes - 1, last := kindAt toks s n }) ∧
    (s.lifes - 1 ≤ 100) ∧ 100 ≤ s.lifes - 1 + (if st.adv then st.off + 1 else u + (st.off + 1)) := by
  unfold tick at ht
  split at ht
  · rename_i hc
    unfold cur at hc
    simp only [Option.some.injEq] at ht
    have h1 := h.life
    have h2 := h.used
    have : s.lifes ≠ 0 := by
      intro e
      cases hadv : st.adv <;> simp [hadv] at hc h2 <;> omega
    refine ⟨ht.symm, ?_, by omega, ?_⟩
    · simp [PState.nth, this, kindAt]
    · cases hadv : st.adv <;> simp [hadv] at h2 ⊢ <;> omega
  · simp at ht

theorem test_at (hT : Closed T) (hr : Foll T p rest) (hu : u ≤ T.en p) {n : Nat} {ks : KSet} {st : St}
    {l : List (Bool × St)} {s : PState} {cs : List Tree} (hg : Good p cs) (ht : test T p n ks st = some l)
    (h : At toks p rest u st s cs) :
    ∃ s' st', s.nth toks n = .ok (kindAt toks s n, s') ∧ (ks.has (kindAt toks s n), st') ∈ l ∧
      At toks p rest u st' s' cs ∧ Did toks s s' cs cs ∧ st'.a = st.a ∧ st'.r = st.r ∧ s'.pos = s.pos := by
  unfold test at ht
  split at ht
  · simp at ht
  · rename_i s1 h1
    obtain ⟨rfl, hn, hl, hus⟩ := tick_at hu h1 h n
    simp only [Option.some.injEq] at ht
    subst ht
    have hk : ∀ m, kindAt toks { s with lifes := s.lifes - 1, last := kindAt toks s n } m = kindAt toks s m := fun _ => rfl
    split
    · rename_i e; subst e
      obtain ⟨m, hm, hm2⟩ := split_mem (ks := ks) (f := fun m => { { st with off := st.off + 1 } with x := m, now := true }) h.x
      refine ⟨_, _, hn, hm, ?_,
        Did.refl (s' := { s with lifes := s.lifes - 1, last := _ }) h.le rfl rfl rfl cs, rfl, rfl, rfl⟩
      exact ⟨h.here, h.le, h.shape, hm2, hl, hus, fun _ => rfl, by simp⟩
    · obtain ⟨m, hm, hm2⟩ := split_mem (ks := ks) (f := fun m => { { st with off := st.off + 1 } with now := false, ls := m })
        (nthSet_has hT hr hg h n)
      refine ⟨_, _, hn, hm, ?_,
        Did.refl (s' := { s with lifes := s.lifes - 1, last := _ }) h.le rfl rfl rfl cs, rfl, rfl, rfl⟩
      exact ⟨h.here, h.le, h.shape, h.x, hl, hus, by simp, fun _ => hm2⟩

/-- one token -/
theorem pass_at (hT : Closed T) (hr : Foll T p rest) {st : St} {l : List St} {s : PState} {cs : List Tree}
    (hg : Good p cs) (ht : pass T p st = some l) (h : At toks p rest u st s cs) :
    ∃ s' cs' st', s.advance toks = .ok s' ∧ st' ∈ l ∧ At toks p rest u st' s' cs' ∧ Did toks s s' cs cs' := by
  unfold pass at ht
  split at ht
  · rename_i k ha
    simp only [Option.some.injEq] at ht
    subst ht
    have hs := h.shape
    rw [ha] at hs
    obtain ⟨c, cs', rfl, hc, hL⟩ := hs
    match c, hc, hg, h with
    | .node _ _, hc, _, _ => simp [Tree.sym] at hc
    | .tok t, hc, hg, h =>
      have hh : toks.drop s.pos = t :: (leavesF cs' ++ rest) := by
        have := h.here
        simpa [leavesF, Tree.leaves] using this
      have hlt : s.pos < toks.length := by
        have := congrArg List.length hh
        simp at this; omega
      have hat : toks[s.pos] = t := by
        have := congrArg (·[0]?) hh
        simp at this
        have h2 := List.getElem?_eq_getElem hlt
        rw [h2] at this
        simpa using this
      have hadv : s.advance toks = .ok { s with evs := .advance :: s.evs, pos := s.pos + 1, lifes := 100 } := by
        unfold PState.advance PState.eof
        rw [if_neg (by simp; omega)]
      obtain ⟨t', ht', g, _, he⟩ := advance_grew h.le hadv
      have htt : t' = t := by
        rw [List.getElem?_eq_getElem hlt, hat] at ht'
        simpa using ht'.symm
      subst htt
      have hdrop : toks.drop (s.pos + 1) = leavesF cs' ++ rest := by
        have := congrArg List.tail hh
        simpa using this
      obtain ⟨st', hm, ha'⟩ := starts_at (u := u) (off := 0) (adv := true)
        (s := { s with evs := .advance :: s.evs, pos := s.pos + 1, lifes := 100 }) hT hr hg.tail hL hdrop
        (by simp; omega) (by simp) (by simp)
      exact ⟨_, cs', st', hadv, hm, ha', [.tok t'], g, he, by simp [pruneF, Tree.pruned]⟩
  · simp at ht

theorem cond_at (hT : Closed T) (hr : Foll T p rest) (hu : u ≤ T.en p) (hE : ∀ t ∈ toks, t.kind ≠ .EOF)
    (c : Cond) : ∀ {st : St} {l : List (Bool × St)} {s : PState} {cs : List Tree}, Good p cs →
    cond T p c st = some l → At toks p rest u st s cs →
    ∃ b s' cs' st', evalCond toks c s = .ok (b, s') ∧ (b, st') ∈ l ∧ At toks p rest u st' s' cs' ∧
      Did toks s s' cs cs' := by
  induction c with
  | check k =>
    intro st l s cs hg h ha
    obtain ⟨s', st', h1, h2, h3, h4, _⟩ := test_at hT hr hu hg h ha
    refine ⟨kindAt toks s 0 == k, s', cs, st', by simp [evalCond, h1], ?_, h3, h4⟩
    have : KSet.has (KSet.bit k) (kindAt toks s 0) = (kindAt toks s 0 == k) := by
      rw [KSet.has_bit]
      by_cases e : k = kindAt toks s 0
      · simp [e]
      · have : ¬ kindAt toks s 0 = k := fun e' => e e'.symm
        simp [e, this]
    rw [← this]; exact h2
  | checkAny ks =>
    intro st l s cs hg h ha
    obtain ⟨s', st', h1, h2, h3, h4, _⟩ := test_at hT hr hu hg h ha
    refine ⟨ks.contains (kindAt toks s 0), s', cs, st', by simp [evalCond, h1], ?_, h3, h4⟩
    rw [← KSet.has_of]; exact h2
  | nthIs n k =>
    intro st l s cs hg h ha
    obtain ⟨s', st', h1, h2, h3, h4, _⟩ := test_at hT hr hu hg h ha
    refine ⟨kindAt toks s n == k, s', cs, st', by simp [evalCond, h1], ?_, h3, h4⟩
    have : KSet.has (KSet.bit k) (kindAt toks s n) = (kindAt toks s n == k) := by
      rw [KSet.has_bit]
      by_cases e : k = kindAt toks s n
      · simp [e]
      · have : ¬ kindAt toks s n = k := fun e' => e e'.symm
        simp [e, this]
    rw [← this]; exact h2
  | consume k =>
    intro st l s cs hg h ha
    simp only [cond, Option.bind_eq_some_iff] at h
    obtain ⟨l1, h0, h5⟩ := h
    obtain ⟨s1, st1, h1, h2, h3, h4, _⟩ := test_at hT hr hu hg h0 ha
    obtain ⟨l2, h6, h7⟩ := bindAll_mem h5 _ h2
    have hb : KSet.has (KSet.bit k) (kindAt toks s 0) = (kindAt toks s 0 == k) := by
      rw [KSet.has_bit]
      by_cases e : k = kindAt toks s 0
      · simp [e]
      · have : ¬ kindAt toks s 0 = k := fun e' => e e'.symm
        simp [e, this]
    rw [hb] at h6
    cases hk : kindAt toks s 0 == k with
    | true =>
      rw [hk] at h6
      simp only [if_true, Option.map_eq_some_iff] at h6
      obtain ⟨l3, h8, rfl⟩ := h6
      obtain ⟨s2, cs2, st2, g1, g2, g3, g4⟩ := pass_at hT hr hg h8 h3
      refine ⟨true, s2, cs2, st2, ?_, h7 _ (List.mem_map.mpr ⟨st2, g2, rfl⟩), g3, h4.trans g4⟩
      simp only [evalCond, h1, Res.bind_ok, hk, if_true, g1]
    | false =>
      rw [hk] at h6
      simp only [Bool.false_eq_true, if_false, Option.some.injEq] at h6
      subst h6
      refine ⟨false, s1, cs, st1, ?_, h7 _ (by simp), h3, h4⟩
      simp only [evalCond, h1, Res.bind_ok, hk, Bool.false_eq_true, if_false]
  | eof =>
    intro st l s cs hg h ha
    simp only [cond] at h
    have hs := ha.shape
    split at h
    · rename_i a hae
      simp only [Option.some.injEq] at h; subst h
      rw [hae] at hs
      obtain ⟨c, cs', rfl, _, _⟩ := hs
      refine ⟨false, s, _, st, ?_, by simp, ha, Did.refl ha.le rfl rfl rfl _⟩
      obtain ⟨x, xs, e⟩ := leaves_pos c hg.head_full
      have hh := congrArg List.length ha.here
      simp [leavesF, e] at hh
      simp [evalCond, PState.eof]; omega
    · rename_i hae
      simp only [Option.some.injEq] at h; subst h
      obtain ⟨m, hm, hm2⟩ := split_mem (ks := KSet.bit .EOF) (f := fun m => { st with x := m }) ha.x
      refine ⟨_, s, cs, _, ?_, hm, ⟨ha.here, ha.le, ha.shape, hm2, ha.life, ha.used, ha.last, ha.ls⟩,
        Did.refl ha.le rfl rfl rfl _⟩
      simp only [evalCond, PState.eof, Res.ok.injEq, Prod.mk.injEq, and_true, KSet.has_bit]
      by_cases e : s.pos = toks.length
      · simp [e, kindAt]
      · have hlt : s.pos < toks.length := by have := ha.le; omega
        have : kindAt toks s 0 ≠ .EOF := by
          simp only [kindAt, Nat.add_zero, List.getElem?_eq_getElem hlt, Option.map_some, Option.getD_some]
          exact hE _ (List.getElem_mem hlt)
        have : ¬ Tok.EOF = kindAt toks s 0 := fun e' => this e'.symm
        simp [e, this]
  | not c ih =>
    intro st l s cs hg h ha
    simp only [cond, Option.map_eq_some_iff] at h
    obtain ⟨l1, h1, rfl⟩ := h
    obtain ⟨b, s', cs', st', g1, g2, g3, g4⟩ := ih hg h1 ha
    exact ⟨!b, s', cs', st', by simp [evalCond, g1], List.mem_map.mpr ⟨_, g2, rfl⟩, g3, g4⟩
  | and a b iha ihb =>
    intro st l s cs hg h ha
    simp only [cond, Option.bind_eq_some_iff] at h
    obtain ⟨l1, h1, h2⟩ := h
    obtain ⟨t, s1, cs1, st1, g1, g2, g3, g4⟩ := iha hg h1 ha
    obtain ⟨l2, h3, h4⟩ := bindAll_mem h2 _ g2
    cases t with
    | true =>
      simp only [if_true] at h3
      obtain ⟨t2, s2, cs2, st2, k1, k2, k3, k4⟩ := ihb (g4.good hg) h3 g3
      exact ⟨t2, s2, cs2, st2, by simp [evalCond, g1, k1], h4 _ k2, k3, g4.trans k4⟩
    | false =>
      simp only [Bool.false_eq_true, if_false, Option.some.injEq] at h3
      subst h3
      exact ⟨false, s1, cs1, st1, by simp [evalCond, g1], h4 _ (by simp), g3, g4⟩
  | or a b iha ihb =>
    intro st l s cs hg h ha
    simp only [cond, Option.bind_eq_some_iff] at h
    obtain ⟨l1, h1, h2⟩ := h
    obtain ⟨t, s1, cs1, st1, g1, g2, g3, g4⟩ := iha hg h1 ha
    obtain ⟨l2, h3, h4⟩ := bindAll_mem h2 _ g2
    cases t with
    | false =>
      simp only [Bool.false_eq_true, if_false] at h3
      obtain ⟨t2, s2, cs2, st2, k1, k2, k3, k4⟩ := ihb (g4.good hg) h3 g3
      exact ⟨t2, s2, cs2, st2, by simp [evalCond, g1, k1], h4 _ k2, k3, g4.trans k4⟩
    | true =>
      simp only [if_true, Option.some.injEq] at h3
      subst h3
      exact ⟨true, s1, cs1, st1, by simp [evalCond, g1], h4 _ (by simp), g3, g4⟩


theorem close_inv {c : Cond} {step : St → Option (List St)} : ∀ {n : Nat} {heads l : List St},
    close T p c step n heads = some l →
    ∃ I : List St, (∀ x ∈ heads, x ∈ I) ∧ ∀ st ∈ I, ∃ outs, cond T p c st = some outs ∧
      (∀ st', (true, st') ∈ outs → ∃ next, step st' = some next ∧ ∀ x ∈ next, x ∈ I) ∧
      (∀ st', (false, st') ∈ outs → st' ∈ l) := by
  intro n
  induction n with
  | zero => intro heads l h; simp [close] at h
  | succ n ih =>
    intro heads l h
    simp only [close] at h
    split at h
    · simp at h
    · rename_i outs ho
      split at h
      · simp at h
      · rename_i next hn
        split at h
        · rename_i hc
          simp only [Option.some.injEq] at h; subst h
          refine ⟨heads, fun x hx => hx, fun st hst => ?_⟩
          obtain ⟨o, h1, h2⟩ := bindAll_mem ho st hst
          refine ⟨o, h1, fun st' hs => ?_, fun st' hs => ?_⟩
          · obtain ⟨nx, h3, h4⟩ := bindAll_mem hn (true, st') (List.mem_filter.mpr ⟨h2 _ hs, rfl⟩)
            refine ⟨nx, h3, fun x hx => ?_⟩
            have := List.all_eq_true.mp hc x (h4 x hx)
            simpa using this
          · exact mem_dedup.mpr (List.mem_map.mpr ⟨(false, st'), List.mem_filter.mpr ⟨h2 _ hs, rfl⟩, rfl⟩)
        · obtain ⟨I, h1, h2⟩ := ih h
          exact ⟨I, fun x hx => h1 x (mem_dedup.mpr (List.mem_append_left _ hx)), h2⟩

end

/-- What the symbolic execution promises about a command run with the given depth. -/
def Follows (T : Tab) (name : Text) (toks : List Token) (n : Nat) : Prop :=
  ∀ {p : SK} {rest : List Token} {u : Nat} {c : Cmd} {st : St} {l : List St} {s : PState} {cs : List Tree},
    Foll T p rest → u ≤ T.en p → Good p cs → exec T p c st = some l → At toks p rest u st s cs →
    run name toks Grammar.body n c s = .fuel ∨
    ∃ s' cs' st', run name toks Grammar.body n c s = .ok s' ∧ st' ∈ l ∧ At toks p rest u st' s' cs' ∧
      Did toks s s' cs cs'

theorem closed_of (hO : ∀ k, ok T k = true) : Closed T := by
  intro k hk
  have := hO k
  simp only [ok, Bool.or_eq_true, beq_iff_eq, Bool.and_eq_true] at this
  rcases this with h | h
  · exact absurd h hk
  · exact h.1.1

/-- the grammar function for a production with tokens -/
theorem body_some (hO : ∀ k, ok T k = true) {n : Nat} (ih : Follows T name toks n) {k : SK} (hk : k ≠ .Error)
    {rest : List Token} {u : Nat} {s : PState} {ds : List Tree} (hr : Foll T k rest) (hu : u ≤ T.en k)
    (hg : Good k ds) (hne : ds ≠ []) (hL : Lang (Gram.spec k) (ds.map Tree.sym))
    (hh : toks.drop s.pos = leavesF ds ++ rest) (hle : s.pos ≤ toks.length) (hlife : s.lifes ≤ 100)
    (hus : 100 ≤ s.lifes + u) :
    run name toks Grammar.body n (Grammar.body k) s = .fuel ∨
    ∃ s', run name toks Grammar.body n (Grammar.body k) s = .ok s' ∧ Did toks s s' ds [] ∧
      s'.lifes ≤ 100 ∧ 100 ≤ s'.lifes + T.ex k := by
  have h := hO k
  simp only [ok, Bool.or_eq_true, beq_iff_eq, Bool.and_eq_true] at h
  rcases h with h | h
  · exact absurd h hk
  obtain ⟨⟨_, h⟩, _⟩ := h
  obtain ⟨st, hm, ha⟩ := starts_at (u := u) (adv := false) (off := 0) (closed_of hO) hr hg hL hh hle hlife (by simpa using hus)
  simp only [okSome, List.all_eq_true, List.mem_filter, and_imp] at h
  have hsome : st.a.isSome = true := by
    have := ha.shape
    cases hst : st.a with
    | none => rw [hst] at this; exact absurd this hne
    | some _ => rfl
  have h1 := h st hm hsome
  split at h1
  · simp at h1
  · rename_i l hl
    rcases ih hr hu hg hl ha with h2 | ⟨s', cs', st', h2, h3, h4, h5⟩
    · exact .inl h2
    · right
      have h6 := List.all_eq_true.mp h1 st' h3
      simp only [Bool.and_eq_true, beq_iff_eq, decide_eq_true_eq] at h6
      obtain ⟨⟨e1, e2⟩, e3⟩ := h6
      have hs := h4.shape
      rw [e1] at hs
      simp only at hs
      subst hs
      have hu := h4.used
      rw [e2] at hu
      simp only [if_true] at hu
      exact ⟨s', h2, h5, h4.life, by omega⟩

/-- the grammar function for a production without tokens -/
theorem body_none (hO : ∀ k, ok T k = true) {n : Nat} (ih : Follows T name toks n) {k : SK} (hk : k ≠ .Error)
    {rest : List Token} {u : Nat} {s : PState} (hr : Foll T k rest) (hu : u ≤ T.en k)
    (hN : (Gram.spec k).nullable = true)
    (hh : toks.drop s.pos = rest) (hle : s.pos ≤ toks.length) (hlife : s.lifes ≤ 100)
    (hus : 100 ≤ s.lifes + u) :
    run name toks Grammar.body n (Grammar.body k) s = .fuel ∨
    ∃ s', run name toks Grammar.body n (Grammar.body k) s = .ok s' ∧ Did toks s s' [] [] ∧
      s'.lifes ≤ 100 ∧ 100 ≤ s'.lifes + (u + T.em k) := by
  have h := hO k
  simp only [ok, Bool.or_eq_true, beq_iff_eq, Bool.and_eq_true] at h
  rcases h with h | h
  · exact absurd h hk
  obtain ⟨_, h⟩ := h
  have hg : Good k [] := ⟨by simp [ConformsF], rfl, by simp, by simp [OpensF]⟩
  have ha : At toks k rest u { a := none, r := .eps, x := T.fol k, adv := false, off := 0, now := false, ls := KSet.all } s [] :=
    ⟨by simpa [leavesF] using hh, hle, rfl, by rw [kindAt_kd hh]; exact hr.kind, hlife, by simpa using hus,
      by simp, by simp⟩
  simp only [okNone, hN, Bool.not_true, Bool.false_or] at h
  split at h
  · simp at h
  · rename_i l hl
    rcases ih hr hu hg hl ha with h2 | ⟨s', cs', st', h2, h3, h4, h5⟩
    · exact .inl h2
    · right
      have h6 := List.all_eq_true.mp h st' h3
      simp only [Bool.and_eq_true, beq_iff_eq, decide_eq_true_eq, Bool.not_eq_true'] at h6
      obtain ⟨⟨e1, e2⟩, e3⟩ := h6
      have hs := h4.shape
      rw [e1] at hs
      simp only at hs
      subst hs
      have hu := h4.used
      rw [e2] at hu
      simp only [Bool.false_eq_true, if_false] at hu
      exact ⟨s', h2, h5, h4.life, by omega⟩

/-- `enter` and `exit` around what was passed -/
theorem Did.call {s s' : PState} {k : SK} {ds : List Tree} (h : Did toks s.enter s' ds []) (hk : k ≠ .Error) :
    ∃ F, Grew toks s (s'.exit s.evs.length k) [.node k F] ∧ (s'.exit s.evs.length k).errors = s.errors ∧ pruneF F = ds := by
  obtain ⟨F, g, e, d⟩ := h
  refine ⟨F, exit_grew (s := s) (s1 := s.enter) rfl rfl ⟨[], by simp [PState.enter]⟩ g (fun h => absurd h hk), ?_, ?_⟩
  · simpa [PState.exit, PState.enter] using e
  · simpa using d.symm

theorem follows_all (hO : ∀ k, ok T k = true) (hE : ∀ t ∈ toks, t.kind ≠ .EOF) :
    ∀ n m, m ≤ n → Follows T name toks m := by
  have hT := closed_of hO
  intro n
  induction n with
  | zero =>
    intro m hm p rest u c st l s cs hr hu hg h ha
    have : m = 0 := by omega
    subst this
    exact .inl (by simp [run])
  | succ n ih =>
    intro m hm p rest u c st l s cs hr hu hg h ha
    cases m with
    | zero => exact .inl (by simp [run])
    | succ m =>
    have ihm : Follows T name toks m := ih m (by omega)
    cases c with
    | skip =>
      simp only [exec, Option.some.injEq] at h; subst h
      exact .inr ⟨s, cs, st, by simp [run], by simp, ha, Did.refl ha.le rfl rfl rfl _⟩
    | seq a b =>
      simp only [exec, Option.bind_eq_some_iff, Option.map_eq_some_iff] at h
      obtain ⟨l1, h1, l2, h2, rfl⟩ := h
      rcases ihm hr hu hg h1 ha with h3 | ⟨s1, cs1, st1, h3, h4, h5, h6⟩
      · exact .inl (by simp [run, h3])
      · obtain ⟨l3, h7, h8⟩ := bindAll_mem h2 _ h4
        rcases ihm hr hu (h6.good hg) h7 h5 with h9 | ⟨s2, cs2, st2, h9, h10, h11, h12⟩
        · exact .inl (by simp [run, h3, h9])
        · exact .inr ⟨s2, cs2, st2, by simp [run, h3, h9], mem_dedup.mpr (h8 _ h10), h11, h6.trans h12⟩
    | ite c a b =>
      simp only [exec, Option.bind_eq_some_iff, Option.map_eq_some_iff] at h
      obtain ⟨l1, h1, l2, h2, rfl⟩ := h
      obtain ⟨t, s1, cs1, st1, h3, h4, h5, h6⟩ := cond_at hT hr hu hE c hg h1 ha
      obtain ⟨l3, h7, h8⟩ := bindAll_mem h2 _ h4
      have key : ∀ d, exec T p d st1 = some l3 → (if t then a else b) = d →
          run name toks Grammar.body (m + 1) (.ite c a b) s = .fuel ∨
          ∃ s' cs' st', run name toks Grammar.body (m + 1) (.ite c a b) s = .ok s' ∧ st' ∈ dedup l2 ∧
            At toks p rest u st' s' cs' ∧ Did toks s s' cs cs' := by
        intro d hd hdd
        have hrun : run name toks Grammar.body (m + 1) (.ite c a b) s = run name toks Grammar.body m d s1 := by
          rw [run, h3]
          cases t <;> simp at hdd <;> simp [hdd]
        rw [hrun]
        rcases ihm hr hu (h6.good hg) hd h5 with h9 | ⟨s2, cs2, st2, h9, h10, h11, h12⟩
        · exact .inl h9
        · exact .inr ⟨s2, cs2, st2, h9, mem_dedup.mpr (h8 _ h10), h11, h6.trans h12⟩
      cases t with
      | true => exact key a (by simpa using h7) rfl
      | false => exact key b (by simpa using h7) rfl
    | «while» c a =>
      simp only [exec] at h
      obtain ⟨I, hI1, hI2⟩ := close_inv h
      have key : ∀ j, j ≤ m + 1 → ∀ {st : St} {s : PState} {cs : List Tree}, st ∈ I → Good p cs →
          At toks p rest u st s cs → run name toks Grammar.body j (.while c a) s = .fuel ∨
          ∃ s' cs' st', run name toks Grammar.body j (.while c a) s = .ok s' ∧ st' ∈ l ∧
            At toks p rest u st' s' cs' ∧ Did toks s s' cs cs' := by
        intro j
        induction j with
        | zero => intro _ st s cs _ _ _; exact .inl (by simp [run])
        | succ j ihj =>
          intro hj st s cs hst hg ha
          obtain ⟨outs, h1, h2, h2'⟩ := hI2 st hst
          obtain ⟨t, s1, cs1, st1, h3, h4, h5, h6⟩ := cond_at hT hr hu hE c hg h1 ha
          cases t with
          | true =>
            obtain ⟨nx, h7, h8⟩ := h2 _ h4
            rcases ih j (by omega) hr hu (h6.good hg) h7 h5 with h9 | ⟨s2, cs2, st2, h9, h10, h11, h12⟩
            · exact .inl (by simp [run, h3, h9])
            · rcases ihj (by omega) (h8 _ h10) (h12.good (h6.good hg)) h11 with h13 | ⟨s3, cs3, st3, h13, h14, h15, h16⟩
              · exact .inl (by simp [run, h3, h9, h13])
              · exact .inr ⟨s3, cs3, st3, by simp [run, h3, h9, h13], h14, h15, (h6.trans h12).trans h16⟩
          | false => exact .inr ⟨s1, cs1, st1, by simp [run, h3], h2' _ h4, h5, h6⟩
      exact key (m + 1) (Nat.le_refl _) (hI1 _ (by simp)) hg ha
    | eval c =>
      simp only [exec, Option.map_eq_some_iff] at h
      obtain ⟨l1, h1, rfl⟩ := h
      obtain ⟨t, s1, cs1, st1, h3, h4, h5, h6⟩ := cond_at hT hr hu hE c hg h1 ha
      exact .inr ⟨s1, cs1, st1, by simp [run, h3], mem_dedup.mpr (List.mem_map.mpr ⟨_, h4, rfl⟩), h5, h6⟩
    | expect k =>
      simp only [exec] at h
      split at h
      · rename_i hak
        simp only [Option.bind_eq_some_iff] at h
        obtain ⟨st1, h1, h2⟩ := h
        obtain ⟨rfl, hn, hl, hus⟩ := tick_at hu h1 ha 0
        have hk : kindAt toks s 0 = k := by
          have hs := ha.shape
          rw [hak] at hs
          obtain ⟨c, cs', rfl, hc, _⟩ := hs
          rw [kindAt_kd ha.here]
          match c, hc with
          | .tok t, hc => simp [Tree.sym] at hc; simp [leavesF, Tree.leaves, kd, hc]
          | .node _ _, hc => simp [Tree.sym] at hc
        have ha1 : At toks p rest u { st with off := st.off + 1, now := true } { s with lifes := s.lifes - 1, last := kindAt toks s 0 } cs :=
          ⟨ha.here, ha.le, ha.shape, ha.x, hl, hus, fun _ => rfl, by simp⟩
        obtain ⟨s2, cs2, st2, g1, g2, g3, g4⟩ := pass_at hT hr hg (st := { st with off := st.off + 1, now := true }) h2 ha1
        refine .inr ⟨s2, cs2, st2, ?_, g2, g3,
          (Did.refl (s' := { s with lifes := s.lifes - 1, last := kindAt toks s 0 }) ha.le rfl rfl rfl cs).trans g4⟩
        have hkk : (kindAt toks s 0 == k) = true := by simp [hk]
        simp only [run, evalCond, hn, Res.bind_ok, hkk, if_true, g1]
      · simp at h
    | advance =>
      simp only [exec] at h
      obtain ⟨s2, cs2, st2, g1, g2, g3, g4⟩ := pass_at hT hr hg h ha
      exact .inr ⟨s2, cs2, st2, by simp [run, g1], g2, g3, g4⟩
    | call k =>
      simp only [exec] at h
      split at h
      · simp at h
      · rename_i hc
        simp only [not_or, Decidable.not_not] at hc
        obtain ⟨hkE, hcur⟩ := hc
        have hcu : ∃ u', u' ≤ T.en k ∧ 100 ≤ s.lifes + u' ∧ (if st.adv then st.off else u + st.off) = u' := by
          refine ⟨_, ?_, ha.used, rfl⟩
          unfold cur at hcur
          cases hadv : st.adv <;> simp [hadv] at hcur ⊢ <;> omega
        obtain ⟨u', hu', hus', hueq⟩ := hcu
        split at h
        · rename_i hak
          split at h
          · rename_i hf
            simp only [Bool.and_eq_true, Bool.or_eq_true, bne_iff_ne, ne_eq] at hf
            obtain ⟨hf1, hf2⟩ := hf
            simp only [Option.some.injEq] at h; subst h
            have hs := ha.shape
            rw [hak] at hs
            obtain ⟨c, cs', rfl, hc, hL⟩ := hs
            match c, hc, hg, ha with
            | .tok _, hc, _, _ => simp [Tree.sym] at hc
            | .node i ds, hc, hg, ha =>
              simp only [Tree.sym, Sym.n.injEq] at hc
              subst hc
              obtain ⟨g1, g2, g3⟩ := hg.down
              have hfoll : Foll T i (leavesF cs' ++ rest) := by
                refine ⟨has_subset hf1 (follows_has hT hg.tail hL hr), ?_⟩
                intro hN hdot
                rcases hf2 with hf2 | hf2
                · exact absurd hN hf2
                · simp only [dotOk, Bool.and_eq_true, List.all_eq_true, Bool.or_eq_true, Bool.not_eq_true',
                    beq_iff_eq] at hf2
                  cases cs' with
                  | nil =>
                    rcases hf2.2 with h1 | h1
                    · have := (nullable_iff st.r).mpr (by simpa using hL)
                      rw [h1] at this; simp at this
                    · have := hr.kind
                      simp only [leavesF, List.nil_append] at hdot
                      rw [hdot, h1] at this; simp at this
                  | cons d ds' =>
                    have hL' : Lang st.r (d.sym :: ds'.map Tree.sym) := by simpa using hL
                    obtain ⟨x, xs, e⟩ := leaves_pos d hg.tail.head_full
                    have hx : x.kind = .Dot := by
                      rw [← hdot, leavesF, List.append_assoc, kd_append e]
                    have hfi := firstIn_has hT (p := p) d hg.tail.conf.1 hg.tail.head_full
                      (hg.tail.starts _ (by simp)) hg.tail.opens.1 x xs e
                    rcases hf2.1 d.sym (first_complete hL') with h1 | h1
                    · rw [hx, h1] at hfi; simp at hfi
                    · obtain ⟨⟨h2, h3⟩, h4⟩ := h1
                      have hd := (der_iff _ _ _).mpr hL'
                      cases ds' with
                      | nil =>
                        have := (nullable_iff _).mpr (show Lang _ [] by simpa using hd)
                        rw [h2] at this; simp at this
                      | cons z zs =>
                        obtain ⟨y, ys, ey⟩ := leavesF_pos (z :: zs) (by simp) hg.tail.tail.full
                        have gt := hg.tail.tail
                        have := has_subset h4 (firsts_has hT _ hd gt.conf gt.full gt.starts gt.opens y ys ey)
                        simp only [KSet.has_bit, decide_eq_true_eq] at this
                        match d, h3, e with
                        | .node _ _, h3, _ => simp [Tree.sym] at h3
                        | .tok w, _, _ =>
                          rw [leavesF, ey]
                          simp [Tree.leaves, kd, this]
              have hh : toks.drop s.enter.pos = leavesF ds ++ (leavesF cs' ++ rest) := by
                have := ha.here
                simpa [PState.enter, leavesF, Tree.leaves] using this
              rcases body_some hO ihm hkE (s := s.enter) hfoll hu' g1 g3 g2 hh ha.le ha.life hus' with
                h9 | ⟨s', h9, h10, h11, h12⟩
              · exact .inl (by simp [run, h9])
              · right
                obtain ⟨F, gF, eF, dF⟩ := h10.call hkE
                have hrest : toks.drop (s'.exit s.evs.length i).pos = leavesF cs' ++ rest := by
                  have h1 := gF.rest
                  rw [ha.here] at h1
                  have h2 : leavesF [Tree.node i F] = leavesF ds := by
                    simp only [leavesF, Tree.leaves, List.append_nil]
                    rw [← dF, leaves_pruneF]
                  rw [h2] at h1
                  simp only [leavesF, Tree.leaves, List.append_assoc] at h1
                  exact (List.append_cancel_left h1).symm
                obtain ⟨st', hm, ha'⟩ := starts_at (u := u) (adv := true) (off := T.ex i) hT hr hg.tail hL hrest gF.le
                  h11 h12
                refine ⟨_, cs', st', by simp [run, h9], hm, ha', [.node i F], gF, eF, ?_⟩
                cases hds : ds with
                | nil => exact absurd hds g3
                | cons q qs => simp [pruneF, Tree.pruned, dF, hds]
          · simp at h
        · split at h
          · rename_i hf
            simp only [Bool.and_eq_true, bne_iff_ne, ne_eq] at hf
            obtain ⟨⟨hN, hx⟩, hname⟩ := hf
            simp only [Option.some.injEq] at h; subst h
            have hfoll : Foll T k (leavesF cs ++ rest) := by
              refine ⟨has_subset hx ?_, fun h => absurd h hname⟩
              rw [← kindAt_kd ha.here]; exact ha.x
            rcases body_none hO ihm hkE (s := s.enter) hfoll hu' hN ha.here ha.le ha.life hus' with
              h9 | ⟨s', h9, h10, h11, h12⟩
            · exact .inl (by simp [run, h9])
            · right
              obtain ⟨F, gF, eF, dF⟩ := h10.call hkE
              have hlf : leavesF F = [] := by rw [← leaves_pruneF, dF]; rfl
              have hpos : (s'.exit s.evs.length k).pos = s.pos := by
                have := gF.pos
                simpa [leavesF, Tree.leaves, hlf] using this
              refine ⟨_, cs, _, by simp only [run, h9, Res.bind_ok], List.mem_singleton.2 rfl, ?_,
                [.node k F], gF, eF, by simp [pruneF, Tree.pruned, dF]⟩
              refine ⟨by rw [hpos]; exact ha.here, gF.le, ha.shape, ?_, h11, ?_, by simp, by simp⟩
              · rw [kindAt_pos hpos]; exact ha.x
              · have : (s'.exit s.evs.length k).lifes = s'.lifes := rfl
                rw [this]
                cases hadv : st.adv <;> simp [hadv] at hueq ⊢ <;> omega
          · simp at h
    | advErr _ _ _ => simp [exec] at h
    | look n =>
      simp only [exec, Option.map_eq_some_iff] at h
      obtain ⟨l1, h1, rfl⟩ := h
      obtain ⟨s', st', g1, g2, g3, g4, _⟩ := test_at hT hr hu hg h1 ha
      exact .inr ⟨s', cs, st', by simp [run, g1], List.mem_map.mpr ⟨_, g2, rfl⟩, g3, g4⟩
    | ifk ks a b =>
      simp only [exec, Option.map_eq_some_iff] at h
      obtain ⟨l1, h1, rfl⟩ := h
      have hsplit : ∃ st', (ks.contains s.last, st') ∈ (if st.now then split st.x (KSet.of ks) fun m => { st with x := m }
         else split st.ls (KSet.of ks) fun m => { st with ls := m }) ∧ At toks p rest u st' s cs := by
        split
        · rename_i hn
          obtain ⟨m', hm, hm2⟩ := split_mem (ks := KSet.of ks) (f := fun m => { st with x := m }) ha.x
          rw [KSet.has_of, ← ha.last hn] at hm
          exact ⟨{ st with x := m' }, hm, ha.here, ha.le, ha.shape, hm2, ha.life, ha.used, ha.last, ha.ls⟩
        · rename_i hn
          obtain ⟨m', hm, hm2⟩ := split_mem (ks := KSet.of ks) (f := fun m => { st with ls := m }) (ha.ls (by simpa using hn))
          rw [KSet.has_of] at hm
          exact ⟨{ st with ls := m' }, hm, ha.here, ha.le, ha.shape, ha.x, ha.life, ha.used, ha.last, fun _ => hm2⟩
      obtain ⟨st1, h2, h3⟩ := hsplit
      obtain ⟨l3, h7, h8⟩ := bindAll_mem h1 _ h2
      cases hb : ks.contains s.last with
      | true =>
        simp only [hb, if_true] at h7
        rcases ihm hr hu hg h7 h3 with h9 | ⟨s2, cs2, st2, h9, h10, h11, h12⟩
        · exact .inl (by simp only [run, hb, if_true, h9])
        · exact .inr ⟨s2, cs2, st2, by simp only [run, hb, if_true, h9], mem_dedup.mpr (h8 _ h10), h11, h12⟩
      | false =>
        simp only [hb, Bool.false_eq_true, if_false] at h7
        rcases ihm hr hu hg h7 h3 with h9 | ⟨s2, cs2, st2, h9, h10, h11, h12⟩
        · exact .inl (by simp only [run, hb, Bool.false_eq_true, if_false, h9])
        · exact .inr ⟨s2, cs2, st2, by simp only [run, hb, Bool.false_eq_true, if_false, h9], mem_dedup.mpr (h8 _ h10), h11, h12⟩
    | unreachable => simp [exec] at h

end
end Acc
end Mofmt
