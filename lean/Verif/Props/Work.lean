import Verif.Proofs.Work
import Verif.Props.Accept
import Verif.Props.Lexemes
import Verif.Spec.Size
/-
C75: the work of the parser and the size of the tree are linear.
-/
namespace Mofmt

open Lexical

/-! ### Events and messages are steps -/

theorem evalCond_grows {toks : List Token} {c : Cond} {s s' : PState} {b : Bool} (h : evalCond toks c s = .ok (b, s')) :
    s'.evs.length + s'.errors.length ≤ s.evs.length + s.errors.length + c.size := by
  induction c generalizing s s' b with
  | check k | checkAny ks | nthIs n k =>
    simp only [evalCond, Res.bind_eq_ok] at h
    obtain ⟨⟨k', s1⟩, h1, h2⟩ := h
    unfold PState.nth at h1
    split at h1
    · split at h1 <;> simp at h1
    · simp at h1 h2
      obtain ⟨-, rfl⟩ := h1
      obtain ⟨-, rfl⟩ := h2
      simp
  | eof =>
    simp [evalCond] at h
    obtain ⟨-, rfl⟩ := h
    simp
  | consume k =>
    simp only [evalCond, Res.bind_eq_ok] at h
    obtain ⟨⟨k', s1⟩, h1, h2⟩ := h
    have hs1 : s1.evs = s.evs ∧ s1.errors = s.errors := by
      unfold PState.nth at h1
      split at h1
      · split at h1 <;> simp at h1
      · simp at h1
        obtain ⟨-, rfl⟩ := h1
        simp
    simp only [Cond.size]
    split at h2
    · rw [Res.bind_eq_ok] at h2
      obtain ⟨s2, h2, h3⟩ := h2
      unfold PState.advance at h2
      split at h2
      · simp at h2
      · simp at h2 h3
        obtain ⟨-, rfl⟩ := h3
        subst h2
        simp [hs1.1, hs1.2]
        omega
    · simp at h2
      obtain ⟨-, rfl⟩ := h2
      rw [hs1.1, hs1.2]
      omega
  | not c ih =>
    simp only [evalCond, Res.bind_eq_ok] at h
    obtain ⟨⟨b1, s1⟩, h1, h2⟩ := h
    simp at h2
    obtain ⟨-, rfl⟩ := h2
    have := ih h1
    simp only [Cond.size]
    omega
  | and x y ihx ihy | or x y ihx ihy =>
    simp only [evalCond, Res.bind_eq_ok] at h
    obtain ⟨⟨b1, s1⟩, h1, h2⟩ := h
    have e1 := ihx h1
    simp only [Cond.size]
    dsimp only at h2
    split at h2
    · first
        | (have := ihy h2; omega)
        | (simp at h2; obtain ⟨-, rfl⟩ := h2; omega)
    · first
        | (have := ihy h2; omega)
        | (simp at h2; obtain ⟨-, rfl⟩ := h2; omega)


theorem run_grows {name : Text} {toks : List Token} {body : SK → Cmd} :
    ∀ (n : Nat) (c : Cmd) (s s' : PState), run name toks body n c s = .ok s' →
      s'.evs.length + s'.errors.length ≤ s.evs.length + s.errors.length + steps name toks body n c s := by
  have hnth : ∀ {m : Nat} {s s1 : PState} {k : Tok}, s.nth toks m = .ok (k, s1) → s1.evs = s.evs ∧ s1.errors = s.errors := by
    intro m s s1 k h1
    unfold PState.nth at h1
    split at h1
    · split at h1 <;> simp at h1
    · simp at h1
      obtain ⟨-, rfl⟩ := h1
      simp
  have herr : ∀ {m : Text} {s s1 : PState}, s.error name toks m = .ok s1 →
      s1.evs = s.evs ∧ s1.errors.length = s.errors.length + 1 := by
    intro m s s1 h1
    unfold PState.error at h1
    split at h1
    · cases h1; simp
    · split at h1
      · cases h1; simp
      · simp at h1
  have hadv : ∀ {s s1 : PState}, s.advance toks = .ok s1 → s1.evs.length = s.evs.length + 1 ∧ s1.errors = s.errors := by
    intro s s1 h1
    unfold PState.advance at h1
    split at h1
    · simp at h1
    · cases h1; simp
  intro n
  induction n with
  | zero => intro c s s' h; simp [run] at h
  | succ n ih =>
    intro c s s' h
    cases c with
    | skip => simp [run] at h; subst h; omega
    | seq a b =>
      simp only [run, Res.bind_eq_ok] at h
      obtain ⟨s1, h1, h2⟩ := h
      have e1 := ih _ _ _ h1
      have e2 := ih _ _ _ h2
      simp only [steps, h1]
      omega
    | ite c a b =>
      simp only [run, Res.bind_eq_ok] at h
      obtain ⟨⟨t, s1⟩, h1, h2⟩ := h
      have e1 := evalCond_grows h1
      simp only [steps, h1]
      cases t <;> simp at h2 ⊢ <;> (have := ih _ _ _ h2; omega)
    | «while» c a =>
      simp only [run, Res.bind_eq_ok] at h
      obtain ⟨⟨t, s1⟩, h1, h2⟩ := h
      have e1 := evalCond_grows h1
      simp only [steps, h1]
      cases t with
      | true =>
        simp only [if_true, Res.bind_eq_ok] at h2 ⊢
        obtain ⟨s2, h2, h3⟩ := h2
        have e2 := ih _ _ _ h2
        have e3 := ih _ _ _ h3
        simp only [h2]
        have e4 : s'.evs.length + s'.errors.length ≤ s.evs.length + s.errors.length + (1 + c.size +
            (steps name toks body n a s1 + steps name toks body n (.while c a) s2)) := by omega
        exact e4
      | false => simp at h2 ⊢; subst h2; omega
    | eval c =>
      simp only [run, Res.bind_eq_ok] at h
      obtain ⟨⟨t, s1⟩, h1, h2⟩ := h
      have e1 := evalCond_grows h1
      simp at h2; subst h2
      simp only [steps]; omega
    | expect k =>
      simp only [run, Res.bind_eq_ok] at h
      obtain ⟨⟨t, s1⟩, h1, h2⟩ := h
      have e1 := evalCond_grows h1
      simp only [Cond.size] at e1
      simp only [steps]
      cases t with
      | true => simp at h2; subst h2; omega
      | false =>
        simp only [Bool.false_eq_true, if_false, Res.bind_eq_ok] at h2
        obtain ⟨⟨k', s2⟩, h2, h3⟩ := h2
        have e2 := hnth h2
        have e3 := herr h3
        rw [e3.1, e3.2, e2.1, e2.2]
        omega
    | advance =>
      have := hadv h
      simp only [steps]; rw [this.1, this.2]; omega
    | call k =>
      simp only [run, Res.bind_eq_ok] at h
      obtain ⟨s1, h1, h2⟩ := h
      have e1 := ih _ _ _ h1
      simp at h2; subst h2
      simp only [steps, PState.exit, PState.enter, List.length_cons, List.length_set] at e1 ⊢
      omega
    | advErr m pre post =>
      simp only [run, Res.bind_eq_ok] at h
      obtain ⟨⟨k', s1⟩, h1, s2, h2, s3, h3, h4⟩ := h
      have e1 := hnth h1
      have e2 := herr h2
      have e3 := hadv h3
      simp at h4; subst h4
      simp only [steps, PState.exit, PState.enter, List.length_cons, List.length_set] at e3 ⊢
      rw [e3.1, e3.2, e2.1, e2.2, e1.1, e1.2]
      omega
    | look m =>
      simp only [run, Res.bind_eq_ok] at h
      obtain ⟨⟨k', s1⟩, h1, h2⟩ := h
      have e1 := hnth h1
      simp at h2; subst h2
      rw [e1.1, e1.2]; omega
    | ifk ks a b =>
      simp only [run] at h
      simp only [steps]
      split at h
      · rename_i hh
        simp only [hh, if_true]
        have := ih _ _ _ h; omega
      · rename_i hh
        rw [if_neg hh]
        have := ih _ _ _ h; omega
    | unreachable => simp [run] at h

/-! ### The size of the tree -/

/-- the least weight of the words of the expression that are not empty -/
def RE.light (W : SK → Nat) : RE → Nat
  | .none | .eps => 1000
  | .sym (.t _) => 13
  | .sym (.n k) => W k
  | .alt a b => min (a.light W) (b.light W)
  | .seq a b => min (a.light W + b.light W)
      (min (if b.nullable then a.light W else 1000) (if a.nullable then b.light W else 1000))
  | .star a => a.light W

def Sym.weight (W : SK → Nat) : Sym → Nat
  | .t _ => 13
  | .n k => W k

theorem light_le {W : SK → Nat} {r : RE} {u : List Sym} (h : Lang r u) (hu : u ≠ []) :
    r.light W ≤ (u.map (Sym.weight W)).sum := by
  induction h with
  | eps => exact absurd rfl hu
  | sym a => cases a <;> simp [RE.light, Sym.weight]
  | altL _ ih => have := ih hu; simp only [RE.light]; omega
  | altR _ ih => have := ih hu; simp only [RE.light]; omega
  | @seq a b u v h1 h2 ih1 ih2 =>
    simp only [RE.light, List.map_append, List.sum_append]
    by_cases e1 : u = []
    · subst e1
      have hn : a.nullable = true := (nullable_iff _).2 h1
      have := ih2 (by simpa using hu)
      simp only [hn, if_true, List.map_nil, List.sum_nil]
      omega
    · by_cases e2 : v = []
      · subst e2
        have hn : b.nullable = true := (nullable_iff _).2 h2
        have := ih1 e1
        simp only [hn, if_true, List.map_nil, List.sum_nil]
        omega
      · have := ih1 e1
        have := ih2 e2
        omega
  | starNil => exact absurd rfl hu
  | @starCons a u v h1 h2 ih1 ih2 =>
    simp only [List.map_append, List.sum_append]
    by_cases e1 : u = []
    · have := ih2 (by simpa [e1] using hu); omega
    · have := ih1 e1; simp only [RE.light]; omega

mutual
theorem nodes_paid {W : SK → Nat} (hW : ∀ k, W k + 1 ≤ (Gram.spec k).light W) (t : Tree) (h : t.Conforms)
    (hf : t.hasEmpty = false) : t.nodes + t.sym.weight W ≤ 13 * t.leaves.length := by
  match t with
  | .tok _ => simp [Tree.nodes, Tree.sym, Sym.weight, Tree.leaves]
  | .node k cs =>
    simp only [Tree.Conforms] at h
    simp only [Tree.hasEmpty, Bool.or_eq_false_iff] at hf
    have h1 := nodes_paidF hW cs h.2 hf.2
    have h2 := light_le (W := W) h.1 (by intro e; simp at e; simp [e] at hf)
    have h3 := hW k
    simp only [Tree.nodes, Tree.sym, Sym.weight, Tree.leaves]
    omega
theorem nodes_paidF {W : SK → Nat} (hW : ∀ k, W k + 1 ≤ (Gram.spec k).light W) (ts : List Tree) (h : ConformsF ts)
    (hf : hasEmptyF ts = false) : nodesF ts + ((ts.map Tree.sym).map (Sym.weight W)).sum ≤ 13 * (leavesF ts).length := by
  match ts with
  | [] => simp [nodesF]
  | t :: ts =>
    simp only [ConformsF] at h
    simp only [hasEmptyF, Bool.or_eq_false_iff] at hf
    have h1 := nodes_paid hW t h.1 hf.1
    have h2 := nodes_paidF hW ts h.2 hf.2
    simp only [nodesF, List.map_cons, List.sum_cons, leavesF, List.length_append]
    omega
end

/-- weights of the productions -/
def weightTable (k : SK) : Nat :=
  ([999, 25, 46, 12, 35, 38, 36, 101, 12, 11, 12, 11, 12, 38, 31, 19, 24, 12, 23, 23, 25, 8, 25, 20, 12, 10, 11, 14, 12,
   13, 1, 25, 8, 9, 10, 11, 33, 33, 21, 11, 47, 12, 12, 2, 12, 53, 53, 62, 62, 11, 12, 53, 53, 53, 75, 2, 3, 4, 5, 6, 7,
   12, 8, 12, 9, 12, 10, 11, 11, 12, 12, 11, 25, 1, 0, 1, 1, 25, 26, 1, 49, 1, 1, 26, 1, 11, 12, 37] : List Nat).getD k.ctorIdx 0

theorem weights : ∀ k, weightTable k + 1 ≤ (Gram.spec k).light weightTable := by
  intro k; cases k <;> decide +kernel

/-! ### The pieces of a file -/

theorem problems_length (name : Text) : ∀ (ps : List (Text × Chunk)) (pre : Text) (i : Nat),
    (lexemes pre i ps).length + (problems name pre ps).length = ps.length
  | [], _, _ => rfl
  | (w, p) :: ps, pre, i => by
    cases p with
    | token k t =>
      have := problems_length name ps (pre ++ w ++ t) (i + 1)
      simp only [lexemes, problems, Chunk.problem, List.nil_append, List.length_cons, Chunk.text]
      omega
    | stray c =>
      have := problems_length name ps (pre ++ w ++ Chunk.text (.stray c)) i
      simp only [lexemes, problems, Chunk.problem, List.length_cons, List.length_append, List.length_nil]
      omega
    | broken b c =>
      have := problems_length name ps (pre ++ w ++ Chunk.text (.broken b c)) i
      simp only [lexemes, problems, Chunk.problem, List.length_cons, List.length_append, List.length_nil]
      omega
    | openString b =>
      have := problems_length name ps (pre ++ w ++ Chunk.text (.openString b)) i
      simp only [lexemes, problems, Chunk.problem, List.length_cons, List.length_append, List.length_nil]
      omega
    | openQuoted b =>
      have := problems_length name ps (pre ++ w ++ Chunk.text (.openQuoted b)) i
      simp only [lexemes, problems, Chunk.problem, List.length_cons, List.length_append, List.length_nil]
      omega
    | openComment b =>
      have := problems_length name ps (pre ++ w ++ Chunk.text (.openComment b)) i
      simp only [lexemes, problems, Chunk.problem, List.length_cons, List.length_append, List.length_nil]
      omega

theorem divided_length {src : Text} {ps : List (Text × Chunk)} (h : Divided src ps) : ps.length ≤ src.length := by
  induction h with
  | done => simp
  | @next w r p ps hw hp hd ih =>
    have := piece_text_ne p hp
    have : 0 < p.text.length := List.length_pos_iff.2 this
    simp only [List.length_cons, List.length_append]
    omega

theorem filter_length {α : Type} (f : α → Bool) (l : List α) :
    (l.filter (fun x => !f x)).length + (l.filter f).length = l.length := by
  induction l with
  | nil => rfl
  | cons x l ih => cases h : f x <;> simp [h] <;> omega

theorem lex_length {name src : Text} {l : Lexed} (h : lex name src = .ok l) :
    l.tokens.length + l.comments.length + l.errors.length ≤ src.length := by
  obtain ⟨ps, hd⟩ := divided_exists src
  have hx := C53_lexed name src ps hd
  rw [h] at hx
  split at hx
  · simp at hx
  · simp only [Res.ok.injEq] at hx
    subst hx
    have h1 := problems_length name ps [] 0
    have h2 := divided_length hd
    have h3 := filter_length isComment (lexemes [] 0 ps)
    simp only
    omega

/-! ### C75 -/

/-- **C75** The parser makes at most 1010 steps for every token and 1015 more, whatever the tokens are, also if it reports
errors or stops with a panic. -/
theorem C75_steps (name : Text) (toks : List Token) (k : SK) (n : Nat) :
    steps name toks Grammar.body n (.call k) PState.init ≤ 1010 * toks.length + 1015 :=
  steps_call n k

/-- **C75** The number of events and messages of a parse, and with them the memory it needs, is linear in the length of the
file, whatever stands in it. -/
theorem C75_parsed (name src : Text) (k : SK) (p : Parsed) (h : parse name src k = .ok p) :
    p.tokens.length + p.comments.length ≤ src.length ∧ p.events.length + p.errors.length ≤ 1010 * src.length + 1015 := by
  unfold parse at h
  rw [Res.bind_eq_ok] at h
  obtain ⟨l, hl, h⟩ := h
  rw [Res.bind_eq_ok] at h
  obtain ⟨⟨evs, errs⟩, h1, h⟩ := h
  simp only [Res.ok.injEq] at h
  subst h
  have hlen := lex_length hl
  unfold events at h1
  rw [Res.bind_eq_ok] at h1
  obtain ⟨s, h1, h2⟩ := h1
  simp only [Res.ok.injEq, Prod.mk.injEq] at h2
  obtain ⟨rfl, rfl⟩ := h2
  have h3 := run_grows _ _ _ _ h1
  have h4 := C75_steps name l.tokens k (parseFuel l.tokens.length)
  simp only [PState.init, List.length_nil] at h3 h4
  simp only [List.length_reverse, List.length_append]
  omega

/-- **C75** The tree of an accepted file has at most thirteen productions for every token, and one for the file. -/
theorem C75_tree (name src : Text) (p : Parsed) (h : parse name src .StoredDefinition = .ok p) (he : p.errors = [])
    (t : Tree) (ht : buildTree p.tokens p.events = .ok t) : t.nodes ≤ 13 * p.tokens.length + 1 := by
  unfold parse at h
  rw [Res.bind_eq_ok] at h
  obtain ⟨l, hl, h⟩ := h
  rw [Res.bind_eq_ok] at h
  obtain ⟨⟨evs, errs⟩, h1, h⟩ := h
  simp only [Res.ok.injEq] at h
  subst h
  simp only [List.append_eq_nil_iff] at he
  obtain ⟨he, rfl⟩ := he
  obtain ⟨F, g1, g2, g3⟩ := events_conform h1
  have hb := buildTree_evs .StoredDefinition F
  simp only at ht
  rw [g1, g2, hb] at ht
  simp only [Res.ok.injEq] at ht
  subst ht
  simp only [Tree.Conforms] at g3
  have := nodes_paidF weights (pruneF F) g3.2 (hasEmpty_pruneF F)
  rw [leaves_pruneF] at this
  simp only [Tree.nodes]
  rw [g2]
  omega

/-! ### Cases -/

/-- the number of tokens of a text and of the parser's steps for them -/
def stepsOf (src : Text) (k : SK) : Nat × Nat :=
  match lex c!"f" src with
  | .ok l => (l.tokens.length, steps c!"f" l.tokens Grammar.body (parseFuel l.tokens.length) (.call k) PState.init)
  | _ => (0, 0)

/-- the messages, the tokens and the productions of the tree of a text -/
def sizesOf (src : Text) : Nat × Nat × Nat :=
  match parse c!"f" src .StoredDefinition with
  | .ok p => match buildTree p.tokens p.events with
    | .ok t => (p.errors.length, p.tokens.length, t.nodes)
    | _ => (0, 0, 0)
  | _ => (0, 0, 0)

/-- A file that is accepted, and a text that is not: their steps; the size of the tree of the file. -/
theorem C75_case : stepsOf exMany .StoredDefinition = (63, 1569) ∧
    stepsOf c!"model A equation x y z 3 ) ( end end end if A;" .StoredDefinition = (15, 1044) ∧
    stepsOf c!"x * * * * y" .Expression = (6, 279) ∧ sizesOf exMany = (0, 63, 162) := by
  decide +kernel

end Mofmt
