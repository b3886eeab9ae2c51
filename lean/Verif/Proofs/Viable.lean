import Verif.Props.Lexemes
/-
Up to the first error the parser has passed the beginning of a grammatical text: symbolic execution along
the grammar, as in `ParserAbs`, with the additional check that what may still follow can be completed.
-/
namespace Mofmt

namespace RE
/-- a word of the expression, a short one -/
def word : RE → Option (List Sym)
  | none => .none
  | eps => some []
  | sym a => some [a]
  | alt a b => match a.word, b.word with
    | some u, some v => if u.length ≤ v.length then some u else some v
    | some u, .none => some u
    | .none, v => v
  | seq a b => match a.word, b.word with
    | some u, some v => some (u ++ v)
    | _, _ => .none
  | star _ => some []
end RE

theorem word_lang : ∀ {r : RE} {w : List Sym}, r.word = some w → Lang r w
  | .none, _, h => by simp [RE.word] at h
  | .eps, _, h => by simp [RE.word] at h; subst h; exact .eps
  | .sym a, _, h => by simp [RE.word] at h; subst h; exact .sym a
  | .alt a b, w, h => by
    simp only [RE.word] at h
    split at h
    · rename_i u v h1 h2
      split at h
      · simp at h; subst h; exact .altL (word_lang h1)
      · simp at h; subst h; exact .altR (word_lang h2)
    · rename_i u h1 h2
      simp at h; subst h; exact .altL (word_lang h1)
    · exact .altR (word_lang h)
  | .seq a b, w, h => by
    simp only [RE.word] at h
    split at h
    · rename_i u v h1 h2
      simp at h; subst h; exact .seq (word_lang h1) (word_lang h2)
    · simp at h
  | .star a, _, h => by simp [RE.word] at h; subst h; exact .starNil

namespace Via

/-! ### A tree for every production -/

/-- some token of the kind -/
def tokOf (k : Tok) : Token := { idx := 0, text := [], kind := k, start := default, stop := default }

def shorter (a b : Option (List Tree)) : Option (List Tree) :=
  match a, b with
  | some u, some v => if (leavesF u).length ≤ (leavesF v).length then some u else some v
  | some u, none => some u
  | none, v => v

def both (a b : Option (List Tree)) : Option (List Tree) :=
  match a, b with
  | some u, some v => some (u ++ v)
  | _, _ => none

abbrev Tab := List (SK × Tree)

def Tab.get (tab : Tab) (k : SK) : Option Tree := (tab.find? (fun x => x.1 == k)).map (·.2)

/-- a forest for the expression -/
def plant (tab : Tab) : RE → Option (List Tree)
  | .none => none
  | .eps => some []
  | .sym (.t k) => some [.tok (tokOf k)]
  | .sym (.n k) => (tab.get k).map ([·])
  | .alt a b => shorter (plant tab a) (plant tab b)
  | .seq a b => both (plant tab a) (plant tab b)
  | .star _ => some []

/-- a forest with at least one tree for the expression -/
def plant1 (tab : Tab) : RE → Option (List Tree)
  | .none => none
  | .eps => none
  | .sym (.t k) => some [.tok (tokOf k)]
  | .sym (.n k) => (tab.get k).map ([·])
  | .alt a b => shorter (plant1 tab a) (plant1 tab b)
  | .seq a b => shorter (both (plant1 tab a) (plant tab b)) (both (plant tab a) (plant1 tab b))
  | .star a => plant1 tab a

def grow (tab : Tab) : Tab :=
  SK.all.filterMap fun k => match tab.get k with
    | some t => some (k, t)
    | none => (plant1 tab (Gram.spec k)).map fun cs => (k, .node k cs)

def trees : Nat → Tab
  | 0 => []
  | n + 1 => grow (trees n)


mutual
/-- a decision procedure for `Opens` -/
def opened : Tree → Bool
  | .tok _ => true
  | .node p cs => cs.all (·.startsOk p) && openedF cs
def openedF : List Tree → Bool
  | [] => true
  | t :: ts => opened t && openedF ts
end

mutual
theorem opened_opens (t : Tree) (h : opened t = true) : t.Opens := by
  match t with
  | .tok _ => trivial
  | .node p cs =>
    simp only [opened, Bool.and_eq_true, List.all_eq_true] at h
    exact ⟨h.1, openedF_opens cs h.2⟩
theorem openedF_opens (cs : List Tree) (h : openedF cs = true) : OpensF cs := by
  match cs with
  | [] => trivial
  | t :: ts =>
    simp only [openedF, Bool.and_eq_true] at h
    exact ⟨opened_opens t h.1, openedF_opens ts h.2⟩
end

/-- a tree of the kind that may stand anywhere -/
def fine (k : SK) (t : Tree) : Bool :=
  t.sym == .n k && t.fits && !t.hasEmpty && opened t && t.startsOk .EquationSection

theorem trees_fine : (let tab := trees 12; SK.all.all fun k => k == .Error || (tab.get k).any (fine k)) = true := by
  decide +kernel

theorem startsOk_mono {p : SK} {t : Tree} (h : t.startsOk .EquationSection = true) : t.startsOk p = true := by
  cases t with
  | tok => rfl
  | node k cs =>
    simp only [Tree.startsOk] at h ⊢
    split
    · rfl
    · rename_i x xs hx
      rw [hx] at h
      simp only [opens, Bool.not_eq_true', Bool.and_eq_false_iff, Bool.or_eq_false_iff] at h ⊢
      rcases h with h | h
      · exact .inl h
      · refine .inr ⟨h.1, ?_⟩
        rcases h.2 with h | h
        · simp at h
        · exact .inr h

theorem tree_exists (k : SK) (hk : k ≠ .Error) : ∃ t : Tree, t.sym = .n k ∧ t.Conforms ∧ t.hasEmpty = false ∧
    t.Opens ∧ ∀ p, t.startsOk p = true := by
  have h := trees_fine
  simp only [List.all_eq_true] at h
  have hm : k ∈ SK.all := by cases k <;> decide
  have h := h k hm
  simp only [Bool.or_eq_true, beq_iff_eq, hk, false_or] at h
  obtain ⟨_, h⟩ := Option.any_eq_true_iff_get .. |>.mp h
  simp only [fine, Bool.and_eq_true, beq_iff_eq, Bool.not_eq_true'] at h
  obtain ⟨⟨⟨⟨h1, h2⟩, h3⟩, h4⟩, h5⟩ := h
  exact ⟨_, h1, fits_conforms _ h2, h3, opened_opens _ h4, fun p => startsOk_mono h5⟩

/-! ### Completing -/

/-- something may follow -/
def live (r : RE) : Bool := r.word.any fun w => w.all (· != .n .Error)

/-- A forest that may stand in `p`. -/
structure Fits (p : SK) (F : List Tree) : Prop where
  conf : ConformsF F
  full : hasEmptyF F = false
  start : Open.StartF p F

theorem conformsF_append : ∀ {F G : List Tree}, ConformsF F → ConformsF G → ConformsF (F ++ G)
  | [], _, _, h => h
  | _ :: _, _, h, h' => ⟨h.1, conformsF_append h.2 h'⟩

theorem hasEmptyF_append : ∀ {F G : List Tree}, hasEmptyF (F ++ G) = (hasEmptyF F || hasEmptyF G)
  | [], _ => by simp [hasEmptyF]
  | t :: F, G => by simp [hasEmptyF, hasEmptyF_append (F := F), Bool.or_assoc]

theorem leavesF_append : ∀ {F G : List Tree}, leavesF (F ++ G) = leavesF F ++ leavesF G
  | [], _ => by simp [leavesF]
  | t :: F, G => by simp [leavesF, leavesF_append (F := F)]

theorem Fits.append {p : SK} {F G : List Tree} (h : Fits p F) (h' : Fits p G) : Fits p (F ++ G) where
  conf := conformsF_append h.conf h'.conf
  full := by rw [hasEmptyF_append, h.full, h'.full]; rfl
  start := h.start.append h'.start

theorem Fits.nil {p : SK} : Fits p [] := ⟨trivial, rfl, .nil⟩

theorem word_trees (p : SK) : ∀ (w : List Sym), w.all (· != .n .Error) = true →
    ∃ G, Fits p G ∧ G.map Tree.sym = w
  | [], _ => ⟨[], .nil, rfl⟩
  | a :: w, h => by
    simp only [List.all_cons, Bool.and_eq_true, bne_iff_ne] at h
    obtain ⟨G, hG, e⟩ := word_trees p w h.2
    cases a with
    | t k =>
      exact ⟨[.tok (tokOf k)] ++ G, Fits.append (F := [.tok (tokOf k)]) ⟨by simp [ConformsF, Tree.Conforms], rfl, .tok⟩ hG, by simp [Tree.sym, tokOf, e]⟩
    | n k =>
      obtain ⟨t, h1, h2, h3, h4, h5⟩ := tree_exists k (fun e => h.1 (by rw [e]))
      refine ⟨[t] ++ G, Fits.append ⟨⟨h2, trivial⟩, by simp [hasEmptyF, h3], ⟨?_, ⟨h4, trivial⟩⟩⟩ hG, by simp [h1, e]⟩
      intro c hc
      simp only [List.mem_singleton] at hc
      subst hc
      exact h5 p

theorem live_trees {r : RE} (p : SK) (h : live r = true) : ∃ G, Fits p G ∧ Lang r (G.map Tree.sym) := by
  unfold live at h
  cases hw : r.word with
  | none => simp [hw] at h
  | some w =>
    rw [hw] at h
    obtain ⟨G, hG, e⟩ := word_trees p w h
    exact ⟨G, hG, e ▸ word_lang hw⟩

/-- The tokens are the beginning of something the expression allows in `p`. -/
def Can (p : SK) (r : RE) (ts : List Token) : Prop :=
  ∃ F extra, Fits p F ∧ Lang r (F.map Tree.sym) ∧ leavesF F = ts ++ extra

theorem Can.nil {p : SK} {r : RE} (h : live r = true) : Can p r [] := by
  obtain ⟨G, hG, hl⟩ := live_trees p h
  exact ⟨G, _, hG, hl, rfl⟩

/-! ### The symbolic execution -/

/-- Can every token a condition passes be followed by something? -/
def condLive : Cond → PAbs → Bool
  | .consume k, a => !a.k0.has k || live (a.pass k).re
  | .not c, a => condLive c a
  | .and c d, a => condLive c a && (absCond c a).all fun x => live x.2.re && (!x.1 || condLive d x.2)
  | .or c d, a => condLive c a && (absCond c a).all fun x => live x.2.re && (x.1 || condLive d x.2)
  | _, _ => true

def loopLive (c : Cond) (step : PAbs → Option (List PAbs)) (body : PAbs → Bool) : Nat → List PAbs → Bool
  | 0, _ => false
  | n + 1, heads =>
    let ins := (heads.flatMap (absCond c)).filter (·.1)
    match bindAll (fun x => step x.2) ins with
    | none => false
    | some next =>
      if next.all (fun x => x ∈ heads) then
        heads.all (fun a => live a.re && condLive c a) && ins.all (fun o => live o.2.re && body o.2)
      else loopLive c step body n (dedup (heads ++ next))

/-- Can every token and every production a command passes be followed by something? -/
def runLive (pre : SK → KSet) : Cmd → PAbs → Bool
  | .seq c d, a => runLive pre c a && match absRun pre c a with
    | some as => (dedup as).all fun x => live x.re && runLive pre d x
    | none => false
  | .ite c x y, a => condLive c a && (absCond c a).all fun o =>
      live o.2.re && if o.1 then runLive pre x o.2 else runLive pre y o.2
  | .while c x, a => loopLive c (absRun pre x) (runLive pre x) 8 [a]
  | .eval c, a => condLive c a
  | .expect k, a => live (a.pass k).re && k != .Initial
  | .advance, a => a.passAny.all fun x => live x.re
  | .call k, a => decide (KSet.diff a.k0 (pre k) = 0 ∧ k ≠ .StoredDefinition ∧ k ≠ .Error) &&
      live (a.re.der (.n k))
  | .ifk ks x y, a =>
    if a.lo = 0 ∨ a.lo = 1 then
      (a.assume a.lo (KSet.of ks)).all (runLive pre x) && (a.exclude a.lo (KSet.of ks)).all (runLive pre y)
    else runLive pre x a && runLive pre y a
  | .advErr _ pre _, _ => pre == c!"unexpected token '"
  | _, _ => true

/-- Does the command ask for the token `end`? -/
def wantsEnd : Cmd → Bool
  | .seq c d => wantsEnd c || wantsEnd d
  | .ite _ x y => wantsEnd x || wantsEnd y
  | .while _ x => wantsEnd x
  | .expect k => k == .End
  | .ifk _ x y => wantsEnd x || wantsEnd y
  | _ => false

/-- Only an operand can be the single word `end`. -/
theorem spec_end (k : SK) : k = .Primary ∨ Sym.t .End ∉ (Gram.spec k).first := by
  cases k <;> first | exact .inl rfl | exact .inr (by decide +kernel)

/-- what is known when the grammar function for `k` is called -/
def entry (k : SK) : PAbs := { re := Gram.spec k, k0 := preKinds k, k1 := KSet.all, lo := 9 }

def bodyLive (k : SK) : Bool := live (Gram.spec k) && runLive preKinds (Grammar.body k) (entry k)

theorem bodyLive_all (k : SK) (hk : k ≠ .Error) : bodyLive k = true := by
  revert hk
  cases k <;> decide +kernel

theorem loop_sound {c : Cond} {step : PAbs → Option (List PAbs)} {body : PAbs → Bool} : ∀ {n : Nat}
    {heads : List PAbs}, loopLive c step body n heads = true →
    ∃ H : List PAbs, (∀ a ∈ heads, a ∈ H) ∧ (∀ a ∈ H, live a.re = true ∧ condLive c a = true) ∧
      ∀ a ∈ H, ∀ a1, (true, a1) ∈ absCond c a → live a1.re = true ∧ body a1 = true ∧
        ∃ as, step a1 = some as ∧ ∀ x ∈ as, x ∈ H
  | 0, _, h => by simp [loopLive] at h
  | n + 1, heads, h => by
    simp only [loopLive] at h
    split at h
    · simp at h
    · rename_i next hn
      split at h
      · rename_i hall
        simp only [List.all_eq_true, decide_eq_true_eq, Bool.and_eq_true] at hall h
        refine ⟨heads, fun a h => h, h.1, ?_⟩
        intro a ha a1 h1
        have hm : (true, a1) ∈ (heads.flatMap (absCond c)).filter (·.1) := by
          simp only [List.mem_filter, List.mem_flatMap]; exact ⟨⟨a, ha, h1⟩, trivial⟩
        obtain ⟨as, h2, h3⟩ := bindAll_mem hn (true, a1) hm
        have := h.2 _ hm
        exact ⟨this.1, this.2, as, h2, fun x hx => hall x (h3 x hx)⟩
      · obtain ⟨H, h1, h2, h3⟩ := loop_sound h
        exact ⟨H, fun a ha => h1 a (by rw [mem_dedup]; exact List.mem_append_left _ ha), h2, h3⟩

section
variable {name : Text} {toks : List Token}

/-- asking for a token at the end of the file -/
def AtEnd (msg : Text) : Prop := ∃ k : Tok, msg = c!"expected " ++ k.debug ++ c!", found " ++ Tok.debug .EOF

/-- the message is about the token at `q`, or the last token if there is none -/
def At (name : Text) (toks : List Token) (e : Text) (q : Nat) : Prop :=
  ∃ t msg, (toks[q]? = some t ∨ (toks[q]? = none ∧ toks.getLast? = some t)) ∧ e = errorText name t.start msg ∧
    (toks[q]? = none → AtEnd msg)

theorem error_at {s s' : PState} {m : Text} (h : s.error name toks m = .ok s')
    (hm : toks[s.pos]? = none → AtEnd m) :
    ∃ e, s'.errors = s.errors ++ [e] ∧ At name toks e s.pos := by
  unfold PState.error at h
  split at h
  · rename_i t ht
    simp at h; subst h
    exact ⟨_, rfl, t, m, .inl ht, rfl, hm⟩
  · rename_i hn
    split at h
    · rename_i t ht
      simp at h; subst h
      exact ⟨_, rfl, t, m, .inr ⟨hn, ht⟩, rfl, hm⟩
    · simp at h

theorem error_text {s s' : PState} {m : Text} (h : s.error name toks m = .ok s') :
    ∃ e, s'.errors = s.errors ++ [e] ∧ ∃ t msg, (toks[s.pos]? = some t ∨ (toks[s.pos]? = none ∧ toks.getLast? = some t)) ∧
      e = errorText name t.start msg ∧ msg = m := by
  unfold PState.error at h
  split at h
  · rename_i t ht
    simp at h; subst h
    exact ⟨_, rfl, t, m, .inl ht, rfl, rfl⟩
  · rename_i hn
    split at h
    · rename_i t ht
      simp at h; subst h
      exact ⟨_, rfl, t, m, .inr ⟨hn, ht⟩, rfl, rfl⟩
    · simp at h

/-- Every new message is about a place between the old and the new position. -/
def New (name : Text) (toks : List Token) (s s' : PState) : Prop :=
  ∃ new, s'.errors = s.errors ++ new ∧ ∀ e ∈ new, ∃ q, s.pos ≤ q ∧ q ≤ s'.pos ∧ At name toks e q

theorem New.same {s s' : PState} (h : s'.errors = s.errors) : New name toks s s' := ⟨[], by simp [h], by simp⟩

theorem New.trans {s1 s2 s3 : PState} (h1 : New name toks s1 s2) (h2 : New name toks s2 s3)
    (p1 : s1.pos ≤ s2.pos) (p2 : s2.pos ≤ s3.pos) : New name toks s1 s3 := by
  obtain ⟨a, e1, f1⟩ := h1
  obtain ⟨b, e2, f2⟩ := h2
  refine ⟨a ++ b, by rw [e2, e1, List.append_assoc], ?_⟩
  intro e he
  rcases List.mem_append.mp he with he | he
  · obtain ⟨q, h1, h2, h3⟩ := f1 e he
    exact ⟨q, h1, by omega, h3⟩
  · obtain ⟨q, h1, h2, h3⟩ := f2 e he
    exact ⟨q, by omega, h2, h3⟩

theorem Grew.pos_le {s s' : PState} {F : List Tree} (g : Grew toks s s' F) : s.pos ≤ s'.pos := by
  have := g.pos; omega

theorem run_new : ∀ (n : Nat) (c : Cmd) {s s' : PState}, s.pos ≤ toks.length →
    run name toks Grammar.body n c s = .ok s' → New name toks s s' := by
  intro n
  induction n with
  | zero => intro c s s' _ h; simp [run] at h
  | succ n ih =>
    intro c s s' hle h
    cases c with
    | skip => simp [run] at h; subst h; exact .same rfl
    | seq a b =>
      simp only [run, Res.bind_eq_ok] at h
      obtain ⟨s1, h1, h2⟩ := h
      obtain ⟨_, g1⟩ := run_grew' n a hle h1
      obtain ⟨_, g2⟩ := run_grew' n b g1.le h2
      exact (ih a hle h1).trans (ih b g1.le h2) (Grew.pos_le g1) (Grew.pos_le g2)
    | ite c a b =>
      simp only [run, Res.bind_eq_ok] at h
      obtain ⟨⟨t, s1⟩, h1, h2⟩ := h
      obtain ⟨_, g1, e1⟩ := evalCond_grew c hle h1
      dsimp only at h2
      split at h2
      · obtain ⟨_, g2⟩ := run_grew' n a g1.le h2
        exact (New.same e1).trans (ih a g1.le h2) (Grew.pos_le g1) (Grew.pos_le g2)
      · obtain ⟨_, g2⟩ := run_grew' n b g1.le h2
        exact (New.same e1).trans (ih b g1.le h2) (Grew.pos_le g1) (Grew.pos_le g2)
    | «while» c a =>
      simp only [run, Res.bind_eq_ok] at h
      obtain ⟨⟨t, s1⟩, h1, h2⟩ := h
      obtain ⟨_, g1, e1⟩ := evalCond_grew c hle h1
      dsimp only at h2
      split at h2
      · simp only [Res.bind_eq_ok] at h2
        obtain ⟨s2, h3, h4⟩ := h2
        obtain ⟨_, g2⟩ := run_grew' n a g1.le h3
        obtain ⟨_, g3⟩ := run_grew' n _ g2.le h4
        have p2 := Grew.pos_le g2
        have p3 := Grew.pos_le g3
        exact (New.same e1).trans ((ih a g1.le h3).trans (ih _ g2.le h4) p2 p3) (Grew.pos_le g1) (by omega)
      · simp at h2; subst h2; exact .same e1
    | eval c =>
      simp only [run, Res.bind_eq_ok] at h
      obtain ⟨⟨t, s1⟩, h1, h2⟩ := h
      simp at h2; subst h2
      exact .same (evalCond_errors c h1)
    | expect k =>
      simp only [run, Res.bind_eq_ok] at h
      obtain ⟨⟨t, s1⟩, h1, h2⟩ := h
      obtain ⟨_, g1, e1⟩ := evalCond_grew _ hle h1
      dsimp only at h2
      split at h2
      · simp at h2; subst h2; exact .same e1
      · simp only [Res.bind_eq_ok] at h2
        obtain ⟨⟨k', s2⟩, h3, h4⟩ := h2
        obtain ⟨_, f2, f3⟩ := nth_grew h3
        obtain ⟨_, g2, _⟩ := error_grew h4
        obtain ⟨e, h5, h6⟩ := error_at h4 (fun hn => ⟨k, by
          obtain ⟨_, e5, _, e6, _⟩ := nth_sound h3
          dsimp only at e5 e6 hn
          rw [e5] at hn
          rw [show k' = .EOF by rw [e6]; simp [kindAt, hn]]⟩)
        have p1 := Grew.pos_le g1
        refine ⟨[e], by rw [h5, f3, e1], ?_⟩
        intro e' he
        simp only [List.mem_singleton] at he; subst he
        exact ⟨s2.pos, by rw [f2]; exact p1, by rw [g2]; exact Nat.le_refl _, h6⟩
    | advance =>
      simp only [run] at h
      exact .same (advance_errors h)
    | call k =>
      simp only [run, Res.bind_eq_ok] at h
      obtain ⟨s1, h1, h2⟩ := h
      simp at h2; subst h2
      exact show New name toks s.enter s1 from ih _ hle h1
    | advErr m pre post =>
      simp only [run, Res.bind_eq_ok] at h
      obtain ⟨⟨k', s1⟩, h1, s2, h2, s3, h3, h4⟩ := h
      simp at h4; subst h4
      obtain ⟨_, e2, e3⟩ := nth_grew h1
      obtain ⟨_, f2, _⟩ := error_grew h2
      obtain ⟨e, h5, h6⟩ := error_at h2 (fun hn => by
        unfold PState.advance PState.eof at h3
        split at h3
        · simp at h3
        · rename_i hne
          simp only [PState.enter, beq_iff_eq] at hne
          dsimp only at f2 e2 hn
          rw [List.getElem?_eq_none_iff] at hn
          omega)
      have hle2 : s2.enter.pos ≤ toks.length := by
        simp [PState.enter]; rw [f2, e2]; exact hle
      obtain ⟨t, _, g, hp, g4⟩ := advance_grew hle2 h3
      refine ⟨[e], ?_, ?_⟩
      · show s3.errors = _
        rw [g4]
        show s2.errors = _
        rw [h5, e3]
      · intro e' he
        simp only [List.mem_singleton] at he; subst he
        dsimp only at f2 e2
        refine ⟨s1.pos, by omega, ?_, h6⟩
        show s1.pos ≤ s3.pos
        rw [hp]
        show s1.pos ≤ s2.pos + 1
        omega
    | look m =>
      simp only [run, Res.bind_eq_ok] at h
      obtain ⟨⟨k', s1⟩, h1, h2⟩ := h
      simp at h2; subst h2
      exact .same (nth_errors h1)
    | ifk ks a b =>
      simp only [run] at h
      split at h
      · exact ih a hle h
      · exact ih b hle h
    | unreachable => simp [run] at h

/-- What the message about `q` says: it asks for the token `ext` instead of the token at `q`; or it asks for
nothing. -/
def Asks (toks : List Token) (q : Nat) (msg : Text) (ext : List Token) : Prop :=
  (∃ k x, ext = [tokOf k] ∧ toks[q]? = some x ∧ x.kind ≠ k ∧
    msg = c!"expected " ++ k.debug ++ c!", found " ++ x.kind.debug) ∨
  (ext = [] ∧ ((q = toks.length ∧ AtEnd msg) ∨ ∃ m, msg = c!"unexpected token '" ++ m))

/-- the message is about the token at `q`, or the last token if there is none, and asks for `ext` -/
def Wants (name : Text) (toks : List Token) (e : Text) (q : Nat) (ext : List Token) : Prop :=
  ∃ t msg, (toks[q]? = some t ∨ (toks[q]? = none ∧ toks.getLast? = some t)) ∧ e = errorText name t.start msg ∧
    Asks toks q msg ext

/-- what asks for a token before anything has been passed does not ask for `end` -/
def NoEnd (p : SK) (r : RE) (s : PState) (q : Nat) (ext : List Token) : Prop :=
  (p = .Primary ∨ ∀ w, ¬ Lang r (.t .End :: w)) → q = s.pos → ∀ x ∈ ext, x.kind ≠ .End

/-- The part of the run between the two states: up to some place `q` the tokens can be completed; if there
was no error `q` is the end, otherwise the first message is about `q`, and the tokens up to `q` followed by
the token it asks for can be completed. -/
def Out (name : Text) (toks : List Token) (p : SK) (r : RE) (s s' : PState) : Prop :=
  ∃ q ext, s.pos ≤ q ∧ q ≤ toks.length ∧ Can p r ((toks.drop s.pos).take (q - s.pos) ++ ext) ∧
    (s'.errors = s.errors → q = toks.length ∧ ext = []) ∧
    (∀ e es, s'.errors = s.errors ++ e :: es → Wants name toks e q ext) ∧
    (∀ x ∈ ext, x.kind ≠ .Initial) ∧ NoEnd p r s q ext

/-- no error, not at the end -/
def Quiet (toks : List Token) (s s' : PState) : Prop := s'.errors = s.errors ∧ s'.pos < toks.length

theorem Out.here {p : SK} {r : RE} {s s' : PState} (hle : s.pos ≤ toks.length) (hr : live r = true)
    (h1 : s'.errors = s.errors → s.pos = toks.length)
    (h2 : ∀ e es, s'.errors = s.errors ++ e :: es → Wants name toks e s.pos []) : Out name toks p r s s' :=
  ⟨s.pos, [], Nat.le_refl _, hle, by simpa using Can.nil hr, fun h => ⟨h1 h, rfl⟩, h2, by simp,
    fun _ _ => by simp⟩

theorem At.end_ {e : Text} {q : Nat} (h : At name toks e q) (hq : q = toks.length) : Wants name toks e q [] := by
  obtain ⟨t, msg, h1, h2, h3⟩ := h
  exact ⟨t, msg, h1, h2, .inr ⟨rfl, .inl ⟨hq, h3 (by simp [hq])⟩⟩⟩

theorem Out.atEnd {p : SK} {r : RE} {s s' : PState} (hp : s.pos = toks.length) (hr : live r = true)
    (hn : New name toks s s') (hle : s'.pos ≤ toks.length) : Out name toks p r s s' := by
  refine Out.here (by omega) hr (fun _ => hp) ?_
  intro e es he
  obtain ⟨new, h1, h2⟩ := hn
  have : new = e :: es := by rw [h1] at he; exact List.append_cancel_left he
  obtain ⟨q, q1, q2, q3⟩ := h2 e (by simp [this])
  have : q = s.pos := by omega
  exact At.end_ (this ▸ q3) hp

theorem Out.left {p : SK} {r : RE} {s s1 s' : PState} (h : Out name toks p r s s1) (hq : ¬ Quiet toks s s1)
    (hle1 : s1.pos ≤ toks.length) (hle : s'.pos ≤ toks.length)
    (hn1 : New name toks s s1) (hn : New name toks s1 s') : Out name toks p r s s' := by
  obtain ⟨q, ext, q1, q2, q3, q4, q5, q6, q7⟩ := h
  obtain ⟨a, ha, _⟩ := hn1
  obtain ⟨b, hb, hb2⟩ := hn
  refine ⟨q, ext, q1, q2, q3, ?_, ?_, q6, q7⟩
  · intro e
    refine q4 ?_
    rw [hb, ha, List.append_assoc] at e
    have := List.append_right_eq_self.mp e
    rw [ha, (List.append_eq_nil_iff.mp this).1, List.append_nil]
  · intro e es he
    cases a with
    | nil =>
      rw [List.append_nil] at ha
      obtain ⟨hqn, rfl⟩ := q4 ha
      have hp : s1.pos = toks.length := by
        unfold Quiet at hq
        simp only [ha, true_and, Nat.not_lt] at hq
        omega
      have : b = e :: es := by rw [hb, ha] at he; exact List.append_cancel_left he
      obtain ⟨q', p1, p2, p3⟩ := hb2 e (by simp [this])
      have : q' = q := by omega
      exact At.end_ (this ▸ p3) hqn
    | cons x xs =>
      have : x = e := by
        rw [hb, ha, List.append_assoc] at he
        have := List.append_cancel_left he
        simp only [List.cons_append, List.cons.injEq] at this
        exact this.1
      exact q5 e xs (by rw [ha, this])

theorem grew_prune {s s' : PState} {F G : List Tree} (h1 : Grew toks s s' F) (h2 : Grew toks s s' G) :
    pruneF F = pruneF G := by
  have e1 : evsF F = evsF G := by
    have := h1.evs
    rw [h2.evs] at this
    have := List.append_cancel_right this
    simpa using this.symm
  have e2 : leavesF F = leavesF G := by
    have := h1.rest
    rw [h2.rest] at this
    exact (List.append_cancel_right this).symm
  have b1 := buildTree_evs .Error F
  have b2 := buildTree_evs .Error G
  simp only [Tree.evs] at b1 b2
  rw [e1, e2, b2] at b1
  simpa using b1.symm

mutual
theorem pruned_nil (t : Tree) (h : t.leaves = []) : t.pruned = [] := by
  match t with
  | .tok x => simp [Tree.leaves] at h
  | .node k cs =>
    simp only [Tree.leaves] at h
    simp [Tree.pruned, pruneF_nil cs h]
theorem pruneF_nil (F : List Tree) (h : leavesF F = []) : pruneF F = [] := by
  match F with
  | [] => rfl
  | t :: ts =>
    simp only [leavesF, List.append_eq_nil_iff] at h
    simp [pruneF, pruned_nil t h.1, pruneF_nil ts h.2]
end

theorem Out.right {p : SK} {a a1 : PAbs} {s s1 s' : PState} {F G : List Tree}
    (hs : Step (toks := toks) s s1 a a1 F) (hG : Grew toks s s1 G) (hp : Open.StartF p G)
    (he : s1.errors = s.errors) (h : Out name toks p a1.re s1 s') : Out name toks p a.re s s' := by
  obtain ⟨q, ext, q1, q2, ⟨F2, extra, f1, f2, f3⟩, q4, q5, q6, q7⟩ := h
  have hpos := hs.grew.pos
  have hrest := hs.grew.rest
  refine ⟨q, ext, by omega, q2, ⟨pruneF F ++ F2, extra, Fits.append ⟨conforms_pruneF _ hs.conf, hasEmpty_pruneF F, ?_⟩ f1,
    ?_, ?_⟩, fun e => q4 (by rw [e, he]), fun e es h => q5 e es (by rw [h, he]), q6, ?_⟩
  · rw [grew_prune hs.grew hG]
    exact Open.pruneF_opens p G hp
  · rw [List.map_append]
    exact hs.lang _ f2
  · rw [leavesF_append, leaves_pruneF, f3, hrest]
    have e : q - s.pos = (leavesF F).length + (q - s1.pos) := by omega
    rw [e, List.take_length_add_append]
    simp only [List.append_assoc]
  · intro hor hqs
    have hF : leavesF F = [] := List.length_eq_zero_iff.mp (by omega)
    refine q7 ?_ (by omega)
    rcases hor with h | h
    · exact .inl h
    · right
      intro w hw
      have := hs.lang _ hw
      rw [pruneF_nil F hF] at this
      exact h w this

theorem Out.pass {p : SK} {a : PAbs} {s s' : PState} (hle : s.pos ≤ toks.length) (hk : Knows toks a s)
    (h : s.advance toks = .ok s') (hp : s'.pos = toks.length)
    (hl : live (a.pass (kindAt toks s 0)).re = true) : Out name toks p a.re s s' := by
  obtain ⟨F, hs⟩ := pass_sound hle hk h
  obtain ⟨t, _, g, _, he⟩ := advance_grew hle h
  exact Out.right hs g .tok he (Out.atEnd hp hl (.same rfl) (by omega))

theorem cond_out (c : Cond) : ∀ {p : SK} {s s' : PState} {a : PAbs} {b : Bool}, s.pos ≤ toks.length →
    Knows toks a s → evalCond toks c s = .ok (b, s') → s'.pos = toks.length → live a.re = true →
    condLive c a = true → Out name toks p a.re s s' := by
  induction c with
  | check k | checkAny ks | nthIs n k =>
    intro p s s' a b hle hk h hp hl hc
    simp only [evalCond, Res.bind_eq_ok] at h
    obtain ⟨⟨k', s1⟩, h1, h2⟩ := h
    simp only [Res.ok.injEq, Prod.mk.injEq] at h2
    obtain ⟨rfl, rfl⟩ := h2
    obtain ⟨e1, e2, e3, e4, e5⟩ := nth_sound h1
    exact Out.atEnd (by omega) hl (.same e3) (by omega)
  | eof =>
    intro p s s' a b hle hk h hp hl hc
    simp [evalCond] at h
    obtain ⟨rfl, rfl⟩ := h
    exact Out.atEnd hp hl (.same rfl) hle
  | consume k =>
    intro p s s' a b hle hk h hp hl hc
    simp only [evalCond, Res.bind_eq_ok] at h
    obtain ⟨⟨k', s1⟩, h1, h2⟩ := h
    obtain ⟨e1, e2, e3, e4, e5⟩ := nth_sound h1
    dsimp only at h2 e2 e3 e4 e5 e1
    split at h2
    · rename_i hkk
      simp only [Res.bind_eq_ok, Res.ok.injEq, Prod.mk.injEq] at h2
      obtain ⟨s2, h3, rfl, rfl⟩ := h2
      simp only [beq_iff_eq] at hkk
      subst hkk
      have hk0 := hk.k0
      rw [← e4] at hk0
      simp only [condLive, hk0, Bool.not_true, Bool.false_or] at hc
      have hs : Step (toks := toks) s s1 a { a with lo := 9 } [] :=
        Step.still hle e1 e2 e3 ⟨by rw [kindAt_pos e2]; exact hk.k0, by rw [kindAt_pos e2]; exact hk.k1,
          fun h => by simp at h, fun h => by simp at h⟩ rfl
      refine Out.right hs hs.grew .nil e3 (Out.pass (by omega) hs.knows h3 hp ?_)
      rw [kindAt_pos e2, ← e4]
      exact hc
    · simp only [Res.ok.injEq, Prod.mk.injEq] at h2
      obtain ⟨rfl, rfl⟩ := h2
      exact Out.atEnd (by omega) hl (.same e3) (by omega)
  | not c ih =>
    intro p s s' a b hle hk h hp hl hc
    simp only [evalCond, Res.bind_eq_ok] at h
    obtain ⟨⟨t, s1⟩, h1, h2⟩ := h
    simp at h2
    obtain ⟨rfl, rfl⟩ := h2
    exact ih hle hk h1 hp hl hc
  | and c d ihc ihd =>
    intro p s s' a b hle hk h hp hl hc
    simp only [evalCond, Res.bind_eq_ok] at h
    obtain ⟨⟨t, s1⟩, h1, h2⟩ := h
    simp only [condLive, Bool.and_eq_true, List.all_eq_true] at hc
    obtain ⟨G, g1, e1⟩ := evalCond_grew c hle h1
    obtain ⟨⟨G', g1', sG⟩, _⟩ := Open.evalCond_tests (m := KSet.all) c hle (by simp) h1
    dsimp only at h2
    split at h2
    · rename_i ht; subst ht
      obtain ⟨G2, g2, e2⟩ := evalCond_grew d g1.le h2
      by_cases hq : s1.pos = toks.length
      · exact Out.left (ihc hle hk h1 hq hl hc.1) (fun h => by have := h.2; omega) g1.le g2.le
          (.same e1) (.same e2)
      · obtain ⟨a1, hm1, F1, hs1⟩ := cond_sound c hle hk h1 (by have := g1.le; omega)
        have := hc.2 _ hm1
        simp only [Bool.not_true, Bool.false_or] at this
        exact Out.right hs1 g1' (sG p) e1 (ihd g1.le hs1.knows h2 hp this.1 this.2)
    · simp only [Res.ok.injEq, Prod.mk.injEq] at h2
      obtain ⟨rfl, rfl⟩ := h2
      exact ihc hle hk h1 hp hl hc.1
  | or c d ihc ihd =>
    intro p s s' a b hle hk h hp hl hc
    simp only [evalCond, Res.bind_eq_ok] at h
    obtain ⟨⟨t, s1⟩, h1, h2⟩ := h
    simp only [condLive, Bool.and_eq_true, List.all_eq_true] at hc
    obtain ⟨G, g1, e1⟩ := evalCond_grew c hle h1
    obtain ⟨⟨G', g1', sG⟩, _⟩ := Open.evalCond_tests (m := KSet.all) c hle (by simp) h1
    dsimp only at h2
    split at h2
    · simp only [Res.ok.injEq, Prod.mk.injEq] at h2
      obtain ⟨rfl, rfl⟩ := h2
      exact ihc hle hk h1 hp hl hc.1
    · rename_i ht
      simp only [Bool.not_eq_true] at ht; subst ht
      obtain ⟨G2, g2, e2⟩ := evalCond_grew d g1.le h2
      by_cases hq : s1.pos = toks.length
      · exact Out.left (ihc hle hk h1 hq hl hc.1) (fun h => by have := h.2; omega) g1.le g2.le
          (.same e1) (.same e2)
      · obtain ⟨a1, hm1, F1, hs1⟩ := cond_sound c hle hk h1 (by have := g1.le; omega)
        have := hc.2 _ hm1
        simp only [Bool.false_eq_true, false_or, Bool.or_eq_true] at this
        exact Out.right hs1 g1' (sG p) e1 (ihd g1.le hs1.knows h2 hp this.1 this.2)

theorem not_quiet {s s' : PState} {F : List Tree} (h : ¬ Quiet toks s s') (g : Grew toks s s' F)
    (he : s'.errors = s.errors) : s'.pos = toks.length := by
  have := g.le
  by_cases hp : s'.pos = toks.length
  · exact hp
  · exact absurd ⟨he, by omega⟩ h

theorem run_out : ∀ (n : Nat), ∀ m ≤ n, ∀ (c : Cmd) {p : SK} {ms : KSet} {s s' : PState} {a : PAbs},
    run name toks Grammar.body m c s = .ok s' → s.pos ≤ toks.length → ¬ Quiet toks s s' →
    live a.re = true → runLive preKinds c a = true → Knows toks a s →
    ms.has (kindAt toks s 0) = true → Open.calls p c ms = true → (p = .Primary → wantsEnd c = false) →
    Out name toks p a.re s s' := by
  intro n
  induction n with
  | zero =>
    intro m hm c p ms s s' a h
    have : m = 0 := by omega
    subst this; simp [run] at h
  | succ n ih =>
    intro m hm c p ms s s' a h hle hq hl hr hk hms hc hw
    cases m with
    | zero => simp [run] at h
    | succ m =>
    have hmn : m ≤ n := by omega
    by_cases hend : s.pos = toks.length
    · obtain ⟨F, g⟩ := run_grew' _ _ hle h
      exact Out.atEnd hend hl (run_new _ _ hle h) g.le
    have seqOut : ∀ {c : Cmd} {s s1 s' : PState} {a : PAbs} {j : Nat} {ms : KSet} {as : List PAbs}, j ≤ n →
        run name toks Grammar.body j c s = .ok s1 → New name toks s1 s' → s'.pos ≤ toks.length →
        s.pos ≤ toks.length →
        live a.re = true → runLive preKinds c a = true → Knows toks a s → ms.has (kindAt toks s 0) = true →
        Open.calls p c ms = true → (p = .Primary → wantsEnd c = false) → absRun preKinds c a = some as →
        (Quiet toks s s1 → ∀ a1 ∈ as, Knows toks a1 s1 → Out name toks p a1.re s1 s') →
        Out name toks p a.re s s' := by
      intro c s s1 s' a j ms as hj h1 hn hle' hle hl hr hk hms hc hw has hnext
      obtain ⟨F1, g1⟩ := run_grew' _ _ hle h1
      by_cases hq1 : Quiet toks s s1
      · obtain ⟨a1, hm1, F, hs⟩ := absRun_sound absOk_all j j (Nat.le_refl _) c h1 hle (by rw [hq1.1]; exact Nat.le_refl _)
          hq1.2 hk has
        obtain ⟨G, gG, sG⟩ := Open.run_opens j c hle hms hc h1
        exact Out.right hs gG sG hq1.1 (hnext hq1 a1 hm1 hs.knows)
      · exact Out.left (ih j hj c h1 hle hq1 hl hr hk hms hc hw) hq1 g1.le hle' (run_new _ _ hle h1) hn
    have condOut : ∀ {c : Cond} {s s1 s' : PState} {a : PAbs} {b : Bool} {ms : KSet},
        evalCond toks c s = .ok (b, s1) → New name toks s1 s' → s'.pos ≤ toks.length →
        s.pos ≤ toks.length → live a.re = true → condLive c a = true → Knows toks a s →
        ms.has (kindAt toks s 0) = true →
        (Quiet toks s s1 → ∀ a1, (b, a1) ∈ absCond c a → Knows toks a1 s1 →
          (if b then (Open.tests c ms).1 else (Open.tests c ms).2).has (kindAt toks s1 0) = true →
          Out name toks p a1.re s1 s') →
        Out name toks p a.re s s' := by
      intro c s s1 s' a b ms h1 hn hle' hle hl hr hk hms hnext
      obtain ⟨F1, g1, e1⟩ := evalCond_grew c hle h1
      obtain ⟨⟨G, gG, sG⟩, ht⟩ := Open.evalCond_tests c hle hms h1
      have := g1.le
      by_cases hp1 : s1.pos = toks.length
      · exact Out.left (cond_out c hle hk h1 hp1 hl hr) (fun h => by have := h.2; omega) g1.le hle' (.same e1) hn
      · have hq1 : Quiet toks s s1 := ⟨e1, by omega⟩
        obtain ⟨a1, hm1, F, hs⟩ := cond_sound c hle hk h1 hq1.2
        exact Out.right hs gG (sG p) e1 (hnext hq1 a1 hm1 hs.knows ht)
    have then_ : ∀ {s s1 s' : PState}, Quiet toks s s1 → ¬ Quiet toks s s' → ¬ Quiet toks s1 s' :=
      fun h1 h2 h3 => h2 ⟨by rw [h3.1, h1.1], h3.2⟩
    cases c with
    | skip =>
      simp [run] at h; subst h
      exact absurd ⟨rfl, by omega⟩ hq
    | seq c d =>
      simp only [run, Res.bind_eq_ok] at h
      obtain ⟨s1, h1, h2⟩ := h
      simp only [Open.calls, Bool.and_eq_true] at hc
      simp only [runLive, Bool.and_eq_true] at hr
      obtain ⟨F1, g1⟩ := run_grew' m c hle h1
      obtain ⟨F2, g2⟩ := run_grew' m d g1.le h2
      obtain ⟨hr1, hr2⟩ := hr
      cases has : absRun preKinds c a with
      | none => rw [has] at hr2; simp at hr2
      | some as =>
        rw [has] at hr2
        simp only [List.all_eq_true, Bool.and_eq_true] at hr2
        simp only [wantsEnd, Bool.or_eq_false_iff] at hw
        refine seqOut hmn h1 (run_new m d g1.le h2) g2.le hle hl hr1 hk hms hc.1 (fun e => (hw e).1) has ?_
        intro hq1 a1 hm1 hk1
        have := hr2 a1 (mem_dedup.mpr hm1)
        exact ih m hmn d h2 g1.le (then_ hq1 hq) this.1 this.2 hk1 (ms := KSet.all) (by simp) hc.2 (fun e => (hw e).2)
    | ite c x y =>
      simp only [run, Res.bind_eq_ok] at h
      obtain ⟨⟨t, s1⟩, h1, h2⟩ := h
      obtain ⟨F1, g1, e1⟩ := evalCond_grew c hle h1
      simp only [Open.calls, Bool.and_eq_true] at hc
      simp only [wantsEnd, Bool.or_eq_false_iff] at hw
      simp only [runLive, Bool.and_eq_true, List.all_eq_true] at hr
      dsimp only at h2
      cases t with
      | true =>
        obtain ⟨F2, g2⟩ := run_grew' m x g1.le h2
        refine condOut h1 (run_new m x g1.le h2) g2.le hle hl hr.1 hk hms ?_
        intro hq1 a1 hm1 hk1 ht
        have := hr.2 _ hm1
        exact ih m hmn x h2 g1.le (then_ hq1 hq) this.1 this.2 hk1 ht hc.1 (fun e => (hw e).1)
      | false =>
        obtain ⟨F2, g2⟩ := run_grew' m y g1.le h2
        refine condOut h1 (run_new m y g1.le h2) g2.le hle hl hr.1 hk hms ?_
        intro hq1 a1 hm1 hk1 ht
        have := hr.2 _ hm1
        exact ih m hmn y h2 g1.le (then_ hq1 hq) this.1 this.2 hk1 ht hc.2 (fun e => (hw e).2)
    | «while» c x =>
      simp only [runLive] at hr
      obtain ⟨H, hin, hlive, hstep⟩ := loop_sound hr
      have ha0 : a ∈ H := hin a (by simp)
      have key : ∀ (j : Nat), j ≤ n + 1 → ∀ {s : PState} {a : PAbs}, a ∈ H →
          run name toks Grammar.body j (.while c x) s = .ok s' → s.pos ≤ toks.length →
          ¬ Quiet toks s s' → Knows toks a s → Out name toks p a.re s s' := by
        intro j
        induction j with
        | zero => intro _ s a _ h; simp [run] at h
        | succ j ihj =>
          intro hj s a haH h hle hq hk
          have hl := hlive a haH
          simp only [run, Res.bind_eq_ok] at h
          obtain ⟨⟨t, s1⟩, h1, h2⟩ := h
          obtain ⟨F1, g1, e1⟩ := evalCond_grew c hle h1
          dsimp only at h2
          cases t with
          | true =>
            simp only [if_true, Res.bind_eq_ok] at h2
            obtain ⟨s2, h3, h4⟩ := h2
            obtain ⟨F2, g2⟩ := run_grew' j x g1.le h3
            obtain ⟨F3, g3⟩ := run_grew' j (.while c x) g2.le h4
            have p2 := Grew.pos_le g2
            have p3 := Grew.pos_le g3
            refine condOut (ms := KSet.all) h1 ((run_new j x g1.le h3).trans (run_new j _ g2.le h4) p2 p3) g3.le hle hl.1 hl.2 hk
              (by simp) ?_
            intro hq1 a1 hm1 hk1 ht
            obtain ⟨l1, l2, as, has, hsub⟩ := hstep a haH a1 hm1
            refine seqOut (by omega) h3 (run_new j _ g2.le h4) g3.le g1.le l1 l2 hk1 ht
              (by simpa [Open.calls] using hc) (by simpa [wantsEnd] using hw) has ?_
            intro hq2 a2 hm2 hk2
            exact ihj (by omega) (hsub _ hm2) h4 g2.le (then_ hq2 (then_ hq1 hq)) hk2
          | false =>
            simp only [Bool.false_eq_true, if_false, Res.ok.injEq] at h2; subst h2
            exact cond_out c hle hk h1 (not_quiet hq g1 e1) hl.1 hl.2
      exact key (m + 1) hm ha0 h hle hq hk
    | eval c =>
      simp only [run, Res.bind_eq_ok] at h
      obtain ⟨⟨t, s1⟩, h1, h2⟩ := h
      simp at h2; subst h2
      obtain ⟨F1, g1, e1⟩ := evalCond_grew c hle h1
      exact cond_out c hle hk h1 (not_quiet hq g1 e1) hl hr
    | expect k =>
      simp only [run, Res.bind_eq_ok] at h
      obtain ⟨⟨t, s1⟩, h1, h2⟩ := h
      obtain ⟨F1, g1, e1⟩ := evalCond_grew _ hle h1
      simp only [runLive, Bool.and_eq_true, bne_iff_ne] at hr
      dsimp only at h2
      split at h2
      · simp only [Res.ok.injEq] at h2; subst h2
        exact cond_out _ hle hk h1 (not_quiet hq g1 e1) hl (by simp [condLive, hr.1])
      · rename_i hb
        simp only [Bool.not_eq_true] at hb
        subst hb
        obtain ⟨hp1, hkk⟩ : s1.pos = s.pos ∧ kindAt toks s 0 ≠ k := by
          simp only [evalCond, Res.bind_eq_ok] at h1
          obtain ⟨⟨k', s3⟩, h3, h4⟩ := h1
          obtain ⟨_, f2, _, f4, _⟩ := nth_sound h3
          dsimp only at h4 f2 f4
          split at h4
          · simp [Res.bind_eq_ok] at h4
          · rename_i hne
            simp at h4; rw [← h4]
            exact ⟨f2, by rw [← f4]; simpa using hne⟩
        simp only [Res.bind_eq_ok] at h2
        obtain ⟨⟨k', s2⟩, h3, h4⟩ := h2
        obtain ⟨_, f2, f3, f4, _⟩ := nth_sound h3
        have hx : toks[s.pos]? = some (toks[s.pos]'(by omega)) := List.getElem?_eq_getElem (by omega)
        have hkx : kindAt toks s 0 = (toks[s.pos]'(by omega)).kind := by simp [kindAt, hx]
        dsimp only at f2 f3 f4 h4
        have h5 : s'.errors = s.errors ++ [errorText name (toks[s.pos]'(by omega)).start
            (c!"expected " ++ k.debug ++ c!", found " ++ (toks[s.pos]'(by omega)).kind.debug)] := by
          unfold PState.error at h4
          rw [f2, hp1, hx] at h4
          simp only [Res.ok.injEq] at h4
          rw [← h4, f3, e1, f4, kindAt_pos hp1, hkx]
        refine ⟨s.pos, [tokOf k], Nat.le_refl _, hle, ?_, ?_, ?_, ?_, ?_⟩
        · simp only [Nat.sub_self, List.take_zero, List.nil_append]
          obtain ⟨G, hG, hL⟩ := live_trees p hr.1
          simp only [PAbs.pass] at hL
          rw [der_iff] at hL
          refine ⟨[.tok (tokOf k)] ++ G, leavesF G, Fits.append (F := [.tok (tokOf k)]) ⟨⟨trivial, trivial⟩, rfl, ?_⟩ hG, by simpa [Tree.sym, tokOf] using hL, ?_⟩
          · exact ⟨by simp [Tree.startsOk], trivial, trivial⟩
          · simp [leavesF, Tree.leaves]
        · intro he; rw [h5] at he; simp at he
        · intro e' es he
          rw [h5] at he
          have := List.append_cancel_left he
          simp only [List.cons.injEq] at this
          exact ⟨_, _, .inl hx, this.1.symm, .inl ⟨k, _, rfl, hx, by rw [← hkx]; exact hkk, rfl⟩⟩
        · simp [tokOf, hr.2]
        · intro hor _ x hx
          simp only [List.mem_singleton] at hx
          subst hx
          rintro e
          replace e : k = .End := e
          subst e
          rcases hor with e | h
          · simpa [wantsEnd] using hw e
          · obtain ⟨G, hG, hL⟩ := live_trees p hr.1
            simp only [PAbs.pass] at hL
            rw [der_iff] at hL
            exact h _ hL
    | advance =>
      simp only [run] at h
      obtain ⟨t, _, g, _, he⟩ := advance_grew hle h
      refine Out.pass hle hk h (not_quiet hq g he) ?_
      simp only [runLive, List.all_eq_true] at hr
      refine hr _ ?_
      simp only [PAbs.passAny, List.mem_map, List.mem_filter]
      exact ⟨_, ⟨Tok.mem_all _, hk.k0⟩, rfl⟩
    | call k =>
      simp only [run, Res.bind_eq_ok] at h
      obtain ⟨s1, h1, h2⟩ := h
      simp only [Res.ok.injEq] at h2; subst h2
      simp only [runLive, Bool.and_eq_true, decide_eq_true_eq] at hr
      obtain ⟨⟨hp0, hsd, herr⟩, hlk⟩ := hr
      have hb := bodyLive_all k herr
      simp only [bodyLive, Bool.and_eq_true] at hb
      have hpk : (preKinds k).has (kindAt toks s 0) = true := by
        have h0 := hk.k0
        have h1 : (KSet.diff a.k0 (preKinds k)).has (kindAt toks s 0) = false := by
          rw [hp0]; exact KSet.has_zero _
        rw [KSet.has_diff, h0] at h1
        simpa using h1
      have hkn : Knows toks (entry k) s.enter :=
        ⟨by simpa [entry, kindAt, PState.enter] using hpk, by simp [entry], fun h => by simp [entry] at h,
          fun h => by simp [entry] at h⟩
      obtain ⟨q, ext, q1, q2, ⟨F, extra, f1, f2, f3⟩, q4, q5, q6, q7⟩ := ih m hmn (Grammar.body k) (p := k) (ms := KSet.all) h1 hle hq hb.1 hb.2 hkn (by simp)
        (Open.calls_all k) (by rintro rfl; decide)
      have e0 : s.enter.pos = s.pos := rfl
      rw [e0] at q1 f3
      have hend : q = s.pos → ∀ x ∈ ext, x.kind ≠ .End := by
        refine q7 ?_
        rcases spec_end k with h | h
        · exact .inl h
        · exact .inr fun w hw => h (first_complete hw)
      refine ⟨q, ext, q1, q2, ?_, q4, q5, q6, fun _ => hend⟩
      cases hts : (toks.drop s.pos).take (q - s.pos) ++ ext with
      | nil => exact Can.nil hl
      | cons t ts =>
        rw [hts] at f3
        obtain ⟨G, hG, hL⟩ := live_trees p hlk
        rw [der_iff] at hL
        refine ⟨[.node k F] ++ G, extra ++ leavesF G, Fits.append (F := [.node k F]) ⟨⟨⟨f2, f1.conf⟩, trivial⟩, ?_, ?_⟩ hG, by simpa [Tree.sym] using hL, ?_⟩
        · simp only [hasEmptyF, Tree.hasEmpty, f1.full, Bool.or_false, List.isEmpty_eq_false_iff]
          rintro rfl
          simp [leavesF] at f3
        · refine ⟨?_, ⟨f1.start, trivial⟩⟩
          intro c hcm
          simp only [List.mem_singleton] at hcm
          subst hcm
          simp only [Tree.startsOk, f3, List.cons_append]
          simp only [Open.calls, Bool.or_eq_true, bne_iff_ne, Bool.and_eq_true, Bool.not_eq_true'] at hc
          by_cases hq : k = .Equation
          · subst hq
            simp only [opens, beq_self_eq_true, Bool.true_and, Bool.not_eq_true', Bool.or_eq_false_iff,
              beq_eq_false_iff_ne, Bool.and_eq_false_iff]
            cases htk : (toks.drop s.pos).take (q - s.pos) with
            | nil =>
              rw [htk, List.nil_append] at hts
              have hqs : q = s.pos := by
                have := congrArg List.length htk
                simp only [List.length_take, List.length_drop, List.length_nil] at this
                omega
              have ht : t ∈ ext := by rw [hts]; exact List.mem_cons_self
              exact ⟨hend hqs t ht, .inr (q6 t ht)⟩
            | cons t' ts' =>
              have : t' = t := by rw [htk] at hts; simp at hts; exact hts.1
              subst this
              have hkt : kindAt toks s 0 = t'.kind := by
                have : toks[s.pos]? = some t' := by
                  have h3 : ((toks.drop s.pos).take (q - s.pos))[0]? = some t' := by rw [htk]; rfl
                  rw [List.getElem?_take] at h3
                  split at h3
                  · simpa using h3
                  · simp at h3
                simp [kindAt, this]
              rw [hkt] at hms
              rcases hc with hc | ⟨h3, h4⟩
              · exact absurd rfl hc
              · have n1 : t'.kind ≠ .End := by intro e; rw [e, h3] at hms; simp at hms
                refine ⟨n1, ?_⟩
                rcases h4 with h4 | h4
                · exact .inl h4
                · right; intro e; rw [e, h4] at hms; simp at hms
          · simp [opens, hq]
        · simp [leavesF, Tree.leaves, f3]
    | advErr i pre post =>
      simp only [run, Res.bind_eq_ok] at h
      obtain ⟨⟨k', s1⟩, h1, s2, h2, s3, h3, h4⟩ := h
      simp at h4; subst h4
      obtain ⟨_, e2, e3⟩ := nth_grew h1
      obtain ⟨e, h5, t, msg, h6, h6', h6''⟩ := error_text h2
      simp only [runLive, beq_iff_eq] at hr
      have g4 := advance_errors h3
      have h7 : s3.errors = s.errors ++ [e] := by rw [g4]; show s2.errors = _; rw [h5, e3]
      dsimp only at e2 h6
      refine Out.here hle hl ?_ ?_
      · intro he
        replace he : s3.errors = s.errors := he
        rw [h7] at he; simp at he
      · intro e' es he
        replace he : s3.errors = _ := he
        rw [h7] at he
        have := List.append_cancel_left he
        simp only [List.cons.injEq] at this
        rw [← this.1, ← e2]
        exact ⟨t, msg, h6, h6', .inr ⟨rfl, .inr ⟨k'.debug ++ post, by rw [h6'', hr, List.append_assoc]⟩⟩⟩
    | look i =>
      simp only [run, Res.bind_eq_ok] at h
      obtain ⟨⟨k', s1⟩, h1, h2⟩ := h
      simp only [Res.ok.injEq] at h2; subst h2
      obtain ⟨_, e2, e3⟩ := nth_grew h1
      exact absurd ⟨e3, by omega⟩ hq
    | ifk ks x y =>
      simp only [run] at h
      simp only [Open.calls, Bool.and_eq_true] at hc
      simp only [runLive] at hr
      simp only [wantsEnd, Bool.or_eq_false_iff] at hw
      have same : ∀ {a1 : PAbs} {c : Cmd}, Knows toks a1 s → a1.re = a.re → run name toks Grammar.body m c s = .ok s' →
          runLive preKinds c a1 = true → Open.calls p c ms = true → (p = .Primary → wantsEnd c = false) →
          Out name toks p a.re s s' := by
        intro a1 c hk1 hr1 h1 h2 h3 h4
        rw [← hr1]
        exact ih m hmn c h1 hle hq (by rw [hr1]; exact hl) h2 hk1 hms h3 h4
      split at hr
      · rename_i hlo
        have hl' : s.last = kindAt toks s a.lo := by
          rcases hlo with e | e
          · rw [e]; exact hk.l0 e
          · rw [e]; exact hk.l1 e
        simp only [Bool.and_eq_true, List.all_eq_true] at hr
        split at h
        · rename_i hcc
          rw [hl'] at hcc
          obtain ⟨a1, hm1, hk1, hr1⟩ := assume_sound (a := a) (n := a.lo) (p := KSet.of ks) hk rfl hl'
            (by rw [KSet.has_of]; exact hcc)
          exact same hk1 hr1 h (hr.1 _ hm1) hc.1 (fun e => (hw e).1)
        · rename_i hcc
          rw [hl'] at hcc
          simp only [Bool.not_eq_true] at hcc
          obtain ⟨a1, hm1, hk1, hr1⟩ := exclude_sound (a := a) (n := a.lo) (p := KSet.of ks) hk rfl hl'
            (by rw [KSet.has_of]; exact hcc)
          exact same hk1 hr1 h (hr.2 _ hm1) hc.2 (fun e => (hw e).2)
      · simp only [Bool.and_eq_true] at hr
        split at h
        · exact same hk rfl h hr.1 hc.1 (fun e => (hw e).1)
        · exact same hk rfl h hr.2 hc.2 (fun e => (hw e).2)
    | unreachable => simp [run] at h

/-- If the parser reports an error, the tokens before the place of the first one, followed by the token it asks
for, are the beginning of a list with a reading. -/
theorem events_viable {k : SK} (hk : k ≠ .Error) {evs : List Event} {e : Text} {es : List Text}
    (h : events name toks k = .ok (evs, e :: es)) (hpre : ∀ x, (preKinds k).has x = true) :
    ∃ q ext extra cs, q ≤ toks.length ∧ Wants name toks e q ext ∧ Reading k (toks.take q ++ ext ++ extra) cs ∧
      (Tree.node k cs).Opens := by
  unfold events at h
  rw [Res.bind_eq_ok] at h
  obtain ⟨s, h1, h2⟩ := h
  simp at h2
  obtain ⟨rfl, herr⟩ := h2
  cases hf : parseFuel toks.length with
  | zero => simp [parseFuel] at hf
  | succ n =>
    rw [hf, run, Res.bind_eq_ok] at h1
    obtain ⟨s1, h1, h2⟩ := h1
    simp at h2
    have he : s1.errors = e :: es := by rw [← h2] at herr; exact herr
    have hb := bodyLive_all k hk
    simp only [bodyLive, Bool.and_eq_true] at hb
    have hkn : Knows toks (entry k) PState.init.enter :=
      ⟨by simp [entry, hpre], by simp [entry], fun h => by simp [entry] at h, fun h => by simp [entry] at h⟩
    obtain ⟨q, ext, q1, q2, ⟨F, extra, f1, f2, f3⟩, q4, q5, _⟩ := run_out n n (Nat.le_refl _) (Grammar.body k) (p := k) (ms := KSet.all) h1
      (by simp [PState.init, PState.enter]) (fun hq => by have := hq.1; rw [he] at this; simp [PState.init, PState.enter] at this) hb.1 hb.2 hkn
      (by simp) (Open.calls_all k) (by rintro rfl; decide)
    refine ⟨q, ext, extra, F, q2, q5 e es (by rw [he]; simp [PState.init, PState.enter]), ⟨⟨f2, f1.conf⟩, f1.full, ?_⟩, f1.start⟩
    simpa [PState.init, PState.enter] using f3

end

end Via
end Mofmt
