import Verif.Proofs.BreakGroups
import Verif.Proofs.JoinText
/-
The text of tokens and comments that have been moved.
-/
namespace Mofmt
open Lexical

/-- the same token at another place: numbers differ by `i1 - i2`, lines by `e1 - e2` -/
structure Alike (i1 i2 e1 e2 : Nat) (t t' : Token) : Prop where
  idx : t.idx + i2 = t'.idx + i1
  text : t'.text = t.text
  kind : t'.kind = t.kind
  start : t.start.line + e2 = t'.start.line + e1
  stop : t.stop.line + e2 = t'.stop.line + e1

/-- the same tokens at other places -/
inductive Alikes (i1 i2 e1 e2 : Nat) : List Token → List Token → Prop
  | nil : Alikes i1 i2 e1 e2 [] []
  | cons {t t' ts ts'} : Alike i1 i2 e1 e2 t t' → Alikes i1 i2 e1 e2 ts ts' → Alikes i1 i2 e1 e2 (t :: ts) (t' :: ts')

/-- the lexemes of a group with the white space before them -/
def Group.shown (g : Group) : List (Text × Text) := g.lexemes.map fun x => (x.1, x.2.text)

theorem groupsText_shown : ∀ {gs gs' : List Group}, gs.map Group.shown = gs'.map Group.shown → groupsText gs = groupsText gs'
  | [], [], _ => rfl
  | [], _ :: _, h => by cases h
  | _ :: _, [], h => by cases h
  | g :: gs, g' :: gs', h => by
    simp only [List.map_cons, List.cons.injEq] at h
    have ih := groupsText_shown h.2
    have e : ∀ l : List (Text × Token), lexemesText l = (l.map fun x => (x.1, x.2.text)).flatMap fun x => x.1 ++ x.2 := by
      intro l; simp [lexemesText, List.flatMap_map]
    have : lexemesText g.lexemes = lexemesText g'.lexemes := by
      rw [e, e]
      exact congrArg _ h.1
    simp only [groupsText, groupLexemes, lexemesText, List.flatMap_cons, List.flatMap_append] at this ih ⊢
    rw [this, ih]

section
variable {i1 i2 e1 e2 : Nat}

theorem Alikes.takeWhile {x x' : Token} (hx : Alike i1 i2 e1 e2 x x') {cs cs' : List Token} (h : Alikes i1 i2 e1 e2 cs cs') :
    Alikes i1 i2 e1 e2 (cs.takeWhile (·.idx < x.idx)) (cs'.takeWhile (·.idx < x'.idx)) := by
  induction h with
  | nil => exact .nil
  | @cons t t' ts ts' ht _ ih =>
    have h1 := ht.idx
    have h2 := hx.idx
    by_cases hlt : t.idx < x.idx
    · have : t'.idx < x'.idx := by omega
      rw [List.takeWhile_cons_of_pos (by simpa using hlt), List.takeWhile_cons_of_pos (by simpa using this)]
      exact .cons ht ih
    · have : ¬ t'.idx < x'.idx := by omega
      rw [List.takeWhile_cons_of_neg (by simpa using hlt), List.takeWhile_cons_of_neg (by simpa using this)]
      exact .nil

theorem Alikes.dropWhile {x x' : Token} (hx : Alike i1 i2 e1 e2 x x') {cs cs' : List Token} (h : Alikes i1 i2 e1 e2 cs cs') :
    Alikes i1 i2 e1 e2 (cs.dropWhile (·.idx < x.idx)) (cs'.dropWhile (·.idx < x'.idx)) := by
  induction h with
  | nil => exact .nil
  | @cons t t' ts ts' ht hts ih =>
    have h1 := ht.idx
    have h2 := hx.idx
    by_cases hlt : t.idx < x.idx
    · have : t'.idx < x'.idx := by omega
      rw [List.dropWhile_cons_of_pos (by simpa using hlt), List.dropWhile_cons_of_pos (by simpa using this)]
      exact ih
    · have : ¬ t'.idx < x'.idx := by omega
      rw [List.dropWhile_cons_of_neg (by simpa using hlt), List.dropWhile_cons_of_neg (by simpa using this)]
      exact .cons ht hts

theorem Alikes.filter {p p' : Token → Bool} (hp : ∀ t t', Alike i1 i2 e1 e2 t t' → p' t' = p t) {cs cs' : List Token}
    (h : Alikes i1 i2 e1 e2 cs cs') : Alikes i1 i2 e1 e2 (cs.filter p) (cs'.filter p') := by
  induction h with
  | nil => exact .nil
  | @cons t t' ts ts' ht _ ih =>
    have := hp t t' ht
    by_cases h1 : p t = true
    · rw [List.filter_cons_of_pos h1, List.filter_cons_of_pos (by rw [this, h1])]
      exact .cons ht ih
    · rw [List.filter_cons_of_neg h1, List.filter_cons_of_neg (by rw [this]; exact h1)]
      exact ih

/-- white space and text of a segment -/
def segShown (s : Seg) : Option Piece × Text := (s.1, s.2.text)

theorem inline_shown {cs cs' : List Token} (h : Alikes i1 i2 e1 e2 cs cs') : ∀ first,
    (inlineSegs first cs').map segShown = (inlineSegs first cs).map segShown := by
  induction h with
  | nil => intro _; rfl
  | cons ht _ ih => intro first; simp only [inlineSegs, List.map_cons, segShown, ht.text]; rw [ih]

theorem gapPiece_same {n x x' l l' : Nat} (hx : x + e2 = x' + e1) (hl : l + e2 = l' + e1) :
    gapPiece n x' l' = gapPiece n x l := by
  unfold gapPiece
  have : x' - l' = x - l := by omega
  rw [this]

theorem own_shown {n : Nat} {cs cs' : List Token} (h : Alikes i1 i2 e1 e2 cs cs') : ∀ w,
    (ownSegs n w cs').map segShown = (ownSegs n w cs).map segShown := by
  induction h with
  | nil => intro _; rfl
  | cons ht hts ih =>
    intro w
    rw [ownSegs_cons, ownSegs_cons, List.map_cons, List.map_cons, ih]
    cases hts with
    | nil => simp [segShown, ht.text]
    | cons hu _ => simp [segShown, ht.text, gapPiece_same hu.start ht.stop]

theorem lastLine_same {cs cs' : List Token} (h : Alikes i1 i2 e1 e2 cs cs') : ∀ {l l' : Nat}, l + e2 = l' + e1 →
    lastLine l cs + e2 = lastLine l' cs' + e1 := by
  induction h with
  | nil => exact fun h => h
  | cons ht _ ih => exact fun _ => ih ht.stop

theorem break_shown {first : Bool} {cs cs' : List Token} {l l' : Nat} {b : Blank} {n : Nat} {t t' : Token}
    (h : Alikes i1 i2 e1 e2 cs cs') (hl : l + e2 = l' + e1) (ht : Alike i1 i2 e1 e2 t t') :
    (breakSegs first cs' l' b n t').1.map segShown = (breakSegs first cs l b n t).1.map segShown ∧
    (breakSegs first cs' l' b n t').2 = (breakSegs first cs l b n t).2 := by
  unfold breakSegs
  have hb : ∀ t t', Alike i1 i2 e1 e2 t t' → (t'.start.line == l') = (t.start.line == l) := by
    intro t t' h
    have := h.start
    rw [Bool.eq_iff_iff]
    simp only [beq_iff_eq]
    omega
  have h1 := h.filter (p := fun c => c.start.line == l) (p' := fun c => c.start.line == l') hb
  have h2 := h.filter (p := fun c => !(c.start.line == l)) (p' := fun c => !(c.start.line == l'))
    (fun t t' h => by rw [hb t t' h])
  simp only [List.map_append]
  generalize cs.filter (fun c => !(c.start.line == l)) = own at h2
  generalize cs'.filter (fun c => !(c.start.line == l')) = own' at h2
  have hhead : (own'.head?.map fun c => gapPiece n c.start.line l') = own.head?.map fun c => gapPiece n c.start.line l := by
    cases h2 with
    | nil => rfl
    | cons hu _ => simp [gapPiece_same hu.start hl]
  have hlast := gapPiece_same (n := n) ht.start (lastLine_same h2 hl)
  have hemp : own'.isEmpty = own.isEmpty := by cases h2 <;> rfl
  rw [inline_shown h1, own_shown h2, hhead, hlast, hemp]
  exact ⟨rfl, rfl⟩

/-- the same decisions for the same tokens at other places -/
inductive AlikeDecs (i1 i2 e1 e2 : Nat) : List (Dec × Token) → List (Dec × Token) → Prop
  | nil : AlikeDecs i1 i2 e1 e2 [] []
  | cons {d t t' ds ds'} : Alike i1 i2 e1 e2 t t' → AlikeDecs i1 i2 e1 e2 ds ds' →
      AlikeDecs i1 i2 e1 e2 ((d, t) :: ds) ((d, t') :: ds')

/-- states that differ only in the places of the tokens and comments -/
structure AlikeLS (i1 i2 e1 e2 : Nat) (L L' : LS) : Prop where
  out : L'.out.isEmpty = L.out.isEmpty
  comments : Alikes i1 i2 e1 e2 L.comments L'.comments
  line : L.line + e2 = L'.line + e1

theorem dropWhile_twice {α : Type} (p : α → Bool) (l : List α) : (l.dropWhile p).dropWhile p = l.dropWhile p := by
  induction l with
  | nil => rfl
  | cons x l ih =>
    by_cases h : p x = true
    · rw [List.dropWhile_cons_of_pos h, ih]
    · rw [List.dropWhile_cons_of_neg h, List.dropWhile_cons_of_neg h]

theorem LS.step_left (L : LS) (x : Dec × Token) : (L.step x).comments = L.comments.dropWhile (·.idx < x.2.idx) := by
  obtain ⟨d, t⟩ := x
  cases d with
  | none => rfl
  | space => rfl
  | brk b n => exact dropWhile_twice _ _

theorem AlikeLS.step {L L' : LS} (h : AlikeLS i1 i2 e1 e2 L L') (d : Dec) {t t' : Token} (ht : Alike i1 i2 e1 e2 t t') :
    AlikeLS i1 i2 e1 e2 (L.step (d, t)) (L'.step (d, t')) where
  out := rfl
  comments := by rw [LS.step_left, LS.step_left]; exact h.comments.dropWhile ht
  line := ht.stop

theorem shown_eq (eol : Text) {g g' : PGroup} (h1 : g'.comments.map segShown = g.comments.map segShown) (h2 : g'.white = g.white)
    (h3 : g'.tok.text = g.tok.text) : (g'.toGroup eol).shown = (g.toGroup eol).shown := by
  have e : ∀ g : PGroup, (g.toGroup eol).shown =
      (g.comments.map segShown).map (fun x => (wtext eol x.1, x.2)) ++ [(wtext eol g.white, g.tok.text)] := by
    intro g
    simp [Group.shown, Group.lexemes, PGroup.toGroup, segShown]
  rw [e, e, h1, h2, h3]

theorem AlikeLS.groups (eol : Text) {ds ds' : List (Dec × Token)} (h : AlikeDecs i1 i2 e1 e2 ds ds') : ∀ {L L' : LS},
    AlikeLS i1 i2 e1 e2 L L' →
    ((L'.groups ds').map (PGroup.toGroup eol)).map Group.shown = ((L.groups ds).map (PGroup.toGroup eol)).map Group.shown := by
  induction h with
  | nil => intro _ _ _; rfl
  | @cons d t t' ds ds' ht _ ih =>
    intro L L' hL
    simp only [LS.groups, List.map_cons]
    rw [ih (hL.step d ht)]
    congr 1
    cases d with
    | none => exact shown_eq eol rfl rfl ht.text
    | space => exact shown_eq eol rfl rfl ht.text
    | brk b n =>
      obtain ⟨g1, g2⟩ := break_shown (first := L.out.isEmpty) (b := b) (n := n) (hL.comments.takeWhile ht) hL.line ht
      refine shown_eq eol ?_ ?_ ht.text
      · simp only [LS.group, hL.out]
        exact g1
      · simp only [LS.group, hL.out]
        exact g2
end

/-! ### Comments behind -/

theorem takeWhile_behind {a r : List Token} {n : Nat} (h : ∀ c ∈ r, n ≤ c.idx) :
    (a ++ r).takeWhile (·.idx < n) = a.takeWhile (·.idx < n) := by
  have hr : r.takeWhile (·.idx < n) = [] := by
    cases r with
    | nil => rfl
    | cons c r =>
      have := h c (by simp)
      rw [List.takeWhile_cons_of_neg (by simpa using this)]
  induction a with
  | nil => simpa using hr
  | cons c a ih =>
    by_cases hc : c.idx < n
    · rw [List.cons_append, List.takeWhile_cons_of_pos (by simpa using hc), List.takeWhile_cons_of_pos (by simpa using hc), ih]
    · rw [List.cons_append, List.takeWhile_cons_of_neg (by simpa using hc), List.takeWhile_cons_of_neg (by simpa using hc)]

theorem dropWhile_behind {a r : List Token} {n : Nat} (h : ∀ c ∈ r, n ≤ c.idx) :
    (a ++ r).dropWhile (·.idx < n) = a.dropWhile (·.idx < n) ++ r := by
  have hr : r.dropWhile (·.idx < n) = r := by
    cases r with
    | nil => rfl
    | cons c r =>
      have := h c (by simp)
      rw [List.dropWhile_cons_of_neg (by simpa using this)]
  induction a with
  | nil => simpa using hr
  | cons c a ih =>
    by_cases hc : c.idx < n
    · rw [List.cons_append, List.dropWhile_cons_of_pos (by simpa using hc), List.dropWhile_cons_of_pos (by simpa using hc), ih]
    · rw [List.cons_append, List.dropWhile_cons_of_neg (by simpa using hc), List.dropWhile_cons_of_neg (by simpa using hc),
        List.cons_append]

/-- comments behind the last token do not matter -/
theorem groups_behind : ∀ (ds : List (Dec × Token)) (L : LS) (r : List Token), (∀ x ∈ ds, ∀ c ∈ r, x.2.idx ≤ c.idx) →
    { L with comments := L.comments ++ r }.groups ds = L.groups ds
  | [], _, _, _ => rfl
  | (d, t) :: ds, L, r, h => by
    have ht := h (d, t) (by simp)
    have ih := groups_behind ds (L.step (d, t)) r fun x hx => h x (List.mem_cons_of_mem _ hx)
    have hs : { L with comments := L.comments ++ r }.step (d, t) =
        { (L.step (d, t)) with comments := (L.step (d, t)).comments ++ r } := by
      rw [LS.step_left]
      cases d with
      | none => simp only [LS.step, LS.dec, LS.emit, dropWhile_behind ht]
      | space => simp only [LS.step, LS.dec, LS.emit, dropWhile_behind ht]
      | brk b n => simp only [LS.step, LS.dec, LS.emit, dropWhile_behind ht, takeWhile_behind ht, dropWhile_twice]
    rw [LS.groups, LS.groups, hs, ih]
    congr 1
    cases d with
    | none => rfl
    | space => rfl
    | brk b n => simp only [LS.group, takeWhile_behind ht]

/-- after a token no comments before it are left -/
theorem run_comments : ∀ (ds : List (Dec × Token)) (L : LS), (L.run ds).comments =
    ds.foldl (fun cs x => cs.dropWhile (·.idx < x.2.idx)) L.comments
  | [], _ => rfl
  | x :: ds, L => by
    have : L.run (x :: ds) = (L.step x).run ds := rfl
    rw [this, run_comments ds, LS.step_left]
    rfl

/-- the comments from a list with smaller numbers vanish -/
theorem dropWhile_before {a r : List Token} {n : Nat} (h : ∀ c ∈ a, c.idx < n) :
    (a ++ r).dropWhile (·.idx < n) = r.dropWhile (·.idx < n) := by
  induction a with
  | nil => rfl
  | cons c a ih =>
    rw [List.cons_append, List.dropWhile_cons_of_pos (by simpa using h c (by simp)), ih fun c hc => h c (by simp [hc])]

/-- the state behind some tokens: of the comments those of the rest are left, and some of the others -/
theorem run_behind (r : List Token) : ∀ (ds : List (Dec × Token)) (cs : List Token),
    (∀ x ∈ ds, ∀ c ∈ r, x.2.idx ≤ c.idx) → ∃ cs', (∀ c ∈ cs', c ∈ cs) ∧
      ds.foldl (fun cs x => cs.dropWhile (·.idx < x.2.idx)) (cs ++ r) = cs' ++ r
  | [], cs, _ => ⟨cs, fun _ h => h, rfl⟩
  | x :: ds, cs, h => by
    obtain ⟨cs', h1, h2⟩ := run_behind r ds (cs.dropWhile (·.idx < x.2.idx)) fun y hy => h y (List.mem_cons_of_mem _ hy)
    refine ⟨cs', fun c hc => (List.dropWhile_sublist _).subset (h1 c hc), ?_⟩
    rw [List.foldl_cons, dropWhile_behind (h x (by simp)), h2]

/-- the same pieces after other texts -/
theorem lexemes_alike : ∀ (ps : List (Text × Chunk)) (pre pre' : Text) (i i' : Nat),
    Alikes i i' (newlines pre) (newlines pre') (lexemes pre i ps) (lexemes pre' i' ps) := by
  have key : ∀ (ps : List (Text × Chunk)) (pre pre' : Text) (i i' a a' e e' : Nat), i + a' = i' + a →
      newlines pre + e' = newlines pre' + e → Alikes a a' e e' (lexemes pre i ps) (lexemes pre' i' ps) := by
    intro ps
    induction ps with
    | nil => intros; exact .nil
    | cons x ps ih =>
      obtain ⟨w, c⟩ := x
      intro pre pre' i i' a a' e e' hi he
      have hn : ∀ t : Text, newlines (pre ++ w ++ t) + e' = newlines (pre' ++ w ++ t) + e := by
        intro t
        simp only [newlines_append]
        omega
      cases c with
      | token k t =>
        refine .cons ⟨hi, rfl, rfl, ?_, ?_⟩ (ih _ _ _ _ _ _ _ _ (by omega) (hn t))
        · have := hn []
          simp only [List.append_nil] at this
          simp only [position]
          omega
        · have := hn t
          simp only [position]
          omega
      | _ => exact ih _ _ _ _ _ _ _ _ hi (hn _)
  intro ps pre pre' i i'
  exact key ps pre pre' i i' i i' _ _ (by omega) (by omega)

end Mofmt
