import Verif.Spec.Blanks
import Verif.Proofs.FmtRel
import Verif.Proofs.Prefix
import Verif.Props.Lexemes
import Verif.Props.Stable
/-
The tokens of two texts that differ only in their white space.
-/
namespace Mofmt
open Lexical

/-! ### Streams -/

/-- Two streams of tokens and comments with the same numbers, texts and kinds, on lines with the same distances. -/
theorem prettyPrint_pairs {R : Nat → Nat → Prop} (hR : SameGaps R) (h1 : R 1 1) (ps qs : List (Token × Token))
    (h : ∀ x ∈ ps ++ qs, x.1.idx = x.2.idx ∧ x.1.text = x.2.text ∧ x.1.kind = x.2.kind ∧
      R x.1.start.line x.2.start.line ∧ R x.1.stop.line x.2.stop.line) (eol : Text) (evs : List Event) :
    prettyPrint eol (ps.map (·.1)) (qs.map (·.1)) evs = prettyPrint eol (ps.map (·.2)) (qs.map (·.2)) evs := by
  let d : Token := ⟨0, [], .EOF, ⟨0, 1, 1⟩, ⟨0, 1, 1⟩⟩
  let at' : Nat → Token × Token := fun i => ((ps ++ qs)[i]?).getD (d, d)
  let f : Token → Token := fun t => (at' t.idx).1
  let g : Token → Token := fun t => (at' t.idx).2
  let j : Nat → Token := fun i => { d with idx := i }
  have hat : ∀ i, (at' i).1.idx = (at' i).2.idx ∧ (at' i).1.text = (at' i).2.text ∧ (at' i).1.kind = (at' i).2.kind ∧
      R (at' i).1.start.line (at' i).2.start.line ∧ R (at' i).1.stop.line (at' i).2.stop.line := by
    intro i
    have e0 : at' i = ((ps ++ qs)[i]?).getD (d, d) := rfl
    cases e : (ps ++ qs)[i]? with
    | none =>
      have e0 : at' i = (d, d) := by rw [e0, e]; rfl
      rw [e0]
      exact ⟨rfl, rfl, rfl, h1, h1⟩
    | some x =>
      have e0 : at' i = x := by rw [e0, e]; rfl
      rw [e0]
      exact h x (List.mem_of_getElem? e)
  have tw : Twin {} True R f g := ⟨fun t u => by rw [(hat t.idx).1, (hat u.idx).1], fun _ t => by rw [(hat t.idx).1], fun t => (hat t.idx).2.1, fun t => (hat t.idx).2.2.1,
    fun t => (hat t.idx).2.2.2.1, fun t => (hat t.idx).2.2.2.2, by simp, by simp⟩
  have e1 : ∀ i (hi : i < ps.length), at' i = ps[i] := by
    intro i hi
    show ((ps ++ qs)[i]?).getD (d, d) = ps[i]
    rw [List.getElem?_append_left hi, List.getElem?_eq_getElem hi]
    rfl
  have e2 : ∀ i (hi : i < qs.length), at' (ps.length + i) = qs[i] := by
    intro i hi
    show ((ps ++ qs)[ps.length + i]?).getD (d, d) = qs[i]
    rw [List.getElem?_append_right (by omega), Nat.add_sub_cancel_left, List.getElem?_eq_getElem hi]
    rfl
  have p1 : ∀ p : Token × Token → Token, ps.map p = ((List.range ps.length).map j).map (fun t => p (at' t.idx)) := by
    intro p
    apply List.ext_getElem
    · simp
    · intro i a b
      simp only [List.length_map] at a
      simp [j, e1 i a]
  have p2 : ∀ p : Token × Token → Token, qs.map p =
      ((List.range qs.length).map fun i => j (ps.length + i)).map (fun t => p (at' t.idx)) := by
    intro p
    apply List.ext_getElem
    · simp
    · intro i a b
      simp only [List.length_map] at a
      simp [j, e2 i a]
  rw [p1 (·.1), p1 (·.2), p2 (·.1), p2 (·.2)]
  exact prettyPrint_twin hR tw trivial h1 eol _ _ evs

/-! ### Lines -/

/-- `q` is not above `p` in both texts, and by the same distance as far as it matters. -/
def Below2 (p q : Nat × Nat) : Prop := p.1 ≤ q.1 ∧ p.2 ≤ q.2 ∧ min 2 (q.1 - p.1) = min 2 (q.2 - p.2)

theorem Below2.trans {p q r : Nat × Nat} (h : Below2 p q) (h' : Below2 q r) : Below2 p r := by
  obtain ⟨a, b, c⟩ := h
  obtain ⟨a', b', c'⟩ := h'
  exact ⟨by omega, by omega, by omega⟩

/-- The lines where tokens start and end. -/
def points : Nat × Nat → Twice → List (Nat × Nat)
  | _, [] => []
  | p, (w, w', c) :: l =>
    let a := (p.1 + newlines w, p.2 + newlines w')
    let b := (a.1 + newlines c.text, a.2 + newlines c.text)
    a :: b :: points b l

theorem points_below : ∀ (l : Twice) (p : Nat × Nat), (∀ x ∈ l, sameBreaks x.1 x.2.1) →
    (∀ q ∈ points p l, Below2 p q) ∧ (points p l).Pairwise Below2
  | [], p, _ => ⟨by simp [points], .nil⟩
  | (w, w', c) :: l, p, h => by
    have hw : sameBreaks w w' := h _ (List.mem_cons_self ..)
    unfold sameBreaks at hw
    obtain ⟨h1, h2⟩ := points_below l (p.1 + newlines w + newlines c.text, p.2 + newlines w' + newlines c.text)
      (fun x hx => h x (List.mem_cons_of_mem _ hx))
    have hab : Below2 (p.1 + newlines w, p.2 + newlines w')
        (p.1 + newlines w + newlines c.text, p.2 + newlines w' + newlines c.text) :=
      ⟨by simp, by simp, by simp⟩
    have hpa : Below2 p (p.1 + newlines w, p.2 + newlines w') := ⟨by simp, by simp, by simpa using hw⟩
    simp only [points]
    constructor
    · intro q hq
      rcases List.mem_cons.1 hq with rfl | hq
      · exact hpa
      · rcases List.mem_cons.1 hq with rfl | hq
        · exact hpa.trans hab
        · exact (hpa.trans hab).trans (h1 q hq)
    · refine List.pairwise_cons.2 ⟨?_, List.pairwise_cons.2 ⟨h1, h2⟩⟩
      intro q hq
      rcases List.mem_cons.1 hq with rfl | hq
      · exact hab
      · exact hab.trans (h1 q hq)

theorem sameGaps_of {ps : List (Nat × Nat)} (h : ps.Pairwise Below2) : SameGaps fun x x' => (x, x') ∈ ps := by
  have tot : ∀ p ∈ ps, ∀ q ∈ ps, Below2 p q ∨ Below2 q p := by
    induction ps with
    | nil => simp
    | cons a ps ih =>
      obtain ⟨h1, h2⟩ := List.pairwise_cons.1 h
      intro p hp q hq
      have refl : ∀ a : Nat × Nat, Below2 a a := fun a => ⟨Nat.le_refl _, Nat.le_refl _, by simp⟩
      rcases List.mem_cons.1 hp with rfl | hp
      · rcases List.mem_cons.1 hq with rfl | hq
        · exact .inl (refl _)
        · exact .inl (h1 q hq)
      · rcases List.mem_cons.1 hq with hq | hq
        · exact .inr (hq ▸ h1 p hp)
        · exact ih h2 p hp q hq
  intro x x' y y' hx hy
  rcases tot _ hx _ hy with ⟨a, b, c⟩ | ⟨a, b, c⟩
  · exact c
  · simp only at a b c
    omega

/-- The tokens of both texts, side by side. -/
theorem lexemes_pairs : ∀ (l : Twice) (pre pre' : Text) (i : Nat), (∀ x ∈ l, ∃ k t, x.2.2 = .token k t) →
    ∃ ps : List (Token × Token), lexemes pre i l.first = ps.map (·.1) ∧ lexemes pre' i l.second = ps.map (·.2) ∧
      ∀ x ∈ ps, x.1.idx = x.2.idx ∧ x.1.text = x.2.text ∧ x.1.kind = x.2.kind ∧
        (x.1.start.line, x.2.start.line) ∈ points (1 + newlines pre, 1 + newlines pre') l ∧
        (x.1.stop.line, x.2.stop.line) ∈ points (1 + newlines pre, 1 + newlines pre') l
  | [], _, _, _, _ => ⟨[], rfl, rfl, by simp⟩
  | (w, w', c) :: l, pre, pre', i, h => by
    obtain ⟨k, t, e⟩ := h _ (List.mem_cons_self ..)
    simp only at e
    subst e
    obtain ⟨ps, h1, h2, h3⟩ := lexemes_pairs l (pre ++ w ++ t) (pre' ++ w' ++ t) (i + 1)
      (fun x hx => h x (List.mem_cons_of_mem _ hx))
    refine ⟨(⟨i, t, k, position (pre ++ w), position (pre ++ w ++ t)⟩,
      ⟨i, t, k, position (pre' ++ w'), position (pre' ++ w' ++ t)⟩) :: ps, ?_, ?_, ?_⟩
    · show lexemes pre i ((w, .token k t) :: Twice.first l) = _
      simp only [lexemes, h1, List.map_cons]
    · show lexemes pre' i ((w', .token k t) :: Twice.second l) = _
      simp only [lexemes, h2, List.map_cons]
    · intro x hx
      simp only [points, Chunk.text]
      rcases List.mem_cons.1 hx with rfl | hx
      · refine ⟨rfl, rfl, rfl, ?_, ?_⟩
        · simp only [position, newlines_append, Nat.add_assoc]
          exact List.mem_cons_self ..
        · simp only [position, newlines_append, Nat.add_assoc]
          exact List.mem_cons_of_mem _ (List.mem_cons_self ..)
      · obtain ⟨a, b, c, d, e⟩ := h3 x hx
        refine ⟨a, b, c, ?_, ?_⟩
        · simp only [newlines_append, ← Nat.add_assoc] at d
          exact List.mem_cons_of_mem _ (List.mem_cons_of_mem _ d)
        · simp only [newlines_append, ← Nat.add_assoc] at e
          exact List.mem_cons_of_mem _ (List.mem_cons_of_mem _ e)

theorem problems_tokens (name : Text) : ∀ (ps : List (Text × Chunk)) (pre : Text), problems name pre ps = [] →
    ∀ x ∈ ps, ∃ k t, x.2 = .token k t
  | [], _, _ => by simp
  | (w, p) :: ps, pre, h => by
    simp only [problems, List.append_eq_nil_iff] at h
    intro x hx
    rcases List.mem_cons.1 hx with rfl | hx
    · cases p with
      | token k t => exact ⟨k, t, rfl⟩
      | _ => simp [Chunk.problem] at h
    · exact problems_tokens name ps _ h.2 x hx

theorem tokens_problems (name : Text) : ∀ (ps : List (Text × Chunk)) (pre : Text),
    (∀ x ∈ ps, ∃ k t, x.2 = .token k t) → problems name pre ps = []
  | [], _, _ => rfl
  | (w, p) :: ps, pre, h => by
    obtain ⟨k, t, e⟩ := h _ (List.mem_cons_self ..)
    simp only at e
    subst e
    simp only [problems, Chunk.problem, List.nil_append]
    exact tokens_problems name ps _ (fun x hx => h x (List.mem_cons_of_mem _ hx))

theorem awkward_twice : ∀ l : Twice, (∀ x ∈ l, ∃ k t, x.2.2 = .token k t) →
    awkward false l.first = awkward false l.second
  | [], _ => rfl
  | (w, w', c) :: l, h => by
    obtain ⟨k, t, e⟩ := h _ (List.mem_cons_self ..)
    simp only at e
    subst e
    show awkward false ((w, .token k t) :: Twice.first l) = awkward false ((w', .token k t) :: Twice.second l)
    simp only [awkward, Bool.false_and, Bool.false_or]
    rw [awkward_twice l (fun x hx => h x (List.mem_cons_of_mem _ hx))]

theorem sameBreaks.symm {w w' : Text} (h : sameBreaks w w') : sameBreaks w' w := Eq.symm h

theorem formatted_twice {eol name name' src src' out : Text} {p : Parsed} {l : Twice} (h : Divided src l.first)
    (h' : Divided src' l.second) (hb : ∀ x ∈ l, sameBreaks x.1 x.2.1) (hf : Formatted eol name src p out) :
    ∃ p', Formatted eol name' src' p' out := by
  obtain ⟨l0, hl0, a1, a2, a3⟩ := parse_lex hf.parsed hf.accepted
  have hlex := C53_lexed name src _ h
  rw [hl0] at hlex
  have haw : awkward false l.first = false := by
    cases e : awkward false l.first with
    | false => rfl
    | true => rw [e] at hlex; simp at hlex
  rw [haw] at hlex
  simp only [Bool.false_eq_true, if_false, Res.ok.injEq] at hlex
  have htok : ∀ x ∈ l, ∃ k t, x.2.2 = .token k t := by
    have := problems_tokens name l.first [] (by rw [← a3, hlex])
    intro x hx
    exact this (x.1, x.2.2) (List.mem_map.2 ⟨x, hx, rfl⟩)
  have hlex' := C53_lexed name' src' _ h'
  have htok' : ∀ x ∈ l.second, ∃ k t, x.2 = .token k t := by
    intro x hx
    obtain ⟨y, hy, rfl⟩ := List.mem_map.1 hx
    exact htok y hy
  rw [← awkward_twice l htok, haw, tokens_problems name' _ _ htok'] at hlex'
  simp only [Bool.false_eq_true, if_false] at hlex'
  obtain ⟨ps, e1, e2, e3⟩ := lexemes_pairs l [] [] 0 htok
  let isC : Token × Token → Bool := fun x => isComment x.1
  have hC : ∀ x ∈ ps, isComment x.2 = isComment x.1 := by
    intro x hx
    simp only [isComment, (e3 x hx).2.2.1]
  have f1 : (lexemes [] 0 l.first).filter (fun t => !isComment t) = (ps.filter fun x => !isC x).map (·.1) := by
    rw [e1, List.filter_map]; rfl
  have f2 : (lexemes [] 0 l.first).filter isComment = (ps.filter isC).map (·.1) := by
    rw [e1, List.filter_map]; rfl
  have g1 : (lexemes [] 0 l.second).filter (fun t => !isComment t) = (ps.filter fun x => !isC x).map (·.2) := by
    rw [e2, List.filter_map]
    congr 1
    exact List.filter_congr fun x hx => by simp [isC, hC x hx]
  have g2 : (lexemes [] 0 l.second).filter isComment = (ps.filter isC).map (·.2) := by
    rw [e2, List.filter_map]
    congr 1
    exact List.filter_congr fun x hx => by simp [isC, hC x hx]
  have hpts := points_below l (1, 1) hb
  have hR : SameGaps fun x x' => (x, x') ∈ (1, 1) :: points (1, 1) l :=
    sameGaps_of (List.pairwise_cons.2 ⟨hpts.1, hpts.2⟩)
  have hpp : ∀ evs, prettyPrint eol ((ps.filter fun x => !isC x).map (·.1)) ((ps.filter isC).map (·.1)) evs =
      prettyPrint eol ((ps.filter fun x => !isC x).map (·.2)) ((ps.filter isC).map (·.2)) evs := by
    refine prettyPrint_pairs hR (List.mem_cons_self ..) _ _ (fun x hx => ?_) eol
    have hx : x ∈ ps := by
      rcases List.mem_append.1 hx with hx | hx
      · exact (List.mem_filter.1 hx).1
      · exact (List.mem_filter.1 hx).1
    obtain ⟨a, b, c, d, e⟩ := e3 x hx
    exact ⟨a, b, c, List.mem_cons_of_mem _ d, List.mem_cons_of_mem _ e⟩
  rw [f1, f2] at hlex
  rw [g1, g2] at hlex'
  have hp := hf.parsed
  simp only [parse, hl0, Res.bind_ok] at hp
  obtain ⟨⟨evs, errs⟩, h1, h2⟩ := Res.bind_eq_ok.1 hp
  simp only [Res.ok.injEq] at h2
  have hev : p.events = evs := by rw [← h2]
  have her : errs = [] := by
    have := hf.accepted
    rw [← h2] at this
    exact (List.append_eq_nil_iff.mp this).2
  have hk : l0.tokens.map (·.kind) = ((ps.filter fun x => !isC x).map (·.2)).map (·.kind) := by
    rw [hlex]
    simp only [List.map_map]
    apply List.map_congr_left
    intro x hx
    exact (e3 x (List.mem_filter.1 hx).1).2.2.1
  obtain ⟨errs', k1, k2⟩ := (C24_only_kinds name name' _ _ .StoredDefinition hk).1 _ _ h1
  have he' : errs' = [] := by
    rw [her] at k2; exact List.length_eq_zero_iff.mp k2
  obtain ⟨t, t1, t2⟩ := hf.text
  refine ⟨⟨(ps.filter fun x => !isC x).map (·.2), (ps.filter isC).map (·.2), evs, []⟩, ?_, rfl, t, ?_, t2⟩
  · simp only [parse, hlex', Res.bind_ok, k1, he', List.append_nil]
  · show prettyPrint eol _ _ evs = _
    rw [← hpp, ← t1, hev, ← a1, ← a2, hlex]

/-! ### Replacing white space -/

theorem divided_spread {src : Text} {ps : List (Text × Chunk)} (h : Divided src ps) :
    ∃ tail, tail.all ws = true ∧ src = spread ps tail := by
  induction h with
  | done h => exact ⟨_, h, by simp [spread]⟩
  | next hw hp hd ih =>
    obtain ⟨tail, h1, h2⟩ := ih
    exact ⟨tail, h1, by rw [h2]; simp [spread]⟩

theorem spread_cons (w : Text) (q : Chunk) (ps : List (Text × Chunk)) (tail : Text) :
    spread ((w, q) :: ps) tail = w ++ q.text ++ spread ps tail := by simp [spread]

theorem before_replaced {k : Tok} {t w' r : Text} (h : Class k t) (hne : w' ≠ []) {w : Text}
    (hr : replaces (.token k t) w w') : (Chunk.token k t).Before (w' ++ r) := by
  cases w' with
  | nil => exact absurd rfl hne
  | cons d w' =>
    obtain ⟨h1, _, h3⟩ := hr
    simp only [List.all_cons, Bool.and_eq_true] at h1
    exact before_space h h1.1 (by rintro rfl; exact h3 t rfl d rfl)

theorem divided_respaced : ∀ (l : Twice) (k : Tok) (t src tail : Text), (Chunk.token k t).Before src →
    Divided src l.first → (∀ x ∈ l, ∃ k t, x.2.2 = .token k t) → respaced (.token k t) l tail →
    (Chunk.token k t).Before (spread l.second tail) ∧ Divided (spread l.second tail) l.second
  | [], k, t, src, tail, hp, _, _, hr => by
    have e : spread (Twice.second []) tail = tail := by simp [spread, Twice.second]
    rw [e]
    refine ⟨?_, .done hr.1⟩
    by_cases ht : tail = []
    · subst ht; exact before_end hp.1
    · have := before_replaced (r := []) hp.1 ht hr
      rwa [List.append_nil] at this
  | (w, w', q) :: l, k, t, src, tail, hp, hd, ht, hr => by
    obtain ⟨k', t', e⟩ := ht _ (List.mem_cons_self ..)
    simp only at e
    subst e
    obtain ⟨hr1, hr2⟩ := hr
    replace hd : Divided src ((w, .token k' t') :: Twice.first l) := hd
    cases hd with
    | next hw hq hd =>
      rename_i r
      obtain ⟨i1, i2⟩ := divided_respaced l k' t' r tail hq hd (fun x hx => ht x (List.mem_cons_of_mem _ hx)) hr2
      have e : spread (Twice.second ((w, w', .token k' t') :: l)) tail = w' ++ t' ++ spread (Twice.second l) tail :=
        spread_cons w' (.token k' t') (Twice.second l) tail
      rw [e]
      refine ⟨?_, .next hr1.1 i1 i2⟩
      by_cases hw' : w' = []
      · have hw0 := hr1.2.1 hw'
        subst hw' hw0
        refine before_head hp ?_
        have := piece_text_ne _ hq
        simp only [Chunk.text] at this
        cases t' with
        | nil => exact absurd rfl this
        | cons c t' => rfl
      · rw [List.append_assoc]
        exact before_replaced hp.1 hw' hr1

theorem crlf_append (a b : Text) : crlf (a ++ b) = crlf a ++ crlf b := by simp [crlf]

theorem crlf_plain : ∀ {t : Text}, '\n' ∉ t → crlf t = t
  | [], _ => rfl
  | c :: t, h => by
    simp only [List.mem_cons, not_or] at h
    show (if c = '\n' then ['\r', '\n'] else [c]) ++ crlf t = c :: t
    rw [if_neg (fun e => h.1 e.symm), crlf_plain h.2]
    rfl

theorem crlf_cons (c : Char) (t : Text) : crlf (c :: t) = (if c = '\n' then ['\r', '\n'] else [c]) ++ crlf t := rfl

theorem crlf_ws : ∀ {w : Text}, w.all ws = true → (crlf w).all ws = true
  | [], _ => rfl
  | c :: w, h => by
    simp only [List.all_cons, Bool.and_eq_true] at h
    rw [crlf_cons]
    split
    · simp only [List.cons_append, List.nil_append, List.all_cons, crlf_ws h.2]; decide
    · simp only [List.cons_append, List.nil_append, List.all_cons, crlf_ws h.2, h.1]; rfl

theorem crlf_newlines : ∀ w : Text, newlines (crlf w) = newlines w
  | [] => rfl
  | c :: w => by
    rw [crlf_cons, newlines_append, crlf_newlines w]
    have : newlines (c :: w) = newlines [c] + newlines w := newlines_append [c] w
    rw [this]
    split
    · next h => subst h; rfl
    · rfl

theorem crlf_nil {w : Text} (h : crlf w = []) : w = [] := by
  cases w with
  | nil => rfl
  | cons c w =>
    rw [crlf_cons] at h
    split at h <;> simp at h

theorem crlf_head {w : Text} {P : Char → Prop} (hr : P '\r') (h : ∀ c ∈ w.head?, P c) : ∀ c ∈ (crlf w).head?, P c := by
  cases w with
  | nil => simp [crlf]
  | cons d w =>
    rw [crlf_cons]
    split
    · intro c hc; simp at hc; subst hc; exact hr
    · intro c hc; simp at hc; subst hc; exact h _ rfl

theorem crlf_spread : ∀ (ps : List (Text × Chunk)) (tail : Text), (∀ x ∈ ps, '\n' ∉ x.2.text) →
    crlf (spread ps tail) = spread (ps.map fun x => (crlf x.1, x.2)) (crlf tail)
  | [], _, _ => rfl
  | (w, q) :: ps, tail, h => by
    rw [spread_cons, List.map_cons, spread_cons, crlf_append, crlf_append,
      crlf_plain (h (w, q) (List.mem_cons_self ..)), crlf_spread ps tail (fun x hx => h x (List.mem_cons_of_mem _ hx))]

/-- After each piece the white space may be replaced by the one with other newlines. -/
theorem crlf_respaced : ∀ (ps : List (Text × Chunk)) (k : Tok) (t src tail : Text), (Chunk.token k t).Before src →
    Divided src ps → src = spread ps tail → tail.all ws = true → (∀ x ∈ ps, ∃ k t, x.2 = .token k t) →
    respaced (.token k t) (ps.map fun x => (x.1, crlf x.1, x.2)) (crlf tail)
  | [], k, t, src, tail, hp, _, hs, hw, _ => by
    simp only [spread, List.flatMap_nil, List.nil_append] at hs
    subst hs
    refine ⟨crlf_ws hw, fun _ => rfl, ?_⟩
    intro t' e
    simp only [Chunk.token.injEq] at e
    obtain ⟨rfl, rfl⟩ := e
    refine crlf_head (.inr rfl) fun c hc => ?_
    cases src with
    | nil => simp at hc
    | cons d r => simp at hc; subst hc; exact before_line hp
  | (w, q) :: ps, k, t, src, tail, hp, hd, hs, hw, ht => by
    obtain ⟨k', t', e⟩ := ht _ (List.mem_cons_self ..)
    simp only at e
    subst e
    cases hd with
    | next hw1 hq hd =>
      rename_i r
      rw [spread_cons] at hs
      have hs' : r = spread ps tail := List.append_cancel_left hs
      refine ⟨⟨crlf_ws hw1, crlf_nil, ?_⟩, crlf_respaced ps k' t' r tail hq hd hs' hw
        (fun x hx => ht x (List.mem_cons_of_mem _ hx))⟩
      intro t'' e
      simp only [Chunk.token.injEq] at e
      obtain ⟨rfl, rfl⟩ := e
      refine crlf_head (.inr rfl) fun c hc => ?_
      cases w with
      | nil => simp at hc
      | cons d w => simp at hc; subst hc; exact before_line hp

end Mofmt
