import Verif.Proofs.LexClass
/-
Facts about the lexemes the lexer returns.
-/
namespace Mofmt
open Lexical

variable {name : Text}

theorem posAfter_eq {pre : Text} (h : asciiEnd pre = true) : posAfter pre = position pre := by
  rcases asciiEnd_cases pre with ⟨_, h2⟩ | ⟨h1, _⟩
  · simp [posAfter, position, h2]
  · rw [h] at h1; cases h1

/-- `lex` succeeds exactly if the pieces can be emitted. -/
theorem lex_ok {src : Text} {l : Lexed} (h : lex name src = .ok l) :
    ∃ ls, emit name [] 0 (items src) = .ok (ls, l.errors) ∧ l.tokens = ls.filter (!isComment ·) ∧
      l.comments = ls.filter isComment := by
  rw [lex_spec] at h
  obtain ⟨⟨ls, es⟩, h1, h2⟩ := Res.bind_eq_ok.1 h
  simp only [Res.ok.injEq] at h2
  subst h2
  exact ⟨ls, h1, rfl, rfl⟩

theorem emit_cons_tok {pre : Text} {i : Nat} {k : Tok} {t : Text} {r : List Item}
    {ls : List Token} {es : List Text}
    (h : emit name pre i (.tok k t :: r) = .ok (ls, es)) :
    asciiEnd pre = true ∧ asciiEnd (pre ++ t) = true ∧ ∃ ls',
      emit name (pre ++ t) (i + 1) r = .ok (ls', es) ∧
      ls = ⟨i, t, k, posAfter pre, posAfter (pre ++ t)⟩ :: ls' := by
  rw [emit] at h
  split at h
  · rename_i hb
    simp only [Bool.and_eq_true] at hb
    obtain ⟨⟨ls', es'⟩, h1, h2⟩ := Res.bind_eq_ok.1 h
    simp only [Res.ok.injEq, Prod.mk.injEq] at h2
    exact ⟨hb.1, hb.2, ls', by rw [h1, h2.2], h2.1.symm⟩
  · cases h

theorem emit_cons_bad {pre : Text} {i : Nat} {m : Text} {t : Text} {r : List Item}
    {ls : List Token} {es : List Text}
    (h : emit name pre i (.bad m t :: r) = .ok (ls, es)) : ∃ es',
      emit name (pre ++ t) i r = .ok (ls, es') ∧
      es = errorText name (posAfter pre) m :: es' := by
  rw [emit] at h
  obtain ⟨⟨ls', es'⟩, h1, h2⟩ := Res.bind_eq_ok.1 h
  simp only [Res.ok.injEq, Prod.mk.injEq] at h2
  exact ⟨es', by rw [h1, h2.1], h2.2.symm⟩

/-- Every lexeme is one of the pieces, at its position. -/
theorem emit_mem : ∀ (its : List Item) (pre : Text) (i : Nat) (ls : List Token) (es : List Text),
    emit name pre i its = .ok (ls, es) → ∀ t ∈ ls,
      ∃ a b : Text, its.flatMap Item.text = a ++ t.text ++ b ∧ t.start = position (pre ++ a) ∧
        t.stop = position (pre ++ a ++ t.text) ∧ Item.tok t.kind t.text ∈ its := by
  intro its
  induction its with
  | nil => intro pre i ls es h t ht; simp [emit] at h; obtain ⟨rfl, rfl⟩ := h; cases ht
  | cons it its ih =>
    intro pre i ls es h t ht
    cases it with
    | ws w =>
      rw [emit] at h
      obtain ⟨a, b, h1, h2, h3, h4⟩ := ih _ _ _ _ h t ht
      exact ⟨w ++ a, b, by simp [Item.text, h1], by simpa using h2, by simpa using h3, by simp [h4]⟩
    | bad m w =>
      obtain ⟨es', h5, _⟩ := emit_cons_bad h
      obtain ⟨a, b, h1, h2, h3, h4⟩ := ih _ _ _ _ h5 t ht
      exact ⟨w ++ a, b, by simp [Item.text, h1], by simpa using h2, by simpa using h3, by simp [h4]⟩
    | tok k w =>
      obtain ⟨hb1, hb2, ls', h5, rfl⟩ := emit_cons_tok h
      rcases List.mem_cons.1 ht with rfl | ht
      · exact ⟨[], its.flatMap Item.text, by simp [Item.text], by simp [posAfter_eq hb1],
          by simp [posAfter_eq hb2], by simp⟩
      · obtain ⟨a, b, h1, h2, h3, h4⟩ := ih _ _ _ _ h5 t ht
        exact ⟨w ++ a, b, by simp [Item.text, h1], by simpa using h2, by simpa using h3, by simp [h4]⟩

theorem emit_idx : ∀ (its : List Item) (pre : Text) (i : Nat) (ls : List Token) (es : List Text),
    emit name pre i its = .ok (ls, es) → ls.map (·.idx) = List.range' i ls.length := by
  intro its
  induction its with
  | nil => intro pre i ls es h; simp [emit] at h; obtain ⟨rfl, rfl⟩ := h; simp
  | cons it its ih =>
    intro pre i ls es h
    cases it with
    | ws w => rw [emit] at h; exact ih _ _ _ _ h
    | bad m w => obtain ⟨es', h5, _⟩ := emit_cons_bad h; exact ih _ _ _ _ h5
    | tok k w =>
      obtain ⟨hb1, hb2, ls', h5, rfl⟩ := emit_cons_tok h
      simp [ih _ _ _ _ h5, List.range'_succ]

/-- `b` begins where `a` ends, or later. -/
def NotBefore (a b : Token) : Prop := a.stop.pos ≤ b.start.pos ∧ a.stop.line ≤ b.start.line

theorem newlines_append (a b : Text) : newlines (a ++ b) = newlines a + newlines b := by
  simp [newlines]

theorem emit_sorted : ∀ (its : List Item) (pre : Text) (i : Nat) (ls : List Token) (es : List Text),
    emit name pre i its = .ok (ls, es) → ls.Pairwise NotBefore := by
  intro its
  induction its with
  | nil => intro pre i ls es h; simp [emit] at h; obtain ⟨rfl, rfl⟩ := h; simp
  | cons it its ih =>
    intro pre i ls es h
    cases it with
    | ws w => rw [emit] at h; exact ih _ _ _ _ h
    | bad m w => obtain ⟨es', h5, _⟩ := emit_cons_bad h; exact ih _ _ _ _ h5
    | tok k w =>
      obtain ⟨hb1, hb2, ls', h5, rfl⟩ := emit_cons_tok h
      refine List.Pairwise.cons ?_ (ih _ _ _ _ h5)
      intro t ht
      obtain ⟨a, b, h1, h2, h3, h4⟩ := emit_mem _ _ _ _ _ h5 t ht
      simp only [NotBefore, posAfter_eq hb2, h2, position, bytes_append, newlines_append]
      omega

/-- The pieces of a text with the kinds and texts of the lexemes among them. -/
theorem emit_gaps : ∀ (its : List Item) (pre : Text) (i : Nat) (ls : List Token),
    (∀ w, Item.ws w ∈ its → w.all ws = true) →
    emit name pre i its = .ok (ls, []) → ∃ (ps : List (Text × Token)) (tail : Text),
      ps.map (·.2) = ls ∧ (∀ p ∈ ps, p.1.all ws = true) ∧ tail.all ws = true ∧
      its.flatMap Item.text = ps.flatMap (fun p => p.1 ++ p.2.text) ++ tail := by
  intro its
  induction its with
  | nil => intro pre i ls _ h; simp [emit] at h; exact ⟨[], [], by simp [h], by simp, rfl, rfl⟩
  | cons it its ih =>
    intro pre i ls hws h
    have hws' : ∀ w, Item.ws w ∈ its → w.all ws = true := fun w hw => hws w (by simp [hw])
    cases it with
    | ws w =>
      rw [emit] at h
      obtain ⟨ps, tail, h1, h2, h3, h4⟩ := ih _ _ _ hws' h
      have hw := hws w (by simp)
      cases ps with
      | nil => exact ⟨[], w ++ tail, h1, by simp, by simp [List.all_append, hw, h3],
          by simp [Item.text, h4]⟩
      | cons p ps =>
        refine ⟨(w ++ p.1, p.2) :: ps, tail, by simpa using h1, ?_, h3, by simp [Item.text, h4]⟩
        intro q hq
        rcases List.mem_cons.1 hq with rfl | hq
        · simp only [List.all_append, hw, h2 p (by simp), Bool.and_self]
        · exact h2 q (by simp [hq])
    | bad m w => obtain ⟨es', _, h5⟩ := emit_cons_bad h; simp at h5
    | tok k w =>
      obtain ⟨hb1, hb2, ls', h5, rfl⟩ := emit_cons_tok h
      obtain ⟨ps, tail, h1, h2, h3, h4⟩ := ih _ _ _ hws' h5
      refine ⟨([], ⟨i, w, k, posAfter pre, posAfter (pre ++ w)⟩) :: ps, tail, by simp [h1], ?_, h3,
        by simp [Item.text, h4]⟩
      intro q hq
      rcases List.mem_cons.1 hq with rfl | hq
      · rfl
      · exact h2 q hq

theorem items_ws_all (t : Text) : ∀ w, Item.ws w ∈ items t → w.all ws = true := by
  induction t using items_induct with
  | nil => intro w h; simp at h
  | ws c cs h ih =>
    intro w hw
    rw [items_ws cs h] at hw
    rcases List.mem_cons.1 hw with hw | hw
    · simp only [Item.ws.injEq] at hw
      subst hw
      rw [isWs_eq] at *
      rw [List.all_cons, h, all_takeWhile]; rfl
    · exact ih w hw
  | munch c cs h ih =>
    intro w hw
    rw [items_munch cs h] at hw
    rcases List.mem_cons.1 hw with hw | hw
    · cases hm : munch c cs <;> simp [hm, Munch.item] at hw
    · exact ih w hw

theorem items_class (t : Text) : ∀ k w, Item.tok k w ∈ items t → Class k w := by
  induction t using items_induct with
  | nil => intro k w h; simp at h
  | ws c cs h ih =>
    intro k w hw
    rw [items_ws cs h] at hw
    rcases List.mem_cons.1 hw with hw | hw
    · cases hw
    · exact ih k w hw
  | munch c cs h ih =>
    intro k w hw
    rw [items_munch cs h] at hw
    rcases List.mem_cons.1 hw with hw | hw
    · cases hm : munch c cs with
      | tok k' t' r' =>
        simp only [hm, Munch.item, Item.tok.injEq] at hw
        obtain ⟨rfl, rfl⟩ := hw
        exact munch_class hm
      | bad m t' r' => simp [hm, Munch.item] at hw
    · exact ih k w hw

theorem class_ne_nil {k : Tok} {t : Text} (h : Class k t) : t ≠ [] := by
  obtain ⟨c, cs, h, _⟩ := munch_relex (rest := []) h rfl
  simp [h]

theorem asciiEnd_of_ascii {t : Text} (h : ascii t = true) : asciiEnd t = true := by
  unfold asciiEnd
  cases hl : t.getLast? with
  | none => rfl
  | some c =>
    have := List.all_eq_true.1 h c (List.mem_of_getLast? hl)
    simpa using this

theorem emit_ascii : ∀ (its : List Item) (pre : Text) (i : Nat),
    ascii (pre ++ its.flatMap Item.text) = true → ∃ x, emit name pre i its = .ok x := by
  intro its
  induction its with
  | nil => intro pre i _; exact ⟨_, rfl⟩
  | cons it its ih =>
    intro pre i h
    rw [List.flatMap_cons, ← List.append_assoc] at h
    cases it with
    | ws w => rw [emit]; exact ih _ _ h
    | bad m w =>
      obtain ⟨x, hx⟩ := ih (pre ++ w) i h
      exact ⟨(x.1, _), by rw [emit, hx]; rfl⟩
    | tok k w =>
      obtain ⟨x, hx⟩ := ih (pre ++ w) (i + 1) h
      rw [emit, hx]
      have h1 : ascii (pre ++ w) = true := by
        simp only [ascii, List.all_append, Bool.and_eq_true, Item.text] at h ⊢; exact h.1
      have h2 : ascii pre = true := by
        simp only [ascii, List.all_append, Bool.and_eq_true] at h1 ⊢; exact h1.1
      rw [asciiEnd_of_ascii h1, asciiEnd_of_ascii h2]
      exact ⟨_, rfl⟩

theorem emit_panic : ∀ (its : List Item) (pre : Text) (i : Nat),
    (∃ x, emit name pre i its = .ok x) ∨ emit name pre i its = .panic .slice := by
  intro its
  induction its with
  | nil => intro pre i; exact Or.inl ⟨_, rfl⟩
  | cons it its ih =>
    intro pre i
    cases it with
    | ws w => rw [emit]; exact ih _ _
    | bad m w =>
      rw [emit]
      rcases ih (pre ++ w) i with ⟨x, h⟩ | h
      · rw [h]; exact Or.inl ⟨_, rfl⟩
      · rw [h]; exact Or.inr rfl
    | tok k w =>
      rw [emit]
      split
      · rcases ih (pre ++ w) (i + 1) with ⟨x, h⟩ | h
        · rw [h]; exact Or.inl ⟨_, rfl⟩
        · rw [h]; exact Or.inr rfl
      · exact Or.inr rfl

/-- The lexemes do not depend on the name given to the file. -/
theorem emit_name (name' : Text) : ∀ (its : List Item) (pre : Text) (i : Nat) (ls : List Token)
    (es : List Text), emit name pre i its = .ok (ls, es) →
    ∃ es', emit name' pre i its = .ok (ls, es') ∧ es'.length = es.length := by
  intro its
  induction its with
  | nil => intro pre i ls es h; simp [emit] at h; exact ⟨[], by simp [emit, h.1], by simp [← h.2]⟩
  | cons it its ih =>
    intro pre i ls es h
    cases it with
    | ws w => rw [emit] at h ⊢; exact ih _ _ _ _ h
    | bad m w =>
      obtain ⟨es', h5, h6⟩ := emit_cons_bad h
      obtain ⟨e2, h7, h8⟩ := ih _ _ _ _ h5
      exact ⟨errorText name' (posAfter pre) m :: e2, by rw [emit, h7]; rfl, by simp [h6, h8]⟩
    | tok k w =>
      obtain ⟨hb1, hb2, ls', h5, rfl⟩ := emit_cons_tok h
      obtain ⟨e2, h7, h8⟩ := ih _ _ _ _ h5
      exact ⟨e2, by rw [emit, hb1, hb2, h7]; rfl, h8⟩

end Mofmt
