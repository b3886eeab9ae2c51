import Verif.Proofs.Munch
/-
Whether a token could be longer is decided by the next character.
-/
namespace Mofmt
open Lexical

theorem all_digit_prefix {p q : Text} (h : (p ++ q).all digit = true) : p.all digit = true := by
  simp only [List.all_append, Bool.and_eq_true] at h
  exact h.1

/-- Every beginning of an exponent is one. -/
theorem exponent_prefix {p q : Text} (h : Exponent (p ++ q)) : Exponent p := by
  cases p with
  | nil => exact .inl rfl
  | cons e p =>
    rcases h with h | ⟨e', sg, ds, h, he, hs, hd⟩
    · cases h
    · simp only [List.cons_append, List.cons.injEq] at h
      obtain ⟨rfl, h⟩ := h
      refine .inr ⟨e, ?_⟩
      rcases List.append_eq_append_iff.1 h with ⟨a, h1, h2⟩ | ⟨a, h1, h2⟩
      · -- within the sign
        rcases hs with rfl | rfl | rfl
        · have : p = [] := by cases p with
            | nil => rfl
            | cons _ _ => cases h1
          exact ⟨[], p, rfl, he, .inl rfl, by rw [this]; rfl⟩
        · cases p with
          | nil => exact ⟨[], [], rfl, he, .inl rfl, rfl⟩
          | cons x p =>
            simp only [List.cons_append, List.cons.injEq] at h1
            obtain ⟨rfl, h1⟩ := h1
            have := List.append_eq_nil_iff.1 h1.symm
            exact ⟨['+'], [], by rw [this.1]; rfl, he, .inr (.inl rfl), rfl⟩
        · cases p with
          | nil => exact ⟨[], [], rfl, he, .inl rfl, rfl⟩
          | cons x p =>
            simp only [List.cons_append, List.cons.injEq] at h1
            obtain ⟨rfl, h1⟩ := h1
            have := List.append_eq_nil_iff.1 h1.symm
            exact ⟨['-'], [], by rw [this.1]; rfl, he, .inr (.inr rfl), rfl⟩
      · exact ⟨sg, a, by rw [h1], he, hs, all_digit_prefix (h2 ▸ hd)⟩

/-- Every beginning of a number is a number. -/
theorem number_prefix {ds fr ex p q : Text} (hp : p ≠ []) (h : p ++ q = ds ++ fr ++ ex) (hne : ds ≠ [])
    (hd : ds.all digit = true) (hf : Fraction fr) (he : Exponent ex) : ∃ k, Class k p := by
  rw [List.append_assoc] at h
  rcases List.append_eq_append_iff.1 h with ⟨a, h1, h2⟩ | ⟨a, h1, h2⟩
  · exact ⟨.UInt, hp, all_digit_prefix (h1 ▸ hd)⟩
  · by_cases ha : a = []
    · subst ha
      rw [List.append_nil] at h1
      exact ⟨.UInt, hp, h1 ▸ hd⟩
    · rcases List.append_eq_append_iff.1 h2 with ⟨b, g1, g2⟩ | ⟨b, g1, g2⟩
      · -- beyond the fraction
        exact ⟨.UReal, ds, fr, b, by rw [h1, g1, List.append_assoc], hne, hd, hf, exponent_prefix (g2 ▸ he), by
          by_cases hb : b = []
          · left
            rintro rfl
            exact ha (by rw [g1, hb]; rfl)
          · exact .inr hb⟩
      · refine ⟨.UReal, ds, a, [], by rw [h1, List.append_nil], hne, hd, ?_, .inl rfl, .inl ha⟩
        cases a with
        | nil => exact .inl rfl
        | cons x a =>
          rcases hf with hf | ⟨es, hf, hes⟩
          · rw [hf] at g1; cases g1
          · rw [hf] at g1
            simp only [List.cons_append, List.cons.injEq] at g1
            obtain ⟨rfl, rfl⟩ := g1
            exact .inr ⟨a, rfl, all_digit_prefix hes⟩

theorem word_prefix {t : Text} {d : Char} (h : isWord t = true) (hd : wordChar d = true) :
    isWord (t ++ [d]) = true := by
  cases t with
  | nil => cases h
  | cons c cs =>
    simp only [isWord, Bool.and_eq_true] at h
    simp [isWord, h.1, h.2, hd]

/-- If a token can be longer at all, it can be so by one character; except for a slash before a star. -/
theorem next_decides {k k' : Tok} {t u : Text} {d : Char} (h : Class k t) (h' : Class k' (t ++ d :: u))
    (hs : ¬ (k = .Slash ∧ d = '*')) : ∃ k'', Class k'' (t ++ [d]) := by
  -- a token that ends here is not the beginning of another
  have stop : ∀ c cs, t = c :: cs → munch c (cs ++ d :: u) = .tok k t (d :: u) → False := by
    rintro c cs rfl hm
    obtain ⟨c', cs', e, hm'⟩ := munch_relex (rest := []) h' rfl
    simp only [List.cons_append, List.cons.injEq] at e
    obtain ⟨rfl, rfl⟩ := e
    rw [List.append_nil, hm] at hm'
    simp at hm'
  by_cases hk0 : sticks k d = false
  · have : follows k (d :: u) = true := by simpa [follows] using hk0
    obtain ⟨c, cs, e, hm⟩ := munch_relex h this
    exact (stop c cs e hm).elim
  have hk : sticks k d = true := by simpa using hk0
  clear hk0
  have word : firstIsWordStart t = true → wordChar d = true → ∃ k'', Class k'' (t ++ [d]) := fun hw hd =>
    ⟨_, wordKind_class (word_prefix (class_wordKind h hw).1 hd)⟩
  have key : ∀ k ∈ Tok.all, k ≠ .Identifier → k ≠ .Bool → k ≠ .UInt → k ≠ .UReal → k ≠ .Colon →
      k ≠ .Equal → k ≠ .Gre → k ≠ .Les → k ≠ .Dot → k ≠ .Slash → k ≠ .LineComment →
      wordy k = true → ∀ t ∈ spelling k, firstIsWordStart t = true := by decide
  -- the longer token starts with a digit
  have number : ∀ c cs, t = c :: cs → digit c = true → ∃ k'', Class k'' (t ++ [d]) := by
    rintro c cs rfl hc
    have hnum : ∃ ds fr ex : Text, (c :: cs) ++ d :: u = ds ++ fr ++ ex ∧ ds ≠ [] ∧ ds.all digit = true ∧ Fraction fr ∧
        Exponent ex := by
      obtain ⟨c', cs', e, hm'⟩ := munch_relex (rest := []) h' rfl
      simp only [List.cons_append, List.cons.injEq] at e
      obtain ⟨rfl, rfl⟩ := e
      have hw : firstIsWordStart (c :: cs ++ d :: u) = false := by
        show wordStart c = false
        cases hws : wordStart c with
        | false => rfl
        | true => have := start_not_digit hws; rw [this] at hc; cases hc
      have spelt : ∀ k ∈ Tok.all, ∀ w ∈ spelling k, ∀ c ∈ w.head?, digit c = false := by decide
      cases k'
      case UInt => exact ⟨_, [], [], by simp, h'.1, h'.2, .inl rfl, .inl rfl⟩
      case UReal =>
        obtain ⟨ds, fr, ex, e, h1, h2, h3, h4, _⟩ := h'
        exact ⟨ds, fr, ex, e, h1, h2, h3, h4⟩
      case EOF => exact h'.elim
      case Identifier =>
        rcases h' with h' | ⟨b, e, _⟩
        · have := h'.1
          simp only [List.cons_append, isWord, Bool.and_eq_true] at this
          have e : wordStart c = false := hw
          rw [e] at this
          cases this.1
        · simp only [List.cons_append, List.cons.injEq] at e
          rw [e.1] at hc
          exact absurd hc (by decide)
      case Bool =>
        rcases h' with e | e
        all_goals
          simp only [List.cons_append, List.cons.injEq] at e
          rw [e.1] at hc
          exact absurd hc (by decide)
      case String =>
        obtain ⟨b, e, _⟩ := h'
        simp only [List.cons_append, List.cons.injEq] at e
        rw [e.1] at hc
        exact absurd hc (by decide)
      case LineComment =>
        obtain ⟨b, e, _⟩ := h'
        simp only [List.cons_append, List.cons.injEq] at e
        rw [e.1] at hc
        exact absurd hc (by decide)
      case BlockComment =>
        obtain ⟨b, e, _⟩ := h'
        simp only [List.cons_append, List.cons.injEq] at e
        rw [e.1] at hc
        exact absurd hc (by decide)
      all_goals
        have := spelt _ (Tok.mem_all _) _ h' c rfl
        rw [this] at hc
        cases hc
    obtain ⟨ds, fr, ex, e, h1, h2, h3, h4⟩ := hnum
    exact number_prefix (q := u) (by simp) (by rw [← e]; simp) h1 h2 h3 h4
  cases k
  case EOF => exact h.elim
  case Identifier =>
    rcases h with h0 | ⟨b, rfl, hb⟩
    · refine word ?_ ?_
      · have := h0.1
        cases t with
        | nil => simp [isWord] at this
        | cons c cs => simp [isWord] at this; exact this.1
      · simpa [sticks, wordy, spelling] using hk
    · exact (stop _ _ rfl (by simp [munch, munchQ_relex b (d :: u) hb, Munch.pre])).elim
  case Bool =>
    refine word ?_ ?_
    · rcases h with rfl | rfl <;> decide
    · simpa [sticks, wordy, spelling] using hk
  case String => simp [sticks, wordy, spelling] at hk
  case BlockComment => simp [sticks, wordy, spelling] at hk
  case LineComment =>
    obtain ⟨b, rfl, hn, hr⟩ := h
    simp only [sticks, Bool.not_eq_true', Bool.or_eq_false_iff, decide_eq_false_iff_not] at hk
    refine ⟨.LineComment, b ++ [d], rfl, ?_, ?_⟩
    · simp only [List.mem_append, List.mem_singleton, not_or]
      exact ⟨hn, fun e => hk.1 e.symm⟩
    · simp only [List.mem_append, List.mem_singleton, not_or]
      exact ⟨hr, fun e => hk.2 e.symm⟩
  case UInt =>
    obtain ⟨c, cs, e, h3, h4⟩ := digit_head h.1 h.2
    exact number c cs e h3
  case UReal =>
    obtain ⟨ds, fr, ex, rfl, h1, h2, hfr, hex, hne⟩ := h
    obtain ⟨c, cs, rfl, h3, h4⟩ := digit_head h1 h2
    exact number c (cs ++ fr ++ ex) rfl h3
  case Slash =>
    have ht : t = ['/'] := by have : some ['/'] = some t := h; simpa using this.symm
    subst ht
    simp only [sticks, Bool.or_eq_true, decide_eq_true_eq] at hk
    rcases hk with rfl | rfl
    · exact ⟨.LineComment, [], rfl, by simp, by simp⟩
    · exact absurd ⟨rfl, rfl⟩ hs
  case Colon =>
    have ht : t = [':'] := by have : some [':'] = some t := h; simpa using this.symm
    subst ht
    simp only [sticks, decide_eq_true_eq] at hk
    subst hk
    exact ⟨.Assign, rfl⟩
  case Equal =>
    have ht : t = ['='] := by have : some ['='] = some t := h; simpa using this.symm
    subst ht
    simp only [sticks, decide_eq_true_eq] at hk
    subst hk
    exact ⟨.Eq, rfl⟩
  case Gre =>
    have ht : t = ['>'] := by have : some ['>'] = some t := h; simpa using this.symm
    subst ht
    simp only [sticks, decide_eq_true_eq] at hk
    subst hk
    exact ⟨.Geq, rfl⟩
  case Les =>
    have ht : t = ['<'] := by have : some ['<'] = some t := h; simpa using this.symm
    subst ht
    simp only [sticks, Bool.or_eq_true, decide_eq_true_eq] at hk
    rcases hk with rfl | rfl
    · exact ⟨.Leq, rfl⟩
    · exact ⟨.Neq, rfl⟩
  case Dot =>
    have ht : t = ['.'] := by have : some ['.'] = some t := h; simpa using this.symm
    subst ht
    have hd : d = '+' ∨ d = '-' ∨ d = '*' ∨ d = '/' ∨ d = '^' := by simpa [sticks] using hk
    rcases hd with rfl | rfl | rfl | rfl | rfl
    · exact ⟨.DotPlus, rfl⟩
    · exact ⟨.DotMinus, rfl⟩
    · exact ⟨.DotStar, rfl⟩
    · exact ⟨.DotSlash, rfl⟩
    · exact ⟨.DotFlex, rfl⟩
  all_goals
    have hw := hk
    unfold sticks at hw
    replace hw := Bool.and_eq_true_iff.mp hw
    exact word (key _ (Tok.mem_all _) (by decide) (by decide) (by decide) (by decide) (by decide)
      (by decide) (by decide) (by decide) (by decide) (by decide) (by decide) hw.1 t h) hw.2

/-- Whether a token may stand before a text depends only on the next character. -/
theorem before_head {k : Tok} {t r r' : Text} (h : (Chunk.token k t).Before r) (hr : r'.head? = r.head?) :
    (Chunk.token k t).Before r' := by
  obtain ⟨h1, h2, h3⟩ := h
  refine ⟨h1, ?_, by rw [hr]; exact h3⟩
  intro u v hu e k' hk'
  cases u with
  | nil => exact hu rfl
  | cons d u =>
    subst e
    cases r with
    | nil => simp at hr
    | cons d' r =>
      simp only [List.cons_append, List.head?_cons, Option.some.injEq] at hr
      subst hr
      obtain ⟨k'', h⟩ := next_decides h1 hk' (by rintro ⟨rfl, rfl⟩; exact h3 rfl rfl)
      exact h2 [d] r (by simp) rfl k'' h

/-- White space may follow every token, and line ends may follow comments to the end of the line. -/
theorem before_space {k : Tok} {t r : Text} {d : Char} (h : Class k t) (hd : ws d = true)
    (hl : k = .LineComment → d = '\n' ∨ d = '\r') : (Chunk.token k t).Before (d :: r) := by
  have hf : follows k (d :: r) = true := by
    have hc : d = ' ' ∨ d = '\t' ∨ d = '\n' ∨ d = '\x0c' ∨ d = '\r' := by simpa [ws] using hd
    by_cases hk : k = .LineComment
    · subst hk
      rcases hl rfl with rfl | rfl <;> rfl
    · have key : ∀ k ∈ Tok.all, k ≠ .LineComment → ∀ d ∈ [' ', '\t', '\n', '\x0c', '\r'], sticks k d = false := by
        decide
      simp [follows, key k (Tok.mem_all _) hk d (by simpa using hc)]
  obtain ⟨c, cs, rfl, hm⟩ := munch_relex h hf
  exact ⟨h, munch_longest hm, by rintro rfl; exact munch_slash hm⟩

theorem before_end {k : Tok} {t : Text} (h : Class k t) : (Chunk.token k t).Before [] :=
  ⟨h, fun u v hu e => by
    have := List.append_eq_nil_iff.1 e.symm
    exact absurd this.1 hu, by simp⟩

/-- What follows a comment to the end of the line. -/
theorem before_line {t r : Text} {d : Char} (h : (Chunk.token .LineComment t).Before (d :: r)) :
    d = '\n' ∨ d = '\r' := by
  obtain ⟨h1, h2, _⟩ := h
  refine Decidable.byContradiction fun hd => ?_
  obtain ⟨b, rfl, hn, hr⟩ := h1
  refine h2 [d] r (by simp) rfl .LineComment ⟨b ++ [d], rfl, ?_, ?_⟩
  · simp only [List.mem_append, List.mem_singleton, not_or]
    exact ⟨hn, fun e => hd (.inl e.symm)⟩
  · simp only [List.mem_append, List.mem_singleton, not_or]
    exact ⟨hr, fun e => hd (.inr e.symm)⟩

end Mofmt
