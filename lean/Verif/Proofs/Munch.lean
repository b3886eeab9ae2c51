import Verif.Spec.Lexemes
import Verif.Proofs.Relex
/-
The scanner takes the longest token.
-/
namespace Mofmt
open Lexical

/-- Two kinds never share a text. -/
theorem class_unique {k k' : Tok} {t : Text} (h : Class k t) (h' : Class k' t) : k = k' := by
  obtain ⟨c, cs, e, hm⟩ := munch_relex (rest := []) h rfl
  obtain ⟨c', cs', e', hm'⟩ := munch_relex (rest := []) h' rfl
  rw [e] at e'
  simp only [List.cons.injEq] at e'
  obtain ⟨rfl, rfl⟩ := e'
  rw [hm] at hm'
  simp only [Munch.tok.injEq] at hm'
  exact hm'.1

theorem takeWhile_append_all {p : Char → Bool} {l r : Text} (hl : l.all p = true) :
    (l ++ r).takeWhile p = l ++ r.takeWhile p ∧ (l ++ r).dropWhile p = r.dropWhile p := by
  induction l with
  | nil => exact ⟨rfl, rfl⟩
  | cons c l ih =>
    simp only [List.all_cons, Bool.and_eq_true] at hl
    obtain ⟨h1, h2⟩ := ih hl.2
    simp [hl.1, h1, h2]

theorem expo_covers {ex : Text} (rest : Text) (h : Exponent ex) (hne : ex ≠ []) :
    ∃ u, (expo (ex ++ rest)).1 = ex ++ u := by
  obtain ⟨e, sg, ds, rfl, he, hsg, hds⟩ := h.resolve_left hne
  obtain ⟨h1, _⟩ := takeWhile_append_all (r := rest) hds
  rw [← isDigit_eq] at h1
  rcases hsg with rfl | rfl | rfl
  · simp only [List.nil_append, List.cons_append, expo, if_pos he]
    cases hdr : ds ++ rest with
    | nil =>
      simp at hdr
      exact ⟨[], by simp [hdr]⟩
    | cons d r =>
      by_cases hd : d = '+' ∨ d = '-'
      · simp only [if_pos hd]
        cases ds with
        | nil => exact ⟨_, rfl⟩
        | cons d' ds =>
          exfalso
          simp at hdr
          obtain ⟨rfl, _⟩ := hdr
          simp at hds
          rcases hd with rfl | rfl
          · exact absurd hds.1 (by decide)
          · exact absurd hds.1 (by decide)
      · simp only [if_neg hd]
        rw [← hdr, h1]
        exact ⟨_, rfl⟩
  · simp [expo, if_pos he, h1]
  · simp [expo, if_pos he, h1]

theorem munchNum_uint_covers {ds : Text} (rest : Text) (hds : ds.all digit = true) :
    ∃ k u r, munchNum (ds ++ rest) = .tok k (ds ++ u) r := by
  obtain ⟨h1, _⟩ := takeWhile_append_all (r := rest) hds
  rw [← isDigit_eq] at h1
  unfold munchNum
  dsimp only
  rw [h1]
  split
  · exact ⟨_, _, _, rfl⟩
  · split
    · exact ⟨_, _ ++ _, _, by rw [← List.append_assoc]⟩
    · split
      · exact ⟨_, _, _, rfl⟩
      · exact ⟨_, _ ++ _, _, by rw [← List.append_assoc]⟩

theorem munchNum_ureal_covers {ds fr ex : Text} (rest : Text) (hds : ds.all digit = true)
    (hf : Fraction fr) (he : Exponent ex) (hne : fr ≠ [] ∨ ex ≠ []) :
    ∃ k u r, munchNum (ds ++ (fr ++ (ex ++ rest))) = .tok k (ds ++ (fr ++ ex) ++ u) r := by
  have stop : ex ≠ [] → ∀ c ∈ (ex ++ rest).head?, digit c = false ∧ c ≠ '.' := by
    intro hx c hc
    obtain ⟨e, sg, d, rfl, he, _⟩ := he.resolve_left hx
    simp at hc
    subst hc
    rcases he with rfl | rfl <;> decide
  rcases hf with rfl | ⟨fd, rfl, hfd⟩
  · have hex : ex ≠ [] := by simpa using hne
    obtain ⟨h1, h2⟩ := takeWhile_append_stop hds (fun c hc => (stop hex c hc).1)
    rw [← isDigit_eq] at h1 h2
    obtain ⟨u, hu⟩ := expo_covers rest he hex
    unfold munchNum
    dsimp only
    rw [List.nil_append, List.nil_append, h1, h2]
    cases hd : ex ++ rest with
    | nil => simp [hex] at hd
    | cons d r =>
      have hdot : ¬ d = '.' := (stop hex d (by rw [hd]; rfl)).2
      simp only [if_neg hdot]
      rw [← hd, hu, if_neg (by simp [hex])]
      exact ⟨_, u, _, by rw [← List.append_assoc]⟩
  · obtain ⟨h1, h2⟩ := takeWhile_append_stop (p := digit) (r := '.' :: fd ++ (ex ++ rest)) hds (by
      intro c hc; simp at hc; subst hc; decide)
    rw [← isDigit_eq] at h1 h2
    unfold munchNum
    rw [h1, h2, List.cons_append]
    simp only [if_true]
    by_cases hex : ex = []
    · subst hex
      obtain ⟨h3, h4⟩ := takeWhile_append_all (r := rest) hfd
      rw [← isDigit_eq] at h3 h4
      rw [List.nil_append, h3, h4]
      exact ⟨_, rest.takeWhile isDigit ++ (expo (rest.dropWhile isDigit)).1, _, by simp; exact ⟨rfl, rfl⟩⟩
    · obtain ⟨h3, h4⟩ := takeWhile_append_stop hfd (fun c hc => (stop hex c hc).1)
      rw [← isDigit_eq] at h3 h4
      obtain ⟨u, hu⟩ := expo_covers rest he hex
      rw [h3, h4, hu]
      exact ⟨_, u, _, by simp; exact ⟨rfl, rfl⟩⟩

theorem munch_word_covers {k : Tok} {t : Text} (rest : Text) (h : Class k t)
    (hw : firstIsWordStart t = true) :
    ∃ c cs k' u r, t = c :: cs ∧ munch c (cs ++ rest) = .tok k' (t ++ u) r := by
  obtain ⟨h1, h2⟩ := class_wordKind h hw
  cases t with
  | nil => simp [isWord] at h1
  | cons c cs =>
    simp only [isWord, Bool.and_eq_true] at h1
    obtain ⟨h3, h4⟩ := takeWhile_append_all (r := rest) h1.2
    have h5 : (letter c || c == '_') = true := by
      have := h1.1
      simpa [wordStart] using this
    refine ⟨c, cs, wordKind (c :: (cs ++ rest.takeWhile wordChar)), rest.takeWhile wordChar,
      rest.dropWhile wordChar, rfl, ?_⟩
    rw [munch_other _ (wordStart_wordChar h1.1), isDigit_eq, start_not_digit h1.1, isAlpha_eq,
      isWordChar_eq, h3, h4]
    simp [h5, Munch.pre]

/-- At a place where a token starts, the scanner finds a token, and one at least as long; except that
it takes `/*` for the beginning of a comment. -/
theorem munch_covers {k : Tok} {t : Text} (rest : Text) (h : Class k t) :
    ∃ c cs, t = c :: cs ∧ ((∃ k' u r, munch c (cs ++ rest) = .tok k' (t ++ u) r) ∨
      (k = .Slash ∧ rest.head? = some '*')) := by
  by_cases hf : follows k rest = true
  · obtain ⟨c, cs, e, hm⟩ := munch_relex h hf
    exact ⟨c, cs, e, .inl ⟨k, [], rest, by simpa using hm⟩⟩
  cases rest with
  | nil => exact absurd rfl hf
  | cons d r =>
  have hs : sticks k d = true := by simpa [follows] using hf
  clear hf
  have word : firstIsWordStart t = true → ∃ c cs, t = c :: cs ∧
      ((∃ k' u r', munch c (cs ++ d :: r) = .tok k' (t ++ u) r') ∨
        (k = .Slash ∧ (d :: r).head? = some '*')) := by
    intro hw
    obtain ⟨c, cs, k', u, r', e, hm⟩ := munch_word_covers (d :: r) h hw
    exact ⟨c, cs, e, .inl ⟨k', u, r', hm⟩⟩
  have key : ∀ k ∈ Tok.all, k ≠ .Identifier → k ≠ .Bool → k ≠ .UInt → k ≠ .UReal → k ≠ .Colon →
      k ≠ .Equal → k ≠ .Gre → k ≠ .Les → k ≠ .Dot → k ≠ .Slash → k ≠ .LineComment →
      wordy k = true → ∀ t ∈ spelling k, firstIsWordStart t = true := by decide
  cases k
  case EOF => exact h.elim
  case Identifier =>
    rcases h with h | ⟨b, rfl, hb⟩
    · apply word
      have := h.1
      cases t with
      | nil => simp [isWord] at this
      | cons c cs => simp [isWord] at this; exact this.1
    · exact ⟨_, _, rfl, .inl ⟨.Identifier, [], d :: r, by
        simp [munch, munchQ_relex b (d :: r) hb, Munch.pre]⟩⟩
  case Bool => apply word; rcases h with rfl | rfl <;> decide
  case String => simp [sticks, wordy, spelling] at hs
  case BlockComment => simp [sticks, wordy, spelling] at hs
  case LineComment =>
    obtain ⟨b, rfl, hn, hr⟩ := h
    refine ⟨_, _, rfl, .inl ⟨.LineComment, (d :: r).takeWhile (fun c => !(c == '\r' || c == '\n')),
      (d :: r).dropWhile (fun c => !(c == '\r' || c == '\n')), ?_⟩⟩
    have ⟨h1, h2⟩ := takeWhile_append_all (p := fun c => !(c == '\r' || c == '\n')) (l := b)
      (r := d :: r) (by
        rw [List.all_eq_true]
        intro c hc
        have h1 : ¬ c = '\r' := by rintro rfl; exact hr hc
        have h2 : ¬ c = '\n' := by rintro rfl; exact hn hc
        simp [h1, h2])
    simp only [munch, List.cons_append, if_true]
    rw [← List.cons_append]
    simp only [Munch.pre, List.cons_append]
    rw [List.takeWhile_cons, List.dropWhile_cons, h1, h2]
    rfl
  case UInt =>
    obtain ⟨c, cs, rfl, h3, h4⟩ := digit_head h.1 h.2
    obtain ⟨k', u, r', hm⟩ := munchNum_uint_covers (d :: r) h4
    refine ⟨c, cs, rfl, .inl ⟨k', u, r', ?_⟩⟩
    rw [munch_other _ (digit_wordChar h3), isDigit_eq, if_pos h3, hm]
    rfl
  case UReal =>
    obtain ⟨ds, fr, ex, rfl, h1, h2, hfr, hex, hne⟩ := h
    obtain ⟨c, cs, rfl, h3, h4⟩ := digit_head h1 h2
    obtain ⟨k', u, r', hm⟩ := munchNum_ureal_covers (d :: r) h4 hfr hex hne
    refine ⟨c, cs ++ fr ++ ex, rfl, .inl ⟨k', u, r', ?_⟩⟩
    rw [munch_other _ (digit_wordChar h3), isDigit_eq, if_pos h3]
    simp only [List.append_assoc] at hm ⊢
    rw [hm]
    simp [Munch.pre]
  case Slash =>
    have ht : t = ['/'] := by have : some ['/'] = some t := h; simpa using this.symm
    subst ht
    refine ⟨_, _, rfl, ?_⟩
    simp only [sticks, Bool.or_eq_true, decide_eq_true_eq] at hs
    rcases hs with rfl | rfl
    · exact .inl ⟨_, _, _, rfl⟩
    · exact .inr ⟨rfl, rfl⟩
  case Colon =>
    have ht : t = [':'] := by have : some [':'] = some t := h; simpa using this.symm
    subst ht
    simp only [sticks, decide_eq_true_eq] at hs
    subst hs
    exact ⟨_, _, rfl, .inl ⟨_, ['='], _, rfl⟩⟩
  case Equal =>
    have ht : t = ['='] := by have : some ['='] = some t := h; simpa using this.symm
    subst ht
    simp only [sticks, decide_eq_true_eq] at hs
    subst hs
    exact ⟨_, _, rfl, .inl ⟨_, ['='], _, rfl⟩⟩
  case Gre =>
    have ht : t = ['>'] := by have : some ['>'] = some t := h; simpa using this.symm
    subst ht
    simp only [sticks, decide_eq_true_eq] at hs
    subst hs
    exact ⟨_, _, rfl, .inl ⟨_, ['='], _, rfl⟩⟩
  case Les =>
    have ht : t = ['<'] := by have : some ['<'] = some t := h; simpa using this.symm
    subst ht
    simp only [sticks, Bool.or_eq_true, decide_eq_true_eq] at hs
    rcases hs with rfl | rfl
    · exact ⟨_, _, rfl, .inl ⟨_, ['='], _, rfl⟩⟩
    · exact ⟨_, _, rfl, .inl ⟨_, ['>'], _, rfl⟩⟩
  case Dot =>
    have ht : t = ['.'] := by have : some ['.'] = some t := h; simpa using this.symm
    subst ht
    have hd : d = '+' ∨ d = '-' ∨ d = '*' ∨ d = '/' ∨ d = '^' := by simpa [sticks] using hs
    rcases hd with rfl | rfl | rfl | rfl | rfl
    · exact ⟨_, _, rfl, .inl ⟨_, ['+'], _, rfl⟩⟩
    · exact ⟨_, _, rfl, .inl ⟨_, ['-'], _, rfl⟩⟩
    · exact ⟨_, _, rfl, .inl ⟨_, ['*'], _, rfl⟩⟩
    · exact ⟨_, _, rfl, .inl ⟨_, ['/'], _, rfl⟩⟩
    · exact ⟨_, _, rfl, .inl ⟨_, ['^'], _, rfl⟩⟩
  all_goals
    have hw := hs
    unfold sticks at hw
    replace hw := (Bool.and_eq_true_iff.mp hw).1
    exact word (key _ (Tok.mem_all _) (by decide) (by decide) (by decide) (by decide) (by decide)
      (by decide) (by decide) (by decide) (by decide) (by decide) (by decide) hw t h)

/-- What the scanner finds is as long as possible. -/
theorem munch_longest {c : Char} {cs : Text} {k : Tok} {t r : Text} (h : munch c cs = .tok k t r) :
    Longest t r := by
  intro u v hu hr k' hk
  have hs := munch_split c cs
  rw [h] at hs
  simp only [Munch.text_tok, Munch.rest_tok] at hs
  obtain ⟨t0, ht⟩ := munch_text_ne c cs
  rw [h] at ht
  simp only [Munch.text_tok] at ht
  subst ht
  obtain ⟨d, ds, e, hm⟩ := munch_covers v hk
  simp only [List.cons_append, List.cons.injEq] at e hs
  obtain ⟨rfl, rfl⟩ := e
  have hcs : cs = t0 ++ u ++ v := by rw [← hs.2, hr]; simp
  rw [← hcs, h] at hm
  rcases hm with ⟨k'', u', r', hm⟩ | ⟨hk', _⟩
  · simp at hm
    exact hu hm.2.1.1
  · subst hk'
    have he : some ['/'] = some (c :: t0 ++ u) := hk
    simp at he
    exact hu he.2.2

theorem munch_slash {c : Char} {cs : Text} {t r : Text} (h : munch c cs = .tok .Slash t r) :
    r.head? ≠ some '*' := by
  have hc := munch_class h
  have ht : t = ['/'] := by have : some ['/'] = some t := hc; simpa using this.symm
  subst ht
  have hs := munch_split c cs
  rw [h] at hs
  simp only [Munch.text_tok, Munch.rest_tok, List.cons_append, List.nil_append, List.cons.injEq] at hs
  obtain ⟨rfl, rfl⟩ := hs
  intro hr
  cases r with
  | nil => simp at hr
  | cons d r =>
    simp at hr
    subst hr
    have : munch '/' ('*' :: r) = Munch.pre ['/'] (munchBlk ('*' :: r)) := rfl
    rw [this] at h
    obtain ⟨t', h1, _⟩ := pre_eq_tok h
    have := (munchBlk_class _ h1).1
    cases this

/-- The scanner finds the longest token. -/
theorem munch_of_longest {k : Tok} {t r : Text} (h : Class k t) (hl : Longest t r)
    (hs : k = .Slash → r.head? ≠ some '*') :
    ∃ c cs, t = c :: cs ∧ munch c (cs ++ r) = .tok k t r := by
  obtain ⟨c, cs, rfl, hm⟩ := munch_covers r h
  refine ⟨c, cs, rfl, ?_⟩
  rcases hm with ⟨k', u, r', hm⟩ | ⟨h1, h2⟩
  · have hc := munch_class hm
    have hsp := munch_split c (cs ++ r)
    rw [hm] at hsp
    simp at hsp
    cases u with
    | nil =>
      simp at hsp hm hc
      rw [hm, hsp, class_unique hc h]
    | cons a u => exact absurd hc (hl (a :: u) r' (by simp) (by simpa using hsp.symm) k')
  · exact absurd h2 (hs h1)

/-! ### Errors -/

theorem pre_eq_bad {m : Munch} {p : Text} {e t r : Text} (h : m.pre p = .bad e t r) :
    ∃ t', m = .bad e t' r ∧ t = p ++ t' := by
  cases m with
  | tok => simp [Munch.pre] at h
  | bad e' t' r' => simp [Munch.pre] at h; exact ⟨t', by simp [h], by simp [h]⟩

theorem munchStr_bad : ∀ (cs : Text) {e t r : Text}, munchStr cs = .bad e t r →
    e = c!"unclosed string" ∧ r = [] := by
  intro cs
  induction cs using munchStr.induct with
  | case1 c cs ih =>
    intro e t r h
    rw [munchStr] at h
    obtain ⟨t', h1, _⟩ := pre_eq_bad h
    exact ih h1
  | case2 => intro e t r h; simp [munchStr] at h; exact ⟨h.1.symm, h.2.2⟩
  | case3 cs => intro e t r h; simp [munchStr] at h
  | case4 c cs h1 h2 h3 ih =>
    intro e t r h
    rw [munchStr] at h
    · obtain ⟨t', h4, _⟩ := pre_eq_bad h
      exact ih h4
    · exact h1
    · exact h2
    · exact h3
  | case5 => intro e t r h; simp [munchStr] at h; exact ⟨h.1.symm, h.2.2⟩

theorem munchStr_open {b : Text} : munchStr b = .bad c!"unclosed string" b [] ↔
    ∀ p q, b = p ++ q → stringTail p = false := by
  constructor
  · intro h p q hb
    cases hp : stringTail p with
    | false => rfl
    | true => rw [hb, munchStr_relex p q hp] at h; cases h
  · intro h
    have hs := munchStr_split b
    cases hm : munchStr b with
    | tok k t r =>
      rw [hm] at hs
      have := h t r hs.symm
      rw [(munchStr_class b hm).2] at this
      cases this
    | bad e t r =>
      obtain ⟨rfl, rfl⟩ := munchStr_bad b hm
      rw [hm] at hs
      simp at hs
      rw [hs]

theorem munchBlk_bad : ∀ (cs : Text) {e t r : Text}, munchBlk cs = .bad e t r →
    e = c!"unclosed block comment" ∧ r = [] := by
  intro cs
  induction cs using munchBlk.induct with
  | case1 cs => intro e t r h; simp [munchBlk] at h
  | case2 => intro e t r h; simp [munchBlk] at h; exact ⟨h.1.symm, h.2.2⟩
  | case3 c cs h1 h2 ih =>
    intro e t r h
    rw [munchBlk] at h
    · obtain ⟨t', h4, _⟩ := pre_eq_bad h
      exact ih h4
    · exact h1
    · exact h2
  | case4 => intro e t r h; simp [munchBlk] at h; exact ⟨h.1.symm, h.2.2⟩

theorem commentTail_end : ∀ t : Text, commentTail t = true → ∃ m, t = m ++ ['*', '/'] := by
  intro t
  induction t using commentTail.induct with
  | case1 cs =>
    intro h
    simp only [commentTail, List.isEmpty_iff] at h
    exact ⟨[], by rw [h]; rfl⟩
  | case2 c cs h1 ih =>
    intro h
    rw [commentTail] at h
    · obtain ⟨m, rfl⟩ := ih h
      exact ⟨c :: m, rfl⟩
    · exact h1
  | case3 => intro h; simp [commentTail] at h

theorem munchBlk_found : ∀ p q : Text, ∃ t r, munchBlk (p ++ '*' :: '/' :: q) = .tok .BlockComment t r
  | [], q => ⟨_, _, by rw [List.nil_append, munchBlk]⟩
  | c :: p, q => by
    obtain ⟨t, r, h⟩ := munchBlk_found p q
    by_cases hc : ∃ cs, c = '*' ∧ p ++ '*' :: '/' :: q = '/' :: cs
    · obtain ⟨cs, rfl, e⟩ := hc
      exact ⟨_, _, by rw [List.cons_append, e, munchBlk]⟩
    · refine ⟨c :: t, r, ?_⟩
      rw [List.cons_append, munchBlk, h]
      · rfl
      · intro cs h1 h2; exact hc ⟨cs, h1, h2⟩
      · intro h1 h2; simp at h2

theorem munchBlk_open {b : Text} : munchBlk b = .bad c!"unclosed block comment" b [] ↔
    ∀ p q, b ≠ p ++ '*' :: '/' :: q := by
  constructor
  · rintro h p q rfl
    obtain ⟨t, r, h'⟩ := munchBlk_found p q
    rw [h] at h'
    cases h'
  · intro h
    have hs := munchBlk_split b
    cases hm : munchBlk b with
    | tok k t r =>
      rw [hm] at hs
      obtain ⟨m, rfl⟩ := commentTail_end t (munchBlk_class b hm).2
      exact absurd (by simpa using hs.symm) (h m r)
    | bad e t r =>
      obtain ⟨rfl, rfl⟩ := munchBlk_bad b hm
      rw [hm] at hs
      simp at hs
      rw [hs]

theorem munchQ_body : ∀ (b r : Text), quotedBody b = true → munchQ (b ++ r) = (munchQ r).pre b := by
  intro b
  induction b using quotedBody.induct with
  | case1 c cs ih =>
    intro r h
    simp only [quotedBody] at h
    simp [munchQ, ih r h, Munch.pre_pre]
  | case2 c cs h1 ih =>
    intro r h
    rw [quotedBody] at h
    · simp only [Bool.and_eq_true] at h
      have hc : ¬ c = '\\' := by rintro rfl; exact absurd h.1 (by decide)
      have hq : ¬ c = '\'' := by rintro rfl; exact absurd h.1 (by decide)
      rw [List.cons_append, munchQ, ih r h.2, qchar_eq, if_pos h.1, Munch.pre_pre]
      · rfl
      · intro d ds hd _; exact hc hd
      · intro hd _; exact hc hd
      · exact hq
    · exact h1
  | case3 => intro r _; rw [List.nil_append]; cases munchQ r <;> rfl

theorem munchQ_bad : ∀ (cs : Text) {e t r : Text}, munchQ cs = .bad e t r →
    (e = c!"unclosed Q-IDENT" ∧ r = [] ∧
      (quotedBody t = true ∨ ∃ m, t = m ++ ['\\'] ∧ quotedBody m = true)) ∨
    ∃ b c, t = b ++ [c] ∧ e = c!"unexpected character inside Q-IDENT: '" ++ [c] ++ c!"'" ∧
      quotedBody b = true ∧ quotedChar c = false ∧ c ≠ '\'' ∧ c ≠ '\\' := by
  intro cs
  have lift : ∀ (p : Text), (∀ b, quotedBody b = true → quotedBody (p ++ b) = true) →
      ∀ {e t r : Text}, ((e = c!"unclosed Q-IDENT" ∧ r = [] ∧
      (quotedBody t = true ∨ ∃ m, t = m ++ ['\\'] ∧ quotedBody m = true)) ∨
      ∃ b c, t = b ++ [c] ∧ e = c!"unexpected character inside Q-IDENT: '" ++ [c] ++ c!"'" ∧
      quotedBody b = true ∧ quotedChar c = false ∧ c ≠ '\'' ∧ c ≠ '\\') →
      ((e = c!"unclosed Q-IDENT" ∧ r = [] ∧
      (quotedBody (p ++ t) = true ∨ ∃ m, p ++ t = m ++ ['\\'] ∧ quotedBody m = true)) ∨
      ∃ b c, p ++ t = b ++ [c] ∧ e = c!"unexpected character inside Q-IDENT: '" ++ [c] ++ c!"'" ∧
      quotedBody b = true ∧ quotedChar c = false ∧ c ≠ '\'' ∧ c ≠ '\\') := by
    rintro p hp e t r (⟨h1, h2, h3 | ⟨m, rfl, h3⟩⟩ | ⟨b, c, rfl, h1, h2, h3⟩)
    · exact .inl ⟨h1, h2, .inl (hp t h3)⟩
    · exact .inl ⟨h1, h2, .inr ⟨p ++ m, by simp, hp m h3⟩⟩
    · exact .inr ⟨p ++ b, c, by simp, h1, hp b h2, h3⟩
  induction cs using munchQ.induct with
  | case1 c cs ih =>
    intro e t r h
    rw [munchQ] at h
    obtain ⟨t', h1, rfl⟩ := pre_eq_bad h
    exact lift ['\\', c] (fun b hb => by simp [quotedBody, hb]) (ih h1)
  | case2 =>
    intro e t r h
    simp [munchQ] at h
    obtain ⟨rfl, rfl, rfl⟩ := h
    exact .inl ⟨rfl, rfl, .inr ⟨[], rfl, rfl⟩⟩
  | case3 cs => intro e t r h; simp [munchQ] at h
  | case4 c cs h1 h2 h3 h4 ih =>
    intro e t r h
    rw [munchQ] at h
    · rw [if_pos h4] at h
      obtain ⟨t', h5, rfl⟩ := pre_eq_bad h
      refine lift [c] (fun b hb => ?_) (ih h5)
      rw [List.singleton_append, quotedBody]
      · rw [hb, ← qchar_eq, h4]; rfl
      · intro d ds hd hds
        subst hd
        exact absurd h4 (by decide)
    · exact h1
    · exact h2
    · exact h3
  | case5 c cs h1 h2 h3 h4 =>
    intro e t r h
    rw [munchQ] at h
    · rw [if_neg h4] at h
      simp only [Munch.bad.injEq] at h
      obtain ⟨rfl, rfl, rfl⟩ := h
      refine .inr ⟨[], c, rfl, rfl, rfl, ?_, h3, ?_⟩
      · rw [← qchar_eq]; simpa using h4
      · rintro rfl
        cases cs with
        | nil => exact h2 rfl rfl
        | cons d ds => exact h1 d ds rfl rfl
    · exact h1
    · exact h2
    · exact h3
  | case6 =>
    intro e t r h
    simp [munchQ] at h
    obtain ⟨rfl, rfl, rfl⟩ := h
    exact .inl ⟨rfl, rfl, .inl rfl⟩

/-- What the scanner finds where no token starts. -/
theorem munch_bad {c : Char} {cs e t r : Text} (hw : isWs c = false) (h : munch c cs = .bad e t r) :
    ∃ p : Chunk, p.Before r ∧ p.text = t ∧ p.problem = some e := by
  have hsp := munch_split c cs
  rw [h] at hsp
  have hm := h
  unfold munch at h
  obtain ⟨t', h1, rfl⟩ := pre_eq_bad h
  clear h
  simp only [Munch.text_bad, Munch.rest_bad, List.cons_append, List.nil_append, List.cons.injEq,
    true_and] at hsp
  have hop : ∀ tb d, munchOp tb d cs ≠ .bad e t' r := by
    intro tb d h
    unfold munchOp at h
    split at h
    · cases h
    · split at h <;> cases h
  split at h1
  case h_13 => exact absurd h1 (hop _ _)
  case h_14 => exact absurd h1 (hop _ _)
  case h_15 => exact absurd h1 (hop _ _)
  case h_16 => exact absurd h1 (hop _ _)
  case h_17 => exact absurd h1 (hop _ _)
  case h_18 =>
    obtain ⟨rfl, rfl⟩ := munchStr_bad _ h1
    rw [List.append_nil] at hsp
    subst hsp
    exact ⟨.openString t', ⟨rfl, munchStr_open.mp h1⟩, rfl, rfl⟩
  case h_19 =>
    rcases munchQ_bad _ h1 with ⟨rfl, rfl, h2⟩ | ⟨b, c, rfl, rfl, h2⟩
    · exact ⟨.openQuoted t', ⟨rfl, h2⟩, rfl, rfl⟩
    · exact ⟨.broken b c, h2, rfl, rfl⟩
  case h_20 =>
    split at h1
    · cases h1
    · rename_i d r'
      split at h1
      · cases h1
      · split at h1
        · rename_i hd
          subst hd
          obtain ⟨rfl, rfl⟩ := munchBlk_bad _ h1
          rw [List.append_nil] at hsp
          subst hsp
          exact ⟨.openComment r', ⟨rfl, munchBlk_open.mp h1⟩, rfl, rfl⟩
        · cases h1
  case h_21 =>
    split at h1
    · unfold munchNum at h1
      dsimp only at h1
      split at h1
      · cases h1
      · split at h1
        · cases h1
        · split at h1 <;> cases h1
    · split at h1
      · cases h1
      · rename_i hnd hna
        simp only [Munch.bad.injEq] at h1
        obtain ⟨rfl, rfl, rfl⟩ := h1
        refine ⟨.stray c, ⟨by rw [← isWs_eq]; exact hw, ?_⟩, rfl, rfl⟩
        intro k t hc
        obtain ⟨d, ds, e, hcov⟩ := munch_covers [] hc
        simp only [List.cons.injEq] at e
        obtain ⟨rfl, rfl⟩ := e
        rcases hcov with ⟨k', u, r', hcov⟩ | ⟨_, h⟩
        · have : munch c (t ++ []) = .bad (c!"unexpected character: '" ++ [c] ++ c!"'") [c] (t ++ []) := by
            unfold munch
            split
            case h_21 => simp [hnd, hna, Munch.pre]
            all_goals (exfalso; simp_all)
          rw [this] at hcov
          cases hcov
        · cases h
  all_goals cases h1

def pieceItem (p : Chunk) : Item :=
  match p with
  | .token k t => .tok k t
  | p => .bad (p.problem.getD []) p.text

/-- The scanner finds the piece that may stand before the rest. -/
theorem munch_piece {p : Chunk} {r : Text} (h : p.Before r) :
    ∃ c cs, p.text = c :: cs ∧ isWs c = false ∧ (munch c (cs ++ r)).item = pieceItem p ∧
      (munch c (cs ++ r)).rest = r := by
  cases p with
  | token k t =>
    obtain ⟨h1, h2, h3⟩ := h
    obtain ⟨c, cs, e, hm⟩ := munch_of_longest h1 h2 h3
    obtain ⟨c', cs', e', hw⟩ := class_head h1
    rw [e] at e'
    simp only [List.cons.injEq] at e'
    exact ⟨c, cs, e, e'.1 ▸ hw, by rw [hm]; rfl, by rw [hm]; rfl⟩
  | stray c =>
    have hw : isWs c = false := by rw [isWs_eq]; exact h.1
    have hm : munch c r = .bad (c!"unexpected character: '" ++ [c] ++ c!"'") [c] r := by
      cases hm : munch c r with
      | tok k t r' =>
        obtain ⟨t0, ht⟩ := munch_text_ne c r
        rw [hm] at ht
        have := munch_class hm
        rw [show t = c :: t0 from ht] at this
        exact absurd this (h.2 _ _)
      | bad e t r' =>
        obtain ⟨p, h1, h2, h3⟩ := munch_bad hw hm
        have hs := munch_split c r
        rw [hm, Munch.text_bad, Munch.rest_bad] at hs
        subst h2
        cases p with
        | token k t => cases h3
        | stray c' =>
          simp only [Chunk.text, List.cons_append, List.nil_append, List.cons.injEq] at hs
          obtain ⟨rfl, rfl⟩ := hs
          simp only [Chunk.problem, Option.some.injEq] at h3
          rw [← h3]
          rfl
        | broken b c' =>
          simp only [Chunk.text, List.cons_append, List.cons.injEq] at hs
          exact absurd (show Class .Identifier (c :: ['\'']) from Or.inr ⟨['\''], by rw [← hs.1], rfl⟩) (h.2 _ _)
        | openQuoted b =>
          simp only [Chunk.text, List.cons_append, List.cons.injEq] at hs
          exact absurd (show Class .Identifier (c :: ['\'']) from Or.inr ⟨['\''], by rw [← hs.1], rfl⟩) (h.2 _ _)
        | openString b =>
          simp only [Chunk.text, List.cons_append, List.cons.injEq] at hs
          exact absurd (show Class .String (c :: ['"']) from ⟨['"'], by rw [← hs.1], rfl⟩) (h.2 _ _)
        | openComment b =>
          simp only [Chunk.text, List.cons_append, List.cons.injEq] at hs
          exact absurd (show Class .Slash [c] by rw [← hs.1]; rfl) (h.2 _ _)
    exact ⟨c, [], rfl, hw, by rw [List.nil_append, hm]; rfl, by rw [List.nil_append, hm]; rfl⟩
  | broken b c =>
    obtain ⟨h1, h2, h3, h4⟩ := h
    have hm : munchQ (b ++ [c] ++ r) =
        .bad (c!"unexpected character inside Q-IDENT: '" ++ [c] ++ c!"'") (b ++ [c]) r := by
      rw [List.append_assoc, munchQ_body b _ h1, List.singleton_append, munchQ, qchar_eq, h2]
      · rfl
      · intro d ds hd _; exact h4 hd
      · intro hd _; exact h4 hd
      · exact h3
    have hm' : munch '\'' (b ++ [c] ++ r) = Munch.pre ['\''] (munchQ (b ++ [c] ++ r)) := rfl
    rw [hm] at hm'
    exact ⟨'\'', b ++ [c], rfl, rfl, by rw [hm']; rfl, by rw [hm']; rfl⟩
  | openString b =>
    obtain ⟨rfl, h⟩ := h
    have hm' : munch '"' (b ++ []) = Munch.pre ['"'] (munchStr b) := by rw [List.append_nil]; rfl
    rw [munchStr_open.mpr h] at hm'
    exact ⟨'"', b, rfl, rfl, by rw [hm']; rfl, by rw [hm']; rfl⟩
  | openQuoted b =>
    obtain ⟨rfl, h⟩ := h
    have hm' : munch '\'' (b ++ []) = Munch.pre ['\''] (munchQ b) := by rw [List.append_nil]; rfl
    have hm : munchQ b = .bad c!"unclosed Q-IDENT" b [] := by
      rcases h with h | ⟨m, rfl, h⟩
      · have := munchQ_body b [] h
        rw [List.append_nil] at this
        rw [this, munchQ]
        simp [Munch.pre]
      · rw [munchQ_body m _ h, munchQ]
        rfl
    rw [hm] at hm'
    exact ⟨'\'', b, rfl, rfl, by rw [hm']; rfl, by rw [hm']; rfl⟩
  | openComment b =>
    obtain ⟨rfl, h⟩ := h
    have hm' : munch '/' ('*' :: b ++ []) = Munch.pre ['/'] (munchBlk ('*' :: b)) := by
      rw [List.append_nil]; rfl
    rw [munchBlk_open.mpr h] at hm'
    exact ⟨'/', '*' :: b, rfl, rfl, by rw [hm']; rfl, by rw [hm']; rfl⟩

/-! ### Whole texts -/

theorem ws_all {w : Text} : w.all ws = w.all isWs := by rw [isWs_eq]

theorem divided_ws {w r : Text} {ps : List (Text × Chunk)} (hw : w.all ws = true) (h : Divided r ps) :
    ∃ ps', Divided (w ++ r) ps' := by
  cases h with
  | done h => exact ⟨[], .done (by simp only [List.all_append, hw, h, Bool.and_self])⟩
  | next h1 h2 h3 =>
    rw [← List.append_assoc, ← List.append_assoc]
    exact ⟨_, .next (by simp only [List.all_append, hw, h1, Bool.and_self]) h2 h3⟩

/-- Every text can be divided. -/
theorem divided_exists (cs : Text) : ∃ ps, Divided cs ps := by
  induction cs using items_induct with
  | nil => exact ⟨[], .done rfl⟩
  | ws c cs hc ih =>
    obtain ⟨ps, ih⟩ := ih
    have e : c :: cs = (c :: cs.takeWhile isWs) ++ cs.dropWhile isWs := by
      simp [List.takeWhile_append_dropWhile]
    rw [e]
    exact divided_ws (w := c :: cs.takeWhile isWs)
      (by rw [ws_all]; simp only [List.all_cons, hc, all_takeWhile, Bool.and_self]) ih
  | munch c cs hc ih =>
    obtain ⟨ps, ih⟩ := ih
    have hsp := munch_split c cs
    cases hm : munch c cs with
    | bad e t r =>
      rw [hm] at ih hsp
      obtain ⟨p, h1, rfl, _⟩ := munch_bad hc hm
      have e : c :: cs = [] ++ p.text ++ r := by simpa using hsp.symm
      rw [e]
      exact ⟨_, .next rfl h1 ih⟩
    | tok k t r =>
      rw [hm] at ih hsp
      have e : c :: cs = [] ++ (Chunk.token k t).text ++ r := by simpa [Chunk.text] using hsp.symm
      rw [e]
      exact ⟨_, .next rfl ⟨munch_class hm, munch_longest hm, by rintro rfl; exact munch_slash hm⟩ ih⟩

def pieceItems : List (Text × Chunk) → Text → List Item
  | [], tail => wsItem tail
  | x :: ps, tail => wsItem x.1 ++ pieceItem x.2 :: pieceItems ps tail

/-- A text that can be divided has these pieces. -/
theorem divided_items {cs : Text} {ps : List (Text × Chunk)} (h : Divided cs ps) :
    ∃ tail, items cs = pieceItems ps tail := by
  induction h with
  | @done w hw =>
    rw [ws_all] at hw
    have := items_ws_then (r := []) hw (by simp)
    rw [List.append_nil] at this
    exact ⟨w, by rw [this]; simp [pieceItems]⟩
  | @next w r p ps hw hp _ ih =>
    rw [ws_all] at hw
    obtain ⟨tail, ih⟩ := ih
    obtain ⟨c, cs, e, hn, hi, hr⟩ := munch_piece hp
    refine ⟨tail, ?_⟩
    rw [List.append_assoc, e, items_ws_then hw (by simpa using hn), List.cons_append, items_munch _ hn,
      hi, hr, ih]
    rfl

theorem pieceItem_inj {p q : Chunk} (h : pieceItem p = pieceItem q) : p = q := by
  cases p <;> cases q <;> simp_all [pieceItem, Chunk.problem, Chunk.text]

theorem pieceItem_ne_ws {p : Chunk} {w : Text} : pieceItem p ≠ .ws w := by
  cases p <;> simp [pieceItem]

theorem pieceItems_inj : ∀ (ps qs : List (Text × Chunk)) (a b : Text),
    pieceItems ps a = pieceItems qs b → ps = qs
  | [], [], _, _, _ => rfl
  | [], y :: qs, a, b, h => by
    exfalso
    simp only [pieceItems, wsItem] at h
    split at h <;> split at h <;> simp at h
    · exact pieceItem_ne_ws h.1.symm
  | x :: ps, [], a, b, h => by
    exfalso
    simp only [pieceItems, wsItem] at h
    split at h <;> split at h <;> simp at h
    · exact pieceItem_ne_ws h.1
  | x :: ps, y :: qs, a, b, h => by
    simp only [pieceItems, wsItem] at h
    have : x.1 = y.1 ∧ pieceItem x.2 = pieceItem y.2 ∧ pieceItems ps a = pieceItems qs b := by
      split at h <;> split at h <;> simp at h
      · rename_i h1 h2; exact ⟨by rw [h1, h2], h⟩
      · exact absurd h.1 pieceItem_ne_ws
      · exact absurd h.1.symm pieceItem_ne_ws
      · exact h
    rw [pieceItems_inj ps qs a b this.2.2]
    congr 1
    exact Prod.ext this.1 (pieceItem_inj this.2.1)

theorem endsAscii_eq (t : Text) : endsAscii t = asciiEnd t := by
  unfold endsAscii asciiEnd
  cases t.getLast? with
  | none => rfl
  | some c => rfl

theorem asciiEnd_ws_eq {pre w : Text} (h : w.all isWs = true) :
    asciiEnd (pre ++ w) = (asciiEnd pre || !w.isEmpty) := by
  cases w with
  | nil => simp
  | cons a w => rw [asciiEnd_append (by simp), isWs_ascii h]; simp

theorem piece_text_ne (p : Chunk) {r : Text} (h : p.Before r) : p.text ≠ [] := by
  obtain ⟨c, cs, e, _⟩ := munch_piece h
  rw [e]; simp

theorem errorText_pos (name : Text) (pre m : Text) :
    errorText name (posAfter pre) m = errorText name (position pre) m := rfl

/-- What the lexer makes of the pieces. -/
theorem emit_pieces {name : Text} {cs : Text} {ps : List (Text × Chunk)} (h : Divided cs ps) :
    ∀ (tail pre : Text) (i : Nat), emit name pre i (pieceItems ps tail) =
      if awkward (!asciiEnd pre) ps then .panic .slice
      else .ok (lexemes pre i ps, problems name pre ps) := by
  induction h with
  | @done w hw =>
    intro tail pre i
    have := emit_wsItem (name := name) (pre := pre) (i := i) (w := tail) (r := [])
    simp only [List.append_nil] at this
    rw [pieceItems, this]
    rfl
  | @next w r p ps hw hp _ ih =>
    intro tail pre i
    rw [ws_all] at hw
    rw [pieceItems, emit_wsItem]
    have hne := piece_text_ne p hp
    have bad : ∀ m, pieceItem p = .bad m p.text → p.problem = some m →
        (∀ a ps, awkward a ((w, p) :: ps) = awkward (!endsAscii p.text) ps) →
        (∀ pre i ps, lexemes pre i ((w, p) :: ps) = lexemes (pre ++ w ++ p.text) i ps) →
        emit name (pre ++ w) i (pieceItem p :: pieceItems ps tail) =
        if awkward (!asciiEnd pre) ((w, p) :: ps) then .panic .slice
        else .ok (lexemes pre i ((w, p) :: ps), problems name pre ((w, p) :: ps)) := by
      intro m h1 h2 h3 h4
      rw [h1, emit, ih, h3, h4, endsAscii_eq, asciiEnd_append hne]
      split
      · rfl
      · simp only [Res.bind, problems, h2, errorText_pos]
        rfl
    cases p with
    | token k t =>
      simp only [pieceItem, emit, asciiEnd_ws_eq hw, ih, awkward, endsAscii_eq, lexemes, problems,
        Chunk.problem, Chunk.text, List.nil_append]
      have e : asciiEnd (pre ++ w ++ t) = asciiEnd t := asciiEnd_append hne
      rw [e]
      cases h1 : asciiEnd pre <;> cases h2 : asciiEnd t <;> cases h3 : w.isEmpty <;> simp
      all_goals
        have hp1 : asciiEnd (pre ++ w) = true := by rw [asciiEnd_ws_eq hw, h1, h3]; rfl
        have hp2 : asciiEnd (pre ++ w ++ t) = true := by rw [e, h2]
        rw [List.append_assoc] at hp2
        split
        · rfl
        · simp [Res.bind, posAfter_eq hp1, posAfter_eq hp2]
    | stray c => exact bad _ rfl rfl (fun _ _ => rfl) (fun _ _ _ => rfl)
    | broken b c => exact bad _ rfl rfl (fun _ _ => rfl) (fun _ _ _ => rfl)
    | openString b => exact bad _ rfl rfl (fun _ _ => rfl) (fun _ _ _ => rfl)
    | openQuoted b => exact bad _ rfl rfl (fun _ _ => rfl) (fun _ _ _ => rfl)
    | openComment b => exact bad _ rfl rfl (fun _ _ => rfl) (fun _ _ _ => rfl)

end Mofmt
