import Verif.Proofs.LexSpec
/-
Lexical classes: the scanner finds exactly the texts of the specification.
-/
namespace Mofmt
open Lexical

theorem isDigit_eq : isDigit = digit := by
  funext c
  simp only [isDigit, digit, Char.le_def, UInt32.le_iff_toNat_le, Bool.decide_and]
  rfl

theorem isAlpha_eq : isAlpha = letter := by
  funext c
  simp only [isAlpha, letter, Char.le_def, UInt32.le_iff_toNat_le, Bool.decide_and, Bool.decide_or]
  rfl

theorem isWordChar_eq : isWordChar = wordChar := by
  funext c
  simp only [isWordChar, wordChar, isAlpha_eq, isDigit_eq]
  cases hc : decide (c = '_') <;> simp_all

theorem isWs_eq : isWs = ws := by
  funext c
  simp [isWs, ws, Bool.or_assoc]
  rfl

theorem all_takeWhile (p : Char → Bool) (l : Text) : (l.takeWhile p).all p = true := by
  induction l with
  | nil => rfl
  | cons c l ih =>
    rw [List.takeWhile_cons]
    split
    · simp_all
    · rfl

/-! ### Words -/

theorem find_key {l : List (Text × Tok)} {w : Text} {k : Tok}
    (h : (l.find? (·.1 == w)).map (·.2) = some k) : (w, k) ∈ l := by
  cases hf : l.find? (·.1 == w) with
  | none => simp [hf] at h
  | some x =>
    have h1 := List.mem_of_find?_eq_some hf
    have h2 := List.find?_some hf
    simp [hf] at h
    simp at h2
    subst h2
    subst h
    exact h1

/-- The keyword table agrees with the specification. -/
theorem keywords_class : ∀ x ∈ keywords, (x.2 = .Bool ∧ (x.1 = c!"true" ∨ x.1 = c!"false")) ∨
    spelling x.2 = some x.1 := by
  decide

theorem keywords_reserved {w : Text} {k : Tok} (h : (w, k) ∈ keywords) : reserved w := by
  rcases keywords_class _ h with ⟨_, h1 | h1⟩ | h1
  · exact Or.inl h1
  · exact Or.inr (Or.inl h1)
  · exact Or.inr (Or.inr ⟨k, h1⟩)

theorem Tok.mem_all (k : Tok) : k ∈ Tok.all := by cases k <;> decide

def firstIsWordStart (w : Text) : Bool := match w with | c :: _ => wordStart c | [] => false

/-- Every reserved word is in the keyword table. -/
theorem reserved_keyword {w : Text} (h : reserved w) (hw : firstIsWordStart w = true) :
    ∃ k, wordKind w = k ∧ Class k w ∧ k ≠ .Identifier := by
  rcases h with h | h | ⟨k, h⟩
  · subst h; exact ⟨.Bool, by decide, Or.inl rfl, by decide⟩
  · subst h; exact ⟨.Bool, by decide, Or.inr rfl, by decide⟩
  · have : ∀ k ∈ Tok.all, ∀ w ∈ spelling k, firstIsWordStart w = true → wordKind w = k ∧
        k ≠ .Identifier := by
      decide
    have h2 := this k (Tok.mem_all k) w h hw
    refine ⟨k, h2.1, ?_, h2.2⟩
    cases k <;> first | exact h | simp [spelling] at h

theorem wordKind_class {w : Text} (hw : isWord w = true) : Class (wordKind w) w := by
  cases h : (keywords.find? (·.1 == w)).map (·.2) with
  | none =>
    have hk : wordKind w = .Identifier := by simp [wordKind, h]
    rw [hk]
    refine Or.inl ⟨hw, ?_⟩
    intro hr
    have hf : firstIsWordStart w = true := by
      cases w with
      | nil => simp [isWord] at hw
      | cons c cs => simp [isWord] at hw; exact hw.1
    obtain ⟨k, h1, _, h3⟩ := reserved_keyword hr hf
    exact h3 (h1 ▸ hk)
  | some k =>
    have hk : wordKind w = k := by simp [wordKind, h]
    rw [hk]
    rcases keywords_class _ (find_key h) with ⟨h1, h2⟩ | h2
    · simp only at h1 h2; subst h1; exact h2
    · simp only at h2
      cases k <;> first | exact h2 | simp [spelling] at h2

/-- Kinds whose text is a word. -/
def wordy (k : Tok) : Bool := match k with
  | .Identifier | .Bool => true
  | k => match spelling k with | some w => firstIsWordStart w | none => false

theorem class_wordKind {k : Tok} {w : Text} (h : Class k w) (hw : firstIsWordStart w = true) :
    isWord w = true ∧ wordKind w = k := by
  have key : ∀ k ∈ Tok.all, ∀ w ∈ spelling k, firstIsWordStart w = true → isWord w = true ∧
      wordKind w = k := by decide
  cases k
  case Identifier =>
    rcases h with ⟨h1, h2⟩ | ⟨b, rfl, _⟩
    · refine ⟨h1, ?_⟩
      cases hf : (keywords.find? (·.1 == w)).map (·.2) with
      | none => simp [wordKind, hf]
      | some k => exact absurd (keywords_reserved (find_key hf)) h2
    · simp [firstIsWordStart, wordStart] at hw
      exact absurd hw (by decide)
  case Bool => rcases h with rfl | rfl <;> decide
  case EOF => exact h.elim
  case String => obtain ⟨b, rfl, _⟩ := h; exact absurd hw (by simp [firstIsWordStart]; decide)
  case UInt =>
    obtain ⟨h1, h2⟩ := h
    cases w with
    | nil => simp at h1
    | cons c cs =>
      simp [firstIsWordStart, wordStart] at hw h2
      exfalso
      have := h2.1
      simp [digit, letter, Char.le_def, UInt32.le_iff_toNat_le] at this hw
      rcases hw with hw | hw
      · omega
      · subst hw; revert this; decide
  case UReal =>
    obtain ⟨ds, fr, ex, rfl, h1, h2, _⟩ := h
    cases ds with
    | nil => simp at h1
    | cons c cs =>
      simp [firstIsWordStart, wordStart] at hw h2
      exfalso
      have := h2.1
      simp [digit, letter, Char.le_def, UInt32.le_iff_toNat_le] at this hw
      rcases hw with hw | hw
      · omega
      · subst hw; revert this; decide
  case LineComment => obtain ⟨b, rfl, _⟩ := h; exact absurd hw (by simp [firstIsWordStart]; decide)
  case BlockComment => obtain ⟨b, rfl, _⟩ := h; exact absurd hw (by simp [firstIsWordStart]; decide)
  all_goals exact key _ (Tok.mem_all _) w h hw

/-! ### Strings, quoted identifiers, block comments -/

theorem pre_eq_tok {m : Munch} {p : Text} {k : Tok} {t r : Text} (h : m.pre p = .tok k t r) :
    ∃ t', m = .tok k t' r ∧ t = p ++ t' := by
  cases m with
  | tok k' t' r' => simp [Munch.pre] at h; exact ⟨t', by simp [h], by simp [h]⟩
  | bad => simp [Munch.pre] at h

theorem munchStr_class : ∀ (cs : Text) {k : Tok} {t r : Text}, munchStr cs = .tok k t r →
    k = .String ∧ stringTail t = true := by
  intro cs
  induction cs using munchStr.induct with
  | case1 c cs ih =>
    intro k t r h
    rw [munchStr] at h
    obtain ⟨t', h1, rfl⟩ := pre_eq_tok h
    obtain ⟨h2, h3⟩ := ih h1
    exact ⟨h2, by simp [stringTail, h3]⟩
  | case2 => intro k t r h; simp [munchStr] at h
  | case3 cs => intro k t r h; simp [munchStr] at h; obtain ⟨rfl, rfl, _⟩ := h; exact ⟨rfl, rfl⟩
  | case4 c cs h1 h2 h3 ih =>
    intro k t r h
    rw [munchStr] at h
    · obtain ⟨t', h4, rfl⟩ := pre_eq_tok h
      obtain ⟨h5, h6⟩ := ih h4
      refine ⟨h5, ?_⟩
      rw [List.singleton_append, stringTail]
      · exact h6
      · intro d ds hd hds
        subst hd
        cases cs with
        | nil => exact h2 rfl rfl
        | cons e es => exact h1 e es rfl rfl
      · exact h3
    · exact h1
    · exact h2
    · exact h3
  | case5 => intro k t r h; simp [munchStr] at h

theorem munchStr_relex : ∀ (t : Text) (r : Text), stringTail t = true →
    munchStr (t ++ r) = .tok .String t r := by
  intro t
  induction t using stringTail.induct with
  | case1 c cs ih =>
    intro r h
    simp only [stringTail] at h
    simp [munchStr, ih r h, Munch.pre]
  | case2 cs =>
    intro r h
    simp only [stringTail, List.isEmpty_iff] at h
    subst h
    simp [munchStr]
  | case3 c cs h1 h2 ih =>
    intro r h
    rw [stringTail] at h
    · rw [List.cons_append, munchStr, ih r h]
      · rfl
      · intro d ds hd hds
        subst hd
        cases cs with
        | nil => simp [stringTail] at h
        | cons e es => exact h1 e es rfl rfl
      · intro hd hds
        simp at hds
        rw [hds.1] at h
        simp [stringTail] at h
      · exact h2
    · exact h1
    · exact h2
  | case4 => intro r h; simp [stringTail] at h

theorem qchar_eq (c : Char) : (isWordChar c || qidentAllowed.contains c) = quotedChar c := by
  rw [isWordChar_eq]; rfl

theorem munchQ_class : ∀ (cs : Text) {k : Tok} {t r : Text}, munchQ cs = .tok k t r →
    k = .Identifier ∧ quotedTail t = true := by
  intro cs
  induction cs using munchQ.induct with
  | case1 c cs ih =>
    intro k t r h
    rw [munchQ] at h
    obtain ⟨t', h1, rfl⟩ := pre_eq_tok h
    obtain ⟨h2, h3⟩ := ih h1
    exact ⟨h2, by simp [quotedTail, h3]⟩
  | case2 => intro k t r h; simp [munchQ] at h
  | case3 cs => intro k t r h; simp [munchQ] at h; obtain ⟨rfl, rfl, _⟩ := h; exact ⟨rfl, rfl⟩
  | case4 c cs h1 h2 h3 h4 ih =>
    intro k t r h
    rw [munchQ] at h
    · rw [if_pos h4] at h
      obtain ⟨t', h5, rfl⟩ := pre_eq_tok h
      obtain ⟨h6, h7⟩ := ih h5
      refine ⟨h6, ?_⟩
      rw [List.singleton_append, quotedTail]
      · rw [h7, ← qchar_eq, h4]; rfl
      · intro d ds hd hds
        subst hd
        exact absurd h4 (by decide)
      · exact h3
    · exact h1
    · exact h2
    · exact h3
  | case5 c cs h1 h2 h3 h4 =>
    intro k t r h
    rw [munchQ] at h
    · rw [if_neg h4] at h; simp at h
    · exact h1
    · exact h2
    · exact h3
  | case6 => intro k t r h; simp [munchQ] at h

theorem munchQ_relex : ∀ (t : Text) (r : Text), quotedTail t = true →
    munchQ (t ++ r) = .tok .Identifier t r := by
  intro t
  induction t using quotedTail.induct with
  | case1 c cs ih =>
    intro r h
    simp only [quotedTail] at h
    simp [munchQ, ih r h, Munch.pre]
  | case2 cs =>
    intro r h
    simp only [quotedTail, List.isEmpty_iff] at h
    subst h
    simp [munchQ]
  | case3 c cs h1 h2 ih =>
    intro r h
    rw [quotedTail] at h
    · simp only [Bool.and_eq_true] at h
      have hc : ¬ c = '\\' := by
        intro hc; subst hc; exact absurd h.1 (by decide)
      rw [List.cons_append, munchQ, ih r h.2, qchar_eq, if_pos h.1]
      · rfl
      · intro d ds hd _; exact hc hd
      · intro hd _; exact hc hd
      · exact h2
    · exact h1
    · exact h2
  | case4 => intro r h; simp [quotedTail] at h

theorem munchBlk_class : ∀ (cs : Text) {k : Tok} {t r : Text}, munchBlk cs = .tok k t r →
    k = .BlockComment ∧ commentTail t = true := by
  intro cs
  induction cs using munchBlk.induct with
  | case1 cs => intro k t r h; simp [munchBlk] at h; obtain ⟨rfl, rfl, _⟩ := h; exact ⟨rfl, rfl⟩
  | case2 => intro k t r h; simp [munchBlk] at h
  | case3 c cs h1 h2 ih =>
    intro k t r h
    rw [munchBlk] at h
    · obtain ⟨t', h4, rfl⟩ := pre_eq_tok h
      obtain ⟨h5, h6⟩ := ih h4
      refine ⟨h5, ?_⟩
      rw [List.singleton_append, commentTail]
      · exact h6
      · intro ds hd hds
        subst hd hds
        have hsp : ('/' :: ds) ++ r = cs := by
          have := munchBlk_split cs
          rw [h4] at this
          exact this
        exact h1 (ds ++ r) rfl hsp.symm
    · exact h1
    · exact h2
  | case4 => intro k t r h; simp [munchBlk] at h

theorem munchBlk_relex : ∀ (t : Text) (r : Text), commentTail t = true →
    munchBlk (t ++ r) = .tok .BlockComment t r := by
  intro t
  induction t using commentTail.induct with
  | case1 cs =>
    intro r h
    simp only [commentTail, List.isEmpty_iff] at h
    subst h
    simp [munchBlk]
  | case2 c cs h1 ih =>
    intro r h
    rw [commentTail] at h
    · rw [List.cons_append, munchBlk, ih r h]
      · rfl
      · intro ds hd hds
        subst hd
        cases cs with
        | nil => simp [commentTail] at h
        | cons e es =>
          simp at hds
          rw [hds.1] at h1
          exact h1 es rfl rfl
      · intro hd hds
        simp at hds
        rw [hds.1] at h
        simp [commentTail] at h
    · exact h1
  | case3 => intro r h; simp [commentTail] at h

/-! ### Numbers -/

theorem expo_class (cs : Text) : Exponent (expo cs).1 := by
  unfold expo
  split
  · rename_i c cs
    split
    · rename_i hc
      split
      · rename_i d ds
        split
        · rename_i hd
          refine Or.inr ⟨c, [d], ds.takeWhile isDigit, rfl, hc, ?_, ?_⟩
          · rcases hd with rfl | rfl <;> simp
          · rw [isDigit_eq]; exact all_takeWhile _ _
        · refine Or.inr ⟨c, [], (d :: ds).takeWhile isDigit, rfl, hc, Or.inl rfl, ?_⟩
          rw [isDigit_eq]; exact all_takeWhile _ _
      · exact Or.inr ⟨c, [], [], rfl, hc, Or.inl rfl, rfl⟩
    · exact Or.inl rfl
  · exact Or.inl rfl

theorem munchNum_class {c : Char} (hc : digit c = true) {cs : Text} {k : Tok} {t r : Text}
    (h : munchNum cs = .tok k t r) : Class k (c :: t) := by
  unfold munchNum at h
  have hd : (cs.takeWhile isDigit).all digit = true := by rw [isDigit_eq]; exact all_takeWhile _ _
  dsimp only at h
  split at h
  · simp at h
    obtain ⟨rfl, rfl, _⟩ := h
    exact ⟨by simp, by simp only [List.all_cons, hc, hd]; rfl⟩
  · rename_i c' r' _
    split at h
    · simp at h
      obtain ⟨rfl, rfl, _⟩ := h
      refine ⟨c :: cs.takeWhile isDigit, '.' :: r'.takeWhile isDigit,
        (expo (r'.dropWhile isDigit)).1, by simp, by simp, by simp only [List.all_cons, hc, hd]; rfl,
        Or.inr ⟨_, rfl, ?_⟩, expo_class _, Or.inl (by simp)⟩
      rw [isDigit_eq]; exact all_takeWhile _ _
    · split at h
      · simp at h
        obtain ⟨rfl, rfl, _⟩ := h
        exact ⟨by simp, by simp only [List.all_cons, hc, hd]; rfl⟩
      · rename_i he
        simp at h
        obtain ⟨rfl, rfl, _⟩ := h
        exact ⟨c :: cs.takeWhile isDigit, [], (expo (c' :: r')).1, by simp, by simp,
          by simp only [List.all_cons, hc, hd]; rfl, Or.inl rfl, expo_class _, Or.inr he⟩

/-! ### All kinds -/

theorem munchOp_class {tb : List (Char × Tok)} {d : Tok} {cs : Text} {k : Tok} {t r : Text} {c : Char}
    (h : munchOp tb d cs = .tok k t r) (h0 : Class d [c])
    (h1 : ∀ x ∈ tb, Class x.2 [c, x.1]) : Class k (c :: t) := by
  unfold munchOp at h
  split at h
  · simp at h; obtain ⟨rfl, rfl, _⟩ := h; exact h0
  · split at h
    · rename_i e k' hf
      simp at h; obtain ⟨rfl, rfl, _⟩ := h
      have h2 := List.mem_of_find?_eq_some hf
      have h3 := List.find?_some hf
      simp at h3
      have := h1 _ h2
      simpa [h3] using this
    · simp at h; obtain ⟨rfl, rfl, _⟩ := h; exact h0

/-- What the scanner finds has the lexical form of its kind. -/
theorem munch_class {c : Char} {cs : Text} {k : Tok} {t r : Text} (hm : munch c cs = .tok k t r) :
    Class k t := by
  unfold munch at hm
  obtain ⟨t, h, rfl⟩ := pre_eq_tok hm
  clear hm
  rw [List.singleton_append]
  split at h
  case h_13 => exact munchOp_class h rfl (by simp [Class, spelling])
  case h_14 => exact munchOp_class h rfl (by simp [Class, spelling])
  case h_15 => exact munchOp_class h rfl (by simp [Class, spelling])
  case h_16 => exact munchOp_class h rfl (by simp [Class, spelling])
  case h_17 => exact munchOp_class h rfl (by simp [Class, spelling])
  case h_18 => obtain ⟨rfl, h2⟩ := munchStr_class _ h; exact ⟨t, rfl, h2⟩
  case h_19 => obtain ⟨rfl, h2⟩ := munchQ_class _ h; exact Or.inr ⟨t, rfl, h2⟩
  case h_20 =>
    split at h
    · simp at h; obtain ⟨rfl, rfl, _⟩ := h; rfl
    · rename_i d r'
      split at h
      · rename_i hd
        subst hd
        simp at h; obtain ⟨rfl, rfl, _⟩ := h
        refine ⟨r'.takeWhile fun c => (!(c == '\r' || c == '\n')), by simp, ?_, ?_⟩
        · intro hm
          have := List.all_eq_true.1 (all_takeWhile _ r') _ hm
          simp at this
        · intro hm
          have := List.all_eq_true.1 (all_takeWhile _ r') _ hm
          simp at this
      · split at h
        · rename_i hd
          subst hd
          obtain ⟨rfl, h2⟩ := munchBlk_class _ h
          have hs := munchBlk_split ('*' :: r')
          rw [h] at hs
          cases t with
          | nil => simp [commentTail] at h2
          | cons e t =>
            simp at hs
            obtain ⟨rfl, _⟩ := hs
            exact ⟨t, rfl, h2⟩
        · simp at h; obtain ⟨rfl, rfl, _⟩ := h; rfl
  case h_21 =>
    split at h
    · rename_i hd
      rw [isDigit_eq] at hd
      exact munchNum_class hd h
    · split at h
      · rename_i hw
        simp at h
        obtain ⟨rfl, rfl, _⟩ := h
        apply wordKind_class
        rw [isWord, isWordChar_eq, all_takeWhile, Bool.and_true]
        rw [isAlpha_eq] at hw
        simpa [wordStart] using hw
      · simp at h
  all_goals (simp at h; obtain ⟨rfl, rfl, _⟩ := h; rfl)

/-! ### Lexing a token again -/

/-- Characters that would extend or change a token of this kind if they followed it directly. -/
def sticks (k : Tok) (c : Char) : Bool :=
  match k with
  | .UInt => wordChar c || c = '.'
  | .UReal => wordChar c || c = '.' || c = '+' || c = '-'
  | .Colon | .Equal | .Gre => c = '='
  | .Les => c = '=' || c = '>'
  | .Dot => c!"+-*/^".contains c
  | .Slash => c = '/' || c = '*'
  | .LineComment => !(c = '\n' || c = '\r')
  | k => wordy k && wordChar c

/-- May `rest` follow a token of this kind directly? -/
def follows (k : Tok) (rest : Text) : Bool :=
  match rest with
  | [] => true
  | c :: _ => !sticks k c

theorem takeWhile_append_stop {p : Char → Bool} {l r : Text} (hl : l.all p = true)
    (hr : ∀ c ∈ r.head?, p c = false) : (l ++ r).takeWhile p = l ∧ (l ++ r).dropWhile p = r := by
  induction l with
  | nil =>
    cases r with
    | nil => exact ⟨rfl, rfl⟩
    | cons c r => have := hr c rfl; simp [this]
  | cons c l ih =>
    simp only [List.all_cons, Bool.and_eq_true] at hl
    obtain ⟨h1, h2⟩ := ih hl.2
    simp [hl.1, h1, h2]

theorem expo_relex {ex rest : Text} (h : Exponent ex)
    (hr : ∀ c ∈ rest.head?, wordChar c = false ∧ c ≠ '+' ∧ c ≠ '-') :
    expo (ex ++ rest) = (ex, rest) := by
  have hrd : ∀ c ∈ rest.head?, digit c = false := by
    intro c hc
    have := (hr c hc).1
    simp [wordChar] at this
    exact this.1.2
  rcases h with rfl | ⟨e, sg, ds, rfl, he, hsg, hds⟩
  · cases rest with
    | nil => rfl
    | cons c r =>
      have h1 := (hr c rfl).1
      have : ¬ (c = 'e' ∨ c = 'E') := by
        rintro (rfl | rfl) <;> revert h1 <;> decide
      simp [expo, this]
  · obtain ⟨h1, h2⟩ := takeWhile_append_stop hds hrd
    rw [← isDigit_eq] at h1 h2
    rcases hsg with rfl | rfl | rfl
    · simp only [List.nil_append, List.cons_append, expo, if_pos he]
      cases hdr : ds ++ rest with
      | nil => simp at hdr; simp [hdr]
      | cons d r =>
        have hd : ¬ (d = '+' ∨ d = '-') := by
          cases ds with
          | nil =>
            simp at hdr
            have := (hr d (by simp [hdr])).2
            simpa using this
          | cons d' ds =>
            simp at hdr
            obtain ⟨rfl, _⟩ := hdr
            simp at hds
            rintro (rfl | rfl)
            · exact absurd hds.1 (by decide)
            · exact absurd hds.1 (by decide)
        simp only [if_neg hd]
        rw [← hdr, h1, h2]
    · simp [expo, if_pos he, h1, h2]
    · simp [expo, if_pos he, h1, h2]

theorem munchNum_relex_uint {ds rest : Text} (hds : ds.all digit = true)
    (hr : ∀ c ∈ rest.head?, wordChar c = false ∧ c ≠ '.') :
    munchNum (ds ++ rest) = .tok .UInt ds rest := by
  have hrd : ∀ c ∈ rest.head?, digit c = false := by
    intro c hc
    have := (hr c hc).1
    simp [wordChar] at this
    exact this.1.2
  obtain ⟨h1, h2⟩ := takeWhile_append_stop hds hrd
  rw [← isDigit_eq] at h1 h2
  unfold munchNum
  rw [h1, h2]
  cases rest with
  | nil => rfl
  | cons c r =>
    have h3 := hr c rfl
    have : ¬ (c = 'e' ∨ c = 'E') := by
      rintro (rfl | rfl) <;> have := h3.1 <;> revert this <;> decide
    simp [h3.2, expo, this]

theorem munchNum_relex_ureal {ds fr ex rest : Text} (hds : ds.all digit = true) (hf : Fraction fr)
    (he : Exponent ex) (hne : fr ≠ [] ∨ ex ≠ [])
    (hr : ∀ c ∈ rest.head?, wordChar c = false ∧ c ≠ '.' ∧ c ≠ '+' ∧ c ≠ '-') :
    munchNum (ds ++ (fr ++ (ex ++ rest))) = .tok .UReal (ds ++ (fr ++ ex)) rest := by
  have hrd : ∀ c ∈ (ex ++ rest).head?, digit c = false := by
    intro c hc
    rcases he with rfl | ⟨e, sg, d, rfl, he, _⟩
    · have := (hr c hc).1
      simp [wordChar] at this
      exact this.1.2
    · simp at hc
      subst hc
      rcases he with rfl | rfl <;> decide
  have hx := expo_relex he (fun c hc => ⟨(hr c hc).1, (hr c hc).2.2⟩)
  rcases hf with rfl | ⟨fd, rfl, hfd⟩
  · obtain ⟨h1, h2⟩ := takeWhile_append_stop hds hrd
    rw [← isDigit_eq] at h1 h2
    have hex : ex ≠ [] := by simpa using hne
    unfold munchNum
    rw [List.nil_append, List.nil_append, h1, h2]
    obtain ⟨e, sg, d, hexe, he', _⟩ := he.resolve_left hex
    have hdot : ¬ e = '.' := by
      rcases he' with rfl | rfl <;> decide
    rw [hexe, List.cons_append]
    simp only [if_neg hdot]
    rw [← List.cons_append, ← hexe, hx]
    simp [hex]
  · obtain ⟨h1, h2⟩ := takeWhile_append_stop (p := digit) (r := '.' :: fd ++ (ex ++ rest)) hds (by
      intro c hc; simp at hc; subst hc; decide)
    obtain ⟨h3, h4⟩ := takeWhile_append_stop hfd hrd
    rw [← isDigit_eq] at h1 h2 h3 h4
    unfold munchNum
    rw [h1, h2, List.cons_append]
    simp [h3, h4, hx]

theorem digit_head {t : Text} (h : t ≠ []) (h' : t.all digit = true) :
    ∃ c cs, t = c :: cs ∧ digit c = true ∧ cs.all digit = true := by
  cases t with
  | nil => exact absurd rfl h
  | cons c cs => simp only [List.all_cons, Bool.and_eq_true] at h'; exact ⟨c, cs, rfl, h'⟩

/-- The scanner on a character that starts a number or a word. -/
theorem munch_other {c : Char} (cs : Text) (h : wordChar c = true) : munch c cs = Munch.pre [c]
    (if isDigit c then munchNum cs
    else if isAlpha c || c == '_' then
      .tok (wordKind (c :: cs.takeWhile isWordChar)) (cs.takeWhile isWordChar)
        (cs.dropWhile isWordChar)
    else .bad (c!"unexpected character: '" ++ [c] ++ c!"'") [] cs) := by
  unfold munch
  congr 1
  split <;> first | (exfalso; revert h; decide) | rfl

theorem digit_wordChar {c : Char} (h : digit c = true) : wordChar c = true := by
  simp [wordChar, h]

theorem digit_not_start {c : Char} (h : digit c = true) : wordStart c = false := by
  have hd : 48 ≤ c.toNat ∧ c.toNat ≤ 57 := by
    rw [← isDigit_eq] at h; simpa [isDigit] using h
  have : isAlpha c = false := by
    simp [isAlpha]; omega
  rw [isAlpha_eq] at this
  have h2 : ¬ c = '_' := by rintro rfl; exact absurd hd (by decide)
  simp [wordStart, this, h2]

theorem wordStart_wordChar {c : Char} (h : wordStart c = true) : wordChar c = true := by
  simp only [wordStart, wordChar, Bool.or_eq_true] at *
  rcases h with h | h <;> simp [h]

theorem start_not_digit {c : Char} (h : wordStart c = true) : digit c = false := by
  cases hd : digit c with
  | false => rfl
  | true => rw [digit_not_start hd] at h; exact absurd h (by decide)

theorem head_follows {k : Tok} {rest : Text} (h : follows k rest = true) :
    ∀ c ∈ rest.head?, sticks k c = false := by
  intro c hc
  cases rest with
  | nil => simp at hc
  | cons d r => simp at hc; subst hc; simpa [follows] using h

theorem munch_relex_word {k : Tok} {t rest : Text} (h : Class k t) (hw : firstIsWordStart t = true)
    (hk : ∀ c ∈ rest.head?, wordChar c = false) :
    ∃ c cs, t = c :: cs ∧ munch c (cs ++ rest) = .tok k t rest := by
  obtain ⟨h1, h2⟩ := class_wordKind h hw
  cases t with
  | nil => simp [isWord] at h1
  | cons c cs =>
    refine ⟨c, cs, rfl, ?_⟩
    simp only [isWord, Bool.and_eq_true] at h1
    rw [munch_other _ (wordStart_wordChar h1.1), isDigit_eq, start_not_digit h1.1, isAlpha_eq,
      isWordChar_eq]
    obtain ⟨h3, h4⟩ := takeWhile_append_stop h1.2 hk
    have h5 : (letter c || c == '_') = true := by
      have := h1.1
      simpa [wordStart] using this
    rw [h3, h4, h2]
    simp [h5, Munch.pre]

/-- The scanner finds a token again if the text after it does not extend it. -/
theorem munch_relex {k : Tok} {t rest : Text} (h : Class k t) (hf : follows k rest = true) :
    ∃ c cs, t = c :: cs ∧ munch c (cs ++ rest) = .tok k t rest := by
  have hx := head_follows hf
  have hop : ∀ (tb : List (Char × Tok)) (d : Tok), (∀ c ∈ rest.head?, tb.find? (·.1 == c) = none) →
      munchOp tb d rest = .tok d [] rest := by
    intro tb d hn
    cases rest with
    | nil => rfl
    | cons c r => simp [munchOp, hn c rfl]
  cases k
  case EOF => exact h.elim
  case Identifier =>
    rcases h with h | ⟨b, rfl, hb⟩
    · apply munch_relex_word (k := .Identifier) (Or.inl h)
      · have := h.1
        cases t with
        | nil => simp [isWord] at this
        | cons c cs => simp [isWord] at this; exact this.1
      · intro c hc; have := hx c hc; simpa [sticks, wordy] using this
    · exact ⟨_, _, rfl, by simp [munch, munchQ_relex b rest hb, Munch.pre]⟩
  case Bool =>
    apply munch_relex_word h
    · rcases h with rfl | rfl <;> decide
    · intro c hc; have := hx c hc; simpa [sticks, wordy] using this
  case String =>
    obtain ⟨b, rfl, hb⟩ := h
    exact ⟨_, _, rfl, by simp [munch, munchStr_relex b rest hb, Munch.pre]⟩
  case LineComment =>
    obtain ⟨b, rfl, hn, hr⟩ := h
    refine ⟨_, _, rfl, ?_⟩
    have ⟨h1, h2⟩ := takeWhile_append_stop (p := fun c => !(c == '\r' || c == '\n')) (l := b)
      (r := rest) (by
        rw [List.all_eq_true]
        intro c hc
        have h1 : ¬ c = '\r' := by rintro rfl; exact hr hc
        have h2 : ¬ c = '\n' := by rintro rfl; exact hn hc
        simp [h1, h2]) (by
        intro c hc
        have := hx c hc
        simp [sticks] at this
        by_cases hc : c = '\n'
        · simp [hc]
        · simp [this hc])
    simp only [munch, List.cons_append, if_true]
    rw [← List.cons_append]
    simp only [Munch.pre, List.cons_append]
    rw [List.takeWhile_cons, List.dropWhile_cons, h1, h2]
    rfl
  case BlockComment =>
    obtain ⟨b, rfl, hb⟩ := h
    refine ⟨_, _, rfl, ?_⟩
    have := munchBlk_relex _ rest hb
    simp only [List.cons_append] at this
    simp [munch, Munch.pre, this]
  case UInt =>
    obtain ⟨c, cs, rfl, h3, h4⟩ := digit_head h.1 h.2
    refine ⟨c, cs, rfl, ?_⟩
    rw [munch_other _ (digit_wordChar h3), isDigit_eq, if_pos h3, munchNum_relex_uint h4]
    · rfl
    · intro d hd
      have := hx d hd
      simpa [sticks] using this
  case UReal =>
    obtain ⟨ds, fr, ex, rfl, h1, h2, h3, h4, h5⟩ := h
    obtain ⟨c, cs, rfl, h6, h7⟩ := digit_head h1 h2
    refine ⟨c, cs ++ fr ++ ex, by simp, ?_⟩
    have := munchNum_relex_ureal (rest := rest) h7 h3 h4 h5 (by
      intro d hd
      have := hx d hd
      simpa [sticks, and_assoc] using this)
    rw [munch_other _ (digit_wordChar h6), isDigit_eq, if_pos h6]
    simp only [List.append_assoc]
    rw [this]
    simp [Munch.pre]
  case Dot | Colon | Equal | Gre | Les =>
    simp only [Class, spelling, Option.some.injEq] at h
    subst h
    refine ⟨_, _, rfl, ?_⟩
    simp only [munch, List.nil_append]
    rw [hop]
    · rfl
    · intro c hc
      have := hx c hc
      simp only [sticks, List.contains_cons, Bool.or_eq_false_iff, beq_eq_false_iff_ne, ne_eq,
        List.contains_nil, decide_eq_false_iff_not] at this
      simp [List.find?_cons, @eq_comm _ _ c, this]
  case Slash =>
    simp only [Class, spelling, Option.some.injEq] at h
    subst h
    refine ⟨_, _, rfl, ?_⟩
    cases rest with
    | nil => rfl
    | cons c r =>
      have := hx c rfl
      simp [sticks] at this
      simp [munch, this, Munch.pre]
  all_goals (simp only [Class, spelling, Option.some.injEq] at h; subst h)
  all_goals first
    | exact ⟨_, _, rfl, rfl⟩
    | exact munch_relex_word rfl (by decide) (fun c hc => by
        have := hx c hc
        simp only [sticks, Bool.and_eq_false_iff] at this
        rcases this with h | h
        · exact absurd h (by decide)
        · exact h)

end Mofmt
