import Verif.Spec.Grammar
/-
Derivatives of regular expressions, sound and complete.
-/
namespace Mofmt
namespace RE

def nullable : RE → Bool
  | none => false
  | eps => true
  | sym _ => false
  | alt a b => a.nullable || b.nullable
  | seq a b => a.nullable && b.nullable
  | star _ => true

/-- is the expression among the alternatives? -/
def isAlt (a : RE) : RE → Bool
  | alt b c => a == b || isAlt a c
  | b => a == b

/-- one more alternative, simplified -/
def addAlt (a b : RE) : RE :=
  if a = none then b else if b = none then a else if isAlt a b then b else alt a b

/-- alternative, simplified -/
def mkAlt : RE → RE → RE
  | alt x y, b => addAlt x (mkAlt y b)
  | a, b => addAlt a b

/-- sequence, simplified -/
def mkSeq (a b : RE) : RE :=
  match a with
  | none => none
  | eps => b
  | a => match b with
    | none => none
    | eps => a
    | b => seq a b

/-- Brzozowski derivative -/
def der (c : Sym) : RE → RE
  | none => none
  | eps => none
  | sym a => if a = c then eps else none
  | alt a b => mkAlt (der c a) (der c b)
  | seq a b => if a.nullable then mkAlt (mkSeq (der c a) b) (der c b) else mkSeq (der c a) b
  | star a => mkSeq (der c a) (star a)

/-- symbols a word can start with -/
def first : RE → List Sym
  | none => []
  | eps => []
  | sym a => [a]
  | alt a b => a.first ++ b.first
  | seq a b => if a.nullable then a.first ++ b.first else a.first
  | star a => a.first

end RE

open RE

theorem lang_eps {u : List Sym} : Lang .eps u ↔ u = [] := by
  constructor
  · intro h; cases h; rfl
  · rintro rfl; exact .eps

theorem lang_none {u : List Sym} : ¬ Lang .none u := by intro h; cases h

theorem lang_sym {a : Sym} {u : List Sym} : Lang (.sym a) u ↔ u = [a] := by
  constructor
  · intro h; cases h; rfl
  · rintro rfl; exact .sym a

theorem lang_alt {a b : RE} {u : List Sym} : Lang (.alt a b) u ↔ Lang a u ∨ Lang b u := by
  constructor
  · intro h
    cases h with
    | altL h => exact .inl h
    | altR h => exact .inr h
  · rintro (h | h)
    · exact .altL h
    · exact .altR h

theorem lang_seq {a b : RE} {u : List Sym} :
    Lang (.seq a b) u ↔ ∃ v w, u = v ++ w ∧ Lang a v ∧ Lang b w := by
  constructor
  · intro h
    cases h with
    | seq h1 h2 => exact ⟨_, _, rfl, h1, h2⟩
  · rintro ⟨v, w, rfl, h1, h2⟩; exact .seq h1 h2

theorem isAlt_lang {a : RE} : ∀ {b : RE}, isAlt a b = true → ∀ {u}, Lang a u → Lang b u := by
  intro b
  induction b with
  | alt x y _ ihy =>
    intro h u hu
    simp [isAlt] at h
    rcases h with rfl | h
    · exact .altL hu
    · exact .altR (ihy h hu)
  | _ => intro h u hu; simp [isAlt] at h; subst h; exact hu

theorem addAlt_lang {a b : RE} {u : List Sym} : Lang (addAlt a b) u ↔ Lang a u ∨ Lang b u := by
  unfold addAlt
  split
  · rename_i h; subst h; simp only [lang_none, false_or]
  · split
    · rename_i h; subst h; simp only [lang_none, or_false]
    · split
      · rename_i h2
        have := fun h => isAlt_lang h2 (u := u) h
        exact ⟨.inr, fun h => h.elim this id⟩
      · exact lang_alt

theorem mkAlt_lang {a b : RE} {u : List Sym} : Lang (mkAlt a b) u ↔ Lang a u ∨ Lang b u := by
  induction a with
  | alt x y _ ihy => rw [mkAlt, addAlt_lang, ihy, lang_alt, or_assoc]
  | _ => exact addAlt_lang

theorem mkSeq_lang {a b : RE} {u : List Sym} : Lang (mkSeq a b) u ↔ Lang (.seq a b) u := by
  unfold mkSeq
  split
  · rw [lang_seq]
    constructor
    · intro h; exact absurd h lang_none
    · rintro ⟨_, _, _, h, _⟩; exact absurd h lang_none
  · rw [lang_seq]
    constructor
    · intro h; exact ⟨[], u, rfl, .eps, h⟩
    · rintro ⟨v, w, rfl, h, h'⟩
      rw [lang_eps] at h; subst h; exact h'
  · split
    · rw [lang_seq]
      constructor
      · intro h; exact absurd h lang_none
      · rintro ⟨_, _, _, _, h⟩; exact absurd h lang_none
    · rw [lang_seq]
      constructor
      · intro h; exact ⟨u, [], by simp, h, .eps⟩
      · rintro ⟨v, w, rfl, h, h'⟩
        rw [lang_eps] at h'; subst h'; simpa using h
    · rfl

theorem nullable_iff (r : RE) : r.nullable = true ↔ Lang r [] := by
  induction r with
  | none => simp [nullable, lang_none]
  | eps => simp [nullable, lang_eps]
  | sym a => simp [nullable, lang_sym]
  | alt a b iha ihb => simp [nullable, lang_alt, iha, ihb]
  | seq a b iha ihb =>
    simp only [nullable, Bool.and_eq_true, iha, ihb, lang_seq]
    constructor
    · rintro ⟨h1, h2⟩; exact ⟨[], [], rfl, h1, h2⟩
    · rintro ⟨v, w, h, h1, h2⟩
      obtain ⟨rfl, rfl⟩ := List.append_eq_nil_iff.mp h.symm
      exact ⟨h1, h2⟩
  | star a _ => simp [nullable]; exact .starNil

theorem star_cons {a : RE} {c : Sym} {u : List Sym} :
    Lang (.star a) (c :: u) ↔ ∃ v w, u = v ++ w ∧ Lang a (c :: v) ∧ Lang (.star a) w := by
  constructor
  · intro h
    generalize hr : RE.star a = r at h
    generalize hw : c :: u = w at h
    induction h with
    | starNil => simp at hw
    | starCons h1 h2 ih1 ih2 =>
      rename_i a' p q
      cases hr
      cases p with
      | nil => exact ih2 rfl (by simpa using hw)
      | cons x p =>
        simp at hw
        obtain ⟨rfl, rfl⟩ := hw
        exact ⟨p, q, rfl, h1, h2⟩
    | _ => cases hr
  · rintro ⟨v, w, rfl, h1, h2⟩
    exact .starCons (u := c :: v) h1 h2

/-- The derivative describes exactly the remainders of the words that start with the symbol. -/
theorem der_iff (c : Sym) (r : RE) : ∀ u, Lang (r.der c) u ↔ Lang r (c :: u) := by
  induction r with
  | none => intro u; simp [der, lang_none]
  | eps => intro u; simp [der, lang_none, lang_eps]
  | sym a =>
    intro u
    simp only [der]
    split
    · rename_i h; subst h; simp [lang_eps, lang_sym]
    · rename_i h
      simp only [lang_none, lang_sym, false_iff]
      intro h'; cases h'; exact h rfl
  | alt a b iha ihb => intro u; simp [der, mkAlt_lang, lang_alt, iha, ihb]
  | seq a b iha ihb =>
    intro u
    have key : Lang (.seq a b) (c :: u) ↔
        (∃ v w, u = v ++ w ∧ Lang a (c :: v) ∧ Lang b w) ∨ (Lang a [] ∧ Lang b (c :: u)) := by
      rw [lang_seq]
      constructor
      · rintro ⟨v, w, h, h1, h2⟩
        cases v with
        | nil => simp at h; subst h; exact .inr ⟨h1, h2⟩
        | cons x v =>
          simp at h
          obtain ⟨rfl, rfl⟩ := h
          exact .inl ⟨v, w, rfl, h1, h2⟩
      · rintro (⟨v, w, rfl, h1, h2⟩ | ⟨h1, h2⟩)
        · exact ⟨c :: v, w, rfl, h1, h2⟩
        · exact ⟨[], _, rfl, h1, h2⟩
    rw [key]
    simp only [der]
    split
    · rename_i h
      rw [mkAlt_lang, mkSeq_lang, lang_seq, ihb]
      simp only [iha]
      simp [(nullable_iff a).mp h]
    · rename_i h
      rw [mkSeq_lang, lang_seq]
      simp only [iha]
      simp [← nullable_iff, h]
  | star a iha =>
    intro u
    rw [der, mkSeq_lang, lang_seq, star_cons]
    simp only [iha]

theorem first_complete {r : RE} : ∀ {c : Sym} {u : List Sym}, Lang r (c :: u) → c ∈ r.first := by
  induction r with
  | none => intro c u h; exact absurd h lang_none
  | eps => intro c u h; simp [lang_eps] at h
  | sym a => intro c u h; rw [lang_sym] at h; simp at h; simp [first, h.1]
  | alt a b iha ihb =>
    intro c u h
    rw [lang_alt] at h
    simp only [first, List.mem_append]
    exact h.imp iha ihb
  | seq a b iha ihb =>
    intro c u h
    rw [lang_seq] at h
    obtain ⟨v, w, h, h1, h2⟩ := h
    simp only [first]
    cases v with
    | nil =>
      have := (nullable_iff a).mpr h1
      simp [this]
      simp at h; subst h
      exact .inr (ihb h2)
    | cons x v =>
      simp at h
      obtain ⟨rfl, rfl⟩ := h
      have := iha h1
      split
      · simp [this]
      · exact this
  | star a iha =>
    intro c u h
    rw [star_cons] at h
    obtain ⟨v, w, _, h1, _⟩ := h
    exact iha h1

end Mofmt
