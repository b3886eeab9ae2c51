import Verif.Proofs.Calm
import Verif.Proofs.FmtMap
import Verif.Proofs.LexFacts
/-
Where the tokens are after formatting.
-/
namespace Mofmt
open Lexical (newlines)

def TEv.map (φ : Token → Token) : TEv → TEv
  | .tok t => .tok (φ t)
  | .brk t b => .brk (φ t) b
  | e => e

/-- what is pending -/
inductive Pend where
  | none
  | space
  | brk
  deriving DecidableEq

/-- The lines of the tokens `φ t` are those to be expected after printing the events. -/
def Track (φ : Token → Token) : Option Token → Pend → List TEv → Prop
  | _, _, [] => True
  | q, p, .tok t :: es =>
    (if p = .brk then lineOf (q.map φ) < (φ t).start.line else (φ t).start.line = lineOf (q.map φ)) ∧
    (φ t).stop.line = (φ t).start.line + newlines t.text ∧ Track φ (some t) .none es
  | q, p, .space :: es => p = .none ∧ Track φ q .space es
  | q, p, .brk _ _ :: es => p = .none ∧ Track φ q .brk es
  | q, p, .indent :: es => Track φ q p es
  | q, p, .dedent :: es => Track φ q p es

def pendAfter : Pend → List TEv → Pend
  | p, [] => p
  | _, .tok _ :: es => pendAfter .none es
  | _, .space :: es => pendAfter .space es
  | _, .brk _ _ :: es => pendAfter .brk es
  | p, _ :: es => pendAfter p es

variable {φ : Token → Token}

theorem Track.append {q : Option Token} {p : Pend} {a b : List TEv} :
    Track φ q p (a ++ b) ↔ Track φ q p a ∧ Track φ (lastT q a) (pendAfter p a) b := by
  induction a generalizing q p with
  | nil => simp [Track, lastT, pendAfter]
  | cons e a ih =>
    cases e <;> simp only [List.cons_append, Track, lastT, pendAfter, ih, and_assoc]

theorem lastT_map (q : Option Token) (es : List TEv) :
    lastT (q.map φ) (es.map (TEv.map φ)) = (lastT q es).map φ := by
  induction es generalizing q with
  | nil => rfl
  | cons e es ih =>
    cases e with
    | tok t => simpa [TEv.map, lastT] using ih (some t)
    | _ => simpa [TEv.map, lastT] using ih q

theorem toks_map (es : List TEv) : toks (es.map (TEv.map φ)) = (toks es).map φ := by
  induction es with
  | nil => rfl
  | cons e es ih => cases e <;> simp [TEv.map, toks, ih]

/-- lines never decrease -/
theorem Track.mono {es : List TEv} : ∀ {q : Option Token} {p : Pend}, Track φ q p es →
    (∀ t ∈ toks es, lineOf (q.map φ) ≤ (φ t).start.line ∧ (φ t).start.line ≤ (φ t).stop.line) ∧
    lineOf (q.map φ) ≤ lineOf ((lastT q es).map φ) := by
  induction es with
  | nil => intro q p h; exact ⟨by simp [toks], Nat.le_refl _⟩
  | cons e es ih =>
    intro q p h
    cases e with
    | tok t =>
      obtain ⟨h1, h2, h3⟩ := h
      have i := ih h3
      have h4 : lineOf (q.map φ) ≤ (φ t).start.line := by
        split at h1 <;> omega
      have h5 : lineOf ((some t).map φ) = (φ t).stop.line := rfl
      refine ⟨?_, ?_⟩
      · intro x hx
        simp only [toks, List.mem_cons] at hx
        rcases hx with rfl | hx
        · omega
        · have := i.1 x hx; omega
      · simp only [lastT]; omega
    | space => exact ih h.2
    | brk t b => exact ih h.2
    | indent => exact ih h
    | dedent => exact ih h

/-- without line breaks everything is on one line -/
theorem Track.flat {es : List TEv} : ∀ {q : Option Token} {p : Pend}, Track φ q p es → p ≠ .brk → NoBrk es →
    (∀ t ∈ toks es, newlines t.text = 0) →
    (∀ t ∈ toks es, (φ t).start.line = lineOf (q.map φ) ∧ (φ t).stop.line = lineOf (q.map φ)) ∧
    lineOf ((lastT q es).map φ) = lineOf (q.map φ) := by
  induction es with
  | nil => intro q p h _ _ _; exact ⟨by simp [toks], rfl⟩
  | cons e es ih =>
    intro q p h hp hn ht
    have hn' : NoBrk es := NoBrk.right (a := [e]) (b := es) hn
    cases e with
    | tok t =>
      obtain ⟨h1, h2, h3⟩ := h
      simp only [toks, List.mem_cons, forall_eq_or_imp] at ht
      have i := ih h3 (by simp) hn' ht.2
      rw [if_neg hp] at h1
      have h5 : lineOf ((some t).map φ) = (φ t).stop.line := rfl
      have h6 := ht.1
      refine ⟨?_, ?_⟩
      · intro x hx
        simp only [toks, List.mem_cons] at hx
        rcases hx with rfl | hx
        · omega
        · have := i.1 x hx; omega
      · simp only [lastT]; omega
    | space => exact ih h.2 (by simp) hn' ht
    | brk t b => exact absurd List.mem_cons_self (hn t b)
    | indent => exact ih h hp hn' ht
    | dedent => exact ih h hp hn' ht

/-- a pending break moves what follows to a later line -/
theorem Track.below {es : List TEv} : ∀ {q : Option Token}, Track φ q .brk es →
    ∀ t ∈ toks es, lineOf (q.map φ) < (φ t).start.line := by
  induction es with
  | nil => intro q h t ht; simp [toks] at ht
  | cons e es ih =>
    intro q h x hx
    cases e with
    | tok t =>
      obtain ⟨h1, h2, h3⟩ := h
      rw [if_pos rfl] at h1
      simp only [toks, List.mem_cons] at hx
      rcases hx with rfl | hx
      · exact h1
      · have := (h3.mono.1 x hx).1
        have h5 : lineOf ((some t).map φ) = (φ t).stop.line := rfl
        omega
    | space => exact absurd h.1 (by simp)
    | brk t b => exact absurd h.1 (by simp)
    | indent => exact ih h x hx
    | dedent => exact ih h x hx

/-- the first token after something that is not a break -/
theorem Track.beside {es : List TEv} : ∀ {q : Option Token} {t : Token} {ts : List Token}, Track φ q .space es →
    toks es = t :: ts → (φ t).start.line = lineOf (q.map φ) := by
  induction es with
  | nil => intro q t ts h ht; simp [toks] at ht
  | cons e es ih =>
    intro q x ts h hx
    cases e with
    | tok t =>
      simp only [toks, List.cons.injEq] at hx
      obtain ⟨rfl, _⟩ := hx
      have := h.1
      rwa [if_neg (by simp)] at this
    | space => exact absurd h.1 (by simp)
    | brk t b => exact absurd h.1 (by simp)
    | indent => exact ih h hx
    | dedent => exact ih h hx

/-- a break before and after which there are tokens -/
theorem Track.split {q : Option Token} {p : Pend} {a c : List TEv} {t : Token} {b : Blank}
    (h : Track φ q p (a ++ .brk t b :: c)) {x y : Token} (hx : x ∈ toks a) (hy : y ∈ toks c) :
    (φ x).stop.line < (φ y).start.line := by
  obtain ⟨h1, h2⟩ := Track.append.1 h
  have h3 := Track.below h2.2 y hy
  suffices (φ x).stop.line ≤ lineOf ((lastT q a).map φ) by omega
  clear h h2 h3 hy
  induction a generalizing q p with
  | nil => simp [toks] at hx
  | cons e a ih =>
    cases e with
    | tok u =>
      simp only [toks, List.mem_cons] at hx
      rcases hx with rfl | hx
      · exact (Track.mono h1.2.2).2
      · exact ih hx h1.2.2
    | space => exact ih hx h1.2
    | brk t b => exact ih hx h1.2
    | indent => exact ih hx h1
    | dedent => exact ih hx h1

end Mofmt
