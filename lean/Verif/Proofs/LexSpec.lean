import Verif.Proofs.LexRun
import Verif.Proofs.Basic
import Verif.Spec.Lexical
/-
The lexer as a function of the pieces of the source text.
-/
namespace Mofmt
open Lexical

/-- A piece of the source text. -/
inductive Item where
  | ws (t : Text)
  | tok (k : Tok) (t : Text)
  | bad (msg t : Text)
  deriving DecidableEq, Repr

def Item.text : Item → Text
  | .ws t => t
  | .tok _ t => t
  | .bad _ t => t

def Munch.item : Munch → Item
  | .tok k t _ => .tok k t
  | .bad m t _ => .bad m t

@[simp] theorem Munch.item_text (m : Munch) : m.item.text = m.text := by cases m <;> rfl

/-- The pieces of a text, at most `n` of them. -/
def itemsN : Nat → Text → List Item
  | 0, _ => []
  | _ + 1, [] => []
  | n + 1, c :: cs =>
    if isWs c then .ws (c :: cs.takeWhile isWs) :: itemsN n (cs.dropWhile isWs)
    else (munch c cs).item :: itemsN n (munch c cs).rest

def items (t : Text) : List Item := itemsN t.length t

theorem dropWhile_length_le (p : Char → Bool) (l : Text) : (l.dropWhile p).length ≤ l.length :=
  (List.dropWhile_sublist p).length_le

theorem munch_rest_length (c : Char) (cs : Text) : (munch c cs).rest.length ≤ cs.length := by
  have h := munch_split c cs
  have h' : (munch c cs).text ≠ [] := by obtain ⟨t, ht⟩ := munch_text_ne c cs; simp [ht]
  have : ((munch c cs).text ++ (munch c cs).rest).length = (c :: cs).length := by rw [h]
  have : (munch c cs).text.length ≠ 0 := fun hh => h' (List.length_eq_zero_iff.1 hh)
  simp only [List.length_append, List.length_cons] at *
  omega

theorem itemsN_mono : ∀ (n m : Nat) (t : Text), t.length ≤ n → t.length ≤ m →
    itemsN n t = itemsN m t := by
  intro n
  induction n with
  | zero =>
    intro m t hn _
    have : t = [] := List.length_eq_zero_iff.1 (by omega)
    subst this
    cases m <;> rfl
  | succ n ih =>
    intro m t hn hm
    cases t with
    | nil => cases m <;> rfl
    | cons c cs =>
      cases m with
      | zero => simp at hm
      | succ m =>
        simp only [List.length_cons] at hn hm
        have h1 := dropWhile_length_le isWs cs
        have h2 := munch_rest_length c cs
        simp only [itemsN]
        rw [ih m _ (by omega) (by omega), ih m _ (by omega) (by omega)]

@[simp] theorem items_nil : items [] = [] := rfl

theorem items_ws {c : Char} (cs : Text) (h : isWs c = true) :
    items (c :: cs) = .ws (c :: cs.takeWhile isWs) :: items (cs.dropWhile isWs) := by
  unfold items
  rw [List.length_cons, itemsN, if_pos h,
    itemsN_mono cs.length (cs.dropWhile isWs).length _ (dropWhile_length_le _ _) (by omega)]

theorem items_munch {c : Char} (cs : Text) (h : isWs c = false) :
    items (c :: cs) = (munch c cs).item :: items (munch c cs).rest := by
  unfold items
  rw [List.length_cons, itemsN, if_neg (by simp [h]),
    itemsN_mono cs.length (munch c cs).rest.length _ (munch_rest_length _ _) (by omega)]

theorem items_induct {P : Text → Prop} (nil : P [])
    (ws : ∀ c cs, isWs c = true → P (cs.dropWhile isWs) → P (c :: cs))
    (munch : ∀ c cs, isWs c = false → P (munch c cs).rest → P (c :: cs)) : ∀ t, P t := by
  intro t
  generalize hn : t.length = n
  induction n using Nat.strongRecOn generalizing t with
  | ind n ih =>
    cases t with
    | nil => exact nil
    | cons c cs =>
      simp only [List.length_cons] at hn
      cases h : isWs c with
      | true => exact ws c cs h (ih _ (by have := dropWhile_length_le isWs cs; omega) _ rfl)
      | false => exact munch c cs h (ih _ (by have := munch_rest_length c cs; omega) _ rfl)

/-- The pieces make up the text. -/
theorem items_text (t : Text) : (items t).flatMap Item.text = t := by
  induction t using items_induct with
  | nil => rfl
  | ws c cs h ih => rw [items_ws cs h]; simp [Item.text, ih, List.takeWhile_append_dropWhile]
  | munch c cs h ih => rw [items_munch cs h]; simp [ih, munch_split]

/-! ### Positions -/


/-- What lexing.rs:90 computes as the end position: one past the first byte of the last character. -/
def endPos (pre : Text) : Nat :=
  match pre.getLast? with
  | none => 0
  | some _ => bytes pre.dropLast + 1

def posAfter (pre : Text) : Pos := ⟨endPos pre, 1 + newlines pre, column pre⟩

/-- A text ends in an ASCII character or is empty. -/
def asciiEnd (pre : Text) : Bool :=
  match pre.getLast? with
  | none => true
  | some c => c.toNat < 128

theorem utf8Len_eq (c : Char) : utf8Len c = c.utf8Size := by
  unfold utf8Len Char.utf8Size
  have h1 : c.val.toNat = c.toNat := rfl
  simp only [UInt32.le_iff_toNat_le, h1, UInt32.toNat_ofNatLT]
  repeat' split
  all_goals omega

theorem utf8Len_pos (c : Char) : 1 ≤ utf8Len c := by
  unfold utf8Len; repeat' split
  all_goals omega

@[simp] theorem bytes_nil : bytes [] = 0 := rfl
@[simp] theorem bytes_cons (c : Char) (t : Text) : bytes (c :: t) = utf8Len c + bytes t := by
  simp [bytes, utf8Len_eq]
@[simp] theorem bytes_append (a b : Text) : bytes (a ++ b) = bytes a + bytes b := by
  simp [bytes]

theorem walk_start (t : Text) : walk (0, ⟨0, 1, 1⟩) t = (bytes t, posAfter t) := by
  have : ∀ r : Text, walk (0, ⟨0, 1, 1⟩) r.reverse = (bytes r.reverse, posAfter r.reverse) := by
    intro r
    induction r with
    | nil => simp [posAfter, endPos, newlines, column]
    | cons c r ih =>
      rw [List.reverse_cons, walk_append, ih]
      simp only [walk_cons, walk_nil, walkStep, bytes_append, bytes_cons, bytes_nil, Nat.add_zero]
      simp only [posAfter, endPos, newlines, column, List.getLast?_append, List.getLast?_singleton,
        Option.some_or, List.dropLast_concat, List.count_append, List.reverse_append,
        List.reverse_reverse, List.reverse_singleton, List.singleton_append, List.takeWhile_cons]
      by_cases h : c = '\n'
      · subst h; simp; omega
      · have h' : ¬ '\n' = c := fun hh => h hh.symm
        simp [h, h', List.count_cons]
  have h := this t.reverse
  rwa [List.reverse_reverse] at h

theorem dropBytes_append (p q : Text) : dropBytes (p ++ q) (bytes p) = some q := by
  induction p with
  | nil => cases q <;> rfl
  | cons c p ih =>
    have := utf8Len_pos c
    obtain ⟨m, hm⟩ : ∃ m, bytes (c :: p) = m + 1 := ⟨utf8Len c + bytes p - 1, by simp; omega⟩
    rw [hm, List.cons_append, dropBytes, ← hm, if_pos (by simp)]
    simpa using ih

theorem takeBytes_append (p q : Text) : takeBytes (p ++ q) (bytes p) = some p := by
  induction p with
  | nil => cases q <;> rfl
  | cons c p ih =>
    have := utf8Len_pos c
    obtain ⟨m, hm⟩ : ∃ m, bytes (c :: p) = m + 1 := ⟨utf8Len c + bytes p - 1, by simp; omega⟩
    rw [hm, List.cons_append, takeBytes, ← hm, if_pos (by simp)]
    simp [ih]

theorem dropBytes_inside (p : Text) (c : Char) (q : Text) (h : 1 < utf8Len c) :
    dropBytes (p ++ c :: q) (bytes p + 1) = none := by
  induction p with
  | nil => rw [List.nil_append, bytes_nil, dropBytes, if_neg (by omega)]
  | cons d p ih =>
    have := utf8Len_pos d
    rw [List.cons_append, dropBytes, if_pos (by simp; omega)]
    rw [show bytes (d :: p) + 1 - utf8Len d = bytes p + 1 by simp; omega]
    exact ih

theorem takeBytes_inside (p : Text) (c : Char) (q : Text) (h : 1 < utf8Len c) :
    takeBytes (p ++ c :: q) (bytes p + 1) = none := by
  induction p with
  | nil => rw [List.nil_append, bytes_nil, takeBytes, if_neg (by omega)]
  | cons d p ih =>
    have := utf8Len_pos d
    rw [List.cons_append, takeBytes, if_pos (by simp; omega)]
    rw [show bytes (d :: p) + 1 - utf8Len d = bytes p + 1 by simp; omega, ih]
    rfl

theorem asciiEnd_cases (pre : Text) :
    (asciiEnd pre = true ∧ endPos pre = bytes pre) ∨
    (asciiEnd pre = false ∧ ∃ p c, pre = p ++ [c] ∧ 1 < utf8Len c ∧ endPos pre = bytes p + 1) := by
  rcases List.eq_nil_or_concat pre with h | ⟨p, c, h⟩
  · subst h; left; simp [asciiEnd, endPos]
  · subst h
    simp only [List.concat_eq_append]
    by_cases hc : c.toNat < 128
    · left
      have : utf8Len c = 1 := by unfold utf8Len; rw [if_pos (by omega)]
      simp [asciiEnd, endPos, hc, this]
    · right
      refine ⟨by simp [asciiEnd]; omega, p, c, rfl, ?_, by simp [endPos]⟩
      unfold utf8Len
      rw [if_neg (by omega)]
      repeat' split
      all_goals omega

/-- The slice between two positions of the lexer. -/
theorem slice_between (pre t post : Text) (ht : t ≠ []) :
    slice (pre ++ t ++ post) (endPos pre) (endPos (pre ++ t)) =
      if asciiEnd pre && asciiEnd (pre ++ t) then some t else none := by
  unfold slice
  obtain ⟨q, d, hq⟩ : ∃ q d, t = q ++ [d] := by
    rcases List.eq_nil_or_concat t with h | ⟨q, d, h⟩
    · exact absurd h ht
    · exact ⟨q, d, by simpa using h⟩
  have hle : endPos (pre ++ t) = bytes (pre ++ q) + 1 := by
    subst hq; rw [← List.append_assoc]; simp [endPos]
  rcases asciiEnd_cases pre with ⟨h1, h2⟩ | ⟨h1, p, c, rfl, hc, h2⟩
  · rw [if_pos (by rw [h2, hle, bytes_append]; omega), h2, List.append_assoc, dropBytes_append]
    simp only [Option.bind_some, h1, Bool.true_and]
    rcases asciiEnd_cases (pre ++ t) with ⟨h3, h4⟩ | ⟨h3, p', c', he, hc', h4⟩
    · rw [h4, h3, bytes_append, Nat.add_sub_cancel_left, takeBytes_append]; rfl
    · rw [h3, hle, hq]
      have hcd : d = c' := by
        have := congrArg List.getLast? he
        rw [hq, ← List.append_assoc] at this
        simpa using this
      rw [bytes_append, show bytes pre + bytes q + 1 - bytes pre = bytes q + 1 by omega]
      rw [List.append_assoc]
      simp only [List.singleton_append, Bool.false_eq_true, if_false]
      exact takeBytes_inside q d post (hcd ▸ hc')
  · rw [h2, if_pos (by rw [hle, bytes_append, bytes_append]; omega), h1]
    rw [List.append_assoc, List.append_assoc, List.singleton_append, dropBytes_inside _ _ _ hc]
    rfl

/-! ### The lexer -/

/-- Lexemes (tokens and comments in order) and errors for the pieces after `pre`; `i` lexemes came
before. -/
def emit (name : Text) : Text → Nat → List Item → Res (List Token × List Text)
  | _, _, [] => .ok ([], [])
  | pre, i, .ws t :: r => emit name (pre ++ t) i r
  | pre, i, .bad msg t :: r => (emit name (pre ++ t) i r).bind fun x =>
      .ok (x.1, errorText name (posAfter pre) msg :: x.2)
  | pre, i, .tok k t :: r =>
    if asciiEnd pre && asciiEnd (pre ++ t) then
      (emit name (pre ++ t) (i + 1) r).bind fun x =>
        .ok (⟨i, t, k, posAfter pre, posAfter (pre ++ t)⟩ :: x.1, x.2)
    else .panic .slice

/-- The lexer between two tokens, after `pre` has been read. -/
structure Between (src pre rest : Text) (s : LexS) : Prop where
  src_eq : src = pre ++ rest
  chars : s.chars = rest
  off : s.off = bytes pre
  cur : s.cur = posAfter pre
  start : s.start = posAfter pre

def gather (s : LexS) (x : List Token × List Text) : Lexed :=
  ⟨s.tokens ++ x.1.filter (!isComment ·), s.comments ++ x.1.filter isComment, s.errors ++ x.2⟩

variable {name src pre rest : Text} {s : LexS}

theorem Between.eat_walk (h : Between src pre rest s) (t r : Text) :
    s.eat t r = { s with chars := r, off := bytes (pre ++ t), cur := posAfter (pre ++ t) } := by
  have := walk_start (pre ++ t)
  rw [walk_append, walk_start] at this
  simp [LexS.eat, h.off, h.cur, this]

theorem Between.eat (h : Between src pre rest s) {t r : Text} (ht : rest = t ++ r) (b : Bool) :
    Between src (pre ++ t) r { (s.eat t r).jump with atEof := b } := by
  rw [h.eat_walk]
  exact ⟨by rw [h.src_eq, ht, List.append_assoc], rfl, rfl, rfl, rfl⟩

theorem Between.genToken (h : Between src pre rest s) {t r : Text} (ht : rest = t ++ r) (hne : t ≠ [])
    (k : Tok) : Mofmt.genToken src k (s.eat t r) =
      if asciiEnd pre && asciiEnd (pre ++ t) then
        .ok (let tk : Token := ⟨s.count, t, k, posAfter pre, posAfter (pre ++ t)⟩
          { (s.eat t r).jump with
            tokens := if isComment tk then s.tokens else s.tokens ++ [tk]
            comments := if isComment tk then s.comments ++ [tk] else s.comments
            count := s.count + 1 })
      else .panic .slice := by
  have hs : slice src s.start.pos (s.eat t r).cur.pos =
      if asciiEnd pre && asciiEnd (pre ++ t) then some t else none := by
    rw [h.start, h.eat_walk, h.src_eq, ht, ← List.append_assoc]
    exact slice_between pre t r hne
  unfold Mofmt.genToken
  rw [eat_start, hs]
  by_cases hb : (asciiEnd pre && asciiEnd (pre ++ t)) = true
  · rw [if_pos hb, if_pos hb]
    simp only [h.eat_walk]
    by_cases hk : k = .LineComment ∨ k = .BlockComment
    · simp [isComment, hk, LexS.jump, h.start]
    · simp [isComment, hk, LexS.jump, h.start]
  · rw [if_neg hb, if_neg hb]

theorem isWord_slice (h : Between src pre rest s) {t r : Text} (ht : rest = t ++ r) (hne : t ≠ []) :
    slice src s.start.pos (s.eat t r).cur.pos = some t ∨
      slice src s.start.pos (s.eat t r).cur.pos = none := by
  rw [h.start, h.eat_walk, h.src_eq, ht, ← List.append_assoc]
  dsimp only [posAfter]
  rw [slice_between pre t r hne]
  split <;> simp

/-- What is left to do after a state. -/
def finish (name src : Text) (n : Nat) (s : LexS) : Res Lexed :=
  (tokenize name src n s).bind fun s => .ok ⟨s.tokens, s.comments, s.errors⟩

theorem Res.ok_bind {α β : Type} (a : α) (f : α → Res β) : (Res.ok a).bind f = f a := rfl

theorem Res.bind_assoc {α β γ : Type} (x : Res α) (f : α → Res β) (g : β → Res γ) :
    (x.bind f).bind g = x.bind fun a => (f a).bind g := by cases x <;> rfl

theorem finish_eof (n : Nat) (h : s.atEof = true) :
    finish name src (n + 1) s = .ok (gather s ([], [])) := by
  simp [finish, tokenize, h, Res.bind, gather]

/-- One piece that is not white space, then the rest. -/
theorem munch_step (n : Nat)
    (ih : ∀ (pre rest : Text) (s : LexS), Between src pre rest s → rest.length + 2 ≤ n →
      (s.atEof = true → rest = []) →
      finish name src n s = (emit name pre s.count (items rest)).bind fun x => .ok (gather s x))
    {c : Char} {cs : Text} (h : Between src pre (c :: cs) s) (hw : isWs c = false)
    (hf : s.atEof = false) (hn : (c :: cs).length + 1 ≤ n) (m : Nat) :
    (lexSource name src (m + 1) s).bind (finish name src n) =
      (emit name pre s.count (items (c :: cs))).bind fun x => .ok (gather s x) := by
  have hd := lexSource_done (name := name) (src := src) m c cs s h.chars hw
    (isWord_slice h (by simp [List.takeWhile_append_dropWhile]) (by simp))
  have hsp := munch_split c cs
  have hne : (munch c cs).text ≠ [] := by obtain ⟨t, ht⟩ := munch_text_ne c cs; simp [ht]
  have hlen := munch_rest_length c cs
  simp only [List.length_cons] at hn
  rw [items_munch cs hw]
  revert hd hsp hne hlen
  cases munch c cs with
  | tok k t r =>
    intro hd hsp hne hlen
    simp only [Munch.text_tok, Munch.item, Munch.rest] at *
    rw [show lexSource name src (m + 1) s = _ from hd, h.genToken hsp.symm hne]
    simp only [emit]
    by_cases hb : (asciiEnd pre && asciiEnd (pre ++ t)) = true
    · rw [if_pos hb, if_pos hb]
      rw [Res.ok_bind]
      rw [ih (pre ++ t) r]
      · simp only [Res.bind_assoc]
        congr 1
        funext x
        simp only [Res.ok_bind, gather]
        by_cases hc : (isComment ⟨s.count, t, k, posAfter pre, posAfter (pre ++ t)⟩) = true
        · simp [hc]; rfl
        · simp [hc]; rfl
      · have := h.eat hsp.symm s.atEof
        exact ⟨this.1, this.2, this.3, this.4, this.5⟩
      · omega
      · intro hh
        exact absurd (show s.atEof = true from hh) (by simp [hf])
    · rw [if_neg hb, if_neg hb]; rfl
  | bad msg t r =>
    intro hd hsp hne hlen
    simp only [Munch.text, Munch.item, Munch.rest] at *
    obtain ⟨b, hb, hr⟩ := hd
    rw [hr]
    simp only [genError, Res.ok_bind, emit]
    rw [ih (pre ++ t) r]
    · simp only [Res.bind_assoc]
      congr 1
      funext x
      simp only [Res.ok_bind, gather, LexS.jump, eat_start, h.start]
      simp
    · have := h.eat hsp.symm (b || s.atEof)
      exact ⟨this.1, this.2, this.3, this.4, this.5⟩
    · omega
    · intro hh
      apply hb
      simpa [LexS.jump, hf] using hh

theorem finish_spec : ∀ (n : Nat) (pre rest : Text) (s : LexS), Between src pre rest s →
    rest.length + 2 ≤ n → (s.atEof = true → rest = []) →
    finish name src n s = (emit name pre s.count (items rest)).bind fun x => .ok (gather s x) := by
  intro n
  induction n with
  | zero => intro pre rest s _ h; omega
  | succ n ih =>
    intro pre rest s h hn he
    cases hf : s.atEof with
    | true =>
      rw [finish_eof n hf, he hf]
      simp [emit, Res.bind]
    | false =>
      have hstep : finish name src (n + 1) s = (lexSource name src 2 s).bind (finish name src n) := by
        simp only [finish, tokenize, hf, Bool.false_eq_true, if_false, Res.bind_assoc]
        rfl
      rw [hstep]
      have hend : ∀ (m : Nat) (s' : LexS), s'.chars = [] →
          (lexSource name src (m + 1) s').bind (finish name src n) = .ok (gather s' ([], [])) := by
        intro m s' hc
        have : lexSource name src (m + 1) s' = .ok { s' with atEof := true } := by
          simp [lexSource, LexS.peek, hc, next_nil hc]
        rw [this]
        obtain ⟨k, rfl⟩ : ∃ k, n = k + 1 := ⟨n - 1, by omega⟩
        exact finish_eof (name := name) (src := src) (s := { s' with atEof := true }) k rfl
      cases rest with
      | nil => rw [hend _ _ h.chars]; simp [emit, Res.bind]
      | cons c cs =>
        simp only [List.length_cons] at hn
        cases hw : isWs c with
        | false =>
          exact munch_step n ih h hw hf (by simp; omega) 1
        | true =>
          have hl : lexSource name src 2 s = lexSource name src 1
              (s.eat (c :: cs.takeWhile isWs) (cs.dropWhile isWs)).jump := by
            have hp : s.peek = some c := by simp [LexS.peek, h.chars]
            conv => lhs; unfold lexSource
            rw [hp]
            dsimp only
            rw [next_eat h.chars]
            split <;> try (exfalso; revert hw; decide)
            rw [if_pos hw, skipWhile_eat _ _ _ rfl, eat_eat]
            rfl
          rw [hl, items_ws cs hw, emit]
          have hb : Between src (pre ++ c :: cs.takeWhile isWs) (cs.dropWhile isWs)
              (s.eat (c :: cs.takeWhile isWs) (cs.dropWhile isWs)).jump := by
            have := h.eat (t := c :: cs.takeWhile isWs) (r := cs.dropWhile isWs)
              (by simp [List.takeWhile_append_dropWhile]) s.atEof
            exact ⟨this.1, this.2, this.3, this.4, this.5⟩
          have hdl := dropWhile_length_le isWs cs
          have hhd : ∀ d ds, cs.dropWhile isWs = d :: ds → isWs d = false := by
            intro d ds hd
            have := List.head?_dropWhile_not isWs cs
            rw [hd] at this
            simpa using this
          revert hb hdl hhd
          generalize cs.dropWhile isWs = ds
          intro hb hdl hhd
          cases ds with
          | nil => rw [hend _ _ rfl]; simp [emit, Res.bind]; rfl
          | cons d ds =>
            rw [munch_step n ih hb (hhd d ds rfl) hf (by simp at *; omega) 0]
            rfl

/-- The lexer computes the lexemes and errors of the pieces of its source. -/
theorem lex_spec (name src : Text) : lex name src =
    (emit name [] 0 (items src)).bind fun x =>
      .ok ⟨x.1.filter (!isComment ·), x.1.filter isComment, x.2⟩ := by
  have := finish_spec (name := name) (src := src) (src.length + 2) [] src (LexS.init src)
    ⟨rfl, rfl, rfl, rfl, rfl⟩ (by omega) (by simp [LexS.init])
  simpa [finish, lex, gather, LexS.init] using this

end Mofmt
