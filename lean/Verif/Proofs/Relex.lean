import Verif.Proofs.OutText
/-
Reading back a sequence of lexemes separated by white space.
-/
namespace Mofmt
open Lexical

/-! ### Lexing a sequence of lexemes -/

theorem class_head {k : Tok} {t : Text} (h : Class k t) : ∃ c cs, t = c :: cs ∧ isWs c = false := by
  obtain ⟨c, cs, hc, hm⟩ := munch_relex (rest := []) h rfl
  refine ⟨c, cs, hc, ?_⟩
  cases hw : isWs c with
  | false => rfl
  | true =>
    exfalso
    have : munch c (cs ++ []) = .bad (c!"unexpected character: '" ++ [c] ++ c!"'") [c] (cs ++ []) := by
      have : c = ' ' ∨ c = '\t' ∨ c = '\n' ∨ c = '\x0c' ∨ c = '\r' := by
        simpa [isWs, or_assoc] using hw
      rcases this with rfl | rfl | rfl | rfl | rfl <;> rfl
    rw [hm] at this
    cases this

/-- Every lexeme may be followed by what comes after it. -/
def Sep : List (Text × Token) → Text → Prop
  | [], _ => True
  | x :: ls, tail => follows x.2.kind (lexemesText ls ++ tail) = true ∧ Sep ls tail

def wsItem (w : Text) : List Item := if w = [] then [] else [.ws w]

def itemsOf : List (Text × Token) → Text → List Item
  | [], tail => wsItem tail
  | x :: ls, tail => wsItem x.1 ++ .tok x.2.kind x.2.text :: itemsOf ls tail

theorem items_ws_then {w r : Text} (hw : w.all isWs = true) (hr : ∀ c ∈ r.head?, isWs c = false) :
    items (w ++ r) = wsItem w ++ items r := by
  cases w with
  | nil => rfl
  | cons a w =>
    simp only [List.all_cons, Bool.and_eq_true] at hw
    obtain ⟨h1, h2⟩ := takeWhile_append_stop hw.2 hr
    rw [List.cons_append, items_ws _ hw.1, h1, h2]
    rfl

theorem items_lexemes : ∀ (ls : List (Text × Token)) (tail : Text), (∀ x ∈ ls, x.1.all isWs = true) →
    (∀ x ∈ ls, Class x.2.kind x.2.text) → tail.all isWs = true → Sep ls tail →
    items (lexemesText ls ++ tail) = itemsOf ls tail
  | [], tail, _, _, ht, _ => by
    have := items_ws_then (r := []) ht (by simp)
    simpa [lexemesText, itemsOf, items_nil] using this
  | x :: ls, tail, hw, hc, ht, hs => by
    have ih := items_lexemes ls tail (fun y hy => hw y (List.mem_cons_of_mem _ hy))
      (fun y hy => hc y (List.mem_cons_of_mem _ hy)) ht hs.2
    have hcx := hc x List.mem_cons_self
    obtain ⟨c, cs, hx, hm⟩ := munch_relex hcx hs.1
    obtain ⟨c', cs', hx', hn⟩ := class_head hcx
    have hcc : c = c' := by rw [hx] at hx'; simp at hx'; exact hx'.1
    subst hcc
    have e : lexemesText (x :: ls) ++ tail = x.1 ++ (x.2.text ++ (lexemesText ls ++ tail)) := by
      simp [lexemesText]
    rw [e, items_ws_then (hw x List.mem_cons_self) (by rw [hx]; simpa using hn), itemsOf]
    congr 1
    have : x.2.text ++ (lexemesText ls ++ tail) = c :: (cs ++ (lexemesText ls ++ tail)) := by rw [hx]; rfl
    rw [this, items_munch _ hn, hm]
    simp only [Munch.item, Munch.rest, ih]

theorem asciiEnd_append {a b : Text} (hb : b ≠ []) : asciiEnd (a ++ b) = asciiEnd b := by
  unfold asciiEnd
  rw [List.getLast?_append]
  cases h : b.getLast? with
  | none => exact absurd (List.getLast?_eq_none_iff.1 h) hb
  | some c => rfl

theorem isWs_ascii {w : Text} (h : w.all isWs = true) : asciiEnd w = true := by
  unfold asciiEnd
  cases hl : w.getLast? with
  | none => rfl
  | some c =>
    have := List.all_eq_true.1 h c (List.mem_of_getLast? hl)
    have : c = ' ' ∨ c = '\t' ∨ c = '\n' ∨ c = '\x0c' ∨ c = '\r' := by
      simpa [isWs, or_assoc] using this
    rcases this with rfl | rfl | rfl | rfl | rfl <;> rfl

theorem asciiEnd_ws {pre w : Text} (hp : asciiEnd pre = true) (h : w.all isWs = true) :
    asciiEnd (pre ++ w) = true := by
  cases w with
  | nil => simpa using hp
  | cons a w => rw [asciiEnd_append (by simp)]; exact isWs_ascii h

theorem emit_wsItem {name pre : Text} {i : Nat} {w : Text} {r : List Item} :
    emit name pre i (wsItem w ++ r) = emit name (pre ++ w) i r := by
  unfold wsItem
  split
  · rename_i h; subst h; simp
  · simp [emit]

theorem emit_lexemes {name : Text} : ∀ (ls : List (Text × Token)) (tail pre : Text) (i : Nat),
    asciiEnd pre = true → (∀ x ∈ ls, x.1.all isWs = true) →
    (∀ x ∈ ls, x.2.text ≠ [] ∧ asciiEnd x.2.text = true) →
    ∃ out, emit name pre i (itemsOf ls tail) = .ok (out, []) ∧
      out.map kindText = ls.map fun x => kindText x.2
  | [], tail, pre, i, _, _, _ => by
    refine ⟨[], ?_, rfl⟩
    have := emit_wsItem (name := name) (pre := pre) (i := i) (w := tail) (r := [])
    simp only [List.append_nil] at this
    rw [itemsOf, this]; rfl
  | x :: ls, tail, pre, i, hp, hw, ht => by
    have h1 := asciiEnd_ws hp (hw x List.mem_cons_self)
    have h2 : asciiEnd (pre ++ x.1 ++ x.2.text) = true := by
      rw [asciiEnd_append (ht x List.mem_cons_self).1]; exact (ht x List.mem_cons_self).2
    obtain ⟨out, e1, e2⟩ := emit_lexemes ls tail (pre ++ x.1 ++ x.2.text) (i + 1) h2
      (fun y hy => hw y (List.mem_cons_of_mem _ hy)) (fun y hy => ht y (List.mem_cons_of_mem _ hy))
    rw [itemsOf, emit_wsItem, emit, h1, h2, e1]
    exact ⟨_, rfl, by simp [e2, kindText]⟩

theorem filter_kindText {p : Token → Bool} {q : Tok × Text → Bool} (h : ∀ t, p t = q (kindText t)) (l : List Token) :
    (l.filter p).map kindText = (l.map kindText).filter q := by
  induction l with
  | nil => rfl
  | cons t l ih =>
    simp only [List.filter_cons, List.map_cons, h t]
    split <;> simp [ih]

/-- A sequence of lexemes that are separated well is read back. -/
theorem lex_lexemes {name : Text} {ls : List (Text × Token)} {tail : Text}
    (hw : ∀ x ∈ ls, x.1.all isWs = true) (hc : ∀ x ∈ ls, Class x.2.kind x.2.text)
    (ha : ∀ x ∈ ls, asciiEnd x.2.text = true) (ht : tail.all isWs = true) (hs : Sep ls tail) :
    ∃ l, lex name (lexemesText ls ++ tail) = .ok l ∧ l.errors = [] ∧
      l.tokens.map kindText = ((ls.map (·.2)).filter (fun t => !isComment t)).map kindText ∧
      l.comments.map kindText = ((ls.map (·.2)).filter isComment).map kindText := by
  obtain ⟨out, e1, e2⟩ := emit_lexemes (name := name) ls tail [] 0 rfl hw
    (fun x hx => ⟨class_ne_nil (hc x hx), ha x hx⟩)
  rw [lex_spec, items_lexemes ls tail hw hc ht hs, e1]
  refine ⟨_, rfl, rfl, ?_, ?_⟩
  · have h := filter_kindText (p := fun t => !isComment t)
      (q := fun x => !(x.1 == .LineComment || x.1 == .BlockComment)) (fun t => by rw [Bool.eq_iff_iff]; simp [isComment, kindText])
    rw [h (ls.map (·.2))]
    refine (h out).trans ?_
    rw [e2]; simp [Function.comp_def]
  · have h := filter_kindText (p := isComment)
      (q := fun x => x.1 == .LineComment || x.1 == .BlockComment) (fun t => by rw [Bool.eq_iff_iff]; simp [isComment, kindText])
    rw [h (ls.map (·.2))]
    refine (h out).trans ?_
    rw [e2]; simp [Function.comp_def]

/-- The texts of lexemes end with an ASCII character. -/
theorem emit_asciiEnd {name : Text} : ∀ (its : List Item) (pre : Text) (i : Nat) (ls : List Token) (es : List Text),
    (∀ k t, Item.tok k t ∈ its → t ≠ []) →
    emit name pre i its = .ok (ls, es) → ∀ t ∈ ls, asciiEnd t.text = true
  | [], _, _, ls, _, _, h, t, ht => by simp [emit] at h; rw [h.1] at ht; cases ht
  | .ws w :: its, pre, i, ls, es, hn, h, t, ht => by
    rw [emit] at h
    exact emit_asciiEnd its _ _ _ _ (fun k t hk => hn k t (List.mem_cons_of_mem _ hk)) h t ht
  | .bad m w :: its, pre, i, ls, es, hn, h, t, ht => by
    obtain ⟨es', h1, _⟩ := emit_cons_bad h
    exact emit_asciiEnd its _ _ _ _ (fun k t hk => hn k t (List.mem_cons_of_mem _ hk)) h1 t ht
  | .tok k w :: its, pre, i, ls, es, hn, h, t, ht => by
    obtain ⟨_, h2, ls', h3, h4⟩ := emit_cons_tok h
    subst h4
    rcases List.mem_cons.mp ht with rfl | ht
    · rw [asciiEnd_append (hn k w List.mem_cons_self)] at h2; exact h2
    · exact emit_asciiEnd its _ _ _ _ (fun k t hk => hn k t (List.mem_cons_of_mem _ hk)) h3 t ht

theorem lex_asciiEnd {name src : Text} {l : Lexed} (h : lex name src = .ok l) :
    ∀ t ∈ l.tokens ++ l.comments, asciiEnd t.text = true := by
  obtain ⟨ls, h1, h2, h3⟩ := lex_ok h
  intro t ht
  refine emit_asciiEnd _ _ _ _ _ (fun k t hk => class_ne_nil (items_class _ _ _ hk)) h1 t ?_
  rw [h2, h3, List.mem_append] at ht
  rcases ht with ht | ht <;> exact (List.mem_filter.mp ht).1

/-! ### Which lexemes may touch -/

/-- kinds that letters and digits extend -/
def stickWord (k : Tok) : Bool := wordy k || k == .UInt || k == .UReal || k == .LineComment

theorem stickWord_sound {k : Tok} {c : Char} (hk : stickWord k = false) (hc : wordChar c = true) :
    sticks k c = false := by
  have hne : ∀ d : Char, wordChar d = false → c ≠ d := by rintro d hd rfl; rw [hc] at hd; cases hd
  have h1 := hne '=' (by decide)
  have h2 := hne '>' (by decide)
  have h3 := hne '/' (by decide)
  have h4 := hne '*' (by decide)
  have h5 := hne '+' (by decide)
  have h6 := hne '-' (by decide)
  have h7 := hne '^' (by decide)
  simp only [stickWord, Bool.or_eq_false_iff] at hk
  cases k <;> simp_all [sticks]

/-- Can a token of kind `k'` directly follow one of kind `k`? -/
def safePair (k k' : Tok) : Bool :=
  match spelling k' with
  | some w => match w with
    | [] => false
    | c :: _ => !sticks k c
  | none => match k' with
    | .Identifier => !stickWord k && !sticks k '\''
    | .String => !sticks k '"'
    | .UInt | .UReal | .Bool => !stickWord k
    | _ => false

theorem safePair_sound {k k' : Tok} {t rest : Text} (h : safePair k k' = true) (hc : Class k' t) :
    follows k (t ++ rest) = true := by
  have hsp : ∀ w, spelling k' = some w → w = t → follows k (t ++ rest) = true := by
    rintro w hw rfl
    unfold safePair at h
    rw [hw] at h
    cases w with
    | nil => cases h
    | cons c w => simpa [follows] using h
  have hword : ∀ c cs, t = c :: cs → wordChar c = true → stickWord k = false →
      follows k (t ++ rest) = true := by
    rintro c cs rfl hc hk
    simp [follows, stickWord_sound hk hc]
  cases k'
  case EOF => cases hc
  case LineComment => cases h
  case BlockComment => cases h
  case Bool =>
    simp only [safePair, spelling, Bool.not_eq_true'] at h
    rcases hc with rfl | rfl
    · exact hword 't' _ rfl (by decide) h
    · exact hword 'f' _ rfl (by decide) h
  case Identifier =>
    simp only [safePair, spelling, Bool.and_eq_true, Bool.not_eq_true'] at h
    rcases hc with hc | ⟨b, rfl, _⟩
    · cases t with
      | nil => simp [isWord] at hc
      | cons c cs =>
        have := hc.1
        simp only [isWord, Bool.and_eq_true] at this
        exact hword c cs rfl (wordStart_wordChar this.1) h.1
    · simp [follows, h.2]
  case String =>
    simp only [safePair, spelling, Bool.not_eq_true'] at h
    obtain ⟨b, rfl, _⟩ := hc
    simp [follows, h]
  case UInt =>
    simp only [safePair, spelling, Bool.not_eq_true'] at h
    cases t with
    | nil => exact absurd rfl hc.1
    | cons c cs =>
      have := hc.2
      simp only [List.all_cons, Bool.and_eq_true] at this
      exact hword c cs rfl (digit_wordChar this.1) h
  case UReal =>
    simp only [safePair, spelling, Bool.not_eq_true'] at h
    obtain ⟨ds, fr, ex, rfl, hd, hds, _⟩ := hc
    cases ds with
    | nil => exact absurd rfl hd
    | cons c cs =>
      simp only [List.all_cons, Bool.and_eq_true] at hds
      exact hword c _ (by simp; rfl) (digit_wordChar hds.1) h
  all_goals
    have : spelling _ = some t := hc
    exact hsp t this rfl

/-- The formatter puts only such tokens directly after one another. -/
theorem none_safe : ∀ k' ∈ Tok.all, ∀ k ∈ Tok.all, (fullTabs.ok k' .none).has k = true → k ≠ .EOF →
    safePair k k' = true ∧ k ≠ .LineComment := by
  decide +kernel

/-! ### Neighbours in the output -/

def segLex (eol : Text) (s : Seg) : Text × Token := (wtext eol s.1, s.2)

def PGroup.segs (g : PGroup) : List Seg := g.comments ++ [(g.white, g.tok)]

theorem groupLexemes_segs (eol : Text) (gs : List PGroup) :
    groupLexemes (gs.map (PGroup.toGroup eol)) = (gs.flatMap PGroup.segs).map (segLex eol) := by
  induction gs with
  | nil => rfl
  | cons g gs ih =>
    simp only [List.map_cons, groupLexemes, List.flatMap_cons, List.map_append] at ih ⊢
    rw [ih]
    simp [PGroup.toGroup, Group.lexemes, PGroup.segs, segLex]

/-- `s` may stand after the lexeme `t`. -/
def Next (t : Token) (s : Seg) : Prop :=
  isBrk s.1 = true ∨ (s.1 = some .sp ∧ t.kind ≠ .LineComment) ∨
    (s.1 = none ∧ (fullTabs.ok s.2.kind .none).has t.kind = true ∧ t.kind ≠ .LineComment ∧ t.kind ≠ .EOF)

def NextO : Option Token → Seg → Prop
  | none, _ => True
  | some t, s => Next t s

def Chain : Option Token → List Seg → Prop
  | _, [] => True
  | o, s :: r => NextO o s ∧ Chain (some s.2) r

theorem Chain.append : ∀ {a b : List Seg} {o : Option Token}, Chain o a →
    Chain (match a.getLast? with | some s => some s.2 | none => o) b → Chain o (a ++ b)
  | [], _, _, _, h => h
  | s :: a, b, o, h1, h2 => by
    refine ⟨h1.1, Chain.append h1.2 ?_⟩
    rw [List.getLast?_cons] at h2
    cases h : a.getLast? with
    | none => simpa [h] using h2
    | some x => simpa [h] using h2

/-- What is needed of the comments and tokens of the source. -/
structure Order (T C : List Token) : Prop where
  sorted : C.Pairwise (fun a b => a.idx < b.idx ∧ a.stop.line ≤ b.start.line)
  lines : ∀ c ∈ C, 1 ≤ c.start.line ∧ c.start.line ≤ c.stop.line
  after : ∀ t ∈ T, ∀ c ∈ C, t.idx < c.idx → t.stop.line ≤ c.start.line
  kinds : ∀ t ∈ T, t.kind ≠ .LineComment ∧ t.kind ≠ .EOF

theorem com_chain {prev : Option Token} {C : List Token} {hd : Option Seg} (hL : LineCommentsEnd C)
    (hp : ∀ t, prev = some t → t.kind ≠ .LineComment) :
    ∀ (l : List Seg) (o : Option Token),
    (∀ s ∈ l, isBrk s.1 = true ∨ (s.2.start.line = lineOf prev ∧ (s.1 = some .sp ∨
      (s.1 = none ∧ prev = none ∧ hd = some s)))) →
    (o = prev ∧ (prev = none → l.head? = hd) ∨
      ∃ c, o = some c ∧ c ∈ C ∧ lineOf prev ≤ c.stop.line ∧ (∀ s ∈ l, hd ≠ some s ∧ c.idx < s.2.idx)) →
    (∀ s ∈ l, s.2 ∈ C ∧ lineOf prev ≤ s.2.stop.line) →
    (l.map (·.2)).Pairwise (fun a b => a.idx < b.idx) →
    (∀ s ∈ l.tail, hd ≠ some s) →
    Chain o l
  | [], _, _, _, _, _, _ => trivial
  | s :: l, o, h1, h2, h3, h4, h5 => by
    simp only [List.map_cons, List.pairwise_cons] at h4
    refine ⟨?_, com_chain hL hp l (some s.2) (fun x hx => h1 x (List.mem_cons_of_mem _ hx)) ?_
      (fun x hx => h3 x (List.mem_cons_of_mem _ hx)) h4.2 ?_⟩
    · rcases h2 with ⟨rfl, h2⟩ | ⟨c, rfl, hc, hl, hh⟩
      · cases o with
        | none => trivial
        | some t =>
          rcases h1 s List.mem_cons_self with h | ⟨_, h | ⟨_, h, _⟩⟩
          · exact .inl h
          · exact .inr (.inl ⟨h, hp t rfl⟩)
          · cases h
      · obtain ⟨hh1, hh2⟩ := hh s List.mem_cons_self
        rcases h1 s List.mem_cons_self with h | ⟨hs, h | ⟨_, _, h⟩⟩
        · exact .inl h
        · refine .inr (.inl ⟨h, fun hk => ?_⟩)
          have := hL c hc hk s.2 (h3 s List.mem_cons_self).1 hh2
          omega
        · exact absurd h hh1
    · right
      refine ⟨s.2, rfl, (h3 s List.mem_cons_self).1, (h3 s List.mem_cons_self).2, ?_⟩
      intro x hx
      exact ⟨h5 x hx, h4.1 x.2 (List.mem_map_of_mem hx)⟩
    · intro x hx; exact h5 x (List.mem_of_mem_tail hx)

theorem GOK.chain {C T : List Token} {prev : Option Token} {d : Dec} {g : PGroup}
    (h : GOK fullTabs.ok C prev d g) (hO : Order T C) (hL : LineCommentsEnd C)
    (hp : ∀ t, prev = some t → t ∈ T) : Chain prev g.segs := by
  have hk : ∀ t, prev = some t → t.kind ≠ .LineComment := fun t ht => (hO.kinds t (hp t ht)).1
  cases d with
  | none =>
    obtain ⟨h1, h2⟩ := h.none rfl
    rw [PGroup.segs, h1, h2]
    refine ⟨?_, trivial⟩
    cases prev with
    | none => trivial
    | some t => exact .inr (.inr ⟨rfl, h.pair, hO.kinds t (hp t rfl)⟩)
  | space =>
    obtain ⟨h1, h2⟩ := h.space rfl
    rw [PGroup.segs, h1, h2]
    refine ⟨?_, trivial⟩
    cases prev with
    | none => trivial
    | some t => exact .inr (.inl ⟨rfl, hk t rfl⟩)
  | brk b n =>
    obtain ⟨h1, h2, _, _⟩ := h.brk b n rfl
    have hpw : (g.comments.map (·.2)).Pairwise (fun a b => a.idx < b.idx) := by
      rw [h2]; exact (hO.sorted.sublist List.filter_sublist).imp (fun h => h.1)
    refine Chain.append (com_chain (prev := prev) (hd := g.comments.head?) hL hk _ _ h.com
      (.inl ⟨rfl, fun _ => rfl⟩) ?_ hpw ?_) ⟨?_, trivial⟩
    · intro s hs
      have hm : s.2 ∈ commentsFrom (indexAfter prev) g.tok.idx C := h2 ▸ List.mem_map_of_mem hs
      simp only [commentsFrom, List.mem_filter, decide_eq_true_eq] at hm
      refine ⟨hm.1, ?_⟩
      have hl := hO.lines s.2 hm.1
      cases prev with
      | none => simp only [lineOf]; omega
      | some t =>
        have hi := hm.2.1
        simp only [indexAfter] at hi
        have := hO.after t (hp t rfl) s.2 hm.1 (by omega)
        simp only [lineOf]; omega
    · intro s hs he
      cases hc : g.comments with
      | nil => rw [hc] at hs; cases hs
      | cons x xs =>
        rw [hc] at hs he hpw
        simp only [List.head?_cons, Option.some.injEq, List.tail_cons] at hs he
        subst he
        simp only [List.map_cons, List.pairwise_cons] at hpw
        have := hpw.1 x.2 (List.mem_map_of_mem hs)
        omega
    · have : ∀ o, NextO o (g.white, g.tok) := by
        intro o
        cases o with
        | none => trivial
        | some t => exact .inl h1
      exact this _

theorem PGroup.segs_last (g : PGroup) : g.segs.getLast? = some (g.white, g.tok) := by simp [PGroup.segs]

theorem GroupsOK.chain {C T : List Token} (hO : Order T C) (hL : LineCommentsEnd C) :
    ∀ (ds : List (Dec × Token)) (gs : List PGroup) (prev : Option Token),
      GroupsOK fullTabs.ok C prev ds gs → (∀ x ∈ ds, x.2 ∈ T) → (∀ t, prev = some t → t ∈ T) →
      Chain prev (gs.flatMap PGroup.segs)
  | [], [], _, _, _, _ => trivial
  | [], _ :: _, _, h, _, _ => h.elim
  | _ :: _, [], _, h, _, _ => h.elim
  | x :: ds, g :: gs, prev, h, hT, hp => by
    rw [List.flatMap_cons]
    refine Chain.append (h.1.chain hO hL hp) ?_
    rw [g.segs_last]
    simp only [h.2.1]
    refine GroupsOK.chain hO hL ds gs (some x.2) h.2.2 (fun y hy => hT y (List.mem_cons_of_mem _ hy)) ?_
    rintro t ⟨⟩
    exact hT x List.mem_cons_self

theorem Next.follows {eol : Text} (he : IsEol eol) {t : Token} {s : Seg} (h : Next t s) (hc : Class s.2.kind s.2.text)
    (rest : Text) : follows t.kind (wtext eol s.1 ++ (s.2.text ++ rest)) = true := by
  rcases h with h | ⟨h, hk⟩ | ⟨h, h1, hk, hE⟩
  · have : ∃ c cs, wtext eol s.1 = c :: cs ∧ (c = '\n' ∨ c = '\r') := by
      generalize s.1 = w at h
      match w, h with
      | some (.nl n), _ =>
        rcases he with rfl | rfl
        · exact ⟨'\n', _, rfl, .inl rfl⟩
        · exact ⟨'\r', _, rfl, .inr rfl⟩
      | some (.bl n), _ =>
        rcases he with rfl | rfl
        · exact ⟨'\n', _, rfl, .inl rfl⟩
        · exact ⟨'\r', _, rfl, .inr rfl⟩
    obtain ⟨c, cs, hw, hcc⟩ := this
    rw [hw]
    simp only [List.cons_append, Mofmt.follows, Bool.not_eq_true']
    rcases hcc with rfl | rfl
    · cases t.kind <;> rfl
    · cases t.kind <;> rfl
  · rw [h]
    show Mofmt.follows t.kind (' ' :: (s.2.text ++ rest)) = true
    simp only [Mofmt.follows, Bool.not_eq_true']
    revert hk
    cases t.kind <;> first | (intro h; exact absurd rfl h) | (intro _; rfl)
  · rw [h]
    show Mofmt.follows t.kind (s.2.text ++ rest) = true
    exact safePair_sound (none_safe _ (Tok.mem_all _) _ (Tok.mem_all _) h1 hE).1 hc

theorem Chain.sep {eol : Text} (he : IsEol eol) : ∀ (l : List Seg) (o : Option Token), Chain o l →
    (∀ s ∈ l, Class s.2.kind s.2.text) → Sep (l.map (segLex eol)) eol
  | [], _, _, _ => trivial
  | [s], _, _, _ => by
    refine ⟨?_, trivial⟩
    rcases he with rfl | rfl
    · show (!sticks s.2.kind '\n') = true
      cases s.2.kind <;> rfl
    · show (!sticks s.2.kind '\r') = true
      cases s.2.kind <;> rfl
  | s :: s' :: l, o, h, hc => by
    refine ⟨?_, Chain.sep he (s' :: l) _ h.2 (fun x hx => hc x (List.mem_cons_of_mem _ hx))⟩
    have : lexemesText (List.map (segLex eol) (s' :: l)) ++ eol =
        wtext eol s'.1 ++ (s'.2.text ++ (lexemesText (l.map (segLex eol)) ++ eol)) := by
      simp [lexemesText, segLex]
    rw [this]
    exact Next.follows he h.2.1 (hc s' (by simp)) _

/-! ### Line comments and carriage returns -/

theorem munch_line {c : Char} {cs t r : Text} (h : munch c cs = .tok .LineComment t r) :
    ∀ x ∈ r.head?, x = '\n' ∨ x = '\r' := by
  obtain ⟨b, rfl, _⟩ := munch_class h
  have hs := munch_split c cs
  rw [h] at hs
  simp only [Munch.text_tok, Munch.rest_tok, List.cons_append, List.cons.injEq] at hs
  obtain ⟨rfl, rfl⟩ := hs
  have e : munch '/' ('/' :: (b ++ r)) = .tok .LineComment
      ('/' :: ('/' :: (b ++ r)).takeWhile fun c => !(c == '\r' || c == '\n'))
      (('/' :: (b ++ r)).dropWhile fun c => !(c == '\r' || c == '\n')) := rfl
  rw [e] at h
  simp only [Munch.tok.injEq] at h
  intro x hx
  rw [← h.2.2] at hx
  have := List.head?_dropWhile_not (fun c => !(c == '\r' || c == '\n')) ('/' :: (b ++ r))
  rw [Option.mem_def] at hx
  rw [hx] at this
  simp at this
  by_cases hr : x = '\r'
  · exact .inr hr
  · exact .inl (this hr)

theorem NoLoneCr.suffix {a b : Text} (h : NoLoneCr (a ++ b)) : NoLoneCr b := by
  intro x y hxy
  exact h (a ++ x) y (by rw [hxy]; simp)

theorem emit_line {name : Text} : ∀ (cs : Text) (pre : Text) (i : Nat) (ls : List Token) (es : List Text),
    NoLoneCr cs → emit name pre i (items cs) = .ok (ls, es) →
    ls.Pairwise (fun a b => a.kind = .LineComment → a.stop.line < b.start.line) := by
  intro cs
  induction cs using items_induct with
  | nil =>
    intro pre i ls es _ h
    simp [items_nil, emit] at h
    rw [h.1]; exact List.Pairwise.nil
  | ws c cs hc ih =>
    intro pre i ls es hn h
    rw [items_ws cs hc, emit] at h
    refine ih _ _ _ _ ?_ h
    have : c :: cs = (c :: cs.takeWhile isWs) ++ cs.dropWhile isWs := by
      simp [List.takeWhile_append_dropWhile]
    rw [this] at hn
    exact hn.suffix
  | munch c cs hc ih =>
    intro pre i ls es hn h
    have hsp := munch_split c cs
    have hn' : NoLoneCr (munch c cs).rest := by rw [← hsp] at hn; exact hn.suffix
    rw [items_munch cs hc] at h
    cases hm : munch c cs with
    | bad m t r =>
      rw [hm] at h ih hn'
      obtain ⟨es', h1, _⟩ := emit_cons_bad h
      exact ih _ _ _ _ hn' h1
    | tok k t r =>
      rw [hm] at h ih hn'
      obtain ⟨_, _, ls', h3, h4⟩ := emit_cons_tok h
      subst h4
      refine List.pairwise_cons.mpr ⟨?_, ih _ _ _ _ hn' h3⟩
      intro b hb hk
      have hk : k = .LineComment := hk
      subst hk
      obtain ⟨x, y, e1, e2, _, e4⟩ := emit_mem _ _ _ _ _ h3 b hb
      obtain ⟨d, ds, hd, hw⟩ := class_head (items_class _ _ _ e4)
      rw [items_text, Munch.rest_tok] at e1
      have hline := munch_line hm
      have hnl : '\n' ∈ x := by
        cases x with
        | nil =>
          exfalso
          rw [e1, hd] at hline
          rcases hline d (by simp) with rfl | rfl <;> revert hw <;> decide
        | cons z x =>
          rw [e1] at hline
          rcases hline z (by simp) with rfl | rfl
          · exact List.mem_cons_self
          · have hcr := hn' [] (x ++ b.text ++ y) (by rw [Munch.rest_tok, e1]; simp)
            cases x with
            | nil =>
              exfalso
              rw [hd] at hcr
              simp at hcr
              subst hcr
              revert hw; decide
            | cons z' x =>
              simp at hcr
              subst hcr
              simp
      rw [e2]
      show (position (pre ++ t)).line < _
      simp only [position, newlines_append]
      have : 0 < newlines x := by
        unfold newlines
        exact List.count_pos_iff.mpr hnl
      omega

/-- In a text without lone carriage returns line comments end their lines. -/
theorem line_comments_end {name src : Text} {l : Lexed} (h : lex name src = .ok l) (hn : NoLoneCr src) :
    LineCommentsEnd l.comments := by
  obtain ⟨ls, h1, h2, h3⟩ := lex_ok h
  have hp := (emit_line _ _ _ _ _ hn h1).and (pairwise_of_idx (emit_idx _ _ _ _ _ h1))
  intro c hc hk c' hc' hi
  rw [h3] at hc hc'
  rcases pairwise_two hp (List.mem_filter.mp hc).1 (List.mem_filter.mp hc').1 with rfl | h | h
  · omega
  · exact h.1 hk
  · have := h.2; omega

end Mofmt
