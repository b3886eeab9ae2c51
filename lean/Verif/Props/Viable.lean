import Verif.Proofs.Viable
/-
C55: where the first error is.
-/
namespace Mofmt
open Lexical
namespace Via

/-! ### Cutting a text before a token and going on differently -/

/-- No token goes on behind another one over the end of a line. -/
theorem no_newline {k k' : Tok} {t u : Text} (h : Class k t) (h' : Class k' (t ++ u)) (hn : '\n' ∈ u) :
    k = .Slash ∧ u.head? = some '*' := by
  have hu : u ≠ [] := by rintro rfl; simp at hn
  have hm : '\n' ∈ t ++ u := List.mem_append_right _ hn
  have key : ∀ k ∈ Tok.all, ∀ w ∈ spelling k, '\n' ∉ w := by decide
  have digits : ∀ w : Text, w.all digit = true → '\n' ∉ w := by
    intro w h hw
    exact absurd (List.all_eq_true.1 h _ hw) (by decide)
  have heads : ∀ {c : Char} {cs : Text}, t ++ u = c :: cs → ∃ t', t = c :: t' ∧ cs = t' ++ u := by
    intro c cs e
    obtain ⟨d, t', rfl, _⟩ := class_head h
    simp only [List.cons_append, List.cons.injEq] at e
    exact ⟨t', by rw [e.1], e.2.symm⟩
  have spelt : ∀ {c : Char} {t' : Text}, (c = '"' ∨ c = '\'') → spelling k ≠ some (c :: t') := by
    intro c t' hc e
    have : ∀ k ∈ Tok.all, ∀ w ∈ spelling k, w.head? ≠ some '"' ∧ w.head? ≠ some '\'' := by decide
    have := this k (Tok.mem_all k) _ e
    rcases hc with rfl | rfl
    · exact this.1 rfl
    · exact this.2 rfl
  cases k'
  case EOF => exact h'.elim
  case LineComment =>
    obtain ⟨b, e, h1, _⟩ := h'
    rw [e] at hm
    simp [h1] at hm
  case Bool => rcases h' with e | e <;> · rw [e] at hm; exact absurd hm (by decide)
  case UInt => exact absurd hm (digits _ h'.2)
  case UReal =>
    exfalso
    obtain ⟨ds, fr, ex, e, _, h2, hf, he, _⟩ := h'
    rw [e] at hm
    simp only [List.mem_append] at hm
    rcases hm with (hm | hm) | hm
    · exact digits _ h2 hm
    · rcases hf with rfl | ⟨d, rfl, hd⟩
      · simp at hm
      · simp at hm; exact digits _ hd hm
    · rcases he with rfl | ⟨e, sg, d, rfl, h3, h4, hd⟩
      · simp at hm
      · simp only [List.mem_cons, List.mem_append] at hm
        rcases hm with hm | hm | hm
        · rcases h3 with rfl | rfl <;> simp at hm
        · rcases h4 with rfl | rfl | rfl <;> simp at hm
        · exact digits _ hd hm
  case Identifier =>
    exfalso
    rcases h' with ⟨h1, _⟩ | ⟨b, e, hb⟩
    · have : ∀ w : Text, isWord w = true → '\n' ∉ w := by
        intro w h hw
        cases w with
        | nil => cases hw
        | cons c cs =>
          simp only [isWord, Bool.and_eq_true] at h
          rcases List.mem_cons.1 hw with rfl | hw
          · exact absurd h.1 (by decide)
          · exact absurd (List.all_eq_true.1 h.2 _ hw) (by decide)
      exact this _ h1 hm
    · obtain ⟨t', rfl, rfl⟩ := heads e
      have h1 : quotedTail t' = true := by
        cases k
        case Identifier =>
          rcases h with ⟨h, _⟩ | ⟨b, e, hb⟩
          · simp [isWord] at h; exact absurd h.1 (by decide)
          · simp at e; rw [e]; exact hb
        case EOF => exact h.elim
        case Bool => rcases h with h | h <;> simp at h
        case String => obtain ⟨b, e, _⟩ := h; simp at e
        case UInt =>
          have := h.2
          simp only [List.all_cons, Bool.and_eq_true] at this
          exact absurd this.1 (by decide)
        case UReal =>
          obtain ⟨ds, fr, ex, e, h0, h2, _⟩ := h
          cases ds with
          | nil => exact absurd rfl h0
          | cons d ds =>
            simp at e h2
            rw [← e.1] at h2
            exact absurd h2.1 (by decide)
        case LineComment => obtain ⟨b, e, _⟩ := h; simp at e
        case BlockComment => obtain ⟨b, e, _⟩ := h; simp at e
        all_goals exact absurd h (spelt (.inr rfl))
      have e1 := munchQ_relex t' u h1
      have e2 := munchQ_relex (t' ++ u) [] hb
      rw [List.append_nil, e1] at e2
      simp at e2
      exact hu e2
  case String =>
    exfalso
    obtain ⟨b, e, hb⟩ := h'
    obtain ⟨t', rfl, rfl⟩ := heads e
    have h1 : stringTail t' = true := by
      cases k
      case Identifier =>
        rcases h with ⟨h, _⟩ | ⟨b, e, hb⟩
        · simp [isWord] at h; exact absurd h.1 (by decide)
        · simp at e
      case EOF => exact h.elim
      case Bool => rcases h with h | h <;> simp at h
      case String => obtain ⟨b, e, hb⟩ := h; simp at e; rw [e]; exact hb
      case UInt =>
        have := h.2
        simp only [List.all_cons, Bool.and_eq_true] at this
        exact absurd this.1 (by decide)
      case UReal =>
        obtain ⟨ds, fr, ex, e, h0, h2, _⟩ := h
        cases ds with
        | nil => exact absurd rfl h0
        | cons d ds =>
          simp at e h2
          rw [← e.1] at h2
          exact absurd h2.1 (by decide)
      case LineComment => obtain ⟨b, e, _⟩ := h; simp at e
      case BlockComment => obtain ⟨b, e, _⟩ := h; simp at e
      all_goals exact absurd h (spelt (.inl rfl))
    have e1 := munchStr_relex t' u h1
    have e2 := munchStr_relex (t' ++ u) [] hb
    rw [List.append_nil, e1] at e2
    simp at e2
    exact hu e2
  case BlockComment =>
    obtain ⟨b, e, hb⟩ := h'
    obtain ⟨t', rfl, e'⟩ := heads e
    have key : ∀ k ∈ Tok.all, ∀ w ∈ spelling k, w.head? = some '/' → k = .Slash ∧ w = ['/'] := by decide
    have slash : spelling k = some ('/' :: t') → k = .Slash ∧ u.head? = some '*' := by
      intro h
      obtain ⟨h1, h2⟩ := key k (Tok.mem_all k) _ h rfl
      simp only [List.cons.injEq, true_and] at h2
      subst h2
      exact ⟨h1, by rw [List.nil_append] at e'; rw [← e']; rfl⟩
    cases k
    case EOF => exact h.elim
    case Bool => rcases h with h | h <;> simp at h
    case Identifier =>
      rcases h with ⟨h, _⟩ | ⟨b, e, hb⟩
      · simp [isWord] at h; exact absurd h.1 (by decide)
      · simp at e
    case String => obtain ⟨b, e, _⟩ := h; simp at e
    case UInt =>
      have := h.2
      simp only [List.all_cons, Bool.and_eq_true] at this
      exact absurd this.1 (by decide)
    case UReal =>
      obtain ⟨ds, fr, ex, e, h0, h2, _⟩ := h
      cases ds with
      | nil => exact absurd rfl h0
      | cons d ds =>
        simp at e h2
        rw [← e.1] at h2
        exact absurd h2.1 (by decide)
    case LineComment =>
      obtain ⟨b', e2, _⟩ := h
      simp at e2
      rw [e2] at e'
      simp at e'
    case BlockComment =>
      exfalso
      obtain ⟨b', e2, hb'⟩ := h
      simp at e2
      subst e2
      simp at e'
      subst e'
      have e1 := munchBlk_relex ('*' :: b') u hb'
      have e2 := munchBlk_relex ('*' :: (b' ++ u)) [] hb
      rw [List.append_nil] at e2
      rw [List.cons_append, e2] at e1
      simp at e1
      exact hu e1
    all_goals exact slash h
  all_goals
    exfalso
    exact key _ (Tok.mem_all _) _ h' hm

/-- A piece may also stand before a text that agrees with the old one up to white space, where a new line
begins instead. -/
theorem before_cut {k : Tok} {t T w S R : Text} (h : (Chunk.token k t).Before (T ++ (w ++ S))) :
    (Chunk.token k t).Before (T ++ (w ++ '\n' :: R)) := by
  obtain ⟨h1, h2, h3⟩ := h
  have hs : k = .Slash → (T ++ (w ++ '\n' :: R)).head? ≠ some '*' := by
    intro hk
    have := h3 hk
    cases T with
    | cons c T => simpa using this
    | nil =>
      cases w with
      | cons c w => simpa using this
      | nil => simp
  refine ⟨h1, ?_, hs⟩
  intro u v hu hr k' hc
  by_cases hp : u <+: T ++ w
  · obtain ⟨v', hv⟩ := hp
    exact h2 u (v' ++ S) hu (by rw [← List.append_assoc, ← List.append_assoc, hv]) k' hc
  · have hn : '\n' ∈ u := by
      rw [← List.append_assoc] at hr
      rcases List.append_eq_append_iff.mp hr with ⟨a, h4, h5⟩ | ⟨a, h4, h5⟩
      · cases a with
        | nil => exact absurd ⟨[], by simpa using h4⟩ hp
        | cons c a =>
          simp only [List.cons_append, List.cons.injEq] at h5
          rw [h4, ← h5.1]
          simp
      · exact absurd ⟨a, h4.symm⟩ hp
    obtain ⟨h4, h5⟩ := no_newline h1 hc hn
    refine hs h4 ?_
    rw [hr]
    cases u with
    | nil => exact absurd rfl hu
    | cons c u => simpa using h5

/-- the text of some pieces -/
def flat (ps : List (Text × Chunk)) : Text := ps.flatMap fun x => x.1 ++ x.2.text

theorem divided_text {src : Text} {ps : List (Text × Chunk)} (h : Divided src ps) : ∃ w, w.all ws = true ∧ src = flat ps ++ w := by
  induction h with
  | @done w hw => exact ⟨w, hw, by simp [flat]⟩
  | next _ _ _ ih =>
    obtain ⟨w, hw, rfl⟩ := ih
    exact ⟨w, hw, by simp [flat]⟩

/-- A text can be cut in the white space before a token, and continued on a new line. -/
theorem divided_cut : ∀ {ps1 ps2 qs : List (Text × Chunk)} {src w R : Text} {p : Chunk},
    Divided src (ps1 ++ (w, p) :: ps2) → (∀ x ∈ ps1, x.2.problem = none) →
    Divided (w ++ '\n' :: R) qs → Divided (flat ps1 ++ (w ++ '\n' :: R)) (ps1 ++ qs)
  | [], _, _, _, _, _, _, _, _, h => by simpa [flat] using h
  | (w1, p1) :: ps1, ps2, qs, src, w, R, p, h, hp, hq => by
    cases h with
    | @next _ r _ _ hw hb hd =>
      have ih := divided_cut (R := R) hd (fun x hx => hp x (List.mem_cons_of_mem _ hx)) hq
      have e : flat ((w1, p1) :: ps1) ++ (w ++ '\n' :: R) = w1 ++ p1.text ++ (flat ps1 ++ (w ++ '\n' :: R)) := by
        simp [flat]
      rw [e]
      refine .next hw ?_ ih
      obtain ⟨w', _, hr⟩ := divided_text hd
      have hp1 := hp _ List.mem_cons_self
      cases p1 with
      | token k t =>
        have e2 : r = flat ps1 ++ (w ++ (p.text ++ flat ps2 ++ w')) := by rw [hr]; simp [flat]
        rw [e2] at hb
        exact before_cut hb
      | stray c => simp [Chunk.problem] at hp1
      | broken b c => simp [Chunk.problem] at hp1
      | openString b => simp [Chunk.problem] at hp1
      | openQuoted b => simp [Chunk.problem] at hp1
      | openComment b => simp [Chunk.problem] at hp1

/-! ### Texts of given kinds -/

/-- a token of the kind -/
def sampleText (k : Tok) : Text :=
  match k with
  | .Identifier => c!"a"
  | .Bool => c!"true"
  | .String => c!"\"\""
  | .UInt => c!"0"
  | .UReal => c!"0."
  | k => (spelling k).getD []

/-- kinds of tokens other than comments -/
def plain (k : Tok) : Bool := k != .EOF && k != .LineComment && k != .BlockComment

theorem sample_class {k : Tok} (h : plain k = true) : Class k (sampleText k) := by
  cases k
  case EOF => simp [plain] at h
  case LineComment => simp [plain] at h
  case BlockComment => simp [plain] at h
  case Identifier =>
    refine .inl ⟨by decide, ?_⟩
    rintro (e | e | ⟨k, e⟩)
    · cases e
    · cases e
    · have : ∀ k ∈ Tok.all, spelling k ≠ some c!"a" := by decide
      exact this k (Tok.mem_all k) e
  case Bool => exact .inl rfl
  case String => exact ⟨_, rfl, by decide⟩
  case UInt => exact ⟨by decide, by decide⟩
  case UReal => exact ⟨c!"0", c!".", [], rfl, by decide, by decide, .inr ⟨[], rfl, rfl⟩, .inl rfl, .inl (by decide)⟩
  all_goals rfl

/-- the text of some kinds: each followed by a space -/
def spell : List Tok → Text
  | [] => []
  | k :: ks => sampleText k ++ ' ' :: spell ks

/-- the pieces of that text, preceded by some white space -/
def pieces (w : Text) : List Tok → List (Text × Chunk)
  | [] => []
  | k :: ks => (w, .token k (sampleText k)) :: pieces c!" " ks

theorem spell_divided : ∀ (ks : List Tok) (w : Text), (∀ k ∈ ks, plain k = true) → w.all ws = true →
    Divided (w ++ spell ks) (pieces w ks)
  | [], w, _, hw => by simpa [spell, pieces] using Divided.done hw
  | k :: ks, w, h, hw => by
    have hk := h k List.mem_cons_self
    have hc := sample_class hk
    have hf : follows k (' ' :: spell ks) = true := by
      revert hk
      cases k <;> first | (intro h; exact absurd h (by decide)) | exact fun _ => rfl
    have ih := spell_divided ks c!" " (fun k hk => h k (List.mem_cons_of_mem _ hk)) rfl
    obtain ⟨c, cs, e, hm⟩ := munch_relex hc hf
    have := Divided.next (p := .token k (sampleText k)) hw (token_before hm) ih
    simpa [spell, pieces, Chunk.text] using this

/-! ### The tokens -/

/-- the kinds of the tokens other than comments -/
def kindsOf (ps : List (Text × Chunk)) : List Tok :=
  ps.filterMap fun x => match x.2 with
    | .token k _ => if k = .LineComment ∨ k = .BlockComment then none else some k
    | _ => none

theorem kindsOf_append {ps qs : List (Text × Chunk)} : kindsOf (ps ++ qs) = kindsOf ps ++ kindsOf qs := by
  simp [kindsOf]

theorem kindsOf_pieces : ∀ (ks : List Tok) (w : Text), (∀ k ∈ ks, plain k = true) → kindsOf (pieces w ks) = ks
  | [], _, _ => rfl
  | k :: ks, w, h => by
    have ih := kindsOf_pieces ks c!" " (fun k hk => h k (List.mem_cons_of_mem _ hk))
    have hk := h k List.mem_cons_self
    simp only [plain, Bool.and_eq_true, bne_iff_ne] at hk
    have e : kindsOf (pieces w (k :: ks)) = k :: kindsOf (pieces c!" " ks) := by
      simp [kindsOf, pieces, hk.1.2, hk.2]
    rw [e, ih]

theorem lexemes_kinds : ∀ (ps : List (Text × Chunk)) (pre : Text) (i : Nat),
    ((lexemes pre i ps).filter (fun t => !isComment t)).map (·.kind) = kindsOf ps
  | [], _, _ => rfl
  | (w, p) :: ps, pre, i => by
    have ih := lexemes_kinds ps
    cases p with
    | token k t =>
      by_cases hk : k = .LineComment ∨ k = .BlockComment
      · have e : kindsOf ((w, .token k t) :: ps) = kindsOf ps := by simp [kindsOf, hk]
        rw [e, ← ih (pre ++ w ++ t) (i + 1), lexemes, List.filter_cons_of_neg (by simp only [isComment, hk, decide_true, Bool.not_true]; decide)]
      · have e : kindsOf ((w, .token k t) :: ps) = k :: kindsOf ps := by simp [kindsOf, hk]
        rw [e, ← ih (pre ++ w ++ t) (i + 1), lexemes, List.filter_cons_of_pos (by simpa [isComment] using hk)]
        rfl
    | stray c => exact ih _ _
    | broken b c => exact ih _ _
    | openString b => exact ih _ _
    | openQuoted b => exact ih _ _
    | openComment b => exact ih _ _

/-- The piece of a token. -/
theorem lexemes_split : ∀ (ps : List (Text × Chunk)) (pre : Text) (i j : Nat) (t : Token),
    ((lexemes pre i ps).filter (fun t => !isComment t))[j]? = some t →
    ∃ ps1 w p ps2, ps = ps1 ++ (w, p) :: ps2 ∧ t.start = position (pre ++ flat ps1 ++ w) ∧
      kindsOf ps1 = (kindsOf ps).take j
  | [], _, _, _, _, h => by simp [lexemes] at h
  | (w, p) :: ps, pre, i, j, t, h => by
    have skip : ∀ {i'}, ((lexemes (pre ++ w ++ p.text) i' ps).filter (fun t => !isComment t))[j]? = some t →
        kindsOf ((w, p) :: ps) = kindsOf ps → kindsOf [(w, p)] = [] → ∃ ps1 w' p' ps2, (w, p) :: ps = ps1 ++ (w', p') :: ps2 ∧
          t.start = position (pre ++ flat ps1 ++ w') ∧ kindsOf ps1 = (kindsOf ((w, p) :: ps)).take j := by
      intro i' h1 e e0
      obtain ⟨ps1, w', p', ps2, rfl, h2, h3⟩ := lexemes_split ps _ _ j t h1
      refine ⟨(w, p) :: ps1, w', p', ps2, rfl, by simpa [flat] using h2, ?_⟩
      rw [e, ← h3, show (w, p) :: ps1 = [(w, p)] ++ ps1 from rfl, kindsOf_append, e0, List.nil_append]
    cases p with
    | token k x =>
      by_cases hk : k = .LineComment ∨ k = .BlockComment
      · have e : kindsOf ((w, .token k x) :: ps) = kindsOf ps := by simp [kindsOf, hk]
        refine skip (i' := i + 1) ?_ e (by simp [kindsOf, hk])
        rwa [lexemes, List.filter_cons_of_neg (by simp only [isComment, hk, decide_true, Bool.not_true]; decide)] at h
      · have e : ∀ ps, kindsOf ((w, .token k x) :: ps) = k :: kindsOf ps := by intro ps; simp [kindsOf, hk]
        simp only [lexemes, isComment, hk, List.filter_cons, decide_false, Bool.not_false, if_true] at h
        cases j with
        | zero =>
          simp only [List.getElem?_cons_zero, Option.some.injEq] at h
          exact ⟨[], w, _, ps, rfl, by rw [← h]; simp [flat], by simp [kindsOf]⟩
        | succ j =>
          simp only [List.getElem?_cons_succ] at h
          obtain ⟨ps1, w', p', ps2, rfl, h2, h3⟩ := lexemes_split ps _ _ j t h
          refine ⟨(w, .token k x) :: ps1, w', p', ps2, rfl, by simpa [flat, Chunk.text] using h2, ?_⟩
          rw [e, e, h3, List.take_succ_cons]
    | stray c => exact skip (i' := i) h rfl rfl
    | broken b c => exact skip (i' := i) h rfl rfl
    | openString b => exact skip (i' := i) h rfl rfl
    | openQuoted b => exact skip (i' := i) h rfl rfl
    | openComment b => exact skip (i' := i) h rfl rfl

theorem problems_nil (name : Text) : ∀ (ps : List (Text × Chunk)) (pre : Text),
    problems name pre ps = [] ↔ ∀ x ∈ ps, x.2.problem = none
  | [], pre => by simp [problems]
  | (w, p) :: ps, pre => by
    simp only [problems, List.append_eq_nil_iff, problems_nil name ps, List.mem_cons, forall_eq_or_imp]
    refine and_congr ?_ Iff.rfl
    cases p.problem <;> simp

theorem awkward_tokens : ∀ (ps : List (Text × Chunk)), (∀ x ∈ ps, x.2.problem = none) →
    awkward false ps = ps.any (fun x => !endsAscii x.2.text)
  | [], _ => rfl
  | (w, p) :: ps, h => by
    have ih := awkward_tokens ps (fun x hx => h x (List.mem_cons_of_mem _ hx))
    have hp := h _ List.mem_cons_self
    cases p with
    | token k t => simp [awkward, ih, Chunk.text]
    | stray c => simp [Chunk.problem] at hp
    | broken b c => simp [Chunk.problem] at hp
    | openString b => simp [Chunk.problem] at hp
    | openQuoted b => simp [Chunk.problem] at hp
    | openComment b => simp [Chunk.problem] at hp

theorem pieces_tokens : ∀ (ks : List Tok) (w : Text), ∀ x ∈ pieces w ks, ∃ k ∈ ks, x.2 = .token k (sampleText k)
  | [], _, x, hx => by simp [pieces] at hx
  | k :: ks, w, x, hx => by
    simp only [pieces, List.mem_cons] at hx
    rcases hx with rfl | hx
    · exact ⟨k, List.mem_cons_self, rfl⟩
    · obtain ⟨k', h1, h2⟩ := pieces_tokens ks _ x hx
      exact ⟨k', List.mem_cons_of_mem _ h1, h2⟩

theorem spec_plain (k : SK) : ((Gram.spec k).syms.all fun a => match a with
    | .t k => plain k
    | _ => true) = true := by
  cases k <;> decide

mutual
theorem conforms_plain (t : Tree) (h : t.Conforms) : (∃ x, t = .tok x) ∨ ∀ x ∈ t.leaves, plain x.kind = true := by
  match t with
  | .tok x => exact .inl ⟨x, rfl⟩
  | .node k cs =>
    simp only [Tree.Conforms] at h
    right
    refine conformsF_plain cs h.2 (fun c hc x e => ?_)
    have := syms_complete h.1 (.t x.kind) (List.mem_map.mpr ⟨c, hc, by rw [e]; rfl⟩)
    exact List.all_eq_true.1 (spec_plain k) _ this
theorem conformsF_plain (cs : List Tree) (h : ConformsF cs) (hs : ∀ c ∈ cs, ∀ x, c = .tok x → plain x.kind = true) :
    ∀ x ∈ leavesF cs, plain x.kind = true := by
  match cs with
  | [] => intro x hx; simp [leavesF] at hx
  | c :: cs =>
    simp only [ConformsF] at h
    intro x hx
    rcases List.mem_append.mp hx with hx | hx
    · rcases conforms_plain c h.1 with ⟨y, e⟩ | h1
      · have := hs c (by simp) y e
        rw [e] at hx
        simp only [Tree.leaves, List.mem_singleton] at hx
        subst hx
        exact this
      · exact h1 x hx
    · exact conformsF_plain cs h.2 (fun d hd => hs d (by simp [hd])) x hx
end

theorem same_nil {x : Res (List Event × List Text)} {evs : List Event}
    (h : ResRel (fun (x y : List Event × List Text) => x.1 = y.1 ∧ x.2.length = y.2.length) x (.ok (evs, []))) : ∃ evs, x = .ok (evs, []) := by
  cases h with
  | @ok a b hab =>
    obtain ⟨a1, a2⟩ := a
    have : a2 = [] := List.length_eq_zero_iff.mp (by rw [hab.2]; rfl)
    exact ⟨a1, by rw [this]⟩

theorem parse_of {name src : Text} {toks coms : List Token} {k : SK} {evs : List Event}
    (h : lex name src = .ok ⟨toks, coms, []⟩) (h2 : events name toks k = .ok (evs, [])) :
    parse name src k = .ok ⟨toks, coms, evs, []⟩ := by
  unfold parse
  rw [h, Res.bind_ok, h2]
  rfl

/-- the tokens of two lists of pieces -/
theorem lexemes_app : ∀ (ps : List (Text × Chunk)) (pre : Text) (i : Nat),
    ∃ pre' i', ∀ qs, lexemes pre i (ps ++ qs) = lexemes pre i ps ++ lexemes pre' i' qs
  | [], pre, i => ⟨pre, i, fun _ => rfl⟩
  | (w, p) :: ps, pre, i => by
    cases p with
    | token k t =>
      obtain ⟨pre', i', h⟩ := lexemes_app ps (pre ++ w ++ t) (i + 1)
      exact ⟨pre', i', fun qs => by rw [List.cons_append, lexemes, lexemes, h]; rfl⟩
    | stray c => exact lexemes_app ps _ _
    | broken b c => exact lexemes_app ps _ _
    | openString b => exact lexemes_app ps _ _
    | openQuoted b => exact lexemes_app ps _ _
    | openComment b => exact lexemes_app ps _ _

/-- A text can be cut before a token and go on with tokens that complete a reading. -/
theorem complete_text {name src : Text} {l : Lexed} {j : Nat} {t : Token} {extra : List Token} {cs : List Tree}
    (hl : lex name src = .ok l) (he : l.errors = []) (hj : l.tokens[j]? = some t)
    (hr : Reading .StoredDefinition (l.tokens.take j ++ extra) cs) (ho : (Tree.node .StoredDefinition cs).Opens) :
    ∃ pre post rest p' more, src = pre ++ post ∧ t.start = position pre ∧
      parse name (pre ++ rest) .StoredDefinition = .ok p' ∧ p'.errors = [] ∧
      p'.tokens = l.tokens.take j ++ more ∧ more.map (·.kind) = extra.map (·.kind) := by
  obtain ⟨ps, hd, _⟩ := C53_divided src
  have hl' := hl
  rw [C53_lexed name src ps hd] at hl'
  split at hl'
  · cases hl'
  rename_i haw
  simp only [Res.ok.injEq] at hl'
  subst hl'
  simp only at he hj hr ⊢
  have hpr := (problems_nil name ps []).mp he
  obtain ⟨ps1, w, p, ps2, rfl, hs, hk⟩ := lexemes_split ps [] 0 j t hj
  have hpr1 : ∀ x ∈ ps1, x.2.problem = none := fun x hx => hpr x (List.mem_append_left _ hx)
  have hex : ∀ k ∈ extra.map (·.kind), plain k = true := by
    intro k hk
    obtain ⟨x, hx, rfl⟩ := List.mem_map.mp hk
    have := conforms_plain _ hr.conforms
    rcases this with ⟨y, e⟩ | h
    · cases e
    · refine h x ?_
      rw [Tree.leaves, hr.leaves]
      exact List.mem_append_right _ hx
  have hw : w.all ws = true := by
    clear hs hk hr hj
    have : ∀ {ps1 : List (Text × Chunk)} {src : Text}, Divided src (ps1 ++ (w, p) :: ps2) → w.all ws = true := by
      intro ps1
      induction ps1 with
      | nil => intro src h; cases h; assumption
      | cons x ps1 ih => intro src h; cases h; exact ih (by assumption)
    exact this hd
  obtain ⟨w', _, hsrc⟩ := divided_text hd
  have hd2 := divided_cut (R := spell (extra.map (·.kind))) hd hpr1
    (by
      have := spell_divided (extra.map (·.kind)) (w ++ c!"\n") hex (by simp [hw, ws])
      simpa using this)
  have hpr2 : ∀ x ∈ ps1 ++ pieces (w ++ c!"\n") (extra.map (·.kind)), x.2.problem = none := by
    intro x hx
    rcases List.mem_append.mp hx with hx | hx
    · exact hpr1 x hx
    · obtain ⟨k, _, e⟩ := pieces_tokens _ _ x hx
      rw [e]; rfl
  have haw2 : awkward false (ps1 ++ pieces (w ++ c!"\n") (extra.map (·.kind))) = false := by
    rw [awkward_tokens _ hpr2, List.any_append, Bool.or_eq_false_iff]
    constructor
    · simp only [Bool.not_eq_true] at haw
      rw [awkward_tokens _ hpr, List.any_append, Bool.or_eq_false_iff] at haw
      exact haw.1
    · rw [List.any_eq_false]
      intro x hx
      obtain ⟨k, hk, e⟩ := pieces_tokens _ _ x hx
      rw [e]
      have hpk := hex k hk
      simp [Chunk.text, C53_ascii k _ (sample_class hpk) (by rintro rfl; simp [plain] at hpk)]
  obtain ⟨F, hF, _⟩ := events_accept (name := name) (by decide) hr ho
  have hlex := C53_lexed name _ _ hd2
  rw [haw2, (problems_nil name _ []).mpr hpr2] at hlex
  simp only [Bool.false_eq_true, if_false] at hlex
  have hkinds : (((lexemes [] 0 (ps1 ++ pieces (w ++ c!"\n") (extra.map (·.kind)))).filter (fun t => !isComment t)).map (·.kind)) =
      ((((lexemes [] 0 (ps1 ++ (w, p) :: ps2)).filter (fun t => !isComment t)).take j ++ extra).map (·.kind)) := by
    rw [lexemes_kinds, List.map_append, List.map_take, lexemes_kinds, kindsOf_append, kindsOf_pieces _ _ hex, hk]
  have hev := events_same (name := name) (name' := name) hkinds .StoredDefinition
  rw [hF] at hev
  obtain ⟨evs', h3⟩ := same_nil hev
  -- the tokens before the cut
  obtain ⟨pre', i', happ⟩ := lexemes_app ps1 [] 0
  have hlen : ((lexemes [] 0 ps1).filter (fun t => !isComment t)).length = j := by
    have e1 := congrArg List.length (lexemes_kinds ps1 [] 0)
    have e2 := congrArg List.length hk
    have e3 := congrArg List.length (lexemes_kinds (ps1 ++ (w, p) :: ps2) [] 0)
    have e4 := (List.getElem?_eq_some_iff.mp hj).1
    simp only [List.length_map, List.length_take] at e1 e2 e3
    omega
  have hbefore : ∀ qs, ((lexemes [] 0 (ps1 ++ qs)).filter (fun t => !isComment t)).take j =
      (lexemes [] 0 ps1).filter (fun t => !isComment t) := by
    intro qs
    rw [happ, List.filter_append, List.take_left' hlen]
  refine ⟨flat ps1 ++ w, p.text ++ flat ps2 ++ w', '\n' :: spell (extra.map (·.kind)), _,
    ((lexemes [] 0 (ps1 ++ pieces (w ++ c!"\n") (extra.map (·.kind)))).filter (fun t => !isComment t)).drop j,
    by rw [hsrc]; simp [flat], by rw [hs]; rfl,
    (by rw [List.append_assoc]; exact parse_of hlex h3), rfl, ?_, ?_⟩
  · simp only
    rw [hbefore, ← hbefore (pieces (w ++ c!"\n") (extra.map (·.kind))), List.take_append_drop]
  · rw [List.map_drop, hkinds, List.map_append, List.drop_left' ?_]
    rw [List.length_map, hbefore]
    exact hlen

end Via
open Via

/-- **C55** The first error is not reported too late: whenever the lexer finds no error and the parser reports
errors, the first message names the line and column of a place in the text such that the text before that
place can be completed to a file that is accepted. -/
theorem C55_first_error (name src : Text) (l : Lexed) (p : Parsed) (e : Text) (es : List Text)
    (hl : lex name src = .ok l) (he : l.errors = []) (hp : parse name src .StoredDefinition = .ok p)
    (h : p.errors = e :: es) :
    ∃ pre post msg, src = pre ++ post ∧ e = errorText name (position pre) msg ∧
      ∃ rest p', parse name (pre ++ rest) .StoredDefinition = .ok p' ∧ p'.errors = [] := by
  simp only [parse, hl, Res.bind_ok, Res.bind_eq_ok] at hp
  obtain ⟨⟨evs, errs⟩, h1, h2⟩ := hp
  simp only [Res.ok.injEq] at h2
  subst h2
  simp only [he, List.nil_append] at h
  subst h
  obtain ⟨q, ext, extra, cs, hq, ⟨t, msg, ht, rfl, _⟩, hr, ho⟩ := events_viable (by decide) h1 (by intro x; simp [preKinds])
  -- the token the message is about
  obtain ⟨j, hj, extra, hr⟩ : ∃ j, l.tokens[j]? = some t ∧ ∃ extra, Reading .StoredDefinition (l.tokens.take j ++ extra) cs := by
    rw [List.append_assoc] at hr
    rcases ht with ht | ⟨ht, hlast⟩
    · exact ⟨q, ht, ext ++ extra, hr⟩
    · rw [List.getElem?_eq_none_iff] at ht
      rw [List.getLast?_eq_getElem?] at hlast
      refine ⟨l.tokens.length - 1, hlast, l.tokens.drop (l.tokens.length - 1) ++ (ext ++ extra), ?_⟩
      rw [← List.append_assoc, List.take_append_drop]
      rwa [List.take_of_length_le ht] at hr
  obtain ⟨pre, post, rest, p', _, h1, h2, h3, h4, _⟩ := complete_text hl he hj hr ho
  exact ⟨pre, post, msg, h1, by rw [h2], rest, p', h3, h4⟩

/-- an import without a name, and one more error later on -/
def exImport : Text := c!"model A\n  import B = ;\n  Real x;\nequation\n  x = ;\nend A;\n"

/-- the messages of the lexer and of the parser -/
def messages (src : Text) : Option (List Text × List Text) :=
  match lex c!"f" src, parse c!"f" src .StoredDefinition with
  | .ok l, .ok p => some (l.errors, p.errors)
  | _, _ => none

theorem of_messages {src : Text} {xs ys : List Text} (h : messages src = some (xs, ys)) :
    (∃ l, lex c!"f" src = .ok l ∧ l.errors = xs) ∧ ∃ p, parse c!"f" src .StoredDefinition = .ok p ∧ p.errors = ys := by
  unfold messages at h
  split at h
  · rename_i l p h1 h2
    simp only [Option.some.injEq, Prod.mk.injEq] at h
    exact ⟨⟨l, h1, h.1⟩, p, h2, h.2⟩
  · cases h

/-- the first message names the `;` after `import B =`; what precedes it can be continued -/
theorem C55_first_error_ex :
    messages exImport = some ([], [c!"f:2:14: expected IDENTIFIER, found ';'", c!"f:5:7: expected IDENTIFIER, found ';'"]) ∧
    exImport = c!"model A\n  import B = " ++ c!";\n  Real x;\nequation\n  x = ;\nend A;\n" ∧
    position c!"model A\n  import B = " = ⟨21, 2, 14⟩ ∧
    messages (c!"model A\n  import B = " ++ c!"C; end A;") = some ([], []) := by
  decide +kernel

end Mofmt
