import Verif.Proofs.Segs
/-
Facts about every token of the output of an accepted file.
-/
namespace Mofmt
open Lexical

/-- the white spaces of a group -/
def PGroup.whites (g : PGroup) : List (Option Piece) := g.comments.map (·.1) ++ [g.white]

/-- What a decision means for what is printed before a token that comes after `prev`; `C` are all comments. -/
structure GOK (ok : Tok → Gap → KSet) (C : List Token) (prev : Option Token) (d : Dec) (g : PGroup) : Prop where
  pair : (ok g.tok.kind d.gap).has (kindOf prev) = true
  none : d = .none → g.comments = [] ∧ g.white = .none
  space : d = .space → g.comments = [] ∧ g.white = some .sp
  brk : ∀ b n, d = .brk b n → isBrk g.white = true ∧
    g.comments.map (·.2) = commentsFrom (indexAfter prev) g.tok.idx C ∧
    (b = .Required → some (.bl n) ∈ g.whites) ∧
    (∀ w ∈ g.whites, isBrk w = true → w = some (.nl n) ∨ w = some (.bl n))
  com : ∀ s ∈ g.comments, isBrk s.1 = true ∨ (s.2.start.line = lineOf prev ∧ (s.1 = some .sp ∨
    (s.1 = .none ∧ prev = .none ∧ g.comments.head? = some s)))

/-- all groups are as decided -/
def GroupsOK (ok : Tok → Gap → KSet) (C : List Token) :
    Option Token → List (Dec × Token) → List PGroup → Prop
  | _, [], [] => True
  | prev, x :: ds, g :: gs => GOK ok C prev x.1 g ∧ g.tok = x.2 ∧ GroupsOK ok C (some x.2) ds gs
  | _, _, _ => False

/-- `L` is the layout after `prev`. -/
structure After (C : List Token) (prev : Option Token) (L : LS) : Prop where
  com : L.comments = C.filter (fun c => decide (indexAfter prev ≤ c.idx))
  line : L.line = lineOf prev
  kind : L.kind = kindOf prev
  out : L.out = [] → prev = none

theorem After.init (C : List Token) : After C none (LS.init C) :=
  ⟨by simp [LS.init, indexAfter, List.filter_eq_self.mpr], rfl, rfl, fun _ => rfl⟩

theorem dropWhile_filter {i : Nat} : ∀ {cs : List Token},
    cs.Pairwise (fun a b => a.idx < b.idx ∧ a.stop.line ≤ b.start.line) →
    cs.dropWhile (·.idx < i) = cs.filter (fun c => decide (i ≤ c.idx)) ∧
    cs.takeWhile (·.idx < i) = cs.filter (fun c => decide (c.idx < i))
  | [], _ => ⟨rfl, rfl⟩
  | x :: xs, hp => by
    obtain ⟨p1, p2⟩ := List.pairwise_cons.mp hp
    obtain ⟨h1, h2⟩ := dropWhile_filter (i := i) p2
    by_cases hx : x.idx < i
    · have : ¬ i ≤ x.idx := by omega
      simp [hx, this, h1, h2]
    · have h3 : i ≤ x.idx := by omega
      have h4 : ∀ y ∈ xs, i ≤ y.idx := fun y hy => by have := (p1 y hy).1; omega
      have h5 : xs.filter (fun c => decide (i ≤ c.idx)) = xs := by
        rw [List.filter_eq_self]; intro y hy; simpa using h4 y hy
      have h6 : xs.filter (fun c => decide (c.idx < i)) = [] := by
        rw [List.filter_eq_nil_iff]; intro y hy; have := h4 y hy; simp; omega
      simp [hx, h3, h5, h6]

theorem After.taken {C : List Token} {prev : Option Token} {L : LS} {t : Token} {todo : List Token}
    (h : After C prev L) (hw : WF L (t :: todo)) :
    L.comments.takeWhile (·.idx < t.idx) = commentsFrom (indexAfter prev) t.idx C := by
  rw [(dropWhile_filter hw.cs).2, h.com, List.filter_filter]
  unfold commentsFrom
  congr 1
  funext c
  rw [Bool.eq_iff_iff]; simp; omega

theorem LS.dec_comments (L : LS) (d : Dec) (t : Token) (todo : List Token) :
    (L.dec d (t :: todo)).comments.dropWhile (·.idx < t.idx) = L.comments.dropWhile (·.idx < t.idx) := by
  cases d with
  | none => rfl
  | space => rfl
  | brk b n =>
    simp only [LS.dec]
    generalize L.comments = l
    induction l with
    | nil => rfl
    | cons c cs ih =>
      by_cases hc : c.idx < t.idx
      · simpa [List.dropWhile_cons, hc] using ih
      · simp [List.dropWhile_cons, hc]

theorem After.step {C : List Token} {prev : Option Token} {L : LS} {x : Dec × Token} {todo : List Token}
    (h : After C prev L) (hw : WF L (x.2 :: todo)) (hp : indexAfter prev ≤ x.2.idx)
    (hC : ∀ c ∈ C, c.idx ≠ x.2.idx) : After C (some x.2) (L.step x) := by
  refine ⟨?_, rfl, rfl, ?_⟩
  · have : (L.step x).comments = (L.dec x.1 [x.2]).comments.dropWhile (·.idx < x.2.idx) := rfl
    rw [this, LS.dec_comments, (dropWhile_filter hw.cs).1, h.com, List.filter_filter]
    apply List.filter_congr
    intro c hc
    rw [Bool.eq_iff_iff]
    have := hC c hc
    have e : indexAfter (some x.2) = x.2.idx + 1 := rfl
    rw [e]
    simp only [Bool.and_eq_true, decide_eq_true_eq]
    omega
  · intro hh; cases hh

theorem ownSegs_fst (n : Nat) : ∀ (cs : List Token) (w : Option Piece), ∀ s ∈ ownSegs n w cs,
    s.1 = w ∨ s.1 = some (.nl n) ∨ s.1 = some (.bl n)
  | [], _, s, hs => by cases hs
  | [c], w, s, hs => by simp [ownSegs] at hs; subst hs; exact .inl rfl
  | c :: d :: cs, w, s, hs => by
    rcases List.mem_cons.mp hs with rfl | hs
    · exact .inl rfl
    · rcases ownSegs_fst n (d :: cs) _ s hs with h | h
      · right; rw [h]; unfold gapPiece; split <;> simp
      · exact .inr h

theorem gapPiece_cases (n x l : Nat) : gapPiece n x l = .nl n ∨ gapPiece n x l = .bl n := by
  unfold gapPiece; split <;> simp

theorem breakSegs_whites (first : Bool) (taken : List Token) (line : Nat) (b : Blank) (n : Nat) (tok : Token) :
    (b = .Required → some (.bl n) ∈ (breakSegs first taken line b n tok).1.map (·.1) ++
      [(breakSegs first taken line b n tok).2]) ∧
    ∀ w ∈ (breakSegs first taken line b n tok).1.map (·.1) ++ [(breakSegs first taken line b n tok).2],
      isBrk w = true → w = some (.nl n) ∨ w = some (.bl n) := by
  have hg : ∀ x l, some (gapPiece n x l) = some (.nl n) ∨ some (gapPiece n x l) = some (.bl n) := by
    intro x l; simpa using gapPiece_cases n x l
  constructor
  · rintro rfl
    unfold breakSegs
    simp only
    cases h : taken.filter (fun c => !(c.start.line == line)) with
    | nil => simp
    | cons c cs =>
      cases cs <;> simp [ownSegs]
  · intro w hw hb
    unfold breakSegs at hw
    simp only [List.map_append, List.mem_append, List.mem_singleton, List.mem_map] at hw
    rcases hw with (⟨s, hs, rfl⟩ | ⟨s, hs, rfl⟩) | rfl
    · rcases (inlineSegs_mem _ _ s hs).2 with h | h
      · rw [h] at hb; cases hb
      · rw [h.1] at hb; cases hb
    · rcases ownSegs_fst n _ _ s hs with h | h
      · rw [h] at hb ⊢
        cases b
        · right; rfl
        all_goals
          cases h2 : taken.filter (fun c => !(c.start.line == line)) with
          | nil => rw [h2] at hs; cases hs
          | cons c cs => exact hg _ _
      · exact h
    · cases b
      · simp only at hb ⊢
        split
        · right; rfl
        · exact hg _ _
      · exact hg _ _
      · left; rfl

theorem groups_ok {ok : Tok → Gap → KSet} {C : List Token} : ∀ (ds : List (Dec × Token)) (L : LS)
    (prev : Option Token), After C prev L → WF L (ds.map (·.2)) → Pairs ok L.kind ds →
    (∀ x ∈ ds, indexAfter prev ≤ x.2.idx ∧ ∀ c ∈ C, c.idx ≠ x.2.idx) →
    GroupsOK ok C prev ds (L.groups ds)
  | [], _, _, _, _, _, _ => trivial
  | (d, t) :: ds, L, prev, hA, hw, hp, hC => by
    simp only [List.map_cons] at hw
    have htok : (L.group (d, t)).tok = t := by cases d <;> rfl
    refine ⟨⟨?_, ?_, ?_, ?_, ?_⟩, htok, ?_⟩
    · rw [htok, ← hA.kind]; exact hp.1
    · rintro rfl; exact ⟨rfl, rfl⟩
    · rintro rfl; exact ⟨rfl, rfl⟩
    · intro b n hb
      have hb : d = .brk b n := hb
      subst hb
      have hwh := breakSegs_whites L.out.isEmpty (L.comments.takeWhile (·.idx < t.idx)) L.line b n t
      refine ⟨breakSegs_brk L.out.isEmpty (L.comments.takeWhile (·.idx < t.idx)) L.line b n t, ?_, hwh.1, hwh.2⟩
      rw [htok, ← hA.taken hw]
      exact breakSegs_snd hw _ _ _
    · intro s hs
      cases d with
      | none => cases hs
      | space => cases hs
      | brk b n =>
        obtain ⟨_, h2⟩ := breakSegs_mem L.out.isEmpty (L.comments.takeWhile (·.idx < t.idx)) L.line b n t s hs
        rcases h2 with h2 | ⟨h2, h3⟩
        · exact .inl h2
        · refine .inr ⟨by rw [h2, hA.line], ?_⟩
          rcases h3 with h3 | ⟨h3, h4, h5⟩
          · exact .inl h3
          · exact .inr ⟨h3, hA.out (by simpa using h4), h5⟩
    · refine groups_ok ds (L.step (d, t)) (some t) ?_ ?_ ?_ ?_
      · exact hA.step (x := (d, t)) hw (hC (d, t) List.mem_cons_self).1 (hC (d, t) List.mem_cons_self).2
      · exact hw.step d
      · exact hp.2
      · intro x hx
        refine ⟨?_, (hC x (List.mem_cons_of_mem _ hx)).2⟩
        have := (List.pairwise_cons.mp hw.ts).1 x.2 (List.mem_map_of_mem hx)
        simp only [indexAfter]; omega

end Mofmt
