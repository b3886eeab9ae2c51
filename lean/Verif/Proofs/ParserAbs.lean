import Verif.Proofs.Regex
import Verif.Proofs.ParserForest
import Verif.Proofs.Build
/-
Symbolic execution of grammar commands along a regular expression.  The abstract state is what may
still follow (a regular expression) and what is known about the next two tokens (sets of kinds, as
bit masks).
-/
namespace Mofmt

/-- A set of token kinds. -/
abbrev KSet := Nat

namespace KSet
def bit (k : Tok) : KSet := 1 <<< k.ctorIdx
def has (m : KSet) (k : Tok) : Bool := m.testBit k.ctorIdx
def of (ks : List Tok) : KSet := ks.foldr (fun k m => bit k ||| m) 0
def all : KSet := of Tok.all
def inter (m p : KSet) : KSet := m &&& p
def diff (m p : KSet) : KSet := m ^^^ (m &&& p)
end KSet

theorem Tok.ctorIdx_inj {a b : Tok} (h : a.ctorIdx = b.ctorIdx) : a = b := by
  have : ∀ a : Tok, Tok.all[a.ctorIdx]? = some a := by intro a; cases a <;> rfl
  have h1 := this a
  rw [h, this b] at h1
  cases h1; rfl

namespace KSet
@[simp] theorem has_bit (k k' : Tok) : has (bit k) k' = decide (k = k') := by
  simp only [has, bit, Nat.one_shiftLeft, Nat.testBit_two_pow]
  by_cases h : k = k'
  · subst h; simp
  · have : k.ctorIdx ≠ k'.ctorIdx := fun e => h (Tok.ctorIdx_inj e)
    simp [h, this]
@[simp] theorem has_of (ks : List Tok) (k : Tok) : has (of ks) k = ks.contains k := by
  induction ks with
  | nil => simp [of, has]
  | cons x xs ih =>
    have : of (x :: xs) = bit x ||| of xs := rfl
    have h2 : has (of (x :: xs)) k = (has (bit x) k || has (of xs) k) := by
      rw [this]; simp [has, Nat.testBit_or]
    rw [h2, ih, has_bit]
    simp only [List.contains_cons]
    by_cases h : x = k
    · subst h; simp
    · have : ¬ k = x := fun e => h e.symm
      simp [h, this]
@[simp] theorem has_all (k : Tok) : has all k = true := by
  simp only [all, has_of]
  cases k <;> rfl
@[simp] theorem has_inter (m p : KSet) (k : Tok) : has (inter m p) k = (has m k && has p k) := by
  simp [has, inter, Nat.testBit_and]
@[simp] theorem has_diff (m p : KSet) (k : Tok) : has (diff m p) k = (has m k && !has p k) := by
  simp only [has, diff, Nat.testBit_xor, Nat.testBit_and]
  cases Nat.testBit m k.ctorIdx <;> cases Nat.testBit p k.ctorIdx <;> rfl
theorem has_zero (k : Tok) : has 0 k = false := by simp [has]
end KSet

/-- Abstract parser state. -/
structure PAbs where
  /-- what may follow -/
  re : RE
  /-- possible kinds of the next token -/
  k0 : KSet
  /-- possible kinds of the token after it -/
  k1 : KSet
  /-- the offset (0 or 1) the last lookahead referred to; another number: unknown -/
  lo : Nat
  deriving DecidableEq, Repr

namespace PAbs

def get (a : PAbs) (n : Nat) : KSet := if n = 0 then a.k0 else if n = 1 then a.k1 else KSet.all
def set (a : PAbs) (n : Nat) (m : KSet) : PAbs :=
  if n = 0 then { a with k0 := m, lo := 0 }
  else if n = 1 then { a with k1 := m, lo := 1 }
  else { a with lo := 9 }

/-- assume that the token at offset `n` has a kind in `p` -/
def assume (a : PAbs) (n : Nat) (p : KSet) : List PAbs :=
  if KSet.inter (a.get n) p = 0 then [] else [a.set n (KSet.inter (a.get n) p)]
/-- assume that the token at offset `n` does not have a kind in `p` -/
def exclude (a : PAbs) (n : Nat) (p : KSet) : List PAbs :=
  if KSet.diff (a.get n) p = 0 then [] else [a.set n (KSet.diff (a.get n) p)]

/-- a token of kind `k` is passed -/
def pass (a : PAbs) (k : Tok) : PAbs :=
  { re := a.re.der (.t k), k0 := a.k1, k1 := KSet.all, lo := 9 }

/-- a token of a kind allowed by `k0` is passed -/
def passAny (a : PAbs) : List PAbs :=
  (Tok.all.filter (fun k => a.k0.has k)).map a.pass

end PAbs

/-- no two equal states -/
def dedup [DecidableEq α] : List α → List α
  | [] => []
  | x :: xs => let ys := dedup xs; if x ∈ ys then ys else x :: ys

theorem mem_dedup [DecidableEq α] {x : α} : ∀ {l : List α}, x ∈ dedup l ↔ x ∈ l
  | [] => by simp [dedup]
  | y :: ys => by
    simp only [dedup]
    split
    · rename_i h
      rw [mem_dedup] at h ⊢
      simp only [List.mem_cons]
      constructor
      · exact .inr
      · rintro (rfl | h')
        · exact h
        · exact h'
    · simp only [List.mem_cons, mem_dedup]

def absSplit (n : Nat) (p : KSet) (a : PAbs) : List (Bool × PAbs) :=
  (a.assume n p).map (true, ·) ++ (a.exclude n p).map (false, ·)

/-- Possible outcomes of a condition, when the end of the input is not reached. -/
def absCond : Cond → PAbs → List (Bool × PAbs)
  | .check k, a => absSplit 0 (KSet.bit k) a
  | .checkAny ks, a => absSplit 0 (KSet.of ks) a
  | .nthIs n k, a => absSplit n (KSet.bit k) a
  | .consume k, a =>
    (if a.k0.has k then [(true, a.pass k)] else []) ++ (a.exclude 0 (KSet.bit k)).map (false, ·)
  | .eof, a => [(false, a)]
  | .not c, a => (absCond c a).map fun x => (!x.1, x.2)
  | .and c d, a => (absCond c a).flatMap fun x => if x.1 then absCond d x.2 else [(false, x.2)]
  | .or c d, a => (absCond c a).flatMap fun x => if x.1 then [(true, x.2)] else absCond d x.2

/-- collect the results of all; `none` if one fails -/
def bindAll (f : α → Option (List β)) : List α → Option (List β)
  | [] => some []
  | x :: xs => match f x, bindAll f xs with
    | some a, some b => some (a ++ b)
    | _, _ => none

theorem bindAll_mem {f : α → Option (List β)} : ∀ {l : List α} {r : List β}, bindAll f l = some r →
    ∀ x ∈ l, ∃ a, f x = some a ∧ ∀ y ∈ a, y ∈ r
  | [], _, _ => by simp
  | z :: zs, r, h => by
    simp only [bindAll] at h
    split at h
    · rename_i a b h1 h2
      simp at h; subst h
      intro x hx
      simp at hx
      rcases hx with rfl | hx
      · exact ⟨a, h1, fun y hy => List.mem_append_left _ hy⟩
      · obtain ⟨c, hc, hm⟩ := bindAll_mem h2 x hx
        exact ⟨c, hc, fun y hy => List.mem_append_right _ (hm y hy)⟩
    · simp at h

/-- States that leave a loop whose heads are reached from `heads`. -/
def absClose (c : Cond) (step : PAbs → Option (List PAbs)) : Nat → List PAbs → Option (List PAbs)
  | 0, _ => none
  | n + 1, heads =>
    let outs := heads.flatMap (absCond c)
    match bindAll (fun x => step x.2) (outs.filter (·.1)) with
    | none => none
    | some next =>
      if next.all (fun x => x ∈ heads) then some (dedup ((outs.filter (!·.1)).map (·.2)))
      else absClose c step n (dedup (heads ++ next))

/-- Possible states after a command that records no error and does not reach the end of the input.
`pre k` are the kinds a production of kind `k` may start with when it is called. -/
def absRun (pre : SK → KSet) : Cmd → PAbs → Option (List PAbs)
  | .skip, a => some [a]
  | .seq c d, a => match absRun pre c a with
    | some as => (bindAll (absRun pre d) (dedup as)).map dedup
    | none => none
  | .ite c x y, a => bindAll (fun o => if o.1 then absRun pre x o.2 else absRun pre y o.2) (absCond c a)
  | .while c x, a => absClose c (absRun pre x) 8 [a]
  | .eval c, a => some (dedup ((absCond c a).map (·.2)))
  | .expect k, a => some [a.pass k]
  | .advance, a => some (dedup a.passAny)
  | .call k, a =>
    if KSet.diff a.k0 (pre k) = 0 ∧ k ≠ .StoredDefinition ∧ k ≠ .Error then
      some ({ re := a.re.der (.n k), k0 := KSet.all, k1 := KSet.all, lo := 9 } ::
        if (Gram.spec k).nullable then [{ a with k0 := KSet.all, k1 := KSet.all, lo := 9 }] else [])
    else none
  | .advErr _ _ _, _ => some []
  | .look n, a => some [a.set n (a.get n)]
  | .ifk ks x y, a =>
    if a.lo = 0 ∨ a.lo = 1 then
      match bindAll (absRun pre x) (a.assume a.lo (KSet.of ks)),
          bindAll (absRun pre y) (a.exclude a.lo (KSet.of ks)) with
      | some p, some q => some (dedup (p ++ q))
      | _, _ => none
    else match absRun pre x a, absRun pre y a with
      | some p, some q => some (dedup (p ++ q))
      | _, _ => none
  | .unreachable, _ => some []

/-- The kinds an operator production starts with. -/
def preKinds : SK → KSet
  | .RelationalOperator => KSet.of [.Les, .Leq, .Gre, .Geq, .Eq, .Neq]
  | .AddOperator => KSet.of [.Plus, .DotPlus, .Minus, .DotMinus]
  | .MulOperator => KSet.of [.Star, .DotStar, .Slash, .DotSlash]
  | _ => KSet.all

/-- Every error-free run of the grammar function for `k` passes children allowed by the grammar. -/
def absOk (k : SK) : Bool :=
  match absRun preKinds (Grammar.body k)
      { re := Gram.spec k, k0 := preKinds k, k1 := KSet.all, lo := 9 } with
  | some as => as.all (fun a => a.re.nullable)
  | none => false

/-! ### Soundness -/

mutual
/-- As `Tree.Conforms`, for a tree that still contains productions without tokens. -/
def Tree.Conf : Tree → Prop
  | .tok _ => True
  | .node k cs => Lang (Gram.spec k) ((pruneF cs).map Tree.sym) ∧ ConfF cs
/-- As `ConformsF`, for a forest that still contains productions without tokens. -/
def ConfF : List Tree → Prop
  | [] => True
  | t :: ts => t.Conf ∧ ConfF ts
end

theorem confF_append {a b : List Tree} : ConfF (a ++ b) ↔ ConfF a ∧ ConfF b := by
  induction a with
  | nil => simp [ConfF]
  | cons t ts ih => simp [ConfF, ih, and_assoc]

section Sound
variable (toks : List Token)

/-- kind of the token at offset `n` -/
def kindAt (s : PState) (n : Nat) : Tok := ((toks[s.pos + n]?).map (·.kind)).getD .EOF

/-- The abstract state describes the state. -/
structure Knows (a : PAbs) (s : PState) : Prop where
  k0 : a.k0.has (kindAt toks s 0) = true
  k1 : a.k1.has (kindAt toks s 1) = true
  l0 : a.lo = 0 → s.last = kindAt toks s 0
  l1 : a.lo = 1 → s.last = kindAt toks s 1

variable {toks}

/-- What a piece of a run contributes. -/
structure Step (s s' : PState) (a a' : PAbs) (F : List Tree) : Prop where
  grew : Grew toks s s' F
  knows : Knows toks a' s'
  conf : ConfF F
  lang : ∀ v, Lang a'.re v → Lang a.re ((pruneF F).map Tree.sym ++ v)

theorem Step.trans {s1 s2 s3 : PState} {a1 a2 a3 : PAbs} {F G : List Tree}
    (h1 : Step (toks := toks) s1 s2 a1 a2 F) (h2 : Step (toks := toks) s2 s3 a2 a3 G) :
    Step (toks := toks) s1 s3 a1 a3 (F ++ G) where
  grew := h1.grew.trans h2.grew
  knows := h2.knows
  conf := confF_append.mpr ⟨h1.conf, h2.conf⟩
  lang := by
    intro v hv
    have := h1.lang _ (h2.lang v hv)
    simpa [pruneF_append] using this

theorem Step.still {s s' : PState} {a a' : PAbs} (hle : s.pos ≤ toks.length)
    (he : s'.evs = s.evs) (hp : s'.pos = s.pos) (hr : s'.errors = s.errors)
    (hk : Knows toks a' s') (ha : a'.re = a.re) : Step (toks := toks) s s' a a' [] where
  grew := Grew.refl hle he hp ⟨[], by simp [hr]⟩
  knows := hk
  conf := by simp [ConfF]
  lang := by intro v hv; simpa [pruneF, ha] using hv

theorem nth_sound {n : Nat} {s s' : PState} {k : Tok} (h : s.nth toks n = .ok (k, s')) :
    s'.evs = s.evs ∧ s'.pos = s.pos ∧ s'.errors = s.errors ∧ k = kindAt toks s n ∧ s'.last = k := by
  unfold PState.nth at h
  split at h
  · split at h <;> simp at h
  · simp at h; obtain ⟨rfl, rfl⟩ := h; simp [kindAt]

theorem kindAt_pos {s s' : PState} (h : s'.pos = s.pos) (n : Nat) :
    kindAt toks s' n = kindAt toks s n := by simp [kindAt, h]

theorem get_sound {a : PAbs} {s : PState} (h : Knows toks a s) (n : Nat) :
    (a.get n).has (kindAt toks s n) = true := by
  unfold PAbs.get
  split
  · rename_i e; subst e; exact h.k0
  · split
    · rename_i e; subst e; exact h.k1
    · simp

theorem set_sound {a : PAbs} {s s' : PState} {n : Nat} {m : KSet} (h : Knows toks a s)
    (hp : s'.pos = s.pos) (hl : s'.last = kindAt toks s n) (hm : m.has (kindAt toks s n) = true) :
    Knows toks (a.set n m) s' ∧ (a.set n m).re = a.re := by
  unfold PAbs.set
  split
  · rename_i e; subst e
    exact ⟨⟨by simpa [kindAt_pos hp] using hm, by simpa [kindAt_pos hp] using h.k1,
      fun _ => by simp [hl, kindAt_pos hp], fun h => by simp at h⟩, rfl⟩
  · split
    · rename_i e; subst e
      exact ⟨⟨by simpa [kindAt_pos hp] using h.k0, by simpa [kindAt_pos hp] using hm,
        fun h => by simp at h, fun _ => by simp [hl, kindAt_pos hp]⟩, rfl⟩
    · exact ⟨⟨by simpa [kindAt_pos hp] using h.k0, by simpa [kindAt_pos hp] using h.k1,
        fun h => by simp at h, fun h => by simp at h⟩, rfl⟩

theorem assume_sound {a : PAbs} {s s' : PState} {n : Nat} {p : KSet} (h : Knows toks a s)
    (hp : s'.pos = s.pos) (hl : s'.last = kindAt toks s n) (hm : p.has (kindAt toks s n) = true) :
    ∃ a' ∈ a.assume n p, Knows toks a' s' ∧ a'.re = a.re := by
  have hg : (KSet.inter (a.get n) p).has (kindAt toks s n) = true := by simp [get_sound h n, hm]
  unfold PAbs.assume
  split
  · rename_i e; rw [e, KSet.has_zero] at hg; simp at hg
  · exact ⟨_, by simp, set_sound h hp hl hg⟩

theorem exclude_sound {a : PAbs} {s s' : PState} {n : Nat} {p : KSet} (h : Knows toks a s)
    (hp : s'.pos = s.pos) (hl : s'.last = kindAt toks s n) (hm : p.has (kindAt toks s n) = false) :
    ∃ a' ∈ a.exclude n p, Knows toks a' s' ∧ a'.re = a.re := by
  have hg : (KSet.diff (a.get n) p).has (kindAt toks s n) = true := by simp [get_sound h n, hm]
  unfold PAbs.exclude
  split
  · rename_i e; rw [e, KSet.has_zero] at hg; simp at hg
  · exact ⟨_, by simp, set_sound h hp hl hg⟩

theorem split_sound {a : PAbs} {s s' : PState} {n : Nat} {p : KSet} (hle : s.pos ≤ toks.length)
    (h : Knows toks a s) {k : Tok} (hn : s.nth toks n = .ok (k, s')) :
    ∃ a', (p.has k, a') ∈ absSplit n p a ∧ Step (toks := toks) s s' a a' [] := by
  obtain ⟨h1, h2, h3, h4, h5⟩ := nth_sound hn
  subst h4
  unfold absSplit
  cases hb : p.has (kindAt toks s n) with
  | true =>
    obtain ⟨a', hm, hk, hr⟩ := assume_sound (a := a) h h2 h5 hb
    exact ⟨a', by simp [hm], Step.still hle h1 h2 h3 hk hr⟩
  | false =>
    obtain ⟨a', hm, hk, hr⟩ := exclude_sound (a := a) h h2 h5 hb
    exact ⟨a', by simp [hm], Step.still hle h1 h2 h3 hk hr⟩

theorem pass_sound {a : PAbs} {s s' : PState} (hle : s.pos ≤ toks.length) (h : Knows toks a s)
    (ha : s.advance toks = .ok s') :
    ∃ F, Step (toks := toks) s s' a (a.pass (kindAt toks s 0)) F := by
  obtain ⟨t, ht, g, hp, he⟩ := advance_grew hle ha
  refine ⟨_, g, ?_, by simp [ConfF, Tree.Conf], ?_⟩
  · constructor
    · have := h.k1
      simpa [PAbs.pass, kindAt, hp] using this
    · simp [PAbs.pass]
    · intro h; simp [PAbs.pass] at h
    · intro h; simp [PAbs.pass] at h
  · intro v hv
    have hk : kindAt toks s 0 = t.kind := by simp [kindAt, ht]
    simp only [PAbs.pass, hk, der_iff] at hv
    simpa [pruneF, Tree.pruned, Tree.sym] using hv

theorem cond_sound (c : Cond) : ∀ {s s' : PState} {a : PAbs} {b : Bool}, s.pos ≤ toks.length →
    Knows toks a s → evalCond toks c s = .ok (b, s') → s'.pos < toks.length →
    ∃ a', (b, a') ∈ absCond c a ∧ ∃ F, Step (toks := toks) s s' a a' F := by
  induction c with
  | check k =>
    intro s s' a b hle hk h hlt
    simp only [evalCond, Res.bind_eq_ok] at h
    obtain ⟨⟨k', s1⟩, h1, h2⟩ := h
    simp at h2
    obtain ⟨rfl, rfl⟩ := h2
    obtain ⟨a', hm, hs⟩ := split_sound (p := KSet.bit k) hle hk h1
    refine ⟨a', ?_, _, hs⟩
    simp only [KSet.has_bit] at hm
    have e : decide (k = k') = (k' == k) := by
      by_cases h : k = k'
      · subst h; simp
      · have : ¬ k' = k := fun e => h e.symm
        simp [h, this]
    rw [e] at hm; exact hm
  | checkAny ks =>
    intro s s' a b hle hk h hlt
    simp only [evalCond, Res.bind_eq_ok] at h
    obtain ⟨⟨k', s1⟩, h1, h2⟩ := h
    simp only [Res.ok.injEq, Prod.mk.injEq] at h2
    obtain ⟨rfl, rfl⟩ := h2
    obtain ⟨a', hm, hs⟩ := split_sound (p := KSet.of ks) hle hk h1
    refine ⟨a', ?_, _, hs⟩
    rw [KSet.has_of] at hm; exact hm
  | nthIs n k =>
    intro s s' a b hle hk h hlt
    simp only [evalCond, Res.bind_eq_ok] at h
    obtain ⟨⟨k', s1⟩, h1, h2⟩ := h
    simp at h2
    obtain ⟨rfl, rfl⟩ := h2
    obtain ⟨a', hm, hs⟩ := split_sound (p := KSet.bit k) hle hk h1
    refine ⟨a', ?_, _, hs⟩
    simp only [KSet.has_bit] at hm
    have e : decide (k = k') = (k' == k) := by
      by_cases h : k = k'
      · subst h; simp
      · have : ¬ k' = k := fun e => h e.symm
        simp [h, this]
    rw [e] at hm; exact hm
  | consume k =>
    intro s s' a b hle hk h hlt
    simp only [evalCond, Res.bind_eq_ok] at h
    obtain ⟨⟨k', s1⟩, h1, h2⟩ := h
    obtain ⟨e1, e2, e3, e4, e5⟩ := nth_sound h1
    dsimp only at h2
    split at h2
    · rename_i hkk
      simp only [beq_iff_eq] at hkk
      subst hkk
      simp only [Res.bind_eq_ok] at h2
      obtain ⟨s2, h3, h4⟩ := h2
      simp only [Res.ok.injEq, Prod.mk.injEq] at h4
      obtain ⟨rfl, rfl⟩ := h4
      have hk1 : Knows toks { a with lo := 9 } s1 :=
        ⟨by simpa [kindAt_pos e2] using hk.k0, by simpa [kindAt_pos e2] using hk.k1,
          fun h => by simp at h, fun h => by simp at h⟩
      obtain ⟨F, hs⟩ := pass_sound (by omega) hk1 h3
      have hs1 : Step (toks := toks) s s1 a { a with lo := 9 } [] := Step.still hle e1 e2 e3 hk1 rfl
      refine ⟨a.pass k', ?_, [] ++ F, ?_⟩
      · have := hk.k0
        rw [← e4] at this
        simp [absCond, this]
      · have := hs1.trans hs
        rw [kindAt_pos e2, ← e4] at this
        exact this
    · rename_i hkk
      simp only [Res.ok.injEq, Prod.mk.injEq] at h2
      obtain ⟨rfl, rfl⟩ := h2
      have : (KSet.bit k).has (kindAt toks s 0) = false := by
        rw [← e4]
        simp only [KSet.has_bit, decide_eq_false_iff_not]
        simp only [beq_iff_eq] at hkk
        exact fun e => hkk e.symm
      obtain ⟨a', hm, hk', hr⟩ := exclude_sound (a := a) (n := 0) hk e2 (by rw [e5, e4]) this
      exact ⟨a', by simp [absCond, hm], _, Step.still hle e1 e2 e3 hk' hr⟩
  | eof =>
    intro s s' a b hle hk h hlt
    simp [evalCond] at h
    obtain ⟨rfl, rfl⟩ := h
    refine ⟨a, ?_, [], Step.still hle rfl rfl rfl hk rfl⟩
    simp [absCond, PState.eof]
    omega
  | not c ih =>
    intro s s' a b hle hk h hlt
    simp only [evalCond, Res.bind_eq_ok] at h
    obtain ⟨⟨t, s1⟩, h1, h2⟩ := h
    simp at h2
    obtain ⟨rfl, rfl⟩ := h2
    obtain ⟨a', hm, F, hs⟩ := ih hle hk h1 hlt
    exact ⟨a', by simp only [absCond, List.mem_map]; exact ⟨_, hm, by simp⟩, F, hs⟩
  | and c d ihc ihd =>
    intro s s' a b hle hk h hlt
    simp only [evalCond, Res.bind_eq_ok] at h
    obtain ⟨⟨t, s1⟩, h1, h2⟩ := h
    obtain ⟨G, g1, _⟩ := evalCond_grew c hle h1
    dsimp only at h2
    split at h2
    · rename_i ht; subst ht
      obtain ⟨G2, g2, _⟩ := evalCond_grew d g1.le h2
      obtain ⟨a1, hm1, F1, hs1⟩ := ihc hle hk h1 (by have := g2.pos; omega)
      obtain ⟨a2, hm2, F2, hs2⟩ := ihd g1.le hs1.knows h2 hlt
      exact ⟨a2, by simp only [absCond, List.mem_flatMap]; exact ⟨_, hm1, by simpa using hm2⟩, _,
        hs1.trans hs2⟩
    · rename_i ht
      simp only [Res.ok.injEq, Prod.mk.injEq] at h2
      obtain ⟨rfl, rfl⟩ := h2
      simp only [Bool.not_eq_true] at ht; subst ht
      obtain ⟨a1, hm1, F1, hs1⟩ := ihc hle hk h1 hlt
      exact ⟨a1, by simp only [absCond, List.mem_flatMap]; exact ⟨_, hm1, by simp⟩, _, hs1⟩
  | or c d ihc ihd =>
    intro s s' a b hle hk h hlt
    simp only [evalCond, Res.bind_eq_ok] at h
    obtain ⟨⟨t, s1⟩, h1, h2⟩ := h
    obtain ⟨G, g1, _⟩ := evalCond_grew c hle h1
    dsimp only at h2
    split at h2
    · rename_i ht; subst ht
      simp only [Res.ok.injEq, Prod.mk.injEq] at h2
      obtain ⟨rfl, rfl⟩ := h2
      obtain ⟨a1, hm1, F1, hs1⟩ := ihc hle hk h1 hlt
      exact ⟨a1, by simp only [absCond, List.mem_flatMap]; exact ⟨_, hm1, by simp⟩, _, hs1⟩
    · rename_i ht
      simp only [Bool.not_eq_true] at ht; subst ht
      obtain ⟨G2, g2, _⟩ := evalCond_grew d g1.le h2
      obtain ⟨a1, hm1, F1, hs1⟩ := ihc hle hk h1 (by have := g2.pos; omega)
      obtain ⟨a2, hm2, F2, hs2⟩ := ihd g1.le hs1.knows h2 hlt
      exact ⟨a2, by simp only [absCond, List.mem_flatMap]; exact ⟨_, hm1, by simpa using hm2⟩, _,
        hs1.trans hs2⟩

theorem close_sound {c : Cond} {step : PAbs → Option (List PAbs)} : ∀ {n : Nat}
    {heads exits : List PAbs}, absClose c step n heads = some exits →
    ∃ H : List PAbs, (∀ a ∈ heads, a ∈ H) ∧ (∀ a ∈ H, ∀ a1, (true, a1) ∈ absCond c a →
        ∃ as, step a1 = some as ∧ ∀ x ∈ as, x ∈ H) ∧
      ∀ a ∈ H, ∀ a1, (false, a1) ∈ absCond c a → a1 ∈ exits
  | 0, _, _, h => by simp [absClose] at h
  | n + 1, heads, exits, h => by
    simp only [absClose] at h
    split at h
    · simp at h
    · rename_i next hn
      split at h
      · rename_i hall
        simp at h; subst h
        simp only [List.all_eq_true, decide_eq_true_eq] at hall
        refine ⟨heads, fun a h => h, ?_, ?_⟩
        · intro a ha a1 h1
          obtain ⟨as, h2, h3⟩ := bindAll_mem hn (true, a1)
            (by simp only [List.mem_filter, List.mem_flatMap]; exact ⟨⟨a, ha, h1⟩, trivial⟩)
          exact ⟨as, h2, fun x hx => hall x (h3 x hx)⟩
        · intro a ha a1 h1
          rw [mem_dedup]
          simp only [List.mem_map, List.mem_filter, List.mem_flatMap]
          exact ⟨(false, a1), ⟨⟨a, ha, h1⟩, rfl⟩, rfl⟩
      · obtain ⟨H, h1, h2, h3⟩ := close_sound h
        exact ⟨H, fun a ha => h1 a (by rw [mem_dedup]; exact List.mem_append_left _ ha), h2, h3⟩

variable {name : Text}

theorem run_grew' (n : Nat) (c : Cmd) {s s' : PState} (hle : s.pos ≤ toks.length)
    (h : run name toks Grammar.body n c s = .ok s') : ∃ F, Grew toks s s' F := by
  refine run_grew ?_ n c hle h
  intro s n s' h
  cases n <;> simp [run, Grammar.body] at h

theorem Grew.errs_le {s s' : PState} {F : List Tree} (g : Grew toks s s' F) :
    s.errors.length ≤ s'.errors.length := by
  obtain ⟨_, h⟩ := g.errs; rw [h]; simp

/-- Soundness of the symbolic execution. -/
theorem absRun_sound (hok : ∀ k, k ≠ .StoredDefinition → k ≠ .Error → absOk k = true) :
    ∀ (n : Nat), ∀ m ≤ n, ∀ (c : Cmd) {s s' : PState} {a : PAbs} {as : List PAbs},
    run name toks Grammar.body m c s = .ok s' → s.pos ≤ toks.length →
    s'.errors.length ≤ s.errors.length → s'.pos < toks.length → Knows toks a s →
    absRun preKinds c a = some as → ∃ a' ∈ as, ∃ F, Step (toks := toks) s s' a a' F := by
  intro n
  induction n with
  | zero =>
    intro m hm c s s' a as h
    have : m = 0 := by omega
    subst this; simp [run] at h
  | succ n ih =>
    intro m hm c s s' a as h hle her hlt hk ha
    cases m with
    | zero => simp [run] at h
    | succ m =>
    have hmn : m ≤ n := by omega
    cases c with
    | skip =>
      simp [run] at h; subst h
      simp [absRun] at ha; subst ha
      exact ⟨a, by simp, [], Step.still hle rfl rfl rfl hk rfl⟩
    | seq c d =>
      simp only [run, Res.bind_eq_ok] at h
      obtain ⟨s1, h1, h2⟩ := h
      simp only [absRun] at ha
      split at ha
      · rename_i as1 ha1
        obtain ⟨F1, g1⟩ := run_grew' m c hle h1
        obtain ⟨F2, g2⟩ := run_grew' m d g1.le h2
        have e1 := g1.errs_le
        have e2 := g2.errs_le
        have p1 := g2.pos
        obtain ⟨a1, hm1, G1, hs1⟩ := ih m hmn c h1 hle (by omega) (by omega) hk ha1
        simp only [Option.map_eq_some_iff] at ha
        obtain ⟨as2, ha2, rfl⟩ := ha
        obtain ⟨as3, ha3, hsub⟩ := bindAll_mem ha2 a1 (mem_dedup.mpr hm1)
        obtain ⟨a2, hm2, G2, hs2⟩ := ih m hmn d h2 g1.le (by omega) (by omega) hs1.knows ha3
        exact ⟨a2, mem_dedup.mpr (hsub _ hm2), _, hs1.trans hs2⟩
      · simp at ha
    | ite c x y =>
      simp only [run, Res.bind_eq_ok] at h
      obtain ⟨⟨t, s1⟩, h1, h2⟩ := h
      obtain ⟨F1, g1, e1⟩ := evalCond_grew c hle h1
      dsimp only at h2
      simp only [absRun] at ha
      split at h2
      · rename_i ht; subst ht
        obtain ⟨F2, g2⟩ := run_grew' m x g1.le h2
        have p1 := g2.pos
        obtain ⟨a1, hm1, G1, hs1⟩ := cond_sound c hle hk h1 (by omega)
        obtain ⟨as3, ha3, hsub⟩ := bindAll_mem ha _ hm1
        simp only [if_true] at ha3
        obtain ⟨a2, hm2, G2, hs2⟩ := ih m hmn x h2 g1.le (by rw [e1]; omega) hlt hs1.knows ha3
        exact ⟨a2, hsub _ hm2, _, hs1.trans hs2⟩
      · rename_i ht
        simp only [Bool.not_eq_true] at ht; subst ht
        obtain ⟨F2, g2⟩ := run_grew' m y g1.le h2
        have p1 := g2.pos
        obtain ⟨a1, hm1, G1, hs1⟩ := cond_sound c hle hk h1 (by omega)
        obtain ⟨as3, ha3, hsub⟩ := bindAll_mem ha _ hm1
        simp only [Bool.false_eq_true, if_false] at ha3
        obtain ⟨a2, hm2, G2, hs2⟩ := ih m hmn y h2 g1.le (by rw [e1]; omega) hlt hs1.knows ha3
        exact ⟨a2, hsub _ hm2, _, hs1.trans hs2⟩
    | «while» c x =>
      simp only [absRun] at ha
      obtain ⟨H, hin, hstep, hex⟩ := close_sound ha
      have ha0 : a ∈ H := hin a (by simp)
      have key : ∀ (j : Nat), j ≤ n + 1 → ∀ {s : PState} {a : PAbs}, a ∈ H →
          run name toks Grammar.body j (.while c x) s = .ok s' → s.pos ≤ toks.length →
          s'.errors.length ≤ s.errors.length → Knows toks a s →
          ∃ a' ∈ as, ∃ F, Step (toks := toks) s s' a a' F := by
        intro j
        induction j with
        | zero => intro _ s a _ h; simp [run] at h
        | succ j ihj =>
          intro hj s a haH h hle her hk
          simp only [run, Res.bind_eq_ok] at h
          obtain ⟨⟨t, s1⟩, h1, h2⟩ := h
          obtain ⟨F1, g1, e1⟩ := evalCond_grew c hle h1
          dsimp only at h2
          split at h2
          · rename_i ht; subst ht
            simp only [Res.bind_eq_ok] at h2
            obtain ⟨s2, h3, h4⟩ := h2
            obtain ⟨F2, g2⟩ := run_grew' j x g1.le h3
            obtain ⟨F3, g3⟩ := run_grew' j (.while c x) g2.le h4
            have p2 := g2.pos
            have p3 := g3.pos
            have q2 := g2.errs_le
            have q3 := g3.errs_le
            rw [e1] at q2
            obtain ⟨a1, hm1, G1, hs1⟩ := cond_sound c hle hk h1 (by omega)
            obtain ⟨as1, ha1, hsub⟩ := hstep a haH a1 hm1
            obtain ⟨a2, hm2, G2, hs2⟩ := ih j (by omega) x h3 g1.le (by rw [e1]; omega) (by omega)
              hs1.knows ha1
            obtain ⟨a3, hm3, G3, hs3⟩ := ihj (by omega) (hsub _ hm2) h4 g2.le (by omega) hs2.knows
            exact ⟨a3, hm3, _, (hs1.trans hs2).trans hs3⟩
          · rename_i ht
            simp only [Bool.not_eq_true] at ht; subst ht
            simp only [Res.ok.injEq] at h2; subst h2
            obtain ⟨a1, hm1, G1, hs1⟩ := cond_sound c hle hk h1 hlt
            exact ⟨a1, hex a haH a1 hm1, _, hs1⟩
      exact key (m + 1) hm ha0 h hle her hk
    | eval c =>
      simp only [run, Res.bind_eq_ok] at h
      obtain ⟨⟨t, s1⟩, h1, h2⟩ := h
      simp at h2; subst h2
      simp [absRun] at ha; subst ha
      obtain ⟨a1, hm1, G1, hs1⟩ := cond_sound c hle hk h1 hlt
      exact ⟨a1, mem_dedup.mpr (List.mem_map.mpr ⟨_, hm1, rfl⟩), _, hs1⟩
    | expect k =>
      simp only [run, Res.bind_eq_ok] at h
      obtain ⟨⟨t, s1⟩, h1, h2⟩ := h
      simp [absRun] at ha; subst ha
      dsimp only at h2
      split at h2
      · rename_i ht; subst ht
        simp only [Res.ok.injEq] at h2; subst h2
        obtain ⟨a1, hm1, G1, hs1⟩ := cond_sound _ hle hk h1 hlt
        have : a1 = a.pass k := by
          simp only [absCond, List.mem_append, List.mem_map, Prod.mk.injEq, Bool.false_eq_true, false_and, and_false, exists_false, or_false] at hm1
          split at hm1
          · simpa using hm1
          · simp at hm1
        subst this
        exact ⟨_, by simp, _, hs1⟩
      · obtain ⟨F1, g1, e1⟩ := evalCond_grew _ hle h1
        simp only [Res.bind_eq_ok] at h2
        obtain ⟨⟨k', s2⟩, h3, h4⟩ := h2
        obtain ⟨_, _, f3⟩ := nth_grew h3
        obtain ⟨_, _, _, _, e, f4⟩ := error_grew h4
        exfalso
        rw [f4] at her
        rw [List.length_append, f3, e1] at her
        simp at her
        omega
    | advance =>
      simp only [run] at h
      simp only [absRun, Option.some.injEq] at ha; subst ha
      obtain ⟨F, hs⟩ := pass_sound hle hk h
      refine ⟨_, ?_, F, hs⟩
      rw [mem_dedup]
      simp only [PAbs.passAny, List.mem_map, List.mem_filter]
      refine ⟨_, ⟨?_, hk.k0⟩, rfl⟩
      have : ∀ k : Tok, k ∈ Tok.all := by intro k; cases k <;> decide
      exact this _
    | call k =>
      simp only [run, Res.bind_eq_ok] at h
      obtain ⟨s1, h1, h2⟩ := h
      simp only [Res.ok.injEq] at h2; subst h2
      simp only [absRun] at ha
      split at ha
      · rename_i hpre
        obtain ⟨hp0, hsd, herr⟩ := hpre
        have hk0 := hok k hsd herr
        unfold absOk at hk0
        split at hk0
        · rename_i as1 hb
          have hle1 : s.enter.pos ≤ toks.length := by simpa [PState.enter] using hle
          have hpk : (preKinds k).has (kindAt toks s 0) = true := by
            have h0 := hk.k0
            have h1 : (KSet.diff a.k0 (preKinds k)).has (kindAt toks s 0) = false := by
              rw [hp0]; exact KSet.has_zero _
            rw [KSet.has_diff, h0] at h1
            simpa using h1
          have hkn : Knows toks { re := Gram.spec k, k0 := preKinds k, k1 := KSet.all, lo := 9 } s.enter :=
            ⟨by simpa [kindAt, PState.enter] using hpk, by simp, fun h => by simp at h, fun h => by simp at h⟩
          obtain ⟨a1, hm1, F, hs⟩ := ih m hmn (Grammar.body k) h1 hle1
            (by simpa [PState.exit, PState.enter] using her)
            (by simpa [PState.exit] using hlt) hkn hb
          have hnull : a1.re.nullable = true := by
            simp only [List.all_eq_true] at hk0
            exact hk0 a1 hm1
          have hL : Lang (Gram.spec k) ((pruneF F).map Tree.sym) := by
            have := hs.lang [] ((nullable_iff _).mp hnull)
            simpa using this
          have hg : Grew toks s (s1.exit s.evs.length k) [.node k F] :=
            exit_grew (s := s) (s1 := s.enter) rfl rfl ⟨[], by simp [PState.enter]⟩ hs.grew
              (fun h => absurd h herr)
          have hconf : ConfF [.node k F] := by simp [ConfF, Tree.Conf, hL, hs.conf]
          simp only [Option.some.injEq] at ha; subst ha
          cases hpr : pruneF F with
          | nil =>
            rw [hpr] at hL
            have hn : (Gram.spec k).nullable = true := (nullable_iff _).mpr (by simpa using hL)
            refine ⟨{ a with k0 := KSet.all, k1 := KSet.all, lo := 9 }, by simp [hn], [.node k F], hg, ?_,
              hconf, ?_⟩
            · exact ⟨by simp, by simp, fun h => by simp at h, fun h => by simp at h⟩
            · intro v hv
              simpa [pruneF, Tree.pruned, hpr] using hv
          | cons t ts =>
            refine ⟨{ re := a.re.der (.n k), k0 := KSet.all, k1 := KSet.all, lo := 9 }, by simp, [.node k F],
              hg, ?_, hconf, ?_⟩
            · exact ⟨by simp, by simp, fun h => by simp at h, fun h => by simp at h⟩
            · intro v hv
              simp only [der_iff] at hv
              simpa [pruneF, Tree.pruned, hpr, Tree.sym] using hv
        · simp at hk0
      · simp at ha
    | advErr i pre post =>
      simp only [run, Res.bind_eq_ok] at h
      obtain ⟨⟨k', s1⟩, h1, s2, h2, s3, h3, h4⟩ := h
      simp at h4; subst h4
      obtain ⟨e1, e2, e3⟩ := nth_grew h1
      obtain ⟨f1, f2, _, _, e, f3⟩ := error_grew h2
      have hle2 : s2.enter.pos ≤ toks.length := by
        simp [PState.enter]; rw [f2]; dsimp only; omega
      obtain ⟨t, _, g, _, g4⟩ := advance_grew hle2 h3
      exfalso
      simp only [PState.exit, PState.enter] at her g4
      rw [g4, f3, e3] at her
      simp at her
      omega
    | look i =>
      simp only [run, Res.bind_eq_ok] at h
      obtain ⟨⟨k', s1⟩, h1, h2⟩ := h
      simp only [Res.ok.injEq] at h2; subst h2
      simp only [absRun, Option.some.injEq] at ha; subst ha
      obtain ⟨e1, e2, e3, e4, e5⟩ := nth_sound h1
      obtain ⟨k1, k2⟩ := set_sound (s' := s1) (m := a.get i) hk e2 (by rw [e5, e4]) (get_sound hk i)
      exact ⟨_, by simp, [], Step.still hle e1 e2 e3 k1 k2⟩
    | ifk ks x y =>
      simp only [run] at h
      simp only [absRun] at ha
      have hsame : ∀ a1, Knows toks a1 s → a1.re = a.re →
          ∀ c as1, run name toks Grammar.body m c s = .ok s' → absRun preKinds c a1 = some as1 →
          (∀ z ∈ as1, z ∈ as) → ∃ a' ∈ as, ∃ F, Step (toks := toks) s s' a a' F := by
        intro a1 hk1 hr c as1 hc hac hsub
        obtain ⟨a2, hm2, G2, hs2⟩ := ih m hmn c hc hle her hlt hk1 hac
        exact ⟨a2, hsub _ hm2, _, (Step.still hle rfl rfl rfl hk1 hr).trans hs2⟩
      split at ha
      · rename_i hlo
        have hl : s.last = kindAt toks s a.lo := by
          rcases hlo with e | e
          · rw [e]; exact hk.l0 e
          · rw [e]; exact hk.l1 e
        split at ha
        · rename_i p q hp hq
          simp only [Option.some.injEq] at ha; subst ha
          split at h
          · rename_i hc
            rw [hl] at hc
            obtain ⟨a1, hm1, hk1, hr1⟩ := assume_sound (a := a) (n := a.lo) (p := KSet.of ks) hk rfl hl
              (by rw [KSet.has_of]; exact hc)
            obtain ⟨as1, has1, hsub⟩ := bindAll_mem hp a1 hm1
            exact hsame a1 hk1 hr1 x as1 h has1
              (fun z hz => mem_dedup.mpr (List.mem_append_left _ (hsub z hz)))
          · rename_i hc
            rw [hl] at hc
            simp only [Bool.not_eq_true] at hc
            obtain ⟨a1, hm1, hk1, hr1⟩ := exclude_sound (a := a) (n := a.lo) (p := KSet.of ks) hk rfl hl
              (by rw [KSet.has_of]; exact hc)
            obtain ⟨as1, has1, hsub⟩ := bindAll_mem hq a1 hm1
            exact hsame a1 hk1 hr1 y as1 h has1
              (fun z hz => mem_dedup.mpr (List.mem_append_right _ (hsub z hz)))
        · simp at ha
      · split at ha
        · rename_i p q hp hq
          simp only [Option.some.injEq] at ha; subst ha
          split at h
          · exact hsame a hk rfl x p h hp (fun z hz => mem_dedup.mpr (List.mem_append_left _ hz))
          · exact hsame a hk rfl y q h hq (fun z hz => mem_dedup.mpr (List.mem_append_right _ hz))
        · simp at ha
    | unreachable => simp [run] at h

end Sound

theorem absOk_all : ∀ k, k ≠ .StoredDefinition → k ≠ .Error → absOk k = true := by
  intro k _ _
  cases k <;> decide +kernel

end Mofmt
