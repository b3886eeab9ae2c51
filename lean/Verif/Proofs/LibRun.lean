import Verif.Proofs.LibFull
import Verif.Proofs.OutText
/-
Formatting a tree whose root is any production.  The run is compared with one after an imagined token of kind
`LineComment` without text.
-/
namespace Mofmt

/-- the imagined token -/
def fake : Token := ⟨0, [], .LineComment, ⟨0, 1, 0⟩, ⟨0, 1, 0⟩⟩

/-- `q'` is `q`, or both stand for the beginning -/
def FQ (q q' : Option Token) : Prop := q = q' ∨ (q = none ∧ q' = some fake)

theorem FQ.last {q q' : Option Token} (h : FQ q q') (es : List TEv) : FQ (lastT q es) (lastT q' es) := by
  induction es generalizing q q' with
  | nil => exact h
  | cons e es ih =>
    cases e with
    | tok t => exact .inl rfl
    | _ => exact ih h

/-- the condition does not ask for the imagined token -/
def deafC : FCond → Bool
  | .prevTok k => k != .EOF && k != .LineComment
  | .not a => deafC a
  | .and a b | .or a b => deafC a && deafC b
  | _ => true

def deafCmd : FCmd → Bool
  | .seq a b => deafCmd a && deafCmd b
  | .ite c a b => deafC c && (deafCmd a && deafCmd b)
  | .bos c _ => deafC c
  | .call _ m w o _ => deafC m && (deafC w && deafC o)
  | .set _ c => deafC c
  | _ => true

theorem evalFC_deaf {cx : Ctx} {r : Regs} {q q' : Option Token} (h : FQ q q') (c : FCond) (hc : deafC c = true) :
    evalFC cx r (fsOf q) c = evalFC cx r (fsOf q') c := by
  rcases h with rfl | ⟨rfl, rfl⟩
  · rfl
  induction c with
  | prevTok k =>
    simp only [deafC, Bool.and_eq_true, bne_iff_ne, ne_eq] at hc
    have h1 : decide (Tok.EOF = k) = false := by simpa using fun h : Tok.EOF = k => hc.1 h.symm
    have h2 : decide (Tok.LineComment = k) = false := by simpa using fun h : Tok.LineComment = k => hc.2 h.symm
    show Res.ok (decide (Tok.EOF = k)) = Res.ok (decide (Tok.LineComment = k))
    rw [h1, h2]
  | nextBelow => rfl
  | not a ih => simp only [evalFC, ih hc]
  | and a b ih1 ih2 =>
    simp only [deafC, Bool.and_eq_true] at hc
    simp only [evalFC, ih1 hc.1, ih2 hc.2]
  | or a b ih1 ih2 =>
    simp only [deafC, Bool.and_eq_true] at hc
    simp only [evalFC, ih1 hc.1, ih2 hc.2]
  | _ => rfl

/-- the result for a subtree is the same -/
def DeafSub (sub : SK → Args → Option Token → Res (Bool × List TEv)) : Prop :=
  ∀ fn a q q', FQ q q' → sub fn a q = sub fn a q'

theorem trF_deaf {sub : SK → Args → Option Token → Res (Bool × List TEv)} (hs : DeafSub sub) {cx : Ctx} :
    ∀ (c : FCmd) (r : Regs) (q q' : Option Token), deafCmd c = true → FQ q q' →
      trF sub cx c r q = trF sub cx c r q' := by
  intro c
  induction c with
  | seq a b ih1 ih2 =>
    intro r q q' hc h
    simp only [deafCmd, Bool.and_eq_true] at hc
    simp only [trF, ih1 r q q' hc.1 h]
    cases trF sub cx a r q' with
    | ok x =>
      obtain ⟨r1, es⟩ := x
      simp only [Res.bind_ok, ih2 r1 _ _ hc.2 (h.last es)]
    | panic => rfl
    | fuel => rfl
  | ite c a b ih1 ih2 =>
    intro r q q' hc h
    simp only [deafCmd, Bool.and_eq_true] at hc
    simp only [trF, evalFC_deaf h c hc.1, ih1 r q q' hc.2.1 h, ih2 r q q' hc.2.2 h]
  | bos c t =>
    intro r q q' hc h
    simp only [trF, evalFC_deaf h c hc]
  | call fn m w o keep =>
    intro r q q' hc h
    simp only [deafCmd, Bool.and_eq_true] at hc
    simp only [trF, evalFC_deaf h m hc.1, evalFC_deaf h w hc.2.1, evalFC_deaf h o hc.2.2, hs _ _ _ _ h]
  | set v c =>
    intro r q q' hc h
    simp only [trF, evalFC_deaf h c hc]
  | _ => intro r q q' hc h; rfl

set_option maxRecDepth 100000 in
theorem bodies_deaf_all : ∀ k ∈ SK.all, deafCmd (Fmt.body k).pre = true ∧ deafCmd (Fmt.body k).post = true ∧
    (∀ t ∈ Tok.all, deafCmd ((Fmt.body k).onTok t) = true) ∧
    (∀ j ∈ SK.all, deafCmd ((Fmt.body k).onTree j) = true) := by
  decide +kernel

theorem SK.all_mem (k : SK) : k ∈ SK.all := by cases k <;> decide

theorem bodies_deaf (k : SK) : deafCmd (Fmt.body k).pre = true ∧ deafCmd (Fmt.body k).post = true ∧
    (∀ t, deafCmd ((Fmt.body k).onTok t) = true) ∧ (∀ j, deafCmd ((Fmt.body k).onTree j) = true) := by
  obtain ⟨h1, h2, h3, h4⟩ := bodies_deaf_all k (SK.all_mem k)
  exact ⟨h1, h2, fun t => h3 t (Tok.mem_all t), fun j => h4 j (SK.all_mem j)⟩

mutual
theorem trTree_deaf (t : Tree) : DeafSub (fun fn a q => trTree Fmt.body fn a t q) := by
  intro fn a q q' h
  match t with
  | .tok _ => simp only [trTree]
  | .node k cs =>
    obtain ⟨c1, c2, c3, c4⟩ := bodies_deaf fn
    have hn : DeafSub (fun _ _ _ => (.panic .unreachable : Res (Bool × List TEv))) := fun _ _ _ _ _ => rfl
    simp only [trTree, trF_deaf hn _ _ q q' c1 h]
    cases trF (fun _ _ _ => (.panic .unreachable : Res (Bool × List TEv))) { all := cs } (Fmt.body fn).pre
        { m := a.m, w := a.w, o := a.o } q' with
    | panic => rfl
    | fuel => rfl
    | ok x =>
      obtain ⟨r1, e1⟩ := x
      simp only [Res.bind_ok, trLoop_deaf cs fn cs 0 r1 _ _ (h.last e1)]
      cases trLoop Fmt.body (Fmt.body fn) cs cs 0 r1 (lastT q' e1) with
      | panic => rfl
      | fuel => rfl
      | ok y =>
        obtain ⟨r2, e2⟩ := y
        simp only [Res.bind_ok, trF_deaf hn _ _ _ _ c2 (h.last (e1 ++ e2))]
theorem trLoop_deaf (cs : List Tree) (fn : SK) (all : List Tree) (idx : Nat) (r : Regs) (q q' : Option Token)
    (h : FQ q q') : trLoop Fmt.body (Fmt.body fn) all cs idx r q = trLoop Fmt.body (Fmt.body fn) all cs idx r q' := by
  match cs with
  | [] => simp only [trLoop]
  | c :: rest =>
    obtain ⟨c1, c2, c3, c4⟩ := bodies_deaf fn
    have hc := trF_deaf (cx := { all, cur := some c, idx, rest }) (trTree_deaf c)
    cases c with
    | tok t =>
      simp only [trLoop, hc ((Fmt.body fn).onTok t.kind) r q q' (c3 _) h]
      cases trF (fun fn a q => trTree Fmt.body fn a (.tok t) q) { all, cur := some (.tok t), idx, rest }
          ((Fmt.body fn).onTok t.kind) r q' with
      | panic => rfl
      | fuel => rfl
      | ok x =>
        obtain ⟨r1, e1⟩ := x
        simp only [Res.bind_ok, trLoop_deaf rest fn all (idx + 1) r1 _ _ (h.last e1)]
    | node k ks =>
      simp only [trLoop, hc ((Fmt.body fn).onTree k) r q q' (c4 _) h]
      cases trF (fun fn a q => trTree Fmt.body fn a (.node k ks) q) { all, cur := some (.node k ks), idx, rest }
          ((Fmt.body fn).onTree k) r q' with
      | panic => rfl
      | fuel => rfl
      | ok x =>
        obtain ⟨r1, e1⟩ := x
        simp only [Res.bind_ok, trLoop_deaf rest fn all (idx + 1) r1 _ _ (h.last e1)]
end

/-! ### The markers -/

/-- what the run after the imagined token has in addition, newest first -/
def Extra (pre : List Marker) : Prop := pre = [.token fake] ∨ pre = [.space, .token fake]

/-- the states differ only in what is before the markers -/
structure SameL (s s' : FState) : Prop where
  com : s'.comments = s.comments
  line : s'.prevLine = s.prevLine
  marks : ∃ pre, Extra pre ∧ s'.marks = s.marks ++ pre ∧ (s.marks = [] → pre = [.token fake])

theorem SameL.push {s s' : FState} (h : SameL s s') (m : Marker) : SameL (s.push m) (s'.push m) := by
  obtain ⟨h1, h2, pre, h3, h4, h5⟩ := h
  exact ⟨h1, h2, pre, h3, by simp [FState.push, h4], fun h => by simp [FState.push] at h⟩

theorem SameL.dropTaken {s s' : FState} (h : SameL s s') (t : Token) : SameL (s.dropTaken t) (s'.dropTaken t) := by
  obtain ⟨h1, h2, h3⟩ := h
  exact ⟨by simp [FState.dropTaken, h1], h2, h3⟩

theorem SameL.token {s s' : FState} (h : SameL s s') (t : Token) : SameL (s.handleToken t) (s'.handleToken t) := by
  obtain ⟨h1, h2, pre, h3, h4, h5⟩ := h
  exact ⟨by simp [FState.handleToken, FState.dropTaken, h1], rfl, pre, h3,
    by simp [FState.handleToken, FState.dropTaken, h4], fun h => by simp [FState.handleToken] at h⟩

theorem SameL.inlines : ∀ (cs : List Token) {s s' : FState}, SameL s s' → SameL (pushInlines cs s) (pushInlines cs s')
  | [], _, _, h => h
  | c :: cs, s, s', h => by
    simp only [pushInlines]
    apply SameL.inlines cs
    obtain ⟨h1, h2, pre, h3, h4, h5⟩ := h
    have hne : s'.marks.isEmpty = false := by
      rw [h4]; rcases h3 with rfl | rfl <;> simp
    rw [hne]
    by_cases hm : s.marks.isEmpty = true
    · rw [if_pos hm]
      have hm' : s.marks = [] := by simpa using hm
      have := h5 hm'
      subst this
      refine ⟨h1, h2, [.space, .token fake], .inr rfl, ?_, fun h => by simp [FState.push] at h⟩
      simp [FState.push, h4, hm']
    · rw [if_neg hm]
      exact (SameL.push (SameL.push ⟨h1, h2, pre, h3, h4, h5⟩ _) _)

/-- both fail or both succeed, with states that are the same -/
inductive SameR {α : Type} (R : α → α → Prop) : Res α → Res α → Prop
  | ok {a b : α} : R a b → SameR R (.ok a) (.ok b)
  | panic {p : Panic} : SameR R (.panic p) (.panic p)
  | fuel : SameR R .fuel .fuel

theorem SameR.bind {α β : Type} {R : α → α → Prop} {S : β → β → Prop} {x y : Res α} {f g : α → Res β}
    (h : SameR R x y) (hf : ∀ a b, R a b → SameR S (f a) (g b)) : SameR S (x.bind f) (y.bind g) := by
  cases h with
  | ok h => exact hf _ _ h
  | panic => exact .panic
  | fuel => exact .fuel

theorem SameL.gap {s s' : FState} (h : SameL s s') (x l : Nat) : SameR SameL (pushGap x l s) (pushGap x l s') := by
  unfold pushGap
  cases subLine x l with
  | ok d => exact .ok (h.push _)
  | panic p => exact .panic
  | fuel => exact .fuel

theorem SameL.comments (b : Blank) : ∀ (cs : List Token) (l : Nat) {s s' : FState}, SameL s s' →
    SameR (fun x y => x.1 = y.1 ∧ SameL x.2 y.2) (pushComments b cs l s) (pushComments b cs l s')
  | [], l, _, _, h => .ok ⟨rfl, h⟩
  | c :: cs, l, s, s', h => by
    simp only [pushComments]
    refine SameR.bind (R := SameL) ?_ fun a b hab => SameL.comments _ cs _ (hab.push _)
    rw [h.line]
    split
    · split
      · exact h.gap _ _
      · exact .ok h
    · exact h.gap _ _

theorem SameL.break {s s' : FState} (h : SameL s s') (t : Token) (b : Blank) :
    SameR SameL (s.handleBreak t b) (s'.handleBreak t b) := by
  unfold FState.handleBreak
  have ht : s'.taken t = s.taken t := by simp [FState.taken, h.com]
  simp only [ht, h.line]
  generalize (s.taken t).filter (fun c => c.start.line == s.prevLine) = inl
  generalize (s.taken t).filter (fun c => !(c.start.line == s.prevLine)) = own
  have h1 := SameL.inlines inl (h.dropTaken t)
  generalize pushInlines inl (s.dropTaken t) = u at h1
  generalize pushInlines inl (s'.dropTaken t) = u' at h1
  have h2 : SameL (if b = .Required then u.push .blank else u) (if b = .Required then u'.push .blank else u') := by
    split
    · exact h1.push _
    · exact h1
  generalize (if b = Blank.Required then u.push .blank else u) = v at h2
  generalize (if b = Blank.Required then u'.push .blank else u') = v' at h2
  rw [h2.line]
  refine SameR.bind (SameL.comments b own _ h2) ?_
  rintro ⟨l, a⟩ ⟨l', a'⟩ ⟨hl, ha⟩
  simp only at hl ha
  subst hl
  cases b with
  | Legal => exact ha.gap _ _
  | Illegal => exact .ok (ha.push _)
  | Required =>
    simp only [ha.line]
    split
    · exact ha.gap _ _
    · exact .ok ha

theorem SameL.play {s s' : FState} (h : SameL s s') (e : TEv) : SameR SameL (e.play s) (e.play s') := by
  cases e with
  | tok t => exact .ok (h.token t)
  | brk t b => exact h.break t b
  | _ => exact .ok (h.push _)

theorem SameL.playAll : ∀ (es : List TEv) {s s' : FState}, SameL s s' → SameR SameL (playAll es s) (playAll es s')
  | [], _, _, h => .ok h
  | e :: es, s, s', h => by
    simp only [Mofmt.playAll]
    exact SameR.bind (h.play e) fun a b hab => SameL.playAll es hab

theorem scan_app : ∀ {a b : List Marker} {x : List Piece × Nat} {o : List Piece}, scanMarks (a ++ b) = some x →
    scanMarks b = some (o, 0) → ∃ out, scanMarks a = some (out, x.2) ∧ x.1 = out ++ o
  | [], b, x, o, h, hb => by
    simp only [List.nil_append, hb, Option.some.injEq] at h
    subst h
    exact ⟨[], rfl, rfl⟩
  | m :: a, b, x, o, h, hb => by
    simp only [List.cons_append, scanMarks] at h
    split at h
    · cases h
    · rename_i out n hs
      obtain ⟨out', g1, g2⟩ := scan_app hs hb
      simp only at g1 g2
      subst g2
      simp only [scanMarks, g1]
      cases m with
      | dedent =>
        simp only at h ⊢
        split at h
        · cases h
        · rename_i hn
          simp only [Option.some.injEq] at h
          subst h
          exact ⟨out', by simp [hn], rfl⟩
      | _ =>
        simp only [Option.some.injEq] at h
        subst h
        exact ⟨_, rfl, rfl⟩

end Mofmt
