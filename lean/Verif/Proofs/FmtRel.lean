import Verif.Proofs.FmtMap
import Verif.Proofs.ParserMore
/-
The formatter uses lines only to see whether one is below another, and whether by more than one.
-/
set_option linter.unusedSectionVars false

namespace Mofmt

/-- Pairs of lines, one of each of two files, with the same distances as far as it matters. -/
def SameGaps (R : Nat → Nat → Prop) : Prop :=
  ∀ x x' y y', R x x' → R y y' → min 2 (y - x) = min 2 (y' - x')

/-- What two runs start with: the markers, comments that are not reached, and the other comments. -/
structure Base where
  left : List Marker := []
  right : List Marker := []
  later : List Token := []
  later' : List Token := []
  pool : Token → Prop := fun _ => True

/-- Two pictures of the same token; `any`: the first token of both files is among them. -/
structure Twin (B : Base) (any : Prop) (R : Nat → Nat → Prop) (f g : Token → Token) : Prop where
  lt : ∀ t u, (f t).idx < (f u).idx ↔ (g t).idx < (g u).idx
  pos : any → ∀ t, (f t).idx > 0 ↔ (g t).idx > 0
  text : ∀ t, (f t).text = (g t).text
  kind : ∀ t, (f t).kind = (g t).kind
  start : ∀ t, R (f t).start.line (g t).start.line
  stop : ∀ t, R (f t).stop.line (g t).stop.line
  off : ∀ t, ∀ c ∈ B.later, ¬ c.idx < (f t).idx
  off' : ∀ t, ∀ c ∈ B.later', ¬ c.idx < (g t).idx

namespace SameGaps
variable {R : Nat → Nat → Prop} (hR : SameGaps R) {x x' y y' : Nat}
include hR
theorem lt (h : R x x') (h' : R y y') : x < y ↔ x' < y' := by
  have := hR _ _ _ _ h h'; omega
theorem le (h : R x x') (h' : R y y') : x ≤ y ↔ x' ≤ y' := by
  have := hR _ _ _ _ h' h; omega
theorem beq (h : R x x') (h' : R y y') : (x == y) = (x' == y') := by
  have a := hR _ _ _ _ h h'
  have b := hR _ _ _ _ h' h
  have : x = y ↔ x' = y' := by omega
  by_cases e : x = y
  · simp [e, this.1 e]
  · have e' : x' ≠ y' := fun h => e (this.2 h)
    rw [beq_eq_false_iff_ne.2 e, beq_eq_false_iff_ne.2 e']
theorem gap (h : R x x') (h' : R y y') : y - x > 1 ↔ y' - x' > 1 := by
  have := hR _ _ _ _ h h'; omega
end SameGaps

/-- Conditions and statements that do not ask whether a token is the first one. -/
def FCond.plain : FCond → Bool
  | .tokIdxPos => Bool.false
  | .not a => a.plain
  | .and a b | .or a b => a.plain && b.plain
  | _ => Bool.true

def FCmd.plain : FCmd → Bool
  | .seq a b => a.plain && b.plain
  | .ite c a b => c.plain && a.plain && b.plain
  | .bos c _ => c.plain
  | .call fn m w o _ => fn != .StoredDefinition && m.plain && w.plain && o.plain
  | .set _ c => c.plain
  | _ => Bool.true

structure FBody.Plain (b : FBody) : Prop where
  pre : b.pre.plain = true
  onTok : ∀ k, (b.onTok k).plain = true
  onTree : ∀ k, (b.onTree k).plain = true
  post : b.post.plain = true

/-- Two states at the same place. -/
structure TwinS (B : Base) (R : Nat → Nat → Prop) (f g : Token → Token) (s s' : FState) : Prop where
  comments : ∃ cs : List Token, (∀ c ∈ cs, B.pool c) ∧ s.comments = cs.map f ++ B.later ∧
    s'.comments = cs.map g ++ B.later'
  marks : ∃ ms : List Marker, s.marks = ms.map (Marker.map f) ++ B.left ∧ s'.marks = ms.map (Marker.map g) ++ B.right
  empty : s.marks.isEmpty = s'.marks.isEmpty
  tok : s.prevTok = s'.prevTok
  line : R s.prevLine s'.prevLine

def TwinRS {α : Type} (B : Base) (R : Nat → Nat → Prop) (f g : Token → Token) (x y : α × FState) : Prop :=
  x.1 = y.1 ∧ TwinS B R f g x.2 y.2

theorem ResRel.refl {α : Type} (x : Res α) : ResRel Eq x x := by
  cases x <;> constructor
  rfl

theorem ResRel.eq {α : Type} {x y : Res α} (h : ResRel Eq x y) : x = y := by
  cases h with
  | ok h => rw [h]
  | panic => rfl
  | fuel => rfl

theorem ResRel.of_eq {α : Type} {x y : Res α} (h : x = y) : ResRel Eq x y := h ▸ .refl x

section
variable {any : Prop} {B : Base} {R : Nat → Nat → Prop} {f g : Token → Token} (hR : SameGaps R) (hf : Twin B any R f g)
include hR hf

theorem isMultiline_twin (cs : List Tree) : isMultiline (mapTrees f cs) = isMultiline (mapTrees g cs) := by
  unfold isMultiline
  rw [startOf_map, endOf_map, startOf_map, endOf_map]
  cases startOf cs with
  | none => rfl
  | some a =>
    cases endOf cs with
    | none => rfl
    | some b => simp [hR.lt (hf.start a) (hf.stop b)]

theorem scanClose_twin (cl : Tok) {line line' : Nat} (hl : R line line') : ∀ (cs : List Tree) (b : Bool),
    scanClose cl line (mapTrees f cs) b = scanClose cl line' (mapTrees g cs) b
  | [], _ => rfl
  | .tok t :: cs, b => by
    simp only [mapTrees, Tree.map, scanClose, hf.kind, gt_iff_lt, hR.lt hl (hf.start t), scanClose_twin cl hl cs]
  | .node k ds :: cs, b => by simp only [mapTrees, Tree.map, scanClose, scanClose_twin cl hl cs]

theorem scanParens_twin (op cl : Tok) : ∀ (cs : List Tree),
    scanParens op cl (mapTrees f cs) = scanParens op cl (mapTrees g cs)
  | [] => rfl
  | .tok t :: cs => by
    simp only [mapTrees, Tree.map, scanParens, hf.kind, scanParens_twin op cl cs,
      scanClose_twin hR hf cl (hf.start t) cs]
  | .node k ds :: cs => by simp only [mapTrees, Tree.map, scanParens, scanParens_twin op cl cs]

omit hR hf in
theorem startTok_twin (t : Tree) :
    ResRel (fun a b => ∃ j, a = f j ∧ b = g j) (startTok (t.map f)) (startTok (t.map g)) := by
  unfold startTok
  rw [start_map, start_map]
  cases t.start? with
  | none => exact .panic
  | some j => exact .ok ⟨j, rfl, rfl⟩

omit hR hf in
theorem target_twin (cx : Ctx) (t : Target) :
    ResRel (fun a b => ∃ j, a = f j ∧ b = g j) ((cx.map f).target t) ((cx.map g).target t) := by
  cases t with
  | cur =>
    simp only [Ctx.target, Ctx.map]
    cases cx.cur with
    | none => exact .panic
    | some t => exact startTok_twin t
  | next =>
    simp only [Ctx.target, Ctx.map]
    cases cx.rest with
    | nil => exact .panic
    | cons t ts => exact startTok_twin t

omit hR hf in
theorem curChildren_twin (cx : Ctx) : ∃ r : Res (List Tree),
    (cx.map f).curChildren = r.map (mapTrees f) ∧ (cx.map g).curChildren = r.map (mapTrees g) := by
  refine ⟨cx.curChildren, ?_, ?_⟩ <;>
  · simp only [Ctx.curChildren, Ctx.map]
    cases cx.cur with
    | none => rfl
    | some t => cases t <;> rfl

omit hR hf in
theorem mapTrees_count (cs : List Tree) : (mapTrees f cs).length = (mapTrees g cs).length := by simp [mapTrees_eq]

theorem evalFC_twin (cx : Ctx) (r : Regs) {s s' : FState} (hs : TwinS B R f g s s') :
    ∀ c, any ∨ c.plain = true → evalFC (cx.map f) r s c = evalFC (cx.map g) r s' c
  | .false, _ => rfl
  | .reg v, _ => rfl
  | .treeMulti, _ => isMultiline_twin hR hf _
  | .treeHas k, _ => by simp [evalFC, Ctx.map, containsKind_map]
  | .lenGt n, _ => by simp [evalFC, Ctx.map, mapTrees_eq]
  | .lenEq n, _ => by simp [evalFC, Ctx.map, mapTrees_eq]
  | .parenMulti op cl, _ => by simp [evalFC, Ctx.map, scanParens_twin hR hf]
  | .curMulti, _ => by
    obtain ⟨q, h1, h2⟩ := curChildren_twin (f := f) (g := g) cx
    simp only [evalFC, h1, h2, Res.bind_map]
    congr 1; funext cs; exact isMultiline_twin hR hf cs
  | .curStartIs k, _ => by
    simp only [evalFC]
    refine ResRel.eq ((target_twin cx .cur).bind fun a b h => ?_)
    obtain ⟨j, rfl, rfl⟩ := h
    rw [hf.kind]; exact .refl _
  | .curHas k, _ => by
    obtain ⟨q, h1, h2⟩ := curChildren_twin (f := f) (g := g) cx
    simp only [evalFC, h1, h2, Res.bind_map, containsKind_map]
  | .curEmpty, _ => by
    obtain ⟨q, h1, h2⟩ := curChildren_twin (f := f) (g := g) cx
    simp only [evalFC, h1, h2, Res.bind_map]
    congr 1; funext cs; rw [mapTrees_count cs]
  | .prevTok k, _ => by simp only [evalFC, hs.tok]
  | .prevRuleIn ks, _ => rfl
  | .idxGt n, _ => rfl
  | .idxEq n, _ => rfl
  | .tokIdxPos, h => by
    simp only [evalFC]
    refine ResRel.eq ((target_twin cx .cur).bind fun a b h => ?_)
    obtain ⟨j, rfl, rfl⟩ := h
    have ha : any := h.resolve_right (by simp [FCond.plain])
    simp only [hf.pos ha]; exact .refl _
  | .nextTree, _ => by
    simp only [evalFC, Ctx.map]
    cases cx.rest with
    | nil => rfl
    | cons t ts => cases t <;> rfl
  | .nextTreeU, _ => by
    simp only [evalFC, Ctx.map]
    cases cx.rest with
    | nil => rfl
    | cons t ts => cases t <;> rfl
  | .nextTok, _ => by
    simp only [evalFC, Ctx.map]
    cases cx.rest with
    | nil => rfl
    | cons t ts => cases t <;> rfl
  | .nextBelow, _ => by
    simp only [evalFC]
    refine ResRel.eq ((target_twin cx .next).bind fun a b h => ?_)
    obtain ⟨j, rfl, rfl⟩ := h
    simp only [gt_iff_lt, hR.lt hs.line (hf.start j)]
    exact .refl _
  | .not a, h => by simp only [evalFC, evalFC_twin cx r hs a h]
  | .and a b, h => by
    have h1 : any ∨ a.plain = true := h.imp_right fun h => (Bool.and_eq_true_iff.1 h).1
    have h2 : any ∨ b.plain = true := h.imp_right fun h => (Bool.and_eq_true_iff.1 h).2
    simp only [evalFC, evalFC_twin cx r hs a h1, evalFC_twin cx r hs b h2]
  | .or a b, h => by
    have h1 : any ∨ a.plain = true := h.imp_right fun h => (Bool.and_eq_true_iff.1 h).1
    have h2 : any ∨ b.plain = true := h.imp_right fun h => (Bool.and_eq_true_iff.1 h).2
    simp only [evalFC, evalFC_twin cx r hs a h1, evalFC_twin cx r hs b h2]

omit hR hf in
theorem takeWhile_off {n : Nat} : ∀ {l : List Token}, (∀ c ∈ l, ¬ c.idx < n) →
    l.takeWhile (·.idx < n) = [] ∧ l.dropWhile (·.idx < n) = l
  | [], _ => ⟨rfl, rfl⟩
  | c :: l, h => by
    have := h c (List.mem_cons_self ..)
    simp [List.takeWhile_cons, List.dropWhile_cons, this]

omit hR in
theorem takeWhile_twin (t : Token) (cs : List Token) : ∃ as bs : List Token, (∀ b ∈ bs, b ∈ cs) ∧
    (cs.map f ++ B.later).takeWhile (·.idx < (f t).idx) = as.map f ∧
    (cs.map g ++ B.later').takeWhile (·.idx < (g t).idx) = as.map g ∧
    (cs.map f ++ B.later).dropWhile (·.idx < (f t).idx) = bs.map f ++ B.later ∧
    (cs.map g ++ B.later').dropWhile (·.idx < (g t).idx) = bs.map g ++ B.later' := by
  induction cs with
  | nil => exact ⟨[], [], by simp, (takeWhile_off (hf.off t)).1, (takeWhile_off (hf.off' t)).1,
      (takeWhile_off (hf.off t)).2, (takeWhile_off (hf.off' t)).2⟩
  | cons c cs ih =>
    obtain ⟨as, bs, h0, h1, h2, h3, h4⟩ := ih
    simp only [List.map_cons, List.cons_append, List.takeWhile_cons, List.dropWhile_cons, hf.lt]
    split
    · exact ⟨c :: as, bs, fun b hb => List.mem_cons_of_mem _ (h0 b hb), by rw [h1]; rfl, by rw [h2]; rfl, h3, h4⟩
    · exact ⟨[], c :: cs, fun _ h => h, rfl, rfl, rfl, rfl⟩

omit hR in
theorem dropTaken_twin (t : Token) {s s' : FState} (hs : TwinS B R f g s s') :
    TwinS B R f g (s.dropTaken (f t)) (s'.dropTaken (g t)) ∧
    ∃ as : List Token, s.taken (f t) = as.map f ∧ s'.taken (g t) = as.map g := by
  obtain ⟨cs, h0, h1, h2⟩ := hs.comments
  obtain ⟨as, bs, a0, a1, a2, a3, a4⟩ := takeWhile_twin hf t cs
  refine ⟨⟨⟨bs, fun b hb => h0 b (a0 b hb), ?_, ?_⟩, hs.marks, hs.empty, hs.tok, hs.line⟩, as, ?_, ?_⟩
  · simp only [FState.dropTaken, h1, a3]
  · simp only [FState.dropTaken, h2, a4]
  · simp only [FState.taken, h1, a1]
  · simp only [FState.taken, h2, a2]

omit hR hf in
theorem push_twin {s s' : FState} (hs : TwinS B R f g s s') (m : Marker) :
    TwinS B R f g (s.push (m.map f)) (s'.push (m.map g)) := by
  obtain ⟨ms, h1, h2⟩ := hs.marks
  exact ⟨hs.comments, ⟨m :: ms, by simp [FState.push, h1], by simp [FState.push, h2]⟩, rfl, hs.tok, hs.line⟩

omit hR hf in
theorem pushInlines_twin : ∀ (cs : List Token) {s s' : FState}, TwinS B R f g s s' →
    TwinS B R f g (pushInlines (cs.map f) s) (pushInlines (cs.map g) s')
  | [], _, _, h => h
  | c :: cs, s, s', h => by
    simp only [List.map_cons, pushInlines]
    rw [h.empty]
    split
    · exact pushInlines_twin cs (push_twin h (.token c))
    · exact pushInlines_twin cs (push_twin (push_twin h .space) (.token c))

omit hf in
theorem pushGap_twin {x x' l l' : Nat} (hx : R x x') (hl : R l l') {s s' : FState} (hs : TwinS B R f g s s') :
    ResRel (TwinS B R f g) (pushGap x l s) (pushGap x' l' s') := by
  unfold pushGap subLine
  by_cases h : l ≤ x
  · rw [if_pos h, if_pos ((hR.le hl hx).1 h)]
    simp only [Res.bind_ok]
    by_cases h2 : x - l > 1
    · rw [if_pos h2, if_pos ((hR.gap hl hx).1 h2)]
      exact .ok (push_twin hs .blank)
    · rw [if_neg h2, if_neg (fun h => h2 ((hR.gap hl hx).2 h))]
      exact .ok (push_twin hs .break)
  · rw [if_neg h, if_neg (fun h' => h ((hR.le hl hx).2 h'))]
    exact .panic

theorem pushComments_twin (b : Blank) : ∀ (cs : List Token) {l l' : Nat} {s s' : FState}, R l l' →
    TwinS B R f g s s' → ResRel (fun x y => R x.1 y.1 ∧ TwinS B R f g x.2 y.2)
      (pushComments b (cs.map f) l s) (pushComments b (cs.map g) l' s')
  | [], _, _, _, _, hl, hs => .ok ⟨hl, hs⟩
  | c :: cs, l, l', s, s', hl, hs => by
    simp only [List.map_cons, pushComments]
    have hk : ∀ a a' : FState, TwinS B R f g a a' → ResRel (fun x y => R x.1 y.1 ∧ TwinS B R f g x.2 y.2)
        (pushComments b (cs.map f) (f c).stop.line (a.push (.token (f c))))
        (pushComments b (cs.map g) (g c).stop.line (a'.push (.token (g c)))) := fun a a' h =>
      pushComments_twin b cs (hf.stop c) (push_twin h (.token c))
    split
    · by_cases h : l > s.prevLine
      · rw [if_pos h, if_pos ((hR.lt hs.line hl).1 h)]
        exact (pushGap_twin hR (hf.start c) hl hs).bind hk
      · rw [if_neg h, if_neg (fun h' => h ((hR.lt hs.line hl).2 h'))]
        exact hk s s' hs
    · exact (pushGap_twin hR (hf.start c) hl hs).bind hk

theorem filter_twin {n n' : Nat} (hn : R n n') : ∀ as : List Token, ∃ bs cs : List Token,
    (as.map f).filter (fun c => c.start.line == n) = bs.map f ∧
    (as.map g).filter (fun c => c.start.line == n') = bs.map g ∧
    (as.map f).filter (fun c => !(c.start.line == n)) = cs.map f ∧
    (as.map g).filter (fun c => !(c.start.line == n')) = cs.map g
  | [] => ⟨[], [], rfl, rfl, rfl, rfl⟩
  | a :: as => by
    obtain ⟨bs, cs, h1, h2, h3, h4⟩ := filter_twin hn as
    have e := hR.beq (hf.start a) hn
    simp only [List.map_cons, List.filter_cons, e, h1, h2, h3, h4]
    cases (g a).start.line == n'
    · exact ⟨bs, a :: cs, by simp, by simp, by simp, by simp⟩
    · exact ⟨a :: bs, cs, by simp, by simp, by simp, by simp⟩

theorem handleBreak_twin (t : Token) (b : Blank) {s s' : FState} (hs : TwinS B R f g s s') :
    ResRel (TwinS B R f g) (s.handleBreak (f t) b) (s'.handleBreak (g t) b) := by
  unfold FState.handleBreak
  obtain ⟨hd, as, e1, e2⟩ := dropTaken_twin hf t hs
  obtain ⟨bs, cs, a1, a2, a3, a4⟩ := filter_twin hR hf hs.line as
  simp only [e1, e2, a1, a2, a3, a4]
  have h1 := pushInlines_twin bs hd
  have h2 : TwinS B R f g
      (if b = .Required then (pushInlines (bs.map f) (s.dropTaken (f t))).push .blank
        else pushInlines (bs.map f) (s.dropTaken (f t)))
      (if b = .Required then (pushInlines (bs.map g) (s'.dropTaken (g t))).push .blank
        else pushInlines (bs.map g) (s'.dropTaken (g t))) := by
    split
    · exact push_twin h1 .blank
    · exact h1
  refine (pushComments_twin hR hf b cs h2.line h2).bind fun x y h => ?_
  obtain ⟨l, s3⟩ := x
  obtain ⟨l', s3'⟩ := y
  obtain ⟨hl, h3⟩ := h
  simp only at hl h3
  cases b with
  | Legal => exact pushGap_twin hR (hf.start t) hl h3
  | Illegal => exact .ok (push_twin h3 .break)
  | Required =>
    simp only
    by_cases h : l > s3.prevLine
    · rw [if_pos h, if_pos ((hR.lt h3.line hl).1 h)]
      exact pushGap_twin hR (hf.start t) hl h3
    · rw [if_neg h, if_neg (fun h' => h ((hR.lt h3.line hl).2 h'))]
      exact .ok h3

theorem breakOrSpace_twin (m : Bool) (t : Token) {s s' : FState} (hs : TwinS B R f g s s') :
    ResRel (TwinS B R f g) (s.breakOrSpace m (f t)) (s'.breakOrSpace m (g t)) := by
  unfold FState.breakOrSpace
  split
  · exact handleBreak_twin hR hf t _ hs
  · exact .ok (push_twin hs .space)

omit hR in
theorem handleToken_twin (t : Token) {s s' : FState} (hs : TwinS B R f g s s') :
    TwinS B R f g (s.handleToken (f t)) (s'.handleToken (g t)) := by
  have hd := (dropTaken_twin hf t hs).1
  obtain ⟨ms, h1, h2⟩ := hd.marks
  exact ⟨hd.comments, ⟨.token t :: ms, by simp [FState.handleToken, h1, Marker.map],
    by simp [FState.handleToken, h2, Marker.map]⟩, rfl, hf.kind t, hf.stop t⟩

theorem execF_twin {sub sub' : SK → Args → FState → Res (Bool × FState)}
    (hs : ∀ fn a s s', any ∨ fn ≠ .StoredDefinition → TwinS B R f g s s' → ResRel (TwinRS B R f g) (sub fn a s) (sub' fn a s')) (cx : Ctx) :
    ∀ (c : FCmd) (r : Regs) {s s' : FState}, any ∨ c.plain = true → TwinS B R f g s s' →
      ResRel (TwinRS B R f g) (execF sub (cx.map f) c r s) (execF sub' (cx.map g) c r s')
  | .skip, r, s, s', p, h => .ok ⟨rfl, h⟩
  | .seq a b, r, s, s', p, h => by
    simp only [execF]
    have pa : any ∨ a.plain = true := p.imp_right fun h => (Bool.and_eq_true_iff.1 h).1
    have pb : any ∨ b.plain = true := p.imp_right fun h => (Bool.and_eq_true_iff.1 h).2
    refine (execF_twin hs cx a r pa h).bind fun x y hxy => ?_
    obtain ⟨x1, x2⟩ := x
    obtain ⟨y1, y2⟩ := y
    obtain ⟨e, hxy⟩ := hxy
    simp only at e hxy
    subst e
    exact execF_twin hs cx b x1 pb hxy
  | .ite c a b, r, s, s', p, h => by
    have pc : any ∨ c.plain = true := p.imp_right fun h => (Bool.and_eq_true_iff.1 (Bool.and_eq_true_iff.1 h).1).1
    have pa : any ∨ a.plain = true := p.imp_right fun h => (Bool.and_eq_true_iff.1 (Bool.and_eq_true_iff.1 h).1).2
    have pb : any ∨ b.plain = true := p.imp_right fun h => (Bool.and_eq_true_iff.1 h).2
    simp only [execF, evalFC_twin hR hf cx r h c pc]
    refine (ResRel.refl _).bind fun x y hxy => ?_
    subst hxy
    split
    · exact execF_twin hs cx a r pa h
    · exact execF_twin hs cx b r pb h
  | .space, r, s, s', p, h => .ok ⟨rfl, push_twin h .space⟩
  | .indent, r, s, s', p, h => .ok ⟨rfl, push_twin h .indent⟩
  | .dedent, r, s, s', p, h => .ok ⟨rfl, push_twin h .dedent⟩
  | .tok, r, s, s', p, h => by
    simp only [execF, Ctx.map]
    cases cx.cur with
    | none => exact .panic
    | some t =>
      cases t with
      | tok t => exact .ok ⟨rfl, handleToken_twin hf t h⟩
      | node k cs => exact .panic
  | .brk t b, r, s, s', p, h => by
    simp only [execF]
    refine (target_twin cx t).bind fun x y hxy => ?_
    obtain ⟨j, rfl, rfl⟩ := hxy
    exact (handleBreak_twin hR hf j b h).bind fun x y hxy => .ok ⟨rfl, hxy⟩
  | .bos c t, r, s, s', p, h => by
    simp only [execF, evalFC_twin hR hf cx r h c p]
    refine (ResRel.refl _).bind fun b b' hb => ?_
    subst hb
    refine (target_twin cx t).bind fun x y hxy => ?_
    obtain ⟨j, rfl, rfl⟩ := hxy
    exact (breakOrSpace_twin hR hf b j h).bind fun x y hxy => .ok ⟨rfl, hxy⟩
  | .call fn m w o keep, r, s, s', p, h => by
    have q : any ∨ (fn ≠ .StoredDefinition ∧ m.plain = true) ∧ w.plain = true ∧ o.plain = true := p.imp_right fun h => by
      simp only [FCmd.plain, Bool.and_eq_true, bne_iff_ne] at h
      exact ⟨h.1.1, h.1.2, h.2⟩
    simp only [execF, evalFC_twin hR hf cx r h m (q.imp_right (·.1.2)), evalFC_twin hR hf cx r h w (q.imp_right (·.2.1)),
      evalFC_twin hR hf cx r h o (q.imp_right (·.2.2))]
    refine (ResRel.refl _).bind fun b b' hb => ?_
    subst hb
    refine (ResRel.refl _).bind fun b2 b' hb => ?_
    subst hb
    refine (ResRel.refl _).bind fun b3 b' hb => ?_
    subst hb
    refine (hs _ _ _ _ (q.imp_right (·.1.1)) h).bind fun x y hxy => ?_
    obtain ⟨x1, x2⟩ := x
    obtain ⟨y1, y2⟩ := y
    obtain ⟨e, hxy⟩ := hxy
    simp only at e hxy
    subst e
    exact .ok ⟨rfl, hxy⟩
  | .set v c, r, s, s', p, h => by
    simp only [execF, evalFC_twin hR hf cx r h c p]
    refine (ResRel.refl _).bind fun b b' hb => ?_
    subst hb
    exact .ok ⟨rfl, h⟩
  | .setPrevRule, r, s, s', p, h => by
    simp only [execF, Ctx.map]
    cases cx.cur with
    | none => exact .panic
    | some t =>
      cases t with
      | tok t => exact .panic
      | node k cs => exact .ok ⟨rfl, h⟩
  | .unreachable, _, _, _, _, _ => .panic

variable (bodies : SK → FBody) (hb : any ∨ ∀ k, k ≠ .StoredDefinition → (bodies k).Plain)
include hb

mutual
theorem fmtTree_twin (fn : SK) (hn : any ∨ fn ≠ .StoredDefinition) (a : Args) (t : Tree) {s s' : FState}
    (h : TwinS B R f g s s') :
    ResRel (TwinRS B R f g) (fmtTree bodies fn a (t.map f) s) (fmtTree bodies fn a (t.map g) s') := by
  match t with
  | .tok t => simp only [Tree.map, fmtTree]; exact .panic
  | .node k cs =>
    simp only [Tree.map, fmtTree]
    have hp : any ∨ (bodies fn).Plain := by
      rcases hn with hn | hn
      · exact .inl hn
      · exact hb.imp_right fun h => h fn hn
    refine (execF_twin hR hf (fun _ _ _ _ _ _ => .panic) { all := cs } _ _ (hp.imp_right (·.pre)) h).bind fun x y hxy => ?_
    obtain ⟨x1, x2⟩ := x
    obtain ⟨y1, y2⟩ := y
    obtain ⟨e, hxy⟩ := hxy
    simp only at e hxy
    subst e
    refine (fmtLoop_twin (bodies fn) hp cs cs 0 x1 hxy).bind fun x y hxy => ?_
    obtain ⟨x1, x2⟩ := x
    obtain ⟨y1, y2⟩ := y
    obtain ⟨e, hxy⟩ := hxy
    simp only at e hxy
    subst e
    refine (execF_twin hR hf (fun _ _ _ _ _ _ => .panic) { all := cs } _ _ (hp.imp_right (·.post)) hxy).bind fun x y hxy => ?_
    obtain ⟨x1, x2⟩ := x
    obtain ⟨y1, y2⟩ := y
    obtain ⟨e, hxy⟩ := hxy
    simp only at e hxy
    subst e
    exact .ok ⟨rfl, hxy⟩
theorem fmtLoop_twin (b : FBody) (hp : any ∨ b.Plain) (all cs : List Tree) (idx : Nat) (r : Regs) {s s' : FState} (h : TwinS B R f g s s') :
    ResRel (TwinRS B R f g) (fmtLoop bodies b (mapTrees f all) (mapTrees f cs) idx r s)
      (fmtLoop bodies b (mapTrees g all) (mapTrees g cs) idx r s') := by
  match cs with
  | [] => simp only [mapTrees, fmtLoop]; exact .ok ⟨rfl, h⟩
  | .tok t :: rest =>
    simp only [mapTrees, fmtLoop]
    simp only [Tree.map, hf.kind]
    refine (execF_twin hR hf (sub := fun fn a s => fmtTree bodies fn a (.tok (f t)) s)
      (sub' := fun fn a s => fmtTree bodies fn a (.tok (g t)) s)
      (fun fn a s s' _ _ => by simp only [fmtTree]; exact .panic)
      { all := all, cur := some (.tok t), idx := idx, rest := rest } _ _ (hp.imp_right (·.onTok _)) h).bind fun x y hxy => ?_
    obtain ⟨x1, x2⟩ := x
    obtain ⟨y1, y2⟩ := y
    obtain ⟨e, hxy⟩ := hxy
    simp only at e hxy
    subst e
    exact fmtLoop_twin b hp all rest (idx + 1) x1 hxy
  | .node k ds :: rest =>
    simp only [mapTrees, fmtLoop]
    have h1 := fun fn a s s' hn (h : TwinS B R f g s s') => fmtTree_twin fn hn a (.node k ds) h
    simp only [Tree.map] at h1 ⊢
    refine (execF_twin hR hf (sub := fun fn a s => fmtTree bodies fn a (.node k (mapTrees f ds)) s)
      (sub' := fun fn a s => fmtTree bodies fn a (.node k (mapTrees g ds)) s) h1
      { all := all, cur := some (.node k ds), idx := idx, rest := rest } _ _ (hp.imp_right (·.onTree _)) h).bind fun x y hxy => ?_
    obtain ⟨x1, x2⟩ := x
    obtain ⟨y1, y2⟩ := y
    obtain ⟨e, hxy⟩ := hxy
    simp only at e hxy
    subst e
    exact fmtLoop_twin b hp all rest (idx + 1) x1 hxy
end

omit hb hf in
theorem format_twin (hf : Twin {} any R f g) (ha : any) (h1 : R 1 1) (t : Tree) (comments : List Token) :
    ResRel (fun a b => ∃ ms : List Marker, a = ms.map (Marker.map f) ∧ b = ms.map (Marker.map g))
      (format (t.map f) (comments.map f)) (format (t.map g) (comments.map g)) := by
  unfold format
  have e : TwinS {} R f g (FState.init (comments.map f)) (FState.init (comments.map g)) :=
    ⟨⟨comments, fun _ _ => trivial, (List.append_nil _).symm, (List.append_nil _).symm⟩, ⟨[], rfl, rfl⟩, rfl, rfl, h1⟩
  cases t with
  | tok t => simp only [Tree.map]; exact .panic
  | node k cs =>
    have key : ∀ k, ResRel (fun a b => ∃ ms : List Marker, a = ms.map (Marker.map f) ∧ b = ms.map (Marker.map g))
        ((fmtTree Fmt.body k {} ((Tree.node k cs).map f) (FState.init (comments.map f))).bind
          (fun x => Res.ok x.2.marks.reverse))
        ((fmtTree Fmt.body k {} ((Tree.node k cs).map g) (FState.init (comments.map g))).bind
          (fun x => Res.ok x.2.marks.reverse)) := by
      intro k
      refine (fmtTree_twin hR hf Fmt.body (.inl ha) k (.inl ha) {} _ e).bind fun x y hxy => ?_
      obtain ⟨ms, m1, m2⟩ := hxy.2.marks
      exact .ok ⟨ms.reverse, by rw [m1, List.append_nil, List.map_reverse], by rw [m2, List.append_nil, List.map_reverse]⟩
    simp only [Tree.map] at key ⊢
    cases k <;> first | exact key _ | exact .ok ⟨[], rfl, rfl⟩

omit hR hb in
theorem printMarks_twin (eol : Text) : ∀ (ms : List Marker) (n : Nat),
    printMarks eol (ms.map (Marker.map f)) n = printMarks eol (ms.map (Marker.map g)) n
  | [], _ => rfl
  | m :: ms, n => by
    cases m <;> simp only [List.map_cons, Marker.map, printMarks, printMarks_twin eol ms, hf.text]

omit hb hf in
theorem prettyPrint_twin (hf : Twin {} any R f g) (ha : any) (h1 : R 1 1) (eol : Text) (toks comments : List Token) (evs : List Event) :
    prettyPrint eol (toks.map f) (comments.map f) evs = prettyPrint eol (toks.map g) (comments.map g) evs := by
  unfold prettyPrint
  rw [buildTree_map, buildTree_map, Res.bind_map, Res.bind_map]
  congr 1; funext t
  refine ResRel.eq ((format_twin hR hf ha h1 t comments).bind fun a b h => ?_)
  obtain ⟨ms, rfl, rfl⟩ := h
  exact .of_eq (printMarks_twin hf eol ms 0)

end
end Mofmt
