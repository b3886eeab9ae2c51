import Verif.Proofs.TreeMap
import Verif.Model.Printer
/-
The formatter uses nothing of a token but its index, kind, text and lines.
-/
namespace Mofmt

/-- The change of tokens keeps everything the formatter uses. -/
structure Keep (f : Token → Token) : Prop where
  idx : ∀ t, (f t).idx = t.idx
  text : ∀ t, (f t).text = t.text
  kind : ∀ t, (f t).kind = t.kind
  start : ∀ t, (f t).start.line = t.start.line
  stop : ∀ t, (f t).stop.line = t.stop.line

def Marker.map (f : Token → Token) : Marker → Marker
  | .token t => .token (f t)
  | m => m

def FState.map (f : Token → Token) (s : FState) : FState :=
  { s with comments := s.comments.map f, marks := s.marks.map (Marker.map f) }

def Ctx.map (f : Token → Token) (cx : Ctx) : Ctx :=
  { all := mapTrees f cx.all, cur := cx.cur.map (Tree.map f), idx := cx.idx, rest := mapTrees f cx.rest }

theorem Res.bind_map {α β γ : Type} (r : Res α) (g : α → β) (k : β → Res γ) :
    (r.map g).bind k = r.bind fun a => k (g a) := by
  cases r <;> rfl

theorem Res.map_bind {α β γ : Type} (r : Res α) (k : α → Res β) (g : β → γ) :
    (r.bind k).map g = r.bind fun a => (k a).map g := by
  cases r <;> rfl

variable {f : Token → Token}

mutual
theorem start_map (t : Tree) : (t.map f).start? = t.start?.map f := by
  match t with
  | .tok t => simp [Tree.map, Tree.start?]
  | .node k cs => simp only [Tree.map, Tree.start?, startOf_map cs]
theorem startOf_map (cs : List Tree) : startOf (mapTrees f cs) = (startOf cs).map f := by
  match cs with
  | [] => rfl
  | c :: cs => simp only [mapTrees, startOf, start_map c]
end

mutual
theorem end_map (t : Tree) : (t.map f).end? = t.end?.map f := by
  match t with
  | .tok t => simp [Tree.map, Tree.end?]
  | .node k cs => simp only [Tree.map, Tree.end?, endOf_map cs]
theorem endOf_map (cs : List Tree) : endOf (mapTrees f cs) = (endOf cs).map f := by
  match cs with
  | [] => rfl
  | [c] => simp only [mapTrees, endOf, end_map c]
  | c :: d :: cs => have := endOf_map (d :: cs); simpa only [mapTrees, endOf] using this
end

mutual
theorem hasKind_map (k : SK) (t : Tree) : (t.map f).hasKind k = t.hasKind k := by
  match t with
  | .tok t => simp [Tree.map, Tree.hasKind]
  | .node k cs => simp only [Tree.map, Tree.hasKind, containsKind_map _ cs]
theorem containsKind_map (k : SK) (cs : List Tree) : containsKind k (mapTrees f cs) = containsKind k cs := by
  match cs with
  | [] => rfl
  | c :: cs => simp only [mapTrees, containsKind, hasKind_map k c, containsKind_map k cs]
end

section
variable (hf : Keep f)
include hf

theorem isMultiline_map (cs : List Tree) : isMultiline (mapTrees f cs) = isMultiline cs := by
  unfold isMultiline
  rw [startOf_map, endOf_map]
  cases startOf cs with
  | none => rfl
  | some a =>
    cases endOf cs with
    | none => rfl
    | some b => simp [hf.start, hf.stop]

theorem scanClose_map (cl : Tok) (line : Nat) : ∀ (cs : List Tree) (b : Bool),
    scanClose cl line (mapTrees f cs) b = scanClose cl line cs b
  | [], _ => rfl
  | .tok t :: cs, b => by simp only [mapTrees, Tree.map, scanClose, hf.kind, hf.start, scanClose_map cl line cs]
  | .node k ds :: cs, b => by simp only [mapTrees, Tree.map, scanClose, scanClose_map cl line cs]

theorem scanParens_map (op cl : Tok) : ∀ (cs : List Tree), scanParens op cl (mapTrees f cs) = scanParens op cl cs
  | [] => rfl
  | .tok t :: cs => by
    simp only [mapTrees, Tree.map, scanParens, hf.kind, hf.start, scanParens_map op cl cs, scanClose_map hf]
  | .node k ds :: cs => by simp only [mapTrees, Tree.map, scanParens, scanParens_map op cl cs]

theorem startTok_map (t : Tree) : startTok (t.map f) = (startTok t).map f := by
  unfold startTok
  rw [start_map]
  cases t.start? <;> rfl

theorem target_map (cx : Ctx) (t : Target) : (cx.map f).target t = (cx.target t).map f := by
  cases t with
  | cur =>
    simp only [Ctx.target, Ctx.map]
    cases cx.cur with
    | none => rfl
    | some t => exact startTok_map hf t
  | next =>
    simp only [Ctx.target, Ctx.map]
    cases cx.rest with
    | nil => rfl
    | cons t ts => exact startTok_map hf t

theorem curChildren_map (cx : Ctx) : (cx.map f).curChildren = cx.curChildren.map (mapTrees f) := by
  simp only [Ctx.curChildren, Ctx.map]
  cases cx.cur with
  | none => rfl
  | some t => cases t <;> rfl

theorem mapTrees_length (cs : List Tree) : (mapTrees f cs).length = cs.length := by simp [mapTrees_eq]

theorem evalFC_map (cx : Ctx) (r : Regs) (s : FState) : ∀ c, evalFC (cx.map f) r (s.map f) c = evalFC cx r s c
  | .false => rfl
  | .reg v => rfl
  | .treeMulti => isMultiline_map hf _
  | .treeHas k => by simp [evalFC, Ctx.map, containsKind_map]
  | .lenGt n => by simp [evalFC, Ctx.map, mapTrees_length hf]
  | .lenEq n => by simp [evalFC, Ctx.map, mapTrees_length hf]
  | .parenMulti op cl => by simp [evalFC, Ctx.map, scanParens_map hf]
  | .curMulti => by
    simp only [evalFC, curChildren_map hf, Res.bind_map]
    congr 1; funext cs; exact isMultiline_map hf cs
  | .curStartIs k => by simp only [evalFC, target_map hf, Res.bind_map, hf.kind]
  | .curHas k => by simp only [evalFC, curChildren_map hf, Res.bind_map, containsKind_map]
  | .curEmpty => by simp only [evalFC, curChildren_map hf, Res.bind_map, mapTrees_length hf]
  | .prevTok k => rfl
  | .prevRuleIn ks => rfl
  | .idxGt n => rfl
  | .idxEq n => rfl
  | .tokIdxPos => by simp only [evalFC, target_map hf, Res.bind_map, hf.idx]
  | .nextTree => by
    simp only [evalFC, Ctx.map]
    cases cx.rest with
    | nil => rfl
    | cons t ts => cases t <;> rfl
  | .nextTreeU => by
    simp only [evalFC, Ctx.map]
    cases cx.rest with
    | nil => rfl
    | cons t ts => cases t <;> rfl
  | .nextTok => by
    simp only [evalFC, Ctx.map]
    cases cx.rest with
    | nil => rfl
    | cons t ts => cases t <;> rfl
  | .nextBelow => by simp only [evalFC, target_map hf, Res.bind_map, hf.start]; rfl
  | .not a => by simp only [evalFC, evalFC_map cx r s a]
  | .and a b => by simp only [evalFC, evalFC_map cx r s a, evalFC_map cx r s b]
  | .or a b => by simp only [evalFC, evalFC_map cx r s a, evalFC_map cx r s b]

theorem takeWhile_map (n : Nat) (cs : List Token) :
    (cs.map f).takeWhile (·.idx < n) = (cs.takeWhile (·.idx < n)).map f ∧
    (cs.map f).dropWhile (·.idx < n) = (cs.dropWhile (·.idx < n)).map f := by
  induction cs with
  | nil => exact ⟨rfl, rfl⟩
  | cons c cs ih =>
    simp only [List.map_cons, List.takeWhile_cons, List.dropWhile_cons, hf.idx]
    split
    · exact ⟨by rw [ih.1, List.map_cons], ih.2⟩
    · exact ⟨rfl, rfl⟩

theorem dropTaken_map (t : Token) (s : FState) : (s.map f).dropTaken (f t) = (s.dropTaken t).map f := by
  simp [FState.dropTaken, FState.map, hf.idx, (takeWhile_map hf _ _).2]

omit hf in
theorem pushInlines_map : ∀ (cs : List Token) (s : FState),
    pushInlines (cs.map f) (s.map f) = (pushInlines cs s).map f
  | [], _ => rfl
  | c :: cs, s => by
    simp only [List.map_cons, pushInlines]
    have : (s.map f).marks.isEmpty = s.marks.isEmpty := by simp [FState.map]
    rw [this]
    split
    · exact pushInlines_map cs (s.push (.token c))
    · exact pushInlines_map cs ((s.push .space).push (.token c))

omit hf in
theorem pushGap_map (x line : Nat) (s : FState) : pushGap x line (s.map f) = (pushGap x line s).map (FState.map f) := by
  unfold pushGap
  cases subLine x line with
  | ok d => simp only [Res.bind_ok, Res.map_ok]; split <;> rfl
  | panic p => rfl
  | fuel => rfl

theorem pushComments_map (b : Blank) : ∀ (cs : List Token) (line : Nat) (s : FState),
    pushComments b (cs.map f) line (s.map f) = (pushComments b cs line s).map fun x => (x.1, x.2.map f)
  | [], _, _ => rfl
  | c :: cs, line, s => by
    simp only [List.map_cons, pushComments, hf.start, hf.stop, pushGap_map]
    have hk : ∀ s' : FState, pushComments b (cs.map f) c.stop.line ((s'.map f).push (.token (f c))) =
        (pushComments b cs c.stop.line (s'.push (.token c))).map fun x => (x.1, x.2.map f) := by
      intro s'
      exact pushComments_map b cs c.stop.line (s'.push (.token c))
    split
    · have : (s.map f).prevLine = s.prevLine := rfl
      rw [this]
      split
      · rw [Res.bind_map, Res.map_bind]; congr 1; funext s'; exact hk s'
      · exact hk s
    · rw [Res.bind_map, Res.map_bind]; congr 1; funext s'; exact hk s'

theorem filter_map_line (n : Nat) (cs : List Token) :
    (cs.map f).filter (fun c => c.start.line == n) = (cs.filter (fun c => c.start.line == n)).map f ∧
    (cs.map f).filter (fun c => !(c.start.line == n)) = (cs.filter (fun c => !(c.start.line == n))).map f := by
  simp [List.filter_map, Function.comp_def, hf.start]

theorem handleBreak_map (t : Token) (b : Blank) (s : FState) :
    (s.map f).handleBreak (f t) b = (s.handleBreak t b).map (FState.map f) := by
  unfold FState.handleBreak
  have e1 : (s.map f).taken (f t) = (s.taken t).map f := by
    simp [FState.taken, FState.map, hf.idx, (takeWhile_map hf _ _).1]
  have e2 : (s.map f).prevLine = s.prevLine := rfl
  simp only [e1, e2, dropTaken_map hf, (filter_map_line hf _ _).1, (filter_map_line hf _ _).2, pushInlines_map]
  generalize pushInlines _ (s.dropTaken t) = s1
  have e3 : (if b = .Required then (s1.map f).push .blank else s1.map f) =
      (if b = .Required then s1.push .blank else s1).map f := by split <;> rfl
  rw [e3]
  generalize (if b = .Required then s1.push .blank else s1) = s2
  have e4 : (s2.map f).prevLine = s2.prevLine := rfl
  rw [e4, pushComments_map hf, Res.bind_map, Res.map_bind]
  congr 1
  funext x
  obtain ⟨line, s3⟩ := x
  cases b with
  | Legal => simp only [hf.start, pushGap_map]
  | Illegal => rfl
  | Required =>
    simp only [hf.start, pushGap_map]
    have e5 : (s3.map f).prevLine = s3.prevLine := rfl
    rw [e5]
    split <;> rfl

theorem breakOrSpace_map (m : Bool) (t : Token) (s : FState) :
    (s.map f).breakOrSpace m (f t) = (s.breakOrSpace m t).map (FState.map f) := by
  unfold FState.breakOrSpace
  split
  · exact handleBreak_map hf t _ s
  · rfl

theorem handleToken_map (t : Token) (s : FState) : (s.map f).handleToken (f t) = (s.handleToken t).map f := by
  simp only [FState.handleToken, dropTaken_map hf, hf.stop, hf.kind]
  rfl

/-- change of the result of statements -/
def mapRS {α : Type} (f : Token → Token) (x : α × FState) : α × FState := (x.1, x.2.map f)

theorem execF_map {sub sub' : SK → Args → FState → Res (Bool × FState)}
    (hs : ∀ fn a s, sub' fn a (s.map f) = (sub fn a s).map (mapRS f)) (cx : Ctx) :
    ∀ (c : FCmd) (r : Regs) (s : FState),
      execF sub' (cx.map f) c r (s.map f) = (execF sub cx c r s).map (mapRS f)
  | .skip, r, s => rfl
  | .seq a b, r, s => by
    simp only [execF]
    rw [execF_map hs cx a r s, Res.bind_map, Res.map_bind]
    congr 1; funext x
    exact execF_map hs cx b x.1 x.2
  | .ite c a b, r, s => by
    simp only [execF, evalFC_map hf, Res.map_bind]
    congr 1; funext t
    split
    · exact execF_map hs cx a r s
    · exact execF_map hs cx b r s
  | .space, r, s => rfl
  | .indent, r, s => rfl
  | .dedent, r, s => rfl
  | .tok, r, s => by
    simp only [execF, Ctx.map]
    cases cx.cur with
    | none => rfl
    | some t =>
      cases t with
      | tok t => simp [Tree.map, handleToken_map hf, mapRS]
      | node k cs => rfl
  | .brk t b, r, s => by
    simp only [execF, target_map hf, Res.bind_map, Res.map_bind]
    congr 1; funext tok
    rw [handleBreak_map hf, Res.bind_map]
    rfl
  | .bos c t, r, s => by
    simp only [execF, target_map hf, Res.bind_map, Res.map_bind, evalFC_map hf]
    congr 1; funext b
    congr 1; funext tok
    rw [breakOrSpace_map hf, Res.bind_map]
    rfl
  | .call fn m w o keep, r, s => by
    simp only [execF, evalFC_map hf, Res.map_bind]
    congr 1; funext m
    congr 1; funext w
    congr 1; funext o
    rw [hs, Res.bind_map]
    rfl
  | .set v c, r, s => by simp only [execF, evalFC_map hf, Res.map_bind]; rfl
  | .setPrevRule, r, s => by
    simp only [execF, Ctx.map]
    cases cx.cur with
    | none => rfl
    | some t => cases t <;> rfl
  | .unreachable, _, _ => rfl

variable (bodies : SK → FBody)

mutual
theorem fmtTree_map (fn : SK) (a : Args) (t : Tree) (s : FState) :
    fmtTree bodies fn a (t.map f) (s.map f) = (fmtTree bodies fn a t s).map (mapRS f) := by
  match t with
  | .tok t => simp [Tree.map, fmtTree]
  | .node k cs =>
    simp only [Tree.map, fmtTree]
    have e : ({ all := mapTrees f cs } : Ctx) = Ctx.map f { all := cs } := rfl
    rw [e, execF_map hf (sub := fun _ _ _ => .panic .unreachable) (fun _ _ _ => rfl), Res.bind_map, Res.map_bind]
    congr 1; funext x
    have := fmtLoop_map (bodies fn) cs cs 0 x.1 x.2
    simp only [mapRS]
    rw [this, Res.bind_map, Res.map_bind]
    congr 1; funext y
    simp only [mapRS]
    rw [execF_map hf (sub := fun _ _ _ => .panic .unreachable) (fun _ _ _ => rfl), Res.bind_map, Res.map_bind]
    rfl
theorem fmtLoop_map (b : FBody) (all cs : List Tree) (idx : Nat) (r : Regs) (s : FState) :
    fmtLoop bodies b (mapTrees f all) (mapTrees f cs) idx r (s.map f) =
      (fmtLoop bodies b all cs idx r s).map (mapRS f) := by
  match cs with
  | [] => simp [mapTrees, fmtLoop, mapRS]
  | .tok t :: rest =>
    simp only [mapTrees, fmtLoop]
    have e : ({ all := mapTrees f all, cur := some ((Tree.tok t).map f), idx := idx, rest := mapTrees f rest } : Ctx) =
      Ctx.map f { all := all, cur := some (.tok t), idx := idx, rest := rest } := rfl
    rw [e]
    simp only [Tree.map, hf.kind]
    rw [execF_map hf (sub := fun fn a s => fmtTree bodies fn a (.tok t) s)
      (fun fn a s => by simp [fmtTree]), Res.bind_map, Res.map_bind]
    congr 1; funext x
    exact fmtLoop_map b all rest (idx + 1) x.1 x.2
  | .node k ds :: rest =>
    simp only [mapTrees, fmtLoop]
    have e : ({ all := mapTrees f all, cur := some ((Tree.node k ds).map f), idx := idx, rest := mapTrees f rest } : Ctx) =
      Ctx.map f { all := all, cur := some (.node k ds), idx := idx, rest := rest } := rfl
    rw [e]
    have h := fun fn a s => fmtTree_map fn a (.node k ds) s
    simp only [Tree.map] at h ⊢
    rw [execF_map hf (sub := fun fn a s => fmtTree bodies fn a (.node k ds) s) h, Res.bind_map, Res.map_bind]
    congr 1; funext x
    exact fmtLoop_map b all rest (idx + 1) x.1 x.2
end

theorem format_map (t : Tree) (comments : List Token) :
    format (t.map f) (comments.map f) = (format t comments).map (List.map (Marker.map f)) := by
  unfold format
  have e : FState.init (comments.map f) = (FState.init comments).map f := rfl
  cases t with
  | tok t => simp [Tree.map]
  | node k cs =>
    have key : ∀ k, (fmtTree Fmt.body k {} ((Tree.node k cs).map f) (FState.init (comments.map f))).bind
        (fun x => Res.ok x.2.marks.reverse) = ((fmtTree Fmt.body k {} (.node k cs) (FState.init comments)).bind
        (fun x => Res.ok x.2.marks.reverse)).map (List.map (Marker.map f)) := by
      intro k
      rw [e, fmtTree_map hf, Res.bind_map, Res.map_bind]
      congr 1; funext x
      simp [mapRS, FState.map]
    simp only [Tree.map] at key ⊢
    cases k <;> first | rfl | exact key _

theorem printMarks_map (eol : Text) : ∀ (ms : List Marker) (n : Nat),
    printMarks eol (ms.map (Marker.map f)) n = printMarks eol ms n
  | [], _ => rfl
  | m :: ms, n => by
    cases m <;> simp only [List.map_cons, Marker.map, printMarks, printMarks_map eol ms, hf.text]

theorem prettyPrint_map (eol : Text) (toks comments : List Token) (evs : List Event) :
    prettyPrint eol (toks.map f) (comments.map f) evs = prettyPrint eol toks comments evs := by
  unfold prettyPrint
  rw [buildTree_map, Res.bind_map]
  congr 1; funext t
  rw [format_map hf, Res.bind_map]
  congr 1; funext ms
  exact printMarks_map hf eol ms 0

end
end Mofmt
