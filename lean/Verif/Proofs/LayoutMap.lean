import Verif.Spec.Whole
import Verif.Proofs.JoinRun
/-
The layout of a tree uses nothing of a token but its kind and the differences of lines, and for a leading `within` whether something
stands before it.
-/
namespace Mofmt

/-- The change of tokens keeps what the layout uses; all lines are moved by `d`. -/
structure KeepLay (d : Nat) (f : Token → Token) : Prop where
  kind : ∀ t, (f t).kind = t.kind
  start : ∀ t, (f t).start.line = t.start.line + d
  stop : ∀ t, (f t).stop.line = t.stop.line + d
  late : ∀ t, t.kind = .Within → ((f t).idx > 0 ↔ t.idx > 0)

set_option linter.unusedSectionVars false

variable {f : Token → Token}

theorem mapTrees_list (cs : List Tree) : mapTrees f cs = cs.map (Tree.map f) := by
  induction cs with
  | nil => rfl
  | cons c cs ih => rw [mapTrees, ih, List.map_cons]

mutual
theorem occurs_map (k : SK) (t : Tree) : (t.map f).occurs k = t.occurs k := by
  match t with
  | .tok t => rfl
  | .node j cs => simp only [Tree.map, Tree.occurs, occursF_map k cs]
theorem occursF_map (k : SK) (cs : List Tree) : occursF k (mapTrees f cs) = occursF k cs := by
  match cs with
  | [] => rfl
  | c :: cs => simp only [mapTrees, occursF, occurs_map k c, occursF_map k cs]
end

theorem kids_map (t : Tree) : (t.map f).kids = mapTrees f t.kids := by
  cases t with
  | tok t => rfl
  | node k cs => rfl

section
variable {δ : Nat} (hf : KeepLay δ f)
include hf

theorem spans_map (cs : List Tree) : spansLines (mapTrees f cs) = spansLines cs := by
  unfold spansLines
  rw [mapF_leaves, List.head?_map, List.getLast?_map]
  cases (leavesF cs).head? with
  | none => rfl
  | some a =>
    cases (leavesF cs).getLast? with
    | none => rfl
    | some b => simp [hf.start, hf.stop]

theorem wrapsAt_map (k : SK) (prev : Option Tree) (o : Tree) (next : Option Tree) :
    wrapsAt k (prev.map (Tree.map f)) (o.map f) (next.map (Tree.map f)) = wrapsAt k prev o next := by
  unfold wrapsAt
  rw [sym_map hf.kind]
  have h1 : (prev.map (Tree.map f)).bind Tree.end? = (prev.bind Tree.end?).map f := by
    cases prev with
    | none => rfl
    | some t => exact end_map t
  have h2 : (next.map (Tree.map f)).bind Tree.start? = (next.bind Tree.start?).map f := by
    cases next with
    | none => rfl
    | some t => exact start_map t
  rw [h1, h2]
  cases prev.bind Tree.end? with
  | none => rfl
  | some e =>
    cases next.bind Tree.start? with
    | none => rfl
    | some s => simp [hf.start, hf.stop]

mutual
theorem wraps_map (t : Tree) : (t.map f).wraps = t.wraps := by
  match t with
  | .tok t => rfl
  | .node k cs => simpa only [Tree.map, Tree.wraps, Option.map_none] using wrapsF_map k none cs
theorem wrapsF_map (k : SK) (prev : Option Tree) (cs : List Tree) :
    wrapsF k (prev.map (Tree.map f)) (mapTrees f cs) = wrapsF k prev cs := by
  match cs with
  | [] => rfl
  | c :: cs =>
    have h := wrapsF_map k (some c) cs
    simp only [Option.map_some] at h
    have h2 : (mapTrees f cs).head? = cs.head?.map (Tree.map f) := by rw [mapTrees_list, List.head?_map]
    simp only [mapTrees, wrapsF, h2, wrapsAt_map hf, sym_map hf.kind, wraps_map c, h]
end

mutual
theorem leaks_map (t : Tree) : (t.map f).leaks = t.leaks := by
  match t with
  | .tok t => rfl
  | .node k cs => simpa only [Tree.map, Tree.leaks] using leaksF_map k cs
theorem leaksF_map (k : SK) (cs : List Tree) : leaksF k (mapTrees f cs) = leaksF k cs := by
  match cs with
  | [] => rfl
  | c :: cs => simp only [mapTrees, leaksF, leaks_map c, leaksF_map k cs, sym_map hf.kind, wraps_map hf]
end

theorem lineOfTok_map (k : Tok) (cs : List Tree) : lineOfTok k (mapTrees f cs) = (lineOfTok k cs).map (· + δ) := by
  induction cs with
  | nil => rfl
  | cons c cs ih =>
    cases c with
    | tok t =>
      simp only [mapTrees, Tree.map, lineOfTok, hf.kind, hf.start, ih]
      split <;> rfl
    | node j ds => simp only [mapTrees, Tree.map, lineOfTok, ih]

theorem brackets_map (a b : Tok) (cs : List Tree) : bracketsApart a b (mapTrees f cs) = bracketsApart a b cs := by
  unfold bracketsApart
  rw [lineOfTok_map hf, lineOfTok_map hf]
  cases lineOfTok a cs with
  | none => rfl
  | some x =>
    cases lineOfTok b cs with
    | none => rfl
    | some y => simp

theorem brokenIn_map (k : SK) (m : Bool) (cs : List Tree) : brokenIn k m (mapTrees f cs) = brokenIn k m cs := by
  have hl : (mapTrees f cs).length = cs.length := by rw [mapTrees_list, List.length_map]
  unfold brokenIn
  split <;> simp only [spans_map hf, brackets_map hf, occursF_map, hl]

theorem wrapsTo_map (k : SK) (prev : Option Tree) (pre : List Tree) (c : Tree) (post : List Tree) :
    wrapsTo k (prev.map (Tree.map f)) (mapTrees f pre) (c.map f) (mapTrees f post) = wrapsTo k prev pre c post := by
  induction pre generalizing prev with
  | nil =>
    have h2 : (mapTrees f post).head? = post.head?.map (Tree.map f) := by rw [mapTrees_list, List.head?_map]
    simp only [mapTrees, wrapsTo, h2, wrapsAt_map hf]
  | cons d pre ih =>
    have h := ih (some d)
    simp only [Option.map_some] at h
    have h2 : (mapTrees f pre ++ [c.map f]).head? = (pre ++ [c]).head?.map (Tree.map f) := by
      rw [mapTrees_list, ← List.head?_map]
      simp
    simp only [mapTrees, wrapsTo, h2, wrapsAt_map hf, sym_map hf.kind, wraps_map hf, h]

theorem wrappedAt_map (k : SK) (w : Bool) (pre : List Tree) (c : Tree) (post : List Tree) :
    wrappedAt k w (mapTrees f pre) (c.map f) (mapTrees f post) = wrappedAt k w pre c post := by
  unfold wrappedAt
  have h := wrapsTo_map hf k none pre c post
  simp only [Option.map_none] at h
  rw [h]

omit hf in
theorem mapTrees_mid (pre : List Tree) (c : Tree) (post : List Tree) :
    mapTrees f pre ++ c.map f :: mapTrees f post = mapTrees f (pre ++ c :: post) := by
  simp [mapTrees_list]

theorem last_map (pre : List Tree) : (mapTrees f pre).getLast?.map Tree.sym = pre.getLast?.map Tree.sym := by
  rw [mapTrees_list, List.getLast?_map]
  cases pre.getLast? with
  | none => rfl
  | some t => simp [sym_map hf.kind]

theorem longIf_map (c : Tree) : (spansLines [c.map f] && decide (((c.map f).leaves.head?.map Token.kind) = some .If)) =
    (spansLines [c] && decide ((c.leaves.head?.map Token.kind) = some .If)) := by
  have : [c.map f] = mapTrees f [c] := rfl
  rw [this, spans_map hf, map_leaves, List.head?_map]
  cases c.leaves.head? with
  | none => rfl
  | some t => simp [hf.kind]

theorem extra_map (k : SK) (pre : List Tree) (c : Tree) (post : List Tree) :
    extra k (mapTrees f pre) (c.map f) (mapTrees f post) = extra k pre c post := by
  unfold extra
  simp only
  rw [mapTrees_mid, last_map hf, sym_map hf.kind, spans_map hf, brackets_map hf, kids_map, occursF_map, longIf_map hf,
    mapTrees_list, List.length_map]

theorem levelIn_map (k : SK) (n : Nat) (w : Bool) (pre : List Tree) (c : Tree) (post : List Tree) :
    levelIn k n w (mapTrees f pre) (c.map f) (mapTrees f post) = levelIn k n w pre c post := by
  unfold levelIn
  rw [extra_map hf, wrappedAt_map hf, leaksF_map hf]

theorem passedAt_map (k : SK) (m : Bool) (pre : List Tree) (c : Tree) (post : List Tree) :
    passedAt k m (mapTrees f pre) (c.map f) (mapTrees f post) = passedAt k m pre c post := by
  unfold passedAt
  simp only
  rw [mapTrees_mid, brokenIn_map hf, sym_map hf.kind, kids_map, occursF_map, mapTrees_list, List.length_map]

omit hf in
theorem gapIn_from {k : SK} {p : Option Sym} {s : Sym} {b1 b2 b3 b4 b5 b6 : Bool} {x y : Bool}
    (h : s = .t .Within → x = y) : gapIn k p s ⟨b1, b2, b3, b4, x, b5, b6⟩ = gapIn k p s ⟨b1, b2, b3, b4, y, b5, b6⟩ := by
  unfold gapIn
  split
  · rfl
  · by_cases hs : s = .t .Within
    · rw [h hs]
    · by_cases hk : k = .StoredDefinition
      · subst hk
        unfold spaceIn
        simp only
        split
        · rfl
        · rfl
        · exact absurd rfl hs
        · rfl
      · cases k <;> first | rfl | exact absurd rfl hk

theorem gapAt_map (k : SK) (m : Bool) (pre : List Tree) (c : Tree) (post : List Tree) :
    gapAt k m (mapTrees f pre) (c.map f) (mapTrees f post) = gapAt k m pre c post := by
  unfold gapAt
  rw [mapTrees_mid, last_map hf, sym_map hf.kind, brokenIn_map hf, passedAt_map hf, longIf_map hf]
  have h1 : (mapTrees f pre).getLast? = pre.getLast?.map (Tree.map f) := by rw [mapTrees_list, List.getLast?_map]
  have h2 : (mapTrees f post).head? = post.head?.map (Tree.map f) := by rw [mapTrees_list, List.head?_map]
  have h3 : (mapTrees f pre).length = pre.length := by rw [mapTrees_list, List.length_map]
  have h4 : ((mapTrees f pre).getLast?.bind fun d => d.kids.getLast?.map Tree.sym) =
      pre.getLast?.bind fun d => d.kids.getLast?.map Tree.sym := by
    rw [h1]
    cases pre.getLast? with
    | none => rfl
    | some d =>
      show (d.map f).kids.getLast?.map Tree.sym = d.kids.getLast?.map Tree.sym
      rw [kids_map, last_map hf]
  rw [h4, h1, h2, h3, wrapsAt_map hf]
  refine gapIn_from fun hs => ?_
  cases c with
  | node j cs => cases hs
  | tok t =>
    simp only [Tree.sym, Sym.t.injEq] at hs
    simp only [Tree.map, Tree.leaves, List.head?_cons]
    exact decide_eq_decide.2 (hf.late t hs)

/-- the decisions for changed tokens -/
def onSnd (f : Token → Token) (x : Dec × Token) : Dec × Token := (x.1, f x.2)

mutual
theorem layout_map (t : Tree) (n : Nat) (w m : Bool) (d : Dec) :
    (t.map f).layout n w m d = (t.layout n w m d).map (onSnd f) := by
  match t with
  | .tok t => rfl
  | .node k cs => exact layoutF_map k cs n w m [] d
theorem layoutF_map (k : SK) (cs : List Tree) (n : Nat) (w m : Bool) (pre : List Tree) (d : Dec) :
    layoutF k n w m (mapTrees f pre) d (mapTrees f cs) = (layoutF k n w m pre d cs).map (onSnd f) := by
  match cs with
  | [] => rfl
  | c :: cs =>
    have h1 : mapTrees f pre ++ [c.map f] = mapTrees f (pre ++ [c]) := by simp [mapTrees_list]
    simp only [mapTrees, layoutF, List.map_append]
    rw [levelIn_map hf, wrappedAt_map hf, passedAt_map hf, gapAt_map hf, sym_map hf.kind, layout_map c, h1,
      layoutF_map k cs]
end

theorem wholeLayout_map (t : Tree) : (t.map f).wholeLayout = t.wholeLayout.map (onSnd f) :=
  layout_map hf t 0 false false .none

end

end Mofmt
