import Verif.Props.Accept
import Verif.Props.Parser
import Verif.Props.Insert
/-
C87: any production of an accepted file can be replaced by another one of the same kind.
-/
namespace Mofmt
open Lexical

/-- a token of which only the kind is known -/
def kindTok (t : Token) : Token := ⟨0, [], t.kind, ⟨0, 0, 0⟩, ⟨0, 0, 0⟩⟩

/-- the kinds of productions and tokens of a tree: its shape -/
def Tree.shape (t : Tree) : Tree := t.map kindTok

theorem kindTok_map {a b : List Token} (h : a.map (·.kind) = b.map (·.kind)) : a.map kindTok = b.map kindTok := by
  have := congrArg (List.map fun k : Tok => (⟨0, [], k, ⟨0, 0, 0⟩, ⟨0, 0, 0⟩⟩ : Token)) h
  rw [List.map_map, List.map_map] at this
  exact this

theorem Around.map_same : ∀ C : Around, C.map id id = C
  | .hole => rfl
  | .node k pre c post => by simp only [Around.map, mapTrees_id, Around.map_same c]

/-- the events of a reading build its tree -/
theorem accept_built {toks : List Token} {cs : List Tree} (h : Reading .StoredDefinition toks cs)
    (ho : (Tree.node .StoredDefinition cs).Opens) (name : Text) :
    ∃ evs, events name toks .StoredDefinition = .ok (evs, []) ∧ buildTree toks evs = .ok (.node .StoredDefinition cs) := by
  obtain ⟨F, f1, f2, f3⟩ := events_accept (name := name) (by decide) h ho
  refine ⟨_, f1, ?_⟩
  have := buildTree_evs .StoredDefinition F
  rwa [f3, f2] at this

/-- **C87** Take a production of an accepted file (`C` is the tree around it), and another production of the same kind, which does
not start with `end` or `initial` unless the old one does.  Every text whose tokens are those of the file with the new production in
place of the old one is accepted, and its tree is the old tree with the new production in place of the old one. -/
theorem C87_replace (name src name' src' : Text) (p : Parsed) (l : Lexed) (C : Around) (k : SK) (cs ds : List Tree) (ys : List Token)
    (hp : parse name src .StoredDefinition = .ok p) (hacc : p.errors = [])
    (ht : buildTree p.tokens p.events = .ok (C.plug (.node k cs)))
    (hY : Reading k ys ds) (hne : ys ≠ []) (ho : (Tree.node k ds).Opens)
    (hs : ∀ t, ys.head? = some t → (t.kind ≠ .End ∧ t.kind ≠ .Initial) ∨ (leavesF cs).head?.map Token.kind = some t.kind)
    (hl : lex name' src' = .ok l) (he : l.errors = [])
    (hk : l.tokens.map (·.kind) = (C.before ++ ys ++ C.after).map (·.kind)) :
    ∃ p' tree', parse name' src' .StoredDefinition = .ok p' ∧ p'.errors = [] ∧ p'.tokens = l.tokens ∧
      buildTree p'.tokens p'.events = .ok tree' ∧ tree'.shape = (C.plug (.node k ds)).shape := by
  obtain ⟨l0, cs0, e1, e2, rd, op⟩ := (C51_accepted_iff name src).1 ⟨p, hp, hacc⟩
  -- the tree of the file
  have hT : C.plug (.node k cs) = .node .StoredDefinition cs0 := by
    obtain ⟨evs, a1, a2⟩ := accept_built rd op name
    simp only [parse, e1, Res.bind_ok, a1, Res.ok.injEq] at hp
    subst hp
    rw [a2] at ht
    simpa using ht.symm
  have hdne : ds ≠ [] := by
    rintro rfl
    exact hne (by rw [← hY.leaves]; rfl)
  have hYE : (Tree.node k ds).hasEmpty = false := by simp [Tree.hasEmpty, hY.full, hdne]
  have idm : C.map id id = C := C.map_same
  have new : ∃ cs1, C.plug (.node k ds) = .node .StoredDefinition cs1 ∧ Reading .StoredDefinition (C.before ++ ys ++ C.after) cs1 ∧
      (Tree.node .StoredDefinition cs1).Opens := by
    have hcon : (C.plug (.node k ds)).Conforms := by
      have := Around.conforms (f := id) (g := id) (fun _ => rfl) (fun _ => rfl) C (s := .node k cs) (s' := .node k ds)
        (by rw [hT]; exact rd.conforms) rfl hY.conforms
      rwa [idm] at this
    have hop : (C.plug (.node k ds)).Opens := by
      have := Around.opens (f := id) (g := id) (fun _ => rfl) (fun _ => rfl) C (s := .node k cs) (s' := .node k ds)
        (by rw [hT]; exact op) rfl ho (by simpa [Tree.leaves, hY.leaves] using hs) (by simpa [Tree.leaves, hY.leaves] using hne)
      rwa [idm] at this
    have hlv : (C.plug (.node k ds)).leaves = C.before ++ ys ++ C.after := by
      rw [C.leaves]; simp [Tree.leaves, hY.leaves]
    have hem : (C.plug (.node k ds)).hasEmpty = false := by
      cases C with
      | hole => exact hYE
      | node k' pre c post =>
        have := Around.full (f := id) (g := id) (.node k' pre c post) (s := .node k cs) (s' := .node k ds) (by
          rw [hT]
          simp only [Around.plug, Tree.node.injEq] at hT
          have : cs0 ≠ [] := by rw [← hT.2]; simp
          simp [Tree.hasEmpty, rd.full, this]) hYE
        rwa [idm] at this
    obtain ⟨cs1, h1⟩ : ∃ cs1, C.plug (.node k ds) = .node .StoredDefinition cs1 := by
      cases C with
      | hole =>
        simp only [Around.plug, Tree.node.injEq] at hT ⊢
        exact ⟨ds, hT.1, rfl⟩
      | node k' pre c post =>
        simp only [Around.plug, Tree.node.injEq] at hT ⊢
        exact ⟨_, hT.1, rfl⟩
    rw [h1] at hcon hop hlv hem
    refine ⟨cs1, h1, ⟨hcon, ?_, by simpa [Tree.leaves] using hlv⟩, hop⟩
    simp only [Tree.hasEmpty, Bool.or_eq_false_iff] at hem
    exact hem.2
  obtain ⟨cs1, n1, n2, n3⟩ := new
  obtain ⟨evs, a1, a2⟩ := accept_built n2 n3 name'
  obtain ⟨errs, b1, b2⟩ := (C24_only_kinds name' name' _ l.tokens .StoredDefinition hk.symm).1 evs [] a1
  simp only [List.length_nil, List.length_eq_zero_iff] at b2
  subst b2
  have sh := buildTree_map kindTok (C.before ++ ys ++ C.after) evs
  rw [← kindTok_map hk, buildTree_map, a2] at sh
  cases hb : buildTree l.tokens evs with
  | ok tree' =>
    rw [hb] at sh
    simp only [Res.map, Res.bind_ok, Res.ok.injEq] at sh
    refine ⟨⟨l.tokens, l.comments, evs, []⟩, tree', ?_, rfl, rfl, hb, by rw [n1]; exact sh⟩
    simp [parse, hl, b1, he]
  | _ => rw [hb] at sh; simp [Res.map] at sh

/-! ### A case -/

/-- the tree around a part -/
def aroundAt : List Nat → Tree → Around
  | [], _ => .hole
  | _ :: _, .tok _ => .hole
  | i :: path, .node k cs => match cs[i]? with
    | none => .hole
    | some c => .node k (cs.take i) (aroundAt path c) (cs.drop (i + 1))

def partAt : List Nat → Tree → Tree
  | [], t => t
  | _ :: _, .tok t => .tok t
  | i :: path, .node k cs => match cs[i]? with
    | none => .node k cs
    | some c => partAt path c

theorem around_part : ∀ (path : List Nat) (t : Tree), (aroundAt path t).plug (partAt path t) = t
  | [], _ => rfl
  | _ :: _, .tok _ => rfl
  | i :: path, .node k cs => by
    simp only [aroundAt, partAt]
    cases h : cs[i]? with
    | none => rfl
    | some c =>
      obtain ⟨hi, rfl⟩ := List.getElem?_eq_some_iff.1 h
      simp only [Around.plug, around_part path]
      rw [← List.drop_eq_getElem_cons hi, List.take_append_drop]

def exPlainSrc : Text := c!"model A\nequation\n  x = 1;\nend A;"
def exRichSrc : Text := c!"model A equation x = if a then 2 else -b; end A;"
def exArgPath : List Nat := [0, 1, 0, 1, 0, 1, 2]
def exArgC : Around := aroundAt exArgPath (exEditTree exPlainSrc)
def exArgOld : List Tree := kidsOf (partAt exArgPath (exEditTree exPlainSrc))
def exArgNew : List Tree := kidsOf (partAt exArgPath (exEditTree exRichSrc))

set_option maxRecDepth 100000 in
set_option maxHeartbeats 2000000 in
/-- The hypotheses of `C87_replace` hold of a number that is replaced by a conditional expression. -/
theorem C87_case : parse c!"f" exPlainSrc .StoredDefinition = .ok (exEditP exPlainSrc) ∧ (exEditP exPlainSrc).errors = [] ∧
    buildTree (exEditP exPlainSrc).tokens (exEditP exPlainSrc).events = .ok (exArgC.plug (.node .Expression exArgOld)) ∧
    Reading .Expression (leavesF exArgNew) exArgNew ∧ leavesF exArgNew ≠ [] ∧ (Tree.node .Expression exArgNew).Opens ∧
    (∀ t, (leavesF exArgNew).head? = some t → (t.kind ≠ .End ∧ t.kind ≠ .Initial) ∨
      (leavesF exArgOld).head?.map Token.kind = some t.kind) ∧
    (leavesF exArgOld).map (·.text) = [c!"1"] ∧ (leavesF exArgNew).length = 7 ∧
    ∃ l, lex c!"f" exRichSrc = .ok l ∧ l.errors = [] ∧
      l.tokens.map (·.kind) = (exArgC.before ++ leavesF exArgNew ++ exArgC.after).map (·.kind) := by
  have e : partAt exArgPath (exEditTree exPlainSrc) = .node .Expression exArgOld := (kids_eq (by decide +kernel)).symm
  have h : exArgC.plug (.node .Expression exArgOld) = exEditTree exPlainSrc := by
    rw [← e]; exact around_part _ _
  rw [h]
  refine ⟨by decide_cbv, by decide_cbv, resTree_ok (by decide +kernel), readingOf (by decide +kernel) (by decide +kernel) rfl,
    by decide +kernel, opensB_sound _ (by decide +kernel), ?_, by decide +kernel, by decide +kernel,
    match lex c!"f" exRichSrc with | .ok l => l | _ => ⟨[], [], []⟩, by decide +kernel, by decide +kernel, by decide +kernel⟩
  have : (leavesF exArgNew).head?.all (fun t => t.kind != .End && t.kind != .Initial) = true := by decide +kernel
  intro t h
  rw [h] at this
  exact .inl (by simpa using this)

end Mofmt
