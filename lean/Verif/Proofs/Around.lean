import Verif.Proofs.LayoutMap
/-
A tree around one of its parts.
-/
set_option linter.unusedSectionVars false

namespace Mofmt

/-- a tree with a hole -/
inductive Around where
  | hole
  | node (k : SK) (pre : List Tree) (c : Around) (post : List Tree)

/-- the tree with a part in the hole -/
def Around.plug (s : Tree) : Around → Tree
  | .hole => s
  | .node k pre c post => .node k (pre ++ c.plug s :: post)

/-- the tokens before the hole -/
def Around.before : Around → List Token
  | .hole => []
  | .node _ pre c _ => leavesF pre ++ c.before

/-- the tokens after the hole -/
def Around.after : Around → List Token
  | .hole => []
  | .node _ _ c post => c.after ++ leavesF post

/-- other tokens before and after the hole -/
def Around.map (f g : Token → Token) : Around → Around
  | .hole => .hole
  | .node k pre c post => .node k (mapTrees f pre) (c.map f g) (mapTrees g post)

theorem Part.around {s tree : Tree} (h : Part s tree) : ∃ C : Around, tree = C.plug s := by
  induction h with
  | here => exact ⟨.hole, rfl⟩
  | there hc _ ih =>
    obtain ⟨C, rfl⟩ := ih
    obtain ⟨pre, post, rfl⟩ := List.append_of_mem hc
    exact ⟨.node _ pre C post, rfl⟩

theorem leavesF_app (a b : List Tree) : leavesF (a ++ b) = leavesF a ++ leavesF b := by
  induction a with
  | nil => rfl
  | cons c a ih => simp only [List.cons_append, leavesF, ih, List.append_assoc]

theorem Around.leaves (C : Around) (s : Tree) : (C.plug s).leaves = C.before ++ s.leaves ++ C.after := by
  induction C with
  | hole => simp [Around.plug, Around.before, Around.after]
  | node k pre c post ih =>
    simp only [Around.plug, Tree.leaves, leavesF_app, leavesF, ih, Around.before, Around.after, List.append_assoc]

theorem Around.before_map (f g : Token → Token) (C : Around) : (C.map f g).before = C.before.map f := by
  induction C with
  | hole => rfl
  | node k pre c post ih => simp only [Around.map, Around.before, ih, mapF_leaves, List.map_append]

theorem Around.after_map (f g : Token → Token) (C : Around) : (C.map f g).after = C.after.map g := by
  induction C with
  | hole => rfl
  | node k pre c post ih => simp only [Around.map, Around.after, ih, mapF_leaves, List.map_append]

theorem Around.map_plug (f : Token → Token) (C : Around) (s : Tree) : (C.plug s).map f = (C.map f f).plug (s.map f) := by
  induction C with
  | hole => rfl
  | node k pre c post ih =>
    simp only [Around.plug, Around.map, Tree.map, mapTrees_list, List.map_append, List.map_cons, ih]

theorem mapTrees_comp (f f' : Token → Token) (cs : List Tree) : mapTrees f' (mapTrees f cs) = mapTrees (f' ∘ f) cs := by
  have : ∀ t : Tree, (t.map f).map f' = t.map (f' ∘ f) := by
    intro t
    refine Tree.rec (motive_1 := fun t => (t.map f).map f' = t.map (f' ∘ f))
      (motive_2 := fun cs => mapTrees f' (mapTrees f cs) = mapTrees (f' ∘ f) cs) ?_ ?_ ?_ ?_ t
    · intro t; rfl
    · intro k cs ih; simp only [Tree.map, ih]
    · rfl
    · intro c cs h1 h2; simp only [mapTrees, h1, h2]
  simp only [mapTrees_list, List.map_map]
  exact List.map_congr_left fun t _ => this t

theorem Around.map_map (f g f' g' : Token → Token) (C : Around) :
    (C.map f g).map f' g' = C.map (f' ∘ f) (g' ∘ g) := by
  induction C with
  | hole => rfl
  | node k pre c post ih => simp only [Around.map, ih, mapTrees_comp]

mutual
theorem map_congr_leaves {f g : Token → Token} (t : Tree) (h : ∀ x ∈ t.leaves, f x = g x) : t.map f = t.map g := by
  match t with
  | .tok t => simp only [Tree.map, h t (by simp [Tree.leaves])]
  | .node k cs => simp only [Tree.map, mapF_congr_leaves cs h]
theorem mapF_congr_leaves {f g : Token → Token} (cs : List Tree) (h : ∀ x ∈ leavesF cs, f x = g x) :
    mapTrees f cs = mapTrees g cs := by
  match cs with
  | [] => rfl
  | c :: cs =>
    simp only [leavesF, List.mem_append] at h
    simp only [mapTrees, map_congr_leaves c (fun x hx => h x (.inl hx)), mapF_congr_leaves cs (fun x hx => h x (.inr hx))]
end

theorem Around.map_congr {f g f' g' : Token → Token} (C : Around) (h1 : ∀ x ∈ C.before, f x = f' x)
    (h2 : ∀ x ∈ C.after, g x = g' x) : C.map f g = C.map f' g' := by
  induction C with
  | hole => rfl
  | node k pre c post ih =>
    simp only [Around.before, Around.after, List.mem_append] at h1 h2
    simp only [Around.map, ih (fun x hx => h1 x (.inr hx)) (fun x hx => h2 x (.inl hx)),
      mapF_congr_leaves pre (fun x hx => h1 x (.inl hx)), mapF_congr_leaves post (fun x hx => h2 x (.inr hx))]

theorem Around.sym_map {f g : Token → Token} (C : Around) {s s' : Tree} (hs : s'.sym = s.sym) :
    ((C.map f g).plug s').sym = (C.plug s).sym := by
  cases C with
  | hole => exact hs
  | node k pre c post => rfl

section
variable {f g : Token → Token} (hf : ∀ t, (f t).kind = t.kind) (hg : ∀ t, (g t).kind = t.kind)
include hf hg

omit hf hg in
theorem conformsF_parts : ∀ {a b : List Tree}, ConformsF (a ++ b) ↔ ConformsF a ∧ ConformsF b
  | [], b => by simp [ConformsF]
  | c :: a, b => by
    simp only [List.cons_append, ConformsF, conformsF_parts (a := a), and_assoc]

theorem Around.conforms (C : Around) {s s' : Tree} (h : (C.plug s).Conforms) (hs : s'.sym = s.sym) (h' : s'.Conforms) :
    ((C.map f g).plug s').Conforms := by
  induction C with
  | hole => exact h'
  | node k pre c post ih =>
    simp only [Around.plug, Tree.Conforms] at h
    obtain ⟨h1, h2⟩ := h
    obtain ⟨h3, h4, h5⟩ := conformsF_parts.1 h2
    simp only [Around.map, Around.plug, Tree.Conforms]
    refine ⟨?_, conformsF_parts.2 ⟨mapF_conforms hf _ h3, ih h4, mapF_conforms hg _ h5⟩⟩
    rw [List.map_append, List.map_cons, mapF_syms hf, mapF_syms hg, Around.sym_map c hs]
    rwa [List.map_append, List.map_cons] at h1
omit hf hg

theorem hasEmptyF_app : ∀ (a b : List Tree), hasEmptyF (a ++ b) = (hasEmptyF a || hasEmptyF b)
  | [], b => by simp [hasEmptyF]
  | c :: a, b => by
    simp only [List.cons_append, hasEmptyF, hasEmptyF_app a, Bool.or_assoc]

theorem Around.full (C : Around) {s s' : Tree} (h : (C.plug s).hasEmpty = false) (h' : s'.hasEmpty = false) :
    ((C.map f g).plug s').hasEmpty = false := by
  induction C with
  | hole => exact h'
  | node k pre c post ih =>
    simp only [Around.plug, Tree.hasEmpty, hasEmptyF_app, hasEmptyF, Bool.or_eq_false_iff] at h
    simp only [Around.map, Around.plug, Tree.hasEmpty, hasEmptyF_app, hasEmptyF, Bool.or_eq_false_iff, mapF_hasEmpty]
    exact ⟨by simp, h.2.1, ih h.2.2.1, h.2.2.2⟩

theorem opensF_iff : ∀ {a : List Tree}, OpensF a ↔ ∀ t ∈ a, t.Opens
  | [] => by simp [OpensF]
  | c :: a => by simp [OpensF, opensF_iff (a := a)]

include hf hg
theorem Around.startsOk (C : Around) {s s' : Tree} (p : SK) (h : (C.plug s).startsOk p = true) (hs : s'.sym = s.sym)
    (h' : ∀ t, s'.leaves.head? = some t → (t.kind ≠ .End ∧ t.kind ≠ .Initial) ∨ s.leaves.head?.map Token.kind = some t.kind)
    (hne : s'.leaves ≠ []) :
    ((C.map f g).plug s').startsOk p = true := by
  cases hc : (C.map f g).plug s' with
  | tok t => rfl
  | node k cs =>
    have hl := Around.leaves (C.map f g) s'
    rw [hc, Tree.leaves, Around.before_map, Around.after_map] at hl
    simp only [Tree.startsOk, hl]
    cases hb : C.before with
    | nil =>
      cases hs' : s'.leaves with
      | nil => exact absurd hs' hne
      | cons t ts =>
        rcases h' t (by rw [hs']; rfl) with ⟨h1, h2⟩ | h1
        · simp [opens, h1, h2]
        · cases hsl : s.leaves with
          | nil => rw [hsl] at h1; cases h1
          | cons u us =>
            rw [hsl] at h1
            simp only [List.head?_cons, Option.map_some, Option.some.injEq] at h1
            have e := Around.sym_map (f := f) (g := g) C hs
            rw [hc] at e
            cases hp : C.plug s with
            | tok t => rw [hp] at e; cases e
            | node k' cs' =>
              rw [hp] at e
              cases e
              have hl' := Around.leaves C s
              rw [hp, Tree.leaves, hb, hsl] at hl'
              rw [hp] at h
              simp only [Tree.startsOk, hl', List.nil_append, List.cons_append] at h
              simp only [List.map_nil, List.nil_append, List.cons_append, ← h1]
              exact h
    | cons b bs =>
      have e := Around.sym_map (f := f) (g := g) C hs
      rw [hc] at e
      cases hp : C.plug s with
      | tok t => rw [hp] at e; cases e
      | node k' cs' =>
        rw [hp] at e
        cases e
        have hl' := Around.leaves C s
        rw [hp, Tree.leaves, hb] at hl'
        rw [hp] at h
        simp only [Tree.startsOk, hl', List.cons_append] at h
        simp only [List.map_cons, List.cons_append, hf]
        exact h

theorem Around.opens (C : Around) {s s' : Tree} (h : (C.plug s).Opens) (hs : s'.sym = s.sym) (ho : s'.Opens)
    (h' : ∀ t, s'.leaves.head? = some t → (t.kind ≠ .End ∧ t.kind ≠ .Initial) ∨ s.leaves.head?.map Token.kind = some t.kind)
    (hne : s'.leaves ≠ []) :
    ((C.map f g).plug s').Opens := by
  induction C with
  | hole => exact ho
  | node k pre c post ih =>
    simp only [Around.plug, Tree.Opens, opensF_iff, List.mem_append, List.mem_cons] at h
    obtain ⟨h1, h2⟩ := h
    simp only [Around.map, Around.plug, Tree.Opens, opensF_iff, List.mem_append, List.mem_cons, mapTrees_list, List.mem_map]
    constructor
    · rintro t (⟨u, hu, rfl⟩ | rfl | ⟨u, hu, rfl⟩)
      · rw [map_startsOk hf]; exact h1 u (.inl hu)
      · exact Around.startsOk hf hg c k (h1 _ (.inr (.inl rfl))) hs h' hne
      · rw [map_startsOk hg]; exact h1 u (.inr (.inr hu))
    · rintro t (⟨u, hu, rfl⟩ | rfl | ⟨u, hu, rfl⟩)
      · exact map_opens hf u (h2 u (.inl hu))
      · exact ih (h2 _ (.inr (.inl rfl)))
      · exact map_opens hg u (h2 u (.inr (.inr hu)))

end

end Mofmt
