import Verif.Proofs.Basic
/-
`build_tree` inverts the events of a tree, dropping productions without tokens.
-/
namespace Mofmt

mutual
theorem buildLoop_tree (t : Tree) : ∀ (k : SK) (acc : List Tree) (st : List Frame) (es : List Event)
    (rest : List Token),
    buildLoop (t.evs ++ es) ((k, acc) :: st) (t.leaves ++ rest) =
      buildLoop es ((k, t.pruned.reverse ++ acc) :: st) rest := by
  intro k acc st es rest
  match t with
  | .tok tk => simp [Tree.evs, Tree.leaves, Tree.pruned, buildLoop]
  | .node k' cs =>
    simp only [Tree.evs, Tree.leaves, List.cons_append, buildLoop, List.append_assoc]
    rw [buildLoop_forest cs]
    simp only [List.nil_append, buildLoop, Tree.pruned, List.append_nil, List.length_reverse]
    cases h : pruneF cs with
    | nil => simp
    | cons c cs' => simp
theorem buildLoop_forest (F : List Tree) : ∀ (k : SK) (acc : List Tree) (st : List Frame)
    (es : List Event) (rest : List Token),
    buildLoop (evsF F ++ es) ((k, acc) :: st) (leavesF F ++ rest) =
      buildLoop es ((k, (pruneF F).reverse ++ acc) :: st) rest := by
  intro k acc st es rest
  match F with
  | [] => simp [evsF, leavesF, pruneF]
  | t :: ts =>
    simp only [evsF, leavesF, pruneF, List.append_assoc]
    rw [buildLoop_tree t, buildLoop_forest ts]
    simp
end

theorem buildTree_evs (k : SK) (cs : List Tree) :
    buildTree (leavesF cs) (Tree.node k cs).evs = .ok (.node k (pruneF cs)) := by
  have h1 : (Tree.node k cs).evs.getLast? = some .exit := by simp [Tree.evs, List.getLast?_cons]
  have h2 : (Tree.node k cs).evs.dropLast = .enter k :: evsF cs := by
    simp only [Tree.evs]
    rw [← List.cons_append, List.dropLast_concat]
  unfold buildTree
  rw [h1, h2]
  simp only [buildLoop]
  have := buildLoop_forest cs k [] [] [] []
  simp only [List.append_nil] at this
  rw [this]
  simp [buildLoop]

mutual
theorem leaves_pruned (t : Tree) : leavesF t.pruned = t.leaves := by
  match t with
  | .tok tk => simp [Tree.pruned, leavesF]
  | .node k cs =>
    simp only [Tree.pruned, Tree.leaves]
    have := leaves_pruneF cs
    cases h : pruneF cs with
    | nil => rw [h] at this; simpa [leavesF] using this
    | cons c cs' => rw [h] at this; simpa [leavesF, Tree.leaves] using this
theorem leaves_pruneF (F : List Tree) : leavesF (pruneF F) = leavesF F := by
  match F with
  | [] => simp [pruneF]
  | t :: ts => simp [pruneF, leavesF, leaves_pruned t, leaves_pruneF ts]
end

theorem hasEmptyF_append (a b : List Tree) : hasEmptyF (a ++ b) = (hasEmptyF a || hasEmptyF b) := by
  induction a with
  | nil => simp [hasEmptyF]
  | cons t ts ih => simp [hasEmptyF, ih, Bool.or_assoc]

mutual
theorem hasEmpty_pruned (t : Tree) : hasEmptyF t.pruned = false := by
  match t with
  | .tok tk => simp [Tree.pruned, hasEmptyF, Tree.hasEmpty]
  | .node k cs =>
    have := hasEmpty_pruneF cs
    simp only [Tree.pruned]
    cases h : pruneF cs with
    | nil => simp [hasEmptyF]
    | cons c cs' => rw [h] at this; simpa [hasEmptyF, Tree.hasEmpty] using this
theorem hasEmpty_pruneF (F : List Tree) : hasEmptyF (pruneF F) = false := by
  match F with
  | [] => simp [pruneF, hasEmptyF]
  | t :: ts => simp [pruneF, hasEmptyF_append, hasEmpty_pruned t, hasEmpty_pruneF ts]
end

@[simp] theorem pruneF_append (a b : List Tree) : pruneF (a ++ b) = pruneF a ++ pruneF b := by
  induction a with
  | nil => simp [pruneF]
  | cons t ts ih => simp [pruneF, ih]

end Mofmt
