import Verif.Spec.Output
import Verif.Proofs.Basic
/-
Building trees from changed tokens.
-/
namespace Mofmt

theorem mapTrees_eq (f : Token → Token) : ∀ cs, mapTrees f cs = cs.map (Tree.map f)
  | [] => rfl
  | c :: cs => by simp [mapTrees, mapTrees_eq f cs]

/-- change of a result -/
def Res.map {α β : Type} (f : α → β) (r : Res α) : Res β := r.bind fun a => .ok (f a)

@[simp] theorem Res.map_ok {α β : Type} (f : α → β) (a : α) : (Res.ok a).map f = .ok (f a) := rfl
@[simp] theorem Res.map_panic {α β : Type} (f : α → β) (p : Panic) : (Res.panic p : Res α).map f = .panic p := rfl
@[simp] theorem Res.map_fuel {α β : Type} (f : α → β) : (Res.fuel : Res α).map f = .fuel := rfl

def mapFrame (f : Token → Token) (x : Frame) : Frame := (x.1, mapTrees f x.2)

theorem buildLoop_map (f : Token → Token) : ∀ (es : List Event) (st : List Frame) (toks : List Token),
    buildLoop es (st.map (mapFrame f)) (toks.map f) =
      (buildLoop es st toks).map fun x => (x.1.map (mapFrame f), x.2.map f)
  | [], st, toks => rfl
  | .enter k :: es, st, toks => by
    rw [buildLoop, buildLoop, ← buildLoop_map f es]; rfl
  | .exit :: es, st, toks => by
    cases st with
    | nil => rfl
    | cons x st =>
      obtain ⟨k, cs⟩ := x
      simp only [List.map_cons, mapFrame, buildLoop]
      have hl : (mapTrees f cs).length = cs.length := by simp [mapTrees_eq]
      rw [hl]
      by_cases hc : cs.length > 0
      · rw [if_pos hc, if_pos hc]
        cases st with
        | nil => rfl
        | cons y st =>
          obtain ⟨k', cs'⟩ := y
          simp only [List.map_cons, mapFrame]
          rw [← buildLoop_map f es]
          simp [mapFrame, mapTrees, Tree.map, mapTrees_eq]
      · rw [if_neg hc, if_neg hc, ← buildLoop_map f es]
  | .advance :: es, st, toks => by
    cases toks with
    | nil => rfl
    | cons t toks =>
      cases st with
      | nil => rfl
      | cons x st =>
        obtain ⟨k, cs⟩ := x
        simp only [List.map_cons, mapFrame, buildLoop]
        rw [← buildLoop_map f es]
        simp [mapFrame, mapTrees, Tree.map]

theorem buildTree_map (f : Token → Token) (toks : List Token) (evs : List Event) :
    buildTree (toks.map f) evs = (buildTree toks evs).map (Tree.map f) := by
  unfold buildTree
  split
  · have := buildLoop_map f evs.dropLast [] toks
    simp only [List.map_nil] at this
    rw [this]
    cases h : buildLoop evs.dropLast [] toks with
    | ok x =>
      obtain ⟨st, rest⟩ := x
      simp only [Res.map_ok, Res.bind_ok, List.isEmpty_map]
      split
      · cases st with
        | nil => rfl
        | cons y st => cases st with
          | nil => simp [mapFrame, Tree.map, mapTrees_eq]
          | cons z st => rfl
      · rfl
    | panic p => rfl
    | fuel => rfl
  · rfl

end Mofmt
