import Verif.Props.Idempotent
import Verif.Props.Lists
import Verif.Proofs.JoinRun
/-
C12, C13: exactly which files are fixed points after one run.
-/
namespace Mofmt
open Lexical

/-! ### The breaks of two runs -/

/-- is it a line break? -/
def Dec.breaks : Dec → Bool
  | .brk _ _ => true
  | _ => false

/-- The line breaks are those of the output. -/
def OnLines (φ : Token → Token) : Option Token → List (Dec × Token) → Prop
  | _, [] => True
  | q, x :: ds => (if x.1.breaks then lineOf (q.map φ) < (φ x.2).start.line else (φ x.2).start.line = lineOf (q.map φ)) ∧
      OnLines φ (some x.2) ds

theorem on_lines {φ : Token → Token} : ∀ {ds : List (Dec × Token)} {q : Option Token} {L : LS} {i : Nat},
    Placed φ (lineOf (q.map φ)) i ((L.groups ds).flatMap PGroup.segs) → OnLines φ q ds
  | [], _, _, _, _ => trivial
  | (d, t) :: ds, q, L, i, hP => by
    simp only [LS.groups, List.flatMap_cons] at hP
    rw [Placed.append] at hP
    obtain ⟨hP1, hP2⟩ := hP
    rw [PGroup.segs, Placed.append, LS.group_tok] at hP1
    obtain ⟨hPc, hPt⟩ := hP1
    have h4 := hPt.2.2.2.1
    have h5 := hPt.2.2.2.2.1
    simp only at h4 h5
    refine ⟨?_, ?_⟩
    · cases d with
      | none => simpa [Dec.breaks, LS.group, endLine, nlOf] using h4
      | space => simpa [Dec.breaks, LS.group, endLine, nlOf] using h4
      | brk b n =>
        have h1 := endLine_le (lineOf (q.map φ)) (L.group (.brk b n, t)).comments
        have h2 : 0 < nlOf (L.group (.brk b n, t)).white :=
          nlOf_brk (breakSegs_brk L.out.isEmpty (L.comments.takeWhile (·.idx < t.idx)) L.line b n t)
        simp only [Dec.breaks, if_true]
        omega
    · have he : endLine (lineOf (q.map φ)) (L.group (d, t)).segs = lineOf ((some t).map φ) := by
        have : ∀ (a : List Seg) (s : Seg) (l : Nat), endLine l (a ++ [s]) = endLine l a + nlOf s.1 + newlines s.2.text := by
          intro a s
          induction a with
          | nil => intro l; rfl
          | cons x a ih => intro l; simp only [List.cons_append, endLine, ih]
        rw [PGroup.segs, this, LS.group_tok]
        exact h5.symm
      rw [he] at hP2
      exact on_lines hP2

/-- If two runs put the tokens on the same lines, they break the lines at the same places. -/
theorem same_breaks {φ ψ : Token → Token} : ∀ {ds ds' : List (Dec × Token)} {q q' : Option Token},
    OnLines φ q ds → OnLines ψ q' ds' → ds'.map (·.2) = (ds.map (·.2)).map φ → (∀ x ∈ ds, ψ (φ x.2) = φ x.2) →
    lineOf (q'.map ψ) = lineOf (q.map φ) → ds'.map (·.1.breaks) = ds.map (·.1.breaks)
  | [], [], _, _, _, _, _, _, _ => rfl
  | [], _ :: _, _, _, _, _, h, _, _ => by simp at h
  | _ :: _, [], _, _, _, _, h, _, _ => by simp at h
  | (d, t) :: ds, (d', t') :: ds', q, q', h1, h2, h3, h4, h5 => by
    simp only [List.map_cons, List.cons.injEq] at h3 ⊢
    obtain ⟨rfl, h3⟩ := h3
    have ht := h4 _ List.mem_cons_self
    refine ⟨?_, same_breaks h1.2 h2.2 h3 (fun x hx => h4 x (List.mem_cons_of_mem _ hx)) (by simp [ht])⟩
    have g1 := h1.1
    have g2 := h2.1
    simp only [ht, h5] at g1 g2
    cases hd : d.breaks <;> cases hd' : d'.breaks <;> simp only [hd, hd', Bool.false_eq_true, if_true, if_false] at g1 g2
    all_goals first | rfl | omega

/-- the break before the item of a list -/
theorem Put.breaks {tree it : Tree} {b : Bool} (h : Put tree b it) (hC : tree.Conforms) (hE : tree.hasEmpty = false) :
    ∃ da d x dz, it.start? = some x ∧ tree.wholeLayout = da ++ (d, x) :: dz ∧ d.breaks = b := by
  obtain ⟨n, w, m, d, hA, hd, hq⟩ := h
  obtain ⟨x, xs, hx, hs⟩ := start_leaves it (hA.part.full hE)
  obtain ⟨da, dz, hl⟩ := hA.layout
  obtain ⟨dz', h'⟩ := layout_quiet it (hA.part.conforms hC) (hA.part.full hE) hq n w m d x hs
  rw [h', List.cons_append] at hl
  refine ⟨da, d, x, _, hs, hl, ?_⟩
  cases b with
  | true =>
    obtain ⟨l, rfl⟩ : ∃ n, d = .brk .Illegal n := by simpa [DecOK] using hd
    rfl
  | false =>
    have hd : d = .none ∨ d = .space := by simpa [DecOK] using hd
    rcases hd with rfl | rfl <;> rfl

/-! ### The items of the lists of the second run -/

section
variable {f : Token → Token} (hk : ∀ t, (f t).kind = t.kind)
set_option linter.unusedSectionVars false
include hk

omit hk in
theorem mapTrees_map (cs : List Tree) : mapTrees f cs = cs.map (Tree.map f) := by
  induction cs with
  | nil => rfl
  | cons c cs ih => rw [mapTrees, ih, List.map_cons]

mutual
theorem itemsIn_map (t : Tree) : (t.map f).itemsIn = t.itemsIn.map (Tree.map f) := by
  match t with
  | .tok t =>
    simp only [Tree.map, Tree.itemsIn, hk]
    split <;> rfl
  | .node k cs =>
    simp only [Tree.map, Tree.itemsIn, itemsF_map cs]
    split
    · rfl
    · split <;> rfl
theorem itemsF_map (cs : List Tree) : itemsF (mapTrees f cs) = (itemsF cs).map (Tree.map f) := by
  match cs with
  | [] => rfl
  | c :: cs => simp only [mapTrees, itemsF, itemsIn_map c, itemsF_map cs, List.map_append]
end

theorem inside_map (k : SK) (cs : List Tree) : inside k (mapTrees f cs) = mapTrees f (inside k cs) := by
  have h1 : ∀ g : SK → Sym → Bool, (fun c : Tree => !g k c.sym) ∘ Tree.map f = fun c => !g k c.sym := by
    intro g
    funext c
    simp [sym_map hk]
  unfold inside
  split
  · rfl
  · rw [mapTrees_map, mapTrees_map, List.dropWhile_map, ← List.map_drop, List.takeWhile_map, h1, h1]

theorem listItems_map {k : SK} (h : k ≠ .Primary) (cs : List Tree) : listItems k (mapTrees f cs) = (listItems k cs).map (Tree.map f) := by
  rw [listItems, listItems, if_neg (fun h' => h h'.1), if_neg (fun h' => h h'.1), inside_map hk, itemsF_map hk]

end

/-! ### Lists that are not settled -/

mutual
theorem settled_of_parts (t : Tree) (h : ∀ k cs, Part (.node k cs) t → settledAt k cs) : t.Settled := by
  match t with
  | .tok _ => trivial
  | .node k cs => exact ⟨h k cs .here, settledF_of_parts cs fun c hc k ds hp => h k ds (.there hc hp)⟩
theorem settledF_of_parts (cs : List Tree) (h : ∀ c ∈ cs, ∀ k ds, Part (.node k ds) c → settledAt k ds) : SettledF cs := by
  match cs with
  | [] => trivial
  | c :: cs => exact ⟨settled_of_parts c (h c List.mem_cons_self), settledF_of_parts cs fun d hd => h d (List.mem_cons_of_mem _ hd)⟩
end

theorem settledF_mem {cs : List Tree} (h : SettledF cs) : ∀ c ∈ cs, c.Settled := by
  induction cs with
  | nil => intro c hc; cases hc
  | cons d cs ih =>
    intro c hc
    rcases List.mem_cons.1 hc with rfl | hc
    · exact h.1
    · exact ih h.2 c hc

theorem parts_settled {s t : Tree} (hp : Part s t) : t.Settled → s.Settled := by
  induction hp with
  | here => exact id
  | there hc _ ih => exact fun h => ih (settledF_mem h.2 _ hc)

theorem part_map {f : Token → Token} {s t : Tree} (h : Part s t) : Part (s.map f) (t.map f) := by
  induction h with
  | here => exact .here
  | @there k cs c hc _ ih =>
    refine .there ?_ ih
    show c.map f ∈ mapTrees f cs
    clear ih
    induction cs with
    | nil => cases hc
    | cons d ds ihd =>
      rw [mapTrees]
      rcases List.mem_cons.1 hc with rfl | hc
      · exact List.mem_cons_self
      · exact List.mem_cons_of_mem _ (ihd hc)

theorem arg_syms : ((Gram.spec .ArgumentList).syms ++ (Gram.spec .ArgumentOrInheritanceModificationList).syms).all
    (fun s => s == .t .Comma || s == .n .Argument || s == .n .InheritanceModification) = true := by decide +kernel

theorem itemsF_append (a b : List Tree) : itemsF (a ++ b) = itemsF a ++ itemsF b := by
  induction a with
  | nil => rfl
  | cons c a ih => simp only [List.cons_append, itemsF, ih, List.append_assoc]

theorem forced_part : ∀ f ∈ forcedKinds, listPart f = false := by decide

/-- modifications in brackets that contain something forced -/
theorem args_items {k j : SK} {cs : List Tree} (hC : Tree.Conforms (.node k cs))
    (hk : opensIn k (.t .LParen) = true ∧ closesIn k (.t .RParen) = true ∧ closesIn k (.n j) = false ∧ k ≠ .ComponentList ∧ k ≠ .Primary)
    (hs : Gram.spec k = Gram.cat [Gram.T .LParen, Gram.opt (Gram.N j), Gram.T .RParen])
    (hj : j ∉ forcedKinds ∧ listPart j = true)
    (hi : ∀ s ∈ (Gram.spec j).syms, s = .t .Comma ∨ ∃ i, s = .n i ∧ listPart i = false ∧ i ≠ .ForIndices)
    {f : SK} (hf : f ∈ forcedKinds) (hc : containsKind f cs = true) : listItems k cs ≠ [] := by
  obtain ⟨h1, h2⟩ := hC
  rw [hs] at h1
  simp only [Gram.cat, Gram.opt, Gram.T, Gram.N, lang_seq, lang_sym, lang_alt, lang_eps] at h1
  obtain ⟨u, v, hu, rfl, x, y, hxy, hx, rfl⟩ := h1
  subst hxy
  obtain ⟨c, hm, hcf⟩ := contains_child hc
  rcases hx with rfl | rfl
  · simp only [List.cons_append, List.nil_append, List.map_eq_cons_iff, List.map_eq_nil_iff] at hu
    obtain ⟨c1, _, rfl, e1, c2, _, rfl, e2, c3, _, rfl, e3, rfl⟩ := hu
    · skip
      have hin : inside k [c1, c2, c3] = [c2] := by
        rw [inside, if_neg hk.2.2.2.1]
        simp [List.dropWhile, List.takeWhile, e1, e2, e3, hk]
      have hc2 : c = c2 := by
        simp only [List.mem_cons, List.not_mem_nil, or_false] at hm
        rcases hm with rfl | rfl | rfl
        · cases c <;> simp_all [Tree.sym, Tree.hasKind]
        · rfl
        · cases c <;> simp_all [Tree.sym, Tree.hasKind]
      subst hc2
      cases c with
      | tok t => cases e2
      | node j' ds =>
        cases e2
        rw [Tree.hasKind] at hcf
        have hne : j ≠ f := fun he => hj.1 (he ▸ hf)
        rw [if_neg hne] at hcf
        obtain ⟨d, hd, hdf⟩ := contains_child hcf
        have hCd := conformsF_mem h2 (.node j ds) (by simp)
        rw [listItems, if_neg (fun h => hk.2.2.2.2 h.1), hin]
        simp only [itemsF, Tree.itemsIn, hj.2, if_true, List.append_nil]
        have hsd := hi _ (syms_complete hCd.1 d.sym (List.mem_map_of_mem hd))
        cases d with
        | tok t => simp [Tree.hasKind] at hdf
        | node i es =>
          rcases hsd with h | ⟨i', h, hl, hF⟩
          · cases h
          · cases h
            obtain ⟨a, b, rfl⟩ := List.append_of_mem hd
            intro h0
            have : Tree.node i es ∈ itemsF (a ++ Tree.node i es :: b) := by
              rw [itemsF_append, itemsF]
              simp [Tree.itemsIn, hl, hF]
            rw [h0] at this
            cases this
  · exfalso
    simp only [List.cons_append, List.nil_append, List.map_eq_cons_iff, List.map_eq_nil_iff] at hu
    obtain ⟨c1, _, rfl, e1, c2, _, rfl, e2, rfl⟩ := hu
    · skip
      simp only [List.mem_cons, List.not_mem_nil, or_false] at hm
      rcases hm with rfl | rfl
      · cases c <;> simp_all [Tree.sym, Tree.hasKind]
      · cases c <;> simp_all [Tree.sym, Tree.hasKind]

/-- A list that is not settled has items. -/
theorem unsettled_items {k : SK} {cs : List Tree} (hC : Tree.Conforms (.node k cs)) (hE : hasEmptyF cs = false)
    (h : ¬ settledAt k cs) : k ≠ .Primary ∧ listItems k cs ≠ [] ∧ listWrapped k cs = false ∧
      (∀ b, isMultiline cs = .ok b → b = false) ∧ ∀ f : Token → Token, (∀ t, (f t).kind = t.kind) →
      settledAt k (mapTrees f cs) → listWrapped k (mapTrees f cs) = true := by
  have hm0 : isMultiline cs = .ok false → (∀ b, isMultiline cs = .ok b → b = false) ∧ spansLines cs = false := by
    intro hm
    refine ⟨fun b hb => ?_, (isMultiline_eq hE hm).symm⟩
    rw [hm] at hb
    cases hb
    rfl
  have hcs : cs ≠ [] := by
    rintro rfl
    refine h ?_
    unfold settledAt
    split
    · intro h; cases h
    · intro _ f _; rfl
    · intro _ _ _ f _; rfl
    · trivial
  have hmm : ∀ f : Token → Token, ¬ Unforced cs → (isMultiline (mapTrees f cs) = .ok false → Unforced (mapTrees f cs)) →
      spansLines (mapTrees f cs) = true := by
    intro f hu hs
    obtain ⟨b, hb⟩ := isMultiline_ok (cs := mapTrees f cs) (by cases cs <;> simp_all [mapTrees]) (by rw [mapF_hasEmpty]; exact hE)
    have := isMultiline_eq (by rw [mapF_hasEmpty]; exact hE) hb
    rw [← this]
    cases b with
    | true => rfl
    | false =>
      refine absurd (fun f' hf' => ?_) hu
      have := hs hb f' hf'
      rwa [containsKind_map] at this
  have hun : ¬ Unforced cs → ∃ f ∈ forcedKinds, containsKind f cs = true := by
    intro hu
    refine Classical.byContradiction fun hne => hu fun f hf => ?_
    cases hc : containsKind f cs with
    | false => rfl
    | true => exact absurd ⟨f, hf, hc⟩ hne
  unfold settledAt at h
  split at h
  · simp only [Classical.not_imp] at h
    obtain ⟨h1, h2, h3⟩ := h
    refine ⟨by simp, ?_, ?_, (hm0 h2).1, ?_⟩
    · cases cs with
      | nil => exact absurd rfl hcs
      | cons c cs =>
        have := first_complete hC.1
        have : c.sym = .n .ComponentDeclaration := by
          have h' : ((Gram.spec .ComponentList).first.all fun s => s == .n .ComponentDeclaration) = true := by decide +kernel
          simpa using List.all_eq_true.1 h' _ this
        cases c with
        | tok t => cases this
        | node j ds =>
          cases this
          simp [listItems, inside, itemsF, Tree.itemsIn, listPart]
    · simp [listWrapped, (hm0 h2).2]
    · intro f hf hs
      have := hmm f h3 (hs (by rw [mapTrees_map, List.length_map]; exact h1))
      rw [listWrapped, this, mapTrees_map, List.length_map]
      simpa using h1
  · simp only [Classical.not_imp] at h
    obtain ⟨h2, h3⟩ := h
    obtain ⟨f, hf, hc⟩ := hun h3
    refine ⟨by simp, ?_, ?_, (hm0 h2).1, ?_⟩
    · exact args_items (j := .ArgumentOrInheritanceModificationList) hC (by decide) rfl (by decide) (by
        have h' : ((Gram.spec .ArgumentOrInheritanceModificationList).syms.all fun s => s == .t .Comma || s == .n .Argument || s == .n .InheritanceModification) = true := by decide +kernel
        intro s hs
        have := List.all_eq_true.1 h' s hs
        simp only [Bool.or_eq_true, beq_iff_eq] at this
        rcases this with (h | h) | h
        · exact .inl h
        · exact .inr ⟨_, h, by decide⟩
        · exact .inr ⟨_, h, by decide⟩) hf hc
    · simp [listWrapped, (hm0 h2).2]
    · intro f hf hs
      simpa [listWrapped] using hmm f h3 hs
  · simp only [Classical.not_imp] at h
    obtain ⟨h2, h4, h5, h3⟩ := h
    obtain ⟨f, hf, hc⟩ := hun h3
    refine ⟨by simp, ?_, ?_, (hm0 h2).1, ?_⟩
    · exact args_items (j := .ArgumentList) hC (by decide) rfl (by decide) (by
        have h' : ((Gram.spec .ArgumentList).syms.all fun s => s == .t .Comma || s == .n .Argument) = true := by decide +kernel
        intro s hs
        have := List.all_eq_true.1 h' s hs
        simp only [Bool.or_eq_true, beq_iff_eq] at this
        rcases this with h | h
        · exact .inl h
        · exact .inr ⟨_, h, by decide⟩) hf hc
    · rw [contains_eq] at h4 h5
      simp [listWrapped, (hm0 h2).2, h4, h5]
    · intro f hf hs
      have := hmm f h3 (fun hm => hs hm (by rw [containsKind_map]; exact h4) (by rw [containsKind_map]; exact h5))
      simp [listWrapped, this]
  · exact absurd trivial h

/-! ### C12, C13 -/

theorem full_node {k : SK} {cs : List Tree} (h : cs ≠ []) (hE : hasEmptyF cs = false) : Tree.hasEmpty (.node k cs) = false := by
  cases cs with
  | nil => exact absurd rfl h
  | cons c cs => simpa [Tree.hasEmpty] using hE

theorem full_forest {k : SK} {cs : List Tree} (hE : Tree.hasEmpty (.node k cs) = false) : hasEmptyF cs = false := by
  cases cs with
  | nil => rfl
  | cons c cs => simpa [Tree.hasEmpty] using hE

theorem same_place {l : List Token} (h : l.Pairwise fun a b => a.idx < b.idx ∧ a.stop.line ≤ b.start.line) :
    ∀ {a b a' b' : List Token} {x : Token}, l = a ++ x :: b → l = a' ++ x :: b' → a = a' := by
  induction l with
  | nil => intro a b a' b' x h1; simp at h1
  | cons y l ih =>
    intro a b a' b' x h1 h2
    have hy := (List.pairwise_cons.1 h).1
    cases a with
    | nil =>
      cases a' with
      | nil => rfl
      | cons z a' =>
        simp only [List.nil_append, List.cons_append, List.cons.injEq] at h1 h2
        have := (hy x (by rw [h2.2]; simp)).1
        rw [h1.1] at this
        omega
    | cons z a =>
      cases a' with
      | nil =>
        simp only [List.nil_append, List.cons_append, List.cons.injEq] at h1 h2
        have := (hy x (by rw [h1.2]; simp)).1
        rw [h2.1] at this
        omega
      | cons z' a' =>
        simp only [List.cons_append, List.cons.injEq] at h1 h2
        rw [← h1.1, ← h2.1, ih (List.pairwise_cons.1 h).2 h1.2 h2.2]

/-- If the output is a fixed point, the lists of the source are settled. -/
theorem Runs.fixed {eol name' out : Text} {p : Parsed} {cs : List Tree} {ds : List (Dec × Token)}
    {φ : Token → Token} {p' : Parsed} (hr : Runs eol name' out p cs ds φ p') (he : IsEol eol)
    (hf : Formatted eol name' out p' out) : Tree.Settled (.node .StoredDefinition cs) := by
  by_cases hcs : cs = []
  · subst hcs
    exact ⟨trivial, trivial⟩
  obtain ⟨cs', ds', ψ, p'', hr2⟩ := hf.runs he hr.ends.1 name'
  cases tree_eq hr2.tree hr.tree'
  have hp : p'' = p' := by
    have := hr2.parsed
    rw [hr.parsed] at this
    cases this
    rfl
  rw [hp] at hr2
  clear hp p''
  have hfix : ∀ t ∈ p.tokens, ψ (φ t) = φ t := by
    have h := hr2.toks'
    rw [hr.toks', List.map_map] at h
    intro t ht
    have := List.map_inj_left.1 h t ht
    exact this.symm
  have hcs' : mapTrees φ cs ≠ [] := by
    cases cs with
    | nil => exact absurd rfl hcs
    | cons c cs => simp [mapTrees]
  have hE : Tree.hasEmpty (.node .StoredDefinition cs) = false := full_node hcs hr.full
  have hE' : Tree.hasEmpty (.node .StoredDefinition (mapTrees φ cs)) = false := full_node hcs' hr2.full
  obtain ⟨w, es, n, t1, t2⟩ := hr.run hcs
  obtain ⟨w', es', n', t1', t2'⟩ := hr2.run hcs'
  have hl := traced_layout hr.conf hE t1 t2
  have hl' := traced_layout hr2.conf hE' t1' t2'
  have hb := same_breaks (on_lines (q := none) hr.placed) (on_lines (q := none) hr2.placed)
    (by rw [hr2.toks, hr.toks', hr.toks]) (by
      intro x hx
      refine hfix _ ?_
      rw [← hr.toks]
      exact List.mem_map_of_mem hx) rfl
  refine settled_of_parts _ fun k ls hpart => Classical.byContradiction fun hn => ?_
  obtain ⟨u1, u2, u3, _, u5⟩ := unsettled_items (hpart.conforms hr.conf) (full_forest (hpart.full hE)) hn
  have hw := u5 φ hr.kind (parts_settled (part_map hpart) hr.settled).1
  obtain ⟨it, hit⟩ := List.exists_mem_of_ne_nil _ u2
  have inOrd : ∀ {L : LS} {ts : List Token}, WF L ts → InOrder ts := fun h =>
    ⟨h.ts.imp fun h => h.2, fun t ht => (h.tl t ht).2⟩
  obtain ⟨_, _, _, _, hA⟩ := hpart.at
  have hput := list_items rfl hr.conf hA (hpart.inOrder (by
    show InOrder (leavesF cs)
    rw [hr.leaves]
    exact inOrd hr.wf)) hit
  have hpart' : Part (.node k (mapTrees φ ls)) (.node .StoredDefinition (mapTrees φ cs)) := part_map hpart
  obtain ⟨_, _, _, _, hA'⟩ := hpart'.at
  have hput' := list_items rfl hr2.conf hA' (hpart'.inOrder (by
    show InOrder (leavesF (mapTrees φ cs))
    rw [hr2.leaves]
    exact inOrd hr2.wf)) (it := it.map φ) (by
      rw [listItems_map hr.kind u1]
      exact List.mem_map_of_mem hit)
  rw [u3] at hput
  rw [hw] at hput'
  obtain ⟨da, d, x, dz, e1, e2, e3⟩ := hput.breaks hr.conf hE
  obtain ⟨da', d', x', dz', e1', e2', e3'⟩ := hput'.breaks hr2.conf hE'
  rw [start_map, e1] at e1'
  cases e1'
  rw [← hl] at e2
  rw [← hl'] at e2'
  have hlen : da.length = da'.length := by
    have h1 : p'.tokens = (da.map (·.2)).map φ ++ φ x :: (dz.map (·.2)).map φ := by
      rw [hr.toks', ← hr.toks, e2]
      simp
    have h2 : p'.tokens = da'.map (·.2) ++ φ x :: dz'.map (·.2) := by
      rw [← hr2.toks, e2']
      simp
    have := congrArg List.length (same_place hr2.wf.ts h1 h2)
    simpa using this
  rw [e2, e2', List.map_append, List.map_append] at hb
  have := (List.append_inj hb (by simpa using hlen.symm)).2
  simp only [List.map_cons, List.cons.injEq] at this
  rw [e3, e3'] at this
  exact absurd this.1 (by simp)

/-- **C12** (exact) When line comments end their lines and comments with line breaks inside end theirs, the output
is a fixed point of the formatter exactly when the lists of the source are settled: no list of components and no
modification that stands on one line contains something that the formatter puts on a line of its own. -/
theorem C12_exact_partial (eol name src out name' : Text) (p : Parsed) (h : Formatted eol name src p out)
    (he : IsEol eol) (hL : LineCommentsEnd p.comments) (hB : LongCommentsEnd p.tokens p.comments) :
    (∃ p', Formatted eol name' out p' out) ↔ ∀ t, buildTree p.tokens p.events = .ok t → t.Settled := by
  constructor
  · rintro ⟨p', hf⟩ t ht
    obtain ⟨cs, ds, φ, p'', hr⟩ := h.runs he hL name'
    have : p'' = p' := by
      have := hf.parsed
      rw [hr.parsed] at this
      cases this
      rfl
    subst this
    exact tree_eq hr.tree ht ▸ hr.fixed he hf
  · exact fun hs => C12_steady_partial eol name src out name' p h he ⟨hL, hB, hs⟩

/-- **C13** (exact) When line comments end their lines and comments with line breaks inside end theirs, and
formatting succeeds, a check afterwards passes exactly when the lists of every listed file were settled. -/
theorem C13_exact_partial (w : World) (args fs : List Text) (d : Disk) (he : IsEol w.eol) (ha : Paths args)
    (hfs : collect w args = .ok fs) (hd : DistinctFiles w fs)
    (hs : ∀ p ∈ fs, ∀ src q, Contains w d p src → parse p src .StoredDefinition = .ok q →
      LineCommentsEnd q.comments ∧ LongCommentsEnd q.tokens q.comments)
    (hc : (main w args d).2 = .exit 0) :
    (main w (c!"--check" :: args) (main w args d).1.disk).2 = .exit 0 ↔
      ∀ p ∈ fs, ∀ src q t, Contains w d p src → parse p src .StoredDefinition = .ok q →
        buildTree q.tokens q.events = .ok t → t.Settled := by
  constructor
  · intro h p hp src q t hcon hq ht
    rw [main_format ha] at hc
    rw [main_check ha, main_format ha] at h
    obtain ⟨f, src', q', out, h1, h2, h4, h5, h6⟩ := format_done hfs hd hc p hp
    have := contains_inj hcon ⟨f, h2, h4⟩
    subst this
    have := h5.parsed
    rw [hq] at this
    cases this
    obtain ⟨out', ⟨src2, q2, t2, m1, m2, m3, m4, m5, m6⟩, m7⟩ := (C30_exit_code w true args fs _ 0 hfs (.inl rfl) h).2.1 rfl p hp
    have := contains_inj m2 ⟨f, h2, h6⟩
    subst this
    have := contains_inj (m7 rfl) ⟨f, h2, h6⟩
    subst this
    obtain ⟨s1, s2⟩ := hs p hp src q hcon hq
    exact (C12_exact_partial w.eol p src out' p q h5 he s1 s2).1 ⟨q2, m3, m4, t2, m5, m6⟩ t ht
  · intro h
    refine C13_steady_partial w args fs d he ha hfs hd ?_ hc
    intro p hp src q hcon hq
    obtain ⟨s1, s2⟩ := hs p hp src q hcon hq
    exact ⟨s1, s2, fun t ht => h p hp src q t hcon hq ht⟩

/-! ### Cases meeting the hypotheses -/

/-- test for the hypotheses of `C12_exact_partial` -/
def endsB (p : Parsed) : Bool :=
  lineCommentsEndB p.comments &&
  (p.comments.all fun c => !decide (0 < newlines c.text) || (p.tokens ++ p.comments).all fun x =>
    !decide (c.idx < x.idx) || decide (c.stop.line < x.start.line))

theorem endsB_sound {p : Parsed} (h : endsB p = true) :
    LineCommentsEnd p.comments ∧ LongCommentsEnd p.tokens p.comments := by
  simp only [endsB, Bool.and_eq_true] at h
  refine ⟨lineCommentsEndB_sound h.1, ?_⟩
  intro c hc hn x hx hi
  have h1 := List.all_eq_true.1 h.2 c hc
  simp only [hn, decide_true, Bool.not_true, Bool.false_or] at h1
  have h2 := List.all_eq_true.1 h1 x hx
  simpa [hi] using h2

set_option maxRecDepth 8000 in
/-- Both sides of `C12_exact_partial`: the file of `C12_false`, whose output is not a fixed point, and a file with a list on
several lines and two comments, whose output is one. -/
theorem C12_exact_cases : ∀ src ∈ [exUnsettled, exSteady], ∃ p out, Formatted c!"\n" c!"f" src p out ∧
    LineCommentsEnd p.comments ∧ LongCommentsEnd p.tokens p.comments := by
  have key : ∀ src, (pipeline c!"f" src).any (fun x => x.1.errors.isEmpty && endsB x.1) = true →
      ∃ p out, Formatted c!"\n" c!"f" src p out ∧ LineCommentsEnd p.comments ∧ LongCommentsEnd p.tokens p.comments := by
    intro src h
    obtain ⟨⟨p, t, m⟩, hx, h⟩ := pipeline_any h
    obtain ⟨h1, h2, h3⟩ := pipeline_eq hx
    simp only [Bool.and_eq_true, List.isEmpty_iff] at h
    obtain ⟨out, ho⟩ := C03_formatted c!"\n" _ _ p h1 h.1
    exact ⟨p, out, ho, endsB_sound h.2⟩
  intro src hsrc
  simp only [List.mem_cons, List.not_mem_nil, or_false] at hsrc
  rcases hsrc with rfl | rfl
  · exact key _ (by decide_cbv)
  · exact key _ (by decide_cbv)

/-- The file of `C12_false` has a list that is not settled. -/
theorem C12_unsettled : ∃ p t, parse c!"f" exUnsettled .StoredDefinition = .ok p ∧
    buildTree p.tokens p.events = .ok t ∧ ¬ t.Settled := by
  obtain ⟨p, p', h1, h2, h3⟩ := C12_false
  obtain ⟨q, out, g1, g2, g3⟩ := C12_exact_cases exUnsettled (by simp)
  have := h1.parsed
  rw [g1.parsed] at this
  cases this
  obtain ⟨cs, hcs, _⟩ := h1.laid
  refine ⟨p, _, h1.parsed, hcs, fun hs => h3 ?_⟩
  obtain ⟨q', hq'⟩ := (C12_exact_partial _ _ _ _ c!"f" p h1 (.inl rfl) g2 g3).2 (fun t ht => tree_eq hcs ht ▸ hs)
  have := h2.parsed
  rw [hq'.parsed] at this
  cases this
  obtain ⟨t1, a1, a2⟩ := h2.text
  obtain ⟨t2, b1, b2⟩ := hq'.text
  rw [a1] at b1
  cases b1
  rw [a2, b2]

#print axioms C12_exact_partial
#print axioms C12_exact_cases
#print axioms C12_unsettled
#print axioms C13_exact_partial

end Mofmt
