import Verif.Proofs.Second
/-
The output of the formatter is settled.
-/
namespace Mofmt
open Lexical

/-! ### Comments in the output -/

/-- comments after which the line ends -/
def EndsLine (t : Token) : Prop := isComment t = true ∧ (0 < newlines t.text ∨ t.kind = .LineComment)

/-- After such comments there is a line break. -/
def Ends : Option Token → List Seg → Prop
  | _, [] => True
  | o, s :: l => (∀ t, o = some t → EndsLine t → isBrk s.1 = true) ∧ Ends (some s.2) l

theorem Ends.append : ∀ {a b : List Seg} {o : Option Token}, Ends o a →
    Ends (match a.getLast? with | some s => some s.2 | none => o) b → Ends o (a ++ b)
  | [], _, _, _, h => h
  | s :: a, b, o, h1, h2 => by
    refine ⟨h1.1, Ends.append h1.2 ?_⟩
    rw [List.getLast?_cons] at h2
    cases h : a.getLast? with
    | none => simpa [h] using h2
    | some x => simpa [h] using h2

theorem com_ends {C : List Token} {prev : Option Token} {l : List Seg} :
    ∀ {o : Option Token}, Chain o l →
    (∀ s ∈ l, isBrk s.1 = true ∨ s.2.start.line = lineOf prev) →
    (∀ c, o = some c → isComment c = true → lineOf prev ≤ c.start.line ∧
      c.stop.line = c.start.line + newlines c.text ∧ ∀ s ∈ l, c.stop.line ≤ s.2.start.line) →
    (∀ s ∈ l, s.2 ∈ C ∧ lineOf prev ≤ s.2.start.line ∧ s.2.stop.line = s.2.start.line + newlines s.2.text) →
    (l.map (·.2)).Pairwise (fun a b => a.stop.line ≤ b.start.line) → Ends o l := by
  induction l with
  | nil => intros; trivial
  | cons s l ih =>
    intro o hch h1 h2 h3 h4
    simp only [List.map_cons, List.pairwise_cons] at h4
    refine ⟨?_, ih hch.2 (fun x hx => h1 x (List.mem_cons_of_mem _ hx)) ?_
      (fun x hx => h3 x (List.mem_cons_of_mem _ hx)) h4.2⟩
    · rintro c rfl ⟨hc, he⟩
      rcases h1 s List.mem_cons_self with h | h
      · exact h
      · rcases he with he | he
        · obtain ⟨g1, g2, g3⟩ := h2 c rfl hc
          have := g3 s List.mem_cons_self
          omega
        · rcases hch.1 with g | ⟨_, g⟩ | ⟨_, _, g, _⟩
          · exact g
          · exact absurd he g
          · exact absurd he g
    · rintro c ⟨⟩ _
      have := h3 s List.mem_cons_self
      exact ⟨this.2.1, this.2.2, fun x hx => h4.1 x.2 (List.mem_map_of_mem hx)⟩

theorem GOK.ends {C : List Token} {prev : Option Token} {d : Dec} {g : PGroup} (h : GOK fullTabs.ok C prev d g)
    (hp : ∀ t, prev = some t → isComment t = false) (hch : Chain prev g.segs)
    (hC : ∀ c ∈ C, c.stop.line = c.start.line + newlines c.text)
    (hS : C.Pairwise (fun a b => a.idx < b.idx ∧ a.stop.line ≤ b.start.line))
    (hA : ∀ c ∈ C, indexAfter prev ≤ c.idx → lineOf prev ≤ c.start.line) : Ends prev g.segs := by
  have hp0 : ∀ {s : Seg} {l : List Seg} (t : Token), prev = some t → EndsLine t → isBrk s.1 = true := by
    intro s l t ht he
    exact absurd he.1 (by simp [hp t ht])
  cases d with
  | none =>
    obtain ⟨h1, _⟩ := h.none rfl
    rw [PGroup.segs, h1]
    exact ⟨hp0 (l := []), trivial⟩
  | space =>
    obtain ⟨h1, _⟩ := h.space rfl
    rw [PGroup.segs, h1]
    exact ⟨hp0 (l := []), trivial⟩
  | brk b n =>
    obtain ⟨h1, h2, _, _⟩ := h.brk b n rfl
    have hchl : Chain prev g.comments := by
      have : ∀ {a b : List Seg} {o : Option Token}, Chain o (a ++ b) → Chain o a := by
        intro a
        induction a with
        | nil => intros; trivial
        | cons s a ih => intro b o h; exact ⟨h.1, ih h.2⟩
      exact this hch
    refine Ends.append (com_ends (C := C) (prev := prev) hchl ?_ ?_ ?_ ?_) ⟨fun _ _ _ => h1, trivial⟩
    · intro s hs
      rcases h.com s hs with g | g
      · exact .inl g
      · exact .inr g.1
    · intro c hc hk
      rw [hp c hc] at hk
      cases hk
    · intro s hs
      have hm : s.2 ∈ commentsFrom (indexAfter prev) g.tok.idx C := h2 ▸ List.mem_map_of_mem hs
      simp only [commentsFrom, List.mem_filter, decide_eq_true_eq] at hm
      exact ⟨hm.1, hA _ hm.1 hm.2.1, hC _ hm.1⟩
    · rw [h2]
      exact (hS.sublist List.filter_sublist).imp fun h => h.2

theorem GroupsOK.ends {T C : List Token} (hT : ∀ t ∈ T, isComment t = false)
    (hC : ∀ c ∈ C, c.stop.line = c.start.line + newlines c.text)
    (hS : C.Pairwise (fun a b => a.idx < b.idx ∧ a.stop.line ≤ b.start.line))
    (hA : ∀ t ∈ T, ∀ c ∈ C, t.idx < c.idx → t.stop.line ≤ c.start.line) (h1 : ∀ c ∈ C, 1 ≤ c.start.line) :
    ∀ (ds : List (Dec × Token)) (gs : List PGroup) (prev : Option Token), GroupsOK fullTabs.ok C prev ds gs →
      (∀ x ∈ ds, x.2 ∈ T) → (∀ t, prev = some t → t ∈ T) → Chain prev (gs.flatMap PGroup.segs) →
      Ends prev (gs.flatMap PGroup.segs)
  | [], [], _, _, _, _, _ => trivial
  | [], _ :: _, _, h, _, _, _ => h.elim
  | _ :: _, [], _, h, _, _, _ => h.elim
  | x :: ds, g :: gs, prev, h, hd, hp, hch => by
    rw [List.flatMap_cons] at hch ⊢
    have hsp : ∀ {a b : List Seg} {o : Option Token}, Chain o (a ++ b) →
        Chain o a ∧ Chain (match a.getLast? with | some s => some s.2 | none => o) b := by
      intro a
      induction a with
      | nil => intro b o h; exact ⟨trivial, h⟩
      | cons s a ih =>
        intro b o h
        obtain ⟨g1, g2⟩ := ih h.2
        refine ⟨⟨h.1, g1⟩, ?_⟩
        rw [List.getLast?_cons]
        cases h : a.getLast? with
        | none => simpa [h] using g2
        | some x => simpa [h] using g2
    obtain ⟨c1, c2⟩ := hsp hch
    refine Ends.append (h.1.ends (fun t ht => hT t (hp t ht)) c1 hC hS ?_) ?_
    · intro c hc hi
      cases prev with
      | none => exact h1 c hc
      | some t => exact hA t (hp t rfl) c hc hi
    · rw [g.segs_last] at c2 ⊢
      simp only [h.2.1] at c2 ⊢
      refine GroupsOK.ends hT hC hS hA h1 ds gs (some x.2) h.2.2 (fun y hy => hd y (List.mem_cons_of_mem _ hy)) ?_ c2
      rintro t ⟨⟩
      exact hd x List.mem_cons_self

theorem Ends.lines {φ : Token → Token} : ∀ {segs : List Seg} {o : Option Token} {line i : Nat}, Ends o segs →
    Placed φ line i segs → ∀ s ∈ segs, EndsLine s.2 → ∀ x ∈ segs, (φ s.2).idx < (φ x.2).idx →
    (φ s.2).stop.line < (φ x.2).start.line
  | [], _, _, _, _, _ => by intro s hs; cases hs
  | y :: l, o, line, i, hE, hP => by
    intro s hs he x hx hi
    have hP' := hP
    obtain ⟨p1, _, _, p4, p5, p6⟩ := hP
    rcases List.mem_cons.mp hs with rfl | hs
    · rcases List.mem_cons.mp hx with rfl | hx
      · omega
      · cases l with
        | nil => cases hx
        | cons z l =>
          have hz := nlOf_brk (hE.2.1 s.2 rfl he)
          have hz' := (p6.line z List.mem_cons_self).1
          rcases List.mem_cons.mp hx with rfl | hx
          · omega
          · obtain ⟨_, _, _, _, _, q6⟩ := p6
            have := (q6.line x hx).1
            omega
    · rcases List.mem_cons.mp hx with rfl | hx
      · have := (p6.idx s (by assumption)).1
        omega
      · exact Ends.lines hE.2 p6 s hs he x hx hi

theorem Runs.ends {eol name' out : Text} {p : Parsed} {cs : List Tree} {ds : List (Dec × Token)}
    {φ : Token → Token} {p' : Parsed} (h : Runs eol name' out p cs ds φ p') :
    LineCommentsEnd p'.comments ∧ LongCommentsEnd p'.tokens p'.comments := by
  have hE : Ends none (((LS.init p.comments).groups ds).flatMap PGroup.segs) := by
    refine GroupsOK.ends (T := p.tokens) h.tok (fun c hc => (h.com c hc).2) h.wf.cs ?_ (fun c hc => (h.wf.cl c hc).1)
      ds _ none h.groups ?_ (by simp) h.chain
    · intro t ht c hc hi
      exact (h.wf.ct c hc t ht).2 (by omega)
    · intro x hx
      rw [← h.toks]
      exact List.mem_map_of_mem hx
  have hc : ∀ c ∈ p'.comments, ∃ s ∈ ((LS.init p.comments).groups ds).flatMap PGroup.segs, φ s.2 = c ∧
      isComment s.2 = true := by
    intro c hc
    rw [h.coms', List.mem_filter] at hc
    obtain ⟨s, hs, rfl⟩ := List.mem_map.mp hc.1
    exact ⟨s, hs, rfl, by simpa [isComment, h.kind] using hc.2⟩
  have ht : ∀ t ∈ p'.tokens, ∃ s ∈ ((LS.init p.comments).groups ds).flatMap PGroup.segs, φ s.2 = t := by
    intro t ht
    rw [h.toks', ← h.toks, ← LS.groups_tok ds (LS.init p.comments), List.map_map] at ht
    obtain ⟨g, g1, rfl⟩ := List.mem_map.mp ht
    exact ⟨(g.white, g.tok), List.mem_flatMap.mpr ⟨g, g1, by simp [PGroup.segs]⟩, rfl⟩
  constructor
  · intro c hc1 hk c' hc2 hi
    obtain ⟨s, s1, rfl, s2⟩ := hc c hc1
    obtain ⟨s', s1', rfl, _⟩ := hc c' hc2
    exact hE.lines h.placed s s1 ⟨s2, .inr (by rw [← h.kind]; exact hk)⟩ s' s1' hi
  · intro c hc1 hk x hx hi
    obtain ⟨s, s1, rfl, s2⟩ := hc c hc1
    have : ∃ s' ∈ ((LS.init p.comments).groups ds).flatMap PGroup.segs, φ s'.2 = x := by
      rcases List.mem_append.mp hx with hx | hx
      · exact ht x hx
      · obtain ⟨s', g1, g2, _⟩ := hc x hx
        exact ⟨s', g1, g2⟩
    obtain ⟨s', s1', rfl⟩ := this
    refine hE.lines h.placed s s1 ⟨s2, .inl ?_⟩ s' s1' hi
    rwa [(h.placed.line s s1).2.2.2] at hk

/-! ### Lists in the output -/

/-- the events of a child among those of its parent -/
theorem steps_at {b : FBody} {all : List Tree} : ∀ {pre : List Tree} {c : Tree} {post : List Tree} {idx : Nat}
    {r r' : Regs} {q : Option Token} {ess : List (List TEv)}, Steps b all (pre ++ c :: post) idx r q ess r' →
    ∃ ea e eb r1 r2, ess = ea ++ e :: eb ∧ ea.length = pre.length ∧
      trF (subOf c) { all, cur := some c, idx := idx + pre.length, rest := post } (upCmd b c.sym) r1
        (lastT q ea.flatten) = .ok (r2, e)
  | [], c, post, idx, r, r', q, ess, h => by
    cases h with
    | @cons _ _ _ _ _ r1 e ess' _ h1 h2 => exact ⟨[], e, ess', _, _, rfl, rfl, h1⟩
  | d :: pre, c, post, idx, r, r', q, ess, h => by
    cases h with
    | @cons _ _ _ _ _ r1 e ess' _ h1 h2 =>
      obtain ⟨ea, e', eb, r1, r2, rfl, g1, g2⟩ := steps_at h2
      refine ⟨e :: ea, e', eb, r1, r2, rfl, by simp [g1], ?_⟩
      have : idx + 1 + pre.length = idx + (d :: pre).length := by simp only [List.length_cons]; omega
      rw [this] at g2
      rw [List.flatten_cons, lastT_append]
      exact g2

theorem forced_arms : ∀ k, k ∉ forcedKinds → ∀ f ∈ forcedKinds, .n f ∈ (Gram.spec k).syms →
    .n f ∉ (Gram.spec k).first ∧ upCmd (Fmt.body k) (.n f) = Fmt.indented f := by
  intro k; cases k <;> decide +kernel

theorem Interior.sub {a b c : List TEv} (h : Interior b) : Interior (a ++ (b ++ c)) := by
  obtain ⟨x, t, bl, y, rfl, h1, h2⟩ := h
  refine ⟨a ++ x, t, bl, y ++ c, by simp, ?_, ?_⟩
  · rw [toks_append]; simp [h1]
  · rw [toks_append]; simp [h2]

theorem contains_child {k : SK} : ∀ {cs : List Tree}, containsKind k cs = true → ∃ c ∈ cs, c.hasKind k = true
  | c :: cs, h => by
    rw [containsKind] at h
    split at h
    · exact ⟨c, List.mem_cons_self, by assumption⟩
    · obtain ⟨d, h1, h2⟩ := contains_child h
      exact ⟨d, List.mem_cons_of_mem _ h1, h2⟩
  | [], h => by simp [containsKind] at h

/-- What is put on a line of its own breaks the line of everything around it. -/
theorem forced_interior {f : SK} (hf : f ∈ forcedKinds) (n : Nat) : ∀ {k : SK} {cs : List Tree}, sizeOf cs ≤ n →
    Tree.Conforms (.node k cs) → Tree.hasEmpty (.node k cs) = false → k ∉ forcedKinds → containsKind f cs = true →
    ∀ {a q w es}, subOf (.node k cs) k a q = .ok (w, es) → Interior es := by
  induction n with
  | zero =>
    intro k cs hn
    cases cs <;> simp at hn
  | succ n ih =>
  intro k cs hn hC hE hk hcon a q w es h
  simp only [Tree.hasEmpty, Bool.or_eq_false_iff, List.isEmpty_eq_false_iff] at hE
  obtain ⟨r1, e1, ess, r2, r3, e3, h1, h2, h3, rfl, rfl, i1, i3⟩ := trTree_inv h
  have ht := steps_toks_eq hC h2
  obtain ⟨d, hd, hdk⟩ := contains_child hcon
  obtain ⟨pre, post, rfl⟩ := List.append_of_mem hd
  have hl : ∀ x ∈ pre ++ d :: post, x.leaves ≠ [] := fun x hx => leaves_ne (hasEmptyF_mem hE.2 x hx)
  obtain ⟨ea, e, eb, ra, rb, rfl, g1, g2⟩ := steps_at h2
  have hsym := syms_complete hC.1 d.sym (List.mem_map_of_mem hd)
  simp only [List.map_append, List.map_cons] at ht
  have hi := List.append_inj ht (by simp [g1])
  simp only [List.cons.injEq] at hi
  obtain ⟨j1, j2, j3⟩ := hi
  cases d with
  | tok t => simp [Tree.hasKind] at hdk
  | node kd ds =>
    by_cases hkd : kd ∈ forcedKinds
    · obtain ⟨n1, n2⟩ := forced_arms k hk kd hkd hsym
      have hpre : pre ≠ [] := by
        rintro rfl
        exact n1 (first_complete (u := post.map Tree.sym) (by simpa [Tree.sym] using hC.1))
      have hea : toks ea.flatten ≠ [] := by
        cases pre with
        | nil => exact absurd rfl hpre
        | cons x pre => rw [toks_flatten, j1]; simp [hl x (by simp)]
      have g2' := g2
      simp only [Tree.sym, n2, Fmt.indented, fblk] at g2'
      obtain ⟨⟨s1, f1⟩, k1, g2'⟩ := Res.bind_eq_ok.1 g2'
      obtain ⟨⟨s2, f2⟩, k2, g2'⟩ := Res.bind_eq_ok.1 g2'
      cases g2'
      cases k1
      obtain ⟨⟨s1, f1⟩, k1, k2⟩ := Res.bind_eq_ok.1 k2
      obtain ⟨⟨s3, f3⟩, k3, k2⟩ := Res.bind_eq_ok.1 k2
      cases k2
      obtain ⟨t, _, k1⟩ := Res.bind_eq_ok.1 k1
      cases k1
      have hf3 : toks f3 ≠ [] := by
        simp only [toks_append, toks, List.nil_append] at j2
        rw [j2]
        exact hl _ hd
      refine ⟨e1 ++ ea.flatten ++ [.indent], t, .Illegal, f3 ++ eb.flatten ++ e3, by simp, ?_, ?_⟩
      · simp [toks_append, hea]
      · simp [toks_append, hf3]
    · have hds : containsKind f ds = true := by
        rw [Tree.hasKind] at hdk
        split at hdk
        · rename_i heq
          exact absurd (heq ▸ hf) hkd
        · exact hdk
      obtain ⟨x, y, z, a', w', rfl, g3, _⟩ := once_call (k := kd) (once_all k _ hsym) g2
      have hsz : sizeOf ds ≤ n := by
        have := List.sizeOf_lt_of_mem hd
        simp only [Tree.node.sizeOf_spec] at this
        omega
      have ih := ih hsz (conformsF_mem hC.2 _ hd) (hasEmptyF_mem hE.2 _ hd) hkd hds g3
      have : e1 ++ (ea ++ (x ++ y ++ z) :: eb).flatten ++ e3 =
          (e1 ++ ea.flatten ++ x) ++ (y ++ (z ++ eb.flatten ++ e3)) := by simp
      rw [this]
      exact ih.sub

/-- The tree of the output is settled. -/
theorem settles {φ : Token → Token} (n : Nat) : ∀ {k : SK} {cs : List Tree}, sizeOf cs ≤ n →
    Tree.Conforms (.node k cs) → Tree.hasEmpty (.node k cs) = false → ∀ {a q w es p},
    subOf (.node k cs) k a q = .ok (w, es) → Track φ q p es → Tree.Settled (.node k (mapTrees φ cs)) := by
  induction n with
  | zero =>
    intro k cs hn
    cases cs <;> simp at hn
  | succ n ih =>
  intro k cs hn hC hE a q w es p h hT
  have hE' := hE
  simp only [Tree.hasEmpty, Bool.or_eq_false_iff, List.isEmpty_eq_false_iff] at hE
  have htk : toks es = leavesF cs := printed _ hC k a q w es rfl h
  refine ⟨?_, ?_⟩
  · have key : k ∉ forcedKinds → isMultiline (mapTrees φ cs) = .ok false → Unforced (mapTrees φ cs) := by
      intro hk hm f hf
      rw [containsKind_map]
      cases hcon : containsKind f cs with
      | false => rfl
      | true =>
        have := (forced_interior hf _ (Nat.le_refl _) hC hE' hk hcon h).multi hT hE.1 hE.2 htk
        rw [this] at hm
        cases hm
    cases k <;> first
      | trivial
      | exact fun _ => key (by decide)
      | exact fun hm _ _ => key (by decide) hm
      | exact key (by decide)
  · obtain ⟨r1, e1, ess, r2, r3, e3, h1, h2, h3, rfl, rfl, i1, i3⟩ := trTree_inv h
    have : ∀ us : List Tree, (∀ c ∈ us, (c.map φ).Settled) → SettledF (mapTrees φ us) := by
      intro us
      induction us with
      | nil => intro _; trivial
      | cons u us ihu =>
        intro hu
        exact ⟨hu u List.mem_cons_self, ihu fun c hc => hu c (List.mem_cons_of_mem _ hc)⟩
    refine this cs fun d hd => ?_
    cases d with
    | tok t => trivial
    | node kd ds =>
      have hsym := syms_complete hC.1 _ (List.mem_map_of_mem hd)
      have hsz : sizeOf ds ≤ n := by
        have := List.sizeOf_lt_of_mem hd
        simp only [Tree.node.sizeOf_spec] at this
        omega
      have hCd := conformsF_mem hC.2 _ hd
      have hEd := hasEmptyF_mem hE.2 _ hd
      obtain ⟨pre, post, rfl⟩ := List.append_of_mem hd
      obtain ⟨ea, e, eb, ra, rb, rfl, g1, g2⟩ := steps_at h2
      obtain ⟨x, y, z, a', w', rfl, g3, _⟩ := once_call (k := kd) (once_all k _ hsym) g2
      have he : e1 ++ (ea ++ (x ++ y ++ z) :: eb).flatten ++ e3 =
          (e1 ++ (ea.flatten ++ x)) ++ (y ++ (z ++ eb.flatten ++ e3)) := by simp
      rw [he, Track.append] at hT
      rw [lastT_append, ind_lastT i1, lastT_append] at hT
      exact ih hsz hCd hEd g3 (Track.append.mp hT.2).1

theorem Runs.settled {eol name' out : Text} {p : Parsed} {cs : List Tree} {ds : List (Dec × Token)}
    {φ : Token → Token} {p' : Parsed} (h : Runs eol name' out p cs ds φ p') :
    Tree.Settled (.node .StoredDefinition (mapTrees φ cs)) := by
  by_cases hcs : cs = []
  · subst hcs
    exact ⟨trivial, trivial⟩
  · obtain ⟨w, es, n, t1, t2⟩ := h.run hcs
    exact settles _ (Nat.le_refl _) h.conf (by simp [Tree.hasEmpty, hcs, h.full]) t1
      (walk_track t2 (q := none) (L := LS.init p.comments) (i := 0) h.placed)

end Mofmt
