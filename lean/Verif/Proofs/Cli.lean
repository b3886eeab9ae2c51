import Verif.Spec.Files
import Verif.Proofs.Basic
/-
Lemmas about the command line program.
-/
namespace Mofmt

/-! ### Names -/

theorem afterDot_false {n e : Text} : afterDot n false = some e →
    ∃ stem, n = stem ++ '.' :: e := by
  induction n with
  | nil => intro h; simp [afterDot] at h
  | cons c cs ih =>
    intro h
    simp only [afterDot] at h
    split at h
    · rename_i e' h1
      simp at h; subst h
      obtain ⟨stem, hs⟩ := ih h1
      exact ⟨c :: stem, by simp [hs]⟩
    · split at h
      · rename_i hc
        simp at h; subst h
        exact ⟨[], by simp [hc.1]⟩
      · simp at h

theorem afterDot_no_dot {e : Text} (h : '.' ∉ e) (b : Bool) : afterDot e b = none := by
  induction e generalizing b with
  | nil => rfl
  | cons c cs ih =>
    simp at h
    have hc : ¬ c = '.' := fun h' => h.1 h'.symm
    simp [afterDot, ih h.2, hc]

theorem afterDot_mk {stem e : Text} (h : '.' ∉ e) (b : Bool) (hb : b = true → stem ≠ []) :
    afterDot (stem ++ '.' :: e) b = some e := by
  induction stem generalizing b with
  | nil =>
    cases b with
    | true => exact absurd rfl (hb rfl)
    | false => simp [afterDot, afterDot_no_dot h]
  | cons c cs ih =>
    simp [afterDot, ih false (by simp)]

/-! Paths -/

theorem splitPath_acc {n : Text} (h : '/' ∉ n) (r acc : Text) :
    splitPath (n ++ '/' :: r) acc = (acc.reverse ++ n) :: splitPath r [] ∧ splitPath n acc = [acc.reverse ++ n] := by
  induction n generalizing acc with
  | nil => simp [splitPath]
  | cons c n ih =>
    simp only [List.mem_cons, not_or] at h
    have hc : ¬ c = '/' := fun e => h.1 e.symm
    obtain ⟨h1, h2⟩ := ih h.2 (c :: acc)
    simp only [List.cons_append, splitPath, if_neg hc]
    rw [h1, h2]
    simp

theorem splitPath_one {n : Text} (h : '/' ∉ n) : splitPath n [] = [n] := by
  simpa using (splitPath_acc h [] []).2

theorem splitPath_next {n : Text} (h : '/' ∉ n) (r : Text) : splitPath (n ++ '/' :: r) [] = n :: splitPath r [] := by
  simpa using (splitPath_acc h r []).1

/-- A path is a single name, or a name, a slash and a path. -/
theorem path_cases (p : Text) : '/' ∉ p ∨ ∃ n r, p = n ++ '/' :: r ∧ '/' ∉ n := by
  induction p with
  | nil => left; simp
  | cons c p ih =>
    by_cases hc : c = '/'
    · right; exact ⟨[], p, by simp [hc], by simp⟩
    · have hc' : ¬ '/' = c := fun e => hc e.symm
      rcases ih with h | ⟨n, r, rfl, h⟩
      · left; simp [hc', h]
      · right; exact ⟨c :: n, r, by simp, by simp [hc', h]⟩

theorem path_induct {P : Text → Prop} (one : ∀ n, '/' ∉ n → P n)
    (next : ∀ n r, '/' ∉ n → P r → P (n ++ '/' :: r)) : ∀ p, P p := by
  intro p
  generalize hk : p.length = k
  induction k using Nat.strongRecOn generalizing p with
  | ind k ih =>
    rcases path_cases p with h | ⟨n, r, rfl, h⟩
    · exact one p h
    · exact next n r h (ih r.length (by simp at hk; omega) r rfl)

theorem splitPath_append (d r : Text) : splitPath (d ++ '/' :: r) [] = splitPath d [] ++ splitPath r [] := by
  induction d using path_induct with
  | one n h => rw [splitPath_next h, splitPath_one h]; rfl
  | next n d h ih => rw [List.append_assoc, List.cons_append, splitPath_next h, splitPath_next h, ih]; rfl

/-- Components that do not count. -/
def Idle (c : Text) : Prop := c = [] ∨ c = c!"."

theorem trail_split {t : Text} (h : Trail t) : ∀ n : Text, '/' ∉ n →
    ∃ cs, splitPath (n ++ t) [] = n :: cs ∧ ∀ c ∈ cs, Idle c := by
  induction h with
  | nil => intro n hn; exact ⟨[], by rw [List.append_nil, splitPath_one hn], by simp⟩
  | slash _ ih =>
    intro n hn
    obtain ⟨cs, h1, h2⟩ := ih [] (by simp)
    refine ⟨_, splitPath_next hn _, ?_⟩
    rw [List.nil_append] at h1
    rw [h1]
    intro c hc
    rcases List.mem_cons.1 hc with rfl | hc
    · exact .inl rfl
    · exact h2 c hc
  | dot _ ih =>
    intro n hn
    obtain ⟨cs, h1, h2⟩ := ih c!"." (by decide)
    refine ⟨_, splitPath_next hn _, ?_⟩
    rw [List.cons_append, List.nil_append] at h1
    rw [h1]
    intro c hc
    rcases List.mem_cons.1 hc with rfl | hc
    · exact .inr rfl
    · exact h2 c hc

theorem split_trail (b : Text) : (∀ c ∈ splitPath b [], Idle c) → Trail ('/' :: b) := by
  induction b using path_induct with
  | one n h =>
    intro hb
    rw [splitPath_one h] at hb
    rcases hb n (by simp) with rfl | rfl
    · exact .slash .nil
    · exact .dot .nil
  | next n b h ih =>
    intro hb
    rw [splitPath_next h] at hb
    have := ih fun c hc => hb c (by simp [hc])
    rcases hb n (by simp) with rfl | rfl
    · exact .slash this
    · exact .dot this

theorem split_last (p : Text) : ∀ (A : List Text) (n : Text) (B : List Text), splitPath p [] = A ++ n :: B →
    (∀ c ∈ B, Idle c) → ∃ dir tail, p = dir ++ n ++ tail ∧ (dir = [] ∨ ∃ d, dir = d ++ ['/']) ∧ Trail tail ∧ '/' ∉ n := by
  induction p using path_induct with
  | one m h =>
    intro A n B hs _
    rw [splitPath_one h] at hs
    cases A with
    | nil =>
      simp at hs
      obtain ⟨rfl, rfl⟩ := hs
      exact ⟨[], [], by simp, .inl rfl, .nil, h⟩
    | cons a A => simp at hs
  | next m p h ih =>
    intro A n B hs hB
    rw [splitPath_next h] at hs
    cases A with
    | nil =>
      simp at hs
      obtain ⟨rfl, rfl⟩ := hs
      exact ⟨[], '/' :: p, by simp, .inl rfl, split_trail p hB, h⟩
    | cons a A =>
      simp at hs
      obtain ⟨dir, tail, rfl, h2, h3, h4⟩ := ih A n B hs.2 hB
      refine ⟨m ++ '/' :: dir, tail, by simp, .inr ?_, h3, h4⟩
      rcases h2 with rfl | ⟨d, rfl⟩
      · exact ⟨m, rfl⟩
      · exact ⟨m ++ '/' :: d, by simp⟩

theorem getLast?_filter_split {P : Text → Bool} : ∀ (l : List Text) (n : Text), (l.filter P).getLast? = some n →
    ∃ A B, l = A ++ n :: B ∧ P n = true ∧ ∀ c ∈ B, P c = false := by
  intro l
  induction l with
  | nil => intro n h; simp at h
  | cons a l ih =>
    intro n h
    cases hl : (l.filter P).getLast? with
    | some m =>
      have : ((a :: l).filter P).getLast? = some m := by
        rw [List.filter_cons]
        split
        · rw [List.getLast?_cons, hl]; rfl
        · exact hl
      rw [this] at h
      cases h
      obtain ⟨A, B, h1, h2, h3⟩ := ih _ hl
      exact ⟨a :: A, B, by simp [h1], h2, h3⟩
    | none =>
      have he : l.filter P = [] := List.getLast?_eq_none_iff.1 hl
      rw [List.filter_cons, he] at h
      split at h
      · rename_i ha
        simp at h; subst h
        refine ⟨[], l, rfl, ha, fun c hc => ?_⟩
        have := List.filter_eq_nil_iff.1 he c hc
        simpa using this
      · simp at h

/-- `Path::file_name` gives the last name of a path. -/
theorem fileName_iff (p n : Text) : fileName p = some n ↔ LastName p n := by
  have idle : ∀ c : Text, (!(c == [] || c == c!".")) = false ↔ Idle c := by
    intro c; simp only [Bool.not_eq_false', Bool.or_eq_true, beq_iff_eq, Idle]
  constructor
  · intro h
    unfold fileName at h
    split at h
    · cases h
    · rename_i m hm
      obtain ⟨A, B, h1, h2, h3⟩ := getLast?_filter_split _ _ hm
      split at h
      · cases h
      · rename_i hne
        cases h
        obtain ⟨dir, tail, h4, h5, h6, h7⟩ := split_last p A n B h1 (fun c hc => (idle c).1 (h3 c hc))
        simp at h2
        exact ⟨dir, tail, h4, h5, h6, h7, h2.1, h2.2, hne⟩
  · rintro ⟨dir, tail, rfl, h1, h2, h3, h4, h5, h6⟩
    obtain ⟨cs, h7, h8⟩ := trail_split h2 n h3
    have hsplit : ∃ A, splitPath (dir ++ n ++ tail) [] = A ++ n :: cs := by
      rcases h1 with rfl | ⟨d, rfl⟩
      · exact ⟨[], by simpa using h7⟩
      · refine ⟨splitPath d [], ?_⟩
        rw [List.append_assoc, List.append_assoc, List.singleton_append, splitPath_append, h7]
    obtain ⟨A, hA⟩ := hsplit
    have hf : ((splitPath (dir ++ n ++ tail) []).filter (fun c => !(c == [] || c == c!"."))).getLast? = some n := by
      have hcs : cs.filter (fun c => !(c == [] || c == c!".")) = [] :=
        List.filter_eq_nil_iff.2 (fun c hc => by rw [(idle c).2 (h8 c hc)]; simp)
      rw [hA, List.filter_append, List.filter_cons, if_pos (by simpa using ⟨h4, h5⟩), hcs]
      simp
    unfold fileName
    rw [hf]
    simp only [if_neg h6]

theorem joinPath_iff (p n r : Text) : Entered p n r ↔ r = joinPath p n := by
  unfold joinPath
  constructor
  · intro h
    cases h with
    | slash d n => simp
    | plain n h =>
      rw [if_neg]
      intro hl
      obtain ⟨d, hd⟩ := List.getLast?_eq_some_iff.1 hl
      exact h d hd
  · rintro rfl
    split
    · rename_i hl
      obtain ⟨d, rfl⟩ := List.getLast?_eq_some_iff.1 hl
      simpa using Entered.slash d n
    · rename_i hl
      exact .plain n fun d hd => hl (by simp [hd])

theorem joinLines_eq : ∀ ls : List Text, joinLines ls = (ls.intersperse c!"\n").flatten
  | [] => rfl
  | [l] => by simp [joinLines]
  | l :: m :: ls => by
    rw [joinLines, joinLines_eq (m :: ls)]
    · simp
    · simp

theorem isModelica_iff (p : Text) : isModelica p = true ↔ ModelicaName p := by
  unfold isModelica extension ModelicaName
  simp only [← fileName_iff]
  cases hf : fileName p with
  | none => simp
  | some n =>
    simp only [Option.bind_some, Option.some.injEq, beq_iff_eq]
    constructor
    · intro h
      cases n with
      | nil => simp [afterDot] at h
      | cons c cs =>
        simp only [afterDot] at h
        split at h
        · rename_i e h1
          simp at h; subst h
          obtain ⟨stem, hs⟩ := afterDot_false h1
          exact ⟨c :: stem, by simp, by simp [hs]⟩
        · simp at h
    · rintro ⟨stem, h1, rfl⟩
      exact afterDot_mk (by decide) true (fun _ => h1)

/-! ### Directories -/

mutual
theorem filesFrom_spec (p : Text) (t : DirTree) {fs : List Text} (h : filesFrom p t = .ok fs) :
    ∀ q, q ∈ fs ↔ Below p t q ∧ ModelicaName q := by
  match t with
  | .leaf =>
    simp only [filesFrom, Res.ok.injEq] at h
    subst h
    intro q
    rw [← isModelica_iff]
    constructor
    · intro hq
      split at hq
      · simp at hq; subst hq; exact ⟨.here, by assumption⟩
      · simp at hq
    · rintro ⟨h1, h2⟩
      cases h1
      simp [h2]
  | .locked => simp [filesFrom] at h
  | .dir es =>
    rw [filesFrom] at h
    intro q
    rw [filesFromEntries_spec p es h q]
    constructor
    · rintro ⟨n, t, h1, h2, h3⟩; exact ⟨.there h1 ((joinPath_iff ..).2 rfl) h2, h3⟩
    · rintro ⟨h1, h2⟩
      cases h1 with
      | there h1 h3 h4 => exact ⟨_, _, h1, (joinPath_iff ..).1 h3 ▸ h4, h2⟩
theorem filesFromEntries_spec (p : Text) (es : List (Text × DirTree)) {fs : List Text}
    (h : filesFromEntries p es = .ok fs) :
    ∀ q, q ∈ fs ↔ ∃ n t, (n, t) ∈ es ∧ Below (joinPath p n) t q ∧ ModelicaName q := by
  match es with
  | [] => simp [filesFromEntries] at h; subst h; simp
  | (n, t) :: es =>
    simp only [filesFromEntries, Res.bind_eq_ok] at h
    obtain ⟨fs1, h1, fs2, h2, h3⟩ := h
    simp at h3; subst h3
    intro q
    rw [List.mem_append, filesFrom_spec _ t h1 q, filesFromEntries_spec p es h2 q]
    constructor
    · rintro (⟨a, b⟩ | ⟨n', t', a, b, c⟩)
      · exact ⟨n, t, by simp, a, b⟩
      · exact ⟨n', t', by simp [a], b, c⟩
    · rintro ⟨n', t', a, b, c⟩
      simp at a
      rcases a with ⟨rfl, rfl⟩ | a
      · exact .inl ⟨b, c⟩
      · exact .inr ⟨n', t', a, b, c⟩
end

mutual
theorem filesFrom_ok (p : Text) (t : DirTree) : (¬ HasLocked t → ∃ fs, filesFrom p t = .ok fs) ∧
    (HasLocked t → filesFrom p t = .panic .io) := by
  match t with
  | .leaf => exact ⟨fun _ => ⟨_, rfl⟩, fun h => by cases h⟩
  | .locked => exact ⟨fun h => absurd .here h, fun _ => rfl⟩
  | .dir es =>
    have := filesFromEntries_ok p es
    constructor
    · intro h
      exact this.1 (fun n t hm hl => h (.there hm hl))
    · intro h
      cases h with
      | there h1 h2 => exact this.2 _ _ h1 h2
theorem filesFromEntries_ok (p : Text) (es : List (Text × DirTree)) :
    ((∀ n t, (n, t) ∈ es → ¬ HasLocked t) → ∃ fs, filesFromEntries p es = .ok fs) ∧
    (∀ n t, (n, t) ∈ es → HasLocked t → filesFromEntries p es = .panic .io) := by
  match es with
  | [] => exact ⟨fun _ => ⟨[], rfl⟩, fun n t h => by simp at h⟩
  | (n, t) :: es =>
    have h1 := filesFrom_ok (joinPath p n) t
    have h2 := filesFromEntries_ok p es
    constructor
    · intro h
      obtain ⟨fs, h3⟩ := h1.1 (h n t (by simp))
      obtain ⟨gs, h4⟩ := h2.1 (fun n' t' hm => h n' t' (by simp [hm]))
      exact ⟨fs ++ gs, by simp [filesFromEntries, h3, h4]⟩
    · intro n' t' hm hl
      by_cases hc : HasLocked t
      · simp [filesFromEntries, h1.2 hc]
      · simp at hm
        rcases hm with ⟨rfl, rfl⟩ | hm
        · exact absurd hl hc
        · obtain ⟨fs, h3⟩ := h1.1 hc
          simp [filesFromEntries, h3, h2.2 n' t' hm hl]
end

/-! ### UTF-8 -/

theorem encode_toByteArray (t : Text) : (encode t).toByteArray = t.utf8Encode := rfl

theorem toByteArray_inj {a b : List UInt8} (h : a.toByteArray = b.toByteArray) : a = b := by
  have := congrArg (fun x => x.data.toList) h
  simpa using this

theorem decode_encode (t : Text) : decode (encode t) = some t := by
  rw [decode, encode_toByteArray, List.utf8Decode?_utf8Encode]; simp

theorem decode_iff (b : Bytes) (t : Text) : decode b = some t ↔ b = encode t := by
  constructor
  · intro h
    rw [decode, Option.map_eq_some_iff] at h
    obtain ⟨a, h1, rfl⟩ := h
    apply toByteArray_inj
    rw [encode_toByteArray]
    have := ByteArray.utf8Encode_get_utf8Decode? (b := b.toByteArray) (h := by rw [h1]; rfl)
    simp only [h1, Option.get_some] at this
    exact this.symm
  · rintro rfl; exact decode_encode t

theorem encode_inj {a b : Text} (h : encode a = encode b) : a = b := by
  have := decode_encode a
  rw [h, decode_encode] at this
  exact (Option.some.inj this).symm

/-! ### One file -/

theorem readFile_iff (w : World) (s : Proc) (p src : Text) :
    readFile w s p = .ok src ↔ ModelicaName p ∧ Contains w s.disk p src := by
  unfold readFile Contains
  rw [← isModelica_iff]
  split
  · rename_i h
    simp only [h, true_and]
    cases hi : w.inode p with
    | none => simp
    | some f =>
      simp only [Option.bind_some, Option.some.injEq, exists_eq_left']
      cases hd : s.disk f with
      | none => simp
      | some b =>
        simp only [Option.some.injEq]
        rw [← decode_iff]
        cases decode b <;> simp
  · rename_i h; simp [h]

theorem output_iff (w : World) (q : Parsed) (out : Text) : output w q = .ok out ↔
    ∃ t, prettyPrint w.eol q.tokens q.comments q.events = .ok t ∧ out = t ++ w.eol := by
  unfold output
  rw [Res.bind_eq_ok]
  constructor
  · rintro ⟨t, h1, h2⟩; simp at h2; exact ⟨t, h1, h2.symm⟩
  · rintro ⟨t, h1, h2⟩; exact ⟨t, h1, by simp [h2]⟩

/-- The possible outcomes for one file. -/
inductive Outcome (w : World) (check : Bool) (p : Text) (s : Proc) : Proc × Option End → Prop where
  | rejected {o : Op} : Rejected w s.disk p → (∀ f, o.writes f = false) →
      Outcome w check p s ({ s.emit o with code := 1 }, none)
  | passed {o : Op} {out : Text} : check = true → FormatsTo w s.disk p out → Contains w s.disk p out →
      (∀ f, o.writes f = false) → Outcome w check p s (s.emit o, none)
  | failed {o : Op} {out : Text} : check = true → FormatsTo w s.disk p out →
      ¬ Contains w s.disk p out → (∀ f, o.writes f = false) →
      Outcome w check p s ({ s.emit o with code := 1 }, none)
  | written {f : Nat} {out : Text} : check = false → FormatsTo w s.disk p out → w.inode p = some f →
      Outcome w check p s ((s.emit (.truncate f)).emit (.append f (encode out)), none)
  | partly {f n : Nat} {out : Text} : check = false → FormatsTo w s.disk p out → w.inode p = some f →
      Outcome w check p s ((s.emit (.truncate f)).emit (.append f ((encode out).take n)), some (.panic .io))
  | crashed {e : End} : (∀ c, e ≠ .exit c) → ¬ Rejected w s.disk p → Outcome w check p s (s, some e)

theorem contains_inj {w : World} {d : Disk} {p a b : Text} (h1 : Contains w d p a)
    (h2 : Contains w d p b) : a = b := by
  obtain ⟨f, h1, h3⟩ := h1
  obtain ⟨g, h2, h4⟩ := h2
  rw [h1] at h2; simp at h2; subst h2
  rw [h3] at h4; exact encode_inj (Option.some.inj h4)

theorem formatOne_outcome (w : World) (check : Bool) (p : Text) (s : Proc) :
    Outcome w check p s (formatOne w check p s) := by
  unfold formatOne
  split
  · rename_i h
    refine .rejected ?_ (by intro f; rfl)
    by_cases hm : ModelicaName p
    · refine .inr (.inl ?_)
      rintro ⟨src, hc⟩
      have := (readFile_iff w s p src).2 ⟨hm, hc⟩
      rw [h] at this; simp at this
    · exact .inl hm
  · rename_i src h
    have hr := (readFile_iff w s p src).1 h
    have notRej : ∀ r : Res Parsed, parse p src .StoredDefinition = r →
        (∀ q, r = .ok q → q.errors = []) → ¬ Rejected w s.disk p := by
      rintro r hp hq (h1 | h1 | ⟨src', q, h1, h2, h3⟩)
      · exact h1 hr.1
      · exact h1 ⟨src, hr.2⟩
      · have := contains_inj hr.2 h1
        subst this
        rw [hp] at h2
        exact h3 (hq q h2)
    split
    · rename_i e hp
      exact .crashed (by simp) (notRej _ hp (by simp))
    · rename_i hp
      exact .crashed (by simp) (notRej _ hp (by simp))
    · rename_i q hp
      split
      · rename_i he
        have he : q.errors = [] := by simpa using he
        have nr := notRej _ hp (by rintro q' h; simp at h; rw [← h]; exact he)
        split
        · exact .crashed (by simp) nr
        · exact .crashed (by simp) nr
        · rename_i out ho
          obtain ⟨t, ht, hout⟩ := (output_iff w q out).1 ho
          have hf : FormatsTo w s.disk p out := ⟨src, q, t, hr.1, hr.2, hp, he, ht, hout⟩
          split
          · rename_i hc
            split
            · rename_i hs
              exact .passed hc hf (by rw [hs]; exact hr.2) (by intro f; rfl)
            · rename_i hs
              exact .failed hc hf (fun h' => hs (contains_inj h' hr.2)) (by intro f; rfl)
          · rename_i hc
            have hc : check = false := by simpa using hc
            split
            · exact .crashed (by simp) nr
            · rename_i f hf'
              unfold writeFile
              split
              · exact .crashed (by simp) nr
              · split
                · exact .written hc hf hf'
                · exact .partly hc hf hf'
              · exact .written hc hf hf'
      · rename_i he
        refine .rejected (.inr (.inr ⟨src, q, hr.2, hp, by simpa using he⟩)) (by intro f; rfl)

/-! ### Operations and the disk -/

theorem apply_not_writes {o : Op} {f : Nat} (h : o.writes f = false) (d : Disk) : o.apply d f = d f := by
  cases o <;> simp_all [Op.writes, Op.apply]
  · intro h'; exact absurd h'.symm h
  · intro h'; exact absurd h'.symm h

theorem apply_silent {o : Op} (h : ∀ f, o.writes f = false) (d : Disk) : o.apply d = d := by
  funext f; exact apply_not_writes (h f) d

theorem replay_append (a b : List Op) (d : Disk) : replay (a ++ b) d = replay b (replay a d) := by
  induction a generalizing d with
  | nil => rfl
  | cons o os ih => simp [replay, ih]

theorem write_twice (f : Nat) (out : Bytes) (d : Disk) (g : Nat) :
    (Op.append f out).apply ((Op.truncate f).apply d) g = if g = f then some out else d g := by
  simp only [Op.apply]
  split <;> simp_all

/-- The disk of an outcome that is not a crash. -/
theorem outcome_disk {w : World} {check : Bool} {p : Text} {s s' : Proc} {e : Option End}
    (h : Outcome w check p s (s', e)) :
    (s'.disk = s.disk ∧ (check = true ∨ ¬ ∃ out, e = none ∧ FormatsTo w s.disk p out)) ∨
    (∃ f out, check = false ∧ e = none ∧ FormatsTo w s.disk p out ∧ w.inode p = some f ∧
      s'.disk = fun g => if g = f then some (encode out) else s.disk g) ∨
    (∃ f out n, check = false ∧ e = some (.panic .io) ∧ FormatsTo w s.disk p out ∧ w.inode p = some f ∧
      s'.disk = fun g => if g = f then some ((encode out).take n) else s.disk g) := by
  cases h with
  | rejected h1 h2 =>
    refine .inl ⟨apply_silent h2 _, .inr ?_⟩
    rintro ⟨out, _, src, q, t, m1, m2, m3, m4, m5, m6⟩
    rcases h1 with h1 | h1 | ⟨src', q', h3, h4, h5⟩
    · exact h1 m1
    · exact h1 ⟨src, m2⟩
    · have := contains_inj m2 h3
      subst this
      rw [m3] at h4; simp at h4; subst h4
      exact h5 m4
  | passed h1 _ _ h2 => exact .inl ⟨apply_silent h2 _, .inl h1⟩
  | failed h1 _ _ h2 => exact .inl ⟨apply_silent h2 _, .inl h1⟩
  | written h1 h2 h3 =>
    refine .inr (.inl ⟨_, _, h1, rfl, h2, h3, ?_⟩)
    funext g
    exact write_twice _ _ _ _
  | @partly f n out h1 h2 h3 =>
    refine .inr (.inr ⟨f, out, n, h1, rfl, h2, h3, ?_⟩)
    funext g
    exact write_twice _ _ _ _
  | crashed h1 h2 => exact .inl ⟨rfl, .inr (by simp)⟩

theorem formatsTo_inj {w : World} {d : Disk} {p a b : Text} (h1 : FormatsTo w d p a)
    (h2 : FormatsTo w d p b) : a = b := by
  obtain ⟨src, q, t, _, m2, m3, _, m5, m6⟩ := h1
  obtain ⟨src', q', t', _, n2, n3, _, n5, n6⟩ := h2
  have := contains_inj m2 n2
  subst this
  rw [m3] at n3; simp at n3; subst n3
  rw [m5] at n5; simp at n5; subst n5
  rw [m6, n6]

/-- A predicate about the file behind a path depends only on its content. -/
theorem formatsTo_congr {w : World} {d d' : Disk} {p out : Text}
    (h : ∀ f, w.inode p = some f → d f = d' f) (hf : FormatsTo w d p out) : FormatsTo w d' p out := by
  obtain ⟨src, q, t, m1, ⟨f, m2, m2'⟩, m3⟩ := hf
  exact ⟨src, q, t, m1, ⟨f, m2, by rw [← h f m2]; exact m2'⟩, m3⟩

theorem rejected_congr {w : World} {d d' : Disk} {p : Text}
    (h : ∀ f, w.inode p = some f → d f = d' f) (hf : Rejected w d p) : Rejected w d' p := by
  rcases hf with hf | hf | ⟨src, q, ⟨f, m2, m2'⟩, m3⟩
  · exact .inl hf
  · refine .inr (.inl ?_)
    rintro ⟨src, f, h1, h2⟩
    exact hf ⟨src, f, h1, by rw [h f h1]; exact h2⟩
  · exact .inr (.inr ⟨src, q, ⟨f, m2, by rw [← h f m2]; exact m2'⟩, m3⟩)

theorem not_both {w : World} {d : Disk} {p out : Text} (h1 : Rejected w d p)
    (h2 : FormatsTo w d p out) : False := by
  obtain ⟨src, q, t, m1, m2, m3, m4, _, _⟩ := h2
  rcases h1 with h1 | h1 | ⟨src', q', h3, h4, h5⟩
  · exact h1 m1
  · exact h1 ⟨src, m2⟩
  · have := contains_inj m2 h3
    subst this
    rw [m3] at h4; simp at h4; subst h4
    exact h5 m4

end Mofmt
