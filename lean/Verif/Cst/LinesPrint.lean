import Verif.Cst.LinesRead

/-! # What the loops of the source formatter write, as lines -/

namespace Styx.Cst

open Styx Styx.Spec

variable {ind : List Char} {dc : Bool} {R : List Green → List Char → Prop}

/-! ## Lines -/

theorem items_mem {rst : Bool} {x : Nat × Ln} : ∀ {cs : List Green} {n : Nat}, x ∈ items rst n cs →
    (∃ t, x.2 = .com t ∧ .token .LINE_COMMENT t ∈ cs) ∨ (∃ t, x.2 = .doc t ∧ .token .DOC_COMMENT t ∈ cs) ∨
      ∃ k c, x.2 = .ent c ∧ .node k c ∈ cs := by
  intro cs
  induction cs with
  | nil => intro n h; simp [items] at h
  | cons g gs ih =>
    intro n h
    have lift : ∀ {m}, x ∈ items rst m gs →
        (∃ t, x.2 = .com t ∧ .token .LINE_COMMENT t ∈ g :: gs) ∨ (∃ t, x.2 = .doc t ∧ .token .DOC_COMMENT t ∈ g :: gs) ∨
          ∃ k c, x.2 = .ent c ∧ .node k c ∈ g :: gs := by
      intro m hm
      rcases ih hm with ⟨t, h1, h2⟩ | ⟨t, h1, h2⟩ | ⟨k, c, h1, h2⟩
      · exact .inl ⟨t, h1, by simp [h2]⟩
      · exact .inr (.inl ⟨t, h1, by simp [h2]⟩)
      · exact .inr (.inr ⟨k, c, h1, by simp [h2]⟩)
    cases g with
    | token k t =>
      rw [items.eq_def] at h
      simp only at h
      split at h
      · exact lift h
      · rcases List.mem_cons.1 h with rfl | h
        · exact .inl ⟨t, rfl, by simp⟩
        · exact lift h
      · rcases List.mem_cons.1 h with rfl | h
        · exact .inr (.inl ⟨t, rfl, by simp⟩)
        · exact lift h
      · exact lift h
      · exact lift h
    | node k c =>
      rw [items] at h
      rcases List.mem_cons.1 h with rfl | h
      · exact .inr (.inr ⟨k, c, rfl, by simp⟩)
      · exact lift h

/-- A line that can be written and read. -/
def LineOk (ind : List Char) (dc : Bool) (R : List Green → List Char → Prop) (act : List Green → Fmt → Fmt) : Ln → Prop
  | .com t => CommentText t
  | .doc t => dc = true ∧ ∃ body, t = '/' :: '/' :: '/' :: body ∧ ∀ c ∈ body, c ≠ '\n' ∧ c ≠ '\r'
  | .ent c => ∀ f, ∃ u, Writes ind f (act c f) u ∧ R c u

theorem com_last {t : List Char} (h : CommentText t) : t ≠ [] ∧ t.getLast? ≠ some '\n' := by
  obtain ⟨r, rfl, hr, -⟩ := h
  refine ⟨by simp, fun hl => ?_⟩
  have := List.mem_of_getLast? hl
  simp at this
  exact (hr _ this).1 rfl

theorem doc_last {body : List Char} (h : ∀ c ∈ body, c ≠ '\n' ∧ c ≠ '\r') :
    ('/' :: '/' :: '/' :: body).getLast? ≠ some '\n' := by
  intro hl
  have := List.mem_of_getLast? hl
  simp at this
  exact (h _ this).1 rfl

/-- What is written for a line. -/
theorem put_writes {act : List Green → Fmt → Fmt} {l : Ln} (h : LineOk ind dc R act l) (f : Fmt) :
    ∃ u, Writes ind f (putLn ind act l f) u ∧ ∀ {lvl w m ls s}, (w = true → 1 ≤ m) → Printed ind lvl dc R true ls s →
      Printed ind lvl dc R w ((m, l) :: ls) (List.replicate m '\n' ++ (indentOf ind lvl ++ (u ++ s))) := by
  cases l with
  | com t => exact ⟨t, write_writes f (com_last h).1 (com_last h).2, fun hm hp => .com hm h hp⟩
  | doc t =>
    obtain ⟨hd, body, rfl, hb⟩ := h
    exact ⟨_, write_writes f (by simp) (doc_last hb), fun hm hp => .doc hd hm hb hp⟩
  | ent c =>
    obtain ⟨u, hw, hr⟩ := h f
    exact ⟨u, hw, fun hm hp => .ent hm hr hp⟩

/-- Line breaks before a line. -/
def Breaks (f f1 : Fmt) (w : Bool) (m : Nat) : Prop :=
  f1.out = f.out ++ List.replicate m '\n' ∧ f1.level = f.level ∧ (f.atLineStart = !w → f1.atLineStart = true) ∧
    (w = true → 1 ≤ m)

theorem breaks_line (f : Fmt) (w : Bool) (n : Nat) : Breaks f (f.breakLine w n) w (brk w n) := by
  unfold Fmt.breakLine brk Breaks
  cases w
  · simp
  · by_cases h : n ≥ 2 <;> simp [h, Fmt.newline, List.replicate]

theorem breaks_if (f : Fmt) (w : Bool) (c : Prop) [Decidable c] :
    Breaks f (if w = true then (if c then f.newline.newline else f.newline) else f) w (if w = true then (if c then 2 else 1) else 0) := by
  unfold Breaks
  cases w
  · simp
  · by_cases h : c <;> simp [h, Fmt.newline, List.replicate]

/-- What a line adds. -/
theorem line_step {act : List Green → Fmt → Fmt} {l : Ln} (h : LineOk ind dc R act l) {f f1 : Fmt} {w : Bool} {m : Nat}
    (hb : Breaks f f1 w m) (hf : f.atLineStart = !w) {F : Fmt} {ls : List (Nat × Ln)}
    (hr : ∃ s, F.out = (putLn ind act l f1).out ++ s ∧ F.level = (putLn ind act l f1).level ∧ F.atLineStart = false ∧
      Printed ind (putLn ind act l f1).level dc R true ls s) :
    ∃ s, F.out = f.out ++ s ∧ F.level = f.level ∧ F.atLineStart = false ∧
      Printed ind f.level dc R w ((m, l) :: ls) s := by
  obtain ⟨b1, b2, b3, b4⟩ := hb
  obtain ⟨u, ⟨w1, w2, w3, -, -⟩, hp⟩ := put_writes h f1
  obtain ⟨s, o1, o2, o3, o4⟩ := hr
  rw [w2, b2] at o4 o2
  refine ⟨_, ?_, o2, o3, hp b4 o4⟩
  rw [o1, w1, b3 hf, b1, b2]
  simp

/-- The loop of a block writes the lines. -/
theorem runBlock_printed {act : List Green → Fmt → Fmt} : ∀ (ls : List (Nat × Ln)) (w : Bool) (f : Fmt),
    (∀ x ∈ ls, LineOk ind dc R act x.2) → f.atLineStart = !w → (ls ≠ [] ∨ w = true) →
    ∃ s, (runBlock ind act w ls f).out = f.out ++ s ∧ (runBlock ind act w ls f).level = f.level ∧
      (runBlock ind act w ls f).atLineStart = false ∧ Printed ind f.level dc R w (normB w ls) s
  | [], w, f, _, hf, hw => ⟨[], by simp [runBlock], rfl, by
      have : w = true := by simpa using hw
      subst this; exact hf, .nil⟩
  | (n, l) :: ls, w, f, h, hf, _ => by
    have hl := h (n, l) (by simp)
    rw [runBlock, normB]
    refine line_step hl (breaks_line f w n) hf ?_
    obtain ⟨u, ⟨-, -, w3, -, -⟩, -⟩ := put_writes hl (f.breakLine w n)
    exact runBlock_printed ls true _ (fun x hx => h x (by simp [hx])) w3 (.inr rfl)

/-- The loop of a document writes the lines. -/
theorem runDoc_printed (schema : Bool) : ∀ (ls : List (Nat × Ln)) (d : DocState) (f : Fmt),
    (∀ x ∈ ls, LineOk ind dc R (fun c => formatNode ind (.node .ENTRY c)) x.2) → f.atLineStart = !d.wrote →
    (ls ≠ [] ∨ d.wrote = true) →
    ∃ s, (runDoc ind schema d ls f).out = f.out ++ s ∧ (runDoc ind schema d ls f).level = f.level ∧
      (runDoc ind schema d ls f).atLineStart = false ∧ Printed ind f.level dc R d.wrote (normD schema d ls) s
  | [], d, f, _, hf, hw => ⟨[], by simp [runDoc], rfl, by
      have : d.wrote = true := by simpa using hw
      rw [this] at hf; exact hf, .nil⟩
  | (n, .com t) :: ls, d, f, h, hf, _ => by
    have hl := h (n, .com t) (by simp)
    rw [runDoc, normD]
    refine line_step hl (breaks_line f d.wrote n) hf ?_
    obtain ⟨u, ⟨-, -, w3, -, -⟩, -⟩ := put_writes hl (f.breakLine d.wrote n)
    exact runDoc_printed schema ls { d with wrote := true, justDoc := false } _ (fun x hx => h x (by simp [hx])) w3 (.inr rfl)
  | (n, .doc t) :: ls, d, f, h, hf, _ => by
    have hl := h (n, .doc t) (by simp)
    rw [runDoc, normD]
    refine line_step (f1 := ({ d with newlines := n } : DocState).beforeDoc schema f) hl (breaks_if f d.wrote _) hf ?_
    obtain ⟨u, ⟨-, -, w3, -, -⟩, -⟩ := put_writes hl (({ d with newlines := n } : DocState).beforeDoc schema f)
    exact runDoc_printed schema ls { d with wrote := true, justDoc := true } _ (fun x hx => h x (by simp [hx])) w3 (.inr rfl)
  | (n, .ent c) :: ls, d, f, h, hf, _ => by
    have hl := h (n, .ent c) (by simp)
    rw [runDoc, normD]
    refine line_step (f1 := ({ d with newlines := n } : DocState).beforeEntry schema (isBlockEntry c) f) hl
      (breaks_if f d.wrote _) hf ?_
    obtain ⟨u, ⟨-, -, w3, -, -⟩, -⟩ := put_writes hl (({ d with newlines := n } : DocState).beforeEntry schema (isBlockEntry c) f)
    exact runDoc_printed schema ls _ _ (fun x hx => h x (by simp [hx])) w3 (.inr rfl)

/-! ## No comment after a doc comment -/

theorem docOk_mono {ls : List (Nat × Ln)} (h : DocOk true ls) : DocOk false ls := by
  cases ls with
  | nil => trivial
  | cons l ls =>
    obtain ⟨n, l⟩ := l
    cases l with
    | com t => simp [DocOk] at h
    | doc t => exact h
    | ent c => exact h

theorem docOk_normB : ∀ {ls : List (Nat × Ln)} {p w : Bool}, DocOk p ls → DocOk p (normB w ls)
  | [], _, _, _ => trivial
  | (_, .com _) :: _, _, _, h => ⟨h.1, docOk_normB h.2⟩
  | (_, .doc _) :: ls, _, _, h => docOk_normB (ls := ls) h
  | (_, .ent _) :: ls, _, _, h => docOk_normB (ls := ls) h

theorem docOk_normD {schema : Bool} : ∀ {ls : List (Nat × Ln)} {p : Bool} {d : DocState}, DocOk p ls → DocOk p (normD schema d ls)
  | [], _, _, _ => trivial
  | (_, .com _) :: _, _, _, h => ⟨h.1, docOk_normD h.2⟩
  | (_, .doc _) :: ls, _, _, h => docOk_normD (ls := ls) h
  | (_, .ent _) :: ls, _, _, h => docOk_normD (ls := ls) h

theorem docOk_items {rst : Bool} : ∀ {cs : List Green} {p : Bool} {n : Nat}, DocNext p cs → DocOk p (items rst n cs) := by
  intro cs
  induction cs with
  | nil => intros; trivial
  | cons g gs ih =>
    intro p n h
    cases g with
    | token k t =>
      rw [items.eq_def]
      simp only
      rw [DocNext] at h
      split
      · simp only [reduceCtorEq, if_false] at h; exact ih h.2
      · simp only [reduceCtorEq, if_false] at h
        have hp : p = false := by
          cases p with
          | false => rfl
          | true => exact absurd rfl (h.1 rfl).2
        exact ⟨hp, by subst hp; exact ih h.2⟩
      · simp only [if_true] at h; exact ih (n := 0) h
      · simp only [reduceCtorEq, if_false] at h; exact ih h.2
      · rename_i h1 h2 h3 h4
        rw [if_neg h3] at h
        exact ih h.2
    | node k c => rw [DocNext] at h; rw [items]; exact ih (n := 0) h

theorem docOk_noDoc : ∀ {ls : List (Nat × Ln)}, (∀ x ∈ ls, ∀ t, x.2 ≠ .doc t) → DocOk false ls
  | [], _ => trivial
  | (n, .com t) :: ls, h => ⟨rfl, docOk_noDoc fun x hx => h x (by simp [hx])⟩
  | (n, .doc t) :: ls, h => (h (n, .doc t) (by simp) t rfl).elim
  | (n, .ent c) :: ls, h => docOk_noDoc (ls := ls) fun x hx => h x (by simp [hx])

/-! ## Entries on one line -/

/-- The entries on one line. -/
inductive OneLine (R : List Green → List Char → Prop) (sep : List Char) : List (List Green) → List Char → Prop
  | one {c u} : R c u → OneLine R sep [c] u
  | cons {c u cs s} : R c u → OneLine R sep cs s → OneLine R sep (c :: cs) (u ++ (sep ++ s))

theorem runInline_printed {act : List Green → Fmt → Fmt} {sep : List Char} (h1 : sep ≠ []) (h2 : sep.getLast? ≠ some '\n') :
    ∀ (cs : List (List Green)) (f : Fmt), cs ≠ [] → (∀ c ∈ cs, ∀ f, ∃ u, Writes ind f (act c f) u ∧ R c u) →
    f.atLineStart = false → ∃ s, Writes ind f (runInline ind act sep cs f) s ∧ OneLine R sep cs s
  | [], _, h, _, _ => absurd rfl h
  | [c], f, _, h, _ => by
    obtain ⟨u, hw, hr⟩ := h c (by simp) f
    exact ⟨u, hw, .one hr⟩
  | c :: c' :: cs, f, _, h, hf => by
    obtain ⟨u, hw, hr⟩ := h c (by simp) f
    have w2 := write_writes (ind := ind) (act c f) h1 h2
    obtain ⟨s, w3, hs⟩ := runInline_printed h1 h2 (c' :: cs) ((act c f).write ind sep) (by simp)
      (fun x hx => h x (by simp [hx])) w2.2.2.1
    refine ⟨_, ?_, .cons hr hs⟩
    have := (hw.trans w2).trans w3
    rw [List.append_assoc] at this
    exact this

/-- A loop that reads entries on one line. -/
structure LoopI (source : List Char) (R : List Green → List Char → Prop) (Q : List Green → List Green → Prop) (sep : List Char)
    (fin : Char) (L : List Token → List Green → List Token → Prop) : Prop where
  last : ∀ c u rest p g ts', R c u → Here source (u ++ fin :: rest) p → L (toksAt (u ++ fin :: rest) p) g ts' →
    ∃ c', Q c c' ∧ g = [.node .ENTRY c'] ∧ ts' = toksAt (fin :: rest) (p + utf8Len u)
  next : ∀ c u c2 u2 rest p g ts', R c u → R c2 u2 → rest ≠ [] → Here source (u ++ (sep ++ (u2 ++ rest))) p →
    (rest.head? = sep.head? ∨ rest.head? = some fin) →
    L (toksAt (u ++ (sep ++ (u2 ++ rest))) p) g ts' →
    ∃ c' gs g', Q c c' ∧ g = .node .ENTRY c' :: gs ++ g' ∧ (∀ x ∈ gs, ∃ t, x = .token .COMMA t ∨ x = .token .WHITESPACE t) ∧
      L (toksAt (u2 ++ rest) (p + utf8Len (u ++ sep))) g' ts'

/-- What is known about entries on one line. -/
structure FactsI (Q : List Green → List Green → Prop) (cs : List (List Green)) (g : List Green) : Prop where
  entries : All2 Q cs (entriesOf g)
  newline : hasToken .NEWLINE g = false
  line : hasKind .LINE_COMMENT g = false
  doc : hasKind .DOC_COMMENT g = false
  elem : ∀ x ∈ g, Elem x

variable {source : List Char} {Q : List Green → List Green → Prop} {sep : List Char} {fin : Char}
  {L : List Token → List Green → List Token → Prop}

theorem factsI_cons {c c' : List Green} {cs : List (List Green)} {gs g' : List Green} (hq : Q c c')
    (hgs : ∀ x ∈ gs, ∃ t, x = .token .COMMA t ∨ x = .token .WHITESPACE t) (h : FactsI Q cs g') :
    FactsI Q (c :: cs) (.node .ENTRY c' :: gs ++ g') := by
  obtain ⟨h1, h2, h3, h4, h5⟩ := h
  have key : entriesOf (gs ++ g') = entriesOf g' ∧ hasToken .NEWLINE (gs ++ g') = hasToken .NEWLINE g' ∧
      hasKind .LINE_COMMENT (gs ++ g') = hasKind .LINE_COMMENT g' ∧ hasKind .DOC_COMMENT (gs ++ g') = hasKind .DOC_COMMENT g' ∧
      ∀ x ∈ gs, Elem x := by
    clear h1 h2 h3 h4 h5
    induction gs with
    | nil => simp
    | cons x gs ih =>
      obtain ⟨i1, i2, i3, i4, i5⟩ := ih fun y hy => hgs y (by simp [hy])
      rw [List.cons_append]
      obtain ⟨t, rfl | rfl⟩ := hgs x (by simp)
      all_goals
        refine ⟨i1, by rw [hasToken, i2]; rfl, by rw [hasKind_cons, i3]; rfl, by rw [hasKind_cons, i4]; rfl, ?_⟩
        intro y hy
        rcases List.mem_cons.1 hy with rfl | hy
        · simp [Elem]
        · exact i5 y hy
  obtain ⟨i1, i2, i3, i4, i5⟩ := key
  refine ⟨?_, ?_, ?_, ?_, ?_⟩
  · rw [List.cons_append, entriesOf, nodesOf, if_pos rfl]
    rw [entriesOf] at i1
    rw [i1]
    exact .cons hq h1
  · rw [List.cons_append, hasToken, i2, h2]
  · rw [List.cons_append, hasKind_cons, i3, h3]; rfl
  · rw [List.cons_append, hasKind_cons, i4, h4]; rfl
  · intro x hx
    rw [List.cons_append] at hx
    rcases List.mem_cons.1 hx with rfl | hx
    · simp [Elem]
    · rcases List.mem_append.1 hx with hx | hx
      · exact i5 x hx
      · exact h5 x hx

theorem oneLine_head {cs : List (List Green)} {s : List Char} (h : OneLine R sep cs s) (hsep : sep ≠ []) (rest : List Char) :
    ∃ c u r, R c u ∧ s ++ fin :: rest = u ++ r ∧ r ≠ [] ∧ (r.head? = sep.head? ∨ r.head? = some fin) := by
  cases h with
  | one h => exact ⟨_, _, fin :: rest, h, rfl, by simp, .inr rfl⟩
  | cons h _ =>
    refine ⟨_, _, _, h, by rw [List.append_assoc], ?_, .inl ?_⟩
    · simp
    · cases sep with
      | nil => exact absurd rfl hsep
      | cons x xs => rfl

theorem inline_read (hL : LoopI source R Q sep fin L) (hsep : sep ≠ []) {cs : List (List Green)} {s : List Char} (h : OneLine R sep cs s) :
    ∀ {rest : List Char} {p : Nat} {g : List Green} {ts' : List Token}, Here source (s ++ fin :: rest) p →
      L (toksAt (s ++ fin :: rest) p) g ts' → FactsI Q cs g ∧ ts' = toksAt (fin :: rest) (p + utf8Len s) := by
  induction h with
  | one hr =>
    intro rest p g ts' hh hl
    obtain ⟨c', hq, rfl, rfl⟩ := hL.last _ _ _ _ _ _ hr hh hl
    refine ⟨⟨?_, rfl, rfl, rfl, ?_⟩, rfl⟩
    · simp only [entriesOf, nodesOf, if_true]
      exact .cons hq .nil
    · simp [Elem]
  | @cons c u cs s hr hs ih =>
    intro rest p g ts' hh hl
    obtain ⟨c2, u2, r, hr2, e1, e2, e3⟩ := oneLine_head (fin := fin) hs hsep rest
    have e0 : u ++ (sep ++ s) ++ fin :: rest = u ++ (sep ++ (s ++ fin :: rest)) := by simp
    rw [e0] at hh hl
    have hh2 : Here source (s ++ fin :: rest) (p + utf8Len (u ++ sep)) := by
      have := hh.tail.tail
      rwa [Nat.add_assoc, ← utf8Len_append] at this
    rw [e1] at hh hl
    obtain ⟨c', gs, g', hq, rfl, hgs, hl'⟩ := hL.next _ _ _ _ _ _ _ _ hr hr2 e2 hh e3 hl
    rw [← e1] at hl'
    obtain ⟨hF, rfl⟩ := ih hh2 hl'
    refine ⟨factsI_cons hq hgs hF, ?_⟩
    congr 1
    simp only [utf8Len_append]; omega

end Styx.Cst
