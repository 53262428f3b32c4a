import Verif.Cst.ReadValue
import Verif.Cst.Ink
import Verif.Cst.Spec
import Verif.Cst.FormatSpec

/-! # What the source formatter writes for nodes that stand for values -/

namespace Styx.Cst

open Styx Styx.Spec

variable {ind : List Char}

/-! ## Writing -/

/-- `f'` is `f` with the text `u` added, after the indentation at the start of a line; the text does not end
with a line break. -/
def Writes (ind : List Char) (f f' : Fmt) (u : List Char) : Prop :=
  f'.out = f.out ++ ((if f.atLineStart then indentOf ind f.level else []) ++ u) ∧ f'.level = f.level ∧
    f'.atLineStart = false ∧ u ≠ [] ∧ u.getLast? ≠ some '\n'

theorem indentOf_zero : indentOf ind 0 = [] := rfl

theorem write_writes (f : Fmt) {s : List Char} (h1 : s ≠ []) (h2 : s.getLast? ≠ some '\n') :
    Writes ind f (f.write ind s) s := by
  rw [Fmt.write, if_neg h1]
  refine ⟨?_, rfl, rfl, h1, h2⟩
  simp only [Fmt.writeIndent]
  cases h : f.atLineStart
  · simp
  · by_cases hl : f.level = 0
    · simp [hl, indentOf_zero]
    · have : f.level > 0 := by omega
      simp [this]

theorem Writes.trans {f f' f'' : Fmt} {u u' : List Char} (h : Writes ind f f' u) (h' : Writes ind f' f'' u') :
    Writes ind f f'' (u ++ u') := by
  obtain ⟨h1, h2, h3, h4, h5⟩ := h
  obtain ⟨g1, g2, g3, g4, g5⟩ := h'
  refine ⟨?_, by rw [g2, h2], g3, by simp [h4], ?_⟩
  · rw [g1, h1, h3]
    simp
  · rw [List.getLast?_append]
    cases h : u'.getLast? with
    | none => simp_all
    | some c => simpa [h] using g5

theorem blanks_indent (h : Blanks ind) (n : Nat) : Blanks (indentOf ind n) := by
  intro c hc
  simp only [indentOf, List.mem_flatten, List.mem_replicate] at hc
  obtain ⟨l, ⟨-, rfl⟩, hc⟩ := hc
  exact h c hc

theorem blanks_gap {b : List Char} (h : Blanks b) (cm : Bool) : Gap cm b := by
  induction b with
  | nil => exact .nil
  | cons c b ih => exact .blank (h c (by simp)) (ih fun x hx => h x (by simp [hx]))

theorem gap_append {cm : Bool} {a b : List Char} (ha : Gap cm a) (hb : Gap cm b) : Gap cm (a ++ b) := by
  induction ha with
  | nil => exact hb
  | blank h _ ih => exact .blank h ih
  | newline h _ ih => rw [List.append_assoc]; exact .newline h ih
  | comment h1 h2 _ ih => rw [List.append_assoc, List.append_assoc]; exact .comment h1 h2 ih
  | comma h _ ih => exact .comma h ih

theorem gap_newline {cm : Bool} {g : List Char} (h : Gap cm g) : Gap cm ('\n' :: g) :=
  .newline (n := ['\n']) (.inl rfl) h

/-! ## Lists of entries and doc comments -/

/-- The texts of doc comments, each on its own line, with gaps before, between and after. -/
inductive DocDone (cm : Bool) : List (List Char) → List Char → Prop
  | nil {g} : Gap cm g → DocDone cm [] g
  | snoc {ds dt d g} : DocDone cm ds dt → Gap cm g → DocDone cm (ds ++ [d]) (dt ++ (d ++ '\n' :: g))

theorem DocDone.gap {cm : Bool} {ds : List (List Char)} {dt g : List Char} (h : DocDone cm ds dt) (hg : Gap cm g) :
    DocDone cm ds (dt ++ g) := by
  cases h with
  | nil h => exact .nil (gap_append h hg)
  | @snoc ds dt d g' h h' =>
    have := DocDone.snoc (d := d) h (gap_append h' hg)
    simpa using this

/-- After the doc comments `pend`, the text says `es`. -/
def Post {ε : Type} (P : List ε → List Char → Prop) (cm : Bool) (pend : List (List Char)) (es : List ε)
    (t : List Char) : Prop :=
  ∀ dt, DocDone cm pend dt → P es (dt ++ t)

variable {ε : Type} {P : List ε → List Char → Prop} {cm : Bool}

theorem Post.gap {pend : List (List Char)} {es : List ε} {t g : List Char} (h : Post P cm pend es t)
    (hg : Gap cm g) : Post P cm pend es (g ++ t) := by
  intro dt hd
  have := h _ (hd.gap hg)
  simpa using this

theorem Post.newline {pend : List (List Char)} {es : List ε} {t : List Char} (h : Post P cm pend es t) :
    Post P cm pend es ('\n' :: t) := h.gap (g := ['\n']) (gap_newline .nil)

theorem Post.comment {pend : List (List Char)} {es : List ε} {t c : List Char} (h : Post P cm pend es t)
    (hc : CommentText c) : Post P cm pend es (c ++ '\n' :: t) := by
  have := h.gap (g := c ++ (['\n'] ++ [])) (.comment hc (.inl rfl) .nil)
  simpa using this

theorem Post.doc {pend : List (List Char)} {es : List ε} {t d : List Char} (h : Post P cm (pend ++ [d]) es t) :
    Post P cm pend es (d ++ '\n' :: t) := by
  intro dt hd
  have := h _ (DocDone.snoc (d := d) hd .nil)
  simpa using this

theorem docLines_snoc {ls : List (List Char)} {dl : List Char} (h : DocLines ls dl) {l d g : List Char}
    (hd : DocTexts [l] [d]) (hg : Gap true g) : DocLines (ls ++ [l]) (dl ++ (d ++ '\n' :: g)) := by
  induction h with
  | nil =>
    cases hd with
    | cons a b _ =>
      have := DocLines.cons (n := ['\n']) (g := g) a b (.inl rfl) hg .nil
      simpa using this
  | cons a b c e _ ih =>
    have := DocLines.cons a b c e ih
    simpa using this

theorem docTexts_snoc {ds : List (List Char)} {d : List Char} : ∀ {ls : List (List Char)}, DocTexts ls (ds ++ [d]) →
    ∃ ls' l, ls = ls' ++ [l] ∧ DocTexts ls' ds ∧ DocTexts [l] [d] := by
  induction ds with
  | nil =>
    intro ls h
    cases h with
    | @cons l body ls ts a b c =>
      cases c
      exact ⟨[], l, rfl, .nil, .cons a b .nil⟩
  | cons d0 ds ih =>
    intro ls h
    cases h with
    | @cons l body ls ts a b c =>
      obtain ⟨ls', l', rfl, h1, h2⟩ := ih c
      exact ⟨l :: ls', l', rfl, .cons a b h1, h2⟩

theorem docDone_lines {ds : List (List Char)} {dt : List Char} (h : DocDone true ds dt) :
    ∀ {ls : List (List Char)}, DocTexts ls ds → ∃ g dl, dt = g ++ dl ∧ Gap true g ∧ DocLines ls dl := by
  induction h with
  | nil h =>
    intro ls hl
    cases hl
    exact ⟨_, [], by simp, h, .nil⟩
  | @snoc ds dt d g' h hg ih =>
    intro ls hl
    obtain ⟨ls', l, rfl, h1, h2⟩ := docTexts_snoc hl
    obtain ⟨g, dl, rfl, h3, h4⟩ := ih h1
    exact ⟨g, dl ++ (d ++ '\n' :: g'), by simp, h3, docLines_snoc h4 h2 hg⟩

/-! ## The loops -/

/-- Line breaks before an element, if something was written before. -/
def Broken (wrote : Bool) (f f1 : Fmt) : Prop :=
  (wrote = false ∧ f1 = f) ∨ (wrote = true ∧ (f1 = f.newline ∨ f1 = f.newline.newline))

/-- A loop that puts every comment and every entry on a line of its own. -/
inductive BlockRun (ind : List Char) (act : List Green → Fmt → Fmt) : List Green → Bool → Fmt → Fmt → Prop
  | nil {w f} : BlockRun ind act [] w f f
  | skip {k t gs w f f'} : k ≠ .LINE_COMMENT → k ≠ .DOC_COMMENT → BlockRun ind act gs w f f' →
      BlockRun ind act (.token k t :: gs) w f f'
  | comment {k t gs w f f1 f'} : k = .LINE_COMMENT ∨ k = .DOC_COMMENT → Broken w f f1 →
      BlockRun ind act gs true (f1.write ind t) f' → BlockRun ind act (.token k t :: gs) w f f'
  | entry {cs gs w f f1 f'} : Broken w f f1 → BlockRun ind act gs true (act cs f1) f' →
      BlockRun ind act (.node .ENTRY cs :: gs) w f f'

theorem broken_breakLine (f : Fmt) (w : Bool) (n : Nat) : Broken w f (f.breakLine w n) := by
  unfold Fmt.breakLine Broken
  cases w
  · simp
  · simp only [if_true]
    split <;> simp

theorem broken_beforeDoc (d : DocState) (b : Bool) (f : Fmt) : Broken d.wrote f (d.beforeDoc b f) := by
  unfold DocState.beforeDoc Broken
  cases d.wrote
  · simp
  · simp only [if_true]
    split <;> simp

theorem broken_beforeEntry (d : DocState) (b b' : Bool) (f : Fmt) : Broken d.wrote f (d.beforeEntry b b' f) := by
  unfold DocState.beforeEntry Broken
  cases d.wrote
  · simp
  · simp only [if_true]
    split <;> simp

theorem formatDocument_run (schema : Bool) : ∀ (cs prev : List Green) (d : DocState) (f : Fmt), (∀ g ∈ cs, Elem g) →
    BlockRun ind (fun c => formatNode ind (.node .ENTRY c)) cs d.wrote f (formatDocument ind schema prev cs d f) := by
  intro cs
  induction cs with
  | nil => intro prev d f _; rw [formatDocument]; exact .nil
  | cons g gs ih =>
    intro prev d f he
    have he' : ∀ g ∈ gs, Elem g := fun x hx => he x (by simp [hx])
    have hg := he g (by simp)
    cases g with
    | token k t =>
      rcases hg with rfl | rfl | rfl | rfl | rfl <;> simp only [formatDocument]
      · exact .skip (by simp) (by simp) (ih _ d f he')
      · exact .skip (by simp) (by simp) (ih _ { d with newlines := d.newlines + 1 } f he')
      · exact .skip (by simp) (by simp) (ih _ d f he')
      · exact .comment (by simp) (broken_breakLine _ _ _) (ih _ { d with wrote := true, newlines := 0, justDoc := false } _ he')
      · exact .comment (by simp) (broken_beforeDoc _ _ _) (ih _ { d with wrote := true, newlines := 0, justDoc := true } _ he')
    | node k c =>
      obtain rfl : k = .ENTRY := hg
      rw [formatDocument]
      exact .entry (broken_beforeEntry _ _ _ _) (ih _ ⟨0, d.index + 1, true, false, hasDocBefore prev, isBlockEntry c⟩ _ he')

theorem formatBlock_run : ∀ (cs : List Green) (w : Bool) (n : Nat) (f : Fmt),
    (∀ g ∈ cs, Elem g ∨ ∃ t, g = .token .L_BRACE t ∨ g = .token .R_BRACE t) →
    BlockRun ind (fun c => formatNode ind (.node .ENTRY c)) cs w f (formatBlock ind cs w n f) := by
  intro cs
  induction cs with
  | nil => intro w n f _; rw [formatBlock]; exact .nil
  | cons g gs ih =>
    intro w n f he
    have he' := fun x hx => he x (List.mem_cons_of_mem g hx)
    rcases he g (by simp) with hg | ⟨t, rfl | rfl⟩
    · cases g with
      | token k t =>
        rcases hg with rfl | rfl | rfl | rfl | rfl <;> simp only [formatBlock]
        · exact .skip (by simp) (by simp) (ih _ _ f he')
        · exact .skip (by simp) (by simp) (ih _ _ f he')
        · exact .skip (by simp) (by simp) (ih _ _ f he')
        · exact .comment (by simp) (broken_breakLine _ _ _) (ih _ _ _ he')
        · exact .comment (by simp) (broken_breakLine _ _ _) (ih _ _ _ he')
      | node k c =>
        obtain rfl : k = .ENTRY := hg
        rw [formatBlock, if_pos rfl]
        exact .entry (broken_breakLine _ _ _) (ih _ _ _ he')
    · simp only [formatBlock]; exact .skip (by simp) (by simp) (ih _ _ f he')
    · simp only [formatBlock]; exact .skip (by simp) (by simp) (ih _ _ f he')

theorem formatSeqBlock_run : ∀ (cs : List Green) (w : Bool) (n : Nat) (f : Fmt),
    (∀ g ∈ cs, SeqElem g ∨ ∃ t, g = .token .L_PAREN t ∨ g = .token .R_PAREN t) →
    BlockRun ind (fun c => formatItem ind c) cs w f (formatSeqBlock ind cs w n f) := by
  intro cs
  induction cs with
  | nil => intro w n f _; rw [formatSeqBlock]; exact .nil
  | cons g gs ih =>
    intro w n f he
    have he' := fun x hx => he x (List.mem_cons_of_mem g hx)
    rcases he g (by simp) with hg | ⟨t, rfl | rfl⟩
    · cases g with
      | token k t =>
        rcases hg with rfl | rfl | rfl <;> simp only [formatSeqBlock]
        · exact .skip (by simp) (by simp) (ih _ _ f he')
        · exact .skip (by simp) (by simp) (ih _ _ f he')
        · exact .comment (by simp) (broken_breakLine _ _ _) (ih _ _ _ he')
      | node k c =>
        obtain ⟨rfl, -⟩ := hg
        rw [formatSeqBlock, if_pos rfl]
        exact .entry (broken_breakLine _ _ _) (ih _ _ _ he')
    · simp only [formatSeqBlock]; exact .skip (by simp) (by simp) (ih _ _ f he')
    · simp only [formatSeqBlock]; exact .skip (by simp) (by simp) (ih _ _ f he')

/-- The entries are written so that, on lines of their own, they say `es`. -/
inductive Kids (ind : List Char) (P : List ε → List Char → Prop) (cm : Bool) (act : List Green → Fmt → Fmt) :
    List ε → List Kid → Prop
  | nil : Kids ind P cm act [] []
  | cons {e es ds cs ks} : (∀ f, ∃ u, Writes ind f (act cs f) u ∧
        ∀ es rest, P es ('\n' :: rest) → Post P cm ds (e :: es) (u ++ '\n' :: rest)) →
      Kids ind P cm act es ks → Kids ind P cm act (e :: es) ((ds, cs) :: ks)

/-- What the position says about the text. -/
def Lines (f : Fmt) : Prop :=
  if f.atLineStart then f.out = [] ∨ f.out.getLast? = some '\n' else f.out ≠ [] ∧ f.out.getLast? ≠ some '\n'

theorem lines_newline (f : Fmt) : Lines f.newline := by simp [Lines, Fmt.newline]

theorem lines_writes {f f' : Fmt} {u : List Char} (h : Writes ind f f' u) : Lines f' := by
  obtain ⟨h1, h2, h3, h4, h5⟩ := h
  rw [Lines, h3, h1]
  simp only [Bool.false_eq_true, if_false]
  refine ⟨by simp [h4], ?_⟩
  rw [← List.append_assoc, List.getLast?_append]
  cases h : u.getLast? with
  | none => simp_all
  | some c => simpa [h] using h5

/-- What a line break before an element adds. -/
theorem broken_out {w : Bool} {f f1 : Fmt} (h : Broken w f f1) (hw : f.atLineStart = false → w = true) :
    ∃ n, f1.out = f.out ++ n ∧ f1.level = f.level ∧ f1.atLineStart = true ∧ Gap cm n ∧
      (f.atLineStart = false → ∃ n', n = '\n' :: n' ∧ Gap cm n') ∧ (Lines f → Lines f1) := by
  rcases h with ⟨rfl, rfl⟩ | ⟨rfl, rfl | rfl⟩
  · refine ⟨[], by simp, rfl, ?_, .nil, ?_, id⟩
    · cases h : f1.atLineStart <;> simp_all
    · intro h; have := hw h; simp at this
  · exact ⟨['\n'], rfl, rfl, rfl, gap_newline .nil, fun _ => ⟨[], rfl, .nil⟩, fun _ => lines_newline _⟩
  · exact ⟨['\n', '\n'], by simp [Fmt.newline], rfl, rfl, gap_newline (gap_newline .nil),
      fun _ => ⟨['\n'], rfl, gap_newline .nil⟩, fun _ => lines_newline _⟩

/-- What follows the position. -/
def Rest (P : List ε → List Char → Prop) (cm : Bool) (pend : List (List Char)) (es : List ε) (atLineStart : Bool)
    (t : List Char) : Prop :=
  if atLineStart then Post P cm pend es t else ∃ t', t = '\n' :: t' ∧ Post P cm pend es t'

theorem Rest.nl {pend : List (List Char)} {es : List ε} {b : Bool} {t : List Char} (h : Rest P cm pend es b t)
    {b' : Bool} {n : List Char} (hb : b = true) (hn : Gap cm n) (hn' : b' = false → ∃ n', n = '\n' :: n' ∧ Gap cm n') :
    Rest P cm pend es b' (n ++ t) := by
  subst hb
  unfold Rest at *
  simp only [if_true] at h
  cases b' with
  | true => exact h.gap hn
  | false =>
    obtain ⟨n', rfl, h1⟩ := hn' rfl
    exact ⟨n' ++ t, rfl, h.gap h1⟩

theorem run_post {act : List Green → Fmt → Fmt} (hi : Blanks ind) (hact : ∀ f, act [] f = f) {gs : List Green}
    {w : Bool} {f f' : Fmt} (h : BlockRun ind act gs w f f') :
    ∀ {pend : List (List Char)} {ks : List Kid} {es : List ε}, (f.atLineStart = false → w = true) →
    (∀ k t, .token k t ∈ gs → LeafText k t) → kidsOf pend gs = some ks → Kids ind P cm act es ks →
    ∃ t, f'.out = f.out ++ t ∧ f'.level = f.level ∧ (Lines f → Lines f') ∧
      ∀ z, Rest P cm [] [] f'.atLineStart z → Rest P cm pend es f.atLineStart (t ++ z) := by
  induction h with
  | nil =>
    intro pend ks es hw hl hk hes
    rw [kidsOf] at hk
    split at hk
    · cases hk
      cases hes
      rename_i hp
      subst hp
      exact ⟨[], by simp, rfl, id, fun z hz => by simpa using hz⟩
    · cases hk
  | @skip k t gs w f f' h1 h2 _ ih =>
    intro pend ks es hw hl hk hes
    rw [kidsOf, if_neg h2] at hk
    exact ih hw (fun k t h => hl k t (by simp [h])) hk hes
  | @comment k t gs w f f1 f' h1 hb _ ih =>
    intro pend ks es hw hl hk hes
    obtain ⟨n, e1, e2, e3, e4, e5, e6⟩ := broken_out (cm := cm) hb hw
    have hlt := hl k t (by simp)
    have ht : t ≠ [] ∧ t.getLast? ≠ some '\n' := by
      rcases h1 with rfl | rfl <;> obtain ⟨r, rfl, hr⟩ := hlt <;> refine ⟨by simp, ?_⟩ <;> intro hlast
      · have := List.mem_of_getLast? hlast
        simp at this; exact hr.2.1 this
      · have := List.mem_of_getLast? hlast
        simp at this; exact hr.1 this
    have hwr := write_writes (ind := ind) f1 ht.1 ht.2
    have hwl := lines_writes hwr
    obtain ⟨w1, w2, w3, -, -⟩ := hwr
    rw [e3] at w1
    simp only [if_true] at w1
    have fin : ∀ pend', kidsOf pend' gs = some ks → (∀ t', Post P cm pend' es t' → Post P cm pend es (t ++ '\n' :: t')) →
        ∃ u, f'.out = f.out ++ u ∧ f'.level = f.level ∧ (Lines f → Lines f') ∧
          ∀ z, Rest P cm [] [] f'.atLineStart z → Rest P cm pend es f.atLineStart (u ++ z) := by
      intro pend' hk' hp
      obtain ⟨u, o1, o2, o3, o4⟩ := ih (pend := pend') (es := es) (fun _ => rfl) (fun k t h => hl k t (by simp [h])) hk' hes
      refine ⟨n ++ (indentOf ind f1.level ++ t ++ u), ?_, by rw [o2, w2, e2], fun _ => o3 hwl, ?_⟩
      · rw [o1, w1, e1]; simp
      · intro z hz
        have := o4 z hz
        rw [w3] at this
        obtain ⟨t', ht', hpo⟩ := this
        rw [List.append_assoc]
        refine Rest.nl (b := true) ?_ rfl e4 e5
        show Post P cm pend es _
        rw [List.append_assoc, ht', List.append_assoc]
        exact (hp _ hpo).gap (blanks_gap (blanks_indent hi _) cm)
    rcases h1 with rfl | rfl
    · rw [kidsOf, if_neg (by simp)] at hk
      obtain ⟨r, rfl, hr⟩ := hlt
      exact fin pend hk fun t' hp => hp.comment ⟨r, rfl, fun c hc =>
        ⟨fun e => hr.2.1 (e ▸ hc), fun e => hr.2.2 (e ▸ hc)⟩, hr.1⟩
    · rw [kidsOf, if_pos rfl] at hk
      exact fin _ hk fun t' hp => hp.doc
  | @entry cs gs w f f1 f' hb _ ih =>
    intro pend ks es hw hl hk hes
    obtain ⟨n, e1, e2, e3, e4, e5, e6⟩ := broken_out (cm := cm) hb hw
    have hl' : ∀ k t, .token k t ∈ gs → LeafText k t := fun k t h => hl k t (by simp [h])
    rw [kidsOf] at hk
    split at hk
    · rename_i hcs
      subst hcs
      rw [hact] at ih
      obtain ⟨u, o1, o2, o3, o4⟩ := ih (fun _ => rfl) hl' hk hes
      refine ⟨n ++ u, by rw [o1, e1]; simp, by rw [o2, e2], fun h => o3 (e6 h), ?_⟩
      intro z hz
      rw [List.append_assoc]
      exact Rest.nl (o4 z hz) e3 e4 e5
    · simp only [Option.map_eq_some_iff] at hk
      obtain ⟨ks', hk', rfl⟩ := hk
      cases hes with
      | @cons e es _ _ _ h1 h2 =>
        obtain ⟨v, hv, hp⟩ := h1 f1
        have hvl := lines_writes hv
        obtain ⟨w1, w2, w3, -, -⟩ := hv
        rw [e3] at w1
        simp only [if_true] at w1
        obtain ⟨u, o1, o2, o3, o4⟩ := ih (fun _ => rfl) hl' hk' h2
        refine ⟨n ++ (indentOf ind f1.level ++ v ++ u), ?_, by rw [o2, w2, e2], fun _ => o3 hvl, ?_⟩
        · rw [o1, w1, e1]; simp
        · intro z hz
          have := o4 z hz
          rw [w3] at this
          obtain ⟨t', ht', hpo⟩ := this
          rw [List.append_assoc]
          refine Rest.nl (b := true) ?_ rfl e4 e5
          show Post P cm pend _ _
          rw [List.append_assoc, ht', List.append_assoc]
          refine Post.gap ?_ (blanks_gap (blanks_indent hi _) cm)
          refine hp _ _ ?_
          have := hpo.newline [] (.nil .nil)
          simpa using this

end Styx.Cst
