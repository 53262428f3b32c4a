import Verif.Lsp.Config
import Verif.Props.FacetSer

/-!
# C78: what the user has allowed stays allowed

Allowing an extension is written to a configuration file, which every server reads when it starts.
-/

namespace Styx.Props

open Styx Styx.Spec Styx.Lsp.Config

/-! ## The file is read back -/

theorem commandsOf_forget (t : Value) : commandsOf (forget t) = commandsOf t := by
  have hitems : ∀ vs : List Value, itemTexts (forgetAll vs) = itemTexts vs := by
    intro vs
    induction vs with
    | nil => rfl
    | cons v vs ih =>
      obtain ⟨tag, p, sp⟩ := v
      cases tag with
      | some t => rcases p with _ | ⟨_ | _ | _⟩ <;> rfl
      | none =>
        rcases p with _ | ⟨_ | _ | _⟩
        · rfl
        · simp only [forgetAll, forget, Option.map_none, itemTexts, ih]
        · rfl
        · rfl
  have hfield : ∀ es : List Entry, fieldValue (forgetEntries es) = (fieldValue es).map forget := by
    intro es
    induction es with
    | nil => rfl
    | cons e es ih =>
      obtain ⟨⟨tag, p, sp⟩, v, d⟩ := e
      cases tag with
      | some t => rcases p with _ | ⟨_ | _ | _⟩ <;> exact ih
      | none =>
        rcases p with _ | ⟨_ | _ | _⟩
        · exact ih
        · simp only [forgetEntries, forget, Option.map_none, fieldValue, ih]
          split <;> rfl
        · exact ih
        · exact ih
  obtain ⟨tag, p, sp⟩ := t
  cases tag with
  | some t => rcases p with _ | ⟨_ | _ | _⟩ <;> rfl
  | none =>
    rcases p with _ | ⟨_ | _ | _⟩
    · rfl
    · rfl
    · rfl
    · rename_i es sp'
      simp only [forget, Option.map_none, commandsOf, hfield]
      cases fieldValue es with
      | none => rfl
      | some v =>
        obtain ⟨tag, p, sp⟩ := v
        cases tag with
        | some t => rcases p with _ | ⟨_ | _ | _⟩ <;> rfl
        | none =>
          rcases p with _ | ⟨_ | _ | _⟩
          · rfl
          · rfl
          · simp only [Option.map_some, forget, Option.map_none, hitems]
          · rfl

theorem itemTexts_scalars (k : ScalarKind) (cs : List (List Char)) : itemTexts (cs.map fun c => scalarValue c k) = some cs := by
  induction cs with
  | nil => rfl
  | cons c cs ih => simp [itemTexts, scalarValue, List.map_cons] at ih ⊢; simp [ih]

theorem rootText_newline {es : List RootEntry} {s : List Char} (h : RootText es s) : RootText es ('\n' :: s) := by
  have hg : ∀ {g}, Gap true g → Gap true ('\n' :: g) := fun hg => Gap.newline (n := ['\n']) (.inl rfl) hg
  cases h with
  | nil h => exact .nil (hg h)
  | cons h1 h2 h3 h4 h5 h6 h7 h8 h9 h10 => exact .cons (hg h1) h2 h3 h4 h5 h6 h7 h8 h9 h10
  | lone h1 h2 h3 h4 h5 h6 h7 => exact .lone (hg h1) h2 h3 h4 h5 h6 h7

/-- The first line of the file. -/
theorem meta_text {es : List RootEntry} {s : List Char} (h : RootText es s) :
    ∃ v, RootText (⟨[scalarValue (chars! "meta") .bare], [chars! "meta"], v, none⟩ :: es)
      (chars! "meta { @schema crate:styx-lsp-config@1 }\n\n" ++ s) := by
  have ho : EntriesText [.mk (.mk (some ⟨chars! "schema", none⟩) none none)
      (scalarValue (chars! "crate:styx-lsp-config@1") .bare) (docOf [])] (chars! " @schema crate:styx-lsp-config@1 }") := by
    refine .cons (g := [' ']) (ls := []) (dt := []) (ks := chars! "@schema") (b := [' ']) (s := chars! "crate:styx-lsp-config@1")
      (tr := []) (t := [' ', '}']) (.blank (.inl rfl) .nil) .nil (.tag (n := chars! "schema") ?_) (by simp [Blanks, Blank]) (by simp)
      (.scalar (.bare (bareText_of_ok rfl))) .none (.nil (g := [' ']) (.blank (.inl rfl) .nil)) ?_ ?_
    · exact ⟨'s', _, rfl, by decide, by decide⟩
    · exact .inr ⟨' ', ['}'], rfl, by simp⟩
    · exact ⟨[' '], ['}'], rfl, by simp [Blanks, Blank], .inr ⟨'}', [], rfl, .inr rfl⟩⟩
  refine ⟨_, RootText.cons (g := []) (ls := []) (dt := []) (ks := [scalarValue (chars! "meta") .bare]) (path := [chars! "meta"])
    (ke := .word) (kt := chars! "meta") (b := [' ']) (s := chars! "{ @schema crate:styx-lsp-config@1 }") (tr := [])
    (t := '\n' :: '\n' :: s) .nil .nil (.path (segs := [chars! "meta"]) (by simp) (by decide) (bareText_of_ok rfl))
    (by simp [Blanks, Blank]) (by simp) (.object ho ?_) .none (rootText_newline (rootText_newline h)) trivial ?_⟩
  · simp [DistinctKeys]
  · exact ⟨[], '\n' :: '\n' :: s, rfl, by simp [Blanks], .inl (.inr (.inl ⟨_, rfl⟩))⟩

/-- A command that is written faithfully: no `>` and at most one line break. -/
def PlainCommand (c : List Char) : Prop := '>' ∉ c ∧ c.count '\n' ≤ 1

/-- Saving and loading gives the same commands.  Missing: commands with `>` (false, `C78_arrow_false`) and with several
line breaks. -/
theorem C78_file_partial (commands : List (List Char)) (h : ∀ c ∈ commands, PlainCommand c) :
    ∃ text, save commands = some text ∧ load text = some commands := by
  have hitems : ∀ cs : List (List Char), (∀ c ∈ cs, PlainCommand c) →
      FacetSer.MakesItems {} (cs.map fun c => scalarValue c .quoted) (cs.map fun c => .scalar (.str c)) := by
    intro cs hcs
    induction cs with
    | nil => exact .nil
    | cons c cs ih =>
      have hc := hcs c (List.mem_cons_self ..)
      refine .cons (cs := [.scalar (.str c)]) (.str ⟨fun _ => hc.1, .inl ?_⟩) (ih fun c' hc' => hcs c' (List.mem_cons_of_mem _ hc'))
      have := hc.2
      show c.countP (· == '\n') < 2
      rw [List.count] at this
      omega
  let entry : Entry := .mk (scalarValue fieldName .bare)
    (.mk none (some (.sequence (commands.map fun c => scalarValue c .quoted) none)) none) none
  have hdoc : FacetSer.MakesDocument {} [entry] (saveCalls commands) := by
    refine ⟨by simp [Blank], ⟨.fieldKey fieldName :: ((.beginSeq :: ((commands.map fun c => .scalar (.str c)) ++ [.endSeq])) ++ []), ?_, ?_⟩,
      by simp, ?_⟩
    · exact .cons (doc := []) (.field (by decide)) (by simp) (.seq (hitems commands h)) .nil
    · simp [saveCalls]
    · intro s k sp sp' v d hm _
      simp only [entry, List.mem_singleton, Entry.mk.injEq, scalarValue, Value.mk.injEq, Option.some.injEq,
        Payload.scalar.injEq, true_and] at hm
      rw [hm.1.1.1]
      decide
  obtain ⟨text, es', h1, h2, h3, h4⟩ := FacetSer.document_text hdoc
  obtain ⟨v, hr⟩ := meta_text h2
  have hc : Consistent (callsOf (⟨[scalarValue (chars! "meta") .bare], [chars! "meta"], v, none⟩ :: es')) := by
    refine consistent_names (ns := [chars! "meta", fieldName]) ?_ (by decide)
    simp only [callsOf, List.map_cons, List.map_map]
    have : es'.map (fun e => e.path) = [[fieldName]] := h4
    show _ :: es'.map (fun e => e.path) = _
    rw [this]
    rfl
  obtain ⟨t, h5, h6⟩ := C47_document hr hc
  refine ⟨_, by rw [save, h1]; rfl, ?_⟩
  rw [load, h5]
  show commandsOf t = some commands
  have ht : forget t = forget (.mk none (some (.object
      [(⟨[scalarValue (chars! "meta") .bare], [chars! "meta"], v, none⟩ : RootEntry).tree, entry] none)) none) := by
    rw [← forget_erase_mutual.1 t, h6]
    have hcons : ∀ (e : Entry) (es es' : List Entry), forgetEntries es = forgetEntries es' →
        forgetEntries (e :: es) = forgetEntries (e :: es') := by
      intro e es es' h
      obtain ⟨k, v, d⟩ := e
      simp only [forgetEntries, h]
    rw [List.map_cons, forget, forget, hcons _ _ _ h3]
  rw [← commandsOf_forget, ht, commandsOf_forget]
  have hne : (chars! "meta") ≠ fieldName := by decide
  simp only [RootEntry.tree, nestKeys, entry, scalarValue, commandsOf, fieldValue]
  rw [if_neg hne, if_pos trivial]
  exact itemTexts_scalars .quoted commands

example : ∀ c ∈ [chars! "styx-extension", chars! "my tool"], PlainCommand c := by
  simp only [PlainCommand]
  decide

/-- Not for every command: with `>` the file that is written cannot be read, so the next server has no allowed
command at all. -/
theorem C78_arrow_false : ∃ text, save [chars! "good", chars! "a>b"] = some text ∧ load text = none :=
  ⟨chars! "meta { @schema crate:styx-lsp-config@1 }\n\nallowed_extensions (good a>b)\n", by decide +kernel, by decide +kernel⟩

/-- Nor with several line breaks. -/
theorem C78_lines_false : ∃ text, save [chars! "good", chars! "a\nb\nc"] = some text ∧ load text = none :=
  ⟨chars! "meta { @schema crate:styx-lsp-config@1 }\n\nallowed_extensions (good <<TEXT\na\nb\nc\nTEXT)\n",
    by decide +kernel, by decide +kernel⟩

/-! ## Histories -/

/-- The value is the word or string `s`, without tag. -/
def IsWord (v : Value) (s : List Char) : Prop := ∃ k sp sp', v = .mk none (some (.scalar s k sp)) sp'

/-- The file, when there is one, gives permission to the command: it is a document, the first entry with the name
`allowed_extensions` is a sequence of words and strings, and the command is one of them. -/
def Permits (file : Option (List Char)) (command : List Char) : Prop :=
  ∃ text es, file = some text ∧ (∃ osp sp, parseTree text = some (.ok (.mk none (some (.object es osp)) sp))) ∧
    ∃ pre k v d post vs, es = pre ++ .mk k v d :: post ∧ IsWord k (chars! "allowed_extensions") ∧
      (∀ e ∈ pre, ¬ IsWord e.key (chars! "allowed_extensions")) ∧
      (∃ sp sp', v = .mk none (some (.sequence vs sp)) sp') ∧ (∀ x ∈ vs, ∃ s, IsWord x s) ∧
      ∃ x ∈ vs, IsWord x command

theorem mem_itemTexts {vs : List Value} {c : List Char} :
    (∃ cs, itemTexts vs = some cs ∧ c ∈ cs) ↔ (∀ x ∈ vs, ∃ s, IsWord x s) ∧ ∃ x ∈ vs, IsWord x c := by
  have hall : ∀ vs : List Value, (∃ cs, itemTexts vs = some cs) ↔ ∀ x ∈ vs, ∃ s, IsWord x s := by
    intro vs
    induction vs with
    | nil => simp [itemTexts]
    | cons v vs ih =>
      rw [List.forall_mem_cons, ← ih]
      rcases v with ⟨_ | t, _ | ⟨s, k, sp⟩ | ⟨_, _⟩ | ⟨_, _⟩, sp'⟩ <;> simp [itemTexts, IsWord]
      exact ⟨fun ⟨_, a, h, _⟩ => ⟨a, h⟩, fun ⟨a, h⟩ => ⟨_, a, h, rfl⟩⟩
  induction vs with
  | nil => simp [itemTexts]
  | cons v vs ih =>
    have hex : (∃ x ∈ v :: vs, IsWord x c) ↔ IsWord v c ∨ ∃ x ∈ vs, IsWord x c := by simp
    rw [List.forall_mem_cons, hex, ← hall vs]
    rw [← hall vs] at ih
    rcases v with ⟨_ | t, _ | ⟨s, k, sp⟩ | ⟨_, _⟩ | ⟨_, _⟩, sp'⟩
    case none.some.scalar =>
      simp only [itemTexts, Option.map_eq_some_iff]
      constructor
      · rintro ⟨_, ⟨cs, h, rfl⟩, hc⟩
        refine ⟨⟨⟨s, k, sp, sp', rfl⟩, cs, h⟩, ?_⟩
        rcases List.mem_cons.1 hc with rfl | hc
        · exact .inl ⟨k, sp, sp', rfl⟩
        · exact .inr (ih.1 ⟨cs, h, hc⟩).2
      · rintro ⟨⟨-, cs, h⟩, h' | h'⟩
        · obtain ⟨_, _, _, h'⟩ := h'
          cases h'
          exact ⟨_, ⟨cs, h, rfl⟩, List.mem_cons_self ..⟩
        · obtain ⟨cs', h1, h2⟩ := ih.2 ⟨⟨cs, h⟩, h'⟩
          exact ⟨_, ⟨cs', h1, rfl⟩, List.mem_cons_of_mem _ h2⟩
    all_goals simp [itemTexts, IsWord]

theorem fieldValue_iff {es : List Entry} {v : Value} : fieldValue es = some v ↔
    ∃ pre k d post, es = pre ++ .mk k v d :: post ∧ IsWord k (chars! "allowed_extensions") ∧
      ∀ e ∈ pre, ¬ IsWord e.key (chars! "allowed_extensions") := by
  induction es with
  | nil => simp [fieldValue]
  | cons e es ih =>
    obtain ⟨k, w, d⟩ := e
    have hstep : ∀ h : ¬ IsWord k (chars! "allowed_extensions"),
        ((∃ pre k d post, es = pre ++ .mk k v d :: post ∧ IsWord k (chars! "allowed_extensions") ∧
            ∀ e ∈ pre, ¬ IsWord e.key (chars! "allowed_extensions")) ↔
          ∃ pre k' d' post, Entry.mk k w d :: es = pre ++ .mk k' v d' :: post ∧ IsWord k' (chars! "allowed_extensions") ∧
            ∀ e ∈ pre, ¬ IsWord e.key (chars! "allowed_extensions")) := by
      intro h
      constructor
      · rintro ⟨pre, k', d', post, rfl, h1, h2⟩
        exact ⟨.mk k w d :: pre, k', d', post, rfl, h1, List.forall_mem_cons.2 ⟨h, h2⟩⟩
      · rintro ⟨pre, k', d', post, h0, h1, h2⟩
        rcases pre with _ | ⟨e, pre⟩
        · simp only [List.nil_append, List.cons.injEq, Entry.mk.injEq] at h0
          obtain ⟨⟨rfl, -, -⟩, -⟩ := h0
          exact absurd h1 h
        · simp only [List.cons_append, List.cons.injEq] at h0
          exact ⟨pre, k', d', post, h0.2, h1, fun e he => h2 e (List.mem_cons_of_mem _ he)⟩
    rcases k with ⟨_ | t, _ | ⟨s, kd, sp⟩ | ⟨_, _⟩ | ⟨_, _⟩, sp'⟩
    case none.some.scalar =>
      rw [fieldValue]
      by_cases hs : s = fieldName
      · rw [if_pos hs]
        subst hs
        have hw : IsWord (.mk none (some (.scalar fieldName kd sp)) sp') (chars! "allowed_extensions") := ⟨kd, sp, sp', rfl⟩
        constructor
        · intro h
          cases h
          exact ⟨[], _, d, es, rfl, hw, by simp⟩
        · rintro ⟨pre, k', d', post, h0, h1, h2⟩
          rcases pre with _ | ⟨e, pre⟩
          · simp only [List.nil_append, List.cons.injEq, Entry.mk.injEq] at h0
            rw [h0.1.2.1]
          · simp only [List.cons_append, List.cons.injEq] at h0
            refine absurd ?_ (h2 e (List.mem_cons_self ..))
            rw [← h0.1]
            exact hw
      · rw [if_neg hs, ih]
        refine hstep ?_
        rintro ⟨_, _, _, h⟩
        cases h
        exact hs rfl
    all_goals
      rw [fieldValue, ih]
      · refine hstep ?_
        rintro ⟨_, _, _, h⟩
        cases h
      try (intros; simp_all)

/-- What a server takes from the file is what the file gives permission to. -/
theorem mem_loaded {file : Option (List Char)} {c : List Char} : c ∈ loaded file ↔ Permits file c := by
  unfold loaded Permits
  cases file with
  | none => simp
  | some text =>
    simp only [load]
    cases hp : parseTree text with
    | none => simp [hp]
    | some r =>
      cases r with
      | error e => simp [hp]
      | ok t =>
        rcases t with ⟨_ | tag, _ | ⟨_, _, _⟩ | ⟨_, _⟩ | ⟨es, osp⟩, sp⟩
        case none.some.object =>
          simp only [commandsOf]
          constructor
          · intro h
            cases hf : fieldValue es with
            | none => simp [hf] at h
            | some v =>
              obtain ⟨pre, k, d, post, h1, h2, h3⟩ := fieldValue_iff.1 hf
              rcases v with ⟨_ | tag, _ | ⟨_, _, _⟩ | ⟨vs, ssp⟩ | ⟨_, _⟩, vsp⟩
              case none.some.sequence =>
                simp only [hf] at h
                cases hi : itemTexts vs with
                | none => simp [hi] at h
                | some cs =>
                  rw [hi] at h
                  obtain ⟨h4, h5⟩ := mem_itemTexts.1 ⟨cs, hi, h⟩
                  exact ⟨text, es, rfl, ⟨osp, sp, hp⟩, pre, k, _, d, post, vs, h1, h2, h3, ⟨_, _, rfl⟩, h4, h5⟩
              all_goals simp [hf] at h
          · rintro ⟨text', es', ht, ⟨_, _, hp'⟩, pre, k, v, d, post, vs, h1, h2, h3, ⟨_, _, rfl⟩, h4, h5⟩
            cases ht
            rw [hp] at hp'
            cases hp'
            rw [fieldValue_iff.2 ⟨pre, k, d, post, h1, h2, h3⟩]
            obtain ⟨cs, hi, hc⟩ := mem_itemTexts.2 ⟨h4, h5⟩
            simp only [hi]
            exact hc
        all_goals simp [commandsOf, hp]

/-- How many servers were started. -/
def starts (l : List Label) : Nat := l.countP fun | .start => true | _ => false

/-- The user edits no file, allows plain commands only, and allows them in the server started last. -/
def InTurn (l : List Label) : Prop :=
  (∀ text, .edit text ∉ l) ∧ (∀ i c, .allow i c ∈ l → PlainCommand c) ∧
  ∀ pre i c post, l = pre ++ .allow i c :: post → i + 1 = starts pre

theorem labelInduction {motive : List Label → Prop} (nil : motive [])
    (snoc : ∀ l a, motive l → motive (l ++ [a])) (l : List Label) : motive l := by
  rw [← List.reverse_reverse l]
  induction l.reverse with
  | nil => exact nil
  | cons a l ih => rw [List.reverse_cons]; exact snoc _ _ ih

theorem exec_snoc (file : Option (List Char)) (l : List Label) (a : Label) :
    Lsp.Config.exec file (l ++ [a]) = Lsp.Config.act (Lsp.Config.exec file l) a := by
  simp [Lsp.Config.exec]

theorem exec_servers (file : Option (List Char)) (l : List Label) :
    (Lsp.Config.exec file l).servers.length = starts l := by
  induction l using labelInduction with
  | nil => rfl
  | snoc l a ih =>
    rw [exec_snoc, starts, List.countP_append]
    cases a with
    | start => simp [Lsp.Config.act, ih, starts]
    | edit text => simp [Lsp.Config.act, ih, starts]
    | allow i c =>
      simp only [Lsp.Config.act, allowIn, List.countP_singleton, Bool.false_eq_true, if_false, Nat.add_zero]
      split
      · exact ih
      · split
        · exact ih
        · simpa [starts] using ih

theorem plain_new {cs : List (List Char)} {c : List Char} (h : ∀ c ∈ cs, PlainCommand c) (hc : PlainCommand c) :
    ∀ x ∈ cs ++ [c], PlainCommand x := by
  intro x hx
  rcases List.mem_append.1 hx with hx | hx
  · exact h x hx
  · rw [List.mem_singleton.1 hx]
    exact hc

/-- **C78**: the next server allows exactly what was allowed: the commands of the first file, and those allowed since.
Missing: several servers at the same time (false, `C78_lost_false`), edits of the file while a server runs (false,
`C78_edit_false`), commands with `>` or several line breaks (false, `C78_arrow_false`). -/
theorem C78_kept_partial (file : Option (List Char)) (hfile : ∀ c, Permits file c → PlainCommand c) (l : List Label)
    (h : InTurn l) :
    ∃ commands, (Lsp.Config.exec file (l ++ [.start])).servers.getLast? = some commands ∧
      ∀ c, c ∈ commands ↔ Permits file c ∨ ∃ i, .allow i c ∈ l := by
  simp only [← mem_loaded] at hfile ⊢
  have key : ∀ l, InTurn l → (∀ c ∈ loaded (Lsp.Config.exec file l).file, PlainCommand c) ∧
      (∀ c, c ∈ loaded (Lsp.Config.exec file l).file ↔ c ∈ loaded file ∨ ∃ i, Label.allow i c ∈ l) ∧
      (∀ cs, (Lsp.Config.exec file l).servers.getLast? = some cs → cs = loaded (Lsp.Config.exec file l).file) := by
    intro l
    induction l using labelInduction with
    | nil => exact fun _ => ⟨hfile, by simp [Lsp.Config.exec], by simp [Lsp.Config.exec]⟩
    | snoc l a ih =>
      intro hl
      obtain ⟨i1, i2, i3⟩ := ih ⟨fun text hm => hl.1 text (List.mem_append_left _ hm),
        fun i c hm => hl.2.1 i c (List.mem_append_left _ hm),
        fun pre i c post he => hl.2.2 pre i c (post ++ [a]) (by rw [he]; simp)⟩
      rw [exec_snoc]
      cases a with
      | start => exact ⟨i1, by simpa [Lsp.Config.act] using i2, by simp [Lsp.Config.act]⟩
      | edit text => exact absurd (by simp) (hl.1 text)
      | allow i c =>
        have hi := hl.2.2 l i c [] rfl
        have hc := hl.2.1 i c (by simp)
        have hlast : (Lsp.Config.exec file l).servers.getLast? = (Lsp.Config.exec file l).servers[i]? := by
          rw [List.getLast?_eq_getElem?, exec_servers, ← hi]
          rfl
        have hlen := exec_servers file l
        obtain ⟨cs, hcs⟩ : ∃ cs, (Lsp.Config.exec file l).servers[i]? = some cs :=
          ⟨_, List.getElem?_eq_getElem (by omega)⟩
        have hcs' := i3 cs (by rw [hlast, hcs])
        simp only [Lsp.Config.act, allowIn, hcs]
        by_cases hin : cs.contains c = true
        · rw [if_pos hin]
          refine ⟨i1, fun x => ?_, i3⟩
          rw [i2 x]
          have hin' : c ∈ loaded file ∨ ∃ i, Label.allow i c ∈ l := (i2 c).1 (by rw [← hcs']; simpa using hin)
          constructor
          · rintro (hx | ⟨j, hx⟩)
            · exact .inl hx
            · exact .inr ⟨j, List.mem_append_left _ hx⟩
          · rintro (hx | ⟨j, hx⟩)
            · exact .inl hx
            · rcases List.mem_append.1 hx with hx | hx
              · exact .inr ⟨j, hx⟩
              · simp only [List.mem_singleton, Label.allow.injEq] at hx
                rw [hx.2]
                exact hin'
        · rw [if_neg hin]
          obtain ⟨text, t1, t2⟩ := C78_file_partial (cs ++ [c]) (plain_new (by rw [hcs']; exact i1) hc)
          simp only [t1]
          have hld : loaded (some text) = cs ++ [c] := by simp [loaded, t2]
          rw [hld]
          refine ⟨plain_new (by rw [hcs']; exact i1) hc, fun x => ?_, fun cs' h' => ?_⟩
          · rw [List.mem_append, hcs', i2 x]
            simp only [List.mem_append, List.mem_singleton, Label.allow.injEq]
            constructor
            · rintro ((hx | ⟨j, hx⟩) | rfl)
              · exact .inl hx
              · exact .inr ⟨j, .inl hx⟩
              · exact .inr ⟨i, .inr ⟨rfl, rfl⟩⟩
            · rintro (hx | ⟨j, hx | ⟨-, hx⟩⟩)
              · exact .inl (.inl hx)
              · exact .inl (.inr ⟨j, hx⟩)
              · exact .inr hx
          · rw [List.getLast?_eq_getElem?, List.length_set, hlen, ← hi, Nat.add_sub_cancel,
              List.getElem?_set_self (by omega)] at h'
            exact (Option.some.inj h').symm
  obtain ⟨-, k2, -⟩ := key l h
  exact ⟨_, by rw [exec_snoc]; simp [Lsp.Config.act], k2⟩

/-- **C78**: nothing is allowed that the user has not allowed: a command in the list of any server at any time was in
the first file or in a file the user wrote, or was allowed.  Any number of servers, any edits.  Missing: commands
with `>` or several line breaks. -/
theorem C78_only_partial (file : Option (List Char)) (l : List Label)
    (hfile : ∀ c, Permits file c → PlainCommand c)
    (hedit : ∀ text, .edit text ∈ l → ∀ c, Permits (some text) c → PlainCommand c)
    (hallow : ∀ i c, .allow i c ∈ l → PlainCommand c)
    (commands : List (List Char)) (h : commands ∈ (Lsp.Config.exec file l).servers) (c : List Char) (hc : c ∈ commands) :
    Permits file c ∨ (∃ text, .edit text ∈ l ∧ Permits (some text) c) ∨ ∃ i, .allow i c ∈ l := by
  simp only [← mem_loaded] at hfile hedit ⊢
  let Known (l : List Label) (c : List Char) : Prop :=
    c ∈ loaded file ∨ (∃ text, .edit text ∈ l ∧ c ∈ loaded (some text)) ∨ ∃ i, .allow i c ∈ l
  have mono : ∀ l a c, Known l c → Known (l ++ [a]) c := by
    rintro l a c (h | ⟨t, h, h'⟩ | ⟨i, h⟩)
    · exact .inl h
    · exact .inr (.inl ⟨t, List.mem_append_left _ h, h'⟩)
    · exact .inr (.inr ⟨i, List.mem_append_left _ h⟩)
  have key : ∀ l, (∀ text, .edit text ∈ l → ∀ c ∈ loaded (some text), PlainCommand c) →
      (∀ i c, Label.allow i c ∈ l → PlainCommand c) →
      (∀ c ∈ loaded (Lsp.Config.exec file l).file, PlainCommand c ∧ Known l c) ∧
      ∀ cs ∈ (Lsp.Config.exec file l).servers, ∀ c ∈ cs, PlainCommand c ∧ Known l c := by
    intro l
    induction l using labelInduction with
    | nil => exact fun _ _ => ⟨fun c hc => ⟨hfile c hc, .inl hc⟩, by simp [Lsp.Config.exec]⟩
    | snoc l a ih =>
      intro he ha
      obtain ⟨i1, i2⟩ := ih (fun t hm => he t (List.mem_append_left _ hm)) (fun i c hm => ha i c (List.mem_append_left _ hm))
      have j1 : ∀ c ∈ loaded (Lsp.Config.exec file l).file, PlainCommand c ∧ Known (l ++ [a]) c :=
        fun c hc => ⟨(i1 c hc).1, mono _ _ _ (i1 c hc).2⟩
      have j2 : ∀ cs ∈ (Lsp.Config.exec file l).servers, ∀ c ∈ cs, PlainCommand c ∧ Known (l ++ [a]) c :=
        fun cs hcs c hc => ⟨(i2 cs hcs c hc).1, mono _ _ _ (i2 cs hcs c hc).2⟩
      rw [exec_snoc]
      cases a with
      | start =>
        refine ⟨j1, fun cs hcs => ?_⟩
        rcases List.mem_append.1 hcs with hcs | hcs
        · exact j2 cs hcs
        · rw [List.mem_singleton.1 hcs]
          exact j1
      | edit text =>
        exact ⟨fun c hc => ⟨he text (by simp) c hc, .inr (.inl ⟨text, by simp, hc⟩)⟩, j2⟩
      | allow i c =>
        simp only [Lsp.Config.act, allowIn]
        cases hcs : (Lsp.Config.exec file l).servers[i]? with
        | none => exact ⟨j1, j2⟩
        | some cs =>
          by_cases hin : cs.contains c = true
          · simp only [if_pos hin]
            exact ⟨j1, j2⟩
          · simp only [if_neg hin]
            have hnew : ∀ x ∈ cs ++ [c], PlainCommand x ∧ Known (l ++ [.allow i c]) x := by
              intro x hx
              rcases List.mem_append.1 hx with hx | hx
              · exact j2 cs (List.mem_of_getElem? hcs) x hx
              · rw [List.mem_singleton.1 hx]
                exact ⟨ha i c (by simp), .inr (.inr ⟨i, by simp⟩)⟩
            obtain ⟨text, t1, t2⟩ := C78_file_partial (cs ++ [c]) (fun x hx => (hnew x hx).1)
            simp only [t1]
            have hld : loaded (some text) = cs ++ [c] := by simp [loaded, t2]
            refine ⟨by rw [hld]; exact hnew, fun cs' hcs' => ?_⟩
            rcases List.mem_or_eq_of_mem_set hcs' with hcs' | rfl
            · exact j2 cs' hcs'
            · exact hnew
  exact ((key l hedit hallow).2 commands h c hc).2

/-- **C78**: a running server never forgets a command it was asked to allow. -/
theorem C78_running (file : Option (List Char)) (l l' : List Label) (i : Nat) (commands : List (List Char)) (c : List Char)
    (h : (Lsp.Config.exec file l).servers[i]? = some commands) :
    ∃ commands', (Lsp.Config.exec file (l ++ .allow i c :: l')).servers[i]? = some commands' ∧ c ∈ commands' := by
  have h0 : ∃ cs, (Lsp.Config.exec file (l ++ [.allow i c])).servers[i]? = some cs ∧ c ∈ cs := by
    rw [exec_snoc]
    simp only [Lsp.Config.act, allowIn, h]
    by_cases hin : commands.contains c = true
    · rw [if_pos hin]
      exact ⟨commands, h, by simpa using hin⟩
    · rw [if_neg hin]
      exact ⟨commands ++ [c], List.getElem?_set_self (List.getElem?_eq_some_iff.1 h).1, by simp⟩
  rw [show l ++ .allow i c :: l' = (l ++ [.allow i c]) ++ l' by simp]
  generalize l ++ [.allow i c] = m at h0 ⊢
  induction l' using labelInduction with
  | nil => simpa using h0
  | snoc l' a ih =>
    obtain ⟨cs, g1, g2⟩ := ih
    rw [← List.append_assoc, exec_snoc]
    cases a with
    | start => exact ⟨cs, by rw [Lsp.Config.act, List.getElem?_append_left (List.getElem?_eq_some_iff.1 g1).1, g1], g2⟩
    | edit text => exact ⟨cs, g1, g2⟩
    | allow j d =>
      simp only [Lsp.Config.act, allowIn]
      split
      · exact ⟨cs, g1, g2⟩
      · rename_i ds hds
        split
        · exact ⟨cs, g1, g2⟩
        · by_cases hij : j = i
          · subst hij
            rw [g1] at hds
            cases hds
            exact ⟨cs ++ [d], List.getElem?_set_self (List.getElem?_eq_some_iff.1 g1).1, by simp [g2]⟩
          · exact ⟨cs, by rw [List.getElem?_set_ne hij, g1], g2⟩

/-! ## What does not hold -/

/-- Two servers: what was allowed in the first is lost when something is allowed in the second. -/
theorem C78_lost_false : ∃ l, (Lsp.Config.exec none l).servers.getLast? = some [chars! "b"] ∧
    Label.allow 0 (chars! "a") ∈ l ∧ Label.allow 1 (chars! "b") ∈ l :=
  ⟨[.start, .start, .allow 0 (chars! "a"), .allow 1 (chars! "b"), .start], by decide +kernel, by simp, by simp⟩

/-- An edit of the file while a server runs is overwritten. -/
theorem C78_edit_false : ∃ text, load text = some [chars! "a", chars! "b"] ∧
    (Lsp.Config.exec none [.start, .edit text, .allow 0 (chars! "c"), .start]).servers.getLast? = some [chars! "c"] :=
  ⟨chars! "allowed_extensions (a b)", by decide +kernel, by decide +kernel⟩

/-- A file with a mistake in it is replaced at the next permission: the commands in it are lost. -/
theorem C78_mistake_false : ∃ text, load text = none ∧ load (text ++ [')']) = some [chars! "a", chars! "b"] ∧
    (Lsp.Config.exec (some text) [.start, .allow 0 (chars! "c"), .start]).servers.getLast? = some [chars! "c"] :=
  ⟨chars! "allowed_extensions (a b", by decide +kernel, by decide +kernel, by decide +kernel⟩

/-- Permitting one command takes the permission from all: the file cannot be read. -/
theorem C78_forgets_false :
    (Lsp.Config.exec none [.start, .allow 0 (chars! "a"), .allow 0 (chars! "a>b"), .start]).servers =
      [[chars! "a", chars! "a>b"], []] := by
  decide +kernel

/-- Comments in the file are lost. -/
theorem C78_comments_false : ∃ text text', (chars! "// mine") <:+: text ∧ ¬ (chars! "// mine") <:+: text' ∧
    (Lsp.Config.exec (some text) [.start, .allow 0 (chars! "b")]).file = some text' :=
  ⟨chars! "// mine\nallowed_extensions (a)\n",
    chars! "meta { @schema crate:styx-lsp-config@1 }\n\nallowed_extensions (a b)\n", by decide, by decide, by decide +kernel⟩

example : InTurn [.start, .allow 0 (chars! "a"), .start, .allow 1 (chars! "b c")] := by
  refine ⟨by simp, ?_, ?_⟩
  · intro i c h
    simp only [List.mem_cons, reduceCtorEq, false_or, or_false, List.not_mem_nil, Label.allow.injEq] at h
    rcases h with ⟨-, rfl⟩ | ⟨-, rfl⟩ <;> simp [PlainCommand] <;> decide
  · intro pre i c post h
    rcases pre with _ | ⟨a, _ | ⟨b, _ | ⟨c', _ | ⟨d, pre⟩⟩⟩⟩ <;> simp_all [starts]
    · obtain ⟨rfl, ⟨rfl, -⟩, -⟩ := h
      rfl
    · obtain ⟨rfl, rfl, rfl, ⟨rfl, -⟩, -⟩ := h
      rfl

end Styx.Props
