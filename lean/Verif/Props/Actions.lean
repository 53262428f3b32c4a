import Verif.Lsp.DeclareSpec
import Verif.Props.Fill
import Verif.Props.Place
import Verif.Props.Config

/-! # Property theorems C88: schema declarations and quick fixes -/

namespace Styx.Props

open Styx Styx.Spec Styx.Lsp Styx.Schema

/-! ## Which schema is declared -/

theorem isText_iff {v : Value} {t : List Char} : v.asStr = some t ↔ IsText v t := by
  obtain ⟨tag, p, sp⟩ := v
  constructor
  · intro h
    rcases tag with _ | tag
    · rcases p with _ | ⟨_ | _ | _⟩ <;> simp only [Value.asStr] at h <;> cases h
      exact ⟨_, _, _, rfl⟩
    · cases h
  · rintro ⟨k, a, b, h⟩
    cases h
    rfl

theorem firstField_iff {es : List Entry} {n : List Char} {v : Value} :
    objGet es n = some v ↔ FirstField es n v := by
  unfold objGet
  rw [Option.map_eq_some_iff]
  constructor
  · rintro ⟨e, he, rfl⟩
    rw [List.find?_eq_some_iff_append] at he
    obtain ⟨h1, pre, post, rfl, h2⟩ := he
    obtain ⟨k, v, d⟩ := e
    refine ⟨pre, k, d, post, rfl, isText_iff.1 (by simpa [Entry.key] using h1), fun x hx hk => ?_⟩
    have := h2 x hx
    rw [asStr_iff.2 hk] at this
    simp at this
  · rintro ⟨pre, k, d, post, rfl, h1, h2⟩
    refine ⟨.mk k v d, ?_, rfl⟩
    rw [List.find?_eq_some_iff_append]
    refine ⟨?_, pre, post, rfl, fun x hx => ?_⟩
    · show (k.asStr == some n) = true
      rw [isText_iff.2 h1]
      simp
    · have := fun h => h2 x hx (asStr_iff.1 h)
      simpa using this

theorem declares_iff {e : Entry} {r : SchemaRef} : declaredBy e = some r ↔ Declares e r := by
  obtain ⟨⟨t, p, sp⟩, v, d⟩ := e
  constructor
  · intro h
    unfold declaredBy at h
    split at h
    case isFalse => cases h
    rename_i hs
    rcases t with _ | t
    · simp [Cli.isSchemaTag, Value.tagName, Value.tag, Entry.key] at hs
    have ht : t.name = chars! "schema" := by
      simpa [Cli.isSchemaTag, Value.tagName, Value.tag, Entry.key] using hs
    change (if v.isUnit = true then some SchemaRef.optOut else match v.asStr with
      | some path => some (.external path)
      | none => embeddedRef v) = some r at h
    by_cases hu : v.isUnit = true
    · rw [if_pos hu] at h
      cases h
      exact .optOut ht (isUnit_iff.1 hu)
    · rw [if_neg hu] at h
      cases hp : v.asStr with
      | some path =>
        rw [hp] at h
        cases h
        exact .external ht (isText_iff.1 hp)
      | none =>
        rw [hp] at h
        unfold embeddedRef at h
        simp only [Option.bind_eq_some_iff, Option.map_eq_some_iff] at h
        obtain ⟨es, h1, i, h2, id, h3, c, h4, cli, h5, rfl⟩ := h
        obtain ⟨vt, vp, vsp⟩ := v
        rcases vp with _ | ⟨_ | _ | ⟨es', osp⟩⟩ <;> simp only [Value.asObject] at h1 <;> cases h1
        exact .embedded ht (firstField_iff.1 h2) (isText_iff.1 h3) (firstField_iff.1 h4) (isText_iff.1 h5)
  · intro h
    have hk : ∀ {t : Tag}, t.name = chars! "schema" → Cli.isSchemaTag (.mk (some t) p sp) = true := by
      intro t ht
      simp [Cli.isSchemaTag, Value.tagName, Value.tag, ht]
    cases h with
    | optOut ht hu => simp [declaredBy, Entry.key, Entry.value, hk ht, isUnit_iff.2 hu]
    | external ht hx =>
      have : v.isUnit = false := by obtain ⟨_, _, _, rfl⟩ := hx; rfl
      simp [declaredBy, Entry.key, Entry.value, hk ht, this, isText_iff.2 hx]
    | embedded ht h1 h2 h3 h4 =>
      rename_i vt es osp vsp id cli i c
      have e1 : (Value.mk vt (some (.object es osp)) vsp).isUnit = false := by simp [Value.isUnit, Value.payload]
      have e2 : (Value.mk vt (some (.object es osp)) vsp).asStr = none := by cases vt <;> rfl
      simp [declaredBy, Entry.key, Entry.value, hk ht, e1, e2, embeddedRef, Value.asObject, firstField_iff.2 h1,
        isText_iff.2 h2, firstField_iff.2 h3, isText_iff.2 h4]

/-- **C88** (which schema is declared), for every document: it is the schema of the first entry at the root that
declares one, wherever it stands; entries `@schema` of another form do not count. -/
theorem C88_declared (t : Option Tag) (es : List Entry) (o sp : Option Span) (r : SchemaRef) :
    findSchemaDeclaration (.mk t (some (.object es o)) sp) = some r ↔
      ∃ pre e post, es = pre ++ e :: post ∧ Declares e r ∧ ∀ x ∈ pre, ∀ r', ¬ Declares x r' := by
  show es.findSome? declaredBy = some r ↔ _
  rw [List.findSome?_eq_some_iff]
  constructor
  · rintro ⟨pre, e, post, rfl, h1, h2⟩
    exact ⟨pre, e, post, rfl, declares_iff.1 h1, fun x hx r' hr => by
      have := h2 x hx
      rw [declares_iff.2 hr] at this
      cases this⟩
  · rintro ⟨pre, e, post, rfl, h1, h2⟩
    refine ⟨pre, e, post, rfl, declares_iff.2 h1, fun x hx => ?_⟩
    cases h : declaredBy x with
    | none => rfl
    | some r' => exact absurd (declares_iff.1 h) (h2 x hx r')

/-! ## Erasing places -/

theorem objGet_erase (n : List Char) : ∀ es : List Entry, objGet (eraseEntries es) n = (objGet es n).map erase
  | [] => rfl
  | .mk k v d :: es => by
    have ih := objGet_erase n es
    unfold objGet at ih ⊢
    rw [eraseEntries, List.find?_cons, List.find?_cons]
    rw [show (Entry.mk (erase k) (erase v) d).key.asStr = (Entry.mk k v d).key.asStr from asStr_erase k]
    cases (Entry.mk k v d).key.asStr == some n with
    | true => rfl
    | false => exact ih

theorem declaredBy_erase (k v : Value) (d : Option (List Char)) :
    declaredBy (.mk (erase k) (erase v) d) = declaredBy (.mk k v d) := by
  have h1 : Cli.isSchemaTag (erase k) = Cli.isSchemaTag k := by
    obtain ⟨t, p, sp⟩ := k
    cases t <;> rfl
  have h2 : (erase v).isUnit = v.isUnit := by
    obtain ⟨t, p, sp⟩ := v
    cases t <;> rcases p with _ | ⟨_ | _ | _⟩ <;> rfl
  have h3 : embeddedRef (erase v) = embeddedRef v := by
    obtain ⟨t, p, sp⟩ := v
    rcases p with _ | ⟨_ | _ | ⟨es, o⟩⟩
    · rfl
    · rfl
    · rfl
    · show embeddedRef (.mk _ (some (.object (eraseEntries es) none)) none) = _
      simp only [embeddedRef, Value.asObject, Option.bind_some, objGet_erase]
      cases objGet es (chars! "id") with
      | none => rfl
      | some i =>
        simp only [Option.map_some, Option.bind_some, asStr_erase]
        cases i.asStr with
        | none => rfl
        | some id =>
          cases objGet es (chars! "cli") with
          | none => rfl
          | some c => simp only [Option.map_some, Option.bind_some, asStr_erase]
  simp only [declaredBy, Entry.key, Entry.value, h1, h2, h3, asStr_erase]
  rfl

theorem find_erase {t : Value} {es : List Entry} (h : erase t = .mk none (some (.object es none)) none) :
    findSchemaDeclaration t = es.findSome? declaredBy := by
  obtain ⟨tag, p, sp⟩ := t
  rcases p with _ | ⟨_ | _ | ⟨es', o⟩⟩ <;> simp [erase, erasePayload] at h
  obtain ⟨-, rfl⟩ := h
  show es'.findSome? declaredBy = _
  clear o sp tag
  induction es' with
  | nil => rfl
  | cons e es' ih =>
    obtain ⟨k, v, d⟩ := e
    rw [eraseEntries, List.findSome?_cons, List.findSome?_cons, declaredBy_erase, ih]

/-! ## Adding a declaration -/

theorem consistent_cons {n : List Char} {k : PathValueKind} : ∀ {h : History}, Consistent h →
    (∀ x ∈ h, x.1 ≠ [] ∧ x.1.head? ≠ some n) → Consistent (([n], k) :: h) := by
  intro h hc hn h1 p k' h2 he
  cases h1 with
  | nil =>
    rintro ⟨h0, last, kind, h3, -⟩
    simp at h3
  | cons x h1 =>
    simp only [List.cons_append, List.cons.injEq] at he
    obtain ⟨rfl, rfl⟩ := he
    have hp := hn (p, k') (by simp)
    have hclosed : ∀ pre c, pre ≠ [] → Closed (([n], k) :: h1) pre c → Closed h1 pre c := by
      rintro pre c hpre ⟨g1, q, g2, hg, hq, hrest, hlast⟩
      cases g1 with
      | nil =>
        simp only [List.nil_append, List.cons.injEq] at hg
        obtain ⟨rfl, rfl⟩ := hg
        have := hq.length_le
        simp only [List.length_append, List.length_cons, List.length_nil] at this
        exact absurd (List.eq_nil_of_length_eq_zero (by omega)) hpre
      | cons y g1 =>
        simp only [List.cons_append, List.cons.injEq] at hg
        obtain ⟨rfl, rfl⟩ := hg
        exact ⟨g1, q, g2, rfl, hq, hrest, hlast⟩
    rintro ⟨h0, last, kind, h3, h4⟩
    cases h0 with
    | nil =>
      simp only [List.nil_append, List.cons.injEq, Prod.mk.injEq] at h3
      obtain ⟨⟨rfl, rfl⟩, rfl⟩ := h3
      rcases h4 with h4 | ⟨⟨r, h4⟩, -⟩ | ⟨pre, c, hpre, -, hcl⟩
      · exact hp.2 (by rw [h4]; rfl)
      · exact hp.2 (by rw [← h4]; rfl)
      · obtain ⟨g1, q, g2, hg, -⟩ := hclosed pre c hpre hcl
        simp at hg
    | cons y h0 =>
      simp only [List.cons_append, List.cons.injEq] at h3
      obtain ⟨rfl, rfl⟩ := h3
      refine hc _ p k' h2 rfl ⟨h0, last, kind, rfl, ?_⟩
      rcases h4 with h4 | h4 | ⟨pre, c, hpre, hpc, hcl⟩
      · exact .inl h4
      · exact .inr (.inl h4)
      · exact .inr (.inr ⟨pre, c, hpre, hpc, hclosed pre c hpre hcl⟩)

/-- An edit at the start of a document. -/
theorem applyEdit_front (s text : List Char) : applyEdit s ⟨⟨0, 0⟩, ⟨0, 0⟩, text⟩ = text ++ s := by
  have h : fromPosition s ⟨0, 0⟩ = s := by
    cases s <;> simp [fromPosition, fromLine, fromColumn]
  simp [applyEdit, h]

theorem declared_document {es : List RootEntry} {s text : List Char} {v : Value} {e : Tail} (h : RootText es s)
    (hc : Consistent (callsOf es)) (hn : ∀ e ∈ es, NotSchema e) (hv : ValueText v e text)
    (hf : ∀ r, Follows e ('\n' :: r)) :
    ∃ t, parseTree (chars! "@schema " ++ text ++ '\n' :: '\n' :: s) = some (.ok t) ∧
      erase t = .mk none (some (.object (.mk schemaKey v none :: es.map RootEntry.tree) none)) none := by
  have hd : RootText (⟨[schemaKey], [chars! "@schema"], v, none⟩ :: es)
      (chars! "@schema " ++ text ++ '\n' :: '\n' :: s) := by
    have := RootText.cons (g := []) (ls := []) (dt := []) (b := [' ']) (tr := []) .nil .nil
      (.other (k := schemaKey) (.tag (n := chars! "schema") ⟨'s', chars! "chema", rfl, by decide, by decide⟩) (by
        intro w hw; cases hw))
      (by simp [Blanks, Blank]) (by simp) hv .none (rootText_newline (rootText_newline h)) (hf _)
      (by
        rw [EntryEnd, if_pos rfl]
        exact ⟨[], _, rfl, by simp [Blanks], .inl (.inr (.inl ⟨_, rfl⟩))⟩)
    simpa [keyName, schemaKey, docOf] using this
  have hcons : Consistent (callsOf (⟨[schemaKey], [chars! "@schema"], v, none⟩ :: es)) := by
    refine consistent_cons hc fun x hx => ?_
    obtain ⟨e, he, rfl⟩ := List.mem_map.1 hx
    exact ⟨(rootText_names h e he).1, hn e he⟩
  exact C47_document hd hcons

/-- **C88** (add a declaration), for documents without braces around the root that have no other `@schema`: after
the action, the document has the declaration in front of its former entries, it declares the schema of the hint,
and the hint is gone. -/
theorem C88_add_partial {es : List RootEntry} {s id cli : List Char} (h : RootText es s)
    (hc : Consistent (callsOf es)) (hn : ∀ e ∈ es, NotSchema e) (hi : BareText id) (hl : BareText cli) :
    ∃ t, parseTree (applyEdit s (addSchemaEdit (declarationText id (some cli)))) = some (.ok t) ∧
      erase t = .mk none (some (.object (.mk schemaKey (schemaFields id cli) none :: es.map RootEntry.tree) none)) none ∧
      findSchemaDeclaration t = some (.embedded id cli) ∧ ∀ m, hintShown (some t) m = false := by
  have hk : ∀ {w : List Char}, BareText w → KeyText (scalarValue w .bare) .word w :=
    fun hw => .scalar (.bare hw) (by simp)
  have b1 : BareText (chars! "id") := ⟨by decide, 'i', ['d'], rfl, by decide⟩
  have b2 : BareText (chars! "cli") := ⟨by decide, 'c', ['l', 'i'], rfl, by decide⟩
  have hv : ValueText (schemaFields id cli) .closed
      ('{' :: (chars! "id " ++ id ++ (chars! ", cli " ++ cli ++ ['}']))) := by
    refine .object ?_ ?_
    · have e2 := EntriesText.cons (g := [',', ' ']) (ls := []) (dt := []) (b := [' ']) (tr := [])
        (.comma rfl (.blank (.inl rfl) .nil)) .nil (hk b2) (by simp [Blanks, Blank]) (by simp)
        (.scalar (.bare hl)) .none (.nil (g := []) .nil) (.inr ⟨'}', [], rfl, by simp⟩)
        (by rw [EntryEnd, if_pos rfl]; exact ⟨[], ['}'], rfl, by simp [Blanks], .inr ⟨'}', [], rfl, .inr rfl⟩⟩)
      have e1 := EntriesText.cons (g := []) (ls := []) (dt := []) (b := [' ']) (tr := []) .nil .nil (hk b1)
        (by simp [Blanks, Blank]) (by simp) (.scalar (.bare hi)) .none e2 (.inr ⟨',', _, rfl, by simp⟩)
        (by rw [EntryEnd, if_pos rfl]; exact ⟨[], _, rfl, by simp [Blanks], .inr ⟨',', _, rfl, .inl rfl⟩⟩)
      simpa [docOf] using e1
    · simp [Spec.DistinctKeys, entryKey, keyId, scalarValue]
  obtain ⟨t, h1, h2⟩ := declared_document h hc hn hv (fun _ => trivial)
  have h3 : findSchemaDeclaration t = some (.embedded id cli) := by
    rw [find_erase h2, List.findSome?_cons]
    rfl
  refine ⟨t, ?_, h2, h3, fun m => by simp [hintShown, h3]⟩
  rw [addSchemaEdit, applyEdit_front]
  simpa [declarationText] using h1

/-- **C88** (opt out), for the same documents: after the action, the document has `@schema @` in front of its former
entries, it declares that it has no schema, and the hint is gone. -/
theorem C88_optOut_partial {es : List RootEntry} {s : List Char} (h : RootText es s)
    (hc : Consistent (callsOf es)) (hn : ∀ e ∈ es, NotSchema e) :
    ∃ t, parseTree (applyEdit s optOutEdit) = some (.ok t) ∧
      erase t = .mk none (some (.object (.mk schemaKey (.mk none none none) none :: es.map RootEntry.tree) none)) none ∧
      findSchemaDeclaration t = some .optOut ∧ ∀ m, hintShown (some t) m = false := by
  obtain ⟨t, h1, h2⟩ := declared_document h hc hn .unit (fun r => .inr ⟨'\n', r, rfl, by simp⟩)
  have h3 : findSchemaDeclaration t = some .optOut := by
    rw [find_erase h2, List.findSome?_cons]
    rfl
  refine ⟨t, ?_, h2, h3, fun m => by simp [hintShown, h3]⟩
  rw [optOutEdit, applyEdit_front]
  simpa using h1

theorem rootKey_undeclared {ks : List Value} {path : List (List Char)} {e : Tail} {s : List Char}
    (h : RootKeyText ks path e s) (hn : path.head? ≠ some (chars! "@schema")) (v : Value) (d : Option (List Char)) :
    declaredBy (nestKeys v ks d) = none := by
  cases h with
  | path h3 _ _ =>
    cases path with
    | nil => exact absurd rfl h3
    | cons a segs => cases segs <;> rfl
  | @other k _ _ _ _ =>
    obtain ⟨t, p, sp⟩ := k
    cases t with
    | none => rfl
    | some t =>
      have : t.name ≠ chars! "schema" := fun ht => hn (by simp [keyName, ht])
      simp [nestKeys, declaredBy, Entry.key, Cli.isSchemaTag, Value.tagName, Value.tag, this]

theorem rootText_undeclared {es : List RootEntry} {s : List Char} (h : RootText es s) (hn : ∀ e ∈ es, NotSchema e) :
    ∀ e ∈ es, declaredBy e.tree = none := by
  induction h with
  | nil => intro e he; simp at he
  | cons _ _ h2 _ _ _ _ _ _ _ ih | lone _ _ h2 _ _ _ _ ih =>
    intro e he
    rcases List.mem_cons.1 he with rfl | he
    · exact rootKey_undeclared h2 (hn _ (List.mem_cons_self ..)) _ _
    · exact ih (fun e he => hn e (List.mem_cons_of_mem _ he)) e he

/-- **C88** is false of hints without a binary, for all these documents: the declaration that is added is not taken
for one, and the hint stays. -/
theorem C88_id_false {es : List RootEntry} {s id : List Char} (h : RootText es s)
    (hc : Consistent (callsOf es)) (hn : ∀ e ∈ es, NotSchema e) (hi : BareText id) :
    ∃ t, parseTree (applyEdit s (addSchemaEdit (declarationText id none))) = some (.ok t) ∧
      findSchemaDeclaration t = none ∧ hintShown (some t) true = true := by
  have b1 : BareText (chars! "id") := ⟨by decide, 'i', ['d'], rfl, by decide⟩
  have hv : ValueText (.mk none (some (.object [.mk (scalarValue (chars! "id") .bare) (scalarValue id .bare) none]
      none)) none) .closed ('{' :: (chars! "id " ++ id ++ ['}'])) := by
    refine .object ?_ ?_
    · have e1 := EntriesText.cons (g := []) (ls := []) (dt := []) (b := [' ']) (tr := []) .nil .nil
        (.scalar (.bare b1) (by simp)) (by simp [Blanks, Blank]) (by simp) (.scalar (.bare hi)) .none
        (.nil (g := []) .nil) (.inr ⟨'}', [], rfl, by simp⟩)
        (by rw [EntryEnd, if_pos rfl]; exact ⟨[], ['}'], rfl, by simp [Blanks], .inr ⟨'}', [], rfl, .inr rfl⟩⟩)
      simpa [docOf] using e1
    · simp [Spec.DistinctKeys]
  obtain ⟨t, h1, h2⟩ := declared_document h hc hn hv (fun _ => trivial)
  have h3 : findSchemaDeclaration t = none := by
    rw [find_erase h2, List.findSome?_cons]
    show (es.map RootEntry.tree).findSome? declaredBy = none
    rw [List.findSome?_eq_none_iff]
    intro x hx
    obtain ⟨e, he, rfl⟩ := List.mem_map.1 hx
    exact rootText_undeclared h hn e he
  refine ⟨t, ?_, h3, by simp [hintShown, h3]⟩
  rw [addSchemaEdit, applyEdit_front]
  simpa [declarationText] using h1

/-! ## Cases -/

/-- What a document declares after an action; the outer `none` is a document that is rejected. -/
def declaredAfter (source : List Char) (edit : TextEdit) : Option (Option SchemaRef) :=
  match parseTree (applyEdit source edit) with
  | some (.ok t) => some (findSchemaDeclaration t)
  | _ => none

/-- Whether the hint is shown for a document whose address matches a pattern. -/
def hinted (source : List Char) : Bool :=
  match parseTree source with
  | some (.ok t) => hintShown (some t) true
  | _ => false

/-- A document with a comment, dotted keys and a nested object meets the hypotheses of the actions. -/
example : hinted (chars! "// c\na.b 1\nc {d 2}\n") = true ∧
    declaredAfter (chars! "// c\na.b 1\nc {d 2}\n") (addSchemaEdit (declarationText (chars! "crate:x@1") (some (chars! "x")))) =
      some (some (.embedded (chars! "crate:x@1") (chars! "x"))) ∧
    declaredAfter (chars! "// c\na.b 1\nc {d 2}\n") optOutEdit = some (some .optOut) := by decide +kernel

example : ∃ es, RootText es (chars! "a 1") ∧ Consistent (callsOf es) ∧ ∀ e ∈ es, NotSchema e := by
  have b1 : BareText ['a'] := ⟨by decide, 'a', [], rfl, by decide⟩
  have b2 : BareText ['1'] := ⟨by decide, '1', [], rfl, by decide⟩
  have := RootText.cons (g := []) (ls := []) (dt := []) (b := [' ']) (tr := []) .nil .nil
    (.path (segs := [['a']]) (by simp) (by simp) (by simpa [dotted] using b1)) (by simp [Blanks, Blank]) (by simp)
    (.scalar (.bare b2)) .none (.nil (g := []) .nil) (.inl rfl)
    (by rw [EntryEnd, if_pos rfl]; exact ⟨[], _, rfl, by simp [Blanks], .inl (.inl rfl)⟩)
  refine ⟨_, by simpa [dotted] using this, ?_, ?_⟩
  · refine consistent_cons (h := []) ?_ (by simp)
    intro h1 p k h2 he
    simp at he
  · simp [NotSchema]

/-- **C88** is false of a document with braces around the root: the hint is shown, and both actions make a document
that is rejected. -/
theorem C88_braces_false : hinted (chars! "{a 1}") = true ∧
    declaredAfter (chars! "{a 1}") (addSchemaEdit (declarationText (chars! "x") (some (chars! "x")))) = none ∧
    declaredAfter (chars! "{a 1}") optOutEdit = none := by decide +kernel

/-- **C88** is false of a document with a declaration of another form: the hint is shown, and both actions make a
document that is rejected, for its second `@schema`. -/
theorem C88_second_false : hinted (chars! "@schema {id x}\na 1") = true ∧
    declaredAfter (chars! "@schema {id x}\na 1") (addSchemaEdit (declarationText (chars! "x") (some (chars! "x")))) = none ∧
    declaredAfter (chars! "@schema {id x}\na 1") optOutEdit = none := by decide +kernel

/-- **C88** is false of hints without a binary: the hint is still shown after its action, which cannot be taken
again. -/
theorem C88_again_false : hinted (applyEdit (chars! "a 1") (addSchemaEdit (declarationText (chars! "x") none))) = true ∧
    declaredAfter (applyEdit (chars! "a 1") (addSchemaEdit (declarationText (chars! "x") none)))
      (addSchemaEdit (declarationText (chars! "x") none)) = none := by decide +kernel

/-! ## Renaming an unknown key -/

variable {F : Type} (E : Schema.Env F) (sf : Schema.SchemaFile F)

theorem key_node {s : List Char} {tree : Value} (h : parseTree s = some (.ok tree)) {q : List Char} {w : Value}
    (hp : Schema.PathTo [] (Cli.stripSchemaDeclaration tree) q w) {es : List Entry} {o : Option Span}
    (hw : w.payload = some (.object es o)) {x : Entry} (hx : x ∈ es) : Node x.key tree := by
  obtain ⟨k, v, d⟩ := x
  rcases pathTo_strip h hp with ⟨rfl, rfl⟩ | ⟨c, y, hc, hn, -, hpl⟩
  · obtain ⟨es', rfl, -⟩ := parseTree_std h
    cases hw
    exact .inside (.key (List.mem_filter.1 hx).1) .self
  · obtain ⟨t, p, sp⟩ := y
    rw [hw] at hpl
    cases hpl
    refine .inside hc ?_
    clear hc
    generalize hz : Value.mk t (some (.object es o)) sp = z at hn
    induction hn with
    | self => subst hz; exact .inside (.key hx) .self
    | inside hc _ ih => exact .inside hc ih

theorem covers_edit {s text : List Char} {sp : Span} (new : List Char) (hs : ∀ c ∈ s, c ≠ '\r' ∧ utf16Units c = 1)
    (h : Covers s sp text) : ∃ a b, s = a ++ text ++ b ∧ sp.start = utf8Len a ∧ sp.stop = utf8Len (a ++ text) ∧
      applyEdit s ⟨(spanRange s sp).1, (spanRange s sp).2, new⟩ = a ++ new ++ b := by
  obtain ⟨a, b, rfl, h1, h2⟩ := h
  rw [← utf8Len_append] at h2
  refine ⟨a, b, rfl, h1, h2, ?_⟩
  have e1 : fromPosition (a ++ text ++ b) (offsetToPosition (a ++ text ++ b) sp.start) = text ++ b := by
    rw [h1, List.append_assoc]
    exact C51_send_partial a (text ++ b) (by rw [← List.append_assoc]; exact hs)
  have e2 : fromPosition (a ++ text ++ b) (offsetToPosition (a ++ text ++ b) sp.stop) = b := by
    rw [h2]
    exact C51_send_partial (a ++ text) b hs
  simp only [applyEdit, spanRange]
  rw [e1, e2]
  have : (a ++ text ++ b).length - (text ++ b).length = a.length := by
    simp only [List.length_append]
    omega
  rw [this, List.append_assoc a text b, List.take_left]

theorem covers_unique {s t u : List Char} {sp : Span} (h : Covers s sp t) (g : Covers s sp u) : t = u := by
  obtain ⟨a, b, rfl, h1, h2⟩ := h
  obtain ⟨c, d, g1, g2, g3⟩ := g
  have e1 := takeBytes_app a (t ++ b)
  have e2 := takeBytes_app c (u ++ d)
  have f1 := takeBytes_app (a ++ t) b
  have f2 := takeBytes_app (c ++ u) d
  rw [← List.append_assoc] at e1 e2
  rw [← g1, ← g2, h1] at e2
  rw [← g1, utf8Len_append, ← g3, h2, ← utf8Len_append] at f2
  rw [e1] at e2
  rw [f1] at f2
  cases e2
  simpa using f2

/-- **C88** (rename), every schema and every document without carriage returns whose characters are all one UTF-16
unit: the action is offered for an unknown key of an object that the path of the error leads to.  It puts the
suggestion in the place of the text of this key and leaves the rest of the document.  If the key is a bare word,
this text is the word. -/
theorem C88_rename_partial (source : List Char) (tree : Value) (n : Nat) (r : Schema.Result)
    (hs : ∀ c ∈ source, c ≠ '\r' ∧ utf16Units c = 1) (h : parseTree source = some (.ok tree))
    (hr : Schema.validateDocument E sf n (Cli.stripSchemaDeclaration tree) = some r)
    (e : Schema.Err) (he : e ∈ r.errors) (edit : TextEdit) (hed : renameEdit source tree e = some edit) :
    ∃ q w es o x shown names suggestion before text after,
      Schema.PathTo [] (Cli.stripSchemaDeclaration tree) q w ∧ w.payload = some (.object es o) ∧ x ∈ es ∧
      Schema.KeyShown x shown ∧ e.path = Schema.pathAt q shown ∧
      e.kind = .unknownField shown names (some suggestion) ∧
      source = before ++ text ++ after ∧ x.key.span = some ⟨utf8Len before, utf8Len (before ++ text)⟩ ∧
      applyEdit source edit = before ++ suggestion ++ after ∧
      ∀ psp sp, x.key = .mk none (some (.scalar shown .bare psp)) sp → text = shown := by
  obtain ⟨q, w, place, h1, h2, h3⟩ := C84_errors_partial E sf n _ r hr e he
  unfold renameEdit at hed
  split at hed
  case h_2 => cases hed
  rename_i name names suggestion hk
  simp only [Option.some.injEq] at hed
  rcases h2 with ⟨-, -, -, g⟩ | ⟨_, _, _, _, _, _, g, _⟩ | ⟨x, shown, names', sug, es, o, g1, g2, g3, g4, g5, g⟩ |
    ⟨_, _, _, _, _, _, g, _⟩
  · exact absurd hk (g _ _ _)
  · rw [hk] at g; cases g
  · rw [hk] at g5
    cases g5
    obtain ⟨sp, text, k1, k2⟩ := key_covered h h1 g1 g2
    have hn := key_node h h1 g1 g2
    have hb : ∀ psp sp', x.key = .mk none (some (.scalar name .bare psp)) sp' → text = name := by
      intro psp sp' hx
      rw [hx] at hn k1
      cases k1
      exact covers_unique k2 ((C72_text source tree name .bare sp psp h hn).1 rfl)
    obtain ⟨a, b, e1, e2, e3, e4⟩ := covers_edit suggestion hs k2
    refine ⟨q, w, es, o, x, name, names, suggestion, a, text, b, h1, g1, g2, g3, g4, hk, e1, ?_, ?_, hb⟩
    · rw [k1, ← e2, ← e3]
    · rw [← hed, errorRange, g, k1]
      exact e4
  · rw [hk] at g; rcases g with g | g <;> cases g


set_option synthInstance.maxSize 1000

/-- The document after the first "Rename …" action that is offered, with whether it is rejected. -/
def renamed (root : Schema.Schema Nat) (source : List Char) : Option (List Char × Bool) :=
  match parseTree source with
  | some (.ok tree) => (Schema.validateDocument natEnv [(none, root)] 20 (Cli.stripSchemaDeclaration tree)).bind fun r =>
      (r.errors.findSome? (renameEdit source tree)).map fun edit =>
        (applyEdit source edit, match parseTree (applyEdit source edit) with | some (.ok _) => false | _ => true)
  | _ => none

/-- Keys at the root, in a nested object and in the path of a dotted key are renamed. -/
example : renamed (.object [(.named (chars! "name"), .bool)]) (chars! "x 1\nnmae 2") = some (chars! "x 1\nname 2", false) ∧
    renamed (.object [(.named ['o'], .object [(.named (chars! "name"), .bool)])]) (chars! "o {\n  nam 1\n}") =
      some (chars! "o {\n  name 1\n}", false) ∧
    renamed (.object [(.named ['o'], .object [(.named (chars! "name"), .bool)])]) (chars! "o.nam 1") =
      some (chars! "o.name 1", false) := by decide +kernel

/-- **C88** is false of a name that is in use: the suggestion is taken from all fields of the schema, and the
document with a second `name` is rejected. -/
theorem C88_rename_twice_false : renamed (.object [(.named (chars! "name"), .bool)]) (chars! "name 1\nnmae 2") =
    some (chars! "name 1\nname 2", true) := by decide +kernel

/-- **C88** is false of a name that is no bare word: the suggestion is written without quotes.  `"a c" 1` becomes
`a b 1`, which is rejected. -/
theorem C88_rename_bare_false : renamed (.object [(.named (chars! "a b"), .bool)]) (chars! "\"a c\" 1") =
    some (chars! "a b 1", true) := by decide +kernel

/-! ## Reordering -/

theorem root_entry_text {s : List Char} {tree : Value} (h : parseTree s = some (.ok tree)) {es : List Entry}
    (ht : tree = .mk none (some (.object es none)) none) : ∀ e ∈ es, (entryText s e).isSome := by
  intro e he
  obtain ⟨k, v, d⟩ := e
  obtain ⟨kp, kt, k1, a, b, k2, k3, k4⟩ := tree_covered h k k (by rw [ht]; exact .key he) .self
  obtain ⟨vp, vt, v1, c, f, v2, v3, v4⟩ := tree_covered h v v (by rw [ht]; exact .value he) .self
  have hle : kp.start ≤ vp.stop := by
    obtain ⟨es', h1, h2⟩ := parseTree_std h
    rw [ht] at h1
    cases h1
    have hkl : kp.start ≤ kp.stop := by omega
    obtain ⟨m, n, _, _, _, h5, _⟩ := h2.mem he
    rcases h5 with h5 | ⟨⟨sp, es', vsp, g1, g2, g3⟩, _⟩
    · obtain ⟨sp, _, g1, g2, _⟩ := h5
      obtain ⟨t, p, ksp⟩ := k
      obtain ⟨g3, _⟩ := g1
      cases k1
      cases g3
      rcases g2 with ⟨rfl, _⟩ | g2
      · cases v1
        exact hkl
      · obtain ⟨t', p', vsp⟩ := v
        cases v1
        simp only [Std] at g2
        omega
    · rw [k1] at g1
      cases g1
      subst g2
      cases v1
      omega
  have hbt : ∃ x, c ++ vt = a ++ x := by
    have e : a ++ (kt ++ b) = (c ++ vt) ++ f := by rw [← v2, ← List.append_assoc, ← k2]
    rcases List.append_eq_append_iff.1 e with ⟨x, hx, -⟩ | ⟨x, hx, -⟩
    · exact ⟨x, hx⟩
    · have hl : utf8Len a = utf8Len (c ++ vt) + utf8Len x := by rw [hx, utf8Len_append]
      have hz : utf8Len x = 0 := by
        rw [utf8Len_append] at hl
        omega
      cases x with
      | nil => exact ⟨[], by simpa using hx.symm⟩
      | cons y x =>
        have := y.utf8Size_pos
        simp [utf8Len] at hz
        omega
  obtain ⟨x, hx⟩ := hbt
  have e1 : takeBytes kp.start s = some a := by
    rw [k3, k2, List.append_assoc]
    exact takeBytes_app _ _
  have e2 : takeBytes vp.stop s = some (c ++ vt) := by
    rw [v4, ← utf8Len_append, v2]
    exact takeBytes_app _ _
  have e3 : dropBytes kp.start (c ++ vt) = some x := by
    rw [hx, k3]
    exact dropBytes_app _ _
  simp [entryText, Entry.key, Entry.value, k1, v1, e1, e2, e3]

theorem entriesText_isSome (s : List Char) : ∀ es : List Entry, (∀ e ∈ es, (entryText s e).isSome) →
    (entriesText s es).isSome
  | [], _ => rfl
  | [e], h => h e (by simp)
  | e :: f :: es, h => by
    have ih := entriesText_isSome s (f :: es) fun x hx => h x (by simp [List.mem_cons.1 hx])
    have h1 := h e (by simp)
    obtain ⟨t, ht⟩ := Option.isSome_iff_exists.1 h1
    obtain ⟨u, hu⟩ := Option.isSome_iff_exists.1 ih
    simp [entriesText, ht, hu]

/-- **C88** is false of "Reorder fields to match schema": it is never offered, whatever the document, its fields and
the order in the schema. -/
theorem C88_reorder_false (source : List Char) (tree : Value) (names : List (List Char))
    (h : parseTree source = some (.ok tree)) : reorderEdit source tree names = .ok none := by
  obtain ⟨es, rfl, -⟩ := parseTree_std h
  simp only [reorderEdit]
  split
  · rfl
  · have := entriesText_isSome source (((ordered names es).mergeSort entryAtMost).map (·.2)) (by
      intro e he
      obtain ⟨p, hp, rfl⟩ := List.mem_map.1 he
      rw [List.mem_mergeSort] at hp
      obtain ⟨x, hx, rfl⟩ := List.mem_map.1 hp
      exact root_entry_text h rfl x hx)
    obtain ⟨t, ht⟩ := Option.isSome_iff_exists.1 this
    rw [ht]

/-- A document whose fields are not in the order of the schema. -/
example : (parseTree (chars! "b 1\na 2")).isSome ∧
    ordered [['a'], ['b']] [.mk (scalarValue ['b'] .bare) (scalarValue ['1'] .bare) none,
      .mk (scalarValue ['a'] .bare) (scalarValue ['2'] .bare) none] =
    [(some 1, .mk (scalarValue ['b'] .bare) (scalarValue ['1'] .bare) none),
      (some 0, .mk (scalarValue ['a'] .bare) (scalarValue ['2'] .bare) none)] := ⟨by decide +kernel, by rfl⟩

end Styx.Props
