import Verif.Lsp.FillLemmas
import Verif.Cst.RelayoutValue
import Verif.Schema.Lemmas
import Verif.Props.Context
import Verif.Props.Lsp
import Verif.Lsp.TokenLemmas
import Verif.Props.Text

/-!
# C80: filling in missing fields adds them to the object
-/

namespace Styx.Props

open Styx Styx.Spec Styx.Lsp Styx.Schema

/-! ## Documents one after the other -/

theorem follows_tail {e : Tail} {r : List Char} (h : Follows e r) (t : List Char) : Follows e (r ++ '\n' :: t) := by
  have hl : ∀ {u : List Char}, AtLineEnd u → AtLineEnd (u ++ '\n' :: t) := by
    rintro u (rfl | ⟨r, rfl⟩ | ⟨r, rfl⟩)
    · exact .inr (.inl ⟨t, rfl⟩)
    · exact .inr (.inl ⟨_, rfl⟩)
    · exact .inr (.inr ⟨_, rfl⟩)
  induction e with
  | closed => trivial
  | word =>
    rcases h with rfl | ⟨c, r', rfl, hc⟩
    · exact .inr ⟨'\n', t, rfl, by simp⟩
    · exact .inr ⟨c, r' ++ '\n' :: t, rfl, hc⟩
  | line => exact hl h
  | attrs last ih =>
    refine ⟨ih h.1, ?_⟩
    obtain ⟨b, u, rfl, hb, hu⟩ := h.2
    refine ⟨b, u ++ '\n' :: t, by simp, hb, ?_⟩
    rcases hu with hu | ⟨c, r', rfl, hc⟩ | ⟨r', rfl⟩
    · exact .inl (hl hu)
    · exact .inr (.inl ⟨c, _, rfl, hc⟩)
    · exact .inr (.inr ⟨_, rfl⟩)

theorem entryEnd_tail {tr r : List Char} (h : EntryEnd tr r) (t : List Char) : EntryEnd tr (r ++ '\n' :: t) := by
  have hl : ∀ {u : List Char}, AtLineEnd u → AtLineEnd (u ++ '\n' :: t) := by
    rintro u (rfl | ⟨r, rfl⟩ | ⟨r, rfl⟩)
    · exact .inr (.inl ⟨t, rfl⟩)
    · exact .inr (.inl ⟨_, rfl⟩)
    · exact .inr (.inr ⟨_, rfl⟩)
  unfold EntryEnd at h ⊢
  split
  · rename_i h0
    rw [if_pos h0] at h
    obtain ⟨b, u, rfl, hb, hu⟩ := h
    refine ⟨b, u ++ '\n' :: t, by simp, hb, ?_⟩
    rcases hu with hu | ⟨c, r', rfl, hc⟩
    · exact .inl (hl hu)
    · exact .inr ⟨c, _, rfl, hc⟩
  · rename_i h0
    rw [if_neg h0] at h
    exact hl h

theorem gap_before {g : List Char} (hg : Gap true g) {es : List RootEntry} {s : List Char} (h : RootText es s) :
    RootText es (g ++ s) := by
  cases h with
  | nil hg' => exact .nil (Cst.gap_append hg hg')
  | cons hg' h1 h2 h3 h4 h5 h6 h7 h8 h9 =>
    have := RootText.cons (Cst.gap_append hg hg') h1 h2 h3 h4 h5 h6 h7 h8 h9
    simpa only [List.append_assoc] using this
  | lone hg' h1 h2 h3 h4 h5 h6 =>
    have := RootText.lone (Cst.gap_append hg hg') h1 h2 h3 h4 h5 h6
    simpa only [List.append_assoc] using this

/-- Two documents with a line break between them are one document. -/
theorem rootText_append {es es' : List RootEntry} {s t : List Char} (h : RootText es s)
    (h' : RootText es' ('\n' :: t)) : RootText (es ++ es') (s ++ '\n' :: t) := by
  induction h with
  | nil hg => exact gap_before hg h'
  | cons hg h1 h2 h3 h4 h5 h6 _ h8 h9 ih =>
    have := RootText.cons hg h1 h2 h3 h4 h5 h6 ih (by rw [← List.append_assoc]; exact follows_tail h8 t)
      (entryEnd_tail h9 t)
    simpa only [List.append_assoc, List.cons_append] using this
  | lone hg h1 h2 h3 _ h5 h6 ih =>
    have := RootText.lone hg h1 h2 h3 ih (by rw [← List.append_assoc]; exact follows_tail h5 t)
      (entryEnd_tail h6 t)
    simpa only [List.append_assoc, List.cons_append] using this

/-! ## The fields inserted -/

variable {F : Type}

/-- The text proposed as the value of a field: its default, or a text for its type. -/
def proposed (f : SchemaField F) : List Char := f.defaultValue.getD (placeholder f.schema)

/-- The field can be written as `name value`: its name is a bare word without dots, and the text
proposed is a way of writing the value. -/
def Writable (value : SchemaField F → Value) (f : SchemaField F) : Prop :=
  BareText f.name ∧ '.' ∉ f.name ∧ ∃ e, ValueText (value f) e (proposed f)

/-- The entry a field becomes. -/
def fieldRoot (value : SchemaField F → Value) (f : SchemaField F) : RootEntry :=
  ⟨[scalarValue f.name .bare], [f.name], value f, none⟩

theorem gap_commas {g : List Char} (hg : Gap false g) : Gap true g := by
  induction hg with
  | nil => exact .nil
  | blank h _ ih => exact .blank h ih
  | newline h _ ih => exact .newline h ih
  | comment h h' _ ih => exact .comment h h' ih
  | comma h => cases h

theorem gap_blanks : ∀ b : List Char, Blanks b → Gap true b
  | [], _ => .nil
  | c :: b, h => .blank (h c (by simp)) (gap_blanks b fun x hx => h x (by simp [hx]))

theorem follows_end (e : Tail) : Follows e [] := by
  induction e with
  | closed => trivial
  | word => exact .inl rfl
  | line => exact .inl rfl
  | attrs last ih => exact ⟨ih, [], [], rfl, by simp [Blanks], .inl (.inl rfl)⟩

theorem fieldsText_root {value : SchemaField F → Value} {ind tail : List Char} (hi : Blanks ind)
    (ht : NoFields tail) : ∀ fs : List (SchemaField F), (∀ f ∈ fs, Writable value f) →
    RootText (fs.map (fieldRoot value)) (fieldsText ind fs ++ tail)
  | [], _ => by
    rcases ht with rfl | ⟨g, rfl, hg⟩
    · exact .nil .nil
    · exact .nil (.newline (n := ['\n']) (.inl rfl) (gap_commas hg))
  | f :: fs, hw => by
    have ih := fieldsText_root (value := value) hi ht fs fun x hx => hw x (by simp [hx])
    obtain ⟨h1, h2, e, h3⟩ := hw f (by simp)
    have hgap : Gap true ('\n' :: ind) := .newline (n := ['\n']) (.inl rfl) (gap_blanks ind hi)
    have hne : f.name ≠ [] := by
      obtain ⟨_, c, r, h, _⟩ := h1
      rw [h]; simp
    have hkey : RootKeyText [scalarValue f.name .bare] [f.name] .word f.name :=
      RootKeyText.path (segs := [f.name]) (by simp) (by simpa using ⟨hne, h2⟩) h1
    have hrest : fieldsText ind fs ++ tail = [] ∨ ∃ r, fieldsText ind fs ++ tail = '\n' :: r := by
      cases fs with
      | nil => rcases ht with rfl | ⟨g, rfl, _⟩
               · exact .inl rfl
               · exact .inr ⟨g, rfl⟩
      | cons f' fs => exact .inr ⟨_, rfl⟩
    have hfol : Follows e ([] ++ (fieldsText ind fs ++ tail)) := by
      rw [List.nil_append]
      rcases hrest with h | ⟨r, h⟩
      · rw [h]; exact follows_end e
      · rw [h]; exact Cst.follows_newline e r
    have hend : EntryEnd [] (fieldsText ind fs ++ tail) := by
      rcases hrest with h | ⟨r, h⟩
      · rw [h, EntryEnd, if_pos rfl]; exact ⟨[], [], rfl, by simp [Blanks], .inl (.inl rfl)⟩
      · rw [h]; exact Cst.entryEnd_newline r
    have := RootText.cons hgap .nil hkey (b := [' ']) (by simp [Blanks, Blank]) (by simp) h3 .none ih hfol hend
    simpa [fieldsText, proposed, fieldRoot, docOf] using this

/-! ## The document after filling -/

theorem consistent_fresh (kind : SchemaField F → PathValueKind) : ∀ (fs : List (SchemaField F)) (h : History),
    Consistent h → (∀ x ∈ h, x.1 ≠ []) → (∀ f ∈ fs, ∀ x ∈ h, x.1 ≠ [f.name]) →
    (fs.map (·.name)).Pairwise (· ≠ ·) → Consistent (h ++ fs.map fun f => ([f.name], kind f))
  | [], h, hc, _, _, _ => by simpa using hc
  | f :: fs, h, hc, hne, hf, hd => by
    rw [List.map_cons, List.pairwise_cons] at hd
    have hc' : Consistent (h ++ [([f.name], kind f)]) := by
      rw [consistent_snoc]
      refine ⟨hc, ?_⟩
      rintro ⟨h0, last, k, rfl, h1 | ⟨⟨r, h1⟩, -⟩ | ⟨pre, k', h1, h2, -⟩⟩
      · exact hf f (by simp) (last, k) (by simp) h1.symm
      · match last, h1 with
        | [], _ => exact hne ([], k) (by simp) rfl
        | [x], h1 =>
          simp only [List.cons_append, List.nil_append, List.cons.injEq] at h1
          exact hf f (by simp) ([x], k) (by simp) (by rw [h1.1])
        | x :: y :: l, h1 => simp at h1
      · have := h2.length_le
        simp only [List.length_append, List.length_cons, List.length_nil] at this
        exact h1 (List.eq_nil_of_length_eq_zero (by omega))
    have := consistent_fresh kind fs _ hc' (by
        intro x hx
        rcases List.mem_append.1 hx with hx | hx
        · exact hne x hx
        · rw [List.mem_singleton.1 hx]; simp) (by
        intro g hg x hx
        rcases List.mem_append.1 hx with hx | hx
        · exact hf g (by simp [hg]) x hx
        · rw [List.mem_singleton.1 hx]
          have := hd.1 g.name (List.mem_map.2 ⟨g, hg, rfl⟩)
          simpa using this) hd.2
    simpa using this

theorem rootKey_names {ks : List Value} {path : List (List Char)} {e : Tail} {s : List Char}
    (h : RootKeyText ks path e s) : path ≠ [] ∧ ∀ n, path = [n] → BareText n → ∃ k, ks = [k] ∧ k.asStr = some n := by
  cases h with
  | path h1 _ _ =>
    refine ⟨h1, ?_⟩
    rintro n rfl _
    exact ⟨_, rfl, rfl⟩
  | @other k _ _ _ _ =>
    refine ⟨by simp, ?_⟩
    intro n hn hb
    refine ⟨k, rfl, ?_⟩
    have hn : keyName k = n := by simpa using hn
    obtain ⟨_, c, r, h1, h2, _⟩ := hb
    have hat : c ≠ '@' := fun h => h2 (by simp [h])
    obtain ⟨t, p, sp⟩ := k
    cases t with
    | some t =>
      rw [h1, keyName] at hn
      cases hn; exact absurd rfl hat
    | none =>
      rcases p with _ | ⟨_ | _ | _⟩
      · rw [h1, keyName] at hn
        · cases hn; exact absurd rfl hat
        · simp
      · rw [keyName] at hn; rw [← hn]; rfl
      · rw [h1, keyName] at hn
        · cases hn; exact absurd rfl hat
        · simp
      · rw [h1, keyName] at hn
        · cases hn; exact absurd rfl hat
        · simp

theorem rootText_names {es : List RootEntry} {s : List Char} (h : RootText es s) :
    ∀ e ∈ es, e.path ≠ [] ∧ ∀ n, e.path = [n] → BareText n → ∃ k, e.keys = [k] ∧ k.asStr = some n := by
  induction h with
  | nil => intro e he; simp at he
  | cons _ _ h2 _ _ _ _ _ _ _ ih =>
    intro e he
    rcases List.mem_cons.1 he with rfl | he
    · exact rootKey_names h2
    · exact ih e he
  | lone _ _ h2 _ _ _ _ ih =>
    intro e he
    rcases List.mem_cons.1 he with rfl | he
    · exact rootKey_names h2
    · exact ih e he

theorem asStr_erase (v : Value) : (erase v).asStr = v.asStr := by
  obtain ⟨t, p, sp⟩ := v
  cases t <;> rcases p with _ | ⟨_ | _ | _⟩ <;> rfl

theorem existingNames_erase : ∀ es : List Entry, existingNames (eraseEntries es) = existingNames es
  | [] => rfl
  | .mk k v d :: es => by
    have h := asStr_erase k
    have ih := existingNames_erase es
    unfold existingNames at ih ⊢
    rw [eraseEntries, List.filterMap_cons, List.filterMap_cons, ih]
    rw [show (Entry.mk (erase k) (erase v) d).key.asStr = (Entry.mk k v d).key.asStr from h]

theorem findObjectEntries_none (off : Nat) (path : List (List Char)) : ∀ es : List Entry,
    (∀ k y d, Entry.mk k y d ∈ es → y.asObject ≠ none → ¬ Touches off y.span) → findObjectEntries off path es = none
  | [], _ => by rw [findObjectEntries]
  | .mk k v d :: es, h => by
    have h1 : (if touches off v.span then v.asObject else none) = none := by
      by_cases h0 : v.asObject = none
      · simp [h0]
      · rw [touches_false.2 (h k v d (by simp) h0)]; rfl
    rw [findObjectEntries, h1]
    exact findObjectEntries_none off path es fun k' y d' hm => h k' y d' (by simp [hm])

theorem markedOptional_iff (s : Schema F) : (unwrapModifiers s).1 = true ↔ MarkedOptional s := by
  constructor
  · intro h
    match s, h with
    | .optional s, _ => exact .optional s
    | .default t s, h => exact .default t ((markedOptional_iff s).1 h)
    | .deprecated r s, h => exact .deprecated r ((markedOptional_iff s).1 h)
  · intro h
    induction h with
    | optional => rfl
    | default _ _ ih => exact ih
    | deprecated _ _ ih => exact ih

/-- **C80**, which fields are filled in, for every object schema and object: the fields that are declared by
name, not marked as optional, and not a key of the object. -/
theorem C80_missing (decl : List (ObjectKey × Schema F)) (es : List Entry) (n : List Char) :
    n ∈ (missingRequired (ownFields decl) (existingNames es)).map (·.name) ↔
      (∃ k s, (k, s) ∈ decl ∧ k.value = some n ∧ ¬ MarkedOptional s) ∧ ∀ e ∈ es, ¬ KeyIs e n := by
  simp only [missingRequired, List.mem_map, List.mem_filter, ownFields, List.mem_filterMap, Option.map_eq_some_iff,
    existingNames, Bool.and_eq_true, Bool.not_eq_true', List.contains_eq_mem, decide_eq_false_iff_not, not_exists,
    not_and, asStr_iff]
  constructor
  · rintro ⟨f, ⟨⟨⟨k, s⟩, hm, m, hk, rfl⟩, h1, h2⟩, rfl⟩
    refine ⟨⟨k, s, hm, hk, fun h => ?_⟩, h2⟩
    rw [(markedOptional_iff s).2 h] at h1
    cases h1
  · rintro ⟨⟨k, s, hm, hk, h1⟩, h2⟩
    refine ⟨_, ⟨⟨(k, s), hm, n, hk, rfl⟩, ?_, h2⟩, rfl⟩
    rw [← markedOptional_iff] at h1
    simpa using h1

/-- **C80** at the root, for documents without carriage returns whose last line of fields can be told from
a comment: with the cursor in no object below the root, filling in the missing required fields gives a document
with the former root entries followed by the missing fields, each with the value proposed. -/
theorem C80_root_partial (sf : SchemaFile F) (fuel : Nat) (decl : List (ObjectKey × Schema F))
    (hsf : lookup none sf = some (.object decl)) (hd : (decl.filterMap fun d => d.1.value).Pairwise (· ≠ ·))
    {es : List RootEntry} {pre last ind tail : List Char} (hs : RootText es (pre ++ last))
    (hc : Consistent (callsOf es)) (hl : LastLine pre last) (hf : FieldLine ind last) (ht : NoFields tail)
    (hr : '\r' ∉ pre ++ last ++ tail) {es' : List Entry}
    (hp : parseTree (pre ++ last ++ tail) = some (.ok (.mk none (some (.object es' none)) none))) (off : Nat)
    (hoff : ∀ k y d, Entry.mk k y d ∈ es' → y.asObject ≠ none → ¬ Touches off y.span)
    (value : SchemaField F → Value) (hw : ∀ f ∈ ownFields decl, Writable value f)
    (fs : List (SchemaField F)) (hfs : fs = missingRequired (ownFields decl) (existingNames es')) (hne : fs ≠ []) :
    ∃ e t, fillRequired sf (fuel + 1) (pre ++ last ++ tail) (.mk none (some (.object es' none)) none) off =
        .done (some e) ∧
      parseTree (applyEdit (pre ++ last ++ tail) e) = some (.ok t) ∧
      erase t = .mk none (some (.object (es.map RootEntry.tree ++
        fs.map fun f => .mk (scalarValue f.name .bare) (value f) none) none)) none := by
  have hpl : pre ++ last ++ tail = pre ++ (last ++ tail) := List.append_assoc ..
  have hsub : ∀ f ∈ fs, f ∈ ownFields decl := fun f h => by
    rw [hfs] at h; exact (List.mem_filter.1 h).1
  -- the entries of the tree
  have htail : RootText [] tail := by
    rcases ht with rfl | ⟨g, rfl, hg⟩
    · exact .nil .nil
    · exact .nil (.newline (n := ['\n']) (.inl rfl) (gap_commas hg))
  have hdoc : RootText es (pre ++ last ++ tail) := by
    rcases ht with rfl | ⟨g, rfl, hg⟩
    · simpa using hs
    · have := rootText_append hs htail
      simpa using this
  obtain ⟨t0, h1, h2⟩ := C47_document hdoc hc
  rw [hp] at h1
  cases h1
  have h3 : eraseEntries es' = es.map RootEntry.tree := by
    simpa [erase, erasePayload] using h2
  have hex : existingNames es' = existingNames (es.map RootEntry.tree) := by
    rw [← h3, existingNames_erase]
  -- no conflicts
  have hcons : Consistent (callsOf (es ++ fs.map (fieldRoot value))) := by
    have hn := rootText_names hs
    have := consistent_fresh (fun f => pathKind (value f)) fs (callsOf es) hc (by
        intro x hx
        obtain ⟨e, he, rfl⟩ := List.mem_map.1 hx
        exact (hn e he).1) (by
        intro f hf' x hx he
        obtain ⟨e, hm, rfl⟩ := List.mem_map.1 hx
        obtain ⟨k, hk1, hk2⟩ := (hn e hm).2 f.name he (hw f (hsub f hf')).1
        rw [hfs] at hf'
        have hnot : f.name ∉ existingNames es' := by
          have := (List.mem_filter.1 hf').2
          simp only [Bool.and_eq_true, Bool.not_eq_true', List.contains_eq_mem, decide_eq_false_iff_not] at this
          exact this.2
        apply hnot
        rw [hex]
        refine List.mem_filterMap.2 ⟨e.tree, List.mem_map.2 ⟨e, hm, rfl⟩, ?_⟩
        rw [RootEntry.tree, hk1]
        exact hk2) (by
        have hsl : (fs.map (·.name)).Sublist (decl.filterMap fun d => d.1.value) := by
          rw [hfs, missingRequired]
          refine (List.filter_sublist.map _).trans ?_
          rw [ownFields, List.map_filterMap]
          simp only [Option.map_map, Function.comp_def]
          simp
        exact hd.sublist hsl)
    simpa [callsOf, fieldRoot, Function.comp_def] using this
  obtain ⟨c0, r0, _, hbl, _⟩ := id hf
  have hnew := fieldsText_root (value := value) hbl ht fs fun f h => hw f (hsub f h)
  have hall : RootText (es ++ fs.map (fieldRoot value)) (pre ++ last ++ (fieldsText ind fs ++ tail)) := by
    cases fs with
    | nil => exact absurd rfl hne
    | cons f fs => exact rootText_append hs hnew
  obtain ⟨t, h4, h5⟩ := C47_document hall hcons
  refine ⟨fillEdit (findInsert (pre ++ (last ++ tail))) fs, t, ?_, ?_, ?_⟩
  · have ho : findObject off [] (.mk none (some (.object es' none)) none) = some ⟨[], es', none⟩ := by
      rw [findObject, findObjectEntries_none off [] es' hoff]; rfl
    have hfa : fieldsAtPath sf (fuel + 1) [] = .done (ownFields decl) := by
      simp [fieldsAtPath, schemaAtPath, hsf, schemaAt, Outcome.bind, resolveType, collectFields]
    rw [fillRequired, ho]
    simp only [hfa, Outcome.bind, insertInfo, ← hfs, hpl]
    rw [if_neg]
    simpa using hne
  · rw [hpl, applyEdit_root hl hf ht (by rw [← hpl]; exact hr), List.append_assoc]
    exact h4
  · rw [h5]
    simp [fieldRoot, RootEntry.tree, nestKeys, Function.comp_def]

theorem ascii_units {c : Char} (hc : c.utf8Size = 1) : utf16Units c = 1 := by
  have hsz : c.utf8Size = if c.val ≤ 0x7f then 1 else if c.val ≤ 0x7ff then 2 else if c.val ≤ 0xffff then 3 else 4 := rfl
  unfold utf16Units
  split
  · rfl
  · rename_i hge
    exfalso
    have h1 : c.val.toNat = c.toNat := rfl
    simp only [UInt32.le_iff_toNat_le, h1] at hsz
    have e1 : (127 : UInt32).toNat = 127 := rfl
    have e2 : (2047 : UInt32).toNat = 2047 := rfl
    have e3 : (65535 : UInt32).toNat = 65535 := rfl
    rw [e1, e2, e3, if_neg (by omega), if_neg (by omega), if_neg (by omega), hc] at hsz
    cases hsz

theorem ascii_length {l : List Char} (h : ∀ c ∈ l, c.utf8Size = 1) : utf8Len l = l.length := by
  induction l with
  | nil => rfl
  | cons c l ih =>
    rw [utf8Len, h c (by simp), ih fun x hx => h x (by simp [hx]), List.length_cons]; omega

/-- **C80** is false of every object below the root, for documents of ASCII characters without carriage
returns: when the last line of the text of the object can be told from a comment (it has the closing brace),
the fields are inserted directly behind the text of the object. -/
theorem C80_nested_false (sf : SchemaFile F) (fuel : Nat) (v : Value) (off : Nat) (ctx : ObjectContext) (sp : Span)
    (before pre last ind after : List Char) (e : TextEdit)
    (ha : ∀ c ∈ before ++ (pre ++ last) ++ after, c ≠ '\r' ∧ c.utf8Size = 1)
    (hctx : findObject off [] v = some ctx) (hsp : ctx.span = some sp) (h1 : sp.start = utf8Len before)
    (h2 : sp.stop = utf8Len (before ++ (pre ++ last))) (hl : LastLine pre last) (hf : FieldLine ind last)
    (he : fillRequired sf fuel (before ++ (pre ++ last) ++ after) v off = .done (some e)) :
    applyEdit (before ++ (pre ++ last) ++ after) e = before ++ (pre ++ last) ++ e.newText ++ after := by
  have htk : Styx.takeBytes sp.stop (before ++ (pre ++ last) ++ after) = some (before ++ (pre ++ last)) := by
    rw [h2]; exact takeBytes_app _ _
  have hdr : Styx.dropBytes sp.start (before ++ (pre ++ last)) = some (pre ++ last) := by
    rw [h1]; exact dropBytes_app _ _
  have hins := findInsert_line hl hf (tail := []) (.inl rfl) fun h => by
    rw [List.append_nil] at h
    exact (ha '\r' (by simp [h])).1 rfl
  rw [List.append_nil] at hins
  have hlen : utf8Len last = last.length := ascii_length fun c hc => (ha c (by simp [hc])).2
  have hpos : offsetToPosition (before ++ (pre ++ last) ++ after) sp.start = Lsp.advance ⟨0, 0⟩ before := by
    rw [h1, List.append_assoc]; exact offsetToPosition_eq _ _
  have hend : offsetToPosition (before ++ (pre ++ last) ++ after) (utf8Len (before ++ (pre ++ last))) =
      ⟨(Lsp.advance ⟨0, 0⟩ before).line + pre.count '\n',
        if pre.count '\n' = 0 then (Lsp.advance ⟨0, 0⟩ before).character + last.length else last.length⟩ := by
    rw [offsetToPosition_eq, advance_append, advance_append, advance_noNl last hl.2]
    rcases hl.1 with rfl | ⟨p, rfl⟩
    · simp [Lsp.advance]
    · have h3 := advance_line (p ++ ['\n']) (Lsp.advance ⟨0, 0⟩ before)
      have h4 : (Lsp.advance (Lsp.advance ⟨0, 0⟩ before) (p ++ ['\n'])).character = 0 := by
        rw [advance_append]; simp [Lsp.advance, Lsp.step]
      rw [h3, h4]
      simp
  rw [fillRequired, hctx] at he
  simp only [insertInfo, hsp, htk, hdr, Option.bind_some, Option.map_some, hpos, hins, hlen] at he
  cases hfa : fieldsAtPath sf fuel ctx.path with
  | panics => rw [hfa] at he; cases he
  | runsOut => rw [hfa] at he; cases he
  | done fields =>
    rw [hfa, Outcome.bind] at he
    split at he
    · cases he
    · simp only [Outcome.done.injEq, Option.some.injEq] at he
      subst he
      refine applyEdit_insert _ rfl ?_
      rw [← hend]
      exact C51_send_partial _ _ fun c hc => ⟨(ha c hc).1, ascii_units (ha c hc).2⟩

/-! ## Cases -/

/-- A schema with two required fields, `a` with a field `b` and a field `c`, and `d`. -/
def twoFields : SchemaFile Nat :=
  [(none, .object [(.named ['a'], .object [(.named ['b'], .int none), (.named ['c'], .int none)]),
    (.named ['d'], .int none)])]

/-- The keys of the root of a document. -/
def rootKeys (source : List Char) : Option (List (Option (List Char))) :=
  match parseTree source with
  | some (.ok v) => v.asObject.map fun es => es.map fun e => e.key.asStr
  | _ => none

/-- The document after filling in the required fields. -/
def filled (sf : SchemaFile Nat) (source : List Char) (off : Nat) : Option (List Char) :=
  match parseTree source with
  | some (.ok v) => match fillRequired sf 9 source v off with
    | .done (some e) => some (applyEdit source e)
    | _ => none
  | _ => none

/-- The cursor is in the object of `a`, where `c` is missing: `c` is inserted behind the object and becomes
a field of the root. -/
theorem C80_object_false : filled twoFields (chars! "a {\n  b 1\n}\n") 6 = some (chars! "a {\n  b 1\n}\nc 0\n") ∧
    rootKeys (chars! "a {\n  b 1\n}\nc 0\n") = some [some ['a'], some ['c']] := by
  decide +kernel

/-- **C80** is false for a root in braces: the field is inserted behind the brace, and the document no longer
parses. -/
theorem C80_braces_false : filled twoFields (chars! "{a {b 1}}") 1 = some (chars! "{a {b 1}}\nd 0") ∧
    rootKeys (chars! "{a {b 1}}\nd 0") = none := by
  decide +kernel

/-- **C80** is false for a string over lines whose last line begins with two slashes: the field is inserted into
the string. -/
theorem C80_string_false : filled twoFields (chars! "a \"x\n// y\"") 0 = some (chars! "a \"x\nd 0\n// y\"") ∧
    rootKeys (chars! "a \"x\nd 0\n// y\"") = some [some ['a']] := by
  decide +kernel

/-- **C80** is false for dotted keys: with the cursor on the key, the field is inserted between the key and its
value, and the document no longer parses. -/
theorem C80_dotted_false : filled twoFields (chars! "a.b 1") 1 = some (chars! "a.b\nc 0 1") ∧
    rootKeys (chars! "a.b\nc 0 1") = none := by
  decide +kernel

/-- **C80** is false for names that are not bare words: the name is inserted without quotes, and the document no
longer parses. -/
theorem C80_name_false :
    filled [(none, .object [(.named (chars! "x y"), .int none)])] (chars! "a 1") 0 = some (chars! "a 1\nx y 0") ∧
    rootKeys (chars! "a 1\nx y 0") = none := by
  decide +kernel

/-- **C80** is false for dotted names: the field declared as `x.y` becomes a field `x`. -/
theorem C80_name_dotted_false :
    filled [(none, .object [(.named (chars! "x.y"), .int none)])] (chars! "a 1") 0 = some (chars! "a 1\nx.y 0") ∧
    rootKeys (chars! "a 1\nx.y 0") = some [some ['a'], some ['x']] := by
  decide +kernel

/-- The hypotheses of `C80_root_partial` can be met: an indented document with a comment behind the last
field. -/
example : filled twoFields (chars! "  a {b 1}\n\n // end\n") 0 =
    some (chars! "  a {b 1}\n  d 0\n\n // end\n") := by
  decide +kernel

example : ∃ (pre last ind tail : List Char), pre ++ last ++ tail = chars! "x 1\n  a 2\n\n // end\n" ∧ LastLine pre last ∧
    FieldLine ind last ∧ NoFields tail ∧ '\r' ∉ pre ++ last ++ tail :=
  ⟨chars! "x 1\n", chars! "  a 2", [' ', ' '], chars! "\n\n // end\n", rfl,
    ⟨.inr ⟨['x', ' ', '1'], rfl⟩, by decide⟩, ⟨'a', [' ', '2'], rfl, by simp [Blanks, Blank], by decide, by decide, by decide⟩,
    .inr ⟨chars! "\n // end\n", rfl, .newline (n := ['\n']) (.inl rfl) (.blank (.inl rfl)
      (.comment (t := chars! "// end") (n := ['\n']) ⟨chars! " end", rfl, by decide, by decide⟩ (.inl rfl) .nil))⟩, by decide⟩

end Styx.Props
