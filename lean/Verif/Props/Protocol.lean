import Verif.Lsp.ProtocolLemmas
import Verif.Props.Lsp

/-! # Property theorems C118, C119, C120: what the server carries between extensions and the editor -/

namespace Styx.Props

open Styx Styx.Spec Styx.Lsp Styx.Lsp.Protocol

/-! ## C118: a diagnostic of an extension comes back to it -/

theorem positionLoop_boundary (p : Position) (s : List Char) : ∀ (i : Nat) (q : Position),
    ∃ before after, s = before ++ after ∧ positionLoop p s i q = i + utf8Len before := by
  induction s with
  | nil => intro i q; exact ⟨[], [], rfl, by simp [positionLoop, utf8Len]⟩
  | cons c cs ih =>
    intro i q
    have here : ∃ before after, c :: cs = before ++ after ∧ i = i + utf8Len before := ⟨[], c :: cs, rfl, by simp [utf8Len]⟩
    have there : ∀ q', ∃ before after, c :: cs = before ++ after ∧
        positionLoop p cs (i + c.utf8Size) q' = i + utf8Len before := by
      intro q'
      obtain ⟨b, a, rfl, h⟩ := ih (i + c.utf8Size) q'
      exact ⟨c :: b, a, rfl, by rw [h]; simp only [utf8Len]; omega⟩
    rw [positionLoop]
    split
    · exact here
    · split
      · split
        · exact here
        · exact there _
      · exact there _

/-- Converting an offset to a position and back gives the offset exactly at the boundaries of characters. -/
theorem roundTrip_iff (s : List Char) (offset : Nat) :
    positionToOffset s (offsetToPosition s offset) = offset ↔ Boundary s offset := by
  constructor
  · intro h
    obtain ⟨b, a, hs, hp⟩ := positionLoop_boundary (offsetToPosition s offset) s 0 ⟨0, 0⟩
    refine ⟨b, a, hs, ?_⟩
    rw [positionToOffset] at h
    omega
  · rintro ⟨b, a, rfl, rfl⟩
    exact C39 b a

/-- The diagnostic that comes back is the one that was sent: all its fields are equal, its data says the
same. -/
def SameDiagnostic (d d' : ExtDiagnostic) : Prop :=
  d.start = d'.start ∧ d.stop = d'.stop ∧ d.severity = d'.severity ∧ d.message = d'.message ∧
    d.source = d'.source ∧ d.code = d'.code ∧
    match d.data, d'.data with
    | none, none => True
    | some v, some v' => Same v v'
    | _, _ => False

/-- **C118** is false: data with a tag comes back without it, data that is a tagged text comes back as the
unit value, and entries whose key is a tag do not come back. -/
theorem C118_false (L : Lib) : ∃ tagged tagged' keyed,
    ofJson L (Protocol.toJson L tagged) = .mk none (some (.sequence [] none)) none ∧ tagged.tagName = some ['t'] ∧
    ofJson L (Protocol.toJson L tagged') = Value.unit ∧ tagged'.scalarText = some ['x'] ∧
    ofJson L (Protocol.toJson L keyed) = .mk none (some (.object [] none)) none ∧
    keyed.payload = some (.object [.mk (Value.ofTag ['t']) (Value.scalar ['x']) none] none) :=
  ⟨.mk (some ⟨['t'], none⟩) (some (.sequence [] none)) none, .mk (some ⟨['t'], none⟩) (some (.scalar ['x'] .bare none)) none,
    .mk none (some (.object [.mk (Value.ofTag ['t']) (Value.scalar ['x']) none] none)) none,
    by simp [Protocol.toJson, ofJson, toItems, ofItems], rfl,
    by simp [Protocol.toJson, ofJson], rfl,
    by simp [Protocol.toJson, ofJson, toMembers, ofMembers, Value.ofTag, Value.asStr], rfl⟩

/-- **C118**, exactly: for every document and every diagnostic, what the extension gets back when actions
for the diagnostic are requested is the diagnostic if and only if its span begins and ends between
characters and its data is plain. -/
theorem C118_partial (L : Lib) (content : List Char) (d : ExtDiagnostic) :
    SameDiagnostic d (handBack L content (publish L content d)) ↔
      Boundary content d.start ∧ Boundary content d.stop ∧ ∀ v, d.data = some v → Plain v := by
  obtain ⟨start, stop, sev, msg, src, code, data⟩ := d
  have hsev : Severity.ofEditor (some sev.toEditor) = sev := by cases sev <;> rfl
  have hcode : (code.map NumberOrString.string).map codeText = code := by cases code <;> rfl
  have hdata : (match data, (data.map (Protocol.toJson L)).map (ofJson L) with
      | none, none => True
      | some v, some v' => Same v v'
      | _, _ => False) ↔ ∀ v, data = some v → Plain v := by
    cases data with
    | none => simp
    | some v =>
      constructor
      · rintro h w ⟨⟩
        exact plain_of_same L v h
      · intro h
        exact same_of_plain L v (h v rfl)
  rw [← roundTrip_iff, ← roundTrip_iff, ← hdata]
  unfold SameDiagnostic handBack publish
  simp only [hsev, hcode, true_and]
  constructor
  · rintro ⟨h1, h2, h3⟩
    exact ⟨h1.symm, h2.symm, h3⟩
  · rintro ⟨h1, h2, h3⟩
    exact ⟨h1.symm, h2.symm, h3⟩

/-- The conditions are met: a warning on the word `é` with an object as its data. -/
example (L : Lib) : SameDiagnostic
    ⟨2, 4, .warning, chars! "m", none, some (chars! "c"), some (.mk none (some (.object
      [.mk (Value.scalar (chars! "z")) (Value.seq [Value.scalar (chars! "1"), Value.unit]) none,
       .mk (.mk none (some (.scalar (chars! "a") .quoted none)) none) Value.unit none] none)) none)⟩
    (handBack L (chars! "k é") (publish L (chars! "k é")
    ⟨2, 4, .warning, chars! "m", none, some (chars! "c"), some (.mk none (some (.object
      [.mk (Value.scalar (chars! "z")) (Value.seq [Value.scalar (chars! "1"), Value.unit]) none,
       .mk (.mk none (some (.scalar (chars! "a") .quoted none)) none) Value.unit none] none)) none)⟩)) := by
  rw [C118_partial]
  refine ⟨⟨chars! "k ", chars! "é", rfl, by decide⟩, ⟨chars! "k é", [], rfl, by decide⟩, ?_⟩
  rintro v ⟨⟩
  refine .object ?_ ?_ ?_
  · simp [Value.scalar, Value.asStr, Entry.key]
  · decide
  · simp only [List.mem_cons, List.not_mem_nil, or_false, forall_eq_or_imp, forall_eq]
    refine ⟨.sequence ?_, .unit⟩
    simp only [List.mem_cons, List.not_mem_nil, or_false, forall_eq_or_imp, forall_eq]
    exact ⟨.scalar, .unit⟩

/-! ## C119: the edits of an action of an extension -/

theorem mem_mapInsert_self {K V : Type} [DecidableEq K] (k : K) (v : V) : ∀ (m : List (K × V)),
    (k, v) ∈ mapInsert k v m
  | [] => by simp [mapInsert]
  | (k', v') :: m => by
    rw [mapInsert]
    split
    · simp
    · exact List.mem_cons_of_mem _ (mem_mapInsert_self k v m)

theorem mem_mapInsert_other {K V : Type} [DecidableEq K] {k k' : K} {v v' : V} (hk : k' ≠ k) :
    ∀ {m : List (K × V)}, (k', v') ∈ m → (k', v') ∈ mapInsert k v m
  | [], h => by simp at h
  | (k'', v'') :: m, h => by
    rw [mapInsert]
    rcases List.mem_cons.1 h with h | h
    · cases h
      rw [if_neg hk]
      simp
    · split
      · exact List.mem_cons_of_mem _ h
      · exact List.mem_cons_of_mem _ (mem_mapInsert_other hk h)

theorem mapInsert_keys {K V : Type} [DecidableEq K] {k : K} {v : V} {x : K} : ∀ {m : List (K × V)},
    x ∈ (mapInsert k v m).map Prod.fst ↔ x = k ∨ x ∈ m.map Prod.fst
  | [] => by simp [mapInsert]
  | (k'', v'') :: m => by
    rw [mapInsert]
    split
    · rename_i h; subst h; simp
    · rw [List.map_cons, List.mem_cons, mapInsert_keys, List.map_cons, List.mem_cons]
      grind

theorem mapInsert_nodup {K V : Type} [DecidableEq K] {k : K} {v : V} : ∀ {m : List (K × V)},
    (m.map Prod.fst).Nodup → ((mapInsert k v m).map Prod.fst).Nodup
  | [], _ => by simp [mapInsert]
  | (k'', v'') :: m, h => by
    rw [List.map_cons, List.nodup_cons] at h
    rw [mapInsert]
    split
    · rename_i he
      rw [List.map_cons, List.nodup_cons]
      exact ⟨he ▸ h.1, h.2⟩
    · rename_i he
      rw [List.map_cons, List.nodup_cons]
      refine ⟨?_, mapInsert_nodup h.2⟩
      rw [mapInsert_keys]
      rintro (e | e)
      · exact he e
      · exact h.1 e

/-- The text of a document that is open; `uri` is the document the action is for. -/
def openText {U : Type} [DecidableEq U] (docs : U → Option (List Char)) (uri : U) (content : List Char) (u : U) :
    Option (List Char) := if u = uri then some content else docs u

section
variable {U : Type} [DecidableEq U] (parseUrl : List Char → Option U) (docs : U → Option (List Char)) (uri : U)
  (content : List Char)

theorem toChanges_step {d : ExtDocEdit} {u : U} {t : List Char} (hu : parseUrl d.uri = some u)
    (ht : openText docs uri content u = some t) (ds : List ExtDocEdit) (m : List (U × List TextEdit)) :
    toChanges parseUrl docs uri content (d :: ds) m =
      toChanges parseUrl docs uri content ds (mapInsert u (toEdits t d.edits) m) := by
  rw [toChanges]
  simp only [hu, Option.getD_some]
  unfold openText at ht
  split
  · rename_i h
    rw [if_pos h] at ht
    cases ht
    rfl
  · rename_i h
    rw [if_neg h] at ht
    rw [ht]

theorem toChanges_keep {u : U} {ts : List TextEdit} : ∀ (ds : List ExtDocEdit) (m : List (U × List TextEdit)),
    (∀ d ∈ ds, ∃ u' t, parseUrl d.uri = some u' ∧ openText docs uri content u' = some t ∧ u' ≠ u) →
    (u, ts) ∈ m → (u, ts) ∈ toChanges parseUrl docs uri content ds m
  | [], _, _, h => by rw [toChanges]; exact h
  | d :: ds, m, hd, h => by
    obtain ⟨u', t, hu, ht, hne⟩ := hd d (by simp)
    rw [toChanges_step parseUrl docs uri content hu ht]
    exact toChanges_keep ds _ (fun d hm => hd d (by simp [hm])) (mem_mapInsert_other (fun e => hne e.symm) h)

theorem toChanges_mem : ∀ (ds : List ExtDocEdit) (m : List (U × List TextEdit)),
    (∀ d ∈ ds, ∃ u t, parseUrl d.uri = some u ∧ openText docs uri content u = some t) →
    (ds.map fun d => parseUrl d.uri).Nodup → ∀ d ∈ ds, ∀ u t, parseUrl d.uri = some u →
      openText docs uri content u = some t →
      (u, toEdits t d.edits) ∈ toChanges parseUrl docs uri content ds m
  | [], _, _, _ => by simp
  | d :: ds, m, hd, hn => by
    intro d' hd' u t hu ht
    rw [List.map_cons, List.nodup_cons] at hn
    obtain ⟨u0, t0, hu0, ht0⟩ := hd d (by simp)
    rw [toChanges_step parseUrl docs uri content hu0 ht0]
    rcases List.mem_cons.1 hd' with rfl | hm
    · rw [hu0] at hu
      cases hu
      rw [ht0] at ht
      cases ht
      refine toChanges_keep parseUrl docs uri content ds _ ?_ (mem_mapInsert_self _ _ _)
      intro d hm
      obtain ⟨u', t', hu', ht'⟩ := hd d (by simp [hm])
      refine ⟨u', t', hu', ht', ?_⟩
      rintro rfl
      exact hn.1 (List.mem_map.2 ⟨d, hm, hu'.trans hu0.symm⟩)
    · exact toChanges_mem ds _ (fun d hm => hd d (by simp [hm])) hn.2 d' hm u t hu ht

theorem toChanges_keys {u : U} : ∀ (ds : List ExtDocEdit) (m : List (U × List TextEdit)),
    u ∈ (toChanges parseUrl docs uri content ds m).map Prod.fst →
      u ∈ m.map Prod.fst ∨ ∃ d ∈ ds, (parseUrl d.uri).getD uri = u
  | [], _, h => by rw [toChanges] at h; exact .inl h
  | d :: ds, m, h => by
    have more : ∀ v, u ∈ (toChanges parseUrl docs uri content ds
        (mapInsert ((parseUrl d.uri).getD uri) v m)).map Prod.fst →
        u ∈ m.map Prod.fst ∨ ∃ d' ∈ d :: ds, (parseUrl d'.uri).getD uri = u := by
      intro v h
      rcases toChanges_keys ds _ h with h | ⟨d', hd', h⟩
      · rcases mapInsert_keys.1 h with rfl | h
        · exact .inr ⟨d, by simp, rfl⟩
        · exact .inl h
      · exact .inr ⟨d', by simp [hd'], h⟩
    rw [toChanges] at h
    split at h
    · exact more _ h
    · split at h
      · exact more _ h
      · rcases toChanges_keys ds _ h with h | ⟨d', hd', h⟩
        · exact .inl h
        · exact .inr ⟨d', by simp [hd'], h⟩

theorem toChanges_nodup : ∀ (ds : List ExtDocEdit) (m : List (U × List TextEdit)), (m.map Prod.fst).Nodup →
    ((toChanges parseUrl docs uri content ds m).map Prod.fst).Nodup
  | [], _, h => by rw [toChanges]; exact h
  | d :: ds, m, h => by
    rw [toChanges]
    split
    · exact toChanges_nodup ds _ (mapInsert_nodup h)
    · split
      · exact toChanges_nodup ds _ (mapInsert_nodup h)
      · exact toChanges_nodup ds _ h

end

theorem delivers_of_fits {s : List Char} (hs : ∀ c ∈ s, c ≠ '\r' ∧ utf16Units c = 1) {start stop : Nat}
    (h : Fits s start stop) (newText : List Char) :
    Delivers s start stop newText ⟨offsetToPosition s start, offsetToPosition s stop, newText⟩ := by
  obtain ⟨before, replaced, after, rfl, rfl, rfl⟩ := h
  refine ⟨before, replaced, after, rfl, rfl, rfl, ?_⟩
  have h1 := C51_send_partial before (replaced ++ after) (by simpa using hs)
  have h2 := C51_send_partial (before ++ replaced) after hs
  rw [← List.append_assoc] at h1
  unfold applyEdit
  rw [h1, h2]
  congr 2
  have : (before ++ replaced ++ after).length - (replaced ++ after).length = before.length := by
    simp only [List.length_append]; omega
  rw [this, List.append_assoc, List.take_left']
  rfl

/-- A URL in the examples: a text that starts with `f`. -/
def exampleUrl (s : List Char) : Option (List Char) := if s.head? = some 'f' then some s else none

/-- **C119** is false in three ways: of two lists of edits for the same document the first is lost; edits
for something that is not a URL change the document the action is for; edits for a document that is not
open are left out while the others are carried out. -/
theorem C119_false (content : List Char) (a b : ExtEdit) :
    changes exampleUrl (fun _ => none) (chars! "f:x") content
      [⟨chars! "f:x", [a]⟩, ⟨chars! "f:x", [b]⟩] = [(chars! "f:x", toEdits content [b])] ∧
    changes exampleUrl (fun _ => none) (chars! "f:x") content [⟨chars! "other.styx", [a]⟩] =
      [(chars! "f:x", toEdits content [a])] ∧
    changes exampleUrl (fun _ => none) (chars! "f:x") content
      [⟨chars! "f:y", [a]⟩, ⟨chars! "f:x", [b]⟩] = [(chars! "f:x", toEdits content [b])] := by
  refine ⟨?_, ?_, ?_⟩ <;> simp [changes, toChanges, exampleUrl, mapInsert]

/-- **C119**, for an action whose lists of edits are for different documents, all open, with URLs, without
carriage returns and with characters of one UTF-16 unit, and whose spans begin and end between characters:
for each document the editor gets each edit, in order, and carried out on the document it does what the
extension asked for; the editor gets edits for no other document, and only one list for each. -/
theorem C119_partial {U : Type} [DecidableEq U] (parseUrl : List Char → Option U)
    (docs : U → Option (List Char)) (uri : U) (content : List Char) (ds : List ExtDocEdit)
    (known : ∀ d ∈ ds, ∃ u t, parseUrl d.uri = some u ∧ openText docs uri content u = some t ∧
      (∀ c ∈ t, c ≠ '\r' ∧ utf16Units c = 1) ∧ ∀ e ∈ d.edits, Fits t e.start e.stop)
    (distinct : (ds.map fun d => parseUrl d.uri).Nodup) :
    (∀ d ∈ ds, ∀ u t, parseUrl d.uri = some u → openText docs uri content u = some t →
      ∃ ts, (u, ts) ∈ changes parseUrl docs uri content ds ∧ ts.length = d.edits.length ∧
        ∀ (i : Nat) (e : ExtEdit), d.edits[i]? = some e →
          ∃ x, ts[i]? = some x ∧ Delivers t e.start e.stop e.newText x) ∧
    (∀ u ∈ (changes parseUrl docs uri content ds).map Prod.fst, ∃ d ∈ ds, parseUrl d.uri = some u) ∧
    ((changes parseUrl docs uri content ds).map Prod.fst).Nodup := by
  refine ⟨?_, ?_, toChanges_nodup _ _ _ _ _ _ (by simp)⟩
  · intro d hd u t hu ht
    refine ⟨toEdits t d.edits, ?_, by simp [toEdits], ?_⟩
    · refine toChanges_mem parseUrl docs uri content ds [] ?_ distinct d hd u t hu ht
      intro d hd
      obtain ⟨u, t, h1, h2, _⟩ := known d hd
      exact ⟨u, t, h1, h2⟩
    · intro i e he
      obtain ⟨u', t', h1, h2, h3, h4⟩ := known d hd
      rw [hu] at h1
      cases h1
      rw [ht] at h2
      cases h2
      refine ⟨_, by rw [toEdits, List.getElem?_map, he]; rfl, ?_⟩
      exact delivers_of_fits h3 (h4 e (List.mem_of_getElem? he)) e.newText
  · intro u hu
    rcases toChanges_keys parseUrl docs uri content ds [] hu with h | ⟨d, hd, h⟩
    · simp at h
    · obtain ⟨u', _, h1, _⟩ := known d hd
      refine ⟨d, hd, ?_⟩
      rw [h1, Option.getD_some] at h
      rw [h1, h]

/-- **C119**, without conditions: the editor gets at most one list of edits for each document, and only for
documents that the action names or, when it names something that is not a URL, for its own. -/
theorem C119_documents {U : Type} [DecidableEq U] (parseUrl : List Char → Option U)
    (docs : U → Option (List Char)) (uri : U) (content : List Char) (ds : List ExtDocEdit) :
    ((changes parseUrl docs uri content ds).map Prod.fst).Nodup ∧
    ∀ u ∈ (changes parseUrl docs uri content ds).map Prod.fst, ∃ d ∈ ds,
      parseUrl d.uri = some u ∨ (parseUrl d.uri = none ∧ u = uri) := by
  refine ⟨toChanges_nodup _ _ _ _ _ _ (by simp), ?_⟩
  intro u hu
  rcases toChanges_keys parseUrl docs uri content ds [] hu with h | ⟨d, hd, h⟩
  · simp at h
  · refine ⟨d, hd, ?_⟩
    cases hp : parseUrl d.uri with
    | none => rw [hp] at h; exact .inr ⟨rfl, h.symm⟩
    | some u' => rw [hp] at h; exact .inl (by rw [← h]; rfl)

/-- The conditions are met: edits of the document of the action and of another one. -/
example : (∀ d ∈ ([⟨chars! "f:x", [⟨2, 3, chars! "new"⟩, ⟨4, 4, ['y']⟩]⟩, ⟨chars! "f:y", [⟨0, 1, []⟩]⟩] : List ExtDocEdit),
      ∃ u t, exampleUrl d.uri = some u ∧
        openText (fun u => if u = chars! "f:y" then some (chars! "b 2") else none) (chars! "f:x") (chars! "a 1\n") u = some t ∧
        (∀ c ∈ t, c ≠ '\r' ∧ utf16Units c = 1) ∧ ∀ e ∈ d.edits, Fits t e.start e.stop) ∧
    (([⟨chars! "f:x", [⟨2, 3, chars! "new"⟩, ⟨4, 4, ['y']⟩]⟩, ⟨chars! "f:y", [⟨0, 1, []⟩]⟩] : List ExtDocEdit).map
      fun d => exampleUrl d.uri).Nodup := by
  refine ⟨?_, by decide⟩
  simp only [List.mem_cons, List.not_mem_nil, or_false, forall_eq_or_imp, forall_eq]
  refine ⟨⟨chars! "f:x", chars! "a 1\n", rfl, rfl, by decide,
      ⟨chars! "a ", chars! "1", chars! "\n", rfl, rfl, rfl⟩, ⟨chars! "a 1\n", [], [], rfl, rfl, rfl⟩⟩,
    ⟨chars! "f:y", chars! "b 2", rfl, rfl, by decide, ⟨[], chars! "b", chars! " 2", rfl, rfl, rfl⟩⟩⟩

/-! ## C120: the hints of an extension -/

/-- The number of UTF-16 units of a text. -/
def utf16Len (s : List Char) : Nat := (s.map utf16Units).sum

theorem utf16Units_le (c : Char) : utf16Units c ≤ c.utf8Size ∧ 1 ≤ utf16Units c ∧
    (utf16Units c = c.utf8Size ↔ c.utf8Size = 1) := by
  have hv : c.toNat = c.val.toNat := rfl
  unfold utf16Units Char.utf8Size
  simp only [UInt32.le_iff_toNat_le, hv]
  repeat' split
  all_goals first | omega | simp_all
  all_goals omega

theorem fromColumn_line (l r : List Char) (hl : '\n' ∉ l ∧ '\r' ∉ l) : ∀ k,
    fromColumn (utf16Len l + k) (l ++ r) = fromColumn k r := by
  induction l with
  | nil => intro k; simp [utf16Len]
  | cons c l ih =>
    intro k
    simp only [List.mem_cons, not_or] at hl
    have h1 := (utf16Units_le c).2.1
    have h2 : utf16Len (c :: l) = utf16Units c + utf16Len l := by simp [utf16Len]
    rw [List.cons_append, fromColumn, if_neg, h2]
    · have : utf16Units c + utf16Len l + k - utf16Units c = utf16Len l + k := by omega
      rw [this]
      exact ih ⟨hl.1.2, hl.2.2⟩ k
    · rw [h2]
      rintro (h | h | h)
      · omega
      · exact hl.1.1 h.symm
      · exact hl.2.1 h.symm

theorem fromLine_lines : ∀ (n : Nat) (a r : List Char), (a = [] ∨ a.getLast? = some '\n') → '\r' ∉ a →
    a.count '\n' = n → fromLine n (a ++ r) = r
  | 0, a, r, ha, _, hc => by
    rcases ha with rfl | ha
    · rfl
    · exact absurd hc (by rw [List.count_eq_zero]; exact fun h => h (List.mem_of_getLast? ha))
  | n + 1, a, r, ha, hr, hc => by
    obtain ⟨l, b, rfl, hl⟩ : ∃ l b, a = l ++ '\n' :: b ∧ '\n' ∉ l := by
      have : '\n' ∈ a := by
        rw [← List.count_pos_iff]; omega
      clear ha hr hc
      induction a with
      | nil => simp at this
      | cons c a ih =>
        by_cases hc : c = '\n'
        · exact ⟨[], a, by simp [hc], by simp⟩
        · obtain ⟨l, b, rfl, h⟩ := ih (by simpa [Ne.symm hc] using this)
          exact ⟨c :: l, b, rfl, by simp [h, Ne.symm hc]⟩
    rw [fromLine]
    have h1 : afterLine (l ++ '\n' :: b ++ r) = b ++ r := by
      have := afterLine_line l ⟨hl, fun h => hr (by simp [h])⟩ ['\n'] (b ++ r) (.inl rfl)
      simpa using this
    rw [h1]
    refine fromLine_lines n b r ?_ (fun h => hr (by simp [h])) ?_
    · cases hb : b with
      | nil => exact .inl rfl
      | cons x b' =>
        refine .inr ?_
        rcases ha with ha | ha
        · simp at ha
        · subst hb
          rw [List.getLast?_append] at ha
          simpa using ha
    · rw [List.count_append, List.count_eq_zero.2 hl] at hc
      simp at hc
      omega

/-- The position of an offset, as an extension computes it with the function of the protocol crate. -/
theorem fromOffset_eq (lines line after : List Char) (hl : lines = [] ∨ lines.getLast? = some '\n')
    (hn : '\n' ∉ line) : fromOffset (lines ++ line ++ after) (utf8Len (lines ++ line)) =
      some ⟨lines.count '\n', utf8Len line⟩ := by
  unfold fromOffset
  rw [if_neg (by simp only [utf8Len_append]; omega), takeBytes_app]
  simp only [lastLine_eq hl hn, Option.map_some, List.count_append, List.count_eq_zero.2 hn, utf8Len_append]
  congr 2
  omega

/-- **C120**: the two ways an extension can convert an offset, the function of the protocol crate and the
call of the host, give the same position for every offset in the document, and both panic inside of a
character; after the end the host has no answer, the function gives the position of the end. -/
theorem C120_agree (content : List Char) (offset : Nat) :
    (offset ≤ utf8Len content → ∀ p, fromOffset content offset = some p ↔
      hostOffsetToPosition content offset = .ok (some p)) ∧
    (offset ≤ utf8Len content → (fromOffset content offset = none ↔ hostOffsetToPosition content offset = .panic)) ∧
    (utf8Len content < offset → hostOffsetToPosition content offset = .ok none ∧
      fromOffset content offset = fromOffset content (utf8Len content)) := by
  refine ⟨?_, ?_, ?_⟩
  · intro h p
    unfold fromOffset hostOffsetToPosition
    rw [if_neg (by omega), if_neg (by omega)]
    cases takeBytes offset content <;> simp
  · intro h
    unfold fromOffset hostOffsetToPosition
    rw [if_neg (by omega), if_neg (by omega)]
    cases takeBytes offset content <;> simp
  · intro h
    unfold fromOffset hostOffsetToPosition
    rw [if_pos h, if_pos h, if_neg (by omega)]
    have := takeBytes_app content []
    rw [List.append_nil] at this
    rw [this]
    simp

/-- **C120** is false: the position the extension computes counts bytes and is sent to the editor as it is,
so after an `é` the hint for a value is shown behind it. -/
theorem C120_false : ∃ before after p, fromOffset (before ++ after) (utf8Len before) = some p ∧
    fromPosition (before ++ after) (hintPosition p) ≠ after :=
  ⟨chars! "é ", chars! "xy", ⟨0, 3⟩, by decide +kernel⟩

/-- **C120**, exactly, for documents without carriage returns: a hint that an extension places at an offset
is shown there if and only if the line up to the offset is ASCII or ends there. -/
theorem C120_partial (lines line after : List Char) (hl : lines = [] ∨ lines.getLast? = some '\n')
    (hn : '\n' ∉ line) (hr : '\r' ∉ lines ++ line ++ after) :
    ∃ p, fromOffset (lines ++ line ++ after) (utf8Len (lines ++ line)) = some p ∧
      (fromPosition (lines ++ line ++ after) (hintPosition p) = after ↔
        (∀ c ∈ line, c.utf8Size = 1) ∨ after = [] ∨ after.head? = some '\n') := by
  simp only [List.mem_append, not_or] at hr
  refine ⟨_, fromOffset_eq lines line after hl hn, ?_⟩
  unfold fromPosition hintPosition
  rw [List.append_assoc, fromLine_lines _ lines _ hl hr.1.1 rfl]
  obtain ⟨k, hk, hk0⟩ : ∃ k, utf8Len line = utf16Len line + k ∧ (k = 0 ↔ ∀ c ∈ line, c.utf8Size = 1) := by
    clear hr hn hl
    induction line with
    | nil => exact ⟨0, rfl, by simp⟩
    | cons c l ih =>
      obtain ⟨k, hk, hk0⟩ := ih
      have h1 := utf16Units_le c
      refine ⟨k + (c.utf8Size - utf16Units c), ?_, ?_⟩
      · have h2 : utf16Len (c :: l) = utf16Units c + utf16Len l := by simp [utf16Len]
        rw [h2]; simp only [utf8Len]; omega
      · simp only [List.mem_cons, forall_eq_or_imp, ← hk0]
        have := h1.2.2
        omega
  simp only [hk]
  rw [fromColumn_line line after ⟨hn, hr.1.2⟩ k, ← hk0]
  cases after with
  | nil => simp [fromColumn]
  | cons c r =>
    rw [fromColumn]
    have hc : c ≠ '\r' := fun e => hr.2 (by simp [e])
    by_cases h0 : k = 0
    · simp [h0]
    · by_cases h1 : c = '\n'
      · simp [h1]
      · rw [if_neg (by simp [h0, h1, hc])]
        have := (fromColumn_suffix (k - utf16Units c) r).length_le
        simp only [h0, h1, List.head?_cons, Option.some.injEq, false_or, reduceCtorEq]
        constructor
        · intro h
          rw [h] at this
          simp at this
          omega
        · simp

/-- Both cases occur: a hint in a line of ASCII, and one at the end of another line. -/
example : (fromPosition (chars! "k é\nab c") (hintPosition ⟨1, 2⟩) = chars! " c" ∧
    fromOffset (chars! "k é\nab c") 7 = some ⟨1, 2⟩) ∧
    fromOffset (chars! "k é\nab c") 4 = some ⟨0, 4⟩ ∧
    fromPosition (chars! "k é\nab c") (hintPosition ⟨0, 4⟩) = chars! "\nab c" := by decide +kernel

end Styx.Props
