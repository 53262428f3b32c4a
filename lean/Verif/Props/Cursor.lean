import Verif.Lsp.CursorLemmas
import Verif.Props.Spans

/-!
# C73: the path at the cursor

`findPath` models the lookup behind hover, go to definition and the requests to extensions.
`Lsp/CursorSpec.lean` says what the cursor is on.
-/

namespace Styx.Props

open Styx Styx.Spec Styx.Lsp

/-- **C73**, nothing wrong is found: for every tree and cursor, the path that is found is the path of a key
the cursor is on, or of a value or item it is on with nothing further inside. -/
theorem C73_sound (v : Value) (off : Nat) (p : List Seg) (h : findPath off v = some p) : AtCursor off v p :=
  (findPath_sound off v).1 p h

/-- **C73**, exactly what the cursor is on is found, for every source without dotted keys at the root: a
path is found when it is the path of what the cursor is on, and only then; in particular at most one path is
at the cursor.  Missing for the full property: dotted keys, for which it is false (`C73_false`). -/
theorem C73_exact_partial (source : List Char) (es : List Entry) (off : Nat) (p : List Seg)
    (h : parseTree source = some (.ok (.mk none (some (.object es none)) none))) (hu : Undotted es) :
    findPath off (.mk none (some (.object es none)) none) = some p ↔
      AtCursor off (.mk none (some (.object es none)) none) p := by
  obtain ⟨es', hes, hr⟩ := parseTree_std h
  cases hes
  exact ⟨fun hp => C73_sound _ off p hp, atCursor_found hr hu⟩

/-- **C73**, said for the bytes of a document: in a source without dotted keys at the root, with the cursor
on any byte of a bare key, the path ends with the text the source has there, and the path before it leads to
the object the key is in. -/
theorem C73_key_partial (source : List Char) (es : List Entry) (off : Nat) (w : Value) (p : List Seg)
    (es' : List Entry) (o : Option Span) (v : Value) (d : Option (List Char)) (text : List Char) (sp : Span)
    (psp : Option Span) (h : parseTree source = some (.ok (.mk none (some (.object es none)) none)))
    (hu : Undotted es) (hw : LeadsTo w (.mk none (some (.object es none)) none) p)
    (hp : w.payload = some (.object es' o))
    (he : Entry.mk (.mk none (some (.scalar text .bare psp)) (some sp)) v d ∈ es')
    (h1 : sp.start ≤ off) (h2 : off < sp.stop) :
    Covers source sp text ∧
    findPath off (.mk none (some (.object es none)) none) = some (p ++ [.field text]) := by
  refine ⟨(C72_text source _ text .bare sp psp h ?_).1 rfl,
    (C73_exact_partial source es off _ h hu).mpr (.key hw hp he rfl ⟨sp, rfl, h1, h2⟩)⟩
  obtain ⟨t, pl, wsp⟩ := w
  cases hp
  have := leadsTo_node hw
  generalize Value.mk none (some (.object es none)) none = r at this
  induction this with
  | self => exact .inside (.key he) .self
  | inside hc _ ih => exact .inside hc (ih)

/-- **C73** is false as a whole: with the cursor on the value of `a.b 1`, nothing is found. -/
theorem C73_false : ∃ source v off p, parseTree source = some (.ok v) ∧ AtCursor off v p ∧ findPath off v = none :=
  ⟨_, _, 4, [.field ['a'], .field ['b']], dottedTree_parsed,
    .value (.field (List.mem_cons_self ..) rfl (.field (List.mem_cons_self ..) rfl .here)) (by simp)
      ⟨⟨4, 5⟩, rfl, by decide, by decide⟩ ⟨fun _ _ _ _ _ hp => (nomatch hp), fun _ _ _ hp => (nomatch hp)⟩, rfl⟩

/-- **C73**, a limit: with the cursor on the tag of a value, nothing is found: `x @t(1)` at byte 2. -/
theorem C73_tag_outside : ∃ source v k x d es t tsp off,
    parseTree source = some (.ok v) ∧ v.payload = some (.object es none) ∧ Entry.mk k x d ∈ es ∧ x.tag = some t ∧
    t.span = some tsp ∧ tsp.start ≤ off ∧ off < tsp.stop ∧ findPath off v = none :=
  ⟨chars! "x @t(1)", .mk none (some (.object [.mk (.mk none (some (.scalar ['x'] .bare (some ⟨0, 1⟩))) (some ⟨0, 1⟩))
    (.mk (some ⟨['t'], some ⟨2, 7⟩⟩) (some (.sequence [.mk none (some (.scalar ['1'] .bare (some ⟨5, 6⟩)))
      (some ⟨5, 6⟩)] (some ⟨4, 7⟩))) (some ⟨4, 7⟩)) none] none)) none, _, _, _, _, _, ⟨2, 7⟩, 2, by rfl, rfl,
    List.mem_cons_self .., rfl, rfl, by decide, by decide, rfl⟩

/-! Concrete cases: the cursor on each byte of `k {a "é"}` and `s (1 2)`. -/

example : (List.range 19).map (findPath · nestedTree) =
    let k : List Seg := [.field ['k']]
    let a : List Seg := [.field ['k'], .field ['a']]
    let s : List Seg := [.field ['s']]
    [some k, none, some k, some a, some k, some a, some a, some a, some a, some k, none, some s, none, some s,
      some [.field ['s'], .index 0], some s, some [.field ['s'], .index 1], some s, none] := by decide +kernel

example : findPath 6 nestedTree = some [.field ['k'], .field ['a']] ↔
    AtCursor 6 nestedTree [.field ['k'], .field ['a']] :=
  C73_exact_partial (chars! "k {a \"é\"}\ns (1 2)") _ 6 _ nestedTree_parsed (by
    intro k v d ksp vsp hm h1 h2 _
    simp only [List.mem_cons, List.not_mem_nil, or_false] at hm
    rcases hm with hm | hm <;> cases hm <;> cases h1 <;> cases h2 <;> decide)

end Styx.Props
