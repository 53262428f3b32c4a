import Verif.Editor.EmacsLemmas

/-!
# Properties: indentation in Emacs (C136)
-/

namespace Styx.Editor.Emacs

open Styx Styx.Editor.Emacs.Spec

/-- C136, for buffers in which no line that begins with a closing bracket is right below an empty one: however the
lines were indented before, `indent-region` leaves their texts as they are and indents each line that is not blank by
one step for each level it is nested in. -/
theorem C136_partial (offset : Nat) (buffer : List Line) (depths : List Nat)
    (hd : Depths 0 (buffer.map (·.text)) depths) (hc : Compact (buffer.map (·.text))) :
    (indentBuffer offset buffer).map (·.text) = buffer.map (·.text) ∧
    ∀ (i : Nat) (l : Line) (d : Nat), (indentBuffer offset buffer)[i]? = some l → depths[i]? = some d → l.text ≠ [] →
      l.col = d * offset := by
  refine ⟨indentLines_text offset buffer [], ?_⟩
  exact (atDepth_get (indentLines_spec buffer 0 depths [] .nil hd hc (fun _ _ _ => .inl (nofun)))).2

/-- Hence a second time changes nothing in lines that are not blank. -/
theorem C136_again (offset : Nat) (buffer : List Line) (depths : List Nat)
    (hd : Depths 0 (buffer.map (·.text)) depths) (hc : Compact (buffer.map (·.text))) (i : Nat) (l m : Line)
    (hl : (indentBuffer offset buffer)[i]? = some l)
    (hm : (indentBuffer offset (indentBuffer offset buffer))[i]? = some m) (ht : l.text ≠ []) : m = l := by
  have h1 := C136_partial offset buffer depths hd hc
  have h2 := C136_partial offset (indentBuffer offset buffer) depths (by rw [h1.1]; exact hd) (by rw [h1.1]; exact hc)
  have hlen := (atDepth_get (indentLines_spec (offset := offset) buffer 0 depths [] .nil hd hc (fun _ _ _ => .inl (nofun)))).1
  have hi : i < depths.length := by
    rw [hlen]; exact (List.getElem?_eq_some_iff.mp hl).1
  have hdi := List.getElem?_eq_getElem hi
  have htext : m.text = l.text := by
    have := congrArg (fun x => x[i]?) h2.1
    simp only [List.getElem?_map, hl, hm, Option.map_some, Option.some.injEq] at this
    exact this
  have c1 := h1.2 i l _ hl hdi ht
  have c2 := h2.2 i m _ hm hdi (by rw [htext]; exact ht)
  cases l; cases m
  simp_all

theorem opening_brace (t : List Char) : Opening (t ++ ['{']) := ⟨t, '{', [], rfl, .inl rfl, (nofun)⟩

theorem not_opening_of {l : Line} (h : l.opens = false) : ¬ Opening l.text := fun ho => by
  rw [(opens_iff l).mpr ho] at h; exact absurd h (by simp)

theorem not_closing_of {l : Line} (h : l.closes = false) : ¬ Closing l.text := fun ho => by
  rw [(closes_iff l).mpr ho] at h; exact absurd h (by simp)

/-- A sequence of objects with a line that closes one and opens the next, and an empty line. -/
def emacsBuffer : List Line :=
  [⟨4, chars! "a ({"⟩, ⟨0, []⟩, ⟨0, chars! "b 1"⟩, ⟨3, chars! "} { "⟩, ⟨0, chars! "c {d 2}"⟩, ⟨1, chars! "})"⟩, ⟨9, chars! "e 3"⟩]

example : Depths 0 (emacsBuffer.map (·.text)) [0, 1, 1, 0, 1, 0, 0] ∧ Compact (emacsBuffer.map (·.text)) ∧
    (indentBuffer 2 emacsBuffer).map (·.col) = [0, 0, 2, 0, 2, 0, 0] := by
  refine ⟨?_, ?_, by decide⟩
  · exact .opening (opening_brace (chars! "a (")) (not_closing_of (l := ⟨0, chars! "a ({"⟩) (by decide))
      (.plain not_opening_nil not_closing_nil
      (.plain (not_opening_of (l := ⟨0, chars! "b 1"⟩) (by decide)) (not_closing_of (l := ⟨0, chars! "b 1"⟩) (by decide))
      (.both ⟨chars! "} ", '{', [' '], rfl, .inl rfl, by decide⟩ ⟨'}', chars! " { ", rfl, .inl rfl⟩
      (.plain (not_opening_of (l := ⟨0, chars! "c {d 2}"⟩) (by decide))
        (not_closing_of (l := ⟨0, chars! "c {d 2}"⟩) (by decide))
      (.closing (not_opening_of (l := ⟨0, chars! "})"⟩) (by decide)) ⟨'}', [')'], rfl, .inl rfl⟩
      (.plain (not_opening_of (l := ⟨0, chars! "e 3"⟩) (by decide))
        (not_closing_of (l := ⟨0, chars! "e 3"⟩) (by decide)) .nil))))))
  · intro a t b h
    match a, h with
    | [], h => simp [emacsBuffer] at h
    | [_], h =>
      simp only [emacsBuffer, List.map_cons, List.map_nil, List.cons_append, List.nil_append, List.cons.injEq] at h
      rw [← h.2.2.1]
      exact not_closing_of (l := ⟨0, chars! "b 1"⟩) (by decide)
    | [_, _], h => simp [emacsBuffer] at h
    | [_, _, _], h => simp [emacsBuffer] at h
    | [_, _, _, _], h => simp [emacsBuffer] at h
    | [_, _, _, _, _], h => simp [emacsBuffer] at h
    | _ :: _ :: _ :: _ :: _ :: _ :: _, h =>
      have := congrArg List.length h
      simp [emacsBuffer] at this
      omega

/-- C136 is false of the code: below an empty line a closing bracket is indented like what it closes, since the mode
looks for the bracket in the line below the one it takes the indentation from. -/
theorem C136_false : ∃ (buffer : List Line) (depths : List Nat) (i : Nat) (l : Line) (d : Nat),
    Depths 0 (buffer.map (·.text)) depths ∧ (indentBuffer 2 buffer)[i]? = some l ∧ depths[i]? = some d ∧ l.text ≠ [] ∧
      l.col ≠ d * 2 := by
  refine ⟨[⟨0, chars! "a {"⟩, ⟨2, chars! "b 1"⟩, ⟨0, []⟩, ⟨0, chars! "}"⟩], [0, 1, 1, 0], 3, ⟨2, chars! "}"⟩, 0, ?_,
    by decide, rfl, by decide, by decide⟩
  exact .opening (opening_brace (chars! "a ")) (not_closing_of (l := ⟨0, chars! "a {"⟩) (by decide))
    (.plain (not_opening_of (l := ⟨0, chars! "b 1"⟩) (by decide)) (not_closing_of (l := ⟨0, chars! "b 1"⟩) (by decide))
    (.plain not_opening_nil not_closing_nil
    (.closing (not_opening_of (l := ⟨0, chars! "}"⟩) (by decide)) ⟨'}', [], rfl, .inl rfl⟩ .nil)))

end Styx.Editor.Emacs
