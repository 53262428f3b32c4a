import Verif.Text.Expr
import Verif.Props.Facet
import Verif.Props.Text

/-! # Property theorems C47 and C57 for single values

`Parser::new_expr` and `facet_styx::StyxParser::new_expr` read one value from the beginning of a text. -/

namespace Styx.Props

open Styx Styx.Spec Styx.Facet

/-- **C47** for a single value: however it is written, with any space and comments before it, the events are those of
the value, after those of comments; what follows is not read. -/
theorem C47_expression {v : Value} {e : Tail} {g s rest : List Char} (hg : Gap false g) (h : ValueText v e s)
    (hf : Follows e rest) :
    ∃ cs evs, parseExprEvents (g ++ (s ++ rest)) = some (cs ++ evs) ∧ (∀ e ∈ cs, ∃ t, e.kind = .comment t) ∧
      ValueOf (kinds evs) v := by
  obtain ⟨cs, a, h1, h2, h3, -⟩ := expression_events hg h hf
  exact ⟨cs, emitValue a, h1, h2, h3⟩

theorem emitValue_docs {s : List Char} {l : Lexeme} {ls : List Lexeme} {a : Atom} {evs : List Event} {ls' : List Lexeme}
    (h : AtomR s l ls a evs ls') (he : .eof ∉ ls') : DocOK (kinds (emitValue a)) := by
  obtain ⟨rest, evs', ls'', -, h2, -⟩ := (totalAt s (parseFuel ls')).rest a true ls' he (by unfold parseFuel; omega)
  exact (atom_docs (.mk h h2)).1

/-- **C57** for a single value: however it is written, reading the events of `facet_styx` to the end gives no error and
no panic, and they describe the value. -/
theorem C57_expression (S : Src) {v : Value} {e : Tail} {g s rest : List Char} (hg : Gap false g) (h : ValueText v e s)
    (hf : Follows e rest) (hS : S.input = g ++ (s ++ rest)) :
    ∃ fs, facetExprEvents S = some (.ok fs) ∧ Describes (fkinds fs) v := by
  obtain ⟨cs, a, h1, h2, h3, l, ls, ls', h4, h5⟩ := expression_events hg h hf
  rw [← hS] at h1 h4
  have hd := emitValue_docs h4 h5
  have hn : NoError (cs ++ emitValue a) := by
    refine noError_append h2.noError ?_
    intro e he
    exact entriesOf_fine (d := none) (.entry none none .bare h3 (.nil none)) e.kind
      (by simp only [kinds, List.mem_cons, List.mem_append, List.mem_map]; grind)
  have hspan := spansOK_parse (S := S) (.inr h1) hn
  rw [facetExprEvents, h1]
  simp only
  have r1 := reads_comments (S := S) cs (emitValue a) (newExprCore (cs ++ emitValue a)) ⟨rfl, rfl⟩ h2 rfl
  obtain ⟨fs, sp, g1, g2⟩ := read_value S h3 (emitValue a) [] { newExprCore (cs ++ emitValue a) with rest := emitValue a } rfl
    hspan.right (by simp) ⟨⟨rfl, rfl⟩, rfl, by simp [newExprCore], hd⟩ rfl
  obtain ⟨es, k1, k2⟩ := drain_reads (r1.trans g2) rfl
  exact ⟨es, k2, by rw [k1]; exact g1⟩

/-- A value with space and comments around and inside it. -/
example : ∃ fs, facetExprEvents ⟨chars! "// c\n @a{x (1 2) // d\n} rest", fun _ => false⟩ = some (.ok fs) ∧
    Describes (fkinds fs) (.mk (some ⟨chars! "a", none⟩) (some (.object [.mk (scalarValue (chars! "x") .bare)
      (.mk none (some (.sequence [scalarValue (chars! "1") .bare, scalarValue (chars! "2") .bare] none)) none) none]
      none)) none) := by
  refine C57_expression _ (g := chars! "// c\n ") (s := chars! "@a{x (1 2) // d\n}") (rest := chars! " rest")
    (e := .closed) (.comment (t := chars! "// c") (n := ['\n']) ⟨_, rfl, by decide, by decide⟩ (.inl rfl) (.blank (.inl rfl) .nil))
    ?_ trivial rfl
  refine .tagged (n := chars! "a") (s := chars! "{x (1 2) // d\n}") ⟨'a', [], rfl, by decide, by simp⟩
    (.object (t := chars! "x (1 2) // d\n}") ?_ (by simp [DistinctKeys])) ⟨'{', _, rfl, .inr (.inl rfl)⟩
  refine .cons (g := []) (dt := []) (ls := []) (ks := ['x']) (ke := .word) (b := [' ']) (s := chars! "(1 2)") (e := .closed)
    (tr := chars! " // d") (t := chars! "\n}") .nil .nil (.scalar (.bare (bareText_of_ok rfl)) (by simp)) (by simp [Blanks, Blank])
    (by simp) (.sequence (t := chars! "1 2)") ?_) (.comment (b := [' ']) (c := chars! "// d") (by simp [Blanks, Blank])
      ⟨_, rfl, by decide, by decide⟩) (.nil (g := ['\n']) (.newline (n := ['\n']) (.inl rfl) .nil)) trivial ?_
  · refine .cons (g := []) (s := ['1']) (e := .word) (t := chars! " 2)") .nil (.scalar (.bare (bareText_of_ok rfl)))
      (.cons (g := [' ']) (s := ['2']) (e := .word) (t := [')']) (.blank (.inl rfl) .nil) (.scalar (.bare (bareText_of_ok rfl)))
        (.nil (g := []) .nil) ?_) ?_
    · exact .inr ⟨_, _, rfl, by simp⟩
    · exact .inr ⟨_, _, rfl, by simp⟩
  · exact .inr (.inl ⟨_, rfl⟩)

end Styx.Props
