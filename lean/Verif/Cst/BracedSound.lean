import Verif.Cst.Sound
import Verif.Cst.Braced

/-! # The recovering parser reports nothing in documents with braces around the root -/

namespace Styx.Cst.Sound

open Styx Styx.Spec

variable {source : List Char}

theorem bracedEntries_ok {es : List RootEntry} {t : List Char} (h : BracedEntries es t) :
    ('>' ∉ t ∨ ∀ e ∈ es, NoObjectItems e.value) → EntriesOk t := by
  induction h with
  | @nil g hg =>
    intro _
    refine ⟨g, rfl, fun source rest p _ => ?_⟩
    exact reads_gap (.inr rfl) hg entries_end
  | @cons g ls dt ks path ke kt b v e s tr es t hg hd hk hb hne hv htr ht hf hend ih =>
    intro hpl
    obtain ⟨t', rfl, hrd⟩ := ih (by
      rcases hpl with h | h
      · exact .inl fun hm => h (List.mem_append_right _ hm)
      · exact .inr fun e he => h e (by simp [he]))
    have hval := (value_ok hv (by
      rcases hpl with h | h
      · exact .inl fun hm => h (by simp [hm])
      · exact .inr (h _ (List.mem_cons_self ..)))).2 _ (.inr rfl)
    obtain ⟨k, hk'⟩ := rootKey hk
    refine ⟨g ++ dt ++ kt ++ b ++ s ++ tr ++ t', by simp, fun source rest p hh => ?_⟩
    have e0 : g ++ dt ++ kt ++ b ++ s ++ tr ++ t' ++ '}' :: rest =
        g ++ (dt ++ (kt ++ (b ++ (s ++ (tr ++ (t' ++ '}' :: rest)))))) := by simp
    rw [e0] at hh ⊢
    have hf' : Follows e (tr ++ (t' ++ '}' :: rest)) := by
      have := follows_append hf ((snoc_ink t' [] rfl).append_right tr) rest
      simpa using this
    have hend' : EntryEnd tr (t' ++ '}' :: rest) := by
      have := entryEnd_append hend (snoc_ink t' [] rfl) rest
      simpa using this
    refine reads_pair (.inr rfl) hg hd hk' hb hne hv hval htr hend' (fun _ _ _ _ => rfl) hf' hh ?_
    have := hrd source rest _ hh.tail.tail.tail.tail.tail.tail
    simpa only [utf8Len_append, Nat.add_assoc] using this
  | @lone g ls dt ks path ke kt tr es t hg hd hk htr ht hf hend ih =>
    intro hpl
    obtain ⟨t', rfl, hrd⟩ := ih (by
      rcases hpl with h | h
      · exact .inl fun hm => h (List.mem_append_right _ hm)
      · exact .inr fun e he => h e (by simp [he]))
    obtain ⟨k, hk'⟩ := rootKey hk
    refine ⟨g ++ dt ++ kt ++ tr ++ t', by simp, fun source rest p hh => ?_⟩
    have e0 : g ++ dt ++ kt ++ tr ++ t' ++ '}' :: rest =
        g ++ (dt ++ (kt ++ (tr ++ (t' ++ '}' :: rest)))) := by simp
    rw [e0] at hh ⊢
    have hf' : Follows ke (tr ++ (t' ++ '}' :: rest)) := by
      have := follows_append hf ((snoc_ink t' [] rfl).append_right tr) rest
      simpa using this
    have hend' : EntryEnd tr (t' ++ '}' :: rest) := by
      have := entryEnd_append hend (snoc_ink t' [] rfl) rest
      simpa using this
    refine reads_lone (.inr rfl) hg hd hk' htr hend' (fun _ _ _ _ => rfl) hf' hh ?_
    have := hrd source rest _ hh.tail.tail.tail.tail
    simpa only [utf8Len_append, Nat.add_assoc] using this

theorem entry_object {t : List Char} (h : EntriesOk t) {b u : List Char}
    (hb : Blanks b) (hu : NoBlank u) (he : EndAt none u) {p n g st}
    (hh : Here source ('{' :: t ++ (b ++ u)) p)
    (hp : parseEntry source n none ⟨toksAt ('{' :: t ++ (b ++ u)) p, []⟩ = some (g, st)) :
    st = ⟨toksAt u (p + utf8Len ('{' :: t) + utf8Len b), []⟩ := by
  cases n with
  | zero => simp [parseEntry] at hp
  | succ n =>
    have h1 : toksAt ('{' :: t ++ (b ++ u)) p = ⟨.lbrace, p, p + 1, ['{']⟩ :: toksAt (t ++ (b ++ u)) (p + 1) :=
      toks_lbrace _ _
    have hs : AtomStart (St.peek ⟨toksAt ('{' :: t ++ (b ++ u)) p, []⟩) := by rw [head_peek h1]; simp [AtomStart]
    have ha : St.atAttribute source ⟨toksAt ('{' :: t ++ (b ++ u)) p, []⟩ = false := by
      rw [h1]; simp [St.atAttribute]
    rw [parseEntry, if_neg (by rw [ha]; simp), if_neg (by rw [atomStart_notEnd (.inl rfl) hs]; simp)] at hp
    simp only [Option.bind_eq_bind, Option.bind_eq_some_iff,
      Prod.exists, Option.some.injEq, Prod.mk.injEq] at hp
    obtain ⟨g1, st1, ⟨g, st', h5, rfl, rfl⟩, g3, st3, h6, rfl, rfl⟩ := hp
    obtain rfl := atom_object h _ _ _ _ _ _ (by trivial) hh h5
    obtain ⟨ws, hw, hws, -⟩ := skipWs_at (p := p + utf8Len ('{' :: t)) (e := []) hb hu
    rw [hw] at h6
    have := values_done (he _ _) h6
    cases this
    rfl

theorem gap_ok {g : List Char} (hg : Gap true g) (p : Nat) :
    Reads source none (toksAt g p) (toksAt [] (p + utf8Len g)) := by
  have : Reads source none (toksAt (g ++ []) p) (toksAt [] (p + utf8Len g)) := by
    refine reads_gap (.inl rfl) hg ?_
    intro n g st hp
    cases n with
    | zero => simp [parseEntries] at hp
    | succ n =>
      rw [toksAt_nil, parseEntries_cont, skipTrivia_id rfl] at hp
      simp only [bumpDocs, reduceCtorEq, and_false, or_self, if_false, Bool.false_eq_true] at hp
      rw [cont, if_pos (by simp [St.peek, St.atEof])] at hp
      cases hp
      rfl
  simpa using this

/-- The parser for concrete syntax trees reports nothing in the text of a document with braces around the root. -/
theorem braced_clean {es : List RootEntry} {s : List Char} (h : BracedText es s)
    (hpl : '>' ∉ s ∨ ∀ e ∈ es, NoObjectItems e.value) : (parse s).errors = [] := by
  cases h with
  | @mk g _ t g' hg ht hg' =>
    have hok : EntriesOk t := bracedEntries_ok ht (by
      rcases hpl with h | h
      · exact .inl fun hm => h (by simp [hm])
      · exact .inr h)
    obtain ⟨g1, st, h1, h2, -⟩ := parse_spec (g ++ ('{' :: (t ++ g')))
    rw [tokenIter_eq] at h1
    rw [h2]
    have hrest := gap_ok (source := g ++ ('{' :: (t ++ g'))) (gap_weaken hg') (0 + utf8Len g + utf8Len ('{' :: t))
    obtain ⟨b, u, rfl, hb, hu, he⟩ := gap_end hg'
    have hh : Here (g ++ ('{' :: (t ++ (b ++ u)))) (g ++ ('{' :: t ++ (b ++ u))) 0 := ⟨[], rfl, rfl⟩
    have := reads_gap (c := none) (.inl rfl) hg (s := '{' :: t ++ (b ++ u)) (p := 0)
      (reads_entry (.inl rfl) (s := '{' :: t) (b := b) (u := u)
        (by rw [List.cons_append, toks_lbrace]; simp [St.peek, AtomStart]) hb hu hrest
        (fun n g st hp => entry_object hok hb hu (he _) hh.tail hp))
    rw [this _ _ _ h1]

end Styx.Cst.Sound
