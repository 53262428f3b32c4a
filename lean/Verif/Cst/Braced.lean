import Verif.Cst.RelayoutValue
import Verif.Text.BracedSpec

/-! # Concrete syntax trees of documents with braces around the root, and how they are formatted -/

namespace Styx.Cst

open Styx Styx.Spec

/-! ## The entries between the braces as entries of an object -/

/-- The key `k` of an entry of an object is written like the nested keys `ks` of a root entry. -/
def KeyAs (k : Value) (ks : List Value) (path : List (List Char)) : Prop :=
  (path ≠ [] ∧ (∀ seg ∈ path, seg ≠ [] ∧ '.' ∉ seg) ∧ k = scalarValue (dotted path) .bare ∧
    ks = path.map fun s => scalarValue s .bare) ∨
  ((∀ v, k ≠ scalarValue v .bare) ∧ ks = [k] ∧ path = [keyName k])

theorem keyAs_of_root {ks : List Value} {path : List (List Char)} {e : Tail} {s : List Char}
    (h : RootKeyText ks path e s) : ∃ k, KeyAs k ks path ∧ KeyText k e s := by
  cases h with
  | path h1 h2 h3 => exact ⟨_, .inl ⟨h1, h2, rfl, rfl⟩, .scalar (.bare h3) (by simp)⟩
  | other h1 h2 => exact ⟨_, .inr ⟨h2, rfl, rfl⟩, h1⟩

theorem root_of_keyAs {k : Value} {ks : List Value} {path : List (List Char)} {e : Tail} {s : List Char}
    (h : KeyAs k ks path) (hk : KeyText k e s) : RootKeyText ks path e s := by
  rcases h with ⟨h1, h2, h3, rfl⟩ | ⟨h1, rfl, rfl⟩
  · cases hk with
    | scalar hs _ =>
      simp only [scalarValue, Value.mk.injEq, Option.some.injEq, Payload.scalar.injEq, true_and, and_true] at h3
      obtain ⟨hv, rfl⟩ := h3
      cases hs with
      | bare hb => subst hv; exact .path h1 h2 hb
    | unit => cases h3
    | tag => cases h3
    | tagged => cases h3
  · exact .other hk h1

/-- Entries of an object that are written like root entries. -/
inductive EntriesAs : List Entry → List RootEntry → Prop
  | nil : EntriesAs [] []
  | cons {k ks path v d es es'} : KeyAs k ks path → EntriesAs es es' →
      EntriesAs (.mk k v d :: es) (⟨ks, path, v, d⟩ :: es')

theorem entries_of_braced {es : List RootEntry} {t : List Char} (h : BracedEntries es t) :
    ∃ es', EntriesAs es' es ∧ EntriesText es' t := by
  induction h with
  | nil hg => exact ⟨[], .nil, .nil hg⟩
  | cons h1 h2 h3 h4 h5 h6 h7 _ h9 h10 ih =>
    obtain ⟨es', i1, i2⟩ := ih
    obtain ⟨k, k1, k2⟩ := keyAs_of_root h3
    exact ⟨_, .cons k1 i1, .cons h1 h2 k2 h4 h5 h6 h7 i2 h9 h10⟩
  | lone h1 h2 h3 h7 _ h9 h10 ih =>
    obtain ⟨es', i1, i2⟩ := ih
    obtain ⟨k, k1, k2⟩ := keyAs_of_root h3
    exact ⟨_, .cons k1 i1, .lone h1 h2 k2 h7 i2 h9 h10⟩

theorem braced_of_entries {es' : List Entry} {es : List RootEntry} (h : EntriesAs es' es) :
    ∀ {t : List Char}, EntriesText es' t → BracedEntries es t := by
  induction h with
  | nil => intro t ht; cases ht with | nil hg => exact .nil hg
  | cons hk _ ih =>
    intro t ht
    cases ht with
    | cons h1 h2 h3 h4 h5 h6 h7 h8 h9 h10 => exact .cons h1 h2 (root_of_keyAs hk h3) h4 h5 h6 h7 (ih h8) h9 h10
    | lone h1 h2 h3 h7 h8 h9 h10 => exact .lone h1 h2 (root_of_keyAs hk h3) h7 (ih h8) h9 h10

theorem noLone_as {es' : List Entry} {es : List RootEntry} (h : EntriesAs es' es)
    (hn : ∀ e ∈ es, NoLoneHeredoc e.value) : NoLoneEntries es' := by
  induction h with
  | nil => simp [NoLoneEntries]
  | cons _ _ ih =>
    rw [NoLoneEntries]
    exact ⟨hn _ (List.mem_cons_self ..), ih fun e he => hn e (by simp [he])⟩

/-! ## Reading -/

theorem entries_read {es : List Entry} {t : List Char} (h : EntriesText es t) : EntriesRead es t := by
  refine EntriesText.rec
    (motive_1 := fun _ _ _ _ => True) (motive_2 := fun _ _ _ => True)
    (motive_3 := fun es t _ => EntriesRead es t) (motive_4 := fun _ _ _ _ => True)
    ?_ ?_ ?_ ?_ ?_ ?_ ?_ ?_ ?_ ?_ ?_ ?_ ?_ ?_ h
  case refine_10 =>
    intro g hg
    refine ⟨g, rfl, fun source rest p _ => ?_⟩
    exact reads_gap (.inr rfl) (qmono_kids _ _) hg entries_end
  case refine_11 =>
    intro g ls dt k ke kt b v e s tr es t hg hd hk hb hne hv htr ht hf hend _ iht
    obtain ⟨t', rfl, iht⟩ := iht
    refine ⟨g ++ dt ++ kt ++ b ++ s ++ tr ++ t', by simp, fun source rest p hh => ?_⟩
    have e0 : g ++ dt ++ kt ++ b ++ s ++ tr ++ t' ++ '}' :: rest =
        g ++ (dt ++ (kt ++ (b ++ (s ++ (tr ++ (t' ++ '}' :: rest)))))) := by simp
    rw [e0] at hh ⊢
    have hf' : Follows e (tr ++ (t' ++ '}' :: rest)) := by
      have := follows_append hf ((snoc_ink t' [] rfl).append_right tr) rest
      simpa using this
    have hend' : EntryEnd tr (t' ++ '}' :: rest) := by
      have := entryEnd_append hend (snoc_ink t' [] rfl) rest
      simpa using this
    refine reads_pair (.inr rfl) (qmono_kids _ _) (qmono_kids es _) hg hd hk hb hne hv
      ((value_reads hv).2 _ (.inr rfl)) htr hend'
      (fun _ _ _ _ => rfl) hf' hh
      (iht source rest _ (by have := hh.tail.tail.tail.tail.tail.tail; simpa only [utf8Len_append, Nat.add_assoc] using this)) ?_
    intro ds gk gv cs ks nl toks h1 h2 h3 h4 ⟨h5, h6⟩ h7
    refine ⟨.pair h1 hk h2 h3 (fun h => h7 h (by simp)) h4 h5, ?_⟩
    rw [h6]
    congr 1
    simp only [utf8Len_append]; omega
  case refine_12 =>
    intro g ls dt k ke kt tr es t hg hd hk htr ht hf hend iht
    obtain ⟨t', rfl, iht⟩ := iht
    refine ⟨g ++ dt ++ kt ++ tr ++ t', by simp, fun source rest p hh => ?_⟩
    have e0 : g ++ dt ++ kt ++ tr ++ t' ++ '}' :: rest =
        g ++ (dt ++ (kt ++ (tr ++ (t' ++ '}' :: rest)))) := by simp
    rw [e0] at hh ⊢
    have hf' : Follows ke (tr ++ (t' ++ '}' :: rest)) := by
      have := follows_append hf ((snoc_ink t' [] rfl).append_right tr) rest
      simpa using this
    have hend' : EntryEnd tr (t' ++ '}' :: rest) := by
      have := entryEnd_append hend (snoc_ink t' [] rfl) rest
      simpa using this
    refine reads_lone (.inr rfl) (qmono_kids _ _) (qmono_kids es _) hg hd hk htr hend'
      (fun _ _ _ _ => rfl) hf' hh
      (iht source rest _ (by have := hh.tail.tail.tail.tail; simpa only [utf8Len_append, Nat.add_assoc] using this)) ?_
    intro ds gk cs ks nl toks h1 h2 h4 ⟨h5, h6⟩
    refine ⟨.lone h1 hk h2 h4 h5, ?_⟩
    rw [h6]
    congr 1
    simp only [utf8Len_append]; omega
  all_goals intros; trivial

theorem gap_weaken {g : List Char} (h : Gap false g) : Gap true g := by
  induction h with
  | nil => exact .nil
  | blank h1 _ ih => exact .blank h1 ih
  | newline h1 _ ih => exact .newline h1 ih
  | comment h1 h2 _ ih => exact .comment h1 h2 ih
  | comma h _ _ => cases h

/-- A gap without commas begins with blanks, and then an entry is over. -/
theorem gap_end {g : List Char} (h : Gap false g) :
    ∃ b u, g = b ++ u ∧ Blanks b ∧ NoBlank u ∧ ∀ c, EndAt c u := by
  have line : ∀ u, AtLineEnd u → NoBlank u ∧ ∀ c, EndAt c u := by
    intro u hu
    refine ⟨(atLineEnd_peek hu 0 []).1, fun c p er => ?_⟩
    rcases (atLineEnd_peek hu p er).2 with ⟨-, h⟩ | ⟨-, h⟩ <;> simp [St.atEntryEnd, h]
  induction h with
  | nil => exact ⟨[], [], rfl, by simp [Blanks], line [] (.inl rfl)⟩
  | @blank c g hc _ ih =>
    obtain ⟨b, u, rfl, h1, h2⟩ := ih
    refine ⟨c :: b, u, rfl, ?_, h2⟩
    intro x hx
    rcases List.mem_cons.1 hx with rfl | hx
    · exact hc
    · exact h1 x hx
  | newline hn _ _ => exact ⟨[], _, rfl, by simp [Blanks], line _ (lineBreak_atEnd hn _)⟩
  | @comment t n g ht hn _ _ =>
    refine ⟨[], t ++ (n ++ g), rfl, by simp [Blanks], ?_, fun c p er => ?_⟩
    · obtain ⟨r, rfl, -⟩ := ht
      intro c r e
      cases e
      rfl
    · rw [toks_comment ht (lineBreak_atEnd hn _)]
      rfl
  | comma h _ _ => cases h

/-- The elements of the entry that is the object between the braces of the root. -/
def RootObject (es : List Entry) (cs : List Green) : Prop := ∃ g, ObjectNode es g ∧ LoneNode g cs

theorem entry_object {es : List Entry} {t : List Char} (h : EntriesRead es t) {source b u : List Char}
    (hb : Blanks b) (hu : NoBlank u) (he : EndAt none u) {p n g st}
    (hh : Here source ('{' :: t ++ (b ++ u)) p)
    (hp : parseEntry source n none ⟨toksAt ('{' :: t ++ (b ++ u)) p, []⟩ = some (g, st)) (herr : st.errors = []) :
    ∃ cs, g = .node .ENTRY cs ∧ RootObject es cs ∧ st = ⟨toksAt u (p + utf8Len ('{' :: t) + utf8Len b), []⟩ := by
  cases n with
  | zero => simp [parseEntry] at hp
  | succ n =>
    have h1 : toksAt ('{' :: t ++ (b ++ u)) p = ⟨.lbrace, p, p + 1, ['{']⟩ :: toksAt (t ++ (b ++ u)) (p + 1) :=
      toks_lbrace _ _
    have hs : AtomStart (St.peek ⟨toksAt ('{' :: t ++ (b ++ u)) p, []⟩) := by rw [head_peek h1]; simp [AtomStart]
    have ha : St.atAttribute source ⟨toksAt ('{' :: t ++ (b ++ u)) p, []⟩ = false := by
      rw [h1]; simp [St.atAttribute]
    rw [parseEntry, if_neg (by rw [ha]; simp), if_neg (by rw [atomStart_notEnd (.inl rfl) hs]; simp)] at hp
    simp only [Option.bind_eq_bind, Option.bind_eq_some_iff,
      Prod.exists, Option.some.injEq, Prod.mk.injEq] at hp
    obtain ⟨g1, st1, ⟨g, st', h5, rfl, rfl⟩, g3, st3, h6, rfl, rfl⟩ := hp
    have e1 : st'.skipWs.2.errors = [] := (allClean source n).2.2.1 _ _ _ _ h6 herr
    have e2 : st'.errors = [] := e1
    obtain ⟨g, rfl, h7, rfl⟩ := atom_entries h _ _ _ _ _ _ (by trivial) hh h5 e2
    obtain ⟨ws, hw, hws, -⟩ := skipWs_at (p := p + utf8Len ('{' :: t)) (e := []) hb hu
    rw [hw] at h6
    have := values_done (he _ _) h6
    cases this
    exact ⟨_, rfl, ⟨g, h7, ws, by rw [hw]; simp, hws⟩, rfl⟩

theorem braced_reads {source : List Char} {es : List Entry} {g t g' : List Char} (hg : Gap true g)
    (ht : EntriesText es t) (hg' : Gap false g') (hh : Here source (g ++ ('{' :: t ++ g')) 0) :
    Reads source none (toksAt (g ++ ('{' :: t ++ g')) 0) [] fun ks _ _ => ∃ cs, ks = [([], cs)] ∧ RootObject es cs := by
  have hrest : ∀ p, Reads source none (toksAt g' p) [] fun ks _ _ => ks = [] := by
    intro p
    have : Reads source none (toksAt (g' ++ []) p) [] fun ks _ _ => ks = [] := by
      refine reads_gap (.inl rfl) (fun _ _ _ _ _ h => h) (gap_weaken hg') ?_
      intro n g st hp _
      cases n with
      | zero => simp [parseEntries] at hp
      | succ n =>
        rw [toksAt_nil, parseEntries_cont, skipTrivia_id rfl] at hp
        simp only [bumpDocs, reduceCtorEq, and_false, or_self, if_false, Bool.false_eq_true] at hp
        rw [cont, if_pos (by simp [St.peek, St.atEof])] at hp
        cases hp
        exact ⟨[], rfl, rfl⟩
    simpa using this
  refine reads_gap (.inl rfl) (fun _ _ _ _ _ h => h) hg ?_
  obtain ⟨b, u, rfl, hb, hu, he⟩ := gap_end hg'
  refine reads_entry (.inl rfl) (s := '{' :: t) (b := b) (u := u) ?_ hb hu (hrest _) (r := RootObject es) ?_ ?_
  · rw [List.cons_append, toks_lbrace]; simp [St.peek, AtomStart]
  · intro n g st hp herr
    obtain ⟨cs, rfl, h1, rfl⟩ := entry_object (entries_read ht) hb hu (he _) hh.tail hp herr
    exact ⟨cs, rfl, by obtain ⟨_, _, h⟩ := h1; exact lone_ne h, h1, rfl⟩
  · intro cs ks nl toks h1 h2 _
    subst h2
    exact ⟨cs, rfl, h1⟩

theorem parse_braced {es : List RootEntry} {s : List Char} (h : BracedText es s) (ho : (parse s).isOk = true) :
    ∃ g cs es', (parse s).green = .node .DOCUMENT g ∧ kidsOf [] g = some [([], cs)] ∧ RootObject es' cs ∧
      EntriesAs es' es := by
  obtain ⟨hg, ht, hg'⟩ := h
  obtain ⟨es', i1, i2⟩ := entries_of_braced ht
  obtain ⟨g, st, h1, h2, -⟩ := parse_spec _
  rw [tokenIter_eq] at h1
  have he : st.errors = [] := by
    rw [h2] at ho
    simpa [Parse.isOk] using ho
  obtain ⟨ks, h3, cs, rfl, h4⟩ := braced_reads hg i2 hg' ⟨[], rfl, rfl⟩ _ _ _ h1 he
  exact ⟨g, cs, es', by rw [h2], h3, h4, i1⟩

/-! ## Formatting -/

variable {ind : List Char}

theorem kids_fmt (hi : Blanks ind) {nl : Bool} {ks : List Kid} : ∀ {es : List Entry}, KidNodes nl es ks →
    NoLoneEntries es → (∀ x ∈ ks, ∀ g ∈ x.2, OkG g) → KidsF ind nl es ks := by
  induction ks with
  | nil => intro es h _ _; cases h; exact .nil
  | cons x ks ih =>
    intro es h hn hg
    cases h with
    | @pair _ ls ds k ke kt gk v e gv cs es _ hd hk hkn hv hl hp hrest =>
      rw [NoLoneEntries] at hn
      have hok := hg (ds, cs) (by simp)
      have hgk : OkG gk := by
        obtain ⟨ws, ws', rfl, -, -⟩ := hp
        exact (hok (.node .KEY [gk]) (by simp)).kids _ (by simp)
      have hgv : OkG gv := by
        obtain ⟨ws, ws', rfl, -, -⟩ := hp
        exact (hok (.node .VALUE [gv]) (by simp)).kids _ (by simp)
      refine .cons hd (fun f => ?_) (ih hrest hn.2 fun x hx => hg x (by simp [hx]))
      obtain ⟨s, w, hs⟩ := pair_writes hkn (value_fmt hi hv hn.1 hgv) hp (valueNode_node hv) hgk f
      exact ⟨_, w, e, .inl ⟨ke, kt, [' '], s, rfl, hk, by simp [Blanks, Blank], by simp, hs⟩, hl⟩
    | @lone _ ls ds k ke kt gk cs es _ hd hk hkn hp hrest =>
      rw [NoLoneEntries] at hn
      have hok := hg (ds, cs) (by simp)
      have hgk : OkG gk := by
        obtain ⟨ws, rfl, -⟩ := hp
        exact (hok (.node .KEY [gk]) (by simp)).kids _ (by simp)
      refine .cons hd (fun f => ?_) (ih hrest hn.2 fun x hx => hg x (by simp [hx]))
      exact ⟨_, lone_writes hkn hp hgk f, ke, .inr ⟨rfl, hk⟩,
        fun h => by rcases keyText_tail hk with rfl | rfl <;> simp [lineTail] at h⟩

/-- Texts of several objects, one after the other. -/
inductive ObjectsText : List (List RootEntry) → List Char → Prop
  | nil {g} : Gap false g → ObjectsText [] g
  | cons {g es t ess rest} : Gap false g → BracedEntries es t → ObjectsText ess rest →
      ObjectsText (es :: ess) (g ++ ('{' :: (t ++ rest)))

theorem braced_of_objects {es : List RootEntry} {s : List Char} (h : ObjectsText [es] s) : BracedText es s := by
  cases h with
  | cons h1 h2 h3 => cases h3 with | nil h3 => exact .mk (gap_weaken h1) h2 h3

theorem braced_fmt (hi : Blanks ind) {es : List RootEntry} {es' : List Entry} {cs g : List Green}
    (hk : kidsOf [] g = some [([], cs)]) (h : RootObject es' cs) (has : EntriesAs es' es)
    (hg : OkG (.node .DOCUMENT g)) (hn : ∀ e ∈ es, NoLoneHeredoc e.value) :
    BracedText es (formatCst ind (.node .DOCUMENT g)) := by
  refine braced_of_objects ?_
  rw [formatCst, formatNode]
  have hkids : Kids ind ObjectsText false (fun c => formatNode ind (.node .ENTRY c)) [es] [([], cs)] := by
    refine .cons (fun f => ?_) .nil
    obtain ⟨go, ⟨ocs, ks, rfl, h1, h2⟩, h3⟩ := h
    have hok : OkG (.node .OBJECT ocs) := by
      obtain ⟨k, hm⟩ := kidsOf_mem hk ([], cs) (by simp)
      obtain ⟨ws, rfl, -⟩ := h3
      exact ((hg.kids _ hm).kids (.node .KEY [.node .OBJECT ocs]) (by simp)).kids _ (by simp)
    have hkf := kids_fmt hi h2 (noLone_as has hn) fun x hx => by
      obtain ⟨k, hk'⟩ := kidsOf_mem h1 x hx
      exact (hok.kids _ hk').kids
    obtain ⟨u, w, hu⟩ := object_writes hi hok h1 hkf f
    refine ⟨'{' :: u, by rw [lone_format h3]; exact w, fun ess rest hr dt hdt => ?_⟩
    exact .cons (docDone_nil hdt) (braced_of_entries has hu) hr
  have hrun := formatDocument_run (ind := ind) (match entriesOf g with | e :: _ => isSchemaDeclaration e | [] => false)
    g [] {} {} hg.shape
  generalize formatDocument ind _ [] g {} {} = f' at hrun ⊢
  obtain ⟨t, o1, -, o3, o4⟩ := run_post (P := ObjectsText) (cm := false) hi formatEntry_nil hrun
    (fun h => by simp at h) (fun k t ht => (hg.kids _ ht).leaf) hk hkids
  have hL : Lines f' := o3 (by simp [Lines])
  have hnil : Post ObjectsText false [] [] [] := by
    intro dt hd
    rw [List.append_nil]
    exact .nil (docDone_nil hd)
  have o1 : f'.out = t := by simpa using o1
  unfold Lines at hL
  unfold Fmt.finish
  cases ha : f'.atLineStart with
  | true =>
    rw [ha] at hL
    simp only [if_true] at hL
    rw [if_neg (by rcases hL with h | h <;> simp [h]), o1]
    have hz := o4 [] (by rw [ha]; exact hnil)
    have := hz [] (.nil .nil)
    simpa using this
  | false =>
    rw [ha] at hL
    simp only [Bool.false_eq_true, if_false] at hL
    rw [if_pos ⟨hL.2, hL.1⟩, o1]
    have hz := o4 ['\n'] (by rw [ha]; exact ⟨[], rfl, hnil⟩)
    have := hz [] (.nil .nil)
    simpa using this

end Styx.Cst
