import Verif.Cst.Again
import Verif.Cst.Braced

/-! # What the source formatter writes for a document with braces around the root that it writes again -/

namespace Styx.Cst

open Styx Styx.Spec

variable {ind : List Char}

theorem kids_again (hi : Blanks ind) {nl : Bool} {ks : List Kid} : ∀ {es : List Entry}, KidNodes nl es ks →
    NoLoneEntries es → (∀ x ∈ ks, ∀ g ∈ x.2, Fine g) → ∀ x ∈ ks, EntOk ind nl x.2 := by
  induction ks with
  | nil => intro es _ _ _ x hx; simp at hx
  | cons y ks ih =>
    intro es h hn hg x hx
    cases h with
    | @pair _ ls ds k ke kt gk v e gv cs es _ hd hk hkn hv hl hp hrest =>
      rw [NoLoneEntries] at hn
      rcases List.mem_cons.1 hx with rfl | hx
      · have hok := hg (ds, cs) (by simp)
        have hgk : Fine gk := by
          obtain ⟨ws, ws', rfl, -, -⟩ := hp
          exact (hok (.node .KEY [gk]) (by simp)).kids _ (by simp)
        have hgv : Fine gv := by
          obtain ⟨ws, ws', rfl, -, -⟩ := hp
          exact (hok (.node .VALUE [gv]) (by simp)).kids _ (by simp)
        exact entOk_pair hk hkn (value_again hi hv hn.1 hgv) hl hp (valueNode_node hv) hgk.ok
      · exact ih hrest hn.2 (fun x hx => hg x (by simp [hx])) x hx
    | @lone _ ls ds k ke kt gk cs es _ hd hk hkn hp hrest =>
      rw [NoLoneEntries] at hn
      rcases List.mem_cons.1 hx with rfl | hx
      · have hok := hg (ds, cs) (by simp)
        have hgk : Fine gk := by
          obtain ⟨ws, rfl, -⟩ := hp
          exact (hok (.node .KEY [gk]) (by simp)).kids _ (by simp)
        exact entOk_lone hk hkn hp hgk.ok
      · exact ih hrest hn.2 (fun x hx => hg x (by simp [hx])) x hx

/-- The entry of the object between the braces of the root. -/
theorem rootObject_again (hi : Blanks ind) {es : List Entry} {cs : List Green} (h : RootObject es cs)
    (hn : NoLoneEntries es) (hg : ∀ g ∈ cs, Fine g) (f : Fmt) :
    ∃ u, Writes ind f (formatNode ind (.node .ENTRY cs) f) u ∧ EntR ind true none cs u := by
  obtain ⟨go, ⟨ocs, ks, rfl, h1, h2⟩, h3⟩ := h
  have hok : Fine (.node .OBJECT ocs) := by
    obtain ⟨ws, rfl, -⟩ := h3
    exact (hg (.node .KEY [.node .OBJECT ocs]) (by simp)).kids _ (by simp)
  have hk := kids_again hi h2 hn fun x hx => by
    obtain ⟨k, hk'⟩ := kidsOf_mem h1 x hx
    exact (hok.kids _ hk').kids
  obtain ⟨u, w, hr⟩ := object_again hi hok
    (by
      intro c hc f
      obtain ⟨x, hx, rfl⟩ := kids_entries h1 c hc (fine_entry hok c hc)
      exact entOk_R (hk x hx) (.inr rfl) f) f
  have hkf := kids_fmt hi h2 hn fun x hx => by
    obtain ⟨k, hk'⟩ := kidsOf_mem h1 x hx
    exact (hok.ok.kids _ hk').kids
  obtain ⟨t, w', ht⟩ := object_writes hi hok.ok h1 hkf f
  obtain rfl := w.unique w'
  refine ⟨'{' :: t, by rw [lone_format h3]; exact w, .closed, fun h => by simp [lineTail] at h, ?_, ?_⟩
  · intro rest p _
    rw [List.cons_append, toks_lbrace]; simp [St.peek, AtomStart]
  · intro source rest n p g st hu he _ hh hp herr
    cases n with
    | zero => simp [parseEntry] at hp
    | succ n =>
      have e1 : toksAt ('{' :: t ++ rest) p = ⟨.lbrace, p, p + 1, ['{']⟩ :: toksAt (t ++ rest) (p + 1) :=
        toks_lbrace _ _
      have hs : AtomStart (St.peek ⟨toksAt ('{' :: t ++ rest) p, []⟩) := by rw [head_peek e1]; simp [AtomStart]
      have ha : St.atAttribute source ⟨toksAt ('{' :: t ++ rest) p, []⟩ = false := by
        rw [e1]; simp [St.atAttribute]
      rw [parseEntry, if_neg (by rw [ha]; simp), if_neg (by rw [atomStart_notEnd (.inl rfl) hs]; simp)] at hp
      simp only [Option.bind_eq_bind, Option.bind_eq_some_iff,
        Prod.exists, Option.some.injEq, Prod.mk.injEq] at hp
      obtain ⟨g1, st1, ⟨g, st', h5, rfl, rfl⟩, g3, st3, h6, rfl, rfl⟩ := hp
      have e1 : st'.skipWs.2.errors = [] := (allClean source n).2.2.1 _ _ _ _ h6 herr
      have e2 : st'.errors = [] := e1
      obtain ⟨g', hg', ⟨ocs', ks', rfl, -, -⟩, -⟩ := atom_entries (entries_read ht) _ _ _ _ _ _ (by trivial) hh h5 e2
      obtain ⟨g, rfl, h7, rfl⟩ := hr _ _ _ _ _ _ (by trivial) hh h5 e2
      obtain rfl : g = .node .OBJECT ocs' := by simpa using hg'
      obtain ⟨ws, hw, hws, -⟩ := skipWs_at (b := []) (p := p + utf8Len ('{' :: t)) (e := []) (by simp [Blanks]) hu
      rw [List.nil_append] at hw
      rw [hw] at h6
      have := values_done (he _ _) h6
      cases this
      have hp' : LoneNode (.node .OBJECT ocs') (.node .KEY [.node .OBJECT ocs'] :: ws) := ⟨ws, rfl, hws⟩
      obtain ⟨a1, a2, a3, a4⟩ := lone_facts (ind := ind) h3 ⟨_, _, rfl⟩
      obtain ⟨b1, b2, b3, b4⟩ := lone_facts (ind := ind) hp' ⟨_, _, rfl⟩
      refine ⟨_, rfl, ?_, by simp [utf8Len]⟩
      rw [hw]
      simp only [List.append_nil, List.cons_append, List.nil_append]
      refine ⟨fun f => ?_, ?_, ?_, ?_⟩
      · rw [a1, b1, h7.fmt]
      · rw [a2, b2, h7.block]
      · rw [a3, b3]
      · rw [a4, b4]; rfl

theorem braced_again (hi : Blanks ind) {es : List RootEntry} {es' : List Entry} {cs g : List Green}
    (hk : kidsOf [] g = some [([], cs)]) (h : RootObject es' cs) (has : EntriesAs es' es)
    (hg : Fine (.node .DOCUMENT g)) (hn : ∀ e ∈ es, NoLoneHeredoc e.value)
    (ho : (parse (formatCst ind (.node .DOCUMENT g))).isOk = true) :
    formatCst ind (parse (formatCst ind (.node .DOCUMENT g))).green = formatCst ind (.node .DOCUMENT g) := by
  refine document_again_of hi hg (fun c hc f => ?_) ho
  obtain ⟨x, hx, rfl⟩ := kids_entries hk c hc (fine_entry hg c hc)
  obtain rfl : x = ([], cs) := by simpa using hx
  obtain ⟨k, hm⟩ := kidsOf_mem hk ([], cs) (by simp)
  exact rootObject_again hi h (noLone_as has hn) (hg.kids _ hm).kids f

end Styx.Cst
