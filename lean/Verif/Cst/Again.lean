import Verif.Cst.AgainNode

/-! # What the source formatter writes for a document it writes again -/

namespace Styx.Cst

open Styx Styx.Spec

variable {ind : List Char}

/-- What is written for the value, and how it is read. -/
def FmtRead (ind : List Char) (v : Value) (e : Tail) (g : Green) : Prop :=
  ∀ f, ∃ u, Writes ind f (formatNode ind g f) u ∧ ValueText v e u ∧ (∀ n, PayloadNode n g → PayloadStart n u) ∧
    (e.notAttrs → AtomReads u e (Same ind g)) ∧ ∀ c, Closing c → ValReads c u e (Same ind g)

theorem fmtRead_atom {v : Value} {e : Tail} {g : Green} (hv : FmtVal ind v e g) (hn : e.notAttrs)
    (h : ∀ f u, Writes ind f (formatNode ind g f) u → ValueText v e u → AtomReads u e (Same ind g)) : FmtRead ind v e g := by
  intro f
  obtain ⟨u, w, hu, hp⟩ := hv f
  have ha := h f u w hu
  exact ⟨u, w, hu, hp, fun _ => ha, fun c hc => val_of_atom hc hu hn ha⟩

theorem noAttrs_scalar {v : List Char} {k : ScalarKind} {e : Tail} {s : List Char} (h : ScalarText v k e s) : e.notAttrs := by
  cases h <;> trivial

/-- The items. -/
def ItemOk (ind : List Char) (nl : Bool) (g : Green) : Prop :=
  ∀ f, ∃ u, Writes ind f (formatNode ind g f) u ∧ ItemR ind nl [.node .KEY [g]] u

theorem itemOk_of {nl : Bool} {v : Value} {e : Tail} {g : Green} (h : FmtRead ind v e g) (ha : e.notAttrs)
    (hl : lineTail e = true → nl = true) (hg : ∃ k c, g = .node k c) : ItemOk ind nl g := by
  intro f
  obtain ⟨u, w, hu, -, hr, -⟩ := h f
  refine ⟨u, w, e, hl, ha, ?_, ?_⟩
  · intro rest p hf
    obtain ⟨t, ts, h1, h2, -⟩ := value_head hu hf p
    rw [head_peek h1]; exact h2
  · intro source rest n p gs st hf hh h herr
    obtain ⟨g', rfl, hs, hst⟩ := hr ha _ _ _ _ _ _ hf hh h herr
    exact ⟨g', rfl, ⟨g, g', rfl, rfl, hs, hg⟩, hst⟩

/-- The entries. -/
def EntOk (ind : List Char) (nl : Bool) (cs : List Green) : Prop :=
  ∀ f, ∃ u, Writes ind f (formatNode ind (.node .ENTRY cs) f) u ∧ ∃ e, (lineTail e = true → nl = true) ∧
    ∀ c, Closing c → EntReads c u e (EntSame ind cs)

theorem entOk_pair {nl : Bool} {k : Value} {ke : Tail} {kt : List Char} {gk : Green} {v : Value} {e : Tail} {gv : Green} {cs : List Green}
    (hk : KeyText k ke kt) (hkn : KeyNode kt gk) (hv : FmtRead ind v e gv) (hl : lineTail e = true → nl = true)
    (hp : PairNode gk gv cs) (hgv : ∃ k c, gv = .node k c) (hgk : OkG gk) : EntOk ind nl cs := by
  intro f
  obtain ⟨s, w, hs, -, -, hr⟩ := pair_writes' hkn hv hp hgv hgk f
  refine ⟨_, w, e, hl, fun c hc => ⟨?_, ?_⟩⟩
  · intro rest p hf
    have e0 : kt ++ [' '] ++ s ++ rest = kt ++ ([' '] ++ (s ++ rest)) := by simp
    rw [e0]
    obtain ⟨t, ts, h1, h2, -⟩ := key_head hk (key_follows hk (follows_blanks (b := [' ']) (s := s ++ rest) (by simp [Blanks, Blank]) (by simp))) p
    rw [head_peek h1]; exact h2
  · intro source rest n p g st hu he hf hh h herr
    have e0 : kt ++ [' '] ++ s ++ rest = kt ++ ([' '] ++ (s ++ ([] ++ rest))) := by simp
    rw [e0] at hh h
    obtain ⟨gk', gv', cs', rfl, h1, h2, h3, h4⟩ := entry_pair hc hk (b := [' ']) (by simp [Blanks, Blank]) (by simp) hs (hr c hc)
      (b2 := []) (by simp [Blanks]) hu he hf hh h herr
    refine ⟨cs', rfl, pair_same hkn h1 h2 hgv hp h3, ?_⟩
    rw [h4]
    congr 2
    simp only [utf8Len_append, utf8Len]
    omega

theorem entOk_lone {nl : Bool} {k : Value} {ke : Tail} {kt : List Char} {gk : Green} {cs : List Green}
    (hk : KeyText k ke kt) (hkn : KeyNode kt gk) (hp : LoneNode gk cs) (hgk : OkG gk) : EntOk ind nl cs := by
  intro f
  refine ⟨_, lone_writes hkn hp hgk f, ke, fun h => by rcases key_tail hk with rfl | rfl <;> simp [lineTail] at h, fun c hc => ⟨?_, ?_⟩⟩
  · intro rest p hf
    obtain ⟨t, ts, h1, h2, -⟩ := key_head hk hf p
    rw [head_peek h1]; exact h2
  · intro source rest n p g st hu he hf hh h herr
    obtain ⟨gk', cs', rfl, h1, h3, h4⟩ := entry_lone hc hk (b2 := []) (by simp [Blanks]) hu he hf hh h
    exact ⟨cs', rfl, lone_same hkn h1 hp h3, h4⟩

theorem entOk_R {nl : Bool} {cs : List Green} (h : EntOk ind nl cs) {c : Option TokenKind} (hc : Closing c) (f : Fmt) :
    ∃ u, Writes ind f (formatNode ind (.node .ENTRY cs) f) u ∧ EntR ind nl c cs u := by
  obtain ⟨u, w, e, h1, h2⟩ := h f
  exact ⟨u, w, e, h1, h2 c hc⟩

/-- If no entry is empty, the entries are the kids. -/
theorem kids_entries : ∀ {cs : List Green} {pend : List (List Char)} {ks : List Kid}, kidsOf pend cs = some ks →
    ∀ c ∈ entriesOf cs, c ≠ [] → ∃ x ∈ ks, x.2 = c := by
  intro cs
  induction cs with
  | nil => intro pend ks _ c hc; simp [entriesOf, nodesOf] at hc
  | cons g gs ih =>
    intro pend ks h c hc hne
    cases g with
    | token k t =>
      rw [entriesOf, nodesOf] at hc
      rw [kidsOf] at h
      split at h
      · exact ih h c hc hne
      · exact ih h c hc hne
    | node k cs' =>
      rw [kidsOf] at h
      have hc' : c = cs' ∨ c ∈ entriesOf gs := by
        rw [entriesOf, nodesOf] at hc
        split at hc
        · exact List.mem_cons.1 hc
        · exact .inr hc
      split at h
      · rename_i he
        rcases hc' with rfl | hc'
        · exact absurd he hne
        · exact ih h c hc' hne
      · obtain ⟨ks', h1, rfl⟩ := Option.map_eq_some_iff.1 h
        rcases hc' with rfl | hc'
        · exact ⟨_, List.mem_cons_self .., rfl⟩
        · obtain ⟨x, hx, hx'⟩ := ih h1 c hc' hne
          exact ⟨x, by simp [hx], hx'⟩

theorem fine_entry {k : SyntaxKind} {cs : List Green} (h : Fine (.node k cs)) : ∀ c ∈ entriesOf cs, c ≠ [] := by
  intro c hc
  have := (h.kids _ (nodesOf_mem c hc)).tidy
  rw [Tidy] at this
  exact this.1 rfl

theorem itemsOf_fine {cs : List Green} (h : ∀ g ∈ cs, Fine g) : ∀ g ∈ itemsOf cs, Fine g := by
  induction cs with
  | nil => intro g hg; simp [itemsOf] at hg
  | cons g' gs ih =>
    have ih := ih fun x hx => h x (by simp [hx])
    intro g hg
    cases g' with
    | token _ _ => rw [itemsOf] at hg; exact ih g hg
    | node k cs =>
      rw [itemsOf.eq_def] at hg
      simp only [List.mem_append] at hg
      rcases hg with hg | hg
      · have hok := h (.node k cs) (by simp)
        split at hg
        · rename_i k' g''
          simp only [List.mem_singleton] at hg
          subst hg
          exact (hok.kids _ (List.mem_singleton.2 rfl)).kids _ (List.mem_singleton.2 rfl)
        · simp at hg
      · exact ih g hg

theorem item_writes {nl : Bool} {k : SyntaxKind} {c : List Green} (h : ItemOk ind nl (.node k c)) (f : Fmt) :
    ∃ u, Writes ind f (formatItem ind [.node .KEY [.node k c]] f) u ∧ ItemR ind nl [.node .KEY [.node k c]] u := by
  rw [formatItem_key]
  exact h f

/-- What is known about attributes that are read. -/
def AttrsRead (ind : List Char) (as : List (List Green)) (gs : List Green) : Prop :=
  All2 (AttrSame ind) as (nodesOf .ATTRIBUTE gs) ∧ ∀ x ∈ gs, IsWs x ∨ ∃ c, x = .node .ATTRIBUTE c

theorem value_again (hi : Blanks ind) {v : Value} {e : Tail} {g : Green} (h : ValueNode v e g) :
    NoLoneHeredoc v → Fine g → FmtRead ind v e g := by
  refine ValueNode.rec
    (motive_1 := fun v e g _ => NoLoneHeredoc v → Fine g → FmtRead ind v e g)
    (motive_2 := fun nl vs gs _ => NoLoneItems vs → (∀ g ∈ gs, Fine g) →
      (∀ g ∈ gs, (∃ k c, g = .node k c) ∧ ItemOk ind nl g) ∧
        (gs.length = 1 → ¬ LoneHeredoc vs → ∀ g ∈ gs, ItemOk ind false g))
    (motive_3 := fun nl es ks _ => NoLoneEntries es → (∀ x ∈ ks, ∀ g ∈ x.2, Fine g) → ∀ x ∈ ks, EntOk ind nl x.2)
    (motive_4 := fun es e as _ => NoLoneEntries es → (∀ a ∈ as, ∀ g ∈ a, Fine g) →
      ∀ cs, nodesOf .ATTRIBUTE cs = as → ∀ f, ∃ u, Writes ind f (formatAttributes ind cs f) u ∧ AttrsText es e u ∧
        AttrReads u e (AttrsRead ind as))
    ?scalar ?heredoc ?unit ?tag ?tagged ?sequence ?object ?attributes ?inil ?icons ?knil ?kpair ?klone ?aone ?acons h
  case scalar =>
    intro v k e t tk h1 h2 h3 hl hg
    refine fmtRead_atom (value_fmt hi (.scalar h1 h2 h3) hl hg.ok) (noAttrs_scalar h1) fun f u w _ => ?_
    obtain rfl := w.unique (writes_scalar f h3 (hg.ok.kids _ (by simp)).leaf)
    intro source rest n p gs st hf _ hp _
    obtain ⟨tk', h4, rfl, rfl⟩ := atom_scalar h1 h2 hf hp
    exact ⟨_, rfl, scalar_same h3 h4, rfl⟩
  case heredoc =>
    intro v e cs h1 h2 hh hl hg
    refine fmtRead_atom (value_fmt hi (.heredoc h1 h2 hh) hl hg.ok) (noAttrs_scalar h1) fun f u w _ => ?_
    obtain ⟨h3, h4⟩ := heredoc_last h1
    rw [formatNode] at w
    obtain rfl := w.unique (write_writes f h3 h4)
    intro source rest n p gs st hf _ hp _
    obtain ⟨cs', h5, rfl, h6, rfl, -⟩ := atom_heredoc h1 hf hp
    exact ⟨_, rfl, heredoc_same h2 h6 h5, rfl⟩
  case unit =>
    intro hl hg
    refine fmtRead_atom (value_fmt hi .unit hl hg.ok) trivial fun f u w _ => ?_
    rw [formatNode] at w
    obtain rfl := w.unique (write_writes f (s := ['@']) (by simp) (by simp))
    intro source rest n p gs st hf _ hp _
    obtain ⟨rfl, rfl⟩ := atom_unit hf hp
    exact ⟨_, rfl, .refl, rfl⟩
  case tag =>
    intro n hn hl hg
    refine fmtRead_atom (value_fmt hi (.tag hn) hl hg.ok) trivial fun f u w _ => ?_
    rw [formatNode] at w
    simp only [formatTag, if_true] at w
    obtain rfl := w.unique (writes_tag f (hg.ok.kids _ (List.mem_singleton.2 rfl)).leaf)
    intro source rest n' p gs st hf _ hp _
    obtain ⟨rfl, rfl⟩ := atom_tag hn hf hp
    exact ⟨_, rfl, .refl, rfl⟩
  case tagged =>
    intro n p e g hn hv hp ih hl hg f
    obtain ⟨k, c, rfl⟩ := valueNode_node hv
    have h1 := (hg.ok.kids (.token .TAG_TOKEN ('@' :: n)) (by simp)).leaf
    have h3 := (hg.kids (.node .TAG_PAYLOAD [.node k c]) (by simp)).kids _ (List.mem_singleton.2 rfl)
    have hl' : NoLoneHeredoc (.mk none (some p) none) := by
      cases p with
      | scalar _ _ _ => simp [NoLoneHeredoc]
      | sequence _ _ => simpa only [NoLoneHeredoc] using hl
      | object _ _ => simpa only [NoLoneHeredoc] using hl
    obtain ⟨u, w, hu, hpu, ha, hc⟩ := ih hl' h3 (f.write ind ('@' :: n))
    have he : e.notAttrs := by
      rcases hp with ⟨k', t, h, -⟩ | ⟨cs, h⟩ | ⟨cs, h⟩
      · cases h
        generalize Value.mk none (some p) none = v' at hv
        cases hv with
        | scalar h1 _ _ => exact noAttrs_scalar h1
      · cases h; cases hv; trivial
      · cases h; cases hv; trivial
    have hps := hpu n hp
    have hv' : ValueText (.mk (some ⟨n, none⟩) (some p) none) e ('@' :: n ++ u) := .tagged hn hu hps
    have hat : AtomReads ('@' :: n ++ u) e
        (Same ind (.node .TAG [.token .TAG_TOKEN ('@' :: n), .node .TAG_PAYLOAD [.node k c]])) := by
      intro source rest m q gs st hf hh h herr
      rw [List.append_assoc] at hh h
      obtain ⟨m', g, h1, rfl⟩ := atom_tagged hn hps (payload_head hu hps hf) h
      obtain ⟨g, rfl, h2, rfl⟩ := ha he _ _ _ _ _ _ hf hh.tail h1 herr
      exact ⟨_, rfl, tagged_same h2 ⟨_, _, rfl⟩, by rw [utf8Len_append, Nat.add_assoc]⟩
    refine ⟨'@' :: n ++ u, ?_, hv', ?_, fun _ => hat, fun c hc => val_of_atom hc hv' he hat⟩
    · rw [formatNode]
      simp only [formatTag, if_true, formatPayload]
      exact (writes_tag f h1).trans w
    · rintro n (⟨k', t', he, hp⟩ | ⟨cs, he⟩ | ⟨cs, he⟩) <;> cases he
  case sequence =>
    intro vs cs hn ih hl hg
    refine fmtRead_atom (value_fmt hi (.sequence hn) hl hg.ok) trivial fun f u w _ => ?_
    rw [NoLoneHeredoc] at hl
    obtain ⟨h1, h2⟩ := ih hl.2 (itemsOf_fine hg.kids)
    have hent := itemsOf_entries cs (sequence_inner hg.ok)
    have hlen := congrArg List.length hent
    rw [List.length_map] at hlen
    obtain ⟨u', w', hr⟩ := sequence_again hi hg
      (by
        intro c hc f
        rw [hent] at hc
        obtain ⟨g, hg, rfl⟩ := List.mem_map.1 hc
        obtain ⟨⟨k, c, rfl⟩, hi⟩ := h1 g hg
        exact item_writes hi f)
      (by
        intro hone c hc f
        rw [hlen] at hone
        rw [hent] at hc
        obtain ⟨g, hg, rfl⟩ := List.mem_map.1 hc
        obtain ⟨⟨k, c, rfl⟩, -⟩ := h1 g hg
        exact item_writes (h2 hone hl.1 _ hg) f) f
    obtain rfl := w.unique w'
    exact hr
  case object =>
    intro es ks cs hk hn hd ih hl hg
    refine fmtRead_atom (value_fmt hi (.object hk hn hd) hl hg.ok) trivial fun f u w _ => ?_
    rw [NoLoneHeredoc] at hl
    have h1 := ih hl fun x hx => by
      obtain ⟨k, hk'⟩ := kidsOf_mem hk x hx
      exact (hg.kids _ hk').kids
    obtain ⟨u', w', hr⟩ := object_again hi hg
      (by
        intro c hc f
        obtain ⟨x, hx, rfl⟩ := kids_entries hk c hc (fine_entry hg c hc)
        exact entOk_R (h1 x hx) (.inr rfl) f) f
    obtain rfl := w.unique w'
    exact hr
  case attributes =>
    intro es e cs hn ih hl hg f
    rw [NoLoneHeredoc] at hl
    obtain ⟨u, w, hu, hr⟩ := ih hl (fun a ha => (hg.kids _ (nodesOf_mem a ha)).kids) cs rfl f
    refine ⟨u, ?_, .attributes hu, ?_, fun h => h.elim, ?_⟩
    · rw [formatNode]
      exact w
    · rintro n (⟨k', t', he, hp⟩ | ⟨cs, he⟩ | ⟨cs, he⟩) <;> cases he
    · intro c hc source b u n p gs st hb hu' he hf hh h herr
      obtain ⟨gv, ws, h1, h2, ⟨gs', rfl, h3, h4⟩, h5⟩ := val_of_attrs' hc hu hr _ _ _ _ _ _ _ hb hu' he hf hh h herr
      exact ⟨_, ws, h1, h2, attributes_same hg.ok.shape h4 h3, h5⟩
  case inil => intro nl _ _; exact ⟨by simp, fun h => by simp at h⟩
  case icons =>
    intro nl v e g vs gs hv ha hl hit ih1 ih2 hn hg
    rw [NoLoneItems] at hn
    have hnode := valueNode_node hv
    have h1 := ih1 hn.1 (hg _ (by simp))
    obtain ⟨h2, h3⟩ := ih2 hn.2 fun x hx => hg x (by simp [hx])
    refine ⟨?_, ?_⟩
    · intro x hx
      rcases List.mem_cons.1 hx with rfl | hx
      · exact ⟨hnode, itemOk_of h1 ha hl hnode⟩
      · exact h2 x hx
    · intro hlen hlone x hx
      obtain rfl : gs = [] := by simpa using hlen
      obtain rfl : x = g := by simpa using hx
      refine itemOk_of h1 ha (fun hlt => ?_) hnode
      obtain ⟨y, rfl⟩ := lineTail_heredoc hv ha hlt
      cases hit
      simp [LoneHeredoc, scalarValue] at hlone
  case knil => intro nl _ _ x hx; simp at hx
  case kpair =>
    intro nl ls ds k ke kt gk v e gv cs es ks hd hk hkn hv hl hp _ ih1 ih2 hn hg x hx
    rw [NoLoneEntries] at hn
    rcases List.mem_cons.1 hx with rfl | hx
    · have hok := hg (ds, cs) (by simp)
      have hgk : Fine gk := by
        obtain ⟨ws, ws', rfl, -, -⟩ := hp
        exact (hok (.node .KEY [gk]) (by simp)).kids _ (by simp)
      have hgv : Fine gv := by
        obtain ⟨ws, ws', rfl, -, -⟩ := hp
        exact (hok (.node .VALUE [gv]) (by simp)).kids _ (by simp)
      exact entOk_pair hk hkn (ih1 hn.1 hgv) hl hp (valueNode_node hv) hgk.ok
    · exact ih2 hn.2 (fun x hx => hg x (by simp [hx])) x hx
  case klone =>
    intro nl ls ds k ke kt gk cs es ks hd hk hkn hp _ ih2 hn hg x hx
    rw [NoLoneEntries] at hn
    rcases List.mem_cons.1 hx with rfl | hx
    · have hok := hg (ds, cs) (by simp)
      have hgk : Fine gk := by
        obtain ⟨ws, rfl, -⟩ := hp
        exact (hok (.node .KEY [gk]) (by simp)).kids _ (by simp)
      exact entOk_lone hk hkn hp hgk.ok
    · exact ih2 hn.2 (fun x hx => hg x (by simp [hx])) x hx
  case aone =>
    intro k v e g hk hv ha ih hn hg cs hcs f
    rw [NoLoneEntries] at hn
    obtain ⟨gk, gc, rfl⟩ := valueNode_node hv
    have hok := hg _ (List.mem_singleton.2 rfl)
    have hl := (hok (.token .BARE_SCALAR k) (by simp)).ok.leaf
    obtain ⟨gs', e1, e2⟩ := formatAttributes_cons (ind := ind) cs f hcs
    rw [e2, formatAttributes_none _ _ e1]
    obtain ⟨s, w, hs, -, hr, -⟩ := attribute_writes' hl (ih hn.1 (hok _ (by simp))) f
    refine ⟨_, w, .one hk hs ha, ?_⟩
    intro source c b u n p gs st hc hb hu hbare hf hh h herr
    obtain ⟨⟨gv, ws, rfl, h1, h2⟩, h3⟩ := attrs_one' hk hs (hr ha) _ _ _ _ _ _ _ _ hc hb hu hbare hf hh h herr
    refine ⟨⟨?_, ?_⟩, h3⟩
    · rw [nodesOf, if_pos rfl, nodesOf_ws _ ws h1]
      exact .cons (attr_same h2 ⟨_, _, rfl⟩) .nil
    · intro x hx
      rcases List.mem_cons.1 hx with rfl | hx
      · exact .inr ⟨_, rfl⟩
      · exact .inl (h1 x hx)
  case acons =>
    intro k v e g es e' as hk hv ha hl _ ih ih2 hn hg cs hcs f
    rw [NoLoneEntries] at hn
    obtain ⟨gk, gc, rfl⟩ := valueNode_node hv
    have hok := hg _ (List.mem_cons_self ..)
    have hleaf := (hok (.token .BARE_SCALAR k) (by simp)).ok.leaf
    obtain ⟨gs', e1, e2⟩ := formatAttributes_cons (ind := ind) cs f hcs
    obtain ⟨s, w, hs, -, hr, -⟩ := attribute_writes' hleaf (ih hn.1 (hok (.node gk gc) (by simp))) f
    have hne : as.isEmpty = false := by
      rename_i h
      cases h <;> rfl
    rw [e2, hne]
    simp only [Bool.false_eq_true, if_false]
    have w2 := write_writes (ind := ind) (formatAttribute ind [.token .BARE_SCALAR k, .token .GT ['>'], .node gk gc] f)
      (s := [' ']) (by simp) (by simp)
    obtain ⟨u, w3, hu, hru⟩ := ih2 hn.2 (fun a ha => hg a (by simp [ha])) gs' e1 _
    have hb1 : Blanks [' '] := by simp [Blanks, Blank]
    have hfe : Follows e ([' '] ++ u) := follows_blank hl ha u
    refine ⟨_, (w.trans w2).trans w3, ?_, ?_⟩
    · have := AttrsText.cons (b := [' ']) hk hs ha hb1 hu hfe
      simpa using this
    · intro source c b u' n p gs st hc hb hu' hbare hf hh h herr
      obtain ⟨⟨gv, ws, g3, rfl, h1, h2, ⟨h4, h5⟩, -⟩, h3⟩ :=
        attrs_cons' hk hs ha hb1 hu hfe (hr ha) hru _ _ _ _ _ _ _ _ hc hb hu' hbare hf hh h herr
      refine ⟨⟨?_, ?_⟩, h3⟩
      · rw [nodesOf_app, nodesOf, if_pos rfl, nodesOf_ws _ ws h1, List.singleton_append]
        exact .cons (attr_same h2 ⟨_, _, rfl⟩) h4
      · intro x hx
        rcases List.mem_append.1 hx with hx | hx
        · rcases List.mem_cons.1 hx with rfl | hx
          · exact .inr ⟨_, rfl⟩
          · exact .inl (h1 x hx)
        · exact h5 x hx

/-! ## Documents -/

theorem root_again (hi : Blanks ind) {es : List RootEntry} {ks : List Kid} (h : RootNodes es ks) :
    (∀ e ∈ es, NoLoneHeredoc e.value) → (∀ x ∈ ks, ∀ g ∈ x.2, Fine g) → ∀ x ∈ ks, EntOk ind true x.2 := by
  induction h with
  | nil => intro _ _ x hx; simp at hx
  | @pair ls ds ks path ke kt gk v e gv cs es kids hd hk hkn hv hp _ ih =>
    intro hn hg x hx
    rcases List.mem_cons.1 hx with rfl | hx
    · have hok := hg (ds, cs) (by simp)
      have hgk : Fine gk := by
        obtain ⟨ws, ws', rfl, -, -⟩ := hp
        exact (hok (.node .KEY [gk]) (by simp)).kids _ (by simp)
      have hgv : Fine gv := by
        obtain ⟨ws, ws', rfl, -, -⟩ := hp
        exact (hok (.node .VALUE [gv]) (by simp)).kids _ (by simp)
      obtain ⟨k, hk'⟩ := rootKey hk
      exact entOk_pair hk' hkn (value_again hi hv (hn _ (List.mem_cons_self ..)) hgv) (fun _ => rfl) hp (valueNode_node hv) hgk.ok
    · exact ih (fun x hx => hn x (by simp [hx])) (fun x hx => hg x (by simp [hx])) x hx
  | @lone ls ds ks path ke kt gk cs es kids hd hk hkn hp _ ih =>
    intro hn hg x hx
    rcases List.mem_cons.1 hx with rfl | hx
    · have hok := hg (ds, cs) (by simp)
      have hgk : Fine gk := by
        obtain ⟨ws, rfl, -⟩ := hp
        exact (hok (.node .KEY [gk]) (by simp)).kids _ (by simp)
      obtain ⟨k, hk'⟩ := rootKey hk
      exact entOk_lone hk' hkn hp hgk.ok
    · exact ih (fun x hx => hn x (by simp [hx])) (fun x hx => hg x (by simp [hx])) x hx

theorem runDoc_lines {dc : Bool} {R : List Green → List Char → Prop} (schema : Bool) : ∀ (ls : List (Nat × Ln)) (d : DocState) (f : Fmt),
    (∀ x ∈ ls, LineOk ind dc R (fun c => formatNode ind (.node .ENTRY c)) x.2) → ls ≠ [] ∨ Lines f → Lines (runDoc ind schema d ls f)
  | [], d, f, _, h => by
    rw [runDoc]
    simpa using h
  | (n, .com t) :: ls, d, f, h, _ => by
    rw [runDoc]
    obtain ⟨u, w, -⟩ := put_writes (h (n, .com t) (by simp)) (f.breakLine d.wrote n)
    exact runDoc_lines schema ls _ _ (fun x hx => h x (by simp [hx])) (.inr (lines_writes w))
  | (n, .doc t) :: ls, d, f, h, _ => by
    rw [runDoc]
    obtain ⟨u, w, -⟩ := put_writes (h (n, .doc t) (by simp)) (({ d with newlines := n } : DocState).beforeDoc schema f)
    exact runDoc_lines schema ls _ _ (fun x hx => h x (by simp [hx])) (.inr (lines_writes w))
  | (n, .ent c) :: ls, d, f, h, _ => by
    rw [runDoc]
    obtain ⟨u, w, -⟩ := put_writes (h (n, .ent c) (by simp)) (({ d with newlines := n } : DocState).beforeEntry schema (isBlockEntry c) f)
    exact runDoc_lines schema ls _ _ (fun x hx => h x (by simp [hx])) (.inr (lines_writes w))

theorem normD_entries (schema : Bool) : ∀ (ls : List (Nat × Ln)) (d : DocState),
    (normD schema d ls).filterMap (·.2.entry) = ls.filterMap (·.2.entry)
  | [], _ => rfl
  | (n, .com t) :: ls, d => by
    rw [normD, List.filterMap_cons, List.filterMap_cons, normD_entries schema ls]
  | (n, .doc t) :: ls, d => by
    rw [normD, List.filterMap_cons, List.filterMap_cons, normD_entries schema ls]
  | (n, .ent c) :: ls, d => by
    rw [normD, List.filterMap_cons, List.filterMap_cons, normD_entries schema ls]

theorem lnsRel_mono {R R' : List Green → List Green → Prop} (h : ∀ c c', R c c' → R' c c') {ls ls' : List (Nat × Ln)}
    (hl : LnsRel R ls ls') : LnsRel R' ls ls' := by
  induction hl with
  | nil => exact .nil
  | cons h1 _ ih =>
    refine .cons ?_ ih
    cases h1 with
    | com => exact .com
    | doc => exact .doc
    | ent hr => exact .ent (h _ _ hr)

/-- Whether the first entry is the declaration of a schema. -/
abbrev firstSchema (cs : List Green) : Bool := match entriesOf cs with | e :: _ => isSchemaDeclaration e | [] => false

theorem format_document {cs : List Green} (he : ∀ g ∈ cs, Elem g) (hd : DocNext false cs) :
    formatCst ind (.node .DOCUMENT cs) = (runDoc ind (firstSchema cs) {} (items false 0 cs) {}).finish := by
  rw [formatCst, formatNode]
  rw [formatDocument_items _ cs [] {} {} he hd rfl]
  rfl

/-- If each entry is written so that it is read as an entry written in the same way, so is the document. -/
theorem document_again_of (hi : Blanks ind) {cs : List Green} (hg : Fine (.node .DOCUMENT cs))
    (hent' : ∀ c ∈ entriesOf cs, ∀ f, ∃ u, Writes ind f (formatNode ind (.node .ENTRY c) f) u ∧ EntR ind true none c u)
    (ho : (parse (formatCst ind (.node .DOCUMENT cs))).isOk = true) :
    formatCst ind (parse (formatCst ind (.node .DOCUMENT cs))).green = formatCst ind (.node .DOCUMENT cs) := by
  have hel : ∀ g ∈ cs, Elem g := hg.ok.shape
  have hneat := hg.neat
  rw [Neat] at hneat
  have hdn := hneat.2.1 rfl
  have hok : ∀ x ∈ items false 0 cs, LineOk ind true (EntR ind true none) (fun c => formatNode ind (.node .ENTRY c)) x.2 := by
    intro x hx
    rcases items_mem hx with ⟨t, h1, h2⟩ | ⟨t, h1, h2⟩ | ⟨k, c, h1, h2⟩
    · rw [h1]; exact line_comment (hg.ok.kids _ h2).leaf
    · rw [h1]; exact ⟨rfl, doc_comment (hg.ok.kids _ h2).leaf⟩
    · rw [h1]
      obtain rfl : k = .ENTRY := hel _ h2
      exact hent' c (mem_entriesOf h2)
  have hfmt := format_document (ind := ind) hel hdn
  by_cases hemp : items false 0 cs = []
  · have e1 : formatCst ind (.node .DOCUMENT cs) = [] := by
      rw [hfmt, hemp]
      rfl
    rw [e1]
    have e2 : (parse []).green = .node .DOCUMENT [] := rfl
    rw [e2, formatCst, formatNode]
    rfl
  · obtain ⟨s, o1, o2, o3, o4⟩ := runDoc_printed (firstSchema cs) (items false 0 cs) {} {} hok rfl (.inl hemp)
    have hL := runDoc_lines (firstSchema cs) (items false 0 cs) {} {} hok (.inl hemp)
    have o1 : (runDoc ind (firstSchema cs) {} (items false 0 cs) {}).out = s := by simpa using o1
    have hout : formatCst ind (.node .DOCUMENT cs) = s ++ '\n' :: [] := by
      rw [hfmt, Fmt.finish]
      rw [Lines, o3] at hL
      simp only [Bool.false_eq_true, if_false] at hL
      rw [if_pos ⟨hL.2, hL.1⟩, o1]
    rw [hout] at ho
    obtain ⟨g, st, h1, h2, -⟩ := parse_spec (s ++ '\n' :: [])
    rw [tokenIter_eq] at h1
    have herr : st.errors = [] := by
      rw [h2] at ho
      simpa [Parse.isOk] using ho
    obtain ⟨ts, er⟩ := st
    simp only at herr
    subst herr
    have hF := lines_read (fin := toksAt [] (0 + utf8Len s + utf8Len ['\n'])) hi
      (loop_entries (source := s ++ '\n' :: []) (ind := ind) (.inl rfl) true) o4
      (z := []) (fun p => noCom_end (b := []) (x := []) (by simp [Blanks]) (.inl rfl) p) false 0 g ts
      (docOk_normD (docOk_items hdn)) ⟨[], rfl, rfl⟩
      (fun g ts' hz => lines_end (b := []) (x := []) (loop_entries (source := s ++ '\n' :: []) (ind := ind) (.inl rfl) true)
        (by simp [Blanks]) (by intro c r e; cases e)
        (fun p g ts' h => entLoop_end (.inl ⟨rfl, rfl⟩) h) hz) ⟨_, h1⟩
    obtain ⟨⟨f1, -, -, f4⟩, -⟩ := hF
    have hneat' := parse_neat (s ++ '\n' :: []) (by rw [h2])
    rw [hout]
    rw [h2] at hneat' ⊢
    simp only at hneat' ⊢
    rw [Neat] at hneat'
    rw [format_document f4 (hneat'.2.1 rfl), ← hout, hfmt]
    have f1 := f1 false 0
    rw [bump_zero] at f1
    obtain ⟨a1, -, -⟩ := lns_facts f1
    rw [normD_entries] at a1
    obtain ⟨i1, -, -⟩ := inner_items (rst := false) (n := 0) (fun x hx => .inl (hel x hx))
    obtain ⟨j1, -, -⟩ := inner_items (rst := false) (n := 0) (fun x hx => .inl (f4 x hx))
    rw [← i1, ← j1] at a1
    have hschema : firstSchema g = firstSchema cs := by
      unfold firstSchema
      generalize entriesOf cs = as at a1
      generalize entriesOf g = bs at a1
      cases a1 with
      | nil => rfl
      | cons h _ => exact h.schema
    rw [hschema, runDoc_again _ _ _ _ _ (lnsRel_mono (fun c c' h => ⟨h.fmt, h.block⟩) f1)]

theorem document_again (hi : Blanks ind) {es : List RootEntry} {ks : List Kid} {cs : List Green} (h : RootNodes es ks)
    (hk : kidsOf [] cs = some ks) (hg : Fine (.node .DOCUMENT cs)) (hn : ∀ e ∈ es, NoLoneHeredoc e.value)
    (ho : (parse (formatCst ind (.node .DOCUMENT cs))).isOk = true) :
    formatCst ind (parse (formatCst ind (.node .DOCUMENT cs))).green = formatCst ind (.node .DOCUMENT cs) := by
  have hent := root_again hi h hn fun x hx => by
    obtain ⟨k, hk'⟩ := kidsOf_mem hk x hx
    exact (hg.kids _ hk').kids
  refine document_again_of hi hg (fun c hc f => ?_) ho
  obtain ⟨x, hx, rfl⟩ := kids_entries hk c hc (fine_entry hg c hc)
  exact entOk_R (hent x hx) (.inl rfl) f

end Styx.Cst
