import Verif.Cst.ViewSpec
import Verif.Cst.CheckText

/-! # The typed views of a parsed document show the document -/

namespace Styx.Cst

open Styx Styx.Spec

/-! ## Entries -/

/-- The entries with the siblings before them, and the entries that are not empty with their doc comments. -/
inductive Aligned : List (List Green × List Green) → List Kid → Prop
  | nil : Aligned [] []
  | skip {prev l ks} : Aligned l ks → Aligned ((prev, []) :: l) ks
  | cons {prev ds cs l ks} : docComments prev <+: ds.reverse → Aligned l ks → Aligned ((prev, cs) :: l) ((ds, cs) :: ks)

theorem aligned_kids : ∀ {cs : List Green} {pend : List (List Char)} {ks : List Kid} {rev : List Green},
    (∀ k c, .node k c ∈ cs → k = .ENTRY) → kidsOf pend cs = some ks → docComments rev <+: pend.reverse →
    Aligned (viewEntries rev cs) ks := by
  intro cs
  induction cs with
  | nil =>
    intro pend ks rev _ h _
    rw [kidsOf] at h
    split at h <;> cases h
    exact .nil
  | cons g gs ih =>
    intro pend ks rev hn h hp
    have hn' : ∀ k c, .node k c ∈ gs → k = .ENTRY := fun k c hm => hn k c (List.mem_cons_of_mem _ hm)
    cases g with
    | token k t =>
      rw [viewEntries]
      rw [kidsOf] at h
      split at h
      · rename_i hk
        refine ih hn' h ?_
        rw [docComments, if_pos hk, List.reverse_append, List.reverse_singleton, List.singleton_append]
        exact (List.cons_prefix_cons).2 ⟨rfl, hp⟩
      · rename_i hk
        refine ih hn' h ?_
        rw [docComments, if_neg hk]
        split
        · exact hp
        · exact List.nil_prefix
    | node k c =>
      obtain rfl := hn k c (List.mem_cons_self ..)
      rw [viewEntries, if_pos rfl]
      rw [kidsOf] at h
      split at h
      · rename_i hc
        subst hc
        exact .skip (ih hn' h (by rw [docComments]; exact List.nil_prefix))
      · obtain ⟨ks', h1, rfl⟩ := Option.map_eq_some_iff.1 h
        exact .cons hp (ih hn' h1 (by rw [docComments]; exact List.nil_prefix))

theorem aligned_cons {P : List (List Green × List Green) → Prop} {ds : List (List Char)} {cs : List Green} {ks : List Kid}
    (hs : ∀ prev l, P l → P ((prev, []) :: l))
    (hc : ∀ prev l, docComments prev <+: ds.reverse → Aligned l ks → P ((prev, cs) :: l))
    {l : List (List Green × List Green)} (h : Aligned l ((ds, cs) :: ks)) : P l := by
  generalize hx : (ds, cs) :: ks = xs at h
  induction h with
  | nil => cases hx
  | skip _ ih => exact hs _ _ (ih hx)
  | cons h1 h2 => cases hx; exact hc _ _ h1 h2

theorem aligned_nil {P : List (List Green × List Green) → Prop} (h0 : P [])
    (hs : ∀ prev l, P l → P ((prev, []) :: l))
    {l : List (List Green × List Green)} (h : Aligned l []) : P l := by
  generalize hx : ([] : List Kid) = xs at h
  induction h with
  | nil => exact h0
  | skip _ ih => exact hs _ _ (ih hx)
  | cons h1 h2 => cases hx

theorem shows_docs {ls ds : List (List Char)} (h : DocTexts ls ds) {shown : List (List Char)}
    (hp : shown <+: ds.reverse) : ShowsDocs shown (docOf ls) := by
  refine ⟨ls, ds, rfl, ?_, ?_, hp⟩
  · clear hp
    induction h with
    | nil => rfl
    | cons _ _ _ ih => simp [ih]
  · clear hp
    induction h with
    | nil => simp
    | cons h1 _ _ ih =>
      intro p hp
      rw [List.zip_cons_cons, List.mem_cons] at hp
      rcases hp with rfl | hp
      · rcases h1 with rfl | ⟨rfl, -⟩
        · exact .inr rfl
        · exact .inl rfl
      · exact ih p hp

theorem nodesOf_blanks {k : SyntaxKind} : ∀ {ws : List Green} (gs : List Green), (∀ g ∈ ws, IsWs g) →
    nodesOf k (ws ++ gs) = nodesOf k gs := by
  intro ws
  induction ws with
  | nil => intros; rfl
  | cons g ws ih =>
    intro gs h
    obtain ⟨t, rfl⟩ := h g (by simp)
    rw [List.cons_append, nodesOf]
    exact ih gs fun x hx => h x (by simp [hx])

theorem pair_views {gk gv : Green} {cs : List Green} (h : PairNode gk gv cs) :
    entryKey cs = some [gk] ∧ entryValue cs = some [gv] := by
  obtain ⟨ws, ws', rfl, h1, h2⟩ := h
  constructor
  · simp [entryKey, nodesOf]
  · simp [entryValue, nodesOf, nodesOf_blanks _ h1]

theorem lone_views {gk : Green} {cs : List Green} (h : LoneNode gk cs) :
    entryKey cs = some [gk] ∧ entryValue cs = none := by
  obtain ⟨ws, rfl, h1⟩ := h
  have := nodesOf_blanks (k := .VALUE) [] h1
  constructor
  · simp [entryKey, nodesOf]
  · simp only [List.append_nil] at this
    simp [entryValue, nodesOf, this]

theorem valueKind_one {g : Green} {k : ViewKind} (h : castNode g = some k) : valueKind [g] = k := by
  simp [valueKind, h]

/-! ## Values -/

theorem noAttributes_mem : ∀ {cs : List Green}, NoAttributesL cs → ∀ g ∈ cs, NoAttributes g := by
  intro cs
  induction cs with
  | nil => intro _ g hg; simp at hg
  | cons x cs ih =>
    intro h g hg
    rw [NoAttributesL] at h
    rcases List.mem_cons.1 hg with rfl | hg
    · exact h.1
    · exact ih h.2 g hg

/-- A good tree without unicode escapes and attributes. -/
structure Clear (g : Green) : Prop where
  calm : Calm g
  plain : NoAttributes g

theorem Clear.kids {k : SyntaxKind} {cs : List Green} (h : Clear (.node k cs)) : ∀ g ∈ cs, Clear g :=
  fun g hg => ⟨h.calm.kids g hg, (by have := h.plain; rw [NoAttributes] at this; exact noAttributes_mem this.2 g hg)⟩

theorem scalar_kind {v : List Char} {k : ScalarKind} {e : Tail} {t : List Char} {tk : SyntaxKind}
    (h : ScalarText v k e t) (hk : k ≠ .heredoc) (htk : ScalarTok tk) (hl : LeafText tk t) :
    viewScalarKind [.token tk t] = k := by
  cases h with
  | bare hb =>
    obtain ⟨h1, c, r, rfl, h2⟩ := hb
    rcases htk with rfl | rfl | rfl
    · rfl
    · obtain ⟨body, h3, -⟩ := hl
      cases h3
      exact absurd (by simp [bareForbidden]) (h1 '"' (by simp)).1
    · obtain ⟨n, body, h3⟩ := hl
      have : '"' ∈ c :: r := by rw [h3]; simp
      exact absurd (by simp [bareForbidden]) (h1 '"' this).1
  | @quoted body v hq he =>
    rcases htk with rfl | rfl | rfl
    · exact absurd (by simp [bareForbidden]) (hl.2 '"' (by simp)).1
    · rfl
    · obtain ⟨n, b, h3⟩ := hl
      simp at h3
  | raw =>
    rcases htk with rfl | rfl | rfl
    · exact absurd (by simp [bareForbidden]) (hl.2 '"' (by simp)).1
    · obtain ⟨body, h3, -⟩ := hl
      simp at h3
    · rfl
  | heredoc => exact absurd rfl hk

theorem text_shown {v : List Char} {k : ScalarKind} {e : Tail} {t : List Char} {tk : SyntaxKind}
    (h : ScalarText v k e t) (hk : k ≠ .heredoc) (htk : ScalarTok tk) (hc : Calm (.node .SCALAR [.token tk t])) :
    TextShown (scalarContent [.token tk t]) v k := by
  have hl : LeafText tk t := (hc.kids _ (List.mem_singleton.2 rfl)).ok.leaf
  rw [TextShown]
  split
  · rename_i hr
    subst hr
    have hs := scalar_kind h hk htk hl
    have ht : scalarContent [.token tk t] = t := by
      rcases htk with rfl | rfl | rfl
      · rfl
      · simp [viewScalarKind] at hs
      · rfl
    rw [ht]
    cases h with
    | @raw n c _ _ => exact ⟨n, rfl⟩
  · rename_i hr
    have := scalar_content h hk hr htk hl (by simpa [UniFree, Green.text, Green.texts] using hc.uni)
    simpa [keyContent] using this

theorem shows_scalar {v : List Char} {k : ScalarKind} {e : Tail} {t : List Char} {tk : SyntaxKind}
    (h : ScalarText v k e t) (hk : k ≠ .heredoc) (htk : ScalarTok tk)
    (hc : Calm (.node .SCALAR [.token tk t])) : Shows (.scalar [.token tk t]) (scalarValue v k) :=
  .scalar (text_shown h hk htk hc) (scalar_kind h hk htk (hc.kids _ (List.mem_singleton.2 rfl)).ok.leaf)

theorem ascii_notWs {c : Char} (h : c.isUpper = true ∨ c.isLower = true ∨ c.isDigit = true ∨ c ∈ ['_', '.', '-', ',']) :
    isWhitespace c = false := by
  have hn : (65 ≤ c.toNat ∧ c.toNat ≤ 90) ∨ (97 ≤ c.toNat ∧ c.toNat ≤ 122) ∨ (48 ≤ c.toNat ∧ c.toNat ≤ 57) ∨
      c.toNat = 95 ∨ c.toNat = 46 ∨ c.toNat = 45 ∨ c.toNat = 44 := by
    rcases h with h | h | h | h
    · simp [Char.isUpper, UInt32.le_iff_toNat_le] at h
      exact .inl h
    · simp [Char.isLower, UInt32.le_iff_toNat_le] at h
      exact .inr (.inl h)
    · simp [Char.isDigit, UInt32.le_iff_toNat_le] at h
      exact .inr (.inr (.inl h))
    · simp only [List.mem_cons, List.not_mem_nil, or_false] at h
      rcases h with rfl | rfl | rfl | rfl <;> decide
  simp only [isWhitespace, Bool.or_eq_false_iff, Bool.and_eq_false_iff, decide_eq_false_iff_not, beq_eq_false_iff_ne]
  omega

theorem name_notWs {d lang : List Char} (hd : Delimiter d) (hl : LangHint lang) : ∀ c ∈ d ++ lang, isWhitespace c = false := by
  intro c hc
  rcases List.mem_append.1 hc with hc | hc
  · obtain ⟨x, r, rfl, h1, h2, -⟩ := hd
    rcases List.mem_cons.1 hc with rfl | hc
    · exact ascii_notWs (.inl h1)
    · rcases h2 c hc with h | h | rfl
      · exact ascii_notWs (.inl h)
      · exact ascii_notWs (.inr (.inr (.inl h)))
      · decide
  · rcases hl with rfl | ⟨x, r, rfl, h1, h2⟩
    · cases hc
    · rcases List.mem_cons.1 hc with rfl | hc
      · decide
      rcases List.mem_cons.1 hc with rfl | hc
      · exact ascii_notWs (.inr (.inl h1))
      · rcases h2 c hc with h | h | rfl | rfl | rfl
        · exact ascii_notWs (.inr (.inl h))
        · exact ascii_notWs (.inr (.inr (.inl h)))
        all_goals decide

theorem trim_name {a nl : List Char} (hl : LineBreak nl) (ha : ∀ c ∈ a, isWhitespace c = false) :
    ((a ++ nl).reverse.dropWhile isWhitespace).reverse = a := by
  have hd : a.reverse.dropWhile isWhitespace = a.reverse := by
    cases h : a.reverse with
    | nil => rfl
    | cons c r =>
      have : c ∈ a := by rw [← List.mem_reverse, h]; simp
      rw [List.dropWhile_cons, ha c this]
      rfl
  have h1 : isWhitespace '\n' = true := by decide
  have h2 : isWhitespace '\r' = true := by decide
  rcases hl with rfl | rfl
  · simp [h1, hd]
  · simp [h1, h2, hd]

theorem shows_heredoc {v : List Char} {cs : List Green} (h : HeredocGreens v cs) :
    Shows (.heredoc cs) (scalarValue v .heredoc) := by
  obtain ⟨d, lang, nl, ind, ls, hd, hl, hn, rfl, rfl⟩ := h
  refine .heredoc (d := d) (lang := lang) ?_ ?_ hd hl
  · by_cases hls : ls = []
    · subst hls; simp [heredocContent, unlines]
    · simp [hls, heredocContent]
  · simp only [List.cons_append, heredocDelimiter, if_true]
    rw [trim_name hn (name_notWs hd hl)]

theorem seqElements_items {cs : List Green} (h : OkG (.node .SEQUENCE cs)) : seqElements cs = itemsOf cs := by
  obtain ⟨mid, rfl, hm⟩ := h.shape
  have hel : ∀ g ∈ .token .L_PAREN ['('] :: mid ++ [.token .R_PAREN [')']],
      (∃ k t, g = .token k t) ∨ ∃ k' cs', g = .node .ENTRY [.node .KEY [.node k' cs']] ∧ AtomKind k' := by
    intro g hg
    simp only [List.cons_append, List.mem_cons, List.mem_append, List.not_mem_nil, or_false] at hg
    rcases hg with rfl | hg | rfl
    · exact .inl ⟨_, _, rfl⟩
    · cases g with
      | token k t => exact .inl ⟨_, _, rfl⟩
      | node k c =>
        obtain ⟨rfl, k', cs', rfl, ha⟩ := hm _ hg
        exact .inr ⟨_, _, rfl, ha⟩
    · exact .inl ⟨_, _, rfl⟩
  clear hm h
  generalize Green.token SyntaxKind.L_PAREN ['('] :: mid ++ [.token .R_PAREN [')']] = cs at hel
  induction cs with
  | nil => rfl
  | cons g gs ih =>
    have ih := ih fun x hx => hel x (List.mem_cons_of_mem _ hx)
    rcases hel g (by simp) with ⟨k, t, rfl⟩ | ⟨k', cs', rfl, ha⟩
    · rw [seqElements, itemsOf, ih]
    · rw [seqElements, itemsOf, ih, if_pos rfl]
      have : castNode (.node k' cs') ≠ none := by
        rcases ha with rfl | rfl | rfl | rfl | rfl | rfl <;> simp [castNode]
      simp [entryElement, entryKey, nodesOf, Option.isSome_iff_ne_none, this]

theorem word_key {k : Value} {ke : Tail} {kt : List Char} {gk : Green} (h : KeyText k ke kt) (hn : KeyNode kt gk)
    (hc : Calm gk) (hw : WordKeyValue k) : ∃ w kd, k = scalarValue w kd ∧ TextShown (keyContent [gk]) w kd := by
  obtain ⟨v, kd, rfl⟩ := hw
  refine ⟨v, kd, rfl, ?_⟩
  generalize hx : scalarValue v kd = x at h
  cases h with
  | scalar hs hk =>
    simp only [scalarValue, Value.mk.injEq, Option.some.injEq, Payload.scalar.injEq, and_true, true_and] at hx
    obtain ⟨rfl, rfl⟩ := hx
    cases hn with
    | scalar htk _ => simpa [keyContent] using text_shown hs hk htk hc
    | unit => exact absurd rfl (scalar_start hs)
    | tag _ => exact absurd rfl (scalar_start hs)
    | tagged _ _ _ => exact absurd rfl (scalar_start hs)
  | unit => cases hx
  | tag => cases hx
  | tagged => cases hx

theorem value_shows {v : Value} {e : Tail} {g : Green} (h : ValueNode v e g) :
    Viewable v → Clear g → ∃ k, castNode g = some k ∧ Shows k v := by
  refine ValueNode.rec
    (motive_1 := fun v e g _ => Viewable v → Clear g → ∃ k, castNode g = some k ∧ Shows k v)
    (motive_2 := fun nl vs gs _ => ViewableItems vs → (∀ g ∈ gs, Clear g) → ShowsItems gs vs)
    (motive_3 := fun nl es ks _ => ViewableEntries es → (∀ x ∈ ks, ∀ g ∈ x.2, Clear g) →
      ∀ l, Aligned l ks → ShowsEntries l es)
    (motive_4 := fun es e as _ => True)
    ?scalar ?heredoc ?unit ?tag ?tagged ?sequence ?object ?attributes ?inil ?icons ?knil ?kpair ?klone ?aone ?acons h
  case scalar =>
    intro v k e t tk h1 h2 h3 _ hg
    exact ⟨_, rfl, shows_scalar h1 h2 h3 hg.calm⟩
  case heredoc =>
    intro v e cs h1 h2 h3 _ _
    exact ⟨_, rfl, shows_heredoc h3⟩
  case unit => intros; exact ⟨_, rfl, .unit⟩
  case tag => intros; exact ⟨_, rfl, .tag rfl rfl⟩
  case tagged =>
    intro n p e g hn hv hp ih hl hg
    have hl' : Viewable (.mk none (some p) none) := by
      cases p with
      | scalar _ _ _ => simp [Viewable]
      | sequence _ _ => simpa only [Viewable] using hl
      | object _ _ => simpa only [Viewable] using hl
    obtain ⟨k, h1, h2⟩ := ih hl' ((hg.kids _ (List.mem_cons_of_mem _ (List.mem_singleton.2 rfl))).kids _
      (List.mem_singleton.2 rfl))
    refine ⟨_, rfl, .tagged (g := g) rfl ?_ h1 h2⟩
    cases g with
    | token _ _ => simp [castNode] at h1
    | node _ _ => rfl
  case sequence =>
    intro vs cs hv ih hl hg
    refine ⟨_, rfl, .sequence ?_⟩
    rw [seqElements_items hg.calm.ok]
    refine ih (by simpa only [Viewable] using hl) fun g hgm => ?_
    obtain ⟨k, c, -, h4⟩ := (sequence_calm hg.calm.ok).1 g hgm
    exact ((hg.kids _ h4).kids _ (List.mem_singleton.2 rfl)).kids _ (List.mem_singleton.2 rfl)
  case object =>
    intro es ks cs hk hv hd ih hl hg
    have hn : ∀ k c, .node k c ∈ cs → k = .ENTRY := by
      obtain ⟨mid, hcs, hm⟩ := hg.calm.ok.shape
      intro k c hc
      rw [hcs] at hc
      have : .node k c ∈ mid := by simpa using hc
      exact hm _ this
    refine ⟨_, rfl, .object (ih (by simpa only [Viewable] using hl) (fun x hx g hg' => ?_) _
      (aligned_kids hn hk List.nil_prefix))⟩
    obtain ⟨k, hm⟩ := kidsOf_mem hk x hx
    exact (hg.kids _ hm).kids g hg'
  case attributes =>
    intro es e cs hv ih hl hg
    have := hg.plain
    simp [NoAttributes] at this
  case inil => intros; exact .nil
  case icons =>
    intro nl v e g vs gs h1 h2 h3 h4 ih1 ih2 hl hg
    rw [ViewableItems] at hl
    obtain ⟨k, h5, h6⟩ := ih1 hl.1 (hg _ (by simp))
    exact .cons h5 h6 (ih2 hl.2 fun y hy => hg y (List.mem_cons_of_mem _ hy))
  case knil => intro _ _ _ l h; exact aligned_nil (P := (ShowsEntries · [])) .nil (fun _ _ h => .skip rfl rfl h) h
  case kpair =>
    intro nl ls ds k ke kt gk v e gv cs es ks h1 h2 h3 h4 h5 h6 h7 ih1 ih2 hl hg l ha
    rw [ViewableEntries] at hl
    obtain ⟨m1, m2⟩ := pair_key_mem h6
    have hcs := hg (ds, cs) (by simp)
    obtain ⟨w, kd, hk, hw⟩ := word_key h2 h3 ((hcs _ m1).calm.kids _ (by simp)) hl.1
    obtain ⟨kv, h8, h9⟩ := ih1 hl.2.1 ((hcs _ m2).kids _ (by simp))
    obtain ⟨p1, p2⟩ := pair_views h6
    refine aligned_cons (P := (ShowsEntries · _)) (fun _ _ h => .skip rfl rfl h) (fun prev l' hp ha' => ?_) ha
    rw [hk]
    exact .pair (by rw [entryKeyText, p1]; rfl) hw p2 (by rw [valueKind_one h8]; exact h9) (shows_docs h1 hp)
      (ih2 hl.2.2 (fun y hy => hg y (List.mem_cons_of_mem _ hy)) _ ha')
  case klone =>
    intro nl ls ds k ke kt gk cs es ks h1 h2 h3 h4 h5 ih2 hl hg l ha
    rw [ViewableEntries] at hl
    have hcs := hg (ds, cs) (by simp)
    obtain ⟨w, kd, hk, hw⟩ := word_key h2 h3 ((hcs _ (lone_key_mem h4)).calm.kids _ (by simp)) hl.1
    obtain ⟨p1, p2⟩ := lone_views h4
    refine aligned_cons (P := (ShowsEntries · _)) (fun _ _ h => .skip rfl rfl h) (fun prev l' hp ha' => ?_) ha
    rw [hk]
    exact .lone (by rw [entryKeyText, p1]; rfl) hw p2 (shows_docs h1 hp)
      (ih2 hl.2.2 (fun y hy => hg y (List.mem_cons_of_mem _ hy)) _ ha')
  case aone => intros; trivial
  case acons => intros; trivial

/-! ## Documents -/

theorem root_word {ks : List Value} {path : List (List Char)} {ke : Tail} {kt : List Char} {gk : Green}
    (h : RootKeyText ks path ke kt) (hn : KeyNode kt gk) (hc : Calm gk) (hw : ∀ k ∈ ks, WordKeyValue k) :
    PathShown (keyContent [gk]) ks path := by
  cases h with
  | path h1 h2 h3 =>
    refine .inl ⟨calm_key (.scalar (.bare h3) (by simp)) hn hc (by simp [NotRawKey, scalarValue]), fun v hv => ?_⟩
    cases path with
    | nil => simp at hv
    | cons a as => simp [scalarValue] at hv
  | other h1 h2 =>
    obtain ⟨v, kd, rfl, hk⟩ := word_key h1 hn hc (hw _ (List.mem_singleton.2 rfl))
    by_cases hr : kd = .raw
    · subst hr
      exact .inr ⟨v, rfl, hk⟩
    · rw [TextShown, if_neg hr] at hk
      exact .inl ⟨hk, fun v hv => by simp [scalarValue, hr] at hv⟩

theorem root_shows {es : List RootEntry} {kids : List Kid} (h : RootNodes es kids) :
    (∀ e ∈ es, ∀ k ∈ e.keys, WordKeyValue k) → (∀ e ∈ es, Viewable e.value) → (∀ x ∈ kids, ∀ g ∈ x.2, Clear g) →
    ∀ l, Aligned l kids → ShowsRoot l es := by
  induction h with
  | nil => intro _ _ _ l h; exact aligned_nil (P := (ShowsRoot · [])) .nil (fun _ _ h => .skip rfl rfl h) h
  | @pair ls ds ks path ke kt gk v e gv cs es kids h1 h2 h3 h4 h5 _ ih =>
    intro hw hr hc l ha
    obtain ⟨m1, m2⟩ := pair_key_mem h5
    have hcs := hc (ds, cs) (by simp)
    have w1 := root_word h2 h3 ((hcs _ m1).calm.kids _ (by simp)) (hw _ (List.mem_cons_self ..))
    obtain ⟨kv, h8, h9⟩ := value_shows h4 (hr _ (List.mem_cons_self ..)) ((hcs _ m2).kids _ (by simp))
    obtain ⟨p1, p2⟩ := pair_views h5
    refine aligned_cons (P := (ShowsRoot · _)) (fun _ _ h => .skip rfl rfl h) (fun prev l' hp ha' => ?_) ha
    exact .pair (by rw [entryKeyText, p1]; rfl) w1 p2 (by rw [valueKind_one h8]; exact h9) (shows_docs h1 hp)
      (ih (fun x hx => hw x (List.mem_cons_of_mem _ hx)) (fun x hx => hr x (List.mem_cons_of_mem _ hx))
        (fun x hx => hc x (List.mem_cons_of_mem _ hx)) _ ha')
  | @lone ls ds ks path ke kt gk cs es kids h1 h2 h3 h4 _ ih =>
    intro hw hr hc l ha
    have hcs := hc (ds, cs) (by simp)
    have w1 := root_word h2 h3 ((hcs _ (lone_key_mem h4)).calm.kids _ (by simp)) (hw _ (List.mem_cons_self ..))
    obtain ⟨p1, p2⟩ := lone_views h4
    refine aligned_cons (P := (ShowsRoot · _)) (fun _ _ h => .skip rfl rfl h) (fun prev l' hp ha' => ?_) ha
    exact .lone (by rw [entryKeyText, p1]; rfl) w1 p2 (shows_docs h1 hp)
      (ih (fun x hx => hw x (List.mem_cons_of_mem _ hx)) (fun x hx => hr x (List.mem_cons_of_mem _ hx))
        (fun x hx => hc x (List.mem_cons_of_mem _ hx)) _ ha')

/-! ## Looking up -/

theorem entries_get {w : List Char} {l : List (List Green × List Green)} : ∀ {es : List Entry}, ShowsEntries l es →
    (∀ x, l.find? (fun e => entryKeyText e.2 == some w) = some x →
      ∃ u k v d, TextShown w u k ∧ .mk (scalarValue u k) v d ∈ es ∧
        ((∃ c, entryValue x.2 = some c ∧ Shows (valueKind c) v) ∨ (entryValue x.2 = none ∧ v = .mk none none none)) ∧
        ShowsDocs (docComments x.1) d) ∧
    (l.find? (fun e => entryKeyText e.2 == some w) = none → ∀ k v d, k ≠ .raw → .mk (scalarValue w k) v d ∉ es) := by
  induction l with
  | nil => intro es h; cases h; simp
  | cons x l ih =>
    intro es h
    rw [List.find?_cons]
    cases h with
    | @skip prev cs l es h1 h2 h3 =>
      have : entryKeyText cs = none := by simp [entryKeyText, h1]
      simp only [this]
      exact ih h3
    | @pair prev cs c w' u k v d l es h1 h0 h2 h3 h4 h5 =>
      obtain ⟨i1, i2⟩ := ih h5
      by_cases hw : w' = w
      · subst hw
        simp only [h1, BEq.rfl]
        refine ⟨fun x hx => ?_, (nofun)⟩
        cases hx
        exact ⟨u, k, v, d, h0, List.mem_cons_self .., .inl ⟨c, h2, h3⟩, h4⟩
      · have : (some w' == some w) = false := by simpa using hw
        simp only [h1, this]
        refine ⟨fun x hx => ?_, fun hx k' v' d' hr hm => ?_⟩
        · obtain ⟨u, k, v, d, h6, h7, h8⟩ := i1 x hx
          exact ⟨u, k, v, d, h6, List.mem_cons_of_mem _ h7, h8⟩
        · rcases List.mem_cons.1 hm with hm | hm
          · simp only [scalarValue, Entry.mk.injEq, Value.mk.injEq, Option.some.injEq, Payload.scalar.injEq] at hm
            obtain ⟨⟨-, ⟨rfl, rfl, -⟩, -⟩, -⟩ := hm
            rw [TextShown, if_neg hr] at h0
            exact hw h0
          · exact i2 hx k' v' d' hr hm
    | @lone prev cs w' u k d l es h1 h0 h2 h4 h5 =>
      obtain ⟨i1, i2⟩ := ih h5
      by_cases hw : w' = w
      · subst hw
        simp only [h1, BEq.rfl]
        refine ⟨fun x hx => ?_, (nofun)⟩
        cases hx
        exact ⟨u, k, _, d, h0, List.mem_cons_self .., .inr ⟨h2, rfl⟩, h4⟩
      · have : (some w' == some w) = false := by simpa using hw
        simp only [h1, this]
        refine ⟨fun x hx => ?_, fun hx k' v' d' hr hm => ?_⟩
        · obtain ⟨u, k, v, d, h6, h7, h8⟩ := i1 x hx
          exact ⟨u, k, v, d, h6, List.mem_cons_of_mem _ h7, h8⟩
        · rcases List.mem_cons.1 hm with hm | hm
          · simp only [scalarValue, Entry.mk.injEq, Value.mk.injEq, Option.some.injEq, Payload.scalar.injEq] at hm
            obtain ⟨⟨-, ⟨rfl, rfl, -⟩, -⟩, -⟩ := hm
            rw [TextShown, if_neg hr] at h0
            exact hw h0
          · exact i2 hx k' v' d' hr hm

theorem items_length {gs : List Green} : ∀ {vs : List Value}, ShowsItems gs vs → gs.length = vs.length := by
  induction gs with
  | nil => intro vs h; cases h; rfl
  | cons g gs ih => intro vs h; cases h with | cons _ _ h => simp [ih h]

/-! ## Tags -/

theorem placed_ok {root : Green} (h : OkG root) {n : Nat} {g : Green} (hp : Placed root n g) : OkG g := by
  induction hp with
  | root => exact h
  | child _ ih => exact ih.kids _ (by simp)

theorem tag_views {cs : List Green} (h : OkG (.node .TAG cs)) :
    (∃ n, viewTagName cs = some n ∧ TagName n) ∧ ((viewPayload cs = none ∧ ∃ t, cs = [.token .TAG_TOKEN t]) ∨
      ∃ t c g k, cs = [.token .TAG_TOKEN t, .node .TAG_PAYLOAD c] ∧ viewPayload cs = some g ∧ castNode g = some k ∧ g ∈ c) := by
  have hname : ∀ t, .token .TAG_TOKEN t ∈ cs → ∃ n, some (t.drop 1) = some n ∧ TagName n := by
    intro t ht
    obtain ⟨n, rfl, hn⟩ := (h.kids _ ht).leaf
    exact ⟨n, rfl, hn⟩
  obtain ⟨t, hcs | ⟨c, hcs⟩⟩ := h.shape
  · subst hcs
    exact ⟨hname t (by simp), .inl ⟨rfl, t, rfl⟩⟩
  · subst hcs
    refine ⟨hname t (by simp), .inr ?_⟩
    obtain ⟨k, c', hk, hc⟩ := (h.kids (.node .TAG_PAYLOAD c) (by simp)).shape
    have hcast : ∃ vk, castNode (.node k c') = some vk := by
      rcases hk with rfl | rfl | rfl | rfl | rfl | rfl <;> exact ⟨_, rfl⟩
    obtain ⟨vk, hvk⟩ := hcast
    rcases hc with rfl | rfl
    · exact ⟨t, _, _, vk, rfl, rfl, hvk, by simp⟩
    · exact ⟨t, _, _, vk, rfl, rfl, hvk, by simp⟩

end Styx.Cst
