import Verif.Lsp.SymbolSpec
import Verif.Lsp.TokenLemmas
import Verif.Props.Spans
import Verif.Props.Lsp

/-!
# C79: the outline of a document

The symbols the language server lists for a document are its named entries, at their places.
-/

namespace Styx.Props

open Styx Styx.Spec Styx.Lsp

theorem kindOf_sort (v : Value) (text : List Char) : (kindOf v text).1 = sortOf v := by
  obtain ⟨t, p, sp⟩ := v
  rcases t with _ | t <;> rcases p with _ | ⟨_ | _ | _⟩ <;> rfl

/-- A node whose place can be sliced. -/
def Sliced (s : List Char) (w : Value) : Prop := ∃ sp text, w.span = some sp ∧ sliceBytes s sp.start sp.stop = some text

mutual
theorem symbols_shape (s : List Char) : ∀ v : Value, (∀ x w, Child x v → Node w x → Sliced s w) →
    ∃ ss, symbols s v = some ss ∧ shapes ss = outline v
  | .mk t (some (.object es o)) sp, h => by
    rw [symbols, outline]
    exact symbolEntries_shape s es fun k v d hm => ⟨h k k (.key hm) .self, fun w hw => h v w (.value hm) hw⟩
  | .mk _ (some (.sequence _ _)) _, _ => ⟨[], rfl, rfl⟩
  | .mk _ (some (.scalar _ _ _)) _, _ => ⟨[], rfl, rfl⟩
  | .mk _ none _, _ => ⟨[], rfl, rfl⟩
theorem symbolEntries_shape (s : List Char) : ∀ es : List Entry,
    (∀ k v d, Entry.mk k v d ∈ es → Sliced s k ∧ ∀ w, Node w v → Sliced s w) →
    ∃ ss, symbolEntries s es = some ss ∧ shapes ss = outlineEntries es
  | [], _ => ⟨[], rfl, rfl⟩
  | .mk k v d :: es, h => by
    obtain ⟨rest, r1, r2⟩ := symbolEntries_shape s es fun k' v' d' hm => h k' v' d' (List.mem_cons_of_mem _ hm)
    obtain ⟨h1, h2⟩ := h k v d (List.mem_cons_self ..)
    obtain ⟨children, c1, c2⟩ := symbols_shape s v fun x w hc hw => h2 w (.inside hc hw)
    obtain ⟨ksp, ktext, k1, k2⟩ := h1
    obtain ⟨vsp, vtext, v1, v2⟩ := h2 v .self
    obtain ⟨kt, kp, ks⟩ := k
    cases k1
    rw [symbolEntries]
    rcases kt with _ | kt <;> rcases kp with _ | ⟨_ | _ | _⟩
    case none.some.scalar text kind psp =>
      have hks : (Value.mk none (some (.scalar text kind psp)) (some ksp)).span = some ksp := rfl
      simp only [Value.isUnit, Value.tag, Value.payload, Value.asStr, hks, Option.isNone, Bool.and_false,
        Bool.false_eq_true, if_false, v1, v2, c1, r1]
      refine ⟨_, rfl, ?_⟩
      simp only [shapes, shape, c2, r2, outlineEntries, kindOf_sort]
    all_goals
      refine ⟨rest, ?_, by rw [r2]; rfl⟩
      simp [Value.isUnit, Value.tag, Value.payload, Value.asStr, r1]
end

theorem tree_sliced {s : List Char} {v : Value} (h : parseTree s = some (.ok v)) (x w : Value) (hc : Child x v)
    (hw : Node w x) : Sliced s w := by
  obtain ⟨es, rfl, h2⟩ := parseTree_std h
  have hp : ∃ m n, Placed s m n w := by
    cases hc with
    | key hm => obtain ⟨m, n, _, _, h5⟩ := h2.mem hm; exact ⟨m, n, h5.node (.inl hw)⟩
    | value hm => obtain ⟨m, n, _, _, h5⟩ := h2.mem hm; exact ⟨m, n, h5.node (.inr hw)⟩
  obtain ⟨m, n, hp⟩ := hp
  obtain ⟨sp, h1, -⟩ := hp.own
  obtain ⟨t, a, b, g1, g2, g3⟩ := spanOK_text (hp.ok sp (.inl h1)).1
  exact ⟨sp, t, h1, by rw [g1, g2, g3]; exact sliceBytes_append a t b⟩

/-- **C79**: the outline is there for every document that parses, without a panic, and shows all named entries in
order, each with its kind and the named entries of its value, at any depth. -/
theorem C79_outline (source : List Char) (v : Value) (h : parseTree source = some (.ok v)) :
    ∃ ss, symbols source v = some ss ∧ shapes ss = outline v :=
  symbols_shape source v fun x w hc hw => tree_sliced h x w hc hw

/-! ## Places -/

/-- The symbol shows this entry. -/
def Shows (s : List Char) (x : Symbol) (e : Entry) : Prop :=
  ∃ k v d ksp vsp, e = .mk k v d ∧ k.asStr = some (symName x) ∧ k.span = some ksp ∧ v.span = some vsp ∧
    symStart x = offsetToPosition s ksp.start ∧ symStop x = offsetToPosition s vsp.stop ∧
    symSelStart x = offsetToPosition s ksp.start ∧ symSelStop x = offsetToPosition s ksp.stop ∧
    symbols s v = some (symChildren x) ∧ ∃ text, sliceBytes s vsp.start vsp.stop = some text ∧
      symDetail x = (kindOf v text).2 ∧ symKind x = (kindOf v text).1

theorem shows_split {s : List Char} : ∀ {es : List Entry} {ss : List Symbol}, symbolEntries s es = some ss →
    ∀ a x b, ss = a ++ x :: b → ∃ A e B, es = A ++ e :: B ∧ Shows s x e ∧ symbolEntries s B = some b
  | [], ss, h, a, x, b, hs => by
    simp only [symbolEntries, Option.some.injEq] at h
    rw [hs] at h
    simp at h
  | .mk k v d :: es, ss, h, a, x, b, hs => by
    have skip : symbolEntries s es = some ss →
        ∃ A e B, Entry.mk k v d :: es = A ++ e :: B ∧ Shows s x e ∧ symbolEntries s B = some b := by
      intro h
      obtain ⟨A, e, B, h1, h2⟩ := shows_split h a x b hs
      exact ⟨.mk k v d :: A, e, B, by rw [h1]; rfl, h2⟩
    rw [symbolEntries] at h
    split at h
    · exact skip h
    · split at h
      · rename_i name ksp vsp hk hks hvs
        split at h
        · rename_i text children rest htext hch hrest
          cases h
          cases a with
          | nil =>
            cases hs
            exact ⟨[], _, es, rfl, ⟨k, v, d, ksp, vsp, rfl, hk, hks, hvs, rfl, rfl, rfl, rfl, hch, text, htext, rfl, rfl⟩, hrest⟩
          | cons y a =>
            cases hs
            obtain ⟨A, e, B, h1, h2⟩ := shows_split hrest a x b rfl
            exact ⟨.mk k v d :: A, e, B, by rw [h1]; rfl, h2⟩
        · cases h
      · exact skip h

/-- The object a level of the outline shows. -/
theorem level_object {s : List Char} {l ss : List Symbol} (hl : Level l ss) : ∀ {v : Value}, symbols s v = some ss →
    l = [] ∨ ∃ t es o sp, Node (.mk t (some (.object es o)) sp) v ∧ symbolEntries s es = some l := by
  induction hl with
  | top =>
    intro v h
    obtain ⟨t, p, sp⟩ := v
    rcases p with _ | ⟨_ | _ | _⟩
    case some.object es o => exact .inr ⟨t, es, o, sp, .self, h⟩
    all_goals
      simp only [symbols, Option.some.injEq] at h
      exact .inl h.symm
  | deeper hx _ ih =>
    intro v h
    obtain ⟨t, p, sp⟩ := v
    rcases p with _ | ⟨_ | _ | _⟩
    case some.object es o =>
      obtain ⟨a, b, hab⟩ := List.append_of_mem hx
      obtain ⟨A, e, B, h1, ⟨k, v, d, ksp, vsp, rfl, -, -, -, -, -, -, -, h2, -⟩, -⟩ := shows_split h a _ b hab
      rcases ih h2 with h3 | ⟨t', es', o', sp', h3, h4⟩
      · exact .inl h3
      · exact .inr ⟨t', es', o', sp', .inside (.value (k := k) (d := d) (by rw [h1]; simp)) h3, h4⟩
    all_goals
      simp only [symbols, Option.some.injEq] at h
      rw [← h] at hx
      cases hx

theorem offsetLoop_le (off : Nat) : ∀ (s : List Char) (i : Nat) (p : Position), NotLater p (offsetLoop off s i p)
  | [], _, p => .inr ⟨rfl, Nat.le_refl _⟩
  | c :: cs, i, p => by
    rw [offsetLoop]
    split
    · exact .inr ⟨rfl, Nat.le_refl _⟩
    · have := offsetLoop_le off cs (i + c.utf8Size) (if c = '\n' then ⟨p.line + 1, 0⟩ else ⟨p.line, p.character + 1⟩)
      unfold NotLater at *
      split at * <;> simp_all <;> omega

theorem offsetLoop_mono {a b : Nat} (h : a ≤ b) : ∀ (s : List Char) (i : Nat) (p : Position),
    NotLater (offsetLoop a s i p) (offsetLoop b s i p)
  | [], _, p => .inr ⟨rfl, Nat.le_refl _⟩
  | c :: cs, i, p => by
    by_cases h1 : i ≥ a
    · rw [show offsetLoop a (c :: cs) i p = p by rw [offsetLoop, if_pos h1]]
      exact offsetLoop_le b _ i p
    · rw [show offsetLoop a (c :: cs) i p = offsetLoop a cs (i + c.utf8Size)
          (if c = '\n' then ⟨p.line + 1, 0⟩ else ⟨p.line, p.character + 1⟩) by rw [offsetLoop, if_neg h1],
        show offsetLoop b (c :: cs) i p = offsetLoop b cs (i + c.utf8Size)
          (if c = '\n' then ⟨p.line + 1, 0⟩ else ⟨p.line, p.character + 1⟩) by
            rw [offsetLoop, if_neg (by omega)]]
      exact offsetLoop_mono h cs _ _

theorem position_mono {a b : Nat} (s : List Char) (h : a ≤ b) :
    NotLater (offsetToPosition s a) (offsetToPosition s b) := offsetLoop_mono h s 0 ⟨0, 0⟩

/-- In these entries, keys end before their values do. -/
def KeysFirst (es : List Entry) : Prop :=
  ∀ k v d ksp vsp, Entry.mk k v d ∈ es → k.span = some ksp → v.span = some vsp → ksp.stop ≤ vsp.stop ∧ ksp.start ≤ ksp.stop

theorem EntriesStd.keysFirst {s : List Char} {lo hi : Nat} {es : List Entry} (h : EntriesStd s lo hi es) : KeysFirst es := by
  intro k v d ksp vsp hm hk hv
  obtain ⟨sp, g1, g2, g3⟩ := h.mem hm
  have hsp : k.span = some sp := by obtain ⟨kt, kp, ks⟩ := k; exact g1.1
  rw [hk] at hsp
  cases hsp
  refine ⟨?_, g1.spanOK.1.le⟩
  rcases g3 with rfl | g3
  · cases hv
    exact Nat.le_refl _
  · have := g3.placed.ok vsp (.inl hv)
    have := this.1.le
    omega

theorem DotEntry.keysFirst {s : List Char} {whole : Span} {hi lo : Nat} {e : Entry} (h : DotEntry s whole hi lo e) :
    KeysFirst [e] := by
  intro k v d ksp vsp hm hk hv
  cases List.mem_singleton.1 hm
  cases h with
  | last h1 h2 h3 h4 h5 =>
    cases hk
    refine ⟨?_, h3.spanOK.le⟩
    rcases h5 with ⟨rfl, h5⟩ | h5
    · cases hv
      omega
    · have := h5.placed.ok vsp (.inl hv)
      have := this.1.le
      omega
  | more h1 h2 h3 h4 h5 =>
    cases hk
    cases hv
    exact ⟨h4, h3.spanOK.le⟩

theorem std_object {s : List Char} {t : Option Tag} {es : List Entry} {o sp : Option Span}
    (h : Sort3 s (.mk t (some (.object es o)) sp)) : KeysFirst es := by
  rcases h with ⟨lo, hi, h⟩ | ⟨lo, ksp, h⟩ | ⟨sp, h⟩
  · cases sp with
    | none => exact h.elim
    | some sp => exact EntriesStd.keysFirst h.2.2.2.2.2
  · rcases h.2.2.2.2 with h | ⟨_, _, h, _⟩ <;> cases h
  · cases h

theorem DotEntry.object {s : List Char} {whole : Span} {hi lo : Nat} {e : Entry} (h : DotEntry s whole hi lo e)
    {t : Option Tag} {es : List Entry} {o sp : Option Span} (hn : EntryNode (.mk t (some (.object es o)) sp) e) :
    KeysFirst es := by
  induction h with
  | last h1 h2 h3 h4 h5 =>
    rcases hn with hn | hn
    · have := (dotKey_std h1 h3).node hn
      cases this
    · rcases h5 with ⟨rfl, h5⟩ | h5
      · have := unit_node hn
        cases this
      · exact std_object (Std.sort hn h5)
  | more h1 h2 h3 h4 h5 ih =>
    rename_i lo sp text e d
    rcases hn with hn | hn
    · have := (dotKey_std h1 h3).node hn
      cases this
    · cases hn with
      | self => exact DotEntry.keysFirst h5
      | inside hc hn =>
        obtain ⟨k, v, d'⟩ := e
        cases hc with
        | key hm => cases List.mem_singleton.mp hm; exact ih (.inl hn)
        | value hm => cases List.mem_singleton.mp hm; exact ih (.inr hn)

theorem tree_keysFirst {s : List Char} {v : Value} (h : parseTree s = some (.ok v)) {t : Option Tag} {es : List Entry}
    {o sp : Option Span} (hn : Node (.mk t (some (.object es o)) sp) v) : KeysFirst es := by
  obtain ⟨es', rfl, h2⟩ := parseTree_std h
  have key : ∀ e ∈ es', EntryNode (.mk t (some (.object es o)) sp) e → KeysFirst es := by
    intro e he hn
    obtain ⟨m, n, _, _, k, h5, _⟩ := h2.mem he
    rcases h5 with h5 | ⟨_, _, _, _, h5⟩
    · exact std_object (h5.sort hn)
    · exact DotEntry.object h5 hn
  cases hn with
  | self =>
    intro k v d ksp vsp hm hk hv
    obtain ⟨m, n, _, _, k, h5, _⟩ := h2.mem hm
    rcases h5 with h5 | ⟨_, _, _, _, h5⟩
    · exact EntriesStd.keysFirst h5 _ _ _ _ _ (List.mem_cons_self ..) hk hv
    · exact DotEntry.keysFirst h5 _ _ _ _ _ (List.mem_cons_self ..) hk hv
  | inside hc hn =>
    cases hc with
    | key hm => exact key _ hm (.inl hn)
    | value hm => exact key _ hm (.inr hn)

/-- **C79**: the editor accepts the outline: in every symbol, at any depth, the selection range is in the range, and
starts where it starts. -/
theorem C79_selection (source : List Char) (v : Value) (ss level : List Symbol) (x : Symbol)
    (h : parseTree source = some (.ok v)) (hs : symbols source v = some ss) (hl : Level level ss) (hx : x ∈ level) :
    symStart x = symSelStart x ∧ NotLater (symSelStart x) (symSelStop x) ∧ NotLater (symSelStop x) (symStop x) := by
  rcases level_object hl hs with rfl | ⟨t, es, o, sp, h1, h2⟩
  · cases hx
  · obtain ⟨a, b, hab⟩ := List.append_of_mem hx
    obtain ⟨A, e, B, h3, ⟨k, w, d, ksp, vsp, rfl, g1, g2, g3, g4, g5, g6, g7, g8, g9⟩, -⟩ := shows_split h2 a x b hab
    obtain ⟨k1, k2⟩ := tree_keysFirst h h1 k w d ksp vsp (by rw [h3]; simp) g2 g3
    rw [g4, g5, g6, g7]
    exact ⟨rfl, position_mono _ k2, position_mono _ k1⟩

theorem node_key {v : Value} {t : Option Tag} {es : List Entry} {o sp : Option Span} {k w : Value} {d : Option (List Char)}
    (hn : Node (.mk t (some (.object es o)) sp) v) (hm : Entry.mk k w d ∈ es) : Node k v := by
  generalize hr : Value.mk t (some (.object es o)) sp = r at hn
  induction hn with
  | self => subst hr; exact .inside (.key hm) .self
  | inside hc _ ih => exact .inside hc (ih)

theorem node_value {v : Value} {t : Option Tag} {es : List Entry} {o sp : Option Span} {k w : Value} {d : Option (List Char)}
    (hn : Node (.mk t (some (.object es o)) sp) v) (hm : Entry.mk k w d ∈ es) : Node w v := by
  generalize hr : Value.mk t (some (.object es o)) sp = r at hn
  induction hn with
  | self => subst hr; exact .inside (.value hm) .self
  | inside hc _ ih => exact .inside hc (ih)

/-- **C79**: the selection range is the name: for the name of a bare key, converting the selection range back gives the
bytes of the key, where the source has the name. -/
theorem C79_name (source : List Char) (v : Value) (ss level : List Symbol) (x : Symbol)
    (h : parseTree source = some (.ok v)) (hs : symbols source v = some ss) (hl : Level level ss) (hx : x ∈ level) :
    ∃ t es o sp k w d, Node (.mk t (some (.object es o)) sp) v ∧ Entry.mk k w d ∈ es ∧ k.asStr = some (symName x) ∧
      k.span = some ⟨positionToOffset source (symSelStart x), positionToOffset source (symSelStop x)⟩ ∧
      ∀ psp, k.payload = some (.scalar (symName x) .bare psp) →
        Covers source ⟨positionToOffset source (symSelStart x), positionToOffset source (symSelStop x)⟩ (symName x) := by
  rcases level_object hl hs with rfl | ⟨t, es, o, sp, h1, h2⟩
  · cases hx
  · obtain ⟨a, b, hab⟩ := List.append_of_mem hx
    obtain ⟨A, e, B, h3, ⟨k, w, d, ksp, vsp, rfl, g1, g2, g3, g4, g5, g6, g7, g8, g9⟩, -⟩ := shows_split h2 a x b hab
    have hm : Entry.mk k w d ∈ es := by rw [h3]; simp
    have hnode : Node k v := node_key h1 hm
    have hback : ksp = ⟨positionToOffset source (symSelStart x), positionToOffset source (symSelStop x)⟩ := by
      obtain ⟨text, a, b, e1, e2, e3⟩ := C72_in_source source v ksp h ⟨k, hnode, .inl g2⟩
      have p1 := C39 a (text ++ b)
      have p2 := C39 (a ++ text) b
      rw [← List.append_assoc, ← e1, ← e2] at p1
      rw [← e1, utf8Len_append, ← e3] at p2
      rw [g6, g7, p1, p2]
    refine ⟨t, es, o, sp, k, w, d, h1, hm, g1, by rw [g2, hback], fun psp hp => ?_⟩
    rw [← hback]
    obtain ⟨kt, kp, ks⟩ := k
    cases hp
    cases g2
    cases kt with
    | some kt => cases g1
    | none => exact (C72_text source v _ .bare ksp psp h hnode).1 rfl

/-- **C79**: the detail of a string or of a tagged value is the text of the value in the source. -/
theorem C79_detail (source : List Char) (v : Value) (ss level : List Symbol) (x : Symbol)
    (h : parseTree source = some (.ok v)) (hs : symbols source v = some ss) (hl : Level level ss) (hx : x ∈ level)
    (hk : symKind x = .string ∨ symKind x = .variable) :
    ∃ t es o sp k w d wsp text, Node (.mk t (some (.object es o)) sp) v ∧ Entry.mk k w d ∈ es ∧
      k.asStr = some (symName x) ∧ w.span = some wsp ∧ Covers source wsp text ∧ symDetail x = some text := by
  rcases level_object hl hs with rfl | ⟨t, es, o, sp, h1, h2⟩
  · cases hx
  · obtain ⟨a, b, hab⟩ := List.append_of_mem hx
    obtain ⟨A, e, B, h3, ⟨k, w, d, ksp, vsp, rfl, g1, g2, g3, g4, g5, g6, g7, g8, text, f1, f2, f3⟩, -⟩ := shows_split h2 a x b hab
    have hm : Entry.mk k w d ∈ es := by rw [h3]; simp
    obtain ⟨text', a', b', e1, e2, e3⟩ := C72_in_source source v vsp h ⟨w, node_value h1 hm, .inl g3⟩
    have ht : sliceBytes source vsp.start vsp.stop = some text' := by
      rw [e1, e2, e3]
      exact sliceBytes_append a' text' b'
    obtain rfl : text' = text := Option.some.inj (ht.symm.trans f1)
    refine ⟨t, es, o, sp, k, w, d, vsp, text', h1, hm, g1, g3, ⟨a', b', e1, e2, e3⟩, ?_⟩
    rw [f2]
    rw [f3] at hk
    unfold kindOf at hk ⊢
    split
    · simp_all
    · split
      · simp_all
      · split
        · rfl
        · split
          · simp_all
          · split <;> rfl

/-- **C79**: symbols stand in order and do not overlap: of two symbols of a level the first ends before the second
starts. -/
theorem C79_siblings (source : List Char) (v : Value) (ss : List Symbol) (a b c : List Symbol) (x y : Symbol)
    (h : parseTree source = some (.ok v)) (hs : symbols source v = some ss) (hl : Level (a ++ x :: b ++ y :: c) ss) :
    NotLater (symStop x) (symStart y) := by
  rcases level_object hl hs with h0 | ⟨t, es, o, sp, h1, h2⟩
  · simp at h0
  · obtain ⟨A, e, B, h3, ⟨k, w, d, ksp, vsp, rfl, g1, g2, g3, g4, g5, -⟩, h4⟩ := shows_split h2 a x (b ++ y :: c) (by simp)
    obtain ⟨A', e', B', h5, ⟨k', w', d', ksp', vsp', rfl, g1', g2', g3', g4', g5', -⟩, -⟩ := shows_split h4 b y c rfl
    rw [g5, g4']
    refine position_mono _ (C72_order_entries source v t o sp A A' B' (.mk k w d) (.mk k' w' d') vsp ksp' h ?_ (.inr ⟨w, .self, .inl g3⟩)
      (.inl ⟨k', .self, .inl g2'⟩))
    rw [h3, h5] at h1
    simpa using h1

/-- **C79**: children stand in the range of their parent, for sources without dotted keys at the root.  Missing for the
full property: dotted keys, for which it is false (`C79_nested_false`). -/
theorem C79_nested_partial (source : List Char) (es : List Entry) (ss level : List Symbol) (x y : Symbol)
    (h : parseTree source = some (.ok (.mk none (some (.object es none)) none))) (hu : Undotted es)
    (hs : symbols source (.mk none (some (.object es none)) none) = some ss) (hl : Level level ss) (hx : x ∈ level)
    (hy : y ∈ symChildren x) : NotLater (symStart x) (symStart y) ∧ NotLater (symStop y) (symStop x) := by
  rcases level_object hl hs with rfl | ⟨t, es1, o, sp, h1, h2⟩
  · cases hx
  · obtain ⟨a, b, hab⟩ := List.append_of_mem hx
    obtain ⟨A, e, B, h3, ⟨k, w, d, ksp, vsp, rfl, g1, g2, g3, g4, g5, g6, g7, g8, g9⟩, -⟩ := shows_split h2 a x b hab
    have hm : Entry.mk k w d ∈ es1 := by rw [h3]; simp
    obtain ⟨wt, wp, ws⟩ := w
    rcases wp with _ | ⟨_ | _ | _⟩
    case some.object es2 o2 =>
      obtain ⟨a', b', hab'⟩ := List.append_of_mem hy
      obtain ⟨A', e', B', h3', ⟨k', w', d', ksp', vsp', rfl, -, i2, i3, i4, i5, -⟩, -⟩ := shows_split g8 a' y b' hab'
      have hm' : Entry.mk k' w' d' ∈ es2 := by rw [h3']; simp
      have hw := node_value h1 hm
      have q1 := C72_nested_partial source es _ k' vsp ksp' h hu hw g3 (.key hm') ⟨k', .self, .inl i2⟩
      have q2 := C72_nested_partial source es _ w' vsp vsp' h hu hw g3 (.value hm') ⟨w', .self, .inl i3⟩
      have q3 := (tree_keysFirst h h1 _ _ _ _ _ hm g2 g3).2
      rcases C72_key_value_partial source es t es1 o sp k _ d h hu h1 hm with hk | hk
      · cases hk
      · have q4 := hk ksp vsp ⟨k, .self, .inl g2⟩ ⟨_, .self, .inl g3⟩
        rw [g4, i4, i5, g5]
        exact ⟨position_mono _ (by omega), position_mono _ q2.2⟩
    all_goals
      simp only [symbols, Option.some.injEq] at g8
      rw [← g8] at hy
      cases hy

/-- **C79** is false for dotted keys: in `a.b 1` the symbol `b` ends behind the end of its parent `a`. -/
theorem C79_nested_false : ∃ source v ss x y, parseTree source = some (.ok v) ∧ symbols source v = some ss ∧ x ∈ ss ∧
    y ∈ symChildren x ∧ ¬ NotLater (symStop y) (symStop x) :=
  ⟨_, _, [.mk ['a'] none .object ⟨0, 0⟩ ⟨0, 3⟩ ⟨0, 0⟩ ⟨0, 1⟩
    [.mk ['b'] (some ['1']) .string ⟨0, 2⟩ ⟨0, 5⟩ ⟨0, 2⟩ ⟨0, 3⟩ []]], _, _, dottedTree_parsed, by rfl,
    List.mem_cons_self .., List.mem_cons_self .., by simp [NotLater, symStop]⟩

/-- **C79**, a limit: entries in sequences are not in the outline. -/
theorem C79_sequence_left_out (t : Option Tag) (items : List Value) (o sp : Option Span) :
    outline (.mk t (some (.sequence items o)) sp) = [] := rfl

/-! Concrete cases: the outlines of `k {a "é"}` and `s (1 2)` on two lines. -/

example : symbols (chars! "k {a \"é\"}\ns (1 2)") nestedTree = some
    [.mk ['k'] none .object ⟨0, 0⟩ ⟨0, 9⟩ ⟨0, 0⟩ ⟨0, 1⟩
      [.mk ['a'] (some (chars! "\"é\"")) .string ⟨0, 3⟩ ⟨0, 8⟩ ⟨0, 3⟩ ⟨0, 4⟩ []],
     .mk ['s'] (some (chars! "array")) .array ⟨1, 0⟩ ⟨1, 7⟩ ⟨1, 0⟩ ⟨1, 1⟩ []] := by rfl

example : outline nestedTree = [.mk ['k'] .object [.mk ['a'] .string []], .mk ['s'] .array []] := by rfl

end Styx.Props
