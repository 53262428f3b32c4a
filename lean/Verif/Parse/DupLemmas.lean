import Verif.Parse.DupSpec
import Verif.Parse.NestLemmas

/-! # Duplicate keys of objects -/

namespace Styx

open Spec

/-! ## Depths -/

theorem nest_depth (n k : Nat) (a b : List Event) : ∀ {st st' : List Opened}, nest st a = some st' →
    atDepth n (st.length + k) (a ++ b) = atDepth n (st.length + k) a ++ atDepth n (st'.length + k) b ∧
    (n < k → atDepth n (st.length + k) a = []) := by
  induction a with
  | nil => intro st st' h; cases h; simp [atDepth]
  | cons e es ih =>
    intro st st' h
    rw [nest] at h
    cases hs : nestStep st e.kind with
    | none => rw [hs] at h; cases h
    | some st1 =>
      rw [hs] at h
      obtain ⟨i1, i2⟩ := ih h
      have hd : depthStep (st.length + k) e.kind = st1.length + k := by
        have hclose : ∀ o, Spec.close o st = some st1 → st.length + k - 1 = st1.length + k := by
          intro o ho
          cases st with
          | nil => cases ho
          | cons x xs =>
            rw [Spec.close] at ho
            split at ho
            · cases ho; simp only [List.length_cons]; omega
            · cases ho
        revert hs
        cases e.kind <;> simp only [nestStep, depthStep, Option.some.injEq] <;> intro hs
        all_goals first
          | exact hclose _ hs
          | (subst hs; simp only [List.length_cons]; omega)
          | (subst hs; rfl)
      rw [List.cons_append, atDepth, atDepth, hd]
      refine ⟨by rw [i1, List.append_assoc], fun hn => ?_⟩
      rw [i2 hn, if_neg (by omega)]
      rfl

theorem Balanced.atDepth_append {a : List Event} (h : Balanced a) (n d : Nat) (b : List Event) :
    atDepth n d (a ++ b) = atDepth n d a ++ atDepth n d b := by
  have := (nest_depth n d a b (h [])).1
  simpa using this

theorem Balanced.atDepth_above {a : List Event} (h : Balanced a) {n d : Nat} (hn : n < d) :
    atDepth n d a = [] := by
  have := (nest_depth n d a [] (h [])).2 hn
  simpa using this

theorem atDepth_neutral {a : List Event} (h : ∀ e ∈ a, neutral e.kind = true) (d : Nat) :
    atDepth d d a = a := by
  induction a with
  | nil => rfl
  | cons e es ih =>
    have : depthStep d e.kind = d := by
      have := h e (by simp)
      revert this
      cases e.kind <;> simp [neutral, depthStep]
    rw [atDepth, this, ih fun e he => h e (by simp [he])]
    simp

/-! ## Keys -/

theorem onlyDup_left {a b : List Event} (h : OnlyDup (a ++ b)) : OnlyDup a :=
  fun e he => h e (List.mem_append_left _ he)

theorem onlyDup_right {a b : List Event} (h : OnlyDup (a ++ b)) : OnlyDup b :=
  fun e he => h e (List.mem_append_right _ he)

theorem onlyDup_tail {e : Event} {b : List Event} (h : OnlyDup (e :: b)) : OnlyDup b :=
  fun e he => h e (List.mem_cons_of_mem _ he)

theorem escErr_noDup {base : Nat} {text : List Char} {e : Event} (h : e ∈ escErrEvents base text)
    (o : Span) : e.kind ≠ .error (.duplicateKey o) := by
  rcases mem_escErr h with ⟨_, _, _, rfl⟩ | ⟨_, rfl⟩ <;> simp [errEv]

theorem emitKey_noDup {a : Atom} {e : Event} (h : e ∈ emitKey a) (o : Span) :
    e.kind ≠ .error (.duplicateKey o) := by
  cases a with
  | tag sp name payload invalid errSpan =>
    unfold emitKey at h
    simp only at h
    rcases List.mem_append.mp h with h | h
    · split at h
      · simp only [List.mem_singleton] at h; subst h; simp [errEv]
      · cases h
    · split at h
      · simp only [List.mem_singleton] at h; subst h; simp
      · rcases List.mem_append.mp h with h | h
        · split at h
          · exact escErr_noDup h o
          · cases h
        · simp only [List.mem_singleton] at h; subst h; simp
      · simp only [List.mem_singleton] at h; subst h; simp
      · simp only [List.mem_singleton] at h; subst h; simp
      · simp only [List.mem_singleton] at h; subst h; simp [errEv]
  | invalidEscapeScalar sp raw =>
    rw [emitKey] at h
    rcases List.mem_append.mp h with h | h
    · exact escErr_noDup h o
    · simp only [List.mem_singleton] at h; subst h; simp
  | error sp m =>
    rw [emitKey] at h
    simp only [List.mem_singleton] at h; subst h
    simp only [errEv]
    split <;> simp
  | _ => rw [emitKey] at h; simp only [List.mem_singleton] at h; subst h; simp [errEv]

theorem emitKey_noError {a : Atom} (h : OnlyDup (emitKey a)) : NoError (emitKey a) := by
  intro e he
  refine ⟨fun k hk => ?_, (h e he).1⟩
  obtain ⟨o, rfl⟩ := (h e he).2 k hk
  exact emitKey_noDup he o hk

theorem hexNumber_mem {h : List Char} {n : Nat} (hh : HexNumber h n) : ∀ c ∈ h, isHexDigit c = true := by
  have := (hexNumber_iff.1 hh).1
  simpa using this

/-- A text between quotes that is accepted, in which every `\u` begins a proper escape, is a proper text. -/
theorem lenient_escaped {raw : List Char} (h : Lenient raw) {s a b : List Char} (hs : s = a ++ raw ++ '"' :: b)
    (hn : ProperUni s) : ∃ v, Escaped raw v := by
  generalize hl : raw.length = l
  induction l using Nat.strongRecOn generalizing raw a with
  | _ l ih =>
    cases h with
    | nil => exact ⟨[], .nil⟩
    | @plain c raw hc h =>
      obtain ⟨v, hv⟩ := ih raw.length (by simp only [List.length_cons] at hl; omega) h (a := a ++ [c]) (by simp [hs]) rfl
      exact ⟨_, .plain hc hv⟩
    | @simple e raw he h =>
      obtain ⟨v, hv⟩ := ih raw.length (by simp only [List.length_cons] at hl; omega) h (a := a ++ ['\\', e])
        (by simp [hs]) rfl
      simp only [List.mem_cons, List.not_mem_nil, or_false] at he
      rcases he with rfl | rfl | rfl | rfl | rfl
      · exact ⟨_, .simple (d := '\\') (by simp) hv⟩
      · exact ⟨_, .simple (d := '"') (by simp) hv⟩
      · exact ⟨_, .simple (d := '\n') (by simp) hv⟩
      · exact ⟨_, .simple (d := '\r') (by simp) hv⟩
      · exact ⟨_, .simple (d := '\t') (by simp) hv⟩
    | @three x n raw hx hh h =>
      rcases hn a (x ++ raw ++ '"' :: b) (by simp [hs]) with ⟨y, t, c, h1, h2, h3⟩ | ⟨y, t, c, h1, _⟩
      · match x, hx with
        | [x1, x2, x3], _ =>
          match y, h2 with
          | [y1, y2, y3, y4], _ =>
            simp only [List.cons_append, List.nil_append, List.cons.injEq] at h1
            obtain ⟨rfl, rfl, rfl, h1⟩ := h1
            have hy := hexNumber_mem h3 y4 (by simp)
            cases raw with
            | nil =>
              simp only [List.nil_append, List.cons.injEq] at h1
              rw [← h1.1] at hy
              exact absurd hy (by decide)
            | cons r raw =>
              simp only [List.cons_append, List.cons.injEq] at h1
              obtain ⟨rfl, rfl⟩ := h1
              have hr : Lenient raw := by
                cases h with
                | plain _ h => exact h
                | simple | three | braced => exact absurd hy (by decide)
              obtain ⟨v, hv⟩ := ih raw.length (by simp at hl; omega) hr (a := a ++ ['\\', 'u', x1, x2, x3, r])
                (by simp [hs]) rfl
              exact ⟨_, .four (h := [x1, x2, x3, r]) rfl h3 hv⟩
      · match x, hx with
        | [x1, x2, x3], _ =>
          simp only [List.cons_append, List.cons.injEq] at h1
          have := hexNumber_mem hh x1 (by simp)
          rw [h1.1] at this
          exact absurd this (by decide)
    | @braced x n raw hh h =>
      rcases hn a ('{' :: x ++ '}' :: raw ++ '"' :: b) (by simp [hs]) with ⟨y, t, c, h1, h2, h3⟩ | ⟨y, t, c, h1, h2, h3⟩
      · match y, h2 with
        | y1 :: y', _ =>
          simp only [List.cons_append, List.cons.injEq] at h1
          have := hexNumber_mem h3 y1 (by simp)
          rw [← h1.1] at this
          exact absurd this (by decide)
      · have hb : ¬ isHexDigit '}' = true := by decide
        have : x = y := by
          have h1 : x ++ '}' :: (raw ++ '"' :: b) = y ++ '}' :: t := by simpa using h1
          rcases List.append_eq_append_iff.1 h1 with ⟨z, rfl, hz⟩ | ⟨z, rfl, hz⟩
          · cases z with
            | nil => simp
            | cons z1 z =>
              simp only [List.cons_append, List.cons.injEq] at hz
              exact absurd (hexNumber_mem h3 z1 (by simp)) (by rw [← hz.1]; exact hb)
          · cases z with
            | nil => simp
            | cons z1 z =>
              simp only [List.cons_append, List.cons.injEq] at hz
              exact absurd (hexNumber_mem hh z1 (by simp)) (by rw [← hz.1]; exact hb)
        subst this
        obtain ⟨v, hv⟩ := ih raw.length (by simp at hl; omega) h (a := a ++ ('\\' :: 'u' :: '{' :: x ++ ['}']))
          (by simp [hs]) rfl
        exact ⟨_, .braced h2 h3 hv⟩

/-- What the key event of atom `a` says. -/
def KeyOf (a : Atom) (t p : Option (List Char)) : Prop :=
  match t, p with
  | none, some v => KeyValue.fromAtom a = .scalar v
  | none, none => KeyValue.fromAtom a = .unit
  | some n, some v => KeyValue.fromAtom a = .tagged n (some (.scalar v))
  | some n, none =>
    KeyValue.fromAtom a = .tagged n none ∧ a.span.stop - a.span.start = 1 + utf8Len n ∨
    KeyValue.fromAtom a = .tagged n (some .unit) ∧ a.span.stop - a.span.start = 2 + utf8Len n

theorem emitKey_of {s : List Char} {a : Atom} (hn : ProperUni s) (hg : AtomGood s a)
    (h : OnlyDup (emitKey a)) : ∃ t p k, emitKey a = [⟨a.span, .key t p k⟩] ∧ KeyOf a t p := by
  replace h := emitKey_noError h
  cases a with
  | scalar sp v k => exact ⟨_, _, _, rfl, rfl⟩
  | unit sp => exact ⟨_, _, _, rfl, rfl⟩
  | tag sp name payload invalid errSpan =>
    obtain ⟨-, -, -, -, g1, g2⟩ := hg
    unfold emitKey at h ⊢
    simp only at h ⊢
    have hinv : invalid = false := by
      cases invalid with
      | false => rfl
      | true => exact (noErr_err h.left).elim
    subst hinv
    replace h := h.right
    simp only [Bool.false_eq_true, if_false, List.nil_append]
    split at h
    · refine ⟨_, _, _, rfl, Or.inl ⟨rfl, ?_⟩⟩
      have := g1 rfl rfl
      simp only [Atom.span]; omega
    · rename_i sp' v k
      have : (if k = .quoted then escErrEvents sp'.start v else []) = [] := by
        replace h := h.left
        split at h
        · rename_i hk; rw [if_pos hk]; exact noErr_escErr h
        · rename_i hk; rw [if_neg hk]
      rw [this]
      exact ⟨_, _, _, rfl, rfl⟩
    · refine ⟨_, _, _, rfl, Or.inr ⟨rfl, ?_⟩⟩
      have := g2 _ rfl
      simp only [Atom.span]; omega
    · exact (noErr_panic h).elim
    · exact (noErr_err h).elim
  | invalidEscapeScalar sp raw =>
    rw [emitKey] at h
    have h1 : validateEscapes raw = [] := by
      have := noErr_escErr h.left
      unfold escErrEvents at this
      exact List.map_eq_nil_iff.mp this
    obtain ⟨a, b, h2⟩ := hg.1.isInfix
    exact absurd (lenient_escaped (validateEscapes_iff.mp h1) (s := s) (a := a ++ ['"']) (b := b) (by simp [← h2]) hn) hg.2
  | error sp m => exact (noErr_err h).elim
  | panic sp => exact (noErr_panic h).elim
  | object => exact (noErr_err h).elim
  | sequence => exact (noErr_err h).elim
  | attributes => exact (noErr_err h).elim

theorem sameKey_iff {a b : Atom} {t p t' p' : Option (List Char)} {k k' : ScalarKind}
    (ha : KeyOf a t p) (hb : KeyOf b t' p') :
    SameKey ⟨a.span, .key t p k⟩ ⟨b.span, .key t' p' k'⟩ ↔ KeyValue.fromAtom a = KeyValue.fromAtom b := by
  have hs : SameKey ⟨a.span, .key t p k⟩ ⟨b.span, .key t' p' k'⟩ ↔ t = t' ∧ p = p' ∧
      (t ≠ none → p = none → a.span.stop - a.span.start = b.span.stop - b.span.start) := by
    constructor
    · rintro ⟨t1, p1, k1, k2, h1, h2, h3⟩
      cases h1; cases h2
      exact ⟨rfl, rfl, h3⟩
    · rintro ⟨rfl, rfl, h⟩
      exact ⟨_, _, _, _, rfl, rfl, h⟩
  rw [hs]
  unfold KeyOf at ha hb
  cases t <;> cases p <;> cases t' <;> cases p' <;> grind

/-! ## Own keys and own errors -/

theorem ownKeys_append {a : List Event} (h : Balanced a) (b : List Event) :
    ownKeys (a ++ b) = ownKeys a ++ ownKeys b := by
  unfold ownKeys
  rw [h.atDepth_append, List.filter_append]

theorem ownDups_append {a : List Event} (h : Balanced a) (b : List Event) :
    ownDups (a ++ b) = ownDups a ++ ownDups b := by
  unfold ownDups
  rw [h.atDepth_append, List.filter_append]

/-- The key event of an atom. -/
def keyEvent (a : Atom) : Event := (emitKey a).headD ⟨a.span, .panic⟩

/-- The atom is a good key: it is emitted as one key event. -/
def GoodKey (a : Atom) : Prop := ∃ t p k, emitKey a = [⟨a.span, .key t p k⟩] ∧ KeyOf a t p

theorem GoodKey.same {a b : Atom} (ha : GoodKey a) (hb : GoodKey b) :
    SameKey (keyEvent a) (keyEvent b) ↔ KeyValue.fromAtom a = KeyValue.fromAtom b := by
  obtain ⟨t, p, k, h1, h2⟩ := ha
  obtain ⟨t', p', k', h3, h4⟩ := hb
  unfold keyEvent
  rw [h1, h3]
  exact sameKey_iff h2 h4

theorem GoodKey.span {a : Atom} (ha : GoodKey a) : (keyEvent a).span = a.span := by
  obtain ⟨t, p, k, h1, h2⟩ := ha
  unfold keyEvent
  rw [h1]
  rfl

theorem GoodKey.emit {a : Atom} (ha : GoodKey a) : emitKey a = [keyEvent a] ∧ isKey (keyEvent a) = true := by
  obtain ⟨t, p, k, h1, h2⟩ := ha
  unfold keyEvent
  rw [h1]
  exact ⟨rfl, rfl⟩

/-- The error event of a duplicate. -/
def dupEvent (d : Span × Span) : Event := errEv d.2 (.duplicateKey d.1)

theorem keysOK_of {body : List Event} {ks : List Atom} {seen : List (KeyValue × Span)}
    {dups : List (Span × Span)} (h1 : ownKeys body = ks.map keyEvent) (h2 : ∀ k ∈ ks, GoodKey k)
    (h3 : ownDups body = dups.map dupEvent) (h4 : DupInv ks seen dups) : KeysOK body := by
  constructor
  · intro hd
    rw [h3, List.map_eq_nil_iff] at hd
    rw [h1, List.pairwise_map]
    refine (h4.distinct hd).imp_of_mem ?_
    intro a b ha hb hne
    rw [GoodKey.same (h2 a ha) (h2 b hb)]
    exact hne
  · intro e he
    rw [h3] at he
    obtain ⟨d, hd, rfl⟩ := List.mem_map.mp he
    obtain ⟨k1, k2, g1, g2, g3, g4⟩ := h4.dup_mem d hd
    have m1 : k1 ∈ ks := g1.subset (by simp)
    have m2 : k2 ∈ ks := g1.subset (by simp)
    refine ⟨keyEvent k1, keyEvent k2, ?_, ?_, ?_⟩
    · rw [h1]
      exact g1.map keyEvent
    · rw [GoodKey.same (h2 _ m1) (h2 _ m2)]; exact g2
    · rw [(h2 _ m1).span, (h2 _ m2).span, g3, g4]
      rfl

/-- No key stands directly in the entry whose value has these events. -/
def NoKeys (v : List Event) : Prop := (atDepth 1 1 v).filter isKey = []

theorem NoKeys.append {a b : List Event} (hb : Balanced a) (h1 : NoKeys a) (h2 : NoKeys b) :
    NoKeys (a ++ b) := by
  unfold NoKeys at *
  rw [hb.atDepth_append, List.filter_append, h1, h2]
  rfl

theorem noKeys_neutral {a : List Event} (h : ∀ e ∈ a, neutral e.kind = true ∧ isKey e = false) :
    NoKeys a := by
  unfold NoKeys
  rw [atDepth_neutral fun e he => (h e he).1]
  rw [List.filter_eq_nil_iff]
  intro e he
  simp [(h e he).2]

theorem noKeys_nil : NoKeys [] := rfl

theorem noKeys_one {e : Event} (h : neutral e.kind = true ∧ isKey e = false) : NoKeys [e] :=
  noKeys_neutral (by simpa using h)

theorem noKeys_wrap {e e' : Event} {es : List Event} {o : Opened} (h : opens e.kind = some o)
    (_ : closes e'.kind = some o) (hb : Balanced es) : NoKeys (e :: (es ++ [e'])) := by
  unfold NoKeys
  have hd : depthStep 1 e.kind = 2 := by
    revert h; cases e.kind <;> simp [opens, depthStep]
  have hk : isKey e = false := by
    obtain ⟨sp, k⟩ := e
    cases k <;> simp [opens] at h <;> rfl
  rw [atDepth, hd, hb.atDepth_append, hb.atDepth_above (by omega)]
  simp [atDepth, hk]

theorem escErr_noKeys (base : Nat) (text : List Char) : NoKeys (escErrEvents base text) := by
  refine noKeys_neutral fun e he => ⟨escErr_neutral e he, ?_⟩
  rcases mem_escErr he with ⟨_, _, _, rfl⟩ | ⟨_, rfl⟩ <;> rfl

theorem emitValue_noKeys (a : Atom) : NoKeys (emitValue a) := by
  cases a with
  | tag sp name payload invalid errSpan =>
    rw [emitValue, List.append_assoc]
    refine NoKeys.append (balanced_ite (balanced_one rfl) balanced_nil) ?_
      (noKeys_wrap (o := .tag) rfl rfl (emitPayload_balanced payload))
    split
    · exact noKeys_one ⟨rfl, rfl⟩
    · exact noKeys_nil
  | object sp entries dups dangling unclosed =>
    have hb := emitValue_balanced (.object sp entries dups dangling unclosed)
    rw [emitValue]
    simp only [List.cons_append]
    refine noKeys_wrap (o := .object) rfl rfl ?_
    refine Balanced.append (Balanced.append (Balanced.append ?_ ?_) ?_) (emitEntries_balanced entries)
    · exact balanced_ite (balanced_one rfl) balanced_nil
    · exact balanced_map dups (·.2) fun d => .duplicateKey d.1
    · exact balanced_map dangling (fun d => d) fun _ => .danglingDocComment
  | sequence sp elems unclosed commas =>
    rw [emitValue]
    simp only [List.cons_append]
    refine noKeys_wrap (o := .sequence) rfl rfl ?_
    refine Balanced.append (Balanced.append ?_ ?_) (emitElems_balanced elems)
    · exact balanced_ite (balanced_one rfl) balanced_nil
    · exact balanced_map commas (fun d => d) fun _ => .commaInSequence
  | attributes sp attrs =>
    rw [emitValue]
    simp only [List.cons_append]
    exact noKeys_wrap (o := .object) rfl rfl (emitAttrs_balanced attrs)
  | invalidEscapeScalar sp raw =>
    exact NoKeys.append (escErr_balanced _ _) (escErr_noKeys _ _) (noKeys_one ⟨rfl, rfl⟩)
  | _ => exact noKeys_one ⟨rfl, rfl⟩

theorem entryValueEvents_noKeys (sp : Span) (rest : List Atom) : NoKeys (entryValueEvents sp rest) := by
  cases rest with
  | nil => exact noKeys_one ⟨rfl, rfl⟩
  | cons v r => exact emitValue_noKeys v

theorem tooMany_noKeys (rest : List Atom) : NoKeys (tooManyEvents rest) := by
  unfold tooManyEvents
  split
  · exact noKeys_one ⟨rfl, rfl⟩
  · exact noKeys_nil

/-- The own keys and errors of one entry. -/
theorem entry_own {e ke e' : Event} {vals : List Event} (h : e.kind = .entryStart) (hk : isKey ke = true)
    (he' : e'.kind = .entryEnd) (hb : Balanced vals) (hn : NoKeys vals) :
    ownKeys (e :: ke :: (vals ++ [e'])) = [ke] ∧ ownDups (e :: ke :: (vals ++ [e'])) = [] := by
  obtain ⟨sp, k⟩ := e
  obtain ⟨sp', k'⟩ := e'
  simp only at h he'
  subst h he'
  have hd : depthStep 1 ke.kind = 1 := by
    obtain ⟨sp, k⟩ := ke
    revert hk; cases k <;> simp [isKey, depthStep]
  constructor
  · unfold ownKeys
    have h1 : depthStep 0 EventKind.entryStart = 1 := rfl
    have h2 : depthStep 1 EventKind.entryEnd = 0 := rfl
    rw [atDepth, h1, atDepth, hd, hb.atDepth_append]
    simp only [List.filter_append]
    rw [hn]
    have hf : isKey ⟨sp', .entryEnd⟩ = false := rfl
    simp [atDepth, hk, hf]
  · unfold ownDups
    have h1 : depthStep 0 EventKind.entryStart = 1 := rfl
    rw [atDepth, h1, atDepth, hd, hb.atDepth_append, hb.atDepth_above (by omega)]
    simp [atDepth, isDup]

/-! ## Every braced object -/

/-- The conclusion for one object: `post` is what follows its start. -/
def ObjOK (post : List Event) : Prop :=
  ∃ body sp' post', post = body ++ ⟨sp', .objectEnd⟩ :: post' ∧ Balanced body ∧ KeysOK body

/-- Every braced object in the events is fine. -/
def ObjsOK (s : List Char) (evs : List Event) : Prop :=
  ∀ pre sp post, evs = pre ++ ⟨sp, .objectStart⟩ :: post → Braced s sp → ObjOK post

theorem ObjOK.extend {post b : List Event} (h : ObjOK post) : ObjOK (post ++ b) := by
  obtain ⟨body, sp', post', rfl, h2⟩ := h
  exact ⟨body, sp', post' ++ b, by simp, h2⟩

theorem append_split {α : Type} {a b pre post : List α} {x : α} (h : a ++ b = pre ++ x :: post) :
    (∃ r, a = pre ++ x :: r ∧ post = r ++ b) ∨ (∃ r, pre = a ++ r ∧ b = r ++ x :: post) := by
  rcases List.append_eq_append_iff.mp h with ⟨r, h1, h2⟩ | ⟨r, h1, h2⟩
  · exact Or.inr ⟨r, h1, h2⟩
  · cases r with
    | nil => exact Or.inr ⟨[], by simpa using h1.symm, h2.symm⟩
    | cons y r =>
      simp only [List.cons_append, List.cons.injEq] at h2
      obtain ⟨rfl, rfl⟩ := h2
      exact Or.inl ⟨r, h1, rfl⟩

theorem ObjsOK.append {s : List Char} {a b : List Event} (ha : ObjsOK s a) (hb : ObjsOK s b) :
    ObjsOK s (a ++ b) := by
  intro pre sp post h hbr
  rcases append_split h with ⟨r, h1, rfl⟩ | ⟨r, rfl, h2⟩
  · exact (ha pre sp r h1 hbr).extend
  · exact hb r sp post h2 hbr

theorem objsOK_none {s : List Char} {evs : List Event} (h : ∀ e ∈ evs, e.kind ≠ .objectStart) :
    ObjsOK s evs := by
  intro pre sp post he
  exact absurd rfl (h ⟨sp, .objectStart⟩ (by rw [he]; simp))

theorem objsOK_nil {s : List Char} : ObjsOK s [] := objsOK_none (by simp)

theorem objsOK_one {s : List Char} {e : Event} (h : e.kind ≠ .objectStart) : ObjsOK s [e] :=
  objsOK_none (by simpa using h)

theorem ObjsOK.cons {s : List Char} {e : Event} {b : List Event} (h : e.kind ≠ .objectStart)
    (hb : ObjsOK s b) : ObjsOK s (e :: b) := ObjsOK.append (a := [e]) (objsOK_one h) hb

theorem objsOK_obj {s : List Char} {sp sp' : Span} {body : List Event} (hb : ObjsOK s body)
    (hbal : Balanced body) (hk : Braced s sp → KeysOK body) :
    ObjsOK s (⟨sp, .objectStart⟩ :: (body ++ [⟨sp', .objectEnd⟩])) := by
  intro pre sp1 post h hbr
  cases pre with
  | nil =>
    simp only [List.nil_append, List.cons.injEq, Event.mk.injEq, and_true] at h
    obtain ⟨rfl, rfl⟩ := h
    exact ⟨body, sp', [], rfl, hbal, hk hbr⟩
  | cons e pre =>
    simp only [List.cons_append, List.cons.injEq] at h
    exact (hb.append (objsOK_one (e := ⟨sp', .objectEnd⟩) (by simp))) pre sp1 post h.2 hbr

theorem escErr_objs {s : List Char} (base : Nat) (text : List Char) : ObjsOK s (escErrEvents base text) := by
  refine objsOK_none fun e he => ?_
  rcases mem_escErr he with ⟨_, _, _, rfl⟩ | ⟨_, rfl⟩ <;> simp [errEv]

theorem objsOK_ite {s : List Char} {c : Prop} [Decidable c] {sp : Span} {k : ParseErrorKind} :
    ObjsOK s (if c then [errEv sp k] else []) := by
  split
  · exact objsOK_one (by simp [errEv])
  · exact objsOK_nil

theorem objsOK_map {s : List Char} {α : Type} {l : List α} {f : α → Span} {k : α → ParseErrorKind} :
    ObjsOK s (l.map fun x => errEv (f x) (k x)) := by
  refine objsOK_none fun e he => ?_
  obtain ⟨x, _, rfl⟩ := List.mem_map.mp he
  simp [errEv]

theorem quiet_objs {s : List Char} {evs : List Event} (h : Quiet evs) : ObjsOK s evs := by
  refine objsOK_none fun e he hk => ?_
  have := h e he
  rw [hk] at this
  cases this

theorem emitKey_objs {s : List Char} {a : Atom} : ObjsOK s (emitKey a) := by
  refine objsOK_none fun e he hk => ?_
  have h1 : Balanced (emitKey a) := emitKey_balanced a
  obtain ⟨x, y, hxy⟩ := List.append_of_mem he
  -- key events never open anything
  cases a with
  | tag sp name payload invalid errSpan =>
    unfold emitKey at he
    simp only at he
    rcases List.mem_append.mp he with h | h
    · split at h
      · simp only [List.mem_singleton] at h; subst h; cases hk
      · cases h
    · split at h
      · simp only [List.mem_singleton] at h; subst h; cases hk
      · rcases List.mem_append.mp h with h | h
        · split at h
          · have := escErr_neutral e h; rw [hk] at this; cases this
          · cases h
        · simp only [List.mem_singleton] at h; subst h; cases hk
      · simp only [List.mem_singleton] at h; subst h; cases hk
      · simp only [List.mem_singleton] at h; subst h; cases hk
      · simp only [List.mem_singleton] at h; subst h; cases hk
  | invalidEscapeScalar sp raw =>
    rw [emitKey] at he
    rcases List.mem_append.mp he with h | h
    · have := escErr_neutral e h; rw [hk] at this; cases this
    · simp only [List.mem_singleton] at h; subst h; cases hk
  | _ => rw [emitKey] at he; simp only [List.mem_singleton] at he; subst he; cases hk

theorem onlyDup_ite {c : Prop} [Decidable c] {sp : Span} {k : ParseErrorKind} (hk : ∀ o, k ≠ .duplicateKey o)
    (h : OnlyDup (if c then [errEv sp k] else [])) : (if c then [errEv sp k] else []) = [] := by
  split at h
  · obtain ⟨o, ho⟩ := (h _ (List.mem_singleton.mpr rfl)).2 k rfl
    exact absurd ho (hk o)
  · rename_i hc; rw [if_neg hc]

theorem onlyDup_map {α : Type} {l : List α} {f : α → Span} {k : ParseErrorKind} (hk : ∀ o, k ≠ .duplicateKey o)
    (h : OnlyDup (l.map fun x => errEv (f x) k)) : (l.map fun x => errEv (f x) k) = [] := by
  cases l with
  | nil => rfl
  | cons a l =>
    obtain ⟨o, ho⟩ := (h (errEv (f a) k) (by simp)).2 k rfl
    exact absurd ho (hk o)

theorem ownDups_dups (dups : List (Span × Span)) : ownDups (dups.map dupEvent) = dups.map dupEvent ∧
    ownKeys (dups.map dupEvent) = [] := by
  have hn : ∀ e ∈ dups.map dupEvent, neutral e.kind = true := by
    intro e he
    obtain ⟨d, _, rfl⟩ := List.mem_map.mp he
    rfl
  constructor
  · unfold ownDups
    rw [atDepth_neutral hn, List.filter_eq_self]
    intro e he
    obtain ⟨d, _, rfl⟩ := List.mem_map.mp he
    rfl
  · induction dups with
    | nil => rfl
    | cons d ds ih =>
      rw [List.map_cons, show dupEvent d :: ds.map dupEvent = [dupEvent d] ++ ds.map dupEvent from rfl,
        ownKeys_append (balanced_one rfl), ih fun e he => hn e (by simp [he])]
      rfl

theorem doc_own (doc : Option (Span × List (List Char))) :
    Balanced (docEvents doc) ∧ ownKeys (docEvents doc) = [] ∧ ownDups (docEvents doc) = [] := by
  cases doc with
  | none => exact ⟨balanced_nil, rfl, rfl⟩
  | some d => exact ⟨balanced_one rfl, rfl, rfl⟩

theorem endEvents_eq (value : Atom) (tooMany : Option Span) :
    ∃ w e', endEvents value tooMany = w ++ [e'] ∧ e'.kind = .entryEnd ∧ Balanced w ∧ NoKeys w ∧
      ∀ s, ObjsOK s w := by
  cases tooMany with
  | none => exact ⟨[], ⟨value.span, .entryEnd⟩, rfl, rfl, balanced_nil, noKeys_nil, fun _ => objsOK_nil⟩
  | some sp =>
    exact ⟨[errEv sp .tooManyAtoms], ⟨sp, .entryEnd⟩, rfl, rfl, balanced_one rfl, noKeys_one ⟨rfl, rfl⟩,
      fun _ => objsOK_one (by simp [errEv])⟩

theorem emitEntries_own {s : List Char} (hn : ProperUni s) : ∀ {es : List ObjEntry}, EntriesGood s es →
    OnlyDup (emitEntries es) →
    ownKeys (emitEntries es) = (es.map ObjEntry.key).map keyEvent ∧ ownDups (emitEntries es) = [] ∧
    ∀ k ∈ es.map ObjEntry.key, GoodKey k
  | [], _, _ => ⟨rfl, rfl, by simp⟩
  | .mk key value doc tooMany :: rest, hg, h => by
    rw [emitEntries_cons] at h ⊢
    have h1 := onlyDup_tail (onlyDup_right h)
    have hk : GoodKey key := emitKey_of hn hg.1 (onlyDup_left h1)
    have hr := emitEntries_own hn (es := rest) hg.2.2.2.2 (onlyDup_right (onlyDup_right (onlyDup_right h1)))
    obtain ⟨w, e', hw, he', hwb, hwn, _⟩ := endEvents_eq value tooMany
    obtain ⟨d1, d2, d3⟩ := doc_own doc
    have hown := entry_own (e := ⟨key.span, .entryStart⟩) rfl hk.emit.2 he'
      ((emitValue_balanced value).append hwb)
      (NoKeys.append (emitValue_balanced value) (emitValue_noKeys value) hwn)
    have hbal : Balanced (⟨key.span, .entryStart⟩ :: keyEvent key :: (emitValue value ++ w ++ [e'])) := by
      have hb := (emitKey_balanced key).append ((emitValue_balanced value).append hwb)
      rw [hk.emit.1] at hb
      have := Balanced.wrap (e := ⟨key.span, .entryStart⟩) (e' := e') (o := .entry) rfl (by rw [he']; rfl) hb
      simpa using this
    have heq : docEvents doc ++ ⟨key.span, .entryStart⟩ ::
        (emitKey key ++ (emitValue value ++ (endEvents value tooMany ++ emitEntries rest))) =
        docEvents doc ++ ((⟨key.span, .entryStart⟩ :: keyEvent key :: (emitValue value ++ w ++ [e'])) ++
          emitEntries rest) := by
      rw [hw, hk.emit.1]; simp
    rw [heq, ownKeys_append d1, ownKeys_append hbal, ownDups_append d1, ownDups_append hbal, d2, d3,
      hown.1, hown.2, hr.1, hr.2.1]
    refine ⟨by simp [ObjEntry.key], rfl, ?_⟩
    intro k hk'
    rcases List.mem_cons.mp hk' with rfl | hk'
    · exact hk
    · exact hr.2.2 k hk'

theorem braced_noBrace {s : List Char} {sp : Span} (h : Braced s sp) (hn : HasNoBrace s sp.start) : False := by
  obtain ⟨c, hc, a, b, hs, ha, -⟩ := hn
  have hb := h.2
  simp only at ha
  rw [hs, ha, List.append_assoc] at hb
  unfold slice at hb
  rw [if_pos (by omega), dropBytes_append, Nat.add_sub_cancel_left] at hb
  simp only [Option.bind_some, List.cons_append, List.nil_append, Spec.takeBytes] at hb
  split at hb
  · rw [Option.map_eq_some_iff] at hb
    obtain ⟨r, _, hr⟩ := hb
    exact hc (List.cons.inj hr).1
  · cases hb

mutual
theorem emitValue_objs {s : List Char} (hn : ProperUni s) : ∀ {a : Atom}, AtomGood s a →
    OnlyDup (emitValue a) → ObjsOK s (emitValue a)
  | .scalar sp v k, _, _ => objsOK_one (by simp)
  | .unit sp, _, _ => objsOK_one (by simp)
  | .tag sp name payload invalid errSpan, hg, h => by
    rw [emitValue] at h ⊢
    rw [List.append_assoc] at h ⊢
    refine objsOK_ite.append (ObjsOK.cons (by simp) (ObjsOK.append ?_ (objsOK_one (by simp))))
    match payload, hg, h with
    | none, _, _ => exact objsOK_nil
    | some p, hg, h =>
      exact emitValue_objs hn (a := p) hg.2.2.2.1.1 (onlyDup_left (onlyDup_tail (onlyDup_right h)))
  | .object sp entries dups dangling unclosed, hg, h => by
    obtain ⟨g1, g2, g3, g4, seen, g5⟩ := hg
    rw [emitValue] at h ⊢
    simp only [List.cons_append] at h ⊢
    have h1 := onlyDup_left (onlyDup_tail h)
    have h2 := onlyDup_left (onlyDup_left h1)
    have he := onlyDup_right h1
    have hu := onlyDup_ite (by simp) (onlyDup_left h2)
    have hd := onlyDup_map (f := fun d => d) (by simp) (onlyDup_right (onlyDup_left h1))
    have hobj := emitEntries_objs hn g2 he
    have hown := emitEntries_own hn g2 he
    have hbd : Balanced (dups.map dupEvent) := balanced_map dups (·.2) fun d => .duplicateKey d.1
    rw [hu, hd]
    simp only [List.nil_append, List.append_nil]
    refine objsOK_obj (objsOK_map.append hobj) (Balanced.append hbd (emitEntries_balanced entries)) fun _ => ?_
    obtain ⟨e1, e2⟩ := ownDups_dups dups
    refine keysOK_of (ks := entries.map ObjEntry.key) (dups := dups) (seen := seen) ?_ hown.2.2 ?_ g5
    · show ownKeys (dups.map dupEvent ++ emitEntries entries) = _
      rw [ownKeys_append hbd, e2, hown.1]; rfl
    · show ownDups (dups.map dupEvent ++ emitEntries entries) = _
      rw [ownDups_append hbd, e1, hown.2.1]; simp
  | .sequence sp elems unclosed commas, hg, h => by
    rw [emitValue] at h ⊢
    simp only [List.cons_append] at h ⊢
    refine ObjsOK.cons (by simp) (ObjsOK.append (ObjsOK.append (ObjsOK.append objsOK_ite objsOK_map) ?_)
      (objsOK_one (by simp)))
    exact emitElems_objs hn hg.2.1 (onlyDup_right (onlyDup_left (onlyDup_tail h)))
  | .attributes sp attrs, hg, h => by
    rw [emitValue] at h ⊢
    simp only [List.cons_append] at h ⊢
    exact objsOK_obj (emitAttrs_objs hn hg.2.1 (onlyDup_left (onlyDup_tail h))) (emitAttrs_balanced attrs)
      fun hb => (braced_noBrace hb hg.2.2).elim
  | .invalidEscapeScalar sp raw, _, _ => by
    rw [emitValue]
    exact (escErr_objs _ _).append (objsOK_one (by simp))
  | .error sp m, _, _ => objsOK_one (by simp [errEv])
  | .panic sp, _, _ => objsOK_one (by simp)

theorem emitEntries_objs {s : List Char} (hn : ProperUni s) : ∀ {es : List ObjEntry}, EntriesGood s es →
    OnlyDup (emitEntries es) → ObjsOK s (emitEntries es)
  | [], _, _ => objsOK_nil
  | .mk key value doc tooMany :: rest, hg, h => by
    rw [emitEntries_cons] at h ⊢
    have h1 := onlyDup_right (onlyDup_tail (onlyDup_right h))
    have hv := emitValue_objs hn (a := value) hg.2.1 (onlyDup_left h1)
    have hr := emitEntries_objs hn (es := rest) hg.2.2.2.2 (onlyDup_right (onlyDup_right h1))
    have hd : ObjsOK s (docEvents doc) := by
      cases doc with
      | none => exact objsOK_nil
      | some d => exact objsOK_one (by simp)
    obtain ⟨w, e', hw, he', _, _, hwo⟩ := endEvents_eq value tooMany
    rw [hw]
    exact hd.append (ObjsOK.cons (by simp) (emitKey_objs.append (hv.append
      (((hwo s).append (objsOK_one (by simp [he']))).append hr))))

theorem emitElems_objs {s : List Char} (hn : ProperUni s) : ∀ {es : List Atom}, ElemsGood s es →
    OnlyDup (emitElems es) → ObjsOK s (emitElems es)
  | [], _, _ => objsOK_nil
  | a :: rest, hg, h => by
    rw [emitElems] at h ⊢
    exact (emitValue_objs hn hg.1 (onlyDup_left h)).append (emitElems_objs hn hg.2 (onlyDup_right h))

theorem emitAttrs_objs {s : List Char} (hn : ProperUni s) : ∀ {es : List AttrEntry}, AttrsGood s es →
    OnlyDup (emitAttrs es) → ObjsOK s (emitAttrs es)
  | [], _, _ => objsOK_nil
  | .mk key ks value :: rest, hg, h => by
    rw [emitAttrs] at h ⊢
    simp only [List.cons_append] at h ⊢
    have h1 := onlyDup_tail (onlyDup_tail h)
    exact ObjsOK.cons (by simp) (ObjsOK.cons (by simp) ((emitValue_objs hn hg.2.1 (onlyDup_left h1)).append
      (ObjsOK.cons (by simp) (emitAttrs_objs hn hg.2.2 (onlyDup_tail (onlyDup_right h1))))))
end

theorem entryValueEvents_objs {s : List Char} (hn : ProperUni s) {sp : Span} {rest : List Atom}
    (hg : ElemsGood s rest) (h : OnlyDup (entryValueEvents sp rest)) : ObjsOK s (entryValueEvents sp rest) := by
  cases rest with
  | nil => exact objsOK_one (by simp)
  | cons v r => exact emitValue_objs hn hg.1 h

theorem tooMany_objs {s : List Char} (rest : List Atom) : ObjsOK s (tooManyEvents rest) := by
  unfold tooManyEvents
  split
  · exact objsOK_one (by simp [errEv])
  · exact objsOK_nil

theorem emitSimpleEntry_objs {s : List Char} (hn : ProperUni s) {key : Atom} {rest : List Atom}
    (hg : ElemsGood s rest) (h : OnlyDup (emitSimpleEntry key rest)) : ObjsOK s (emitSimpleEntry key rest) := by
  unfold emitSimpleEntry at h ⊢
  simp only [List.cons_append] at h ⊢
  exact ObjsOK.cons (by simp) (((emitKey_objs.append (entryValueEvents_objs hn hg
    (onlyDup_right (onlyDup_left (onlyDup_left (onlyDup_tail h)))))).append (tooMany_objs _)).append
    (objsOK_one (by simp)))

theorem single_keysOK {body : List Event} {k : Event} (h1 : ownKeys body = [k]) (h2 : ownDups body = []) :
    KeysOK body := by
  refine ⟨fun _ => by rw [h1]; simp, fun e he => ?_⟩
  rw [h2] at he; cases he

theorem dotted_objs {s : List Char} {mid : List Event} (hm : Balanced mid) (hk : NoKeys mid)
    (ho : ObjsOK s mid) (sp : Span) (segs : List (List Char)) : segs ≠ [] → ∀ off,
    ObjsOK s (dottedOpen off segs ++ mid ++ dottedClose sp segs.length) ∧
    KeysOK (dottedOpen off segs ++ mid ++ dottedClose sp segs.length) := by
  induction segs with
  | nil => intro h; exact absurd rfl h
  | cons seg segs ih =>
    intro _ off
    cases segs with
    | nil =>
      have heq : dottedOpen off [seg] ++ mid ++ dottedClose sp [seg].length =
          ⟨⟨off, off + utf8Len seg⟩, .entryStart⟩ :: ⟨⟨off, off + utf8Len seg⟩, .key none (some seg) .bare⟩ ::
            (mid ++ [⟨sp, .entryEnd⟩]) := by simp [dottedOpen, dottedClose]
      rw [heq]
      have := entry_own (e := ⟨⟨off, off + utf8Len seg⟩, .entryStart⟩)
        (ke := ⟨⟨off, off + utf8Len seg⟩, .key none (some seg) .bare⟩) (e' := ⟨sp, .entryEnd⟩) rfl rfl rfl hm hk
      exact ⟨ObjsOK.cons (by simp) (ObjsOK.cons (by simp) (ho.append (objsOK_one (by simp)))),
        single_keysOK this.1 this.2⟩
    | cons seg' segs' =>
      obtain ⟨i1, i2⟩ := ih (by simp) (off + utf8Len seg + 1)
      have hb := dotted_balanced hm sp (seg' :: segs') (by simp) (off + utf8Len seg + 1)
      have hlen : (seg :: seg' :: segs').length = segs'.length + 2 := rfl
      have hl : (seg' :: segs').length = segs'.length + 1 := rfl
      have heq : dottedOpen off (seg :: seg' :: segs') ++ mid ++ dottedClose sp (seg :: seg' :: segs').length =
          ⟨⟨off, off + utf8Len seg⟩, .entryStart⟩ :: ⟨⟨off, off + utf8Len seg⟩, .key none (some seg) .bare⟩ ::
            ((⟨⟨off, off + utf8Len seg⟩, .objectStart⟩ :: ((dottedOpen (off + utf8Len seg + 1) (seg' :: segs') ++
              mid ++ dottedClose sp (seg' :: segs').length) ++ [⟨sp, .objectEnd⟩])) ++ [⟨sp, .entryEnd⟩]) := by
        rw [hlen, dottedClose_snoc, dottedOpen_cons, hl]
        simp
      rw [heq]
      have hob : ObjsOK s (⟨⟨off, off + utf8Len seg⟩, .objectStart⟩ :: ((dottedOpen (off + utf8Len seg + 1)
          (seg' :: segs') ++ mid ++ dottedClose sp (seg' :: segs').length) ++ [⟨sp, .objectEnd⟩])) :=
        objsOK_obj i1 hb fun _ => i2
      have hbw := Balanced.wrap (e := ⟨⟨off, off + utf8Len seg⟩, .objectStart⟩) (e' := ⟨sp, .objectEnd⟩)
        (o := .object) rfl rfl hb
      have hnk := noKeys_wrap (e := ⟨⟨off, off + utf8Len seg⟩, .objectStart⟩) (e' := ⟨sp, .objectEnd⟩)
        (o := .object) rfl rfl hb
      have := entry_own (e := ⟨⟨off, off + utf8Len seg⟩, .entryStart⟩)
        (ke := ⟨⟨off, off + utf8Len seg⟩, .key none (some seg) .bare⟩) (e' := ⟨sp, .entryEnd⟩) rfl rfl rfl hbw hnk
      exact ⟨ObjsOK.cons (by simp) (ObjsOK.cons (by simp) (hob.append (objsOK_one (by simp)))),
        single_keysOK this.1 this.2⟩

theorem pathErr_objs {s : List Char} (sp : Span) (e : Option PathError) : ObjsOK s (pathErrEvents sp e) := by
  unfold pathErrEvents
  split
  · exact objsOK_nil
  all_goals exact objsOK_one (by simp [errEv])

theorem emitDotted_objs {s : List Char} (hn : ProperUni s) {text : List Char} {sp : Span} {rest : List Atom}
    (path : Option PathState) (hg : ElemsGood s rest) (h : OnlyDup (emitDotted text sp rest path).1) :
    ObjsOK s (emitDotted text sp rest path).1 := by
  unfold emitDotted at h ⊢
  simp only at h ⊢
  by_cases hc : [] ∈ splitDots text
  · rw [if_pos hc]
    exact objsOK_none (by simp [errEv])
  · rw [if_neg hc] at h ⊢
    have h1 : OnlyDup (entryValueEvents sp rest) := onlyDup_right (onlyDup_left (onlyDup_left h))
    have hd := (dotted_objs ((entryValueEvents_balanced sp rest).append (tooMany_balanced rest))
      (NoKeys.append (entryValueEvents_balanced sp rest) (entryValueEvents_noKeys sp rest) (tooMany_noKeys rest))
      ((entryValueEvents_objs hn hg h1).append (tooMany_objs rest)) sp (splitDots text) (splitDots_ne text)
      sp.start).1
    cases path with
    | none => simpa using hd
    | some st =>
      have := (pathErr_objs sp (st.checkAndUpdate (splitDots text) sp (pathValueKind rest)).2).append hd
      simpa using this

theorem emitEntryAtRoot_objs {s : List Char} (hn : ProperUni s) {key : Atom} {rest : List Atom} (path : PathState)
    (hr : ElemsGood s rest) (h : OnlyDup (emitEntryAtRoot s key rest path).1) :
    ObjsOK s (emitEntryAtRoot s key rest path).1 := by
  have gen : ∀ {pre : List Event} {e : Option PathError} {sp : Span}, ObjsOK s pre →
      OnlyDup (pre ++ pathErrEvents sp e ++ emitSimpleEntry key rest) →
      ObjsOK s (pre ++ pathErrEvents sp e ++ emitSimpleEntry key rest) := fun hp ho =>
    (hp.append (pathErr_objs _ _)).append (emitSimpleEntry_objs hn hr (onlyDup_right ho))
  cases key with
  | scalar sp v k =>
    cases k with
    | bare =>
      unfold emitEntryAtRoot at h ⊢
      simp only at h ⊢
      by_cases hd : '.' ∈ v
      · rw [if_pos hd] at h ⊢
        exact emitDotted_objs hn _ hr h
      · rw [if_neg hd] at h ⊢
        exact (pathErr_objs _ _).append (emitSimpleEntry_objs hn hr (onlyDup_right h))
    | heredoc =>
      refine gen (pre := match heredocStartSpan s sp with
        | some sp' => [errEv sp' .invalidKey]
        | none => [⟨sp, .panic⟩]) ?_ h
      split
      · exact objsOK_one (by simp [errEv])
      · exact objsOK_one (by simp)
    | quoted => exact gen objsOK_nil h
    | raw => exact gen objsOK_nil h
  | _ => exact gen objsOK_nil h

/-- The bookkeeping of a root object written with braces: own keys and errors of its further events. -/
def RootBody (s : List Char) (seen : List (KeyValue × Span)) (body : List Event) : Prop :=
  '.' ∉ s → ∃ (ks : List Atom) (dups : List (Span × Span)), ownKeys body = ks.map keyEvent ∧ (∀ k ∈ ks, GoodKey k) ∧
    ownDups body = dups.map dupEvent ∧ ∀ ks0 dups0, DupInv ks0 seen dups0 →
      ∃ seen', DupInv (ks0 ++ ks) seen' (dups.reverse ++ dups0)

theorem RootBody.start {s : List Char} {body : List Event} (h : RootBody s [] body) (hd : '.' ∉ s) :
    KeysOK body := by
  obtain ⟨ks, dups, h1, h2, h3, h4⟩ := h hd
  obtain ⟨seen', h5⟩ := h4 [] [] dupInv_nil
  have := h5.reverse_dups
  simp only [List.nil_append, List.append_nil, List.reverse_reverse] at this
  exact keysOK_of h1 h2 h3 this

theorem RootBody.nil {s : List Char} {seen : List (KeyValue × Span)} : RootBody s seen [] :=
  fun _ => ⟨[], [], rfl, by simp, rfl, fun ks0 dups0 h => ⟨seen, by simpa using h⟩⟩

theorem RootBody.skip {s : List Char} {seen : List (KeyValue × Span)} {a b : List Event} (hb : Balanced a)
    (h1 : ownKeys a = []) (h2 : ownDups a = []) (h : RootBody s seen b) : RootBody s seen (a ++ b) := by
  intro hd
  obtain ⟨ks, dups, g1, g2, g3, g4⟩ := h hd
  exact ⟨ks, dups, by rw [ownKeys_append hb, h1, g1]; rfl, g2, by rw [ownDups_append hb, h2, g3]; rfl, g4⟩

theorem quiet_own {evs : List Event} (h : Quiet evs) : ownKeys evs = [] ∧ ownDups evs = [] := by
  constructor
  · induction evs with
    | nil => rfl
    | cons e es ih =>
      have hb : Balanced [e] := quiet_balanced (fun x hx => h x (by simp at hx; simp [hx]))
      rw [show e :: es = [e] ++ es from rfl, ownKeys_append hb, ih fun x hx => h x (by simp [hx])]
      rfl
  · have hn : ∀ e ∈ evs, neutral e.kind = true := by
      intro e he
      have := h e he
      revert this
      cases e.kind <;> simp [quietKind, neutral]
    unfold ownDups
    rw [atDepth_neutral hn, List.filter_eq_nil_iff]
    intro e he
    have := h e he
    obtain ⟨sp, k⟩ := e
    revert this
    cases k with
    | error k => cases k <;> simp [quietKind, isDup]
    | _ => simp [quietKind, isDup]

/-- The simple entry of a good key. -/
theorem simpleEntry_own {key : Atom} (hk : GoodKey key) (rest : List Atom) :
    ownKeys (emitSimpleEntry key rest) = [keyEvent key] ∧ ownDups (emitSimpleEntry key rest) = [] := by
  have := entry_own (e := ⟨key.span, .entryStart⟩) (ke := keyEvent key)
    (e' := ⟨((key :: rest).getLastD key).span, .entryEnd⟩) rfl hk.emit.2 rfl
    ((entryValueEvents_balanced key.span rest).append (tooMany_balanced rest))
    (NoKeys.append (entryValueEvents_balanced key.span rest) (entryValueEvents_noKeys key.span rest)
      (tooMany_noKeys rest))
  unfold emitSimpleEntry
  rw [hk.emit.1]
  simpa using this

theorem onlyDup_err {sp : Span} {k : ParseErrorKind} {b : List Event} (hk : ∀ o, k ≠ .duplicateKey o)
    (h : OnlyDup (errEv sp k :: b)) : False := by
  obtain ⟨o, ho⟩ := (h (errEv sp k) (List.mem_cons_self ..)).2 k rfl
  exact hk o ho

/-- What `emitEntryInObject` does when the only errors are duplicates. -/
theorem emitEntryInObject_cases {key : Atom} {rest : List Atom}
    {seen : List (KeyValue × Span)} (h : OnlyDup (emitEntryInObject key rest seen).1) :
    (∃ sp v, key = .scalar sp v .bare ∧ '.' ∈ v ∧
      emitEntryInObject key rest seen = ((emitDotted v sp rest none).1, seen)) ∨
    (∃ o, lookupKey (KeyValue.fromAtom key) seen = some o ∧
      emitEntryInObject key rest seen =
        (errEv key.span (.duplicateKey o) :: emitSimpleEntry key rest, seen)) ∨
    (lookupKey (KeyValue.fromAtom key) seen = none ∧
      emitEntryInObject key rest seen =
        (emitSimpleEntry key rest, (KeyValue.fromAtom key, key.span) :: seen)) := by
  have main : ∀ pre : List Event, (∀ sp k b, pre = errEv sp k :: b → ∀ o, k ≠ .duplicateKey o) →
      (pre = [] ∨ ∃ sp k b, pre = errEv sp k :: b) →
      ∀ r : List Event × List (KeyValue × Span),
      r = (match lookupKey (KeyValue.fromAtom key) seen with
        | some original =>
          (pre ++ errEv key.span (.duplicateKey original) :: emitSimpleEntry key rest, seen)
        | none => (pre ++ emitSimpleEntry key rest, (KeyValue.fromAtom key, key.span) :: seen)) →
      OnlyDup r.1 →
      (∃ o, lookupKey (KeyValue.fromAtom key) seen = some o ∧
        r = (errEv key.span (.duplicateKey o) :: emitSimpleEntry key rest, seen)) ∨
      (lookupKey (KeyValue.fromAtom key) seen = none ∧
        r = (emitSimpleEntry key rest, (KeyValue.fromAtom key, key.span) :: seen)) := by
    intro pre h1 h2 r hr ho
    have hp : pre = [] := by
      rcases h2 with h2 | ⟨sp, k, b, hb⟩
      · exact h2
      · exfalso
        have := h1 sp k b hb
        subst hb
        subst hr
        split at ho
        · exact onlyDup_err this (onlyDup_left ho)
        · exact onlyDup_err this (onlyDup_left ho)
    subst hp
    subst hr
    split
    · rename_i o ho'
      exact Or.inl ⟨o, ho', rfl⟩
    · rename_i ho'
      exact Or.inr ⟨ho', rfl⟩
  have nilcase := main [] (by simp) (Or.inl rfl)
  cases key with
  | scalar sp v k =>
    cases k with
    | bare =>
      by_cases hd : '.' ∈ v
      · left
        refine ⟨sp, v, rfl, hd, ?_⟩
        unfold emitEntryInObject
        simp only
        rw [if_pos hd]
      · right
        refine nilcase _ ?_ h
        unfold emitEntryInObject
        simp only
        rw [if_neg hd]
        rfl
    | heredoc =>
      right
      refine main [errEv sp .invalidKey] ?_ (Or.inr ⟨_, _, _, rfl⟩) _ rfl h
      intro sp' k b hb
      simp only [errEv, List.cons.injEq, Event.mk.injEq, EventKind.error.injEq] at hb
      rw [← hb.1.2]
      simp
    | quoted => right; exact nilcase _ rfl h
    | raw => right; exact nilcase _ rfl h
  | _ => right; exact nilcase _ rfl h

theorem emitEntryInObject_objs {s : List Char} (hn : ProperUni s) {key : Atom} {rest : List Atom}
    {seen : List (KeyValue × Span)} (hr : ElemsGood s rest) (h : OnlyDup (emitEntryInObject key rest seen).1) :
    ObjsOK s (emitEntryInObject key rest seen).1 := by
  rcases emitEntryInObject_cases h with ⟨sp, v, _, _, he⟩ | ⟨o, _, he⟩ | ⟨_, he⟩
  · rw [he] at h ⊢; exact emitDotted_objs hn _ hr h
  · rw [he] at h ⊢; exact ObjsOK.cons (by simp [errEv]) (emitSimpleEntry_objs hn hr (onlyDup_tail h))
  · rw [he] at h ⊢; exact emitSimpleEntry_objs hn hr h

theorem RootBody.entry {s : List Char} (hn : ProperUni s) {key : Atom} {rest : List Atom}
    {seen : List (KeyValue × Span)} {b : List Event} (hg : AtomGood s key)
    (h : OnlyDup (emitEntryInObject key rest seen).1)
    (hb : RootBody s (emitEntryInObject key rest seen).2 b) :
    RootBody s seen ((emitEntryInObject key rest seen).1 ++ b) := by
  intro hd
  obtain ⟨ks, dups, g1, g2, g3, g4⟩ := hb hd
  have hbal := emitEntryInObject_balanced key rest seen
  have hgood : ∀ {o}, OnlyDup (o ++ emitSimpleEntry key rest) → GoodKey key := by
    intro o ho
    have := onlyDup_right ho
    unfold emitSimpleEntry at this
    simp only [List.cons_append] at this
    exact emitKey_of hn hg (onlyDup_left (onlyDup_left (onlyDup_left (onlyDup_tail this))))
  rw [ownKeys_append hbal, ownDups_append hbal, g1, g3]
  rcases emitEntryInObject_cases h with ⟨sp, v, rfl, hv, _⟩ | ⟨o, ho, he⟩ | ⟨ho, he⟩
  · have : v <:+: s := (hg.2.1 rfl).isInfix
    exact absurd (this.subset hv) hd
  · rw [he] at h g4 ⊢
    have hk := hgood (o := [_]) h
    obtain ⟨e1, e2⟩ := simpleEntry_own hk rest
    have hb1 : Balanced [errEv key.span (.duplicateKey o)] := balanced_one rfl
    refine ⟨key :: ks, (o, key.span) :: dups, ?_, ?_, ?_, ?_⟩
    · rw [show errEv key.span (.duplicateKey o) :: emitSimpleEntry key rest =
        [errEv key.span (.duplicateKey o)] ++ emitSimpleEntry key rest from rfl, ownKeys_append hb1, e1]
      rfl
    · intro k hk'
      rcases List.mem_cons.mp hk' with rfl | hk'
      · exact hk
      · exact g2 k hk'
    · rw [show errEv key.span (.duplicateKey o) :: emitSimpleEntry key rest =
        [errEv key.span (.duplicateKey o)] ++ emitSimpleEntry key rest from rfl, ownDups_append hb1, e2]
      rfl
    · intro ks0 dups0 hinv
      have h1 := hinv.note key
      unfold noteKey at h1
      rw [ho] at h1
      obtain ⟨seen', h2⟩ := g4 _ _ h1
      exact ⟨seen', by simpa using h2⟩
  · rw [he] at h g4 ⊢
    have hk := hgood (o := []) h
    obtain ⟨e1, e2⟩ := simpleEntry_own hk rest
    refine ⟨key :: ks, dups, ?_, ?_, ?_, ?_⟩
    · rw [e1]; rfl
    · intro k hk'
      rcases List.mem_cons.mp hk' with rfl | hk'
      · exact hk
      · exact g2 k hk'
    · rw [e2]; rfl
    · intro ks0 dups0 hinv
      have h1 := hinv.note key
      unfold noteKey at h1
      rw [ho] at h1
      obtain ⟨seen', h2⟩ := g4 _ _ h1
      exact ⟨seen', by simpa using h2⟩

theorem danglingEv_objs {s : List Char} (doc : Option Span) : ObjsOK s (danglingEv doc) := by
  cases doc with
  | none => exact objsOK_nil
  | some d => exact objsOK_one (by simp [errEv])

theorem danglingEv_onlyDup {doc : Option Span} (h : OnlyDup (danglingEv doc)) : danglingEv doc = [] := by
  cases doc with
  | none => rfl
  | some d => exact (onlyDup_err (by simp) h).elim

/-- What holds of the events still to come in the states after the root's opening brace. -/
def InOK (s : List Char) (st : PState) (evs : List Event) : Prop :=
  match st with
  | .inObject _ seen _ => ObjsOK s evs ∧ ∃ body sp' tail, evs = body ++ ⟨sp', .objectEnd⟩ :: tail ∧
      Balanced body ∧ RootBody s seen body
  | .afterDocument => ObjsOK s evs
  | .beforeExpression => ObjsOK s evs
  | _ => True

theorem run_in {s : List Char} (hn : ProperUni s) {st : PState} {ls : List Lexeme} {evs : List Event}
    (h : RunR s st ls evs) : ∀ p, Chain s p ls → OnlyDup evs → InOK s st evs := by
  induction h with
  | start => intros; trivial
  | rootEof => intros; trivial
  | rootSkip => intros; trivial
  | rootComment => intros; trivial
  | rootDoc => intros; trivial
  | rootBrace => intros; trivial
  | rootEntry => intros; trivial
  | objEof =>
    intro p hc ho
    exact (onlyDup_err (by simp) (onlyDup_right ho)).elim
  | objClose _ ih =>
    intro p hc ho
    rename_i start seen doc sp ls more hrun
    have := ih _ hc.2.2.2.1 (onlyDup_right ho)
    refine ⟨?_, [], sp, danglingEv doc ++ [⟨⟨utf8Len s, utf8Len s⟩, .documentEnd⟩] ++ more, by simp, balanced_nil, RootBody.nil⟩
    simp only [List.cons_append]
    exact ObjsOK.cons (by simp) (((danglingEv_objs _).append (objsOK_one (by simp))).append this)
  | objSkip _ _ ih => intro p hc ho; exact ih _ hc.2.2.2.1 ho
  | objComment _ ih =>
    intro p hc ho
    rename_i sp text ls more hrun
    obtain ⟨h1, body, sp', tail, rfl, h3, h4⟩ := ih _ hc.2.2.2.1 (onlyDup_tail ho)
    exact ⟨ObjsOK.cons (by simp) h1, ⟨sp, .comment text⟩ :: body, sp', tail, by simp, Balanced.neutral rfl h3,
      RootBody.skip (a := [⟨sp, .comment text⟩]) (balanced_one rfl) rfl rfl h4⟩
  | objDoc _ ih =>
    intro p hc ho
    rename_i sp text ls more hrun
    obtain ⟨h1, body, sp', tail, rfl, h3, h4⟩ := ih _ hc.2.2.2.1 (onlyDup_tail ho)
    exact ⟨ObjsOK.cons (by simp) h1, ⟨sp, .docComment [stripDoc text]⟩ :: body, sp', tail, by simp, Balanced.neutral rfl h3,
      RootBody.skip (a := [⟨sp, .docComment [stripDoc text]⟩]) (balanced_one rfl) rfl rfl h4⟩
  | objEntry _ hcol _ ih =>
    intro p hc ho
    obtain ⟨g1, g2, g3, q, g4⟩ := collectGood hcol hc
    have hq := collect_quiet hcol
    obtain ⟨h1, body, sp', tail, rfl, h3, h4⟩ := ih _ g4 (onlyDup_right ho)
    have hoe := onlyDup_right (onlyDup_left ho)
    refine ⟨((quiet_objs hq).append (emitEntryInObject_objs hn g2 hoe)).append h1, _, sp', tail,
      (List.append_assoc _ _ _).symm,
      ((quiet_balanced hq).append (emitEntryInObject_balanced _ _ _)).append h3, ?_⟩
    rw [List.append_assoc]
    exact RootBody.skip (quiet_balanced hq) (quiet_own hq).1 (quiet_own hq).2 (RootBody.entry hn g1 hoe h4)
  | after h =>
    intro p hc ho
    refine objsOK_none fun e he hk => ?_
    rcases checkTrailing_neutral h e he with ⟨k, h'⟩ | h' <;> rw [h'] at hk <;> cases hk
  | exprEnd => intros; exact objsOK_nil
  | exprSkip _ _ ih => intro p hc ho; exact ih _ hc.2.2.2.1 ho
  | expr _ ha =>
    intro p hc ho
    obtain ⟨g1, _⟩ := atomGood ha p _ rfl hc
    exact (quiet_objs (atom_quiet ha)).append (emitValue_objs hn g1 (onlyDup_right ho))

/-- Every braced object is fine, the root one only when no key can be dotted; `st` is what is open. -/
def RunOK (s : List Char) (st : List Opened) (evs : List Event) : Prop :=
  ∀ pre sp post st', evs = pre ++ ⟨sp, .objectStart⟩ :: post → Braced s sp → nest st pre = some st' →
    (st' ≠ [] ∧ st' ≠ [.object]) ∨ '.' ∉ s → ObjOK post

theorem RunOK.append {s : List Char} {st : List Opened} {a b : List Event} (ha : ObjsOK s a)
    (hbal : Balanced a) (hb : RunOK s st b) : RunOK s st (a ++ b) := by
  intro pre sp post st' h hbr hst hc
  rcases append_split h with ⟨r, h1, rfl⟩ | ⟨r, rfl, h2⟩
  · exact (ha pre sp r h1 hbr).extend
  · rw [nest_append, hbal st] at hst
    exact hb r sp post st' h2 hbr hst hc

theorem RunOK.implicit {s : List Char} {doc : Option Span} {path : PathState} {started : Bool}
    {more : List Event} (h : RunOK s [.object] more) :
    RunOK s ((PState.documentRoot doc path started).openIn []) (implicitStart started ++ more) := by
  cases started with
  | true => exact h
  | false =>
    intro pre sp post st' he hbr hst hc
    cases pre with
    | nil =>
      simp only [implicitStart, List.nil_append] at he
      cases he
      exact absurd hbr.1 (by simp)
    | cons e pre =>
      simp only [implicitStart, List.cons_append] at he
      cases he
      exact h pre sp post st' rfl hbr hst hc

theorem run_objs {s : List Char} (hn : ProperUni s) {st : PState} {ls : List Lexeme} {evs : List Event}
    (h : RunR s st ls evs) : ∀ p, Chain s p ls → OnlyDup evs →
    (st = .beforeDocument ∨ ∃ d p b, st = .documentRoot d p b) → RunOK s (st.openIn []) evs := by
  induction h with
  | start _ ih =>
    intro p hc ho _
    exact RunOK.append (a := [_]) (objsOK_one (by simp)) (balanced_one rfl)
      (ih p hc (onlyDup_tail ho) (Or.inr ⟨_, _, _, rfl⟩))
  | rootEof =>
    rename_i doc path started
    intro p hc ho _ pre sp post st' he
    have : ObjsOK s (danglingEv doc ++ (if started then [⟨⟨0, 0⟩, .objectEnd⟩] else []) ++
          [⟨⟨utf8Len s, utf8Len s⟩, .documentEnd⟩]) := by
      refine ((danglingEv_objs _).append ?_).append (objsOK_one (by simp))
      cases started
      · exact objsOK_nil
      · exact objsOK_one (by simp)
    intro hbr _ _
    exact this pre sp post he hbr
  | rootSkip _ _ ih => intro p hc ho _; exact ih _ hc.2.2.2.1 ho (Or.inr ⟨_, _, _, rfl⟩)
  | rootComment _ ih =>
    intro p hc ho _
    exact RunOK.append (a := [_]) (objsOK_one (by simp)) (balanced_one rfl)
      (ih _ hc.2.2.2.1 (onlyDup_tail ho) (Or.inr ⟨_, _, _, rfl⟩))
  | rootDoc _ ih =>
    intro p hc ho _
    exact RunOK.implicit (RunOK.append (a := [_]) (objsOK_one (by simp)) (balanced_one rfl)
      (ih _ hc.2.2.2.1 (onlyDup_tail (onlyDup_right ho)) (Or.inr ⟨_, _, _, rfl⟩)))
  | rootBrace hr ih =>
    rename_i doc path started sp ls more
    intro p hc ho _ pre sp1 post st' he hbr hst hcond
    obtain ⟨h1, body, sp', tail, rfl, h3, h4⟩ := run_in hn hr _ hc.2.2.2.1 (onlyDup_tail ho)
    cases pre with
    | nil =>
      simp only [List.nil_append, List.cons.injEq, Event.mk.injEq, and_true] at he
      obtain ⟨rfl, rfl⟩ := he
      rw [nest] at hst
      have hd : '.' ∉ s := by
        rcases hcond with ⟨c1, c2⟩ | hd
        · exfalso
          cases started
          · cases hst; exact c1 rfl
          · cases hst; exact c2 rfl
        · exact hd
      exact ⟨body, sp', tail, rfl, h3, h4.start hd⟩
    | cons e pre =>
      simp only [List.cons_append, List.cons.injEq] at he
      exact h1 pre sp1 post he.2 hbr
  | rootEntry _ hcol _ ih =>
    intro p hc ho _
    obtain ⟨g1, g2, g3, q, g4⟩ := collectGood hcol hc
    have hq := collect_quiet hcol
    have ho1 := onlyDup_left ho
    rw [List.append_assoc, List.append_assoc]
    exact RunOK.implicit (RunOK.append (quiet_objs hq) (quiet_balanced hq)
      (RunOK.append (emitEntryAtRoot_objs hn _ g2 (onlyDup_right ho1)) (emitEntryAtRoot_balanced _ _ _ _)
        (ih _ g4 (onlyDup_right ho) (Or.inr ⟨_, _, _, rfl⟩))))
  | _ =>
    intro p hc ho hst
    rcases hst with hst | ⟨_, _, _, hst⟩ <;> cases hst

end Styx
