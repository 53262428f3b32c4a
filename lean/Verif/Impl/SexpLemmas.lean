import Verif.Impl.Sexp
import Verif.Cli.SexpLemmas

/-!
# Lemmas: the printers of S-expressions agree
-/

namespace Styx.Impl

open Styx Styx.Cli Styx.Spec

/-- A character that is printed in the same way by all: one of `\n`, `\r`, `\t`, or one that Rust prints as it is and that
is no control character for JavaScript. -/
def CommonChar (pr : Char → Bool) (c : Char) : Prop :=
  c = '\n' ∨ c = '\r' ∨ c = '\t' ∨ pr c = true ∧ 32 ≤ c.toNat

def pyChar (c : Char) : List Char :=
  if c = '"' then ['\\', '"'] else if c = '\\' then ['\\', '\\'] else if c = '\n' then ['\\', 'n']
  else if c = '\r' then ['\\', 'r'] else if c = '\t' then ['\\', 't'] else [c]

theorem pyEscape_eq (s : List Char) : pyEscape s = s.flatMap pyChar := by
  unfold pyEscape replaceChar
  simp only [List.flatMap_assoc]
  congr 1
  funext c
  unfold pyChar
  by_cases h1 : c = '\\'
  · subst h1; decide
  · by_cases h2 : c = '"'
    · subst h2; decide
    · by_cases h3 : c = '\n'
      · subst h3; decide
      · by_cases h4 : c = '\r'
        · subst h4; decide
        · by_cases h5 : c = '\t'
          · subst h5; decide
          · simp [h1, h2, h3, h4, h5]

theorem common_chars {pr : Char → Bool} {c : Char} (h : CommonChar pr c) :
    debugChar pr c = jsChar c ∧ debugChar pr c = pyChar c := by
  rcases h with rfl | rfl | rfl | ⟨h1, h2⟩
  · exact ⟨rfl, rfl⟩
  · exact ⟨rfl, rfl⟩
  · exact ⟨rfl, rfl⟩
  · have h0 : c ≠ '\x00' := by rintro rfl; revert h2; decide
    unfold debugChar jsChar pyChar
    have h3 : ¬ c.toNat < 32 := by omega
    grind

theorem flatMap_congr' {α β : Type} {f g : α → List β} : ∀ {l : List α}, (∀ x ∈ l, f x = g x) → l.flatMap f = l.flatMap g
  | [], _ => rfl
  | x :: l, h => by
    rw [List.flatMap_cons, List.flatMap_cons, h x (List.mem_cons_self ..),
      flatMap_congr' fun y hy => h y (List.mem_cons_of_mem _ hy)]

theorem jsEscape_common {pr : Char → Bool} {s : List Char} (h : ∀ c ∈ s, CommonChar pr c) :
    '"' :: jsEscape s ++ ['"'] = debugStr pr s := by
  rw [debugStr, jsEscape, flatMap_congr' fun c hc => (common_chars (h c hc)).1]

theorem pyEscape_common {pr : Char → Bool} {s : List Char} (h : ∀ c ∈ s, CommonChar pr c) :
    '"' :: pyEscape s ++ ['"'] = debugStr pr s := by
  rw [debugStr, pyEscape_eq, flatMap_congr' fun c hc => (common_chars (h c hc)).2]

theorem joinLines_cons (l : List Char) (ls : List (List Char)) : joinLines (l :: ls) = l ++ ls.flatMap ('\n' :: ·) := by
  induction ls generalizing l with
  | nil => simp [joinLines]
  | cons m ms ih => rw [joinLines, ih, List.flatMap_cons]; rfl; nofun

/-! ## Closing a sequence -/

theorem sexpPad_space (n : Nat) : ∀ c ∈ sexpPad n, c = ' ' := by
  induction n with
  | zero => nofun
  | succ n ih =>
    intro c hc
    simp only [sexpPad, List.mem_cons] at hc
    rcases hc with rfl | rfl | hc
    · rfl
    · rfl
    · exact ih c hc

theorem foldClose_eq {x pad : List Char} (hp : ∀ c ∈ pad, c = ' ') :
    foldClose (x ++ ')' :: '\n' :: (pad ++ [')'])) = x ++ [')', ')'] := by
  have hr : (x ++ ')' :: '\n' :: (pad ++ [')'])).reverse = ')' :: (pad.reverse ++ '\n' :: ')' :: x.reverse) := by simp
  have hw : ∀ c ∈ pad.reverse, isJsSpace c = true := by
    intro c hc
    rw [hp c (List.mem_reverse.1 hc)]; decide
  have h1 : (pad.reverse ++ '\n' :: ')' :: x.reverse).takeWhile isJsSpace = pad.reverse ++ ['\n'] := by
    rw [List.takeWhile_append_of_pos hw, List.takeWhile_cons_of_pos (by decide), List.takeWhile_cons_of_neg (by decide)]
  have h2 : (pad.reverse ++ '\n' :: ')' :: x.reverse).dropWhile isJsSpace = ')' :: x.reverse := by
    rw [List.dropWhile_append_of_pos hw, List.dropWhile_cons_of_pos (by decide), List.dropWhile_cons_of_neg (by decide)]
  unfold foldClose
  rw [hr]
  simp only [h1, h2]
  rw [if_pos (by simp)]
  simp

/-! ## Values -/

/-- A text that ends with a closing parenthesis. -/
def Closed (s : List Char) : Prop := ∃ x, s = x ++ [')']

theorem foldClose_closed {s pad : List Char} (h : Closed s) (hp : ∀ c ∈ pad, c = ' ') :
    foldClose (s ++ '\n' :: (pad ++ [')'])) = s ++ [')'] := by
  obtain ⟨x, rfl⟩ := h
  have := foldClose_eq (x := x) hp
  simpa using this

theorem sexpValue_closed (pr : Char → Bool) (ind : Nat) (v : Value) : Closed (sexpValue pr ind v) := by
  match v with
  | .mk none none sp => exact ⟨_, rfl⟩
  | .mk (some t) none sp => exact ⟨_, rfl⟩
  | .mk (some t) (some p) sp => exact ⟨_, rfl⟩
  | .mk none (some (.scalar ..)) sp => exact ⟨_, rfl⟩
  | .mk none (some (.sequence ..)) sp => exact ⟨_, rfl⟩
  | .mk none (some (.object [] _)) sp => exact ⟨_, rfl⟩
  | .mk none (some (.object (_ :: _) _)) sp => exact ⟨_, rfl⟩

theorem sexpItems_closed (pr : Char → Bool) (ind : Nat) : ∀ (v : Value) (vs : List Value), Closed (sexpItems pr ind (v :: vs))
  | v, [] => by
    obtain ⟨x, hx⟩ := sexpValue_closed pr ind v
    exact ⟨'\n' :: x, by simp [sexpItems, hx]⟩
  | v, w :: ws => by
    obtain ⟨x, hx⟩ := sexpItems_closed pr ind w ws
    exact ⟨'\n' :: sexpValue pr ind v ++ x, by rw [sexpItems, hx]; simp⟩

/-- What the printers agree on: values that are where their payloads are, texts of common characters, and names of tags
without quotes and backslashes. -/
def Nice (pr : Char → Bool) (v : Value) : Prop :=
  Placed v ∧ Texts (∀ c ∈ ·, CommonChar pr c) (∀ c ∈ ·, pr c = true ∧ 32 ≤ c.toNat ∧ c ≠ '"' ∧ c ≠ '\\') v

theorem Nice.child {pr : Char → Bool} {x v : Value} (h : Nice pr v) (hc : Child x v) : Nice pr x :=
  ⟨h.1.child hc, fun y hy => h.2 y (.inside hc hy)⟩

theorem nice_name {pr : Char → Bool} {name : List Char} (h : ∀ c ∈ name, pr c = true ∧ 32 ≤ c.toNat ∧ c ≠ '"' ∧ c ≠ '\\') :
    '"' :: jsEscape name ++ ['"'] = debugStr pr name ∧ '"' :: name ++ ['"'] = debugStr pr name := by
  refine ⟨jsEscape_common fun c hc => .inr (.inr (.inr ⟨(h c hc).1, (h c hc).2.1⟩)), ?_⟩
  rw [debugStr, flatMap_congr' (g := fun c => [c])]
  · simp
  · intro c hc
    obtain ⟨h1, h2, h3, h4⟩ := h c hc
    rw [(common_chars (.inr (.inr (.inr ⟨h1, h2⟩)))).2]
    unfold pyChar
    have h5 : c ≠ '\n' := by rintro rfl; revert h2; decide
    have h6 : c ≠ '\r' := by rintro rfl; revert h2; decide
    have h7 : c ≠ '\t' := by rintro rfl; revert h2; decide
    simp [h3, h4, h5, h6, h7]

theorem drop_pad (n : Nat) : ∀ c ∈ (sexpPad n).drop 2, c = ' ' :=
  fun c hc => sexpPad_space n c (List.mem_of_mem_drop hc)

mutual
theorem jsValue_eq (pr : Char → Bool) (lvl : Nat) : ∀ v : Value, Nice pr v → jsValue lvl v = sexpValue pr lvl v
  | .mk none none sp, _ => rfl
  | .mk (some t) none sp, h => by
    have h1 := (nice_name ((h.2 _ .self).1 t rfl)).1
    rw [jsValue, sexpValue, ← h1]
    simp
  | .mk (some t) (some p) sp, h => by
    have h1 := (nice_name ((h.2 _ .self).1 t rfl)).1
    rw [jsValue, sexpValue, ← h1, jsPayload_eq pr (lvl + 1) p _ _ h]
    simp
  | .mk none (some p) sp, h => by
    rw [jsValue, sexpValue, jsPayload_eq pr lvl p _ _ h, h.1 _ .self rfl p rfl]
    rfl
theorem jsPayload_eq (pr : Char → Bool) (lvl : Nat) : ∀ (p : Payload) (t : Option Tag) (sp : Option Span),
    Nice pr (.mk t (some p) sp) → jsPayload lvl p = sexpPayload pr lvl (payloadSpan p) p
  | .scalar text k psp, t, sp, h => by
    have h1 := jsEscape_common ((h.2 _ .self).2 text k psp rfl)
    rw [jsPayload, sexpPayload, ← h1]
    simp [payloadSpan]
  | .sequence [] psp, t, sp, h => by simp [jsPayload, sexpPayload, sexpItems, payloadSpan]
  | .sequence (v :: vs) psp, t, sp, h => by
    have h1 := jsItems_eq pr (lvl + 1) (v :: vs) (fun x hx => h.child (.item hx))
    obtain ⟨x, hx⟩ := sexpItems_closed pr (lvl + 1) v vs
    rw [jsItems, List.flatMap_cons] at h1
    rw [jsPayload, sexpPayload, joinLines_cons, List.flatMap_cons, List.flatMap_append, ← List.append_assoc _ _ (List.flatMap _ _),
      h1, hx]
    have := foldClose_closed (s := sexpPad lvl ++ (chars! "(sequence ") ++ spanText psp ++ (x ++ [')'])) ⟨_, (List.append_assoc ..).symm⟩
      (drop_pad lvl)
    simpa [payloadSpan] using this
  | .object [] psp, t, sp, h => rfl
  | .object (e :: es) psp, t, sp, h => by
    have h1 := jsEntries_eq pr (lvl + 1) (e :: es) (fun k v d hm => ⟨h.child (.key hm), h.child (.value hm)⟩)
    rw [jsEntries, sexpEntries, List.flatMap_cons, List.append_assoc] at h1
    rw [jsPayload, sexpPayload, joinLines_cons, List.flatMap_cons, List.flatMap_append]
    simp only [List.flatMap_cons, List.flatMap_nil, List.append_nil, payloadSpan]
    have h2 : ∀ z : List Char, ('\n' :: jsEntry (lvl + 1) e) ++ (List.flatMap ('\n' :: ·) (jsEntries (lvl + 1) es) ++ '\n' :: z) =
        '\n' :: (sexpEntry pr (lvl + 1) e ++ sexpEntries pr (lvl + 1) es) ++ z := by
      intro z
      have := congrArg (· ++ z) h1
      simpa using this
    rw [h2]
    simp
theorem jsItems_eq (pr : Char → Bool) (lvl : Nat) : ∀ vs : List Value, (∀ v ∈ vs, Nice pr v) →
    (jsItems lvl vs).flatMap ('\n' :: ·) = sexpItems pr lvl vs
  | [], _ => rfl
  | v :: vs, h => by
    rw [jsItems, List.flatMap_cons, sexpItems, jsValue_eq pr lvl v (h v (List.mem_cons_self ..)),
      jsItems_eq pr lvl vs fun x hx => h x (List.mem_cons_of_mem _ hx)]
theorem jsEntry_eq (pr : Char → Bool) (lvl : Nat) : ∀ e : Entry, Nice pr e.key ∧ Nice pr e.value →
    jsEntry lvl e ++ ['\n'] = sexpEntry pr lvl e
  | .mk k v d, h => by
    rw [jsEntry, sexpEntry, jsValue_eq pr (lvl + 1) k h.1, jsValue_eq pr (lvl + 1) v h.2]
    simp [joinLines_cons]
theorem jsEntries_eq (pr : Char → Bool) (lvl : Nat) : ∀ es : List Entry,
    (∀ k v d, Entry.mk k v d ∈ es → Nice pr k ∧ Nice pr v) →
    (jsEntries lvl es).flatMap ('\n' :: ·) ++ ['\n'] = '\n' :: sexpEntries pr lvl es
  | [], _ => rfl
  | .mk k v d :: es, h => by
    have h1 := jsEntries_eq pr lvl es fun k v d hm => h k v d (List.mem_cons_of_mem _ hm)
    have h2 := jsEntry_eq pr lvl (.mk k v d) (h k v d (List.mem_cons_self ..))
    rw [jsEntries, List.flatMap_cons, List.append_assoc, h1, sexpEntries, ← h2]
    simp
end

theorem jsDocument_eq {pr : Char → Bool} {es : List Entry} (h : ∀ k v d, Entry.mk k v d ∈ es → Nice pr k ∧ Nice pr v) :
    jsDocument es = sexpDocument pr (.mk none (some (.object es none)) none) := by
  have h1 := jsEntries_eq pr 1 es h
  rw [jsDocument, joinLines_cons, List.flatMap_append]
  simp only [List.flatMap_cons, List.flatMap_nil, List.append_nil, sexpDocument, Value.asObject, Value.span, spanText]
  have := congrArg (fun l => (chars! "(document [-1, -1]") ++ (l ++ (chars! ")"))) h1
  simpa using this

/-! ## Python -/

mutual
theorem pyValue_eq (pr : Char → Bool) (ind : Nat) : ∀ v : Value, Nice pr v →
    sexpPad ind ++ pyValue ind v = sexpValue pr ind v
  | .mk none none sp, _ => by simp [pyValue, sexpValue]
  | .mk (some t) none sp, h => by
    have h1 := (nice_name ((h.2 _ .self).1 t rfl)).2
    rw [pyValue, sexpValue, ← h1]
    simp
  | .mk (some t) (some p) sp, h => by
    have h1 := (nice_name ((h.2 _ .self).1 t rfl)).2
    rw [pyValue, sexpValue, ← h1, ← pyPayload_eq pr (ind + 1) p _ _ h, sexpPad_succ]
    simp
  | .mk none (some p) sp, h => by
    rw [pyValue, sexpValue, pyPayload_eq pr ind p _ _ h, h.1 _ .self rfl p rfl]
    rfl
theorem pyPayload_eq (pr : Char → Bool) (ind : Nat) : ∀ (p : Payload) (t : Option Tag) (sp : Option Span),
    Nice pr (.mk t (some p) sp) → sexpPad ind ++ pyPayload ind p = sexpPayload pr ind (payloadSpan p) p
  | .scalar text k psp, t, sp, h => by
    have h1 := pyEscape_common ((h.2 _ .self).2 text k psp rfl)
    rw [pyPayload, sexpPayload, ← h1]
    simp [payloadSpan]
  | .sequence [] psp, t, sp, h => by simp [pyPayload, sexpPayload, sexpItems, payloadSpan]
  | .sequence (v :: vs) psp, t, sp, h => by
    have h1 := pyItems_eq pr ind (v :: vs) (fun x hx => h.child (.item hx))
    rw [pyItems, List.flatMap_cons] at h1
    rw [pyPayload, sexpPayload, joinLines_cons, ← h1]
    simp [payloadSpan]
  | .object [] psp, t, sp, h => by simp [pyPayload, sexpPayload, payloadSpan]
  | .object (e :: es) psp, t, sp, h => by
    have h1 := pyEntries_eq pr (ind + 1) (e :: es) (fun k v d hm => ⟨h.child (.key hm), h.child (.value hm)⟩)
    rw [pyEntries, sexpEntries, List.flatMap_cons, List.append_assoc] at h1
    rw [pyPayload, sexpPayload, joinLines_cons]
    have h2 := congrArg (fun l => sexpPad ind ++ ((chars! "(object ") ++ (spanText psp ++ (l ++ (sexpPad ind ++ (chars! ")")))))) h1
    simpa [payloadSpan] using h2
theorem pyItems_eq (pr : Char → Bool) (ind : Nat) : ∀ vs : List Value, (∀ v ∈ vs, Nice pr v) →
    (pyItems ind vs).flatMap ('\n' :: ·) = sexpItems pr (ind + 1) vs
  | [], _ => rfl
  | v :: vs, h => by
    rw [pyItems, List.flatMap_cons, sexpItems, ← pyValue_eq pr (ind + 1) v (h v (List.mem_cons_self ..)), sexpPad_succ,
      pyItems_eq pr ind vs fun x hx => h x (List.mem_cons_of_mem _ hx)]
theorem pyEntry_eq (pr : Char → Bool) (ind : Nat) : ∀ e : Entry, Nice pr e.key ∧ Nice pr e.value →
    pyEntry ind e ++ ['\n'] = sexpEntry pr ind e
  | .mk k v d, h => by
    rw [pyEntry, sexpEntry, ← pyValue_eq pr (ind + 1) k h.1, ← pyValue_eq pr (ind + 1) v h.2, sexpPad_succ]
    simp
theorem pyEntries_eq (pr : Char → Bool) (ind : Nat) : ∀ es : List Entry,
    (∀ k v d, Entry.mk k v d ∈ es → Nice pr k ∧ Nice pr v) →
    (pyEntries ind es).flatMap ('\n' :: ·) ++ ['\n'] = '\n' :: sexpEntries pr ind es
  | [], _ => rfl
  | .mk k v d :: es, h => by
    have h1 := pyEntries_eq pr ind es fun k v d hm => h k v d (List.mem_cons_of_mem _ hm)
    have h2 := pyEntry_eq pr ind (.mk k v d) (h k v d (List.mem_cons_self ..))
    rw [pyEntries, List.flatMap_cons, List.append_assoc, h1, sexpEntries, ← h2]
    simp
end

theorem pyDocument_eq {pr : Char → Bool} {es : List Entry} (h : ∀ k v d, Entry.mk k v d ∈ es → Nice pr k ∧ Nice pr v) :
    pyDocument es = sexpDocument pr (.mk none (some (.object es none)) none) := by
  unfold pyDocument
  cases es with
  | nil => rfl
  | cons e es =>
    have h1 := pyEntries_eq pr 1 (e :: es) h
    rw [pyEntries, List.flatMap_cons, List.append_assoc] at h1
    simp only [List.isEmpty_cons, Bool.false_eq_true, if_false, sexpDocument, Value.asObject, Value.span, spanText, pyEntries,
      joinLines_cons]
    have := congrArg (fun l => (chars! "(document [-1, -1]") ++ (l ++ (chars! ")"))) h1
    simpa using this

end Styx.Impl
