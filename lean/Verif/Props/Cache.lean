import Verif.Lsp.CacheSpec

/-!
# C103, C104: where schemas are cached, and what the cached file holds
-/

namespace Styx.Props

open Styx Styx.Spec Styx.Lsp

/-! ## The file -/

theorem overlay_length {old : List UInt8} {o : Nat} {bs : List UInt8} :
    (overlay old o bs).length = max old.length (o + bs.length) := by
  unfold overlay; simp; omega

theorem overlay_get {old : List UInt8} {o : Nat} {bs : List UInt8} (p : Nat) :
    (overlay old o bs)[p]? =
      if p < o then (if p < old.length then old[p]? else some 0)
      else if p < o + bs.length then bs[p - o]? else old[p]? := by
  unfold overlay
  simp only [List.getElem?_append, List.length_append, List.length_take, List.length_replicate, List.getElem?_take,
    List.getElem?_replicate, List.getElem?_drop]
  grind

/-- So much of the file is right. -/
def RightUpTo (content : List UInt8) (data : List UInt8) (o : Nat) : Prop :=
  data.length ≤ content.length ∧ o ≤ data.length ∧ ∀ p, p < o → data[p]? = content[p]?

theorem rightUpTo_all {content data : List UInt8} (h : RightUpTo content data content.length) : data = content := by
  obtain ⟨h1, h2, h3⟩ := h
  apply List.ext_getElem?
  intro p
  rcases Nat.lt_or_ge p content.length with hp | hp
  · exact h3 p hp
  · rw [List.getElem?_eq_none hp, List.getElem?_eq_none (by omega)]

theorem piece_get {content : List UInt8} {o n p : Nat} (h1 : o ≤ p)
    (h2 : p < o + ((content.drop o).take n).length) : ((content.drop o).take n)[p - o]? = content[p]? := by
  simp only [List.length_take, List.length_drop] at h2
  rw [List.getElem?_take, List.getElem?_drop, if_pos (by omega)]
  congr 1; omega

theorem piece_fits {content : List UInt8} {o n : Nat} (h : o ≤ content.length) :
    o + ((content.drop o).take n).length ≤ content.length := by
  simp only [List.length_take, List.length_drop]; omega

/-- A write of somebody else leaves alone what is right. -/
theorem rightUpTo_other {content data : List UInt8} {o o' n : Nat} (h : RightUpTo content data o)
    (ho' : o' ≤ content.length) : RightUpTo content (overlay data o' ((content.drop o').take n)) o := by
  obtain ⟨h1, h2, h3⟩ := h
  have hf := piece_fits (content := content) (n := n) ho'
  refine ⟨by rw [overlay_length]; omega, by rw [overlay_length]; omega, ?_⟩
  intro p hp
  rw [overlay_get]
  split
  · rw [if_pos (by omega)]; exact h3 p hp
  · split
    · rename_i h5 h6; exact piece_get (by omega) h6
    · exact h3 p hp

/-- A write at the end of what is right makes more of it right. -/
theorem rightUpTo_own {content data : List UInt8} {o n : Nat} (h : RightUpTo content data o) :
    RightUpTo content (overlay data o ((content.drop o).take n)) (o + ((content.drop o).take n).length) := by
  obtain ⟨h1, h2, h3⟩ := h
  have hf := piece_fits (content := content) (n := n) (o := o) (by omega)
  refine ⟨by rw [overlay_length]; omega, by rw [overlay_length]; omega, ?_⟩
  intro p hp
  rw [overlay_get]
  split
  · rename_i h5; rw [if_pos (by omega)]; exact h3 p h5
  · exact piece_get (by omega) hp

/-! ## All schedules -/

/-- What holds at any time. -/
structure CacheInv (content : List UInt8) (s : Cache) : Prop where
  entry_old : ∀ f, s.entry = some f → f < s.fresh
  offsets : ∀ i f o, s.call i = .writing f o → o ≤ content.length ∧ f < s.fresh
  right : ∀ f, s.entry = some f → s.data f = content ∨ ∃ i o, s.call i = .writing f o ∧ RightUpTo content (s.data f) o

theorem cacheInv_start {content : List UInt8} {s : Cache} (h : CacheStart content s) : CacheInv content s :=
  ⟨fun f hf => (h.2 f hf).1, fun i f o hi => (by rw [h.1 i] at hi; cases hi), fun f hf => .inl (h.2 f hf).2⟩

theorem cacheInv_move {content : List UInt8} {s : Cache} {i : Nat} {c : Call} (h : CacheInv content s)
    (hi : ∀ f o, s.call i ≠ .writing f o) (hc : ∀ f o, c ≠ .writing f o) :
    CacheInv content { s with call := s.move i c } := by
  refine ⟨h.entry_old, ?_, ?_⟩
  · intro j f o hj
    simp only [Cache.move] at hj
    split at hj
    · exact absurd hj (hc f o)
    · exact h.offsets j f o hj
  · intro f hf
    rcases h.right f hf with h1 | ⟨j, o, h1, h2⟩
    · exact .inl h1
    · refine .inr ⟨j, o, ?_, h2⟩
      simp only [Cache.move]
      rw [if_neg]; exact h1
      intro e; subst e; exact hi f o h1

theorem cacheInv_look {content : List UInt8} {s : Cache} (i : Nat) (h : CacheInv content s) :
    CacheInv content (s.look i) := by
  unfold Cache.look
  split
  · rename_i hs
    refine cacheInv_move h (fun f o e => by rw [hs] at e; cases e) ?_
    intro f o; split <;> exact nofun
  · exact h

theorem cacheInv_create {content : List UInt8} {s : Cache} (i : Nat) (h : CacheInv content s) :
    CacheInv content (s.create i) := by
  unfold Cache.create
  split
  · rename_i hm
    split
    · rename_i f hf
      refine ⟨h.entry_old, ?_, ?_⟩
      · intro j g o hj
        simp only [Cache.move] at hj
        split at hj
        · cases hj; exact ⟨Nat.zero_le _, h.entry_old f hf⟩
        · exact h.offsets j g o hj
      · intro g hg
        have hg' : s.entry = some g := hg
        rw [hf] at hg'; cases hg'
        refine .inr ⟨i, 0, by simp [Cache.move], ?_⟩
        simp [Cache.put, RightUpTo]
    · refine ⟨?_, ?_, ?_⟩
      · intro g hg; cases hg; exact Nat.lt_succ_self _
      · intro j g o hj
        simp only [Cache.move] at hj
        split at hj
        · cases hj; exact ⟨Nat.zero_le _, Nat.lt_succ_self _⟩
        · have := h.offsets j g o hj; exact ⟨this.1, Nat.lt_succ_of_lt this.2⟩
      · intro g hg; cases hg
        refine .inr ⟨i, 0, by simp [Cache.move], ?_⟩
        simp [Cache.put, RightUpTo]
  · exact h

theorem cacheInv_write {content : List UInt8} {s : Cache} (i n : Nat) (h : CacheInv content s) :
    CacheInv content (s.write content i n) := by
  unfold Cache.write
  split
  · rename_i f o hi
    obtain ⟨ho, hf⟩ := h.offsets i f o hi
    have hfit := piece_fits (content := content) (n := n) ho
    refine ⟨h.entry_old, ?_, ?_⟩
    · intro j g o' hj
      simp only [Cache.move] at hj
      split at hj
      · cases hj; exact ⟨hfit, hf⟩
      · exact h.offsets j g o' hj
    · intro g hg
      simp only [Cache.put, Cache.move]
      rcases h.right g hg with h1 | ⟨j, o', h1, h2⟩
      · left
        split
        · rename_i e; subst e
          rw [h1]
          exact rightUpTo_all (rightUpTo_other ⟨Nat.le_refl _, Nat.le_refl _, fun _ _ => rfl⟩ ho)
        · exact h1
      · by_cases hji : j = i
        · subst hji
          rw [hi] at h1; cases h1
          refine .inr ⟨j, _, if_pos rfl, ?_⟩
          rw [if_pos rfl]
          exact rightUpTo_own h2
        · refine .inr ⟨j, o', by rw [if_neg hji]; exact h1, ?_⟩
          split
          · rename_i e; subst e; exact rightUpTo_other h2 ho
          · exact h2
  · exact h

theorem cacheInv_finish {content : List UInt8} {s : Cache} (i : Nat) (h : CacheInv content s) :
    CacheInv content (s.finish content i) := by
  unfold Cache.finish
  split
  · rename_i f o hi
    split
    · rename_i ho
      refine ⟨h.entry_old, ?_, ?_⟩
      · intro j g o' hj
        simp only [Cache.move] at hj
        split at hj
        · cases hj
        · exact h.offsets j g o' hj
      · intro g hg
        rcases h.right g hg with h1 | ⟨j, o', h1, h2⟩
        · exact .inl h1
        · by_cases hji : j = i
          · subst hji
            rw [hi] at h1; cases h1
            exact .inl (rightUpTo_all (ho ▸ h2))
          · exact .inr ⟨j, o', by simp only [Cache.move]; rw [if_neg hji]; exact h1, h2⟩
    · exact h
  · exact h

theorem cacheInv_acts {content : List UInt8} (as : List Action) : ∀ {s : Cache}, CacheInv content s →
    NeverCut content s as → CacheInv content (s.acts content as) := by
  induction as with
  | nil => intro s h _; exact h
  | cons a as ih =>
    intro s h hc
    show CacheInv content ((s.act content a).acts content as)
    refine ih ?_ ?_
    · cases a with
      | look i => exact cacheInv_look i h
      | create i => exact cacheInv_create i h
      | write i n => exact cacheInv_write i n h
      | finish i => exact cacheInv_finish i h
      | stop i => exact cacheInv_move h (fun f o e => hc [] i as rfl f ⟨o, e⟩) (nofun)
      | clear => exact ⟨(nofun), h.offsets, (nofun)⟩
    · intro before i after e
      subst e
      exact hc (a :: before) i after rfl

/-- **C104**, partial: any number of servers cache the same schema at the same time, the cache may be cleared at any
moment, servers may be stopped as long as they are not writing: whenever nobody is writing the file at the path, it holds
exactly the schema.  Missing for the full property: a server may return the path while another is still writing
(`C104_early_false`), and one that is stopped while it writes leaves a file that nobody repairs (`C104_crash_false`). -/
theorem C104_complete_partial (content : List UInt8) (s : Cache) (as : List Action) (hs : CacheStart content s)
    (hc : NeverCut content s as) {f : Nat} (hf : (s.acts content as).entry = some f)
    (hq : ∀ i, ¬ WritesTo (s.acts content as) i f) : (s.acts content as).data f = content := by
  rcases (cacheInv_acts as (cacheInv_start hs) hc).right f hf with h | ⟨i, o, h, _⟩
  · exact h
  · exact absurd ⟨o, h⟩ (hq i)

theorem ended_act {content : List UInt8} {s : Cache} {f : Nat} (he : s.entry = some f) (hq : AllEnded s) (a : Action)
    (ha : a ≠ .clear) : (s.act content a).entry = some f ∧ (s.act content a).data f = s.data f ∧
      AllEnded (s.act content a) := by
  cases a with
  | look i =>
    simp only [Cache.act, Cache.look]
    split
    · refine ⟨he, rfl, ?_⟩
      intro j
      simp only [Cache.move, he]
      split
      · exact .inr (.inl rfl)
      · exact hq j
    · exact ⟨he, rfl, hq⟩
  | create i =>
    simp only [Cache.act, Cache.create]
    rw [if_neg]
    · exact ⟨he, rfl, hq⟩
    · rcases hq i with h | h | h <;> rw [h] <;> exact nofun
  | write i n =>
    simp only [Cache.act, Cache.write]
    rcases hq i with h | h | h <;> rw [h] <;> exact ⟨he, rfl, hq⟩
  | finish i =>
    simp only [Cache.act, Cache.finish]
    rcases hq i with h | h | h <;> rw [h] <;> exact ⟨he, rfl, hq⟩
  | stop i =>
    refine ⟨he, rfl, ?_⟩
    intro j
    simp only [Cache.act, Cache.move]
    split
    · exact .inr (.inr rfl)
    · exact hq j
  | clear => exact absurd rfl ha

/-- **C104**: once a file is at the path and no call is under way, nothing but clearing the cache ever changes it, right or
wrong. -/
theorem C104_stuck (content : List UInt8) (as : List Action) (hn : NoClear as) {s : Cache} {f : Nat}
    (he : s.entry = some f) (hq : AllEnded s) :
    (s.acts content as).entry = some f ∧ (s.acts content as).data f = s.data f := by
  induction as generalizing s with
  | nil => exact ⟨he, rfl⟩
  | cons a as ih =>
    obtain ⟨h1, h2, h3⟩ := ended_act (content := content) he hq a (hn a (List.mem_cons_self ..))
    obtain ⟨h4, h5⟩ := ih (fun b hb => hn b (List.mem_cons_of_mem _ hb)) h1 h3
    exact ⟨h4, h5.trans h2⟩

/-- **C104**, progress: a call that nobody disturbs returns, with the schema in the file, in whatever pieces it is
written. -/
theorem C104_alone (content : List UInt8) (s : Cache) (i : Nat) (hi : s.call i = .start) (he : s.entry = none)
    (counts : List Nat) (hsum : counts.sum ≥ content.length) :
    (s.acts content (.look i :: .create i :: counts.map (.write i) ++ [.finish i])).call i = .returned ∧
      ∃ f, (s.acts content (.look i :: .create i :: counts.map (.write i) ++ [.finish i])).entry = some f ∧
        (s.acts content (.look i :: .create i :: counts.map (.write i) ++ [.finish i])).data f = content := by
  have key : ∀ (counts : List Nat) (s : Cache) (f o : Nat), s.entry = some f → s.call i = .writing f o →
      RightUpTo content (s.data f) o → o + counts.sum ≥ content.length →
      (s.acts content (counts.map (.write i))).entry = some f ∧
      (s.acts content (counts.map (.write i))).call i = .writing f content.length ∧
      RightUpTo content ((s.acts content (counts.map (.write i))).data f) content.length := by
    intro counts
    induction counts with
    | nil =>
      intro s f o h1 h2 h3 h4
      have : o = content.length := by have := h3.1; have := h3.2.1; simp at h4; omega
      subst this
      exact ⟨h1, h2, h3⟩
    | cons n counts ih =>
      intro s f o h1 h2 h3 h4
      have ho : o ≤ content.length := by have := h3.1; have := h3.2.1; omega
      have := ih (s.write content i n) f (o + ((content.drop o).take n).length) (by simp [Cache.write, h2, h1])
        (by simp [Cache.write, h2, Cache.move])
        (by simp only [Cache.write, h2, Cache.put, if_pos]; exact rightUpTo_own h3)
        (by simp only [List.length_take, List.length_drop, List.sum_cons] at h4 ⊢; omega)
      exact this
  have hl : s.look i = { s with call := s.move i .missing } := by simp [Cache.look, hi, he]
  have hcr : (s.look i).create i = ⟨some s.fresh, s.put s.fresh [], s.fresh + 1,
      (s.look i).move i (.writing s.fresh 0)⟩ := by
    rw [hl]; simp [Cache.create, Cache.move, he]; rfl
  obtain ⟨h1, h2, h3⟩ := key counts ((s.look i).create i) s.fresh 0 (by rw [hcr]) (by rw [hcr]; simp [Cache.move])
    (by rw [hcr]; simp [Cache.put, RightUpTo]) (by omega)
  have hall : s.acts content (.look i :: .create i :: counts.map (.write i) ++ [.finish i]) =
      (((s.look i).create i).acts content (counts.map (.write i))).finish content i := by
    simp [Cache.acts, Cache.act]
  rw [hall]
  have hfin : ∀ t : Cache, t.call i = .writing s.fresh content.length →
      t.finish content i = { t with call := t.move i .returned } := by
    intro t ht; simp [Cache.finish, ht]
  rw [hfin _ h2]
  exact ⟨by simp [Cache.move], s.fresh, h1, rightUpTo_all h3⟩

/-- Nothing is cached. -/
def emptyCache : Cache := ⟨none, fun _ => [], 0, fun _ => .start⟩

theorem emptyCache_start (content : List UInt8) : CacheStart content emptyCache := ⟨fun _ => rfl, nofun⟩

/-- **C104** is false: for every schema that is not empty there is a schedule in which nobody is stopped and a server
returns the path although the file does not hold the schema. -/
theorem C104_early_false (content : List UInt8) (h : content ≠ []) : ∃ as f, NoClear as ∧ NeverCut content emptyCache as ∧
    (emptyCache.acts content as).call 1 = .returned ∧ (emptyCache.acts content as).entry = some f ∧
    (emptyCache.acts content as).data f ≠ content := by
  refine ⟨[.look 0, .create 0, .look 1], 0, by simp [NoClear], ?_, rfl, rfl, ?_⟩
  · intro before i after e
    have : Action.stop i ∈ [.look 0, .create 0, .look 1] := by rw [e]; simp
    simp at this
  · exact fun e => h e.symm

/-- **C104** is false: for every schema that is not empty, a server that is stopped at the wrong moment leaves a file that
is not the schema, later calls return its path, and nothing but clearing the cache repairs it. -/
theorem C104_crash_false (content : List UInt8) (h : content ≠ []) : ∃ as f,
    (emptyCache.acts content as).call 1 = .returned ∧
    ∀ more, NoClear more → ((emptyCache.acts content as).acts content more).entry = some f ∧
      ((emptyCache.acts content as).acts content more).data f ≠ content := by
  refine ⟨[.look 0, .create 0, .stop 0, .look 1], 0, rfl, ?_⟩
  intro more hm
  have hq : AllEnded (emptyCache.acts content [.look 0, .create 0, .stop 0, .look 1]) := by
    intro i
    rcases Nat.lt_or_ge i 2 with hi | hi
    · have : i = 0 ∨ i = 1 := by omega
      rcases this with rfl | rfl
      · exact .inr (.inr rfl)
      · exact .inr (.inl rfl)
    · left
      simp [Cache.acts, Cache.act, Cache.look, Cache.create, emptyCache, Cache.move,
        show i ≠ 0 by omega, show i ≠ 1 by omega]
  obtain ⟨h1, h2⟩ := C104_stuck content more hm (s := emptyCache.acts content [.look 0, .create 0, .stop 0, .look 1])
    (f := 0) rfl hq
  exact ⟨h1, by rw [h2]; exact fun e => h e.symm⟩

/-- Two servers write at the same time, the second one empties the file in the middle; the first one goes on at its
offset.  When both have returned, the file is right. -/
example : let s := emptyCache.acts [1, 2, 3] [.look 0, .look 1, .create 0, .write 0 2, .create 1, .write 0 1, .finish 0,
      .write 1 1, .write 1 5, .finish 1]
    s.data 0 = [1, 2, 3] ∧ s.entry = some 0 ∧ s.call 0 = .returned ∧ s.call 1 = .returned := by decide

/-- In the middle of that the file is neither empty nor a beginning of the schema. -/
example : (emptyCache.acts [1, 2, 3] [.look 0, .look 1, .create 0, .write 0 2, .create 1, .write 0 1]).data 0 = [0, 0, 3]
    := by decide

/-! ## The path -/

theorem stays_append {p q : List Char} (hp : StaysDown p) (hq : StaysDown q) :
    StaysDown (p ++ '/' :: q) := by
  intro pre post e h1 h2
  rw [List.append_assoc] at e
  rcases List.append_eq_append_iff.1 e with ⟨as, h3, h4⟩ | ⟨bs, h3, h4⟩
  · -- pre = p ++ as, '/' :: q = as ++ '..' ++ post
    cases as with
    | nil => simp at h4
    | cons c as =>
      simp only [List.cons_append, List.cons.injEq] at h4
      obtain ⟨rfl, h4⟩ := h4
      refine hq as post (by rw [h4]; simp) ?_ h2
      by_cases ha : as = []
      · exact .inl ha
      · right
        rcases h1 with h1 | h1
        · simp [h3] at h1
        · rw [h3] at h1
          cases as with
          | nil => exact absurd rfl ha
          | cons x xs => simpa [List.getLast?_append] using h1
  · -- p = pre ++ bs, '..' ++ post = bs ++ '/' :: q
    match bs, h3, h4 with
    | [], _, h4 => simp at h4
    | [b], h3, h4 => simp at h4
    | b :: c :: bs, h3, h4 =>
      simp only [List.cons_append, List.nil_append, List.cons.injEq] at h4
      obtain ⟨rfl, rfl, h4⟩ := h4
      refine hp pre bs (by rw [h3]; simp) h1 ?_
      cases bs with
      | nil => exact .inl rfl
      | cons d ds =>
        right
        simp only [List.cons_append] at h4
        rcases h2 with h2 | h2
        · simp [h2] at h4
        · rw [h4] at h2; exact h2

theorem stays_noSlash {p : List Char} (h : '/' ∉ p) (hp : p ≠ ['.', '.']) : StaysDown p := by
  intro pre post e h1 h2
  have hpre : pre = [] := by
    rcases h1 with h1 | h1
    · exact h1
    · exact absurd (by rw [e]; simp [List.mem_of_getLast? h1]) h
  have hpost : post = [] := by
    rcases h2 with h2 | h2
    · exact h2
    · exact absurd (by rw [e]; simp [List.mem_of_head? h2]) h
  subst hpre hpost
  exact hp e

theorem stays_trim {p : List Char} (h : StaysDown (p ++ ['/'])) : StaysDown p := by
  intro pre post e h1 h2
  refine h pre (post ++ ['/']) (by rw [e]; simp) h1 ?_
  cases post with
  | nil => exact .inr rfl
  | cons c cs => rcases h2 with h2 | h2
                 · cases h2
                 · exact .inr h2

theorem joinPath_plain {dir s : List Char} (hd : dir ≠ []) (hl : dir.getLast? ≠ some '/') (hs : s.head? ≠ some '/') :
    joinPath dir s = dir ++ '/' :: s := by
  simp [joinPath, hs, Cli.pathJoin, hd, hl]

/-- The directory of the cached schemas. -/
theorem embeddedDir {base : List Char} (hb : base ≠ []) (hl : base.getLast? ≠ some '/') :
    joinPath (cacheDir base) (chars! "embedded") = base ++ chars! "/styx/schemas/embedded" := by
  have h1 : joinPath base (chars! "styx") = base ++ chars! "/styx" := by
    rw [joinPath_plain hb hl (by decide)]
  have h2 : joinPath (base ++ chars! "/styx") (chars! "schemas") = base ++ chars! "/styx/schemas" := by
    rw [joinPath_plain (by simp) (by simp [List.getLast?_append]) (by decide)]
    simp
  unfold cacheDir
  rw [h1, h2, joinPath_plain (by simp) (by simp [List.getLast?_append]) (by decide)]
  simp

/-- **C103**, partial: for a program and an identifier that name nothing absolute and do not lead up, the schema is cached
inside the directory for cached schemas, under the name made of its hash.  Missing for the full property: other programs
and identifiers (`C103_absolute_false`, `C103_up_false`). -/
theorem C103_inside_partial (hash : List Char → List Char) (base cli id content : List Char) (hb : base ≠ [])
    (hl : base.getLast? ≠ some '/') (hh : '/' ∉ hash content) (hc : cli ≠ []) (ha : cli.head? ≠ some '/')
    (hn : StaysDown (cli ++ '/' :: id)) :
    InsideDir (base ++ chars! "/styx/schemas/embedded") (cachedAt hash base cli id content) ∧
      ('/' :: hash content ++ chars! ".styx") <:+ cachedAt hash base cli id content := by
  have hfile : StaysDown (hash content ++ chars! ".styx") := by
    refine stays_noSlash (by simp [hh]) ?_
    intro e
    have := congrArg List.length e
    simp at this
  have hfh : (hash content ++ chars! ".styx").head? ≠ some '/' := by
    intro e
    have := List.mem_of_head? e
    simp [hh] at this
  have hname : (cli ++ '/' :: id).head? ≠ some '/' := by
    cases cli with
    | nil => exact absurd rfl hc
    | cons c cs => simpa using ha
  unfold cachedAt embeddedCachePath
  rw [embeddedDir hb hl, joinPath_plain (by simp) (by simp [List.getLast?_append]) hname]
  by_cases he : (cli ++ '/' :: id).getLast? = some '/'
  · obtain ⟨name, hname'⟩ : ∃ name, cli ++ '/' :: id = name ++ ['/'] := by
      obtain ⟨l, hl⟩ := List.getLast?_eq_some_iff.1 he
      exact ⟨l, hl⟩
    rw [hname'] at hn ⊢
    have hj : joinPath (base ++ chars! "/styx/schemas/embedded" ++ '/' :: (name ++ ['/'])) (hash content ++ chars! ".styx")
        = base ++ chars! "/styx/schemas/embedded" ++ '/' :: (name ++ '/' :: (hash content ++ chars! ".styx")) := by
      unfold joinPath Cli.pathJoin
      rw [if_neg hfh, if_neg (by simp), if_pos (by simp [List.getLast?_append, List.getLast?_cons])]
      simp
    rw [hj]
    exact ⟨⟨_, rfl, stays_append (stays_trim hn) hfile⟩, base ++ chars! "/styx/schemas/embedded" ++ '/' :: name, by simp⟩
  · rw [joinPath_plain (by simp) ?_ hfh]
    · refine ⟨⟨cli ++ '/' :: id ++ '/' :: (hash content ++ chars! ".styx"), by simp, stays_append hn hfile⟩,
        base ++ chars! "/styx/schemas/embedded" ++ '/' :: (cli ++ '/' :: id), by simp⟩
    · intro e
      apply he
      rw [← e]
      simp [List.getLast?_append, List.getLast?_cons]

/-- The path ends in the name of the file, whatever the program and the identifier. -/
theorem cachedAt_suffix (hash : List Char → List Char) (base cli id content : List Char)
    (hh : '/' ∉ hash content) : (hash content ++ chars! ".styx") <:+ cachedAt hash base cli id content := by
  have hfh : (hash content ++ chars! ".styx").head? ≠ some '/' := by
    intro e
    have := List.mem_of_head? e
    simp [hh] at this
  unfold cachedAt embeddedCachePath
  generalize joinPath (joinPath (cacheDir base) (chars! "embedded")) (cli ++ '/' :: id) = dir
  unfold joinPath Cli.pathJoin
  rw [if_neg hfh]
  split
  · exact List.suffix_refl _
  · split
    · exact List.suffix_append _ _
    · exact ⟨dir ++ ['/'], by simp⟩

/-- **C103**: schemas with different hashes are never cached in the same file, whatever the programs and identifiers. -/
theorem C103_distinct (hash : List Char → List Char) (hlen : ∀ c, (hash c).length = 16) (hs : ∀ c, '/' ∉ hash c)
    (base cli id content cli' id' content' : List Char)
    (h : cachedAt hash base cli id content = cachedAt hash base cli' id' content') : hash content = hash content' := by
  have h1 := cachedAt_suffix hash base cli id content (hs _)
  have h2 := cachedAt_suffix hash base cli' id' content' (hs _)
  rw [← h] at h2
  have h3 := List.suffix_of_suffix_length_le h1 h2 (by simp [hlen])
  have h4 := h3.eq_of_length (by simp [hlen])
  exact List.append_cancel_right h4

/-- **C103** is false: a document that declares its program by an absolute path has the schema written next to that
program, wherever the cache is. -/
theorem C103_absolute_false (hash : List Char → List Char) (base content : List Char) (hh : '/' ∉ hash content) :
    cachedAt hash base (chars! "/srv/app") (chars! "v1") content =
      chars! "/srv/app/v1/" ++ hash content ++ chars! ".styx" := by
  have hfh : (hash content ++ chars! ".styx").head? ≠ some '/' := by
    intro e
    have := List.mem_of_head? e
    simp [hh] at this
  unfold cachedAt embeddedCachePath
  rw [show joinPath (joinPath (cacheDir base) (chars! "embedded")) (chars! "/srv/app" ++ '/' :: chars! "v1") =
    chars! "/srv/app/v1" by simp [joinPath]]
  rw [joinPath_plain (by simp) (by decide) hfh]
  simp

/-- **C103** is false: an identifier with `..` leads out of the cache. -/
theorem C103_up_false (hash : List Char → List Char) (content : List Char) (hh : '/' ∉ hash content) :
    cachedAt hash (chars! "/c") (chars! "app") (chars! "../../../../../srv") content =
      chars! "/c/styx/schemas/embedded/app/../../../../../srv/" ++ hash content ++ chars! ".styx" ∧
    ¬ StaysDown (chars! "app/../../../../../srv/" ++ hash content ++ chars! ".styx") := by
  have hfh : (hash content ++ chars! ".styx").head? ≠ some '/' := by
    intro e
    have := List.mem_of_head? e
    simp [hh] at this
  constructor
  · unfold cachedAt embeddedCachePath
    rw [show joinPath (joinPath (cacheDir (chars! "/c")) (chars! "embedded"))
      (chars! "app" ++ '/' :: chars! "../../../../../srv") = chars! "/c/styx/schemas/embedded/app/../../../../../srv" from
        by decide]
    rw [joinPath_plain (by simp) (by decide) hfh]
    simp
  · intro h
    exact h (chars! "app/") (chars! "/../../../../srv/" ++ hash content ++ chars! ".styx") (by simp) (.inr (by decide))
      (.inr (by simp))

example : cachedAt (fun _ => chars! "0123456789abcdef") (chars! "/home/u/.cache") (chars! "dibs") (chars! "crate:dibs@1")
    [] = chars! "/home/u/.cache/styx/schemas/embedded/dibs/crate:dibs@1/0123456789abcdef.styx" := by decide

example : InsideDir (chars! "/home/u/.cache/styx/schemas/embedded") (cachedAt (fun _ => chars! "0123456789abcdef")
    (chars! "/home/u/.cache") (chars! "dibs") (chars! "crate:dibs@1") []) :=
  (C103_inside_partial _ _ _ _ _ (by decide) (by decide) (by decide) (by decide) (by decide)
    (stays_append (p := chars! "dibs") (q := chars! "crate:dibs@1") (stays_noSlash (by decide) (by decide))
      (stays_noSlash (by decide) (by decide)))).1

end Styx.Props
