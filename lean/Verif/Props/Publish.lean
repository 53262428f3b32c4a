import Verif.Cli.PublishSpec
import Verif.Props.Cli
import Verif.Serde.Read

/-! # Property theorem C123: compatible versions of a published schema -/

namespace Styx.Props

open Styx Styx.Spec Styx.Cli

theorem decimal_inj {m n : Nat} (h : decimal m = decimal n) : m = n := by
  have h1 := Serde.digitsVal_decimal m
  rw [h, Serde.digitsVal_decimal n] at h1
  exact (Option.some.inj h1).symm

theorem versionText_inj {a b c a' b' c' : Nat} (h : versionText a b c = versionText a' b' c') :
    a = a' ∧ b = b' ∧ c = c' := by
  have h1 := splitDots_version a b c
  rw [h, splitDots_version] at h1
  simp only [List.cons.injEq, and_true] at h1
  exact ⟨decimal_inj h1.1.symm, decimal_inj h1.2.1.symm, decimal_inj h1.2.2.symm⟩

theorem compare_patch (o : Order) (b l : Value) : (compareSchemas o b l).patch = [] := by
  unfold compareSchemas
  dsimp only
  exact (mem_fold o _ _ _ (.removedType none)).2.2

theorem next_version {a b c : Nat} {ch : Changes} {v : List Char} (ha : a < 2 ^ 64) (hb : b < 2 ^ 64) (hc : c < 2 ^ 64)
    (h : calculateNextVersion (versionText a b c) ch = .ok v) :
    (ch.breaking ≠ [] ∧ a = 0 ∧ v = versionText 0 (b + 1) 0 ∧ b + 1 < 2 ^ 64) ∨
    (ch.breaking ≠ [] ∧ a ≠ 0 ∧ v = versionText (a + 1) 0 0 ∧ a + 1 < 2 ^ 64) ∨
    (ch.breaking = [] ∧ ch.additive ≠ [] ∧ v = versionText a (b + 1) 0 ∧ b + 1 < 2 ^ 64) ∨
    (ch.breaking = [] ∧ ch.additive = [] ∧ v = versionText a b (c + 1)) := by
  have hu : usizeMax = 2 ^ 64 - 1 := rfl
  unfold calculateNextVersion at h
  rw [splitDots_version] at h
  simp only [parseUsize_decimal a (by omega), parseUsize_decimal b (by omega), parseUsize_decimal c (by omega),
    showVersion_eq] at h
  by_cases h1 : ch.breaking = []
  · by_cases h2 : ch.additive = []
    · simp only [h1, h2, ne_eq, not_true, if_false, incr] at h
      split at h
      · rename_i hv
        split at hv
        · cases hv; cases h
          exact .inr (.inr (.inr ⟨h1, h2, rfl⟩))
        · cases hv
      · cases h
    · simp only [h1, h2, ne_eq, not_true, not_false_iff, if_false, if_true, incr] at h
      split at h
      · rename_i hv
        split at hv
        · cases hv; cases h
          exact .inr (.inr (.inl ⟨h1, h2, rfl, by omega⟩))
        · cases hv
      · cases h
  · simp only [h1, ne_eq, not_false_iff, if_true, incr] at h
    split at h
    · rename_i hv
      split at hv
      · split at hv
        · cases hv; cases h
          exact .inl ⟨h1, by assumption, rfl, by omega⟩
        · cases hv
      · split at hv
        · cases hv; cases h
          exact .inr (.inl ⟨h1, by assumption, rfl, by omega⟩)
        · cases hv
    · cases h

/-- A version of the crate is there. -/
def There (R : Registry) (name : List Char) (a b c : Nat) : Prop :=
  ∃ r ∈ R, r.name = name ∧ r.version = versionText a b c

/-- What was published since `a.b.c` was the newest. -/
def Grown (R : Registry) (name : List Char) (a b c : Nat) : Prop :=
  ∀ a' b' c', There R name a' b' c' →
    (a' = a → OlderVersion a b c a' b' c' → c' = 0 ∧ b < b' ∧ There R name a (b + 1) 0) ∧
    (a' = a + 1 → There R name (a + 1) 0 0)

/-- What was published since there was nothing. -/
def FromNothing (R : Registry) (name : List Char) : Prop :=
  ∀ a b c, There R name a b c → a = 0 ∧ c = 0

/-- The version that a run is going to publish. -/
def ReadyOk (R : Registry) (j : Job) (v : List Char) : Prop :=
  (v = versionText 0 1 0 ∧ FromNothing R j.name) ∨
  ∃ r ∈ R, r.name = j.name ∧ ∃ a b c, r.version = versionText a b c ∧ Grown R j.name a b c ∧
    ((v = versionText a (b + 1) 0 ∧ b + 1 < 2 ^ 64 ∧ (a ≠ 0 →
        ∃ o t, parseTree r.content = some (.ok t) ∧ (compareSchemas o t j.tree).breaking = [])) ∨
      (a ≠ 0 ∧ v = versionText (a + 1) 0 0 ∧ a + 1 < 2 ^ 64))

/-- The invariant of a run. -/
def JobOk (R : Registry) (j : Job) : Prop :=
  parseTree j.content = some (.ok j.tree) ∧
  match j.stage with
  | .asking => True
  | .comparing l => ∃ a b c, l = versionText a b c ∧ a < 2 ^ 64 ∧ b < 2 ^ 64 ∧ c < 2 ^ 64 ∧ There R j.name a b c ∧
    Grown R j.name a b c
  | .ready v => ReadyOk R j v

theorem keeps_trans {u v w : Value} (h1 : Keeps u v) (h2 : Keeps v w) : Keeps u w := by
  intro n ty hd
  obtain ⟨ty', hd', ht', he'⟩ := h1 n ty hd
  obtain ⟨ty'', hd'', ht'', he''⟩ := h2 n ty' hd'
  refine ⟨ty'', hd'', ht''.trans ht', fun hk f x hx => ?_⟩
  obtain ⟨x', hx'⟩ := he' hk f x hx
  refine he'' ?_ f x' hx'
  rcases hk with hk | hk
  · left; rw [hasTag_iff] at hk ⊢; rw [ht']; exact hk
  · right; rw [hasTag_iff] at hk ⊢; rw [ht']; exact hk

theorem keeps_of_compare {o : Order} {old new : Value} (ho : UniqueTypes old) (hn : UniqueTypes new)
    (hf : ∀ n ty, Defines new n ty → UniqueEntries ty) (h : (compareSchemas o old new).breaking = []) :
    Keeps old new := by
  intro n ty hd
  obtain ⟨ty', h1, h2, h3, _⟩ := C53_partial o old new ho hn hf h n ty hd
  exact ⟨ty', h1, h2, h3⟩

theorem there_new {R : Registry} {x : Release} {name : List Char} {a b c : Nat} (h : There (R ++ [x]) name a b c) :
    There R name a b c ∨ (x.name = name ∧ x.version = versionText a b c) := by
  obtain ⟨r, hr, hn, hv⟩ := h
  rcases List.mem_append.1 hr with hr | hr
  · exact .inl ⟨r, hr, hn, hv⟩
  · rw [List.mem_singleton.1 hr] at hn hv
    exact .inr ⟨hn, hv⟩

theorem there_mono {R : Registry} {x : Release} {name : List Char} {a b c : Nat} (h : There R name a b c) :
    There (R ++ [x]) name a b c := by
  obtain ⟨r, hr, hn, hv⟩ := h
  exact ⟨r, List.mem_append_left _ hr, hn, hv⟩

/-- Publishing keeps what other runs know. -/
theorem grown_publish {R : Registry} {j : Job} {v : List Char} (hj : ReadyOk R j v) {name : List Char} {a b c : Nat}
    (hu : There R name a b c) (hg : Grown R name a b c) : Grown (R ++ [⟨j.name, v, j.content⟩]) name a b c := by
  intro a' b' c' ht
  rcases there_new ht with ht | ⟨hn, hv⟩
  · obtain ⟨h1, h2⟩ := hg a' b' c' ht
    refine ⟨fun e h => ?_, fun e => there_mono (h2 e)⟩
    obtain ⟨h3, h4, h5⟩ := h1 e h
    exact ⟨h3, h4, there_mono h5⟩
  · dsimp only at hn hv
    subst hn
    subst hv
    have hlast : There (R ++ [⟨j.name, versionText a' b' c', j.content⟩]) j.name a' b' c' :=
      ⟨⟨j.name, _, j.content⟩, List.mem_append_right _ (List.mem_singleton.2 rfl), rfl, rfl⟩
    rcases hj with ⟨hv, hf⟩ | ⟨r, hr, hrn, a2, b2, c2, hrv, hg2, ⟨hv, _, _⟩ | ⟨ha2, hv, _⟩⟩
    · obtain ⟨rfl, rfl, rfl⟩ := versionText_inj hv
      obtain ⟨rfl, rfl⟩ := hf _ _ _ hu
      refine ⟨fun _ ho => ?_, fun e => by omega⟩
      unfold OlderVersion at ho
      have hb : b = 0 := by omega
      subst hb
      exact ⟨rfl, by omega, hlast⟩
    · obtain ⟨rfl, rfl, rfl⟩ := versionText_inj hv
      have hu2 : There R j.name a' b2 c2 := ⟨r, hr, hrn, hrv⟩
      refine ⟨fun e ho => ?_, fun e => there_mono ((hg _ _ _ hu2).2 e)⟩
      subst e
      unfold OlderVersion at ho
      refine ⟨rfl, by omega, ?_⟩
      by_cases hb : b = b2
      · subst hb; exact hlast
      · exact there_mono ((hg _ _ _ hu2).1 rfl (by unfold OlderVersion; omega)).2.2
    · obtain ⟨rfl, rfl, rfl⟩ := versionText_inj hv
      refine ⟨fun e ho => ?_, fun e => ?_⟩
      · unfold OlderVersion at ho; omega
      · have : a2 = a := by omega
        subst this; exact hlast

theorem fromNothing_publish {R : Registry} {j : Job} {v : List Char} (hj : ReadyOk R j v) {name : List Char}
    (hg : FromNothing R name) : FromNothing (R ++ [⟨j.name, v, j.content⟩]) name := by
  intro a b c ht
  rcases there_new ht with ht | ⟨hn, hv⟩
  · exact hg _ _ _ ht
  · dsimp only at hn hv
    subst hn
    subst hv
    rcases hj with ⟨hv, hf⟩ | ⟨r, hr, hrn, a2, b2, c2, hrv, hg2, ⟨hv, _, _⟩ | ⟨ha2, hv, _⟩⟩
    · obtain ⟨rfl, rfl, rfl⟩ := versionText_inj hv
      exact ⟨rfl, rfl⟩
    · obtain ⟨rfl, rfl, rfl⟩ := versionText_inj hv
      exact ⟨(hg _ _ _ ⟨r, hr, hrn, hrv⟩).1, rfl⟩
    · exact absurd (hg _ _ _ ⟨r, hr, hrn, hrv⟩).1 ha2

theorem jobOk_publish {R : Registry} {j k : Job} {v : List Char} (hj : ReadyOk R j v) (hk : JobOk R k) :
    JobOk (R ++ [⟨j.name, v, j.content⟩]) k := by
  obtain ⟨hp, hk⟩ := hk
  refine ⟨hp, ?_⟩
  cases hs : k.stage with
  | asking => trivial
  | comparing l =>
    rw [hs] at hk
    obtain ⟨a, b, c, hl, h1, h2, h3, ht, hg⟩ := hk
    exact ⟨a, b, c, hl, h1, h2, h3, there_mono ht, grown_publish hj ht hg⟩
  | ready w =>
    rw [hs] at hk
    rcases hk with ⟨hw, hf⟩ | ⟨r, hr, hrn, a, b, c, hrv, hg, h⟩
    · exact .inl ⟨hw, fromNothing_publish hj hf⟩
    · exact .inr ⟨r, List.mem_append_left _ hr, hrn, a, b, c, hrv, grown_publish hj ⟨r, hr, hrn, hrv⟩ hg, h⟩

/-- Publishing keeps the promise. -/
theorem promise_publish {R : Registry} {j : Job} {v : List Char} (hn : Numbered R) (hk : KeepsPromise R)
    (hp : parseTree j.content = some (.ok j.tree)) (hj : ReadyOk R j v)
    (hfree : ∀ r ∈ R, r.name = j.name → r.version ≠ v) (ht : NoTwice (R ++ [⟨j.name, v, j.content⟩])) :
    KeepsPromise (R ++ [⟨j.name, v, j.content⟩]) := by
  intro r hr r' hr' hname a b c a' b' c' hv hv' hcomp w w' hw hw'
  obtain ⟨hold, hcomp'⟩ := id hcomp
  rcases List.mem_append.1 hr with hr0 | hr0 <;> rcases List.mem_append.1 hr' with hr0' | hr0'
  · exact hk r hr0 r' hr0' hname a b c a' b' c' hv hv' hcomp w w' hw hw'
  · rw [List.mem_singleton.1 hr0'] at hname hv' hw'
    dsimp only at hname hv' hw'
    subst hv'
    rw [hp] at hw'
    cases hw'
    have hr1 : There R j.name a b c := ⟨r, hr0, hname, hv⟩
    unfold OlderVersion at hold
    rcases hj with ⟨hv, hf⟩ | ⟨q, hq, hqn, a2, b2, c2, hqv, hg2, ⟨hv2, _, hb⟩ | ⟨ha2, hv2, _⟩⟩
    · obtain ⟨rfl, rfl, rfl⟩ := versionText_inj hv
      have := hf _ _ _ hr1
      omega
    · obtain ⟨rfl, rfl, rfl⟩ := versionText_inj hv2
      have ha : a ≠ 0 ∧ a' = a := by omega
      obtain ⟨ha, rfl⟩ := ha
      obtain ⟨o, t, hqt, hbr⟩ := hb ha
      have hqm : q ∈ R ++ [⟨j.name, versionText a' (b2 + 1) 0, j.content⟩] := List.mem_append_left _ hq
      have hq2 : Keeps t j.tree :=
        keeps_of_compare (ht q hqm t hqt).1 (ht ⟨_, _, j.content⟩ (List.mem_append_right _ (List.mem_singleton.2 rfl)) _ hp).1
          (ht ⟨_, _, j.content⟩ (List.mem_append_right _ (List.mem_singleton.2 rfl)) _ hp).2 hbr
      by_cases hnew : OlderVersion a' b2 c2 a' b c
      · have := (hg2 _ _ _ hr1).1 rfl hnew
        omega
      · by_cases he : b = b2 ∧ c = c2
        · obtain ⟨rfl, rfl⟩ := he
          have := hn.2 r hr0 q hq (hname.trans hqn.symm) (hv.trans hqv.symm)
          subst this
          rw [hw] at hqt
          cases hqt
          exact hq2
        · unfold OlderVersion at hnew
          have hc2 : Compatible a' b c a' b2 c2 := ⟨by unfold OlderVersion; omega, .inl ⟨ha, rfl⟩⟩
          exact keeps_trans (hk r hr0 q hq (hname.trans hqn.symm) _ _ _ _ _ _ hv hqv hc2 w t hw hqt) hq2
    · obtain ⟨rfl, rfl, rfl⟩ := versionText_inj hv2
      omega
  · rw [List.mem_singleton.1 hr0] at hname hv
    dsimp only at hname hv
    subst hv
    have hr1 : There R j.name a' b' c' := ⟨r', hr0', hname.symm, hv'⟩
    have hnot : ∀ {x y z}, There R j.name x y z → versionText x y z ≠ versionText a b c := by
      rintro x y z ⟨s, hs, hsn, hsv⟩ he
      exact hfree s hs hsn (hsv.trans he)
    unfold OlderVersion at hold
    rcases hj with ⟨hv, hf⟩ | ⟨q, hq, hqn, a2, b2, c2, hqv, hg2, ⟨hv2, _, hb⟩ | ⟨ha2, hv2, _⟩⟩
    · obtain ⟨rfl, rfl, rfl⟩ := versionText_inj hv
      have := hf _ _ _ hr1
      omega
    · obtain ⟨rfl, rfl, rfl⟩ := versionText_inj hv2
      have ha : a' = a := by omega
      subst ha
      have := (hg2 _ _ _ hr1).1 rfl (by unfold OlderVersion; omega)
      exact absurd rfl (hnot this.2.2)
    · obtain ⟨rfl, rfl, rfl⟩ := versionText_inj hv2
      have := (hg2 _ _ _ hr1).2 (by omega)
      exact absurd rfl (hnot this)
  · rw [List.mem_singleton.1 hr0] at hv
    rw [List.mem_singleton.1 hr0'] at hv'
    obtain ⟨rfl, rfl, rfl⟩ := versionText_inj (hv.symm.trans hv')
    unfold OlderVersion at hold
    omega

theorem numbered_publish {R : Registry} {j : Job} {v : List Char} (hn : Numbered R) (hj : ReadyOk R j v)
    (hfree : ∀ r ∈ R, r.name = j.name → r.version ≠ v) : Numbered (R ++ [⟨j.name, v, j.content⟩]) := by
  constructor
  · intro r hr
    rcases List.mem_append.1 hr with hr | hr
    · exact hn.1 r hr
    · rw [List.mem_singleton.1 hr]
      rcases hj with ⟨hv, hf⟩ | ⟨q, hq, hqn, a2, b2, c2, hqv, hg2, ⟨hv2, h, hb⟩ | ⟨ha2, hv2, h⟩⟩
      · exact ⟨_, _, _, hv, by decide, by decide, by decide⟩
      · obtain ⟨a, b, c, hv, h1, _⟩ := hn.1 q hq
        obtain ⟨rfl, rfl, rfl⟩ := versionText_inj (hv.symm.trans hqv)
        exact ⟨_, _, _, hv2, h1, h, by decide⟩
      · exact ⟨_, _, _, hv2, h, by decide, by decide⟩
  · intro r hr r' hr' hname hver
    rcases List.mem_append.1 hr with hr | hr <;> rcases List.mem_append.1 hr' with hr' | hr'
    · exact hn.2 r hr r' hr' hname hver
    · rw [List.mem_singleton.1 hr'] at hname hver
      exact absurd hver (hfree r hr hname)
    · rw [List.mem_singleton.1 hr] at hname hver
      exact absurd hver.symm (hfree r' hr' hname.symm)
    · rw [List.mem_singleton.1 hr, List.mem_singleton.1 hr']

theorem mem_swap {α : Type} {pre post : List α} {x y k : α} (h : k ∈ pre ++ y :: post) :
    k = y ∨ k ∈ pre ++ x :: post := by
  simp only [List.mem_append, List.mem_cons] at h ⊢
  grind

theorem mem_gone {α : Type} {pre post : List α} {x k : α} (h : k ∈ pre ++ post) : k ∈ pre ++ x :: post := by
  simp only [List.mem_append, List.mem_cons] at h ⊢
  grind

theorem upload_some {R R' : Registry} {r : Release} (h : upload R r = some R') :
    R' = R ++ [r] ∧ ∀ x ∈ R, x.name = r.name → x.version ≠ r.version := by
  unfold upload at h
  split at h
  · cases h
  · rename_i hn
    cases h
    refine ⟨rfl, fun x hx h1 h2 => hn ?_⟩
    simp only [List.any_eq_true, decide_eq_true_eq]
    exact ⟨x, hx, h1, h2⟩

/-- The invariant of the registry and all runs. -/
theorem market_invariant {R : Registry} {m : Market} (hn : Numbered R) (hk : KeepsPromise R)
    (hs : Steps Truthful ⟨R, []⟩ m) : NoTwice m.registry →
    Numbered m.registry ∧ KeepsPromise m.registry ∧ ∀ j ∈ m.jobs, JobOk m.registry j := by
  generalize hm : (⟨R, []⟩ : Market) = m0 at hs
  induction hs with
  | refl => subst hm; exact fun _ => ⟨hn, hk, (nofun)⟩
  | tail hs hst ih =>
    intro ht
    cases hst with
    | @start R js content j hb =>
      obtain ⟨h1, h2, h3⟩ := ih ht
      refine ⟨h1, h2, fun k hk => ?_⟩
      rcases List.mem_cons.1 hk with rfl | hk
      · unfold beginPublish at hb
        split at hb
        · split at hb
          · rename_i v hv
            obtain ⟨name, _, hb⟩ := Option.map_eq_some_iff.1 hb
            subst hb
            exact ⟨hv, trivial⟩
          · cases hb
        · cases hb
      · exact h3 k hk
    | @answer R pre j post a hst ha =>
      obtain ⟨h1, h2, h3⟩ := ih ht
      refine ⟨h1, h2, fun k hk => ?_⟩
      have hj := h3 j (by simp)
      rcases mem_swap (x := j) hk with rfl | hk
      · cases a with
        | none =>
          refine ⟨hj.1, .inl ⟨by simp [versionText, decimal, digit], ?_⟩⟩
          rintro x y z ⟨r, hr, hrn, _⟩
          exact absurd hrn (ha r hr)
        | some l =>
          obtain ⟨⟨r, hr, hrn, hrv⟩, hmax⟩ := ha
          obtain ⟨x, y, z, hv, b1, b2, b3⟩ := h1.1 r hr
          refine ⟨hj.1, x, y, z, hrv ▸ hv, b1, b2, b3, ⟨r, hr, hrn, hv⟩, ?_⟩
          rintro x' y' z' ⟨r', hr', hrn', hrv'⟩
          have := hmax r' hr' hrn' x y z x' y' z' (hrv ▸ hv) hrv'
          refine ⟨fun e h => absurd h this, fun e => absurd ?_ this⟩
          unfold OlderVersion; omega
      · exact h3 k hk
    | @compare R pre j post latest o j' hst hc =>
      obtain ⟨h1, h2, h3⟩ := ih ht
      refine ⟨h1, h2, fun k hk => ?_⟩
      obtain ⟨hjp, hj⟩ := h3 j (by simp)
      rw [hst] at hj
      rcases mem_swap (x := j) hk with rfl | hk
      · obtain ⟨x, y, z, hl, b1, b2, b3, _, hg⟩ := hj
        unfold download at hc
        cases hf : R.find? (fun r => r.name = j.name ∧ r.version = latest) with
        | none => rw [hf] at hc; cases hc
        | some r =>
          rw [hf] at hc
          have hr := List.mem_of_find?_eq_some hf
          have hrp := List.find?_some hf
          simp only [decide_eq_true_eq] at hrp
          simp only [Option.map_some, Job.compared] at hc
          split at hc
          · rename_i b hb
            split at hc
            · cases hc
            · rename_i hne
              split at hc
              · rename_i next hnext
                cases hc
                refine ⟨hjp, .inr ⟨r, hr, hrp.1, x, y, z, hrp.2.trans hl, hg, ?_⟩⟩
                rw [hl] at hnext
                rcases next_version b1 b2 b3 hnext with ⟨_, h0, hv, hlt⟩ | ⟨_, h0, hv, hlt⟩ | ⟨hbr, _, hv, hlt⟩ | ⟨hbr, had, _⟩
                · exact .inl ⟨by rw [h0]; exact hv, hlt, fun h => absurd h0 h⟩
                · exact .inr ⟨h0, hv, hlt⟩
                · exact .inl ⟨hv, hlt, fun _ => ⟨o, b, hb, hbr⟩⟩
                · exact absurd ⟨hbr, had, compare_patch o b j.tree⟩ hne
              · cases hc
          · cases hc
      · exact h3 k hk
    | @publish R R' pre j post version hst hu =>
      obtain ⟨rfl, hfree⟩ := upload_some hu
      have ht0 : NoTwice R := fun r hr => ht r (List.mem_append_left _ hr)
      obtain ⟨h1, h2, h3⟩ := ih ht0
      obtain ⟨hjp, hj⟩ := h3 j (by simp)
      rw [hst] at hj
      refine ⟨numbered_publish h1 hj hfree, promise_publish h1 h2 hjp hj hfree ht, fun k hk => ?_⟩
      exact jobOk_publish hj (h3 k (mem_gone hk))
    | @quit R pre j post =>
      obtain ⟨h1, h2, h3⟩ := ih ht
      exact ⟨h1, h2, fun k hk => h3 k (mem_gone hk)⟩

/-- **C123**, when the registry can be reached and no type or field is defined twice: however many runs of
`styx @publish` are interleaved, a compatible version has all types, fields and variants of the older one. -/
theorem C123_partial {R : Registry} {m : Market} (hn : Numbered R) (hk : KeepsPromise R)
    (hs : Steps Truthful ⟨R, []⟩ m) (ht : NoTwice m.registry) : KeepsPromise m.registry :=
  (market_invariant hn hk hs ht).2.1

/-! ## Witnesses -/

/-- A crate with one version. -/
def oneRelease (version content : List Char) : Registry := [⟨chars! "x", version, content⟩]

theorem oneRelease_ok {a b c : Nat} {content : List Char} (ha : a < 2 ^ 64) (hb : b < 2 ^ 64) (hc : c < 2 ^ 64) :
    Numbered (oneRelease (versionText a b c) content) ∧ KeepsPromise (oneRelease (versionText a b c) content) := by
  refine ⟨⟨fun r hr => ?_, fun r hr r' hr' _ _ => ?_⟩, fun r hr r' hr' _ a b c a' b' c' hv hv' hcomp => ?_⟩
  · rw [List.mem_singleton.1 hr]; exact ⟨a, b, c, rfl, ha, hb, hc⟩
  · rw [List.mem_singleton.1 hr, List.mem_singleton.1 hr']
  · rw [List.mem_singleton.1 hr] at hv
    rw [List.mem_singleton.1 hr'] at hv'
    obtain ⟨rfl, rfl, rfl⟩ := versionText_inj (hv.symm.trans hv')
    have := hcomp.1
    unfold OlderVersion at this
    omega

theorem version_texts : (chars! "1.0.0") = versionText 1 0 0 ∧ (chars! "1.1.0") = versionText 1 1 0 ∧
    (chars! "1.2.0") = versionText 1 2 0 ∧ (chars! "0.1.1") = versionText 0 1 1 ∧
    (chars! "0.1.0") = versionText 0 1 0 := by
  simp [versionText, decimal, digit]

/-- No name twice among the types and the entries of each type. -/
def noTwiceCheck : Value → Bool
  | .mk _ (some (.object es _)) _ =>
    let tys := es.flatMap schemaPairs
    decide (tys.map (·.1)).Nodup && tys.all fun p =>
      match p.2 with
      | .mk _ (some (.object fs _)) _ => decide ((fs.flatMap fieldPairs).map (·.1)).Nodup
      | _ => true
  | _ => true

theorem three_schemas : ∃ t0 t1 t2,
    parseTree (chars! "meta {crate x}\nschema {@ @object{}}\n") = some (.ok t0) ∧
    parseTree (chars! "meta {crate x}\nschema {@ @object{a @optional(@int)}}\n") = some (.ok t1) ∧
    parseTree (chars! "meta {crate x}\nschema {@ @object{a @int, b @optional(@int)}}\n") = some (.ok t2) ∧
    extractMetaField t1 (chars! "crate") = some (chars! "x") ∧ extractMetaField t2 (chars! "crate") = some (chars! "x") ∧
    compareSchemas insertionOrder t0 t1 = ⟨[], [.addedOptional none (chars! "a")], []⟩ ∧
    compareSchemas insertionOrder t1 t2 = ⟨[], [.addedOptional none (chars! "b")], []⟩ ∧
    compareSchemas insertionOrder t0 t2 =
      ⟨[.addedRequired none (chars! "a")], [.addedOptional none (chars! "b")], []⟩ ∧
    noTwiceCheck t0 = true ∧ noTwiceCheck t1 = true :=
  ⟨_, _, _, rfl, rfl, rfl, rfl, rfl, rfl, rfl, rfl, rfl, rfl⟩

theorem two_schemas : ∃ t0 t1,
    parseTree (chars! "meta {crate x}\nschema {@ @object{}}\n") = some (.ok t0) ∧
    parseTree (chars! "meta {crate x}\nschema {@ @object{}, t @int}\n") = some (.ok t1) ∧
    extractMetaField t1 (chars! "crate") = some (chars! "x") ∧
    mapHas (extractSchemaMap t0) (some (chars! "t")) = false ∧ mapHas (extractSchemaMap t1) (some (chars! "t")) = true :=
  ⟨_, _, rfl, rfl, rfl, rfl, rfl⟩

/-- One run, without others in between, that finds the version and publishes the next. -/
theorem one_run {answers : Registry → List Char → Option (List Char) → Prop} {R : Registry}
    {latest next content base : List Char} {b v : Value} {a : Change} (hp : parseTree content = some (.ok v))
    (hb : parseTree base = some (.ok b)) (hname : extractMetaField v (chars! "crate") = some (chars! "x"))
    (hans : answers R (chars! "x") (some latest)) (hd : download R (chars! "x") latest = some base)
    (hc : compareSchemas insertionOrder b v = ⟨[], [a], []⟩)
    (hv : calculateNextVersion latest ⟨[], [a], []⟩ = .ok next)
    (hu : ∀ r ∈ R, r.version ≠ next) :
    Steps answers ⟨R, []⟩ ⟨R ++ [⟨chars! "x", next, content⟩], []⟩ := by
  have s1 : MarketStep answers ⟨R, []⟩ ⟨R, [⟨chars! "x", content, v, .asking⟩]⟩ :=
    .start (content := content) (by unfold beginPublish; rw [if_pos rfl, hp]; dsimp only; rw [hname]; rfl)
  have s2 : MarketStep answers ⟨R, [⟨chars! "x", content, v, .asking⟩]⟩
      ⟨R, [⟨chars! "x", content, v, .comparing latest⟩]⟩ :=
    .answer (pre := []) (post := []) (j := ⟨chars! "x", content, v, .asking⟩) (a := some latest) rfl hans
  have s3 : MarketStep answers ⟨R, [⟨chars! "x", content, v, .comparing latest⟩]⟩
      ⟨R, [⟨chars! "x", content, v, .ready next⟩]⟩ := by
    refine .compare (pre := []) (post := []) (j := ⟨chars! "x", content, v, .comparing latest⟩) (latest := latest)
      (o := insertionOrder) rfl ?_
    dsimp only
    rw [hd]
    unfold Job.compared
    dsimp only
    rw [hb]
    dsimp only
    rw [hc, if_neg (by simp), hv]
  have s4 : MarketStep answers ⟨R, [⟨chars! "x", content, v, .ready next⟩]⟩
      ⟨R ++ [⟨chars! "x", next, content⟩], []⟩ := by
    refine .publish (pre := []) (post := []) (j := ⟨chars! "x", content, v, .ready next⟩) (version := next) rfl ?_
    unfold upload
    rw [if_neg]
    simp only [List.any_eq_true, decide_eq_true_eq, not_exists, not_and]
    exact fun r hr _ h => hu r hr h
  exact .tail (.tail (.tail (.tail .refl s1) s2) s3) s4

theorem steps_trans {answers : Registry → List Char → Option (List Char) → Prop} {m m' m'' : Market}
    (h : Steps answers m m') (h' : Steps answers m' m'') : Steps answers m m'' := by
  induction h' with
  | refl => exact h
  | tail _ hs ih => exact .tail ih hs

/-- **C123** is false: two steps that are compatible can make a compatible version that demands a new field, which the
comparison itself calls a breaking change. -/
theorem C123_required_false : ∃ (R : Registry) (m : Market), Numbered R ∧ KeepsPromise R ∧ Steps Truthful ⟨R, []⟩ m ∧
    ∃ r ∈ m.registry, ∃ r' ∈ m.registry, r.name = r'.name ∧ r.version = versionText 1 0 0 ∧
      r'.version = versionText 1 2 0 ∧ Compatible 1 0 0 1 2 0 ∧
      ∃ v v', parseTree r.content = some (.ok v) ∧ parseTree r'.content = some (.ok v') ∧
        .addedRequired none (chars! "a") ∈ (compareSchemas insertionOrder v v').breaking := by
  obtain ⟨t0, t1, t2, p0, p1, p2, n1, n2, c1, c2, c3, _, _⟩ := three_schemas
  obtain ⟨v0, v1, v2, _, _⟩ := version_texts
  have hok := oneRelease_ok (a := 1) (b := 0) (c := 0) (content := chars! "meta {crate x}\nschema {@ @object{}}\n")
    (by decide) (by decide) (by decide)
  rw [← v0] at hok
  have h1 := one_run (answers := Truthful) (R := oneRelease (chars! "1.0.0") (chars! "meta {crate x}\nschema {@ @object{}}\n"))
    (latest := chars! "1.0.0") (next := chars! "1.1.0") p1 p0 n1 ?_ rfl c1 (by decide +kernel) (by decide +kernel)
  · have h2 := one_run (answers := Truthful)
      (R := oneRelease (chars! "1.0.0") (chars! "meta {crate x}\nschema {@ @object{}}\n") ++
        [⟨chars! "x", chars! "1.1.0", chars! "meta {crate x}\nschema {@ @object{a @optional(@int)}}\n"⟩])
      (latest := chars! "1.1.0") (next := chars! "1.2.0") p2 p1 n2 ?_ rfl c2 (by decide +kernel) (by decide +kernel)
    · refine ⟨_, _, hok.1, hok.2, steps_trans h1 h2, _, List.mem_append_left _ (List.mem_append_left _ (List.mem_cons_self ..)),
        _, List.mem_append_right _ (List.mem_cons_self ..), rfl, v0, v2, ⟨by unfold OlderVersion; omega, by omega⟩,
        t0, t2, p0, p2, ?_⟩
      rw [c3]; simp
    · refine ⟨⟨_, List.mem_append_right _ (List.mem_cons_self ..), rfl, rfl⟩, fun r hr _ a b c a' b' c' hv hv' => ?_⟩
      obtain ⟨rfl, rfl, rfl⟩ := versionText_inj (v1.symm.trans hv)
      rcases List.mem_append.1 hr with hr | hr
      · rw [List.mem_singleton.1 hr] at hv'
        obtain ⟨rfl, rfl, rfl⟩ := versionText_inj (v0.symm.trans hv')
        unfold OlderVersion; omega
      · rw [List.mem_singleton.1 hr] at hv'
        obtain ⟨rfl, rfl, rfl⟩ := versionText_inj (v1.symm.trans hv')
        unfold OlderVersion; omega
  · refine ⟨⟨_, List.mem_cons_self .., rfl, rfl⟩, fun r hr _ a b c a' b' c' hv hv' => ?_⟩
    obtain ⟨rfl, rfl, rfl⟩ := versionText_inj (v0.symm.trans hv)
    rw [List.mem_singleton.1 hr] at hv'
    obtain ⟨rfl, rfl, rfl⟩ := versionText_inj (v0.symm.trans hv')
    unfold OlderVersion; omega

/-- **C123** is false when a request can fail: the run takes any failure for a crate without versions and publishes
0.1.0, next to a compatible version that lacks a type. -/
theorem C123_unreachable_false : ∃ (R : Registry) (m : Market), Numbered R ∧ KeepsPromise R ∧
    Steps Unreliable ⟨R, []⟩ m ∧ ¬ KeepsPromise m.registry := by
  obtain ⟨t0, t1, p0, p1, n1, d0, d1⟩ := two_schemas
  obtain ⟨_, _, _, v0, v1⟩ := version_texts
  have hok := oneRelease_ok (a := 0) (b := 1) (c := 1) (content := chars! "meta {crate x}\nschema {@ @object{}}\n")
    (by decide) (by decide) (by decide)
  rw [← v0] at hok
  generalize hR : oneRelease (chars! "0.1.1") (chars! "meta {crate x}\nschema {@ @object{}}\n") = R at hok
  generalize hc : (chars! "meta {crate x}\nschema {@ @object{}, t @int}\n") = content at p1
  have s1 : MarketStep Unreliable ⟨R, []⟩ ⟨R, [⟨chars! "x", content, t1, .asking⟩]⟩ :=
    .start (content := content) (by unfold beginPublish; rw [if_pos rfl, p1]; dsimp only; rw [n1]; rfl)
  have s2 : MarketStep Unreliable ⟨R, [⟨chars! "x", content, t1, .asking⟩]⟩
      ⟨R, [⟨chars! "x", content, t1, .ready (chars! "0.1.0")⟩]⟩ :=
    .answer (pre := []) (post := []) (j := ⟨chars! "x", content, t1, .asking⟩) (a := none) rfl trivial
  have s3 : MarketStep Unreliable ⟨R, [⟨chars! "x", content, t1, .ready (chars! "0.1.0")⟩]⟩
      ⟨R ++ [⟨chars! "x", chars! "0.1.0", content⟩], []⟩ := by
    refine .publish (pre := []) (post := []) (j := ⟨chars! "x", content, t1, .ready (chars! "0.1.0")⟩)
      (version := chars! "0.1.0") rfl ?_
    unfold upload
    rw [if_neg]
    subst hR
    simp [oneRelease]
  refine ⟨R, _, hok.1, hok.2, .tail (.tail (.tail .refl s1) s2) s3, fun h => ?_⟩
  obtain ⟨ty, hty⟩ := Option.isSome_iff_exists.1 d1
  have hk := h ⟨chars! "x", chars! "0.1.0", content⟩ (by simp)
    ⟨chars! "x", chars! "0.1.1", chars! "meta {crate x}\nschema {@ @object{}}\n"⟩
    (List.mem_append_left _ (by rw [← hR]; exact List.mem_cons_self ..)) rfl 0 1 0 0 1 1 v1 v0
    ⟨by unfold OlderVersion; omega, by omega⟩ t1 t0 p1 p0
  obtain ⟨ty', hd, _⟩ := hk _ _ (get_defines hty)
  obtain ⟨ty'', hd⟩ := defines_has hd
  unfold mapHas at d0
  rw [hd] at d0
  cases d0

theorem nodup_unique {κ α : Type} {l : List (κ × α)} (h : (l.map (·.1)).Nodup) {k : κ} {a b : α} (h1 : (k, a) ∈ l)
    (h2 : (k, b) ∈ l) : a = b := by
  induction l with
  | nil => cases h1
  | cons p l ih =>
    simp only [List.map_cons, List.nodup_cons, List.mem_map, not_exists, not_and] at h
    simp only [List.mem_cons] at h1 h2
    rcases h1 with h1 | h1 <;> rcases h2 with h2 | h2
    · have := h1.trans h2.symm
      simp only [Prod.mk.injEq, true_and] at this
      exact this
    · exact absurd (by rw [← h1]) (h.1 _ h2)
    · exact absurd (by rw [← h2]) (h.1 _ h1)
    · exact ih h.2 h1 h2

theorem noTwice_of_check {v : Value} (h : noTwiceCheck v = true) :
    UniqueTypes v ∧ ∀ n ty, Defines v n ty → UniqueEntries ty := by
  constructor
  · intro n ty ty' h1 h2
    rw [defines_iff] at h1 h2
    obtain ⟨t, es, sp, s, rfl, h1⟩ := h1
    obtain ⟨_, _, _, _, he, h2⟩ := h2
    cases he
    simp only [noTwiceCheck, Bool.and_eq_true, decide_eq_true_eq] at h
    exact nodup_unique h.1 h1 h2
  · intro n ty hd f a b h1 h2
    rw [defines_iff] at hd
    obtain ⟨t, es, sp, s, rfl, hd⟩ := hd
    rw [hasEntry_iff] at h1 h2
    obtain ⟨t, fs, sp, s, rfl, h1⟩ := h1
    obtain ⟨_, _, _, _, he, h2⟩ := h2
    cases he
    simp only [noTwiceCheck, Bool.and_eq_true, decide_eq_true_eq, List.all_eq_true] at h
    have := h.2 _ hd
    dsimp only at this
    exact nodup_unique (of_decide_eq_true this) h1 h2

/-- The conditions are met: a run that publishes 1.1.0 after 1.0.0. -/
example : ∃ (R : Registry) (m : Market), Numbered R ∧ KeepsPromise R ∧ Steps Truthful ⟨R, []⟩ m ∧ NoTwice m.registry ∧
    There m.registry (chars! "x") 1 0 0 ∧ There m.registry (chars! "x") 1 1 0 ∧ Compatible 1 0 0 1 1 0 := by
  obtain ⟨t0, t1, t2, p0, p1, p2, n1, n2, c1, c2, c3, k0, k1⟩ := three_schemas
  obtain ⟨v0, v1, v2, _, _⟩ := version_texts
  have hok := oneRelease_ok (a := 1) (b := 0) (c := 0) (content := chars! "meta {crate x}\nschema {@ @object{}}\n")
    (by decide) (by decide) (by decide)
  rw [← v0] at hok
  have h1 := one_run (answers := Truthful) (R := oneRelease (chars! "1.0.0") (chars! "meta {crate x}\nschema {@ @object{}}\n"))
    (latest := chars! "1.0.0") (next := chars! "1.1.0") p1 p0 n1 ?_ rfl c1 (by decide +kernel) (by decide +kernel)
  · refine ⟨_, _, hok.1, hok.2, h1, fun r hr v hv => ?_, ⟨_, List.mem_append_left _ (List.mem_cons_self ..), rfl, v0⟩,
      ⟨_, List.mem_append_right _ (List.mem_cons_self ..), rfl, v1⟩, by unfold OlderVersion; omega, by omega⟩
    rcases List.mem_append.1 hr with hr | hr
    · rw [List.mem_singleton.1 hr, p0] at hv
      cases hv
      exact noTwice_of_check k0
    · rw [List.mem_singleton.1 hr, p1] at hv
      cases hv
      exact noTwice_of_check k1
  · refine ⟨⟨_, List.mem_cons_self .., rfl, rfl⟩, fun r hr _ a b c a' b' c' hv hv' => ?_⟩
    obtain ⟨rfl, rfl, rfl⟩ := versionText_inj (v0.symm.trans hv)
    rw [List.mem_singleton.1 hr] at hv'
    obtain ⟨rfl, rfl, rfl⟩ := versionText_inj (v0.symm.trans hv')
    unfold OlderVersion; omega

end Styx.Props
