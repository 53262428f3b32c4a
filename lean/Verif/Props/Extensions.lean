import Verif.Lsp.Extensions
import Verif.Lsp.LocksLemmas
import Verif.Basic

/-!
# C77: extensions are launched only when the user has allowed them, and once

A schema can name a command that is run on the user's machine, so the user is asked first.
-/

namespace Styx.Props

open Styx.Lsp.Extensions

/-- The commands the user has allowed: those of the configuration, and those allowed in a schedule. -/
def allowedBy (config : List (List Char)) : List Label → List (List Char)
  | [] => config
  | .allow command :: l => allowedBy (config ++ [command]) l
  | _ :: l => allowedBy config l

/-- A document with this schema and extension was opened or changed. -/
def Requested (l : List Label) (id : List Char) (launch : List (List Char)) : Prop := .request id launch ∈ l

/-- The command a label allows. -/
def added : Label → List (List Char)
  | .allow c => [c]
  | _ => []

theorem allowedBy_snoc (l : List Label) (a : Label) (config : List (List Char)) :
    allowedBy config (l ++ [a]) = allowedBy config l ++ added a := by
  induction l generalizing config with
  | nil => cases a <;> simp [allowedBy, added]
  | cons b l ih => cases b <;> simp [allowedBy, ih]

theorem snocInduction {α : Type} {P : List α → Prop} (h0 : P []) (h1 : ∀ l a, P l → P (l ++ [a])) (l : List α) : P l := by
  have : ∀ r : List α, P r.reverse := by
    intro r
    induction r with
    | nil => exact h0
    | cons a r ih => rw [List.reverse_cons]; exact h1 _ _ ih
  have := this l.reverse
  rwa [List.reverse_reverse] at this

theorem execExt_snoc (config : List (List Char)) (l : List Label) (a : Label) :
    exec config (l ++ [a]) = act (exec config l) a := by
  simp [exec, List.foldl_append]

theorem hasPrefix_prefix : ∀ {s p : List Char}, hasPrefix s p = true → p <+: s
  | _, [], _ => List.nil_prefix
  | c :: cs, d :: ds, h => by
    simp only [hasPrefix, Bool.and_eq_true, beq_iff_eq] at h
    obtain ⟨h1, h2⟩ := h
    subst h1
    obtain ⟨r, hr⟩ := hasPrefix_prefix h2
    exact ⟨r, by rw [List.cons_append, hr]⟩
  | [], _ :: _, h => by simp [hasPrefix] at h

theorem hasPrefix_self (s : List Char) : hasPrefix s s = true := by
  induction s with
  | nil => rfl
  | cons c s ih => simp [hasPrefix, ih]

/-- A launch the user has agreed to. -/
def Agreed (allowed : List (List Char)) (l : List Label) (id : List Char) (launch : List (List Char)) : Prop :=
  ∃ command args, launch = command :: args ∧ Requested l id launch ∧ ∃ a ∈ allowed, a <+: command

/-- What is known about a call. -/
def TaskAgreed (allowed : List (List Char)) (l : List Label) (m : Manager) : Task → Prop
  | .look id launch | .check id launch => Requested l id launch
  | .spawn id launch => Agreed allowed l id launch
  | .talk id n => ∃ p, m.launched[n]? = some p ∧ p.id = id
  | .store id n => ∃ p, m.launched[n]? = some p ∧ p.id = id
  | .done id r => r = .running → isRunning m id = true

/-- What is known about all calls and processes. -/
structure AllAgreed (allowed : List (List Char)) (l : List Label) (m : Manager) : Prop where
  list : ∀ a ∈ m.allowlist, a ∈ allowed
  launched : ∀ p ∈ m.launched, Agreed allowed l p.id p.launch
  tasks : ∀ t ∈ m.tasks, TaskAgreed allowed l m t

theorem TaskAgreed.mono {allowed allowed' : List (List Char)} {l l' : List Label} {m m' : Manager} {t : Task}
    (h : TaskAgreed allowed l m t) (ha : ∀ a ∈ allowed, a ∈ allowed') (hl : ∀ x ∈ l, x ∈ l')
    (hm : ∀ (n : Nat) p, m.launched[n]? = some p → m'.launched[n]? = some p)
    (hr : ∀ id, isRunning m id = true → isRunning m' id = true) : TaskAgreed allowed' l' m' t := by
  cases t with
  | look id launch => exact hl _ h
  | check id launch => exact hl _ h
  | spawn id launch =>
    obtain ⟨c, args, h1, h2, a, h3, h4⟩ := h
    exact ⟨c, args, h1, hl _ h2, a, ha a h3, h4⟩
  | talk id n => obtain ⟨p, h1, h2⟩ := h; exact ⟨p, hm n p h1, h2⟩
  | store id n => obtain ⟨p, h1, h2⟩ := h; exact ⟨p, hm n p h1, h2⟩
  | done id r => exact fun hr' => hr id (h hr')

theorem AllAgreed.set {allowed : List (List Char)} {l : List Label} {m : Manager} (h : AllAgreed allowed l m) {i : Nat}
    {t : Task} {m' : Manager} (hlist : m'.allowlist = m.allowlist) (ht : m'.tasks = m.tasks.set i t)
    (hlaunched : ∀ p ∈ m'.launched, Agreed allowed l p.id p.launch)
    (hm : ∀ (n : Nat) p, m.launched[n]? = some p → m'.launched[n]? = some p)
    (hr : ∀ id, isRunning m id = true → isRunning m' id = true) (hnew : TaskAgreed allowed l m' t) :
    AllAgreed allowed l m' := by
  refine ⟨by rw [hlist]; exact h.list, hlaunched, fun u hu => ?_⟩
  rw [ht] at hu
  rcases List.mem_or_eq_of_mem_set hu with hu | rfl
  · exact (h.tasks u hu).mono (fun _ ha => ha) (fun _ hx => hx) hm hr
  · exact hnew

theorem AllAgreed.step {allowed : List (List Char)} {l : List Label} {m : Manager} (h : AllAgreed allowed l m) (i : Nat)
    (ok : Bool) : AllAgreed allowed l (step m i ok) := by
  unfold Lsp.Extensions.step
  split
  · exact h
  · exact h
  · rename_i id launch ht
    have hm : TaskAgreed allowed l m (.look id launch) := h.tasks _ (List.mem_of_getElem? ht)
    split
    · rename_i hrun
      exact h.set rfl rfl h.launched (fun _ _ hp => hp) (fun _ hr => hr) (t := .done id .running) (fun _ => hrun)
    · exact h.set rfl rfl h.launched (fun _ _ hp => hp) (fun _ hr => hr) (t := .check id launch) hm
  · rename_i id launch ht
    have hm : TaskAgreed allowed l m (.check id launch) := h.tasks _ (List.mem_of_getElem? ht)
    split
    · exact h.set rfl rfl h.launched (fun _ _ hp => hp) (fun _ hr => hr) (t := .done id .failed) (by simp [TaskAgreed])
    · rename_i command hc
      split
      · rename_i hal
        refine h.set rfl rfl h.launched (fun _ _ hp => hp) (fun _ hr => hr) (t := .spawn id launch) ?_
        rw [isAllowed, List.any_eq_true] at hal
        obtain ⟨a, ha1, ha2⟩ := hal
        cases launch with
        | nil => cases hc
        | cons c args =>
          simp only [List.head?_cons, Option.some.injEq] at hc
          subst hc
          exact ⟨c, args, rfl, hm, a, h.list a ha1, hasPrefix_prefix ha2⟩
      · exact h.set rfl rfl h.launched (fun _ _ hp => hp) (fun _ hr => hr) (t := .done id (.notAllowed command))
          (by simp [TaskAgreed])
  · rename_i id launch ht
    have hm : TaskAgreed allowed l m (.spawn id launch) := h.tasks _ (List.mem_of_getElem? ht)
    split
    · refine h.set (t := .talk id m.launched.length) rfl rfl (fun p hp => ?_) (fun n p hp => ?_) (fun _ hr => hr) ?_
      · rcases List.mem_append.mp hp with hp | hp
        · exact h.launched p hp
        · rw [List.mem_singleton.mp hp]; exact hm
      · show (m.launched ++ [(⟨id, launch⟩ : Launch)])[n]? = some p
        rw [List.getElem?_append_left (Lsp.Locks.lt_of_some hp)]
        exact hp
      · exact ⟨⟨id, launch⟩, by simp, rfl⟩
    · exact h.set rfl rfl h.launched (fun _ _ hp => hp) (fun _ hr => hr) (t := .done id .failed) (by simp [TaskAgreed])
  · rename_i id process ht
    have hm : TaskAgreed allowed l m (.talk id process) := h.tasks _ (List.mem_of_getElem? ht)
    split
    · exact h.set rfl rfl h.launched (fun _ _ hp => hp) (fun _ hr => hr) (t := .store id process) hm
    · exact h.set rfl rfl h.launched (fun _ _ hp => hp) (fun _ hr => hr) (t := .done id .failed) (by simp [TaskAgreed])
  · rename_i id process ht
    refine h.set (t := .done id .running) rfl rfl h.launched (fun _ _ hp => hp) (fun id' hr => ?_) (fun _ => by simp [isRunning, setRunning])
    simp only [isRunning, List.any_eq_true] at hr ⊢
    obtain ⟨p, hp, he⟩ := hr
    by_cases hid : id = id'
    · exact ⟨(id, process), List.mem_cons_self .., by simp [hid]⟩
    · refine ⟨p, List.mem_cons_of_mem _ (List.mem_filter.mpr ⟨hp, ?_⟩), he⟩
      have : p.1 = id' := by simpa using he
      simp [this, Ne.symm hid]

theorem exec_agreed (config : List (List Char)) (l : List Label) : AllAgreed (allowedBy config l) l (exec config l) := by
  induction l using snocInduction with
  | h0 => exact ⟨fun a ha => ha, fun _ hp => (nomatch hp), fun _ ht => (nomatch ht)⟩
  | h1 l a ih =>
    rw [execExt_snoc, allowedBy_snoc]
    have hmono : AllAgreed (allowedBy config l ++ added a) (l ++ [a]) (exec config l) := by
      refine ⟨fun x hx => List.mem_append_left _ (ih.list x hx), fun p hp => ?_, fun t ht => ?_⟩
      · obtain ⟨c, args, h1, h2, x, h3, h4⟩ := ih.launched p hp
        exact ⟨c, args, h1, List.mem_append_left _ h2, x, List.mem_append_left _ h3, h4⟩
      · exact (ih.tasks t ht).mono (fun _ hx => List.mem_append_left _ hx) (fun _ hx => List.mem_append_left _ hx)
          (fun _ _ hp => hp) (fun _ hr => hr)
    cases a with
    | run i ok => exact hmono.step i ok
    | request id launch =>
      refine ⟨hmono.list, hmono.launched, fun t ht => ?_⟩
      rcases List.mem_append.mp ht with ht | ht
      · exact (hmono.tasks t ht).mono (fun _ hx => hx) (fun _ hx => hx) (fun _ _ hp => hp) (fun _ hr => hr)
      · rw [List.mem_singleton.mp ht]
        exact List.mem_append_right _ (List.mem_singleton.mpr rfl)
    | allow c =>
      show AllAgreed _ _ (allow (exec config l) c)
      unfold Lsp.Extensions.allow
      split
      · exact hmono
      · refine ⟨fun x hx => ?_, hmono.launched, hmono.tasks⟩
        rcases List.mem_append.mp hx with hx | hx
        · exact hmono.list x hx
        · exact List.mem_append_right (bs := added (.allow c)) _ hx

/-- Every process was launched for a schema that was asked for, with its command and arguments, and the command
begins with one that the user had allowed before.  Missing: that the command is the allowed one (false,
`C77_prefix_false`). -/
theorem C77_allowed_partial (config : List (List Char)) (l : List Label) (p : Launch) (hp : p ∈ (exec config l).launched) :
    ∃ command args, p.launch = command :: args ∧ .request p.id p.launch ∈ l ∧ ∃ a ∈ allowedBy config l, a <+: command :=
  (exec_agreed config l).launched p hp

/-- A call that says the extension is running is right. -/
theorem C77_running (config : List (List Char)) (l : List Label) (id : List Char)
    (h : .done id .running ∈ (exec config l).tasks) : ∃ n, (id, n) ∈ (exec config l).running := by
  have := (exec_agreed config l).tasks _ h rfl
  rw [isRunning, List.any_eq_true] at this
  obtain ⟨⟨id', n⟩, h1, h2⟩ := this
  have : id' = id := by simpa using h2
  exact ⟨n, this ▸ h1⟩

/-- Allowing the command that was refused is enough: the extension of the next document is launched, with the
arguments of its schema, and used. -/
theorem C77_unblock (config : List (List Char)) (l : List Label) (id command : List Char) (args : List (List Char))
    (hr : ∀ n, (id, n) ∉ (exec config l).running) :
    let i := (exec config l).tasks.length
    let m := exec config (l ++ [.allow command, .request id (command :: args), .run i true, .run i true, .run i true,
      .run i true, .run i true])
    m.launched = (exec config l).launched ++ [⟨id, command :: args⟩] ∧
    (id, (exec config l).launched.length) ∈ m.running ∧ m.tasks[i]? = some (.done id .running) := by
  intro i m
  have hm : m = [Label.allow command, .request id (command :: args), .run i true, .run i true, .run i true,
      .run i true, .run i true].foldl act (exec config l) := by
    simp only [m, exec, List.foldl_append]
  have hi : i = (exec config l).tasks.length := rfl
  clear_value i
  rw [hm]
  clear hm m
  generalize exec config l = m at *
  simp only [List.foldl_cons, List.foldl_nil, act]
  have hrun : isRunning m id = false := by
    rw [isRunning, List.any_eq_false]
    intro p hp
    have : p.1 ≠ id := by
      intro he
      exact hr p.2 (he ▸ hp)
    simpa using this
  obtain ⟨al, hal, hc⟩ : ∃ al, Lsp.Extensions.allow m command = { m with allowlist := al } ∧ command ∈ al := by
    unfold Lsp.Extensions.allow
    split
    · rename_i hc
      exact ⟨m.allowlist, rfl, by simpa using hc⟩
    · exact ⟨_, rfl, by simp⟩
  rw [hal]
  have hok : al.any (fun allowed => hasPrefix command allowed) = true := by
    rw [List.any_eq_true]
    exact ⟨command, hc, hasPrefix_self command⟩
  obtain ⟨allowlist, running, tasks, launched⟩ := m
  simp only [isRunning] at hrun hi
  subst hi
  have e1 : ∀ (t u : Task), (tasks ++ [t]).set tasks.length u = tasks ++ [u] := by intro t u; simp
  have e2 : ∀ (t : Task), (tasks ++ [t])[tasks.length]? = some t := by intro t; simp
  simp only [step, e1, e2, isRunning, hrun, isAllowed, hok, List.head?_cons, if_true, Bool.false_eq_true, if_false,
    setRunning, true_and, and_true]
  exact List.mem_cons_self ..

/-! ## At most one process for a schema -/

/-- The schema a call is about, unless it has finished. -/
def callFor : Task → Option (List Char)
  | .look id _ | .check id _ | .spawn id _ | .talk id _ | .store id _ => some id
  | .done _ _ => none

/-- The calls for one schema do not overlap. -/
def OneByOne (config : List (List Char)) (l : List Label) : Prop :=
  ∀ before id launch rest, l = before ++ .request id launch :: rest →
    ∀ t ∈ (exec config before).tasks, callFor t ≠ some id

/-- How many processes were launched for a schema, by how far its call is. -/
def Launches (id : List Char) (m : Manager) : Task → Prop
  | .look _ _ => (isRunning m id = true ∧ m.launched.countP (fun p => p.id == id) ≤ 1 ∨
      m.launched.countP (fun p => p.id == id) = 0)
  | .check _ _ | .spawn _ _ => m.launched.countP (fun p => p.id == id) = 0
  | _ => m.launched.countP (fun p => p.id == id) ≤ 1

/-- What is known about the processes of one schema. -/
inductive Single (id : List Char) (m : Manager) : Prop
  | idle : (∀ t ∈ m.tasks, callFor t ≠ some id) →
      (isRunning m id = true ∧ m.launched.countP (fun p => p.id == id) ≤ 1 ∨ m.launched.countP (fun p => p.id == id) = 0) →
      Single id m
  | busy {i : Nat} {t : Task} : m.tasks[i]? = some t → callFor t = some id →
      (∀ (j : Nat) u, j ≠ i → m.tasks[j]? = some u → callFor u ≠ some id) →
      Launches id m t → Single id m

theorem Single.count {id : List Char} {m : Manager} (h : Single id m) : m.launched.countP (fun p => p.id == id) ≤ 1 := by
  cases h with
  | idle _ h => rcases h with ⟨_, h⟩ | h <;> omega
  | @busy i t _ h2 _ h =>
    cases t with
    | look _ _ => simp only [Launches] at h; rcases h with ⟨_, h⟩ | h <;> omega
    | check _ _ => simp only [Launches] at h; omega
    | spawn _ _ => simp only [Launches] at h; omega
    | talk _ _ => exact h
    | store _ _ => exact h
    | done _ _ => simp [callFor] at h2

/-- A step of a call for another schema. -/
theorem Single.other {id : List Char} {m m' : Manager} (h : Single id m) {i : Nat} {t t' : Task}
    (hi : m.tasks[i]? = some t) (ht : callFor t ≠ some id) (ht' : callFor t' ≠ some id) (hs : m'.tasks = m.tasks.set i t')
    (hr : isRunning m id = true → isRunning m' id = true)
    (hc : m'.launched.countP (fun p => p.id == id) = m.launched.countP (fun p => p.id == id)) : Single id m' := by
  cases h with
  | idle h1 h2 =>
    refine .idle (fun u hu => ?_) ?_
    · rw [hs] at hu
      rcases List.mem_or_eq_of_mem_set hu with hu | rfl
      · exact h1 u hu
      · exact ht'
    · rw [hc]
      exact h2.imp (fun h => ⟨hr h.1, h.2⟩) (fun h => h)
  | @busy j u h1 h2 h3 h4 =>
    have hne : i ≠ j := by
      rintro rfl
      rw [hi] at h1
      cases h1
      exact ht h2
    refine .busy (i := j) (t := u) (by rw [hs, List.getElem?_set_ne hne]; exact h1) h2 ?_ ?_
    · intro k w hk hw
      rw [hs] at hw
      by_cases hki : k = i
      · subst hki
        rw [List.getElem?_set] at hw
        simp only [if_true] at hw
        split at hw
        · cases hw; exact ht'
        · cases hw
      · rw [List.getElem?_set_ne (Ne.symm hki)] at hw
        exact h3 k w hk hw
    · cases u with
      | look _ _ => simp only [Launches, hc] at h4 ⊢; exact h4.imp (fun h => ⟨hr h.1, h.2⟩) (fun h => h)
      | check _ _ => simp only [Launches, hc] at h4 ⊢; exact h4
      | spawn _ _ => simp only [Launches, hc] at h4 ⊢; exact h4
      | talk _ _ => simp only [Launches, hc] at h4 ⊢; exact h4
      | store _ _ => simp only [Launches, hc] at h4 ⊢; exact h4
      | done _ _ => simp [callFor] at h2

theorem single_done {id : List Char} {m m' : Manager} {i : Nat} {t' : Task}
    (ho : ∀ (j : Nat) u, j ≠ i → m.tasks[j]? = some u → callFor u ≠ some id) (ht' : callFor t' ≠ some id)
    (hs : m'.tasks = m.tasks.set i t')
    (hc : isRunning m' id = true ∧ m'.launched.countP (fun p => p.id == id) ≤ 1 ∨
      m'.launched.countP (fun p => p.id == id) = 0) : Single id m' := by
  refine .idle (fun u hu => ?_) hc
  rw [hs] at hu
  obtain ⟨j, hj⟩ := List.mem_iff_getElem?.mp hu
  by_cases hji : j = i
  · subst hji
    rw [List.getElem?_set] at hj
    simp only [if_true] at hj
    split at hj
    · cases hj; exact ht'
    · cases hj
  · rw [List.getElem?_set_ne (Ne.symm hji)] at hj
    exact ho j u hji hj

theorem single_next {id : List Char} {m m' : Manager} {i : Nat} {t t' : Task} (hi : m.tasks[i]? = some t)
    (ho : ∀ (j : Nat) u, j ≠ i → m.tasks[j]? = some u → callFor u ≠ some id) (ht' : callFor t' = some id)
    (hs : m'.tasks = m.tasks.set i t')
    (hc : Launches id m' t') : Single id m' := by
  refine .busy (i := i) (t := t') (by rw [hs]; simp [Lsp.Locks.lt_of_some hi]) ht' ?_ hc
  intro j u hj hu
  rw [hs, List.getElem?_set_ne (Ne.symm hj)] at hu
  exact ho j u hj hu

theorem running_set {m : Manager} {id id' : List Char} {n : Nat} (h : isRunning m id = true) (tasks allowlist launched) :
    isRunning ⟨allowlist, setRunning m id' n, tasks, launched⟩ id = true := by
  simp only [isRunning, setRunning, List.any_eq_true] at h ⊢
  obtain ⟨p, hp, he⟩ := h
  by_cases hid : id' = id
  · exact ⟨(id', n), List.mem_cons_self .., by simp [hid]⟩
  · refine ⟨p, List.mem_cons_of_mem _ (List.mem_filter.mpr ⟨hp, ?_⟩), he⟩
    have : p.1 = id := by simpa using he
    simp [this, Ne.symm hid]

theorem Single.step {id : List Char} {m : Manager} (h : Single id m) (i : Nat) : Single id (step m i true) := by
  by_cases hb : ∃ t, m.tasks[i]? = some t ∧ callFor t = some id
  · obtain ⟨t, hi, hw⟩ := hb
    cases h with
    | idle h1 h2 => exact absurd hw (h1 t (List.mem_of_getElem? hi))
    | @busy j u h1 h2 h3 h4 =>
      have hji : j = i := by
        rcases Nat.decEq i j with hne | heq
        · exact absurd hw (h3 i t hne hi)
        · exact heq.symm
      subst hji
      rw [hi] at h1
      cases h1
      unfold Lsp.Extensions.step
      cases t with
      | look id' launch =>
        simp only [callFor, Option.some.injEq] at hw
        subst hw
        simp only [hi]
        simp only [Launches] at h4
        split
        · exact single_done h3 (by simp [callFor]) rfl h4
        · rename_i hr
          refine single_next (t' := .check id' launch) hi h3 rfl rfl ?_
          rcases h4 with h4 | h4
          · exact absurd h4.1 hr
          · exact h4
      | check id' launch =>
        simp only [callFor, Option.some.injEq] at hw
        subst hw
        simp only [hi]
        simp only [Launches] at h4
        split
        · exact single_done h3 (by simp [callFor]) rfl (.inr h4)
        · split
          · exact single_next (t' := .spawn id' launch) hi h3 rfl rfl h4
          · exact single_done h3 (by simp [callFor]) rfl (.inr h4)
      | spawn id' launch =>
        simp only [callFor, Option.some.injEq] at hw
        subst hw
        simp only [hi, if_true]
        simp only [Launches] at h4
        refine single_next (t' := .talk id' m.launched.length) hi h3 rfl rfl ?_
        show (m.launched ++ [(⟨id', launch⟩ : Launch)]).countP _ ≤ 1
        rw [List.countP_append, h4]
        simp
      | talk id' n =>
        simp only [callFor, Option.some.injEq] at hw
        subst hw
        simp only [hi, if_true]
        exact single_next (t' := .store id' n) hi h3 rfl rfl h4
      | store id' n =>
        simp only [callFor, Option.some.injEq] at hw
        subst hw
        simp only [hi]
        exact single_done h3 (by simp [callFor]) rfl (.inl ⟨by simp [isRunning, setRunning], h4⟩)
      | done id' r => simp [callFor] at hw
  · unfold Lsp.Extensions.step
    split
    · exact h
    · exact h
    · rename_i id' launch ht
      have hw : id' ≠ id := fun he => hb ⟨_, ht, by simp [callFor, he]⟩
      split
      · exact h.other ht (by simpa [callFor] using hw) (t' := .done id' .running) (by simp [callFor]) rfl (fun h => h) rfl
      · exact h.other ht (by simpa [callFor] using hw) (t' := .check id' launch) (by simpa [callFor] using hw) rfl (fun h => h) rfl
    · rename_i id' launch ht
      have hw : id' ≠ id := fun he => hb ⟨_, ht, by simp [callFor, he]⟩
      split
      · exact h.other ht (by simpa [callFor] using hw) (t' := .done id' .failed) (by simp [callFor]) rfl (fun h => h) rfl
      · rename_i command _
        split
        · exact h.other ht (by simpa [callFor] using hw) (t' := .spawn id' launch) (by simpa [callFor] using hw) rfl (fun h => h) rfl
        · exact h.other ht (by simpa [callFor] using hw) (t' := .done id' (.notAllowed command)) (by simp [callFor]) rfl (fun h => h) rfl
    · rename_i id' launch ht
      have hw : id' ≠ id := fun he => hb ⟨_, ht, by simp [callFor, he]⟩
      simp only [if_true]
      refine h.other ht (by simpa [callFor] using hw) (t' := .talk id' m.launched.length) (by simpa [callFor] using hw) rfl (fun h => h) ?_
      show (m.launched ++ [(⟨id', launch⟩ : Launch)]).countP _ = _
      rw [List.countP_append]
      simp [hw]
    · rename_i id' n ht
      have hw : id' ≠ id := fun he => hb ⟨_, ht, by simp [callFor, he]⟩
      simp only [if_true]
      exact h.other ht (by simpa [callFor] using hw) (t' := .store id' n) (by simpa [callFor] using hw) rfl (fun h => h) rfl
    · rename_i id' n ht
      have hw : id' ≠ id := fun he => hb ⟨_, ht, by simp [callFor, he]⟩
      exact h.other ht (by simpa [callFor] using hw) (t' := .done id' .running) (by simp [callFor]) rfl
        (fun h => running_set h _ _ _) rfl

/-- When the calls for a schema do not overlap and every process could be launched and answered, then at most one
process is launched for it.  Missing: calls that overlap (false, `C77_twice_false`), and processes that do not
answer (false, `C77_again_false`). -/
theorem C77_once_partial (config : List (List Char)) (l : List Label) (ho : OneByOne config l)
    (hok : ∀ i, .run i false ∉ l) (id : List Char) :
    ((exec config l).launched.filter fun p => p.id == id).length ≤ 1 := by
  have key : Single id (exec config l) := by
    induction l using snocInduction with
    | h0 => exact .idle (fun _ ht => (nomatch ht)) (.inr rfl)
    | h1 l a ih =>
      have ih := ih (fun before id' launch rest hl => ho before id' launch (rest ++ [a]) (by rw [hl]; simp))
        (fun i hi => hok i (List.mem_append_left _ hi))
      rw [execExt_snoc]
      cases a with
      | run i ok =>
        cases ok with
        | true => exact ih.step i
        | false => exact absurd (List.mem_append_right _ (List.mem_singleton.mpr rfl)) (hok i)
      | allow c =>
        show Single id (allow (exec config l) c)
        unfold Lsp.Extensions.allow
        split
        · exact ih
        · cases ih with
          | idle h1 h2 => exact .idle h1 h2
          | busy h1 h2 h3 h4 => exact .busy h1 h2 h3 h4
      | request id' launch =>
        have hfree := ho l id' launch [] rfl
        by_cases hid : id' = id
        · subst hid
          cases ih with
          | busy h1 h2 => exact absurd h2 (hfree _ (List.mem_of_getElem? h1))
          | idle h1 h2 =>
            refine .busy (i := (exec config l).tasks.length) (t := .look id' launch) (by simp [act]) rfl ?_ h2
            intro j u hj hu
            simp only [act] at hu
            rcases Nat.lt_or_ge j (exec config l).tasks.length with hlt | hge
            · rw [List.getElem?_append_left hlt] at hu
              exact h1 u (List.mem_of_getElem? hu)
            · rw [List.getElem?_append_right hge, List.getElem?_eq_none (by simp; omega)] at hu
              cases hu
        · cases ih with
          | idle h1 h2 =>
            refine .idle (fun t ht => ?_) h2
            rcases List.mem_append.mp ht with ht | ht
            · exact h1 t ht
            · rw [List.mem_singleton.mp ht]; simpa [callFor] using hid
          | @busy i t h1 h2 h3 h4 =>
            refine .busy (i := i) (t := t) ?_ h2 ?_ h4
            · simp only [act]
              rw [List.getElem?_append_left (Lsp.Locks.lt_of_some h1)]; exact h1
            · intro j u hj hu
              simp only [act] at hu
              rcases Nat.lt_or_ge j (exec config l).tasks.length with hlt | hge
              · rw [List.getElem?_append_left hlt] at hu
                exact h3 j u hj hu
              · have : u ∈ [Task.look id' launch] := by
                  rw [List.getElem?_append_right hge] at hu
                  exact List.mem_of_getElem? hu
                rw [List.mem_singleton.mp this]
                simpa [callFor] using hid
  rw [← List.countP_eq_length_filter]
  exact key.count

/-! ## What goes wrong -/

/-- The user has allowed `styx-ext`; a schema launches `styx-extra`. -/
theorem C77_prefix_false :
    (exec [chars! "styx-ext"] [.request (chars! "s") [chars! "styx-extra", chars! "--now"], .run 0 true, .run 0 true,
      .run 0 true]).launched = [⟨chars! "s", [chars! "styx-extra", chars! "--now"]⟩] ∧
    chars! "styx-extra" ∉ allowedBy [chars! "styx-ext"] [.request (chars! "s") [chars! "styx-extra", chars! "--now"],
      .run 0 true, .run 0 true, .run 0 true] := by decide +kernel

/-- Two documents with the same schema are opened at the same time: two processes are launched, of which one is
used. -/
theorem C77_twice_false :
    let m := exec [chars! "e"] [.request (chars! "s") [chars! "e"], .request (chars! "s") [chars! "e"], .run 0 true,
      .run 1 true, .run 0 true, .run 1 true, .run 0 true, .run 1 true, .run 0 true, .run 1 true, .run 0 true, .run 1 true]
    m.launched = [⟨chars! "s", [chars! "e"]⟩, ⟨chars! "s", [chars! "e"]⟩] ∧ m.running = [(chars! "s", 1)] ∧
    m.tasks = [.done (chars! "s") .running, .done (chars! "s") .running] := by decide +kernel

/-- A process that does not answer is launched again with every change, one after the other. -/
theorem C77_again_false (n : Nat) :
    let change : List Label := [.request (chars! "s") [chars! "e"]]
    let calls := (List.range n).flatMap fun i => change ++ [.run i true, .run i true, .run i true, .run i false]
    (exec [chars! "e"] calls).launched.length = n ∧ (exec [chars! "e"] calls).running = [] := by
  intro change calls
  have key : ∀ n, ∃ p : List Launch, p.length = n ∧
      exec [chars! "e"] ((List.range n).flatMap fun i => change ++ [.run i true, .run i true, .run i true, .run i false]) =
        ⟨[chars! "e"], [], List.replicate n (.done (chars! "s") .failed), p⟩ := by
    intro n
    induction n with
    | zero => exact ⟨[], rfl, rfl⟩
    | succ n ih =>
      obtain ⟨p, hp, he⟩ := ih
      refine ⟨p ++ [⟨chars! "s", [chars! "e"]⟩], by simp [hp], ?_⟩
      rw [List.range_succ, List.flatMap_append, exec, List.foldl_append]
      rw [exec] at he
      rw [he]
      have e1 : ∀ (t u : Task), (List.replicate n (Task.done (chars! "s") .failed) ++ [t]).set n u =
          List.replicate n (Task.done (chars! "s") .failed) ++ [u] := by
        intro t u
        rw [List.set_append]
        simp
      have e2 : ∀ (t : Task), (List.replicate n (Task.done (chars! "s") .failed) ++ [t])[n]? = some t := by
        intro t
        rw [List.getElem?_append_right (by simp)]
        simp
      have e3 : isAllowed ⟨[chars! "e"], [], List.replicate n (.done (chars! "s") .failed) ++ [.check (chars! "s") [chars! "e"]], p⟩
          (chars! "e") = true := rfl
      simp only [change, List.flatMap_cons, List.flatMap_nil, List.append_nil, List.cons_append, List.nil_append,
        List.foldl_cons, List.foldl_nil, act, step, e1, e2, isRunning, List.any_nil, Bool.false_eq_true, if_false,
        List.head?_cons, e3, if_true, finished, List.replicate_succ']
  obtain ⟨p, hp, he⟩ := key n
  show (exec _ calls).launched.length = n ∧ _
  have : exec [chars! "e"] calls = ⟨[chars! "e"], [], List.replicate n (.done (chars! "s") .failed), p⟩ := he
  rw [this]
  exact ⟨hp, rfl⟩

/-! ## The hypotheses are met -/

/-- Two schemas, one of which is asked for twice, one call after the other. -/
def launchRun : List Label :=
  [.request (chars! "s") [chars! "e", chars! "-v"], .request (chars! "t") [chars! "f"], .run 0 true, .run 1 true,
   .run 1 true, .run 0 true, .run 0 true, .run 0 true, .run 0 true, .allow (chars! "f"),
   .request (chars! "s") [chars! "e", chars! "-v"], .run 2 true, .request (chars! "t") [chars! "f"], .run 3 true,
   .run 3 true, .run 3 true]

example : (exec [chars! "e"] launchRun).launched = [⟨chars! "s", [chars! "e", chars! "-v"]⟩, ⟨chars! "t", [chars! "f"]⟩] ∧
    .done (chars! "t") (.notAllowed (chars! "f")) ∈ (exec [chars! "e"] launchRun).tasks ∧
    .done (chars! "s") .running ∈ (exec [chars! "e"] launchRun).tasks := by decide +kernel

/-- A run-time check of `OneByOne`. -/
def oneByOneCheck (m : Manager) : List Label → Bool
  | [] => true
  | .request id launch :: l =>
    (m.tasks.all fun t => callFor t != some id) && oneByOneCheck (act m (.request id launch)) l
  | .allow c :: l => oneByOneCheck (act m (.allow c)) l
  | .run i ok :: l => oneByOneCheck (act m (.run i ok)) l

theorem oneByOneCheck_sound (config : List (List Char)) : ∀ (l l' : List Label), oneByOneCheck (exec config l') l = true →
    ∀ before id launch rest, l = before ++ .request id launch :: rest →
      ∀ t ∈ (exec config (l' ++ before)).tasks, callFor t ≠ some id
  | [], _, _, before, _, _, _, hl => by simp at hl
  | a :: l, l', h, before, id, launch, rest, hl => by
    have hnext : oneByOneCheck (exec config (l' ++ [a])) l = true := by
      rw [execExt_snoc]
      cases a with
      | request _ _ => simp only [oneByOneCheck, Bool.and_eq_true] at h; exact h.2
      | allow _ => exact h
      | run _ _ => exact h
    cases before with
    | nil =>
      simp only [List.nil_append, List.cons.injEq] at hl
      obtain ⟨rfl, rfl⟩ := hl
      simp only [oneByOneCheck, Bool.and_eq_true, List.all_eq_true] at h
      intro t ht
      rw [List.append_nil] at ht
      simpa using h.1 t ht
    | cons b before =>
      simp only [List.cons_append, List.cons.injEq] at hl
      obtain ⟨rfl, rfl⟩ := hl
      have := oneByOneCheck_sound config _ (l' ++ [a]) hnext before id launch rest rfl
      rwa [List.append_assoc] at this

example : OneByOne [chars! "e"] launchRun ∧ ∀ i, .run i false ∉ launchRun := by
  refine ⟨fun before id launch rest hl => oneByOneCheck_sound [chars! "e"] launchRun [] rfl before id launch rest hl, ?_⟩
  intro i hi
  simp [launchRun] at hi

end Styx.Props
