import Verif.Cst.Fuel
import Verif.Props.Tokenizer

/-! # Property theorems C26, C27: the concrete syntax tree -/

namespace Styx.Props

open Styx Styx.Spec Styx.Cst

/-- **C27**.  For every source the parser for concrete syntax trees finishes (the number of steps
that nest is bounded by a multiple of the length of the source, and more make no difference), and
every token of the source is a leaf of the tree, in order and exactly once: a chain of tags is the
leaves of its parts, and nothing else is in the tree except possibly an empty end-of-file leaf after
everything. -/
theorem C27_cst_terminates (s : List Char) :
    (∀ n ≥ 8 * s.length + 32, parseFuel n s = some (Cst.parse s)) ∧
    ∃ children l e, (Cst.parse s).green = .node .DOCUMENT children ∧
      TokensLeaves (tokenize s) l ∧ (e = [] ∨ e = [(.EOF, [])]) ∧
      leaves (Cst.parse s).green = l ++ e := by
  obtain ⟨g, st, h, hp, ⟨pre, hpre, hl⟩, he⟩ := parse_spec s
  have hf : parseFuel (8 * s.length + 32) s = some (Cst.parse s) := by
    simp [parseFuel, h, hp]
  refine ⟨fun n hn => parseFuel_mono s hn hf, ?_⟩
  have hk : TagsOk (tokenIter s) := by
    intro t ht hk
    rcases List.mem_append.mp ht with ht | ht
    · have := C04_kind_text s t ht
      rwa [hk] at this
    · simp only [List.mem_singleton] at ht
      subst ht
      cases hk
  have hl := hl hk
  have hne : ∀ t ∈ tokenize s, t.kind ≠ .eof := by
    obtain ⟨n, _, h1, _, h3⟩ := C03_tokenizer_terminates s
    intro t ht
    rw [h3] at ht
    obtain ⟨m, hm, rfl⟩ := List.mem_map.mp ht
    exact h1 m (by simpa using hm)
  have hst : st.toks = [] ∨ ∃ t, st.toks = [t] ∧ pre = tokenize s := by
    cases hts : st.toks with
    | nil => left; rfl
    | cons t ts =>
      right
      have hte : t.kind = .eof := by simpa [St.atEof, St.peek, hts] using he
      rw [hts] at hpre
      simp only [tokenIter] at hpre
      rcases List.append_eq_append_iff.mp hpre with ⟨a, h1, h2⟩ | ⟨a, h1, h2⟩
      · cases a with
        | nil =>
          simp only [List.nil_append, List.append_nil] at h1 h2
          obtain ⟨rfl, rfl⟩ := List.cons_eq_cons.mp h2
          exact ⟨_, rfl, h1⟩
        | cons x a => simp at h2
      · cases a with
        | nil =>
          simp only [List.nil_append, List.append_nil] at h1 h2
          obtain ⟨rfl, rfl⟩ := List.cons_eq_cons.mp h2
          exact ⟨_, rfl, h1.symm⟩
        | cons x a =>
          obtain ⟨rfl, _⟩ := List.cons_eq_cons.mp h2
          exact absurd hte (hne t (by rw [h1]; simp))
  rcases hst with hst | ⟨t, hst, rfl⟩
  · simp only [hst, List.append_nil] at hpre
    rw [← hpre] at hl
    obtain ⟨l, l', h1, h2, h3⟩ : ∃ l l', TokensLeaves (tokenize s) l ∧ l' = [(SyntaxKind.EOF, [])] ∧
        leavesL g = l ++ l' := by
      have gen : ∀ (ts : List Token) (x : Token), x.kind = .eof → ∀ l, TokensLeaves (ts ++ [x]) l →
          ∃ l₁, TokensLeaves ts l₁ ∧ l = l₁ ++ [(SyntaxKind.EOF, x.text)] := by
        intro ts x hx
        induction ts with
        | nil =>
          intro l hl
          cases hl with
          | cons h1 h2 =>
            cases h2
            cases h1 with
            | one _ => exact ⟨[], .nil, by simp [hx, SyntaxKind.ofToken]⟩
            | chain n ns hk => rw [hx] at hk; cases hk
        | cons y ts ih =>
          intro l hl
          cases hl with
          | cons h1 h2 =>
            obtain ⟨l₁, h3, h4⟩ := ih _ h2
            exact ⟨_, .cons h1 h3, by rw [h4]; simp⟩
      obtain ⟨l₁, h1, h2⟩ := gen _ _ (by rfl) _ hl
      exact ⟨l₁, _, h1, rfl, h2⟩
    exact ⟨g, l, l', by rw [hp], h1, .inr h2, by rw [hp]; simp [leaves, h3]⟩
  · exact ⟨g, leavesL g, [], by rw [hp], hl, .inl rfl, by rw [hp]; simp [leaves]⟩

theorem chain_text (ns : List (List Char)) :
    ((ns.map (fun m => [(SyntaxKind.SLASH, ['/']), (SyntaxKind.TAG_TOKEN, '@' :: m)])).flatten).flatMap
      (·.2) = (ns.map (['/', '@'] ++ ·)).flatten := by
  induction ns with
  | nil => rfl
  | cons m ns ih => simpa [List.flatMap_append] using ih

theorem TokensLeaves_text {ts : List Token} {l : List (SyntaxKind × List Char)} (h : TokensLeaves ts l) :
    l.flatMap (·.2) = ts.flatMap (·.text) := by
  induction h with
  | nil => rfl
  | cons h1 _ ih =>
    rw [List.flatMap_append, ih, List.flatMap_cons]
    congr 1
    cases h1 with
    | one _ => simp
    | chain n ns _ hs _ _ =>
      rw [hs, List.flatMap_cons, chain_text]

mutual
theorem leaves_text : (g : Green) → (leaves g).flatMap (·.2) = g.text
  | .token k t => by simp [leaves, Green.text]
  | .node k cs => by rw [leaves, Green.text]; exact leavesL_text cs
theorem leavesL_text : (gs : List Green) → (leavesL gs).flatMap (·.2) = Green.texts gs
  | [] => rfl
  | g :: gs => by rw [leavesL, Green.texts, List.flatMap_append, leaves_text g, leavesL_text gs]
end

/-- **C26**.  The text of the concrete syntax tree – the texts of its leaves, concatenated – is the
source, for every source, well-formed or not. -/
theorem C26_cst_lossless (s : List Char) :
    (leaves (Cst.parse s).green).flatMap (·.2) = s ∧ (Cst.parse s).green.text = s := by
  obtain ⟨_, g, l, e, _, h1, h2, h3⟩ := C27_cst_terminates s
  have : (leaves (Cst.parse s).green).flatMap (·.2) = s := by
    rw [h3, List.flatMap_append, TokensLeaves_text h1, C01_tokenize_lossless]
    rcases h2 with rfl | rfl <;> simp
  exact ⟨this, by rw [← leaves_text]; exact this⟩

/-- A source with errors, an attribute, a chain of tags, a heredoc, comments and an unclosed object:
its tree has 34 leaves. -/
example : (leaves (Cst.parse (chars! "a @t/@u{x>1 y >,} }\n/// d\nb <<E\n q\nE\n// c\n{ \"é\" (1")).green).length = 34 ∧
    (Cst.parse (chars! "a @t/@u{x>1 y >,} }\n/// d\nb <<E\n q\nE\n// c\n{ \"é\" (1")).errors.length = 6 := by
  decide +kernel

theorem leafText_ofToken {k : TokenKind} {t : List Char} (hk : k ≠ .tag) (h : KindText k t) :
    LeafText (SyntaxKind.ofToken k) t := by
  cases k <;> simp only [KindText, SyntaxKind.ofToken, LeafText] at h ⊢ <;> try exact h
  · exact absurd rfl hk
  · obtain ⟨n, body, rfl, -⟩ := h
    exact ⟨n, body, rfl⟩
  · obtain ⟨d, lang, nl, rfl, hd, hl, hn⟩ := h
    refine ⟨d, lang ++ nl, by simp, hd, ?_⟩
    intro c r' e
    rcases hl with rfl | ⟨l, rfl, -⟩
    · rcases hn with rfl | rfl | rfl | rfl <;> simp at e <;> simp [← e.1]
    · simp only [List.cons_append, List.cons.injEq] at e
      exact .inl e.1.symm

/-- The names in a chain of tags have no slash, so there is one way to cut it. -/
theorem chain_unique : ∀ (ns ms : List (List Char)) (n m : List Char), '/' ∉ n → '/' ∉ m →
    (∀ x ∈ ns, '/' ∉ x) → (∀ x ∈ ms, '/' ∉ x) →
    n ++ (ns.map (['/', '@'] ++ ·)).flatten = m ++ (ms.map (['/', '@'] ++ ·)).flatten → n = m ∧ ns = ms := by
  have cut : ∀ (n m : List Char) (a b : List Char), '/' ∉ n → '/' ∉ m → (a = [] ∨ ∃ r, a = '/' :: r) →
      (b = [] ∨ ∃ r, b = '/' :: r) → n ++ a = m ++ b → n = m ∧ a = b := by
    intro n
    induction n with
    | nil =>
      intro m a b _ hm ha hb e
      cases m with
      | nil => exact ⟨rfl, e⟩
      | cons c m =>
        rcases ha with rfl | ⟨r, rfl⟩
        · simp at e
        · simp only [List.nil_append, List.cons_append, List.cons.injEq] at e
          exact absurd (by simp [← e.1]) hm
    | cons c n ih =>
      intro m a b hn hm ha hb e
      cases m with
      | nil =>
        rcases hb with rfl | ⟨r, rfl⟩
        · simp at e
        · simp only [List.nil_append, List.cons_append, List.cons.injEq] at e
          exact absurd (by simp [e.1]) hn
      | cons d m =>
        simp only [List.cons_append, List.cons.injEq] at e
        obtain ⟨rfl, rfl⟩ := ih m a b (fun h => hn (by simp [h])) (fun h => hm (by simp [h])) ha hb e.2
        exact ⟨by rw [e.1], rfl⟩
  have tail : ∀ ns : List (List Char), (ns.map (['/', '@'] ++ ·)).flatten = [] ∨
      ∃ r, (ns.map (['/', '@'] ++ ·)).flatten = '/' :: r := by
    intro ns
    cases ns with
    | nil => exact .inl rfl
    | cons x ns => exact .inr ⟨_, rfl⟩
  intro ns
  induction ns with
  | nil =>
    intro ms n m hn hm _ _ e
    obtain ⟨h1, h2⟩ := cut _ _ _ _ hn hm (tail []) (tail ms) e
    cases ms with
    | nil => exact ⟨h1, rfl⟩
    | cons x ms => simp at h2
  | cons y ns ih =>
    intro ms n m hn hm hns hms e
    obtain ⟨h1, h2⟩ := cut _ _ _ _ hn hm (tail (y :: ns)) (tail ms) e
    cases ms with
    | nil => simp at h2
    | cons x ms =>
      simp only [List.map_cons, List.flatten_cons, List.cons_append, List.nil_append, List.cons.injEq, true_and] at h2
      obtain ⟨h3, h4⟩ := ih ms y x (hns y (by simp)) (hms x (by simp)) (fun z hz => hns z (by simp [hz]))
        (fun z hz => hms z (by simp [hz])) h2
      exact ⟨h1, by rw [h3, h4]⟩

theorem tagName_noSlash {n : List Char} (h : TagName n) : '/' ∉ n := by
  obtain ⟨c, r, rfl, h1, h2⟩ := h
  intro hm
  rcases List.mem_cons.1 hm with rfl | hm
  · rcases h1 with h1 | h1
    · exact absurd h1 (by decide)
    · exact absurd h1 (by decide)
  · rcases h2 _ hm with h | h | h <;> exact absurd h (by decide)

/-- **C26** (kinds).  The text of every leaf is what its kind says: a leaf of kind `COMMA` is a comma, one of
kind `HEREDOC_END` is the closing line of a heredoc, and so on. -/
theorem C26_kinds (s : List Char) : ∀ x ∈ leaves (Cst.parse s).green, LeafText x.1 x.2 := by
  obtain ⟨_, g, l, e, _, h1, h2, h3⟩ := C27_cst_terminates s
  rw [h3]
  have key : ∀ (ts : List Token) l, (∀ t ∈ ts, KindText t.kind t.text) → TokensLeaves ts l →
      ∀ x ∈ l, LeafText x.1 x.2 := by
    intro ts l hk h
    induction h with
    | nil => simp
    | cons h1 _ ih =>
      rename_i t ts l ls _
      have hkt := hk t (by simp)
      intro x hx
      rcases List.mem_append.1 hx with hx | hx
      · cases h1 with
        | one hne =>
          simp only [List.mem_singleton] at hx
          subst hx
          exact leafText_ofToken hne hkt
        | chain n ns htag htext hn hns =>
          rw [htag, htext] at hkt
          obtain ⟨m, ms, e, hm, hms⟩ := hkt
          simp only [List.cons_append, List.cons.injEq, true_and] at e
          obtain ⟨rfl, rfl⟩ := chain_unique ns ms n m hn (tagName_noSlash hm) hns
            (fun y hy => tagName_noSlash (hms y hy)) e
          rcases List.mem_cons.1 hx with rfl | hx
          · exact ⟨n, rfl, hm⟩
          · obtain ⟨y, hy, hx⟩ := List.mem_flatten.1 hx
            obtain ⟨z, hz, rfl⟩ := List.mem_map.1 hy
            simp only [List.mem_cons, List.not_mem_nil, or_false] at hx
            rcases hx with rfl | rfl
            · rfl
            · exact ⟨z, rfl, hms z hz⟩
      · exact ih (fun t' ht' => hk t' (by simp [ht'])) x hx
  intro x hx
  rcases List.mem_append.1 hx with hx | hx
  · exact key _ _ (C04_kind_text s) h1 x hx
  · rcases h2 with rfl | rfl
    · cases hx
    · simp only [List.mem_singleton] at hx
      subst hx
      rfl

/-- The kinds of the leaves of a heredoc. -/
example : (leaves (Cst.parse (chars! "h <<E,l\n z\n E\n")).green).map (·.1) =
    [.BARE_SCALAR, .WHITESPACE, .HEREDOC_START, .HEREDOC_CONTENT, .HEREDOC_END, .NEWLINE] := by decide +kernel

end Styx.Props
