import Verif.Embed.Spec

/-!
# Lemmas about the extraction of embedded schemas
-/

namespace Styx.Embed

/-! UTF-8. -/

theorem decode_encode (s : List Char) : decode (encode s) = some s := by
  have : (ByteArray.mk (encode s).toArray) = s.utf8Encode := by
    rw [List.utf8Encode, encode]
    simp [List.data_toByteArray, ByteArray.ext_iff]
  rw [decode, this, List.utf8Decode?_utf8Encode]
  simp

theorem encode_decode {b : Bytes} {s : List Char} (h : decode b = some s) : encode s = b := by
  simp only [decode, Option.map_eq_some_iff] at h
  obtain ⟨a, h, rfl⟩ := h
  have := @ByteArray.utf8Encode_get_utf8Decode? (ByteArray.mk b.toArray) (by rw [h]; rfl)
  simp only [h, Option.get_some] at this
  have h2 : (a.toList.utf8Encode).data.toList = b := by rw [this]
  rw [← h2, List.utf8Encode, List.data_toByteArray]
  rfl

/-! Little-endian numbers. -/

theorem littleEndian_unique : ∀ {b : Bytes} {m n : Nat}, LittleEndian b m → LittleEndian b n → m = n
  | [], _, _, h, g => by rw [LittleEndian] at h g; omega
  | _ :: bs, _, _, ⟨a, h, h'⟩, ⟨c, g, g'⟩ => by
    have := littleEndian_unique h g
    omega

theorem le32_littleEndian {n : Nat} (h : n < 2 ^ 32) : LittleEndian (le32 n) n := by
  refine ⟨n / 256, ⟨n / 65536, ⟨n / 16777216, ⟨0, rfl, ?_⟩, ?_⟩, ?_⟩, ?_⟩ <;>
    simp only [UInt8.toNat_ofNat'] <;> omega

/-! Slices. -/

theorem byteAt_ok {data : Bytes} {i : Nat} (h : i < data.length) : byteAt data i = .ok data[i] := by
  rw [byteAt, List.getElem?_eq_getElem h]

theorem slice_append (pre mid post : Bytes) :
    slice (pre ++ mid ++ post) pre.length (pre.length + mid.length) = .ok mid := by
  rw [slice, if_pos (by simp)]
  simp [List.append_assoc]

theorem slice_ok {data : Bytes} {a n : Nat} (h : a + n ≤ data.length) :
    ∃ pre mid post, data = pre ++ mid ++ post ∧ pre.length = a ∧ mid.length = n ∧
      slice data a (a + n) = .ok mid := by
  refine ⟨data.take a, (data.drop a).take n, data.drop (a + n), ?_, ?_, ?_, ?_⟩
  · rw [List.append_assoc, ← List.drop_drop, List.take_append_drop, List.take_append_drop]
  · rw [List.length_take]; omega
  · rw [List.length_take, List.length_drop]; omega
  · rw [slice, if_pos (by omega)]; congr 1; congr 1; omega

theorem readU32_append (pre post : Bytes) (a b c d : UInt8) :
    readU32 (pre ++ [a, b, c, d] ++ post) pre.length =
      .ok (a.toNat + 256 * b.toNat + 65536 * c.toNat + 16777216 * d.toNat) := by
  have h : ∀ k (_ : k < 4), (pre ++ [a, b, c, d] ++ post)[pre.length + k]? = [a, b, c, d][k]? := by
    intro k hk
    rw [List.append_assoc, List.getElem?_append_right (by omega), List.getElem?_append_left (by simp; omega)]
    congr 1; omega
  have h0 := h 0 (by omega)
  rw [Nat.add_zero] at h0
  simp only [readU32, byteAt, h0, h 1 (by omega), h 2 (by omega), h 3 (by omega)]
  rfl

theorem readU32_le (pre len post : Bytes) (hl : len.length = 4) :
    ∃ n, readU32 (pre ++ len ++ post) pre.length = .ok n ∧ LittleEndian len n := by
  match len, hl with
  | [a, b, c, d], _ =>
    refine ⟨_, readU32_append pre post a b c d, ?_⟩
    exact ⟨b.toNat + 256 * (c.toNat + 256 * d.toNat), ⟨c.toNat + 256 * d.toNat, ⟨d.toNat, ⟨0, rfl, by omega⟩,
      by omega⟩, by omega⟩, by omega⟩

theorem readU16_le (pre len post : Bytes) (hl : len.length = 2) :
    ∃ n, readU16 (pre ++ len ++ post) pre.length = .ok n ∧ LittleEndian len n := by
  match len, hl with
  | [a, b], _ =>
    refine ⟨a.toNat + 256 * b.toNat, ?_, ⟨b.toNat, ⟨0, rfl, by omega⟩, by omega⟩⟩
    have h : ∀ k (_ : k < 2), (pre ++ [a, b] ++ post)[pre.length + k]? = [a, b][k]? := by
      intro k hk
      rw [List.append_assoc, List.getElem?_append_right (by omega), List.getElem?_append_left (by simp; omega)]
      congr 1; omega
    have h0 := h 0 (by omega)
    rw [Nat.add_zero] at h0
    simp only [readU16, byteAt, h0, h 1 (by omega)]
    rfl

theorem split_at {data : Bytes} {a n : Nat} (h : a + n ≤ data.length) :
    ∃ pre mid post, data = pre ++ mid ++ post ∧ pre.length = a ∧ mid.length = n := by
  obtain ⟨pre, mid, post, h1, h2, h3, _⟩ := slice_ok h
  exact ⟨pre, mid, post, h1, h2, h3⟩

/-! Records. -/

/-- The reader on a header of well-sized parts. -/
theorem readRecord_parts (C : Codec) (pre len clen hash rest : Bytes) (hl : len.length = 4)
    (hc : clen.length = 4) (hh : hash.length = 32) :
    ∃ l c, LittleEndian len l ∧ LittleEndian clen c ∧
    readRecord C (pre ++ (len ++ clen ++ hash ++ rest)) pre.length =
      if rest.length < c then .error .truncated
      else match C.decompress (rest.take c) with
        | none => .error .decompressFailed
        | some d => if d.length ≠ l then .error .decompressFailed
          else if C.hash d ≠ hash then .error .hashMismatch
          else match decode d with
            | none => .error .invalidUtf8
            | some s => .ok (s, pre.length + 40 + c) := by
  obtain ⟨l, h1, h2⟩ := readU32_le pre len (clen ++ hash ++ rest) hl
  obtain ⟨c, h3, h4⟩ := readU32_le (pre ++ len) clen (hash ++ rest) hc
  have h5 := slice_append (pre ++ len ++ clen) hash rest
  refine ⟨l, c, h2, h4, ?_⟩
  have e1 : pre ++ (len ++ clen ++ hash ++ rest) = pre ++ len ++ (clen ++ hash ++ rest) := by simp
  have e2 : pre ++ (len ++ clen ++ hash ++ rest) = pre ++ len ++ clen ++ (hash ++ rest) := by simp
  have e3 : pre ++ (len ++ clen ++ hash ++ rest) = pre ++ len ++ clen ++ hash ++ rest := by simp
  have n1 : (pre ++ len).length = pre.length + 4 := by simp [hl]
  have n2 : (pre ++ len ++ clen).length = pre.length + 8 := by simp [hl, hc]
  rw [← e1] at h1
  rw [← e2, n1] at h3
  rw [← e3, n2, hh] at h5
  have hlen : (pre ++ (len ++ clen ++ hash ++ rest)).length = pre.length + 40 + rest.length := by
    simp [hl, hc, hh]; omega
  have e4 : pre ++ (len ++ clen ++ hash ++ rest) = (pre ++ len ++ clen ++ hash) ++ rest.take c ++ rest.drop c := by
    simp
  have n4 : (pre ++ len ++ clen ++ hash).length = pre.length + 40 := by simp [hl, hc, hh]
  rw [readRecord, if_neg (by omega), h1]
  simp only [bind, Except.bind, h3, h5, hlen]
  by_cases hr : rest.length < c
  · rw [if_pos (by omega), if_pos hr]
  · rw [if_neg (by omega), if_neg hr]
    have h6 := slice_append (pre ++ len ++ clen ++ hash) (rest.take c) (rest.drop c)
    rw [← e4, n4, List.length_take, Nat.min_eq_left (by omega)] at h6
    rw [h6]
    rfl

/-- A record is read back, whatever stands around it. -/
theorem readRecord_record {C : Codec} {s : List Char} {rec : Bytes} (h : RecordOf C s rec) (pre post : Bytes) :
    readRecord C (pre ++ rec ++ post) pre.length = .ok (s, (pre ++ rec).length) := by
  obtain ⟨len, clen, hash, comp, rfl, h1, h2, h3, h4, rfl, h6, h7⟩ := h
  obtain ⟨l, c, hl, hc, hr⟩ := readRecord_parts C pre len clen _ (comp ++ post) h1 h3 h6
  obtain rfl := littleEndian_unique h2 hl
  obtain rfl := littleEndian_unique h4 hc
  rw [show pre ++ (len ++ clen ++ C.hash (encode s) ++ comp) ++ post =
    pre ++ (len ++ clen ++ C.hash (encode s) ++ (comp ++ post)) by simp, hr, if_neg (by simp)]
  simp only [List.take_left, h7, ne_eq, not_true_eq_false, if_false, decode_encode]
  congr 2
  simp [h1, h3, h6]; omega

/-- What the reader returns is a record. -/
theorem readRecord_ok {C : Codec} {data : Bytes} {pos : Nat} {s : List Char} {stop : Nat}
    (h : readRecord C data pos = .ok (s, stop)) :
    ∃ pre rec post, data = pre ++ rec ++ post ∧ pre.length = pos ∧ (pre ++ rec).length = stop ∧ RecordOf C s rec := by
  by_cases hlen : pos + 40 ≤ data.length
  · obtain ⟨pre, mid, rest, rfl, rfl, hm⟩ := split_at hlen
    obtain ⟨p1, len, p2, rfl, h1, h2⟩ := split_at (data := mid) (a := 0) (n := 4) (by omega)
    obtain rfl := List.length_eq_zero_iff.mp h1
    simp only [List.nil_append, List.length_append] at hm h
    obtain ⟨p1, clen, hash, rfl, h3, h4⟩ := split_at (data := p2) (a := 0) (n := 4) (by omega)
    obtain rfl := List.length_eq_zero_iff.mp h3
    simp only [List.nil_append, List.length_append] at hm h
    have hh : hash.length = 32 := by omega
    obtain ⟨l, c, hl, hc, hr⟩ := readRecord_parts C pre len clen hash rest h2 h4 hh
    rw [show pre ++ (len ++ (clen ++ hash)) ++ rest = pre ++ (len ++ clen ++ hash ++ rest) by simp, hr] at h
    split at h
    · cases h
    · next hlt =>
      split at h
      · cases h
      · next d hd =>
        split at h
        · cases h
        · next hdl =>
          split at h
          · cases h
          · next hdh =>
            split at h
            · cases h
            · next s' hs' =>
              simp only [Except.ok.injEq, Prod.mk.injEq] at h
              obtain ⟨rfl, rfl⟩ := h
              have he := encode_decode hs'
              refine ⟨pre, len ++ clen ++ hash ++ rest.take c, rest.drop c, by simp, rfl, ?_,
                len, clen, hash, rest.take c, rfl, h2, ?_, h4, ?_, ?_, hh, ?_⟩
              · simp [h2, h4, hh]; omega
              · rw [he]; rw [Decidable.not_not.mp hdl]; exact hl
              · rw [List.length_take, Nat.min_eq_left (by omega)]; exact hc
              · rw [he]; exact (Decidable.not_not.mp hdh).symm
              · rw [he]; exact hd
  · rw [readRecord, if_pos (by omega)] at h; cases h

theorem readRecord_noPanic (C : Codec) (data : Bytes) (pos : Nat) : readRecord C data pos ≠ .error .panic := by
  intro h
  by_cases hlen : pos + 40 ≤ data.length
  · obtain ⟨pre, mid, rest, rfl, rfl, hm⟩ := split_at hlen
    obtain ⟨p1, len, p2, rfl, h1, h2⟩ := split_at (data := mid) (a := 0) (n := 4) (by omega)
    obtain rfl := List.length_eq_zero_iff.mp h1
    simp only [List.nil_append, List.length_append] at hm h
    obtain ⟨p1, clen, hash, rfl, h3, h4⟩ := split_at (data := p2) (a := 0) (n := 4) (by omega)
    obtain rfl := List.length_eq_zero_iff.mp h3
    simp only [List.nil_append, List.length_append] at hm h
    have hh : hash.length = 32 := by omega
    obtain ⟨l, c, hl, hc, hr⟩ := readRecord_parts C pre len clen hash rest h2 h4 hh
    rw [show pre ++ (len ++ (clen ++ hash)) ++ rest = pre ++ (len ++ clen ++ hash ++ rest) by simp, hr] at h
    repeat' split at h
    all_goals cases h
  · rw [readRecord, if_pos (by omega)] at h; cases h

theorem readRecords_ok {C : Codec} {data : Bytes} : ∀ {count pos : Nat} {ss : List (List Char)},
    pos ≤ data.length → readRecords C data count pos = .ok ss →
    ∃ (pre post : Bytes) (recs : List (List Char × Bytes)), data = pre ++ recs.flatMap (·.2) ++ post ∧
      pre.length = pos ∧ recs.length = count ∧ (∀ r ∈ recs, RecordOf C r.1 r.2) ∧ recs.map (·.1) = ss
  | 0, pos, ss, hp, h => by
    obtain rfl : [] = ss := by simpa [readRecords] using h
    exact ⟨data.take pos, data.drop pos, [], by simp, by simp [hp], rfl, by simp, rfl⟩
  | count + 1, pos, ss, hp, h => by
    simp only [readRecords, bind, Except.bind] at h
    split at h
    · cases h
    · next r hr =>
      obtain ⟨s, stop⟩ := r
      split at h
      · cases h
      · next rest hrest =>
        obtain rfl : s :: rest = ss := by simpa using h
        obtain ⟨pre, rec, post, hd, h1, h2, h3⟩ := readRecord_ok hr
        obtain ⟨pre', post', recs, hd', h1', h2', h3', h4'⟩ := readRecords_ok (by
          have : data.length = (pre ++ rec ++ post).length := by rw [← hd]
          simp only [List.length_append] at this h2; omega) hrest
        have hpre : pre' = pre ++ rec := by
          have : pre'.length = (pre ++ rec).length := by rw [h1', h2]
          rw [hd', List.append_assoc] at hd
          exact List.append_inj_left hd this
        subst hpre
        refine ⟨pre, post', (s, rec) :: recs, by rw [hd']; simp, h1, by simp [h2'], ?_, by simp [h4']⟩
        intro r hr
        rcases List.mem_cons.mp hr with rfl | hr
        · exact h3
        · exact h3' r hr

theorem readRecords_noPanic (C : Codec) (data : Bytes) : ∀ count pos : Nat,
    readRecords C data count pos ≠ .error .panic
  | 0, pos => by simp [readRecords]
  | count + 1, pos => by
    intro h
    simp only [readRecords, bind, Except.bind] at h
    split at h
    · next e he => cases h; exact readRecord_noPanic _ _ _ he
    · split at h
      · next e he => cases h; exact readRecords_noPanic _ _ _ _ he
      · cases h

theorem tryExtractV2_noPanic (C : Codec) (data : Bytes) (p : Nat) : tryExtractV2 C data p ≠ .error .panic := by
  intro h
  simp only [tryExtractV2, bind, Except.bind] at h
  split at h
  · next e he => cases h; exact readRecord_noPanic _ _ _ he
  · cases h

theorem tryExtractV1_noPanic (C : Codec) (data : Bytes) (p : Nat) : tryExtractV1 C data p ≠ .error .panic := by
  intro h
  simp only [tryExtractV1] at h
  split at h
  · cases h
  · next hlen =>
    obtain ⟨pre, mid, rest, rfl, hp, hm⟩ := split_at (data := data) (a := p + magicV1.length) (n := 2) (by omega)
    obtain ⟨n, hn, _⟩ := readU16_le pre mid rest hm
    rw [hp] at hn
    simp only [hn, bind, Except.bind] at h
    exact readRecords_noPanic _ _ _ _ h

/-! The search. -/

/-- The magic bytes stand at position `i`, as a test. -/
def occ (magic data : Bytes) (i : Nat) : Bool := (data.drop i).take magic.length = magic

theorem occ_iff {magic data : Bytes} {i : Nat} (hi : i ≤ data.length) :
    occ magic data i = true ↔ OccursAt magic data i := by
  simp only [occ, decide_eq_true_eq]
  constructor
  · intro h
    refine ⟨data.take i, (data.drop i).drop magic.length, ?_, by rw [List.length_take]; omega⟩
    have h1 := List.take_append_drop magic.length (data.drop i)
    rw [h] at h1
    rw [List.append_assoc, h1, List.take_append_drop]
  · rintro ⟨pre, post, rfl, rfl⟩
    simp [List.append_assoc]

theorem OccursAt.lt {magic data : Bytes} {i : Nat} (h : OccursAt magic data i) : i + magic.length ≤ data.length := by
  obtain ⟨pre, post, rfl, rfl⟩ := h
  simp

theorem windowsPosition_spec {magic : Bytes} (hm : magic ≠ []) : ∀ data : Bytes,
    match windowsPosition magic data with
    | none => ∀ i, occ magic data i = false
    | some k => occ magic data k = true ∧ k < data.length ∧ ∀ i, i < k → occ magic data i = false
  | [] => by
    have : 0 < magic.length := List.length_pos_iff.mpr hm
    rw [windowsPosition, if_neg (by omega)]
    intro i
    simp only [occ, List.drop_nil, List.take_nil, decide_eq_false_iff_not]
    exact fun h => hm h.symm
  | b :: bs => by
    have hpos : 0 < magic.length := List.length_pos_iff.mpr hm
    rw [windowsPosition]
    by_cases h1 : (b :: bs).length < magic.length
    · rw [if_pos h1]
      intro i
      simp only [occ, decide_eq_false_iff_not]
      intro h
      have := congrArg List.length h
      rw [List.length_take, List.length_drop] at this
      omega
    · rw [if_neg h1]
      by_cases h2 : (b :: bs).take magic.length = magic
      · rw [if_pos h2]
        exact ⟨by simp [occ, h2], by simp, fun i hi => by omega⟩
      · rw [if_neg h2]
        have ih := windowsPosition_spec hm bs
        cases hw : windowsPosition magic bs with
        | none =>
          rw [hw] at ih
          intro i
          cases i with
          | zero => simp [occ, h2]
          | succ i => have := ih i; simpa [occ] using this
        | some k =>
          rw [hw] at ih
          refine ⟨by simpa [occ] using ih.1, by simp; exact ih.2.1, ?_⟩
          intro i hi
          have hi : i < k + 1 := hi
          cases i with
          | zero => simp [occ, h2]
          | succ i => have := ih.2.2 i (by omega); simpa [occ] using this

theorem findMagic_none {magic data : Bytes} (hm : magic ≠ []) {start : Nat}
    (h : findMagic data start magic = none) : ∀ i, start ≤ i → i < data.length → occ magic data i = false := by
  intro i hi hlt
  rw [findMagic, if_neg (by omega), Option.map_eq_none_iff] at h
  have := windowsPosition_spec hm (data.drop start)
  rw [h] at this
  have := this (i - start)
  simp only [occ, List.drop_drop] at this ⊢
  rwa [show start + (i - start) = i by omega] at this

theorem findMagic_some {magic data : Bytes} (hm : magic ≠ []) {start pos : Nat}
    (h : findMagic data start magic = some pos) : start ≤ pos ∧ pos < data.length ∧
      occ magic data pos = true ∧ ∀ i, start ≤ i → i < pos → occ magic data i = false := by
  rw [findMagic] at h
  split at h
  · cases h
  · next hs =>
    simp only [Option.map_eq_some_iff] at h
    obtain ⟨k, hk, rfl⟩ := h
    have := windowsPosition_spec hm (data.drop start)
    rw [hk] at this
    obtain ⟨h1, h2, h3⟩ := this
    simp only [List.length_drop] at h2
    refine ⟨by omega, by omega, by simpa [occ, List.drop_drop] using h1, ?_⟩
    intro i hi hlt
    have := h3 (i - start) (by omega)
    simp only [occ, List.drop_drop] at this ⊢
    rwa [show start + (i - start) = i by omega] at this

/-- No part of the magic bytes begins again inside them. -/
def BorderFree (magic : Bytes) : Prop :=
  ∀ k, 0 < k → k < magic.length → magic.drop k ≠ magic.take (magic.length - k)

theorem magicV2_borderFree : BorderFree magicV2 := by
  have : ∀ k, k < 16 → 0 < k → magicV2.drop k ≠ magicV2.take (magicV2.length - k) := by decide
  exact fun k h1 h2 => this k h2 h1

theorem magicV1_borderFree : BorderFree magicV1 := by
  have : ∀ k, k < 16 → 0 < k → magicV1.drop k ≠ magicV1.take (magicV1.length - k) := by decide
  exact fun k h1 h2 => this k h2 h1

theorem noOverlap {magic data : Bytes} (hb : BorderFree magic) {i k : Nat} (h : occ magic data i = true)
    (hk : 0 < k) (hk' : k < magic.length) : occ magic data (i + k) = false := by
  rw [Bool.eq_false_iff]
  intro g
  simp only [occ, decide_eq_true_eq] at h g
  apply hb k hk hk'
  have h1 : magic.drop k = (data.drop (i + k)).take (magic.length - k) := by
    conv => lhs; rw [← h]
    rw [List.drop_take, List.drop_drop]
  have h2 : magic.take (magic.length - k) = (data.drop (i + k)).take (magic.length - k) := by
    conv => lhs; rw [← g]
    rw [List.take_take, List.length_take, List.length_drop]
    have := congrArg List.length h
    have g' := congrArg List.length g
    rw [List.length_take, List.length_drop] at this g'
    congr 1
    omega
  rw [h1, h2]

/-- The positions of the magic bytes from `start` on. -/
def occurrences (magic data : Bytes) (start : Nat) : List Nat :=
  (List.range' start (data.length - start)).filter (occ magic data)

theorem occurrences_step {magic data : Bytes} {start stop : Nat} (h : start ≤ stop)
    (hno : ∀ i, start ≤ i → i < stop → occ magic data i = false) :
    occurrences magic data start = occurrences magic data stop := by
  by_cases hs : stop ≤ data.length
  · have : List.range' start (data.length - start) =
        List.range' start (stop - start) ++ List.range' stop (data.length - stop) := by
      have := @List.range'_append_1 start (stop - start) (data.length - stop)
      rw [show start + (stop - start) = stop by omega,
        show (stop - start) + (data.length - stop) = data.length - start by omega] at this
      exact this.symm
    rw [occurrences, this, List.filter_append, List.filter_eq_nil_iff.mpr, List.nil_append, occurrences]
    intro i hi
    have := List.mem_range'_1.mp hi
    rw [hno i (by omega) (by omega)]; simp
  · have e : occurrences magic data stop = [] := by
      rw [occurrences, show data.length - stop = 0 by omega]; rfl
    rw [e, occurrences, List.filter_eq_nil_iff]
    intro i hi
    have := List.mem_range'_1.mp hi
    rw [hno i (by omega) (by omega)]; simp

theorem occurrences_cons {magic data : Bytes} {pos : Nat} (hlt : pos < data.length)
    (h : occ magic data pos = true) :
    occurrences magic data pos = pos :: occurrences magic data (pos + 1) := by
  rw [occurrences, show data.length - pos = (data.length - (pos + 1)) + 1 by omega, List.range'_succ,
    List.filter_cons_of_pos h, occurrences]

/-- The search reads at every occurrence, in order. -/
theorem scan_eq {α : Type} {magic data : Bytes} (hm : magic ≠ []) (hb : BorderFree magic)
    {extract : Nat → Except Fail α} (hp : ∀ p, extract p ≠ .error .panic) : ∀ {fuel start : Nat},
    data.length - start < fuel → scan data magic extract fuel start =
      some (.ok ((occurrences magic data start).filterMap fun p => (extract p).toOption))
  | 0, start, h => by omega
  | fuel + 1, start, h => by
    rw [scan]
    cases hf : findMagic data start magic with
    | none =>
      simp only
      rw [occurrences_step (stop := start + data.length) (by omega)]
      · rw [occurrences, show data.length - (start + data.length) = 0 by omega]; rfl
      · intro i hi _
        by_cases hl : i < data.length
        · exact findMagic_none hm hf i hi hl
        · simp only [occ, List.drop_eq_nil_of_le (Nat.le_of_not_lt hl), List.take_nil, decide_eq_false_iff_not]
          exact fun h => hm h.symm
    | some pos =>
      obtain ⟨h1, h2, h3, h4⟩ := findMagic_some hm hf
      simp only
      rw [occurrences_step h1 h4, occurrences_cons h2 h3]
      cases he : extract pos with
      | ok x =>
        have hpos : 0 < magic.length := List.length_pos_iff.mpr hm
        rw [scan_eq hm hb hp (by omega)]
        rw [occurrences_step (start := pos + 1) (stop := pos + magic.length) (by omega)]
        · simp [he, Except.toOption, Except.map]
        · intro i hi hlt
          have := noOverlap hb h3 (k := i - pos) (by omega) (by omega)
          rwa [show pos + (i - pos) = i by omega] at this
      | error e =>
        have hrec := scan_eq (data := data) hm hb hp (fuel := fuel) (start := pos + 1) (by omega)
        have : e ≠ .panic := fun h => hp pos (by rw [he, h])
        cases e with
        | panic => exact absurd rfl this
        | _ =>
          dsimp only
          rw [hrec, List.filterMap_cons_none (by rw [he]; rfl)]

theorem mem_occurrences {magic data : Bytes} (hm : magic ≠ []) {p : Nat} :
    p ∈ occurrences magic data 0 ↔ OccursAt magic data p := by
  have hpos : 0 < magic.length := List.length_pos_iff.mpr hm
  simp only [occurrences, List.mem_filter, List.mem_range'_1, Nat.sub_zero, Nat.zero_add, Nat.zero_le, true_and]
  constructor
  · rintro ⟨h1, h2⟩
    exact (occ_iff (by omega)).mp h2
  · intro h
    have := h.lt
    exact ⟨by omega, (occ_iff (by omega)).mpr h⟩

/-- What the extraction returns. -/
theorem extractSchemas_eq (C : Codec) (data : Bytes) {fuel : Nat} (hf : data.length < fuel) :
    extractSchemas C data fuel = some (
      let schemas := ((occurrences magicV2 data 0).filterMap fun p => (tryExtractV2 C data p).toOption) ++
        ((occurrences magicV1 data 0).filterMap fun p => (tryExtractV1 C data p).toOption).flatten
      if schemas.isEmpty then .error .notFound else .ok schemas) := by
  rw [extractSchemas, scan_eq (by decide) magicV2_borderFree (tryExtractV2_noPanic C data) (by omega),
    scan_eq (by decide) magicV1_borderFree (tryExtractV1_noPanic C data) (by omega)]
  rfl

theorem toOption_some {α : Type} {x : Except Fail α} {a : α} (h : x.toOption = some a) : x = .ok a := by
  cases x <;> simp [Except.toOption] at h; rw [h]

theorem tryExtractV2_ok {C : Codec} {data : Bytes} {p : Nat} {s : List Char} (ho : OccursAt magicV2 data p)
    (h : tryExtractV2 C data p = .ok s) : EmbeddedV2 C data s := by
  simp only [tryExtractV2, bind, Except.bind] at h
  split at h
  · cases h
  · next r hr =>
    obtain ⟨s', stop⟩ := r
    obtain rfl : s' = s := by simpa using h
    obtain ⟨pre, rec, post, hd, h1, _, h3⟩ := readRecord_ok hr
    obtain ⟨pre', post', hd', h1'⟩ := ho
    have : pre = pre' ++ magicV2 := by
      rw [hd', List.append_assoc pre rec post] at hd
      exact (List.append_inj_left hd (by simp [h1, h1'])).symm
    exact ⟨pre', rec, post, by rw [hd, this], h3⟩

theorem tryExtractV1_ok {C : Codec} {data : Bytes} {p : Nat} {ss : List (List Char)} (ho : OccursAt magicV1 data p)
    (h : tryExtractV1 C data p = .ok ss) : ∀ s ∈ ss, EmbeddedV1 C data s := by
  simp only [tryExtractV1] at h
  split at h
  · cases h
  · next hlen =>
    obtain ⟨pre, mid, rest, hd, hp, hm⟩ := split_at (data := data) (a := p + magicV1.length) (n := 2) (by omega)
    obtain ⟨n, hn, hle⟩ := readU16_le pre mid rest hm
    rw [hp, ← hd] at hn
    simp only [hn, bind, Except.bind] at h
    obtain ⟨pre', post', recs, hd', h1', h2', h3', h4'⟩ := readRecords_ok (by omega) h
    obtain ⟨q, q', hq, hq'⟩ := ho
    have e1 : pre = q ++ magicV1 := by
      rw [hq, List.append_assoc pre mid rest] at hd
      exact (List.append_inj_left hd (by simp [hp, hq'])).symm
    have e2 : pre' = pre ++ mid := by
      rw [hd, List.append_assoc pre'] at hd'
      exact (List.append_inj_left hd' (by simp [hp, hm, h1'])).symm
    intro s hs
    refine ⟨q, mid, post', recs, by rw [hd', e2, e1], hm, ?_, h3', by rw [h4']; exact hs⟩
    rw [h2']; exact hle

/-! Blobs are found. -/

theorem record_of_build {C : Codec} (hC : Lawful C) {s : List Char} (h1 : (encode s).length < 2 ^ 32)
    (h2 : (C.compress (encode s)).length < 2 ^ 32) : ∃ rec, buildBlob C s = magicV2 ++ rec ∧ RecordOf C s rec :=
  ⟨le32 (encode s).length ++ le32 (C.compress (encode s)).length ++ C.hash (encode s) ++ C.compress (encode s),
    by simp [buildBlob], _, _, _, _, rfl, rfl, le32_littleEndian h1, rfl, le32_littleEndian h2, rfl, hC.size _,
    hC.undo _⟩

theorem tryExtractV2_blob {C : Codec} (hC : Lawful C) {s : List Char} (h1 : (encode s).length < 2 ^ 32)
    (h2 : (C.compress (encode s)).length < 2 ^ 32) (pre post : Bytes) :
    tryExtractV2 C (pre ++ buildBlob C s ++ post) pre.length = .ok s := by
  obtain ⟨rec, he, hr⟩ := record_of_build hC h1 h2
  have := readRecord_record hr (pre ++ magicV2) post
  rw [tryExtractV2, he, show pre ++ (magicV2 ++ rec) ++ post = pre ++ magicV2 ++ rec ++ post by simp,
    show pre.length + magicV2.length = (pre ++ magicV2).length by simp, this]
  rfl

/-- Every blob start is an occurrence of the magic bytes and is read back. -/
theorem blobStarts_spec {C : Codec} (hC : Lawful C) : ∀ (pieces : List (Bytes × List Char)) (front last : Bytes),
    (∀ p ∈ pieces, (encode p.2).length < 2 ^ 32 ∧ (C.compress (encode p.2)).length < 2 ^ 32) →
    (blobStarts C front.length pieces).Pairwise (· < ·) ∧
    (∀ q ∈ blobStarts C front.length pieces, front.length ≤ q ∧ OccursAt magicV2 (front ++ binary C pieces last) q) ∧
    (blobStarts C front.length pieces).filterMap (fun p => (tryExtractV2 C (front ++ binary C pieces last) p).toOption)
      = pieces.map (·.2)
  | [], front, last, _ => ⟨.nil, by simp [blobStarts], rfl⟩
  | (before, s) :: rest, front, last, hs => by
    have hsz := hs _ (List.mem_cons_self ..)
    obtain ⟨h1, h2, h3⟩ := blobStarts_spec hC rest (front ++ before ++ buildBlob C s) last
      (fun p hp => hs p (List.mem_cons_of_mem _ hp))
    have hdata : front ++ before ++ buildBlob C s ++ binary C rest last =
        front ++ binary C ((before, s) :: rest) last := by simp [binary]
    rw [hdata] at h2 h3
    have hlen : (front ++ before ++ buildBlob C s).length = front.length + before.length + (buildBlob C s).length := by
      simp [Nat.add_assoc]
    rw [hlen] at h1 h2 h3
    have hblob : 0 < (buildBlob C s).length := by simp [buildBlob, magicV2]
    have hx := tryExtractV2_blob hC hsz.1 hsz.2 (front ++ before) (binary C rest last)
    rw [hdata, List.length_append] at hx
    rw [blobStarts]
    refine ⟨List.pairwise_cons.mpr ⟨fun q hq => ?_, h1⟩, ?_, ?_⟩
    · have := (h2 q hq).1; omega
    · intro q hq
      rcases List.mem_cons.mp hq with rfl | hq
      · refine ⟨by omega, ?_⟩
        obtain ⟨rec, he, _⟩ := record_of_build hC hsz.1 hsz.2
        exact ⟨front ++ before, rec ++ binary C rest last, by rw [← hdata, he]; simp, by simp⟩
      · have := h2 q hq
        exact ⟨by omega, this.2⟩
    · rw [List.filterMap_cons_some (b := s) (by rw [hx]; rfl), h3]; rfl

theorem sublist_range' : ∀ {l : List Nat} {a n : Nat}, l.Pairwise (· < ·) → (∀ x ∈ l, a ≤ x ∧ x < a + n) →
    l.Sublist (List.range' a n)
  | [], _, _, _, _ => List.nil_sublist _
  | x :: l, a, 0, _, h => by have := h x (by simp); omega
  | x :: l, a, n + 1, hp, h => by
    rw [List.range'_succ]
    rw [List.pairwise_cons] at hp
    by_cases hx : x = a
    · subst hx
      refine List.Sublist.cons_cons _ (sublist_range' hp.2 fun y hy => ?_)
      have := hp.1 y hy
      have := h y (List.mem_cons_of_mem _ hy)
      omega
    · refine List.Sublist.cons _ (sublist_range' (List.pairwise_cons.mpr hp) fun y hy => ?_)
      have hxa := h x (by simp)
      have := h y hy
      rcases List.mem_cons.mp hy with rfl | hy
      · omega
      · have := hp.1 y hy; omega

theorem sublist_occurrences {magic data : Bytes} (hm : magic ≠ []) {l : List Nat} (hp : l.Pairwise (· < ·))
    (h : ∀ x ∈ l, OccursAt magic data x) : l.Sublist (occurrences magic data 0) := by
  have hpos : 0 < magic.length := List.length_pos_iff.mpr hm
  have h1 : l.Sublist (List.range' 0 (data.length - 0)) := sublist_range' hp fun x hx => by
    have := (h x hx).lt; omega
  have h2 := h1.filter (occ magic data)
  rwa [List.filter_eq_self.mpr] at h2
  intro x hx
  have := (h x hx).lt
  exact (occ_iff (by omega)).mpr (h x hx)

theorem occurrences_pairwise (magic data : Bytes) : (occurrences magic data 0).Pairwise (· < ·) :=
  List.Pairwise.filter _ List.pairwise_lt_range'

theorem nodup_subset_length : ∀ {l m : List Nat}, l.Nodup → (∀ x ∈ l, x ∈ m) → l.length ≤ m.length
  | [], _, _, _ => by simp
  | x :: l, m, hn, h => by
    rw [List.nodup_cons] at hn
    have := nodup_subset_length (m := m.erase x) hn.2 fun y hy => by
      have hne : y ≠ x := fun e => hn.1 (e ▸ hy)
      exact (List.mem_erase_of_ne hne).mpr (h y (List.mem_cons_of_mem _ hy))
    rw [List.length_erase_of_mem (h x (by simp))] at this
    have hpos : 0 < m.length := List.length_pos_of_mem (h x (by simp))
    simp only [List.length_cons]; omega

theorem occurrences_eq {magic data : Bytes} (hm : magic ≠ []) {l : List Nat} (hp : l.Pairwise (· < ·))
    (h : ∀ x, x ∈ l ↔ OccursAt magic data x) : occurrences magic data 0 = l := by
  have h1 := sublist_occurrences hm hp fun x hx => (h x).mp hx
  have hn : (occurrences magic data 0).Nodup :=
    (occurrences_pairwise magic data).imp fun h => Nat.ne_of_lt h
  have h2 := nodup_subset_length (m := l) hn fun x hx => (h x).mpr ((mem_occurrences hm).mp hx)
  exact (h1.eq_of_length_le h2).symm

end Styx.Embed
