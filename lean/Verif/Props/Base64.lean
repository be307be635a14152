import Verif.Base64Dec

/-!
# Properties C01 – C05: Base64

`encode e foreign bs` is the model of `base64_encode` on a host with byte order `e` when the memory
behind the input buffer holds `foreign`; `decode` is the model of `base64_decode`.
-/

namespace Verif.Props
open Verif.Base64

/-- Foreign memory used in examples. -/
def junk : Mem := fun k => UInt8.ofNat (7 * k + 3)

/-- **C01.** Decoding an encoded byte sequence succeeds and returns the sequence. -/
theorem C01_base64_roundtrip (e : Endian) (foreign : Mem) (bs : Str) :
    decode (encode e foreign bs) = some bs := by
  rw [encode_eq_encodeRec, decode_encodeRec]

example : decode (encode .little junk (lit "any carnal pleas")) = some (lit "any carnal pleas") :=
  C01_base64_roundtrip _ _ _
-- the texts involved are not degenerate
example : encode .big junk (lit "Man is distinguished, not only") =
    lit "TWFuIGlzIGRpc3Rpbmd1aXNoZWQsIG5vdCBvbmx5" := by decide +kernel

/-- **C02.** The output is the RFC 4648 text, whatever the byte order and the foreign memory. -/
theorem C02_base64_rfc4648 (e : Endian) (foreign : Mem) (bs : Str) :
    encode e foreign bs = Spec.text bs := by
  rw [encode_eq_encodeRec, encodeRec_eq_text]

example : Spec.text (lit "light w") = lit "bGlnaHQgdw==" := by decide +kernel

/-- **C02.** The output has `4 * ceil (n / 3)` characters. -/
theorem C02_base64_length (e : Endian) (foreign : Mem) (bs : Str) :
    (encode e foreign bs).length = 4 * ((bs.length + 2) / 3) := by
  rw [encode_eq_encodeRec, encodeRec_length]

example : (encode .little junk (List.replicate 25 9)).length = 36 := C02_base64_length _ _ _

/-- **C02.** Byte order and foreign memory do not influence the output. -/
theorem C02_base64_endian (e e' : Endian) (foreign foreign' : Mem) (bs : Str) :
    encode e foreign bs = encode e' foreign' bs := by
  rw [encode_eq_encodeRec, encode_eq_encodeRec]

example : encode .little junk (List.replicate 24 77) = encode .big (fun _ => 0) (List.replicate 24 77) :=
  C02_base64_endian _ _ _ _ _

/-- **C03, full statement refuted.** Encoding 24 bytes reads offset 25, two bytes past the end. -/
theorem C03_base64_overread : ∃ (n r : Nat) (m : Mem), r ∈ (encodeMem .little m n).reads ∧ n < r := by
  exact ⟨24, 25, junk, by decide +kernel⟩

/-- **C03, partial.** The exact set of buffer sizes for which all reads stay inside the buffer:
everything except sizes of at least 24 that are 0 or 1 modulo 24. (The full property would hold for
all sizes; it is refuted by `C03_base64_overread`.) -/
theorem C03_base64_reads_in_bounds_partial (e : Endian) (m : Mem) (n : Nat) :
    (∀ r ∈ (encodeMem e m n).reads, r < n) ↔ ¬ (24 ≤ n ∧ n % 24 ≤ 1) := by
  constructor
  · intro h hn
    have := h (24 * (n / 24) + 1) ?_
    · omega
    · unfold encodeMem
      rw [if_neg (by omega)]
      simp only [Trace.append, List.mem_append, fastLoop_reads]
      left
      omega
  · intro hn r hr
    unfold encodeMem at hr
    split at hr
    · simp at hr
    · simp only [Trace.append, List.mem_append, fastLoop_reads, tripletLoop_reads] at hr
      rcases hr with h | h | h
      · omega
      · omega
      · exact lastPart_reads m n r h

example : ∀ r ∈ (encodeMem .little junk 26).reads, r < 26 :=
  (C03_base64_reads_in_bounds_partial .little junk 26).2 (by omega)

/-- **C03, partial.** Even when it over-reads, the encoder never reads more than two bytes past the
end, and every byte of the input is read. -/
theorem C03_base64_overread_at_most_two_partial (e : Endian) (m : Mem) (n : Nat) :
    (∀ r ∈ (encodeMem e m n).reads, r < n + 2) ∧ (∀ r < n, r ∈ (encodeMem e m n).reads) := by
  constructor
  · intro r hr
    unfold encodeMem at hr
    split at hr
    · simp at hr
    · simp only [Trace.append, List.mem_append, fastLoop_reads, tripletLoop_reads] at hr
      rcases hr with h | h | h
      · omega
      · omega
      · have := lastPart_reads m n r h; omega
  · intro r hr
    unfold encodeMem
    rw [if_neg (by omega)]
    simp only [Trace.append, List.mem_append, fastLoop_reads, tripletLoop_reads]
    by_cases h : r < n / 3 * 3
    · omega
    · right; right
      unfold lastPart
      split
      · simp; omega
      · split
        · simp; omega
        · omega

example : ∃ r ∈ (encodeMem .big junk 48).reads, 48 ≤ r := ⟨49, by decide +kernel⟩

/-- **C03.** All accesses to the encoder's lookup table are in bounds, for every word and triplet. -/
theorem C03_base64_table_in_bounds (e : Endian) (v : Nat) (a b c : UInt8) :
    (∀ i ∈ sextetIdx e v, i < encodeTable.length) ∧
    (∀ i ∈ tripletIdx a.toNat b.toNat c.toNat, i < encodeTable.length) ∧
    a.toNat < decodeTable.length := by
  refine ⟨?_, ?_, ?_⟩
  · rw [encodeTable_length]
    cases e
    · simp only [sextetIdx, littleIdx_eq, List.mem_cons, List.not_mem_nil, or_false]
      rintro i (h | h | h | h | h | h | h | h) <;> omega
    · simp only [sextetIdx, bigIdx_eq, List.mem_cons, List.not_mem_nil, or_false]
      rintro i (h | h | h | h | h | h | h | h) <;> omega
  · rw [encodeTable_length]
    exact tripletIdx_lt _ _ _ a.toNat_lt b.toNat_lt c.toNat_lt
  · rw [decodeTable_length]; exact a.toNat_lt

/-- **C04.** The decoder computes exactly the RFC 4648 meaning of a text: it fails iff the text is
not a padded Base64 text, and otherwise returns the regrouped bits. -/
theorem C04_base64_decode_spec (s : Str) : decode s = Spec.bytes s := decode_eq_bytes s

example : decode (lit "QUJDRA==") = some (lit "ABCD") := by decide +kernel

/-- Grammar of accepted texts: `k` alphabet characters followed by at most two `=`, the total length
being a multiple of four. -/
def WellFormed (s : Str) : Prop :=
  s.length % 4 = 0 ∧ ∃ body pad, s = body ++ List.replicate pad 61 ∧ pad ≤ 2 ∧
    ∀ c ∈ body, (Spec.symbol c).isSome

theorem symbols_isSome (s : Str) : (Spec.symbols s).isSome ↔ ∀ c ∈ s, (Spec.symbol c).isSome := by
  by_cases h : ∀ c ∈ s, dec c < 64
  · rw [symbols_all s h]
    simp only [Option.isSome_some, true_iff]
    intro c hc; rw [symbol_some (h c hc)]; rfl
  · rw [symbols_not s h]
    simp only [Option.isSome_none, Bool.false_eq_true, false_iff]
    intro h'
    apply h
    intro c hc
    refine Decidable.byContradiction fun hd => ?_
    have := h' c hc
    rw [symbol_none hd] at this
    cases this

/-- **C04.** Acceptance is exactly the grammar. -/
theorem C04_base64_decode_accepts (s : Str) : (decode s).isSome ↔ WellFormed s := by
  rw [decode_eq_bytes, bytes_def]
  by_cases h4 : s.length % 4 = 0
  · simp only [h4, ne_eq, not_true, if_false, Option.isSome_map, symbols_isSome]
    have hpad : ¬ (Spec.symbol 61).isSome := by rw [symbol_pad]; simp
    constructor
    · intro h
      refine ⟨h4, ?_⟩
      unfold Spec.strip at h
      split at h
      · rename_i h2
        refine ⟨s.take (s.length - 2), 2, ?_, by omega, h⟩
        conv => lhs; rw [← List.take_append_drop (s.length - 2) s, h2]
        rfl
      · split at h
        · rename_i h1
          refine ⟨s.take (s.length - 1), 1, ?_, by omega, h⟩
          conv => lhs; rw [← List.take_append_drop (s.length - 1) s, h1]
          rfl
        · exact ⟨s, 0, by simp, by omega, h⟩
    · rintro ⟨-, body, pad, rfl, hp, hb⟩
      have hlast : ∀ (x : UInt8), body.drop (body.length - 1) = [x] → (Spec.symbol x).isSome := by
        intro x hx
        apply hb
        have : x ∈ body.drop (body.length - 1) := by rw [hx]; simp
        exact List.mem_of_mem_drop this
      match pad, hp with
      | 0, _ =>
        have : Spec.strip (body ++ List.replicate 0 61) = body := by
          simp only [List.replicate_zero, List.append_nil]
          unfold Spec.strip
          split
          · rename_i h2
            exfalso
            apply hpad; apply hb
            have : (61 : UInt8) ∈ body.drop (body.length - 2) := by rw [h2]; simp
            exact List.mem_of_mem_drop this
          · split
            · rename_i h1
              exact absurd (hlast 61 h1) hpad
            · rfl
        rw [this]; exact hb
      | 1, _ =>
        have : Spec.strip (body ++ List.replicate 1 61) = body := by
          unfold Spec.strip
          split
          · rename_i h2
            exfalso
            simp only [List.length_append, List.length_replicate] at h2
            rw [show body.length + 1 - 2 = body.length - 1 by omega] at h2
            have hl : body.length - 1 ≤ body.length := by omega
            rw [List.drop_append_of_le_length hl] at h2
            have := List.append_inj_left' (t₁ := List.replicate 1 61) (t₂ := [61]) (s₂ := [61]) h2 rfl
            exact hpad (hlast 61 this)
          · simp
        rw [this]; exact hb
      | 2, _ =>
        have : Spec.strip (body ++ List.replicate 2 61) = body := by
          unfold Spec.strip
          simp [List.replicate]
        rw [this]; exact hb
  · simp only [h4, ne_eq, not_false_eq_true, if_true, Option.isSome_none, Bool.false_eq_true, false_iff]
    rintro ⟨h, -⟩
    exact h4 h

example : (decode (lit "Zm9vYg==")).isSome :=
  (C04_base64_decode_accepts _).2 ⟨by decide, lit "Zm9vYg", 2, by decide, by decide, by decide +kernel⟩
example : decode (lit "Zm=v") = none := by decide +kernel

/-- **C05, full statement refuted.** Two different texts decode to the same byte. -/
theorem C05_base64_not_injective :
    ∃ s t : Str, s ≠ t ∧ (decode s).isSome ∧ decode s = decode t :=
  ⟨lit "QQ==", lit "QR==", by decide +kernel⟩

/-- **C05, partial.** On texts that are the RFC text of some bytes (no stray bits in the last symbol)
decoding is injective and re-encoding gives the text back. Missing: the decoder does not reject the
non-canonical texts. -/
theorem C05_base64_canonical_partial (e : Endian) (foreign : Mem) (s : Str) (bs : Str)
    (hs : ∃ x, s = Spec.text x) (hd : decode s = some bs) : encode e foreign bs = s := by
  obtain ⟨x, rfl⟩ := hs
  rw [← C02_base64_rfc4648 e foreign x, C01_base64_roundtrip] at hd
  cases hd
  exact C02_base64_rfc4648 e foreign bs

example : encode .little junk (lit "fooba") = lit "Zm9vYmE=" :=
  C05_base64_canonical_partial _ _ _ _ ⟨lit "fooba", by decide +kernel⟩ (by decide +kernel)

/-- **C05, exactly the texts of some bytes.** A text decodes to the bytes `bs` (not none) iff it is the RFC text of
`bs`, except that the last symbol may be another one with the same leading bits: 4 bits of it are not used in
front of `==`, 2 in front of `=`, and none otherwise. -/
theorem C05_base64_preimages (s bs : Str) (hb : bs ≠ []) :
    decode s = some bs ↔ ∃ (init : Str) (c c' : UInt8) (v p : Nat), s = init ++ c :: List.replicate p 61 ∧
      Spec.text bs = init ++ c' :: List.replicate p 61 ∧ p ≤ 2 ∧ Spec.symbol c = some v ∧ Spec.symbol c' = some (v / 4 ^ p * 4 ^ p) := by
  have hdec : ∀ {s : Str}, decode s = some bs ↔ s.length % 4 = 0 ∧ decodeLoop s = some bs := by
    intro s
    unfold decode
    split
    · rename_i h
      have : s = [] := by simpa using h
      subst this
      simp [decodeLoop, hb.symm]
    · split
      · rename_i h; simp [h]
      · rename_i h; simp at h; simp [h]
  rw [← encodeRec_eq_text]
  constructor
  · intro h
    obtain ⟨init, c, c', p, h1, h2, h3, h4, h5⟩ := decodeLoop_last s bs (hdec.1 h).2
    refine ⟨init, c, c', dec c, p, h1, h2, h3, symbol_some h4, ?_⟩
    have : dec c / 4 ^ p * 4 ^ p ≤ dec c := Nat.div_mul_le_self ..
    rw [← h5]
    exact symbol_some (by omega)
  · rintro ⟨init, c, c', v, p, rfl, h2, h3, h4, h5⟩
    have hs : ∀ {c : UInt8} {v : Nat}, Spec.symbol c = some v → dec c < 64 ∧ dec c = v := by
      intro c v h
      by_cases hc : dec c < 64
      · rw [symbol_some hc] at h; exact ⟨hc, Option.some.inj h⟩
      · rw [symbol_none hc] at h; cases h
    obtain ⟨hc, rfl⟩ := hs h4
    obtain ⟨hc', he⟩ := hs h5
    have hlen := encodeRec_length bs
    have hd := (hdec (s := encodeRec bs)).1 (decode_encodeRec bs)
    rw [h2] at hd hlen
    simp only [List.length_append, List.length_cons, List.length_replicate] at hlen
    refine hdec.2 ⟨by simp only [List.length_append, List.length_cons, List.length_replicate]; omega, ?_⟩
    rw [decodeLoop_stray c c' p h3 hc hc' ?_ init.length init rfl (by omega)]
    · exact hd.2
    · rw [he, Nat.mul_div_cancel _ (Nat.pow_pos (by omega))]

-- the 16 texts of the letter A
example : decode (lit "QV==") = some (lit "A") :=
  (C05_base64_preimages _ _ (by decide)).2 ⟨lit "Q", 86, 81, 21, 2, rfl, by decide +kernel, by omega, by decide +kernel, by decide +kernel⟩

/-- **C05, exactly when re-encoding gives the text back.** An accepted text is the encoding of its bytes iff the
unused bits of its last symbol are zero. -/
theorem C05_base64_reencode (e : Endian) (foreign : Mem) (init : Str) (c : UInt8) (p v : Nat) (bs : Str)
    (hv : Spec.symbol c = some v) (h : decode (init ++ c :: List.replicate p 61) = some bs) :
    encode e foreign bs = init ++ c :: List.replicate p 61 ↔ 4 ^ p ∣ v := by
  have hne : ∀ {c : UInt8} {v : Nat}, Spec.symbol c = some v → c ≠ 61 := by
    rintro c v h rfl
    rw [symbol_pad] at h
    cases h
  have hb : bs ≠ [] := by
    rintro rfl
    have hx := h
    unfold decode at hx
    rw [if_neg (by simp)] at hx
    split at hx
    · cases hx
    · obtain ⟨i, x, x', q, -, h2, -⟩ := decodeLoop_last _ _ hx
      simp [encodeRec] at h2
  -- the split in front of the padding is unique
  have huniq : ∀ (i i' : Str) (x x' : UInt8) (q q' : Nat), x ≠ 61 → x' ≠ 61 → i ++ x :: List.replicate q 61 = i' ++ x' :: List.replicate q' 61 →
      i = i' ∧ x = x' ∧ q = q' := by
    intro i i' x x' q q' hx hx' he
    have hr := congrArg List.reverse he
    simp only [List.reverse_append, List.reverse_cons, List.reverse_replicate, List.append_assoc, List.cons_append, List.nil_append] at hr
    have key : ∀ (q q' : Nat) (a b : Str), List.replicate q 61 ++ x :: a = List.replicate q' 61 ++ x' :: b → q = q' ∧ x = x' ∧ a = b := by
      intro q
      induction q with
      | zero =>
        intro q' a b h
        cases q' with
        | zero => simpa using h
        | succ q' => simp [List.replicate_succ] at h; exact absurd h.1 hx
      | succ q ih =>
        intro q' a b h
        cases q' with
        | zero => simp [List.replicate_succ] at h; exact absurd h.1.symm hx'
        | succ q' =>
          simp only [List.replicate_succ, List.cons_append, List.cons.injEq, true_and] at h
          obtain ⟨h1, h2, h3⟩ := ih q' a b h
          exact ⟨by omega, h2, h3⟩
    obtain ⟨h1, h2, h3⟩ := key q q' _ _ hr
    exact ⟨List.reverse_inj.1 h3, h2, h1⟩
  obtain ⟨i, x, x', w, q, h1, h2, h3, h4, h5⟩ := (C05_base64_preimages _ _ hb).1 h
  obtain ⟨rfl, rfl, rfl⟩ := huniq _ _ _ _ _ _ (hne hv) (hne h4) h1
  rw [hv] at h4
  cases h4
  rw [C02_base64_rfc4648, h2]
  constructor
  · intro h6
    obtain ⟨-, rfl, -⟩ := huniq _ _ _ _ _ _ (hne h5) (hne hv) h6
    rw [hv] at h5
    exact ⟨v / 4 ^ p, by rw [Nat.mul_comm]; exact Option.some.inj h5⟩
  · rintro ⟨k, rfl⟩
    rw [Nat.mul_div_cancel_left _ (Nat.pow_pos (by omega)), Nat.mul_comm, ← hv] at h5
    have : ∀ {c d : UInt8}, Spec.symbol c = Spec.symbol d → (Spec.symbol c).isSome → c = d := by
      intro c d hcd hc
      by_cases h1 : dec c < 64
      · by_cases h2 : dec d < 64
        · rw [symbol_some h1, symbol_some h2] at hcd
          rw [← enc_dec h1, ← enc_dec h2, Option.some.inj hcd]
        · rw [symbol_none h2] at hcd; rw [hcd] at hc; cases hc
      · rw [symbol_none h1] at hc; cases hc
    rw [this h5 (by rw [h5, hv]; rfl)]

example : encode .little junk (lit "A") ≠ lit "QV==" := fun h =>
  absurd ((C05_base64_reencode .little junk (lit "Q") 86 2 21 (lit "A") (by decide +kernel) (by decide +kernel)).1 h) (by decide)

end Verif.Props
