import Verif.Base64Lemmas

namespace Verif.Base64
open Spec

/-- A character of the alphabet, in terms of the decode table. -/
theorem symbol_some {c : UInt8} (h : dec c < 64) : symbol c = some (dec c) := by
  rw [dec_spec, if_pos h]

theorem symbol_none {c : UInt8} (h : ¬ dec c < 64) : symbol c = none := by
  rw [dec_spec, if_neg h]

theorem symbol_pad : symbol 61 = none := by decide

theorem dec_pad : dec 61 = 255 := by decide
theorem dec_A : dec 65 = 0 := by decide

/-- Bytes of symbol values. -/
def regroup (vs : List Nat) : Str := (groups8 (vs.flatMap (bitsOf 6))).map fun g => UInt8.ofNat (valueOf g)

theorem bytes_def (s : Str) : bytes s = if s.length % 4 ≠ 0 then none else (symbols (strip s)).map regroup := rfl

theorem regroup_cons4 (a b c d : Nat) (vs : List Nat) (ha : a < 64) (hb : b < 64) (hc : c < 64)
    (hd : d < 64) : regroup (a :: b :: c :: d :: vs) =
      [UInt8.ofNat (a * 4 + b / 16), UInt8.ofNat (b % 16 * 16 + c / 4), UInt8.ofNat (c % 4 * 64 + d)]
        ++ regroup vs := by
  simp only [regroup, List.flatMap_cons, bitsOf6, List.cons_append, List.nil_append, groups8,
    List.map_cons, valueOf8, testBit_toNat, List.cons.injEq]
  refine ⟨?_, ?_, ?_, trivial⟩ <;> congr 1 <;> omega

theorem regroup_two (a b : Nat) (ha : a < 64) (hb : b < 64) :
    regroup [a, b] = [UInt8.ofNat (a * 4 + b / 16)] := by
  simp only [regroup, List.flatMap_cons, bitsOf6, List.cons_append, List.nil_append, groups8,
    List.map_cons, valueOf8, testBit_toNat, List.flatMap_nil, List.map_nil]
  congr 2; omega

theorem regroup_three (a b c : Nat) (ha : a < 64) (hb : b < 64) (hc : c < 64) :
    regroup [a, b, c] = [UInt8.ofNat (a * 4 + b / 16), UInt8.ofNat (b % 16 * 16 + c / 4)] := by
  simp only [regroup, List.flatMap_cons, bitsOf6, List.cons_append, List.nil_append, groups8,
    List.map_cons, valueOf8, testBit_toNat, List.flatMap_nil, List.map_nil, List.cons.injEq, and_true]
  refine ⟨?_, ?_⟩ <;> congr 1 <;> omega

theorem symbols_append (s t : Str) : symbols (s ++ t) =
    match symbols s, symbols t with
    | some x, some y => some (x ++ y)
    | _, _ => none := by
  induction s with
  | nil => simp only [List.nil_append, symbols]; cases symbols t <;> rfl
  | cons c s ih =>
    simp only [List.cons_append, symbols, ih]
    cases symbol c <;> cases symbols s <;> cases symbols t <;> rfl

theorem symbols_all (s : Str) (h : ∀ c ∈ s, dec c < 64) : symbols s = some (s.map dec) := by
  induction s with
  | nil => rfl
  | cons c s ih =>
    simp only [symbols, symbol_some (h c (by simp)), ih (fun c hc => h c (by simp [hc])), List.map_cons]

theorem symbols_not (s : Str) (h : ¬ ∀ c ∈ s, dec c < 64) : symbols s = none := by
  induction s with
  | nil => simp at h
  | cons c s ih =>
    simp only [symbols]
    by_cases hc : dec c < 64
    · have : symbols s = none := ih (fun h' => h (by simpa [hc] using h'))
      rw [this, symbol_some hc]
    · rw [symbol_none hc]

theorem decodeLast_eq (a b c d : UInt8) :
    decodeLast a b c d = (symbols (strip [a, b, c, d])).map regroup := by
  by_cases hc : c = 61
  · subst hc
    by_cases hd : d = 61
    · subst hd
      have hs : strip [a, b, 61, 61] = [a, b] := by simp [strip]
      rw [hs]
      simp only [decodeLast, if_true, ne_eq, not_true, if_false]
      by_cases h : dec a < 64 ∧ dec b < 64
      · rw [decodeQuad_some _ _ _ _ h.1 h.2 (by decide) (by decide),
          symbols_all _ (by simpa using h)]
        simp [regroup_two _ _ h.1 h.2]
      · rw [decodeQuad_none _ _ _ _ (by intro h'; exact h ⟨h'.1, h'.2.1⟩),
          symbols_not _ (by simpa using h)]; rfl
    · have hs : strip [a, b, 61, d] = [a, b, 61, d] := by simp [strip, hd]
      rw [hs, symbols_not]
      · simp [decodeLast, hd]
      · simp [dec_pad]
  · by_cases hd : d = 61
    · subst hd
      have hs : strip [a, b, c, 61] = [a, b, c] := by simp [strip, hc]
      rw [hs]
      simp only [decodeLast, if_neg hc, if_true]
      by_cases h : dec a < 64 ∧ dec b < 64 ∧ dec c < 64
      · rw [decodeQuad_some _ _ _ _ h.1 h.2.1 h.2.2 (by decide), symbols_all _ (by simpa using h)]
        simp [regroup_three _ _ _ h.1 h.2.1 h.2.2]
      · rw [decodeQuad_none _ _ _ _ (by intro h'; exact h ⟨h'.1, h'.2.1, h'.2.2.1⟩),
          symbols_not _ (by simpa using h)]; rfl
    · have hs : strip [a, b, c, d] = [a, b, c, d] := by simp [strip, hc, hd]
      rw [hs]
      simp only [decodeLast, if_neg hc, if_neg hd]
      by_cases h : dec a < 64 ∧ dec b < 64 ∧ dec c < 64 ∧ dec d < 64
      · rw [decodeQuad_some _ _ _ _ h.1 h.2.1 h.2.2.1 h.2.2.2, symbols_all _ (by simpa using h)]
        simp only [Option.map_some, List.map_cons, List.map_nil]
        rw [regroup_cons4 _ _ _ _ _ h.1 h.2.1 h.2.2.1 h.2.2.2]; rfl
      · rw [decodeQuad_none _ _ _ _ h, symbols_not _ (by simpa using h)]; rfl

theorem strip_cons4 (a b c d : UInt8) (rest : Str) (h : 2 ≤ rest.length) :
    strip (a :: b :: c :: d :: rest) = a :: b :: c :: d :: strip rest := by
  have h1 : (a :: b :: c :: d :: rest).length - 2 = (rest.length - 2) + 4 := by simp; omega
  have h2 : (a :: b :: c :: d :: rest).length - 1 = (rest.length - 1) + 4 := by simp; omega
  unfold strip
  rw [h1, h2]
  simp only [List.drop_succ_cons, List.take_succ_cons]
  split
  · rfl
  · split <;> rfl

theorem decodeLoop_eq (s : Str) (h4 : s.length % 4 = 0) (h0 : s ≠ []) :
    decodeLoop s = (symbols (strip s)).map regroup := by
  induction s using decodeLoop.induct with
  | case1 a b c d => rw [decodeLoop]; exact decodeLast_eq a b c d
  | case2 a b c d rest hne hq =>
    have hr : rest ≠ [] := by simpa using hne
    have hlen : 2 ≤ rest.length := by
      have : rest.length ≠ 0 := by simpa using hr
      simp only [List.length_cons] at h4; omega
    rw [strip_cons4 _ _ _ _ _ hlen]
    have hnot : ¬ (dec a < 64 ∧ dec b < 64 ∧ dec c < 64 ∧ dec d < 64) := by
      intro h'
      rw [decodeQuad_some _ _ _ _ h'.1 h'.2.1 h'.2.2.1 h'.2.2.2] at hq
      cases hq
    rw [symbols_not _ (by intro h'; exact hnot ⟨h' _ (by simp), h' _ (by simp), h' _ (by simp), h' _ (by simp)⟩)]
    rw [decodeLoop]
    · simp [hq]
    · intro h; exact hne h
  | case3 a b c d rest hne o hq ih =>
    have hr : rest ≠ [] := by simpa using hne
    have hlen : 2 ≤ rest.length := by
      have : rest.length ≠ 0 := by simpa using hr
      simp only [List.length_cons] at h4; omega
    have hm : rest.length % 4 = 0 := by simp only [List.length_cons] at h4; omega
    rw [strip_cons4 _ _ _ _ _ hlen]
    have hyes : dec a < 64 ∧ dec b < 64 ∧ dec c < 64 ∧ dec d < 64 := by
      refine Decidable.byContradiction fun h' => ?_
      rw [decodeQuad_none _ _ _ _ h'] at hq
      cases hq
    have ho := decodeQuad_some a b c d hyes.1 hyes.2.1 hyes.2.2.1 hyes.2.2.2
    rw [hq] at ho
    replace ho := Option.some.inj ho
    rw [decodeLoop]
    · rw [hq]
      simp only [ih hm hr]
      rw [show a :: b :: c :: d :: strip rest = [a, b, c, d] ++ strip rest from rfl, symbols_append,
        symbols_all [a, b, c, d] (by simpa using hyes)]
      cases hsym : symbols (strip rest) with
      | none => rfl
      | some y =>
        simp only [Option.map_some, List.map_cons, List.map_nil, List.cons_append, List.nil_append]
        rw [regroup_cons4 _ _ _ _ _ hyes.1 hyes.2.1 hyes.2.2.1 hyes.2.2.2, ho]
    · intro h; exact hne h
  | case4 s hn1 hn2 =>
    exfalso
    match s, h0 with
    | [a], _ => simp at h4
    | [a, b], _ => simp at h4
    | [a, b, c], _ => simp at h4
    | a :: b :: c :: d :: rest, _ => exact hn2 a b c d rest rfl

theorem decode_eq_bytes (s : Str) : decode s = bytes s := by
  rw [bytes_def]
  unfold decode
  split
  · rename_i h
    have : s = [] := by simpa using h
    subst this; rfl
  · rename_i h
    split
    · rfl
    · rename_i h4
      exact decodeLoop_eq s (by omega) (by rintro rfl; simp at h)

/-! ### round trip -/

theorem dec_enc_triplet (a b c : UInt8) :
    ∃ w x y z, encodeTriplet a b c = [w, x, y, z] ∧ w ≠ 61 ∧ x ≠ 61 ∧ y ≠ 61 ∧ z ≠ 61 ∧
      dec w = a.toNat / 4 ∧ dec x = a.toNat % 4 * 16 + b.toNat / 16 ∧
      dec y = b.toNat % 16 * 4 + c.toNat / 64 ∧ dec z = c.toNat % 64 := by
  have ha := a.toNat_lt
  have hb := b.toNat_lt
  have hc := c.toNat_lt
  refine ⟨enc (a.toNat / 4), enc (a.toNat % 4 * 16 + b.toNat / 16),
    enc (b.toNat % 16 * 4 + c.toNat / 64), enc (c.toNat % 64), ?_, ?_, ?_, ?_, ?_, ?_, ?_, ?_, ?_⟩
  · unfold encodeTriplet; rw [tripletIdx_eq _ _ _ (by omega) (by omega)]; rfl
  · exact enc_ne_pad _ (by omega)
  · exact enc_ne_pad _ (by omega)
  · exact enc_ne_pad _ (by omega)
  · exact enc_ne_pad _ (by omega)
  · exact dec_enc _ (by omega)
  · exact dec_enc _ (by omega)
  · exact dec_enc _ (by omega)
  · exact dec_enc _ (by omega)

theorem ofNat_eq (a : UInt8) (n : Nat) (h : n = a.toNat) : UInt8.ofNat n = a := by
  subst h; simp

theorem quad_roundtrip (a b c w x y z : UInt8) (hw : dec w = a.toNat / 4)
    (hx : dec x = a.toNat % 4 * 16 + b.toNat / 16) (hy : dec y = b.toNat % 16 * 4 + c.toNat / 64)
    (hz : dec z = c.toNat % 64) : decodeQuad w x y z = some [a, b, c] := by
  have ha := a.toNat_lt
  have hb := b.toNat_lt
  have hc := c.toNat_lt
  rw [decodeQuad_some _ _ _ _ (by omega) (by omega) (by omega) (by omega)]
  rw [ofNat_eq a _ (by omega), ofNat_eq b _ (by omega), ofNat_eq c _ (by omega)]

theorem decodeLoop_encodeRec (bs : Str) (h : bs ≠ []) : decodeLoop (encodeRec bs) = some bs := by
  induction bs using encodeRec.induct with
  | case1 => simp at h
  | case2 a =>
    obtain ⟨w, x, y, z, he, _, _, _, _, hw, hx, hy, hz⟩ := dec_enc_triplet a 0 0
    have h0 : (0 : UInt8).toNat = 0 := rfl
    rw [encodeRec, he]
    simp only [List.take, List.cons_append, List.nil_append, decodeLoop, decodeLast, if_true, ne_eq, not_true, if_false]
    rw [quad_roundtrip a 0 0 w x 65 65 hw hx (by rw [dec_A, h0]) (by rw [dec_A, h0])]
    rfl
  | case3 a b =>
    obtain ⟨w, x, y, z, he, _, _, hy61, _, hw, hx, hy, hz⟩ := dec_enc_triplet a b 0
    have h0 : (0 : UInt8).toNat = 0 := rfl
    rw [encodeRec, he]
    simp only [List.take, List.cons_append, List.nil_append, decodeLoop, decodeLast, if_neg hy61, if_true]
    rw [quad_roundtrip a b 0 w x y 65 hw hx hy (by rw [dec_A, h0])]
    rfl
  | case4 a b c rest ih =>
    obtain ⟨w, x, y, z, he, _, _, hy61, hz61, hw, hx, hy, hz⟩ := dec_enc_triplet a b c
    rw [encodeRec, he]
    by_cases hr : rest = []
    · subst hr
      simp only [encodeRec, List.append_nil, decodeLoop, decodeLast, if_neg hy61, if_neg hz61]
      exact quad_roundtrip a b c w x y z hw hx hy hz
    · have hne : encodeRec rest ≠ [] := by
        intro h'
        have := encodeRec_length rest
        rw [h'] at this
        simp at this
        have : rest.length ≠ 0 := by simpa using hr
        omega
      simp only [List.cons_append, List.nil_append]
      rw [decodeLoop]
      · rw [quad_roundtrip a b c w x y z hw hx hy hz]
        simp [ih hr]
      · intro h'; exact hne (by simpa using h')

theorem decode_encodeRec (bs : Str) : decode (encodeRec bs) = some bs := by
  by_cases h : bs = []
  · subst h; rfl
  · have hl := encodeRec_length bs
    unfold decode
    have h0 : bs.length ≠ 0 := by simpa using h
    rw [if_neg (by omega), if_neg (by omega)]
    exact decodeLoop_encodeRec bs h

/-! ### memory offsets read -/

theorem fastLoop_reads (e : Endian) (m : Mem) (k p r : Nat) :
    r ∈ (fastLoop e m k p).reads ↔ k ≠ 0 ∧ p ≤ r ∧ r < p + 6 * k + 2 := by
  induction k generalizing p with
  | zero => simp [fastLoop]
  | succ k ih =>
    simp only [fastLoop, Trace.append, List.mem_append, ih, List.mem_cons, List.not_mem_nil, or_false]
    omega

theorem tripletLoop_reads (m : Mem) (k p r : Nat) :
    r ∈ (tripletLoop m k p).reads ↔ p ≤ r ∧ r < p + 3 * k := by
  induction k generalizing p with
  | zero => simp [tripletLoop]
  | succ k ih =>
    simp only [tripletLoop, Trace.append, List.mem_append, ih, List.mem_cons, List.not_mem_nil, or_false]
    omega

theorem lastPart_reads (m : Mem) (n r : Nat) (h : r ∈ (lastPart m n).reads) : r < n := by
  unfold lastPart at h
  split at h
  · simp at h; omega
  · split at h
    · simp at h; omega
    · simp at h

/-! ### all texts of the same bytes -/

theorem enc_dec' : ∀ n, n < 256 → dec (UInt8.ofNat n) < 64 → enc (dec (UInt8.ofNat n)) = UInt8.ofNat n := by decide +kernel

theorem enc_dec {c : UInt8} (h : dec c < 64) : enc (dec c) = c := by
  have := enc_dec' c.toNat c.toNat_lt (by simpa using h)
  simpa using this

theorem dec_ne_pad {c : UInt8} (h : dec c < 64) : c ≠ 61 := by
  rintro rfl
  rw [dec_pad] at h
  omega

theorem toNat_ofNat_lt (n : Nat) (h : n < 256) : (UInt8.ofNat n).toNat = n := by
  simp [Nat.mod_eq_of_lt h]

theorem decodeQuad_some_iff {a b c d : UInt8} {o : Str} (h : decodeQuad a b c d = some o) : dec a < 64 ∧ dec b < 64 ∧ dec c < 64 ∧ dec d < 64 := by
  refine Decidable.byContradiction fun h' => ?_
  rw [decodeQuad_none _ _ _ _ h'] at h
  cases h

/-- A decoded quadruplet is encoded again to the same characters. -/
theorem encodeTriplet_decoded {a b c d : UInt8} (ha : dec a < 64) (hb : dec b < 64) (hc : dec c < 64) (hd : dec d < 64) :
    encodeTriplet (UInt8.ofNat (dec a * 4 + dec b / 16)) (UInt8.ofNat (dec b % 16 * 16 + dec c / 4)) (UInt8.ofNat (dec c % 4 * 64 + dec d)) = [a, b, c, d] := by
  unfold encodeTriplet
  rw [tripletIdx_eq _ _ _ (UInt8.toNat_lt _) (UInt8.toNat_lt _), toNat_ofNat_lt _ (by omega), toNat_ofNat_lt _ (by omega), toNat_ofNat_lt _ (by omega)]
  simp only [List.map_cons, List.map_nil]
  rw [show (dec a * 4 + dec b / 16) / 4 = dec a by omega, show (dec a * 4 + dec b / 16) % 4 * 16 + (dec b % 16 * 16 + dec c / 4) / 16 = dec b by omega,
    show (dec b % 16 * 16 + dec c / 4) % 16 * 4 + (dec c % 4 * 64 + dec d) / 64 = dec c by omega, show (dec c % 4 * 64 + dec d) % 64 = dec d by omega,
    enc_dec ha, enc_dec hb, enc_dec hc, enc_dec hd]

/-- What the texts of the same bytes have in common. -/
theorem decodeLoop_last (s bs : Str) (h : decodeLoop s = some bs) : ∃ init c c' p, s = init ++ c :: List.replicate p 61 ∧
    encodeRec bs = init ++ c' :: List.replicate p 61 ∧ p ≤ 2 ∧ dec c < 64 ∧ dec c' = dec c / 4 ^ p * 4 ^ p := by
  induction s using decodeLoop.induct generalizing bs with
  | case1 a b c d =>
    rw [decodeLoop] at h
    unfold decodeLast at h
    split at h
    · rename_i hc
      subst hc
      split at h
      · cases h
      · rename_i hd
        have hd : d = 61 := Decidable.byContradiction hd
        subst hd
        cases hq : decodeQuad a b 65 65 with
        | none => rw [hq] at h; cases h
        | some o =>
          obtain ⟨ha, hb, -, -⟩ := decodeQuad_some_iff hq
          rw [decodeQuad_some a b 65 65 ha hb (by decide) (by decide)] at h
          simp only [Option.map_some, List.take, Option.some.injEq] at h
          subst h
          refine ⟨[a], b, enc (dec b / 16 * 16), 2, rfl, ?_, by omega, hb, dec_enc _ (by omega)⟩
          rw [encodeRec]
          unfold encodeTriplet
          rw [tripletIdx_eq _ _ _ (UInt8.toNat_lt _) (UInt8.toNat_lt _), toNat_ofNat_lt _ (by omega)]
          simp only [List.map_cons, List.map_nil, List.take, UInt8.reduceToNat]
          rw [show (dec a * 4 + dec b / 16) / 4 = dec a by omega, show (dec a * 4 + dec b / 16) % 4 * 16 + 0 / 16 = dec b / 16 * 16 by omega, enc_dec ha]
          rfl
    · rename_i hc
      split at h
      · rename_i hd
        subst hd
        cases hq : decodeQuad a b c 65 with
        | none => rw [hq] at h; cases h
        | some o =>
          obtain ⟨ha, hb, hc, -⟩ := decodeQuad_some_iff hq
          rw [decodeQuad_some a b c 65 ha hb hc (by decide)] at h
          simp only [Option.map_some, List.take, Option.some.injEq] at h
          subst h
          refine ⟨[a, b], c, enc (dec c / 4 * 4), 1, rfl, ?_, by omega, hc, dec_enc _ (by omega)⟩
          rw [encodeRec]
          unfold encodeTriplet
          rw [tripletIdx_eq _ _ _ (UInt8.toNat_lt _) (UInt8.toNat_lt _), toNat_ofNat_lt _ (by omega), toNat_ofNat_lt _ (by omega)]
          simp only [List.map_cons, List.map_nil, List.take, UInt8.reduceToNat]
          rw [show (dec a * 4 + dec b / 16) / 4 = dec a by omega, show (dec a * 4 + dec b / 16) % 4 * 16 + (dec b % 16 * 16 + dec c / 4) / 16 = dec b by omega,
            show (dec b % 16 * 16 + dec c / 4) % 16 * 4 + 0 / 64 = dec c / 4 * 4 by omega, enc_dec ha, enc_dec hb]
          rfl
      · obtain ⟨ha, hb, hc, hd⟩ := decodeQuad_some_iff h
        rw [decodeQuad_some a b c d ha hb hc hd] at h
        simp only [Option.some.injEq] at h
        subst h
        refine ⟨[a, b, c], d, d, 0, rfl, ?_, by omega, hd, by omega⟩
        rw [encodeRec, encodeTriplet_decoded ha hb hc hd]
        rfl
  | case2 a b c d rest hne hq =>
    rw [decodeLoop] at h
    · simp [hq] at h
    · intro h'; exact hne h'
  | case3 a b c d rest hne o hq ih =>
    rw [decodeLoop] at h
    · rw [hq] at h
      simp only [Option.map_eq_some_iff] at h
      obtain ⟨bs', hbs, rfl⟩ := h
      obtain ⟨init, x, x', p, rfl, h2, h3, h4, h5⟩ := ih bs' hbs
      obtain ⟨ha, hb, hc, hd⟩ := decodeQuad_some_iff hq
      rw [decodeQuad_some a b c d ha hb hc hd] at hq
      simp only [Option.some.injEq] at hq
      subst hq
      refine ⟨a :: b :: c :: d :: init, x, x', p, by simp, ?_, h3, h4, h5⟩
      simp only [List.cons_append, List.nil_append]
      rw [encodeRec, encodeTriplet_decoded ha hb hc hd, h2]
      rfl
    · intro h'; exact hne h'
  | case4 s hn1 hn2 =>
    rw [decodeLoop] at h
    · cases h
    · exact hn1
    · exact hn2

/-- The bits of the last symbol that are not used do not matter. -/
theorem decodeLoop_stray (c c' : UInt8) (p : Nat) (hp : p ≤ 2) (hc : dec c < 64) (hc' : dec c' < 64) (h : dec c / 4 ^ p = dec c' / 4 ^ p) :
    ∀ (n : Nat) (init : Str), init.length = n → (init.length + 1 + p) % 4 = 0 →
      decodeLoop (init ++ c :: List.replicate p 61) = decodeLoop (init ++ c' :: List.replicate p 61) := by
  intro n
  induction n using Nat.strongRecOn with
  | ind n ih =>
    intro init hl hm
    match init, hl, hm with
    | [], _, hm =>
      simp only [List.length_nil] at hm
      omega
    | [a], _, hm =>
      simp only [List.length_cons, List.length_nil] at hm
      have : p = 2 := by omega
      subst this
      simp only [List.replicate, List.cons_append, List.nil_append, decodeLoop, decodeLast, if_true, ne_eq, not_true, if_false]
      by_cases ha : dec a < 64
      · rw [decodeQuad_some _ _ _ _ ha hc (by decide) (by decide), decodeQuad_some _ _ _ _ ha hc' (by decide) (by decide)]
        simp only [Option.map_some, List.take]
        rw [show dec c / 16 = dec c' / 16 by simpa using h]
      · rw [decodeQuad_none _ _ _ _ (fun h => ha h.1), decodeQuad_none _ _ _ _ (fun h => ha h.1)]
    | [a, b], _, hm =>
      simp only [List.length_cons, List.length_nil] at hm
      have : p = 1 := by omega
      subst this
      simp only [List.replicate, List.cons_append, List.nil_append, decodeLoop, decodeLast, if_true, if_neg (dec_ne_pad hc), if_neg (dec_ne_pad hc')]
      by_cases ha : dec a < 64 ∧ dec b < 64
      · rw [decodeQuad_some _ _ _ _ ha.1 ha.2 hc (by decide), decodeQuad_some _ _ _ _ ha.1 ha.2 hc' (by decide)]
        simp only [Option.map_some, List.take]
        rw [show dec c / 4 = dec c' / 4 by simpa using h]
      · rw [decodeQuad_none _ _ _ _ (fun h => ha ⟨h.1, h.2.1⟩), decodeQuad_none _ _ _ _ (fun h => ha ⟨h.1, h.2.1⟩)]
    | [a, b, d], _, hm =>
      simp only [List.length_cons, List.length_nil] at hm
      have : p = 0 := by omega
      subst this
      have : c = c' := by rw [← enc_dec hc, ← enc_dec hc']; congr 1; simpa using h
      rw [this]
    | a :: b :: d :: e :: rest, hl, hm =>
      simp only [List.length_cons] at hl hm
      have hi := ih rest.length (by omega) rest rfl (by omega)
      simp only [List.cons_append]
      rw [decodeLoop, decodeLoop, hi]
      · simp
      · simp

/-- A quadruplet of the alphabet is decoded, as an inner one and as the last one. -/
theorem decodeQuad_isSome_iff (a b c d : UInt8) : (decodeQuad a b c d).isSome ↔ dec a < 64 ∧ dec b < 64 ∧ dec c < 64 ∧ dec d < 64 := by
  constructor
  · intro h; obtain ⟨o, ho⟩ := Option.isSome_iff_exists.1 h; exact decodeQuad_some_iff ho
  · intro h; rw [decodeQuad_some _ _ _ _ h.1 h.2.1 h.2.2.1 h.2.2.2]; rfl

theorem decodeLast_all {a b c d : UInt8} (hc : dec c < 64) (hd : dec d < 64) : decodeLast a b c d = decodeQuad a b c d := by
  simp only [decodeLast, if_neg (dec_ne_pad hc), if_neg (dec_ne_pad hd)]

theorem isSome_symbol (c : UInt8) : (symbol c).isSome = decide (dec c < 64) := by
  by_cases h : dec c < 64
  · rw [symbol_some h]; simp [h]
  · rw [symbol_none h]; simp [h]

/-- The characters of the alphabet in front of the first other one. -/
def lead (s : Str) : Nat := (s.takeWhile fun c => (symbol c).isSome).length

theorem lead_small {a b c d : UInt8} {rest : Str} (h : ¬ (dec a < 64 ∧ dec b < 64 ∧ dec c < 64 ∧ dec d < 64)) : lead (a :: b :: c :: d :: rest) / 4 = 0 := by
  suffices lead (a :: b :: c :: d :: rest) < 4 by omega
  simp only [lead, List.takeWhile_cons, isSome_symbol, decide_eq_true_eq]
  by_cases ha : dec a < 64
  · by_cases hb : dec b < 64
    · by_cases hc : dec c < 64
      · by_cases hd : dec d < 64
        · exact absurd ⟨ha, hb, hc, hd⟩ h
        · simp [ha, hb, hc, hd]
      · simp [ha, hb, hc]
    · simp [ha, hb]
  · simp [ha]

theorem lead_cons4 {a b c d : UInt8} {rest : Str} (ha : dec a < 64) (hb : dec b < 64) (hc : dec c < 64) (hd : dec d < 64) :
    lead (a :: b :: c :: d :: rest) = lead rest + 4 := by
  simp only [lead, List.takeWhile_cons, isSome_symbol, decide_eq_true_eq, ha, hb, hc, hd, if_true, List.length_cons]

theorem decodeLoopOut_some (s o : Str) (h : decodeLoop s = some o) : decodeLoopOut s = o := by
  fun_induction decodeLoop s generalizing o with
  | case1 a b c d => simp only [decodeLoopOut, h, Option.getD_some]
  | case2 a b c d rest hr hq => cases h
  | case3 a b c d rest hr w hq ih =>
    obtain ⟨o', ho', rfl⟩ := Option.map_eq_some_iff.1 h
    rw [decodeLoopOut.eq_2 _ _ _ _ _ hr, hq]
    exact congrArg (w ++ ·) (ih o' ho')
  | case4 s h1 h2 => cases h

theorem decode_cons4 {a b c d : UInt8} {rest o p : Str} (h : decodeQuad a b c d = some o) (hr : decode rest = some p) (h4 : rest.length % 4 = 0) :
    decode (a :: b :: c :: d :: rest) = some (o ++ p) := by
  obtain ⟨ha, hb, hc, hd⟩ := decodeQuad_some_iff h
  cases rest with
  | nil =>
    cases hr
    simp [decode, decodeLoop, decodeLast_all hc hd, h]
  | cons e rest =>
    have h4' : (e :: rest).length % 4 = 0 := h4
    have hl : decode (e :: rest) = decodeLoop (e :: rest) := by unfold decode; rw [if_neg (by simp), if_neg (by simpa using h4')]
    rw [hl] at hr
    have : (a :: b :: c :: d :: e :: rest).length % 4 = 0 := by simp only [List.length_cons] at h4' ⊢; omega
    unfold decode
    rw [if_neg (by simp), if_neg (by simpa using this), decodeLoop.eq_2 _ _ _ _ _ (by simp), h, hr]
    rfl

theorem decodeLoopOut_none (s : Str) (h4 : s.length % 4 = 0) (h : decodeLoop s = none) (hs : s ≠ []) : lead s / 4 < s.length / 4 ∧ ∃ o, decode (s.take (4 * (lead s / 4))) = some o ∧
    decodeLoopOut s = o ++ List.replicate (3 * (s.length / 4 - lead s / 4)) 0 := by
  fun_induction decodeLoop s with
  | case1 a b c d =>
    have hn : ¬ (dec a < 64 ∧ dec b < 64 ∧ dec c < 64 ∧ dec d < 64) := by
      rintro ⟨h1, h2, h3, h5⟩
      rw [decodeLast_all h3 h5, decodeQuad_some _ _ _ _ h1 h2 h3 h5] at h; cases h
    rw [lead_small hn]
    refine ⟨by simp, [], by simp [decode], ?_⟩
    simp [decodeLoopOut, h]
  | case2 a b c d rest hr hq =>
    have hn : ¬ (dec a < 64 ∧ dec b < 64 ∧ dec c < 64 ∧ dec d < 64) := fun hh => by
      have := (decodeQuad_isSome_iff a b c d).2 hh; rw [hq] at this; cases this
    rw [lead_small hn]
    simp only [List.length_cons] at h4 ⊢
    refine ⟨by omega, [], by simp [decode], ?_⟩
    rw [decodeLoopOut.eq_2 _ _ _ _ _ hr, hq]
    dsimp only
    rw [show (rest.length + 1 + 1 + 1 + 1) / 4 - 0 = rest.length / 4 + 1 by omega]; rfl
  | case3 a b c d rest hr w hq ih =>
    obtain ⟨ha, hb, hc, hd⟩ := decodeQuad_some_iff hq
    have hrest : rest ≠ [] := by rintro rfl; exact hr rfl
    simp only [List.length_cons] at h4
    obtain ⟨hlt, o, ho, hout⟩ := ih (by omega) (by cases hx : decodeLoop rest with | none => rfl | some _ => rw [hx] at h; cases h) hrest
    rw [lead_cons4 ha hb hc hd, List.length_cons, List.length_cons, List.length_cons, List.length_cons]
    refine ⟨by omega, w ++ o, ?_, ?_⟩
    · rw [show 4 * ((lead rest + 4) / 4) = 4 * (lead rest / 4) + 1 + 1 + 1 + 1 by omega]
      simp only [List.take_succ_cons]
      refine decode_cons4 hq ho ?_
      rw [List.length_take, Nat.min_eq_left (by omega)]; omega
    · rw [decodeLoopOut.eq_2 _ _ _ _ _ hr, hq]
      dsimp only
      rw [hout, show (rest.length + 1 + 1 + 1 + 1) / 4 - (lead rest + 4) / 4 = rest.length / 4 - lead rest / 4 by omega, List.append_assoc]
  | case4 s h1 h2 =>
    exfalso
    match s, hs, h4, h1, h2 with
    | [_], _, h4, _, _ => simp at h4
    | [_, _], _, h4, _, _ => simp at h4
    | [_, _, _], _, h4, _, _ => simp at h4
    | a :: b :: c :: d :: rest, _, _, _, h2 => exact h2 a b c d rest rfl

theorem decodeOut_some {s o : Str} (h : decode s = some o) : decodeOut s = o := by
  unfold decode at h; unfold decodeOut
  split at h
  · rw [if_pos ‹_›]; cases h; rfl
  · split at h
    · cases h
    · rw [if_neg ‹_›, if_neg ‹_›]; exact decodeLoopOut_some s o h

theorem decodeOut_none {s : Str} (h : decode s = none) : decodeOut s = wreck s := by
  unfold decodeOut wreck
  have h0 : s.length ≠ 0 := fun h0 => by rw [decode, if_pos h0] at h; cases h
  rw [if_neg h0]
  by_cases h4 : s.length % 4 = 0
  · rw [decode, if_neg h0, if_neg (by simpa using h4)] at h
    rw [if_neg (by simpa using h4), if_neg (by simpa using h4)]
    obtain ⟨-, o, ho, hout⟩ := decodeLoopOut_none s h4 h fun hs => h0 (by rw [hs]; rfl)
    rw [hout]
    rw [decode_eq_bytes] at ho
    show _ = (bytes (s.take (4 * (lead s / 4)))).getD [] ++ _
    rw [ho]; rfl
  · rw [if_pos h4, if_pos h4]

end Verif.Base64
