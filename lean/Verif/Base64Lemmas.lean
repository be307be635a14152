import Verif.Base64
import Verif.Base64Spec

namespace Verif.Base64
open Spec

theorem encodeTable_length : encodeTable.length = 64 := by decide
theorem decodeTable_length : decodeTable.length = 256 := by decide +kernel

theorem enc_eq_alphabet : ∀ i, i < 64 → enc i = alphabet i := by decide +kernel

theorem dec_spec' : ∀ n, n < 256 → symbol (UInt8.ofNat n) =
    (if dec (UInt8.ofNat n) < 64 then some (dec (UInt8.ofNat n)) else none) := by decide +kernel

theorem dec_ff' : ∀ n, n < 256 → dec (UInt8.ofNat n) < 64 ∨ dec (UInt8.ofNat n) = 255 := by
  decide +kernel

theorem dec_enc : ∀ i, i < 64 → dec (enc i) = i := by decide +kernel
theorem enc_ne_pad : ∀ i, i < 64 → enc i ≠ 61 := by decide +kernel

theorem dec_spec (c : UInt8) : symbol c = if dec c < 64 then some (dec c) else none := by
  have := dec_spec' c.toNat c.toNat_lt
  simpa using this

theorem dec_ff (c : UInt8) : dec c < 64 ∨ dec c = 255 := by
  have := dec_ff' c.toNat c.toNat_lt
  simpa using this

/-! ### shifts and masks as arithmetic -/

theorem and3 (x : Nat) : x &&& 3 = x % 4 := Nat.and_two_pow_sub_one_eq_mod x 2
theorem and15 (x : Nat) : x &&& 15 = x % 16 := Nat.and_two_pow_sub_one_eq_mod x 4
theorem and63 (x : Nat) : x &&& 63 = x % 64 := Nat.and_two_pow_sub_one_eq_mod x 6

theorem shl_or (a b k : Nat) (h : b < 2^k) : (a <<< k) ||| b = a * 2^k + b := by
  rw [← Nat.shiftLeft_add_eq_or_of_lt h, Nat.shiftLeft_eq]

theorem tripletIdx_eq (a b c : Nat) (hb : b < 256) (hc : c < 256) :
    tripletIdx a b c = [a / 4, a % 4 * 16 + b / 16, b % 16 * 4 + c / 64, c % 64] := by
  unfold tripletIdx
  rw [shl_or _ _ 4 (by rw [Nat.shiftRight_eq_div_pow]; omega),
      shl_or _ _ 2 (by rw [Nat.shiftRight_eq_div_pow]; omega)]
  simp [and3, and15, and63, Nat.shiftRight_eq_div_pow]

theorem littleIdx_eq (v : Nat) :
    littleIdx v = [v / 2^2 % 64, v % 4 * 16 + v / 2^12 % 16, v / 2^8 % 16 * 4 + v / 2^22 % 4,
      v / 2^16 % 64, v / 2^26 % 64, v / 2^24 % 4 * 16 + v / 2^36 % 16,
      v / 2^32 % 16 * 4 + v / 2^46 % 4, v / 2^40 % 64] := by
  unfold littleIdx
  simp only [and3, and15, and63, Nat.shiftRight_eq_div_pow]
  rw [shl_or _ _ 4 (by omega), shl_or _ _ 2 (by omega), shl_or _ _ 4 (by omega),
    shl_or _ _ 2 (by omega)]

theorem bigIdx_eq (v : Nat) :
    bigIdx v = [v / 2^58 % 64, v / 2^52 % 64, v / 2^46 % 64, v / 2^40 % 64,
      v / 2^34 % 64, v / 2^28 % 64, v / 2^22 % 64, v / 2^16 % 64] := by
  unfold bigIdx
  simp only [and63, Nat.shiftRight_eq_div_pow]

/-- Both word encoders produce the two triplets of the first six bytes; the last two bytes of the
word do not matter. -/
theorem sextet_eq (e : Endian) (m : Mem) (p : Nat) :
    sextetIdx e (load64 e m p) =
      tripletIdx (m p).toNat (m (p+1)).toNat (m (p+2)).toNat
        ++ tripletIdx (m (p+3)).toNat (m (p+4)).toNat (m (p+5)).toNat := by
  have h0 := (m p).toNat_lt
  have h1 := (m (p+1)).toNat_lt
  have h2 := (m (p+2)).toNat_lt
  have h3 := (m (p+3)).toNat_lt
  have h4 := (m (p+4)).toNat_lt
  have h5 := (m (p+5)).toNat_lt
  have h6 := (m (p+6)).toNat_lt
  have h7 := (m (p+7)).toNat_lt
  rw [tripletIdx_eq _ _ _ (by omega) (by omega), tripletIdx_eq _ _ _ (by omega) (by omega)]
  cases e
  · simp only [sextetIdx, littleIdx_eq, load64, List.cons_append, List.nil_append]
    generalize (m p).toNat = b0 at *
    generalize (m (p+1)).toNat = b1 at *
    generalize (m (p+2)).toNat = b2 at *
    generalize (m (p+3)).toNat = b3 at *
    generalize (m (p+4)).toNat = b4 at *
    generalize (m (p+5)).toNat = b5 at *
    generalize (m (p+6)).toNat = b6 at *
    generalize (m (p+7)).toNat = b7 at *
    simp only [List.cons.injEq, and_true]
    refine ⟨?_, ?_, ?_, ?_, ?_, ?_, ?_, ?_⟩ <;> omega
  · simp only [sextetIdx, bigIdx_eq, load64, List.cons_append, List.nil_append]
    generalize (m p).toNat = b0 at *
    generalize (m (p+1)).toNat = b1 at *
    generalize (m (p+2)).toNat = b2 at *
    generalize (m (p+3)).toNat = b3 at *
    generalize (m (p+4)).toNat = b4 at *
    generalize (m (p+5)).toNat = b5 at *
    generalize (m (p+6)).toNat = b6 at *
    generalize (m (p+7)).toNat = b7 at *
    simp only [List.cons.injEq, and_true]
    refine ⟨?_, ?_, ?_, ?_, ?_, ?_, ?_, ?_⟩ <;> omega

/-! ### the fast path is two triplets per word -/

theorem fastLoop_out (e : Endian) (m : Mem) (k p : Nat) :
    (fastLoop e m k p).out = (tripletLoop m (2 * k) p).out := by
  induction k generalizing p with
  | zero => rfl
  | succ k ih =>
    have : 2 * (k + 1) = (2 * k) + 1 + 1 := by omega
    rw [this]
    simp only [fastLoop, tripletLoop, Trace.append, ih, sextet_eq, List.map_append,
      encodeTriplet, List.append_assoc, Nat.add_assoc]

theorem tripletLoop_add (m : Mem) (j k p : Nat) :
    (tripletLoop m (j + k) p).out = (tripletLoop m j p).out ++ (tripletLoop m k (p + 3 * j)).out := by
  induction j generalizing p with
  | zero => simp [tripletLoop]
  | succ j ih =>
    have h1 : j + 1 + k = (j + k) + 1 := by omega
    have h2 : p + 3 * (j + 1) = p + 3 + 3 * j := by omega
    rw [h1, h2]
    simp [tripletLoop, Trace.append, ih]

/-- The encoder's output is the plain triplet encoding. -/
theorem encodeMem_out (e : Endian) (m : Mem) (n : Nat) :
    (encodeMem e m n).out = (tripletLoop m (n / 3) 0).out ++ (lastPart m n).out := by
  unfold encodeMem
  split
  · subst_vars; simp [tripletLoop, lastPart]
  · have h : n / 3 = 2 * (n / 24 * 4) + (n / 3 - n / 24 * 4 * 2) := by omega
    conv => rhs; rw [h, tripletLoop_add]
    simp only [Trace.append, fastLoop_out, List.append_assoc]
    rw [show 0 + 3 * (2 * (n / 24 * 4)) = n / 24 * 4 * 6 by omega]

/-- Recursive form of the encoder. -/
def encodeRec : Str → Str
  | [] => []
  | [a] => (encodeTriplet a 0 0).take 2 ++ [61, 61]
  | [a, b] => (encodeTriplet a b 0).take 3 ++ [61]
  | a :: b :: c :: rest => encodeTriplet a b c ++ encodeRec rest

theorem tripletLoop_shift (m m' : Mem) (k p q : Nat) (h : ∀ i, i < 3 * k → m (p + i) = m' (q + i)) :
    (tripletLoop m k p).out = (tripletLoop m' k q).out := by
  induction k generalizing p q with
  | zero => rfl
  | succ k ih =>
    simp only [tripletLoop, Trace.append]
    have h0 := h 0 (by omega)
    have h1 := h 1 (by omega)
    have h2 := h 2 (by omega)
    simp only [Nat.add_zero] at h0
    rw [h0, h1, h2, ih (p + 3) (q + 3)]
    intro i hi
    have := h (i + 3) (by omega)
    rw [show p + 3 + i = p + (i + 3) by omega, show q + 3 + i = q + (i + 3) by omega, this]

theorem memOf_lt (bs : Str) (f : Mem) (k : Nat) (h : k < bs.length) : memOf bs f k = bs[k] := by
  simp [memOf, h]

theorem encode_eq_encodeRec (e : Endian) (f : Mem) (bs : Str) :
    encode e f bs = encodeRec bs := by
  unfold encode
  rw [encodeMem_out]
  induction bs using encodeRec.induct with
  | case1 => simp [tripletLoop, lastPart, encodeRec]
  | case2 a => simp [tripletLoop, lastPart, encodeRec, memOf]
  | case3 a b => simp [tripletLoop, lastPart, encodeRec, memOf]
  | case4 a b c rest ih =>
    have hl : (a :: b :: c :: rest).length / 3 = rest.length / 3 + 1 := by simp; omega
    rw [hl]
    have e1 : (tripletLoop (memOf (a :: b :: c :: rest) f) (rest.length / 3 + 1) 0).out
        = encodeTriplet a b c ++ (tripletLoop (memOf rest f) (rest.length / 3) 0).out := by
      simp only [tripletLoop, Trace.append]
      congr 1
      apply tripletLoop_shift
      intro i hi
      rw [memOf_lt _ _ _ (by simp; omega), memOf_lt _ _ _ (by omega)]
      simp [show 0 + 3 + i = i + 1 + 1 + 1 by omega]
    have e2 : (lastPart (memOf (a :: b :: c :: rest) f) (a :: b :: c :: rest).length).out
        = (lastPart (memOf rest f) rest.length).out := by
      simp only [lastPart]
      have hm : (a :: b :: c :: rest).length % 3 = rest.length % 3 := by simp; omega
      rw [hm]
      split
      · rw [memOf_lt _ _ _ (by simp), memOf_lt _ _ _ (by simp), memOf_lt _ _ _ (by omega),
          memOf_lt _ _ _ (by omega)]
        have : ∀ j, (hj : j < rest.length) → (a :: b :: c :: rest)[j+3]'(by simp; omega) = rest[j] := by
          intro j hj; simp
        have i1 : (a :: b :: c :: rest).length - 2 = (rest.length - 2) + 3 := by simp; omega
        have i2 : (a :: b :: c :: rest).length - 1 = (rest.length - 1) + 3 := by simp; omega
        simp only [i1, i2]
        rw [this _ (by omega), this _ (by omega)]
      · split
        · rw [memOf_lt _ _ _ (by simp), memOf_lt _ _ _ (by omega)]
          have i2 : (a :: b :: c :: rest).length - 1 = (rest.length - 1) + 3 := by simp; omega
          simp only [i2, List.getElem_cons_succ]
        · rfl
    rw [e1, e2, List.append_assoc, ih, encodeRec]

/-! ### recursive form equals the RFC text -/

theorem testBit_toNat (x i : Nat) : (x.testBit i).toNat = x / 2^i % 2 := by
  rw [Nat.toNat_testBit]

theorem tripletIdx_lt (a b c : Nat) (ha : a < 256) (hb : b < 256) (hc : c < 256) :
    ∀ i ∈ tripletIdx a b c, i < 64 := by
  rw [tripletIdx_eq _ _ _ hb hc]
  simp only [List.mem_cons, List.not_mem_nil, or_false]
  rintro i (h | h | h | h) <;> omega

theorem bitsOf8 (v : Nat) : bitsOf 8 v = [v.testBit 7, v.testBit 6, v.testBit 5, v.testBit 4,
    v.testBit 3, v.testBit 2, v.testBit 1, v.testBit 0] := rfl

theorem bitsOf6 (v : Nat) : bitsOf 6 v = [v.testBit 5, v.testBit 4,
    v.testBit 3, v.testBit 2, v.testBit 1, v.testBit 0] := rfl

theorem valueOf6 (a b c d e f : Bool) : valueOf [a, b, c, d, e, f] =
    32 * a.toNat + 16 * b.toNat + 8 * c.toNat + 4 * d.toNat + 2 * e.toNat + f.toNat := by
  simp only [valueOf, List.foldl_cons, List.foldl_nil]; omega

theorem valueOf8 (a b c d e f g h : Bool) : valueOf [a, b, c, d, e, f, g, h] =
    128 * a.toNat + 64 * b.toNat + 32 * c.toNat + 16 * d.toNat + 8 * e.toNat + 4 * f.toNat
      + 2 * g.toNat + h.toNat := by
  simp only [valueOf, List.foldl_cons, List.foldl_nil]; omega

theorem encodeTriplet_spec (a b c : UInt8) :
    encodeTriplet a b c =
      [alphabet (a.toNat / 4), alphabet (a.toNat % 4 * 16 + b.toNat / 16),
       alphabet (b.toNat % 16 * 4 + c.toNat / 64), alphabet (c.toNat % 64)] := by
  have ha := a.toNat_lt
  have hb := b.toNat_lt
  have hc := c.toNat_lt
  unfold encodeTriplet
  rw [tripletIdx_eq _ _ _ (by omega) (by omega)]
  simp only [List.map_cons, List.map_nil]
  rw [enc_eq_alphabet _ (by omega), enc_eq_alphabet _ (by omega), enc_eq_alphabet _ (by omega),
    enc_eq_alphabet _ (by omega)]

theorem unpadded_cons3 (a b c : UInt8) (rest : Str) :
    unpadded (a :: b :: c :: rest) = encodeTriplet a b c ++ unpadded rest := by
  have ha := a.toNat_lt
  have hb := b.toNat_lt
  have hc := c.toNat_lt
  rw [encodeTriplet_spec]
  simp only [unpadded, List.flatMap_cons, bitsOf8, List.cons_append, List.nil_append, groups6,
    List.map_cons, valueOf6, testBit_toNat, List.cons.injEq]
  refine ⟨?_, ?_, ?_, ?_, trivial⟩ <;> congr 1 <;> omega

theorem unpadded_one (a : UInt8) : unpadded [a] = (encodeTriplet a 0 0).take 2 := by
  have ha := a.toNat_lt
  rw [encodeTriplet_spec]
  simp only [unpadded, List.flatMap_cons, bitsOf8, List.cons_append, List.nil_append, groups6,
    List.map_cons, valueOf6, testBit_toNat, List.cons.injEq, List.flatMap_nil, List.map_nil,
    List.take, Bool.toNat_false, and_true]
  have hz : (0 : UInt8).toNat = 0 := rfl
  rw [hz]
  refine ⟨?_, ?_⟩ <;> congr 1 <;> omega

theorem unpadded_two (a b : UInt8) : unpadded [a, b] = (encodeTriplet a b 0).take 3 := by
  have ha := a.toNat_lt
  have hb := b.toNat_lt
  rw [encodeTriplet_spec]
  simp only [unpadded, List.flatMap_cons, bitsOf8, List.cons_append, List.nil_append, groups6,
    List.map_cons, valueOf6, testBit_toNat, List.cons.injEq, List.flatMap_nil, List.map_nil,
    List.take, Bool.toNat_false, and_true]
  have hz : (0 : UInt8).toNat = 0 := rfl
  rw [hz]
  refine ⟨?_, ?_, ?_⟩ <;> congr 1 <;> omega

theorem text_cons3 (a b c : UInt8) (rest : Str) :
    text (a :: b :: c :: rest) = encodeTriplet a b c ++ text rest := by
  have hl : (encodeTriplet a b c).length = 4 := by simp [encodeTriplet, tripletIdx]
  have h2 : (unpadded (a :: b :: c :: rest)).length % 4 = (unpadded rest).length % 4 := by
    rw [unpadded_cons3, List.length_append, hl]; omega
  unfold text
  rw [h2, unpadded_cons3, List.append_assoc]

theorem encodeRec_eq_text (bs : Str) : encodeRec bs = text bs := by
  induction bs using encodeRec.induct with
  | case1 => rfl
  | case2 a =>
    have h : (unpadded [a]).length = 2 := by rw [unpadded_one]; simp [encodeTriplet, tripletIdx]
    rw [encodeRec, text, h, unpadded_one]; rfl
  | case3 a b =>
    have h : (unpadded [a, b]).length = 3 := by rw [unpadded_two]; simp [encodeTriplet, tripletIdx]
    rw [encodeRec, text, h, unpadded_two]; rfl
  | case4 a b c rest ih => rw [encodeRec, text_cons3, ih]

theorem encodeRec_length (bs : Str) : (encodeRec bs).length = 4 * ((bs.length + 2) / 3) := by
  induction bs using encodeRec.induct with
  | case1 => rfl
  | case2 a => simp [encodeRec, encodeTriplet, tripletIdx]
  | case3 a b => simp [encodeRec, encodeTriplet, tripletIdx]
  | case4 a b c rest ih =>
    simp only [encodeRec, List.length_append, ih, List.length_cons]
    simp only [encodeTriplet, tripletIdx, List.map_cons, List.map_nil, List.length_cons, List.length_nil]
    omega

/-! ### the decoder -/

theorem decodeQuad_some (a b c d : UInt8) (ha : dec a < 64) (hb : dec b < 64) (hc : dec c < 64)
    (hd : dec d < 64) : decodeQuad a b c d =
      some [UInt8.ofNat (dec a * 4 + dec b / 16), UInt8.ofNat (dec b % 16 * 16 + dec c / 4),
        UInt8.ofNat (dec c % 4 * 64 + dec d)] := by
  have h : (dec a ||| dec b ||| dec c ||| dec d) < 64 :=
    Nat.or_lt_two_pow (n := 6) (Nat.or_lt_two_pow (Nat.or_lt_two_pow ha hb) hc) hd
  have h0 : (dec a ||| dec b ||| dec c ||| dec d) &&& 0xC0 = 0 := by
    generalize (dec a ||| dec b ||| dec c ||| dec d) = x at h
    have : ∀ x, x < 64 → x &&& 0xC0 = 0 := by decide
    exact this x h
  unfold decodeQuad
  rw [if_neg (by simp [h0])]
  rw [shl_or _ _ 2 (by rw [Nat.shiftRight_eq_div_pow]; omega),
      shl_or _ _ 4 (by rw [Nat.shiftRight_eq_div_pow]; omega), shl_or _ _ 6 (by omega)]
  simp [and3, and15, Nat.shiftRight_eq_div_pow]

theorem or_255 (x : Nat) (h : x < 256) : x ||| 255 = 255 := by
  apply Nat.eq_of_testBit_eq
  intro i
  rw [Nat.testBit_or]
  by_cases hi : i < 8
  · have h255 : (255 : Nat).testBit i = true := by
      have : ∀ i, i < 8 → (255 : Nat).testBit i = true := by decide
      exact this i hi
    rw [h255]; simp
  · have : x.testBit i = false := Nat.testBit_lt_two_pow (Nat.lt_of_lt_of_le h (Nat.pow_le_pow_right (by omega) (by omega) : 2^8 ≤ 2^i))
    rw [this]; simp

theorem decodeQuad_none (a b c d : UInt8) (h : ¬ (dec a < 64 ∧ dec b < 64 ∧ dec c < 64 ∧ dec d < 64)) :
    decodeQuad a b c d = none := by
  have key : (dec a ||| dec b ||| dec c ||| dec d) = 255 := by
    have bound : ∀ c, dec c < 256 := fun c => by rcases dec_ff c with h | h <;> omega
    have ba := bound a; have bb := bound b; have bc := bound c; have bd := bound d
    have hab : (dec a ||| dec b) < 256 := Nat.or_lt_two_pow (n := 8) ba bb
    have habc : (dec a ||| dec b ||| dec c) < 256 := Nat.or_lt_two_pow (n := 8) hab bc
    rcases dec_ff a with h1 | h1
    · rcases dec_ff b with h2 | h2
      · rcases dec_ff c with h3 | h3
        · rcases dec_ff d with h4 | h4
          · exact absurd ⟨h1, h2, h3, h4⟩ h
          · rw [h4]; exact or_255 _ habc
        · rw [h3, or_255 _ hab, Nat.or_comm, or_255 _ bd]
      · rw [h2, or_255 _ ba, Nat.or_comm 255, or_255 _ bc, Nat.or_comm, or_255 _ bd]
    · rw [h1, Nat.or_comm 255, or_255 _ bb, Nat.or_comm 255, or_255 _ bc, Nat.or_comm, or_255 _ bd]
  unfold decodeQuad
  rw [key]
  rfl

end Verif.Base64
