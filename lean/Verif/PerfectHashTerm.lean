import Verif.PerfectHashLemmas

namespace Verif.PerfectHash
open BitSet

variable {h : Nat → Nat → Nat} {n : Nat}

/-! ### a bucket that cannot be distributed blocks the construction -/

theorem foldl_place_taken_length (d : Nat) (L : List Nat) (st : State) :
    (L.foldl (place h n d) st).taken.length = st.taken.length := by
  induction L generalizing st with
  | nil => rfl
  | cons k L ih => rw [List.foldl_cons, ih]; simp [place, length_set]

theorem processBucket_taken (hbs : BucketsOk h n bs) {fuel count i : Nat} (hi : i < n)
    (h1 : 1 ≤ count) {st st' : State} (hr : processBucket h n fuel bs count i st = .ok st') :
    st'.taken.length = st.taken.length := by
  by_cases hc : (bucket bs i).count = count
  · rw [processBucket_eq hbs hi hc h1] at hr
    obtain ⟨d, _, hr⟩ := Result.bind_ok hr
    cases hr
    rw [foldl_place_taken_length]
  · unfold processBucket at hr
    simp only [ne_eq, hc, not_false_eq_true, if_true] at hr
    cases hr; rfl

theorem scatterFrom_stuck (mask taken : BitSet) (hstuck : ∀ d, isDistributable h n d mask taken = false)
    (fuel d : Nat) : scatterFrom h n mask taken fuel d = .outOfFuel := by
  induction fuel generalizing d with
  | zero => rfl
  | succ fuel ih => unfold scatterFrom; rw [hstuck d]; simpa using ih (d + 1)

theorem processBuckets_taken (hbs : BucketsOk h n bs) {fuel count : Nat} (h1 : 1 ≤ count)
    (is : List Nat) (his : ∀ i ∈ is, i < n) {st st' : State}
    (hr : processBuckets h n fuel bs count is st = .ok st') : st'.taken.length = st.taken.length := by
  induction is generalizing st with
  | nil => simp only [processBuckets] at hr; cases hr; rfl
  | cons i is ih =>
    unfold processBuckets at hr
    obtain ⟨st1, hr1, hr2⟩ := Result.bind_ok hr
    rw [ih (fun j hj => his j (by simp [hj])) hr2, processBucket_taken hbs (his i (by simp)) h1 hr1]

theorem processBuckets_stuck (hbs : BucketsOk h n bs) {fuel count i0 : Nat} (hi0 : i0 < n)
    (hc : (bucket bs i0).count = count) (h1 : 1 ≤ count)
    (hstuck : ∀ d taken, taken.length = n → isDistributable h n d (bucket bs i0) taken = false)
    (is : List Nat) (his : ∀ i ∈ is, i < n) (hmem : i0 ∈ is) (st st' : State) (ht : st.taken.length = n) :
    processBuckets h n fuel bs count is st ≠ .ok st' := by
  induction is generalizing st with
  | nil => simp at hmem
  | cons i is ih =>
    intro hr
    unfold processBuckets at hr
    obtain ⟨st1, hr1, hr2⟩ := Result.bind_ok hr
    by_cases he : i0 = i
    · subst he
      rw [processBucket_eq hbs hi0 hc h1, scatterFrom_stuck _ _ (fun d => hstuck d _ ht)] at hr1
      cases hr1
    · have hmem' : i0 ∈ is := by
        rcases List.mem_cons.1 hmem with h' | h'
        · exact absurd h' he
        · exact h'
      refine ih (fun j hj => his j (by simp [hj])) hmem' st1 ?_ hr2
      rw [processBucket_taken hbs (his i (by simp)) h1 hr1, ht]

theorem processCounts_stuck (hbs : BucketsOk h n bs) {fuel i0 : Nat} (hi0 : i0 < n)
    (h2 : 2 ≤ (bucket bs i0).count)
    (hstuck : ∀ d taken, taken.length = n → isDistributable h n d (bucket bs i0) taken = false)
    (count : Nat) (hle : (bucket bs i0).count ≤ count) (st st' : State) (ht : st.taken.length = n) :
    processCounts h n fuel bs count st ≠ .ok st' := by
  induction count using Nat.strongRecOn generalizing st with
  | ind count ih =>
    match count, ih, hle with
    | 0, _, hle => omega
    | 1, _, hle => omega
    | c+2, ih, hle =>
      intro hr
      unfold processCounts at hr
      obtain ⟨st1, hr1, hr2⟩ := Result.bind_ok hr
      by_cases hc : (bucket bs i0).count = c + 2
      · exact processBuckets_stuck hbs hi0 hc (by omega) hstuck (List.range n) (by simp)
          (by simpa using hi0) st st1 ht hr1
      · exact ih (c + 1) (by omega) (by omega) st1
          (by rw [processBuckets_taken hbs (by omega) (List.range n) (by simp) hr1, ht]) hr2

/-- Two items that agree under every seed make the seed search run forever. -/
theorem buildWith_stuck (fuel : Nat) {k1 k2 : Nat} (h12 : k1 < k2) (h2n : k2 < n)
    (hcol : ∀ d, h d k1 % n = h d k2 % n) : buildWith h n fuel = .outOfFuel := by
  have hn : 0 < n := by omega
  have hbs := buckets_ok h n
  have hi0 : h 0 k1 % n < n := Nat.mod_lt _ hn
  have hm1 := (mem_bucket_ones hbs hi0 k1).2 ⟨by omega, rfl⟩
  have hm2 := (mem_bucket_ones hbs hi0 k2).2 ⟨h2n, (hcol 0).symm⟩
  have h2 : 2 ≤ (bucket (buckets h n) (h 0 k1 % n)).count := by
    rw [count_eq]
    have hsub : [k1, k2] ⊆ ones (bucket (buckets h n) (h 0 k1 % n)) := by
      intro x hx
      simp only [List.mem_cons, List.not_mem_nil, or_false] at hx
      rcases hx with rfl | rfl
      · exact hm1
      · exact hm2
    have hnd : [k1, k2].Nodup := by simp; omega
    have := (List.subperm_of_subset hnd hsub).length_le
    simpa using this
  have hstuck : ∀ d (taken : BitSet), taken.length = n →
      isDistributable h n d (bucket (buckets h n) (h 0 k1 % n)) taken = false := by
    intro d taken ht
    cases hb : isDistributable h n d (bucket (buckets h n) (h 0 k1 % n)) taken with
    | false => rfl
    | true =>
      exfalso
      have := ((distributable_spec hn d _ (List.range n) taken ht).1 hb).2
      rw [List.pairwise_iff_getElem] at this
      rw [mem_ones] at hm1 hm2
      have e1 : k1 ∈ (List.range n).filter (bucket (buckets h n) (h 0 k1 % n)).get := by
        rw [List.mem_filter]; exact ⟨by simp; omega, hm1⟩
      have e2 : k2 ∈ (List.range n).filter (bucket (buckets h n) (h 0 k1 % n)).get := by
        rw [List.mem_filter]; exact ⟨by simp; omega, hm2⟩
      obtain ⟨a, ha, hae⟩ := List.getElem_of_mem e1
      obtain ⟨b, hb', hbe⟩ := List.getElem_of_mem e2
      rcases Nat.lt_trichotomy a b with hab | hab | hab
      · have := this a b ha hb' hab
        rw [hae, hbe] at this
        exact this (hcol d)
      · subst hab
        rw [hae] at hbe
        omega
      · have := this b a hb' ha hab
        rw [hae, hbe] at this
        exact this (hcol d).symm
  have hnok : ∀ st', processCounts h n fuel (buckets h n) n
      { taken := BitSet.empty n, table := { indexMap := List.replicate n 0, G := List.replicate n 0 } } ≠ .ok st' :=
    fun st' => processCounts_stuck hbs hi0 h2 hstuck n (bucket_count_le hbs hi0) _ st' (by simp [BitSet.empty])
  unfold buildWith
  simp only
  cases hr : processCounts h n fuel (buckets h n) n
      { taken := BitSet.empty n, table := { indexMap := List.replicate n 0, G := List.replicate n 0 } } with
  | ok st => exact absurd hr (hnok st)
  | thrown => exact absurd hr (processCounts_ne_thrown hbs _ _)
  | outOfFuel => rfl

/-! ### more fuel never changes a finished construction -/

theorem scatterFrom_mono (mask taken : BitSet) {f f' : Nat} (hf : f ≤ f') (d r : Nat)
    (hs : scatterFrom h n mask taken f d = .ok r) : scatterFrom h n mask taken f' d = .ok r := by
  induction f generalizing f' d with
  | zero => simp [scatterFrom] at hs
  | succ f ih =>
    obtain ⟨g, rfl⟩ : ∃ g, f' = g + 1 := ⟨f' - 1, by omega⟩
    unfold scatterFrom at hs ⊢
    split
    · rename_i hd; rw [if_pos hd] at hs; exact hs
    · rename_i hd; rw [if_neg hd] at hs; exact ih (by omega) _ hs

theorem Result.bind_mono {α β : Type} {r r' : Result α} {g g' : α → Result β}
    {b : β} (hr : ∀ a, r = .ok a → r' = .ok a) (hg : ∀ a, g a = .ok b → g' a = .ok b)
    (hb : r.bind g = .ok b) : r'.bind g' = .ok b := by
  obtain ⟨a, ha, hb⟩ := Result.bind_ok hb
  rw [hr a ha]
  exact hg a hb

section mono
variable {f f' : Nat}
  (hsc : ∀ mask taken r, scatterFrom h n mask taken f 1 = .ok r → scatterFrom h n mask taken f' 1 = .ok r)
include hsc

theorem processBucket_mono (bs : List BitSet) (count i : Nat) (st st' : State)
    (hr : processBucket h n f bs count i st = .ok st') : processBucket h n f' bs count i st = .ok st' := by
  unfold processBucket at hr ⊢
  simp only at hr ⊢
  split
  · rename_i hc; rw [if_pos hc] at hr; exact hr
  · rename_i hc
    rw [if_neg hc] at hr
    exact Result.bind_mono (hsc _ _) (fun _ h => h) hr

theorem processBuckets_mono (bs : List BitSet) (count : Nat) (is : List Nat) (st st' : State)
    (hr : processBuckets h n f bs count is st = .ok st') :
    processBuckets h n f' bs count is st = .ok st' := by
  induction is generalizing st with
  | nil => exact hr
  | cons i is ih =>
    unfold processBuckets at hr ⊢
    exact Result.bind_mono (processBucket_mono hsc bs count i st) (fun a h => ih a h) hr

theorem processCounts_mono (bs : List BitSet) (count : Nat) (st st' : State)
    (hr : processCounts h n f bs count st = .ok st') : processCounts h n f' bs count st = .ok st' := by
  induction count using Nat.strongRecOn generalizing st with
  | ind count ih =>
    match count, ih, hr with
    | 0, _, hr => exact hr
    | 1, _, hr => exact hr
    | c+2, ih, hr =>
      unfold processCounts at hr ⊢
      exact Result.bind_mono (processBuckets_mono hsc bs _ _ st) (fun a h => ih (c + 1) (by omega) a h) hr

theorem buildWith_mono (t : Table) (hr : buildWith h n f = .ok t) : buildWith h n f' = .ok t := by
  unfold buildWith at hr ⊢
  simp only at hr ⊢
  exact Result.bind_mono
    (fun a ha => Result.bind_mono (processCounts_mono hsc _ _ _) (fun _ h => h) ha)
    (fun _ h => h) hr

end mono

/-! ### low bits of the hash -/

theorem and_7f (x : Nat) : x &&& 0x7fffffffffffffff = x % 2^63 := Nat.and_two_pow_sub_one_eq_mod x 63

theorem mod_mod_pow (x a b : Nat) (hab : a ≤ b) : x % 2^b % 2^a = x % 2^a :=
  Nat.mod_mod_of_dvd x (Nat.pow_dvd_pow 2 hab)

theorem hashStep_mod (cs : Bool) (p : Nat) (hp : p ≤ 64) (d : Nat) (c : UInt8) :
    hashStep cs d c % 2^p = (d * 0x100000001b3 % 2^p) ^^^ (ext cs c % 2^p) := by
  have e : d + (d <<< 1 + d <<< 4 + d <<< 5 + d <<< 7 + d <<< 8 + d <<< 40) = d * 0x100000001b3 := by
    simp only [Nat.shiftLeft_eq]; omega
  unfold hashStep
  rw [Nat.xor_mod_two_pow, mod_mod_pow _ _ _ hp, e]

theorem foldl_hashStep_congr (cs : Bool) (p : Nat) (hp : p ≤ 64) (s s' : Str) (d d' : Nat)
    (hd : d % 2^p = d' % 2^p)
    (hs : s.map (fun c => ext cs c % 2^p) = s'.map (fun c => ext cs c % 2^p)) :
    s.foldl (hashStep cs) d % 2^p = s'.foldl (hashStep cs) d' % 2^p := by
  induction s generalizing s' d d' with
  | nil =>
    have : s' = [] := by
      have := congrArg List.length hs
      simpa using this.symm
    subst this; exact hd
  | cons c s ih =>
    cases s' with
    | nil => simp at hs
    | cons c' s' =>
      simp only [List.map_cons, List.cons.injEq] at hs
      simp only [List.foldl_cons]
      apply ih _ _ _ _ hs.2
      rw [hashStep_mod cs p hp, hashStep_mod cs p hp, hs.1, Nat.mul_mod d, hd, ← Nat.mul_mod]

theorem hash_congr (cs : Bool) (p : Nat) (hp : p ≤ 63) (s s' : Str) (d d' : Nat)
    (hd0 : d = 0 ↔ d' = 0) (hd : d % 2^p = d' % 2^p)
    (hs : s.map (fun c => ext cs c % 2^p) = s'.map (fun c => ext cs c % 2^p)) :
    hash cs d s % 2^p = hash cs d' s' % 2^p := by
  unfold hash
  rw [and_7f, and_7f, mod_mod_pow _ _ _ hp, mod_mod_pow _ _ _ hp]
  apply foldl_hashStep_congr cs p (by omega) _ _ _ _ _ hs
  by_cases h0 : d = 0
  · rw [if_pos h0, if_pos (hd0.1 h0)]
  · rw [if_neg h0, if_neg (fun h' => h0 (hd0.2 h'))]; exact hd

theorem ext_mod (cs : Bool) (p : Nat) (hp : p ≤ 8) (c : UInt8) : ext cs c % 2^p = c.toNat % 2^p := by
  unfold ext
  split
  · obtain ⟨q, hq⟩ : 2^p ∣ (2^64 - 256 : Nat) :=
      Nat.dvd_trans (Nat.pow_dvd_pow 2 hp) (by decide)
    rw [hq, Nat.add_mul_mod_self_left]
  · rfl

/-- Same length and bytewise congruent modulo `2^p`. -/
def LowBitsEqual (p : Nat) (s s' : Str) : Prop :=
  s.map (fun c => c.toNat % 2^p) = s'.map (fun c => c.toNat % 2^p)

instance (p : Nat) (s s' : Str) : Decidable (LowBitsEqual p s s') :=
  inferInstanceAs (Decidable (_ = _))

theorem hash_low (cs : Bool) (p : Nat) (hp : p ≤ 8) (s s' : Str) (hs : LowBitsEqual p s s') (d : Nat) :
    hash cs d s % 2^p = hash cs d s' % 2^p := by
  apply hash_congr cs p (by omega) _ _ _ _ Iff.rfl rfl
  simp only [ext_mod cs p hp]
  exact hs

/-! ### with `2^p` names at most `2^p` seeds need to be tried -/

theorem distributable_congr (d d' : Nat) (mask : BitSet) (hh : ∀ k, h d k % n = h d' k % n) (ks : List Nat)
    (taken : BitSet) : distributable h n d mask ks taken = distributable h n d' mask ks taken := by
  induction ks generalizing taken with
  | nil => rfl
  | cons k ks ih => simp only [distributable, hh k, ih]

theorem scatterFrom_outOfFuel (mask taken : BitSet) (f d : Nat) :
    scatterFrom h n mask taken f d = .outOfFuel ↔
      ∀ e, d ≤ e → e < d + f → isDistributable h n e mask taken = false := by
  induction f generalizing d with
  | zero => simp only [scatterFrom, true_iff]; intro e h1 h2; omega
  | succ f ih =>
    unfold scatterFrom
    by_cases hd : isDistributable h n d mask taken = true
    · rw [if_pos hd]
      simp only [reduceCtorEq, false_iff]
      intro hall
      have := hall d (by omega) (by omega)
      rw [hd] at this; cases this
    · rw [if_neg hd, ih]
      constructor
      · intro hall e h1 h2
        rcases Nat.lt_or_eq_of_le h1 with h' | h'
        · exact hall e (by omega) (by omega)
        · subst h'; simpa using hd
      · intro hall e h1 h2
        exact hall e (by omega) (by omega)

theorem scatterFrom_period (N : Nat) (hN : 0 < N)
    (hper : ∀ d d' k, 0 < d → 0 < d' → d % N = d' % N → h d k % n = h d' k % n)
    (mask taken : BitSet) (f r : Nat) (hs : scatterFrom h n mask taken f 1 = .ok r) :
    scatterFrom h n mask taken N 1 = .ok r := by
  by_cases hf : f ≤ N
  · exact scatterFrom_mono mask taken hf 1 r hs
  · cases hN1 : scatterFrom h n mask taken N 1 with
    | ok r' =>
      have := scatterFrom_mono mask taken (by omega : N ≤ f) 1 r' hN1
      rw [hs] at this
      exact this.symm
    | thrown => exact absurd hN1 (scatterFrom_ne_thrown _ _ _ _)
    | outOfFuel =>
      exfalso
      rw [scatterFrom_outOfFuel] at hN1
      have hr := scatterFrom_ok _ _ _ _ _ hs
      have key := hN1 ((r - 1) % N + 1) (by omega) (by have := Nat.mod_lt (r - 1) hN; omega)
      have hmod : r % N = ((r - 1) % N + 1) % N := by
        conv => lhs; rw [show r = (r - 1) + 1 by omega]
        rw [Nat.add_mod, Nat.add_mod ((r - 1) % N) 1, Nat.mod_mod]
      have := distributable_congr (h := h) (n := n) r ((r - 1) % N + 1) mask
        (fun k => hper _ _ k (by omega) (by omega) hmod) (List.range n) taken
      have h1 := hr.1
      unfold isDistributable at h1 key
      rw [this, key] at h1
      cases h1

theorem itemHash_period (cs : Bool) (items : List Str) (p : Nat) (hp : p ≤ 63) (hlen : items.length = 2^p)
    (d d' k : Nat) (h1 : 0 < d) (h2 : 0 < d') (hd : d % 2^p = d' % 2^p) :
    itemHash cs items d k % items.length = itemHash cs items d' k % items.length := by
  rw [hlen]
  exact hash_congr cs p hp _ _ _ _ (by omega) hd rfl

end Verif.PerfectHash
