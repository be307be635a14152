import Verif.Threads
import Verif.Props.DateTime
import Verif.Demo

/-!
# C101: time stamps that are written in several threads
-/

namespace Verif.Props
open Verif.Core Verif.DateTime Verif.Threads Verif.Demo

/-- **C101 (partial): threads that do not overlap.** Any number of threads, any number of calls each, any schedule in which no thread
calls `gmtime` while another one reads its result: the texts that a thread has obtained are those of its own time stamps, in order.

Missing: calls that overlap (`C101_two_iff`, `C101_other_text`). -/
theorem C101_exclusive_partial (clk : Nat) (junk : Nat → Str) (shared : Tm) (todo : Nat → List Request) (schedule : List Nat)
    (h : Exclusive clk junk (start shared todo) schedule) (i : Nat) :
    let l := (run clk junk (start shared todo) schedule).threads i
    l.out = ((todo i).take l.out.length).map (·.text clk junk) ∧ (l.todo = [] → l.now = none → l.out = (todo i).map (·.text clk junk)) := by
  intro l
  obtain ⟨past, hp, ho⟩ := (undisturbed_run clk junk todo schedule _ (undisturbed_start clk junk shared todo) h i).parts
  refine ⟨?_, fun h1 h2 => ?_⟩
  · have : l.out.length = past.length := by rw [show l.out = _ from ho, List.length_map]
    rw [this, hp, List.append_assoc, List.take_left]
    exact ho
  · rw [show l.out = _ from ho, hp, show ((run clk junk (start shared todo) schedule).threads i).now = none from h2,
      show ((run clk junk (start shared todo) schedule).threads i).todo = [] from h1]
    simp

/-- **C101: what any thread obtains in any schedule.** The `n`-th text of a thread has the form that it asked for, and each of its
fields is that of a time stamp which some thread formats. -/
theorem C101_mixture (clk : Nat) (junk : Nat → Str) (shared : Tm) (todo : Nat → List Request) (schedule : List Nat) (i n : Nat) (s : Str)
    (h : ((run clk junk (start shared todo) schedule).threads i).out[n]? = some s) :
    ∃ r, (todo i)[n]? = some r ∧ ∃ g : Nat → Request, (∀ k, ∃ i, g k ∈ todo i) ∧ s = mixed clk junk r.form g := by
  obtain ⟨past, hp, ho, hx⟩ := (mixes_run clk junk todo schedule _ (mixes_start clk junk shared todo _) i).parts
  have hn : n < past.length := by
    rw [← ho]
    exact (List.getElem?_eq_some_iff.1 h).1
  obtain ⟨g, hg, hs⟩ := hx n past[n] s (List.getElem?_eq_getElem hn) h
  refine ⟨past[n], ?_, g, hg, hs⟩
  rw [hp, List.append_assoc, List.getElem?_append_left hn]
  exact List.getElem?_eq_getElem hn

/-- Thread 0 formats `r`, thread 1 formats `r'`. -/
def two (r r' : Request) : Nat → List Request
  | 0 => [r]
  | 1 => [r']
  | _ => []

/-- **C101: two threads, exactly.** The texts that thread 0 may obtain for `r`, while thread 1 formats `r'`: the first fields are
those of `r`, and the others those of `r'`, with the border anywhere. -/
theorem C101_two_iff (clk : Nat) (junk : Nat → Str) (shared : Tm) (r r' : Request) (s : Str) :
    (∃ schedule, ((run clk junk (start shared (two r r')) schedule).threads 0).out = [s]) ↔
    ∃ k, k ≤ r.form.count ∧ s = mixed clk junk r.form (fun j => if j < k then r else r') := by
  constructor
  · rintro ⟨schedule, h⟩
    have h0 : Torn clk junk r r' (start shared (two r r')) :=
      ⟨.inl ⟨rfl, rfl⟩, fun k hk => ⟨(by match k with | k + 2 => rfl), rfl⟩, fun _ _ => rfl, nofun, nofun, fun h => absurd rfl h⟩
    exact (torn_run clk junk r r' schedule _ h0).out s (by rw [h]; simp)
  · rintro ⟨k, hk, rfl⟩
    refine ⟨0 :: (List.replicate k 0 ++ 1 :: (List.replicate (r.form.count - k) 0 ++ [0])), ?_⟩
    rw [run_cons, run_append, run_cons, run_append]
    have e1 : (step clk junk (start shared (two r r')) 0).threads 0 = ⟨[], some (r, []), []⟩ := rfl
    have s1 : (step clk junk (start shared (two r r')) 0).shared = r.tm clk := rfl
    have t1 : (step clk junk (start shared (two r r')) 0).threads 1 = ⟨[r'], none, []⟩ := rfl
    obtain ⟨a1, a2, a3⟩ := reads clk junk r [] [] k _ [] e1 (by simpa using hk)
    generalize run clk junk (step clk junk (start shared (two r r')) 0) (List.replicate k 0) = S at a1 a2 a3 ⊢
    rw [s1] at a2
    have a4 : S.threads 1 = ⟨[r'], none, []⟩ := (a3 1 (by omega)).trans t1
    have e2 : step clk junk S 1 = ⟨r'.tm clk, (S.update 1 ⟨[], some (r', []), []⟩).threads⟩ := by simp only [step, a4]
    have e3 : (step clk junk S 1).threads 0 = ⟨[], some (r, torn clk r r' k k), []⟩ := by
      rw [e2]
      simp only [update_other S _ (show 0 ≠ 1 by omega), a1, s1]
      simp only [List.nil_append, List.length_nil, Nat.zero_add]
      congr 3
      refine List.map_congr_left fun j hj => ?_
      simp only [List.mem_range] at hj
      simp only [hj, if_true]
    have s3 : (step clk junk S 1).shared = r'.tm clk := by rw [e2]
    obtain ⟨b1, -, -⟩ := reads clk junk r [] [] (r.form.count - k) _ _ e3 (by simp [torn]; omega)
    generalize run clk junk (step clk junk S 1) (List.replicate (r.form.count - k) 0) = S' at b1 ⊢
    have hfull : torn clk r r' k k ++ (List.range (r.form.count - k)).map (fun j => fieldOf (step clk junk S 1).shared ((torn clk r r' k k).length + j)) =
        torn clk r r' k r.form.count := by
      rw [s3]
      have hl : (torn clk r r' k k).length = k := by simp [torn]
      rw [hl]
      obtain ⟨n, hn⟩ : ∃ n, r.form.count = k + n := ⟨r.form.count - k, by omega⟩
      rw [hn, Nat.add_sub_cancel_left]
      simp only [torn, List.range_add, List.map_append, List.map_map]
      congr 1
      refine List.map_congr_left fun j _ => ?_
      simp only [Function.comp, show ¬ k + j < k by omega, if_false]
    rw [hfull] at b1
    have hcount : (torn clk r r' k r.form.count).length = r.form.count := by simp [torn]
    show ((step clk junk S' 0).threads 0).out = _
    simp only [step, b1, hcount, Nat.lt_irrefl, if_false, update_same, List.nil_append]
    rfl

/-- **C101 fails whenever it can**: for any two time stamps there is a schedule in which a thread that formats the first one obtains the
text of the second one. -/
theorem C101_other_text (clk : Nat) (junk : Nat → Str) (shared : Tm) (form : Form) (t t' : Int) :
    ∃ schedule, ((run clk junk (start shared (two ⟨form, t⟩ ⟨form, t'⟩)) schedule).threads 0).out = [(Request.mk form t').text clk junk] :=
  (C101_two_iff clk junk shared _ _ _).2 ⟨0, Nat.zero_le _, by
    rw [← mixed_same]
    exact congrArg (mixed clk junk form) (by funext j; simp)⟩

/-- **C101, negation: a day that does not exist.** One thread writes 2000-02-28, another one 2000-01-31, both at 12:00:00 (clock in
nanoseconds). The first one may write 2000-02-31, which no reader accepts. -/
theorem C101_no_such_day (junk : Nat → Str) (shared : Tm) :
    ∃ schedule, ((run 1000000000 junk (start shared (two ⟨.moment, 951739200000000000⟩ ⟨.moment, 949320000000000000⟩)) schedule).threads 0).out =
      [lit "2000-02-31T12:00:00Z"] ∧ parseDatetime 1000000000 (lit "2000-02-31T12:00:00Z") = .rejected := by
  obtain ⟨schedule, h⟩ := (C101_two_iff 1000000000 junk shared ⟨.moment, 951739200000000000⟩ ⟨.moment, 949320000000000000⟩ _).2 ⟨2, by decide, rfl⟩
  exact ⟨schedule, h.trans (congrArg (· :: []) rfl), by decide +kernel⟩

/-- **C101: one thread.** If only one thread runs, then it obtains the texts of its time stamps. -/
theorem C101_alone (clk : Nat) (junk : Nat → Str) (shared : Tm) (todo : Nat → List Request) (i n : Nat) :
    let l := (run clk junk (start shared todo) (List.replicate n i)).threads i
    l.out = ((todo i).take l.out.length).map (·.text clk junk) ∧ (l.todo = [] → l.now = none → l.out = (todo i).map (·.text clk junk)) := by
  have others : ∀ n k, k ≠ i → (run clk junk (start shared todo) (List.replicate n i)).threads k = ⟨todo k, none, []⟩ := by
    intro n
    induction n with
    | zero => exact fun k _ => rfl
    | succ n ih =>
      intro k hk
      rw [List.replicate_succ', run_snoc]
      rcases step_cases clk junk (run clk junk (start shared todo) (List.replicate n i)) i with ⟨-, -, e⟩ | ⟨r, rest, -, -, e⟩ | ⟨r, got, -, -, e⟩ | ⟨r, got, -, -, e⟩ <;>
        rw [e] <;> first | exact ih k hk | (simp only [update_other _ _ hk]; exact ih k hk)
  refine C101_exclusive_partial clk junk shared todo _ (fun before j after e hn ht k => ?_) i
  have hb : before = List.replicate before.length i := by
    refine List.eq_replicate_iff.2 ⟨rfl, fun b hb => ?_⟩
    have : b ∈ List.replicate n i := by rw [e]; simp [hb]
    exact List.eq_of_mem_replicate this
  have hj : j = i := List.eq_of_mem_replicate (n := n) (by rw [e]; simp)
  subst hj
  rintro ⟨r, got, h1, -⟩
  by_cases hk : k = j
  · rw [hk, hn] at h1
    cases h1
  · rw [hb, others _ k hk] at h1
    cases h1

/-- **C101 (partial): the document.** A thread that serializes a vector of time stamps, and has finished, in a schedule without overlap,
has the strings of the document that `serialize` makes of it (in one thread).

Missing: as for `C101_exclusive_partial`. -/
theorem C101_document_partial (env : Env) (shared : Tm) (times : Nat → List Int) (schedule : List Nat)
    (h : Exclusive env.clk env.junk (start shared fun i => (times i).map (Request.mk .moment)) schedule) (i : Nat)
    (l : Local) (hl : (run env.clk env.junk (start shared fun i => (times i).map (Request.mk .moment)) schedule).threads i = l)
    (ht : l.todo = []) (hn : l.now = none) :
    serializeToDocument env (.vec (.prim .time)) (.seq ((times i).map fun t => .prim (.time t))) = some (some (.arr (l.out.map .str))) := by
  have e := (C101_exclusive_partial env.clk env.junk shared _ schedule h i).2 (by rw [hl]; exact ht) (by rw [hl]; exact hn)
  rw [hl] at e
  have key : ∀ (ts : List Int) (k : Nat) (segs : List Seg) (σ : STab), serItems env (ts.map fun t => Val.prim (.time t)) (List.replicate ts.length (.prim .time)) k segs σ =
      .done σ (some ((ts.map (Request.mk .moment)).map fun r => Json.str (r.text env.clk env.junk))) := by
    intro ts
    induction ts with
    | nil => intro k segs σ; rfl
    | cons t ts ih =>
      intro k segs σ
      simp only [List.map_cons, List.length_cons, List.replicate_succ, serItems, ser, serPrim_time, ih]
      rfl
  simp only [serializeToDocument, ser, List.length_map, key, e, List.map_map]
  rfl

/-! ## Examples -/

/-- Thread 0 formats one moment, thread 1 two dates. -/
def someCalls : Nat → List Request
  | 0 => [⟨.moment, 951739200000000000⟩]
  | 1 => [⟨.date, 0⟩, ⟨.date, 949320000000000000⟩]
  | _ => []

/-- Thread 0 has read its fields when thread 1 begins, and formats them afterwards. -/
def someSchedule : List Nat := [0, 0, 0, 0, 0, 0, 0, 1, 1, 0, 1, 1, 1, 1]

/-- Nothing unspecified. -/
def noJunk : Nat → Str := fun _ => []

/-- 1970-01-01T00:00:00 -/
def epoch : Tm := ⟨1970, 1, 1, 0, 0, 0⟩

theorem some_exclusive : Exclusive 1000000000 noJunk (start epoch someCalls) someSchedule := by
  refine exclusive_of_check 1000000000 noJunk 2 _ _ (fun k hk => ⟨?_, rfl⟩) (by decide +kernel)
  match k with
  | k + 2 => rfl

example : ((run 1000000000 noJunk (start epoch someCalls) someSchedule).threads 1).out = [lit "1970-01-01"] :=
  (C101_exclusive_partial 1000000000 noJunk epoch someCalls someSchedule some_exclusive 1).1.trans (by decide +kernel)

example : ((run 1000000000 noJunk (start epoch someCalls) someSchedule).threads 0).out = [lit "2000-02-28T12:00:00Z"] :=
  ((C101_exclusive_partial 1000000000 noJunk epoch someCalls someSchedule some_exclusive 0).2 (by decide +kernel) (by decide +kernel)).trans (by decide +kernel)

example (junk : Nat → Str) (shared : Tm) (schedule : List Nat) (s : Str) (h : ((run 1000000000 junk (start shared someCalls) schedule).threads 0).out[0]? = some s) :
    ∃ g : Nat → Request, (∀ k, ∃ i, g k ∈ someCalls i) ∧ s = mixed 1000000000 junk .moment g := by
  obtain ⟨r, hr, h⟩ := C101_mixture 1000000000 junk shared someCalls schedule 0 0 s h
  cases hr
  exact h

example : ∃ schedule, ((run 1000000000 noJunk (start epoch (two ⟨.moment, 951739200000000000⟩ ⟨.moment, 0⟩)) schedule).threads 0).out =
    [lit "1970-01-01T00:00:00Z"] := by
  obtain ⟨schedule, h⟩ := C101_other_text 1000000000 noJunk epoch .moment 951739200000000000 0
  exact ⟨schedule, h.trans (by decide +kernel)⟩

example : ((run 1000000000 noJunk (start epoch someCalls) (List.replicate 10 1)).threads 1).out = [lit "1970-01-01", lit "2000-01-31"] :=
  ((C101_alone 1000000000 noJunk epoch someCalls 1 10).2 (by decide +kernel) (by decide +kernel)).trans (by decide +kernel)

/-- Each of two threads serializes a vector of time stamps. -/
def someTimes : Nat → List Int
  | 0 => [0, 951739200000000000]
  | 1 => [949320000000000000]
  | _ => []

/-- Thread 1 takes its turn between the two time stamps of thread 0. -/
def taking : List Nat := List.replicate 8 0 ++ List.replicate 8 1 ++ List.replicate 8 0

example : serializeToDocument Demo.env (.vec (.prim .time)) (.seq [.prim (.time 0), .prim (.time 951739200000000000)]) =
    some (some (.arr [.str (lit "1970-01-01T00:00:00Z"), .str (lit "2000-02-28T12:00:00Z")])) := by
  have hx : Exclusive Demo.env.clk Demo.env.junk (start epoch fun i => (someTimes i).map (Request.mk .moment)) taking := by
    refine exclusive_of_check _ _ 2 _ _ (fun k hk => ⟨?_, rfl⟩) (by decide +kernel)
    match k with
    | k + 2 => rfl
  have := C101_document_partial Demo.env epoch someTimes taking hx 0 _ rfl (by decide +kernel) (by decide +kernel)
  rw [show (run Demo.env.clk Demo.env.junk (start epoch fun i => (someTimes i).map (Request.mk .moment)) taking |>.threads 0).out =
    [lit "1970-01-01T00:00:00Z", lit "2000-02-28T12:00:00Z"] by decide +kernel] at this
  exact this

end Verif.Props
