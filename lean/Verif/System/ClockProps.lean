import Verif.System.Clock
import Verif.System.TimerProps

set_option autoImplicit false

/-!
# C139: how far the measured times are from the real ones

`Valid t`: the clock shows a time that fits in 64 bits when counted in microseconds with room to spare (until the year 148000).
-/

namespace Lolly.ClockProps

open Lolly.Clock

/-! ## Specification -/

/-- Times that can occur, in microseconds. -/
def Valid (t : Int) : Prop := -2 ^ 62 ≤ t ∧ t < 2 ^ 62

instance (t : Int) : Decidable (Valid t) := inferInstanceAs (Decidable (_ ∧ _))

/-- The time of an event. -/
def time : Ev → Int
  | .init t => t
  | .ask t => t

/-! ## Lemmas -/

theorem long_ok {x : Int} (h : -2 ^ 63 ≤ x ∧ x < 2 ^ 63) : long x = .ok x := if_pos h

theorem rawTime_eq {t : Int} (h : Valid t) : rawTime t = .ok (t / 1000) := by
  unfold Valid at h
  have h1 : long (t / 1000000 * 1000) = .ok (t / 1000000 * 1000) := long_ok (by omega)
  have h2 : (t % 1000000).tdiv 1000 = t % 1000000 / 1000 := Int.tdiv_eq_ediv_of_nonneg (by omega)
  have h3 : t / 1000000 * 1000 + t % 1000000 / 1000 = t / 1000 := by omega
  unfold rawTime timeOfDay
  simp only [h1, h2, Res.ok_bind]
  rw [h3]
  exact long_ok (by omega)

theorem texmacsTime_eq {t t0 : Int} (h : Valid t) (h0 : Valid t0) :
    texmacsTime ⟨t0 / 1000⟩ t = .ok (t / 1000 - t0 / 1000) := by
  unfold texmacsTime
  simp only [rawTime_eq h, Res.ok_bind]
  unfold Valid at h h0
  exact long_ok (by omega)

/-! ## C139 -/

/-- `raw_time` is the number of whole milliseconds since 1970. -/
theorem C139_raw {t : Int} (h : Valid t) :
    ∃ r, rawTime t = .ok r ∧ 1000 * r ≤ t ∧ t < 1000 * (r + 1) := by
  refine ⟨t / 1000, rawTime_eq h, ?_, ?_⟩ <;> omega

/-- Two readings: the later one is not smaller, and their difference is less than a millisecond from the time that has
passed. -/
theorem C139_elapsed {t u : Int} (ht : Valid t) (hu : Valid u) (h : t ≤ u) :
    ∃ r s, rawTime t = .ok r ∧ rawTime u = .ok s ∧ r ≤ s ∧
      1000 * (s - r) < u - t + 1000 ∧ u - t < 1000 * (s - r) + 1000 := by
  refine ⟨t / 1000, u / 1000, rawTime_eq ht, rawTime_eq hu, ?_, ?_, ?_⟩ <;> omega

/-- Once the program is initialised, at the time `t0`, every call of `texmacs_time` gives the milliseconds since then, up
to less than one; one call after the other, they do not decrease while the clock does not. -/
theorem C139_since {t0 : Int} (h0 : Valid t0) {l : List Int} (hl : ∀ t ∈ l, Valid t) :
    ∃ out st, run boot (.init t0 :: l.map .ask) = .ok (st, out) ∧ out.length = l.length ∧
      (∀ (i : Nat) (t r : Int), l[i]? = some t → out[i]? = some r →
        1000 * r < t - t0 + 1000 ∧ t - t0 < 1000 * r + 1000) ∧
      (l.Pairwise (· ≤ ·) → out.Pairwise (· ≤ ·)) := by
  have key : run ⟨t0 / 1000⟩ (l.map .ask) = .ok (⟨t0 / 1000⟩, l.map fun t => t / 1000 - t0 / 1000) := by
    induction l with
    | nil => rfl
    | cons t l ih =>
      have e := texmacsTime_eq (hl t (by simp)) h0
      have i := ih fun x hx => hl x (by simp [hx])
      simp only [List.map_cons, run, step, e, Res.ok_bind, i]
      rfl
  refine ⟨l.map fun t => t / 1000 - t0 / 1000, ⟨t0 / 1000⟩, ?_, ?_, ?_, ?_⟩
  · simp only [run, step, rawTime_eq h0, Res.ok_bind, key]
    rfl
  · simp
  · intro i t r ht hr
    simp only [List.getElem?_map, ht, Option.map_some, Option.some.injEq] at hr
    omega
  · intro hp
    simp only [List.pairwise_map]
    exact hp.imp fun h => by omega

/-- Seconds and microseconds read one after the other within one second are the time of the second reading. -/
theorem C139_pair_partial {t u : Int} (h : t / 1000000 = u / 1000000) :
    getSecTime t * 1000000 + getUsecTime u = u := by
  unfold getSecTime getUsecTime timeOfDay
  dsimp only
  omega

/-- In general such a pair is wrong by exactly the seconds that began between the readings. -/
theorem C139_pair (t u : Int) :
    getSecTime t * 1000000 + getUsecTime u = u - 1000000 * (u / 1000000 - t / 1000000) ∧
    0 ≤ getUsecTime u ∧ getUsecTime u < 1000000 := by
  unfold getSecTime getUsecTime timeOfDay
  dsimp only
  omega

/-- Two readings one microsecond apart can give a time that is almost a second before both. -/
theorem C139_pair_violated :
    ¬ ∀ t u, Valid t → Valid u → t ≤ u →
      t ≤ getSecTime t * 1000000 + getUsecTime u ∧ getSecTime t * 1000000 + getUsecTime u ≤ u := by
  intro h
  exact absurd (h 1999999 2000000 (by decide) (by decide) (by decide)).1 (by decide)

/-- Before `start_time` has its value, for instance when another static object asks, the time is that since 1970. -/
theorem C139_early {t : Int} (h : Valid t) :
    ∃ r, run boot [.ask t] = .ok (boot, [r]) ∧ 1000 * r ≤ t ∧ t < 1000 * (r + 1) := by
  have e : texmacsTime boot t = .ok (t / 1000) := by
    have := texmacsTime_eq (t0 := 0) h (by decide)
    simpa [boot] using this
  refine ⟨t / 1000, ?_, ?_, ?_⟩
  · simp only [run, step, e, Res.ok_bind]; rfl
  · omega
  · omega

/-- Hence `texmacs_time` can decrease by decades although the clock goes on. -/
theorem C139_early_violated :
    ¬ ∀ (l : List Ev) (st : State) (out : List Int), run boot l = .ok (st, out) →
      (l.map time).Pairwise (· ≤ ·) → out.Pairwise (· ≤ ·) := by
  intro h
  have := h [.ask 1700000000000000, .init 1700000000000100, .ask 1700000000000200] ⟨1700000000000⟩ [1700000000000, 0]
    (by decide +kernel) (by decide)
  exact absurd this (by decide)

/-! ### Timers (C57) on this clock -/

open Lolly.Timer Lolly.TimerProps in
/-- The accumulated time of a task whose outermost intervals lasted from `i.1` to `i.2` on the clock (in microseconds) is
less than a millisecond per interval away from the time they lasted, modulo 2^32. `ms t` is what `texmacs_time` gives. -/
theorem C139_timer {t0 : Int} (h0 : Valid t0) {ms : Int → Int}
    (hms : ∀ t, Valid t → texmacsTime ⟨t0 / 1000⟩ t = .ok (ms t))
    (h : List (Bytes × Timer.Ev)) (k : Bytes) (l : List (Int × Int × List Timer.Ev))
    (hv : ∀ i ∈ l, Valid i.1 ∧ Valid i.2.1 ∧ Nested i.2.2)
    (hk : calls k h = l.flatMap fun i => .start (ms i.1) :: (i.2.2 ++ [.cumul (ms i.2.1)])) :
    ∃ c : Int, Timer.get (Timer.run Timer.init h).cumul k = UInt32.ofInt c ∧
      1000 * c ≤ (l.map fun i => i.2.1 - i.1).sum + 999 * l.length ∧
      (l.map fun i => i.2.1 - i.1).sum ≤ 1000 * c + 999 * l.length := by
  have m : ∀ t, Valid t → ms t = t / 1000 - t0 / 1000 := by
    intro t ht
    have := hms t ht
    rw [texmacsTime_eq ht h0] at this
    injection this with this
    exact this.symm
  have c := (C57_intervals h k (l.map fun i => ⟨ms i.1, i.2.2, ms i.2.1⟩)
    (by intro i hi; obtain ⟨j, hj, rfl⟩ := List.mem_map.1 hi; exact (hv j hj).2.2)
    (by rw [hk, List.flatMap_map]; rfl)).1
  refine ⟨_, c, ?_⟩
  clear c hk hms h
  induction l with
  | nil => simp [total]
  | cons i l ih =>
    have ih := ih fun j hj => hv j (by simp [hj])
    have hi := hv i (by simp)
    have e1 := m _ hi.1
    have e2 := m _ hi.2.1
    rw [List.map_cons, List.map_cons, List.sum_cons]
    have t : total (⟨ms i.1, i.2.2, ms i.2.1⟩ :: l.map fun i => (⟨ms i.1, i.2.2, ms i.2.1⟩ : Interval)) =
        ms i.2.1 - ms i.1 + total (l.map fun i => (⟨ms i.1, i.2.2, ms i.2.1⟩ : Interval)) := by
      simp [total]
    rw [t, e1, e2, List.length_cons]
    push_cast
    omega

/-! ### Cases -/

example : Valid 1700000000123456 ∧ rawTime 1700000000123456 = .ok 1700000000123 := by decide +kernel

example : run boot [.init 1700000000123456, .ask 1700000000123999, .ask 1700000001124000] =
    .ok (⟨1700000000123⟩, [0, 1001]) := by decide +kernel

example : (1000001 : Int) / 1000000 = 1999999 / 1000000 := by decide

example : ∃ ms : Int → Int, ∀ t, Valid t → texmacsTime ⟨(5000 : Int) / 1000⟩ t = .ok (ms t) :=
  ⟨fun t => t / 1000 - 5000 / 1000, fun _ h => texmacsTime_eq h (by decide)⟩

open Lolly.TimerProps in
example : calls (b!"a") [(b!"a", .start 0), (b!"b", .start 1), (b!"a", .cumul 2)] =
    [((5999 : Int), (7001 : Int), ([] : List Timer.Ev))].flatMap fun i =>
      .start (i.1 / 1000 - 5) :: (i.2.2 ++ [.cumul (i.2.1 / 1000 - 5)]) := rfl

end Lolly.ClockProps
