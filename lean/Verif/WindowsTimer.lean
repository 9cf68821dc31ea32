/-!
# The due time of the Windows timer (include/stlab/concurrency/system_timer.hpp:180-202)

`duration_to_FILETIME` as a function of the clock and the duration. `system_clock` counts units of 100 ns since 1970. The conversion of
seconds to calendar fields by `gmtime_s` and back by `SystemTimeToFileTime` is the identity by contract; the fields are left out. The
result counts units of 100 ns since 1970 as well, the constant distance to the origin of FILETIME is left out. C++ integer division and
remainder truncate towards zero.
-/

namespace Verif.WindowsTimer

/-- `system_clock::now() + duration_cast<system_clock::duration>(duration)` (line 185), for a duration in nanoseconds. -/
def when_ (now duration : Int) : Int := now + duration.tdiv 100

/-- `system_clock::to_time_t` (line 186): whole seconds. -/
def toTimeT (w : Int) : Int := w.tdiv 10000000

/-- `wMilliseconds` (lines 195-198), as 16 bits. -/
def milliseconds (w : Int) : Int := ((w.tdiv 10000).tmod 1000) % 65536

/-- `SystemTimeToFileTime` (line 199): it fails for more than 999 ms, the file time is then what it was before, zero, which is in 1601. -/
def fileTime (seconds ms : Int) : Option Int := if ms ≤ 999 then some (seconds * 10000000 + ms * 10000) else none

/-- `duration_to_FILETIME`; `none` for the file time zero. -/
def due (now duration : Int) : Option Int := fileTime (toTimeT (when_ now duration)) (milliseconds (when_ now duration))

/-- **C27** for Windows, what holds: the due time is defined, it is never after the time that was asked for (no task is late because of it),
and it is less than one millisecond and 100 ns before it. -/
theorem c27_windows_partial {now d : Int} (hn : 0 ≤ now) (hd : 0 ≤ d) :
    ∃ t, due now d = some t ∧ t * 100 ≤ now * 100 + d ∧ now * 100 + d < t * 100 + 1000000 + 100 := by
  have h1 : d.tdiv 100 = d / 100 := Int.tdiv_eq_ediv_of_nonneg hd
  have hw : 0 ≤ now + d / 100 := by omega
  have h2 : (now + d / 100).tdiv 10000000 = (now + d / 100) / 10000000 := Int.tdiv_eq_ediv_of_nonneg hw
  have h3 : (now + d / 100).tdiv 10000 = (now + d / 100) / 10000 := Int.tdiv_eq_ediv_of_nonneg hw
  have h4 : ((now + d / 100) / 10000).tmod 1000 = ((now + d / 100) / 10000) % 1000 :=
    Int.tmod_eq_emod_of_nonneg (by omega)
  simp only [due, fileTime, toTimeT, milliseconds, when_, h1, h2, h3, h4]
  rw [if_pos (by omega)]
  exact ⟨_, rfl, by omega, by omega⟩

/-- A time and a duration with parts of a millisecond. -/
example : (0 : Int) ≤ 17000000123456789 ∧ (0 : Int) ≤ 1500250 ∧ due 17000000123456789 1500250 = some 17000000123470000 := by decide

/-- **C27** fails for Windows: the task may be called before its time, whatever the duration in whole milliseconds is. -/
theorem c27_windows_counterexample (k : Nat) : ∃ now t : Int, 0 ≤ now ∧ due now (k * 1000000) = some t ∧ t * 100 < now * 100 + k * 1000000 := by
  obtain ⟨t, ht, h1, h2⟩ := c27_windows_partial (now := 9999) (d := k * 1000000) (by omega) (by omega)
  refine ⟨9999, t, by omega, ht, ?_⟩
  have h3 : ((k : Int) * 1000000).tdiv 100 = k * 10000 := by
    rw [Int.tdiv_eq_ediv_of_nonneg (by omega)]; omega
  have hw : (0 : Int) ≤ 9999 + k * 10000 := by omega
  simp only [due, fileTime, toTimeT, milliseconds, when_, h3] at ht
  split at ht
  · simp only [Option.some.injEq] at ht
    subst ht
    rw [Int.tdiv_eq_ediv_of_nonneg hw, Int.tdiv_eq_ediv_of_nonneg hw,
      Int.tmod_eq_emod_of_nonneg (by omega)] at h1 ⊢
    omega
  · simp at ht

end Verif.WindowsTimer
