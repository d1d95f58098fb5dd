/-!
# Numbers with a prefix for their size

Models `to_si_prefix` of `blocks/testing/include/gnuradio-4.0/testing/PerformanceMonitor.hpp`, with exact numbers in place of `long double`.
The text is the number, its digits after the point and the place of its prefix in the table.
-/

namespace Verif.Si

/-- `si_prefixes` — PerformanceMonitor.hpp:23 -/
def prefixes : List Char := ['q', 'r', 'y', 'z', 'a', 'f', 'p', 'n', 'u', 'm', ' ', 'k', 'M', 'G', 'T', 'P', 'E', 'Z', 'Y', 'R', 'Q']

/-- The loop for large numbers, with how often it can still run: `exponent < si_prefixes.size()` — PerformanceMonitor.hpp:31-34 -/
def up : Nat → Rat → Nat → Rat × Nat
  | 0, v, e => (v, e)
  | n + 1, v, e => if 1000 ≤ v then up n (v / 1000) (e + 1) else (v, e)

/-- The loop for small numbers, while the exponent is above 0 — PerformanceMonitor.hpp:35-38 -/
def down : Rat → Nat → Rat × Nat
  | v, 0 => (v, 0)
  | v, e + 1 => if v < 1 then down (v * 1000) e else (v, e + 1)

/-- Number and exponent — PerformanceMonitor.hpp:27-38 -/
def scale (v : Rat) : Rat × Nat :=
  if v = 0 then (v, 10)
  else
    let r := up (prefixes.length - 10) v 10
    down r.1 r.2

/-- The digits after the point — PerformanceMonitor.hpp:39-53 -/
def digits (sig : Nat) (v : Rat) (e : Nat) : Nat :=
  if sig = 0 ∧ e > 10 then
    if v < 10 then 2 else if v < 100 then 1 else sig
  else if sig = 1 ∧ 100 ≤ v then sig - 1
  else if sig ≥ 2 then
    if 100 ≤ v then sig - 2 else if 10 ≤ v then sig - 1 else sig
  else sig

/-- `si_prefixes[exponent]`: `none` is a read outside of the table — PerformanceMonitor.hpp:55 -/
def prefixOf (v : Rat) : Option Char := prefixes[(scale v).2]?

end Verif.Si
