import Verif.Model.TraceCover
import Mathlib.Algebra.Order.Floor.Ring
import Mathlib.Data.Rat.Floor

/-!
# Model of the plots of a trace, trace/readtrace/{plotter,utilization}.cc

`R` is the rounding of `double` operations: each conversion, product, quotient and sum is rounded. `double` is otherwise the rational numbers.
Simplifications: `t0 ≤ t1`; no overflow of `int` or `uint64_t`; pngwriter is the list of the rectangles that are drawn.
-/

namespace Dashmm.Trace

/-- `(uint64_t)(dx * s + 0.5) + t0` with `dx = (double)(t1 - t0) / n`, plotter.cc:51, 62-63, utilization.cc:41-45. -/
def sampleAt (R : ℚ → ℚ) (t0 t1 n s : Nat) : Nat := ⌊R (R (R (R ((t1 - t0 : Nat) : ℚ) / (n : ℚ)) * (s : ℚ)) + 1 / 2)⌋.toNat + t0

/-- `(int)x`: towards zero. -/
def trunc (q : ℚ) : Int := if 0 ≤ q then ⌊q⌋ else ⌈q⌉

/-- `set_bar_height`, plotter.cc:31-37: the height of a bar and the new height of the image; `none`: the conversion of an infinity or a NaN. -/
def barHeight (R : ℚ → ℚ) (py padding : Int) (n : Nat) : Option (Int × Int) :=
  if n = 0 then none
  else
    let h := trunc (R (R (((py - padding * ((n : Int) - 1) : Int) : ℚ) / (n : ℚ)) + 1 / 2))
    some (h, h * n + padding * ((n : Int) - 1))

/-- `bar_bottom`, plotter.cc:40-42. -/
def barBottom (padding height : Int) (idx : Int) : Int := idx * (padding + height)

/-- `bar_top`, plotter.cc:45-47. -/
def barTop (padding height : Int) (idx : Int) : Int := barBottom padding height idx + height

/-- A filled rectangle of one column, with the coverage that gives its colour, plotter.cc:70-71. -/
structure Rect where
  x : Nat
  low : Int
  high : Int
  cover : ℚ
  deriving DecidableEq

/-- `worker_map` with the indices that are given to the workers, from the last to the first, plotter.cc:52-58, trace.cc:39-45, locality.cc:17-23. -/
def barMap (ws : List Wrk) : List ((Int × Int) × Nat) := ws.zipIdx.map fun x => ((x.1.loc, x.1.wid), ws.length - 1 - x.2)

/-- `(wmap[loc])[wid]`, plotter.cc:69: a new entry is zero. -/
def barOf (m : List ((Int × Int) × Nat)) (k : Int × Int) : Nat := ((m.find? fun x => decide (x.1 = k)).map Prod.snd).getD 0

/-- One column, plotter.cc:62-73; `none`: an exception or a failed assertion. -/
def plotColumn (R : ℚ → ℚ) (S : St) (seg t0 t1 px : Nat) (padding height : Int) (ix : Nat) : Option (List Rect) :=
  match window S (sampleAt R t0 t1 px ix) (sampleAt R t0 t1 px (ix + 1)) with
  | .ok W =>
    match coverage seg (sampleAt R t0 t1 px ix) (sampleAt R t0 t1 px (ix + 1)) W with
    | some C => some (C.map fun c =>
        let idx := barOf (barMap S.ws) c.1
        ⟨ix + 1, barBottom padding height idx + 1, barTop padding height idx, c.2⟩)
    | none => none
  | _ => none

/-- `Plotter::operator()`, plotter.cc:7-13, 49-78. -/
def plot (R : ℚ → ℚ) (S : St) (px : Nat) (py padding : Int) (t0 t1 seg : Nat) : Option (Int × List Rect) :=
  match barHeight R py padding S.ws.length with
  | none => none
  | some (h, py') => ((List.range px).mapM (plotColumn R S seg t0 t1 px padding h)).map fun l => (py', l.flatten)

/-- `sum_of_cover`, utilization.cc:12-26, without rounding; `none` is the failed assertion. -/
def sumOfCover (C : List ((Int × Int) × ℚ)) : Option ℚ := if C.length = 0 then none else some ((C.map Prod.snd).sum / C.length)

/-- `v[i] = x` for a `std::vector`; `none` if there is no such element. -/
def vecSet {α : Type} (v : List α) (i : Nat) (x : α) : Option (List α) := if i < v.length then some (v.set i x) else none

/-- The rows of `Utilization::operator()` before they are written to, utilization.cc:32-37: `reserve` makes no elements. -/
def emptyRows (samples : Nat) : List (List ℚ) := (List.replicate samples ([] : List ℚ)).map fun r => r

/-- One sample, utilization.cc:43-55. -/
def utilSample (R : ℚ → ℚ) (S : St) (t0 t1 samples : Nat) (segs : List Nat) (s : Nat) (row : List ℚ) : Option (List ℚ) := do
  let row ← vecSet row 0 (R (R (R ((t1 - t0 : Nat) : ℚ) / (samples : ℚ)) * ((s : ℚ) + 1 / 2)))
  match window S (sampleAt R t0 t1 samples s) (sampleAt R t0 t1 samples (s + 1)) with
  | .ok W =>
    segs.zipIdx.foldlM (fun row x => do
      let C ← coverage x.1 (sampleAt R t0 t1 samples s) (sampleAt R t0 t1 samples (s + 1)) W
      let q ← sumOfCover C
      vecSet row (x.2 + 1) q) row
  | _ => none

/-- `Utilization::operator()`, utilization.cc:30-77: the rows of the file without their sums. -/
def utilization (R : ℚ → ℚ) (S : St) (t0 t1 samples : Nat) (segs : List Nat) : Option (List (List ℚ)) :=
  (emptyRows samples).zipIdx.mapM fun x => utilSample R S t0 t1 samples segs x.2 x.1

end Dashmm.Trace
