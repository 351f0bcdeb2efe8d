import Mathlib.Analysis.SpecialFunctions.Trigonometric.Basic
import Mathlib.Analysis.SpecialFunctions.Pow.Real
/-!
# The Gauss rule of the propagating waves

`HelmholtzTable::gaussq` and `HelmholtzTable::imtql2`, src/helmholtz_table.cc:446-468, 518-637.  Exact real
arithmetic; an array is a function of the index, which counts from zero everywhere here (the code counts
`L`, `M`, `I`, `K`, `j` from one).
-/
namespace Dashmm.GaussQ

/-- `epsilon`, src/helmholtz_table.cc:532. -/
noncomputable def epsilon : ℝ := 1 / 10 ^ 14

/-- `max_iter`, src/helmholtz_table.cc:531. -/
def maxIter : ℕ := 30

/-- The three arrays of `imtql2`: diagonal, subdiagonal, first components. -/
structure QL where
  D : ℕ → ℝ
  E : ℕ → ℝ
  Z : ℕ → ℝ

/-- The test for a small subdiagonal element, src/helmholtz_table.cc:549. -/
def Small (s : QL) (m : ℕ) : Prop := |s.E m| ≤ epsilon * (|s.D m| + |s.D (m + 1)|)

open Classical in
/-- The search for a small subdiagonal element, src/helmholtz_table.cc:544-551: `M - 1`. -/
noncomputable def findM (N l : ℕ) (s : QL) : ℕ :=
  ((List.range' l (N - 1 - l)).find? fun m => decide (Small s m)).getD (N - 1)

/-- The variables of the loop over `II`. -/
structure Chase extends QL where
  G : ℝ
  S : ℝ
  C : ℝ
  P : ℝ

/-- `E[I]`, `C`, `S` from `F` and `G`, src/helmholtz_table.cc:584-596. -/
noncomputable def rot (F G : ℝ) : ℝ × ℝ × ℝ :=
  if |F| < |G| then
    let S := F / G
    let R := √(S * S + 1)
    let C := 1.0 / R
    (G * R, C, S * C)
  else
    let C := G / F
    let R := √(C * C + 1)
    let S := 1.0 / R
    (F * R, C * S, S)

/-- One turn of the loop over `II`, src/helmholtz_table.cc:579-608; `i` is `I - 1`. -/
noncomputable def chase (t : Chase) (i : ℕ) : Chase :=
  let F := t.S * t.E i
  let B := t.C * t.E i
  let r := rot F t.G
  let C := r.2.1
  let S := r.2.2
  let E := Function.update t.E (i + 1) r.1
  let G := t.D (i + 1) - t.P
  let R := (t.D i - G) * S + 2 * C * B
  let P := S * R
  let D := Function.update t.D (i + 1) (G + P)
  let F := t.Z (i + 1)
  let Z := Function.update (Function.update t.Z (i + 1) (S * t.Z i + C * F)) i (C * t.Z i - S * F)
  { D := D, E := E, Z := Z, G := C * R - B, S := S, C := C, P := P }

/-- The shift, src/helmholtz_table.cc:566-572. -/
noncomputable def shift (s : QL) (l m : ℕ) : ℝ :=
  let P := s.D l
  let G := (s.D (l + 1) - P) / (2 * s.E l)
  let R := √(G * G + 1)
  if G ≥ 0 then s.D m - P + s.E l / (G + |R|) else s.D m - P + s.E l / (G - |R|)

/-- One turn of the `while` loop after the tests, src/helmholtz_table.cc:565-613. -/
noncomputable def sweep (s : QL) (l m : ℕ) : QL :=
  let t := (List.range' l (m - l)).reverse.foldl chase
    { D := s.D, E := s.E, Z := s.Z, G := shift s l m, S := 1.0, C := 1.0, P := 0.0 }
  { D := Function.update t.D l (t.D l - t.P)
    E := Function.update (Function.update t.E l t.G) m 0.0
    Z := t.Z }

/-- The `while` loop for one `L`, src/helmholtz_table.cc:540-614, with `j` turns left; `none`: 30 turns were not
enough (the value returned is then not zero). -/
noncomputable def qlLoop (N l : ℕ) : ℕ → QL → Option QL
  | j, s =>
    let m := findM N l s
    if m = l then some s
    else match j with
      | 0 => none
      | j + 1 => qlLoop N l j (sweep s l m)

/-- `K` and `P` of the sort, src/helmholtz_table.cc:618-627: the first of the least elements from `i` on. -/
noncomputable def leastFrom (N i : ℕ) (D : ℕ → ℝ) : ℕ × ℝ :=
  (List.range' (i + 1) (N - (i + 1))).foldl (fun k j => if D j ≥ k.2 then k else (j, D j)) (i, D i)

/-- One turn of the sort, src/helmholtz_table.cc:617-636. -/
noncomputable def sortStep (N : ℕ) (s : QL) (i : ℕ) : QL :=
  let k := leastFrom N i s.D
  if k.1 = i then s
  else
    { D := Function.update (Function.update s.D k.1 (s.D i)) i k.2
      E := s.E
      Z := Function.update (Function.update s.Z i (s.Z k.1)) k.1 (s.Z i) }

/-- `imtql2`, src/helmholtz_table.cc:518-637; `none`: the value returned is not zero. -/
noncomputable def imtql2 (N : ℕ) (s : QL) : Option QL :=
  let s := { s with Z := Function.update s.Z 0 1 }
  if N = 1 then some s
  else
    ((List.range N).foldlM (fun s l => qlLoop N l maxIter s) s).map fun s =>
      (List.range (N - 1)).foldl (sortStep N) s

/-- `B`, src/helmholtz_table.cc:450-454; the element `N - 1` is not initialised: `junk`. -/
noncomputable def jacobiE (N : ℕ) (junk : ℝ) (k : ℕ) : ℝ :=
  if k + 1 < N then ((k + 1 : ℕ) : ℝ) / √(4 * ((k + 1 : ℕ) : ℝ) * ((k + 1 : ℕ) : ℝ) - 1) else junk

/-- `gaussq` as far as src/helmholtz_table.cc:459: the rule for the interval from -1 to 1. `x_p_` and `w_p_` are
zero before (src/helmholtz_table.cc:56-57); `none`: the assertion fails. -/
noncomputable def rule (N : ℕ) (junk : ℝ) : Option ((ℕ → ℝ) × (ℕ → ℝ)) :=
  (imtql2 N { D := fun _ => 0, E := jacobiE N junk, Z := fun _ => 0 }).map fun s =>
    (s.D, fun i => 2.0 * s.Z i * s.Z i)

/-- `gaussq`, src/helmholtz_table.cc:446-468: the angles and weights of the waves. -/
noncomputable def gaussq (N : ℕ) (junk : ℝ) : Option ((ℕ → ℝ) × (ℕ → ℝ)) :=
  (rule N junk).map fun r =>
    let x := fun i => (r.1 i + 1) / 4 * Real.pi
    (x, fun i => r.2 i * Real.sin (x i) * Real.pi / 4)

end Dashmm.GaussQ
