import Verif.Model.PlaneTable
import Verif.Model.Kernels
import Mathlib.Analysis.SpecialFunctions.Trigonometric.Basic
import Mathlib.Analysis.SpecialFunctions.Sqrt

/-!
# Plane waves of the Yukawa and Helmholtz kernels: the tables of each level, and the arrays

The constructors of `YukawaTable` (src/yukawa_table.cc:29-278) and `HelmholtzTable` (src/helmholtz_table.cc:26-441) as
far as the exponential expansions go; `yuk_e_to_e`, `yuk_i_to_i`, the first part of `yuk_i_to_l` (src/yukawa.cc) and
`e2e_e`, `e2e_p`, `I_to_I`, the first part of `I_to_L` of Helmholtz (include/builtins/helmholtz.h); `add_expansion`.
Arithmetic is over the reals. A table row of a level (`&m_[s_ * lev]`) is a function, of which the operators read the
entries below `s`. Arrays are lists, and a read or write outside of an array makes the result `none`.
-/

namespace Dashmm.Waves

open Complex (I)
open Dashmm.Lap

/-! ### Digits -/

/-- A table with no quadrature nodes. -/
def emptyTable : PlaneTable := ⟨0, 0, [], [], [], [], [], []⟩

/-- `p_table[n_digits]`, `s_table[n_digits]` and the `switch`, src/yukawa_table.cc:31-181, and likewise for the evanescent
waves src/helmholtz_table.cc:27-251: `x_`, `w_`, `f_`, `m0` are the literals of `lambda_`, `weight_`, `f_`, `m_` of
`LaplaceTable` for the same digits (compared mechanically). `none`: reads outside of the array `p_table`. -/
def waveBase (nDigits : ℤ) : Option PlaneTable :=
  if nDigits < 0 ∨ 15 ≤ nDigits then none
  else if nDigits = 3 then some table3
  else if nDigits = 6 then some table6
  else some emptyTable

/-- `s_p_`, src/helmholtz_table.cc:29, 37. -/
def propNodes (nDigits : ℤ) : ℕ := if nDigits = 3 then 10 else if nDigits = 6 then 16 else 0

/-- `f_p_`, src/helmholtz_table.cc:114-123, 216-231. -/
def propFreq (nDigits : ℤ) : ℕ := if nDigits = 3 then 10 else 19

/-! ### How many angles -/

/-- The loop over `k`, src/yukawa_table.cc:194-201, src/helmholtz_table.cc:290-297: `index` and `max_mk`. -/
noncomputable def scan (x : ℕ → ℝ) (m0 : ℕ → ℕ) (t2 : ℝ) : List ℕ → ℕ × ℕ → ℕ × ℕ
  | [], st => st
  | k :: ks, (index, mx) =>
    if x k ≥ t2 then (k, mx) else scan x m0 t2 ks (index, if mx ≥ m0 k then mx else m0 k)

/-- The body of the loop over `j` without `C1`, src/yukawa_table.cc:189-203, src/helmholtz_table.cc:285-298. -/
noncomputable def angles (T : PlaneTable) (t2 : ℝ) (j : ℕ) : ℕ :=
  let r := scan T.rule.lam T.rule.m t2 ((List.range T.s).drop (j + 1)) (j, T.rule.m j)
  if r.2 ≥ T.rule.m r.1 then r.2 else T.rule.m r.1

/-- `sm[0] = 0; sm[j] = sm[j - 1] + c[j - 1]`, src/yukawa_table.cc:205-210, src/helmholtz_table.cc:307-320. -/
def running (c : ℕ → ℕ) : ℕ → ℕ
  | 0 => 0
  | j + 1 => running c j + c j

/-- What a table holds for the waves of one level. -/
structure Level where
  /-- quadrature nodes -/
  s : ℕ
  /-- angles of a node -/
  m : ℕ → ℕ
  sm : ℕ → ℕ
  f : ℕ → ℕ
  smf : ℕ → ℕ
  /-- entries of an expansion -/
  nexp : ℕ
  ealphaj : List ℂ
  xs : List ℂ
  ys : List ℂ
  zs : List ℂ

/-- `dcomplex_t{cos(arg * d), sin(arg * d)}`. -/
noncomputable def phase (arg d : ℝ) : ℂ := (Real.cos (arg * d) : ℂ) + (Real.sin (arg * d) : ℂ) * I

/-- Half the angles, src/yukawa_table.cc:220-228, 238-247; all of them for propagating waves,
src/helmholtz_table.cc:347-356. `g k alpha_kj` are the entries for one angle; `j` of the code is `j + 1` here. -/
noncomputable def fill (s : ℕ) (m cnt : ℕ → ℕ) (g : ℕ → ℝ → List ℂ) : List ℂ :=
  (List.range s).flatMap fun k => (List.range (cnt k)).flatMap fun j => g k (((j + 1 : ℕ) : ℝ) * (2 * Real.pi / m k))

/-- `e^{i m alpha_kj}`, `1 <= m <= f[k]`, src/yukawa_table.cc:224-227. -/
noncomputable def freqs (f : ℕ) (alpha : ℝ) : List ℂ := (List.range f).map fun i => phase ((i + 1 : ℕ) : ℝ) alpha

/-- The seven shifts `d = -3 .. 3`, src/yukawa_table.cc:242-244. -/
noncomputable def seven (arg : ℝ) : List ℂ := (List.range 7).map fun i => phase arg (((i : ℤ) - 3 : ℤ) : ℝ)

/-- The table of one level from the numbers of angles, for waves with half of the angles stored: `kappa k` is the
wave number across the direction of the wave, `decay k` the decay along it. src/yukawa_table.cc:205-275,
src/helmholtz_table.cc:307-341, 364-398. (The code computes `m[j] * f[j] / 2` for `smf`.) -/
noncomputable def halfLevel (T : PlaneTable) (m : ℕ → ℕ) (kappa decay : ℕ → ℝ) : Level where
  s := T.s
  m := m
  sm := running fun k => m k / 2
  f := T.rule.f
  smf := running fun k => m k * T.rule.f k / 2
  nexp := running (fun k => m k / 2) T.s
  ealphaj := fill T.s m (fun k => m k / 2) fun k alpha => freqs (T.rule.f k) alpha
  xs := fill T.s m (fun k => m k / 2) fun k alpha => seven (kappa k * Real.cos alpha)
  ys := fill T.s m (fun k => m k / 2) fun k alpha => seven (kappa k * Real.sin alpha)
  zs := (List.range T.s).flatMap fun k => (List.range 4).map fun (i : ℕ) => ((Real.exp (-decay k * i) : ℝ) : ℂ)

/-! ### Yukawa -/

/-- `ld = lambda_ * size_ / pow(2, lev)`, src/yukawa_table.cc:184, 235; `wd`, src/helmholtz_table.cc:254, 366. -/
noncomputable def unitsAt (a size : ℝ) (lev : ℕ) : ℝ := a * size / 2 ^ lev

/-- `t2` and `sqrt(x_[k] * x_[k] + 2 * x_[k] * ld)`, src/yukawa_table.cc:191, 241. -/
noncomputable def yukKappa (T : PlaneTable) (ld : ℝ) (k : ℕ) : ℝ :=
  √(T.rule.lam k * T.rule.lam k + 2 * T.rule.lam k * ld)

/-- The members of `YukawaTable` for one level, src/yukawa_table.cc:183-275. -/
noncomputable def yukLevel (T : PlaneTable) (lambda size : ℝ) (lev : ℕ) : Level :=
  let ld := unitsAt lambda size lev
  halfLevel T (fun j => angles T (yukKappa T ld j) j) (yukKappa T ld) fun k => T.rule.lam k + ld

/-! ### Helmholtz -/

/-- `C1`, `C2`, src/helmholtz_table.cc:255-274: the first test reads `wd`, the others read `omega`. `none`: the program
prints "Exceeds low-frequency regime" and exits. -/
noncomputable def extra (omega wd : ℝ) : Option (ℕ × ℕ) :=
  if wd ≤ 0.125 then some (0, 0)
  else if omega ≤ 0.25 then some (6, 4)
  else if omega ≤ 6 then some (20, 8)
  else if omega ≤ 8 then some (18, 10)
  else if omega ≤ 10 then some (22, 12)
  else none

/-- `t2` and `sqrt(x_e_[k] * x_e_[k] + wd * wd)`, src/helmholtz_table.cc:287, 376. -/
noncomputable def helmKappa (T : PlaneTable) (wd : ℝ) (k : ℕ) : ℝ := √(T.rule.lam k * T.rule.lam k + wd * wd)

/-- `m_e`, src/helmholtz_table.cc:284-303. -/
noncomputable def helmAngles (T : PlaneTable) (wd : ℝ) (C1 : ℕ) (j : ℕ) : ℕ :=
  if wd > 1 / 10000 then angles T (helmKappa T wd j) j + C1 else T.rule.m j

/-- The evanescent waves of one level, src/helmholtz_table.cc:253-399. -/
noncomputable def evanLevel (T : PlaneTable) (wd : ℝ) (C1 : ℕ) : Level :=
  halfLevel T (helmAngles T wd C1) (helmKappa T wd) T.rule.lam

/-- The propagating waves of one level, src/helmholtz_table.cc:305-306, 315-322, 343-357, 400-439. `x k` are the nodes
found by `gaussq` (angles between zero and `π / 2`; see Model/GaussQ), a parameter here. -/
noncomputable def propLevel (s f : ℕ) (x : ℕ → ℝ) (wd : ℝ) (C2 : ℕ) : Level where
  s := s
  m := fun _ => 16 + C2
  sm := running fun _ => 16 + C2
  f := fun _ => f
  smf := running fun _ => (16 + C2) * f
  nexp := running (fun _ => 16 + C2) s
  ealphaj := fill s (fun _ => 16 + C2) (fun _ => 16 + C2) fun _ alpha => freqs f alpha
  xs := fill s (fun _ => 16 + C2) (fun _ => 16 + C2) fun k alpha => seven (wd * Real.sin (x k) * Real.cos alpha)
  ys := fill s (fun _ => 16 + C2) (fun _ => 16 + C2) fun k alpha => seven (wd * Real.sin (x k) * Real.sin alpha)
  zs := (List.range s).flatMap fun k => seven (wd * Real.cos (x k))

/-- The levels of a `HelmholtzTable`: evanescent and propagating waves; `none` if the program exits.
src/helmholtz_table.cc:253-440: the loop over the levels. -/
noncomputable def helmLevels (nDigits : ℤ) (T : PlaneTable) (x : ℕ → ℝ) (omega size : ℝ) : Option (List (Level × Level)) :=
  (List.range (maxlev + 1)).mapM fun lev => do
    let wd := unitsAt omega size lev
    let C ← extra omega wd
    some (evanLevel T wd C.1, propLevel (propNodes nDigits) (propFreq nDigits) x wd C.2)

/-- The levels of a `YukawaTable`, src/yukawa_table.cc:183-275. -/
noncomputable def yukLevels (T : PlaneTable) (lambda size : ℝ) : List Level :=
  (List.range (maxlev + 1)).map (yukLevel T lambda size)

/-! ### Arrays of waves -/

/-- `M[i] += v`. -/
noncomputable def addAt (M : List ℂ) (i : ℕ) (v : ℂ) : Option (List ℂ) := (M[i]?).map fun m => M.set i (m + v)

/-- The loops over `k` and `j`. -/
def entries (s : ℕ) (cnt : ℕ → ℕ) : List (ℕ × ℕ) := (List.range s).flatMap fun k => (List.range (cnt k)).map fun j => (k, j)

open PlaneTable (at?)

/-- `yuk_e_to_e(M, W, x, y, z, scale)`, src/yukawa.cc:881-901, with the table of the level of `scale`. -/
noncomputable def yukEToE (L : Level) (M W : List ℂ) (x y z : ℤ) : Option (List ℂ) :=
  (entries L.s fun k => L.m k / 2).zipIdx.foldlM (fun M (q : (ℕ × ℕ) × ℕ) => do
    let factorZ ← at? L.zs (4 * q.1.1 + z)
    let idx : ℤ := ((L.sm q.1.1 + q.1.2 : ℕ) : ℤ) * 7 + 3
    let factorX ← at? L.xs (idx + x)
    let factorY ← at? L.ys (idx + y)
    let w ← W[q.2]?
    addAt M q.2 (w * factorZ * factorY * factorX)) M

/-- `e2e_e(M, W, x, y, z, scale)`, include/builtins/helmholtz.h:1220-1239. -/
noncomputable def evanEToE (L : Level) (M W : List ℂ) (x y z : ℤ) : Option (List ℂ) :=
  (entries L.s fun k => L.m k / 2).zipIdx.foldlM (fun M (q : (ℕ × ℕ) × ℕ) => do
    let factorZ ← at? L.zs (4 * q.1.1 + z)
    let idx : ℤ := ((L.sm q.1.1 + q.1.2 : ℕ) : ℤ) * 7 + 3
    let factorX ← at? L.xs (idx + x)
    let factorY ← at? L.ys (idx + y)
    let w ← W[q.2]?
    addAt M q.2 (w * factorZ * (factorX * factorY))) M

/-- `e2e_p(M, W, x, y, z, scale, conjugate)`, include/builtins/helmholtz.h:1188-1218. -/
noncomputable def propEToE (L : Level) (conj : Bool) (M W : List ℂ) (x y z : ℤ) : Option (List ℂ) :=
  (entries L.s L.m).foldlM (fun M (q : ℕ × ℕ) => do
    let factorZ ← at? L.zs (7 * q.1 + 3 + z)
    let idx : ℤ := ((L.sm q.1 + q.2 : ℕ) : ℤ) * 7 + 3
    let factorX ← at? L.xs (idx + x)
    let factorY ← at? L.ys (idx + y)
    let w ← W[L.sm q.1 + q.2]?
    let w := if conj then starRingEnd ℂ w else w
    addAt M (L.sm q.1 + q.2) (w * factorZ * (factorX * factorY))) M

/-- One view of `add_expansion`, include/builtins/yukawa.h:282-296, include/builtins/helmholtz.h:1044-1059:
`lhs[j] += rhs[j]` for the size of the right-hand side. -/
noncomputable def addView (lhs rhs : List ℂ) : Option (List ℂ) :=
  rhs.zipIdx.foldlM (fun M (q : ℂ × ℕ) => addAt M q.2 q.1) lhs

/-- How one array is added, shifted, to another one. -/
abbrev Shift := List ℂ → List ℂ → ℤ → ℤ → ℤ → Option (List ℂ)

/-- The views `I_to_I` makes, src/yukawa.cc:625-690: `nexp` of the level of the source; the views of the source by their
number. For Helmholtz (include/builtins/helmholtz.h:652-752) there are two such families: evanescent waves with the
numbers of the views of Yukawa, and propagating waves, see `propIToI`. -/
noncomputable def iToI (shift : Shift) (nexp : ℕ) (dx dy dz : ℤ) (S : ℕ → List ℂ) : Option (List (ℕ × List ℂ)) := do
  let tags ← mergeTags dx dy dz
  tags.mapM fun tag => do
    let t := tagShift tag dx dy dz
    let a ← shift (List.replicate nexp 0) (S (tagView tag)) t.1 t.2.1 t.2.2
    some (tag, a)

/-- The propagating part of `I_to_I` of Helmholtz, include/builtins/helmholtz.h:700-735: one view for the two directions
of an axis (`Prop_x`, `Prop_y`, `Prop_z`: 0, 1, 2), conjugated for the negative one. -/
noncomputable def propIToI (L : Level) (dx dy dz : ℤ) (S : ℕ → List ℂ) : Option (List (ℕ × List ℂ)) := do
  let tags ← mergeTags dx dy dz
  tags.mapM fun tag => do
    let t := tagShift tag dx dy dz
    let a ← propEToE L (tagView tag % 2 == 1) (List.replicate L.nexp 0) (S (tagView tag / 2)) t.1 t.2.1 t.2.2
    some (tag, a)

/-- The 28 views of a target box, of `nexp` zeros each, include/builtins/yukawa.h:110-116, helmholtz.h:89-101 (one
family). -/
def freshViews (nexp : ℕ) : ℕ → List ℂ := fun _ => List.replicate nexp 0

/-- `add_expansion` of the views one `I_to_I` made, to the 28 views of the target. -/
noncomputable def addViews (E : ℕ → List ℂ) (vs : List (ℕ × List ℂ)) : Option (ℕ → List ℂ) :=
  vs.foldlM (fun E q => do
    let a ← addView (E q.1) q.2
    some (Function.update E q.1 a)) E

/-- The array of a direction of a child (`S_mz` ... `S_px`, `sEvan_mz` ..., `sProp_mz` ...) when `I_to_L` has made its calls
of `yuk_e_to_e`, `e2e_e`, `e2e_p`: src/yukawa.cc:730-868, include/builtins/helmholtz.h:782-1031 (both have the calls of
`lap_i_to_l`, compared mechanically). -/
noncomputable def slotArr (shift : Shift) (nexp : ℕ) (toChild : ℕ) (E : ℕ → List ℂ) (slot : ℕ) : Option (List ℂ) :=
  ((childTakes toChild).filter fun t => t.slot = slot).foldlM (fun S t => shift S (E t.tag) t.x t.y t.z)
    (List.replicate nexp 0)

end Dashmm.Waves
