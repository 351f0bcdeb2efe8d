import Verif.Model.Combine
/-!
# What combining files of test points should do
-/
namespace Dashmm.Combine

variable {S P V F : Type}

/-- Does the file claim to have exact potentials for the kernel? -/
def Header.has (h : Header F) : Kernel → Bool
  | .laplace => h.hasLaplace
  | .yukawa => h.hasYukawa
  | .helmholtz => h.hasHelmholtz
  | .other => false

/-- The exact potential of a target for a kernel. -/
def FileTarget.exact (t : FileTarget P V) : Kernel → V
  | .laplace => t.phiLaplace
  | .yukawa => t.phiYukawa
  | .helmholtz => t.phiHelmholtz
  | .other => t.phi

/-- The counts in the header are the numbers of records. -/
def Combiner.WF (c : Combiner S P V F) : Prop :=
  c.head.nSources.toInt = c.sources.length ∧ c.head.nTargets.toInt = c.targets.length

/-- The first kernel, in the order Laplace, Yukawa, Helmholtz, of which a file has data. -/
def Header.first (h : Header F) (k : Kernel) : Prop :=
  match k with
  | .laplace => h.hasLaplace = true
  | .yukawa => h.hasLaplace = false ∧ h.hasYukawa = true
  | .helmholtz => h.hasLaplace = false ∧ h.hasYukawa = false ∧ h.hasHelmholtz = true
  | .other => h.hasLaplace = false ∧ h.hasYukawa = false ∧ h.hasHelmholtz = false

/-- `r` is `a` with the data of kernel `k` taken from `b`, target by target, and nothing else changed. -/
structure Combined (k : Kernel) (a b r : Combiner S P V F) : Prop where
  sources : r.sources = a.sources
  counts : r.head.nSources = a.head.nSources ∧ r.head.nTargets = a.head.nTargets
  rest : r.head.refinementLimit = a.head.refinementLimit ∧ r.head.yukawaParam = a.head.yukawaParam ∧
    r.head.helmholtzParam = a.head.helmholtzParam
  flags : ∀ k', r.head.has k' = (a.head.has k' || (decide (k' = k) && b.head.has k'))
  length : r.targets.length = a.targets.length
  targets : ∀ i (hr : i < r.targets.length) (ha : i < a.targets.length) (hb : i < b.targets.length),
    r.targets[i].position = a.targets[i].position ∧ r.targets[i].index = a.targets[i].index ∧
    r.targets[i].phi = a.targets[i].phi ∧
    ∀ k' ≠ Kernel.other, r.targets[i].exact k' =
      if k' = k then b.targets[i].exact k' else a.targets[i].exact k'

end Dashmm.Combine
