import Verif.Props.Perm
import Verif.Props.PotMirror
import Verif.Props.Affine
import Verif.Props.Basic
import Verif.Props.Rolling
import Verif.Props.Tail
import Verif.Props.TailEst
import Verif.Props.Weighted
import Verif.Props.Density
import Verif.Props.Median
import Verif.Props.PSquare
import Verif.Props.PSquareInterp
import Verif.Props.WPSquare
import Verif.Props.CumulMedian
import Verif.Props.WTail
import Verif.Props.Pot
import Verif.Props.PotQuantile
import Verif.Props.Framework
import Verif.Props.AccSet
import Verif.Props.StdSets
import Verif.Props.Wrappers
import Verif.Props.Serial
import Verif.Props.VecStats
import Verif.Props.VecCov
import Verif.Props.Round
import Verif.Props.RoundDensity
import Verif.Props.RoundPsq
import Verif.Props.RoundTail
import Verif.Props.StatSet
import Verif.Props.FullSet
import Verif.Props.SafeSet
import Verif.Props.QuerySet
import Verif.Props.Cplx
import Verif.Props.Consistent
import Verif.Props.Monotone
import Verif.Props.ZeroWeight
import Verif.Props.Nonfinite
import Verif.Props.Memory
import Verif.Props.RoundWeighted
import Verif.Props.RoundVar
import Verif.Props.Views
import Verif.Props.Multiplicity
import Verif.Props.Modifiers
import Verif.Props.ExtWeights
import Verif.Props.VecWCov
import Verif.Props.RepoTests
import Verif.Props.RoundWPsq
import Verif.Props.RoundWDensity
import Verif.Props.NonfiniteDensity
import Verif.Props.NonfinitePsq
import Verif.Props.NonfiniteTail
import Verif.Props.NonfiniteWeighted
import Verif.Props.IntEst
import Verif.Props.RoundRolling
import Verif.Props.RoundCov
import Verif.Props.RoundWVar
import Verif.Props.RoundRollVar
import Verif.Props.RoundKurt
import Verif.Props.RoundRoot
import Verif.Props.NonfiniteRoot
import Verif.Props.RoundTailMean
import Verif.Props.Scale
import Verif.Props.ScaleTail
import Verif.Props.RoundWhole
import Verif.Props.RoundConst
import Verif.Props.MonoData
import Verif.Props.OneMore
import Verif.Props.WCumulAim
import Verif.Props.IntSamples
import Lean.Elab.Command

/-!
# Axioms

The build fails if anything declared in a module of this project, theorem or definition, depends on an axiom other
than the three standard ones.
-/

namespace Acc

open Lean Elab Command in
/-- Visit every declaration of the modules `Verif.*` and everything it mentions, and collect the axioms. -/
elab "audit_axioms" : command => do
  let env ← getEnv
  let mut todo : Array Name := #[]
  for (name, _) in env.constants.map₁.toList do
    if let some i := env.getModuleIdxFor? name then
      if (`Verif).isPrefixOf env.header.moduleNames[i.toNat]! then
        todo := todo.push name
  let own := todo.size
  let mut seen : NameSet := {}
  let mut axs : Array Name := #[]
  while !todo.isEmpty do
    let name := todo.back!
    todo := todo.pop
    if seen.contains name then continue
    seen := seen.insert name
    let some info := env.checked.get.find? name | throwError "unknown {name}"
    if let .axiomInfo _ := info then axs := axs.push name
    todo := info.getUsedConstantsAsSet.foldl (init := todo) fun l n => l.push n
  if own == 0 then throwError "nothing to audit"
  for a in axs do
    unless [``propext, ``Classical.choice, ``Quot.sound].contains a do
      throwError "unexpected axiom {a}"
  logInfo m!"{own} declarations, {seen.size} visited, axioms: {axs.toList}"

audit_axioms

end Acc
